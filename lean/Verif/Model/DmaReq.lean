import Verif.Model.Index

/-!
# DMA request descriptors (thread/axim.py:1640-1708)

`pack_read_req`/`pack_write_req` concatenate five fields into the word that is queued in the request FIFO,
`unpack_read_req`/`unpack_write_req` slice it again.
-/

namespace Dma

open Vlog

/-- The five fields of a request (thread/axim.py:1640 and 1675). -/
structure Fields (α : Type) where
  opSel : α
  addr : α
  stride : α
  size : α
  blocksize : α
  deriving DecidableEq, Repr

/-- The wires the fields are assigned to and read from (thread/axim.py:1641-1645, 1663-1667, 1676-1680 and
    1698-1702): unsigned, with these widths. -/
def fieldTy (ow aw : Nat) : Fields Ty :=
  ⟨⟨ow, false⟩, ⟨aw, false⟩, ⟨aw, false⟩, ⟨aw + 1, false⟩, ⟨aw, false⟩⟩

/-- The packed wire (thread/axim.py:1651-1652 and 1686-1687); also the width of the FIFO that carries it
    (thread/axim.py:91 and 182). -/
def packedTy (ow aw : Nat) : Ty := ⟨ow + aw * 4 + 1, false⟩

/-- The assignments of the arguments to the field wires (thread/axim.py:1646-1650 and 1681-1685). -/
def wires (ρ : String → Int) (ow aw : Nat) (e : Fields VExpr) : Fields Int :=
  let t := fieldTy ow aw
  ⟨e.opSel.assign ρ t.opSel, e.addr.assign ρ t.addr, e.stride.assign ρ t.stride, e.size.assign ρ t.size,
   e.blocksize.assign ρ t.blocksize⟩

/-- The values of the field wires by name (thread/axim.py:1641-1645 and 1676-1680). -/
def wireEnv (f : Fields Int) : String → Int := fun x =>
  if x = "op_sel" then f.opSel else if x = "local_addr" then f.addr
  else if x = "local_stride" then f.stride else if x = "local_size" then f.size else f.blocksize

/-- `Cat(_op_sel, _local_addr, _local_stride, _local_size, _local_blocksize)` (thread/axim.py:1653-1654 and
    1688-1689). -/
def packExpr (ow aw : Nat) : Option VExpr :=
  let t := fieldTy ow aw
  Index.catList [.var t.opSel "op_sel", .var t.addr "local_addr", .var t.stride "local_stride",
    .var t.size "local_size", .var t.blocksize "local_blocksize"]

/-- `pack_read_req` (thread/axim.py:1640-1655) and `pack_write_req` (1675-1690): the value of the packed
    wire. -/
def pack (ρ : String → Int) (ow aw : Nat) (e : Fields VExpr) : Option Int :=
  (packExpr ow aw).map (·.assign (wireEnv (wires ρ ow aw e)) (packedTy ow aw))

/-- One slice `v[lo:hi]` assigned to a wire of type `t` (thread/axim.py:1658-1662 with 1668-1672 and
    1693-1697 with 1703-1707). -/
def field (ow aw : Nat) (v : Int) (t : Ty) (lo hi : Nat) : Option Int :=
  ((Index.getSlice (packedTy ow aw).width (some lo) (some hi) none).expr (packedTy ow aw) "v").map
    (·.assign (fun _ => v) t)

/-- `unpack_read_req` (thread/axim.py:1657-1673) and `unpack_write_req` (1692-1708) of a packed word of the
    FIFO width; `none` if one of the slices is not legal Verilog. -/
def unpack (ow aw : Nat) (v : Int) : Option (Fields Int) :=
  let t := fieldTy ow aw
  (field ow aw v t.opSel (aw * 4 + 1) (aw * 4 + 1 + ow)).bind fun o =>
  (field ow aw v t.addr (aw * 3 + 1) (aw * 3 + 1 + aw)).bind fun a =>
  (field ow aw v t.stride (aw * 2 + 1) (aw * 2 + 1 + aw)).bind fun s =>
  (field ow aw v t.size aw (aw * 2 + 1)).bind fun n =>
  (field ow aw v t.blocksize 0 aw).map fun b => ⟨o, a, s, n, b⟩

end Dma
