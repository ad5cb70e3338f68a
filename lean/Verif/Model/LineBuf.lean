import Verif.Model.Vlog
import Mathlib.Data.Nat.Log

/-!
# Model of the stream operator `LineBuffer` (stream/stypes.py:4469-4726)

An array of registers (the window) of the given shape, which are connected along the first dimension, and for every other
dimension RAMs that delay what leaves the registers before it enters the next line.  Time is counted in clock cycles.  The
arguments of the operator are those of the item in the stage of the buffer.

Not modelled: the scheduler, reset in the middle of a run, streams without `oready` (`senable` is `None`), the addresses of a
RAM with one word, the check of the argument types.  The width of the data matters only for the registers `head` and `tail`;
words are of any type.
-/

namespace LineBuf

open Vlog

/-- The parameters: `shape`, `memlens`, `head_initvals` and `tail_initvals` by dimension (from 1, stypes.py:4663-4664),
    the type of `data` (stypes.py:4544-4546), and whether `rotate_conds` is given. -/
structure Cfg where
  shape : List ℕ
  memlen : ℕ → ℕ
  hinit : ℕ → ℤ
  tinit : ℕ → ℤ
  ty : Ty
  rotated : Bool

/-- `n_dim` (stypes.py:4522). -/
def Cfg.n (c : Cfg) : ℕ := c.shape.length

/-- `addrwidth` of the RAMs of a dimension (stypes.py:4692). -/
def Cfg.aw (c : Cfg) (d : ℕ) : ℕ := Nat.clog 2 (c.memlen d)

/-- The wires in one cycle: `senable`, `svalid`, and the arguments: the data, the value of `shift_cond`, and whether each of
    the `rotate_conds` (by dimension, from 1) is not zero (stypes.py:4536-4541, 4582-4598). -/
structure In (α : Type) where
  en : Bool := true
  valid : Bool := true
  data : α
  shift : ℕ := 1
  rot : ℕ → Bool := fun _ => false

/-- The registers: the window (stypes.py:4565-4568), the registers of `seq.Prev` for the data, `shift_cond`, `rotate_conds` and
    `tail` (4584-4594, 4676), `head` and `tail` (4665-4668), the RAMs and the registers of their read ports (4696-4698) by
    dimension and index. -/
structure St (α : Type) where
  win : List ℕ → α
  src : α
  sh : ℕ
  ro : ℕ → Bool
  ptail : ℕ → ℤ
  head : ℕ → ℤ
  tail : ℕ → ℤ
  mem : ℕ → List ℕ → ℕ → α
  rd : ℕ → List ℕ → α

/-- Reset values (stypes.py:4568, 4666, 4668; seq.py:178); the RAMs hold some words. -/
def St.init {α : Type} (z : α) (c : Cfg) (m : ℕ → List ℕ → ℕ → α) (r : ℕ → List ℕ → α) : St α where
  win _ := z
  src := z
  sh := 0
  ro _ := false
  ptail _ := 0
  head d := c.ty.wrap (c.hinit d)
  tail d := c.ty.wrap (c.tinit d)
  mem := m
  rd := r

/-- `increment_index` from its second component on (stypes.py:4600-4614). -/
def incr : List ℕ → List ℕ → List ℕ
  | s :: ss, i :: is => if i + 1 = s then 0 :: incr ss is else (i + 1) :: is
  | _, is => is

/-- `find_first_false` of `is_dim_edge` (stypes.py:4618, 4628-4630), the number of dimensions if there is none. -/
def firstFalse : List ℕ → List ℕ → ℕ
  | s :: ss, i :: is => if i + 1 = s then firstFalse ss is + 1 else 0
  | _, _ => 0

/-- `shift_mem_dim` and the input of a register at the edge of the first dimension for a shift (stypes.py:4622-4634). -/
def shiftIn {α : Type} (c : Cfg) (s : St α) (idx : List ℕ) : α :=
  let f := firstFalse c.shape idx
  if f = c.n then s.src
  else s.rd f ((idx.headD 0 :: incr c.shape.tail idx.tail).drop f)

/-- The multiplexers for the rotations by `k` dimensions, from 1 (stypes.py:4636-4650): a rotation by a dimension above
    `shift_mem_dim` has the input of a shift. -/
def muxes {α : Type} (c : Cfg) (s : St α) (idx : List ℕ) : ℕ → α
  | 0 => shiftIn c s idx
  | k + 1 =>
    if k + 1 ≤ firstFalse c.shape idx then
      (if s.ro (k + 1) then s.rd (k + 1) (idx.drop (k + 1)) else muxes c s idx k)
    else muxes c s idx k

/-- `newdata` of a register of the window (stypes.py:4617-4655). -/
def newdata {α : Type} (c : Cfg) (s : St α) (idx : List ℕ) : α :=
  if idx.headD 0 + 1 = c.shape.headD 0 then muxes c s idx (c.n - 1)
  else s.win ((idx.headD 0 + 1) :: idx.tail)

/-- Whether one of the conditions for the rotation by dimension `d` or a higher one holds (`rotate_conds[d - 1:]`,
    stypes.py:4597, 4686). -/
def anyRot (n : ℕ) (ro : ℕ → Bool) (d : ℕ) : Bool := (List.range n).any fun r => decide (d ≤ r) && ro r

/-- The conditions for the rotations, none if `rotate_conds` is not given (stypes.py:4588-4598). -/
def In.rots {α : Type} (c : Cfg) (i : In α) : ℕ → Bool := if c.rotated then i.rot else fun _ => false

/-- `delayed_enable` (stypes.py:4590, 4595). -/
def enable {α : Type} (c : Cfg) (s : St α) : Bool := decide (s.sh ≠ 0) || anyRot c.n s.ro 1

/-- `head_tail_enable` (stypes.py:4592, 4597-4598). -/
def htEnable {α : Type} (c : Cfg) (i : In α) (d : ℕ) : Bool := decide (i.shift ≠ 0) || anyRot c.n (i.rots c) d

/-- `wenable` of the RAMs of a dimension (stypes.py:4682-4686, 4711), which is not combined with `senable`: a wire of one bit, so
    without `rotate_conds` only the lowest bit of `shift_cond` counts. -/
def wenable {α : Type} (c : Cfg) (s : St α) (d : ℕ) : Bool :=
  if c.rotated then decide (s.sh ≠ 0) || anyRot c.n s.ro d else decide (s.sh % 2 = 1)

/-- `next_head`, `next_tail` (stypes.py:4669-4670), in a register of the type of the data (4665-4668). -/
def next (c : Cfg) (d : ℕ) (h : ℤ) : ℤ :=
  c.ty.wrap (if h = (c.memlen d : ℤ) - 1 then 0 else h + 1)

/-- An address wire (stypes.py:4709-4710, 4714-4715). -/
def addr (c : Cfg) (d : ℕ) (h : ℤ) : ℕ := (h % (2 ^ c.aw d : ℕ)).toNat

/-- `wdata` of a RAM (stypes.py:4700-4705). -/
def wdata {α : Type} (s : St α) (d : ℕ) (mi : List ℕ) : α := if d = 1 then s.win (0 :: mi) else s.rd (d - 1) (0 :: mi)

/-- One clock edge (stypes.py:4556-4720; types/ram.py:73-84: the read port sees the words before the edge). -/
def St.step {α : Type} (c : Cfg) (i : In α) (s : St α) : St α where
  win := if i.en && enable c s then newdata c s else s.win
  src := if i.en then i.data else s.src
  sh := if i.en then i.shift else s.sh
  ro := if i.en then i.rots c else s.ro
  ptail := if i.en then s.tail else s.ptail
  head d := if i.en && htEnable c i d then next c d (s.head d) else s.head d
  tail d := if i.en && htEnable c i d then next c d (s.tail d) else s.tail d
  mem d mi := if wenable c s d then Function.update (s.mem d mi) (addr c d (s.ptail d)) (wdata s d mi) else s.mem d mi
  rd d mi := if i.en then s.mem d mi (addr c d (s.head d)) else s.rd d mi

/-- The states of a run (stream/stypes.py:4556-4720). -/
def run {α : Type} (z : α) (c : Cfg) (m : ℕ → List ℕ → ℕ → α) (r : ℕ → List ℕ → α) (i : ℕ → In α) : ℕ → St α
  | 0 => St.init z c m r
  | t + 1 => (run z c m r i t).step c (i t)

/-- The loop of `index_to_index_tuple` (stypes.py:4472-4483): the sizes of the dimensions from the last one on, the rest of the
    index and the list made so far; `elmnum` is the product of the sizes before the last one. -/
def toIndexGo : List ℕ → ℕ → List ℕ → List ℕ
  | _ :: s :: ss, k, l => toIndexGo (s :: ss) (k % (s :: ss).prod) (k / (s :: ss).prod :: l)
  | _, k, l => k :: l

/-- `index_to_index_tuple` (stypes.py:4472-4483). -/
def toIndex (shape : List ℕ) (k : ℕ) : List ℕ := toIndexGo shape.reverse k []

/-- `get_window(index)` (stypes.py:4503, 4724-4725). -/
def window {α : Type} (c : Cfg) (s : St α) (k : ℕ) : α := s.win (toIndex c.shape k)

end LineBuf
