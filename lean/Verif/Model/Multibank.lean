import Verif.Model.Ram

/-!
# Model of `MultibankRAM` (`veriloggen/thread/ram.py:372-903`)

`numbanks = 2^k` banks, each a RAM of `types/ram.py` (module `Ram`) with `2^aw` words; one port.
-/

namespace Multibank

/-- `bank` wire of width `shift` assigned from the flat address, thread/ram.py:497-498, 528-529. -/
def bankOf (k a : Nat) : Nat := a % 2 ^ k

/-- `addr >> self.shift`, thread/ram.py:499, 530; the bank port then truncates to its width. -/
def localOf (k a : Nat) : Nat := a / 2 ^ k

/-- Operation presented to the port in a cycle (`read_rtl` or `write_rtl` with its condition) (thread/ram.py:497-534). -/
inductive Op (α : Type) where
  | idle
  | read (a : Nat)
  | write (a : Nat) (w : α)

/-- Port wires of bank `i`: `read_rtl` enables every bank (thread/ram.py:503-504), `write_rtl` only
the addressed one (thread/ram.py:532-534); for `enable`/`wenable` see thread/ram.py:144-145, 163-166.
`z` stands for the undriven write data. -/
def bankPort {α : Type} (k : Nat) (z : α) (i : Nat) : Op α → Ram.PortOp α
  | .idle => ⟨false, false, 0, z⟩
  | .read a => ⟨true, false, localOf k a, z⟩
  | .write a w => ⟨bankOf k a == i, bankOf k a == i, localOf k a, w⟩

/-- The banks (index below `2^k`), the registered bank number (thread/ram.py:501,
`Prev(bank, 1, cond=cond)`) and the registered valid bit (thread/ram.py:148, 517). -/
structure State (α : Type) where
  banks : Nat → Ram.State α
  bankReg : Nat
  rvalid : Bool

/-- One clock edge. A single port issues at most one write per bank, so the write order is forced (thread/ram.py:497-534). -/
def step {α : Type} (k aw : Nat) (z : α) (s : State α) (op : Op α) : State α where
  banks := fun i =>
    let p := bankPort k z i op
    Ram.step aw true (s.banks i) [p] (Ram.writes aw true [p])
  bankReg := match op with
    | .read a => bankOf k a
    | _ => s.bankReg
  rvalid := match op with
    | .read _ => true
    | _ => false

/-- `PatternMux` over the banks' read data selected by the registered bank number,
thread/ram.py:512-516; the default arm gives 0 (`z`). -/
def rdata {α : Type} (k : Nat) (z : α) (s : State α) : α :=
  ((List.range (2 ^ k)).find? (fun i => s.bankReg == i)).elim z
    fun i => (s.banks i).rdata.getD 0 z

/-- `Cat` of equally wide words, the first one most significant (thread/ram.py:730). -/
def cat (dw : Nat) (ws : List Nat) : Nat := ws.foldl (fun acc w => acc * 2 ^ dw + w) 0

/-- Packed read word, thread/ram.py:715-730: the banks' words at local address
`(_addr >> shift)`, list reversed before `Cat`. -/
def packedWord (k dw aw : Nat) (mems : Nat → Nat → Nat) (addr : Nat) : Nat :=
  cat dw (((List.range (2 ^ k)).map fun i => mems i (localOf k addr % 2 ^ aw)).reverse)

/-- Word written to bank `i` by a packed write, thread/ram.py:865-868: `Srl(wdata, datawidth*i)`
truncated to the bank's width. -/
def unpackWord (dw wdata i : Nat) : Nat := (wdata / 2 ^ (dw * i)) % 2 ^ dw

/-- Memory of all banks after a packed write of `wdata` at flat address `addr`,
thread/ram.py:858-868. -/
def packedWrite (k dw aw : Nat) (mems : Nat → Nat → Nat) (addr wdata : Nat) : Nat → Nat → Nat :=
  fun i l => if i < 2 ^ k ∧ l = localOf k addr % 2 ^ aw then unpackWord dw wdata i else mems i l

end Multibank
