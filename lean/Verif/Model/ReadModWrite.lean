import Verif.Model.Ram
import Mathlib.Data.Nat.Notation

/-!
# Model of read-modify-write of a RAM in a stream (thread/stream.py:563-624, stream/stypes.py:1914-1994, 4784-4901)

`read_modify_write_RAM(name, raddrs, waddr, op, op_args, when)` makes, for every item of the stream, a read of the RAM at each of
`raddrs` in stage `s`, an operator of latency 1 on the words read in stage `s + 1`, and a write of the result at `waddr` in stage
`s + 2`.  `ForwardDest` in stage `s + 1` replaces a word read by the result in stage `s + 2` if that is for the same address.

The RAM is that of `Model/Ram.lean`, with a port for each read and one more for the write.

Simplifications: addresses are natural numbers (compared before they are cut to the address width); the words of the RAM and the
values of the stream have the same type (no conversion of widths); `read_ram_sel` selects this RAM and the ports are used by
nobody else meanwhile; `dump` is left out.  How items get to stage `s` is left open: the inputs are those of stage `s`.
-/

namespace Rmw

/-- An item in the stream: the operands of `read_modify_write_RAM` (thread/stream.py:563).  `op` is the operator with its `op_args`
    of this item; `when` is true if there is none. -/
structure Item (α : Type) where
  raddrs : List ℕ
  waddr : ℕ
  op : List α → α
  when : Bool := true

/-- The RAM, and the registers of stages `s + 1` and `s + 2`: the valid flags, the delayed operands (stream/scheduler.py:47-78) and the
    data register of the operator (stream/stypes.py:1541-1544). -/
structure St (α : Type) where
  ram : Ram.State α
  v1 : Bool
  i1 : Item α
  v2 : Bool
  i2 : Item α
  val : α

/-- The inputs in a cycle: `senable`, and the valid flag and the operands in stage `s` (stream/allocator.py:10-17). -/
structure In (α : Type) where
  en : Bool
  valid : Bool
  item : Item α

variable {α : Type}

/-- The output of `ForwardDest` (stream/stypes.py:1949-1950): `d` is the word read for address `a`.  The forwarded value is that of stage
    `s + 2`, and `forward_valid` is the valid flag of that stage (1992-1994), whatever `when` is. -/
def fwd (s : St α) (a : ℕ) (d : α) : α := if s.v2 && a == s.i2.waddr then s.val else d

/-- The operands of the operator in stage `s + 1` (thread/stream.py:601-607). -/
def operands (s : St α) : List α := List.zipWith (fwd s) s.i1.raddrs s.ram.rdata

/-- The ports of the RAM: `ReadRAM` is enabled if stage `s` is valid and the stream advances (stream/stypes.py:4820-4823,
    thread/stream.py:3371-3374), `WriteRAM` if stage `s + 2` is valid, the stream advances and `when` is true
    (stream/stypes.py:4888-4891, thread/stream.py:3486-3489). -/
def ports (s : St α) (i : In α) : List (Ram.PortOp α) :=
  i.item.raddrs.map (fun a => ⟨i.valid && i.en, false, a, s.val⟩) ++
    [⟨s.v2 && i.en && s.i2.when, s.v2 && i.en && s.i2.when, s.i2.waddr, s.val⟩]

/-- One clock edge (stream/stypes.py:1541-1544, 2298-2311; stream/stream.py:578-589 for the valid flags). -/
def step (aw : ℕ) (s : St α) (i : In α) : St α where
  ram := Ram.step aw true s.ram (ports s i) (Ram.writes aw true (ports s i))
  v1 := if i.en then i.valid else s.v1
  i1 := if i.en then i.item else s.i1
  v2 := if i.en then s.v1 else s.v2
  i2 := if i.en then s.i1 else s.i2
  val := if i.en then s.i1.op (operands s) else s.val

/-- A sequence of clock edges (each as `step`, stream/stypes.py:1914-1994, 4784-4901). -/
def run (aw : ℕ) (s : St α) (l : List (In α)) : St α := l.foldl (step aw) s

end Rmw
