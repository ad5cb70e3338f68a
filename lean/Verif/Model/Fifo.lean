/-!
# Model of the generated FIFO (`veriloggen/types/fifo.py`)

One `step` is one rising clock edge of the emitted always block; every right-hand side reads
the pre-edge registers (non-blocking assignment).
-/

namespace Fifo

/-- Registers declared in types/fifo.py:106-108 and 123 (`mem`, `head`, `tail`, `rdata_reg`).
`head` and `tail` are `addrwidth`-bit registers, held here as naturals below `2^aw`.
The memory is a total function of the address. -/
structure State (α : Type) where
  mem : Nat → α
  head : Nat
  tail : Nat
  rdata : α

/-- Inputs of the module: types/fifo.py:30-31 (`enq`, `wdata`) and 63 (`deq`). -/
structure In (α : Type) where
  enq : Bool
  wdata : α
  deq : Bool

/-- types/fifo.py:115 `mask = (2 ** addrwidth) - 1`. -/
def mask (aw : Nat) : Nat := 2 ^ aw - 1

/-- types/fifo.py:117 `is_empty.assign(head == tail)`. -/
def isEmpty {α} (s : State α) : Bool := s.head == s.tail

/-- types/fifo.py:118 `is_almost_empty.assign(head == ((tail + 1) & mask))`. -/
def isAlmostEmpty {α} (aw : Nat) (s : State α) : Bool := s.head == ((s.tail + 1) &&& mask aw)

/-- types/fifo.py:119 `is_full.assign(((head + 1) & mask) == tail)`. -/
def isFull {α} (aw : Nat) (s : State α) : Bool := ((s.head + 1) &&& mask aw) == s.tail

/-- types/fifo.py:120 `is_almost_full.assign(((head + 2) & mask) == tail)`. -/
def isAlmostFull {α} (aw : Nat) (s : State α) : Bool := ((s.head + 2) &&& mask aw) == s.tail

/-- Output flags: types/fifo.py:127-130. -/
structure Flags where
  empty : Bool
  almostEmpty : Bool
  full : Bool
  almostFull : Bool
  deriving DecidableEq, Repr

/-- types/fifo.py:127-130: `full`, `almost_full = Ors(is_almost_full, is_full)`, `empty`,
`almost_empty = Ors(is_almost_empty, is_empty)`. -/
def flags {α} (aw : Nat) (s : State α) : Flags where
  empty := isEmpty s
  almostEmpty := isAlmostEmpty aw s || isEmpty s
  full := isFull aw s
  almostFull := isAlmostFull aw s || isFull aw s

/-- State after reset: types/fifo.py:107-108, 123 (`initval=0`); the memory array has no
initial value, so its content is a parameter. -/
def init {α} (mem : Nat → α) (r0 : α) : State α := ⟨mem, 0, 0, r0⟩

/-- The clocked block, types/fifo.py:134-143 (`sync=True`) :
`If(enq & !is_full)(mem[head](wdata), head.inc())` and
`If(deq & !is_empty)(rdata(mem[tail]), tail.inc())`.
`inc` wraps at the register width. -/
def step {α} (aw : Nat) (s : State α) (i : In α) : State α :=
  let doEnq := i.enq && !isFull aw s
  let doDeq := i.deq && !isEmpty s
  { mem := if doEnq then fun a => if a = s.head then i.wdata else s.mem a else s.mem
    head := if doEnq then (s.head + 1) % 2 ^ aw else s.head
    rdata := if doDeq then s.mem s.tail else s.rdata
    tail := if doDeq then (s.tail + 1) % 2 ^ aw else s.tail }

/-- The `sync=False` variant, types/fifo.py:144-148: `rdata` is the wire `mem[tail]`. -/
def asyncRdata {α} (s : State α) : α := s.mem s.tail

end Fifo
