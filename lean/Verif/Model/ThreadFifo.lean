import Verif.Model.Fifo

/-!
# Model of `thread.FIFO` (`veriloggen/thread/fifo.py`)

The FIFO instance together with the entry counter, the registered acknowledge/valid bits and
the small state machines compiled for the `enq`, `deq`, `try_enq`, `try_deq` intrinsics.
-/

namespace ThreadFifo

open Fifo (State In flags)

/-- FIFO instance plus the registers of thread/fifo.py:83 (`count`), 136 (`ack = Prev(ready,1)`)
and 156 (`valid = Prev(deq_cond,1)`). `count` is an `(addrwidth+1)`-bit register. -/
structure Sys (α : Type) where
  fifo : State α
  count : Nat
  ack : Bool
  rvalid : Bool

/-- Reset values (thread/fifo.py:83; `Prev` registers start at 0, seq/seq.py:139-193). -/
def init {α : Type} (mem : Nat → α) (r0 : α) : Sys α := ⟨Fifo.init mem r0, 0, false, false⟩

/-- The counter update of thread/fifo.py:86-94 (If / Elif / Elif chain), for raw `enq` and
`deq` signals. -/
def countStep {α : Type} (aw : Nat) (s : Sys α) (enq deq : Bool) : Nat :=
  let e := enq && !(flags aw s.fifo).full
  let d := deq && !(flags aw s.fifo).empty
  if e && d then s.count
  else if e then (s.count + 1) % 2 ^ (aw + 1)
  else if d then (s.count + (2 ^ (aw + 1) - 1)) % 2 ^ (aw + 1)
  else s.count

/-- `ready` of `enq_rtl`, thread/fifo.py:124. -/
def wready {α : Type} (aw : Nat) (s : Sys α) : Bool := !(flags aw s.fifo).almostFull

/-- `ready` of `deq_rtl`, thread/fifo.py:144. -/
def rready {α : Type} (aw : Nat) (s : Sys α) : Bool := !(flags aw s.fifo).empty

/-- One clock edge with raw `enq`/`deq` wires (thread/fifo.py:83-94, 136). -/
def rawStep {α : Type} (aw : Nat) (s : Sys α) (i : In α) : Sys α where
  fifo := Fifo.step aw s.fifo i
  count := countStep aw s i.enq i.deq
  ack := wready aw s
  rvalid := i.deq && rready aw s

/-- Conditions of one `enq_rtl` and one `deq_rtl` call site (thread/fifo.py:119, 140). -/
structure Req (α : Type) where
  cond : Bool
  wdata : α
  dcond : Bool

/-- Wires driven by `enq_rtl` (thread/fifo.py:126-134: `enq = cond & ready`) and `deq_rtl`
(thread/fifo.py:146-151: `deq = cond & ready`). -/
def wires {α : Type} (aw : Nat) (s : Sys α) (r : Req α) : In α where
  enq := r.cond && wready aw s
  wdata := r.wdata
  deq := r.dcond && rready aw s

/-- One clock edge of the FIFO driven through `enq_rtl` and `deq_rtl` (thread/fifo.py:119-158). -/
def step {α : Type} (aw : Nat) (s : Sys α) (r : Req α) : Sys α := rawStep aw s (wires aw s r)

/-- `space`, thread/fifo.py:190-194 (`max_size = 2^addrwidth - 1`, line 80). -/
def space {α : Type} (aw : Nat) (s : Sys α) : Nat := 2 ^ aw - 1 - s.count

/-- `has_space(num)`, thread/fifo.py:196-199. -/
def hasSpace {α : Type} (aw : Nat) (s : Sys α) (num : Nat) : Bool :=
  if num < 1 then true else decide (s.count + num < 2 ^ aw - 1)

/-- A thread executing one FIFO intrinsic: the FIFO system, the position inside the
intrinsic's states (0 = first state), the result data register and the result flag register (thread/fifo.py:201-257). -/
structure Op (α : Type) where
  sys : Sys α
  pc : Nat
  reg : α
  flag : Bool

/-- `enq`, thread/fifo.py:201-207: one state, left when `ready`. The other side of the FIFO is
driven by the environment (`dcond`). -/
def enqStep {α : Type} (aw : Nat) (w : α) (o : Op α) (dcond : Bool) : Op α :=
  { o with
    sys := step aw o.sys ⟨o.pc == 0, w, dcond⟩
    pc := if o.pc == 0 && wready aw o.sys then 1 else o.pc }

/-- `try_enq`, thread/fifo.py:226-238: state 0 presents the word and always advances, state 1
stores `ack`. -/
def tryEnqStep {α : Type} (aw : Nat) (w : α) (o : Op α) (dcond : Bool) : Op α :=
  { o with
    sys := step aw o.sys ⟨o.pc == 0, w, dcond⟩
    flag := if o.pc == 1 then o.sys.ack else o.flag
    pc := if o.pc == 0 then 1 else if o.pc == 1 then 2 else o.pc }

/-- `deq` of a synchronous FIFO, thread/fifo.py:209-224: state 0 is left when `ready`, state 1
stores `rdata` when `valid`. -/
def deqStep {α : Type} (aw : Nat) (o : Op α) (e : Bool × α) : Op α :=
  { o with
    sys := step aw o.sys ⟨e.1, e.2, o.pc == 0⟩
    reg := if o.pc == 1 && o.sys.rvalid then o.sys.fifo.rdata else o.reg
    pc := if o.pc == 0 && rready aw o.sys then 1
          else if o.pc == 1 && o.sys.rvalid then 2 else o.pc }

/-- `try_deq` of a synchronous FIFO, thread/fifo.py:240-257. -/
def tryDeqStep {α : Type} (aw : Nat) (o : Op α) (e : Bool × α) : Op α :=
  { o with
    sys := step aw o.sys ⟨e.1, e.2, o.pc == 0⟩
    reg := if o.pc == 1 then o.sys.fifo.rdata else o.reg
    flag := if o.pc == 1 then o.sys.rvalid else o.flag
    pc := if o.pc == 0 then 1 else if o.pc == 1 then 2 else o.pc }

end ThreadFifo
