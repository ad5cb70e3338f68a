import Verif.Model.Fifo
import Mathlib.Data.Nat.Notation

/-!
# Model of `read_fifo`, `write_fifo` and `read_RAM` inside of a stream (stream/stypes.py:4784-5043;
thread/stream.py:3350-3377, 3563-3591, 3666-3691)

`read_fifo(name, when)` is an operator that takes a word out of a FIFO for each item with `when`; `write_fifo(name, data, when)` puts one
in.  Both stall the whole stream while the FIFO is not ready.  `FOp` is a stream with one of each: `ReadFIFO` in stage `s`, any function of
the word and of other operands, and `WriteFIFO` in stage `s + 1 + d`.  The other conditions on which the stream advances (`rest`)
are inputs, so that there may be any number of other such operators.

`ROp` is `ReadRAM` with any latency.

Simplifications: `read_fifo_sel` etc. select this FIFO or RAM; no conversion of widths; `dump` is left out.
-/

namespace FOp

/-- An item in stage `s`: its other operands, and the two `when`, true if there is none (stream/stypes.py:4944, 5019). -/
structure Item (X : Type) where
  x : X
  rd : Bool := true
  wr : Bool := true
  deriving DecidableEq

/-- The stream: address widths of the two FIFOs, the number `d` of stages in between, whether the FIFO that is read is
    `sync` (thread/fifo.py:22; the default), and what is computed (thread/stream.py:626-693). -/
structure Cfg (X A B : Type) where
  awR : ℕ
  awW : ℕ
  d : ℕ
  sync : Bool := true
  f : X → A → B

/-- The FIFOs, stage `s + 1`, and the registers of stages `s + 2` to `s + 1 + d`: valid flag, `when` of the write, and data
    (stream/stypes.py:1541-1544, 2299-2311; stream/stream.py:578-589). -/
structure St (X A B : Type) where
  rf : Fifo.State A
  v1 : Bool
  i1 : Item X
  chain : List (Bool × Bool × B)
  wf : Fifo.State B

/-- The inputs in a cycle: the other conditions of `oready`, stage `s`, and the other sides of the FIFOs (types/fifo.py:30-31,
    63). -/
structure In (X A : Type) where
  rest : Bool
  valid : Bool
  item : Item X
  enq : Bool
  wdata : A
  deq : Bool

variable {X A B : Type} (c : Cfg X A B)

/-- The output of the FIFO: a register, or without `sync` the word at the tail (types/fifo.py:134-148). -/
def St.rword (s : St X A B) : A := if c.sync then s.rf.rdata else Fifo.asyncRdata s.rf

/-- What stage `s + 1` hands on.  With latency 1 the data of `ReadFIFO` is the output of the FIFO (stream/stypes.py:4961-4964). -/
def St.first (s : St X A B) : Bool × Bool × B := (s.v1, s.i1.wr, c.f s.i1.x (s.rword c))

/-- Stage `s + 1 + d`, where `WriteFIFO` is (stream/stypes.py:5019-5026). -/
def St.last (s : St X A B) : Bool × Bool × B := s.chain.getLastD (s.first c)

/-- `ready` of `deq_rtl` (thread/fifo.py:144) and of `enq_rtl` (thread/fifo.py:124). -/
def St.rready (s : St X A B) : Bool := !(Fifo.flags c.awR s.rf).empty
/-- `ready` of `enq_rtl` (thread/fifo.py:124). -/
def St.wready (s : St X A B) : Bool := !(Fifo.flags c.awW s.wf).almostFull

/-- `stall_cond` of `ReadFIFO` (stream/stypes.py:4953-4957) and of `WriteFIFO` (5033-5037). -/
def St.rstall (s : St X A B) (i : In X A) : Bool := !s.rready c && i.valid && i.item.rd
/-- `stall_cond` of `WriteFIFO` (stream/stypes.py:5033-5037). -/
def St.wstall (s : St X A B) : Bool := !s.wready c && (s.last c).1 && (s.last c).2.1

/-- `oready` and `senable`: `add_disable_cond` with value 0 (stream/stypes.py:4959, 5039; types/util.py:91-100). -/
def St.go (s : St X A B) (i : In X A) : Bool :=
  (if s.wstall c then false else true) && ((if s.rstall c i then false else true) && i.rest)

/-- The inputs of the FIFO that is read: `renable` (thread/stream.py:3585; stream/stypes.py:4945) and `deq_rtl`
    (thread/fifo.py:146-151). -/
def St.rin (s : St X A B) (i : In X A) : Fifo.In A :=
  ⟨i.enq, i.wdata, s.go c i && (i.valid && s.go c i && i.item.rd) && s.rready c⟩

/-- The inputs of the FIFO that is written: `wenable` (thread/stream.py:3688; stream/stypes.py:5020) and `enq_rtl`
    (thread/fifo.py:126-134). -/
def St.win (s : St X A B) (i : In X A) : Fifo.In B :=
  ⟨s.go c i && ((s.last c).1 && s.go c i && (s.last c).2.1) && s.wready c, (s.last c).2.2, i.deq⟩

/-- One clock edge (stream/stypes.py:1541-1544, 2299-2311; types/fifo.py:134-143). -/
def St.step (s : St X A B) (i : In X A) : St X A B where
  rf := Fifo.step c.awR s.rf (s.rin c i)
  v1 := if s.go c i then i.valid else s.v1
  i1 := if s.go c i then i.item else s.i1
  chain := if s.go c i then (s.first c :: s.chain).dropLast else s.chain
  wf := Fifo.step c.awW s.wf (s.win c i)

/-- A sequence of clock edges (each as stream/stypes.py:4934-5039, types/fifo.py:134-143). -/
def St.run (s : St X A B) (l : List (In X A)) : St X A B := l.foldl (St.step c) s

end FOp

namespace ROp

/-- The inputs of `ReadRAM` in a cycle: `senable`, `svalid` and `when` (true if there is none) of stage `s`, and the word that the
    RAM holds at the address in this cycle (stream/stypes.py:4807-4824). -/
structure In (A : Type) where
  en : Bool
  valid : Bool := true
  when : Bool := true
  word : A

/-- The read register of the port of the RAM (types/ram.py:76-84, with `enable`), the `latency - 1` data registers, the newest first
    (stream/stypes.py:4831-4859), and the register of `seq.Prev(when_cond, 1)` (4836), which is made if the latency is 2. -/
structure St (A : Type) where
  rdata : A
  data : List A
  pw : Bool

variable {A : Type}

/-- The output of the operator (stream/stypes.py:4826-4859). -/
def St.out (s : St A) : A := s.data.getLastD s.rdata

/-- One clock edge; `hw` says that there is a `when`.  The RAM is read if `enable` (stream/stypes.py:4820-4824; thread/stream.py:3372-3374).  With latency 2 the data
    register waits for `senable` and for the delayed `when` (stream/stypes.py:4831-4838), which itself does not wait for `senable`; with higher latencies
    `when` is not used, since there are never three arguments (4843). -/
def St.step (hw : Bool) (s : St A) (i : In A) : St A where
  rdata := if i.valid && i.en && i.when then i.word else s.rdata
  data :=
    if s.data.length = 1 ∧ hw = true then (if i.en && s.pw then [s.rdata] else s.data)
    else if i.en then (s.rdata :: s.data).dropLast else s.data
  pw := i.when

/-- A sequence of clock edges (each as stream/stypes.py:4807-4859). -/
def St.run (hw : Bool) (s : St A) (l : List (In A)) : St A := l.foldl (St.step hw) s

end ROp
