import Verif.Model.StreamRun
import Verif.Model.Fifo

/-!
# Model of thread streams with FIFOs (veriloggen/thread/stream.py: `set_source_fifo`, `set_sink_fifo`, `oready`)

The stream of `Model/StreamRun.lean`, some of whose sources read FIFOs and some of whose sinks write FIFOs, and which therefore
stalls.  One step is one clock edge without reset.  Simplifications besides those of `Model/StreamRun.lean` (except the first):

* each FIFO is used by one source or by one sink of this stream, and on its other side by something else (`enq`, `deq`);
* `sink_size_buf` of a FIFO sink is left out: it is written but never read (stream.py:3269-3271, 3286-3289).
-/

namespace SFifo

open SRun (Gen SGen)

/-! ## Generators of `set_source_fifo` and `set_sink_fifo` -/

/-- Registers of a source of `set_source_fifo`: state of `source_fsm`, `source_size_buf`, `source_count`, `source_fifo_deq`,
    `source_idle` (stream.py:202-208, 228-229, 269-270). -/
structure FSrc where
  st : ℕ
  size : ℕ
  count : ℕ
  deq : Bool
  idle : Bool

/-- One clock edge in which the stream is not stalled (stream.py:280-287, 2600-2649); the setting is the size, in a register of
    `aw + 1` bits. -/
def FSrc.step (aw : ℕ) (c : ℕ) (start stop : Bool) (x : FSrc) : FSrc where
  st := if x.st = 0 then (if start then 1 else 0) else if x.st = 1 then 2 else if stop || x.count == 1 then 0 else 2
  size := if start then c % 2 ^ (aw + 1) else x.size
  count := if x.st = 0 then x.count else if x.st = 1 then x.size else Pat.dec aw x.count
  deq := if x.st = 0 then false else if x.st = 1 then true else !(stop || x.count == 1)
  idle := if 2 ≤ x.st ∧ (stop || x.count == 1) then true else if start then false else x.idle

/-- The generator of `set_source_fifo` (stream.py:943-976); a FIFO has no addresses. -/
def fifoSrc (aw : ℕ) : Gen where
  Set := ℕ
  σ := FSrc
  init := ⟨0, 0, 0, false, true⟩
  step := FSrc.step aw
  idle := FSrc.idle
  renable := FSrc.deq
  raddr := fun _ => 0

/-- Registers of a sink of `set_sink_fifo`: state of `sink_fsm`, `sink_count`, `sink_fifo_wdata`, `sink_fifo_enq`
    (stream.py:327-328, 388-392). -/
structure FSnk (V : Type) where
  st : ℕ
  count : ℕ
  wdata : V
  enq : Bool

/-- One clock edge in which the stream is not stalled (stream.py:398-402, 3262-3305). -/
def FSnk.step {V : Type} (aw : ℕ) (c : ℕ) (start stop whn : Bool) (d : V) (y : FSnk V) : FSnk V where
  st := if y.st = 0 then (if start then 1 else 0) else if y.st = 1 then 2 else if stop then 0
    else if whn && y.count == 1 then 0 else 2
  count := if y.st = 0 then y.count else if y.st = 1 then c % 2 ^ (aw + 1) else if whn then Pat.dec aw y.count else y.count
  wdata := if 2 ≤ y.st ∧ whn then d else y.wdata
  enq := decide (2 ≤ y.st) && whn

/-- The generator of `set_sink_fifo` (stream.py:1294-1329). -/
def fifoSnk (V : Type) (aw : ℕ) (v0 : V) : SGen V where
  Set := ℕ
  σ := FSnk V
  init := ⟨0, 0, v0, false⟩
  step := FSnk.step aw
  write := fun y => if y.enq then some (0, y.wdata) else none

/-! ## The stream -/

/-- A stream with FIFOs: the sources that read a FIFO, with its address width and `sync`, the number of sinks, and those that
    write a FIFO, with its address width (thread/fifo.py:21-43). -/
structure FPar (V : Type) where
  core : SRun.Par V
  nk : ℕ
  srcF : ℕ → Option (ℕ × Bool)
  snkF : ℕ → Option ℕ

/-- Inputs of a cycle: those of the stream, `internal_oready` (stream.py:87-89), the words put into the FIFOs of the sources and
    the reading of the FIFOs of the sinks. -/
structure In {V : Type} (p : FPar V) where
  base : SRun.In p.core
  ext : Bool
  enq : ℕ → Option V
  deq : ℕ → Bool

/-- The registers of the stream, the FIFOs of the sources, the FIFOs of the sinks (stream.py:80-166, thread/fifo.py:21-43). -/
structure St {V : Type} (p : FPar V) where
  core : SRun.St p.core
  ff : ℕ → Fifo.State V
  sf : ℕ → Fifo.State V

variable {V : Type} {p : FPar V}

/-- The reset values (stream.py:80-166, types/fifo.py:106-123). -/
def St.init (p : FPar V) : St p where
  core := SRun.St.init p.core
  ff := fun _ => Fifo.init (fun _ => p.core.v0) p.core.v0
  sf := fun _ => Fifo.init (fun _ => p.core.v0) p.core.v0

/-- What the FIFO of a source asks for (stream.py:2520-2523): that it is not empty, if the stream and the source are busy. -/
def St.srcReady (s : St p) (j : ℕ) : Bool :=
  match p.srcF j with
  | none => true
  | some _ => !s.core.sbusy || (!Fifo.isEmpty (s.ff j) || (p.core.gen j).idle (s.core.src j))

/-- What the FIFO of a sink asks for (stream.py:3190-3193): that it is not almost full, if the sinks are busy. -/
def St.snkReady (s : St p) (k : ℕ) : Bool :=
  match p.snkF k with
  | none => true
  | some aw => !s.core.sinkBusy || !(Fifo.flags aw (s.sf k)).almostFull

/-- `oready` (stream.py:86-89, types/util.py:91-100). -/
def St.oready (s : St p) (i : In p) : Bool :=
  (List.range p.core.ns).all s.srcReady && (List.range p.nk).all s.snkReady && i.ext

/-- The data of a source: the output of its RAM or of its FIFO (stream.py:2517-2518, types/fifo.py:134-148). -/
def St.rdata (s : St p) (j : ℕ) : V :=
  match p.srcF j with
  | none => s.core.rdata j
  | some (_, sync) => if sync then (s.ff j).rdata else Fifo.asyncRdata (s.ff j)

/-- A cycle in which the stream is not stalled: all registers move (thread/stream.py:84-90). -/
def St.moved (s : St p) (i : In p) : SRun.St p.core := { s.core with rdata := s.rdata }.step i.base

/-- A cycle in which the stream is stalled: `run` is accepted in the first state of `fsm` (stream.py:1656-1660), settings of
    sources are written (720-727), the delayed settings of sinks that wait in the last register (1050-1063, 1315-1324), and
    `busy_reg` (1790-1796); nothing else, since it is conditional on `oready`. -/
def St.stalled (s : St p) (i : In p) : SRun.St p.core :=
  { s.core with
    fsm := if s.core.fsm = 0 && i.base.run then 1 else s.core.fsm
    sstart := if s.core.fsm = 0 && i.base.run then true else s.core.sstart
    breg := if s.core.sbusy then true
      else if !s.core.sinkBusy && SRun.tap s.core.busyL (p.core.depth + 2) then false else s.core.breg
    cfg := fun j => (i.base.setSrc j).getD (s.core.cfg j)
    scfg := fun k => ((s.core.setL k).getD (p.core.depth + 1) none).getD (s.core.scfg k) }

/-- The inputs of the FIFO of a source (stream.py:2513-2515, thread/fifo.py:140-158). -/
def St.srcIn (s : St p) (i : In p) (j : ℕ) : Fifo.In V where
  enq := (i.enq j).isSome
  wdata := (i.enq j).getD p.core.v0
  deq := s.oready i && (p.core.gen j).renable (s.core.src j) && !Fifo.isEmpty (s.ff j)

/-- The inputs of the FIFO of a sink (stream.py:3186-3187, thread/fifo.py:119-138): a word is put in only if the FIFO is not
    almost full. -/
def St.snkIn (s : St p) (i : In p) (k : ℕ) : Fifo.In V where
  enq := s.oready i && ((p.core.sgen k).write (s.core.snk k)).isSome && !(Fifo.flags ((p.snkF k).getD 0) (s.sf k)).almostFull
  wdata := (((p.core.sgen k).write (s.core.snk k)).map Prod.snd).getD p.core.v0
  deq := i.deq k

/-- One clock edge (thread/stream.py:80-166, 2514-2517, 3194-3196). -/
def St.step (s : St p) (i : In p) : St p where
  core := if s.oready i then s.moved i else s.stalled i
  ff := fun j => Fifo.step (((p.srcF j).map Prod.fst).getD 0) (s.ff j) (s.srcIn i j)
  sf := fun k => Fifo.step ((p.snkF k).getD 0) (s.sf k) (s.snkIn i k)

end SFifo
