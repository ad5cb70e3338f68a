import Verif.Model.StreamPattern

/-!
# Model of running a thread stream (veriloggen/thread/stream.py: `set_source`, `set_sink`, `run`, `join`)

A stream whose sources read RAMs and whose sinks write RAMs.  One step is one clock edge without reset.  Simplifications:

* `oready` is 1, as it is without FIFOs (stream.py:83-85);
* each source and each sink is used with one kind of address generator (`source_mode`, `sink_mode` constant) and one RAM
  (`source_sel`, `sink_sel` constant), whose ports are used by nothing else;
* no `terminate`, not `infinite`, no dump; the data path of the stream is an input (`dat`, `whn`), see C24 and C25;
* chains of `Prev` registers of one signal hold the same values and are represented once.
-/

namespace SRun

/-- An address generator of a source: its setting registers are `Set`, its other registers `σ`; `step` takes the settings,
    `source_start` (with the mode) and `source_stop` (stream.py:2037-2092, 2121-2221). -/
structure Gen where
  Set : Type
  σ : Type
  init : σ
  step : Set → Bool → Bool → σ → σ
  idle : σ → Bool
  renable : σ → Bool
  raddr : σ → ℤ

/-- An address generator of a sink: `step` takes the settings, `sink_start`, `sink_stop`, the `when` condition and the output
    of the stream; `write` is the RAM write of a cycle (stream.py:2749-2794, 2822-2913, 2673-2675). -/
structure SGen (V : Type) where
  Set : Type
  σ : Type
  init : σ
  step : Set → Bool → Bool → Bool → V → σ → σ
  write : σ → Option (ℤ × V)

/-- A stream: `depth` is `pipeline_depth()`, `ns` the number of sources, the generators, initial values (thread/stream.py:80-166). -/
structure Par (V : Type) where
  depth : ℕ
  ns : ℕ
  gen : ℕ → Gen
  sgen : ℕ → SGen V
  v0 : V
  set0 : (j : ℕ) → (gen j).Set
  sset0 : (k : ℕ) → (sgen k).Set

/-- Inputs of a cycle: `run_flag`, the settings written by `set_source*` (stream.py:720-727) and `set_sink*` (1050-1063),
    the contents of the source's RAM, the outputs of the data path and the `when` conditions. -/
structure In {V : Type} (p : Par V) where
  run : Bool
  setSrc : (j : ℕ) → Option (p.gen j).Set
  setSnk : (k : ℕ) → Option (p.sgen k).Set
  mem : ℕ → ℤ → V
  dat : ℕ → V
  whn : ℕ → Bool

/-- The registers: state of `fsm`, `source_start`, `source_busy`, `ivalid`, `reduce_reset`, `busy_reg`, the previous values of
    `source_start`, of `source_stop` and of `source_busy` (newest first), settings, generators, the read register of the RAM
    (types/ram.py:76-84) and `wdata` (stypes.py:2804-2822) of the sources, the delayed settings (stream.py:1050-1056),
    settings and generators of the sinks. -/
structure St {V : Type} (p : Par V) where
  fsm : ℕ
  sstart : Bool
  sbusy : Bool
  ivalid : Bool
  rr : Bool
  breg : Bool
  startL : List Bool
  endL : List Bool
  busyL : List Bool
  cfg : (j : ℕ) → (p.gen j).Set
  src : (j : ℕ) → (p.gen j).σ
  rdata : ℕ → V
  wdata : ℕ → V
  setL : (k : ℕ) → List (Option (p.sgen k).Set)
  scfg : (k : ℕ) → (p.sgen k).Set
  snk : (k : ℕ) → (p.sgen k).σ

/-- A chain of `n` registers, newest first (seq.py:174-193). -/
def push {X : Type} (n : ℕ) (x : X) (l : List X) : List X := (x :: l).take n

/-- The register `n` places down a chain; a register that was not written yet has its initial value 0 (seq/seq.py:174-193). -/
def tap (l : List Bool) (n : ℕ) : Bool := l.getD n false

/-- The reset values (stream.py:80-166). -/
def St.init {V : Type} (p : Par V) : St p where
  fsm := 0
  sstart := false
  sbusy := false
  ivalid := false
  rr := false
  breg := false
  startL := []
  endL := []
  busyL := []
  cfg := p.set0
  src := fun j => (p.gen j).init
  rdata := fun _ => p.v0
  wdata := fun _ => p.v0
  setL := fun _ => []
  scfg := p.sset0
  snk := fun k => (p.sgen k).init

variable {V : Type} {p : Par V}

/-- `done_cond` (stream.py:1698-1701). -/
def St.allIdle (s : St p) : Bool := (List.range p.ns).all fun j => (p.gen j).idle (s.src j)

/-- `source_stop`, with `oready` also `source_end_cond` (stream.py:1703, 1741). -/
def St.stop (s : St p) : Bool := s.fsm == 3 && s.allIdle

/-- `sink_start` (stream.py:1773, 1860-1866). -/
def St.sinkStart (s : St p) : Bool := tap s.startL (p.depth + 1)

/-- `sink_stop` (stream.py:1786-1787, 1868-1874). -/
def St.sinkStop (s : St p) : Bool := tap s.endL (p.depth + 1)

/-- `sink_busy` (stream.py:1788, 1876-1893). -/
def St.sinkBusy (s : St p) : Bool := tap s.busyL (p.depth + 1)

/-- `busy` (stream.py:1803), the condition `join` waits for to be 0 (1807-1809). -/
def St.busy (s : St p) : Bool := s.sbusy || s.sinkBusy || s.breg

/-- The next state of `fsm` (stream.py:1656-1660, 1692-1695, 1747-1753). -/
def St.nextFsm (s : St p) (run : Bool) : ℕ :=
  if s.fsm = 0 then (if run then 1 else 0)
  else if s.fsm = 1 then (if s.sstart then 2 else 1)
  else if s.fsm = 2 then 3
  else if s.stop then (if run then 1 else 0) else s.fsm

/-- `source_start` (stream.py:1657-1659, 1667-1670, 1750-1752). -/
def St.nextStart (s : St p) (run : Bool) : Bool :=
  if s.fsm = 0 then run || s.sstart
  else if s.fsm = 1 then false
  else if s.stop && run then true else s.sstart

/-- `source_busy` (stream.py:1667-1670, 1743-1745). -/
def St.nextBusy (s : St p) : Bool :=
  if s.fsm = 1 && s.sstart then true else if s.stop then false else s.sbusy

/-- One clock edge. `ivalid`: stream.py:1672-1675, 1756-1758, 1895-1899, 1914-1916; `reduce_reset`: 1677-1684, 1761-1764,
    1901-1912, 1918-1920; `busy_reg`: 1790-1796; the read register of the RAM: types/ram.py:76-84 and stream.py:1944-1946; `wdata`:
    2051-2053; settings: 720-727, 1050-1063. -/
def St.step (s : St p) (i : In p) : St p where
  fsm := s.nextFsm i.run
  sstart := s.nextStart i.run
  sbusy := s.nextBusy
  ivalid := if tap s.endL 0 then false else if tap s.startL 2 then true else s.ivalid
  rr := if tap s.endL 0 then true else if tap s.startL 3 then false else if tap s.startL 2 then true else s.rr
  breg := if s.sbusy then true else if !s.sinkBusy && tap s.busyL (p.depth + 2) then false else s.breg
  startL := push (p.depth + 4) s.sstart s.startL
  endL := push (p.depth + 2) s.stop s.endL
  busyL := push (p.depth + 3) s.sbusy s.busyL
  cfg := fun j => (i.setSrc j).getD (s.cfg j)
  src := fun j => (p.gen j).step (s.cfg j) s.sstart s.stop (s.src j)
  rdata := fun j => if (p.gen j).renable (s.src j) then i.mem j ((p.gen j).raddr (s.src j)) else s.rdata j
  wdata := fun j => if s.sbusy then s.rdata j else s.wdata j
  setL := fun k => push (p.depth + 2) (i.setSnk k) (s.setL k)
  scfg := fun k => ((s.setL k).getD (p.depth + 1) none).getD (s.scfg k)
  snk := fun k => (p.sgen k).step (s.scfg k) s.sinkStart s.sinkStop (i.whn k) (i.dat k) (s.snk k)

/-! ## Generators of `set_source` and `set_sink` -/

/-- Registers of a source of `set_source`: state of `source_fsm`, the buffers, `source_ram_raddr`, `source_ram_renable`,
    `source_count`, `source_idle` (stream.py:200-262). -/
structure NSrc where
  st : ℕ
  offset : ℤ
  size : ℕ
  stride : ℤ
  raddr : ℤ
  renable : Bool
  count : ℕ
  idle : Bool

/-- One clock edge (stream.py:276-285, 2037-2092); the settings are offset, size, stride in registers of `aw`, `aw + 1` and
    `aw` bits. -/
def NSrc.step (aw : ℕ) (c : ℤ × ℕ × ℤ) (start stop : Bool) (x : NSrc) : NSrc :=
  if x.st = 0 then
    if start then
      { x with st := 1, renable := false
               offset := Pat.addr aw c.1, size := c.2.1 % 2 ^ (aw + 1), stride := Pat.addr aw c.2.2 }
    else { x with renable := false }
  else if x.st = 1 then
    { x with st := 2, idle := false, raddr := x.offset, renable := true, count := x.size }
  else
    { x with
      st := if stop || x.count == 1 then 0 else 2
      raddr := Pat.addr aw (x.raddr + x.stride)
      renable := !(stop || x.count == 1)
      count := Pat.dec aw x.count
      idle := stop || x.count == 1 }

/-- The generator of `set_source` (stream.py:700-731). -/
def normalSrc (aw : ℕ) : Gen where
  Set := ℤ × ℕ × ℤ
  σ := NSrc
  init := ⟨0, 0, 0, 0, 0, false, 0, true⟩
  step := NSrc.step aw
  idle := NSrc.idle
  renable := NSrc.renable
  raddr := NSrc.raddr

/-- The generator of `set_source_pattern` (stream.py:738-796, 2121-2221), as in C31. -/
def patternSrc (aw : ℕ) : Gen where
  Set := ℤ × List (ℕ × ℤ)
  σ := Pat.Src
  init := ⟨0, 0, [], 0, false, true⟩
  step := fun c start stop x => Pat.Src.step aw c.1 c.2 x ⟨start, true, stop⟩
  idle := Pat.Src.idle
  renable := Pat.Src.renable
  raddr := Pat.Src.raddr

/-- Registers of a sink of `set_sink` (stream.py:342-386). -/
structure NSink (V : Type) where
  st : ℕ
  offset : ℤ
  size : ℕ
  stride : ℤ
  waddr : ℤ
  wdata : V
  wenable : Bool
  count : ℕ

/-- One clock edge (stream.py:399-402, 2749-2794). -/
def NSink.step {V : Type} (aw : ℕ) (c : ℤ × ℕ × ℤ) (start stop whn : Bool) (d : V) (y : NSink V) : NSink V :=
  if y.st = 0 then
    if start then
      { y with st := 1, wenable := false
               offset := Pat.addr aw c.1, size := c.2.1 % 2 ^ (aw + 1), stride := Pat.addr aw c.2.2 }
    else { y with wenable := false }
  else if y.st = 1 then
    { y with st := 2, wenable := false, waddr := Pat.addr aw (y.offset - y.stride), count := y.size }
  else
    { y with
      st := if stop then 0 else if whn && y.count == 1 then 0 else 2
      waddr := if whn then Pat.addr aw (y.waddr + y.stride) else y.waddr
      wdata := if whn then d else y.wdata
      wenable := whn
      count := if whn then Pat.dec aw y.count else y.count }

/-- The generator of `set_sink` (stream.py:1031-1066). -/
def normalSink (V : Type) (aw : ℕ) (v0 : V) : SGen V where
  Set := ℤ × ℕ × ℤ
  σ := NSink V
  init := ⟨0, 0, 0, 0, 0, v0, false, 0⟩
  step := NSink.step aw
  write := fun y => if y.wenable then some (y.waddr, y.wdata) else none

/-- The generator of `set_sink_pattern` (stream.py:1073-1137, 2822-2913) with `max_pattern_length` dimensions, as in C31. -/
def patternSink (V : Type) (aw maxLen : ℕ) (v0 : V) : SGen V where
  Set := ℤ × List (ℕ × ℤ)
  σ := Pat.Sink V
  init := ⟨0, 0, List.replicate maxLen ⟨0, 0, 0, 0⟩, 0, v0, false⟩
  step := fun c start stop whn d y => Pat.Sink.step aw c.1 c.2 y ⟨⟨start, true, stop⟩, whn, d⟩
  write := fun y => if y.wenable then some (y.waddr, y.wdata) else none

end SRun
