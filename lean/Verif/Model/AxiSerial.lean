import Verif.Model.AxiMem

/-!
# Model of the serial AXI memory (veriloggen/types/axi.py: `AxiSerialMultiportMemoryModel`)

One FSM per port serves reads and writes one after the other, without FIFOs.  One step is one rising clock edge, without
reset.  The writes of the ports are in different `always` blocks (fsm/fsm.py:667-690 puts the code of the shared `Seq` and the
FSM of the port into the block of that port), so the order of the writes of one cycle is left open: it is the argument `ord`.
The statements of the shared `Seq` (types/axi.py:4315-4321, 4372-4396) are emitted in the block of every port and once more on
their own; they assign the same values each time.  Not modelled: identifiers, the memory image file, the `read` and `write`
intrinsics, the width of the sleep counters.
-/

namespace AxiSerial
open AxiMem

/-- The states of the FSM of a port (types/axi.py:4398-4519): `idle` is state 0, `wa` is `write_mode`, `wd k` are the
    delay states with `wd 0` the one that raises `wready`, `wdat` takes data, `ra` is `read_mode`, `rd (k + 1)` are the
    delay states, `rd 0` gives data.  The numbers of the states are different by the choice of `read_mode` (4398-4401). -/
inductive Ph
  | idle
  | wa
  | wd (k : ℕ)
  | wdat
  | ra
  | rd (k : ℕ)
  deriving DecidableEq

/-- The registers of a port (types/axi.py:4275-4295, 4363-4378); `prevW`, `prevA`, `prevR` say that the state one cycle
    ago was `wa`, `ra`, `rd 0`: what `Delay(1)` refers to (4415, 4465, 4505). -/
structure P (B : Type) where
  ph : Ph
  awready : Bool
  prevW : Bool
  waddr : ℕ
  wcount : ℕ
  wready : Bool
  bvalid : Bool
  arready : Bool
  prevA : Bool
  raddr : ℕ
  rcount : ℕ
  prevR : Bool
  rvalid : Bool
  rlast : Bool
  rdata : ℕ → B
  sleep : ℕ
  keepc : ℕ

/-- The registers after reset (types/axi.py:4275-4295, 4363-4378). -/
def P.init {B : Type} (d0 : ℕ → B) : P B :=
  ⟨.idle, false, false, 0, 0, false, false, false, false, 0, 0, false, false, false, d0, 0, 0⟩

section
variable {B : Type} (c : Cfg) (u : B)

/-- A word is transferred: `wvalid` and `wready` (types/axi.py:4437, 4451, 4319). -/
def P.acc (s : P B) (i : In B) : Bool := i.wvalid && s.wready

/-- The last word of the request is transferred (types/axi.py:4451). -/
def P.fin (s : P B) (i : In B) : Bool := s.acc i && s.wcount == 1

/-- A new beat may be put into the output registers (types/axi.py:4477, 4483). -/
def P.ack (s : P B) (i : In B) : Bool := i.rready || !s.rvalid

/-- A new beat is put into the output registers (types/axi.py:4481-4502). -/
def P.push (s : P B) (i : In B) : Bool :=
  (c.interval == 0 || decide (s.sleep < c.interval - 1)) && decide (s.rcount > 0) && s.ack i

/-- The next state: the last jump whose condition holds wins (types/axi.py:4403-4404, 4418-4419, 4422-4429, 4451-4454,
    4468-4469, 4472-4473, 4518-4519). -/
def P.nextPh (s : P B) (i : In B) : Ph :=
  match s.ph with
  | .idle => if i.arvalid then .ra else if i.awvalid then .wa else .idle
  | .wa => if i.awvalid then .wd c.wdelay else .idle
  | .wd 0 => .wdat
  | .wd (k + 1) => .wd k
  | .wdat => if s.fin i then .idle else .wdat
  | .ra => if i.arvalid then .rd c.rdelay else .idle
  | .rd 0 => if s.rvalid && i.rready && s.rcount == 0 then .idle else .rd 0
  | .rd (k + 1) => .rd k

/-- One clock edge of a port, `mem` being the memory before the edge (types/axi.py:4315-4321, 4358-4519). -/
def P.step (mem : ℕ → B) (i : In B) (s : P B) : P B where
  ph := s.nextPh c i
  -- types/axi.py:4410-4417, 4437-4440: the delayed statement comes first
  awready := if s.ph = .wa ∧ i.awvalid = true ∧ s.bvalid = false then true else if s.prevW then false else s.awready
  prevW := s.ph = .wa
  waddr :=
    if s.ph = .wa ∧ i.awvalid = true ∧ s.bvalid = false then i.awaddr % 2 ^ c.aw
    else if s.ph = .wdat ∧ s.acc i = true then (s.waddr + c.nb) % 2 ^ c.aw else s.waddr
  wcount :=
    if s.ph = .wa ∧ i.awvalid = true ∧ s.bvalid = false then i.awcnt % 2 ^ (c.aw + 1)
    else if s.ph = .wdat ∧ s.acc i = true then (s.wcount + 2 ^ (c.aw + 1) - 1) % 2 ^ (c.aw + 1) else s.wcount
  -- types/axi.py:4426-4428, 4443-4453
  wready :=
    if s.ph = .wd 0 then true
    else if s.ph = .wdat then
      (if s.fin i then false else if c.interval = 0 then s.wready else decide (s.sleep ≠ c.interval - 1))
    else s.wready
  -- types/axi.py:4316-4321
  bvalid := if s.acc i && i.word.last then true else if s.bvalid && i.bready then false else s.bvalid
  -- types/axi.py:4460-4467, 4481-4502
  arready := if s.ph = .ra ∧ i.arvalid = true then true else if s.prevA then false else s.arready
  prevA := s.ph = .ra
  raddr :=
    if s.ph = .ra ∧ i.arvalid = true then i.araddr % 2 ^ c.aw
    else if s.ph = .rd 0 ∧ s.push c i = true then (s.raddr + c.nb) % 2 ^ c.aw else s.raddr
  rcount :=
    if s.ph = .ra ∧ i.arvalid = true then i.arcnt % 2 ^ (c.aw + 1)
    else if s.ph = .rd 0 ∧ s.push c i = true then s.rcount - 1 else s.rcount
  prevR := s.ph = .rd 0
  -- types/axi.py:4481-4515
  rvalid :=
    if s.ph = .rd 0 ∧ s.rvalid = true ∧ i.rready = false then s.rvalid
    else if s.ph = .rd 0 ∧ s.push c i = true then true else if s.prevR then false else s.rvalid
  rlast :=
    if s.ph = .rd 0 ∧ s.rvalid = true ∧ i.rready = false then s.rlast
    else if s.ph = .rd 0 ∧ s.push c i = true ∧ s.rcount = 1 then true else if s.prevR then false else s.rlast
  -- types/axi.py:4476-4479, 4513
  rdata := if s.ph = .rd 0 ∧ s.ack i = true then fun k => rdByte u c.size mem (s.raddr + k) else s.rdata
  -- types/axi.py:4372-4396
  sleep :=
    if c.interval = 0 then s.sleep
    else if s.sleep = c.interval - 1 ∧ (c.keep = 0 ∨ s.keepc = c.keep - 1) then 0
    else if s.sleep < c.interval - 1 then s.sleep + 1 else s.sleep
  keepc :=
    if c.interval = 0 ∨ c.keep = 0 then s.keepc
    else if s.sleep = c.interval - 1 then (if s.keepc = c.keep - 1 then 0 else s.keepc + 1) else s.keepc

/-- The word that a port writes in this cycle, with its address: `wready` is not asked for (types/axi.py:4432-4435). -/
def P.store (s : P B) (i : In B) : Option (ℕ × Word B) :=
  if s.ph = .wdat ∧ i.wvalid = true then some (s.waddr, i.word) else none

/-- The registers of all ports and the memory (types/axi.py:4349-4350). -/
structure Sys (B : Type) where
  port : ℕ → P B
  mem : ℕ → B

/-- One clock edge; the ports write in the order `ord` (types/axi.py:4358-4519). -/
def Sys.step (ord : List ℕ) (inp : ℕ → In B) (s : Sys B) : Sys B where
  port p := (s.port p).step c u s.mem (inp p)
  mem := ord.foldl (fun m p =>
    match (s.port p).store (inp p) with
    | some (a, w) => storeWord c.nb c.size m a w
    | none => m) s.mem

end

end AxiSerial
