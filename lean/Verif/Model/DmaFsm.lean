import Mathlib.Data.Nat.Notation

/-!
# The DMA request state machines (thread/axim.py)

One step is one clock edge without reset.  `_synthesize_read_req_fsm` and `_synthesize_write_req_fsm` drive the
same registers in the same way; they differ in when a burst request is acknowledged, which is an input here:
for reads `Ors(arready, Not(arvalid))`, for writes `enq_cond` (`Not(almost_full)`, `Ors(awready, Not(awvalid))`,
`write_acceptable()`).  Not modelled here: the pass-through registers `op_sel`, `local_*` and the request FIFO
(see `Model/DmaReq` and `Model/ThreadFifo`), `global_base_addr`, and `fsm_as_module`.
-/

namespace Dma

/-- Parameters: `2 ^ s` bytes per AXI word, `2 ^ b` beats at most in a burst, addresses of `aw` bits
    (types/axi.py:2010-2040 and thread/axim.py:33-36), `boundary_size` 4096 (types/axi.py:1997). -/
structure Cfg where
  aw : ℕ
  s : ℕ
  b : ℕ

/-- `max_burstlen` (thread/axim.py:828, 1223). -/
def Cfg.maxBurst (c : Cfg) : ℕ := 2 ^ c.b

/-- `boundary_size` (types/axi.py:1997). -/
def boundary : ℕ := 4096

/-- `mask_addr` (types/axi.py:2091-2097): two wires of `aw` bits. -/
def Cfg.maskAddr (c : Cfg) (addr : ℕ) : ℕ := (((addr >>> c.s) % 2 ^ c.aw) <<< c.s) % 2 ^ c.aw

/-- `check_boundary` (types/axi.py:2099-2106). -/
def Cfg.checkBoundary (c : Cfg) (addr length : ℕ) : Bool :=
  decide ((c.maskAddr addr &&& (boundary - 1)) + (length <<< c.s) ≥ boundary)

/-- `rest_boundary` (types/axi.py:2108-2115). -/
def Cfg.restBoundary (c : Cfg) (addr : ℕ) : ℕ :=
  (boundary - (c.maskAddr addr &&& (boundary - 1))) >>> c.s

/-- The values `_check_4KB_boundary` (thread/axim.py:1620-1638) assigns to the request size and to the rest;
    both registers have `aw + 1` bits. -/
def Cfg.check4KB (c : Cfg) (addr rest : ℕ) : ℕ × ℕ :=
  let w (v : ℕ) := v % 2 ^ (c.aw + 1)
  if rest ≤ c.maxBurst ∧ c.checkBoundary addr rest then
    (w (c.restBoundary addr), w (rest - c.restBoundary addr))
  else if rest ≤ c.maxBurst then (w rest, 0)
  else if c.checkBoundary addr c.maxBurst then
    (w (c.restBoundary addr), w (rest - c.restBoundary addr))
  else (w c.maxBurst, w (rest - c.maxBurst))

/-- The registers (thread/axim.py:72-79, 134-135, 825-827): `st1` says the machine is in its second state. -/
structure ReqSt where
  st1 : Bool
  start : Bool
  busy : Bool
  cont : Bool
  addr : ℕ
  rest : ℕ
  cur : ℕ

/-- All registers are reset to 0 (thread/axim.py:72-79, 134-135, 825-827). -/
def ReqSt.init : ReqSt := ⟨false, false, false, false, 0, 0, 0⟩

/-- What happens at an edge: a DMA call asks for a transfer (address, number of AXI words), the request FIFO is
    almost full, a burst request would be acknowledged (thread/axim.py:766, 834, 855, 1161, 1229, 1262-1265). -/
structure ReqIn where
  ask : Option (ℕ × ℕ)
  almostFull : Bool
  ack : Bool

/-- `read_req_idle` / `write_req_idle` (thread/axim.py:143-144, 234-235). -/
def ReqSt.idle (σ : ReqSt) : Bool := !σ.start && !σ.busy

/-- A DMA call starts: `Ands(fsm.here, self.read_req_idle)` (thread/axim.py:766, 1161); a call that finds the
    machine busy waits. -/
def ReqSt.taken (σ : ReqSt) (i : ReqIn) : Option (ℕ × ℕ) := if σ.idle then i.ask else none

/-- A burst is requested at this edge (thread/axim.py:855, 1262-1265). -/
def ReqSt.issued (σ : ReqSt) (i : ReqIn) : Option (ℕ × ℕ) :=
  if σ.st1 && i.ack then some (σ.addr, σ.cur) else none

/-- `check_cond` (thread/axim.py:847-848, 1242-1243). -/
def ReqSt.check (σ : ReqSt) (i : ReqIn) : Bool := !σ.st1 && (σ.start || σ.cont) && !i.almostFull

/-- One clock edge (thread/axim.py:149-151, 776-814, 831-868, 1226-1278; the order of the assignments is that of
    the source, later ones win). -/
def ReqSt.step (c : Cfg) (σ : ReqSt) (i : ReqIn) : ReqSt :=
  let ackd := σ.st1 && i.ack
  let done := ackd && σ.rest == 0
  { st1 := if σ.check i then true else if ackd then false else σ.st1
    start := (σ.taken i).isSome || (σ.start && i.almostFull)
    busy := if done then false else if !σ.st1 && σ.start then true else σ.busy
    cont := if done then false else if ackd then true else σ.cont
    addr := if ackd then (σ.addr + σ.cur * 2 ^ c.s) % 2 ^ c.aw
      else match σ.taken i with
        | some (a, _) => c.maskAddr a
        | none => σ.addr
    rest := if σ.check i then (c.check4KB σ.addr σ.rest).2
      else match σ.taken i with
        | some (_, n) => n % 2 ^ (c.aw + 1)
        | none => σ.rest
    cur := if σ.check i then (c.check4KB σ.addr σ.rest).1 else σ.cur }

/-- The number of AXI words of a transfer of `n` RAM words (thread/axim.py:780-797, 1175-1192), when a RAM word
    is `pack` AXI words (narrow). -/
def narrowSize (pack n : ℕ) : ℕ := if pack &&& (pack - 1) = 0 then n <<< Nat.log2 pack else n * pack

/-- The same when an AXI word is `pack` RAM words (wide) (thread/axim.py:780-797, 1175-1192). -/
def wideSize (pack n : ℕ) : ℕ :=
  let shamt := Nat.log2 pack
  (n >>> shamt) + if (n &&& (2 ^ shamt - 1)) > 0 then 1 else 0

end Dma
