import Verif.Model.Fifo
import Mathlib.Data.Nat.Notation

/-!
# Model of the AXI memory (veriloggen/types/axi.py: `AxiMemoryModel`)

The four FSMs, the three FIFOs (`Fifo`, `sync=False`), the byte memory and the sleep counters of the generated module; one
step is one rising clock edge, without reset.  `B` is the type of a byte, `u` the undefined byte.  Not modelled:
identifiers (`bid`, `rid`), the memory image file, the width of the sleep counters.
-/

namespace AxiMem

/-- The constructor parameters (types/axi.py:2912-2923): `nb` bytes per word, `aw` address width, `size` bytes of memory,
    address widths of the request and data FIFOs, delays, sleep parameters. -/
structure Cfg where
  nb : ℕ
  aw : ℕ
  size : ℕ
  reqAw : ℕ
  datAw : ℕ
  wdelay : ℕ
  rdelay : ℕ
  interval : ℕ
  keep : ℕ

/-- A word of write data as packed for the FIFO (types/axi.py:3357-3367). -/
structure Word (B : Type) where
  byte : ℕ → B
  strb : ℕ → Bool
  last : Bool

/-- The inputs of one cycle; `ops` are the bytes written by the `write` intrinsic (types/axi.py:3283-3299), `cnt` the
    values awlen + 1 and arlen + 1. -/
structure In (B : Type) where
  awvalid : Bool
  awaddr : ℕ
  awcnt : ℕ
  wvalid : Bool
  word : Word B
  bready : Bool
  arvalid : Bool
  araddr : ℕ
  arcnt : ℕ
  rready : Bool
  ops : List (ℕ × B)

/-- The registers (types/axi.py:2963-2983, 3020-3021, 3047-3063): states of the four FSMs, FIFOs, counters, outputs, memory.
    `prevR` is the delayed state of the read data FSM that `Delay(1)` uses (types/axi.py:3252-3255). -/
structure St (B : Type) where
  wst : ℕ
  awready : Bool
  wreq : Fifo.State (ℕ × ℕ)
  wdat : Fifo.State (Word B)
  dst : ℕ
  waddr : ℕ
  wcount : ℕ
  bvalid : Bool
  ast : ℕ
  arready : Bool
  rreq : Fifo.State (ℕ × ℕ)
  rst : ℕ
  prevR : Bool
  raddr : ℕ
  rcount : ℕ
  rvalid : Bool
  rlast : Bool
  rdata : ℕ → B
  sleep : ℕ
  keepc : ℕ
  mem : ℕ → B

/-- State after reset with the memory contents `mem` (types/axi.py:3020-3025, 3047-3063). -/
def St.init {B : Type} (w0 : Word B) (mem : ℕ → B) : St B :=
  ⟨0, false, Fifo.init (fun _ => (0, 0)) (0, 0), Fifo.init (fun _ => w0) w0, 0, 0, 0, false, 0, false,
   Fifo.init (fun _ => (0, 0)) (0, 0), 0, false, 0, 0, false, false, w0.byte, 0, 0, mem⟩

section
variable {B : Type} (c : Cfg) (u : B)

/-- A byte of the memory; undefined outside of it (Verilog array access; types/axi.py:3225). -/
def rdByte (size : ℕ) (m : ℕ → B) (a : ℕ) : B := if a < size then m a else u

/-- Writing one byte; ignored outside of the memory (types/axi.py:3154). -/
def wrByte (size : ℕ) (m : ℕ → B) (a : ℕ) (b : B) : ℕ → B := fun x => if x = a ∧ a < size then b else m x

/-- The selected bytes of a word at address `a` (types/axi.py:3151-3155). -/
def storeWord (nb size : ℕ) (m : ℕ → B) (a : ℕ) (w : Word B) : ℕ → B :=
  (List.range nb).foldl (fun m i => if w.strb i then wrByte size m (a + i) (w.byte i) else m) m

/-- Not in a sleep period: `sleep_interval_count != sleep_interval - 1` (types/axi.py:3142-3146); the read side uses `<`
    (types/axi.py:3229), which is the same since the counter does not exceed `sleep_interval - 1`. -/
def St.awake (s : St B) : Bool := c.interval == 0 || s.sleep != c.interval - 1

/-- The read side's condition (types/axi.py:3228-3249). -/
def St.awakeR (s : St B) : Bool := c.interval == 0 || decide (s.sleep < c.interval - 1)

/-- `almost_full` of a FIFO (types/fifo.py:128). -/
def almostFull {α : Type} (k : ℕ) (q : Fifo.State α) : Bool := (Fifo.flags k q).almostFull

/-- `empty` of a FIFO (types/fifo.py:129). -/
def empty {α : Type} (q : Fifo.State α) : Bool := Fifo.isEmpty q

/-- `wready` (types/axi.py:2985). -/
def St.wready (s : St B) : Bool := !almostFull c.datAw s.wdat

/-- One clock edge of a FIFO driven by `enq_rtl` and `deq_rtl` (thread/fifo.py:120-160). -/
def fifoStep {α : Type} (k : ℕ) (q : Fifo.State α) (enq : Bool) (x : α) (deq : Bool) : Fifo.State α :=
  Fifo.step k q ⟨enq && !almostFull k q, x, deq && !empty q⟩

/-- One clock edge (types/axi.py:3047-3266). -/
def St.step (i : In B) (s : St B) : St B :=
  -- address FSMs: the last state is `wdelay + 1` resp. 1 (types/axi.py:3083-3112, 3172-3197)
  let wE := s.wst == c.wdelay + 1
  let aE := s.ast == 1
  -- write data FSM (types/axi.py:3114-3170)
  let wreqEmpty := empty s.wreq
  let w := Fifo.asyncRdata s.wdat
  let wr := s.dst == 1 && !empty s.wdat && s.awake c
  let fin := wr && (s.wcount == 1 || w.last)
  -- read data FSM (types/axi.py:3199-3266)
  let rreqEmpty := empty s.rreq
  let rS := s.rst == c.rdelay + 1
  let ack := i.rready || !s.rvalid
  let push := rS && s.awakeR c && decide (s.rcount > 0) && ack
  { wst :=
      if s.wst = 0 then (if i.awvalid then 1 else 0)
      else if s.wst ≤ c.wdelay then s.wst + 1
      else if wE then (if !i.awvalid || (i.awvalid && s.awready) then 0 else s.wst)
      else s.wst
    awready :=
      if s.wst = 0 then false
      else if wE then (if i.awvalid && s.awready then false else if !almostFull c.reqAw s.wreq then true else s.awready)
      else s.awready
    wreq := fifoStep c.reqAw s.wreq (wE && (i.awvalid && s.awready)) (i.awaddr, i.awcnt) (s.dst == 0 && !wreqEmpty)
    -- types/axi.py:2985-2991, 3148-3149
    wdat := fifoStep c.datAw s.wdat (i.wvalid && s.wready c) i.word (s.dst == 1 && s.awake c && !empty s.wdat)
    dst :=
      if s.dst = 0 then (if !wreqEmpty then 1 else 0)
      else if s.dst = 1 then (if fin then 0 else 1)
      else s.dst
    waddr :=
      if s.dst = 0 then (if !wreqEmpty then (Fifo.asyncRdata s.wreq).1 else s.waddr)
      else if wr then (s.waddr + c.nb) % 2 ^ c.aw else s.waddr
    wcount :=
      if s.dst = 0 then (if !wreqEmpty then (Fifo.asyncRdata s.wreq).2 else s.wcount)
      else if wr then s.wcount - 1 else s.wcount
    bvalid := if s.dst = 0 then false else if fin then true else s.bvalid
    ast :=
      if s.ast = 0 then (if i.arvalid then 1 else 0)
      else if aE then (if !i.arvalid || (i.arvalid && s.arready) then 0 else s.ast)
      else s.ast
    arready :=
      if s.ast = 0 then false
      else if aE then (if i.arvalid && s.arready then false else if !almostFull c.reqAw s.rreq then true else s.arready)
      else s.arready
    rreq := fifoStep c.reqAw s.rreq (aE && (i.arvalid && s.arready)) (i.araddr, i.arcnt) (s.rst == 0 && !rreqEmpty)
    rst :=
      if s.rst = 0 then (if !rreqEmpty then 1 else 0)
      else if s.rst ≤ c.rdelay then s.rst + 1
      else if rS then (if s.rvalid && i.rready && s.rcount == 0 then 0 else s.rst)
      else s.rst
    prevR := rS
    raddr :=
      if s.rst = 0 then (if !rreqEmpty then (Fifo.asyncRdata s.rreq).1 else s.raddr)
      else if push then (s.raddr + c.nb) % 2 ^ c.aw else s.raddr
    rcount :=
      if s.rst = 0 then (if !rreqEmpty then (Fifo.asyncRdata s.rreq).2 else s.rcount)
      else if push then s.rcount - 1 else s.rcount
    -- later statements win: retry, then push, then the delayed de-assertion (types/axi.py:3228-3262)
    rvalid :=
      if rS && (s.rvalid && !i.rready) then s.rvalid else if push then true else if s.prevR then false else s.rvalid
    rlast :=
      if rS && (s.rvalid && !i.rready) then s.rlast else if push && s.rcount == 1 then true
      else if s.prevR then false else s.rlast
    rdata := if rS && ack then fun k => rdByte u c.size s.mem (s.raddr + k) else s.rdata
    -- types/axi.py:3057-3081
    sleep :=
      if c.interval = 0 then s.sleep
      else if s.sleep = c.interval - 1 ∧ (c.keep = 0 ∨ s.keepc = c.keep - 1) then 0
      else if s.sleep < c.interval - 1 then s.sleep + 1 else s.sleep
    keepc :=
      if c.interval = 0 ∨ c.keep = 0 then s.keepc
      else if s.sleep = c.interval - 1 then (if s.keepc = c.keep - 1 then 0 else s.keepc + 1) else s.keepc
    -- types/axi.py:3151-3155, then the `write` intrinsic
    mem := i.ops.foldl (fun m o => wrByte c.size m o.1 o.2)
      (if wr then storeWord c.nb c.size s.mem s.waddr w else s.mem) }

end

end AxiMem
