/-!
# Model of the generated RAM (`veriloggen/types/ram.py`)
-/

namespace Ram

/-- Input wires of one port, types/ram.py:20-21 (`enable` exists with `with_enable`). -/
structure PortOp (α : Type) where
  enable : Bool
  wenable : Bool
  addr : Nat
  wdata : α

/-- The memory array (types/ram.py:31) and the read register of every port
(types/ram.py:22-24). -/
structure State (α : Type) where
  mem : Nat → α
  rdata : List α

/-- The address a port selects: the wire is `addrwidth` bits wide (types/ram.py:20-21). -/
def PortOp.index {α : Type} (aw : Nat) (p : PortOp α) : Nat := p.addr % 2 ^ aw

/-- Whether the body of the port's always block runs, types/ram.py:83-84. -/
def PortOp.active {α : Type} (withEnable : Bool) (p : PortOp α) : Bool := !withEnable || p.enable

/-- The non-blocking memory writes issued in a cycle, types/ram.py:73-79. -/
def writes {α : Type} (aw : Nat) (withEnable : Bool) (ops : List (PortOp α)) : List (Nat × α) :=
  (ops.filter fun p => p.active withEnable && p.wenable).map fun p => (p.index aw, p.wdata)

/-- Committing non-blocking writes in the given order (types/ram.py:73-79). -/
def commit {α : Type} (mem : Nat → α) (ws : List (Nat × α)) : Nat → α :=
  ws.foldl (fun m w => fun a => if a = w.1 then w.2 else m a) mem

/-- Next value of one port's read register, types/ram.py:76-84: the written word on a write, the
addressed word of the pre-edge memory otherwise, unchanged when the port is not enabled. -/
def nextRdata {α : Type} (aw : Nat) (withEnable : Bool) (mem : Nat → α) (p : PortOp α) (old : α) : α :=
  if p.active withEnable then (if p.wenable then p.wdata else mem (p.index aw)) else old

/-- One clock edge. Every port has its own always block (types/ram.py:86-88), so Verilog fixes no
order between the writes of different ports: `sched` is the order in which they take effect. -/
def step {α : Type} (aw : Nat) (withEnable : Bool) (s : State α) (ops : List (PortOp α))
    (sched : List (Nat × α)) : State α where
  mem := commit s.mem sched
  rdata := List.zipWith (nextRdata aw withEnable s.mem) ops s.rdata

/-- Combinational read data of an asynchronous port (`sync=False`), types/ram.py:90-91. -/
def asyncRdata {α : Type} (aw : Nat) (s : State α) (p : PortOp α) : α := s.mem (p.index aw)

/-- Initial memory from `initvals`, types/ram.py:64-71: short lists are extended with zero words
(`z`). -/
def initMem {α : Type} (z : α) (initvals : List α) : Nat → α := fun a => initvals.getD a z

end Ram

/-! # Burst machines of `thread.RAM` (`veriloggen/thread/ram.py`) -/

namespace Burst

/-- Registers of `read_burst` (thread/ram.py:206-213) and the read register of the RAM port it
uses. `busy` is the FSM state (0 idle, 1 running). -/
structure RState (α : Type) where
  busy : Bool
  addr : Nat
  stride : Nat
  length : Nat
  rvalid : Bool
  rlast : Bool
  rdata : α

/-- Inputs of `read_burst`, thread/ram.py:200-201. -/
structure RIn where
  cond : Bool
  addr : Nat
  stride : Nat
  length : Nat
  rready : Bool
  rquit : Bool

/-- Reset state (thread/ram.py:208-213 `initval=0`). -/
def rinit {α : Type} (r0 : α) : RState α := ⟨false, 0, 0, 0, false, false, r0⟩

/-- One clock edge of `read_burst`, thread/ram.py:215-246, with the RAM port it drives
(thread/ram.py:224-225 `renable`, types/ram.py:76-84). Address registers are `addrwidth` bits.
Simplification: the port is used by nobody else and the memory does not change. -/
def rstep {α : Type} (aw : Nat) (mem : Nat → α) (s : RState α) (i : RIn) : RState α :=
  if s.busy then
    let renable := !s.rvalid || i.rready
    let rdata := if renable then mem (s.addr % 2 ^ aw) else s.rdata
    -- If(rready, _length > 0)
    let adv := i.rready && decide (s.length > 0)
    let addr := if adv then (s.addr + s.stride) % 2 ^ aw else s.addr
    let length := if adv then s.length - 1 else s.length
    let rvalid := if adv then true else s.rvalid
    -- If(rready, _length <= 1)
    let rlast := if i.rready && decide (s.length ≤ 1) then true else s.rlast
    -- If(rlast, rvalid, rready)
    let fin := s.rlast && s.rvalid && i.rready
    let rvalid := if fin then false else rvalid
    let rlast := if fin then false else rlast
    -- If(rquit)
    let rvalid := if i.rquit then false else rvalid
    let rlast := if i.rquit then false else rlast
    { busy := if i.rquit then false else if fin then false else true
      addr := addr, stride := s.stride, length := length, rvalid := rvalid, rlast := rlast
      rdata := rdata }
  else
    { busy := i.cond && decide (i.length > 0)
      addr := i.addr % 2 ^ aw, stride := i.stride % 2 ^ aw, length := i.length
      rvalid := false, rlast := false, rdata := s.rdata }

/-- Registers of `write_burst`, thread/ram.py:268-274. -/
structure WState where
  busy : Bool
  addr : Nat
  stride : Nat
  length : Nat
  done : Bool
  deriving DecidableEq

/-- Inputs of `write_burst`, thread/ram.py:262-263. -/
structure WIn (α : Type) where
  cond : Bool
  addr : Nat
  stride : Nat
  length : Nat
  wdata : α
  wvalid : Bool
  wlast : Bool
  wquit : Bool

/-- Reset state (thread/ram.py:262-280). -/
def winit : WState := ⟨false, 0, 0, 0, false⟩

/-- The RAM write issued in this cycle, thread/ram.py:284-286. -/
def wemit {α : Type} (s : WState) (i : WIn α) : Option (Nat × α) :=
  if s.busy && i.wvalid then some (s.addr, i.wdata) else none

/-- `wready`, thread/ram.py:285. -/
def wready (s : WState) : Bool := s.busy

/-- One clock edge of `write_burst`, thread/ram.py:276-301. -/
def wstep {α : Type} (aw : Nat) (s : WState) (i : WIn α) : WState :=
  if s.busy then
    -- If(wvalid)
    let addr := if i.wvalid then (s.addr + s.stride) % 2 ^ aw else s.addr
    let length := if i.wvalid then s.length - 1 else s.length
    let done := if i.wvalid then false else s.done
    -- If(wvalid, _length <= 1), If(wvalid, wlast)
    let done := if i.wvalid && decide (s.length ≤ 1) then true else done
    let done := if i.wvalid && i.wlast then true else done
    { busy := if i.wquit then false
              else if i.wvalid && i.wlast then false
              else if i.wvalid && decide (s.length ≤ 1) then false else true
      addr := addr, stride := s.stride, length := length, done := done }
  else
    { busy := i.cond && decide (i.length > 0)
      addr := i.addr % 2 ^ aw, stride := i.stride % 2 ^ aw, length := i.length, done := false }

end Burst
