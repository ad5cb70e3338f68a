import Mathlib.Data.Nat.Notation
import Mathlib.Logic.Function.Basic
import Mathlib.Data.Nat.Log

/-!
# Model of the register slaves (veriloggen/thread/axis.py, veriloggen/types/axi.py)

`AXISLiteRegister` (AXI4-Lite) and `AXISRegister` (AXI4 with bursts).  The registers hold values of a type `D` (words of
`datawidth` bits; `z` the initial value 0, `u` the undefined value of a `PatternMux` without match).  The signals are
those of the generated hardware; one step is one rising clock edge, without reset.  Not modelled: `*id`, `*user` (except
`rid` of `AXISRegister`), the sideband signals the slave ignores, `length = 1` (`maskwidth` is 0 then).
-/

namespace AxiReg

/-- What a thread does to the registers in one cycle, i.e. while its FSM is in the state of the call
    (thread/axis.py:182-241, `AXISLiteRegister`: 359-418).  `i` is the register number. -/
inductive ThOp (D : Type)
  /-- `write(i, v)` (thread/axis.py:182-189, 359-366) -/
  | write (i : ℕ) (v : D)
  /-- `write_flag(i, v, r)` (thread/axis.py:191-199, 368-376) -/
  | writeFlag (i : ℕ) (v r : D)
  /-- `wait_flag(i, v, r, polarity)` (thread/axis.py:218-241, 395-418) -/
  | waitFlag (i : ℕ) (v r : D) (polarity : Bool)

/-- The register file: `register`, `flag`, `resetval` (thread/axis.py:72-79, 260-267). -/
structure File (D : Type) where
  reg : ℕ → D
  flag : ℕ → Bool
  rval : ℕ → D

/-- The wait condition of `wait_flag` (thread/axis.py:228-231, 405-408). -/
def fires {D : Type} [DecidableEq D] (x v : D) (polarity : Bool) : Bool := (decide (x = v)) == polarity

/-- One thread operation: `old` are the values before the clock edge, `f` the values assigned so far by earlier
    statements of the `Seq` (thread/axis.py:182-241, 359-418). -/
def ThOp.apply {D : Type} [DecidableEq D] (old : File D) (f : File D) : ThOp D → File D
  | .write i v => { f with reg := Function.update f.reg i v, flag := Function.update f.flag i false }
  | .writeFlag i v r => ⟨Function.update f.reg i v, Function.update f.flag i true, Function.update f.rval i r⟩
  | .waitFlag i v r p => if fires (old.reg i) v p then { f with reg := Function.update f.reg i r } else f

/-- All thread operations of a cycle; their statements come after those of the bus, in program order
    (seq/seq.py: later assignments win) (seq/seq.py:103-137). -/
def applyOps {D : Type} [DecidableEq D] (old f : File D) (ops : List (ThOp D)) : File D := ops.foldl (ThOp.apply old) f

/-- Parameters: number of registers, `maskwidth`, `shift` (thread/axis.py:80-86, 268-274). -/
structure Par where
  len : ℕ
  mw : ℕ
  shift : ℕ

/-- The parameters for `length` registers of `datawidth` bits: `util.log2` is the logarithm rounded up (types/util.py:46-48,
    computed there in floating point; thread/axis.py:81-86, 269-274). -/
def Par.of (length datawidth : ℕ) : Par := ⟨length, Nat.clog 2 length, Nat.clog 2 (datawidth / 8)⟩

/-- `(addr >> shift) & mask` (thread/axis.py:107, 287). -/
def Par.idx (p : Par) (addr : ℕ) : ℕ := addr / 2 ^ p.shift % 2 ^ p.mw

/-- `PatternMux` over the registers (thread/axis.py:117-121, 297-301). -/
def File.rd {D : Type} (p : Par) (u : D) (f : File D) (i : ℕ) : D := if i < p.len then f.reg i else u

/-- The flag reset of a read beat and the register write of a write beat, for register number `m`
    (thread/axis.py:143-149, 160-164; 317-323, 337-341). -/
def busFile {D : Type} (p : Par) (f : File D) (m : ℕ) (readBeat : Bool) (write : Option D) : File D :=
  let f1 : File D := if readBeat && decide (m < p.len) && f.flag m then
      { f with reg := Function.update f.reg m (f.rval m), flag := Function.update f.flag m false } else f
  match write with
  | some v => if m < p.len then { f1 with reg := Function.update f1.reg m v } else f1
  | none => f1

/-! ## AXI4-Lite -/

/-- The bus inputs (and thread operations) of one cycle.  The strobe `wstrb` is not used by the slave
    (`mask` at thread/axis.py:158, 335). -/
structure In (D : Type) where
  awvalid : Bool
  awaddr : ℕ
  wvalid : Bool
  wdata : D
  wstrb : ℕ
  bready : Bool
  arvalid : Bool
  araddr : ℕ
  rready : Bool
  ops : List (ThOp D)

/-- The registers of `AXISLiteRegister` (thread/axis.py:278-346, types/axi.py:2610-2616, 2631-2682, 1634-1658).
    `st`: 0 waiting, 1 read, 2 read data offered, 3 write, 4 write response offered. -/
structure Lite (D : Type) where
  st : ℕ
  maskaddr : ℕ
  addr : ℕ
  writevalid : Bool
  readvalid : Bool
  prevAw : Bool
  prevAr : Bool
  bvalid : Bool
  rvalid : Bool
  rdata : D
  file : File D

/-- All registers 0 (thread/axis.py:72-79, 260-267). -/
def File.init {D : Type} (z : D) : File D := ⟨fun _ => z, fun _ => false, fun _ => z⟩

/-- Reset values (thread/axis.py:260-267, 285; types/axi.py:2636-2647). -/
def Lite.init {D : Type} (z : D) : Lite D := ⟨0, 0, 0, false, false, false, false, false, false, z, File.init z⟩

section
variable {D : Type} [DecidableEq D] (p : Par) (u : D)

/-- `awready` (types/axi.py:2654-2666). -/
def Lite.awready (s : Lite D) : Bool := s.st == 0 && (!s.writevalid && !s.readvalid && !s.bvalid && s.prevAw)

/-- `arready` (types/axi.py:2660-2668). -/
def Lite.arready (s : Lite D) : Bool := s.st == 0 && (!s.readvalid && !s.writevalid && s.prevAr && !s.prevAw)

/-- `wready` (types/axi.py:1527-1534, thread/axis.py:335). -/
def Lite.wready (s : Lite D) : Bool := s.st == 3

/-- One clock edge of `AXISLiteRegister` (thread/axis.py:278-346, types/axi.py:2610-2682). -/
def Lite.step (i : In D) (s : Lite D) : Lite D :=
  -- types/axi.py:2649-2652
  let writeAck := s.awready && i.awvalid && !s.bvalid
  let readAck := s.arready && i.arvalid
  -- types/axi.py:1641, thread/axis.py:315
  let ack := i.rready || !s.rvalid
  let rbeat := s.st == 1 && ack
  let wbeat := s.st == 3 && i.wvalid
  { -- thread/axis.py:294, 325-328, 332, 343-346
    st :=
      if s.st = 0 then (if s.writevalid then 3 else if s.readvalid then 1 else 0)
      else if s.st = 1 then (if ack then 2 else 1)
      else if s.st = 2 then (if i.rready && s.rvalid then 0 else 2)
      else if s.st = 3 then (if i.wvalid then 4 else 3)
      else if s.st = 4 then (if i.bready && s.bvalid then 0 else 4)
      else s.st
    -- thread/axis.py:286-288
    maskaddr := if s.st = 0 ∧ (s.readvalid || s.writevalid) = true then p.idx s.addr else s.maskaddr
    -- types/axi.py:2670-2680
    addr := if writeAck then i.awaddr else if readAck then i.araddr else s.addr
    writevalid := writeAck
    readvalid := !writeAck && readAck
    -- types/axi.py:2640-2647
    prevAw := i.awvalid
    prevAr := i.arvalid
    -- types/axi.py:2611-2616
    bvalid := if i.wvalid && s.wready then true else if s.bvalid && i.bready then false else s.bvalid
    -- types/axi.py:1638-1656
    rvalid := rbeat || (s.rvalid && !i.rready)
    rdata := if rbeat then s.file.rd p u s.maskaddr else s.rdata
    file := applyOps s.file (busFile p s.file s.maskaddr rbeat (if wbeat then some i.wdata else none)) i.ops }

end

/-! ## AXI4 -/

/-- Inputs of `AXISRegister`: those of `In` and the burst signals (`awlen` only sets `length`, which is not used for
    writes) (thread/axis.py:359-418). -/
structure BIn (D : Type) extends In D where
  awlen : ℕ
  wlast : Bool
  arlen : ℕ
  arid : ℕ

/-- The registers of `AXISRegister` (thread/axis.py:90-169, types/axi.py:2377-2392, 2407-2461, 1424-1452).
    `st`: 0 waiting, 1 read, 2 write; `rlastR` is the register `axis_rlast`, `rlast` the output. -/
structure Full (D : Type) where
  st : ℕ
  maskaddr : ℕ
  addr : ℕ
  length : ℕ
  rcount : ℕ
  rlastR : Bool
  writevalid : Bool
  readvalid : Bool
  prevAw : Bool
  prevAr : Bool
  bvalid : Bool
  rvalid : Bool
  rlast : Bool
  rdata : D
  rid : ℕ
  file : File D

/-- Reset values (thread/axis.py:72-79, 97-100; types/axi.py:2412-2424). -/
def Full.init {D : Type} (z : D) : Full D :=
  ⟨0, 0, 0, 0, 0, false, false, false, false, false, false, false, false, z, 0, File.init z⟩

section
variable {D : Type} [DecidableEq D] (p : Par) (u : D)

/-- `awready` (types/axi.py:2431-2443). -/
def Full.awready (s : Full D) : Bool := s.st == 0 && (!s.writevalid && !s.readvalid && !s.bvalid && s.prevAw)

/-- `arready` (types/axi.py:2437-2445). -/
def Full.arready (s : Full D) : Bool := s.st == 0 && (!s.readvalid && !s.writevalid && s.prevAr && !s.prevAw)

/-- `wready` (types/axi.py:1263-1270, thread/axis.py:158). -/
def Full.wready (s : Full D) : Bool := s.st == 2

/-- One clock edge of `AXISRegister` (thread/axis.py:90-169, types/axi.py:2377-2461). -/
def Full.step (i : BIn D) (s : Full D) : Full D :=
  -- types/axi.py:2426-2429
  let writeAck := s.awready && i.awvalid && !s.bvalid
  let readAck := s.arready && i.arvalid
  -- types/axi.py:1431, thread/axis.py:135
  let ack := i.rready || !s.rvalid
  let rbeat := s.st == 1 && ack
  let wbeat := s.st == 2 && i.wvalid
  { -- thread/axis.py:114, 151, 155, 169
    st :=
      if s.st = 0 then (if s.writevalid then 2 else if s.readvalid then 1 else 0)
      else if s.st = 1 then (if ack && s.rlastR then 0 else 1)
      else if s.st = 2 then (if i.wvalid && i.wlast then 0 else 2)
      else s.st
    -- thread/axis.py:106-108, 138, 166-168
    maskaddr :=
      if s.st = 0 then (if s.readvalid || s.writevalid then p.idx s.addr else s.maskaddr)
      else if rbeat || wbeat then (s.maskaddr + 1) % 2 ^ p.mw else s.maskaddr
    -- types/axi.py:2451-2459
    addr := if writeAck then i.awaddr else if readAck then i.araddr else s.addr
    length := if writeAck then i.awlen + 1 else if readAck then i.arlen + 1 else s.length
    -- thread/axis.py:102-105, 137-141
    rcount := if s.st = 0 ∧ s.readvalid = true then s.length else if rbeat then (s.rcount + 2 ^ 9 - 1) % 2 ^ 9 else s.rcount
    rlastR := if s.st = 0 ∧ s.readvalid = true then decide (s.length ≤ 1)
      else if rbeat then decide (s.rcount ≤ 1) else s.rlastR
    writevalid := writeAck
    readvalid := !writeAck && readAck
    -- types/axi.py:2417-2424
    prevAw := i.awvalid
    prevAr := i.arvalid
    -- types/axi.py:2387-2392
    bvalid := if i.wvalid && s.wready && i.wlast then true else if s.bvalid && i.bready then false else s.bvalid
    -- types/axi.py:1433-1450
    rvalid := rbeat || (s.rvalid && !i.rready)
    rlast := if rbeat then s.rlastR else if s.rvalid && !i.rready then s.rlast else false
    rdata := if rbeat then s.file.rd p u s.maskaddr else s.rdata
    -- types/axi.py:2382-2385
    rid := if readAck then i.arid else s.rid
    file := applyOps s.file (busFile p s.file s.maskaddr rbeat (if wbeat then some i.wdata else none)) i.ops }

end

end AxiReg
