import Verif.Model.Seq

/-!
# AXI channels (types/axi.py:379-1909 and 2050-2147)

`write_request`, `write_data` and `read_request` add statements to the `Seq` of their channel each time they
are called.  The model is the list of `Seq` calls they make (so the emitted block is that of the `Seq` model),
for any number of calls with any arguments.  Not modelled: the optional `awid`/`arid` ports (constant 0), the
constant side signals, `disable_*`, and the skid buffer (`sb_depth`, see `Model/Skid`).
-/

namespace Axi

open Hdl

/-- `Ors(ready, Not(valid))` (types/axi.py:422, 571, 696): the output register is free. -/
def free (valid : Reg) (ready : Var) : Expr :=
  .fn fun env => if env ready ≠ 0 ∨ env valid.name = 0 then 1 else 0

/-- `Ands(valid, Not(ready))` (types/axi.py:440, 587, 711): the beat on offer is not taken. -/
def stall (valid : Reg) (ready : Var) : Expr :=
  .fn fun env => if env valid.name ≠ 0 ∧ env ready = 0 then 1 else 0

/-- `seq.If(cond)` for an optional condition (types/axi.py:418-419, 568-569, 693-694). -/
def ifCond (cond : Option Expr) : List SeqOp := cond.toList.map fun c => .iff [c]

/-- The registers of an address channel and its ready input (types/axi.py:103-145, 259-300). -/
structure AddrChan where
  addr : Reg
  len : Reg
  valid : Reg
  ready : Var

/-- The arguments of one call of `write_request` or `read_request`; `length - 1` and `length == 0` are taken
    on the value of `length` (types/axi.py:415, 689). -/
structure AddrCall where
  cond : Option Expr
  addr : Expr
  length : Expr

/-- `length - 1` (types/axi.py:428, 702). -/
def AddrCall.lenMinus1 (a : AddrCall) : Expr := .fn fun env => a.length.eval env - 1

/-- `length == 0` (types/axi.py:431). -/
def AddrCall.isZero (a : AddrCall) : Expr := .fn fun env => if a.length.eval env = 0 then 1 else 0

/-- `AxiMasterWriteAddress.write_request` (types/axi.py:415-445). -/
def writeRequest (c : AddrChan) (acceptable : Expr) (a : AddrCall) : List SeqOp :=
  ifCond a.cond ++
  [.iff [acceptable.and (free c.valid c.ready)],
   .add [.subst c.addr a.addr, .subst c.len a.lenMinus1, .subst c.valid (.int 1)],
   .thn, .iff [a.isZero], .add [.subst c.valid (.int 0)],
   .delay 1, .add [.subst c.valid (.int 0)],
   .iff [stall c.valid c.ready], .add [.subst c.valid (.var c.valid.name)]]

/-- `AxiMasterReadAddress.read_request` (types/axi.py:689-715). -/
def readRequest (c : AddrChan) (a : AddrCall) : List SeqOp :=
  ifCond a.cond ++
  [.iff [free c.valid c.ready],
   .add [.subst c.addr a.addr, .subst c.len a.lenMinus1, .subst c.valid (.int 1)],
   .delay 1, .add [.subst c.valid (.int 0)],
   .iff [stall c.valid c.ready], .add [.subst c.valid (.var c.valid.name)]]

/-- The registers of the write data channel and its ready input (types/axi.py:167-193). -/
structure DataChan where
  data : Reg
  strb : Reg
  last : Reg
  valid : Reg
  ready : Var

/-- The arguments of one call of `write_data` (types/axi.py:564). -/
structure DataCall where
  cond : Option Expr
  data : Expr
  last : Expr

/-- `Repeat(Int(1, 1), datawidth // 8)` (types/axi.py:577-578): all strobe bits set. -/
def allOnes (c : DataChan) : Expr := .fn fun _ => (2 ^ c.strb.width : Nat) - 1

/-- `AxiMasterWriteData.write_data` (types/axi.py:564-593). -/
def writeData (c : DataChan) (a : DataCall) : List SeqOp :=
  ifCond a.cond ++
  [.iff [free c.valid c.ready],
   .add [.subst c.data a.data, .subst c.valid (.int 1), .subst c.last a.last, .subst c.strb (allOnes c)],
   .delay 1, .add [.subst c.valid (.int 0), .subst c.last (.int 0)],
   .iff [stall c.valid c.ready],
   .add [.subst c.valid (.var c.valid.name), .subst c.last (.var c.last.name)]]

/-- The registers of a channel of AXI4-Lite, of the slave read data channel or of an AXI4-Stream output, in the
    order in which the payload registers are assigned around `valid` (types/axi.py:148-165, 196-216, 303-320,
    323-375, 1672-1720). -/
structure LiteChan where
  pay : Reg
  valid : Reg
  ready : Var

/-- `AxiLiteMasterWriteAddress.write_request` (types/axi.py:876-901). -/
def liteWriteRequest (c : LiteChan) (acceptable : Expr) (cond : Option Expr) (addr : Expr) : List SeqOp :=
  ifCond cond ++
  [.iff [acceptable.and (free c.valid c.ready)],
   .add [.subst c.pay addr, .subst c.valid (.int 1)],
   .delay 1, .add [.subst c.valid (.int 0)],
   .iff [stall c.valid c.ready], .add [.subst c.valid (.var c.valid.name)]]

/-- `AxiLiteMasterReadAddress.read_request` (types/axi.py:1074-1098) and `AxiLiteSlaveReadData.push_read_data`
    (types/axi.py:1634-1657). -/
def litePush (c : LiteChan) (cond : Option Expr) (v : Expr) : List SeqOp :=
  ifCond cond ++
  [.iff [free c.valid c.ready],
   .add [.subst c.pay v, .subst c.valid (.int 1)],
   .delay 1, .add [.subst c.valid (.int 0)],
   .iff [stall c.valid c.ready], .add [.subst c.valid (.var c.valid.name)]]

/-- The arguments of one call with a single payload (types/axi.py:876, 985, 1074, 1634). -/
structure LiteCall where
  cond : Option Expr
  val : Expr

/-- The registers of the AXI4-Lite write data channel (types/axi.py:196-216). -/
structure LiteDataChan where
  data : Reg
  strb : Reg
  valid : Reg
  ready : Var

/-- `AxiLiteMasterWriteData.write_data` (types/axi.py:985-1011). -/
def liteWriteData (c : LiteDataChan) (a : LiteCall) : List SeqOp :=
  ifCond a.cond ++
  [.iff [free c.valid c.ready],
   .add [.subst c.data a.val, .subst c.valid (.int 1), .subst c.strb (.fn fun _ => (2 ^ c.strb.width : Nat) - 1)],
   .delay 1, .add [.subst c.valid (.int 0)],
   .iff [stall c.valid c.ready], .add [.subst c.valid (.var c.valid.name)]]

/-- The registers of an AXI4-Stream output (types/axi.py:1672-1720) or of the slave read data channel
    (types/axi.py:323-375); the optional side registers `tid`, `tuser`, `tdest` that exist are in `side`. -/
structure StreamChan where
  data : Reg
  last : Option Reg
  side : List Reg
  valid : Reg
  ready : Var

/-- The arguments of one call of `AxiStreamOutData.write_data` or `AxiSlaveReadData.push_read_data`; `side`
    holds one value for each side register (types/axi.py:1424, 1879). -/
structure StreamCall where
  cond : Option Expr
  data : Expr
  last : Expr
  side : List Expr

/-- `AxiStreamOutData.write_data` (types/axi.py:1879-1909), and with `last := some _, side := []`
    `AxiSlaveReadData.push_read_data` (types/axi.py:1424-1451). -/
def streamWrite (c : StreamChan) (a : StreamCall) : List SeqOp :=
  ifCond a.cond ++
  [.iff [free c.valid c.ready],
   .add ([.subst c.data a.data, .subst c.valid (.int 1)] ++ c.last.toList.map (fun r => .subst r a.last) ++
     (c.side.zip a.side).map fun q => .subst q.1 q.2),
   .delay 1, .add ([.subst c.valid (.int 0)] ++ c.last.toList.map fun r => .subst r (.int 0)),
   .iff [stall c.valid c.ready],
   .add ([.subst c.valid (.var c.valid.name)] ++ c.last.toList.map fun r => .subst r (.var r.name))]

/-- The `Seq` calls in `AxiMaster.__init__` that keep the outstanding-write count (types/axi.py:2055-2071, and
    2232-2248 for AXI4-Lite);
    `count` is the register of width `outstanding_wcount_width`. -/
def outstanding (count : Reg) (awvalid awready bvalid bready : Var) : List SeqOp :=
  let aw : Expr := .fn fun env => if env awvalid ≠ 0 ∧ env awready ≠ 0 then 1 else 0
  let b : Expr := .fn fun env => if env bvalid ≠ 0 ∧ env bready ≠ 0 then 1 else 0
  [.iff [aw, b.not, .fn fun env => if env count.name < 2 ^ count.width - 1 then 1 else 0],
   .add [.subst count (.fn fun env => env count.name + 1)],
   .iff [aw.not, b, .fn fun env => if env count.name > 0 then 1 else 0],
   .add [.subst count (.fn fun env => env count.name - 1)]]

/-- `write_acceptable` (types/axi.py:2117-2118). -/
def acceptable (count : Reg) : Expr :=
  .fn fun env => if env count.name < 2 ^ count.width - 2 then 1 else 0

/-- `AxiLiteMaster.write_acceptable` (types/axi.py:2269-2270). -/
def liteAcceptable (count : Reg) : Expr := .fn fun env => if env count.name = 0 then 1 else 0

/-- `has_outstanding_write` (types/axi.py:2073-2076); `write_completed` (2146-2147) is its
    negation. -/
def hasOutstanding (count : Reg) (awvalid : Var) (env : Env) : Bool :=
  decide (env count.name > 0) || decide (env awvalid ≠ 0)

end Axi
