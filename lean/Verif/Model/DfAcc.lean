import Verif.Model.StreamArith
import Verif.Model.StreamAcc

/-!
# Accumulators of the dataflow library (dataflow/dtypes.py)

`_Accumulator` with `ReduceAdd`, `ReduceSub`, `ReduceMul`, `ReduceCustom`, `Counter`, `Pulse` and the reductions with a
valid signal.  When operands are taken is the matter of C58; here a step is one taken record (`data_cond`,
dataflow/dtypes.py:2448), and the output that belongs to it is the content of `data` after the step.
Simplifications: `size` does not change (it may be a parameter in the code); the initial value is an integer constant.
-/

namespace DfAcc

open Vlog SArith

/-- Constructor arguments (dataflow/dtypes.py:2344-2382): type of `data`, operators, operand, initial value, width and
    value of `size`, and whether `enable` and `reset` are given. -/
structure Cfg where
  ty : Ty
  ops : List (VExpr → VExpr → VExpr)
  right : Nd
  initval : Int
  size : Option (Nat × Nat) := none
  hasEnable : Bool := false
  hasReset : Bool := false

/-- A record: the operand, `enable` and `reset` (dataflow/dtypes.py:2429-2431). -/
structure Rec where
  x : Int
  en : Bool := true
  rst : Bool := false
  deriving DecidableEq, Repr

/-- The registers `data` and `count` (dataflow/dtypes.py:2413-2420). -/
structure St where
  data : Int
  count : Nat := 0
  deriving DecidableEq, Repr

/-- No operators and a size: a `Pulse` (dataflow/dtypes.py:2410, 2465, 2482). -/
def Cfg.pulse (c : Cfg) : Bool := c.ops.isEmpty && c.size.isSome

/-- The type of the register `data` (dataflow/dtypes.py:2406-2414): one bit wide for a `Pulse`. -/
def Cfg.dty (c : Cfg) : Ty := if c.pulse then ⟨1, c.ty.signed⟩ else c.ty

/-- The registers after reset (dataflow/dtypes.py:2413-2414, 2419-2420). -/
def Cfg.init (c : Cfg) : St := { data := (mkInt c.initval).expr.assign (fun _ => 0) c.dty }

/-- `count == size_data - 1` (dataflow/dtypes.py:2421, 2466), unsigned, in 32 bits or the width of `count`. -/
def atLast (sw n count : Nat) : Bool := count == Stream.minus1 (max (Stream.countWidth sw) 32) n

/-- `next_count_value` (dataflow/dtypes.py:2421-2422). -/
def nextCount (sw n count : Nat) : Nat :=
  if atLast sw n count then 0 else (count + 1) % 2 ^ Stream.countWidth sw

/-- The operators one after the other (dataflow/dtypes.py:2451-2458, 2469-2476). -/
def Cfg.chain (c : Cfg) (v : VExpr) : VExpr := c.ops.foldl (fun e op => op e c.right.expr) v

/-- The names in the expressions: the register `data` and the operand `rdata` (dataflow/dtypes.py:2413, 2429). -/
def env (d x : Int) : String → Int := fun n => if n = "data" then d else x

/-- The value compared by a `Pulse` (dataflow/dtypes.py:2466, 2483). -/
def Cfg.tick (c : Cfg) (s : St) : Int :=
  match c.size with
  | none => 0
  | some (sw, n) => if atLast sw n s.count then 1 else 0

/-- `value`, assigned to `data` (dataflow/dtypes.py:2451-2466). -/
def Cfg.value (c : Cfg) (s : St) (r : Rec) : Int :=
  if c.pulse then c.dty.wrap (c.tick s) else (c.chain (.var c.dty "data")).assign (env s.data r.x) c.dty

/-- `reset_value`, assigned to `data` (dataflow/dtypes.py:2468-2483): the operators are applied to the constant. -/
def Cfg.resetValue (c : Cfg) (s : St) (r : Rec) : Int :=
  if c.pulse then c.dty.wrap (c.tick s) else (c.chain (mkInt c.initval).expr).assign (env s.data r.x) c.dty

/-- `count_zero` (dataflow/dtypes.py:2423). -/
def Cfg.countZero (c : Cfg) (s : St) : Bool := c.size.isSome && s.count == 0

/-- `enabledata`, or nothing (dataflow/dtypes.py:2485-2498). -/
def Cfg.enabled (c : Cfg) (r : Rec) : Bool := !c.hasEnable || r.en

/-- `data` after a record: the assignments in the order in which they are made, the last one counts
    (dataflow/dtypes.py:2485-2538). -/
def Cfg.nextData (c : Cfg) (s : St) (r : Rec) : Int :=
  let d0 := if c.enabled r then c.value s r else s.data
  if c.hasReset then
    if !c.hasEnable then
      let d1 := if r.rst then c.resetValue s r else d0
      if c.countZero s then c.resetValue s r else d1
    else
      let d1 := if r.rst then (mkInt c.initval).expr.assign (fun _ => 0) c.dty else d0
      let d2 := if r.en && r.rst then c.resetValue s r else d1
      if r.en && c.countZero s then c.resetValue s r else d2
  else if c.enabled r && c.countZero s then c.resetValue s r
  else d0

/-- `count` after a record (dataflow/dtypes.py:2489-2490, 2497-2498, 2510-2511, 2523-2524). -/
def Cfg.nextCnt (c : Cfg) (s : St) (r : Rec) : Nat :=
  match c.size with
  | none => s.count
  | some (sw, n) =>
    let c0 := if c.enabled r then nextCount sw n s.count else s.count
    if c.hasReset && r.rst && (!c.hasEnable || r.en) then 0 else c0

/-- One record (dataflow/dtypes.py:2485-2538). -/
def Cfg.step (c : Cfg) (s : St) (r : Rec) : St := ⟨c.nextData s r, c.nextCnt s r⟩

/-- All records (each as dataflow/dtypes.py:2485-2538). -/
def Cfg.run (c : Cfg) (s : St) (rs : List Rec) : St := rs.foldl c.step s

/-- The output of every record: the content of `data` after it (dataflow/dtypes.py:2425, 2487). -/
def Cfg.outs (c : Cfg) (s : St) : List Rec → List Int
  | [] => []
  | r :: rs => (c.step s r).data :: c.outs (c.step s r) rs

/-- The default type of `data`: that of the operand (dataflow/dtypes.py:2374-2380, `_UnaryOperator` 631-636). -/
def dataTy (right : Nd) (width : Option Nat) (signed : Option Bool) : Ty :=
  ⟨width.getD right.attr.width, signed.getD right.attr.signed⟩

/-- `ReduceAdd`, `ReduceSub`, `ReduceMul` (dataflow/dtypes.py:2544-2569). -/
def reduce (op : BinOp) (right : Nd) (size : Option (Nat × Nat)) (initval : Int) (hasEnable hasReset : Bool)
    (width : Option Nat) (signed : Option Bool) : Cfg :=
  { ty := dataTy right width signed, ops := [fun v x => .bin op v x], right := right, initval := initval, size := size,
    hasEnable := hasEnable, hasReset := hasReset }

/-- `Counter` (dataflow/dtypes.py:2596-2609): the initial value is one step before the first one. -/
def counter (step : Int) (size : Option (Nat × Nat)) (initval : Int) (control : Nd) (hasEnable hasReset : Bool)
    (width : Nat) (signed : Bool) : Cfg :=
  { ty := ⟨width, signed⟩, ops := [fun v _ => .bin .plus v (.pyInt step)], right := control, initval := initval - step,
    size := size, hasEnable := hasEnable, hasReset := hasReset }

/-- `Pulse` (dataflow/dtypes.py:2612-2626). -/
def pulseCfg (size : Nat × Nat) (control : Nd) (hasEnable hasReset : Bool) : Cfg :=
  { ty := ⟨1, false⟩, ops := [], right := control, initval := 0, size := some size, hasEnable := hasEnable,
    hasReset := hasReset }

/-- The valid signal of `ReduceAddValid` and the like (dataflow/dtypes.py:2629-2636): `Pulse(size, right, enable,
    reset)`. -/
def Cfg.validOf (c : Cfg) (size : Nat × Nat) : Cfg := pulseCfg size c.right c.hasEnable c.hasReset

end DfAcc
