import Verif.Model.Vlog

/-!
# Model of the accumulating stream operators (stream/stypes.py)

`_Accumulator._implement` (with the operators `ReduceAdd`, `ReduceSub`, `ReduceMax`, `ReduceMin`,
`ReduceCustom` and `Pulse`) and `Counter._implement`.  One step is one clock edge; the registers are
the ones created by the Python code.

Simplifications: `initval`, `size`, `interval`, `step` and `offset` are constants (in the code they may
also be stream values); `initiation_interval` is 1; `size`, `interval` and `offset` are not negative.
`ReduceMul` and `ReduceDiv`, which override `_implement`, are not modelled.
-/

namespace Stream

open Vlog

/-- Inputs of an accumulating operator in one cycle: `go` is `svalid & senable`
    (stream/stypes.py:3113), `en` and `rst` the `enable` and `reset` arguments, `x` the operand. -/
structure AccIn where
  go : Bool
  en : Bool := true
  rst : Bool := false
  x : Int := 0
  deriving DecidableEq, Repr

/-- Constructor arguments of `_Accumulator` (stream/stypes.py:2941-3002). -/
structure AccCfg where
  /-- width and signedness of the register `data` -/
  ty : Ty
  /-- value of the chain `ops` applied to the current data and the operand (3096-3103) -/
  op : Int → Int → Int
  /-- `initval` -/
  initval : Int := 0
  /-- `reg_initval` -/
  regInit : Int := 0
  /-- width and value of `size`, if given -/
  size : Option (Nat × Nat) := none
  /-- `interval`, if given -/
  interval : Option Nat := none
  /-- is the argument `reset` given -/
  hasReset : Bool := false
  /-- is the argument `enable` given -/
  hasEnable : Bool := false
  /-- `Pulse`: no `ops` and a `size` (3033-3035, 3109-3111) -/
  pulse : Bool := false

/-- The registers `data`, `count`, `prev_count_max`, `interval_count` (stream/stypes.py:3039-3059). -/
structure AccSt where
  data : Int
  count : Nat := 0
  prevMax : Bool := false
  icount : Nat := 0
  deriving DecidableEq, Repr

/-- Register values after hardware reset (stream/stypes.py:3040, 3049, 3058-3059). -/
def AccCfg.init (c : AccCfg) : AccSt := { data := c.ty.wrap c.regInit }

/-- `a - 1` in an unsigned context of `w` bits (the `size_data - 1` and `interval_data - 1` of
    stream/stypes.py:3087-3094, compared with an unsigned register and the 32-bit literal 1). -/
def minus1 (w a : Nat) : Nat := (a + 2 ^ w - 1) % 2 ^ w

/-- Width of `count` (stream/stypes.py:3057-3058). -/
def countWidth (sizeWidth : Nat) : Nat := sizeWidth + 1

/-- `reset_cond` (stream/stypes.py:3051-3065, 3078). -/
def AccCfg.resetCond (c : AccCfg) (s : AccSt) (i : AccIn) : Bool :=
  (c.hasReset && i.rst) || (c.size.isSome && s.prevMax)

/-- `current_data` (stream/stypes.py:3074-3075, 3084): a wire of the type of `data`. -/
def AccCfg.curData (c : AccCfg) (s : AccSt) (i : AccIn) : Int :=
  if c.resetCond s i then c.ty.wrap c.initval else s.data

/-- `current_count` (stream/stypes.py:3067-3068). -/
def AccCfg.curCount (c : AccCfg) (s : AccSt) (i : AccIn) : Nat :=
  if c.resetCond s i then 0 else s.count

/-- `current_interval_count` (stream/stypes.py:3070-3072). -/
def AccCfg.curICount (c : AccCfg) (s : AccSt) (i : AccIn) : Nat :=
  if c.resetCond s i then 0 else s.icount

/-- `count_max` (stream/stypes.py:3089). -/
def AccCfg.countMax (c : AccCfg) (s : AccSt) (i : AccIn) : Bool :=
  match c.size with
  | none => false
  | some (sw, n) => c.curCount s i ≥ minus1 (max (countWidth sw) 32) n

/-- `enable_cond` before the interval is considered (stream/stypes.py:3113-3120). -/
def AccCfg.en1 (c : AccCfg) (i : AccIn) : Bool := i.go && (!c.hasEnable || i.en)

/-- `enable_cond` after the interval is considered (stream/stypes.py:3094, 3122-3124). -/
def AccCfg.en2 (c : AccCfg) (s : AccSt) (i : AccIn) : Bool :=
  c.en1 i && match c.interval with
    | none => true
    | some iv => c.curICount s i == minus1 (max c.ty.width 32) iv

/-- The new value of `data` (stream/stypes.py:3096-3111). -/
def AccCfg.value (c : AccCfg) (s : AccSt) (i : AccIn) : Int :=
  if c.pulse then (if c.countMax s i then 1 else 0) else c.op (c.curData s i) i.x

/-- One clock edge (stream/stypes.py:3113-3130). -/
def AccCfg.step (c : AccCfg) (s : AccSt) (i : AccIn) : AccSt where
  data :=
    if c.en2 s i then c.ty.wrap (c.value s i)
    else if c.hasReset && i.go && c.resetCond s i then c.ty.wrap c.initval
    else s.data
  count := match c.size with
    | none => s.count
    | some (sw, _) =>
      if c.en2 s i then
        if c.countMax s i then 0 else (c.curCount s i + 1) % 2 ^ countWidth sw
      else s.count
  prevMax := match c.size with
    | none => s.prevMax
    | some _ => if c.en2 s i then c.countMax s i else s.prevMax
  icount := match c.interval with
    | none => s.icount
    | some iv =>
      if c.en1 i then
        if c.curICount s i ≥ minus1 (max c.ty.width 32) iv then 0
        else (c.curICount s i + 1) % 2 ^ c.ty.width
      else s.icount

/-- The registers after a sequence of clock edges (each as stream/stypes.py:3113-3130). -/
def AccCfg.run (c : AccCfg) (s : AccSt) (l : List AccIn) : AccSt := l.foldl c.step s

/-- `vtypes.Plus` of the register `data` and the operand (`ReduceAdd`, stream/stypes.py:3152). -/
def addOp (t xt : Ty) (a x : Int) : Int :=
  (⟨t, a⟩ : Val).read (t.signed && xt.signed) + (⟨xt, x⟩ : Val).read (t.signed && xt.signed)

/-- `vtypes.Minus` (`ReduceSub`, stream/stypes.py:3164). -/
def subOp (t xt : Ty) (a x : Int) : Int :=
  (⟨t, a⟩ : Val).read (t.signed && xt.signed) - (⟨xt, x⟩ : Val).read (t.signed && xt.signed)

/-- `Mux(x < y, y, x)` (`ReduceMax`, stream/stypes.py:3511). -/
def maxOp (t xt : Ty) (a x : Int) : Int :=
  let a' := (⟨t, a⟩ : Val).read (t.signed && xt.signed)
  let x' := (⟨xt, x⟩ : Val).read (t.signed && xt.signed)
  if a' < x' then x' else a'

/-- `Mux(x > y, y, x)` (`ReduceMin`, stream/stypes.py:3523). -/
def minOp (t xt : Ty) (a x : Int) : Int :=
  let a' := (⟨t, a⟩ : Val).read (t.signed && xt.signed)
  let x' := (⟨xt, x⟩ : Val).read (t.signed && xt.signed)
  if a' > x' then x' else a'

/-- `Pulse(size, interval, ...)` (stream/stypes.py:3689-3708): width 1, unsigned. -/
def pulseCfg (sw n : Nat) (interval : Option Nat) (hasReset hasEnable : Bool) : AccCfg :=
  { ty := ⟨1, false⟩, op := fun a _ => a, size := some (sw, n), interval := interval,
    hasReset := hasReset, hasEnable := hasEnable, pulse := true }

/-! ### Counter -/

/-- Constructor arguments of `Counter` (stream/stypes.py:3548-3556). -/
structure CntCfg where
  /-- width and signedness of `data` and `count` -/
  ty : Ty
  step : Val
  initval : Int := 0
  regInit : Int := 0
  size : Option Val := none
  offset : Option Int := none
  interval : Option Nat := none
  hasReset : Bool := false
  hasEnable : Bool := false

/-- The registers `data`, `count`, `interval_count` of `Counter` (stream/stypes.py:3573-3585). -/
structure CntSt where
  data : Int
  count : Int
  icount : Nat := 0
  deriving DecidableEq, Repr

/-- Register values after hardware reset (stream/stypes.py:3573-3577, 3585). -/
def CntCfg.init (c : CntCfg) : CntSt :=
  { data := c.ty.wrap c.regInit, count := c.ty.wrap c.regInit }

/-- `current_count` (stream/stypes.py:3588-3594). -/
def CntCfg.curCount (c : CntCfg) (s : CntSt) (i : AccIn) : Int :=
  if c.hasReset && i.rst then c.ty.wrap c.initval else s.count

/-- `current_interval_count` (stream/stypes.py:3596-3599). -/
def CntCfg.curICount (c : CntCfg) (s : CntSt) (i : AccIn) : Nat :=
  if c.hasReset && i.rst then 0 else s.icount

/-- `current_count >= size_data - step` (stream/stypes.py:3603-3608): signed only if all three are;
    computed in the greatest of the three widths. -/
def CntCfg.atEnd (c : CntCfg) (size : Val) (cur : Int) : Bool :=
  let sg := c.ty.signed && size.ty.signed && c.step.ty.signed
  let w := max c.ty.width (max size.ty.width c.step.ty.width)
  decide ((⟨c.ty, cur⟩ : Val).read sg ≥ (⟨w, sg⟩ : Ty).wrap (size.read sg - c.step.read sg))

/-- `next_count_value` assigned to `count` (stream/stypes.py:3601-3608).  The signedness of the sums
    is that of all operands of the assigned expression. -/
def CntCfg.next (c : CntCfg) (cur : Int) : Int :=
  let sg1 := c.ty.signed && c.step.ty.signed
  match c.size with
  | none => c.ty.wrap ((⟨c.ty, cur⟩ : Val).read sg1 + c.step.read sg1)
  | some size =>
    let sg := sg1 && size.ty.signed
    if c.atEnd size cur then
      match c.offset with
      | some o => c.ty.wrap o
      | none => c.ty.wrap ((⟨c.ty, cur⟩ : Val).read sg + c.step.read sg - size.read sg)
    else c.ty.wrap ((⟨c.ty, cur⟩ : Val).read sg + c.step.read sg)

/-- `enable_cond` before the interval is considered (stream/stypes.py:3615-3624). -/
def CntCfg.en1 (c : CntCfg) (i : AccIn) : Bool := i.go && (!c.hasEnable || i.en)

/-- `enable_cond` after the interval is considered (stream/stypes.py:3613, 3626-3628). -/
def CntCfg.en2 (c : CntCfg) (s : CntSt) (i : AccIn) : Bool :=
  c.en1 i && match c.interval with
    | none => true
    | some iv => c.curICount s i == minus1 (max c.ty.width 32) iv

/-- One clock edge of `Counter` (stream/stypes.py:3615-3630).  `data(initval)` on reset is overwritten
    by `data(current_count)` under the weaker condition. -/
def CntCfg.stepSt (c : CntCfg) (s : CntSt) (i : AccIn) : CntSt where
  data := if i.go then c.curCount s i else s.data
  count := if c.en2 s i then c.next (c.curCount s i) else s.count
  icount := match c.interval with
    | none => s.icount
    | some iv =>
      if c.en1 i then
        if c.curICount s i ≥ minus1 (max c.ty.width 32) iv then 0
        else (c.curICount s i + 1) % 2 ^ c.ty.width
      else s.icount

/-- The registers after a sequence of clock edges (each as stream/stypes.py:3615-3630). -/
def CntCfg.run (c : CntCfg) (s : CntSt) (l : List AccIn) : CntSt := l.foldl c.stepSt s

end Stream
