import Verif.Model.StreamArith
import Verif.Model.StreamAcc
import Mathlib.Data.Nat.Log

/-!
# Stream operators that take several cycles per item

`ReduceMul`, `ReduceDiv` and `DivideMultiCycle` (stream/stypes.py:838-920, 3188-3507) of a stream with `internal_oready`
(thread/stream.py:86-93).  The operator has a counter `ii_count`; while it is not 0 the ready wire of the whole stream is 0.
The multiplier and the divider are the models of C04 to C06.

Simplifications: as in `Model/StreamAcc.lean` (constant `initval`, `size`, `interval`); `point` of the operand is a number.
A stream without `internal_oready` (`stream.Stream` itself) cannot have these operators: `self.strm.internal_oready` raises
`AttributeError` (stream/stypes.py:3303, stream/stream.py:621-627).
-/

namespace MCyc

open Vlog Fixed Stream SArith

/-- Width of `ii_count` (stream/stypes.py:871-872, 3299-3300, 3464-3465); `log` is taken as exact. -/
def iiWidth (ii : ℕ) : ℕ := Nat.clog 2 ii + 1

/-- `ii_count` after one edge (stream/stypes.py:877-885, 3305-3313, 3470-3478): three statements, the last one wins. -/
def count (ii cnt : ℕ) (go : Bool) : ℕ :=
  let a := if cnt = 0 ∧ go = true then (cnt + 1) % 2 ^ iiWidth ii else cnt
  let b := if 0 < cnt then (cnt + 1) % 2 ^ iiWidth ii else a
  if cnt = ii - 1 then 0 else b

/-- `internal_oready` with the operator's own `ii_stall_cond`; `ext` stands for its other factors
    (stream/stypes.py:873-875, types/util.py:91-100). -/
def ready (cnt : ℕ) (ext : Bool) : Bool := (if 0 < cnt then false else true) && ext

/-- Inputs of one cycle: the other factors of `internal_oready`, `svalid`, `enable`, `reset` and the operand
    (stream/stypes.py:3226-3229, 3279-3303). -/
structure In where
  ext : Bool := true
  valid : Bool := true
  en : Bool := true
  rst : Bool := false
  x : ℤ := 0
  deriving DecidableEq, Repr

/-- Arguments of `ReduceMul` and `ReduceDiv` (stream/stypes.py:2945-3004, 3193-3199, 3351-3358): `xt` and `point` are the type
    and the point of the operand. -/
structure Cfg where
  ty : Ty
  xt : Ty
  point : ℕ := 0
  initval : ℤ := 0
  regInit : ℤ := 0
  size : Option (ℕ × ℕ) := none
  interval : Option ℕ := none
  hasReset : Bool := false
  hasEnable : Bool := false

/-- The parts shared with the other accumulators (stream/stypes.py:3213-3294, the same text as 3027-3128). -/
def Cfg.acc (c : Cfg) (op : ℤ → ℤ → ℤ) : AccCfg where
  ty := c.ty
  op := op
  initval := c.initval
  regInit := c.regInit
  size := c.size
  interval := c.interval
  hasReset := c.hasReset
  hasEnable := c.hasEnable

/-- The arithmetic unit of a reduction: one edge with `update` and the two operands, and the value assigned to `data`
    (stream/stypes.py:3319-3339, 3485-3507). -/
structure Core (σ : Type) where
  step : σ → Bool → ℤ → ℤ → σ
  value : σ → ℤ

/-- The registers: those of `_Accumulator`, `ii_count`, the unit (stream/stypes.py:3221-3243, 3299). -/
structure St (σ : Type) where
  acc : AccSt
  ii : ℕ
  core : σ

/-- After reset (stream/stypes.py:3221, 3232, 3240-3242, 3300); the registers of the unit hold anything. -/
def St.init {σ : Type} (c : Cfg) (u : σ) : St σ where
  acc := (c.acc fun a _ => a).init
  ii := 0
  core := u

/-- Is the stream ready in this cycle (stream/stypes.py:3301-3303). -/
def St.ready {σ : Type} (s : St σ) (i : In) : Bool := MCyc.ready s.ii i.ext

/-- The cycle as an accumulator sees it, `svalid & senable` (stream/stypes.py:3279). -/
def St.seen {σ : Type} (s : St σ) (i : In) : AccIn where
  go := i.valid && s.ready i
  en := i.en
  rst := i.rst
  x := i.x

/-- One edge (stream/stypes.py:3279-3339, 3444-3507), `ii` the initiation interval. -/
def St.step {σ : Type} (ii : ℕ) (c : Cfg) (u : Core σ) (s : St σ) (i : In) : St σ where
  acc := { (c.acc fun a _ => a).step s.acc (s.seen i) with
    data :=
      if s.ii = ii - 1 then u.value s.core
      else if c.hasReset && (s.seen i).go && (c.acc fun a _ => a).resetCond s.acc (s.seen i) then c.ty.wrap c.initval
      else s.acc.data }
  ii := count ii s.ii ((c.acc fun a _ => a).en2 s.acc (s.seen i))
  core := u.step s.core ((c.acc fun a _ => a).en2 s.acc (s.seen i) || decide (0 < s.ii))
    ((c.acc fun a _ => a).curData s.acc (s.seen i)) i.x

/-- The registers after some cycles (each as stream/stypes.py:3279-3339, 3444-3507). -/
def St.run {σ : Type} (ii : ℕ) (c : Cfg) (u : Core σ) (s : St σ) (l : List In) : St σ := l.foldl (St.step ii c u) s

/-- `initiation_interval` of `ReduceMul` (stream/stypes.py:3190). -/
def mulII : ℕ := 3

/-- The value of `ReduceMul`: `odata` has the signedness of the result and is shifted by the point
    (stream/stypes.py:3326, 3333-3339). -/
def mulValue (c : Cfg) (p : BitVec (c.ty.width + c.ty.width)) : ℤ :=
  let full : Ty := ⟨c.ty.width + c.ty.width, c.ty.signed⟩
  let e : VExpr := .var full "mul_odata"
  let ρ : String → ℤ := fun _ => full.wrap (p.toNat : ℤ)
  (if c.point > 0 then (shiftRight (.sig e) c.point c.ty.signed).expr else e).assign ρ c.ty

/-- The multiplier of `ReduceMul`, of depth 2, both ports as wide as the result (stream/stypes.py:3317-3339). -/
def mulCore (c : Cfg) : Core (Mul.State c.ty.width c.ty.width) where
  step := fun s up a x =>
    Mul.step c.ty.signed c.xt.signed s ⟨up, BitVec.ofInt _ a, BitVec.ofInt _ x⟩
  value := fun s => mulValue c ((Mul.out s).getD 0)

/-- `initiation_interval` of `ReduceDiv` (stream/stypes.py:3344-3349, stream/scheduler.py:93-94). -/
def redDivII (c : Cfg) : ℕ := c.ty.width + 3

/-- The divider of `ReduceDiv` (stream/stypes.py:3384-3391, 3482-3507). -/
def divCore (c : Cfg) : Core (Div.State c.ty.width) where
  step := fun s up a x =>
    Div.step c.ty.signed c.xt.signed c.ty.signed s ⟨up, true, BitVec.ofInt _ a, BitVec.ofInt _ x⟩
  value := fun s => c.ty.wrap (s.out.rslt.toNat : ℤ)

/-- Inputs of `DivideMultiCycle` in one cycle; `env` holds the values of the operands' signals (stream/stypes.py:857-866). -/
structure DIn where
  ext : Bool := true
  valid : Bool := true
  env : String → ℤ

/-- Registers of `DivideMultiCycle` (stream/stypes.py:871, 920). -/
structure DSt (W : ℕ) where
  ii : ℕ
  core : Div.State W

/-- `initiation_interval` of `DivideMultiCycle` (stream/stypes.py:840-844, stream/scheduler.py:93-94). -/
def divII (l r : Nd) : ℕ := (binAttr l.attr r.attr).width + 2

/-- Is the stream ready in this cycle (stream/stypes.py:873-875). -/
def DSt.ready {W : ℕ} (s : DSt W) (i : DIn) : Bool := MCyc.ready s.ii i.ext

/-- One edge of `DivideMultiCycle` (stream/stypes.py:868-920). -/
def DSt.step (l r : Nd) (s : DSt (binAttr l.attr r.attr).width) (i : DIn) : DSt (binAttr l.attr r.attr).width :=
  let o := binAttr l.attr r.attr
  let p := aligned l r o.signed
  let go := s.ready i && i.valid
  { ii := count (divII l r) s.ii go
    core := Div.step l.attr.signed r.attr.signed o.signed s.core
      ⟨go || decide (0 < s.ii), true, BitVec.ofInt o.width (divWire i.env o.width l p.1),
        BitVec.ofInt o.width (divWire i.env o.width r p.2)⟩ }

/-- The registers after some cycles (each as stream/stypes.py:868-920). -/
def DSt.run (l r : Nd) (s : DSt (binAttr l.attr r.attr).width) (is : List DIn) : DSt (binAttr l.attr r.attr).width :=
  is.foldl (DSt.step l r) s

/-- `data` (stream/stypes.py:899-904). -/
def DSt.data (l r : Nd) (s : DSt (binAttr l.attr r.attr).width) : ℤ :=
  (binAttr l.attr r.attr).ty.wrap (s.core.out.rslt.toNat : ℤ)

/-- The `ii_count` registers of several operators of one stream, with their intervals, in one cycle: `go` says for which of
    them an item arrives if the stream advances (stream/stypes.py:868-885, types/util.py:91-100: one factor of
    `internal_oready` each). -/
def countAll (ext : Bool) (go : ℕ → Bool) (l : List (ℕ × ℕ)) : List (ℕ × ℕ) :=
  let r := ext && l.all fun p => MCyc.ready p.2 true
  l.zipIdx.map fun p => (p.1.1, count p.1.1 p.1.2 (r && go p.2))

end MCyc
