import Verif.Model.Fixed

/-!
# Saturating arithmetic (types/saturate.py)

`width`, `max` and `min` are Python integers, as in the calls by the library (a `width` that is a
`Parameter` is not modelled).  Operands are signal expressions; Python numbers as operands are not modelled.
-/

namespace Saturate

open Vlog Fixed

/-- `_max` (types/saturate.py:156-159). -/
def maxOf (width : Nat) (signed : Bool) : Int := if signed then 2 ^ (width - 1) - 1 else 2 ^ width - 1

/-- `_min` (types/saturate.py:162-165). -/
def minOf (width : Nat) (signed : Bool) : Int := if signed then - 2 ^ (width - 1) else 0

/-- `_saturate_overflow` (types/saturate.py:117-125). -/
def satOverflow (raw : VExpr) (width : Nat) (max : Option Int) (signed : Bool) : VExpr :=
  let m := VExpr.pyInt (max.getD (maxOf width signed))
  .cond (.cmp .gt raw m) m raw

/-- `_saturate_underflow` (types/saturate.py:128-132). -/
def satUnderflow (raw cond : VExpr) (width : Nat) (min : Option Int) (signed : Bool) : VExpr :=
  .cond cond (.pyInt (min.getD (minOf width signed))) raw

/-- `_saturate_both` (types/saturate.py:135-146). -/
def satBoth (raw cond : VExpr) (width : Nat) (max min : Option Int) (signed : Bool) : VExpr :=
  let m := VExpr.pyInt (max.getD (maxOf width signed))
  .cond cond (.pyInt (min.getD (minOf width signed))) (.cond (.cmp .gt raw m) m raw)

/-- `_add` (types/saturate.py:90-100); `signed` is `get_signed(raw_val)`. -/
def addWith (raw l r : VExpr) (signed : Bool) (width : Nat) (max min : Option Int) : VExpr :=
  let min' := min.getD (minOf width signed)
  if signed then
    satBoth raw (.cmp .lt l (.bin .plus (.neg r) (.pyInt min'))) width max (some min') signed
  else satOverflow raw width max signed

/-- `_sub` (types/saturate.py:103-114). -/
def subWith (raw l r : VExpr) (signed : Bool) (width : Nat) (max min : Option Int) : VExpr :=
  let min' := min.getD (minOf width signed)
  let cond := VExpr.cmp .lt l (.bin .plus r (.pyInt min'))
  if signed then satBoth raw cond width max (some min') signed
  else satUnderflow raw cond width (some min') signed

/-- `add` (types/saturate.py:8-10). -/
def add (l r : VExpr) (width : Nat) (max min : Option Int) : VExpr :=
  let raw := VExpr.bin .plus l r
  addWith raw l r (pySigned raw) width max min

/-- `sub` (types/saturate.py:13-15). -/
def sub (l r : VExpr) (width : Nat) (max min : Option Int) : VExpr :=
  let raw := VExpr.bin .minus l r
  subWith raw l r (pySigned raw) width max min

/-- `_saturate_op` (types/saturate.py:23-46) of an expression without the `saturated` mark: the result and
    whether it carries the mark.  The copied node keeps the `signed` attribute of the original one; the
    operands of a difference are processed without `min`. -/
def satOp : VExpr → Nat → Option Int → Option Int → VExpr × Bool
  | .bin .plus a b, width, max, min =>
      let a' := (satOp a width max min).1
      let b' := (satOp b width max min).1
      (addWith (.bin .plus a' b') a' b' (pySigned (.bin .plus a b)) width max min, true)
  | .bin .minus a b, width, max, min =>
      let a' := (satOp a width max none).1
      let b' := (satOp b width max none).1
      (subWith (.bin .minus a' b') a' b' (pySigned (.bin .minus a b)) width max min, true)
  | e, _, _, _ => (e, false)

/-- `_saturate_single` (types/saturate.py:49-71) of an expression: with `signed` but without `min` the
    comparison `value < None` raises a `TypeError`. -/
def satSingle (v : VExpr × Bool) (width : Nat) (max min : Option Int) (signed : Bool) : Option VExpr :=
  if v.2 then some v.1
  else if signed then
    match min with
    | none => none
    | some m => some (satBoth v.1 (.cmp .lt v.1 (.sInt m)) width max (some m) signed)
  else some (satOverflow v.1 width max signed)

/-- `to_saturate` (types/saturate.py:18-20). -/
def toSaturate (v : VExpr) (width : Nat) (max min : Option Int) (signed : Bool) : Option VExpr :=
  satSingle (satOp v width max min) width max min signed

/-- `write` (types/saturate.py:74-87): the value the destination of type `t` gets. -/
def write (ρ : String → Int) (t : Ty) (v : VExpr) : Option Int :=
  (toSaturate v t.width (some (maxOf t.width t.signed)) (some (minOf t.width t.signed)) t.signed).map
    (·.assign ρ t)

end Saturate
