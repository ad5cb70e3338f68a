import Verif.Model.VExpr

/-!
# Fixed-point signals and constants (types/fixed.py)

Points are non-negative integers known at generation time, as in all uses by the library (a point may also
be a `Parameter` in the code; not modelled).  Python floats are not modelled.
-/

namespace Fixed

open Vlog

/-- An operand: a Python number or a constant holding one, or a signal expression
    (types/fixed.py:255-290, the `isinstance` tests). -/
inductive Opnd
  | const (v : Int)
  | sig (e : VExpr)
  deriving DecidableEq, Repr

/-- What is printed for an operand: a `_FixedInt` is `vtypes.Int(..., signed = True)` without a width
    (types/fixed.py:650-658), printed like a Python integer (verilog/to_verilog.py:58-82, 136-137). -/
def Opnd.expr : Opnd → VExpr
  | .const v => .pyInt v
  | .sig e => e

/-- `vtypes.get_signed` (core/vtypes.py:135-140) with the `signed` attributes set by the constructors at
    967-1420 and 1830-1838: `&`, `|`, `^`, `~`, `>>` and comparisons count as unsigned, a `Cond` as signed if
    one of its values is. -/
def pySigned : VExpr → Bool
  | .lit t _ => t.signed
  | .var t _ => t.signed
  | .neg e => pySigned e
  | .not _ => false
  | .lnot _ => false
  | .bin op a b =>
      match op with
      | .and | .or | .xor => false
      | _ => pySigned a && pySigned b
  | .shift op a _ =>
      match op with
      | .srl => false
      | _ => pySigned a
  | .cmp _ _ _ => false
  | .land _ _ => false
  | .lor _ _ => false
  | .cond _ a b => pySigned a || pySigned b
  | .cat _ _ => false
  | .rep _ _ => false
  | .bit _ _ => false
  | .slice _ _ _ => false
  | .toSigned _ => true

/-- `get_signed` of an operand (core/vtypes.py:135-140; `True` for numbers). -/
def Opnd.signed : Opnd → Bool
  | .const _ => true
  | .sig e => pySigned e

/-- `shift_left` (types/fixed.py:255-271). -/
def shiftLeft (o : Opnd) (n : Nat) : Opnd :=
  match o with
  | .const v => .const (v * (2 ^ n : Nat))
  | .sig e => .sig (.shift .sll e (.pyInt n))

/-- `shift_right` (types/fixed.py:274-293); Python's `>>` rounds down. -/
def shiftRight (o : Opnd) (n : Nat) (signed : Bool) : Opnd :=
  match o with
  | .const v => .const (v / (2 ^ n : Nat))
  | .sig e => .sig (.shift (if signed then .sra else .srl) e (.pyInt n))

/-- `to_signed` (types/fixed.py:216-225). -/
def toSigned (o : Opnd) : Opnd :=
  match o with
  | .const v => .const v
  | .sig e => if pySigned e then .sig e else .sig (.toSigned e)

/-- `adjust` (types/fixed.py:228-235). -/
def adjust (l r : Opnd) (lpoint rpoint : Nat) (signed : Bool) : Opnd × Opnd :=
  let dl := if rpoint < lpoint then 0 else rpoint - lpoint
  let dr := if lpoint < rpoint then 0 else lpoint - rpoint
  let ld := if dl = 0 then l else shiftLeft l dl
  let rd := if dr = 0 then r else shiftLeft r dr
  (if signed && dl ≠ 0 then toSigned ld else ld, if signed && dr ≠ 0 then toSigned rd else rd)

/-- A fixed-point object: its raw integer and the number of fractional bits (types/fixed.py:362-374,
    426-442).  An object that is no `_FixedBase` has point 0. -/
structure Fx where
  opnd : Opnd
  point : Nat
  deriving DecidableEq, Repr

/-- `_FixedBinaryOperator.init` (types/fixed.py:431-442): the aligned operands and the point.
    `overwrite` is the class attribute `overwrite_signed`. -/
def align (overwrite : Bool) (l r : Fx) : Opnd × Opnd × Nat :=
  let signed := if overwrite then false else l.opnd.signed && r.opnd.signed
  let p := adjust l.opnd r.opnd l.point r.point signed
  (p.1, p.2, if l.point > r.point then l.point else r.point)

/-- `_FixedPlus` (types/fixed.py:546-551). -/
def plus (l r : Fx) : Fx :=
  let a := align false l r
  ⟨.sig (.bin .plus a.1.expr a.2.1.expr), a.2.2⟩

/-- `_FixedMinus` (types/fixed.py:554-559). -/
def minus (l r : Fx) : Fx :=
  let a := align false l r
  ⟨.sig (.bin .minus a.1.expr a.2.1.expr), a.2.2⟩

/-- The comparisons (types/fixed.py:586-633); only `_FixedLessThan` sets `overwrite_signed`. -/
def compare (op : CmpOp) (l r : Fx) : VExpr :=
  let a := align (op == .lt) l r
  .cmp op a.1.expr a.2.1.expr

/-- `_FixedTimes` (types/fixed.py:477-497). -/
def times (l r : Fx) : Fx :=
  let m := if l.point > r.point then l.point else r.point
  let point := if m < l.point + r.point then m else l.point + r.point
  let signed := l.opnd.signed && r.opnd.signed
  let ld := if signed then toSigned l.opnd else l.opnd
  let rd := if signed then toSigned r.opnd else r.opnd
  let data := VExpr.bin .times ld.expr rd.expr
  ⟨.sig (.shift (if signed then .sra else .srl) data (.pyInt (l.point + r.point - point : Nat))), point⟩

/-- `write_adjust` (types/fixed.py:238-252): the value as written to a fixed-point variable. -/
def writeAdjust (v : Fx) (point : Nat) : Opnd :=
  let ldiff := if point ≤ v.point then 0 else point - v.point
  let rdiff := if point ≥ v.point then 0 else v.point - point
  if point > v.point then shiftLeft v.opnd ldiff
  else if point < v.point then shiftRight v.opnd rdiff v.opnd.signed
  else v.opnd

/-- What a fixed-point variable of type `t` holds after `dst.write(v)` or `dst.assign(v)`
    (types/fixed.py:376-390). -/
def store (ρ : String → Int) (t : Ty) (point : Nat) (v : Fx) : Int :=
  (writeAdjust v point).expr.assign ρ t

/-- `to_fixed` of a Python integer (types/fixed.py:96-104, 115-120).  For a negative point the code divides
    floats; the model divides exactly (the same below 2^53). -/
def toFixed (v : Int) (point : Int) : Int :=
  if point < 0 then v.tdiv (2 ^ (-point).toNat : Nat)
  else if point = 0 then v
  else v * (2 ^ point.toNat : Nat)

/-- `to_fixed` of a signal for a non-negative point (types/fixed.py:96-112). -/
def toFixedSig (e : VExpr) (point : Nat) : VExpr :=
  if point = 0 then e else (shiftLeft (.sig e) point).expr

/-- `fixed_to_int` of a Python integer (types/fixed.py:134-143).  For a negative point it calls
    `_fixed_to_int_neg_point`, which does not exist (the function is named `_fixed_to_int_reg_point`, 152):
    a `NameError`. -/
def fixedToInt (v : Int) (point : Int) : Option Int :=
  if point < 0 then none
  else if point = 0 then some v
  else some (v / (2 ^ point.toNat : Nat))

/-- `fixed_to_int` of a signal for a non-negative point (types/fixed.py:134-149). -/
def fixedToIntSig (e : VExpr) (point : Nat) : VExpr :=
  if point = 0 then e else (shiftRight (.sig e) point (pySigned e)).expr

/-- `fixed_to_int_low` of a Python integer (types/fixed.py:168-177). -/
def fixedToIntLow (v : Int) (point : Int) : Int :=
  if point ≤ 0 then 0 else v % (2 ^ point.toNat : Nat)

/-- `_FixedBase.int_part` (types/fixed.py:307-309). -/
def intPart (f : Fx) : VExpr := .shift .sra f.opnd.expr (.pyInt f.point)

/-- `_FixedBase.dec_part` (types/fixed.py:311-315): `Mux` on a known point, so the mask is 0 or a `Repeat`. -/
def decPart (f : Fx) : VExpr :=
  .bin .and f.opnd.expr (if f.point = 0 then .pyInt 0 else .rep f.point (.lit ⟨1, false⟩ 1))

end Fixed
