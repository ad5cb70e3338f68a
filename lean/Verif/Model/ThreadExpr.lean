import Verif.Model.VExpr
import Mathlib.Data.Nat.Notation
import Mathlib.Data.Int.Notation
import Mathlib.Data.Int.Bitwise

/-! Expressions in thread functions: what the visitor of thread/compiler.py makes of them with the tables of thread/operator.py.

    Simplifications:
    * `optimize` (optimizer/optimizer.py:13-26) goes through the optimizer of pyverilog, which is not part of the code; it is taken
      to give back its argument (as it does whenever it raises);
    * `True` and `False` are the numbers 1 and 0 (`visit_bool`, verilog/to_verilog.py:131-134); `None`, `is`, `in`, `**`,
      floating and fixed point, strings, subscripts and attributes are left out;
    * `a and b and c` is written `(a and b) and c`, which is the same in Python and for the visitor (thread/compiler.py:886-904). -/

namespace TEx
open Vlog

/-- `ast.USub`, `ast.UAdd`, `ast.Invert`, `ast.Not` (thread/operator.py:25-28). -/
inductive UOp
  | neg | pos | inv | not
  deriving DecidableEq

/-- The operators of `ast.BinOp` (thread/operator.py:11-22). -/
inductive AOp
  | add | sub | mul | truediv | floordiv | mod | shl | shr | and | or | xor
  deriving DecidableEq

mutual
/-- Expressions (thread/compiler.py:214-219 `ast.IfExp`, 836-1002). -/
inductive TE
  | lit (z : ℤ)
  | name (x : String)
  | un (op : UOp) (a : TE)
  | bin (op : AOp) (a b : TE)
  | bool (conj : Bool) (a b : TE)
  | ite (c a b : TE)
  | cmp (a : TE) (tl : Tl)
/-- The operators and comparators of `ast.Compare` (thread/compiler.py:939-943). -/
inductive Tl
  | one (op : CmpOp) (b : TE)
  | more (op : CmpOp) (b : TE) (tl : Tl)
end

/-- What visiting an expression gives: a Python integer (thread/compiler.py:837-838) or an object of `vtypes`. -/
inductive Vv
  | con (z : ℤ)
  | ex (e : VExpr)

/-- As an operand: integers are printed as decimal literals (verilog/to_verilog.py:131-137). -/
def Vv.e : Vv → VExpr
  | .con z => VExpr.pyInt z
  | .ex e => e

/-- The truth value of the Python object: `__len__` of an object is its width, not 0 (core/vtypes.py:529-533). -/
def Vv.truthy : Vv → Bool
  | .con z => z != 0
  | .ex _ => true

/-- `visit_UnaryOp` (thread/compiler.py:873-884): the method of an integer, or the operator; `not` has no method. -/
def unV : UOp → Vv → Vv
  | .neg, .con z => .con (-z)
  | .pos, .con z => .con z
  | .inv, .con z => .con (-z - 1)
  | .neg, .ex e => .ex (.neg e)
  | .pos, .ex e => .ex e
  | .inv, .ex e => .ex (.not e)
  | .not, v => .ex (.lnot v.e)

/-- The operators of `vtypes` for `ast.BinOp` (thread/operator.py:11-22). -/
def opE : AOp → VExpr → VExpr → VExpr
  | .add, a, b => .bin .plus a b
  | .sub, a, b => .bin .minus a b
  | .mul, a, b => .bin .times a b
  | .truediv, a, b => .bin .divide a b
  | .floordiv, a, b => .bin .divide a b
  | .mod, a, b => .bin .mod a b
  | .shl, a, b => .shift .sll a b
  | .shr, a, b => .shift .sra a b
  | .and, a, b => .bin .and a b
  | .or, a, b => .bin .or a b
  | .xor, a, b => .bin .xor a b

/-- The methods of two integers (thread/operator.py:45-60, 84-112): `//` (`__div__`) and `>>` have none, so that the operator is
    applied; `/` gives a float, which is left out; `ZeroDivisionError`, `ValueError`. -/
def conV : AOp → ℤ → ℤ → Option Vv
  | .add, x, y => some (.con (x + y))
  | .sub, x, y => some (.con (x - y))
  | .mul, x, y => some (.con (x * y))
  | .truediv, _, _ => none
  | .floordiv, x, y => some (.ex (opE .floordiv (VExpr.pyInt x) (VExpr.pyInt y)))
  | .mod, x, y => if y = 0 then none else some (.con (x.fmod y))
  | .shl, x, y => if y < 0 then none else some (.con (x * 2 ^ y.toNat))
  | .shr, x, y => some (.ex (opE .shr (VExpr.pyInt x) (VExpr.pyInt y)))
  | .and, x, y => some (.con (Int.land x y))
  | .or, x, y => some (.con (Int.lor x y))
  | .xor, x, y => some (.con (Int.xor x y))

/-- `visit_BinOp` (thread/compiler.py:906-931). -/
def binV (op : AOp) : Vv → Vv → Option Vv
  | .con x, .con y => conV op x y
  | a, b => some (.ex (opE op a.e b.e))

/-- One comparison (thread/compiler.py:945-971): `<=` and `>=` have two methods, joined by `Lor` (thread/operator.py:66, 68,
    84-103); an integer on the left of an object has none that applies. -/
def cmpV : CmpOp → Vv → Vv → Vv
  | .lt, .con x, .con y => .con (if x < y then 1 else 0)
  | .gt, .con x, .con y => .con (if x > y then 1 else 0)
  | .eq, .con x, .con y => .con (if x = y then 1 else 0)
  | .ne, .con x, .con y => .con (if x ≠ y then 1 else 0)
  | .le, .con x, .con y => .ex (.lor (VExpr.pyInt (if x < y then 1 else 0)) (VExpr.pyInt (if x = y then 1 else 0)))
  | .ge, .con x, .con y => .ex (.lor (VExpr.pyInt (if x > y then 1 else 0)) (VExpr.pyInt (if x = y then 1 else 0)))
  | .le, .ex a, b => .ex (.lor (.cmp .lt a b.e) (.cmp .eq a b.e))
  | .ge, .ex a, b => .ex (.lor (.cmp .gt a b.e) (.cmp .eq a b.e))
  | op, a, b => .ex (.cmp op a.e b.e)

/-- The loop that joins the comparisons (thread/compiler.py:976-982). -/
def landAll : Option Vv → List Vv → Option Vv
  | ret, [] => ret
  | none, r :: rs => landAll (some r) rs
  | some ret, r :: rs => if ret.truthy then landAll (some (.ex (.land ret.e r.e))) rs else landAll (some r) rs

section
variable (w : ℕ)

mutual
/-- `visit` of an expression; variables of the thread are signed, of width `w` (thread/compiler.py:214-219, 836-1002,
    1132-1136). -/
def visit : TE → Option Vv
  | .lit z => some (.con z)
  | .name x => some (.ex (.var ⟨w, true⟩ x))
  | .un op a => (visit a).map (unV op)
  | .bin op a b => (visit a).bind fun u => (visit b).bind fun v => binV op u v
  | .bool conj a b => (visit a).bind fun u => (visit b).bind fun v =>
      some (.ex (if conj then .land u.e v.e else .lor u.e v.e))
  | .ite c a b => (visit c).bind fun k => (visit a).bind fun u => (visit b).bind fun v => some (.ex (.cond k.e u.e v.e))
  | .cmp a tl => (visit a).bind fun u => (visitTl tl u).bind fun rs => landAll none rs
/-- The results of the single comparisons, the left operand visited already (thread/compiler.py:945-971). -/
def visitTl : Tl → Vv → Option (List Vv)
  | .one op b, u => (visit b).map fun v => [cmpV op u v]
  | .more op b tl, u => (visit b).bind fun v => (visitTl tl v).map fun rs => cmpV op u v :: rs
end

/-- The value stored by `x = e` (thread/compiler.py:133-183, 1247-1279). -/
def stored (ρ : String → ℤ) (e : TE) : Option ℤ := (visit w e).map fun v => v.e.assign ρ ⟨w, true⟩

/-- The way taken by `if e` and `while e` (thread/compiler.py:221-293). -/
def taken (ρ : String → ℤ) (e : TE) : Option Bool := (visit w e).map fun v => v.e.value ρ != 0

end
end TEx
