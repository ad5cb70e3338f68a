import Verif.Model.VExpr
import Mathlib.Data.Int.Bitwise

/-!
# Constant resolution

resolver/resolver.py: `ConstantVisitor` folds an expression to a Python integer when every leaf of it is a
constant or a parameter with a known value; `ReplaceVisitor` does the same and, where it cannot fold, puts
the folded operands back into the node; `ModuleReplaceVisitor._update_const_dict` computes the values of the
parameters of a module.

The expressions are those of `Vlog.VExpr`.  A literal `Int(v, width)` is `lit`, and a parameter is a `var` whose
name is a key of the constant dictionary.  Left out: `Power`, `Xnor`, the reductions, strings and reals, `Cat` of
more than two operands, selects with non-constant bounds, widths that are themselves unresolved expressions,
and the cache of visited nodes (resolver.py:52-73), which returns the same result for the same node.
-/

namespace Resolver

open Vlog

/-- What a visitor returns (resolver/resolver.py:21-24, `check_constant`): a Python number, or a node. -/
inductive Res
  | const (v : Int)
  | node (e : VExpr)
  deriving Repr, DecidableEq

/-- The result as an operand in its parent (resolver/resolver.py:228-231; an integer is printed by
    verilog/to_verilog.py:131-137). -/
def Res.expr : Res → VExpr
  | .const v => VExpr.pyInt v
  | .node e => e

/-- `op` of the two-operand operators (core/vtypes.py:1054-1104 and 1284-1350), on Python integers.  `none`: an
    exception (division by zero). -/
def foldBin : BinOp → Int → Int → Option Int
  | .plus, a, b => some (a + b)
  | .minus, a, b => some (a - b)
  | .times, a, b => some (a * b)
  | .divide, a, b => if b = 0 then none else some (Int.fdiv a b)
  | .mod, a, b => if b = 0 then none else some (Int.fmod a b)
  | .and, a, b => some (Int.land a b)
  | .or, a, b => some (Int.lor a b)
  | .xor, a, b => some (Int.xor a b)

/-- `op` of the shifts (core/vtypes.py:1121-1169), on Python integers.  `none`: an exception (negative amount). -/
def foldSh : ShOp → Int → Int → Option Int
  | .sll, a, b => if b < 0 then none else some (a * (2 ^ b.toNat : Nat))
  | .srl, a, b => if b < 0 then none else some (a / (2 ^ b.toNat : Nat))
  | .sra, a, b =>
      if b < 0 then none
      else if 0 ≤ a then some (a / (2 ^ b.toNat : Nat))
      else some (-1 * ((a.natAbs : Int) / (2 ^ b.toNat : Nat)))

/-- A Python bool, printed as 0 or 1 (verilog/to_verilog.py:131-134). -/
def ofBool (b : Bool) : Int := if b then 1 else 0

/-- `Repeat.op` (core/vtypes.py:1822-1827). -/
def foldRep (v : Int) (w : Nat) : Nat → Int
  | 0 => 0
  | n + 1 => Int.lor (foldRep v w n * (2 ^ w : Nat)) v

/-- `get_width` of an operand (core/vtypes.py:600-601, 761-764, 800-803, 1006-1009, 1037-1038, 1060-1350,
    1409-1410, 1593-1620, 1692-1693, 1754-1759, 1816-1817, 1840-1843, 2227-2230 and resolver/resolver.py:11-18). -/
def pyWidth : VExpr → Nat
  | .lit t _ => t.width
  | .var t _ => t.width
  | .neg e => pyWidth e
  | .not e => pyWidth e
  | .lnot _ => 1
  | .bin op a b =>
      match op with
      | .plus | .minus => max (pyWidth a) (pyWidth b) + 1
      | .times => pyWidth a + pyWidth b
      | _ => max (pyWidth a) (pyWidth b)
  | .shift op a b =>
      match op with
      | .sll => 2 ^ pyWidth b + pyWidth a
      | _ => pyWidth a
  | .cmp _ _ _ => 1
  | .land _ _ => 1
  | .lor _ _ => 1
  | .cond _ a b => max (pyWidth a) (pyWidth b)
  | .cat a b => pyWidth a + pyWidth b
  | .rep n e => pyWidth e * n
  | .bit _ _ => 1
  | .slice _ m l => m - l + 1
  | .toSigned e => pyWidth e

/-- The constant dictionary (resolver/resolver.py:107-125). -/
abbrev Dict := String → Option Int

/-- `ReplaceVisitor.visit` (resolver/resolver.py:78-98 for leaves, 129-143 for parameters, 218-311 for operators).
    `none` is a Python exception.  A constant condition does not select a branch unless both branches are constant
    (297-311). -/
def visit (d : Dict) : VExpr → Option Res
  | .lit _ v => some (.const v)
  | .var t x =>
      match d x with
      | some v => some (.const v)
      | none => some (.node (.var t x))
  | .neg e => do
      match ← visit d e with
      | .const v => pure (.const (-v))
      | .node e => pure (.node (.neg e))
  | .not e => do
      match ← visit d e with
      | .const v => pure (.const (-v - 1))
      | .node e => pure (.node (.not e))
  | .lnot e => do
      match ← visit d e with
      | .const v => pure (.const (ofBool (v == 0)))
      | .node e => pure (.node (.lnot e))
  | .bin op a b => do
      match ← visit d a, ← visit d b with
      | .const x, .const y => Res.const <$> foldBin op x y
      | ra, rb => pure (.node (.bin op ra.expr rb.expr))
  | .shift op a b => do
      match ← visit d a, ← visit d b with
      | .const x, .const y => Res.const <$> foldSh op x y
      | ra, rb => pure (.node (.shift op ra.expr rb.expr))
  | .cmp op a b => do
      match ← visit d a, ← visit d b with
      | .const x, .const y => pure (.const (ofBool (op.eval x y)))
      | ra, rb => pure (.node (.cmp op ra.expr rb.expr))
  | .land a b => do
      match ← visit d a, ← visit d b with
      | .const x, .const y => pure (.const (ofBool (x != 0 && y != 0)))
      | ra, rb => pure (.node (.land ra.expr rb.expr))
  | .lor a b => do
      match ← visit d a, ← visit d b with
      | .const x, .const y => pure (.const (ofBool (x != 0 || y != 0)))
      | ra, rb => pure (.node (.lor ra.expr rb.expr))
  | .cond k a b => do
      match ← visit d k, ← visit d a, ← visit d b with
      | .const z, .const x, .const y => pure (.const (if z ≠ 0 then x else y))
      | rk, ra, rb => pure (.node (.cond rk.expr ra.expr rb.expr))
  | .cat a b => do
      match ← visit d a, ← visit d b with
      | .const x, .const y => pure (.const (Int.lor (x * (2 ^ pyWidth b : Nat)) y))
      | ra, rb => pure (.node (.cat ra.expr rb.expr))
  | .rep n e => do
      match ← visit d e with
      | .const v => pure (.const (foldRep v (pyWidth e) n))
      | .node e' => pure (.node (.rep n e'))
  | .bit e i => do
      match ← visit d e with
      | .const v => pure (.const (v / (2 ^ i : Nat) % 2))
      | .node e' => pure (.node (.bit e' i))
  | .slice e m l => do
      match ← visit d e with
      | .const v => pure (.const (v / (2 ^ l : Nat) % (2 ^ (m - l + 1) : Nat)))
      | .node e' => pure (.node (.slice e' m l))
  | .toSigned e => do
      pure (.node (.toSigned (← visit d e).expr))

/-- One pass over the unresolved parameters (`_update_const_dict_iter`, resolver/resolver.py:541-557): the
    dictionary is updated while the pass runs, an entry that exists already is kept.  Returns the dictionary and the
    parameters that are still unresolved. -/
def updateIter (d : Dict) : List (String × VExpr) → Option (Dict × List (String × VExpr))
  | [] => some (d, [])
  | (x, e) :: rest => do
      match ← visit d e with
      | .const v =>
          updateIter (if (d x).isSome then d else fun y => if y = x then some v else d y) rest
      | .node _ =>
          let (d', un) ← updateIter d rest
          pure (d', (x, e) :: un)

/-- The loop of `_update_const_dict` (resolver/resolver.py:522-539).  It runs while the last pass has resolved
    something; `n` bounds the passes, `ps.length + 1` is enough.  `none`: the `ValueError` of line 538, or an exception
    of an operator. -/
def update : Nat → Dict → List (String × VExpr) → Option Dict
  | _, d, [] => some d
  | 0, _, _ => none
  | n + 1, d, ps => do
      let (d', un) ← updateIter d ps
      if un.length < ps.length then update n d' un else none

end Resolver
