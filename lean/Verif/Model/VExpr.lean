import Verif.Model.Vlog

/-!
# Verilog expressions

The expressions printed by verilog/to_verilog.py for the operator classes of core/vtypes.py, with the
sizing and signedness rules of IEEE 1364-2005, 5.4 and 5.5: every expression has a self-determined type;
an assignment or comparison hands the final type down to the operands, where a variable or a literal is
extended to it (with its sign only if the handed-down type is signed).

Left out: real numbers, `x`/`z`, arrays, `**`, calls.  Division by zero and an out-of-range bit select are
`x` in Verilog and 0 here; theorems exclude them by hypothesis.
-/

namespace Vlog

/-- Operators with two context-determined operands (core/vtypes.py:1054-1101 and 1284-1350; printed by
    verilog/to_verilog.py:213-322). -/
inductive BinOp
  | plus | minus | times | divide | mod | and | or | xor
  deriving DecidableEq, Repr

/-- Shifts (core/vtypes.py:1121-1169). -/
inductive ShOp
  | sll | srl | sra
  deriving DecidableEq, Repr

/-- Comparisons (core/vtypes.py:1172-1253). -/
inductive CmpOp
  | lt | gt | le | ge | eq | ne
  deriving DecidableEq, Repr

/-- Expressions.  `lit` is an unsigned digit string with its declared type (verilog/to_verilog.py:58-122; an
    unsized decimal is 32 bits and signed), a negative literal is printed as unary minus. `bit` and `slice`
    are `Pointer` and `Slice` with constant bounds (core/vtypes.py:1576-1736), `cat` is a two-operand `Cat`
    (1739-1805), `rep` is `Repeat` (1808-1827), `cond` is `Cond` (1830-1854), `toSigned` is `$signed`
    (types/fixed.py:223). -/
inductive VExpr
  | lit (t : Ty) (v : Nat)
  | var (t : Ty) (name : String)
  | neg (e : VExpr)
  | not (e : VExpr)
  | lnot (e : VExpr)
  | bin (op : BinOp) (a b : VExpr)
  | shift (op : ShOp) (a b : VExpr)
  | cmp (op : CmpOp) (a b : VExpr)
  | land (a b : VExpr)
  | lor (a b : VExpr)
  | cond (c a b : VExpr)
  | cat (a b : VExpr)
  | rep (n : Nat) (e : VExpr)
  | bit (e : VExpr) (i : Nat)
  | slice (e : VExpr) (msb lsb : Nat)
  | toSigned (e : VExpr)
  deriving Repr, DecidableEq

namespace VExpr

/-- Self-determined type (IEEE 1364-2005, table 5-22 and 5.5.1) of what verilog/to_verilog.py:209-396
    prints. -/
def ty : VExpr → Ty
  | lit t _ => t
  | var t _ => t
  | neg e => e.ty
  | not e => e.ty
  | lnot _ => ⟨1, false⟩
  | bin _ a b => ⟨max a.ty.width b.ty.width, a.ty.signed && b.ty.signed⟩
  | shift _ a _ => a.ty
  | cmp _ _ _ => ⟨1, false⟩
  | land _ _ => ⟨1, false⟩
  | lor _ _ => ⟨1, false⟩
  | cond _ a b => ⟨max a.ty.width b.ty.width, a.ty.signed && b.ty.signed⟩
  | cat a b => ⟨a.ty.width + b.ty.width, false⟩
  | rep n e => ⟨n * e.ty.width, false⟩
  | bit _ _ => ⟨1, false⟩
  | slice _ m l => ⟨m - l + 1, false⟩
  | toSigned e => ⟨e.ty.width, true⟩

end VExpr

/-- Unsigned reading of a value of width `w` (IEEE 1364-2005, 5.5.2; used for the operands of
    verilog/to_verilog.py:370-389). -/
def bits (w : Nat) (v : Int) : Nat := (v % (2 ^ w : Nat)).toNat

/-- A self-determined operand of type `t` in a context of type `c` (IEEE 1364-2005, 5.5.2 and 5.5.3; the leaf
    operands printed by verilog/to_verilog.py:58-137). -/
def extend (t : Ty) (v : Int) (c : Ty) : Int := c.wrap ((⟨t, v⟩ : Val).read c.signed)

/-- A two-operand operator on values of type `t` (core/vtypes.py:1054-1101 and 1284-1350). -/
def BinOp.eval (t : Ty) : BinOp → Int → Int → Int
  | .plus, a, b => t.wrap (a + b)
  | .minus, a, b => t.wrap (a - b)
  | .times, a, b => t.wrap (a * b)
  | .divide, a, b => t.wrap (a.tdiv b)
  | .mod, a, b => t.wrap (a.tmod b)
  | .and, a, b => t.wrap (bits t.width a &&& bits t.width b : Nat)
  | .or, a, b => t.wrap (bits t.width a ||| bits t.width b : Nat)
  | .xor, a, b => t.wrap (bits t.width a ^^^ bits t.width b : Nat)

/-- A shift of a value of type `t` by `n` (core/vtypes.py:1121-1169): `>>>` copies the sign only in a signed
    expression. -/
def ShOp.eval (t : Ty) : ShOp → Int → Nat → Int
  | .sll, a, n => t.wrap (a * (2 ^ n : Nat))
  | .srl, a, n => t.wrap (bits t.width a / 2 ^ n : Nat)
  | .sra, a, n => if t.signed then a / (2 ^ n : Nat) else t.wrap (bits t.width a / 2 ^ n : Nat)

/-- A comparison of two values of one type (core/vtypes.py:1172-1253). -/
def CmpOp.eval : CmpOp → Int → Int → Bool
  | .lt, a, b => decide (a < b)
  | .gt, a, b => decide (a > b)
  | .le, a, b => decide (a ≤ b)
  | .ge, a, b => decide (a ≥ b)
  | .eq, a, b => decide (a = b)
  | .ne, a, b => decide (a ≠ b)

/-- `n` copies of the `w` bits of `b` (core/vtypes.py:1823-1827). -/
def repeatBits (w b : Nat) : Nat → Nat
  | 0 => 0
  | n + 1 => repeatBits w b n * 2 ^ w + b

namespace VExpr

/-- The common type of two compared operands (IEEE 1364-2005, 5.5.1; printed by
    verilog/to_verilog.py:258-300). -/
def join (a b : VExpr) : Ty := ⟨max a.ty.width b.ty.width, a.ty.signed && b.ty.signed⟩

/-- The value of an expression in a context of type `t`, given the values of the variables
    (IEEE 1364-2005, 5.5.2, for what verilog/to_verilog.py:58-396 prints). -/
def eval (ρ : String → Int) : VExpr → Ty → Int
  | lit t v, c => extend t (t.wrap v) c
  | var t x, c => extend t (t.wrap (ρ x)) c
  | neg e, c => c.wrap (- e.eval ρ c)
  | not e, c => c.wrap (- e.eval ρ c - 1)
  | lnot e, c => c.wrap (if e.eval ρ e.ty = 0 then 1 else 0)
  | bin op a b, c => op.eval c (a.eval ρ c) (b.eval ρ c)
  | shift op a b, c => op.eval c (a.eval ρ c) (bits b.ty.width (b.eval ρ b.ty))
  | cmp op a b, c => c.wrap (if op.eval (a.eval ρ (join a b)) (b.eval ρ (join a b)) then 1 else 0)
  | land a b, c => c.wrap (if a.eval ρ a.ty ≠ 0 ∧ b.eval ρ b.ty ≠ 0 then 1 else 0)
  | lor a b, c => c.wrap (if a.eval ρ a.ty ≠ 0 ∨ b.eval ρ b.ty ≠ 0 then 1 else 0)
  | cond k a b, c => if k.eval ρ k.ty ≠ 0 then a.eval ρ c else b.eval ρ c
  | cat a b, c =>
      c.wrap (bits a.ty.width (a.eval ρ a.ty) * 2 ^ b.ty.width + bits b.ty.width (b.eval ρ b.ty) : Nat)
  | rep n e, c =>
      c.wrap (repeatBits e.ty.width (bits e.ty.width (e.eval ρ e.ty)) n : Nat)
  | bit e i, c => c.wrap (bits e.ty.width (e.eval ρ e.ty) / 2 ^ i % 2 : Nat)
  | slice e m l, c => c.wrap (bits e.ty.width (e.eval ρ e.ty) / 2 ^ l % 2 ^ (m - l + 1) : Nat)
  | toSigned e, c => extend ⟨e.ty.width, true⟩ (Ty.wrap ⟨e.ty.width, true⟩ (e.eval ρ e.ty)) c

/-- The self-determined value (IEEE 1364-2005, 5.4.1; conditions, indexes and operands of concatenations
    printed by verilog/to_verilog.py:370-396). -/
def value (ρ : String → Int) (e : VExpr) : Int := e.eval ρ e.ty

/-- The value a variable of type `t` gets from `t = e` or `t <= e` (IEEE 1364-2005, 5.4.1 and 5.5.4; printed by
    verilog/to_verilog.py:826-850): evaluated at the larger of the two widths with the signedness of the
    right-hand side, then truncated. -/
def assign (ρ : String → Int) (t : Ty) (e : VExpr) : Int :=
  t.wrap (e.eval ρ ⟨max t.width e.ty.width, e.ty.signed⟩)

/-- A Python integer as an operand (verilog/to_verilog.py:136-137): an unsized decimal literal, with unary
    minus if negative. -/
def pyInt (v : Int) : VExpr :=
  if v < 0 then neg (lit ⟨32, true⟩ v.natAbs) else lit ⟨32, true⟩ v.natAbs

/-- `Int(v, signed = True)` without a width (verilog/to_verilog.py:58-82): `'sd` literal, 32 bits, with
    unary minus if negative. -/
def sInt (v : Int) : VExpr := pyInt v

end VExpr
end Vlog
