import Verif.Model.Fixed
import Verif.Model.Mul
import Verif.Model.Div

/-!
# Arithmetic of stream values with width, point and signedness (stream/stypes.py)

The attributes each operator class computes for its result, and the value its `_implement` puts in `sig_data`,
for operands that are variables (nets) or constants.  Latency and enables are not part of this file (C24, C04,
C06).  Left out: bitwise and reduction operators, `Power`, `Float` and `Str` constants, negative points.
-/

namespace SArith

open Vlog Fixed

/-- `width`, `point` and `signed` of a node (stream/stypes.py:125-128). -/
structure Attr where
  width : Nat
  point : Nat
  signed : Bool
  deriving DecidableEq, Repr

/-- The declared type of `sig_data` (stream/stypes.py:504, 509). -/
def Attr.ty (a : Attr) : Ty := ⟨a.width, a.signed⟩

/-- What a node's `sig_data` is: a declared wire or register, the literal of an `Int`
    (stream/stypes.py:3928-3940) or that of a `FixedPoint` (3951-3965). -/
inductive Src
  | net (x : String)
  | int (v : Int)
  | fixed (v : Int)
  deriving DecidableEq, Repr

/-- A node with its attributes (stream/stypes.py:106-132). -/
structure Nd where
  attr : Attr
  src : Src
  deriving DecidableEq, Repr

/-- `vtypes.get_width` of a Python integer (core/vtypes.py:124-132). -/
def intWidth (v : Int) : Nat := (if v = 0 then 0 else Nat.log2 v.natAbs + 1) + 1

/-- `Int(v)` (stream/stypes.py:3928-3936; `Constant` of a Python integer, 25-27). -/
def mkInt (v : Int) : Nd := ⟨⟨intWidth v, 0, true⟩, .int v⟩

/-- `FixedPoint(v, point)` for the raw integer `v` (stream/stypes.py:3951-3961). -/
def mkFixed (v : Int) (point : Nat) : Nd := ⟨⟨intWidth v, point, true⟩, .fixed v⟩

/-- `vtypes.Int(v, width = w, signed = s)` as printed (core/vtypes.py:821-825: a negative value is always
    signed; verilog/to_verilog.py:58-82). -/
def sizedInt (v : Int) (w : Nat) (s : Bool) : VExpr :=
  if v < 0 then .neg (.lit ⟨w, true⟩ v.natAbs) else .lit ⟨w, s⟩ v.natAbs

/-- The expression standing for `sig_data`: the literal of a `FixedPoint` is made without `signed`
    (stream/stypes.py:3964, against 3939 for `Int`). -/
def Nd.expr (n : Nd) : VExpr :=
  match n.src with
  | .net x => .var n.attr.ty x
  | .int v => sizedInt v n.attr.width n.attr.signed
  | .fixed v => sizedInt v n.attr.width false

/-- `sig_data` as `fx.shift_left` sees it (types/fixed.py:255-271): the value of a `vtypes.Int` is shifted as
    a Python integer, everything else as a signal; without a shift `sig_data` is used as it is. -/
def Nd.opnd (n : Nd) (d : Nat) : Opnd :=
  if d = 0 then .sig n.expr else
  match n.src with
  | .net _ => .sig n.expr
  | .int v => .const v
  | .fixed v => .const v

/-- The aligned operands (`fx.adjust`, stream/stypes.py:496-499). -/
def aligned (l r : Nd) (signed : Bool) : VExpr × VExpr :=
  let p := adjust (l.opnd (r.attr.point - l.attr.point)) (r.opnd (l.attr.point - r.attr.point))
    l.attr.point r.attr.point signed
  (p.1.expr, p.2.expr)

/-- `_BinaryOperator._set_attributes` (stream/stypes.py:479-486). -/
def binAttr (l r : Attr) : Attr where
  width := (max ((l.width : Int) - l.point) ((r.width : Int) - r.point) + (max l.point r.point : Nat)).toNat
  point := max l.point r.point
  signed := l.signed && r.signed

/-- Attributes of the comparisons (stream/stypes.py:960-1023). -/
def cmpAttr : Attr := ⟨1, 0, false⟩

/-- `Times._set_attributes` (stream/stypes.py:642-649). -/
def timesAttr (l r : Attr) : Attr where
  width := max l.width r.width
  point := min (max l.point r.point) (l.point + r.point)
  signed := l.signed && r.signed

/-- `Sll._set_attributes` (stream/stypes.py:1073-1087): a constant amount is added to the width, otherwise
    `2 ** width` of the amount.  Widths above 1024 raise. -/
def sllAttr (l r : Nd) : Option Attr :=
  let w : Int := match r.src with
    | .net _ => l.attr.width + (2 ^ r.attr.width : Nat)
    | .int v => l.attr.width + v
    | .fixed v => l.attr.width + v
  if w > 1024 then none else some ⟨w.toNat, l.attr.point, l.attr.signed⟩

/-- `Srl._set_attributes` (stream/stypes.py:1094-1097). -/
def srlAttr (l : Attr) : Attr := ⟨l.width, l.point, false⟩

/-- `Sra._set_attributes` (stream/stypes.py:1105-1108). -/
def sraAttr (l : Attr) : Attr := ⟨l.width, l.point, l.signed⟩

/-- `Cond._set_attributes` (stream/stypes.py:1835-1844). -/
def condAttr (t f : Attr) : Attr where
  width := (max ((t.width : Int) - t.point) ((f.width : Int) - f.point) + (max t.point f.point : Nat)).toNat
  point := max t.point f.point
  signed := t.signed || f.signed

/-- `Plus` or `Minus` (stream/stypes.py:492-511, 923-932). -/
def addSub (op : BinOp) (ρ : String → Int) (l r : Nd) : Int :=
  let o := binAttr l.attr r.attr
  let p := aligned l r o.signed
  (VExpr.bin op p.1 p.2).assign ρ o.ty

/-- `LessThan` … `NotEq` (stream/stypes.py:492-511, 960-1023): `signed` is that of the one-bit result, so the
    operands are never passed to `to_signed`. -/
def compare (op : CmpOp) (ρ : String → Int) (l r : Nd) : Int :=
  let p := aligned l r cmpAttr.signed
  (VExpr.cmp op p.1 p.2).assign ρ cmpAttr.ty

/-- What a port of width `w` gets from `e` (stream/stypes.py:693-695, 765-766): an implicit assignment. -/
def port (ρ : String → Int) (w : Nat) (e : VExpr) : BitVec w := BitVec.ofInt w (e.assign ρ ⟨w, false⟩)

/-- `Times` (stream/stypes.py:651-697): the product of the multiplier in a wire of `lwidth + rwidth` bits, shifted
    into `mul_odata_reg`, then assigned to `data`. -/
def times (ρ : String → Int) (l r : Nd) : Int :=
  let o := timesAttr l.attr r.attr
  let full : Ty := ⟨l.attr.width + r.attr.width, o.signed⟩
  let c := Mul.mulWire l.attr.signed r.attr.signed (port ρ l.attr.width l.expr) (port ρ r.attr.width r.expr)
  let ρ₁ : String → Int := fun _ => full.wrap (c.toNat : Int)
  let shift := l.attr.point + r.attr.point - o.point
  let e : VExpr := .var full "mul_odata"
  let reg := if shift > 0 then (shiftRight (.sig e) shift o.signed).expr.assign ρ₁ full else e.assign ρ₁ full
  o.ty.wrap reg

/-- The wire of a divider operand (stream/stypes.py:730-741, 805-816): `$signed` is applied to the aligned operand
    if the node is signed. -/
def divWire (ρ : String → Int) (w : Nat) (n : Nd) (e : VExpr) : Int :=
  (if n.attr.signed then VExpr.toSigned e else e).assign ρ ⟨w, n.attr.signed⟩

/-- The divider on one pair of operands (stream/div.py:26-163): `load`, `W_D` stages, output registers. -/
def divider {W : Nat} (aS bS oS : Bool) (a b : BitVec W) : Div.Out W :=
  Div.final oS (Nat.repeat Div.next W (Div.load aS bS ⟨true, true, a, b⟩))

/-- The instance of the divider shared by `Divide` and `Mod` (stream/stypes.py:715-768, 783-835). -/
def divInst (ρ : String → Int) (l r : Nd) : Div.Out (binAttr l.attr r.attr).width :=
  let o := binAttr l.attr r.attr
  let p := aligned l r o.signed
  divider l.attr.signed r.attr.signed o.signed
    (BitVec.ofInt o.width (divWire ρ o.width l p.1)) (BitVec.ofInt o.width (divWire ρ o.width r p.2))

/-- `Divide` (stream/stypes.py:700-768). -/
def divide (ρ : String → Int) (l r : Nd) : Int :=
  (binAttr l.attr r.attr).ty.wrap ((divInst ρ l r).rslt.toNat : Int)

/-- `Mod` (stream/stypes.py:771-835). -/
def mod (ρ : String → Int) (l r : Nd) : Int :=
  (binAttr l.attr r.attr).ty.wrap ((divInst ρ l r).mod.toNat : Int)

/-- `Sll`, `Srl`, `Sra` with result attributes `o` (stream/stypes.py:1034-1067); an amount with a point raises
    (1035-1036). -/
def shift (op : ShOp) (ρ : String → Int) (o : Attr) (l r : Nd) : Option Int :=
  if r.attr.point ≠ 0 then none else some ((VExpr.shift op l.expr r.expr).assign ρ o.ty)

/-- `Uminus` (stream/stypes.py:560-565, 582-585, 1230-1233). -/
def uminus (ρ : String → Int) (r : Nd) : Int := (VExpr.neg r.expr).assign ρ r.attr.ty

/-- `Cond` (stream/stypes.py:1521-1541, 1829-1844): the values are used without aligning them. -/
def cond (ρ : String → Int) (c t f : Nd) : Int :=
  (VExpr.cond c.expr t.expr f.expr).assign ρ (condAttr t.attr f.attr).ty

/-- `Cast` to the attributes `o` (stream/stypes.py:1432-1456). -/
def cast (ρ : String → Int) (o : Attr) (r : Nd) : Int :=
  let src := r.expr.assign ρ r.attr.ty
  let e : VExpr := .var r.attr.ty "src"
  let ρ₁ : String → Int := fun _ => src
  let e' := if r.attr.point > o.point then (shiftRight (.sig e) (r.attr.point - o.point) r.attr.signed).expr
    else if r.attr.point < o.point then (shiftLeft (.sig e) (o.point - r.attr.point)).expr
    else e
  e'.assign ρ₁ o.ty

/-- `ReinterpretCast` (stream/stypes.py:1464-1482). -/
def reinterpret (ρ : String → Int) (o : Attr) (r : Nd) : Int :=
  let src := r.expr.assign ρ r.attr.ty
  VExpr.assign (fun _ => src) o.ty (.var r.attr.ty "src")

end SArith
