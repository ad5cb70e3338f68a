import Verif.Model.Vlog

/-!
# Model of some stream operators (stream/stypes.py)

`op_tree`, `AddTree`, `Max`, `Min`, `SraRound` (integer operands, `point = 0`) and the state update of
`RandXorshift`.  Latencies are not part of the values; the pipeline registers an operator adds are the
subject of C24.
-/

namespace Stream

open Vlog

/-- `op_tree` (stream/stypes.py:2610-2624), without the assignment of latencies. -/
def opTree {α : Type} (op : α → α → α) (initval : α) : List α → α
  | [] => initval
  | [a] => a
  | a :: b :: l =>
    op (opTree op initval ((a :: b :: l).take ((a :: b :: l).length / 2)))
       (opTree op initval ((a :: b :: l).drop ((a :: b :: l).length / 2)))
termination_by l => l.length
decreasing_by
  · simp only [List.length_take, List.length_cons]; omega
  · simp only [List.length_drop, List.length_cons]; omega

/-- Attributes of a binary arithmetic operator (stream/stypes.py:479-486) on integers. -/
def binTy (a b : Ty) : Ty := ⟨max a.width b.width, a.signed && b.signed⟩

/-- `Plus` (stream/stypes.py:923-926; value as implemented at 506-514). -/
def plus (a b : Val) : Val :=
  let t := binTy a.ty b.ty
  ⟨t, t.wrap (a.read t.signed + b.read t.signed)⟩

/-- `GreaterThan` (stream/stypes.py:971-979): the comparison is signed only if both operands are. -/
def greaterThan (a b : Val) : Bool :=
  decide (a.read (a.ty.signed && b.ty.signed) > b.read (a.ty.signed && b.ty.signed))

/-- `LessThan` (stream/stypes.py:960-968). -/
def lessThan (a b : Val) : Bool :=
  decide (a.read (a.ty.signed && b.ty.signed) < b.read (a.ty.signed && b.ty.signed))

/-- `Cond` (stream/stypes.py:1829-1844): the result is declared signed if one of the values is, while
    the expression `c ? t : f` assigned to it is signed only if both are. -/
def cond (c : Bool) (t f : Val) : Val :=
  let ty : Ty := ⟨max t.ty.width f.ty.width, t.ty.signed || f.ty.signed⟩
  ⟨ty, ty.wrap ((if c then t else f).read (t.ty.signed && f.ty.signed))⟩

/-- Bits needed for an integer constant (core/vtypes.py:124-132 `get_width`, stream/stypes.py:3934-3936):
    `bit_length + 1`. -/
def constWidth (v : Int) : Nat := (if v = 0 then 0 else Nat.log2 v.natAbs + 1) + 1

/-- `Int` (stream/stypes.py:3928-3940). -/
def int (v : Int) : Val := ⟨⟨constWidth v, true⟩, v⟩

/-- `AddTree` (stream/stypes.py:2641-2642). -/
def addTree (l : List Val) : Val := opTree plus (int 0) l

/-- `Max` (stream/stypes.py:2645-2649); `args[0]` of an empty list raises. -/
def maxTree : List Val → Option Val
  | [] => none
  | [a] => some a
  | a :: l => some (opTree (fun x y => cond (greaterThan x y) x y) a (a :: l))

/-- `Min` (stream/stypes.py:2652-2656). -/
def minTree : List Val → Option Val
  | [] => none
  | [a] => some a
  | a :: l => some (opTree (fun x y => cond (lessThan x y) x y) a (a :: l))

/-- The wire of a `Plus` whose width attribute was overwritten (stream/stypes.py:2699-2701). -/
def plusW (w : Nat) (a b : Val) : Val :=
  let t : Ty := ⟨w, a.ty.signed && b.ty.signed⟩
  ⟨t, t.wrap (a.read t.signed + b.read t.signed)⟩

/-- Bit `i` of a vector as an unsigned one-bit value (`Pointer`, stream/stypes.py:1580-1593). -/
def bit (a : Val) (i : Nat) : Bool := (a.val / (2 ^ i : Nat)) % 2 = 1

/-- `Sra` (stream/stypes.py:1103-1108) with the result width `w`: Verilog `>>>` shifts in the sign if
    the left operand is signed and zeros otherwise; both are the floor of the quotient of the value
    of the left operand. -/
def sraW (w : Nat) (a : Val) (r : Nat) : Val :=
  ⟨⟨w, a.ty.signed⟩, (⟨w, a.ty.signed⟩ : Ty).wrap (a.val / (2 ^ r : Nat))⟩

/-- The part of `SraRound` after `rounder` is known (stream/stypes.py:2694-2713): `rounder_sign`,
    the two sums, the shift and the final `Mux`. -/
def sraRoundWith (left rounder : Val) (r : Nat) : Val :=
  let msb := bit left (left.ty.width - 1)
  let roundSign := cond msb (int (-1)) (int 0)
  let pre := plusW (left.ty.width + 1) left rounder
  let pre := plus pre roundSign
  let shifted := sraW left.ty.width pre r
  cond (r = 0) left shifted

/-- `SraRound(left, right)` with a Python integer `right` (stream/stypes.py:2676-2713); negative
    `right` is not modelled. -/
def sraRound (left : Val) (r : Nat) : Val :=
  sraRoundWith left (int (if r = 0 then 0 else 2 ^ (r - 1))) r

/-- `Minus` with 1 (stream/stypes.py:929-932, 2690). -/
def minusOne (a : Val) : Val :=
  let t := binTy a.ty (int 1).ty
  ⟨t, t.wrap (a.read t.signed - 1)⟩

/-- Least `k` with `n ≤ 2^k`, the `int(ceil(log(n, 2)))` of stream/stypes.py:2686 taken exactly. -/
def clog2 (n : Nat) : Nat := if n ≤ 1 then 0 else Nat.log2 (n - 1) + 1

/-- `SraRound(left, right)` with a stream value `right` of non-negative value
    (stream/stypes.py:2685-2693): `rounder` is 1 shifted left by the low bits of `right`, minus one
    (in the width of that subtraction).  `none`: `Sll` raises because the width exceeds 1024
    (stream/stypes.py:1070-1090). -/
def sraRoundDyn (left right : Val) : Option Val :=
  let k := clog2 left.ty.width
  let slice : Val := if k < right.ty.width then ⟨⟨k, false⟩, right.val % (2 ^ k : Nat)⟩ else right
  let m1 := minusOne slice
  let w := (int 1).ty.width + 2 ^ m1.ty.width
  if 1024 < w then none else
  let sh := (m1.val % (2 ^ m1.ty.width : Nat)).toNat
  let rounder : Val := ⟨⟨w, true⟩, (⟨w, true⟩ : Ty).wrap (2 ^ sh)⟩
  some (sraRoundWith left rounder right.val.toNat)

/-- `next_value` of `RandXorshift` for width 32 (stream/stypes.py:3669-3672). -/
def xorshift32 (x : BitVec 32) : BitVec 32 :=
  let x := x ^^^ (x <<< 13)
  let x := x ^^^ (x >>> 17)
  x ^^^ (x <<< 5)

/-- `next_value` of `RandXorshift` for width 64 (stream/stypes.py:3673-3676). -/
def xorshift64 (x : BitVec 64) : BitVec 64 :=
  let x := x ^^^ (x <<< 13)
  let x := x ^^^ (x >>> 7)
  x ^^^ (x <<< 17)

/-- The registers `data` and `randval` of `RandXorshift` (stream/stypes.py:3659-3663), both
    initialised to `reg_initval`. -/
structure RandSt (w : Nat) where
  data : BitVec w
  randval : BitVec w

/-- Value after hardware reset (stream/stypes.py:3659-3663). -/
def RandSt.init {w : Nat} (seed : BitVec w) : RandSt w := ⟨seed, seed⟩

/-- One clock edge of `RandXorshift` (stream/stypes.py:3680-3686): `en` is the conjunction of the
    stage valid, the stage enable and the `enable` argument. -/
def RandSt.step {w : Nat} (next : BitVec w → BitVec w) (s : RandSt w) (en : Bool) : RandSt w :=
  if en then ⟨s.randval, next s.randval⟩ else s

end Stream
