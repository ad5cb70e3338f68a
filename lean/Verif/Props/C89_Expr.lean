import Verif.Lemmas.ThreadExpr
import Mathlib.Tactic.ByContra
import Mathlib.Tactic.Linarith

/-! # C89: expressions in thread functions have the values they have in Python

`TE.py` is the value in Python.  `Good` says for which expressions this is promised: nothing that is looked at (compared, divided,
shifted to the right, tested) leaves the width in which the generated Verilog computes it, division does not round, truth values are
used as such, and truth values are not mixed with numbers whose sign matters. -/

namespace TEx
open Vlog

/-- Unary operators of Python on integers. -/
def pyUn : UOp → ℤ → ℤ
  | .neg, x => -x
  | .pos, x => x
  | .inv, x => -x - 1
  | .not, x => if x = 0 then 1 else 0

/-- Binary operators of Python on integers (`/` gives a float, which is none here). -/
def pyBin : AOp → ℤ → ℤ → Option ℤ
  | .add, x, y => some (x + y)
  | .sub, x, y => some (x - y)
  | .mul, x, y => some (x * y)
  | .truediv, _, _ => none
  | .floordiv, x, y => if y = 0 then none else some (x.fdiv y)
  | .mod, x, y => if y = 0 then none else some (x.fmod y)
  | .shl, x, y => if y < 0 then none else some (x * 2 ^ y.toNat)
  | .shr, x, y => if y < 0 then none else some (x.fdiv (2 ^ y.toNat))
  | .and, x, y => some (Int.land x y)
  | .or, x, y => some (Int.lor x y)
  | .xor, x, y => some (Int.xor x y)

section
variable (ρ : String → ℤ)

mutual
/-- The value in Python; `none` if an exception is raised. -/
def TE.py : TE → Option ℤ
  | .lit z => some z
  | .name x => some (ρ x)
  | .un op a => (TE.py a).map (pyUn op)
  | .bin op a b => (TE.py a).bind fun x => (TE.py b).bind fun y => pyBin op x y
  | .bool true a b => (TE.py a).bind fun x => if x = 0 then some x else TE.py b
  | .bool false a b => (TE.py a).bind fun x => if x = 0 then TE.py b else some x
  | .ite c a b => (TE.py c).bind fun k => if k = 0 then TE.py b else TE.py a
  | .cmp a tl => (TE.py a).bind fun x => Tl.py tl x
/-- The rest of a chain of comparisons, with the value on the left. -/
def Tl.py : Tl → ℤ → Option ℤ
  | .one op b, x => (TE.py b).map fun y => if op.eval x y then 1 else 0
  | .more op b tl, x => (TE.py b).bind fun y => if op.eval x y then Tl.py tl y else some 0
end
end

/-- Expressions computed by the compiler, which have no width. -/
def TE.folds : TE → Bool
  | .lit _ => true
  | .un op a => op ≠ .not && a.folds
  | .bin op a b => (op ≠ .truediv && op ≠ .floordiv && op ≠ .shr) && (a.folds && b.folds)
  | .cmp a (.one op b) => (op ≠ .le && op ≠ .ge) && (a.folds && b.folds)
  | _ => false

/-- The width of an arithmetic expression: the largest of its operands, with 32 for numbers; shifts have the width of what is
    shifted. (Not used for truth values.) -/
def TE.wid (w : ℕ) : TE → ℕ
  | .lit _ => 32
  | .name _ => w
  | .un _ a => a.wid w
  | .bin .shl a _ => a.wid w
  | .bin .shr a _ => a.wid w
  | .bin _ a b => max (a.wid w) (b.wid w)
  | .bool _ _ _ => 32
  | .ite _ a b => max (a.wid w) (b.wid w)
  | .cmp _ _ => 32

/-- `z` is a signed number of `n` bits. -/
def Fits (n : ℕ) (z : ℤ) : Prop := -(2 ^ n : ℤ) ≤ 2 * z ∧ 2 * z < 2 ^ n

instance (n : ℕ) (z : ℤ) : Decidable (Fits n z) := inferInstanceAs (Decidable (_ ∧ _))

/-- What an expression is used for: a number with its sign; its low bits; a truth value 0 or 1; something tested. -/
inductive Kind
  | num | low | bit | test
  deriving DecidableEq

/-- A tested number is a number. -/
def Kind.val : Kind → Kind
  | .test => .num
  | k => k

section
variable (w : ℕ) (ρ : String → ℤ)

/-- The value, if there is one, fits the width of the expression. -/
def TE.Fit (e : TE) : Prop := ∀ z, e.py ρ = some z → Fits (e.wid w) z

/-- What the compiler computes does not fail and is below `2^31`. -/
def TE.Small (e : TE) : Prop := e.folds = true → ∃ z, e.py ρ = some z ∧ z.natAbs < 2 ^ 31

/-- Nothing is rounded: the signs agree, or the division is exact. -/
def Exact (a b : TE) : Prop := ∀ x y, a.py ρ = some x → b.py ρ = some y → 0 ≤ x * y ∨ y ∣ x

mutual
/-- The expressions that are promised their value, by use. -/
def Good : Kind → TE → Prop
  | K, .lit z => z.natAbs < 2 ^ 31 ∧ (K = .bit → z = 0 ∨ z = 1)
  | K, .name _ => K ≠ .bit
  | K, .un .not a => K ≠ .num ∧ Good .test a
  | K, .un op a => K ≠ .bit ∧ (K = .test → (TE.un op a).Fit w ρ) ∧ (TE.un op a).Small ρ ∧ Good K.val a
  | K, .bin op a b => K ≠ .bit ∧ (K = .test → (TE.bin op a b).Fit w ρ) ∧ (TE.bin op a b).Small ρ ∧
      match op with
      | .truediv => False
      | .floordiv => K.val = .num ∧ Good .num a ∧ Good .num b ∧ a.Fit w ρ ∧ b.Fit w ρ ∧ Exact ρ a b
      | .mod => K.val = .num ∧ Good .num a ∧ Good .num b ∧ a.Fit w ρ ∧ b.Fit w ρ ∧ (Exact ρ a b ∨ (a.folds && b.folds) = true)
      | .shl => Good K.val a ∧ Good .num b ∧ b.Fit w ρ
      | .shr => K.val = .num ∧ Good .num a ∧ Good .num b ∧ a.Fit w ρ ∧ b.Fit w ρ
      | _ => Good K.val a ∧ Good K.val b
  | K, .bool _ a b => K ≠ .num ∧ ((K = .test ∧ Good .test a ∧ Good .test b) ∨ (K ≠ .test ∧ Good .bit a ∧ Good .bit b))
  | K, .ite c a b => (K = .test → (TE.ite c a b).Fit w ρ) ∧ Good .test c ∧ Good K.val a ∧ Good K.val b
  | K, .cmp a tl => K ≠ .num ∧ Good .num a ∧ a.Fit w ρ ∧ GoodTl tl a
/-- In a chain only the last comparison may be between constants. -/
def GoodTl : Tl → TE → Prop
  | .one _ b, _ => Good .num b ∧ b.Fit w ρ
  | .more _ b tl, a => Good .num b ∧ b.Fit w ρ ∧ (a.folds && b.folds) = false ∧ GoodTl tl b
end

/-! ## What visiting gives -/

/-- Either the compiler has computed the value, or there is an object. -/
def Inv (e : TE) (v : Vv) : Prop :=
  (e.folds = true ∧ ∃ z, v = .con z ∧ e.py ρ = some z ∧ z.natAbs < 2 ^ 31) ∨ (e.folds = false ∧ ∃ x, v = .ex x)

/-- The meaning by use. -/
def Meets (e : TE) (v : Vv) : Kind → Prop
  | .num => v.e.ty = ⟨e.wid w, true⟩ ∧ ∀ z, e.py ρ = some z → Means ρ v.e z
  | .low => ∀ z, e.py ρ = some z → Low w ρ v.e z
  | .bit => ∀ z, e.py ρ = some z → Bit ρ v.e z
  | .test => ∀ z, e.py ρ = some z → (v.e.eval ρ v.e.ty ≠ 0 ↔ z ≠ 0)

end

variable {w : ℕ} {ρ : String → ℤ}

theorem fits_range {n : ℕ} {z : ℤ} (h : Fits n z) : (⟨n, true⟩ : Ty).InRange z := by
  unfold Fits at h
  unfold Ty.InRange
  rw [if_pos rfl]
  push_cast
  exact h

theorem small_fits {z : ℤ} (h : z.natAbs < 2 ^ 31) : Fits 32 z := by
  unfold Fits; omega

theorem folds_wid : ∀ e : TE, e.folds = true → e.wid w = 32
  | .lit _, _ => rfl
  | .name _, h => by simp [TE.folds] at h
  | .un op a, h => by
    simp only [TE.folds, Bool.and_eq_true] at h
    exact folds_wid a h.2
  | .bin op a b, h => by
    simp only [TE.folds, Bool.and_eq_true] at h
    have h1 := folds_wid a h.2.1
    have h2 := folds_wid b h.2.2
    cases op <;> simp [TE.wid, h1, h2]
  | .bool _ _ _, _ => rfl
  | .ite _ _ _, h => by simp [TE.folds] at h
  | .cmp _ _, _ => rfl

theorem means_test {e : VExpr} {n : ℕ} {z : ℤ} (ht : e.ty = ⟨n, true⟩) (hm : Means ρ e z) (hf : Fits n z) :
    e.eval ρ e.ty ≠ 0 ↔ z ≠ 0 := by
  rw [self_eval hm (by rw [ht]; exact fits_range hf)]

/-- A number that the compiler has computed has all meanings. -/
theorem con_meets {e : TE} {z : ℤ} (hf : e.folds = true) (hp : e.py ρ = some z) (hs : z.natAbs < 2 ^ 31) {K : Kind}
    (hb : K = .bit → z = 0 ∨ z = 1) : Meets w ρ e (.con z) K := by
  have hm : Means ρ (VExpr.pyInt z) z := Means.pyInt hs
  cases K with
  | num =>
    refine ⟨(pyInt_ty z).trans (by rw [folds_wid e hf]), fun z' h => ?_⟩
    rw [hp] at h; cases h
    exact hm
  | low =>
    intro z' h
    rw [hp] at h; cases h
    exact Low.pyInt hs
  | bit =>
    intro z' h
    rw [hp] at h; cases h
    exact bit_pyInt (hb rfl)
  | test =>
    intro z' h
    rw [hp] at h; cases h
    exact means_test (pyInt_ty z) hm (small_fits hs)

/-! ## Comparisons -/

theorem cmpV_ex {op : CmpOp} {u v : Vv} (h : (∃ x, u = .ex x) ∨ ∃ x, v = .ex x) : ∃ r, cmpV op u v = .ex r := by
  rcases h with ⟨x, rfl⟩ | ⟨x, rfl⟩
  · cases op <;> exact ⟨_, rfl⟩
  · cases u <;> cases op <;> exact ⟨_, rfl⟩

theorem cmpV_inv {a b : TE} {u v : Vv} (op : CmpOp) (ha : Inv ρ a u) (hb : Inv ρ b v) :
    Inv ρ (.cmp a (.one op b)) (cmpV op u v) := by
  rcases ha with ⟨fa, x, rfl, px, sx⟩ | ⟨fa, x, rfl⟩
  · rcases hb with ⟨fb, y, rfl, py, sy⟩ | ⟨fb, y, rfl⟩
    · have hz : ∀ p : Prop, ∀ _ : Decidable p, (if p then (1 : ℤ) else 0).natAbs < 2 ^ 31 := fun p _ => by split <;> decide
      cases op
      case lt => exact Or.inl ⟨by simp [TE.folds, fa, fb], _, rfl, by simp [TE.py, Tl.py, px, py, CmpOp.eval], hz _ _⟩
      case gt => exact Or.inl ⟨by simp [TE.folds, fa, fb], _, rfl, by simp [TE.py, Tl.py, px, py, CmpOp.eval], hz _ _⟩
      case eq => exact Or.inl ⟨by simp [TE.folds, fa, fb], _, rfl, by simp [TE.py, Tl.py, px, py, CmpOp.eval], hz _ _⟩
      case ne => exact Or.inl ⟨by simp [TE.folds, fa, fb], _, rfl, by simp [TE.py, Tl.py, px, py, CmpOp.eval], hz _ _⟩
      case le => exact Or.inr ⟨by simp [TE.folds], _, rfl⟩
      case ge => exact Or.inr ⟨by simp [TE.folds], _, rfl⟩
    · exact Or.inr ⟨by simp [TE.folds, fb], cmpV_ex (Or.inr ⟨y, rfl⟩)⟩
  · exact Or.inr ⟨by simp [TE.folds, fa], cmpV_ex (Or.inl ⟨x, rfl⟩)⟩

/-- `<` or `==` is `<=`. -/
theorem bit_or {a b : VExpr} {p q : Prop} [Decidable p] [Decidable q] [Decidable (p ∨ q)]
    (ha : Bit ρ a (if p then 1 else 0)) (hb : Bit ρ b (if q then 1 else 0)) : Bit ρ (.lor a b) (if p ∨ q then 1 else 0) := by
  have h := bit_lor (ρ := ρ) a b
  have e : (if a.eval ρ a.ty ≠ 0 ∨ b.eval ρ b.ty ≠ 0 then (1 : ℤ) else 0) = if p ∨ q then 1 else 0 := by
    have h1 := ha.truth
    have h2 := hb.truth
    by_cases hp : p <;> by_cases hq : q <;> simp [hp, hq] at h1 h2 ⊢ <;> simp [h1, h2]
  rwa [e] at h

theorem cmpV_bit {u v : Vv} {x y : ℤ} {m n : ℕ} (op : CmpOp) (hu : ∀ z, u = .con z → z = x) (hv : ∀ z, v = .con z → z = y)
    (tu : u.e.ty = ⟨m, true⟩) (tv : v.e.ty = ⟨n, true⟩) (mu : Means ρ u.e x) (mv : Means ρ v.e y) (fu : Fits m x) (fv : Fits n y) :
    Bit ρ (cmpV op u v).e (if op.eval x y then 1 else 0) := by
  have hb : ∀ o : CmpOp, Bit ρ (.cmp o u.e v.e) (if o.eval x y then 1 else 0) := fun o =>
    bit_cmp mu mv (by rw [tu]) (by rw [tv]) (by rw [tu]; exact fits_range fu) (by rw [tv]; exact fits_range fv)
  have hle : Bit ρ (.lor (.cmp .lt u.e v.e) (.cmp .eq u.e v.e)) (if CmpOp.le.eval x y then 1 else 0) := by
    have := bit_or (hb .lt) (hb .eq)
    rwa [show (if CmpOp.lt.eval x y = true ∨ CmpOp.eq.eval x y = true then (1 : ℤ) else 0) = if CmpOp.le.eval x y then 1 else 0 from
      if_congr (by simp only [CmpOp.eval, decide_eq_true_eq]; omega) rfl rfl] at this
  have hge : Bit ρ (.lor (.cmp .gt u.e v.e) (.cmp .eq u.e v.e)) (if CmpOp.ge.eval x y then 1 else 0) := by
    have := bit_or (hb .gt) (hb .eq)
    rwa [show (if CmpOp.gt.eval x y = true ∨ CmpOp.eq.eval x y = true then (1 : ℤ) else 0) = if CmpOp.ge.eval x y then 1 else 0 from
      if_congr (by simp only [CmpOp.eval, decide_eq_true_eq]; omega) rfl rfl] at this
  cases u with
  | ex a => cases op <;> first | exact hle | exact hge | exact hb _
  | con x' =>
    have := hu x' rfl
    subst this
    cases v with
    | ex b => cases op <;> exact hb _
    | con y' =>
      have := hv y' rfl
      subst this
      have h01 : ∀ p : Prop, ∀ _ : Decidable p, Bit ρ (VExpr.pyInt (if p then 1 else 0)) (if p then 1 else 0) :=
        fun p _ => bit_pyInt (ite01 p)
      cases op
      case lt => simpa [cmpV, Vv.e, CmpOp.eval] using h01 (x' < y') inferInstance
      case gt => simpa [cmpV, Vv.e, CmpOp.eval] using h01 (x' > y') inferInstance
      case eq => simpa [cmpV, Vv.e, CmpOp.eval] using h01 (x' = y') inferInstance
      case ne => simpa [cmpV, Vv.e, CmpOp.eval] using h01 (x' ≠ y') inferInstance
      case le =>
        have := bit_or (h01 (x' < y') inferInstance) (h01 (x' = y') inferInstance)
        rwa [show (if x' < y' ∨ x' = y' then (1 : ℤ) else 0) = if CmpOp.le.eval x' y' then 1 else 0 from
          if_congr (by simp only [CmpOp.eval, decide_eq_true_eq]; omega) rfl rfl] at this
      case ge =>
        have := bit_or (h01 (x' > y') inferInstance) (h01 (x' = y') inferInstance)
        rwa [show (if x' > y' ∨ x' = y' then (1 : ℤ) else 0) = if CmpOp.ge.eval x' y' then 1 else 0 from
          if_congr (by simp only [CmpOp.eval, decide_eq_true_eq]; omega) rfl rfl] at this

/-- What is needed of an operand of a comparison. -/
structure Operand (w : ℕ) (ρ : String → ℤ) (a : TE) (u : Vv) : Prop where
  inv : Inv ρ a u
  num : Meets w ρ a u .num
  fit : a.Fit w ρ

theorem Inv.con_eq {a : TE} {u : Vv} (h : Inv ρ a u) {x : ℤ} (hx : a.py ρ = some x) : ∀ z, u = .con z → z = x := by
  rintro z rfl
  rcases h with ⟨_, z', e, p, _⟩ | ⟨_, x', e⟩
  · cases e
    rw [hx] at p; cases p; rfl
  · cases e

theorem Operand.bit {a b : TE} {u v : Vv} (ha : Operand w ρ a u) (hb : Operand w ρ b v) {x y : ℤ} (hx : a.py ρ = some x)
    (hy : b.py ρ = some y) (op : CmpOp) : Bit ρ (cmpV op u v).e (if op.eval x y then 1 else 0) :=
  cmpV_bit op (ha.inv.con_eq hx) (hb.inv.con_eq hy) ha.num.1 hb.num.1 (ha.num.2 x hx) (hb.num.2 y hy) (ha.fit x hx) (hb.fit y hy)

/-- What is shown of a chain of comparisons. -/
structure Chain (ρ : String → ℤ) (a : TE) (tl : Tl) (rs : List Vv) : Prop where
  all : ∃ v, landAll none rs = some v ∧ Inv ρ (.cmp a tl) v ∧ ∀ x z, a.py ρ = some x → tl.py ρ x = some z → Bit ρ v.e z
  acc : ∀ e0 : VExpr, ∃ v', landAll (some (.ex e0)) rs = some (.ex v') ∧ (e0.eval ρ e0.ty = 0 → Bit ρ v' 0) ∧
    ∀ x z, a.py ρ = some x → tl.py ρ x = some z → Bit ρ v' (if e0.eval ρ e0.ty ≠ 0 ∧ z ≠ 0 then 1 else 0)

theorem bit_land_zero {a b : VExpr} (h : a.eval ρ a.ty = 0) : Bit ρ (.land a b) 0 := by
  have := bit_land (ρ := ρ) a b
  rwa [if_neg (fun h' => h'.1 h)] at this

theorem land_truth (a b : VExpr) : (VExpr.land a b).eval ρ (VExpr.land a b).ty ≠ 0 ↔ a.eval ρ a.ty ≠ 0 ∧ b.eval ρ b.ty ≠ 0 := by
  rw [(bit_land (ρ := ρ) a b).truth]
  by_cases h : a.eval ρ a.ty ≠ 0 ∧ b.eval ρ b.ty ≠ 0
  · rw [if_pos h]; exact ⟨fun _ => h, fun _ => by decide⟩
  · rw [if_neg h]; exact ⟨fun h' => absurd rfl h', fun h' => absurd h' h⟩

theorem Chain.one {a b : TE} {u v : Vv} (op : CmpOp) (ha : Operand w ρ a u) (hb : Operand w ρ b v) :
    Chain ρ a (.one op b) [cmpV op u v] := by
  have key : ∀ x z, a.py ρ = some x → (Tl.one op b).py ρ x = some z → Bit ρ (cmpV op u v).e z := by
    intro x z hx hz
    simp only [Tl.py, Option.map_eq_some_iff] at hz
    obtain ⟨y, hy, rfl⟩ := hz
    exact ha.bit hb hx hy op
  refine ⟨⟨_, rfl, cmpV_inv op ha.inv hb.inv, key⟩, fun e0 => ⟨_, rfl, bit_land_zero, fun x z hx hz => ?_⟩⟩
  have h := bit_land (ρ := ρ) e0 (cmpV op u v).e
  rwa [if_congr (and_congr Iff.rfl (key x z hx hz).truth) rfl rfl] at h

theorem Chain.more {a b : TE} {u v : Vv} (op : CmpOp) (ha : Operand w ρ a u) (hb : Operand w ρ b v) {tl : Tl} {rs : List Vv}
    (hf : (a.folds && b.folds) = false) (h : Chain ρ b tl rs) : Chain ρ a (.more op b tl) (cmpV op u v :: rs) := by
  obtain ⟨r, hr⟩ : ∃ r, cmpV op u v = .ex r := by
    rcases ha.inv with ⟨fa, _⟩ | ⟨_, x⟩
    · rcases hb.inv with ⟨fb, _⟩ | ⟨_, y⟩
      · rw [fa, fb] at hf; cases hf
      · exact cmpV_ex (Or.inr y)
    · exact cmpV_ex (Or.inl x)
  have hbit : ∀ x y, a.py ρ = some x → b.py ρ = some y → Bit ρ r (if op.eval x y then 1 else 0) := by
    intro x y hx hy
    have := ha.bit hb hx hy op
    rwa [hr] at this
  have hpy : ∀ x z, (Tl.more op b tl).py ρ x = some z → ∃ y, b.py ρ = some y ∧
      ((op.eval x y = true ∧ tl.py ρ y = some z) ∨ (op.eval x y = false ∧ z = 0)) := by
    intro x z hz
    simp only [Tl.py, Option.bind_eq_some_iff] at hz
    obtain ⟨y, hy, hz⟩ := hz
    refine ⟨y, hy, ?_⟩
    cases ho : op.eval x y
    · rw [ho] at hz; cases hz; exact Or.inr ⟨rfl, rfl⟩
    · rw [ho] at hz; exact Or.inl ⟨rfl, hz⟩
  constructor
  · obtain ⟨v', e1, e2, e3⟩ := h.acc r
    refine ⟨.ex v', by rw [hr]; exact e1, Or.inr ⟨rfl, v', rfl⟩, fun x z hx hz => ?_⟩
    obtain ⟨y, hy, ⟨ho, hz⟩ | ⟨ho, rfl⟩⟩ := hpy x z hz
    · have h1 := e3 y z hy hz
      have ht := (hbit x y hx hy).truth
      rw [ho] at ht
      have hr0 : r.eval ρ r.ty ≠ 0 := ht.2 (by decide)
      obtain ⟨va, a1, _, a3⟩ := h.all
      have h01 := (a3 y z hy hz).bit
      rcases h01 with rfl | rfl
      · simpa [hr0, Vv.e] using h1
      · simpa [hr0, Vv.e] using h1
    · have ht := (hbit x y hx hy).truth
      rw [ho] at ht
      exact e2 (by by_contra hc; exact ht.1 hc rfl)
  · intro e0
    obtain ⟨v', e1, e2, e3⟩ := h.acc (.land e0 r)
    have hl := land_truth (ρ := ρ) e0 r
    refine ⟨v', by rw [hr]; exact e1, fun h0 => e2 (by by_contra hc; exact (hl.1 hc).1 h0), fun x z hx hz => ?_⟩
    obtain ⟨y, hy, ⟨ho, hz⟩ | ⟨ho, rfl⟩⟩ := hpy x z hz
    · have h1 := e3 y z hy hz
      have ht := (hbit x y hx hy).truth
      rw [ho] at ht
      have hr0 : r.eval ρ r.ty ≠ 0 := ht.2 (by decide)
      rwa [if_congr (and_congr (hl.trans (and_iff_left hr0)) Iff.rfl) rfl rfl] at h1
    · have ht := (hbit x y hx hy).truth
      rw [ho] at ht
      rw [if_neg (fun hc => hc.2 rfl)]
      exact e2 (by by_contra hc; exact ht.1 (hl.1 hc).2 rfl)

/-! ## All expressions -/

theorem exact_div {x y : ℤ} (h : 0 ≤ x * y ∨ y ∣ x) : x.tdiv y = x.fdiv y := by
  rcases h with h | h
  · rcases Int.le_total 0 x with hx | hx
    · rcases Int.le_total 0 y with hy | hy
      · rw [Int.fdiv_eq_ediv_of_nonneg _ hy, Int.tdiv_eq_ediv_of_nonneg hx]
      · rcases eq_or_lt_of_le hx with rfl | hx
        · simp
        · have : y = 0 := by nlinarith
          simp [this]
    · rcases Int.le_total 0 y with hy | hy
      · rcases eq_or_lt_of_le hx with rfl | hx
        · simp
        · have : y = 0 := by nlinarith
          simp [this]
      · obtain ⟨m, rfl⟩ := Int.exists_eq_neg_ofNat hx
        obtain ⟨n, rfl⟩ := Int.exists_eq_neg_ofNat hy
        rw [Int.neg_tdiv_neg, Int.neg_fdiv_neg, Int.fdiv_eq_ediv_of_nonneg _ (by omega), Int.tdiv_eq_ediv_of_nonneg (by omega)]
  · rw [Int.tdiv_eq_ediv_of_dvd h, Int.fdiv_eq_ediv_of_dvd h]

theorem exact_mod {x y : ℤ} (h : 0 ≤ x * y ∨ y ∣ x) : x.tmod y = x.fmod y := by
  rw [Int.tmod_def, Int.fmod_def, exact_div h]

/-- An object with a meaning. -/
theorem ex_ok {e : TE} {x : VExpr} {K : Kind} (hf : e.folds = false) (h : Meets w ρ e (.ex x) K) :
    ∃ v, some (Vv.ex x) = some v ∧ Inv ρ e v ∧ Meets w ρ e v K := ⟨_, rfl, Or.inr ⟨hf, x, rfl⟩, h⟩

theorem con_ok {e : TE} {z : ℤ} {K : Kind} (hf : e.folds = true) (hp : e.py ρ = some z) (hs : e.Small ρ) (hb : K ≠ .bit) :
    ∃ v, some (Vv.con z) = some v ∧ Inv ρ e v ∧ Meets w ρ e v K := by
  obtain ⟨z', h1, h2⟩ := hs hf
  rw [hp] at h1; cases h1
  exact ⟨_, rfl, Or.inl ⟨hf, _, rfl, hp, h2⟩, con_meets hf hp h2 (fun h => absurd h hb)⟩

/-- Numbers that fit may be tested. -/
theorem test_of_num {e : TE} {x : VExpr} {K : Kind} (hb : K ≠ .bit) (hf : K = .test → e.Fit w ρ)
    (h : Meets w ρ e (.ex x) K.val) : Meets w ρ e (.ex x) K := by
  cases K with
  | test => exact fun z hz => means_test h.1 (h.2 z hz) (hf rfl z hz)
  | bit => exact absurd rfl hb
  | num => exact h
  | low => exact h

/-- Truth values may be used in three ways. -/
theorem of_bit {e : TE} {v : Vv} {K : Kind} (hn : K ≠ .num) (h : Meets w ρ e v .bit) : Meets w ρ e v K := by
  cases K with
  | num => exact absurd rfl hn
  | low => exact fun z hz => (h z hz).low
  | bit => exact h
  | test => exact fun z hz => (h z hz).truth

theorem val_num_or_low {K : Kind} (hb : K ≠ .bit) : K.val = .num ∨ K.val = .low := by
  cases K <;> simp_all [Kind.val]

/-- The objects made of two operands, at least one of which is not computed by the compiler, or by an operator without method. -/
theorem bin_meets {op : AOp} {a b : TE} {u v : Vv} {K : Kind} (hK : K = .num ∨ K = .low)
    (hg : match op with
      | .truediv => False
      | .floordiv => K = .num ∧ Meets w ρ a u .num ∧ Meets w ρ b v .num ∧ a.Fit w ρ ∧ b.Fit w ρ ∧ Exact ρ a b
      | .mod => K = .num ∧ Meets w ρ a u .num ∧ Meets w ρ b v .num ∧ a.Fit w ρ ∧ b.Fit w ρ ∧ Exact ρ a b
      | .shl => Meets w ρ a u K ∧ Meets w ρ b v .num ∧ b.Fit w ρ
      | .shr => K = .num ∧ Meets w ρ a u .num ∧ Meets w ρ b v .num ∧ a.Fit w ρ ∧ b.Fit w ρ
      | _ => Meets w ρ a u K ∧ Meets w ρ b v K) : Meets w ρ (.bin op a b) (.ex (opE op u.e v.e)) K := by
  have hpy : ∀ z, (TE.bin op a b).py ρ = some z → ∃ x y, a.py ρ = some x ∧ b.py ρ = some y ∧ pyBin op x y = some z := by
    intro z hz
    simp only [TE.py, Option.bind_eq_some_iff] at hz
    obtain ⟨x, hx, y, hy, h⟩ := hz
    exact ⟨x, y, hx, hy, h⟩
  have ring : ∀ (o : BinOp) (f : ℤ → ℤ → ℤ), ((o = .plus ∧ f = (· + ·)) ∨ (o = .minus ∧ f = (· - ·)) ∨ (o = .times ∧ f = (· * ·)) ∨
      (o = .and ∧ f = Int.land) ∨ (o = .or ∧ f = Int.lor) ∨ (o = .xor ∧ f = Int.xor)) → opE op u.e v.e = .bin o u.e v.e →
      (∀ x y, pyBin op x y = some (f x y)) → (TE.bin op a b).wid w = max (a.wid w) (b.wid w) →
      Meets w ρ a u K → Meets w ρ b v K → Meets w ρ (.bin op a b) (.ex (opE op u.e v.e)) K := by
    intro o f hf ho hp hw ha hb
    rcases hK with rfl | rfl
    · refine ⟨?_, fun z hz => ?_⟩
      · change (opE op u.e v.e).ty = _
        rw [ho, hw]
        change (⟨max u.e.ty.width v.e.ty.width, u.e.ty.signed && v.e.ty.signed⟩ : Ty) = _
        rw [ha.1, hb.1]; rfl
      · obtain ⟨x, y, hx, hy, h⟩ := hpy z hz
        rw [hp] at h; cases h
        change Means ρ (opE op u.e v.e) _
        rw [ho]
        exact means_bin (ha.2 x hx) (hb.2 y hy) (by rw [ha.1]) (by rw [hb.1]) hf
    · intro z hz
      obtain ⟨x, y, hx, hy, h⟩ := hpy z hz
      rw [hp] at h; cases h
      change Low w ρ (opE op u.e v.e) _
      rw [ho]
      exact Low.bin (ha x hx) (hb y hy) hf
  cases op with
  | add => exact ring .plus _ (by simp) rfl (fun _ _ => rfl) rfl hg.1 hg.2
  | sub => exact ring .minus _ (by simp) rfl (fun _ _ => rfl) rfl hg.1 hg.2
  | mul => exact ring .times _ (by simp) rfl (fun _ _ => rfl) rfl hg.1 hg.2
  | and => exact ring .and _ (by simp) rfl (fun _ _ => rfl) rfl hg.1 hg.2
  | or => exact ring .or _ (by simp) rfl (fun _ _ => rfl) rfl hg.1 hg.2
  | xor => exact ring .xor _ (by simp) rfl (fun _ _ => rfl) rfl hg.1 hg.2
  | truediv => exact hg.elim
  | floordiv =>
    obtain ⟨rfl, ha, hb, fa, fb, hex⟩ := hg
    refine ⟨?_, fun z hz => ?_⟩
    · change (⟨max u.e.ty.width v.e.ty.width, u.e.ty.signed && v.e.ty.signed⟩ : Ty) = _
      rw [ha.1, hb.1]; rfl
    · obtain ⟨x, y, hx, hy, h⟩ := hpy z hz
      simp only [pyBin] at h
      split at h
      · cases h
      · cases h
        have := (means_div (ha.2 x hx) (hb.2 y hy) (by rw [ha.1]) (by rw [hb.1]) (by rw [ha.1]; exact fits_range (fa x hx))
          (by rw [hb.1]; exact fits_range (fb y hy))).1
        rwa [exact_div (hex x y hx hy)] at this
  | mod =>
    obtain ⟨rfl, ha, hb, fa, fb, hex⟩ := hg
    refine ⟨?_, fun z hz => ?_⟩
    · change (⟨max u.e.ty.width v.e.ty.width, u.e.ty.signed && v.e.ty.signed⟩ : Ty) = _
      rw [ha.1, hb.1]; rfl
    · obtain ⟨x, y, hx, hy, h⟩ := hpy z hz
      simp only [pyBin] at h
      split at h
      · cases h
      · cases h
        have := (means_div (ha.2 x hx) (hb.2 y hy) (by rw [ha.1]) (by rw [hb.1]) (by rw [ha.1]; exact fits_range (fa x hx))
          (by rw [hb.1]; exact fits_range (fb y hy))).2
        rwa [exact_mod (hex x y hx hy)] at this
  | shl =>
    obtain ⟨ha, hb, fb⟩ := hg
    have hr : ∀ y, b.py ρ = some y → v.e.ty.InRange y := fun y hy => by rw [hb.1]; exact fits_range (fb y hy)
    rcases hK with rfl | rfl
    · refine ⟨ha.1, fun z hz => ?_⟩
      obtain ⟨x, y, hx, hy, h⟩ := hpy z hz
      simp only [pyBin] at h
      split at h
      · cases h
      · cases h
        exact means_sll (ha.2 x hx) (hb.2 y hy) (hr y hy) (by omega)
    · intro z hz
      obtain ⟨x, y, hx, hy, h⟩ := hpy z hz
      simp only [pyBin] at h
      split at h
      · cases h
      · cases h
        exact low_sll (ha x hx) (hb.2 y hy) (hr y hy) (by omega)
  | shr =>
    obtain ⟨rfl, ha, hb, fa, fb⟩ := hg
    refine ⟨ha.1, fun z hz => ?_⟩
    obtain ⟨x, y, hx, hy, h⟩ := hpy z hz
    simp only [pyBin] at h
    split at h
    · cases h
    · cases h
      exact means_sra (ha.2 x hx) (hb.2 y hy) (by rw [ha.1]) (by rw [ha.1]; exact fits_range (fa x hx))
        (by rw [hb.1]; exact fits_range (fb y hy)) (by omega)

/-- Two operands. -/
theorem bin_ok {op : AOp} {a b : TE} {u v : Vv} {K : Kind} (hb : K ≠ .bit) (hfit : K = .test → (TE.bin op a b).Fit w ρ)
    (hs : (TE.bin op a b).Small ρ) (iu : Inv ρ a u) (iv : Inv ρ b v)
    (hg : match op with
      | .truediv => False
      | .floordiv => K.val = .num ∧ Meets w ρ a u .num ∧ Meets w ρ b v .num ∧ a.Fit w ρ ∧ b.Fit w ρ ∧ Exact ρ a b
      | .mod => K.val = .num ∧ Meets w ρ a u .num ∧ Meets w ρ b v .num ∧ a.Fit w ρ ∧ b.Fit w ρ ∧
          (Exact ρ a b ∨ (a.folds && b.folds) = true)
      | .shl => Meets w ρ a u K.val ∧ Meets w ρ b v .num ∧ b.Fit w ρ
      | .shr => K.val = .num ∧ Meets w ρ a u .num ∧ Meets w ρ b v .num ∧ a.Fit w ρ ∧ b.Fit w ρ
      | _ => Meets w ρ a u K.val ∧ Meets w ρ b v K.val) :
    ∃ r, binV op u v = some r ∧ Inv ρ (.bin op a b) r ∧ Meets w ρ (.bin op a b) r K := by
  have obj : (a.folds && b.folds) = false ∨ op = .floordiv ∨ op = .shr →
      ∃ r, some (Vv.ex (opE op u.e v.e)) = some r ∧ Inv ρ (.bin op a b) r ∧ Meets w ρ (.bin op a b) r K := by
    intro hf
    refine ex_ok ?_ (test_of_num hb hfit (bin_meets (val_num_or_low hb) ?_))
    · rcases hf with hf | rfl | rfl
      · simp only [TE.folds]; rw [hf, Bool.and_false]
      · rfl
      · rfl
    · cases op
      case mod =>
        rcases hf with hf | h | h
        · rw [hf] at hg
          exact ⟨hg.1, hg.2.1, hg.2.2.1, hg.2.2.2.1, hg.2.2.2.2.1, hg.2.2.2.2.2.resolve_right (by decide)⟩
        · cases h
        · cases h
      all_goals exact hg
  rcases iu with ⟨fa, x, rfl, px, sx⟩ | ⟨fa, x, rfl⟩
  · rcases iv with ⟨fb, y, rfl, py, sy⟩ | ⟨fb, y, rfl⟩
    · have hp : (TE.bin op a b).py ρ = pyBin op x y := by simp [TE.py, px, py]
      have fold : (op ≠ .truediv && op ≠ .floordiv && op ≠ .shr) = true → (TE.bin op a b).folds = true := by
        intro h
        simp only [TE.folds]; rw [h, fa, fb]; rfl
      cases op
      case truediv => exact hg.elim
      case floordiv => exact obj (Or.inr (Or.inl rfl))
      case shr => exact obj (Or.inr (Or.inr rfl))
      case mod =>
        obtain ⟨z, h1, _⟩ := hs (fold rfl)
        rw [hp] at h1
        by_cases hy : y = 0
        · simp [pyBin, hy] at h1
        · simp only [binV, conV, if_neg hy]
          exact con_ok (fold rfl) (by rw [hp]; simp [pyBin, hy]) hs hb
      case shl =>
        obtain ⟨z, h1, _⟩ := hs (fold rfl)
        rw [hp] at h1
        by_cases hy : y < 0
        · simp [pyBin, hy] at h1
        · simp only [binV, conV, if_neg hy]
          exact con_ok (fold rfl) (by rw [hp]; simp [pyBin, hy]) hs hb
      all_goals exact con_ok (fold rfl) hp hs hb
    · exact obj (Or.inl (by rw [fb, Bool.and_false]))
  · exact obj (Or.inl (by rw [fa, Bool.false_and]))

/-- The other unary operators. -/
theorem un_ok {op : UOp} {a : TE} {u : Vv} {K : Kind} (hop : op ≠ .not) (hb : K ≠ .bit) (hfit : K = .test → (TE.un op a).Fit w ρ)
    (hs : (TE.un op a).Small ρ) (iu : Inv ρ a u) (mu : Meets w ρ a u K.val) :
    ∃ r, some (unV op u) = some r ∧ Inv ρ (.un op a) r ∧ Meets w ρ (.un op a) r K := by
  have hpy : ∀ z, (TE.un op a).py ρ = some z → ∃ x, a.py ρ = some x ∧ pyUn op x = z := by
    intro z hz
    simpa only [TE.py, Option.map_eq_some_iff] using hz
  rcases iu with ⟨fa, x, rfl, px, sx⟩ | ⟨fa, x, rfl⟩
  · have hp : (TE.un op a).py ρ = some (pyUn op x) := by simp [TE.py, px]
    have hf : (TE.un op a).folds = true := by simp [TE.folds, fa, hop]
    cases op
    case not => exact absurd rfl hop
    all_goals exact con_ok hf hp hs hb
  · have hf : (TE.un op a).folds = false := by simp [TE.folds, fa]
    have hm : ∀ r, unV op (.ex x) = .ex r → r.ty = x.ty → (∀ z, Means ρ x z → Means ρ r (pyUn op z)) →
        (∀ z, Low w ρ x z → Low w ρ r (pyUn op z)) →
        ∃ r, some (unV op (.ex x)) = some r ∧ Inv ρ (.un op a) r ∧ Meets w ρ (.un op a) r K := by
      intro r hr ht h1 h2
      rw [hr]
      refine ex_ok hf (test_of_num hb hfit ?_)
      rcases val_num_or_low hb with hK | hK
      · rw [hK] at mu ⊢
        refine ⟨ht.trans mu.1, fun z hz => ?_⟩
        obtain ⟨y, hy, rfl⟩ := hpy z hz
        exact h1 y (mu.2 y hy)
      · rw [hK] at mu ⊢
        intro z hz
        obtain ⟨y, hy, rfl⟩ := hpy z hz
        exact h2 y (mu y hy)
    cases op
    case not => exact absurd rfl hop
    case pos => exact hm _ rfl rfl (fun _ h => h) (fun _ h => h)
    case neg => exact hm _ rfl rfl (fun _ h => h.neg) (fun _ h => low_neg h)
    case inv => exact hm _ rfl rfl (fun _ h => means_not h) (fun _ h => low_not h)

/-- `c ? a : b`. -/
theorem ite_meets {c a b : TE} {k u v : Vv} {K : Kind} (hK : K ≠ .test) (hk : Meets w ρ c k .test) (hu : Meets w ρ a u K)
    (hv : Meets w ρ b v K) : Meets w ρ (.ite c a b) (.ex (.cond k.e u.e v.e)) K := by
  have hpy : ∀ z, (TE.ite c a b).py ρ = some z → (k.e.eval ρ k.e.ty ≠ 0 ∧ a.py ρ = some z) ∨ (k.e.eval ρ k.e.ty = 0 ∧ b.py ρ = some z) := by
    intro z hz
    simp only [TE.py, Option.bind_eq_some_iff] at hz
    obtain ⟨q, hq, hz⟩ := hz
    have ht := hk q hq
    by_cases h0 : q = 0
    · rw [if_pos h0] at hz
      exact Or.inr ⟨by by_contra hc; exact ht.1 hc h0, hz⟩
    · rw [if_neg h0] at hz
      exact Or.inl ⟨ht.2 h0, hz⟩
  have hev : ∀ t : Ty, (VExpr.cond k.e u.e v.e).eval ρ t = if k.e.eval ρ k.e.ty ≠ 0 then u.e.eval ρ t else v.e.eval ρ t := fun _ => rfl
  have hl : u.e.ty.width ≤ (VExpr.cond k.e u.e v.e).ty.width := Nat.le_max_left ..
  have hr : v.e.ty.width ≤ (VExpr.cond k.e u.e v.e).ty.width := Nat.le_max_right ..
  cases K with
  | test => exact absurd rfl hK
  | num =>
    have hty : (VExpr.cond k.e u.e v.e).ty = ⟨max (a.wid w) (b.wid w), true⟩ := by
      change (⟨max u.e.ty.width v.e.ty.width, u.e.ty.signed && v.e.ty.signed⟩ : Ty) = _
      rw [hu.1, hv.1]; rfl
    refine ⟨hty, fun z hz t ht hs => ?_⟩
    have hs' : t.signed = true := by
      have : t.signed = (VExpr.cond k.e u.e v.e).ty.signed := hs
      rw [this, hty]
    change (VExpr.cond k.e u.e v.e).eval ρ t = _
    rw [hev]
    rcases hpy z hz with ⟨h1, h2⟩ | ⟨h1, h2⟩
    · rw [if_pos h1]
      exact hu.2 z h2 t (Nat.le_trans hl ht) (by rw [hs', hu.1])
    · rw [if_neg (not_not.2 h1)]
      exact hv.2 z h2 t (Nat.le_trans hr ht) (by rw [hs', hv.1])
  | low =>
    intro z hz t ht n h3 h4
    change Cg n ((VExpr.cond k.e u.e v.e).eval ρ t) _
    rw [hev]
    rcases hpy z hz with ⟨h1, h2⟩ | ⟨h1, h2⟩
    · rw [if_pos h1]
      exact hu z h2 t (Nat.le_trans hl ht) n h3 h4
    · rw [if_neg (not_not.2 h1)]
      exact hv z h2 t (Nat.le_trans hr ht) n h3 h4
  | bit =>
    intro z hz
    rcases hpy z hz with ⟨h1, h2⟩ | ⟨h1, h2⟩
    · refine ⟨(hu z h2).bit, Nat.le_trans (hu z h2).pos hl, fun t ht => ?_⟩
      change (VExpr.cond k.e u.e v.e).eval ρ t = _
      rw [hev, if_pos h1]
      exact (hu z h2).all t (Nat.le_trans hl ht)
    · refine ⟨(hv z h2).bit, Nat.le_trans (hv z h2).pos hr, fun t ht => ?_⟩
      change (VExpr.cond k.e u.e v.e).eval ρ t = _
      rw [hev, if_neg (not_not.2 h1)]
      exact (hv z h2).all t (Nat.le_trans hr ht)

/-- `a and b`, `a or b`: tested, and for truth values the value itself. -/
theorem bool_test {conj : Bool} {a b : TE} {u v : Vv} (hu : Meets w ρ a u .test) (hv : Meets w ρ b v .test) :
    Meets w ρ (.bool conj a b) (.ex (if conj then .land u.e v.e else .lor u.e v.e)) .test := by
  intro z hz
  cases conj
  · simp only [TE.py, Option.bind_eq_some_iff] at hz
    obtain ⟨x, hx, hz⟩ := hz
    have h1 := hu x hx
    refine (bit_lor (ρ := ρ) u.e v.e).truth.trans ?_
    by_cases h0 : x = 0
    · rw [if_pos h0] at hz
      have h2 := hv z hz
      have h3 : ¬ (u.e.eval ρ u.e.ty ≠ 0) := fun h => h1.1 h h0
      rw [← h2, if_congr (or_iff_right h3) rfl rfl]
      split <;> simp_all
    · rw [if_neg h0] at hz
      cases hz
      rw [if_pos (Or.inl (h1.2 h0))]
      simp [h0]
  · simp only [TE.py, Option.bind_eq_some_iff] at hz
    obtain ⟨x, hx, hz⟩ := hz
    have h1 := hu x hx
    refine (bit_land (ρ := ρ) u.e v.e).truth.trans ?_
    by_cases h0 : x = 0
    · rw [if_pos h0] at hz
      cases hz
      rw [if_neg (fun h => h1.1 h.1 h0)]
      simp [h0]
    · rw [if_neg h0] at hz
      have h2 := hv z hz
      rw [← h2, if_congr (and_iff_right (h1.2 h0)) rfl rfl]
      split <;> simp_all

theorem bool_bit {conj : Bool} {a b : TE} {u v : Vv} (hu : Meets w ρ a u .bit) (hv : Meets w ρ b v .bit) :
    Meets w ρ (.bool conj a b) (.ex (if conj then .land u.e v.e else .lor u.e v.e)) .bit := by
  intro z hz
  have ht := bool_test (conj := conj) (of_bit (K := .test) (by decide) hu) (of_bit (K := .test) (by decide) hv) z hz
  have hz01 : z = 0 ∨ z = 1 := by
    cases conj
    · simp only [TE.py, Option.bind_eq_some_iff] at hz
      obtain ⟨x, hx, hz⟩ := hz
      split at hz
      · exact (hv z hz).bit
      · cases hz; exact (hu z hx).bit
    · simp only [TE.py, Option.bind_eq_some_iff] at hz
      obtain ⟨x, hx, hz⟩ := hz
      split at hz
      · cases hz; exact (hu z hx).bit
      · exact (hv z hz).bit
  have key : ∀ (e : VExpr) (q : ℤ), Bit ρ e q → (e.eval ρ e.ty ≠ 0 ↔ z ≠ 0) → Bit ρ e z := by
    intro e q hq he
    have h3 := hq.truth.symm.trans he
    have : q = z := by rcases hq.bit with rfl | rfl <;> rcases hz01 with rfl | rfl <;> simp_all
    rwa [← this]
  cases conj
  · exact key _ _ (bit_lor u.e v.e) ht
  · exact key _ _ (bit_land u.e v.e) ht

theorem kind_val_eq {K : Kind} (h : K ≠ .test) : K.val = K := by cases K <;> first | rfl | exact absurd rfl h

mutual
/-- Every promised expression is visited, and what is made of it has the meaning asked for. -/
theorem good (hρ : ∀ x, Fits w (ρ x)) : ∀ (e : TE) (K : Kind), Good w ρ K e →
    ∃ v, visit w e = some v ∧ Inv ρ e v ∧ Meets w ρ e v K
  | .lit z, K, h => by
    simp only [Good] at h
    exact ⟨.con z, by simp only [visit], Or.inl ⟨rfl, z, rfl, rfl, h.1⟩, con_meets rfl rfl h.1 h.2⟩
  | .name x, K, h => by
    simp only [Good] at h
    have hm : Means ρ (.var ⟨w, true⟩ x) (ρ x) := Means.var (fits_range (hρ x))
    simp only [visit]
    refine ex_ok rfl (test_of_num h (fun _ z hz => by cases hz; exact hρ x) ?_)
    rcases val_num_or_low h with hK | hK
    · rw [hK]
      exact ⟨rfl, fun z hz => by cases hz; exact hm⟩
    · rw [hK]
      exact fun z hz => by cases hz; exact Low.var x
  | .un op a, K, h => by
    by_cases hop : op = .not
    · subst hop
      simp only [Good] at h
      obtain ⟨v, h1, h2, h3⟩ := good hρ a .test h.2
      simp only [visit, h1]
      refine ex_ok (by simp [TE.folds]) (of_bit h.1 fun z hz => ?_)
      simp only [TE.py, Option.map_eq_some_iff] at hz
      obtain ⟨x, hx, rfl⟩ := hz
      exact bit_lnot (h3 x hx)
    · have h' : K ≠ .bit ∧ (K = .test → (TE.un op a).Fit w ρ) ∧ (TE.un op a).Small ρ ∧ Good w ρ K.val a := by
        cases op <;> first | exact absurd rfl hop | simpa only [Good] using h
      obtain ⟨v, h1, h2, h3⟩ := good hρ a K.val h'.2.2.2
      simp only [visit, h1]
      exact un_ok hop h'.1 h'.2.1 h'.2.2.1 h2 h3
  | .bin op a b, K, h => by
    simp only [Good] at h
    obtain ⟨hb, hfit, hs, hg⟩ := h
    cases op
    case truediv => exact hg.elim
    case floordiv =>
      obtain ⟨u, u1, u2, u3⟩ := good hρ a .num hg.2.1
      obtain ⟨v, v1, v2, v3⟩ := good hρ b .num hg.2.2.1
      simp only [visit, u1, v1]
      exact bin_ok hb hfit hs u2 v2 ⟨hg.1, u3, v3, hg.2.2.2⟩
    case mod =>
      obtain ⟨u, u1, u2, u3⟩ := good hρ a .num hg.2.1
      obtain ⟨v, v1, v2, v3⟩ := good hρ b .num hg.2.2.1
      simp only [visit, u1, v1]
      exact bin_ok hb hfit hs u2 v2 ⟨hg.1, u3, v3, hg.2.2.2⟩
    case shr =>
      obtain ⟨u, u1, u2, u3⟩ := good hρ a .num hg.2.1
      obtain ⟨v, v1, v2, v3⟩ := good hρ b .num hg.2.2.1
      simp only [visit, u1, v1]
      exact bin_ok hb hfit hs u2 v2 ⟨hg.1, u3, v3, hg.2.2.2⟩
    case shl =>
      obtain ⟨u, u1, u2, u3⟩ := good hρ a K.val hg.1
      obtain ⟨v, v1, v2, v3⟩ := good hρ b .num hg.2.1
      simp only [visit, u1, v1]
      exact bin_ok hb hfit hs u2 v2 ⟨u3, v3, hg.2.2⟩
    all_goals
      obtain ⟨u, u1, u2, u3⟩ := good hρ a K.val hg.1
      obtain ⟨v, v1, v2, v3⟩ := good hρ b K.val hg.2
      simp only [visit, u1, v1]
      exact bin_ok hb hfit hs u2 v2 ⟨u3, v3⟩
  | .bool conj a b, K, h => by
    simp only [Good] at h
    obtain ⟨hn, ⟨rfl, ha, hb⟩ | ⟨ht, ha, hb⟩⟩ := h
    · obtain ⟨u, u1, u2, u3⟩ := good hρ a .test ha
      obtain ⟨v, v1, v2, v3⟩ := good hρ b .test hb
      simp only [visit, u1, v1]
      exact ex_ok rfl (bool_test u3 v3)
    · obtain ⟨u, u1, u2, u3⟩ := good hρ a .bit ha
      obtain ⟨v, v1, v2, v3⟩ := good hρ b .bit hb
      simp only [visit, u1, v1]
      exact ex_ok rfl (of_bit hn (bool_bit u3 v3))
  | .ite c a b, K, h => by
    simp only [Good] at h
    obtain ⟨hfit, hc, ha, hb⟩ := h
    obtain ⟨k, k1, k2, k3⟩ := good hρ c .test hc
    obtain ⟨u, u1, u2, u3⟩ := good hρ a K.val ha
    obtain ⟨v, v1, v2, v3⟩ := good hρ b K.val hb
    simp only [visit, k1, u1, v1]
    have hm := ite_meets (K := K.val) (by cases K <;> decide) k3 u3 v3
    refine ex_ok rfl ?_
    by_cases hbit : K = .bit
    · subst hbit; exact hm
    · exact test_of_num hbit hfit hm
  | .cmp a tl, K, h => by
    simp only [Good] at h
    obtain ⟨hn, ha, fa, ht⟩ := h
    obtain ⟨u, u1, u2, u3⟩ := good hρ a .num ha
    obtain ⟨rs, r1, r2⟩ := goodTl hρ tl a u ⟨u2, u3, fa⟩ ht
    obtain ⟨v, v1, v2, v3⟩ := r2.all
    simp only [visit, u1, r1, Option.bind_some]
    refine ⟨v, v1, v2, of_bit hn fun z hz => ?_⟩
    simp only [TE.py, Option.bind_eq_some_iff] at hz
    obtain ⟨x, hx, hz⟩ := hz
    exact v3 x z hx hz
/-- The rest of a chain of comparisons. -/
theorem goodTl (hρ : ∀ x, Fits w (ρ x)) : ∀ (tl : Tl) (a : TE) (u : Vv), Operand w ρ a u → GoodTl w ρ tl a →
    ∃ rs, visitTl w tl u = some rs ∧ Chain ρ a tl rs
  | .one op b, a, u, hu, h => by
    simp only [GoodTl] at h
    obtain ⟨v, v1, v2, v3⟩ := good hρ b .num h.1
    simp only [visitTl, v1]
    exact ⟨_, rfl, Chain.one op hu ⟨v2, v3, h.2⟩⟩
  | .more op b tl, a, u, hu, h => by
    simp only [GoodTl] at h
    obtain ⟨v, v1, v2, v3⟩ := good hρ b .num h.1
    obtain ⟨rs, r1, r2⟩ := goodTl hρ tl b v ⟨v2, v3, h.2.1⟩ h.2.2.2
    simp only [visitTl, v1, r1, Option.bind_some]
    exact ⟨_, rfl, Chain.more op hu ⟨v2, v3, h.2.1⟩ h.2.2.1 r2⟩
end

/-! ## Theorems -/

/-- Signed registers of `n` bits hold `z`, up to multiples of `2^n`. -/
def Holds (n : ℕ) (s z : ℤ) : Prop := Fits n s ∧ (2 ^ n : ℤ) ∣ s - z

theorem range_fits {n : ℕ} {z : ℤ} (h : (⟨n, true⟩ : Ty).InRange z) : Fits n z := by
  unfold Ty.InRange at h
  rw [if_pos rfl] at h
  push_cast at h
  exact h

theorem holds_wrap (n : ℕ) (z : ℤ) : Holds n (Ty.wrap ⟨n, true⟩ z) z := by
  refine ⟨range_fits (Ty.wrap_inRange _ _), ?_⟩
  have := Ty.wrap_emod ⟨n, true⟩ z
  have h := Int.emod_emod_of_dvd z (Int.dvd_refl ((2 ^ n : ℕ) : ℤ))
  have := Int.emod_emod_eq this
  push_cast at this
  exact this
where
  Int.emod_emod_eq {a b m : ℤ} (h : a % m = b % m) : m ∣ a - b := Int.emod_emod_of_dvd_sub h
  Int.emod_emod_of_dvd_sub {a b m : ℤ} (h : a % m = b % m) : m ∣ a - b := Int.dvd_of_emod_eq_zero (Int.emod_eq_emod_iff_emod_sub_eq_zero.1 h)

theorem means_assign {x : VExpr} {z : ℤ} (h : Means ρ x z) : x.assign ρ ⟨w, true⟩ = Ty.wrap ⟨w, true⟩ z := by
  have := h ⟨max w x.ty.width, x.ty.signed⟩ (Nat.le_max_right ..) rfl
  unfold VExpr.assign
  rw [this]
  exact wrap_eq_of_cg (t := ⟨w, true⟩) (Cg.wrap _ (Nat.le_max_left ..) z)

theorem stored_wrap {e : TE} {z : ℤ} (hρ : ∀ x, Fits w (ρ x)) (hg : Good w ρ .num e ∨ Good w ρ .low e) (hz : e.py ρ = some z) :
    stored w ρ e = some (Ty.wrap ⟨w, true⟩ z) := by
  have key : ∀ v : Vv, visit w e = some v → Cg w (v.e.eval ρ ⟨max w v.e.ty.width, v.e.ty.signed⟩) z →
      stored w ρ e = some (Ty.wrap ⟨w, true⟩ z) := by
    intro v hv hc
    simp only [stored, hv, Option.map_some, VExpr.assign]
    rw [wrap_eq_of_cg (t := ⟨w, true⟩) hc]
  rcases hg with hg | hg
  · obtain ⟨v, v1, _, v2, v3⟩ := good hρ e .num hg
    simp only [stored, v1, Option.map_some]
    rw [means_assign (v3 z hz)]
  · obtain ⟨v, v1, _, v2⟩ := good hρ e .low hg
    exact key v v1 (v2 z hz _ (Nat.le_max_right ..) w (Nat.le_refl _) (Nat.le_max_left ..))

/-- `x = e` stores the value of Python, cut to the width of `x`. -/
theorem c89_value (w : ℕ) (ρ : String → ℤ) (hρ : ∀ x, Fits w (ρ x)) (e : TE) (z : ℤ)
    (hg : Good w ρ .num e ∨ Good w ρ .low e) (hz : e.py ρ = some z) : ∃ s, stored w ρ e = some s ∧ Holds w s z :=
  ⟨_, stored_wrap hρ hg hz, holds_wrap w z⟩

/-- It is the value of Python if that fits. -/
theorem c89_exact (w : ℕ) (ρ : String → ℤ) (hρ : ∀ x, Fits w (ρ x)) (e : TE) (z : ℤ)
    (hg : Good w ρ .num e ∨ Good w ρ .low e) (hz : e.py ρ = some z) (hf : Fits w z) : stored w ρ e = some z := by
  rw [stored_wrap hρ hg hz, Ty.wrap_of_inRange _ (fits_range hf)]

/-- `if e` and `while e` go the way of Python. -/
theorem c89_test (w : ℕ) (ρ : String → ℤ) (hρ : ∀ x, Fits w (ρ x)) (e : TE) (z : ℤ)
    (hg : Good w ρ .test e) (hz : e.py ρ = some z) : taken w ρ e = some (decide (z ≠ 0)) := by
  obtain ⟨v, v1, _, v2⟩ := good hρ e .test hg
  simp only [taken, v1, Option.map_some, VExpr.value]
  have h := v2 z hz
  congr 1
  rw [Bool.eq_iff_iff]
  simpa using h

/-! ## Where it fails -/

section
variable (w : ℕ) (ρ : String → ℤ) (hρ : ∀ x, Fits w (ρ x)) (a b : String)

theorem rounds {x y : ℤ} (h1 : x * y < 0) (h2 : ¬ y ∣ x) : x.tdiv y = x.fdiv y + 1 := by
  have hm : x % y ≠ 0 := fun h => h2 (Int.dvd_of_emod_eq_zero h)
  have hy : y ≠ 0 := by rintro rfl; simp at h1
  rcases Int.lt_or_gt_of_ne hy with hn | hp
  · have hx : 0 < x := by nlinarith
    have e1 : x.tdiv y = x / y := Int.tdiv_eq_ediv_of_nonneg hx.le
    have e2 : x.fdiv y = x / y - 1 := by
      rw [Int.fdiv_eq_ediv, if_neg (by rintro (h | h); · omega
                                       · exact h2 h)]
    omega
  · have hx : x < 0 := by nlinarith
    have e1 : x.fdiv y = x / y := Int.fdiv_eq_ediv_of_nonneg _ hp.le
    have e2 : x.tdiv y = x / y + 1 := by
      rw [Int.tdiv_eq_ediv, if_neg (by rintro (h | h); · omega
                                       · exact h2 h), Int.sign_eq_one_of_pos hp]
    omega

theorem tdiv_fits {x y : ℤ} (h1 : x * y < 0) (hx : Fits w x) : Fits w (x.tdiv y) ∧ Fits w (x.tmod y) := by
  have a1 : (x.tdiv y).natAbs ≤ x.natAbs := by rw [Int.natAbs_tdiv]; exact Nat.div_le_self ..
  have a2 : (x.tmod y).natAbs ≤ x.natAbs := by rw [Int.natAbs_tmod]; exact Nat.mod_le ..
  unfold Fits at *
  rcases Int.le_total 0 x with h0 | h0
  · have hy : y < 0 := by nlinarith
    have hq : x.tdiv y ≤ 0 := Int.tdiv_nonpos_of_nonneg_of_nonpos h0 hy.le
    have hm : 0 ≤ x.tmod y := Int.tmod_nonneg _ h0
    omega
  · have hy : 0 < y := by nlinarith
    have hm : x.tmod y ≤ 0 := by
      have := Int.tmod_nonneg y (a := -x) (by omega)
      rw [Int.neg_tmod] at this
      omega
    have hq : x.tdiv y ≤ 0 := by
      have := Int.tdiv_nonneg (a := -x) (b := y) (by omega) hy.le
      rw [Int.neg_tdiv] at this
      omega
    omega

include hρ in
theorem names_means : Means ρ (.var ⟨w, true⟩ a) (ρ a) := Means.var (fits_range (hρ a))

include hρ in
theorem stored_div (op : AOp) (o : BinOp) (z : ℤ) (ho : ∀ x y, opE op x y = .bin o x y)
    (hm : Means ρ (.bin o (.var ⟨w, true⟩ a) (.var ⟨w, true⟩ b)) z) (hf : Fits w z) :
    stored w ρ (.bin op (.name a) (.name b)) = some z := by
  have hv : visit w (.bin op (.name a) (.name b)) = some (.ex (.bin o (.var ⟨w, true⟩ a) (.var ⟨w, true⟩ b))) := by
    simp only [visit, Option.bind_some, binV, Vv.e, ho]
  simp only [stored, hv, Option.map_some, Vv.e]
  rw [means_assign hm, Ty.wrap_of_inRange _ (fits_range hf)]

include hρ in
/-- `a // b` rounds towards 0: it is one too large whenever the signs differ and the division is not exact. -/
theorem c89_not_floordiv (h1 : ρ a * ρ b < 0) (h2 : ¬ ρ b ∣ ρ a) :
    ∃ q, (TE.bin .floordiv (.name a) (.name b)).py ρ = some q ∧
      stored w ρ (.bin .floordiv (.name a) (.name b)) = some (q + 1) := by
  have hb : ρ b ≠ 0 := by intro h; simp [h] at h1
  refine ⟨(ρ a).fdiv (ρ b), by simp [TE.py, pyBin, hb], ?_⟩
  rw [← rounds h1 h2]
  exact stored_div w ρ hρ a b _ .divide _ (fun _ _ => rfl)
    (means_div (names_means w ρ hρ a) (names_means w ρ hρ b) rfl rfl (fits_range (hρ a)) (fits_range (hρ b))).1 (tdiv_fits w h1 (hρ a)).1

include hρ in
/-- `a % b` then has the sign of `a`: it is `b` too small. -/
theorem c89_not_mod (h1 : ρ a * ρ b < 0) (h2 : ¬ ρ b ∣ ρ a) :
    ∃ r, (TE.bin .mod (.name a) (.name b)).py ρ = some r ∧ stored w ρ (.bin .mod (.name a) (.name b)) = some (r - ρ b) := by
  have hb : ρ b ≠ 0 := by intro h; simp [h] at h1
  refine ⟨(ρ a).fmod (ρ b), by simp [TE.py, pyBin, hb], ?_⟩
  have : (ρ a).fmod (ρ b) - ρ b = (ρ a).tmod (ρ b) := by
    rw [Int.tmod_def, Int.fmod_def, rounds h1 h2]; ring
  rw [this]
  exact stored_div w ρ hρ a b _ .mod _ (fun _ _ => rfl)
    (means_div (names_means w ρ hρ a) (names_means w ρ hρ b) rfl rfl (fits_range (hρ a)) (fits_range (hρ b))).2 (tdiv_fits w h1 (hρ a)).2

include hρ in
/-- `a / b`, a float in Python, is stored as the integer part of the quotient, which is not the quotient unless the
    division is exact. -/
theorem c89_not_truediv (h2 : ¬ ρ b ∣ ρ a) :
    stored w ρ (.bin .truediv (.name a) (.name b)) = some ((ρ a).tdiv (ρ b)) ∧ (ρ a).tdiv (ρ b) * ρ b ≠ ρ a := by
  refine ⟨?_, fun hs => h2 ⟨_, by rw [Int.mul_comm]; exact hs.symm⟩⟩
  refine stored_div w ρ hρ a b _ .divide _ (fun _ _ => rfl)
    (means_div (names_means w ρ hρ a) (names_means w ρ hρ b) rfl rfl (fits_range (hρ a)) (fits_range (hρ b))).1 ?_
  have hq : ((ρ a).tdiv (ρ b)).natAbs ≤ (ρ a).natAbs / 2 := by
    rw [Int.natAbs_tdiv]
    rcases Nat.lt_or_ge (ρ b).natAbs 2 with h | h
    · rcases Nat.eq_zero_or_pos (ρ b).natAbs with h0 | h0
      · rw [h0]
        show (ρ a).natAbs / 0 ≤ _
        rw [Nat.div_zero]; exact Nat.zero_le _
      · exact absurd (Int.natAbs_dvd_natAbs.1 (by rw [show (ρ b).natAbs = 1 by omega]; exact Nat.one_dvd _)) h2
    · exact Nat.div_le_div_left h (by decide)
  have ha := hρ a
  unfold Fits at ha ⊢
  by_cases h0 : (ρ a).tdiv (ρ b) = 0
  · rw [h0]
    have : (0 : ℤ) < 2 ^ w := by positivity
    omega
  · omega

include hρ in
/-- `a or b` and `a and b` give 1 for anything that is true, where Python gives one of the operands. -/
theorem c89_not_or (hw : 2 ≤ w) (h0 : ρ a ≠ 0) :
    (TE.bool false (.name a) (.name b)).py ρ = some (ρ a) ∧ stored w ρ (.bool false (.name a) (.name b)) = some 1 ∧
    (TE.bool true (.name a) (.name a)).py ρ = some (ρ a) ∧ stored w ρ (.bool true (.name a) (.name a)) = some 1 := by
  have hv : (VExpr.var ⟨w, true⟩ a).eval ρ (VExpr.var ⟨w, true⟩ a).ty ≠ 0 :=
    (means_test (n := w) rfl (names_means w ρ hρ a) (hρ a)).2 h0
  have h2 : (4 : ℤ) ≤ 2 ^ w := by
    calc (4 : ℤ) = 2 ^ 2 := by norm_num
      _ ≤ 2 ^ w := pow_le_pow_right₀ (by norm_num) hw
  have one : ∀ x : VExpr, Bit ρ x 1 → x.assign ρ ⟨w, true⟩ = 1 := by
    intro x hx
    unfold VExpr.assign
    have := hx.low (w := w) ⟨max w x.ty.width, x.ty.signed⟩ (Nat.le_max_right ..) w (Nat.le_refl _) (Nat.le_max_left ..)
    rw [wrap_eq_of_cg (t := ⟨w, true⟩) this]
    exact Ty.wrap_of_inRange _ (fits_range ⟨by omega, by omega⟩)
  refine ⟨by simp [TE.py, h0], ?_, by simp [TE.py], ?_⟩
  · have hb := bit_lor (ρ := ρ) (.var ⟨w, true⟩ a) (.var ⟨w, true⟩ b)
    rw [if_pos (Or.inl hv)] at hb
    exact congrArg some (one _ hb)
  · have hb := bit_land (ρ := ρ) (.var ⟨w, true⟩ a) (.var ⟨w, true⟩ a)
    rw [if_pos ⟨hv, hv⟩] at hb
    exact congrArg some (one _ hb)

include hρ in
/-- In `p < q < x` a comparison of numbers that is false is forgotten. -/
theorem c89_not_chain (p q : ℤ) (hq : q.natAbs < 2 ^ 31) (hpq : q ≤ p) :
    (TE.cmp (.lit p) (.more .lt (.lit q) (.one .lt (.name a)))).py ρ = some 0 ∧
    taken w ρ (.cmp (.lit p) (.more .lt (.lit q) (.one .lt (.name a)))) = some (decide (q < ρ a)) := by
  constructor
  · simp [TE.py, Tl.py, CmpOp.eval, hpq]
  · have hv : visit w (.cmp (.lit p) (.more .lt (.lit q) (.one .lt (.name a)))) =
        some (.ex (.cmp .lt (VExpr.pyInt q) (.var ⟨w, true⟩ a))) := by
      simp only [visit, visitTl, Option.bind_some, Option.map_some, cmpV, landAll, Vv.truthy, if_neg (Int.not_lt.2 hpq)]
      rfl
    simp only [taken, hv, Option.map_some, VExpr.value, Vv.e]
    have hb : Bit ρ (.cmp .lt (VExpr.pyInt q) (.var ⟨w, true⟩ a)) (if CmpOp.lt.eval q (ρ a) then 1 else 0) :=
      bit_cmp (Means.pyInt hq) (names_means w ρ hρ a) (by rw [pyInt_ty]) rfl
        (by rw [pyInt_ty]; exact fits_range (small_fits hq)) (fits_range (hρ a))
    have ht := hb.truth
    congr 1
    rw [Bool.eq_iff_iff]
    simp only [CmpOp.eval] at ht
    by_cases h : q < ρ a <;> simpa [h] using ht

/-- A comparison makes everything around it unsigned: `(a < b) - 1 < 0` is never true. -/
theorem c89_not_unsigned (h : ρ b ≤ ρ a) :
    (TE.cmp (.bin .sub (.cmp (.name a) (.one .lt (.name b))) (.lit 1)) (.one .lt (.lit 0))).py ρ = some 1 ∧
    taken w ρ (.cmp (.bin .sub (.cmp (.name a) (.one .lt (.name b))) (.lit 1)) (.one .lt (.lit 0))) = some false := by
  constructor
  · simp [TE.py, Tl.py, CmpOp.eval, pyBin, Int.not_lt.2 h]
  · have hv : visit w (.cmp (.bin .sub (.cmp (.name a) (.one .lt (.name b))) (.lit 1)) (.one .lt (.lit 0))) =
        some (.ex (.cmp .lt (.bin .minus (.cmp .lt (.var ⟨w, true⟩ a) (.var ⟨w, true⟩ b)) (VExpr.pyInt 1)) (VExpr.pyInt 0))) := rfl
    simp only [taken, hv, Option.map_some, VExpr.value, Vv.e]
    generalize he : VExpr.bin .minus (.cmp .lt (.var ⟨w, true⟩ a) (.var ⟨w, true⟩ b)) (VExpr.pyInt 1) = e
    have hs : (VExpr.join e (VExpr.pyInt 0)) = ⟨32, false⟩ := by rw [← he]; rfl
    have h1 := VExpr.eval_inRange ρ e ⟨32, false⟩
    have h2 : (VExpr.pyInt 0).eval ρ ⟨32, false⟩ = 0 := rfl
    have h3 : 0 ≤ e.eval ρ ⟨32, false⟩ := by
      unfold Ty.InRange at h1
      exact h1.1
    have h4 : (VExpr.cmp .lt e (VExpr.pyInt 0)).eval ρ (VExpr.cmp .lt e (VExpr.pyInt 0)).ty = 0 := by
      change Ty.wrap ⟨1, false⟩ (if CmpOp.lt.eval (e.eval ρ (VExpr.join e (VExpr.pyInt 0)))
        ((VExpr.pyInt 0).eval ρ (VExpr.join e (VExpr.pyInt 0))) then 1 else 0) = 0
      rw [hs, h2]
      have : CmpOp.lt.eval (e.eval ρ ⟨32, false⟩) 0 = false := by simp [CmpOp.eval, h3]
      rw [this]
      rfl
    rw [h4]
    rfl

include hρ in
/-- Sums have the width of their operands: `(a + b) >> 1` loses the carry whenever there is one. -/
theorem c89_not_wide (hw : 1 ≤ w) (h : ¬ Fits w (ρ a + ρ b)) :
    ∃ z, (TE.bin .shr (.bin .add (.name a) (.name b)) (.lit 1)).py ρ = some z ∧
      stored w ρ (.bin .shr (.bin .add (.name a) (.name b)) (.lit 1)) ≠ some z := by
  refine ⟨(ρ a + ρ b) / 2, by simp [TE.py, pyBin, Int.fdiv_eq_ediv_of_nonneg], ?_⟩
  set v := ρ a + ρ b with hvd
  have hs : stored w ρ (.bin .shr (.bin .add (.name a) (.name b)) (.lit 1)) = some (Ty.wrap ⟨w, true⟩ (Ty.wrap ⟨w, true⟩ v / 2)) := by
    have hm := means_bin (op := .plus) (f := (· + ·)) (names_means w ρ hρ a) (names_means w ρ hρ b) rfl rfl (by simp)
    have h1 := hm ⟨w, true⟩ (by change max w w ≤ w; omega) rfl
    have hc : (⟨max w (max w w), true⟩ : Ty) = ⟨w, true⟩ := by simp
    change some (Ty.wrap ⟨w, true⟩ (ShOp.eval ⟨max w (max w w), true⟩ .sra ((VExpr.bin .plus (.var ⟨w, true⟩ a)
      (.var ⟨w, true⟩ b)).eval ρ ⟨max w (max w w), true⟩) 1)) = _
    rw [hc, h1]
    rfl
  rw [hs]
  intro he
  have he := Option.some.inj he
  have hr := fits_range (n := w) (z := Ty.wrap ⟨w, true⟩ v) (range_fits (Ty.wrap_inRange _ _))
  have hin := Ty.inRange_ediv hr 1
  rw [show ((2 ^ 1 : ℕ) : ℤ) = 2 from rfl] at hin
  rw [Ty.wrap_of_inRange _ hin] at he
  obtain ⟨hf, k, hk⟩ := holds_wrap w v
  obtain ⟨n, rfl⟩ : ∃ n, w = n + 1 := ⟨w - 1, by omega⟩
  have hpos : (0 : ℤ) < 2 ^ n := by positivity
  have hkv : Ty.wrap ⟨n + 1, true⟩ v = v + 2 * (2 ^ n * k) := by rw [pow_succ] at hk; linarith
  rw [hkv, Int.add_mul_ediv_left _ _ (by decide)] at he
  have hz : 2 ^ n * k = 0 := by omega
  rw [hkv, hz] at hf
  exact h (by simpa using hf)

end

/-! ## Examples -/

namespace Ex89

/-- `a` is 7, `b` is 10, `n` is -5, everything else 0. -/
def vals : String → ℤ
  | "a" => 7
  | "b" => 10
  | "n" => -5
  | _ => 0

theorem vals_fit : ∀ x, Fits 8 (vals x) := by
  intro x
  unfold vals
  split <;> decide

/-- `a // 2 + b * 3 if a < b <= 10 and not n == 4 else n >> 1`. -/
def e1 : TE :=
  .ite (.bool true (.cmp (.name "a") (.more .lt (.name "b") (.one .le (.lit 10)))) (.un .not (.cmp (.name "n") (.one .eq (.lit 4)))))
    (.bin .add (.bin .floordiv (.name "a") (.lit 2)) (.bin .mul (.name "b") (.lit 3))) (.bin .shr (.name "n") (.lit 1))

theorem e1_good : Good 8 vals .num e1 := by
  simp [e1, Good, GoodTl, TE.Fit, TE.Small, TE.py, TE.folds, TE.wid, Exact, Kind.val, vals]
  decide

/-- The hypotheses of `c89_value` and `c89_exact` hold of an expression with most operators. -/
example : stored 8 vals e1 = some 33 := c89_exact 8 vals vals_fit e1 33 (Or.inl e1_good) (by decide) (by decide)

/-- `(a + b) * 16 + (a < b)` does not fit 8 bits: the low bits are right. -/
example : ∃ s, stored 8 vals (.bin .add (.bin .mul (.bin .add (.name "a") (.name "b")) (.lit 16)) (.cmp (.name "a") (.one .lt (.name "b"))))
    = some s ∧ Holds 8 s 273 :=
  c89_value 8 vals vals_fit _ 273
    (Or.inr (by simp [Good, GoodTl, TE.Fit, TE.Small, TE.py, TE.folds, TE.wid, Kind.val, vals]; decide)) (by decide)

/-- `n or a - 7`, tested. -/
example : taken 8 vals (.bool false (.bin .sub (.name "a") (.lit 7)) (.name "n")) = some true :=
  c89_test 8 vals vals_fit _ (-5) (by simp [Good, TE.Fit, TE.Small, TE.py, TE.folds, TE.wid, Kind.val, vals, pyBin]; decide) (by decide)

/-- -5 // 10 is -1 in Python and 0 in hardware; -5 % 10 is 5 in Python and -5 in hardware. -/
example : stored 8 vals (.bin .floordiv (.name "n") (.name "b")) = some 0 ∧ stored 8 vals (.bin .mod (.name "n") (.name "b")) = some (-5) := by
  obtain ⟨q, h1, h2⟩ := c89_not_floordiv 8 vals vals_fit "n" "b" (by decide) (by decide)
  obtain ⟨r, h3, h4⟩ := c89_not_mod 8 vals vals_fit "n" "b" (by decide) (by decide)
  have e1 : (TE.bin .floordiv (.name "n") (.name "b")).py vals = some (-1) := by decide
  have e2 : (TE.bin .mod (.name "n") (.name "b")).py vals = some 5 := by decide
  rw [e1] at h1; cases h1
  rw [e2] at h3; cases h3
  exact ⟨h2, h4⟩

example : stored 8 vals (.bin .truediv (.name "b") (.name "a")) = some 1 := (c89_not_truediv 8 vals vals_fit "b" "a" (by decide)).1

example : stored 8 vals (.bool false (.name "a") (.name "b")) = some 1 := (c89_not_or 8 vals vals_fit "a" "b" (by decide) (by decide)).2.1

/-- `5 < 3 < a` is taken. -/
example : taken 8 vals (.cmp (.lit 5) (.more .lt (.lit 3) (.one .lt (.name "a")))) = some true :=
  (c89_not_chain 8 vals vals_fit "a" 5 3 (by decide) (by decide)).2

/-- `(b < a) - 1 < 0` is not taken. -/
example : taken 8 vals (.cmp (.bin .sub (.cmp (.name "b") (.one .lt (.name "a"))) (.lit 1)) (.one .lt (.lit 0))) = some false :=
  (c89_not_unsigned 8 vals "b" "a" (by decide)).2

/-- Two values of five bits with a carry. -/
example : ∃ z, (TE.bin .shr (.bin .add (.name "a") (.name "b")) (.lit 1)).py vals = some z ∧
    stored 5 vals (.bin .shr (.bin .add (.name "a") (.name "b")) (.lit 1)) ≠ some z :=
  c89_not_wide 5 vals (by intro x; unfold vals; split <;> decide) "a" "b" (by decide) (by decide)

end Ex89

end TEx
