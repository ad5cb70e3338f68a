import Verif.Model.Fixed
import Verif.Lemmas.VExpr
import Mathlib.Tactic.FieldSimp
import Mathlib.Algebra.Order.Field.Rat
import Mathlib.Data.Rat.Floor

/-!
# C39, C40: fixed-point conversions and arithmetic
-/

namespace Fixed

open Vlog

/-! ### Python integers -/

/-- C39: converting a Python integer to fixed point and back gives the integer. -/
theorem c39_int (v : Int) (p : Nat) : fixedToInt (toFixed v p) p = some v := by
  unfold fixedToInt toFixed
  by_cases h : p = 0
  · subst h; simp
  · have h0 : ¬ ((p : Int) < 0) := by omega
    have h1 : ¬ ((p : Int) = 0) := by omega
    rw [if_neg h0, if_neg h1, if_neg h0, if_neg h1]
    rw [Int.mul_ediv_cancel]
    simp

/-- C39: `to_fixed` is exact, and `fixed_to_int` with `fixed_to_int_low` splits a fixed-point number into the
    integer below it and the remaining fraction. -/
theorem c39_split (v : Int) (p : Nat) :
    ((toFixed v p : Int) : ℚ) / 2 ^ p = v ∧
    fixedToInt v p = some ⌊(v : ℚ) / 2 ^ p⌋ ∧
    (v : ℚ) / 2 ^ p = ⌊(v : ℚ) / 2 ^ p⌋ + (fixedToIntLow v p : ℚ) / 2 ^ p := by
  have hfl : ⌊(v : ℚ) / 2 ^ p⌋ = v / (2 ^ p : Nat) := by
    have := Rat.floor_intCast_div_natCast v (2 ^ p)
    push_cast at this ⊢
    exact this
  have hp : ((2 : ℚ) ^ p) ≠ 0 := by positivity
  refine ⟨?_, ?_, ?_⟩
  · unfold toFixed
    by_cases h : p = 0
    · subst h; simp
    · rw [if_neg (by omega), if_neg (by omega)]
      push_cast
      rw [Int.toNat_natCast]
      field_simp
  · rw [hfl]
    unfold fixedToInt
    by_cases h : p = 0
    · subst h; simp
    · rw [if_neg (by omega), if_neg (by omega), Int.toNat_natCast]
  · rw [hfl]
    unfold fixedToIntLow
    by_cases h : p = 0
    · subst h; simp
    · rw [if_neg (by omega), Int.toNat_natCast]
      have := Int.mul_ediv_add_emod v (2 ^ p : Nat)
      have hq : (v : ℚ) = (2 ^ p : ℚ) * ((v / (2 ^ p : Nat) : Int) : ℚ) + ((v % (2 ^ p : Nat) : Int) : ℚ) := by
        exact_mod_cast this.symm
      field_simp
      linarith

/-- C39 does not hold for a negative point: `fixed_to_int` raises a `NameError`. -/
theorem c39_negative_point (v : Int) (p : Int) (h : p < 0) : fixedToInt v p = none := by
  unfold fixedToInt; rw [if_pos h]

/-! ### Signals -/

/-- The raw integer of an operand. -/
def Raw (ρ : String → Int) : Opnd → Int → Prop
  | .const k, v => k = v
  | .sig e, v => Means ρ e v

/-- A constant operand that is printed after a shift by `n` fits in an unsized literal. -/
def Small (n : Nat) : Opnd → Prop
  | .const k => (k * (2 ^ n : Nat)).natAbs < 2 ^ 31
  | .sig _ => True

/-- The library and Verilog agree on the signedness of the operand. -/
def Agrees (o : Opnd) (s : Bool) : Prop := o.signed = s ∧ o.expr.ty.signed = s

/-- `f` denotes the rational number `q`: its raw integer is `q * 2 ^ point`. -/
def Denotes (ρ : String → Int) (f : Fx) (q : ℚ) : Prop :=
  ∃ v : Int, Raw ρ f.opnd v ∧ q = v / 2 ^ f.point

private theorem raw_means {ρ : String → Int} {o : Opnd} {v : Int} (h : Raw ρ o v) (hs : Small 0 o) :
    Means ρ o.expr v := by
  cases o with
  | const k =>
    have : k = v := h
    subst this
    exact Means.pyInt (by simpa [Small] using hs)
  | sig e => exact h

private theorem shiftLeft_raw {ρ : String → Int} {o : Opnd} {v : Int} {n : Nat} (h : Raw ρ o v)
    (hn : n < 2 ^ 31) : Raw ρ (shiftLeft o n) (v * (2 ^ n : Nat)) := by
  cases o with
  | const k =>
    have : k = v := h
    subst this
    rfl
  | sig e => exact Means.sll h hn

private theorem shiftLeft_small {o : Opnd} {n : Nat} (h : Small n o) : Small 0 (shiftLeft o n) := by
  cases o with
  | const k => simpa [Small, shiftLeft] using h
  | sig e => trivial

private theorem shiftLeft_ty {o : Opnd} {n : Nat} : (shiftLeft o n).expr.ty = o.expr.ty := by
  cases o with
  | const k => simp [shiftLeft, Opnd.expr, pyInt_ty]
  | sig e => rfl

private theorem shiftLeft_signed {o : Opnd} {n : Nat} : (shiftLeft o n).signed = o.signed := by
  cases o <;> rfl

private theorem toSigned_signed {o : Opnd} (h : o.signed = true) : toSigned o = o := by
  cases o with
  | const k => rfl
  | sig e =>
    have : pySigned e = true := h
    simp [toSigned, this]

/-- The two aligned operands. -/
private theorem align_spec {ρ : String → Int} {l r : Fx} {a b : Int} {s : Bool} (ov : Bool)
    (hl : Raw ρ l.opnd a) (hr : Raw ρ r.opnd b) (sl : Agrees l.opnd s) (sr : Agrees r.opnd s)
    (ml : Small (r.point - l.point) l.opnd) (mr : Small (l.point - r.point) r.opnd)
    (pl : l.point < 2 ^ 31) (pr : r.point < 2 ^ 31) :
    (align ov l r).2.2 = max l.point r.point ∧
    Means ρ (align ov l r).1.expr (a * (2 ^ (max l.point r.point - l.point) : Nat)) ∧
    Means ρ (align ov l r).2.1.expr (b * (2 ^ (max l.point r.point - r.point) : Nat)) ∧
    (align ov l r).1.expr.ty = l.opnd.expr.ty ∧ (align ov l r).2.1.expr.ty = r.opnd.expr.ty := by
  have key : ∀ (o : Opnd) (n : Nat) (sg : Bool) (v : Int), Raw ρ o v → Small n o → (sg = true → o.signed = true) →
      n < 2 ^ 31 →
      Means ρ (if sg && n ≠ 0 then toSigned (if n = 0 then o else shiftLeft o n)
        else if n = 0 then o else shiftLeft o n).expr (v * (2 ^ n : Nat)) ∧
      (if sg && n ≠ 0 then toSigned (if n = 0 then o else shiftLeft o n)
        else if n = 0 then o else shiftLeft o n).expr.ty = o.expr.ty := by
    intro o n sg v h1 h2 h3 h4
    have heq : (if sg && n ≠ 0 then toSigned (if n = 0 then o else shiftLeft o n)
        else if n = 0 then o else shiftLeft o n) = if n = 0 then o else shiftLeft o n := by
      by_cases hn : n = 0
      · simp [hn]
      · cases sg with
        | false => simp
        | true =>
          simp only [hn, ne_eq, not_false_eq_true, decide_true, Bool.and_self, if_true, if_false]
          exact toSigned_signed (by rw [shiftLeft_signed]; exact h3 rfl)
    rw [heq]
    by_cases hn : n = 0
    · subst hn
      simp only [if_true, Nat.pow_zero, Nat.cast_one, Int.mul_one]
      exact ⟨raw_means h1 h2, trivial⟩
    · rw [if_neg hn]
      exact ⟨raw_means (shiftLeft_raw h1 h4) (shiftLeft_small h2), shiftLeft_ty⟩
  have el : (if r.point < l.point then 0 else r.point - l.point) = r.point - l.point := by split <;> omega
  have er : (if l.point < r.point then 0 else l.point - r.point) = l.point - r.point := by split <;> omega
  have ml' : max l.point r.point - l.point = r.point - l.point := by omega
  have mr' : max l.point r.point - r.point = l.point - r.point := by omega
  have hsg : ∀ o : Opnd, Agrees o s → ((if ov then false else l.opnd.signed && r.opnd.signed) = true) →
      o.signed = true := by
    intro o ho h
    cases ov with
    | true => simp at h
    | false =>
      simp only [Bool.false_eq_true, if_false, sl.1, sr.1, Bool.and_self] at h
      rw [ho.1, h]
  simp only [align, adjust, el, er, ml', mr']
  have k1 := key l.opnd (r.point - l.point) _ a hl ml (hsg _ sl) (by omega)
  have k2 := key r.opnd (l.point - r.point) _ b hr mr (hsg _ sr) (by omega)
  exact ⟨by split <;> omega, k1.1, k2.1, k1.2, k2.2⟩

private theorem scaled (a : Int) (p m : Nat) (h : p ≤ m) :
    ((a * (2 ^ (m - p) : Nat) : Int) : ℚ) / 2 ^ m = (a : ℚ) / 2 ^ p := by
  obtain ⟨d, rfl⟩ := Nat.exists_eq_add_of_le h
  rw [Nat.add_sub_cancel_left]
  push_cast
  field_simp
  ring

/-- C40: the sum of two fixed-point objects denotes the exact sum. -/
theorem c40_plus (ρ : String → Int) (l r : Fx) (q₁ q₂ : ℚ) (s : Bool)
    (h₁ : Denotes ρ l q₁) (h₂ : Denotes ρ r q₂) (sl : Agrees l.opnd s) (sr : Agrees r.opnd s)
    (ml : Small (r.point - l.point) l.opnd) (mr : Small (l.point - r.point) r.opnd)
    (pl : l.point < 2 ^ 31) (pr : r.point < 2 ^ 31) :
    Denotes ρ (plus l r) (q₁ + q₂) ∧ (plus l r).point = max l.point r.point := by
  obtain ⟨a, ha, rfl⟩ := h₁
  obtain ⟨b, hb, rfl⟩ := h₂
  obtain ⟨hp, m1, m2, t1, t2⟩ := align_spec false ha hb sl sr ml mr pl pr
  refine ⟨⟨_, Means.plus m1 m2 (by rw [t1, t2, sl.2, sr.2]), ?_⟩, hp⟩
  have : (plus l r).point = max l.point r.point := hp
  rw [this]
  push_cast
  rw [add_div]
  congr 1
  · rw [← scaled a l.point (max l.point r.point) (by omega)]; push_cast; rfl
  · rw [← scaled b r.point (max l.point r.point) (by omega)]; push_cast; rfl

/-- C40: the difference of two fixed-point objects denotes the exact difference. -/
theorem c40_minus (ρ : String → Int) (l r : Fx) (q₁ q₂ : ℚ) (s : Bool)
    (h₁ : Denotes ρ l q₁) (h₂ : Denotes ρ r q₂) (sl : Agrees l.opnd s) (sr : Agrees r.opnd s)
    (ml : Small (r.point - l.point) l.opnd) (mr : Small (l.point - r.point) r.opnd)
    (pl : l.point < 2 ^ 31) (pr : r.point < 2 ^ 31) :
    Denotes ρ (minus l r) (q₁ - q₂) ∧ (minus l r).point = max l.point r.point := by
  obtain ⟨a, ha, rfl⟩ := h₁
  obtain ⟨b, hb, rfl⟩ := h₂
  obtain ⟨hp, m1, m2, t1, t2⟩ := align_spec false ha hb sl sr ml mr pl pr
  refine ⟨⟨_, Means.minus m1 m2 (by rw [t1, t2, sl.2, sr.2]), ?_⟩, hp⟩
  have : (minus l r).point = max l.point r.point := hp
  rw [this]
  push_cast
  rw [sub_div]
  congr 1
  · rw [← scaled a l.point (max l.point r.point) (by omega)]; push_cast; rfl
  · rw [← scaled b r.point (max l.point r.point) (by omega)]; push_cast; rfl

/-- The comparison of rational numbers that an operator stands for. -/
def ratCompare : CmpOp → ℚ → ℚ → Bool
  | .lt, a, b => decide (a < b)
  | .gt, a, b => decide (a > b)
  | .le, a, b => decide (a ≤ b)
  | .ge, a, b => decide (a ≥ b)
  | .eq, a, b => decide (a = b)
  | .ne, a, b => decide (a ≠ b)

private theorem ratCompare_scale (op : CmpOp) (x y : Int) (m : Nat) :
    ratCompare op ((x : ℚ) / 2 ^ m) ((y : ℚ) / 2 ^ m) = op.eval x y := by
  have hp : (0 : ℚ) < 2 ^ m := by positivity
  cases op <;> simp only [ratCompare, CmpOp.eval, gt_iff_lt, ge_iff_le, ne_eq, decide_eq_decide]
  · rw [div_lt_div_iff_of_pos_right hp]; exact Int.cast_lt
  · rw [div_lt_div_iff_of_pos_right hp]; exact Int.cast_lt
  · rw [div_le_div_iff_of_pos_right hp]; exact Int.cast_le
  · rw [div_le_div_iff_of_pos_right hp]; exact Int.cast_le
  · rw [div_left_inj' (ne_of_gt hp)]; exact Int.cast_inj
  · rw [div_left_inj' (ne_of_gt hp), Int.cast_inj]

/-- C40: a comparison of two fixed-point objects is the comparison of the numbers, provided that both raw
    integers, brought to the larger point, fit in the wider of the two operands. -/
theorem c40_compare (op : CmpOp) (ρ : String → Int) (l r : Fx) (a b : Int) (s : Bool)
    (h₁ : Raw ρ l.opnd a) (h₂ : Raw ρ r.opnd b) (sl : Agrees l.opnd s) (sr : Agrees r.opnd s)
    (ml : Small (r.point - l.point) l.opnd) (mr : Small (l.point - r.point) r.opnd)
    (pl : l.point < 2 ^ 31) (pr : r.point < 2 ^ 31)
    (fl : Ty.InRange ⟨max l.opnd.expr.ty.width r.opnd.expr.ty.width, s⟩ (a * (2 ^ (r.point - l.point) : Nat)))
    (fr : Ty.InRange ⟨max l.opnd.expr.ty.width r.opnd.expr.ty.width, s⟩ (b * (2 ^ (l.point - r.point) : Nat))) :
    (compare op l r).value ρ =
      if ratCompare op ((a : ℚ) / 2 ^ l.point) ((b : ℚ) / 2 ^ r.point) then 1 else 0 := by
  obtain ⟨hp, m1, m2, t1, t2⟩ := align_spec (op == .lt) h₁ h₂ sl sr ml mr pl pr
  rw [show max l.point r.point - l.point = r.point - l.point by omega] at m1
  rw [show max l.point r.point - r.point = l.point - r.point by omega] at m2
  unfold compare VExpr.value
  have hj : VExpr.join (align (op == .lt) l r).1.expr (align (op == .lt) l r).2.1.expr =
      ⟨max l.opnd.expr.ty.width r.opnd.expr.ty.width, s⟩ := by
    unfold VExpr.join; rw [t1, t2, sl.2, sr.2, Bool.and_self]
  have e1 := m1 ⟨max l.opnd.expr.ty.width r.opnd.expr.ty.width, s⟩ (by rw [t1]; simp; ) (by rw [t1, sl.2])
  have e2 := m2 ⟨max l.opnd.expr.ty.width r.opnd.expr.ty.width, s⟩ (by rw [t2]; simp; ) (by rw [t2, sr.2])
  rw [Ty.wrap_of_inRange _ fl] at e1
  rw [Ty.wrap_of_inRange _ fr] at e2
  simp only [VExpr.eval, VExpr.ty, hj, e1, e2]
  have hq : ratCompare op ((a : ℚ) / 2 ^ l.point) ((b : ℚ) / 2 ^ r.point) =
      op.eval (a * (2 ^ (r.point - l.point) : Nat)) (b * (2 ^ (l.point - r.point) : Nat)) := by
    rw [← scaled a l.point (max l.point r.point) (by omega),
      ← scaled b r.point (max l.point r.point) (by omega), ratCompare_scale]
    rw [show max l.point r.point - l.point = r.point - l.point by omega,
      show max l.point r.point - r.point = l.point - r.point by omega]
  rw [hq]
  split <;> rfl

/-- The context in which a value is evaluated when it is written to a variable of type `t`. -/
def context (t : Ty) (f : Fx) : Ty := ⟨max t.width f.opnd.expr.ty.width, f.opnd.expr.ty.signed⟩

private theorem floor_shift (v : Int) (p P : Nat) (h : P ≤ p) :
    ⌊(v : ℚ) / 2 ^ p * 2 ^ P⌋ = v / (2 ^ (p - P) : Nat) := by
  obtain ⟨d, rfl⟩ := Nat.exists_eq_add_of_le h
  rw [Nat.add_sub_cancel_left]
  have h1 := Rat.floor_intCast_div_natCast v (2 ^ d)
  rw [← h1]
  congr 1
  push_cast
  rw [pow_add]
  field_simp

private theorem store_right {ρ : String → Int} {t : Ty} {P : Nat} {f : Fx} {v : Int} {s : Bool}
    (h : Raw ρ f.opnd v) (sl : Agrees f.opnd s) (hm : Small 0 f.opnd) (hp : f.point < 2 ^ 31)
    (hP : P < f.point) (hv : (context t f).InRange v) :
    store ρ t P f = t.wrap (v / (2 ^ (f.point - P) : Nat)) := by
  unfold store writeAdjust
  simp only []
  rw [if_neg (by omega), if_pos hP, if_neg (by omega)]
  cases ho : f.opnd with
  | const k =>
    rw [ho] at h hm
    have : k = v := h
    subst this
    unfold VExpr.assign
    have hn : (k / (2 ^ (f.point - P) : Nat)).natAbs < 2 ^ 31 := by
      simp only [Small, Nat.pow_zero, Nat.cast_one, Int.mul_one] at hm
      have hr : Ty.InRange ⟨32, true⟩ k := by unfold Ty.InRange; simp; omega
      have h2 := Int.ediv_le_self ((2 ^ (f.point - P) : Nat) : Int) (a := k)
      have hpos : (0 : Int) < (2 ^ (f.point - P) : Nat) := by exact_mod_cast two_pow_pos _
      by_cases h0 : 0 ≤ k
      · have := Int.ediv_nonneg h0 (Int.le_of_lt hpos)
        have := h2 h0
        omega
      · have h1 : k ≤ k / (2 ^ (f.point - P) : Nat) := by
          apply Int.le_ediv_of_mul_le hpos
          have := Int.mul_le_mul_of_nonpos_left (a := k) (b := (2 ^ (f.point - P) : Nat)) (c := 1) (by omega) hpos
          omega
        have h2 : k / (2 ^ (f.point - P) : Nat) < 0 := Int.ediv_neg_of_neg_of_pos (by omega) hpos
        omega
    have := Means.pyInt (ρ := ρ) hn
    have h := this ⟨max t.width (VExpr.pyInt (k / (2 ^ (f.point - P) : Nat))).ty.width,
      (VExpr.pyInt (k / (2 ^ (f.point - P) : Nat))).ty.signed⟩ (by simp) rfl
    show t.wrap ((VExpr.pyInt (k / (2 ^ (f.point - P) : Nat))).eval ρ
      ⟨max t.width (VExpr.pyInt (k / (2 ^ (f.point - P) : Nat))).ty.width,
        (VExpr.pyInt (k / (2 ^ (f.point - P) : Nat))).ty.signed⟩) = _
    rw [h, Ty.wrap_wrap_le (by simp)]
  | sig e =>
    rw [ho] at h sl
    have hc : context t f = ⟨max t.width e.ty.width, e.ty.signed⟩ := by unfold context; rw [ho]; rfl
    rw [hc] at hv
    unfold VExpr.assign
    show t.wrap ((VExpr.shift (if pySigned e then .sra else .srl) e (.pyInt (f.point - P : Nat))).eval ρ
      ⟨max t.width e.ty.width, e.ty.signed⟩) = _
    rw [eval_sra h (by omega) ⟨max t.width e.ty.width, e.ty.signed⟩ (by simp) rfl hv]
    have h1 : pySigned e = s := sl.1
    have h2 : e.ty.signed = s := sl.2
    rw [h1]
    cases s with
    | true => left; rfl
    | false => right; exact ⟨rfl, h2⟩

private theorem store_left {ρ : String → Int} {t : Ty} {P : Nat} {f : Fx} {v : Int}
    (h : Raw ρ f.opnd v) (hm : Small (P - f.point) f.opnd) (hp : P < 2 ^ 31) (hP : f.point ≤ P) :
    store ρ t P f = t.wrap (v * (2 ^ (P - f.point) : Nat)) := by
  have fin : ∀ o w, Raw ρ o w → Small 0 o → o.expr.assign ρ t = t.wrap w := by
    intro o w h1 h2
    have := raw_means h1 h2 ⟨max t.width o.expr.ty.width, o.expr.ty.signed⟩ (by simp) rfl
    unfold VExpr.assign
    rw [this, Ty.wrap_wrap_le (by simp)]
  unfold store writeAdjust
  simp only []
  by_cases he : P = f.point
  · rw [if_neg (by omega), if_neg (by omega)]
    rw [show P - f.point = 0 by omega] at hm ⊢
    rw [Nat.pow_zero, Nat.cast_one, Int.mul_one]
    exact fin _ _ h hm
  · rw [if_pos (by omega), if_neg (by omega)]
    exact fin _ _ (shiftLeft_raw h (by omega)) (shiftLeft_small hm)

/-- C39: writing a fixed-point value to a variable with a larger or equal point is exact modulo the width of
    the variable. -/
theorem c39_widen (ρ : String → Int) (t : Ty) (P : Nat) (f : Fx) (v : Int) (h : Raw ρ f.opnd v)
    (hm : Small (P - f.point) f.opnd) (hp : P < 2 ^ 31) (hP : f.point ≤ P) :
    store ρ t P f = t.wrap (v * (2 ^ (P - f.point) : Nat)) ∧
    (t.InRange (v * (2 ^ (P - f.point) : Nat)) →
      ((store ρ t P f : Int) : ℚ) / 2 ^ P = (v : ℚ) / 2 ^ f.point) := by
  have hs := store_left (t := t) h hm hp hP
  refine ⟨hs, fun hr => ?_⟩
  rw [hs, Ty.wrap_of_inRange t hr, scaled v f.point P hP]

/-- C39: writing a fixed-point value to a variable with a smaller point rounds down, provided that the raw
    integer fits in the context of the assignment. -/
theorem c39_narrow (ρ : String → Int) (t : Ty) (P : Nat) (f : Fx) (v : Int) (s : Bool) (h : Raw ρ f.opnd v)
    (sl : Agrees f.opnd s) (hm : Small 0 f.opnd) (hp : f.point < 2 ^ 31) (hP : P < f.point)
    (hv : (context t f).InRange v) :
    store ρ t P f = t.wrap ⌊(v : ℚ) / 2 ^ f.point * 2 ^ P⌋ := by
  rw [store_right h sl hm hp hP hv, floor_shift _ _ _ (by omega)]

/-- C39: moving a variable's value to a variable with a larger point and back restores it. -/
theorem c39_roundtrip (ρ ρ' : String → Int) (t t' : Ty) (P P' : Nat) (x y : String)
    (hx : t.InRange (ρ x)) (hP : P ≤ P') (hp : P' < 2 ^ 31)
    (hfit : t'.InRange (ρ x * (2 ^ (P' - P) : Nat)))
    (hy : ρ' y = store ρ t' P' ⟨.sig (.var t x), P⟩) :
    store ρ' t P ⟨.sig (.var t' y), P'⟩ = ρ x := by
  have h1 := (c39_widen ρ t' P' ⟨.sig (.var t x), P⟩ (ρ x) (Means.var hx) trivial hp hP).1
  rw [Ty.wrap_of_inRange t' hfit] at h1
  rw [h1] at hy
  have hy' : t'.InRange (ρ' y) := by rw [hy]; exact hfit
  by_cases he : P = P'
  · have h2 := (c39_widen ρ' t P ⟨.sig (.var t' y), P'⟩ (ρ' y) (Means.var hy') trivial (by omega)
      (Nat.le_of_eq he.symm)).1
    rw [h2, hy, he]
    simp only [Nat.sub_self, Nat.pow_zero, Nat.cast_one, Int.mul_one]
    exact Ty.wrap_of_inRange t hx
  · have h2 := store_right (ρ := ρ') (t := t) (P := P) (f := ⟨.sig (.var t' y), P'⟩) (s := t'.signed)
      (Means.var hy') ⟨rfl, rfl⟩ trivial hp (by show P < P'; omega)
      (Ty.inRange_mono hy' rfl (by show t'.width ≤ max t.width t'.width; omega))
    rw [h2, hy]
    show t.wrap (ρ x * (2 ^ (P' - P) : Nat) / (2 ^ (P' - P) : Nat)) = ρ x
    rw [Int.mul_ediv_cancel _ (by have := two_pow_pos (P' - P); omega)]
    exact Ty.wrap_of_inRange t hx

/-- C39: `int_part` of a variable is the integer below it. -/
theorem c39_intPart (ρ : String → Int) (t t' : Ty) (x : String) (P : Nat) (hx : t.InRange (ρ x))
    (hp : P < 2 ^ 31) :
    (intPart ⟨.sig (.var t x), P⟩).assign ρ t' = t'.wrap ⌊(ρ x : ℚ) / 2 ^ P⌋ := by
  have hf := floor_shift (ρ x) P 0 (by omega)
  rw [pow_zero, mul_one, Nat.sub_zero] at hf
  rw [hf]
  unfold intPart VExpr.assign
  show t'.wrap ((VExpr.shift .sra (.var t x) (.pyInt P)).eval ρ ⟨max t'.width t.width, t.signed⟩) = _
  rw [eval_sra (Means.var hx) hp ⟨max t'.width t.width, t.signed⟩ (by simp [VExpr.ty]) rfl
    (Ty.inRange_mono hx rfl (by simp)) .sra (.inl rfl)]

private theorem ones (n : Nat) : repeatBits 1 1 n = 2 ^ n - 1 := by
  induction n with
  | zero => rfl
  | succ n ih =>
    show repeatBits 1 1 n * 2 ^ 1 + 1 = _
    rw [ih, Nat.pow_succ]
    have := two_pow_pos n
    omega

/-- C39: `dec_part` of a variable is the remaining fraction: `int_part * 2 ^ point + dec_part` is the raw
    integer. -/
theorem c39_decPart (ρ : String → Int) (t t' : Ty) (x : String) (P : Nat) (hx : t.InRange (ρ x))
    (hP : P ≤ t.width) (h32 : 32 ≤ t'.width) :
    (decPart ⟨.sig (.var t x), P⟩).assign ρ t' = t'.wrap (ρ x % (2 ^ P : Nat)) := by
  unfold decPart VExpr.assign
  by_cases h0 : P = 0
  · subst h0
    show t'.wrap (BinOp.eval _ .and _ (VExpr.eval ρ (.pyInt 0) _)) = _
    simp only [BinOp.eval]
    have : ∀ c : Ty, (VExpr.pyInt 0).eval ρ c = 0 := by
      intro c
      show c.wrap (if c.signed then Ty.wrap ⟨32, true⟩ 0 else Ty.wrap ⟨32, true⟩ 0 % (2 ^ 32 : Nat)) = 0
      have h1 : Ty.wrap ⟨32, true⟩ 0 = 0 := by decide
      rw [h1]
      simp [Ty.wrap]
    rw [this]
    have hb : ∀ w, bits w 0 = 0 := by intro w; simp [bits]
    rw [hb, Nat.and_zero]
    simp [Ty.wrap]
  · rw [if_neg h0]
    have hty : (VExpr.bin BinOp.and (Opnd.sig (.var t x)).expr (.rep P (.lit ⟨1, false⟩ 1))).ty =
        ⟨max t.width (P * 1), false⟩ := by
      show Ty.mk _ (t.signed && false) = _
      rw [Bool.and_false]; rfl
    rw [hty]
    generalize hc : (⟨max t'.width (Ty.mk (max t.width (P * 1)) false).width, (Ty.mk (max t.width (P * 1)) false).signed⟩ : Ty) = c
    have hcs : c.signed = false := by rw [← hc]
    have hcw : t.width ≤ c.width := by rw [← hc]; simp
    have h1 : bits 1 (extend ⟨1, false⟩ (Ty.wrap ⟨1, false⟩ 1) ⟨1, false⟩) = 1 := by decide
    have h2 : (VExpr.rep P (.lit ⟨1, false⟩ 1)).eval ρ c = c.wrap ((2 ^ P - 1 : Nat) : Int) := by
      rw [← ones]
      conv => rhs; rw [← h1]
      rfl
    have h3 : (VExpr.bin BinOp.and (Opnd.sig (.var t x)).expr (.rep P (.lit ⟨1, false⟩ 1))).eval ρ c =
        c.wrap (bits c.width (extend t (t.wrap (ρ x)) c) &&& bits c.width (c.wrap ((2 ^ P - 1 : Nat) : Int)) : Nat) := by
      rw [← h2]; rfl
    rw [h3]
    have hP2 : 2 ^ P ≤ 2 ^ c.width := Nat.pow_le_pow_right (by omega) (by omega)
    have hpp := two_pow_pos P
    have hr1 : c.InRange ((2 ^ P - 1 : Nat) : Int) := by
      unfold Ty.InRange; rw [if_neg (by simp [hcs])]; omega
    rw [Ty.wrap_of_inRange c hr1]
    have hb1 : bits c.width ((2 ^ P - 1 : Nat) : Int) = 2 ^ P - 1 := by
      have := bits_of_nonneg (w := c.width) (v := ((2 ^ P - 1 : Nat) : Int)) (by omega) (by omega)
      exact_mod_cast this
    rw [hb1, Nat.and_two_pow_sub_one_eq_mod, Ty.wrap_of_inRange t hx]
    have hlt := Nat.mod_lt (bits c.width (extend t (ρ x) c)) hpp
    have hr2 : c.InRange ((bits c.width (extend t (ρ x) c) % 2 ^ P : Nat) : Int) := by
      unfold Ty.InRange; rw [if_neg (by simp [hcs])]; omega
    rw [Ty.wrap_of_inRange c hr2]
    congr 1
    have hpd : ∀ w, P ≤ w → ((2 ^ P : Nat) : Int) ∣ (2 ^ w : Nat) := by
      intro w h; exact_mod_cast Nat.pow_dvd_pow 2 h
    have hbi : ((bits c.width (extend t (ρ x) c) : Nat) : Int) = extend t (ρ x) c % (2 ^ c.width : Nat) := by
      unfold bits
      have := Int.emod_nonneg (extend t (ρ x) c) (b := (2 ^ c.width : Nat)) (by have := two_pow_pos c.width; omega)
      omega
    rw [Int.natCast_emod, hbi, Int.emod_emod_of_dvd _ (hpd _ (by omega))]
    unfold extend
    rw [← Int.emod_emod_of_dvd _ (hpd _ (Nat.le_trans hP hcw)), Ty.wrap_emod,
      Int.emod_emod_of_dvd _ (hpd _ (Nat.le_trans hP hcw)), ← Int.emod_emod_of_dvd _ (hpd _ hP),
      Val.read_emod ⟨t, ρ x⟩, Int.emod_emod_of_dvd _ (hpd _ hP)]

private theorem expr_signed {o : Opnd} {s : Bool} (h : Agrees o s) :
    (if (s : Bool) then toSigned o else o) = o := by
  cases s with
  | true => simp [toSigned_signed h.1]
  | false => rfl

/-- C40: the product, written to a variable whose width (or that of an operand) holds the full product of the
    raw integers, is the exact product rounded down to `max` of the points. -/
theorem c40_times (ρ : String → Int) (t : Ty) (l r : Fx) (a b : Int) (s : Bool)
    (h₁ : Raw ρ l.opnd a) (h₂ : Raw ρ r.opnd b) (sl : Agrees l.opnd s) (sr : Agrees r.opnd s)
    (ml : Small 0 l.opnd) (mr : Small 0 r.opnd) (hp : l.point + r.point < 2 ^ 31)
    (hfit : Ty.InRange ⟨max t.width (max l.opnd.expr.ty.width r.opnd.expr.ty.width), s⟩ (a * b)) :
    (times l r).point = max l.point r.point ∧
    store ρ t (max l.point r.point) (times l r) =
      t.wrap ⌊(a : ℚ) / 2 ^ l.point * ((b : ℚ) / 2 ^ r.point) * 2 ^ max l.point r.point⌋ := by
  have hpt : (times l r).point = max l.point r.point := by
    simp only [times]; split <;> split <;> omega
  refine ⟨hpt, ?_⟩
  have hop : (times l r).opnd = .sig (.shift (if s then .sra else .srl)
      (.bin .times l.opnd.expr r.opnd.expr) (.pyInt (min l.point r.point : Nat))) := by
    have hpt' : (times l r).point = max l.point r.point := hpt
    simp only [times] at hpt' ⊢
    rw [hpt', sl.1, sr.1, Bool.and_self, expr_signed sl, expr_signed sr,
      show l.point + r.point - max l.point r.point = min l.point r.point by omega]
  have hst : store ρ t (max l.point r.point) (times l r) = (times l r).opnd.expr.assign ρ t := by
    unfold store writeAdjust
    simp only [hpt, gt_iff_lt, Nat.lt_irrefl, if_false]
  have hm := Means.times (raw_means h₁ ml) (raw_means h₂ mr) (by rw [sl.2, sr.2])
  rw [hst, hop]
  unfold VExpr.assign
  have hty : (VExpr.shift (if s then ShOp.sra else .srl) (.bin .times l.opnd.expr r.opnd.expr)
      (.pyInt (min l.point r.point : Nat))).ty =
      ⟨max l.opnd.expr.ty.width r.opnd.expr.ty.width, s⟩ := by
    show Ty.mk _ (l.opnd.expr.ty.signed && r.opnd.expr.ty.signed) = _
    rw [sl.2, sr.2, Bool.and_self]
  have hty' : (VExpr.bin BinOp.times l.opnd.expr r.opnd.expr).ty =
      ⟨max l.opnd.expr.ty.width r.opnd.expr.ty.width, s⟩ := hty
  rw [show ∀ e, (Opnd.sig e).expr = e from fun _ => rfl, hty, eval_sra hm (by omega) _ (by rw [hty']; simp) (by rw [hty']) hfit]
  · congr 1
    have := floor_shift (a * b) (l.point + r.point) (max l.point r.point) (by omega)
    rw [show l.point + r.point - max l.point r.point = min l.point r.point by omega] at this
    rw [← this]
    congr 1
    push_cast
    rw [pow_add]
    field_simp
  · cases s with
    | true => left; rfl
    | false => right; exact ⟨rfl, rfl⟩

/-! ### Where the code does not agree with C40 -/

private def s8 : Ty := ⟨8, true⟩
private def s16 : Ty := ⟨16, true⟩
private def s4 : Ty := ⟨4, true⟩
private def u8 : Ty := ⟨8, false⟩

/-- C40 does not hold for a comparison when aligning loses bits: 4 (8 bits, point 0) compared with 1
    (8 bits, point 6).  The shifted operand is `4 * 64 = 256`, which is 0 in 8 bits. -/
theorem c40_compare_overflow :
    let ρ : String → Int := fun x => if x = "a" then 4 else 64
    let a : Fx := ⟨.sig (.var s8 "a"), 0⟩
    let b : Fx := ⟨.sig (.var s8 "b"), 6⟩
    Denotes ρ a 4 ∧ Denotes ρ b 1 ∧ (compare .gt a b).value ρ = 0 := by
  intro ρ a b
  refine ⟨⟨4, Means.var (ρ := ρ) (t := s8) (x := "a") (by unfold Ty.InRange; decide), by norm_num [a]⟩,
    ⟨64, Means.var (ρ := ρ) (t := s8) (x := "b") (by unfold Ty.InRange; decide), by norm_num [b]⟩, by decide⟩

/-- C40 does not hold for a product that is written to a variable of the operands' width: `2 * 2` with 8 bits
    and point 4 gives 0, because the raw product 1024 is cut to 8 bits before it is shifted. -/
theorem c40_times_overflow :
    let ρ : String → Int := fun _ => 32
    let a : Fx := ⟨.sig (.var s8 "a"), 4⟩
    Denotes ρ a 2 ∧ s8.InRange (4 * 2 ^ 4) ∧ store ρ s8 4 (times a a) = 0 := by
  intro ρ a
  refine ⟨⟨32, Means.var (ρ := ρ) (t := s8) (x := "a") (by unfold Ty.InRange; decide), by norm_num [a]⟩,
    by unfold Ty.InRange; decide, by decide⟩

/-- C40 does not hold for operands of different signedness: `-1` (4 bits, signed) plus `1` (8 bits, unsigned)
    gives 16. -/
theorem c40_mixed_sign :
    let ρ : String → Int := fun x => if x = "a" then -1 else 1
    let a : Fx := ⟨.sig (.var s4 "a"), 0⟩
    let b : Fx := ⟨.sig (.var u8 "b"), 0⟩
    Denotes ρ a (-1) ∧ Denotes ρ b 1 ∧ store ρ u8 0 (plus a b) = 16 := by
  intro ρ a b
  refine ⟨⟨-1, Means.var (ρ := ρ) (t := s4) (x := "a") (by unfold Ty.InRange; decide), by norm_num [a]⟩,
    ⟨1, Means.var (ρ := ρ) (t := u8) (x := "b") (by unfold Ty.InRange; decide), by norm_num [b]⟩, by decide⟩

/-! Examples. -/

private def env : String → Int := fun x => if x = "a" then -7 else 20

/-- -7/4 and 20/16 -/
private def fa : Fx := ⟨.sig (.var s8 "a"), 2⟩
private def fb : Fx := ⟨.sig (.var s8 "b"), 4⟩

example : Denotes env fa (-7 / 4) ∧ Denotes env fb (20 / 16) ∧ Agrees fa.opnd true ∧ Agrees fb.opnd true ∧
    Small (fb.point - fa.point) fa.opnd := by
  refine ⟨⟨-7, Means.var (ρ := env) (t := s8) (x := "a") (by unfold Ty.InRange; decide), by norm_num [fa]⟩,
    ⟨20, Means.var (ρ := env) (t := s8) (x := "b") (by unfold Ty.InRange; decide), by norm_num [fb]⟩,
    ⟨rfl, rfl⟩, ⟨rfl, rfl⟩, trivial⟩
example : store env s16 4 (plus fa fb) = -8 ∧ store env s16 4 (times fa fb) = -35 ∧
    (compare .lt fa fb).value env = 1 := by decide
example : Ty.InRange ⟨max s16.width (max 8 8), true⟩ ((-7 : Int) * 20) := by unfold Ty.InRange; decide
example : Small 3 (.const (-5)) ∧ fixedToInt (toFixed (-5) 3) 3 = some (-5) := by
  constructor
  · simp [Small]
  · decide

end Fixed
