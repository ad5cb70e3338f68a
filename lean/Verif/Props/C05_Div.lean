import Verif.Model.Div
import Verif.Lemmas.Pipe
import Mathlib.Tactic.Ring
import Mathlib.Tactic.Linarith
import Mathlib.Tactic.NormNum
import Mathlib.Tactic.Positivity

/-!
# C05, C06: the pipelined divider is exact for every width, under stalls
-/

namespace Div

/-- One pass of an operand pair through the divider: load, `W` stage transitions, output. -/
def pass {W : Nat} (aS bS oS : Bool) (i : In W) : Out W :=
  final oS (Pipe.iter next W (load aS bS i))

theorem two_mul_pow {W k : Nat} (h : k < W) : 2 * 2 ^ (W - 1 - k) = 2 ^ (W - k) := by
  rw [show W - k = (W - 1 - k) + 1 by omega, Nat.pow_succ]; omega

/-- Loop invariant after `k` stage transitions, `A` and `B` the operand magnitudes. -/
structure Inv {W : Nat} (A B k : Nat) (s : Stage W) : Prop where
  divisor : k < W → s.divisor.toNat = B * 2 ^ (W - 1 - k)
  sum : s.dividend.toNat + s.rslt.toNat * (B * 2 ^ (W - k)) = A
  lt : 0 < B → s.dividend.toNat < B * 2 ^ (W - k)
  small : s.rslt.toNat < 2 ^ k
  zero : B = 0 → s.rslt.toNat = 2 ^ k - 1

theorem pow_two_mul (W : Nat) : 2 ^ (2 * W) = 2 ^ W * 2 ^ W := by
  rw [Nat.two_mul, Nat.pow_add]

theorem isLarge_eq {W : Nat} (s : Stage W) (hW : 0 < W)
    (h1 : s.dividend.toNat < 2 ^ (2 * W - 1)) (h2 : s.divisor.toNat < 2 ^ (2 * W - 1)) :
    isLarge s = decide (s.divisor.toNat ≤ s.dividend.toNat) := by
  have hp : 2 * 2 ^ (2 * W - 1) = 2 ^ (2 * W) := by
    rw [show 2 * W = (2 * W - 1) + 1 by omega, Nat.pow_succ]; simp; omega
  rw [isLarge, subValue, BitVec.msb_eq_decide, BitVec.toNat_sub]
  have : ∀ p q : Prop, [Decidable p] → [Decidable q] → (¬ p ↔ q) → (!decide p) = decide q := by
    intro p q _ _ h; by_cases hp : p <;> simp_all
  apply this
  by_cases h : s.divisor.toNat ≤ s.dividend.toNat
  · have : (2 ^ (2 * W) - s.divisor.toNat + s.dividend.toNat) =
      (s.dividend.toNat - s.divisor.toNat) + 2 ^ (2 * W) := by omega
    rw [this, Nat.add_mod_right, Nat.mod_eq_of_lt (by omega)]
    omega
  · rw [Nat.mod_eq_of_lt (by omega)]; omega

theorem inv_next {W A B k : Nat} (hk : k < W) (hA : A < 2 ^ W) (hB : B < 2 ^ W) (s : Stage W)
    (h : Inv A B k s) : Inv A B (k + 1) (next s) := by
  have hW : 0 < W := by omega
  have hp : 2 * 2 ^ (2 * W - 1) = 2 ^ (2 * W) := by
    rw [show 2 * W = (2 * W - 1) + 1 by omega, Nat.pow_succ]; simp; omega
  have hp1 : 2 ^ (2 * W - 1) = 2 ^ W * 2 ^ (W - 1) := by
    rw [← Nat.pow_add]; congr 1; omega
  have hD := h.divisor hk
  have hdl : s.dividend.toNat ≤ A := by have := h.sum; omega
  have hWle : 2 ^ W ≤ 2 ^ (2 * W - 1) := Nat.pow_le_pow_right (by omega) (by omega)
  have h1 : s.dividend.toNat < 2 ^ (2 * W - 1) := by omega
  have h2 : s.divisor.toNat < 2 ^ (2 * W - 1) := by
    rw [hD, hp1]
    have : 2 ^ (W - 1 - k) ≤ 2 ^ (W - 1) := Nat.pow_le_pow_right (by omega) (by omega)
    calc _ ≤ B * 2 ^ (W - 1) := Nat.mul_le_mul_left _ this
      _ < _ := Nat.mul_lt_mul_of_pos_right hB (Nat.two_pow_pos _)
  have hL := isLarge_eq s hW h1 h2
  have hpow : B * 2 ^ (W - k) = 2 * s.divisor.toNat := by
    rw [hD, ← two_mul_pow hk]; ring
  have hpow' : B * 2 ^ (W - (k + 1)) = s.divisor.toNat := by
    rw [hD]; congr 2; omega
  have hr : (next s).rslt.toNat = 2 * s.rslt.toNat + (isLarge s).toNat := by
    have hb : (isLarge s).toNat ≤ 1 := Bool.toNat_le _
    have hlt : 2 * s.rslt.toNat + (isLarge s).toNat < 2 ^ (2 * W) := by
      have := h.small
      have : 2 ^ (k + 1) ≤ 2 ^ (2 * W) := Nat.pow_le_pow_right (by omega) (by omega)
      have : 2 ^ (k + 1) = 2 * 2 ^ k := by rw [Nat.pow_succ]; omega
      omega
    simp only [next, BitVec.toNat_setWidth, BitVec.toNat_concat]
    rw [Nat.mul_comm, Nat.mod_eq_of_lt hlt]
  have hsub : s.divisor.toNat ≤ s.dividend.toNat →
      (subValue s).toNat = s.dividend.toNat - s.divisor.toNat := by
    intro hle
    rw [subValue, BitVec.toNat_sub]
    have : (2 ^ (2 * W) - s.divisor.toNat + s.dividend.toNat) =
      (s.dividend.toNat - s.divisor.toNat) + 2 ^ (2 * W) := by omega
    rw [this, Nat.add_mod_right, Nat.mod_eq_of_lt (by omega)]
  have hpk : 2 ^ (k + 1) = 2 * 2 ^ k := by rw [Nat.pow_succ]; omega
  refine ⟨?_, ?_, ?_, ?_, ?_⟩
  · intro hk1
    simp only [next, BitVec.toNat_ushiftRight, Nat.shiftRight_eq_div_pow, Nat.pow_one]
    rw [hD, show W - 1 - k = (W - 1 - (k + 1)) + 1 by omega, Nat.pow_succ, ← Nat.mul_assoc,
      Nat.mul_div_cancel _ (by omega)]
  · rw [hpow', hr]
    have hsum := h.sum
    rw [hpow] at hsum
    by_cases hc : s.divisor.toNat ≤ s.dividend.toNat
    · have : isLarge s = true := by rw [hL]; simpa using hc
      simp only [next, this, if_true, hsub hc, Bool.toNat_true]
      have e : (2 * s.rslt.toNat + 1) * s.divisor.toNat =
        s.rslt.toNat * (2 * s.divisor.toNat) + s.divisor.toNat := by ring
      rw [e]; omega
    · have : isLarge s = false := by rw [hL]; simpa using hc
      simp only [next, this, Bool.false_eq_true, if_false, Bool.toNat_false]
      have e : (2 * s.rslt.toNat + 0) * s.divisor.toNat =
        s.rslt.toNat * (2 * s.divisor.toNat) := by ring
      rw [e]; omega
  · intro hB0
    rw [hpow']
    have hlt := h.lt hB0
    rw [hpow] at hlt
    by_cases hc : s.divisor.toNat ≤ s.dividend.toNat
    · have : isLarge s = true := by rw [hL]; simpa using hc
      simp only [next, this, if_true, hsub hc]; omega
    · have : isLarge s = false := by rw [hL]; simpa using hc
      simp only [next, this, Bool.false_eq_true, if_false]; omega
  · rw [hr, hpk]
    have := h.small
    have : (isLarge s).toNat ≤ 1 := Bool.toNat_le _
    omega
  · intro hB0
    rw [hr, h.zero hB0, hL, hD, hB0, hpk]
    have := Nat.two_pow_pos k
    simp; omega

/-- Facts about all stages: control bits are carried along unchanged. -/
theorem iter_ctrl {W : Nat} (n : Nat) (s : Stage W) :
    (Pipe.iter next n s).valid = s.valid ∧ (Pipe.iter next n s).aPos = s.aPos ∧
      (Pipe.iter next n s).bPos = s.bPos := by
  induction n generalizing s with
  | zero => exact ⟨rfl, rfl, rfl⟩
  | succ n ih => rw [Pipe.iter]; exact ih (next s)

theorem inv_iter {W A B : Nat} (hA : A < 2 ^ W) (hB : B < 2 ^ W) (s : Stage W)
    (h : Inv A B 0 s) (n : Nat) (hn : n ≤ W) : Inv A B n (Pipe.iter next n s) := by
  induction n with
  | zero => exact h
  | succ n ih =>
    rw [Pipe.iter_succ']
    exact inv_next (by omega) hA hB _ (ih (by omega))

/-- Magnitude the divider works with. -/
def mag {W : Nat} (s : Bool) (x : BitVec W) : Nat := (if s then absolute x else x).toNat

theorem inv_load {W : Nat} (hW : 0 < W) (aS bS : Bool) (i : In W) :
    Inv (mag aS i.a) (mag bS i.b) 0 (load aS bS i) := by
  have ha : mag aS i.a < 2 ^ W := BitVec.isLt _
  have hb : mag bS i.b < 2 ^ W := BitVec.isLt _
  have hle : 2 ^ W ≤ 2 ^ (2 * W) := Nat.pow_le_pow_right (by omega) (by omega)
  have hdd : (load aS bS i).dividend.toNat = mag aS i.a := by
    simp only [load, BitVec.toNat_setWidth]
    exact Nat.mod_eq_of_lt (by unfold mag at ha; omega)
  refine ⟨?_, ?_, ?_, ?_, ?_⟩
  · intro _
    simp only [load, BitVec.toNat_shiftLeft, BitVec.toNat_setWidth, Nat.shiftLeft_eq]
    have h1 : mag bS i.b % 2 ^ (2 * W) = mag bS i.b := Nat.mod_eq_of_lt (by omega)
    unfold mag at h1 hb ⊢
    rw [h1, Nat.mod_eq_of_lt]
    · simp
    · rw [pow_two_mul]
      calc _ ≤ _ * 2 ^ W := Nat.mul_le_mul_left _ (Nat.pow_le_pow_right (by omega) (by omega))
        _ < _ := Nat.mul_lt_mul_of_pos_right hb (Nat.two_pow_pos _)
  · rw [hdd]; simp [load]
  · intro h0; rw [hdd]
    calc mag aS i.a < 2 ^ W := ha
      _ ≤ mag bS i.b * 2 ^ (W - 0) := Nat.le_mul_of_pos_left _ h0
  · simp [load]
  · intro _; simp [load]

/-- After `W` transitions the last stage holds quotient and remainder of the magnitudes. -/
theorem stage_divmod {W : Nat} (hW : 0 < W) (aS bS : Bool) (i : In W) (hb : mag bS i.b ≠ 0) :
    let l := Pipe.iter next W (load aS bS i)
    l.rslt.toNat = mag aS i.a / mag bS i.b ∧ l.dividend.toNat = mag aS i.a % mag bS i.b := by
  intro l
  have h : Inv (mag aS i.a) (mag bS i.b) W l :=
    inv_iter (BitVec.isLt _) (BitVec.isLt _) _ (inv_load hW aS bS i) W (Nat.le_refl _)
  have hs := h.sum
  have hl := h.lt (by omega)
  simp only [Nat.sub_self, Nat.pow_zero, Nat.mul_one] at hs hl
  have := Nat.div_mod_unique (a := mag aS i.a) (b := mag bS i.b) (c := l.dividend.toNat)
    (d := l.rslt.toNat) (by omega)
  have h2 := this.mpr ⟨by rw [Nat.mul_comm (mag bS i.b)]; exact hs, hl⟩
  exact ⟨h2.1.symm, h2.2.symm⟩

theorem stage_divzero {W : Nat} (hW : 0 < W) (aS bS : Bool) (i : In W) (hb : mag bS i.b = 0) :
    let l := Pipe.iter next W (load aS bS i)
    l.rslt.toNat = 2 ^ W - 1 ∧ l.dividend.toNat = mag aS i.a := by
  intro l
  have h : Inv (mag aS i.a) (mag bS i.b) W l :=
    inv_iter (BitVec.isLt _) (BitVec.isLt _) _ (inv_load hW aS bS i) W (Nat.le_refl _)
  refine ⟨h.zero hb, ?_⟩
  have hs := h.sum
  rw [hb] at hs
  simpa using hs

/-- **C05 (unsigned).** With unsigned operands and result the divider returns the floor
quotient and the remainder, for every width and every non-zero divisor. -/
theorem c05_div_unsigned {W : Nat} (hW : 0 < W) (i : In W) (hb : i.b ≠ 0#W) :
    (pass false false false i).rslt.toNat = i.a.toNat / i.b.toNat ∧
    (pass false false false i).mod.toNat = i.a.toNat % i.b.toNat := by
  have hb' : mag false i.b ≠ 0 := by
    simp only [mag, Bool.false_eq_true, if_false]
    intro h; apply hb; exact BitVec.eq_of_toNat_eq (by simpa using h)
  have h := stage_divmod hW false false i hb'
  simp only [mag, Bool.false_eq_true, if_false] at h
  have ha := i.a.isLt
  have h1 : i.a.toNat / i.b.toNat ≤ i.a.toNat := Nat.div_le_self _ _
  have h2 : i.a.toNat % i.b.toNat ≤ i.a.toNat := Nat.mod_le _ _
  simp only [pass, final, Bool.false_eq_true, if_false, BitVec.toNat_setWidth, h.1, h.2]
  exact ⟨Nat.mod_eq_of_lt (by omega), Nat.mod_eq_of_lt (by omega)⟩

/-- **C05 (unsigned, division by zero).** The quotient is all ones, the remainder the
dividend. -/
theorem c05_div_by_zero_unsigned {W : Nat} (hW : 0 < W) (i : In W) (hb : i.b = 0#W) :
    (pass false false false i).rslt = BitVec.allOnes W ∧
    (pass false false false i).mod = i.a := by
  have hb' : mag false i.b = 0 := by simp [mag, hb]
  have h := stage_divzero hW false false i hb'
  simp only [mag, Bool.false_eq_true, if_false] at h
  have ha := i.a.isLt
  constructor
  · apply BitVec.eq_of_toNat_eq
    simp only [pass, final, Bool.false_eq_true, if_false, BitVec.toNat_setWidth, h.1,
      BitVec.toNat_allOnes]
    exact Nat.mod_eq_of_lt (by have := Nat.two_pow_pos W; omega)
  · apply BitVec.eq_of_toNat_eq
    simp only [pass, final, Bool.false_eq_true, if_false, BitVec.toNat_setWidth, h.2]
    exact Nat.mod_eq_of_lt (by omega)

theorem complement2_eq {w : Nat} (x : BitVec w) : complement2 x = -x := by
  rw [complement2, BitVec.neg_eq_not_add]

theorem absolute_toNat {w : Nat} (x : BitVec w) : (absolute x).toNat = x.toInt.natAbs := by
  rw [absolute, complement2_eq]
  by_cases h : x.msb = true
  · rw [if_pos h, BitVec.toInt_eq_msb_cond, if_pos h]
    have hx := x.isLt
    have hge := BitVec.msb_eq_true_iff_two_mul_ge.mp h
    have h0 : 0 < x.toNat := by have := Nat.two_pow_pos w; omega
    rw [BitVec.toNat_neg, Nat.mod_eq_of_lt (by omega)]
    have : ((2 : Int) ^ w) = ((2 ^ w : Nat) : Int) := by push_cast; rfl
    omega
  · rw [if_neg h, BitVec.toInt_eq_msb_cond, if_neg h]; simp

/-- The sign fix: negate when the flag says so, then truncate. -/
theorem setWidth_neg_ofNat {W n : Nat} (x : BitVec (2 * W)) (hx : x.toNat = n) :
    (complement2 x).setWidth W = BitVec.ofInt W (-(n : Int)) := by
  rw [complement2_eq]
  have h1 : x = BitVec.ofInt (2 * W) (n : Int) := by
    rw [BitVec.ofInt_natCast]; apply BitVec.eq_of_toNat_eq
    rw [BitVec.toNat_ofNat, ← hx, Nat.mod_eq_of_lt x.isLt]
  rw [h1, ← BitVec.ofInt_neg]
  apply BitVec.eq_of_toNat_eq
  rw [BitVec.toNat_setWidth, BitVec.toNat_ofInt, BitVec.toNat_ofInt]
  have h3 : ((2 ^ W : Nat) : Int) ∣ ((2 ^ (2 * W) : Nat) : Int) := by
    exact_mod_cast pow_dvd_pow 2 (by omega)
  have hp := Nat.two_pow_pos (2 * W)
  have hp' := Nat.two_pow_pos W
  apply Int.ofNat_inj.mp
  push_cast [Int.natCast_emod]
  rw [Int.toNat_of_nonneg (Int.emod_nonneg _ (by positivity)),
    Int.toNat_of_nonneg (Int.emod_nonneg _ (by positivity))]
  exact Int.emod_emod_of_dvd _ (by exact_mod_cast h3)

theorem setWidth_ofNat {W n : Nat} (x : BitVec (2 * W)) (hx : x.toNat = n) :
    x.setWidth W = BitVec.ofInt W (n : Int) := by
  rw [BitVec.ofInt_natCast]; apply BitVec.eq_of_toNat_eq
  rw [BitVec.toNat_setWidth, BitVec.toNat_ofNat, hx]

theorem msb_iff_neg {W : Nat} (x : BitVec W) : x.msb = true ↔ x.toInt < 0 := by
  rw [BitVec.msb_eq_toInt]; simp

/-- **C05 (signed).** With signed operands and result the quotient is the true quotient
truncated toward zero and the remainder has the sign of the dividend, for every width and
every non-zero divisor.  (`BitVec.ofInt` only matters in the single overflow case
`-2^(W-1) / -1`, where the W-bit result wraps.) -/
theorem c05_div_signed {W : Nat} (hW : 0 < W) (i : In W) (hb : i.b ≠ 0#W) :
    (pass true true true i).rslt = BitVec.ofInt W (i.a.toInt.tdiv i.b.toInt) ∧
    (pass true true true i).mod = BitVec.ofInt W (i.a.toInt.tmod i.b.toInt) := by
  have hb0 : i.b.toInt ≠ 0 := by
    intro h; apply hb; exact BitVec.eq_of_toInt_eq (by simpa using h)
  have hb' : mag true i.b ≠ 0 := by
    simp only [mag, if_true, absolute_toNat]; omega
  have h := stage_divmod hW true true i hb'
  obtain ⟨hv, hap, hbp⟩ := iter_ctrl W (load true true i)
  simp only [mag, if_true, absolute_toNat] at h
  set l := Pipe.iter next W (load true true i) with hl
  have hap' : l.aPos = decide (0 ≤ i.a.toInt) := by
    rw [hap]; simp only [load, isPositive]
    by_cases hm : i.a.msb = true
    · have := (msb_iff_neg _).mp hm; simp [hm]; omega
    · have := mt (msb_iff_neg _).mpr hm; simp [hm]; omega
  have hbp' : l.bPos = decide (0 ≤ i.b.toInt) := by
    rw [hbp]; simp only [load, isPositive]
    by_cases hm : i.b.msb = true
    · have := (msb_iff_neg _).mp hm; simp [hm]; omega
    · have := mt (msb_iff_neg _).mpr hm; simp [hm]; omega
  have hmodlt : i.a.toInt.natAbs % i.b.toInt.natAbs < 2 ^ W := by
    have h1 : i.a.toInt.natAbs < 2 ^ W := by
      have := (absolute i.a).isLt; rwa [absolute_toNat] at this
    exact Nat.lt_of_le_of_lt (Nat.mod_le _ _) h1
  have hmodw : ((l.dividend.setWidth W).setWidth (2 * W)).toNat =
      i.a.toInt.natAbs % i.b.toInt.natAbs := by
    rw [BitVec.toNat_setWidth, BitVec.toNat_setWidth, h.2, Nat.mod_eq_of_lt hmodlt,
      Nat.mod_eq_of_lt]
    exact Nat.lt_of_lt_of_le hmodlt (Nat.pow_le_pow_right (by omega) (by omega))
  simp only [pass, final, ← hl, hap', hbp', if_true]
  have qpp := setWidth_ofNat _ h.1
  have qpn := setWidth_neg_ofNat _ h.1
  have mpp := setWidth_ofNat _ hmodw
  have mpn := setWidth_neg_ofNat _ hmodw
  rcases lt_or_ge i.a.toInt 0 with ha | ha <;> rcases lt_or_ge i.b.toInt 0 with hb | hb
  · have e1 : ¬ (0 ≤ i.a.toInt) := by omega
    have e2 : ¬ (0 ≤ i.b.toInt) := by omega
    simp only [e1, e2, decide_false,
      Bool.false_and, Bool.true_and, Bool.and_false, Bool.and_true, Bool.not_true, Bool.not_false,
      Bool.false_eq_true, if_false, if_true, qpp, mpn]
    obtain ⟨m, hm⟩ : ∃ m : Nat, i.a.toInt = -(m : Int) := ⟨i.a.toInt.natAbs, by omega⟩
    obtain ⟨n, hn⟩ : ∃ n : Nat, i.b.toInt = -(n : Int) := ⟨i.b.toInt.natAbs, by omega⟩
    rw [hm, hn, Int.neg_tdiv, Int.tdiv_neg, Int.neg_neg, Int.neg_tmod, Int.tmod_neg]
    simp [Int.natAbs_neg, ← Int.ofNat_tdiv, ← Int.ofNat_tmod]
  · have e1 : ¬ (0 ≤ i.a.toInt) := by omega
    simp only [e1, hb, decide_false, decide_true,
      Bool.false_and, Bool.true_and, Bool.and_false, Bool.and_true, Bool.not_true, Bool.not_false,
      Bool.false_eq_true, if_false, if_true, qpn, mpn]
    obtain ⟨m, hm⟩ : ∃ m : Nat, i.a.toInt = -(m : Int) := ⟨i.a.toInt.natAbs, by omega⟩
    obtain ⟨n, hn⟩ : ∃ n : Nat, i.b.toInt = (n : Int) := ⟨i.b.toInt.natAbs, by omega⟩
    rw [hm, hn, Int.neg_tdiv, Int.neg_tmod]
    simp [Int.natAbs_neg, ← Int.ofNat_tdiv, ← Int.ofNat_tmod]
  · have e2 : ¬ (0 ≤ i.b.toInt) := by omega
    simp only [e2, ha, decide_false, decide_true, Bool.false_and, Bool.true_and, Bool.and_false, Bool.and_true, Bool.not_true, Bool.not_false,
      Bool.false_eq_true, if_false, if_true, qpn, mpp]
    obtain ⟨m, hm⟩ : ∃ m : Nat, i.a.toInt = (m : Int) := ⟨i.a.toInt.natAbs, by omega⟩
    obtain ⟨n, hn⟩ : ∃ n : Nat, i.b.toInt = -(n : Int) := ⟨i.b.toInt.natAbs, by omega⟩
    rw [hm, hn, Int.tdiv_neg, Int.tmod_neg]
    simp [Int.natAbs_neg, ← Int.ofNat_tdiv, ← Int.ofNat_tmod]
  · simp only [ha, hb, decide_true, Bool.and_true, if_true, qpp, mpp]
    obtain ⟨m, hm⟩ : ∃ m : Nat, i.a.toInt = (m : Int) := ⟨i.a.toInt.natAbs, by omega⟩
    obtain ⟨n, hn⟩ : ∃ n : Nat, i.b.toInt = (n : Int) := ⟨i.b.toInt.natAbs, by omega⟩
    rw [hm, hn]
    simp [← Int.ofNat_tdiv, ← Int.ofNat_tmod]

/-- The signed remainder never overflows, so it is exact as an integer. -/
theorem c05_div_signed_mod_exact {W : Nat} (hW : 0 < W) (i : In W) (hb : i.b ≠ 0#W) :
    (pass true true true i).mod.toInt = i.a.toInt.tmod i.b.toInt := by
  have hb0 : i.b.toInt ≠ 0 := by
    intro h; apply hb; exact BitVec.eq_of_toInt_eq (by simpa using h)
  rw [(c05_div_signed hW i hb).2]
  have h1 := BitVec.le_toInt i.b
  have h2 : i.b.toInt < 2 ^ (W - 1) := BitVec.toInt_lt
  have h3 := Int.tmod_lt_of_pos i.a.toInt (b := i.b.toInt)
  have hlt : (i.a.toInt.tmod i.b.toInt).natAbs < i.b.toInt.natAbs := by
    rw [Int.natAbs_tmod]; exact Nat.mod_lt _ (by omega)
  apply BitVec.toInt_ofInt_eq_self hW <;> omega

/-- The signed quotient is exact as an integer outside the one overflow case. -/
theorem c05_div_signed_quot_exact {W : Nat} (hW : 0 < W) (i : In W) (hb : i.b ≠ 0#W)
    (hov : ¬ (i.a = BitVec.intMin W ∧ i.b = -1#W)) :
    (pass true true true i).rslt.toInt = i.a.toInt.tdiv i.b.toInt := by
  rw [(c05_div_signed hW i hb).1, ← BitVec.toInt_sdiv_of_ne_or_ne]
  · rw [BitVec.ofInt_toInt]
  · by_cases h : i.a = BitVec.intMin W
    · right; intro h'; exact hov ⟨h, h'⟩
    · left; exact h

/-- Non-vacuity: `-7 / 2` on 4 bits, and the pipeline below. -/
example : (pass true true true (⟨true, true, -7, 2⟩ : In 4)) = ⟨-3, -1, true⟩ := by decide
example : (pass false false false (⟨true, true, 13, 4⟩ : In 4)) = ⟨3, 1, true⟩ := by decide

/-! ### C06: the pipeline -/

theorem shift_eq_push {W : Nat} (x : Stage W) (rs : List (Stage W)) :
    shift x rs = Pipe.push next x rs := by
  induction rs generalizing x with
  | nil => rfl
  | cons r rs ih => simp [shift, Pipe.push, ih]

def run {W : Nat} (aS bS oS : Bool) (s : State W) (ins : List (In W)) : State W :=
  ins.foldl (step aS bS oS) s

/-- Operands presented in enabled cycles, oldest first. -/
def issued {W : Nat} (ins : List (In W)) : List (In W) := ins.filter (·.update)

theorem run_stages {W : Nat} (aS bS oS : Bool) (s : State W) (ins : List (In W)) :
    (run aS bS oS s ins).stages = Pipe.pushAll next s.stages ((issued ins).map (load aS bS)) := by
  unfold run issued
  induction ins generalizing s with
  | nil => rfl
  | cons i is ih =>
    by_cases h : i.update = true
    · simp only [List.foldl_cons, ih, List.filter_cons, h, if_true, List.map_cons]
      simp [step, h, Pipe.pushAll, shift_eq_push]
    · simp only [List.foldl_cons, ih, List.filter_cons, h]
      simp [step, h]

/-- **C06.** For any register contents, any operand stream and any stall schedule: if `x` was
presented in an enabled cycle and exactly `W + 1` more enabled cycles followed, the outputs
(quotient, remainder and valid) are those of one pass of `x` alone, whatever other operands
were presented before or after it. -/
theorem c06_div_pipeline {W : Nat} (aS bS oS : Bool) (s : State W)
    (hs : s.stages.length = W + 1) (ins older newer : List (In W)) (x : In W)
    (hx : issued ins = older ++ x :: newer) (hn : newer.length = W + 1) :
    (run aS bS oS s ins).out = pass aS bS oS x := by
  -- split the trace at its last enabled cycle
  obtain ⟨newer', z, rfl⟩ : ∃ n' z, newer = n' ++ [z] := by
    rcases List.eq_nil_or_concat newer with h | ⟨a, b, h⟩
    · subst h; simp at hn
    · exact ⟨a, b, by simpa using h⟩
  have hsplit : ∃ p q, ins = p ++ z :: q ∧ issued p = older ++ x :: newer' ∧
      z.update = true ∧ ∀ i ∈ q, i.update = false := by
    have hx' : issued ins = (older ++ x :: newer') ++ [z] := by rw [hx]; simp
    clear hx hn
    revert hx'
    generalize older ++ x :: newer' = pre
    obtain ⟨rs, rfl⟩ : ∃ rs : List (In W), ins = rs.reverse := ⟨ins.reverse, by simp⟩
    induction rs with
    | nil => intro h; simp [issued] at h
    | cons r rs ih =>
      intro h
      by_cases hu : r.update = true
      · simp only [issued, List.reverse_cons, List.filter_append] at h
        have h2 : [r].filter (fun x : In W => x.update) = [r] := by simp [hu]
        rw [h2] at h
        obtain ⟨h3, h4⟩ := List.append_inj' h rfl
        simp at h4; subst h4
        exact ⟨rs.reverse, [], by simp, h3, hu, by simp⟩
      · simp only [issued, List.reverse_cons, List.filter_append] at h
        have h2 : [r].filter (fun x : In W => x.update) = [] := by simp [hu]
        rw [h2, List.append_nil] at h
        obtain ⟨p, q, h5, h6, h7, h8⟩ := ih h
        refine ⟨p, q ++ [r], by simp [h5], h6, h7, ?_⟩
        intro i hi
        rcases List.mem_append.mp hi with h9 | h9
        · exact h8 i h9
        · simp at h9; subst h9; simpa using hu
  obtain ⟨p, q, rfl, hp, hz, hq⟩ := hsplit
  have hidle : ∀ (q : List (In W)) (s : State W), (∀ i ∈ q, i.update = false) →
      run aS bS oS s q = s := by
    intro q
    induction q with
    | nil => intro s _; rfl
    | cons i is ih =>
      intro s h
      have : step aS bS oS s i = s := by simp [step, h i (by simp)]
      simp only [run, List.foldl_cons, this]
      exact ih s (fun j hj => h j (by simp [hj]))
  have hr : run aS bS oS s (p ++ z :: q) = step aS bS oS (run aS bS oS s p) z := by
    rw [run, List.foldl_append, List.foldl_cons]
    exact hidle q _ hq
  rw [hr]
  have hst := run_stages aS bS oS s p
  rw [hp, List.map_append, List.map_cons] at hst
  have hlast := Pipe.pushAll_last next s.stages (older.map (load aS bS)) (newer'.map (load aS bS))
    (load aS bS x) (by simp at hn ⊢; omega)
  rw [← hst] at hlast
  simp only [step, hz, if_true, hlast]
  have : newer'.length = W := by simpa using hn
  simp [pass, this]

/-- **C06 (reset).** After a reset edge no stage and no output is marked valid. -/
theorem c06_div_reset {W : Nat} (aS bS oS : Bool) (s : State W) (i : In W) :
    (reset aS bS oS s i).out.valid = false ∧
    ∀ t ∈ (reset aS bS oS s i).stages, t.valid = false := by
  simp [reset]

/-- Non-vacuity: 2-bit divider, operands every cycle with one stall; `3 / 2` comes out. -/
example :
    let z : Stage 2 := ⟨false, false, false, 0, 0, 0⟩
    (run false false false ⟨[z, z, z], ⟨0, 0, false⟩⟩
      [⟨true, true, 3, 2⟩, ⟨true, true, 1, 1⟩, ⟨false, true, 0, 1⟩, ⟨true, true, 2, 1⟩,
       ⟨true, false, 0, 0⟩]).out = ⟨1, 1, true⟩ := by decide

end Div
