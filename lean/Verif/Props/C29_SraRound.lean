import Verif.Model.StreamOp
import Verif.Lemmas.Vlog
import Mathlib.Tactic.NormNum

/-!
# C29: rounding right shift
-/

namespace Stream

open Vlog

/-- `y` is the integer nearest to `x / 2 ^ r`, a tie being broken away from zero. -/
def NearestAway (x : Int) (r : Nat) (y : Int) : Prop :=
  2 * (2 ^ r * y - x).natAbs ≤ 2 ^ r ∧
    (2 * (2 ^ r * y - x).natAbs = 2 ^ r → x.natAbs < (2 ^ r * y).natAbs)

instance (x : Int) (r : Nat) (y : Int) : Decidable (NearestAway x r y) :=
  inferInstanceAs (Decidable (_ ∧ _))

private theorem inRange_signed {W : Nat} {v : Int} (hW : 1 ≤ W) :
    (⟨W, true⟩ : Ty).InRange v ↔ -(2 ^ (W - 1) : Nat) ≤ v ∧ v < (2 ^ (W - 1) : Nat) := by
  obtain ⟨n, rfl⟩ : ∃ n, W = n + 1 := ⟨W - 1, by omega⟩
  simp only [Ty.InRange, if_true, Nat.add_sub_cancel, Nat.pow_succ]
  omega

private theorem msb_eq {W : Nat} {v : Int} (hW : 1 ≤ W) (hv : (⟨W, true⟩ : Ty).InRange v) :
    bit ⟨⟨W, true⟩, v⟩ (W - 1) = decide (v < 0) := by
  rw [inRange_signed hW] at hv
  have hp := two_pow_pos (W - 1)
  unfold bit
  generalize (2 ^ (W - 1) : Nat) = M at *
  by_cases h : v < 0
  · have : v / (M : Int) = -1 := by
      rw [Int.ediv_eq_iff_of_pos (by omega)]; constructor <;> omega
    simp [this, h]
  · have : v / (M : Int) = 0 := Int.ediv_eq_zero_of_lt (by omega) (by omega)
    simp [this, h]

/-- The result of `SraRound` when the rounding constant is right. -/
private theorem sraRoundWith_val {W r : Nat} (hW : 1 ≤ W) (hr : 1 ≤ r) (hrW : r ≤ W) {v : Int}
    (hv : (⟨W, true⟩ : Ty).InRange v) {rounder : Val} (hs : rounder.ty.signed = true)
    (hrv : rounder.val = (2 ^ (r - 1) : Nat)) :
    (sraRoundWith ⟨⟨W, true⟩, v⟩ rounder r).val =
      (v + (2 ^ (r - 1) : Nat) + (if v < 0 then -1 else 0)) / (2 ^ r : Nat) := by
  obtain ⟨n, rfl⟩ : ∃ n, W = n + 1 := ⟨W - 1, by omega⟩
  obtain ⟨q, rfl⟩ : ∃ q, r = q + 1 := ⟨r - 1, by omega⟩
  have hmsb := msb_eq hW hv
  have hv' := (inRange_signed hW).1 hv
  simp only [Nat.add_sub_cancel] at *
  have hqn : 2 ^ q ≤ 2 ^ n := Nat.pow_le_pow_right (by omega) (by omega)
  have hq0 := two_pow_pos q
  -- rounder_sign
  have hsign : cond (decide (v < 0)) (int (-1)) (int 0) =
      ⟨⟨2, true⟩, if v < 0 then -1 else 0⟩ := by
    by_cases h : v < 0
    · simp only [h, decide_true, if_true]; decide
    · simp only [h, decide_false, if_false]; decide
  -- the first sum
  have hpre : plusW (n + 1 + 1) ⟨⟨n + 1, true⟩, v⟩ rounder =
      ⟨⟨n + 1 + 1, true⟩, v + (2 ^ q : Nat)⟩ := by
    unfold plusW
    simp only [hs, Bool.and_self, Val.read, if_true, hrv]
    congr 1
    apply Ty.wrap_of_inRange
    rw [inRange_signed (by omega)]
    simp only [Nat.add_sub_cancel, Nat.pow_succ]
    omega
  have hpre2 : plus ⟨⟨n + 1 + 1, true⟩, v + (2 ^ q : Nat)⟩
      ⟨⟨2, true⟩, if v < 0 then -1 else 0⟩ =
      ⟨⟨n + 1 + 1, true⟩, v + (2 ^ q : Nat) + (if v < 0 then -1 else 0)⟩ := by
    unfold plus binTy
    simp only [Bool.and_self, Val.read, if_true, show max (n + 1 + 1) 2 = n + 1 + 1 by omega]
    congr 1
    apply Ty.wrap_of_inRange
    rw [inRange_signed (by omega)]
    simp only [Nat.add_sub_cancel, Nat.pow_succ]
    split <;> omega
  have hrange : (⟨n + 1, true⟩ : Ty).InRange
      ((v + (2 ^ q : Nat) + (if v < 0 then -1 else 0)) / (2 ^ (q + 1) : Nat)) := by
    rw [inRange_signed (by omega)]
    simp only [Nat.add_sub_cancel]
    have hpos : (0 : Int) < (2 ^ (q + 1) : Nat) := by have := two_pow_pos (q + 1); omega
    have h2 : (2 ^ (q + 1) : Nat) = 2 * 2 ^ q := by rw [Nat.pow_succ]; omega
    generalize hM : (2 ^ n : Nat) = M at *
    generalize hP : (2 ^ q : Nat) = P at *
    rw [h2] at hpos ⊢
    have hPM : P ≤ P * M := Nat.le_mul_of_pos_right _ (by omega)
    have hMM : M ≤ P * M := Nat.le_mul_of_pos_left _ (by omega)
    constructor
    · apply Int.le_ediv_of_mul_le hpos
      have : (-(M : Int)) * ((2 * P : Nat) : Int) = -2 * ((P * M : Nat) : Int) := by push_cast; ring
      rw [this]
      split <;> omega
    · apply Int.ediv_lt_of_lt_mul hpos
      have : (M : Int) * ((2 * P : Nat) : Int) = 2 * ((P * M : Nat) : Int) := by push_cast; ring
      rw [this]
      split <;> omega
  have hshift : sraW (n + 1) ⟨⟨n + 1 + 1, true⟩, v + (2 ^ q : Nat) + (if v < 0 then -1 else 0)⟩ (q + 1) =
      ⟨⟨n + 1, true⟩, (v + (2 ^ q : Nat) + (if v < 0 then -1 else 0)) / (2 ^ (q + 1) : Nat)⟩ := by
    unfold sraW
    simp only
    congr 1
    exact Ty.wrap_of_inRange _ hrange
  unfold sraRoundWith
  simp only [Nat.add_sub_cancel, hmsb, hsign, hpre, hpre2, hshift]
  unfold cond
  simp only [Bool.and_self, Bool.or_self, Nat.max_self, Nat.add_one_ne_zero, decide_false,
    Val.read, if_true]
  exact Ty.wrap_of_inRange _ hrange

private theorem nearest {r : Nat} (hr : 1 ≤ r) (v : Int) :
    NearestAway v r ((v + (2 ^ (r - 1) : Nat) + (if v < 0 then -1 else 0)) / (2 ^ r : Nat)) := by
  obtain ⟨q, rfl⟩ : ∃ q, r = q + 1 := ⟨r - 1, by omega⟩
  simp only [Nat.add_sub_cancel]
  have hpos := two_pow_pos q
  have h2 : (2 ^ (q + 1) : Nat) = 2 * 2 ^ q := by rw [Nat.pow_succ]; omega
  unfold NearestAway
  have h3 : (2 : Int) ^ (q + 1) = ((2 * 2 ^ q : Nat) : Int) := by rw [← h2]; push_cast; rfl
  rw [h3, h2]
  generalize (2 ^ q : Nat) = P at *
  have hd := Int.mul_ediv_add_emod (v + P + (if v < 0 then -1 else 0)) ((2 * P : Nat) : Int)
  have hm0 := Int.emod_nonneg (v + P + (if v < 0 then -1 else 0)) (b := ((2 * P : Nat) : Int)) (by omega)
  have hm1 := Int.emod_lt_of_pos (v + P + (if v < 0 then -1 else 0)) (b := ((2 * P : Nat) : Int)) (by omega)
  revert hd hm0 hm1
  generalize (v + P + (if v < 0 then -1 else 0)) % ((2 * P : Nat) : Int) = m
  generalize ((2 * P : Nat) : Int) * ((v + P + (if v < 0 then -1 else 0)) / ((2 * P : Nat) : Int)) = z
  intro hd hm0 hm1
  split at hd
  · constructor
    · omega
    · intro h; omega
  · constructor
    · omega
    · intro h; omega

private theorem cond_left {w : Nat} {v : Int} (hx : (⟨⟨w, true⟩, v⟩ : Val).Ok) (p : Val)
    (hp : p.ty.width = w) : (cond true ⟨⟨w, true⟩, v⟩ p).val = v := by
  unfold cond
  simp only [if_true, hp, Nat.max_self, Bool.true_or]
  have : (⟨w, true⟩ : Ty).wrap (Val.read ⟨⟨w, true⟩, v⟩ (true && p.ty.signed)) = (⟨w, true⟩ : Ty).wrap v := by
    apply Ty.wrap_congr
    exact Val.read_emod ⟨⟨w, true⟩, v⟩ _
  rw [this]
  exact hx

private theorem shift_zero {x rounder : Val} (hx : x.Ok) (hs : x.ty.signed = true) :
    (sraRoundWith x rounder 0).val = x.val := by
  obtain ⟨⟨w, s⟩, v⟩ := x
  simp only at hs
  subst hs
  exact cond_left hx _ rfl

/-- C29: for a signed operand of width `W` and a constant shift `r ≤ W`, `SraRound` is the integer
    nearest to `x / 2 ^ r`, ties going away from zero. -/
theorem c29_nearest (x : Val) (r : Nat) (hx : x.Ok) (hs : x.ty.signed = true) (hw : 1 ≤ x.ty.width)
    (hr : r ≤ x.ty.width) : NearestAway x.val r (sraRound x r).val := by
  unfold sraRound
  by_cases h0 : r = 0
  · subst h0
    rw [shift_zero hx hs]
    simp [NearestAway]
  · obtain ⟨⟨W, s⟩, v⟩ := x
    simp only at hs
    subst hs
    rw [if_neg h0, sraRoundWith_val hw (by omega) hr ((Val.ok_iff _).1 hx) rfl
      (by show (2 : Int) ^ (r - 1) = _; push_cast; rfl)]
    exact nearest (by omega) v

/-- C29: a shift by zero returns the operand. -/
theorem c29_zero (x : Val) (hx : x.Ok) (hs : x.ty.signed = true) : (sraRound x 0).val = x.val :=
  shift_zero hx hs

/-- The nearest integer with ties away from zero is unique, so C29 determines the result. -/
theorem c29_unique {x : Int} {r : Nat} {y z : Int} (hy : NearestAway x r y) (hz : NearestAway x r z) :
    y = z := by
  have hp : 0 < 2 ^ r := two_pow_pos r
  have hpn : (2 : Int) ^ r = ((2 ^ r : Nat) : Int) := by push_cast; rfl
  simp only [NearestAway, hpn] at hy hz
  clear hpn
  generalize (2 ^ r : Nat) = P at *
  have sy1 : 0 ≤ y → 0 ≤ (P : Int) * y := fun h => Int.mul_nonneg (by omega) h
  have sy2 : y ≤ 0 → (P : Int) * y ≤ 0 := fun h => Int.mul_nonpos_of_nonneg_of_nonpos (by omega) h
  have sz1 : 0 ≤ z → 0 ≤ (P : Int) * z := fun h => Int.mul_nonneg (by omega) h
  have sz2 : z ≤ 0 → (P : Int) * z ≤ 0 := fun h => Int.mul_nonpos_of_nonneg_of_nonpos (by omega) h
  by_contra hne
  have : y - z ≤ -2 ∨ y - z = -1 ∨ y - z = 1 ∨ 2 ≤ y - z := by omega
  have e : (P : Int) * y - P * z = P * (y - z) := by ring
  rcases this with h | h | h | h
  · have h1 : (P : Int) * (y - z) ≤ P * (-2) := Int.mul_le_mul_of_nonneg_left h (by omega)
    generalize (P : Int) * y = a at *
    generalize (P : Int) * z = b at *
    omega
  · rw [h] at e
    generalize (P : Int) * y = a at *
    generalize (P : Int) * z = b at *
    omega
  · rw [h] at e
    generalize (P : Int) * y = a at *
    generalize (P : Int) * z = b at *
    omega
  · have h1 : (P : Int) * 2 ≤ P * (y - z) := Int.mul_le_mul_of_nonneg_left h (by omega)
    generalize (P : Int) * y = a at *
    generalize (P : Int) * z = b at *
    omega

private theorem clog2_spec (n : Nat) : n ≤ 2 ^ clog2 n := by
  unfold clog2
  split
  · omega
  · have := @Nat.lt_log2_self (n - 1)
    omega

private theorem clog2_le {n k : Nat} (h : n ≤ 2 ^ k) : clog2 n ≤ k := by
  unfold clog2
  split
  · omega
  · have : Nat.log2 (n - 1) < k := (Nat.log2_lt (by omega)).2 (by omega)
    omega

private theorem inRange_of_bounds {t : Ty} {v : Int} (h0 : 0 ≤ v) (h1 : 2 * v < (2 ^ t.width : Nat)) :
    t.InRange v := by
  unfold Ty.InRange
  split <;> omega

private theorem minusOne_val {s : Val} (hs : s.Ok) (h : 1 ≤ s.val) :
    (minusOne s).val = s.val - 1 ∧ (minusOne s).ty.width = max s.ty.width 2 ∧
      s.val - 1 < (2 ^ (minusOne s).ty.width : Nat) := by
  have hread : s.read (s.ty.signed && true) = s.val := by
    rw [Bool.and_true]; exact Val.read_self hs
  have hrange := (Val.ok_iff s).1 hs
  have hr2 : (binTy s.ty (int 1).ty).InRange (s.val - 1) := by
    have := Ty.inRange_mono (t' := binTy s.ty (int 1).ty) hrange (by simp [binTy, int]) (by simp [binTy])
    unfold Ty.InRange at *
    split at this <;> rename_i hsg
    · rw [if_pos hsg]; omega
    · rw [if_neg hsg]; omega
  refine ⟨?_, rfl, ?_⟩
  · show Ty.wrap _ (s.read (s.ty.signed && true) - 1) = _
    rw [hread]
    exact Ty.wrap_of_inRange _ hr2
  · show s.val - 1 < (2 ^ (binTy s.ty (int 1).ty).width : Nat)
    unfold Ty.InRange at hr2
    split at hr2 <;> omega

/-- C29: the same for a shift amount that is itself a stream value: correct for every amount below the
    width of the operand, for operands of up to 512 bits. -/
theorem c29_dynamic (x right : Val) (hx : x.Ok) (hs : x.ty.signed = true) (hw : 1 ≤ x.ty.width)
    (hw' : x.ty.width ≤ 512) (hright : right.Ok) (h0 : 0 ≤ right.val) (hr : right.val < x.ty.width) :
    ∃ y, sraRoundDyn x right = some y ∧ NearestAway x.val right.val.toNat y.val := by
  have hk := clog2_spec x.ty.width
  have hk9 : clog2 x.ty.width ≤ 9 := clog2_le (by omega)
  -- the sliced amount
  obtain ⟨sl, hsl, hslok, hslv, hslw⟩ : ∃ sl : Val,
      (if clog2 x.ty.width < right.ty.width then
        (⟨⟨clog2 x.ty.width, false⟩, right.val % (2 ^ clog2 x.ty.width : Nat)⟩ : Val) else right) = sl ∧
      sl.Ok ∧ sl.val = right.val ∧ sl.ty.width ≤ 9 := by
    have hm : right.val % (2 ^ clog2 x.ty.width : Nat) = right.val :=
      Int.emod_eq_of_lt h0 (by omega)
    refine ⟨_, rfl, ?_⟩
    split
    · refine ⟨?_, hm, hk9⟩
      rw [Val.ok_iff]
      simp only [Ty.InRange, Bool.false_eq_true, if_false]
      rw [hm]; omega
    · exact ⟨hright, rfl, by omega⟩
  unfold sraRoundDyn
  simp only [hsl]
  have hwid : (minusOne sl).ty.width ≤ 9 := by show max sl.ty.width 2 ≤ 9; omega
  have hp : 2 ^ (minusOne sl).ty.width ≤ 2 ^ 9 := Nat.pow_le_pow_right (by omega) hwid
  have hiw : (int 1).ty.width = 2 := by decide
  rw [if_neg (by rw [hiw]; omega)]
  refine ⟨_, rfl, ?_⟩
  by_cases hz : right.val = 0
  · rw [hz]
    simp only [Int.toNat_zero]
    rw [shift_zero hx hs]
    simp [NearestAway]
  · obtain ⟨m1, m2, m3⟩ := minusOne_val hslok (by rw [hslv]; omega)
    rw [hslv] at m1 m3
    have hsh : ((minusOne sl).val % (2 ^ (minusOne sl).ty.width : Nat)).toNat = right.val.toNat - 1 := by
      rw [m1, Int.emod_eq_of_lt (by omega) m3]; omega
    obtain ⟨⟨W, s⟩, v⟩ := x
    simp only at hs hr
    subst hs
    have hr1 : 1 ≤ right.val.toNat := by omega
    have hr2 : right.val.toNat ≤ W := by omega
    rw [sraRoundWith_val hw hr1 hr2 ((Val.ok_iff _).1 hx) rfl]
    · exact nearest hr1 v
    · simp only [hsh, hiw]
      rw [Ty.wrap_of_inRange]
      · push_cast; rfl
      · apply inRange_of_bounds
        · positivity
        · show 2 * (2 : Int) ^ (right.val.toNat - 1) < ((2 ^ (2 + 2 ^ (minusOne sl).ty.width) : Nat) : Int)
          have h1 : 2 ^ (right.val.toNat - 1 + 1) < 2 ^ (2 + 2 ^ (minusOne sl).ty.width) := by
            apply Nat.pow_lt_pow_right (by omega)
            have : right.val.toNat - 1 < 2 ^ (minusOne sl).ty.width := by omega
            omega
          rw [Nat.pow_succ] at h1
          have h2 : 2 * (2 : Int) ^ (right.val.toNat - 1) = ((2 ^ (right.val.toNat - 1) * 2 : Nat) : Int) := by
            push_cast; ring
          rw [h2]
          exact_mod_cast h1

/-- C29 does not hold for shifts beyond the width: `SraRound(127, 9)` of an 8-bit operand is -1. -/
theorem c29_too_far : ∃ (x : Val) (r : Nat), x.Ok ∧ x.ty = ⟨8, true⟩ ∧
    (sraRound x r).val = -1 ∧ NearestAway x.val r 0 :=
  ⟨⟨⟨8, true⟩, 127⟩, 9, by unfold Val.Ok; decide, rfl, by decide, by decide⟩

/-- C29 does not hold for unsigned operands: `SraRound(129, 1)` of an unsigned 8-bit operand is 66,
    because the top bit is taken as a sign and the correction -1 is added as 3. -/
theorem c29_unsigned : ∃ (x : Val) (r : Nat), x.Ok ∧ x.ty = ⟨8, false⟩ ∧
    (sraRound x r).val = 66 ∧ NearestAway x.val r 65 :=
  ⟨⟨⟨8, false⟩, 129⟩, 1, by unfold Val.Ok; decide, rfl, by decide, by decide⟩

/-! Examples: ties on both sides, and the largest allowed shift. -/




example : (sraRound ⟨⟨8, true⟩, 6⟩ 2).val = 2 ∧ (sraRound ⟨⟨8, true⟩, -6⟩ 2).val = -2 ∧
    (sraRound ⟨⟨8, true⟩, -5⟩ 2).val = -1 ∧ (sraRound ⟨⟨8, true⟩, 127⟩ 8).val = 0 ∧
    (sraRound ⟨⟨8, true⟩, -128⟩ 8).val = -1 := by decide
example : (⟨⟨8, true⟩, -6⟩ : Val).Ok := by unfold Val.Ok; decide
example : (sraRoundDyn ⟨⟨8, true⟩, -6⟩ ⟨⟨4, false⟩, 2⟩).map (·.val) = some (-2) := by decide

end Stream
