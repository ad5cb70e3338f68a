import Verif.Model.MultiCycle
import Verif.Lemmas.VExpr
import Verif.Props.C04_Mul
import Verif.Props.C05_Div
import Verif.Props.C26_Reduce
import Verif.Props.C73_StreamArith
import Mathlib.Algebra.BigOperators.Group.List.Basic

/-!
# C75: operators that take several cycles per item
-/

namespace MCyc

open Vlog Fixed Stream SArith

/-- A cycle as the rest of the stream sees it: an item is taken if it is valid, nothing else stops the stream and no item is
    being computed. -/
def look {σ : Type} (s : St σ) (i : In) : AccIn where
  go := i.valid && i.ext && decide (s.ii = 0)
  en := i.en
  rst := i.rst
  x := i.x

/-- The cycles of a run as the rest of the stream sees them. -/
def seenBy {σ : Type} (ii : ℕ) (c : Cfg) (u : Core σ) (s : St σ) : List In → List AccIn
  | [] => []
  | i :: l => look s i :: seenBy ii c u (s.step ii c u i) l

/-! ### The counter -/

private theorem lt_pow_iiWidth {ii k : ℕ} (h2 : 2 ≤ ii) (h : k < ii) : k + 1 < 2 ^ iiWidth ii := by
  have h1 : ii ≤ 2 ^ Nat.clog 2 ii := Nat.le_pow_clog (by omega) ii
  unfold iiWidth
  rw [Nat.pow_succ]
  omega

private theorem count_zero {ii : ℕ} (h2 : 2 ≤ ii) (go : Bool) : count ii 0 go = if go then 1 else 0 := by
  have h := lt_pow_iiWidth h2 (k := 0) (by omega)
  unfold count
  rw [if_neg (by omega), if_neg (by omega)]
  cases go
  · simp
  · simp only [and_self, if_true]
    exact Nat.mod_eq_of_lt h

private theorem count_pos {ii k : ℕ} (h2 : 2 ≤ ii) (hk : 0 < k) (h : k < ii) (go : Bool) :
    count ii k go = if k = ii - 1 then 0 else k + 1 := by
  have h := lt_pow_iiWidth h2 h
  simp only [count, hk, if_true]
  rw [Nat.mod_eq_of_lt h]

private theorem ready_iff (k : ℕ) (e : Bool) : ready k e = true ↔ k = 0 ∧ e = true := by
  unfold ready
  rcases Nat.eq_zero_or_pos k with h | h
  · simp [h]
  · simp [h]; omega

private theorem seen_eq {σ : Type} (s : St σ) (i : In) : s.seen i = look s i := by
  unfold St.seen look St.ready ready
  rcases Nat.eq_zero_or_pos s.ii with h | h
  · cases i.valid <;> cases i.ext <;> simp [h]
  · have : s.ii ≠ 0 := by omega
    cases i.valid <;> cases i.ext <;> simp [h, this]

/-! ### The unit -/

/-- `n` updates after the operands `a` and `x` were given the unit holds `f a x`. -/
structure Core.Right {σ : Type} (u : Core σ) (good : σ → Prop) (n : ℕ) (t : Ty) (Q : ℤ → Prop) (f : ℤ → ℤ → ℤ) : Prop where
  keep : ∀ s b a x, good s → good (u.step s b a x)
  val : ∀ s a x, good s → t.InRange a → Q x → ∀ l : List (ℤ × ℤ), l.length + 1 = n →
    u.value (l.foldl (fun s p => u.step s true p.1 p.2) (u.step s true a x)) = t.wrap (f a x)

/-- The registers against those of an accumulator that takes one cycle. -/
structure Sim {σ : Type} (ii : ℕ) (c : Cfg) (u : Core σ) (good : σ → Prop) (Q : ℤ → Prop) (f : ℤ → ℤ → ℤ) (s : St σ)
    (A : AccSt) : Prop where
  range : c.ty.InRange A.data
  ok : good s.core
  lt : s.ii < ii
  cnt : s.acc.count = A.count
  mx : s.acc.prevMax = A.prevMax
  ic : s.acc.icount = A.icount
  idle : s.ii = 0 → s.acc.data = A.data
  busy : 0 < s.ii → ∃ σ₀ a x, ∃ l : List (ℤ × ℤ), good σ₀ ∧ c.ty.InRange a ∧ Q x ∧ l.length + 1 = s.ii ∧
    s.core = l.foldl (fun s p => u.step s true p.1 p.2) (u.step σ₀ true a x) ∧ A.data = c.ty.wrap (f a x)

private theorem acc_range (c : AccCfg) (s : AccSt) (i : AccIn) (h : c.ty.InRange s.data) : c.ty.InRange (c.step s i).data := by
  simp only [AccCfg.step]
  split
  · exact Ty.wrap_inRange _ _
  · split
    · exact Ty.wrap_inRange _ _
    · exact h

private theorem sim_step {σ : Type} {ii : ℕ} (h2 : 2 ≤ ii) {c : Cfg} {u : Core σ} {good : σ → Prop} {Q : ℤ → Prop}
    {f : ℤ → ℤ → ℤ} (R : u.Right good (ii - 1) c.ty Q f) {s : St σ} {A : AccSt} (h : Sim ii c u good Q f s A) (i : In)
    (hQ : (s.seen i).go = true → Q i.x) :
    Sim ii c u good Q f (s.step ii c u i) ((c.acc f).step A (s.seen i)) := by
  have hrange := acc_range (c.acc f) A (s.seen i) h.range
  have hgood : good (s.step ii c u i).core := R.keep _ _ _ _ h.ok
  obtain ⟨⟨sd, sc, sp, si⟩, k, w⟩ := s
  obtain ⟨ad, ac, ap, ai⟩ := A
  obtain ⟨hrg, hok, hlt, rfl, rfl, rfl, hidle, hbusy⟩ := h
  simp only at hlt hidle hbusy
  rcases Nat.eq_zero_or_pos k with rfl | hk
  · obtain rfl := hidle rfl
    set e := (St.seen ⟨⟨sd, sc, sp, si⟩, 0, w⟩ i) with he
    have hen : ∀ g, (c.acc g).en2 ⟨sd, sc, sp, si⟩ e = (c.acc f).en2 ⟨sd, sc, sp, si⟩ e := fun _ => rfl
    have hii : (St.step ii c u ⟨⟨sd, sc, sp, si⟩, 0, w⟩ i).ii = if (c.acc f).en2 ⟨sd, sc, sp, si⟩ e then 1 else 0 := by
      show count ii 0 _ = _
      rw [count_zero h2]; rfl
    refine ⟨hrange, hgood, ?_, rfl, rfl, rfl, ?_, ?_⟩
    · rw [hii]; split <;> omega
    · intro h0
      rw [hii] at h0
      have hen0 : (c.acc f).en2 ⟨sd, sc, sp, si⟩ e = false := by
        by_contra hc
        simp [hc] at h0
      show (if 0 = ii - 1 then _ else _) = ((c.acc f).step _ e).data
      rw [if_neg (by omega)]
      simp only [AccCfg.step, hen0, Bool.false_eq_true, if_false]
      rfl
    · intro h0
      rw [hii] at h0 ⊢
      have hen1 : (c.acc f).en2 ⟨sd, sc, sp, si⟩ e = true := by
        by_contra hc
        simp [hc] at h0
      have hgo : e.go = true := by
        simp only [AccCfg.en2, AccCfg.en1, Bool.and_eq_true] at hen1
        exact hen1.1.1
      refine ⟨w, (c.acc f).curData ⟨sd, sc, sp, si⟩ e, i.x, [], hok, ?_, hQ hgo, by simp [hen1], ?_, ?_⟩
      · unfold AccCfg.curData
        split
        · exact Ty.wrap_inRange _ _
        · exact hrg
      · show u.step w (_ || _) _ _ = _
        rw [show (c.acc fun a _ => a).en2 ⟨sd, sc, sp, si⟩ e = true from hen1]
        rfl
      · simp only [AccCfg.step, hen1, if_true]
        rfl
  · obtain ⟨σ₀, a, x, l, hg, ha, hx, hl, hcore, hdata⟩ := hbusy hk
    set e := (St.seen ⟨⟨sd, sc, sp, si⟩, k, w⟩ i) with he
    have hgo : e.go = false := by
      simp only [he, St.seen, St.ready]
      have : ready k i.ext = false := by
        by_contra hc
        have := (ready_iff _ _).1 (by simpa using hc)
        omega
      simp [this]
    rw [c26_idle (c.acc f) _ _ hgo]
    have hii : (St.step ii c u ⟨⟨sd, sc, sp, si⟩, k, w⟩ i).ii = if k = ii - 1 then 0 else k + 1 := count_pos h2 hk hlt _
    have hacc := c26_idle (c.acc fun a _ => a) ⟨sd, sc, sp, si⟩ e hgo
    refine ⟨hrg, hgood, ?_, ?_, ?_, ?_, ?_, ?_⟩
    · rw [hii]; split <;> omega
    · show ((c.acc fun a _ => a).step ⟨sd, sc, sp, si⟩ e).count = _
      rw [hacc]
    · show ((c.acc fun a _ => a).step ⟨sd, sc, sp, si⟩ e).prevMax = _
      rw [hacc]
    · show ((c.acc fun a _ => a).step ⟨sd, sc, sp, si⟩ e).icount = _
      rw [hacc]
    · intro h0
      rw [hii] at h0
      have hlast : k = ii - 1 := by
        by_contra hc
        rw [if_neg hc] at h0
        omega
      show (if k = ii - 1 then u.value w else _) = ad
      rw [if_pos hlast]
      rw [hcore, R.val σ₀ a x hg ha hx l (by omega), hdata]
    · intro h0
      rw [hii] at h0 ⊢
      have hlast : ¬ k = ii - 1 := by
        intro hc
        rw [if_pos hc] at h0
        omega
      refine ⟨σ₀, a, x, l ++ [((c.acc fun a _ => a).curData ⟨sd, sc, sp, si⟩ e, i.x)], hg, ha, hx, ?_, ?_, hdata⟩
      · rw [if_neg hlast, List.length_append, List.length_singleton]
        omega
      · rw [List.foldl_append, ← hcore]
        show u.step w (_ || decide (0 < k)) _ _ = _
        rw [decide_eq_true hk, Bool.or_true]
        rfl

private theorem sim_run {σ : Type} {ii : ℕ} (h2 : 2 ≤ ii) {c : Cfg} {u : Core σ} {good : σ → Prop} {Q : ℤ → Prop}
    {f : ℤ → ℤ → ℤ} (R : u.Right good (ii - 1) c.ty Q f) (l : List In) {s : St σ} {A : AccSt} (h : Sim ii c u good Q f s A)
    (hQ : ∀ e ∈ seenBy ii c u s l, e.go = true → Q e.x) :
    Sim ii c u good Q f (s.run ii c u l) ((c.acc f).run A (seenBy ii c u s l)) := by
  induction l generalizing s A with
  | nil => exact h
  | cons i l ih =>
    have h1 := sim_step h2 R h i (fun hg => hQ (look s i) (by simp [seenBy]) (seen_eq s i ▸ hg))
    rw [seen_eq] at h1
    exact ih h1 fun e he hg => hQ e (by simp [seenBy, he]) hg

private theorem sim_data {σ : Type} {ii : ℕ} (h2 : 2 ≤ ii) {c : Cfg} {u : Core σ} {good : σ → Prop} {Q : ℤ → Prop}
    {f : ℤ → ℤ → ℤ} (R : u.Right good (ii - 1) c.ty Q f) (l : List In) (w : σ) (hw : good w)
    (hQ : ∀ e ∈ seenBy ii c u (St.init c w) l, e.go = true → Q e.x) (i : In)
    (hr : ((St.init c w).run ii c u l).ready i = true) :
    ((St.init c w).run ii c u l).acc.data = ((c.acc f).run (c.acc f).init (seenBy ii c u (St.init c w) l)).data := by
  have h0 : Sim ii c u good Q f (St.init c w) (c.acc f).init :=
    ⟨Ty.wrap_inRange _ _, hw, by show 0 < ii; omega, rfl, rfl, rfl, fun _ => rfl, fun h => absurd h (by simp [St.init])⟩
  have h := sim_run h2 R l h0 hQ
  exact h.idle ((ready_iff _ _).1 hr).1

/-! ### `ReduceMul` -/

private theorem wrap_toNat_ofInt (t : Ty) (z : ℤ) : t.wrap ((BitVec.ofInt t.width z).toNat : ℤ) = t.wrap z := by
  apply Ty.wrap_congr
  rw [BitVec.toNat_ofInt, Int.toNat_of_nonneg (Int.emod_nonneg _ (by
    have := two_pow_pos t.width; omega)), Int.emod_emod_of_dvd _ (Int.dvd_refl _)]

private theorem denote_ofInt {t : Ty} {v : ℤ} (h : t.InRange v) : Mul.denote t.signed (BitVec.ofInt t.width v) = v := by
  unfold Mul.denote
  unfold Ty.InRange at h
  split at h
  · rename_i hs
    rw [if_pos hs, BitVec.toInt_ofInt]
    exact Int.bmod_eq_of_le_mul_two (by omega) (by omega)
  · rename_i hs
    rw [if_neg hs, BitVec.toNat_ofInt, Int.emod_eq_of_lt h.1 h.2]
    omega

/-- What the operands of `ReduceMul` have to satisfy. -/
def MulOk (c : Cfg) (x : ℤ) : Prop :=
  c.point = 0 ∨ ((⟨c.ty.width, c.xt.signed⟩ : Ty).InRange x ∧ c.point < 2 ^ 31 ∧
    (c.ty.signed = true ∨ c.xt.signed = false ∨ c.point ≤ c.ty.width))

private theorem operand_emod {w : ℕ} (s : Bool) (x : ℤ) :
    Mul.operand s (BitVec.ofInt w x) % (2 ^ w : ℕ) = x % (2 ^ w : ℕ) := by
  unfold Mul.operand
  split
  · rw [BitVec.toInt_ofInt, Int.bmod_emod]
  · rw [BitVec.toNat_ofInt, Int.toNat_of_nonneg (Int.emod_nonneg _ (by have := two_pow_pos w; omega)),
      Int.emod_emod_of_dvd _ (Int.dvd_refl _)]

private theorem mulValue_eq (c : Cfg) (a x : ℤ) (ha : c.ty.InRange a) (hx : MulOk c x) :
    mulValue c (Mul.mulWire c.ty.signed c.xt.signed (BitVec.ofInt c.ty.width a) (BitVec.ofInt c.ty.width x)) =
      c.ty.wrap (a * x / (2 ^ c.point : ℕ)) := by
  set full : Ty := ⟨c.ty.width + c.ty.width, c.ty.signed⟩ with hfull
  set z := Mul.operand c.ty.signed (BitVec.ofInt c.ty.width a) * Mul.operand c.xt.signed (BitVec.ofInt c.ty.width x) with hz
  have hwire : full.wrap ((Mul.mulWire c.ty.signed c.xt.signed (BitVec.ofInt c.ty.width a)
      (BitVec.ofInt c.ty.width x)).toNat : ℤ) = full.wrap z := wrap_toNat_ofInt full z
  have hin : full.InRange (full.wrap z) := Ty.wrap_inRange _ _
  have hm := Means.var (ρ := fun _ => full.wrap z) (t := full) (x := "mul_odata") hin
  have hreg : mulValue c (Mul.mulWire c.ty.signed c.xt.signed (BitVec.ofInt c.ty.width a) (BitVec.ofInt c.ty.width x)) =
      c.ty.wrap (full.wrap z / (2 ^ c.point : ℕ)) ∨ 2 ^ 31 ≤ c.point := by
    by_cases hp31 : c.point < 2 ^ 31
    swap
    · right; omega
    left
    simp only [mulValue]
    rw [show (⟨c.ty.width + c.ty.width, c.ty.signed⟩ : Ty) = full from rfl, hwire]
    by_cases hp : c.point > 0
    · rw [if_pos hp]
      unfold VExpr.assign
      simp only [shiftRight, Opnd.expr]
      congr 1
      refine eval_sra hm hp31 ⟨max c.ty.width full.width, full.signed⟩ (Nat.le_max_right _ _) rfl
        (Ty.inRange_mono hin rfl (Nat.le_max_right _ _)) _ ?_
      show _ ∨ (_ ∧ c.ty.signed = false)
      by_cases h2 : c.ty.signed = true
      · left; exact if_pos h2
      · right; exact ⟨if_neg h2, by simpa using h2⟩
    · rw [if_neg hp]
      have h0 : c.point = 0 := by omega
      unfold VExpr.assign
      have h1 := hm ⟨max c.ty.width full.width, full.signed⟩ (Nat.le_max_right _ _) rfl
      show c.ty.wrap (VExpr.eval _ _ ⟨max c.ty.width full.width, full.signed⟩) = _
      rw [h1, Ty.wrap_wrap_le (Nat.le_max_left _ _), h0]
      simp
  rcases hx with h0 | ⟨hx, h31, hc⟩
  · rcases hreg with hreg | hbad
    swap
    · rw [h0] at hbad; omega
    rw [hreg, h0]
    simp only [pow_zero, Nat.cast_one, Int.ediv_one]
    rw [Ty.wrap_wrap_le (by show c.ty.width ≤ c.ty.width + c.ty.width; omega)]
    apply Ty.wrap_congr
    rw [hz, Int.mul_emod, operand_emod, operand_emod, ← Int.mul_emod]
  · rcases hreg with hreg | hbad
    swap
    · omega
    have ez : z = a * x := by
      have e1 : Mul.operand c.ty.signed (BitVec.ofInt c.ty.width a) = a := denote_ofInt ha
      have e2 : Mul.operand c.xt.signed (BitVec.ofInt c.ty.width x) = x := denote_ofInt (t := ⟨c.ty.width, c.xt.signed⟩) hx
      rw [hz, e1, e2]
    rw [hreg]
    have hfit : (c.ty.signed = true ∨ c.xt.signed = false) → full.wrap z = z := by
      intro hc
      have e1 : Mul.operand c.ty.signed (BitVec.ofInt c.ty.width a) = a := denote_ofInt ha
      have e2 : Mul.operand c.xt.signed (BitVec.ofInt c.ty.width x) = x := denote_ofInt (t := ⟨c.ty.width, c.xt.signed⟩) hx
      rw [← hwire]
      cases hS : c.ty.signed with
      | true =>
        have h3 := Mul.mulWire_signed true c.xt.signed (by simp) (BitVec.ofInt c.ty.width a) (BitVec.ofInt c.ty.width x)
        rw [hS] at e1
        have h4 : Mul.denote true (BitVec.ofInt c.ty.width a) * Mul.denote c.xt.signed (BitVec.ofInt c.ty.width x) = z := by
          rw [ez]; exact congrArg₂ (· * ·) e1 e2
        rw [h4] at h3
        rw [hfull]
        unfold Ty.wrap
        simp only [hS, if_true]
        rw [← h3, BitVec.toInt_eq_toNat_bmod]
      | false =>
        have hxS : c.xt.signed = false := by
          rcases hc with h | h
          · rw [hS] at h; cases h
          · exact h
        rw [hS] at e1
        rw [hxS] at e2 ⊢
        rw [Mul.mulWire_unsigned]
        simp only [Mul.operand, Bool.false_eq_true, if_false] at e1 e2
        push_cast
        rw [e1, e2, ez]
        apply Ty.wrap_of_inRange
        rw [← e1, ← e2, hfull]
        unfold Ty.InRange
        simp only [hS, Bool.false_eq_true, if_false]
        constructor
        · positivity
        · rw [Nat.pow_add]
          exact_mod_cast Nat.mul_lt_mul'' (BitVec.isLt _) (BitVec.isLt _)
    by_cases hcase : c.ty.signed = true ∨ c.xt.signed = false
    · rw [hfit hcase, ez]
    · have hp : c.point ≤ c.ty.width := by
        rcases hc with h | h | h
        · exact absurd (Or.inl h) hcase
        · exact absurd (Or.inr h) hcase
        · exact h
      have hff : full.signed = false := by
        by_contra h
        exact hcase (Or.inl (by simpa using h))
      have hwf : ∀ v : ℤ, full.wrap v = v % (2 ^ full.width : ℕ) := by
        intro v; unfold Ty.wrap; rw [hff]; simp
      rw [ez]
      apply Ty.wrap_congr
      rw [hwf]
      obtain ⟨k, hk⟩ : ∃ k, full.width = c.point + (c.ty.width + k) := by
        refine ⟨c.ty.width - c.point, ?_⟩
        show c.ty.width + c.ty.width = _
        omega
      rw [hk, Int.emod_def (a * x)]
      set q := a * x / ((2 ^ (c.point + (c.ty.width + k)) : ℕ) : ℤ)
      have e : a * x - ((2 ^ (c.point + (c.ty.width + k)) : ℕ) : ℤ) * q =
          a * x + (2 ^ c.point : ℕ) * (-((2 ^ c.ty.width : ℕ) * ((2 ^ k : ℕ) * q))) := by
        rw [Nat.pow_add, Nat.pow_add]; push_cast; ring
      rw [e, Int.add_mul_ediv_left _ _ (by have := two_pow_pos c.point; omega)]
      rw [← Int.mul_neg, Int.add_mul_emod_self_left]

private theorem mul_right (c : Cfg) :
    (mulCore c).Right (fun s => s.pipe.length = 1) (mulII - 1) c.ty (MulOk c) fun a x => a * x / (2 ^ c.point : ℕ) where
  keep := by
    intro s b a x h
    show (Mul.step _ _ s _).pipe.length = 1
    unfold Mul.step
    split
    · rw [Mul.shift_eq_push, Pipe.length_push]; exact h
    · exact h
  val := by
    intro s a x hs ha hx l hl
    have hl1 : l.length = 1 := by unfold mulII at hl; omega
    obtain ⟨p, rfl⟩ := List.length_eq_one_iff.1 hl1
    obtain ⟨sa, sb, pipe⟩ := s
    obtain ⟨q, rfl⟩ := List.length_eq_one_iff.1 hs
    show mulValue c _ = _
    exact mulValue_eq c a x ha hx

/-- C75: whenever the stream is ready, `ReduceMul` holds what an accumulator of one cycle holds that multiplies every item it
    takes and drops the `point` lowest bits of the product.  The items taken are those offered while the stream is ready. -/
theorem c75_mul (c : Cfg) (m : Mul.State c.ty.width c.ty.width) (hm : m.pipe.length = 1) (l : List In)
    (hx : ∀ e ∈ seenBy mulII c (mulCore c) (St.init c m) l, e.go = true → MulOk c e.x) (i : In)
    (hr : ((St.init c m).run mulII c (mulCore c) l).ready i = true) :
    ((St.init c m).run mulII c (mulCore c) l).acc.data =
      ((c.acc fun a x => a * x / (2 ^ c.point : ℕ)).run (c.acc fun a x => a * x / (2 ^ c.point : ℕ)).init
        (seenBy mulII c (mulCore c) (St.init c m) l)).data :=
  sim_data (by decide) (mul_right c) l m hm hx i hr

/-- The items taken. -/
def taken (c : Cfg) (l : List AccIn) : List ℤ := (l.filter fun i => i.go && (!c.hasEnable || i.en)).map (·.x)

private theorem fold_mul (t : Ty) (a : ℤ) (xs : List ℤ) :
    xs.foldl (fun a x => t.wrap (a * x / (2 ^ 0 : ℕ))) (t.wrap a) = t.wrap (a * xs.prod) := by
  induction xs generalizing a with
  | nil => simp
  | cons x xs ih =>
    rw [List.foldl_cons, List.prod_cons, ← mul_assoc]
    have : t.wrap (t.wrap a * x / (2 ^ 0 : ℕ)) = t.wrap (a * x) := by
      simp only [pow_zero, Nat.cast_one, Int.ediv_one]
      apply Ty.wrap_congr
      rw [Int.mul_emod, Ty.wrap_emod, ← Int.mul_emod]
    rw [this, ih]

/-- C75: `ReduceMul` of integers without `reset`, `size` and `interval` holds the product of the initial value of its register
    and all items taken, modulo the width of the result, for all signednesses. -/
theorem c75_product (c : Cfg) (hs : c.size = none) (hi : c.interval = none) (hr : c.hasReset = false) (hp : c.point = 0)
    (m : Mul.State c.ty.width c.ty.width) (hm : m.pipe.length = 1) (l : List In) (i : In)
    (hrdy : ((St.init c m).run mulII c (mulCore c) l).ready i = true) :
    ((St.init c m).run mulII c (mulCore c) l).acc.data =
      c.ty.wrap (c.regInit * (taken c (seenBy mulII c (mulCore c) (St.init c m) l)).prod) := by
  rw [c75_mul c m hm l (fun _ _ _ => Or.inl hp) i hrdy,
    c26_fold (c.acc _) hs hi rfl _ (fun _ _ h => absurd (show c.hasReset = true from h) (by simp [hr]))]
  unfold reduce
  rw [hp]
  exact fold_mul c.ty c.regInit _

/-! ### `ReduceDiv` -/

/-- Quotient towards zero; an accumulator without sign is divided by the magnitude. -/
def quot (c : Cfg) (a x : ℤ) : ℤ := if c.ty.signed then a.tdiv x else a / x.natAbs

/-- What the operands of `ReduceDiv` have to satisfy: not 0, and a value that an operand of the accumulator's width can have;
    if the accumulator is signed, a value of the accumulator's type. -/
def DivOk (c : Cfg) (x : ℤ) : Prop :=
  x ≠ 0 ∧ (⟨c.ty.width, c.xt.signed⟩ : Ty).InRange x ∧ (c.ty.signed = true → c.ty.InRange x)

private theorem toInt_ofInt_inRange {w : ℕ} {v : ℤ} (h : Ty.InRange ⟨w, true⟩ v) : (BitVec.ofInt w v).toInt = v := by
  have := denote_ofInt h
  simpa [Mul.denote] using this

private theorem toNat_ofInt_inRange {w : ℕ} {v : ℤ} (h : Ty.InRange ⟨w, false⟩ v) : ((BitVec.ofInt w v).toNat : ℤ) = v := by
  have := denote_ofInt h
  simpa [Mul.denote] using this

private theorem range_width {t : Ty} {v : ℤ} (h : t.InRange v) (h0 : v ≠ 0) : 0 < t.width := by
  by_contra hc
  have hw : t.width = 0 := by omega
  unfold Ty.InRange at h
  rw [hw] at h
  split at h <;> simp at h <;> omega

private theorem pass_eq (c : Cfg) (a x : ℤ) (ha : c.ty.InRange a) (hx : DivOk c x) :
    c.ty.wrap ((Div.pass c.ty.signed c.xt.signed c.ty.signed
      (⟨true, true, BitVec.ofInt c.ty.width a, BitVec.ofInt c.ty.width x⟩ : Div.In c.ty.width)).rslt.toNat : ℤ) =
      c.ty.wrap (quot c a x) := by
  obtain ⟨h0, hxr, hxs⟩ := hx
  have hW : 0 < c.ty.width := range_width (t := ⟨c.ty.width, c.xt.signed⟩) hxr h0
  unfold quot
  obtain ⟨⟨w, sg⟩, ⟨xw, xs⟩, _, _, _, _, _, _, _⟩ := c
  simp only at *
  cases sg with
  | true =>
    simp only [if_true]
    have hx2 := hxs rfl
    have ea := toInt_ofInt_inRange ha
    have ex := toInt_ofInt_inRange hx2
    have hpass : Div.pass true xs true (⟨true, true, BitVec.ofInt w a, BitVec.ofInt w x⟩ : Div.In w) =
        Div.pass true true true ⟨true, true, BitVec.ofInt w a, BitVec.ofInt w x⟩ := by
      cases xs with
      | true => rfl
      | false =>
        have hnn : 0 ≤ x := by
          unfold Ty.InRange at hxr
          simp only [Bool.false_eq_true, if_false] at hxr
          exact hxr.1
        have habs : Div.absolute (BitVec.ofInt w x) = BitVec.ofInt w x := by
          apply BitVec.eq_of_toNat_eq
          rw [Div.absolute_toNat, ex]
          have := toNat_ofInt_inRange hxr
          omega
        unfold Div.pass Div.load
        simp only [habs, if_true, Bool.false_eq_true, if_false]
    rw [hpass]
    have hb : BitVec.ofInt w x ≠ 0#w := by
      intro h
      rw [h] at ex
      simp at ex
      exact h0 ex.symm
    rw [(Div.c05_div_signed hW _ hb).1, ea, ex]
    exact wrap_toNat_ofInt ⟨w, true⟩ _
  | false =>
    simp only [Bool.false_eq_true, if_false]
    have ea := toNat_ofInt_inRange ha
    have hmag : Div.mag xs (BitVec.ofInt w x) = x.natAbs := by
      cases xs with
      | true =>
        simp only [Div.mag, if_true, Div.absolute_toNat, toInt_ofInt_inRange hxr]
      | false =>
        simp only [Div.mag, Bool.false_eq_true, if_false]
        have := toNat_ofInt_inRange hxr
        omega
    have hst := (Div.stage_divmod hW false xs ⟨true, true, BitVec.ofInt w a, BitVec.ofInt w x⟩ (by
      show Div.mag xs (BitVec.ofInt w x) ≠ 0
      rw [hmag]; omega)).1
    simp only [Div.pass, Div.final, Bool.false_eq_true, if_false, BitVec.toNat_setWidth, hst, hmag]
    congr 1
    simp only [Div.mag, Bool.false_eq_true, if_false]
    have hlt := (BitVec.ofInt w a).isLt
    have hle : (BitVec.ofInt w a).toNat / x.natAbs ≤ (BitVec.ofInt w a).toNat := Nat.div_le_self _ _
    rw [Nat.mod_eq_of_lt (by omega), Int.natCast_ediv, ea]

private theorem div_right (c : Cfg) :
    (divCore c).Right (fun s => s.stages.length = c.ty.width + 1) (redDivII c - 1) c.ty (DivOk c) (quot c) where
  keep := by
    intro s b a x h
    show (Div.step _ _ _ s _).stages.length = _
    unfold Div.step
    split
    · rw [Div.shift_eq_push, Pipe.length_push]; exact h
    · exact h
  val := by
    intro s a x hs ha hx l hl
    rw [← pass_eq c a x ha hx]
    show c.ty.wrap _ = _
    congr 2
    have hrun : (l.foldl (fun s p => (divCore c).step s true p.1 p.2) ((divCore c).step s true a x)) =
        Div.run c.ty.signed c.xt.signed c.ty.signed s
          ((a, x) :: l |>.map fun p => (⟨true, true, BitVec.ofInt _ p.1, BitVec.ofInt _ p.2⟩ : Div.In c.ty.width)) := by
      simp only [Div.run, List.foldl_map, List.foldl_cons]
      rfl
    rw [hrun]
    congr 1
    exact congrArg Div.Out.rslt (Div.c06_div_pipeline _ _ _ s hs _ []
      (l.map fun p => (⟨true, true, BitVec.ofInt _ p.1, BitVec.ofInt _ p.2⟩ : Div.In c.ty.width)) _ (by
        unfold Div.issued
        rw [List.filter_eq_self.2]
        · simp
        · intro y hy
          obtain ⟨p, _, rfl⟩ := List.mem_map.1 hy
          rfl) (by
        rw [List.length_map]
        unfold redDivII at hl
        omega))

/-- C75: whenever the stream is ready, `ReduceDiv` holds what an accumulator of one cycle holds that divides by every item
    it takes, rounding towards zero. -/
theorem c75_div (c : Cfg) (m : Div.State c.ty.width) (hm : m.stages.length = c.ty.width + 1) (l : List In)
    (hx : ∀ e ∈ seenBy (redDivII c) c (divCore c) (St.init c m) l, e.go = true → DivOk c e.x) (i : In)
    (hr : ((St.init c m).run (redDivII c) c (divCore c) l).ready i = true) :
    ((St.init c m).run (redDivII c) c (divCore c) l).acc.data =
      ((c.acc (quot c)).run (c.acc (quot c)).init (seenBy (redDivII c) c (divCore c) (St.init c m) l)).data :=
  sim_data (by unfold redDivII; omega) (div_right c) l m hm hx i hr

/-- C75: `ReduceDiv` without `reset`, `size` and `interval` is the initial value divided by one item after the other. -/
theorem c75_quotient (c : Cfg) (hs : c.size = none) (hi : c.interval = none) (hr : c.hasReset = false)
    (m : Div.State c.ty.width) (hm : m.stages.length = c.ty.width + 1) (l : List In)
    (hx : ∀ e ∈ seenBy (redDivII c) c (divCore c) (St.init c m) l, e.go = true → DivOk c e.x) (i : In)
    (hrdy : ((St.init c m).run (redDivII c) c (divCore c) l).ready i = true) :
    ((St.init c m).run (redDivII c) c (divCore c) l).acc.data =
      (taken c (seenBy (redDivII c) c (divCore c) (St.init c m) l)).foldl (fun a x => c.ty.wrap (quot c a x))
        (c.ty.wrap c.regInit) := by
  rw [c75_div c m hm l hx i hrdy,
    c26_fold (c.acc _) hs hi rfl _ (fun _ _ h => absurd (show c.hasReset = true from h) (by simp [hr]))]
  rfl

/-! ### How long an item takes -/

private theorem run_busy {σ : Type} {ii : ℕ} (h2 : 2 ≤ ii) (c : Cfg) (u : Core σ) (l : List In) (s : St σ) (hk : 0 < s.ii)
    (hl : s.ii + l.length ≤ ii - 1) : (s.run ii c u l).ii = s.ii + l.length := by
  induction l generalizing s with
  | nil => rfl
  | cons i l ih =>
    rw [List.length_cons] at hl ⊢
    have h1 : (s.step ii c u i).ii = s.ii + 1 := by
      show count ii s.ii _ = _
      rw [count_pos h2 hk (by omega), if_neg (by omega)]
    have := ih (s.step ii c u i) (by omega) (by omega)
    show ((s.step ii c u i).run ii c u l).ii = _
    omega

/-- C75: once an item is taken the stream stops for `ii - 1` cycles, whatever its inputs are, and then it is as ready as the
    rest of the stream is. -/
theorem c75_pace {σ : Type} {ii : ℕ} (h2 : 2 ≤ ii) (c : Cfg) (u : Core σ) (s : St σ) (i : In) (hr : s.ready i = true)
    (hi : (c.acc fun a _ => a).en2 s.acc (look s i) = true) (l : List In) (j : In) :
    (l.length < ii - 1 → ((s.step ii c u i).run ii c u l).ready j = false) ∧
    (l.length = ii - 1 → ((s.step ii c u i).run ii c u l).ready j = j.ext) := by
  have h0 : s.ii = 0 := ((ready_iff _ _).1 hr).1
  have h1 : (s.step ii c u i).ii = 1 := by
    show count ii s.ii _ = 1
    rw [seen_eq, h0, count_zero h2, if_pos hi]
  constructor
  · intro hl
    have h3 := run_busy h2 c u l (s.step ii c u i) (by omega) (by omega)
    unfold St.ready
    cases h : ready ((s.step ii c u i).run ii c u l).ii j.ext with
    | false => rfl
    | true =>
      have := ((ready_iff _ _).1 h).1
      omega
  · intro hl
    obtain ⟨l', x, rfl⟩ : ∃ l' x, l = l' ++ [x] := by
      rcases List.eq_nil_or_concat l with h | ⟨a, b, h⟩
      · subst h; simp at hl; omega
      · exact ⟨a, b, by simpa using h⟩
    rw [List.length_append, List.length_singleton] at hl
    have h3 := run_busy h2 c u l' (s.step ii c u i) (by omega) (by omega)
    have h4 : ((s.step ii c u i).run ii c u (l' ++ [x])).ii = 0 := by
      unfold St.run
      rw [List.foldl_append]
      show count ii ((s.step ii c u i).run ii c u l').ii _ = 0
      rw [h3, count_pos h2 (by omega) (by omega), if_pos (by omega)]
    unfold St.ready ready
    rw [h4]
    simp

/-- A cycle in which no item is taken for the product or quotient does not stop the stream. -/
theorem c75_pass {σ : Type} {ii : ℕ} (h2 : 2 ≤ ii) (c : Cfg) (u : Core σ) (s : St σ) (i : In) (h0 : s.ii = 0)
    (hi : (c.acc fun a _ => a).en2 s.acc (look s i) = false) (j : In) : (s.step ii c u i).ready j = j.ext := by
  have h1 : (s.step ii c u i).ii = 0 := by
    show count ii s.ii _ = 0
    rw [seen_eq, h0, count_zero h2, hi]; rfl
  unfold St.ready ready
  rw [h1]
  simp

/-- The counters of several operators after some cycles. -/
def countsAt (ext : ℕ → Bool) (go : ℕ → ℕ → Bool) (l : List (ℕ × ℕ)) : ℕ → List (ℕ × ℕ)
  | 0 => l
  | t + 1 => countAll (ext t) (go t) (countsAt ext go l t)

private theorem all_ready (l : List (ℕ × ℕ)) : (l.all fun p => ready p.2 true) = true ↔ ∀ p ∈ l, p.2 = 0 := by
  rw [List.all_eq_true]
  constructor
  · intro h p hp; exact ((ready_iff _ _).1 (h p hp)).1
  · intro h p hp; exact (ready_iff _ _).2 ⟨h p hp, rfl⟩

private theorem countAll_step {ext : Bool} {go : ℕ → Bool} {l : List (ℕ × ℕ)} {M : ℕ}
    (h : ∀ p ∈ l, 2 ≤ p.1 ∧ p.2 < p.1 ∧ (0 < p.2 → p.1 - p.2 ≤ M + 1)) (hn : ¬ ∀ p ∈ l, p.2 = 0) :
    ∀ p ∈ countAll ext go l, 2 ≤ p.1 ∧ p.2 < p.1 ∧ (0 < p.2 → p.1 - p.2 ≤ M) := by
  have hr : (l.all fun p => ready p.2 true) = false := by
    cases hb : (l.all fun p => ready p.2 true) with
    | false => rfl
    | true => exact absurd ((all_ready l).1 hb) hn
  intro p hp
  simp only [countAll, hr, Bool.and_false, Bool.false_and] at hp
  obtain ⟨⟨⟨ii, k⟩, n⟩, hq, rfl⟩ := List.mem_map.1 hp
  have hmem : (ii, k) ∈ l := by
    have := List.mem_zipIdx hq
    rw [this.2.2]
    exact List.getElem_mem _
  obtain ⟨h1, h2, h3⟩ := h _ hmem
  simp only at h1 h2 h3 ⊢
  rcases Nat.eq_zero_or_pos k with rfl | hk
  · rw [count_zero h1]
    simp; omega
  · rw [count_pos h1 hk h2]
    have := h3 hk
    split <;> omega

/-- C75: several such operators in one stream do not block each other for ever: among any `M` consecutive cycles there is one
    in which all of them let the stream advance, if no interval is longer than `M`. -/
theorem c75_together (ext : ℕ → Bool) (go : ℕ → ℕ → Bool) (l : List (ℕ × ℕ)) (M : ℕ) (hM : 1 ≤ M)
    (h : ∀ p ∈ l, 2 ≤ p.1 ∧ p.1 ≤ M ∧ p.2 < p.1) :
    ∃ t < M, ((countsAt ext go l t).all fun p => ready p.2 true) = true := by
  have key : ∀ (M : ℕ) (ext : ℕ → Bool) (go : ℕ → ℕ → Bool) (l : List (ℕ × ℕ)),
      (∀ p ∈ l, 2 ≤ p.1 ∧ p.2 < p.1 ∧ (0 < p.2 → p.1 - p.2 ≤ M)) →
      ∃ t ≤ M, ∀ p ∈ countsAt ext go l t, p.2 = 0 := by
    intro M
    induction M with
    | zero =>
      intro ext go l h
      refine ⟨0, Nat.le_refl _, fun p hp => ?_⟩
      by_contra hc
      obtain ⟨_, h2, h3⟩ := h p hp
      have := h3 (by omega)
      omega
    | succ M ih =>
      intro ext go l h
      by_cases hn : ∀ p ∈ l, p.2 = 0
      · exact ⟨0, Nat.zero_le _, hn⟩
      · obtain ⟨t, ht, hz⟩ := ih (fun t => ext (t + 1)) (fun t => go (t + 1)) _ (countAll_step (ext := ext 0) (go := go 0) h hn)
        refine ⟨t + 1, by omega, ?_⟩
        have : ∀ t, countsAt ext go l (t + 1) =
            countsAt (fun t => ext (t + 1)) (fun t => go (t + 1)) (countAll (ext 0) (go 0) l) t := by
          intro t
          induction t with
          | zero => rfl
          | succ t ih2 =>
            show countAll _ _ (countsAt ext go l (t + 1)) = countAll _ _ _
            rw [ih2]
        rw [this]
        exact hz
  obtain ⟨t, ht, hz⟩ := key (M - 1) ext go l (fun p hp => by
    obtain ⟨h1, h2, h3⟩ := h p hp
    exact ⟨h1, h3, fun h4 => by omega⟩)
  exact ⟨t, by omega, (all_ready _).2 hz⟩

/-! ### `DivideMultiCycle` -/

/-- Some registers whose `ii_count` is 0. -/
def DSt.start {W : ℕ} (d : Div.State W) : DSt W := ⟨0, d⟩

/-- The operands given to the divider in a cycle. -/
private def opsOf (l r : Nd) (up : Bool) (env : String → ℤ) : Div.In (binAttr l.attr r.attr).width :=
  ⟨up, true, BitVec.ofInt _ (divWire env (binAttr l.attr r.attr).width l (aligned l r (binAttr l.attr r.attr).signed).1),
    BitVec.ofInt _ (divWire env (binAttr l.attr r.attr).width r (aligned l r (binAttr l.attr r.attr).signed).2)⟩

/-- Either no item is being divided, or one has been for `s.ii` cycles. -/
private structure DInv (l r : Nd) (last : Option DIn) (s : DSt (binAttr l.attr r.attr).width) : Prop where
  len : s.core.stages.length = (binAttr l.attr r.attr).width + 1
  lt : s.ii < divII l r
  item : ∀ j, last = some j → (s.ii = 0 → s.data l r = divide j.env l r) ∧
    (0 < s.ii → ∃ (d : Div.State (binAttr l.attr r.attr).width) (es : List (String → ℤ)),
      d.stages.length = (binAttr l.attr r.attr).width + 1 ∧ es.length + 1 = s.ii ∧
      s.core = Div.run l.attr.signed r.attr.signed (binAttr l.attr r.attr).signed d
        (opsOf l r true j.env :: es.map (opsOf l r true)))
  none : last = none → s.ii = 0

private theorem div_keep (l r : Nd) (d : Div.State (binAttr l.attr r.attr).width) (x : Div.In (binAttr l.attr r.attr).width)
    (h : d.stages.length = (binAttr l.attr r.attr).width + 1) :
    (Div.step l.attr.signed r.attr.signed (binAttr l.attr r.attr).signed d x).stages.length =
      (binAttr l.attr r.attr).width + 1 := by
  unfold Div.step
  split
  · rw [Div.shift_eq_push, Pipe.length_push]; exact h
  · exact h

private theorem divider_eq {W : ℕ} (aS bS oS : Bool) (a b : BitVec W) :
    divider aS bS oS a b = Div.pass aS bS oS ⟨true, true, a, b⟩ := by
  unfold divider Div.pass
  congr 1
  generalize Div.load aS bS (⟨true, true, a, b⟩ : Div.In W) = s
  have h : ∀ k, Nat.repeat Div.next k s = Pipe.iter Div.next k s := by
    intro k
    induction k with
    | zero => rfl
    | succ k ih => rw [Pipe.iter_succ', ← ih]; rfl
  exact h W

private theorem dinv_step (l r : Nd) {last : Option DIn} {s : DSt (binAttr l.attr r.attr).width} (h : DInv l r last s)
    (i : DIn) : DInv l r (if s.ready i && i.valid then some i else last) (s.step l r i) := by
  have h2 : 2 ≤ divII l r := by unfold divII; omega
  obtain ⟨k, d⟩ := s
  obtain ⟨hlen, hlt, hitem, hnone⟩ := h
  simp only at hlen hlt hitem hnone
  set go := (DSt.ready ⟨k, d⟩ i && i.valid) with hgo
  have hstep : DSt.step l r ⟨k, d⟩ i = ⟨count (divII l r) k go, Div.step l.attr.signed r.attr.signed
      (binAttr l.attr r.attr).signed d (opsOf l r (go || decide (0 < k)) i.env)⟩ := rfl
  have hlen' := div_keep l r d (opsOf l r (go || decide (0 < k)) i.env) hlen
  rcases Nat.eq_zero_or_pos k with rfl | hk
  · have hc := count_zero h2 go
    rw [hstep, hc]
    cases hg : go with
    | false =>
      rw [hg] at hlen'
      have hsame : Div.step l.attr.signed r.attr.signed (binAttr l.attr r.attr).signed d
          (opsOf l r (false || decide (0 < 0)) i.env) = d := rfl
      simp only [Bool.false_eq_true, if_false, hsame]
      exact ⟨hlen, by simp only; omega, fun j hj => ⟨fun _ => (hitem j hj).1 rfl, fun h => absurd h (by simp)⟩, fun _ => rfl⟩
    | true =>
      rw [hg] at hlen'
      simp only [if_true]
      refine ⟨hlen', by simp only; omega, ?_, fun h => by cases h⟩
      intro j hj
      obtain rfl := Option.some.inj hj
      exact ⟨fun h => absurd h (by simp), fun _ => ⟨d, [], hlen, rfl, rfl⟩⟩
  · have hg : go = false := by
      rw [hgo]
      have : DSt.ready ⟨k, d⟩ i = false := by
        cases h : DSt.ready ⟨k, d⟩ i with
        | false => rfl
        | true =>
          have h3 : k = 0 := ((ready_iff _ _).1 h).1
          omega
      rw [this]; rfl
    rw [hg] at hlen' hstep
    rw [hstep, count_pos h2 hk hlt, hg]
    have hup : (false || decide (0 < k)) = true := by simp [hk]
    rw [hup] at hlen' ⊢
    simp only [Bool.false_eq_true, if_false]
    refine ⟨hlen', by simp only; split <;> omega, ?_, ?_⟩
    · intro j hj
      obtain ⟨d0, es, hd0, hes, hcore⟩ := (hitem j hj).2 hk
      have hrun : Div.step l.attr.signed r.attr.signed (binAttr l.attr r.attr).signed d (opsOf l r true i.env) =
          Div.run l.attr.signed r.attr.signed (binAttr l.attr r.attr).signed d0
            (opsOf l r true j.env :: (es ++ [i.env]).map (opsOf l r true)) := by
        rw [hcore]
        unfold Div.run
        rw [List.map_append, ← List.cons_append, List.foldl_append]
        rfl
      constructor
      · intro h0
        have hk2 : k = divII l r - 1 := by
          by_contra hc
          simp only [if_neg hc] at h0
          omega
        have hout := Div.c06_div_pipeline l.attr.signed r.attr.signed (binAttr l.attr r.attr).signed d0 hd0
          (opsOf l r true j.env :: (es ++ [i.env]).map (opsOf l r true)) [] ((es ++ [i.env]).map (opsOf l r true))
          (opsOf l r true j.env) (by
            unfold Div.issued
            rw [List.filter_eq_self.2]
            · simp
            · intro y hy
              rw [← List.map_cons] at hy
              obtain ⟨p, _, rfl⟩ := List.mem_map.1 hy
              rfl) (by
            rw [List.length_map, List.length_append, List.length_singleton]
            unfold divII at hk2
            omega)
        unfold DSt.data divide
        simp only
        rw [hrun, hout]
        unfold divInst
        simp only
        rw [divider_eq]
        rfl
      · intro h0
        have hk2 : ¬ k = divII l r - 1 := by
          intro hc
          simp only [if_pos hc] at h0
          omega
        simp only [if_neg hk2]
        exact ⟨d0, es ++ [i.env], hd0, by simp; omega, hrun⟩
    · intro hn
      have := hnone hn
      omega

/-- The last item taken in a run. -/
def lastTaken (l r : Nd) (s : DSt (binAttr l.attr r.attr).width) : Option DIn → List DIn → Option DIn
  | last, [] => last
  | last, i :: is => lastTaken l r (s.step l r i) (if s.ready i && i.valid then some i else last) is

private theorem dinv_run (l r : Nd) (is : List DIn) {last : Option DIn} {s : DSt (binAttr l.attr r.attr).width}
    (h : DInv l r last s) : DInv l r (lastTaken l r s last is) (s.run l r is) := by
  induction is generalizing last s with
  | nil => exact h
  | cons i is ih => exact ih (dinv_step l r h i)

/-- C75: whenever the stream is ready the output of `DivideMultiCycle` is what `Divide` gives for the last item taken, an item
    being taken when it is valid and the stream is ready; so for a stream it is a `Divide` of latency 1. -/
theorem c75_divide (l r : Nd) (d : Div.State (binAttr l.attr r.attr).width)
    (hd : d.stages.length = (binAttr l.attr r.attr).width + 1) (is : List DIn) (j : DIn)
    (hj : lastTaken l r (DSt.start d) none is = some j) (i : DIn)
    (hr : ((DSt.start d).run l r is).ready i = true) :
    ((DSt.start d).run l r is).data l r = divide j.env l r := by
  have h0 : DInv l r none (DSt.start d) :=
    ⟨hd, (by show 0 < divII l r; unfold divII; omega), fun j hj => (by cases hj), fun _ => rfl⟩
  exact ((dinv_run l r is h0).item j hj).1 ((ready_iff _ _).1 hr).1

/-- C75: a division stops the stream for `width + 1` cycles. -/
theorem c75_divide_pace (l r : Nd) (s : DSt (binAttr l.attr r.attr).width) (i : DIn) (hr : s.ready i = true)
    (hv : i.valid = true) (is : List DIn) (j : DIn) :
    (is.length < (binAttr l.attr r.attr).width + 1 → ((s.step l r i).run l r is).ready j = false) ∧
    (is.length = (binAttr l.attr r.attr).width + 1 → ((s.step l r i).run l r is).ready j = j.ext) := by
  have h2 : 2 ≤ divII l r := by unfold divII; omega
  have h0 : s.ii = 0 := ((ready_iff _ _).1 hr).1
  have h1 : (s.step l r i).ii = 1 := by
    show count (divII l r) s.ii (s.ready i && i.valid) = 1
    rw [h0, count_zero h2, hr, hv]; rfl
  have busy : ∀ (is : List DIn) (s : DSt (binAttr l.attr r.attr).width), 0 < s.ii → s.ii + is.length ≤ divII l r - 1 →
      (s.run l r is).ii = s.ii + is.length := by
    intro is
    induction is with
    | nil => intro s _ _; rfl
    | cons i is ih =>
      intro s hk hl
      rw [List.length_cons] at hl ⊢
      have h1 : (s.step l r i).ii = s.ii + 1 := by
        show count (divII l r) s.ii _ = _
        rw [count_pos h2 hk (by omega), if_neg (by omega)]
      have := ih (s.step l r i) (by omega) (by omega)
      show ((s.step l r i).run l r is).ii = _
      omega
  have hII : divII l r - 1 = (binAttr l.attr r.attr).width + 1 := by unfold divII; omega
  constructor
  · intro hl
    have h3 := busy is (s.step l r i) (by omega) (by omega)
    cases h : ((s.step l r i).run l r is).ready j with
    | false => rfl
    | true =>
      have := ((ready_iff _ _).1 h).1
      omega
  · intro hl
    obtain ⟨is', x, rfl⟩ : ∃ l' x, is = l' ++ [x] := by
      rcases List.eq_nil_or_concat is with h | ⟨a, b, h⟩
      · subst h; simp at hl
      · exact ⟨a, b, by simpa using h⟩
    rw [List.length_append, List.length_singleton] at hl
    have h3 := busy is' (s.step l r i) (by omega) (by omega)
    have h4 : ((s.step l r i).run l r (is' ++ [x])).ii = 0 := by
      unfold DSt.run
      rw [List.foldl_append]
      show count (divII l r) ((s.step l r i).run l r is').ii _ = 0
      rw [h3, count_pos h2 (by omega) (by omega), if_pos (by omega)]
    unfold DSt.ready ready
    rw [h4]
    simp

/-! ### Disagreements -/

/-- C75, does not hold for the default `initval`: `ReduceMul` with `initval=0` is 0 for ever. -/
theorem c75_not_default (c : Cfg) (hs : c.size = none) (hi : c.interval = none) (hr : c.hasReset = false) (hp : c.point = 0)
    (h0 : c.regInit = 0) (m : Mul.State c.ty.width c.ty.width) (hm : m.pipe.length = 1) (l : List In) (i : In)
    (hrdy : ((St.init c m).run mulII c (mulCore c) l).ready i = true) :
    ((St.init c m).run mulII c (mulCore c) l).acc.data = 0 := by
  rw [c75_product c hs hi hr hp m hm l i hrdy, h0, Int.zero_mul]
  unfold Ty.wrap
  split <;> simp

/-- C75, does not hold for fixed point: `initval` is not shifted by the point, so with `initval=1` the first product of a
    number `x / 2^point` is `x / 2^point` with `point` bits less. -/
theorem c75_not_init_point (c : Cfg) (hs : c.size = none) (hi : c.interval = none) (hr : c.hasReset = false)
    (h1 : c.regInit = 1) (hin : c.ty.InRange 1) (m : Mul.State c.ty.width c.ty.width) (hm : m.pipe.length = 1) (l : List In)
    (x : ℤ) (ht : taken c (seenBy mulII c (mulCore c) (St.init c m) l) = [x])
    (hx : ∀ e ∈ seenBy mulII c (mulCore c) (St.init c m) l, e.go = true → MulOk c e.x) (i : In)
    (hrdy : ((St.init c m).run mulII c (mulCore c) l).ready i = true) :
    ((St.init c m).run mulII c (mulCore c) l).acc.data = c.ty.wrap (x / (2 ^ c.point : ℕ)) := by
  rw [c75_mul c m hm l hx i hrdy,
    c26_fold (c.acc _) hs hi rfl _ (fun _ _ h => absurd (show c.hasReset = true from h) (by simp [hr]))]
  have : elems (c.acc fun a x => a * x / (2 ^ c.point : ℕ)) (seenBy mulII c (mulCore c) (St.init c m) l) = [x] := ht
  rw [this]
  show c.ty.wrap (c.ty.wrap c.regInit * x / _) = _
  rw [h1, Ty.wrap_of_inRange _ hin, Int.one_mul]

/-- C75, does not hold for fixed point: `ReduceDiv` divides the stored numbers and does not shift the quotient, so the quotient
    `q` of two numbers with `point` bits is held as `q` and not as `q * 2^point`. -/
theorem c75_not_div_point (c : Cfg) (hs : c.size = none) (hi : c.interval = none) (hr : c.hasReset = false)
    (hsg : c.ty.signed = true) (hp : 0 < c.point) (m : Div.State c.ty.width) (hm : m.stages.length = c.ty.width + 1)
    (l : List In) (q x : ℤ) (hq0 : q ≠ 0) (hq : c.ty.InRange q) (h1 : c.regInit = q * x) (hin : c.ty.InRange (q * x))
    (ht : taken c (seenBy (redDivII c) c (divCore c) (St.init c m) l) = [x])
    (hx : ∀ e ∈ seenBy (redDivII c) c (divCore c) (St.init c m) l, e.go = true → DivOk c e.x) (hx0 : x ≠ 0) (i : In)
    (hrdy : ((St.init c m).run (redDivII c) c (divCore c) l).ready i = true) :
    ((St.init c m).run (redDivII c) c (divCore c) l).acc.data = q ∧
    ((St.init c m).run (redDivII c) c (divCore c) l).acc.data ≠ q * (2 ^ c.point : ℕ) := by
  have h : ((St.init c m).run (redDivII c) c (divCore c) l).acc.data = q := by
    rw [c75_quotient c hs hi hr m hm l hx i hrdy, ht]
    show c.ty.wrap (quot c (c.ty.wrap c.regInit) x) = q
    unfold quot
    rw [h1, Ty.wrap_of_inRange _ hin, if_pos hsg, Int.mul_tdiv_cancel _ hx0, Ty.wrap_of_inRange _ hq]
  refine ⟨h, ?_⟩
  rw [h]
  intro hc
  have h2 : (2 : ℤ) ≤ ((2 ^ c.point : ℕ) : ℤ) := by
    have : 2 ^ 1 ≤ 2 ^ c.point := Nat.pow_le_pow_right (by decide) hp
    exact_mod_cast this
  have h3 : q * (((2 ^ c.point : ℕ) : ℤ) - 1) = 0 := by rw [Int.mul_sub, ← hc]; omega
  rcases Int.mul_eq_zero.1 h3 with h | h <;> omega

/-! ### Examples -/

/-- A product of 8 bits. -/
def exMul : Cfg := { ty := ⟨8, true⟩, xt := ⟨8, true⟩, initval := 1, regInit := 1, hasEnable := true }

/-- The registers of the multiplier. -/
def exPipe : Mul.State 8 8 := ⟨5, 6, [7]⟩

/-- Two items and one that is not enabled; the stream stalls twice. -/
def exCycles : List In :=
  [{ x := -3 }, { x := 9 }, { x := 9 }, { x := 4, en := false }, { x := 5 }, {}, { ext := false }]

-- the hypotheses of `c75_mul`, `c75_product` and `c75_pass` hold, two items are taken
example : exPipe.pipe.length = 1 ∧ exMul.point = 0 ∧
    ((St.init exMul exPipe).run mulII exMul (mulCore exMul) exCycles).ready {} = true ∧
    taken exMul (seenBy mulII exMul (mulCore exMul) (St.init exMul exPipe) exCycles) = [-3, 5] ∧
    ((St.init exMul exPipe).run mulII exMul (mulCore exMul) exCycles).acc.data = -15 := by decide

-- an item is taken from the first state (`c75_pace`), none in the fourth cycle (`c75_pass`)
example : (St.init exMul exPipe).ready {} = true ∧
    (exMul.acc fun a _ => a).en2 (St.init exMul exPipe).acc (look (St.init exMul exPipe) { x := -3 }) = true ∧
    ((St.init exMul exPipe).run mulII exMul (mulCore exMul) (exCycles.take 3)).ii = 0 ∧
    (exMul.acc fun a _ => a).en2 ((St.init exMul exPipe).run mulII exMul (mulCore exMul) (exCycles.take 3)).acc
      (look ((St.init exMul exPipe).run mulII exMul (mulCore exMul) (exCycles.take 3)) { x := 4, en := false }) = false := by
  decide

/-- A quotient of 5 bits. -/
def exDiv : Cfg := { ty := ⟨5, true⟩, xt := ⟨5, true⟩, initval := 13, regInit := 13 }

/-- The registers of the divider. -/
def exStages (W : ℕ) : Div.State W := ⟨List.replicate (W + 1) ⟨true, false, true, 3, 1, 2⟩, ⟨1, 0, true⟩⟩

-- the hypotheses of `c75_div` and `c75_quotient` hold: 13 / (-4) = -3
example : (exStages 5).stages.length = exDiv.ty.width + 1 ∧
    (∀ e ∈ seenBy (redDivII exDiv) exDiv (divCore exDiv) (St.init exDiv (exStages 5)) (List.replicate 8 { x := -4 }),
      e.go = true → e.x = -4) ∧
    ((St.init exDiv (exStages 5)).run (redDivII exDiv) exDiv (divCore exDiv) (List.replicate 8 { x := -4 })).ready {} = true ∧
    ((St.init exDiv (exStages 5)).run (redDivII exDiv) exDiv (divCore exDiv) (List.replicate 8 { x := -4 })).acc.data = -3 := by
  decide

example : DivOk exDiv (-4) := ⟨by decide, by unfold Ty.InRange; decide, fun _ => by unfold Ty.InRange; decide⟩

-- three operators (`c75_together`)
example : ∀ p ∈ [(3, 2), (8, 1), (35, 0)], 2 ≤ p.1 ∧ p.1 ≤ 35 ∧ p.2 < p.1 := by decide

example : countsAt (fun _ => true) (fun _ _ => true) [(3, 2), (8, 1), (35, 0)] 7 = [(3, 0), (8, 0), (35, 0)] := by decide

/-- An operand of 5 bits. -/
def exOp (n : String) : Nd := ⟨⟨5, 0, true⟩, .net n⟩

/-- The operands of one cycle. -/
def exEnvOf (a b : ℤ) : String → ℤ := fun n => if n = "x" then a else b

-- the hypotheses of `c75_divide` and `c75_divide_pace` hold: 13 / 3 is taken, the items after it wait
example : (exStages (binAttr (exOp "x").attr (exOp "y").attr).width).stages.length =
      (binAttr (exOp "x").attr (exOp "y").attr).width + 1 ∧
    ((lastTaken (exOp "x") (exOp "y") (DSt.start (exStages _)) none
      ({ env := exEnvOf 13 3 } :: List.replicate 6 { env := exEnvOf 7 7 })).map fun j => j.env "x") = some 13 ∧
    ((DSt.start (exStages _)).run (exOp "x") (exOp "y")
      ({ env := exEnvOf 13 3 } :: List.replicate 6 { env := exEnvOf 7 7 })).ready { env := exEnvOf 0 0 } = true ∧
    ((DSt.start (exStages _)).run (exOp "x") (exOp "y")
      ({ env := exEnvOf 13 3 } :: List.replicate 6 { env := exEnvOf 7 7 })).data (exOp "x") (exOp "y") = 4 := by decide

/-- A product of fixed-point numbers with 4 bits after the point. -/
def exFix : Cfg := { exMul with point := 4, hasEnable := false }

-- the hypotheses of `c75_not_init_point` hold: 1 * 3.0 gives 0.1875
example : exFix.regInit = 1 ∧ taken exFix (seenBy mulII exFix (mulCore exFix) (St.init exFix exPipe) [{ x := 48 }, {}, {}]) = [48] ∧
    ((St.init exFix exPipe).run mulII exFix (mulCore exFix) [{ x := 48 }, {}, {}]).ready {} = true ∧
    ((St.init exFix exPipe).run mulII exFix (mulCore exFix) [{ x := 48 }, {}, {}]).acc.data = 3 := by decide

example : exFix.ty.InRange 1 ∧ MulOk exFix 48 := by
  refine ⟨by unfold Ty.InRange; decide, Or.inr ⟨by unfold Ty.InRange; decide, by decide, Or.inl rfl⟩⟩

/-- A quotient of fixed-point numbers with one bit after the point. -/
def exHalf : Cfg := { exDiv with point := 1, initval := 12, regInit := 12 }

-- the hypotheses of `c75_not_div_point` hold: 6.0 / 2.0 gives 1.5
example : exHalf.regInit = 3 * 4 ∧ taken exHalf (seenBy (redDivII exHalf) exHalf (divCore exHalf) (St.init exHalf (exStages 5))
      (List.replicate 8 { x := 4 })) = [4] ∧
    ((St.init exHalf (exStages 5)).run (redDivII exHalf) exHalf (divCore exHalf) (List.replicate 8 { x := 4 })).ready {} = true ∧
    ((St.init exHalf (exStages 5)).run (redDivII exHalf) exHalf (divCore exHalf) (List.replicate 8 { x := 4 })).acc.data = 3 := by
  decide

-- the hypotheses of `c75_not_default` hold
example : ((St.init { exMul with regInit := 0 } exPipe).run mulII { exMul with regInit := 0 } (mulCore { exMul with regInit := 0 })
    exCycles).ready {} = true := by decide

end MCyc
