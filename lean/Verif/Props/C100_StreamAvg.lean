import Verif.Model.StreamAvg
import Verif.Props.C30_Tree
import Verif.Props.C73_StreamArith
import Verif.Props.C85_StreamBits

/-!
# C100: sums and averages of several stream values, absolute values and signs
-/

namespace SAvg

open Vlog SBits

/-! ## Lemmas -/

theorem leaf_means {v : Val} (h : v.Ok) (ρ : String → ℤ) : Means ρ (leaf v) v.val := by
  intro c _ hs
  rw [leaf_eval h]
  show c.wrap (v.read c.signed) = _
  rw [hs]
  show c.wrap (v.read v.ty.signed) = _
  rw [Val.read_self h]

theorem put_means {e : VExpr} {x : ℤ} (h : Means (fun _ => 0) e x) (t : Ty) : (put t e).val = t.wrap x := by
  show t.wrap (e.eval _ ⟨max t.width e.ty.width, e.ty.signed⟩) = _
  rw [h ⟨max t.width e.ty.width, e.ty.signed⟩ (Nat.le_max_right _ _) rfl]
  exact Ty.wrap_wrap_le (Nat.le_max_left _ _) _

theorem not_means {ρ : String → ℤ} {e : VExpr} {x : ℤ} (h : Means ρ e x) : Means ρ (.not e) (-x - 1) := by
  intro c hw hs
  show c.wrap (- e.eval ρ c - 1) = _
  rw [h c hw hs]
  apply c.wrap_congr
  have h1 := c.wrap_emod x
  have h2 : (c.wrap x - x) % (2 ^ c.width : ℕ) = 0 := Int.emod_eq_emod_iff_emod_sub_eq_zero.1 h1
  apply Int.emod_eq_emod_iff_emod_sub_eq_zero.2
  have h3 : -c.wrap x - 1 - (-x - 1) = -(c.wrap x - x) := by ring
  rw [h3]
  exact Int.emod_eq_zero_of_dvd (Int.dvd_neg.2 (Int.dvd_of_emod_eq_zero h2))

theorem foldl_max_ge (l : List ℕ) : ∀ a, a ≤ l.foldl max a ∧ ∀ x ∈ l, x ≤ l.foldl max a := by
  induction l with
  | nil => intro a; simp
  | cons b l ih =>
    intro a
    obtain ⟨h1, h2⟩ := ih (max a b)
    refine ⟨Nat.le_trans (Nat.le_max_left _ _) h1, fun x hx => ?_⟩
    rcases List.mem_cons.1 hx with rfl | hx
    · exact Nat.le_trans (Nat.le_max_right _ _) h1
    · exact h2 x hx

theorem foldl_max_mem (l : List ℕ) : ∀ a, l.foldl max a = a ∨ l.foldl max a ∈ l := by
  induction l with
  | nil => intro a; simp
  | cons b l ih =>
    intro a
    rcases ih (max a b) with h | h
    · rcases Nat.le_total a b with hab | hab
      · right; simp only [List.foldl_cons]; rw [h, Nat.max_eq_right hab]; exact List.mem_cons_self ..
      · left; simp only [List.foldl_cons]; rw [h, Nat.max_eq_left hab]
    · right; exact List.mem_cons_of_mem _ h

theorem plusExpr_means {s : Bool} (vs : List Val) : ∀ (e : VExpr) (x : ℤ), Means (fun _ => 0) e x → e.ty.signed = s →
    (∀ u ∈ vs, u.Ok ∧ u.ty.signed = s) → Means (fun _ => 0) (vs.foldl (fun e u => .bin .plus e (leaf u)) e) (x + (vs.map Val.val).sum) := by
  induction vs with
  | nil => intro e x h _ _; simpa using h
  | cons v vs ih =>
    intro e x h hs hv
    have h1 := hv v (List.mem_cons_self ..)
    have h2 : Means (fun _ => 0) (.bin .plus e (leaf v)) (x + v.val) :=
      Means.plus h (leaf_means h1.1 _) (by rw [hs, leaf_ty, h1.2])
    have h3 := ih _ _ h2 (by show (e.ty.signed && v.ty.signed) = s; rw [hs, h1.2, Bool.and_self]) fun u hu => hv u (List.mem_cons_of_mem _ hu)
    simpa [add_assoc] using h3

theorem and_pred_pow (k : ℕ) : 2 ^ k &&& (2 ^ k - 1) = 0 := by
  rw [Nat.and_two_pow_sub_one_eq_mod, Nat.mod_self]

theorem and_pred_ne {n : ℕ} (h0 : 0 < n) (h : ¬ ∃ k, n = 2 ^ k) : n &&& (n - 1) ≠ 0 := by
  intro hz
  have h1 : 2 ^ n.log2 ≤ n := Nat.log2_self_le (by omega)
  have h2 : n < 2 ^ (n.log2 + 1) := Nat.lt_log2_self
  have h3 : n ≠ 2 ^ n.log2 := fun hh => h ⟨_, hh⟩
  have hbit : ∀ m, 2 ^ n.log2 ≤ m → m < 2 ^ (n.log2 + 1) → m.testBit n.log2 = true := by
    intro m hm hm'
    rw [Nat.testBit_eq_decide_div_mod_eq]
    have : m / 2 ^ n.log2 = 1 := by
      apply Nat.div_eq_of_lt_le
      · omega
      · rw [Nat.pow_succ] at hm'; omega
    simp [this]
  have h4 := hbit n h1 h2
  have h5 := hbit (n - 1) (by omega) (by omega)
  have h6 : (n &&& (n - 1)).testBit n.log2 = true := by rw [Nat.testBit_and, h4, h5]; rfl
  rw [hz] at h6
  simp at h6

theorem and_pred_ne_three (k : ℕ) (h : 3 = 2 ^ k) : False := by
  have := and_pred_pow k
  rw [← h] at this
  exact absurd this (by decide)

/-! ## Sums -/

/-- **C100, `PlusN`.** Operands of one signedness and any widths: the sum, modulo the greatest of the widths. -/
theorem c100_plusN {s : Bool} {v : Val} {vs : List Val} (h : ∀ u ∈ v :: vs, u.Ok ∧ u.ty.signed = s) :
    ∃ r, plusN (v :: vs) = some r ∧ r.Ok ∧ r.ty.signed = s ∧ (∀ u ∈ v :: vs, u.ty.width ≤ r.ty.width) ∧
      (∃ u ∈ v :: vs, u.ty.width = r.ty.width) ∧ r.val = r.ty.wrap ((v :: vs).map Val.val).sum := by
  have hty : (specialTy (v :: vs)).width = (vs.map fun v => v.ty.width).foldl max v.ty.width := by
    simp [specialTy]
  refine ⟨_, rfl, put_ok _ _, ?_, ?_, ?_, ?_⟩
  · show ((v :: vs).any fun u => u.ty.signed) = s
    cases s with
    | true => exact List.any_eq_true.2 ⟨v, List.mem_cons_self .., (h v (List.mem_cons_self ..)).2⟩
    | false => exact List.any_eq_false.2 fun u hu => by rw [(h u hu).2]; simp
  · intro u hu
    show u.ty.width ≤ (specialTy (v :: vs)).width
    rw [hty]
    obtain ⟨g1, g2⟩ := foldl_max_ge (vs.map fun v => v.ty.width) v.ty.width
    rcases List.mem_cons.1 hu with rfl | hu
    · exact g1
    · exact g2 _ (List.mem_map.2 ⟨u, hu, rfl⟩)
  · show ∃ u ∈ v :: vs, u.ty.width = (specialTy (v :: vs)).width
    rw [hty]
    rcases foldl_max_mem (vs.map fun v => v.ty.width) v.ty.width with g | g
    · exact ⟨v, List.mem_cons_self .., g.symm⟩
    · obtain ⟨u, hu, hg⟩ := List.mem_map.1 g
      exact ⟨u, List.mem_cons_of_mem _ hu, hg⟩
  · have h1 := h v (List.mem_cons_self ..)
    have h2 := put_means (plusExpr_means vs (leaf v) v.val (leaf_means h1.1 _) (by rw [leaf_ty, h1.2])
      fun u hu => h u (List.mem_cons_of_mem _ hu)) (specialTy (v :: vs))
    rw [List.map_cons, List.sum_cons]
    exact h2

/-- **C100, not mixed operands.** A negative operand beside a wider unsigned one is added as the positive number with the same bits, and the
    result, which is declared signed, is not the sum. -/
theorem c100_not_plusN {u v : Val} (hu : u.Ok) (hv : v.Ok) (us : u.ty.signed = false) (vsd : v.ty.signed = true)
    (hw : v.ty.width < u.ty.width) (hneg : v.val < 0) :
    ∃ r, plusN [u, v] = some r ∧ r.ty = ⟨u.ty.width, true⟩ ∧ r.val = r.ty.wrap (u.val + v.val + (2 ^ v.ty.width : ℕ)) ∧
      r.val ≠ r.ty.wrap (u.val + v.val) := by
  have hty : specialTy [u, v] = ⟨u.ty.width, true⟩ := by
    simp [specialTy, us, vsd]; omega
  have hval : (put (specialTy [u, v]) (plusExpr u [v])).val = (⟨u.ty.width, true⟩ : Ty).wrap (u.val + v.val + (2 ^ v.ty.width : ℕ)) := by
    rw [hty]
    have hc : (plusExpr u [v]).ty = ⟨u.ty.width, false⟩ := by
      show (⟨max u.ty.width v.ty.width, u.ty.signed && v.ty.signed⟩ : Ty) = _
      rw [us, Nat.max_eq_left (by omega)]; rfl
    show (⟨u.ty.width, true⟩ : Ty).wrap ((plusExpr u [v]).eval _ ⟨max u.ty.width (plusExpr u [v]).ty.width, (plusExpr u [v]).ty.signed⟩) = _
    rw [hc, Nat.max_self]
    show (⟨u.ty.width, true⟩ : Ty).wrap ((⟨u.ty.width, false⟩ : Ty).wrap ((leaf u).eval _ ⟨u.ty.width, false⟩ + (leaf v).eval _ ⟨u.ty.width, false⟩)) = _
    rw [leaf_eval hu, leaf_eval hv]
    show (⟨u.ty.width, true⟩ : Ty).wrap ((⟨u.ty.width, false⟩ : Ty).wrap ((⟨u.ty.width, false⟩ : Ty).wrap (u.read false) +
      (⟨u.ty.width, false⟩ : Ty).wrap (v.read false))) = _
    rw [Ty.wrap_add_wrap, Ty.wrap_add_wrap', Ty.wrap_wrap_le (t := ⟨u.ty.width, true⟩) (t' := ⟨u.ty.width, false⟩) (Nat.le_refl _),
      Val.read_unsigned hu us]
    congr 1
    have hr := (v.ok_iff).1 hv
    unfold Ty.InRange at hr
    rw [vsd] at hr
    simp only [if_true] at hr
    have h1 : v.val % (2 ^ v.ty.width : ℕ) = v.val + (2 ^ v.ty.width : ℕ) := by
      rw [← Int.add_emod_right]
      have : ((2 ^ v.ty.width : ℕ) : ℤ) = 2 ^ v.ty.width := by push_cast; rfl
      apply Int.emod_eq_of_lt <;> omega
    show u.val + v.val % (2 ^ v.ty.width : ℕ) = _
    rw [h1]; ring
  refine ⟨_, rfl, hty, ?_, ?_⟩
  · rw [hval]; rw [show (put (specialTy [u, v]) (plusExpr u [v])).ty = ⟨u.ty.width, true⟩ from hty]
  · rw [hval]; rw [show (put (specialTy [u, v]) (plusExpr u [v])).ty = ⟨u.ty.width, true⟩ from hty]
    intro hh
    have h1 := Ty.wrap_emod ⟨u.ty.width, true⟩ (u.val + v.val + (2 ^ v.ty.width : ℕ))
    rw [hh, Ty.wrap_emod] at h1
    have h2 := Int.emod_eq_emod_iff_emod_sub_eq_zero.1 h1.symm
    have h3 : u.val + v.val + ((2 ^ v.ty.width : ℕ) : ℤ) - (u.val + v.val) = (2 ^ v.ty.width : ℕ) := by ring
    rw [h3] at h2
    have h4 : 2 ^ v.ty.width < 2 ^ u.ty.width := Nat.pow_lt_pow_right (by decide) hw
    have h5 : 0 < 2 ^ v.ty.width := Nat.two_pow_pos _
    rw [Int.emod_eq_of_lt (by omega) (by exact_mod_cast h4)] at h2
    omega

/-! ## Averages -/

theorem addTree_same {t : Ty} {vs : List Val} (h0 : vs ≠ []) (h : ∀ v ∈ vs, v.Ok ∧ v.ty = t) :
    Stream.addTree vs = ⟨t, t.wrap (vs.map Val.val).sum⟩ := by
  have h1 : vs = (vs.map Val.val).map fun x => ⟨t, t.wrap x⟩ := by
    rw [List.map_map]
    conv => lhs; rw [← List.map_id vs]
    apply List.map_congr_left
    intro v hv
    obtain ⟨g1, g2⟩ := h v hv
    have g3 : v.ty.wrap v.val = v.val := g1
    rw [← g2]
    show v = ⟨v.ty, v.ty.wrap v.val⟩
    rw [g3]
  conv => lhs; rw [h1]
  exact Stream.c30_addTree t _ (by simpa using h0)

theorem divBy_pow2 {t : Ty} {x : ℤ} (hx : t.InRange x) (k : ℕ) : divBy ⟨t, x⟩ (2 ^ k) = ⟨t, x / (2 ^ k : ℕ)⟩ := by
  unfold divBy
  rw [if_pos (and_pred_pow k), Nat.log2_two_pow]
  show (⟨t, t.wrap (x / (2 ^ k : ℕ))⟩ : Val) = _
  rw [Ty.wrap_of_inRange t (Ty.inRange_ediv hx k)]

theorem inRange_tdiv {t : Ty} {x : ℤ} (hx : t.InRange x) (n : ℕ) : t.InRange (x.tdiv n) := by
  have h1 : (0 ≤ x → 0 ≤ x.tdiv n ∧ x.tdiv n ≤ x) ∧ (x ≤ 0 → x ≤ x.tdiv n ∧ x.tdiv n ≤ 0) := by
    have hn : (0 : ℤ) ≤ n := Int.natCast_nonneg n
    refine ⟨fun h => ⟨Int.tdiv_nonneg h hn, ?_⟩, fun h => ?_⟩
    · rw [Int.tdiv_eq_ediv_of_nonneg h]; exact Int.ediv_le_self _ h
    · have g1 : (-x).tdiv n = -(x.tdiv n) := Int.neg_tdiv _ _
      have g2 := Int.tdiv_nonneg (a := -x) (b := n) (by omega) hn
      have g3 : (-x).tdiv n ≤ -x := by
        rw [Int.tdiv_eq_ediv_of_nonneg (by omega)]; exact Int.ediv_le_self _ (by omega)
      omega
  unfold Ty.InRange at hx ⊢
  split at hx
  · rename_i hs
    rw [if_pos hs]
    have := Nat.two_pow_pos t.width
    rcases Int.le_total 0 x with h | h
    · have := h1.1 h; omega
    · have := h1.2 h; omega
  · rename_i hs
    rw [if_neg hs]
    have := h1.1 (by omega)
    omega

theorem divBy_other {t : Ty} {x : ℤ} (hx : t.InRange x) (hs : t.signed = true) (hw : 0 < t.width) {n : ℕ} (h0 : 0 < n)
    (hn : ¬ ∃ k, n = 2 ^ k) (hb : n < 2 ^ 31) :
    (divBy ⟨t, x⟩ n).ty.signed = true ∧ (divBy ⟨t, x⟩ n).val = x.tdiv n := by
  unfold divBy
  rw [if_neg (and_pred_ne h0 hn)]
  have hty : (SArith.binAttr ⟨t.width, 0, t.signed⟩ (SArith.mkInt n).attr).ty = ⟨max t.width (SArith.intWidth n), true⟩ := by
    simp [SArith.binAttr, SArith.mkInt, SArith.Attr.ty, hs]
    omega
  refine ⟨by show (SArith.binAttr ⟨t.width, 0, t.signed⟩ (SArith.mkInt n).attr).ty.signed = true; rw [hty], ?_⟩
  have h1 := SArith.c73_divide (fun _ => x) ⟨⟨t.width, 0, t.signed⟩, .net "sum"⟩ (SArith.mkInt n) x n ⟨rfl, hx⟩ rfl rfl rfl
    ⟨by decide, trivial⟩ ⟨by decide, by show ((n : ℤ) * ((2 ^ 0 : ℕ) : ℤ)).natAbs < 2 ^ 31; simpa using hb⟩ hs (by omega) hw
  show SArith.divide (fun _ => x) ⟨⟨t.width, 0, t.signed⟩, .net "sum"⟩ (SArith.mkInt n) = _
  rw [h1]
  show (SArith.binAttr ⟨t.width, 0, t.signed⟩ (SArith.mkInt n).attr).ty.wrap (SArith.truncQ (SArith.num x 0 / SArith.num n 0)) = _
  rw [hty]
  have h2 : SArith.num x 0 / SArith.num n 0 = (x : ℚ) / ((n : ℤ) : ℚ) := by simp [SArith.num]
  rw [h2, SArith.truncQ_div]
  exact Ty.wrap_of_inRange _ (Ty.inRange_mono (inRange_tdiv hx n) hs (Nat.le_max_left _ _))

theorem divBy_unsigned {t : Ty} {x : ℤ} (hx : t.InRange x) (hs : t.signed = false) {n : ℕ} (h0 : 0 < n)
    (hn : ¬ ∃ k, n = 2 ^ k) (hb : n < 2 ^ 31) :
    (divBy ⟨t, x⟩ n).ty.signed = false ∧ (divBy ⟨t, x⟩ n).val = x / n := by
  unfold divBy
  rw [if_neg (and_pred_ne h0 hn)]
  refine ⟨?_, SArith.c73_divide_unsigned_int (fun _ => x) ⟨t.width, 0, t.signed⟩ "sum" x n ⟨rfl, hx⟩ hs rfl h0 hb⟩
  show (t.signed && true) = false
  rw [hs]; rfl

/-- **C100, `Average`, a power of two operands.** The floor of the average of the operands, provided that their sum fits; in general of
    the sum modulo the width of one operand. -/
theorem c100_average_pow2 {t : Ty} {vs : List Val} {k : ℕ} (hk : vs.length = 2 ^ k) (h : ∀ v ∈ vs, v.Ok ∧ v.ty = t) :
    average vs = some ⟨t, t.wrap (vs.map Val.val).sum / (2 ^ k : ℕ)⟩ ∧
      (t.InRange (vs.map Val.val).sum → average vs = some ⟨t, (vs.map Val.val).sum / (vs.length : ℤ)⟩) := by
  have h0 : vs ≠ [] := by
    rintro rfl
    have := Nat.two_pow_pos k
    rw [List.length_nil] at hk
    omega
  have h1 : average vs = some ⟨t, t.wrap (vs.map Val.val).sum / (2 ^ k : ℕ)⟩ := by
    unfold average
    rw [if_neg h0, addTree_same h0 h, hk, divBy_pow2 (Ty.wrap_inRange _ _)]
  exact ⟨h1, fun hr => by rw [h1, Ty.wrap_of_inRange t hr, hk]⟩

/-- **C100, `Average`, another number of signed operands.** The average is rounded towards zero, not down. -/
theorem c100_average_other {t : Ty} {vs : List Val} (h0 : vs ≠ []) (hn : ¬ ∃ k, vs.length = 2 ^ k) (hb : vs.length < 2 ^ 31)
    (hs : t.signed = true) (hw : 0 < t.width) (h : ∀ v ∈ vs, v.Ok ∧ v.ty = t) :
    ∃ r, average vs = some r ∧ r.ty.signed = true ∧ r.val = (t.wrap (vs.map Val.val).sum).tdiv vs.length ∧
      (t.InRange (vs.map Val.val).sum → r.val = (vs.map Val.val).sum.tdiv vs.length) := by
  have h1 : average vs = some (divBy ⟨t, t.wrap (vs.map Val.val).sum⟩ vs.length) := by
    unfold average
    rw [if_neg h0, addTree_same h0 h]
  obtain ⟨g1, g2⟩ := divBy_other (Ty.wrap_inRange t (vs.map Val.val).sum) hs hw (List.length_pos_iff.2 h0) hn hb
  exact ⟨_, h1, g1, g2, fun hr => by rw [g2, Ty.wrap_of_inRange t hr]⟩

/-- **C100, `Average`, another number of unsigned operands.** The floor of the average. -/
theorem c100_average_unsigned {t : Ty} {vs : List Val} (h0 : vs ≠ []) (hn : ¬ ∃ k, vs.length = 2 ^ k) (hb : vs.length < 2 ^ 31)
    (hs : t.signed = false) (h : ∀ v ∈ vs, v.Ok ∧ v.ty = t) :
    ∃ r, average vs = some r ∧ r.ty.signed = false ∧ r.val = t.wrap (vs.map Val.val).sum / vs.length ∧
      (t.InRange (vs.map Val.val).sum → r.val = (vs.map Val.val).sum / vs.length) := by
  have h1 : average vs = some (divBy ⟨t, t.wrap (vs.map Val.val).sum⟩ vs.length) := by
    unfold average
    rw [if_neg h0, addTree_same h0 h]
  obtain ⟨g1, g2⟩ := divBy_unsigned (Ty.wrap_inRange t (vs.map Val.val).sum) hs (List.length_pos_iff.2 h0) hn hb
  exact ⟨_, h1, g1, g2, fun hr => by rw [g2, Ty.wrap_of_inRange t hr]⟩

/-- **C100, not the average.** The sum is formed in the width of one operand: the average of a value and itself is not the value as soon as
    its double does not fit. -/
theorem c100_not_average {t : Ty} {x : ℤ} (hx : t.InRange x) (h2 : ¬ t.InRange (x + x)) :
    ∃ r, average [⟨t, x⟩, ⟨t, x⟩] = some r ∧ r.val ≠ x := by
  have hok : Val.Ok ⟨t, x⟩ := (Val.ok_iff _).2 hx
  have h1 := (c100_average_pow2 (t := t) (vs := [⟨t, x⟩, ⟨t, x⟩]) (k := 1) rfl (by
    intro v hv
    rcases List.mem_cons.1 hv with rfl | hv
    · exact ⟨hok, rfl⟩
    · rw [List.mem_singleton.1 hv]; exact ⟨hok, rfl⟩)).1
  refine ⟨_, h1, ?_⟩
  have hsum : (([⟨t, x⟩, ⟨t, x⟩] : List Val).map Val.val).sum = x + x := by simp
  rw [hsum]
  show t.wrap (x + x) / ((2 ^ 1 : ℕ) : ℤ) ≠ x
  intro hh
  have h3 := t.wrap_emod (x + x)
  rcases Nat.eq_zero_or_pos t.width with hw | hw
  · apply h2
    unfold Ty.InRange at hx ⊢
    rw [hw] at hx ⊢
    split at hx <;> simp_all <;> omega
  · obtain ⟨m, hm⟩ : ∃ m, t.width = m + 1 := ⟨t.width - 1, by omega⟩
    rw [hm, Nat.pow_succ] at h3
    have h4 : t.wrap (x + x) % 2 = (x + x) % 2 := by
      have := congrArg (· % (2 : ℤ)) h3
      simpa [Int.emod_emod_of_dvd] using this
    have h5 : t.wrap (x + x) = x + x := by
      have : ((2 ^ 1 : ℕ) : ℤ) = 2 := rfl
      rw [this] at hh
      omega
    exact h2 ((t.wrap_eq_iff _).1 h5)

/-- The rounding addend does not change the signedness, and can only widen. -/
theorem plus_half {t : Ty} {x : ℤ} (hx : t.InRange x) (n : ℕ) :
    ∃ T : Ty, T.signed = t.signed ∧ t.width ≤ T.width ∧ Stream.plus ⟨t, x⟩ (Stream.int (n : ℕ)) = ⟨T, T.wrap (x + n)⟩ := by
  refine ⟨Stream.binTy t (Stream.int (n : ℕ)).ty, ?_, Nat.le_max_left _ _, ?_⟩
  · show (t.signed && true) = _
    rw [Bool.and_true]
  · have hsg : (Stream.binTy t (Stream.int (n : ℕ)).ty).signed = t.signed := by
      show (t.signed && true) = _
      rw [Bool.and_true]
    unfold Stream.plus
    simp only
    rw [show (Stream.binTy (⟨t, x⟩ : Val).ty (Stream.int (n : ℕ)).ty) = Stream.binTy t (Stream.int (n : ℕ)).ty from rfl, hsg,
      Val.read_self ((Val.ok_iff ⟨t, x⟩).2 hx)]
    have hr : (Stream.int (n : ℕ)).read t.signed = n := by
      unfold Val.read
      split
      · rfl
      · show (n : ℤ) % ((2 ^ Stream.constWidth n : ℕ) : ℤ) = n
        have : n < 2 ^ Stream.constWidth n := by
          unfold Stream.constWidth
          split
          · rename_i h0
            have : n = 0 := by exact_mod_cast h0
            subst this; exact Nat.two_pow_pos _
          · calc n < 2 ^ (n.log2 + 1) := Nat.lt_log2_self
              _ ≤ 2 ^ (n.log2 + 1 + 1) := Nat.pow_le_pow_right (by decide) (by omega)
        exact Int.emod_eq_of_lt (by omega) (by exact_mod_cast this)
    rw [hr]

/-- **C100, `AverageRound`, a power of two operands.** When the sum and the rounded sum fit, the nearest integer to the average (a half is
    rounded up). -/
theorem c100_round_pow2 {t : Ty} {vs : List Val} {k : ℕ} (hk : vs.length = 2 ^ k) (h : ∀ v ∈ vs, v.Ok ∧ v.ty = t)
    (hr : t.InRange (vs.map Val.val).sum) (hr' : t.InRange ((vs.map Val.val).sum + (vs.length / 2 : ℕ))) :
    ∃ r, averageRound vs = some r ∧ r.ty.signed = t.signed ∧ t.width ≤ r.ty.width ∧
      - (vs.length : ℤ) < 2 * (vs.length * r.val - (vs.map Val.val).sum) ∧
      2 * (vs.length * r.val - (vs.map Val.val).sum) ≤ vs.length := by
  have h0 : vs ≠ [] := by
    rintro rfl
    have := Nat.two_pow_pos k
    rw [List.length_nil] at hk
    omega
  obtain ⟨T, g1, g2, g3⟩ := plus_half hr (vs.length / 2)
  have hT : T.InRange ((vs.map Val.val).sum + (vs.length / 2 : ℕ)) := Ty.inRange_mono hr' g1.symm g2
  rw [Ty.wrap_of_inRange T hT] at g3
  have h1 : averageRound vs = some ⟨T, ((vs.map Val.val).sum + (vs.length / 2 : ℕ)) / (vs.length : ℤ)⟩ := by
    unfold averageRound
    rw [if_neg h0, addTree_same h0 h, Ty.wrap_of_inRange t hr, g3]
    conv => lhs; rw [hk]
    conv => rhs; rw [hk]
    rw [← hk]
    conv => lhs; arg 1; arg 2; rw [hk]
    rw [divBy_pow2 hT, ← hk]
  refine ⟨_, h1, g1, g2, ?_⟩
  show - (vs.length : ℤ) < 2 * (vs.length * (((vs.map Val.val).sum + (vs.length / 2 : ℕ)) / (vs.length : ℤ)) - (vs.map Val.val).sum) ∧
    2 * (vs.length * (((vs.map Val.val).sum + (vs.length / 2 : ℕ)) / (vs.length : ℤ)) - (vs.map Val.val).sum) ≤ vs.length
  have hpos : 0 < vs.length := List.length_pos_iff.2 h0
  generalize (vs.map Val.val).sum = S
  have e1 := Int.mul_ediv_add_emod (S + (vs.length / 2 : ℕ)) vs.length
  have e2 := Int.emod_nonneg (S + (vs.length / 2 : ℕ)) (b := vs.length) (by omega)
  have e3 := Int.emod_lt_of_pos (S + (vs.length / 2 : ℕ)) (b := vs.length) (by omega)
  have hpar : vs.length = 1 ∨ vs.length % 2 = 0 := by
    rw [hk]
    cases k with
    | zero => left; rfl
    | succ k => right; rw [Nat.pow_succ]; omega
  generalize (vs.length : ℤ) * ((S + (vs.length / 2 : ℕ)) / (vs.length : ℤ)) = q at *
  generalize (S + (vs.length / 2 : ℕ)) % (vs.length : ℤ) = m at *
  omega

/-- **C100, `AverageRound`, another number of signed operands.** Half the number of operands is added to the sum, and the quotient is
    rounded towards zero. -/
theorem c100_round_other {t : Ty} {vs : List Val} (h0 : vs ≠ []) (hn : ¬ ∃ k, vs.length = 2 ^ k) (hb : vs.length < 2 ^ 31)
    (hs : t.signed = true) (hw : 0 < t.width) (h : ∀ v ∈ vs, v.Ok ∧ v.ty = t)
    (hr : t.InRange (vs.map Val.val).sum) (hr' : t.InRange ((vs.map Val.val).sum + (vs.length / 2 : ℕ))) :
    ∃ r, averageRound vs = some r ∧ r.ty.signed = true ∧ r.val = ((vs.map Val.val).sum + (vs.length / 2 : ℕ)).tdiv vs.length := by
  obtain ⟨T, g1, g2, g3⟩ := plus_half hr (vs.length / 2)
  have hT : T.InRange ((vs.map Val.val).sum + (vs.length / 2 : ℕ)) := Ty.inRange_mono hr' g1.symm g2
  rw [Ty.wrap_of_inRange T hT] at g3
  have h1 : averageRound vs = some (divBy ⟨T, (vs.map Val.val).sum + (vs.length / 2 : ℕ)⟩ vs.length) := by
    unfold averageRound
    rw [if_neg h0, addTree_same h0 h, Ty.wrap_of_inRange t hr, g3]
  obtain ⟨e1, e2⟩ := divBy_other hT (by rw [g1, hs]) (by omega) (List.length_pos_iff.2 h0) hn hb
  exact ⟨_, h1, e1, e2⟩

/-- **C100, `AverageRound`, another number of unsigned operands.** The nearest integer to the average; with an even number of operands a
    half is rounded up. -/
theorem c100_round_unsigned {t : Ty} {vs : List Val} (h0 : vs ≠ []) (hn : ¬ ∃ k, vs.length = 2 ^ k) (hb : vs.length < 2 ^ 31)
    (hs : t.signed = false) (h : ∀ v ∈ vs, v.Ok ∧ v.ty = t)
    (hr : t.InRange (vs.map Val.val).sum) (hr' : t.InRange ((vs.map Val.val).sum + (vs.length / 2 : ℕ))) :
    ∃ r, averageRound vs = some r ∧ r.ty.signed = false ∧
      - (vs.length : ℤ) < 2 * (vs.length * r.val - (vs.map Val.val).sum) ∧
      2 * (vs.length * r.val - (vs.map Val.val).sum) ≤ vs.length := by
  obtain ⟨T, g1, g2, g3⟩ := plus_half hr (vs.length / 2)
  have hT : T.InRange ((vs.map Val.val).sum + (vs.length / 2 : ℕ)) := Ty.inRange_mono hr' g1.symm g2
  rw [Ty.wrap_of_inRange T hT] at g3
  have h1 : averageRound vs = some (divBy ⟨T, (vs.map Val.val).sum + (vs.length / 2 : ℕ)⟩ vs.length) := by
    unfold averageRound
    rw [if_neg h0, addTree_same h0 h, Ty.wrap_of_inRange t hr, g3]
  have hpos : 0 < vs.length := List.length_pos_iff.2 h0
  obtain ⟨e1, e2⟩ := divBy_unsigned hT (by rw [g1, hs]) hpos hn hb
  refine ⟨_, h1, e1, ?_⟩
  rw [e2]
  generalize (vs.map Val.val).sum = S
  have f1 := Int.mul_ediv_add_emod (S + (vs.length / 2 : ℕ)) vs.length
  have f2 := Int.emod_nonneg (S + (vs.length / 2 : ℕ)) (b := vs.length) (by omega)
  have f3 := Int.emod_lt_of_pos (S + (vs.length / 2 : ℕ)) (b := vs.length) (by omega)
  generalize (vs.length : ℤ) * ((S + (vs.length / 2 : ℕ)) / (vs.length : ℤ)) = q at *
  generalize (S + (vs.length / 2 : ℕ)) % (vs.length : ℤ) = m at *
  omega

/-- **C100, not the nearest integer.** The rounded average of three or more copies of `-1`, their number not being a power of two, is 0. -/
theorem c100_not_round {t : Ty} {n : ℕ} (hn : ¬ ∃ k, n = 2 ^ k) (h0 : 0 < n) (hb : n < 2 ^ 31) (hs : t.signed = true)
    (hr : t.InRange (-(n : ℤ))) :
    ∃ r, averageRound (List.replicate n ⟨t, -1⟩) = some r ∧ r.val = 0 := by
  have hw : 0 < t.width := by
    rcases Nat.eq_zero_or_pos t.width with hw | hw
    · exfalso
      unfold Ty.InRange at hr
      rw [hs, hw] at hr
      simp at hr
      have : ¬ ∃ k, n = 2 ^ k := hn
      omega
    · exact hw
  have hmid : ∀ y : ℤ, -(n : ℤ) ≤ y → y < 0 → t.InRange y := by
    intro y h1 h2
    unfold Ty.InRange at hr ⊢
    rw [hs] at hr ⊢
    simp only [if_true] at hr ⊢
    have := Nat.two_pow_pos t.width
    omega
  have hsum : ((List.replicate n (⟨t, -1⟩ : Val)).map Val.val).sum = -(n : ℤ) := by simp
  have hlen : (List.replicate n (⟨t, -1⟩ : Val)).length = n := List.length_replicate
  obtain ⟨r, h1, _, h2⟩ := c100_round_other (t := t) (vs := List.replicate n ⟨t, -1⟩)
    (by intro hh; rw [hh] at hlen; simp at hlen; omega) (by rw [hlen]; exact hn) (by rw [hlen]; exact hb) hs hw
    (fun v hv => by
      rw [List.eq_of_mem_replicate hv]
      exact ⟨(Val.ok_iff _).2 (hmid (-1) (by omega) (by omega)), rfl⟩)
    (by rw [hsum]; exact hr)
    (by rw [hsum, hlen]; exact hmid _ (by omega) (by omega))
  refine ⟨r, h1, ?_⟩
  rw [h2, hsum, hlen]
  have g1 : (-(n : ℤ) + (n / 2 : ℕ)) = -(((n - n / 2 : ℕ)) : ℤ) := by omega
  rw [g1, Int.neg_tdiv, Int.tdiv_eq_ediv_of_nonneg (by omega)]
  have h3 : n ≠ 1 := fun hh => hn ⟨0, hh⟩
  rw [Int.ediv_eq_zero_of_lt (by omega) (by omega)]
  rfl

/-! ## Signs and absolute values -/

theorem signExpr_eval {v : Val} (h : v.Ok) (c : Ty) :
    (signExpr (leaf v)).eval (fun _ => 0) c = c.wrap (if v.val < 0 then 1 else 0) := by
  have hj : VExpr.join (leaf v) (.pyInt 0) = ⟨max v.ty.width 32, v.ty.signed⟩ := by
    show (⟨max v.ty.width 32, v.ty.signed && true⟩ : Ty) = _
    rw [Bool.and_true]
  show c.wrap (if CmpOp.eval .lt ((leaf v).eval _ (VExpr.join (leaf v) (.pyInt 0))) ((VExpr.pyInt 0).eval _ (VExpr.join (leaf v) (.pyInt 0))) then 1 else 0) = _
  rw [hj, leaf_means h _ ⟨max v.ty.width 32, v.ty.signed⟩ (Nat.le_max_left _ _) rfl,
    Ty.wrap_of_inRange ⟨max v.ty.width 32, v.ty.signed⟩ (Ty.inRange_mono ((Val.ok_iff v).1 h) rfl (Nat.le_max_left _ _))]
  have h0 : (VExpr.pyInt 0).eval (fun _ => 0) ⟨max v.ty.width 32, v.ty.signed⟩ = 0 := by
    show (⟨max v.ty.width 32, v.ty.signed⟩ : Ty).wrap (Val.read ⟨⟨32, true⟩, _⟩ v.ty.signed) = 0
    have : Val.read ⟨⟨32, true⟩, (⟨32, true⟩ : Ty).wrap ((0 : ℤ).natAbs : ℕ)⟩ v.ty.signed = 0 := by cases v.ty.signed <;> rfl
    rw [this]
    unfold Ty.wrap
    simp
  rw [h0]
  congr 1
  simp [CmpOp.eval]

theorem complExpr_eval {v : Val} (h : v.Ok) {c : Ty} (hw : v.ty.width ≤ c.width) (hs : c.signed = v.ty.signed) :
    (complExpr (leaf v)).eval (fun _ => 0) c = c.wrap (-v.val) := by
  show c.wrap ((VExpr.not (leaf v)).eval _ c + (VExpr.pyInt 1).eval _ c) = _
  rw [not_means (leaf_means h _) c hw hs]
  have h1 : (VExpr.pyInt 1).eval (fun _ => 0) c = c.wrap 1 := by
    show c.wrap (Val.read ⟨⟨32, true⟩, (⟨32, true⟩ : Ty).wrap ((1 : ℤ).natAbs : ℕ)⟩ c.signed) = _
    congr 1
    cases c.signed <;> rfl
  rw [h1, Ty.wrap_add_wrap, Ty.wrap_add_wrap']
  congr 1
  ring

/-- **C100, `Sign`.** Non-zero exactly for negative values. -/
theorem c100_sign {v : Val} (h : v.Ok) : (sign v).ty = v.ty ∧ ((sign v).val ≠ 0 ↔ v.val < 0) := by
  refine ⟨rfl, ?_⟩
  have h1 : (sign v).val = v.ty.wrap (if v.val < 0 then 1 else 0) := by
    show v.ty.wrap ((signExpr (leaf v)).eval _ _) = _
    rw [signExpr_eval h]
    exact Ty.wrap_wrap_le (Nat.le_max_left _ _) _
  rw [h1]
  by_cases hn : v.val < 0
  · simp only [hn, if_true, iff_true]
    intro h0
    have h2 := v.ty.wrap_emod 1
    rw [h0] at h2
    have hr := (Val.ok_iff v).1 h
    have hw : 0 < v.ty.width := by
      rcases Nat.eq_zero_or_pos v.ty.width with hw | hw
      · exfalso
        unfold Ty.InRange at hr
        rw [hw] at hr
        split at hr <;> simp at hr <;> omega
      · exact hw
    have h3 : 2 ^ 1 ≤ 2 ^ v.ty.width := Nat.pow_le_pow_right (by decide) hw
    rw [Int.emod_eq_of_lt (a := 1) (by decide) (by have : (2 : ℤ) ≤ (2 ^ v.ty.width : ℕ) := by exact_mod_cast h3
                                                   omega)] at h2
    simp at h2
  · simp only [hn, if_false, iff_false, not_not]
    unfold Ty.wrap
    simp

/-- **C100, `Complement2`.** The negation, modulo the width. -/
theorem c100_complement2 {v : Val} (h : v.Ok) : complement2 v = ⟨v.ty, v.ty.wrap (-v.val)⟩ := by
  show (⟨v.ty, v.ty.wrap ((complExpr (leaf v)).eval _ ⟨max v.ty.width (max v.ty.width 32), v.ty.signed && true⟩)⟩ : Val) = _
  rw [complExpr_eval h (Nat.le_max_left _ _) (Bool.and_true _)]
  rw [Ty.wrap_wrap_le (Nat.le_max_left _ _)]

/-- **C100, `Abs`.** The absolute value; only the least value of a signed type, whose absolute value does not fit, is left as it is. -/
theorem c100_abs {v : Val} (h : v.Ok) :
    (abs v).ty = v.ty ∧ (v.ty.InRange |v.val| → (abs v).val = |v.val|) ∧ (¬ v.ty.InRange |v.val| → (abs v).val = v.val ∧ v.val < 0) := by
  have hr := (Val.ok_iff v).1 h
  have hctx : ∀ c : Ty, c = ⟨max v.ty.width (max (max v.ty.width 32) v.ty.width), (v.ty.signed && true) && v.ty.signed⟩ →
      v.ty.width ≤ c.width ∧ c.signed = v.ty.signed := by
    rintro c rfl
    exact ⟨Nat.le_max_left _ _, by cases v.ty.signed <;> rfl⟩
  have h1 : (abs v).val = if v.val < 0 then v.ty.wrap (-v.val) else v.val := by
    show v.ty.wrap (if (signExpr (leaf v)).eval _ ⟨1, false⟩ ≠ 0 then (complExpr (leaf v)).eval _
      ⟨max v.ty.width (max (max v.ty.width 32) v.ty.width), (v.ty.signed && true) && v.ty.signed⟩ else (leaf v).eval _
      ⟨max v.ty.width (max (max v.ty.width 32) v.ty.width), (v.ty.signed && true) && v.ty.signed⟩) = _
    obtain ⟨g1, g2⟩ := hctx _ rfl
    rw [signExpr_eval h, complExpr_eval h g1 g2, leaf_means h _ _ g1 g2]
    by_cases hn : v.val < 0
    · rw [if_pos hn, if_pos hn, if_pos (by decide)]
      exact Ty.wrap_wrap_le g1 _
    · rw [if_neg hn, if_neg hn, if_neg (by decide), Ty.wrap_wrap_le g1]
      exact h
  refine ⟨rfl, fun hi => ?_, fun hi => ?_⟩
  · rw [h1]
    split
    · rename_i hn
      rw [abs_of_neg hn] at hi ⊢
      exact Ty.wrap_of_inRange _ hi
    · rename_i hn
      rw [abs_of_nonneg (by omega)]
  · have hn : v.val < 0 := by
      by_contra hn
      rw [abs_of_nonneg (by omega)] at hi
      exact hi hr
    rw [abs_of_neg hn] at hi
    refine ⟨?_, hn⟩
    rw [h1, if_pos hn]
    have hs : v.ty.signed = true := by
      by_contra hs
      unfold Ty.InRange at hr
      rw [if_neg hs] at hr
      omega
    have hm : v.val + v.val = -((2 ^ v.ty.width : ℕ) : ℤ) := by
      unfold Ty.InRange at hr hi
      rw [if_pos hs] at hr hi
      omega
    have h2 : v.ty.wrap (-v.val) = v.ty.wrap v.val := by
      apply Ty.wrap_congr
      have : -v.val = v.val + ((2 ^ v.ty.width : ℕ) : ℤ) := by omega
      rw [this, Int.add_emod_right]
    rw [h2]
    exact h

/-! ## Examples -/

local instance (v : Val) : Decidable v.Ok := inferInstanceAs (Decidable (v.ty.wrap v.val = v.val))

/-- A signed 8-bit value. -/
private def b8 (x : ℤ) : Val := ⟨⟨8, true⟩, x⟩

example : plusN [b8 3, ⟨⟨4, true⟩, -5⟩, b8 1] = some (b8 (-1)) := by decide +kernel
example : ∃ r, plusN [b8 3, ⟨⟨4, true⟩, -5⟩, b8 1] = some r ∧ r.val = -1 := by
  obtain ⟨r, h1, _⟩ := c100_plusN (s := true) (v := b8 3) (vs := [⟨⟨4, true⟩, -5⟩, b8 1]) (by decide)
  refine ⟨r, h1, ?_⟩
  rw [show r = b8 (-1) from Option.some.inj (h1.symm.trans (by decide +kernel))]
  rfl
example : ∃ r, plusN [⟨⟨8, false⟩, 10⟩, ⟨⟨4, true⟩, -1⟩] = some r ∧ r.val = 25 := by
  obtain ⟨r, h1, h2, h3, _⟩ := c100_not_plusN (u := ⟨⟨8, false⟩, 10⟩) (v := ⟨⟨4, true⟩, -1⟩) (by decide) (by decide) rfl rfl (by decide) (by decide)
  exact ⟨r, h1, by rw [h3, h2]; decide⟩
example : average [b8 (-1), b8 0, b8 0, b8 0] = some (b8 (-1)) :=
  (c100_average_pow2 (t := ⟨8, true⟩) (k := 2) rfl (by decide)).2 ((Ty.wrap_eq_iff _ _).1 (by decide))
example : (average [b8 (-1), b8 (-1), b8 0]).map Val.val = some 0 := by decide +kernel
example : ∃ r, average [b8 (-5), b8 (-5), b8 (-1)] = some r ∧ r.val = -3 := by
  obtain ⟨r, h1, _, _, h3⟩ := c100_average_other (t := ⟨8, true⟩) (vs := [b8 (-5), b8 (-5), b8 (-1)]) (by simp)
    (fun ⟨k, hk⟩ => and_pred_ne_three k hk) (by decide) rfl (by decide) (by decide)
  exact ⟨r, h1, h3 ((Ty.wrap_eq_iff _ _).1 (by decide))⟩
example : ∃ r, average [b8 100, b8 100] = some r ∧ r.val ≠ 100 :=
  c100_not_average ((Ty.wrap_eq_iff _ _).1 (by decide)) fun h => absurd ((Ty.wrap_eq_iff _ _).2 h) (by decide)
example : average [b8 100, b8 100] = some (b8 (-28)) := by decide +kernel
example : averageRound [b8 1, b8 2] = some (b8 2) := by decide +kernel
example : ∃ r, averageRound [b8 1, b8 2, b8 2, b8 2] = some r ∧ -4 < 2 * (4 * r.val - 7) := by
  obtain ⟨r, h1, _, _, h2, _⟩ := c100_round_pow2 (t := ⟨8, true⟩) (vs := [b8 1, b8 2, b8 2, b8 2]) (k := 2) rfl (by decide)
    ((Ty.wrap_eq_iff _ _).1 (by decide)) ((Ty.wrap_eq_iff _ _).1 (by decide))
  exact ⟨r, h1, h2⟩
example : ∃ r, averageRound [b8 1, b8 2, b8 2] = some r ∧ r.val = 2 := by
  obtain ⟨r, h1, _, h2⟩ := c100_round_other (t := ⟨8, true⟩) (vs := [b8 1, b8 2, b8 2]) (by simp)
    (fun ⟨k, hk⟩ => and_pred_ne_three k hk) (by decide) rfl (by decide) (by decide)
    ((Ty.wrap_eq_iff _ _).1 (by decide)) ((Ty.wrap_eq_iff _ _).1 (by decide))
  exact ⟨r, h1, h2⟩
example : ∃ r, averageRound [b8 (-1), b8 (-1), b8 (-1)] = some r ∧ r.val = 0 :=
  c100_not_round (t := ⟨8, true⟩) (n := 3) (fun ⟨k, hk⟩ => and_pred_ne_three k hk) (by decide) (by decide) rfl
    ((Ty.wrap_eq_iff _ _).1 (by decide))
example : (sign (b8 (-3))).val ≠ 0 := (c100_sign (v := b8 (-3)) (by decide)).2.2 (by decide)
example : complement2 (b8 5) = b8 (-5) := c100_complement2 (v := b8 5) (by decide)
example : (abs (b8 (-5))).val = 5 := (c100_abs (v := b8 (-5)) (by decide)).2.1 ((Ty.wrap_eq_iff _ _).1 (by decide))
example : (abs (b8 (-128))).val = -128 :=
  ((c100_abs (v := b8 (-128)) (by decide)).2.2 fun h => absurd ((Ty.wrap_eq_iff _ _).2 h) (by decide)).1

/-- An unsigned 8-bit value. -/
private def u8 (x : ℤ) : Val := ⟨⟨8, false⟩, x⟩

example : ∃ r, average [u8 100, u8 50, u8 20] = some r ∧ r.val = 56 := by
  obtain ⟨r, h1, _, _, h3⟩ := c100_average_unsigned (t := ⟨8, false⟩) (vs := [u8 100, u8 50, u8 20]) (by simp)
    (fun ⟨k, hk⟩ => and_pred_ne_three k hk) (by decide) rfl (by decide)
  exact ⟨r, h1, h3 ((Ty.wrap_eq_iff _ _).1 (by decide))⟩
example : ∃ r, averageRound [u8 100, u8 50, u8 20] = some r ∧ -3 < 2 * (3 * r.val - 170) := by
  obtain ⟨r, h1, _, h2, _⟩ := c100_round_unsigned (t := ⟨8, false⟩) (vs := [u8 100, u8 50, u8 20]) (by simp)
    (fun ⟨k, hk⟩ => and_pred_ne_three k hk) (by decide) rfl (by decide)
    ((Ty.wrap_eq_iff _ _).1 (by decide)) ((Ty.wrap_eq_iff _ _).1 (by decide))
  exact ⟨r, h1, h2⟩

end SAvg
