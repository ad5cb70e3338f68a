import Verif.Props.C26_Reduce

/-!
# C27: stream counters and pulses
-/

namespace Stream

open Vlog

/-- Number of accepted and enabled cycles. -/
def enabledCount (hasEnable : Bool) (l : List AccIn) : Nat :=
  (l.filter fun i => i.go && (!hasEnable || i.en)).length

/-- No accepted cycle asks for a reset. -/
def CntNoReset (c : CntCfg) (l : List AccIn) : Prop :=
  ∀ i ∈ l, c.hasReset = true → i.go = true → i.rst = false

private theorem count_cons (h : Bool) (i : AccIn) (l : List AccIn) :
    enabledCount h (i :: l) = (if i.go && (!h || i.en) then 1 else 0) + enabledCount h l := by
  unfold enabledCount
  by_cases hi : (i.go && (!h || i.en)) = true
  · simp only [List.filter_cons, hi, if_true, List.length_cons]; omega
  · simp only [List.filter_cons, hi, if_false, Bool.false_eq_true]; omega

theorem minus1_eq {w n : Nat} (h1 : 1 ≤ n) (h2 : n < 2 ^ w) : minus1 w n = n - 1 := by
  unfold minus1
  rw [show n + 2 ^ w - 1 = (n - 1) + 2 ^ w by omega, Nat.add_mod_right, Nat.mod_eq_of_lt (by omega)]

/-- Conditions on the interval: at least 1, and it fits in `interval_count`. -/
def IntervalOk (c : CntCfg) : Prop :=
  ∀ iv, c.interval = some iv → 1 ≤ iv ∧ iv ≤ 2 ^ c.ty.width ∧ iv < 2 ^ 32

private theorem cnt_run {c : CntCfg} (hiv : IntervalOk c) (g : Nat → Int)
    (hg : ∀ k, c.next (g k) = g (k + 1)) : ∀ (l : List AccIn) (s : CntSt) (k : Nat), CntNoReset c l →
    s.count = g (k / c.interval.getD 1) → (∀ iv, c.interval = some iv → s.icount = k % iv) →
    (c.run s l).count = g ((k + enabledCount c.hasEnable l) / c.interval.getD 1) := by
  intro l
  induction l with
  | nil => intro s k _ hc _; simpa [enabledCount, CntCfg.run] using hc
  | cons i l ih =>
    intro s k hn hc hic
    show (c.run (c.stepSt s i) l).count = _
    rw [count_cons, ← Nat.add_assoc]
    have hn' : CntNoReset c l := fun j hj => hn j (by simp [hj])
    by_cases he : (i.go && (!c.hasEnable || i.en)) = true
    · have he1 : c.en1 i = true := he
      have hgo : i.go = true := (Bool.and_eq_true_iff.1 he).1
      have hnr : (c.hasReset && i.rst) = false := by
        cases hr : c.hasReset with
        | false => rfl
        | true => simp [hn i (by simp) hr hgo]
      have hcur : c.curCount s i = s.count := by simp [CntCfg.curCount, hnr]
      have hcic : c.curICount s i = s.icount := by simp [CntCfg.curICount, hnr]
      rw [if_pos he]
      apply ih _ _ hn'
      · cases hv : c.interval with
        | none =>
          simp only [CntCfg.stepSt, CntCfg.en2, hv, he1, Bool.and_true, if_true, hcur, hc,
            Option.getD_none, Nat.div_one, hg]
        | some iv =>
          obtain ⟨h1, h2, h3⟩ := hiv iv hv
          have hm1 : minus1 (max c.ty.width 32) iv = iv - 1 := by
            apply minus1_eq h1
            exact Nat.lt_of_lt_of_le h3 (Nat.pow_le_pow_right (by omega) (by omega))
          have hmod := Nat.mod_lt k (show 0 < iv by omega)
          have hdm := Nat.div_add_mod k iv
          simp only [CntCfg.stepSt, CntCfg.en2, hv, he1, hcic, hic iv hv, hm1, Bool.true_and,
            Option.getD_some] at hc ⊢
          by_cases hl : k % iv = iv - 1
          · have hdiv : (k + 1) / iv = k / iv + 1 := by
              have : k + 1 = iv * (k / iv + 1) := by rw [Nat.mul_add, Nat.mul_one]; omega
              rw [this, Nat.mul_div_cancel_left _ (by omega)]
            simp only [hl, BEq.rfl, if_true, hcur, hc, hg, hdiv]
          · have hdiv : (k + 1) / iv = k / iv := by
              apply Nat.div_eq_of_lt_le
              · rw [Nat.mul_comm]; omega
              · rw [Nat.succ_mul, Nat.mul_comm]; omega
            have : (k % iv == iv - 1) = false := by simp [hl]
            simp only [this, Bool.false_eq_true, if_false, hdiv, hc]
      · intro iv hv
        obtain ⟨h1, h2, h3⟩ := hiv iv hv
        have hm1 : minus1 (max c.ty.width 32) iv = iv - 1 := by
          apply minus1_eq h1
          exact Nat.lt_of_lt_of_le h3 (Nat.pow_le_pow_right (by omega) (by omega))
        have hmod := Nat.mod_lt k (show 0 < iv by omega)
        simp only [CntCfg.stepSt, hv, he1, if_true, hcic, hic iv hv, hm1]
        by_cases hl : k % iv = iv - 1
        · rw [if_pos (by omega), Nat.add_mod, hl]
          by_cases hv1 : iv = 1
          · subst hv1; rfl
          · rw [Nat.mod_eq_of_lt (show 1 < iv by omega), show iv - 1 + 1 = iv by omega, Nat.mod_self]
        · have e1 : (k % iv + 1) % 2 ^ c.ty.width = k % iv + 1 := Nat.mod_eq_of_lt (by omega)
          have e2 : (k % iv + 1) % iv = k % iv + 1 := Nat.mod_eq_of_lt (by omega)
          rw [if_neg (by omega), e1, Nat.add_mod k 1, Nat.mod_eq_of_lt (show 1 < iv by omega), e2]
    · have he1 : c.en1 i = false := by simpa [CntCfg.en1] using he
      rw [if_neg he, Nat.add_zero]
      apply ih _ _ hn'
      · simp only [CntCfg.stepSt, CntCfg.en2, he1, Bool.false_and, Bool.false_eq_true, if_false]
        exact hc
      · intro iv hv
        simp only [CntCfg.stepSt, hv, he1, Bool.false_eq_true, if_false]
        exact hic iv hv

/-- What an accepted cycle outputs, from power-up on. -/
private theorem cnt_powerup {c : CntCfg} (hiv : IntervalOk c) (g : Nat → Int)
    (hg : ∀ k, c.next (g k) = g (k + 1)) (h0 : g 0 = c.ty.wrap c.regInit) (l : List AccIn) (e : AccIn)
    (hn : CntNoReset c (l ++ [e])) (he : e.go = true) :
    (c.run c.init (l ++ [e])).data = g (enabledCount c.hasEnable l / c.interval.getD 1) := by
  have h := cnt_run hiv g hg l c.init 0 (fun j hj => hn j (by simp [hj]))
    (by rw [Nat.zero_div, h0]; rfl) (by intro iv _; simp [CntCfg.init])
  rw [Nat.zero_add] at h
  unfold CntCfg.run at *
  rw [List.foldl_append]
  simp only [List.foldl_cons, List.foldl_nil]
  rw [← h]
  have hnr : (c.hasReset && e.rst) = false := by
    cases hr : c.hasReset with
    | false => rfl
    | true => simp [hn e (by simp) hr he]
  simp [CntCfg.stepSt, he, CntCfg.curCount, hnr]

/-- What an accepted cycle outputs after a reset that came with an enabled element. -/
private theorem cnt_reset {c : CntCfg} (hi : c.interval = none) (g : Nat → Int)
    (hg : ∀ k, c.next (g k) = g (k + 1)) (h0 : g 0 = c.ty.wrap c.initval) (hr : c.hasReset = true)
    (pre : List AccIn) (e : AccIn) (l : List AccIn) (f : AccIn)
    (he : e.go = true ∧ e.rst = true ∧ (c.hasEnable = true → e.en = true))
    (hn : CntNoReset c (l ++ [f])) (hf : f.go = true) :
    (c.run c.init (pre ++ [e])).data = g 0 ∧
    (c.run c.init (pre ++ e :: (l ++ [f]))).data = g (1 + enabledCount c.hasEnable l) := by
  have hiv : IntervalOk c := by intro iv hv; rw [hi] at hv; cases hv
  have he1 : c.en1 e = true := by
    obtain ⟨a, _, b⟩ := he
    cases hc : c.hasEnable <;> simp_all [CntCfg.en1]
  have hrun : ∀ a b, c.run c.init (a ++ b) = c.run (c.run c.init a) b := fun a b => List.foldl_append
  rw [hrun, hrun]
  generalize c.run c.init pre = s
  have hcur : c.curCount s e = g 0 := by simp [CntCfg.curCount, hr, he.2.1, h0]
  refine ⟨by simp [CntCfg.run, CntCfg.stepSt, he.1, hcur], ?_⟩
  have hcount : (c.stepSt s e).count = g (1 / c.interval.getD 1) := by
    simp [CntCfg.stepSt, CntCfg.en2, he1, hi, hcur, hg]
  have h := cnt_run hiv g hg l (c.stepSt s e) 1 (fun j hj => hn j (by simp [hj])) hcount
    (by intro iv hv; rw [hi] at hv; cases hv)
  rw [hi] at h
  simp only [Option.getD_none, Nat.div_one] at h
  rw [← h]
  have hnr : (c.hasReset && f.rst) = false := by
    cases hr : c.hasReset with
    | false => rfl
    | true => simp [hn f (by simp) hr hf]
  show (c.run (c.stepSt s e) (l ++ [f])).data = _
  unfold CntCfg.run
  rw [List.foldl_append]
  simp [CntCfg.stepSt, hf, CntCfg.curCount, hnr]

theorem read_nonneg {v : Val} (h : v.Ok) (h0 : 0 ≤ v.val) (ctx : Bool) : v.read ctx = v.val := by
  unfold Val.read
  split
  · rfl
  · rw [Val.ok_iff, Ty.InRange] at h
    apply Int.emod_eq_of_lt h0
    split at h <;> omega

/-! ### Successors -/

theorem next_plain {c : CntCfg} (hs : c.size = none) (hst : c.step.Ok)
    (hsg : 0 ≤ c.step.val ∨ (c.step.ty.signed = true → c.ty.signed = true)) (start : Int) (k : Nat) :
    c.next (c.ty.wrap (start + k * c.step.val)) = c.ty.wrap (start + (k + 1 : Nat) * c.step.val) := by
  have hstep : c.step.read (c.ty.signed && c.step.ty.signed) = c.step.val := by
    by_cases h0 : 0 ≤ c.step.val
    · exact read_nonneg hst h0 _
    · cases hss : c.step.ty.signed with
      | false => exact Val.read_unsigned hst hss _
      | true =>
        rcases hsg with h | h
        · exact absurd h h0
        · rw [h hss]; rfl
  simp only [CntCfg.next, hs]
  apply Ty.wrap_congr
  rw [hstep, Int.add_emod, Val.read_emod ⟨c.ty, _⟩, ← Int.add_emod]
  show (c.ty.wrap _ + _) % _ = _
  rw [Int.add_emod, Ty.wrap_emod, ← Int.add_emod]
  congr 1
  push_cast
  ring

private theorem atEnd_eq {c : CntCfg} {size : Val} (hok : size.Ok) (hst : c.step.Ok)
    (h0 : 0 ≤ c.step.val) (h1 : c.step.val ≤ size.val) {cur : Int} (hcur : c.ty.wrap cur = cur)
    (hc0 : 0 ≤ cur) : c.atEnd size cur = decide (cur ≥ size.val - c.step.val) := by
  simp only [CntCfg.atEnd]
  rw [read_nonneg hok (by omega), read_nonneg hst h0, read_nonneg (v := ⟨c.ty, cur⟩) hcur hc0]
  have : Ty.wrap ⟨max c.ty.width (max size.ty.width c.step.ty.width),
      c.ty.signed && size.ty.signed && c.step.ty.signed⟩ (size.val - c.step.val) =
      size.val - c.step.val := by
    apply Ty.wrap_of_inRange
    rw [Val.ok_iff] at hok
    have hw : 2 ^ size.ty.width ≤ 2 ^ (max c.ty.width (max size.ty.width c.step.ty.width)) :=
      Nat.pow_le_pow_right (by omega) (by omega)
    unfold Ty.InRange at *
    by_cases hsg : (c.ty.signed && size.ty.signed && c.step.ty.signed) = true
    · simp only [Bool.and_eq_true] at hsg
      rw [if_pos hsg.1.2] at hok
      simp only [hsg, Bool.and_self, if_true]
      omega
    · rw [if_neg hsg]
      simp only
      split at hok <;> omega
  rw [this]

theorem next_size {c : CntCfg} {size : Val} (hs : c.size = some size) (ho : c.offset = none)
    (hok : size.Ok) (hst : c.step.Ok) (h0 : 0 < c.step.val) (h1 : c.step.val ≤ size.val)
    (hfit : c.ty.wrap (size.val - 1) = size.val - 1) (start : Int) (k : Nat) :
    c.next ((start + k * c.step.val) % size.val) = (start + (k + 1 : Nat) * c.step.val) % size.val := by
  have hin : ∀ v, 0 ≤ v → v ≤ size.val - 1 → c.ty.wrap v = v := by
    intro v a b
    apply Ty.wrap_of_inRange
    have := (Ty.wrap_eq_iff _ _).1 hfit
    unfold Ty.InRange at *
    split at this <;> rename_i hsg
    · rw [if_pos hsg]; omega
    · rw [if_neg hsg]; omega
  have hpos : 0 < size.val := by omega
  have hc0 := Int.emod_nonneg (start + k * c.step.val) (show size.val ≠ 0 by omega)
  have hc1 := Int.emod_lt_of_pos (start + k * c.step.val) hpos
  have hnext : (start + (k + 1 : Nat) * c.step.val) % size.val =
      ((start + k * c.step.val) % size.val + c.step.val) % size.val := by
    rw [Int.emod_add_emod]
    congr 1; push_cast; ring
  rw [hnext]
  generalize (start + k * c.step.val) % size.val = cur at *
  have hcur := hin cur hc0 (by omega)
  simp only [CntCfg.next, hs, ho, atEnd_eq hok hst (by omega) h1 hcur hc0]
  rw [read_nonneg hok (by omega), read_nonneg hst (by omega), read_nonneg (v := ⟨c.ty, cur⟩) hcur hc0]
  show (if decide (cur ≥ size.val - c.step.val) = true then c.ty.wrap (cur + c.step.val - size.val)
    else c.ty.wrap (cur + c.step.val)) = _
  by_cases hge : cur ≥ size.val - c.step.val
  · rw [if_pos (by simpa using hge), hin _ (by omega) (by omega)]
    rw [show cur + c.step.val = cur + c.step.val - size.val + size.val by omega, Int.add_emod_right,
      Int.emod_eq_of_lt (by omega) (by omega)]
    omega
  · rw [if_neg (by simpa using hge), hin _ (by omega) (by omega), Int.emod_eq_of_lt (by omega) (by omega)]

private theorem next_offset {c : CntCfg} {size : Val} {o : Int} {m : Nat} (hs : c.size = some size)
    (ho : c.offset = some o) (hok : size.Ok) (hst : c.step.Ok) (h0 : 0 < c.step.val)
    (h1 : c.step.val ≤ size.val) (hfit : c.ty.wrap (size.val - 1) = size.val - 1) (ho0 : 0 ≤ o)
    (hm : 1 ≤ m) (hm1 : o + (m - 1 : Nat) * c.step.val < size.val)
    (hm2 : size.val ≤ o + m * c.step.val) (k : Nat) :
    c.next (o + (k % m : Nat) * c.step.val) = o + ((k + 1) % m : Nat) * c.step.val := by
  have hin : ∀ v, 0 ≤ v → v ≤ size.val - 1 → c.ty.wrap v = v := by
    intro v a b
    apply Ty.wrap_of_inRange
    have := (Ty.wrap_eq_iff _ _).1 hfit
    unfold Ty.InRange at *
    split at this <;> rename_i hsg
    · rw [if_pos hsg]; omega
    · rw [if_neg hsg]; omega
  have hmod := Nat.mod_lt k (show 0 < m by omega)
  generalize hj : k % m = j at *
  have hjle : (j : Int) * c.step.val ≤ (m - 1 : Nat) * c.step.val :=
    Int.mul_le_mul_of_nonneg_right (by omega) (by omega)
  have hj0 : 0 ≤ (j : Int) * c.step.val := Int.mul_nonneg (by omega) (by omega)
  have hcur := hin (o + j * c.step.val) (by omega) (by omega)
  simp only [CntCfg.next, hs, ho, atEnd_eq hok hst (by omega) h1 hcur (by omega)]
  rw [read_nonneg hst (by omega), read_nonneg (v := ⟨c.ty, _⟩) hcur (by show 0 ≤ o + j * c.step.val; omega)]
  show (if decide (o + j * c.step.val ≥ size.val - c.step.val) = true then c.ty.wrap o
    else c.ty.wrap (o + j * c.step.val + c.step.val)) = _
  have hmm : (m : Int) * c.step.val = (m - 1 : Nat) * c.step.val + c.step.val := by
    have : (m : Int) = (m - 1 : Nat) + 1 := by omega
    rw [this]; push_cast; ring
  by_cases hl : j = m - 1
  · have hk : (k + 1) % m = 0 := by
      rw [Nat.add_mod, hj, hl]
      by_cases h : m = 1
      · subst h; rfl
      · rw [Nat.mod_eq_of_lt (show 1 < m by omega), show m - 1 + 1 = m by omega, Nat.mod_self]
    rw [hk, hl, if_pos (by simp only [decide_eq_true_eq]; omega), hin o ho0 (by
      have : 0 ≤ ((m - 1 : Nat) : Int) * c.step.val := Int.mul_nonneg (by omega) (by omega)
      omega)]
    simp
  · have hk : (k + 1) % m = j + 1 := by
      rw [Nat.add_mod, hj, Nat.mod_eq_of_lt (show 1 < m by omega), Nat.mod_eq_of_lt (by omega)]
    have hj1 : ((j + 1 : Nat) : Int) * c.step.val = j * c.step.val + c.step.val := by push_cast; ring
    have hj2 : ((j + 1 : Nat) : Int) * c.step.val ≤ (m - 1 : Nat) * c.step.val :=
      Int.mul_le_mul_of_nonneg_right (by omega) (by omega)
    rw [hk, if_neg (by simp only [decide_eq_true_eq]; omega), hin _ (by omega) (by omega), hj1]
    omega

/-! ### C27 for counters -/

/-- C27, no `size`: the output in an accepted cycle is `start + k * step` in the type of the counter,
    where `k` is the number of enabled cycles before (divided by `interval`, if given). -/
theorem c27_plain (c : CntCfg) (hs : c.size = none) (hiv : IntervalOk c) (hst : c.step.Ok)
    (hsg : 0 ≤ c.step.val ∨ (c.step.ty.signed = true → c.ty.signed = true))
    (l : List AccIn) (e : AccIn) (hn : CntNoReset c (l ++ [e])) (he : e.go = true) :
    (c.run c.init (l ++ [e])).data =
      c.ty.wrap (c.regInit + (enabledCount c.hasEnable l / c.interval.getD 1 : Nat) * c.step.val) :=
  cnt_powerup hiv (fun k => c.ty.wrap (c.regInit + k * c.step.val))
    (next_plain hs hst hsg c.regInit) (by simp) l e hn he

/-- C27, no `size`: the same after a reset that comes with an enabled element. -/
theorem c27_plain_reset (c : CntCfg) (hs : c.size = none) (hi : c.interval = none) (hst : c.step.Ok)
    (hsg : 0 ≤ c.step.val ∨ (c.step.ty.signed = true → c.ty.signed = true)) (hr : c.hasReset = true)
    (pre : List AccIn) (e : AccIn) (l : List AccIn) (f : AccIn)
    (he : e.go = true ∧ e.rst = true ∧ (c.hasEnable = true → e.en = true))
    (hn : CntNoReset c (l ++ [f])) (hf : f.go = true) :
    (c.run c.init (pre ++ [e])).data = c.ty.wrap c.initval ∧
    (c.run c.init (pre ++ e :: (l ++ [f]))).data =
      c.ty.wrap (c.initval + (1 + enabledCount c.hasEnable l : Nat) * c.step.val) := by
  have := cnt_reset hi (fun k => c.ty.wrap (c.initval + k * c.step.val))
    (next_plain hs hst hsg c.initval) (by simp) hr pre e l f he hn hf
  simpa using this

/-- C27, `size` without `offset`: the output is `(start + k * step) mod size`. -/
theorem c27_size (c : CntCfg) {size : Val} (hs : c.size = some size) (ho : c.offset = none)
    (hiv : IntervalOk c) (hok : size.Ok) (hst : c.step.Ok) (h0 : 0 < c.step.val)
    (h1 : c.step.val ≤ size.val) (hfit : c.ty.wrap (size.val - 1) = size.val - 1)
    (hstart : 0 ≤ c.regInit ∧ c.regInit < size.val)
    (l : List AccIn) (e : AccIn) (hn : CntNoReset c (l ++ [e])) (he : e.go = true) :
    (c.run c.init (l ++ [e])).data =
      (c.regInit + (enabledCount c.hasEnable l / c.interval.getD 1 : Nat) * c.step.val) % size.val := by
  refine cnt_powerup hiv (fun k => (c.regInit + k * c.step.val) % size.val)
    (next_size hs ho hok hst h0 h1 hfit c.regInit) ?_ l e hn he
  simp only [Int.ofNat_zero, Int.zero_mul, Int.add_zero]
  rw [Int.emod_eq_of_lt hstart.1 hstart.2]
  symm
  apply Ty.wrap_of_inRange
  have := (Ty.wrap_eq_iff _ _).1 hfit
  unfold Ty.InRange at *
  split at this <;> rename_i hsg
  · rw [if_pos hsg]; omega
  · rw [if_neg hsg]; omega

/-- C27, `size` without `offset`: the same after a reset that comes with an enabled element. -/
theorem c27_size_reset (c : CntCfg) {size : Val} (hs : c.size = some size) (ho : c.offset = none)
    (hi : c.interval = none) (hok : size.Ok) (hst : c.step.Ok) (h0 : 0 < c.step.val)
    (h1 : c.step.val ≤ size.val) (hfit : c.ty.wrap (size.val - 1) = size.val - 1)
    (hstart : 0 ≤ c.initval ∧ c.initval < size.val) (hr : c.hasReset = true)
    (pre : List AccIn) (e : AccIn) (l : List AccIn) (f : AccIn)
    (he : e.go = true ∧ e.rst = true ∧ (c.hasEnable = true → e.en = true))
    (hn : CntNoReset c (l ++ [f])) (hf : f.go = true) :
    (c.run c.init (pre ++ [e])).data = c.initval ∧
    (c.run c.init (pre ++ e :: (l ++ [f]))).data =
      (c.initval + (1 + enabledCount c.hasEnable l : Nat) * c.step.val) % size.val := by
  have hw : c.ty.wrap c.initval = c.initval := by
    apply Ty.wrap_of_inRange
    have := (Ty.wrap_eq_iff _ _).1 hfit
    unfold Ty.InRange at *
    split at this <;> rename_i hsg
    · rw [if_pos hsg]; omega
    · rw [if_neg hsg]; omega
  have h00 : (c.initval + (0 : Nat) * c.step.val) % size.val = c.initval := by
    simp only [Int.ofNat_zero, Int.zero_mul, Int.add_zero]
    exact Int.emod_eq_of_lt hstart.1 hstart.2
  have := cnt_reset hi (fun k => (c.initval + k * c.step.val) % size.val)
    (next_size hs ho hok hst h0 h1 hfit c.initval) (by rw [h00, hw]) hr pre e l f he hn hf
  rw [h00] at this
  exact this

/-- C27, `size` and `offset`: starting at `offset`, the output runs through `offset`, `offset + step`, ...
    as long as it is below `size` (that is `m` values) and then starts again at `offset`. -/
theorem c27_offset (c : CntCfg) {size : Val} {o : Int} {m : Nat} (hs : c.size = some size)
    (ho : c.offset = some o) (hiv : IntervalOk c) (hok : size.Ok) (hst : c.step.Ok)
    (h0 : 0 < c.step.val) (h1 : c.step.val ≤ size.val)
    (hfit : c.ty.wrap (size.val - 1) = size.val - 1) (ho0 : 0 ≤ o) (hm : 1 ≤ m)
    (hm1 : o + (m - 1 : Nat) * c.step.val < size.val) (hm2 : size.val ≤ o + m * c.step.val)
    (hstart : c.regInit = o) (l : List AccIn) (e : AccIn) (hn : CntNoReset c (l ++ [e]))
    (he : e.go = true) :
    (c.run c.init (l ++ [e])).data =
      o + (enabledCount c.hasEnable l / c.interval.getD 1 % m : Nat) * c.step.val := by
  refine cnt_powerup hiv (fun k => o + (k % m : Nat) * c.step.val)
    (next_offset hs ho hok hst h0 h1 hfit ho0 hm hm1 hm2) ?_ l e hn he
  simp only [Nat.zero_mod, Int.ofNat_zero, Int.zero_mul, Int.add_zero, hstart]
  symm
  apply Ty.wrap_of_inRange
  have := (Ty.wrap_eq_iff _ _).1 hfit
  have hnn : 0 ≤ ((m - 1 : Nat) : Int) * c.step.val := Int.mul_nonneg (by omega) (by omega)
  unfold Ty.InRange at *
  split at this <;> rename_i hsg
  · rw [if_pos hsg]; omega
  · rw [if_neg hsg]; omega

/-- C27: a cycle that is not accepted keeps the output. -/
theorem c27_idle (c : CntCfg) (s : CntSt) (i : AccIn) (h : i.go = false) : c.stepSt s i = s := by
  obtain ⟨d, n, k⟩ := s
  have h1 : c.en1 i = false := by simp [CntCfg.en1, h]
  have h2 : c.en2 ⟨d, n, k⟩ i = false := by simp [CntCfg.en2, h1]
  simp only [CntCfg.stepSt, h1, h2, h]
  cases c.interval <;> simp

/-- C27 does not hold for a reset in a cycle that is not enabled: the initial value is output in that
    cycle only, then the counter goes on from where it was (5 here). -/
theorem c27_reset_disabled :
    let c : CntCfg := { ty := ⟨32, false⟩, step := ⟨⟨2, true⟩, 1⟩, hasReset := true, hasEnable := true }
    let one : AccIn := { go := true }
    let r : AccIn := { go := true, en := false, rst := true }
    (c.run c.init (List.replicate 5 one ++ [r])).data = 0 ∧
    (c.run c.init (List.replicate 5 one ++ [r, one])).data = 5 := by decide

/-- C27 does not hold for a reset of a counter with `interval ≥ 2`, even in an enabled cycle: the
    register `count` is only loaded at the end of an interval. -/
theorem c27_reset_interval :
    let c : CntCfg := { ty := ⟨32, false⟩, step := ⟨⟨2, true⟩, 1⟩, hasReset := true, interval := some 2 }
    let one : AccIn := { go := true }
    let r : AccIn := { go := true, rst := true }
    (c.run c.init (List.replicate 4 one ++ [r])).data = 0 ∧
    (c.run c.init (List.replicate 4 one ++ [r, one])).data = 2 := by decide

/-! ### C27 for pulses -/

private structure PulseInv (n : Nat) (k : Nat) (s : AccSt) : Prop where
  count : (if s.prevMax then 0 else s.count) = k % n

private theorem pulse_step {c : AccCfg} {sw n : Nat} (hs : c.size = some (sw, n)) (hi : c.interval = none)
    (hp : c.pulse = true) (ht : c.ty = ⟨1, false⟩) (h1 : 1 ≤ n) (h2 : n < 2 ^ sw) {k : Nat} {s : AccSt}
    (inv : PulseInv n k s) (i : AccIn) (hr : c.hasReset = true → i.go = true → i.rst = false) :
    PulseInv n (k + if c.en1 i then 1 else 0) (c.step s i) ∧
    (c.en1 i = true → (c.step s i).data = if (k + 1) % n = 0 then 1 else 0) := by
  have hen2 : c.en2 s i = c.en1 i := by simp [AccCfg.en2, hi]
  have hm1 : minus1 (max (countWidth sw) 32) n = n - 1 := by
    apply minus1_eq h1
    exact Nat.lt_of_lt_of_le h2 (Nat.pow_le_pow_right (by omega) (by unfold countWidth; omega))
  by_cases he : c.en1 i = true
  · have hgo : i.go = true := by simp [AccCfg.en1] at he; exact he.1
    have hrc : c.resetCond s i = s.prevMax := by
      simp only [AccCfg.resetCond, hs, Option.isSome_some, Bool.true_and]
      cases hrr : c.hasReset with
      | false => simp
      | true => simp [hr hrr hgo]
    have hcc : c.curCount s i = k % n := by
      simp only [AccCfg.curCount, hrc]; exact inv.count
    have hmod := Nat.mod_lt k (show 0 < n by omega)
    have hcm : c.countMax s i = decide (k % n = n - 1) := by
      simp only [AccCfg.countMax, hs, hcc, hm1]
      by_cases h : k % n = n - 1
      · simp [h]
      · simp only [h, decide_false, decide_eq_false_iff_not]; omega
    have hnext : (k + 1) % n = if k % n = n - 1 then 0 else k % n + 1 := by
      rw [Nat.add_mod]
      by_cases h : k % n = n - 1
      · rw [if_pos h, h]
        by_cases hn : n = 1
        · subst hn; rfl
        · rw [Nat.mod_eq_of_lt (show 1 < n by omega), show n - 1 + 1 = n by omega, Nat.mod_self]
      · rw [if_neg h, Nat.mod_eq_of_lt (show 1 < n by omega), Nat.mod_eq_of_lt (by omega)]
    refine ⟨⟨?_⟩, fun _ => ?_⟩
    · rw [if_pos he, hnext]
      simp only [AccCfg.step, hs, hen2, he, if_true, hcm, hcc]
      by_cases h : k % n = n - 1
      · simp [h]
      · simp only [h, decide_false, Bool.false_eq_true, if_false]
        apply Nat.mod_eq_of_lt
        have : (2:Nat) ^ sw ≤ 2 ^ countWidth sw := Nat.pow_le_pow_right (by omega) (by unfold countWidth; omega)
        omega
    · rw [hnext]
      simp only [AccCfg.step, hen2, he, if_true, AccCfg.value, hp, hcm, ht]
      by_cases h : k % n = n - 1
      · simp only [h, decide_true, if_true]; rfl
      · simp only [h, decide_false, Bool.false_eq_true, if_false, Nat.add_one_ne_zero]; rfl
  · refine ⟨⟨?_⟩, fun h => absurd h he⟩
    rw [if_neg he]
    simp only [AccCfg.step, hs, hen2, if_neg he]
    exact inv.count

private theorem pulse_run {c : AccCfg} {sw n : Nat} (hs : c.size = some (sw, n)) (hi : c.interval = none)
    (hp : c.pulse = true) (ht : c.ty = ⟨1, false⟩) (h1 : 1 ≤ n) (h2 : n < 2 ^ sw) :
    ∀ (l : List AccIn) (k : Nat) (s : AccSt), PulseInv n k s → NoReset c l →
    PulseInv n (k + enabledCount c.hasEnable l) (c.run s l) := by
  intro l
  induction l with
  | nil => intro k s h _; simpa [enabledCount, AccCfg.run] using h
  | cons i l ih =>
    intro k s h hn
    have := ih _ _ (pulse_step hs hi hp ht h1 h2 h i (hn i (by simp))).1 (fun j hj => hn j (by simp [hj]))
    rw [count_cons, ← Nat.add_assoc]
    exact this

/-- C27: `Pulse(size = n)` is 1 on exactly every `n`-th enabled element. -/
theorem c27_pulse (sw n : Nat) (hasReset hasEnable : Bool) (h1 : 1 ≤ n) (h2 : n < 2 ^ sw)
    (l : List AccIn) (e : AccIn) (he : e.go = true ∧ (hasEnable = true → e.en = true))
    (h : NoReset (pulseCfg sw n none hasReset hasEnable) (l ++ [e])) :
    ((pulseCfg sw n none hasReset hasEnable).run (pulseCfg sw n none hasReset hasEnable).init
      (l ++ [e])).data = if n ∣ enabledCount hasEnable (l ++ [e]) then 1 else 0 := by
  generalize hc : pulseCfg sw n none hasReset hasEnable = c at *
  have hs : c.size = some (sw, n) := by rw [← hc]; rfl
  have hi : c.interval = none := by rw [← hc]; rfl
  have hp : c.pulse = true := by rw [← hc]; rfl
  have ht : c.ty = ⟨1, false⟩ := by rw [← hc]; rfl
  have hh : c.hasEnable = hasEnable := by rw [← hc]; rfl
  have inv := pulse_run hs hi hp ht h1 h2 l 0 c.init ⟨by simp [AccCfg.init]⟩ (fun j hj => h j (by simp [hj]))
  have he1 : c.en1 e = true := by
    cases hasEnable <;> simp_all [AccCfg.en1]
  have hd := (pulse_step hs hi hp ht h1 h2 inv e (h e (by simp))).2 he1
  have hrun : c.run c.init (l ++ [e]) = c.step (c.run c.init l) e := by
    unfold AccCfg.run; rw [List.foldl_append]; rfl
  rw [hrun, hd, Nat.zero_add, hh]
  have hcnt : enabledCount hasEnable (l ++ [e]) = enabledCount hasEnable l + 1 := by
    unfold enabledCount
    rw [List.filter_append, List.length_append]
    have : (e.go && (!hasEnable || e.en)) = true := by rw [← hh]; exact he1
    simp [this]
  rw [hcnt]
  simp only [Nat.dvd_iff_mod_eq_zero]

/-- C27 does not hold for `Pulse` with an interval of more than 2: the interval counter is one bit wide
    (it has the width of the output), so it never reaches `interval - 1` and the pulse never comes. -/
theorem c27_pulse_interval (sw n iv : Nat) (hiv : 3 ≤ iv) (h32 : iv < 2 ^ 32) (hasReset hasEnable : Bool)
    (l : List AccIn) :
    ((pulseCfg sw n (some iv) hasReset hasEnable).run (pulseCfg sw n (some iv) hasReset hasEnable).init
      l).data = 0 := by
  generalize hc : pulseCfg sw n (some iv) hasReset hasEnable = c
  have hi : c.interval = some iv := by rw [← hc]; rfl
  have ht : c.ty = ⟨1, false⟩ := by rw [← hc]; rfl
  have hin : c.initval = 0 := by rw [← hc]; rfl
  have hri : c.regInit = 0 := by rw [← hc]; rfl
  have hm1 : minus1 (max c.ty.width 32) iv = iv - 1 := by
    apply minus1_eq (by omega)
    exact Nat.lt_of_lt_of_le h32 (Nat.pow_le_pow_right (by omega) (by omega))
  have key : ∀ (l : List AccIn) (s : AccSt), s.data = 0 → s.icount < 2 → (c.run s l).data = 0 := by
    intro l
    induction l with
    | nil => intro s h _; exact h
    | cons i l ih =>
      intro s h hk
      have hcur : c.curICount s i < 2 := by unfold AccCfg.curICount; split <;> omega
      have hen2 : c.en2 s i = false := by
        have : (c.curICount s i == iv - 1) = false := by simp; omega
        simp [AccCfg.en2, hi, hm1, this]
      apply ih (c.step s i)
      · simp only [AccCfg.step, hen2, Bool.false_eq_true, if_false, h, hin, ht]
        split <;> rfl
      · simp only [AccCfg.step, hi, hm1, ht]
        split
        · split
          · omega
          · exact Nat.mod_lt _ (by decide)
        · exact hk
  exact key l c.init (by simp [AccCfg.init, hri, ht, Ty.wrap]) (by simp [AccCfg.init])

/-! Examples. -/

private def cnt : CntCfg :=
  { ty := ⟨8, false⟩, step := ⟨⟨3, true⟩, 3⟩, size := some ⟨⟨5, true⟩, 10⟩, hasEnable := true }

private def go : AccIn := { go := true }

example : (⟨⟨5, true⟩, 10⟩ : Val).Ok ∧ cnt.step.Ok ∧ cnt.ty.wrap (10 - 1) = 10 - 1 := by
  unfold Val.Ok; decide
example : (cnt.run cnt.init ([go, go, go, { go := true, en := false }] ++ [go])).data = 9 ∧
    (cnt.run cnt.init ([go, go, go, go] ++ [go])).data = 2 := by decide
example : ({ cnt with offset := some 4, regInit := 4 } : CntCfg).offset = some 4 ∧
    (4 : Int) + (2 - 1 : Nat) * 3 < 10 ∧ (10 : Int) ≤ 4 + (2 : Nat) * 3 := by decide

end Stream
