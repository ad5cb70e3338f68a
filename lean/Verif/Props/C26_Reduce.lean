import Verif.Model.StreamAcc
import Verif.Lemmas.Vlog

/-!
# C26: stream reductions
-/

namespace Stream

open Vlog

/-- The operands of the accepted and enabled cycles. -/
def elems (c : AccCfg) (l : List AccIn) : List Int :=
  (l.filter fun i => i.go && (!c.hasEnable || i.en)).map (·.x)

/-- No accepted cycle asks for a reset. -/
def NoReset (c : AccCfg) (l : List AccIn) : Prop :=
  ∀ i ∈ l, c.hasReset = true → i.go = true → i.rst = false

private theorem elems_cons (c : AccCfg) (i : AccIn) (l : List AccIn) :
    elems c (i :: l) = (if c.en1 i then [i.x] else []) ++ elems c l := by
  unfold elems AccCfg.en1
  by_cases h : (i.go && (!c.hasEnable || i.en)) = true
  · simp only [List.filter_cons, h, if_true, List.map_cons, List.singleton_append]
  · simp only [List.filter_cons, h, if_false, List.nil_append, Bool.false_eq_true]

private theorem elems_append (c : AccCfg) (l l' : List AccIn) :
    elems c (l ++ l') = elems c l ++ elems c l' := by
  unfold elems; rw [List.filter_append, List.map_append]

private theorem run_append (c : AccCfg) (s : AccSt) (l l' : List AccIn) :
    c.run s (l ++ l') = c.run (c.run s l) l' := List.foldl_append

/-- The fold a reduction should compute: the register holds the low bits of every intermediate
    result. -/
def reduce (c : AccCfg) (start : Int) (xs : List Int) : Int :=
  xs.foldl (fun a x => c.ty.wrap (c.op a x)) (c.ty.wrap start)

private theorem reduce_append (c : AccCfg) (start : Int) (xs : List Int) (x : Int) :
    reduce c start (xs ++ [x]) = c.ty.wrap (c.op (reduce c start xs) x) := by
  simp [reduce]

/-! ### No size, no interval -/

private theorem data_noReset {c : AccCfg} (hs : c.size = none) (hi : c.interval = none)
    (hp : c.pulse = false) : ∀ (l : List AccIn) (s : AccSt), NoReset c l →
    (c.run s l).data = (elems c l).foldl (fun a x => c.ty.wrap (c.op a x)) s.data := by
  intro l
  induction l with
  | nil => intro s _; rfl
  | cons i l ih =>
    intro s h
    have hrest := ih (c.step s i) (fun j hj => h j (by simp [hj]))
    show (c.run (c.step s i) l).data = _
    rw [hrest, elems_cons, List.foldl_append]
    congr 1
    have hi' := h i (by simp)
    have hen2 : c.en2 s i = c.en1 i := by simp [AccCfg.en2, hi]
    simp only [AccCfg.step, hen2]
    by_cases he : c.en1 i = true
    · have hgo : i.go = true := by simp [AccCfg.en1] at he; exact he.1
      have hrc : c.resetCond s i = false := by
        simp only [AccCfg.resetCond, hs, Option.isSome_none, Bool.false_and, Bool.or_false]
        cases hr : c.hasReset with
        | false => rfl
        | true => simp [hi' hr hgo]
      simp [he, AccCfg.value, hp, AccCfg.curData, hrc]
    · rw [if_neg he, if_neg he]
      by_cases hg : (c.hasReset && i.go) = true
      · obtain ⟨hr, hgo⟩ := Bool.and_eq_true_iff.1 hg
        have hrc : c.resetCond s i = false := by
          simp [AccCfg.resetCond, hs, hr, hi' hr hgo]
        simp [hrc]
      · simp [hg]

/-- C26, no `size`: before any reset the output is the fold, from the register's initial value, of the
    enabled elements. -/
theorem c26_fold (c : AccCfg) (hs : c.size = none) (hi : c.interval = none) (hp : c.pulse = false)
    (l : List AccIn) (h : NoReset c l) :
    (c.run c.init l).data = reduce c c.regInit (elems c l) := data_noReset hs hi hp l c.init h

/-- C26, no `size`: after an accepted reset the output is the fold, from `initval`, of the enabled
    elements since then, including the one that came with the reset if it is enabled. -/
theorem c26_fold_reset (c : AccCfg) (hs : c.size = none) (hi : c.interval = none)
    (hp : c.pulse = false) (hr : c.hasReset = true) (pre : List AccIn) (e : AccIn) (rest : List AccIn)
    (hgo : e.go = true) (hrst : e.rst = true) (h : NoReset c rest) :
    (c.run c.init (pre ++ e :: rest)).data = reduce c c.initval (elems c (e :: rest)) := by
  rw [run_append]
  generalize c.run c.init pre = s
  show (c.run (c.step s e) rest).data = _
  rw [data_noReset hs hi hp rest _ h, elems_cons]
  unfold reduce
  rw [List.foldl_append]
  congr 1
  have hrc : c.resetCond s e = true := by simp [AccCfg.resetCond, hr, hrst]
  have hen2 : c.en2 s e = c.en1 e := by simp [AccCfg.en2, hi]
  simp only [AccCfg.step, hen2]
  by_cases he : c.en1 e = true
  · simp [he, AccCfg.value, hp, AccCfg.curData, hrc]
  · simp [he, hr, hgo, hrc]

/-- C26: a cycle that is not accepted changes nothing. -/
theorem c26_idle (c : AccCfg) (s : AccSt) (i : AccIn) (h : i.go = false) : c.step s i = s := by
  obtain ⟨d, n, p, k⟩ := s
  have h1 : c.en1 i = false := by simp [AccCfg.en1, h]
  have h2 : c.en2 ⟨d, n, p, k⟩ i = false := by simp [AccCfg.en2, h1]
  simp only [AccCfg.step, h1, h2, h]
  cases c.size <;> cases c.interval <;> simp

/-! ### With a size -/

private theorem minus1_eq {w n : Nat} (h1 : 1 ≤ n) (h2 : n < 2 ^ w) : minus1 w n = n - 1 := by
  unfold minus1
  rw [show n + 2 ^ w - 1 = (n - 1) + 2 ^ w by omega, Nat.add_mod_right, Nat.mod_eq_of_lt (by omega)]

private theorem sizeM1 {sw n : Nat} (h1 : 1 ≤ n) (h2 : n < 2 ^ sw) :
    minus1 (max (countWidth sw) 32) n = n - 1 := by
  apply minus1_eq h1
  exact Nat.lt_of_lt_of_le h2 (Nat.pow_le_pow_right (by omega) (by unfold countWidth; omega))

/-- State of a reduction with size `n` whose block started `xs.length` enabled elements ago, with
    `start` as initial value of the first block. -/
private structure SizeInv (c : AccCfg) (n : Nat) (start : Int) (xs : List Int) (s : AccSt) : Prop where
  count : (if s.prevMax then 0 else s.count) = xs.length % n
  pmax : s.prevMax = true ↔ 0 < xs.length ∧ xs.length % n = 0
  data : (if s.prevMax then c.ty.wrap c.initval else s.data) =
    reduce c (if xs.length < n then start else c.initval) (xs.drop (n * (xs.length / n)))

private theorem size_step {c : AccCfg} {sw n : Nat} (hs : c.size = some (sw, n)) (hi : c.interval = none)
    (hp : c.pulse = false) (h1 : 1 ≤ n) (h2 : n < 2 ^ sw) {start : Int} {xs : List Int} {s : AccSt}
    (inv : SizeInv c n start xs s) (i : AccIn) (hr : c.hasReset = true → i.go = true → i.rst = false) :
    SizeInv c n start (xs ++ if c.en1 i then [i.x] else []) (c.step s i) ∧
    (c.en1 i = true → (c.step s i).data =
      reduce c (if xs.length < n then start else c.initval) (xs.drop (n * (xs.length / n)) ++ [i.x])) := by
  have hen2 : c.en2 s i = c.en1 i := by simp [AccCfg.en2, hi]
  by_cases he : c.en1 i = true
  · have hgo : i.go = true := by simp [AccCfg.en1] at he; exact he.1
    have hrc : c.resetCond s i = s.prevMax := by
      simp only [AccCfg.resetCond, hs, Option.isSome_some, Bool.true_and]
      cases hrr : c.hasReset with
      | false => simp
      | true => simp [hr hrr hgo]
    have hcc : c.curCount s i = xs.length % n := by
      simp only [AccCfg.curCount, hrc]; exact inv.count
    have hcd : c.curData s i = reduce c (if xs.length < n then start else c.initval)
        (xs.drop (n * (xs.length / n))) := by
      simp only [AccCfg.curData, hrc]; exact inv.data
    have hcm : c.countMax s i = decide (xs.length % n = n - 1) := by
      simp only [AccCfg.countMax, hs, hcc, sizeM1 h1 h2]
      have := Nat.mod_lt xs.length (show 0 < n by omega)
      by_cases h : xs.length % n = n - 1
      · simp [h]
      · simp only [h, decide_false, decide_eq_false_iff_not]; omega
    have hdata : (c.step s i).data =
        reduce c (if xs.length < n then start else c.initval) (xs.drop (n * (xs.length / n)) ++ [i.x]) := by
      rw [reduce_append, ← hcd]
      simp only [AccCfg.step, hen2, he, if_true, AccCfg.value, hp, Bool.false_eq_true, if_false]
    refine ⟨?_, fun _ => hdata⟩
    rw [if_pos he]
    have hpm : (c.step s i).prevMax = decide (xs.length % n = n - 1) := by
      simp only [AccCfg.step, hs, hen2, he, if_true, hcm]
    have hmod := Nat.mod_lt xs.length (show 0 < n by omega)
    have hdm := Nat.div_add_mod xs.length n
    by_cases hl : xs.length % n = n - 1
    · have hlen : (xs.length + 1) % n = 0 := by
        rw [Nat.add_mod, hl]
        by_cases hn1 : n = 1
        · subst hn1; rfl
        · rw [Nat.mod_eq_of_lt (show 1 < n by omega), show n - 1 + 1 = n by omega, Nat.mod_self]
      have hlen' : (xs ++ [i.x]).length = xs.length + 1 := by simp
      refine ⟨?_, ?_, ?_⟩
      · rw [hpm, hlen', hlen]; simp [hl]
      · rw [hpm, hlen', hlen]; simp [hl]
      · rw [hpm, hlen', decide_eq_true hl, if_pos rfl]
        have hdiv : n * ((xs.length + 1) / n) = xs.length + 1 := Nat.mul_div_cancel' (Nat.dvd_of_mod_eq_zero hlen)
        rw [hdiv, List.drop_of_length_le (by simp)]
        have hge : ¬ xs.length + 1 < n := by
          intro hlt
          rw [Nat.mod_eq_of_lt hlt] at hlen
          omega
        rw [if_neg hge]
        rfl
    · have hlt : xs.length % n + 1 < n := by omega
      have hlen : (xs.length + 1) % n = xs.length % n + 1 := by
        rw [Nat.add_mod, Nat.mod_eq_of_lt (show 1 < n by omega), Nat.mod_eq_of_lt hlt]
      have hdiv : (xs.length + 1) / n = xs.length / n := by
        have e := Nat.div_add_mod (xs.length + 1) n
        rw [hlen] at e
        have : n * ((xs.length + 1) / n) = n * (xs.length / n) := by omega
        exact Nat.eq_of_mul_eq_mul_left (by omega) this
      have hlen' : (xs ++ [i.x]).length = xs.length + 1 := by simp
      refine ⟨?_, ?_, ?_⟩
      · rw [hpm, decide_eq_false hl, hlen', hlen]
        simp only [Bool.false_eq_true, if_false, AccCfg.step, hs, hen2, he, if_true, hcm,
          decide_eq_false hl, hcc]
        apply Nat.mod_eq_of_lt
        have : (2:Nat) ^ sw ≤ 2 ^ countWidth sw := Nat.pow_le_pow_right (by omega) (by unfold countWidth; omega)
        omega
      · rw [hpm, decide_eq_false hl, hlen', hlen]; simp
      · rw [hpm, decide_eq_false hl, hlen', hdiv]
        simp only [Bool.false_eq_true, if_false]
        rw [hdata]
        congr 1
        · by_cases h : xs.length < n
          · have hm := Nat.mod_eq_of_lt h
            rw [if_pos h, if_pos (by omega)]
          · rw [if_neg h, if_neg (by omega)]
        · rw [List.drop_append_of_le_length]
          omega
  · refine ⟨?_, fun h => absurd h he⟩
    rw [if_neg he, List.append_nil]
    have hc : (c.step s i).count = s.count := by simp [AccCfg.step, hs, hen2, he]
    have hm : (c.step s i).prevMax = s.prevMax := by simp [AccCfg.step, hs, hen2, he]
    refine ⟨by rw [hm, hc]; exact inv.count, by rw [hm]; exact inv.pmax, ?_⟩
    rw [hm, ← inv.data]
    by_cases hpm : s.prevMax = true
    · simp [hpm]
    · rw [if_neg hpm, if_neg hpm]
      simp only [AccCfg.step, hen2, if_neg he]
      rw [if_neg]
      intro h
      simp only [AccCfg.resetCond, hs, Option.isSome_some, Bool.true_and, Bool.and_eq_true,
        Bool.or_eq_true] at h
      obtain ⟨⟨a, b⟩, hc⟩ := h
      rcases hc with h | h
      · rw [hr a b] at h; exact absurd h.2 (by simp)
      · exact hpm h

private theorem size_run {c : AccCfg} {sw n : Nat} (hs : c.size = some (sw, n)) (hi : c.interval = none)
    (hp : c.pulse = false) (h1 : 1 ≤ n) (h2 : n < 2 ^ sw) {start : Int} : ∀ (l : List AccIn) {xs : List Int}
    {s : AccSt}, SizeInv c n start xs s → NoReset c l →
    SizeInv c n start (xs ++ elems c l) (c.run s l) := by
  intro l
  induction l with
  | nil => intro xs s inv _; simpa [elems, AccCfg.run] using inv
  | cons i l ih =>
    intro xs s inv h
    have := ih (size_step hs hi hp h1 h2 inv i (h i (by simp))).1 (fun j hj => h j (by simp [hj]))
    rw [elems_cons, ← List.append_assoc]
    exact this

/-- The elements of the block the last of `xs` belongs to, if blocks have `n` elements. -/
def lastBlock (n : Nat) (xs : List Int) : List Int := xs.drop (n * ((xs.length - 1) / n))

/-- C26, `size = n`: right after an enabled element the output is the fold over the elements of the
    current block of `n` elements; the first block starts from the register's initial value, the
    later ones from `initval`. -/
theorem c26_size (c : AccCfg) {sw n : Nat} (hs : c.size = some (sw, n)) (hi : c.interval = none)
    (hp : c.pulse = false) (h1 : 1 ≤ n) (h2 : n < 2 ^ sw) (l : List AccIn) (e : AccIn)
    (he : e.go = true ∧ (c.hasEnable = true → e.en = true)) (h : NoReset c (l ++ [e])) :
    (c.run c.init (l ++ [e])).data =
      reduce c (if (elems c (l ++ [e])).length ≤ n then c.regInit else c.initval)
        (lastBlock n (elems c (l ++ [e]))) := by
  have inv0 : SizeInv c n c.regInit [] c.init := by
    refine ⟨by simp [AccCfg.init], by simp [AccCfg.init], ?_⟩
    have : ([] : List Int).length < n := by simp; omega
    rw [if_pos this]
    simp [AccCfg.init, reduce]
  have inv := size_run hs hi hp h1 h2 l inv0 (fun j hj => h j (by simp [hj]))
  have he1 : c.en1 e = true := by
    cases hc : c.hasEnable <;> simp_all [AccCfg.en1]
  have := (size_step hs hi hp h1 h2 inv e (h e (by simp))).2 he1
  rw [run_append]
  show (c.step (c.run c.init l) e).data = _
  rw [this]
  simp only [List.nil_append, elems_append]
  have hee : elems c [e] = [e.x] := by rw [elems_cons, if_pos he1]; rfl
  rw [hee]
  unfold lastBlock
  have hlen : (elems c l ++ [e.x]).length = (elems c l).length + 1 := by simp
  rw [hlen, Nat.add_sub_cancel, List.drop_append_of_le_length (Nat.mul_div_le _ _)]
  rfl

/-- C26, `size = n`: the same after an accepted reset that comes with an enabled element, which is then
    the first element of a block. -/
theorem c26_size_reset (c : AccCfg) {sw n : Nat} (hs : c.size = some (sw, n)) (hi : c.interval = none)
    (hp : c.pulse = false) (h1 : 1 ≤ n) (h2 : n < 2 ^ sw) (hr : c.hasReset = true)
    (pre : List AccIn) (e : AccIn) (l : List AccIn) (f : AccIn)
    (he : e.go = true ∧ e.rst = true ∧ (c.hasEnable = true → e.en = true))
    (hf : f.go = true ∧ (c.hasEnable = true → f.en = true)) (h : NoReset c (l ++ [f])) :
    (c.run c.init (pre ++ e :: (l ++ [f]))).data =
      reduce c c.initval (lastBlock n (elems c (e :: (l ++ [f])))) := by
  rw [run_append]
  generalize c.run c.init pre = s
  have he1 : c.en1 e = true := by
    cases hc : c.hasEnable <;> simp_all [AccCfg.en1]
  have hf1 : c.en1 f = true := by
    cases hc : c.hasEnable <;> simp_all [AccCfg.en1]
  -- the reset cycle acts like the first cycle of a fresh run
  have hrc : c.resetCond s e = true := by simp [AccCfg.resetCond, hr, he.2.1]
  have hen2 : c.en2 s e = true := by simp [AccCfg.en2, hi, he1]
  have inv1 : SizeInv c n c.initval [e.x] (c.step s e) := by
    have hcm : c.countMax s e = decide (n = 1) := by
      simp only [AccCfg.countMax, hs, AccCfg.curCount, hrc, if_true, sizeM1 h1 h2]
      by_cases h : n = 1
      · simp [h]
      · simp [h]; omega
    have hd : (c.step s e).data = reduce c c.initval [e.x] := by
      simp [AccCfg.step, hen2, AccCfg.value, hp, AccCfg.curData, hrc, reduce]
    have hpm : (c.step s e).prevMax = decide (n = 1) := by
      simp [AccCfg.step, hs, hen2, hcm]
    by_cases hn : n = 1
    · subst hn
      refine ⟨by rw [hpm]; simp, by rw [hpm]; simp, ?_⟩
      rw [hpm]
      simp [reduce]
    · refine ⟨?_, ?_, ?_⟩
      · rw [hpm]
        simp [hn, AccCfg.step, hs, hen2, hcm, AccCfg.curCount, hrc]
        rw [Nat.mod_eq_of_lt (show 1 < n by omega)]
        apply Nat.mod_eq_of_lt
        have : (2:Nat) ^ 1 ≤ 2 ^ countWidth sw := Nat.pow_le_pow_right (by omega) (by unfold countWidth; omega)
        omega
      · rw [hpm]
        simp [hn]
      · rw [hpm, hd]
        have : (1 : Nat) / n = 0 := Nat.div_eq_of_lt (by omega)
        simp [hn, this]
  have inv := size_run hs hi hp h1 h2 l inv1 (fun j hj => h j (by simp [hj]))
  have := (size_step hs hi hp h1 h2 inv f (h f (by simp))).2 hf1
  show (c.run (c.step s e) (l ++ [f])).data = _
  rw [run_append]
  show (c.step (c.run (c.step s e) l) f).data = _
  rw [this]
  have hee : elems c (e :: (l ++ [f])) = [e.x] ++ elems c l ++ [f.x] := by
    rw [elems_cons, if_pos he1, elems_append, elems_cons, if_pos hf1, List.append_assoc]; rfl
  rw [hee]
  unfold lastBlock
  generalize [e.x] ++ elems c l = ys
  have hlen : (ys ++ [f.x]).length = ys.length + 1 := by simp
  rw [hlen, Nat.add_sub_cancel, List.drop_append_of_le_length (Nat.mul_div_le _ _), ite_self]

/-! ### With an interval -/

/-- Every `iv`-th element of a list, starting with number `iv`. -/
def everyNth (iv : Nat) (xs : List Int) : List Int :=
  (List.range (xs.length / iv)).map fun k => xs.getD (k * iv + (iv - 1)) 0

private theorem everyNth_snoc (iv : Nat) (h : 1 ≤ iv) (xs : List Int) (x : Int) :
    everyNth iv (xs ++ [x]) = everyNth iv xs ++ if xs.length % iv = iv - 1 then [x] else [] := by
  unfold everyNth
  have hdm := Nat.div_add_mod xs.length iv
  have hmod := Nat.mod_lt xs.length (show 0 < iv by omega)
  have hmap : ∀ m, m * iv ≤ xs.length →
      (List.range m).map (fun k => (xs ++ [x]).getD (k * iv + (iv - 1)) 0) =
      (List.range m).map (fun k => xs.getD (k * iv + (iv - 1)) 0) := by
    intro m hm
    apply List.map_congr_left
    intro k hk
    have hk' := List.mem_range.1 hk
    have h2 : (k + 1) * iv ≤ m * iv := Nat.mul_le_mul_right _ hk'
    rw [Nat.succ_mul] at h2
    have hlt : k * iv + (iv - 1) < xs.length := by omega
    simp [List.getD_eq_getElem?_getD, List.getElem?_append_left hlt]
  by_cases hl : xs.length % iv = iv - 1
  · have hdiv : (xs ++ [x]).length / iv = xs.length / iv + 1 := by
      rw [List.length_append, List.length_singleton]
      have : xs.length + 1 = iv * (xs.length / iv + 1) := by
        rw [Nat.mul_add, Nat.mul_one]; omega
      rw [this, Nat.mul_div_cancel_left _ (by omega)]
    rw [hdiv, List.range_succ, List.map_append, if_pos hl, hmap _ (by rw [Nat.mul_comm]; omega)]
    congr 1
    simp only [List.map_cons, List.map_nil]
    have : xs.length / iv * iv + (iv - 1) = xs.length := by rw [Nat.mul_comm]; omega
    rw [this]
    simp [List.getD_eq_getElem?_getD]
  · have hdiv : (xs ++ [x]).length / iv = xs.length / iv := by
      rw [List.length_append, List.length_singleton]
      apply Nat.div_eq_of_lt_le
      · rw [Nat.mul_comm]; omega
      · rw [Nat.succ_mul, Nat.mul_comm]; omega
    rw [hdiv, if_neg hl, List.append_nil, hmap _ (by rw [Nat.mul_comm]; omega)]

/-- C26, `interval = iv`, no `size`: the output is the fold of every `iv`-th enabled element. -/
theorem c26_interval (c : AccCfg) {iv : Nat} (hs : c.size = none) (hi : c.interval = some iv)
    (hp : c.pulse = false) (h1 : 1 ≤ iv) (h2 : iv ≤ 2 ^ c.ty.width) (h3 : iv < 2 ^ 32)
    (l : List AccIn) (h : NoReset c l) :
    (c.run c.init l).data = reduce c c.regInit (everyNth iv (elems c l)) := by
  have hm1 : minus1 (max c.ty.width 32) iv = iv - 1 := by
    apply minus1_eq h1
    exact Nat.lt_of_lt_of_le h3 (Nat.pow_le_pow_right (by omega) (by omega))
  have key : ∀ (l : List AccIn) (xs : List Int) (s : AccSt), NoReset c l →
      s.icount = xs.length % iv → s.data = reduce c c.regInit (everyNth iv xs) →
      (c.run s l).data = reduce c c.regInit (everyNth iv (xs ++ elems c l)) := by
    intro l
    induction l with
    | nil => intro xs s _ _ hd; simpa [elems, AccCfg.run] using hd
    | cons i l ih =>
      intro xs s hn hc hd
      have hi' := hn i (by simp)
      have hmod := Nat.mod_lt xs.length (show 0 < iv by omega)
      show (c.run (c.step s i) l).data = _
      rw [elems_cons, ← List.append_assoc]
      by_cases he : c.en1 i = true
      · have hgo : i.go = true := by simp [AccCfg.en1] at he; exact he.1
        have hrc : c.resetCond s i = false := by
          simp only [AccCfg.resetCond, hs, Option.isSome_none, Bool.false_and, Bool.or_false]
          cases hr : c.hasReset with
          | false => rfl
          | true => simp [hi' hr hgo]
        have hcur : c.curICount s i = xs.length % iv := by simp [AccCfg.curICount, hrc, hc]
        have hen2 : c.en2 s i = decide (xs.length % iv = iv - 1) := by
          simp only [AccCfg.en2, hi, he, hcur, hm1, Bool.true_and]
          rfl
        rw [if_pos he]
        apply ih _ _ (fun j hj => hn j (by simp [hj]))
        · simp only [AccCfg.step, hi, he, if_true, hcur, hm1, List.length_append, List.length_singleton]
          by_cases hl : xs.length % iv = iv - 1
          · rw [if_pos (by omega)]
            rw [Nat.add_mod, hl]
            by_cases hv : iv = 1
            · subst hv; rfl
            · rw [Nat.mod_eq_of_lt (show 1 < iv by omega), show iv - 1 + 1 = iv by omega, Nat.mod_self]
          · have e1 : (xs.length % iv + 1) % 2 ^ c.ty.width = xs.length % iv + 1 :=
              Nat.mod_eq_of_lt (by omega)
            have e2 : (xs.length % iv + 1) % iv = xs.length % iv + 1 := Nat.mod_eq_of_lt (by omega)
            rw [if_neg (by omega), e1, Nat.add_mod, Nat.mod_eq_of_lt (show 1 < iv by omega), e2]
        · rw [everyNth_snoc iv h1]
          simp only [AccCfg.step, hen2]
          by_cases hl : xs.length % iv = iv - 1
          · rw [if_pos hl, reduce_append, ← hd]
            simp [hl, AccCfg.value, hp, AccCfg.curData, hrc]
          · rw [if_neg hl, List.append_nil]
            simp [hl, hrc, hd]
      · rw [if_neg he, List.append_nil]
        have hen2 : c.en2 s i = false := by simp [AccCfg.en2, he]
        apply ih _ _ (fun j hj => hn j (by simp [hj]))
        · simp only [AccCfg.step, hi, if_neg he]; exact hc
        · simp only [AccCfg.step, hen2]
          rw [if_neg (by simp)]
          by_cases hg : (c.hasReset && i.go) = true
          · obtain ⟨hr, hgo⟩ := Bool.and_eq_true_iff.1 hg
            have hrc : c.resetCond s i = false := by
              simp [AccCfg.resetCond, hs, hr, hi' hr hgo]
            simp [hrc, hd]
          · simp [hg, hd]
  have := key l [] c.init h (by simp [AccCfg.init]) (by simp [AccCfg.init, everyNth, reduce])
  simpa using this

/-- C26 does not hold for `size` together with `interval ≥ 2` (and no reset): once a block is complete
    (`prev_count_max` is 1) the accumulator never takes another element, because `prev_count_max`
    holds `current_interval_count` at 0. -/
theorem c26_interval_stuck (c : AccCfg) {sw n iv : Nat} (hs : c.size = some (sw, n))
    (hi : c.interval = some iv) (h1 : 2 ≤ iv) (h2 : iv < 2 ^ 32) (hr : c.hasReset = false)
    (s : AccSt) (h : s.prevMax = true) (l : List AccIn) :
    (c.run s l).data = s.data ∧ (c.run s l).prevMax = true := by
  induction l generalizing s with
  | nil => exact ⟨rfl, h⟩
  | cons i l ih =>
    have hrc : c.resetCond s i = true := by simp [AccCfg.resetCond, hs, h]
    have hm1 : minus1 (max c.ty.width 32) iv = iv - 1 := by
      apply minus1_eq (by omega)
      exact Nat.lt_of_lt_of_le h2 (Nat.pow_le_pow_right (by omega) (by omega))
    have hen2 : c.en2 s i = false := by
      simp only [AccCfg.en2, hi, AccCfg.curICount, hrc, if_true, hm1]
      have : (0 == iv - 1) = false := by simp; omega
      simp [this]
    have hd : (c.step s i).data = s.data := by simp [AccCfg.step, hen2, hr]
    have hp : (c.step s i).prevMax = true := by simp [AccCfg.step, hs, hen2, h]
    have := ih (c.step s i) hp
    rw [hd] at this
    exact this

/-- A concrete reachable instance: `ReduceAdd(x, size=2, interval=2)` fed with ones stays at 2. -/
theorem c26_interval_stuck_reachable :
    let c : AccCfg := { ty := ⟨32, true⟩, op := fun a x => a + x, size := some (3, 2), interval := some 2 }
    (c.run c.init (List.replicate 4 { go := true, x := 1 })).prevMax = true ∧
    (c.run c.init (List.replicate 4 { go := true, x := 1 })).data = 2 := by decide

/-- C26 does not hold for a reset that comes without an enabled element: it clears the sum but not
    the position in the block, so the block after it is too short (`size = 3`: elements 1, reset,
    then 1, 1, 1 give 1, 2, 1 instead of 1, 2, 3). -/
theorem c26_reset_disabled :
    let c : AccCfg := { ty := ⟨32, true⟩, op := fun a x => a + x, size := some (3, 3),
                        hasReset := true, hasEnable := true }
    let pre : List AccIn := [{ go := true, x := 1 }, { go := true, en := false, rst := true }]
    let one : AccIn := { go := true, x := 1 }
    (c.run c.init (pre ++ [one])).data = 1 ∧ (c.run c.init (pre ++ [one, one])).data = 2 ∧
    (c.run c.init (pre ++ [one, one, one])).data = 1 := by decide

/-! ### The operators -/

/-- C26: `ReduceAdd` is the sum, in the type of the result, if the operand is not a negative number
    read as unsigned. -/
theorem c26_add (c : AccCfg) (xt : Ty) (hop : c.op = addOp c.ty xt)
    (hsg : xt.signed = true → c.ty.signed = true ∨ c.ty.width ≤ xt.width) (start : Int) (xs : List Int)
    (hx : ∀ x ∈ xs, (⟨xt, x⟩ : Val).Ok) : reduce c start xs = c.ty.wrap (start + xs.sum) := by
  have step : ∀ a x : Int, (⟨xt, x⟩ : Val).Ok → c.ty.wrap (c.op a x) = c.ty.wrap (a + x) := by
    intro a x hok
    rw [hop]
    apply Ty.wrap_congr
    unfold addOp
    rw [Int.add_emod, Val.read_emod ⟨c.ty, a⟩, ]
    have hx : (⟨xt, x⟩ : Val).read (c.ty.signed && xt.signed) % (2 ^ c.ty.width : Nat) =
        x % (2 ^ c.ty.width : Nat) := by
      cases hs : xt.signed with
      | false => rw [Val.read_unsigned hok hs]
      | true =>
        rcases hsg hs with h | h
        · rw [h]; rfl
        · cases hcs : c.ty.signed with
          | true => rfl
          | false =>
            simp only [Val.read, Bool.false_and, Bool.false_eq_true, if_false]
            apply Int.emod_emod_of_dvd
            exact_mod_cast Nat.pow_dvd_pow 2 h
    rw [hx, ← Int.add_emod]
  have key : ∀ (xs : List Int) (a : Int), (∀ x ∈ xs, (⟨xt, x⟩ : Val).Ok) →
      xs.foldl (fun a x => c.ty.wrap (c.op a x)) (c.ty.wrap a) = c.ty.wrap (a + xs.sum) := by
    intro xs
    induction xs with
    | nil => intro a _; simp
    | cons x xs ih =>
      intro a h
      rw [List.foldl_cons, step _ _ (h x (by simp)), Ty.wrap_add_wrap, ih _ fun y hy => h y (by simp [hy]),
        List.sum_cons, Int.add_assoc]
  exact key xs start hx

/-- C26: `ReduceSub` subtracts all elements. -/
theorem c26_sub (c : AccCfg) (xt : Ty) (hop : c.op = subOp c.ty xt)
    (hsg : xt.signed = true → c.ty.signed = true ∨ c.ty.width ≤ xt.width) (start : Int) (xs : List Int)
    (hx : ∀ x ∈ xs, (⟨xt, x⟩ : Val).Ok) : reduce c start xs = c.ty.wrap (start - xs.sum) := by
  have step : ∀ a x : Int, (⟨xt, x⟩ : Val).Ok → c.ty.wrap (c.op a x) = c.ty.wrap (a - x) := by
    intro a x hok
    rw [hop]
    apply Ty.wrap_congr
    unfold subOp
    rw [Int.sub_emod, Val.read_emod ⟨c.ty, a⟩, ]
    have hx : (⟨xt, x⟩ : Val).read (c.ty.signed && xt.signed) % (2 ^ c.ty.width : Nat) =
        x % (2 ^ c.ty.width : Nat) := by
      cases hs : xt.signed with
      | false => rw [Val.read_unsigned hok hs]
      | true =>
        rcases hsg hs with h | h
        · rw [h]; rfl
        · cases hcs : c.ty.signed with
          | true => rfl
          | false =>
            simp only [Val.read, Bool.false_and, Bool.false_eq_true, if_false]
            apply Int.emod_emod_of_dvd
            exact_mod_cast Nat.pow_dvd_pow 2 h
    rw [hx, ← Int.sub_emod]
  have key : ∀ (xs : List Int) (a : Int), (∀ x ∈ xs, (⟨xt, x⟩ : Val).Ok) →
      xs.foldl (fun a x => c.ty.wrap (c.op a x)) (c.ty.wrap a) = c.ty.wrap (a - xs.sum) := by
    intro xs
    induction xs with
    | nil => intro a _; simp
    | cons x xs ih =>
      intro a h
      rw [List.foldl_cons, step _ _ (h x (by simp))]
      have : c.ty.wrap (c.ty.wrap a - x) = c.ty.wrap (a - x) := by
        rw [Int.sub_eq_add_neg, Ty.wrap_add_wrap, ← Int.sub_eq_add_neg]
      rw [this, ih _ fun y hy => h y (by simp [hy]), List.sum_cons]
      congr 1; omega
  exact key xs start hx

/-- C26: `ReduceMax` is the greatest of the initial value and the elements, if the elements have the
    signedness of the result and fit in it. -/
theorem c26_max (c : AccCfg) (xt : Ty) (hop : c.op = maxOp c.ty xt) (hsg : xt.signed = c.ty.signed)
    (hw : xt.width ≤ c.ty.width) (start : Int) (hst : c.ty.wrap start = start) (xs : List Int)
    (hx : ∀ x ∈ xs, (⟨xt, x⟩ : Val).Ok) :
    reduce c start xs ∈ start :: xs ∧ ∀ x ∈ start :: xs, x ≤ reduce c start xs := by
  have step : ∀ a x : Int, c.ty.wrap a = a → (⟨xt, x⟩ : Val).Ok → c.ty.wrap (c.op a x) = max a x := by
    intro a x ha hok
    have h1 : (⟨c.ty, a⟩ : Val).read c.ty.signed = a := Val.read_self (v := ⟨c.ty, a⟩) ha
    have h2 : (⟨xt, x⟩ : Val).read c.ty.signed = x := by
      rw [← hsg]; exact Val.read_self (v := ⟨xt, x⟩) hok
    have hx' : c.ty.wrap x = x :=
      Ty.wrap_of_inRange _ (Ty.inRange_mono ((Val.ok_iff _).1 hok) hsg hw)
    rw [hop]
    simp only [maxOp, hsg, Bool.and_self, h1, h2]
    split
    · rw [hx', Int.max_eq_right (by omega)]
    · rw [ha, Int.max_eq_left (by omega)]
  have key : ∀ (xs : List Int) (a : Int), c.ty.wrap a = a → (∀ x ∈ xs, (⟨xt, x⟩ : Val).Ok) →
      xs.foldl (fun a x => c.ty.wrap (c.op a x)) a = xs.foldl max a := by
    intro xs
    induction xs with
    | nil => intro a _ _; rfl
    | cons x xs ih =>
      intro a ha h
      rw [List.foldl_cons, List.foldl_cons, step a x ha (h x (by simp))]
      apply ih _ _ fun y hy => h y (by simp [hy])
      rw [← step a x ha (h x (by simp)), Ty.wrap_wrap]
  have spec : ∀ (xs : List Int) (a : Int), xs.foldl max a ∈ a :: xs ∧ ∀ x ∈ a :: xs, x ≤ xs.foldl max a := by
    intro xs
    induction xs with
    | nil => intro a; simp
    | cons x xs ih =>
      intro a
      obtain ⟨h1, h2⟩ := ih (max a x)
      rw [List.foldl_cons]
      refine ⟨?_, ?_⟩
      · rcases List.mem_cons.1 h1 with h | h
        · rw [h]
          rcases Int.le_total a x with hl | hl
          · rw [Int.max_eq_right hl]; simp
          · rw [Int.max_eq_left hl]; simp
        · simp [h]
      · intro y hy
        have hm := h2 (max a x) (by simp)
        rcases List.mem_cons.1 hy with rfl | hy
        · omega
        · rcases List.mem_cons.1 hy with rfl | hy
          · omega
          · exact h2 y (by simp [hy])
  unfold reduce
  rw [hst, key xs start hst hx]
  exact spec xs start

/-- C26: `ReduceMin` is the least of the initial value and the elements, if the elements have the
    signedness of the result and fit in it. -/
theorem c26_min (c : AccCfg) (xt : Ty) (hop : c.op = minOp c.ty xt) (hsg : xt.signed = c.ty.signed)
    (hw : xt.width ≤ c.ty.width) (start : Int) (hst : c.ty.wrap start = start) (xs : List Int)
    (hx : ∀ x ∈ xs, (⟨xt, x⟩ : Val).Ok) :
    reduce c start xs ∈ start :: xs ∧ ∀ x ∈ start :: xs, reduce c start xs ≤ x := by
  have step : ∀ a x : Int, c.ty.wrap a = a → (⟨xt, x⟩ : Val).Ok → c.ty.wrap (c.op a x) = min a x := by
    intro a x ha hok
    have h1 : (⟨c.ty, a⟩ : Val).read c.ty.signed = a := Val.read_self (v := ⟨c.ty, a⟩) ha
    have h2 : (⟨xt, x⟩ : Val).read c.ty.signed = x := by
      rw [← hsg]; exact Val.read_self (v := ⟨xt, x⟩) hok
    have hx' : c.ty.wrap x = x :=
      Ty.wrap_of_inRange _ (Ty.inRange_mono ((Val.ok_iff _).1 hok) hsg hw)
    rw [hop]
    simp only [minOp, hsg, Bool.and_self, h1, h2]
    split
    · rw [hx', Int.min_eq_right (by omega)]
    · rw [ha, Int.min_eq_left (by omega)]
  have key : ∀ (xs : List Int) (a : Int), c.ty.wrap a = a → (∀ x ∈ xs, (⟨xt, x⟩ : Val).Ok) →
      xs.foldl (fun a x => c.ty.wrap (c.op a x)) a = xs.foldl min a := by
    intro xs
    induction xs with
    | nil => intro a _ _; rfl
    | cons x xs ih =>
      intro a ha h
      rw [List.foldl_cons, List.foldl_cons, step a x ha (h x (by simp))]
      apply ih _ _ fun y hy => h y (by simp [hy])
      rw [← step a x ha (h x (by simp)), Ty.wrap_wrap]
  have spec : ∀ (xs : List Int) (a : Int), xs.foldl min a ∈ a :: xs ∧ ∀ x ∈ a :: xs, xs.foldl min a ≤ x := by
    intro xs
    induction xs with
    | nil => intro a; simp
    | cons x xs ih =>
      intro a
      obtain ⟨h1, h2⟩ := ih (min a x)
      rw [List.foldl_cons]
      refine ⟨?_, ?_⟩
      · rcases List.mem_cons.1 h1 with h | h
        · rw [h]
          rcases Int.le_total a x with hl | hl
          · rw [Int.min_eq_left hl]; simp
          · rw [Int.min_eq_right hl]; simp
        · simp [h]
      · intro y hy
        have hm := h2 (min a x) (by simp)
        rcases List.mem_cons.1 hy with rfl | hy
        · omega
        · rcases List.mem_cons.1 hy with rfl | hy
          · omega
          · exact h2 y (by simp [hy])
  unfold reduce
  rw [hst, key xs start hst hx]
  exact spec xs start

/-! Examples. -/

private def sum3 : AccCfg :=
  { ty := ⟨8, true⟩, op := addOp ⟨8, true⟩ ⟨8, true⟩, size := some (3, 3), hasReset := true, hasEnable := true }

private def el (x : Int) : AccIn := { go := true, x := x }

example : sum3.size = some (3, 3) ∧ sum3.interval = none ∧ sum3.pulse = false ∧ 3 < 2 ^ 3 := by decide
example : NoReset sum3 ([el 1, { go := true, en := false, x := 9 }, el 2, el 3] ++ [el 4]) := by
  intro i hi; simp [el] at hi; rcases hi with rfl | rfl | rfl | rfl | rfl <;> simp
example : (sum3.run sum3.init ([el 1, { go := true, en := false, x := 9 }, el 2, el 3] ++ [el 4])).data = 4 := by
  decide
example : (sum3.run sum3.init [el 1, el 2, { go := true, rst := true, x := 5 }, el 6, el 100, el 7]).data = 7 ∧
    (sum3.run sum3.init [el 1, el 2, { go := true, rst := true, x := 5 }, el 6, el 100]).data = 111 := by decide

end Stream
