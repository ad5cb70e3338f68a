import Verif.Model.ReduceValid
import Verif.Props.C27_Counter

/-!
# C80: reductions with a valid signal, and the position of the maximum
-/

namespace Stream

open Vlog

/-! ### The valid signal -/

/-- What the reader of a reduction and its valid signal sees of a sequence of cycles: the value of the
    reduction for every record (accepted cycle) for which the valid signal is 1. -/
def reports (c p : AccCfg) : AccSt → AccSt → List AccIn → List Int
  | _, _, [] => []
  | s, q, i :: l =>
    (if i.go && (p.step q i).data == 1 then [(c.step s i).data] else []) ++
      reports c p (c.step s i) (p.step q i) l

/-- The complete blocks of `n` elements: those that end within `xs`, if the block that is being filled
    has the elements `cur`. -/
def blocks (n : Nat) : List Int → List Int → List (List Int)
  | _, [] => []
  | cur, x :: xs =>
    if cur.length + 1 = n then (cur ++ [x]) :: blocks n [] xs else blocks n (cur ++ [x]) xs

/-- The block that is being filled by the elements `cur`. -/
private structure BlockInv (c : AccCfg) (n : Nat) (cur : List Int) (s q : AccSt) : Prop where
  len : cur.length < n
  count : (if s.prevMax then 0 else s.count) = cur.length
  data : (if s.prevMax then c.ty.wrap c.initval else s.data) = reduce c c.initval cur
  qcount : (if q.prevMax then 0 else q.count) = cur.length
  qdata : q.prevMax = false → q.data = 0

private theorem sizeM1' {sw n : Nat} (h1 : 1 ≤ n) (h2 : n < 2 ^ sw) :
    minus1 (max (countWidth sw) 32) n = n - 1 := by
  apply minus1_eq h1
  exact Nat.lt_of_lt_of_le h2 (Nat.pow_le_pow_right (by omega) (by unfold countWidth; omega))

private theorem reduce_snoc (c : AccCfg) (start : Int) (xs : List Int) (x : Int) :
    reduce c start (xs ++ [x]) = c.ty.wrap (c.op (reduce c start xs) x) := by
  simp [reduce]

/-- An enabled record whose block so far has the elements `cur`. -/
private theorem block_enabled {c : AccCfg} {sw n : Nat} (hs : c.size = some (sw, n))
    (hi : c.interval = none) (hp : c.pulse = false) (h1 : 1 ≤ n) (h2 : n < 2 ^ sw) {cur : List Int}
    {s q : AccSt} {i : AccIn} (he : c.en1 i = true) (len : cur.length < n)
    (hcc : c.curCount s i = cur.length) (hcd : c.curData s i = reduce c c.initval cur)
    (hqc : (c.validOf sw n).curCount q i = cur.length) :
    ((c.validOf sw n).step q i).data = (if cur.length + 1 = n then 1 else 0) ∧
    (c.step s i).data = reduce c c.initval (cur ++ [i.x]) ∧
    BlockInv c n (if cur.length + 1 = n then [] else cur ++ [i.x]) (c.step s i)
      ((c.validOf sw n).step q i) := by
  have hen2 : c.en2 s i = true := by simp [AccCfg.en2, hi, he]
  have hqe : (c.validOf sw n).en2 q i = true := by
    simpa [AccCfg.en2, AccCfg.validOf, pulseCfg, AccCfg.en1] using he
  have hcm : c.countMax s i = decide (cur.length + 1 = n) := by
    simp only [AccCfg.countMax, hs, hcc, sizeM1' h1 h2]
    by_cases h : cur.length + 1 = n
    · simp only [h, decide_true, decide_eq_true_eq]; omega
    · simp only [h, decide_false, decide_eq_false_iff_not]; omega
  have hqm : (c.validOf sw n).countMax q i = decide (cur.length + 1 = n) := by
    have : (c.validOf sw n).size = some (sw, n) := rfl
    simp only [AccCfg.countMax, this, hqc, sizeM1' h1 h2]
    by_cases h : cur.length + 1 = n
    · simp only [h, decide_true, decide_eq_true_eq]; omega
    · simp only [h, decide_false, decide_eq_false_iff_not]; omega
  have hd : (c.step s i).data = reduce c c.initval (cur ++ [i.x]) := by
    rw [reduce_snoc, ← hcd]
    simp [AccCfg.step, hen2, AccCfg.value, hp]
  have hmod : (cur.length + 1) % 2 ^ countWidth sw = cur.length + 1 := by
    apply Nat.mod_eq_of_lt
    have : (2:Nat) ^ sw < 2 ^ countWidth sw := Nat.pow_lt_pow_right (by omega) (by unfold countWidth; omega)
    omega
  have hqs : (c.validOf sw n).size = some (sw, n) := rfl
  have hqp : (c.validOf sw n).pulse = true := rfl
  have hqt : (c.validOf sw n).ty = ⟨1, false⟩ := rfl
  have hqd : ((c.validOf sw n).step q i).data = if cur.length + 1 = n then 1 else 0 := by
    simp only [AccCfg.step, hqe, if_true, AccCfg.value, hqp, hqm, hqt]
    by_cases h : cur.length + 1 = n
    · simp only [h, decide_true, if_true]; rfl
    · simp only [h, decide_false, Bool.false_eq_true, if_false]; rfl
  refine ⟨hqd, hd, ?_⟩
  by_cases h : cur.length + 1 = n
  · rw [if_pos h]
    have e1 : (c.step s i).prevMax = true := by simp [AccCfg.step, hs, hen2, hcm, h]
    have e2 : ((c.validOf sw n).step q i).prevMax = true := by simp [AccCfg.step, hqs, hqe, hqm, h]
    exact ⟨by simp; omega, by simp [e1], by simp [e1, reduce], by simp [e2], by simp [e2]⟩
  · rw [if_neg h]
    have e1 : (c.step s i).prevMax = false := by simp [AccCfg.step, hs, hen2, hcm, h]
    have e2 : ((c.validOf sw n).step q i).prevMax = false := by simp [AccCfg.step, hqs, hqe, hqm, h]
    have e3 : (c.step s i).count = cur.length + 1 := by
      simp [AccCfg.step, hs, hen2, hcm, h, hcc, hmod]
    have e4 : ((c.validOf sw n).step q i).count = cur.length + 1 := by
      simp [AccCfg.step, hqs, hqe, hqm, h, hqc, hmod]
    exact ⟨by simp; omega, by simp [e1, e3], by simp [e1, hd], by simp [e2, e4],
      fun _ => by rw [hqd, if_neg h]⟩

private theorem block_step {c : AccCfg} {sw n : Nat} (hs : c.size = some (sw, n))
    (hi : c.interval = none) (hp : c.pulse = false) (h1 : 1 ≤ n) (h2 : n < 2 ^ sw)
    (her : c.hasEnable = true → c.hasReset = true) {cur : List Int} {s q : AccSt}
    (inv : BlockInv c n cur s q) (i : AccIn) (hr : c.hasReset = true → i.go = true → i.rst = false) :
    if c.en1 i then
      ((c.validOf sw n).step q i).data = (if cur.length + 1 = n then 1 else 0) ∧
      (c.step s i).data = reduce c c.initval (cur ++ [i.x]) ∧
      BlockInv c n (if cur.length + 1 = n then [] else cur ++ [i.x]) (c.step s i)
        ((c.validOf sw n).step q i)
    else
      (i.go = true → ((c.validOf sw n).step q i).data = 0) ∧
      BlockInv c n cur (c.step s i) ((c.validOf sw n).step q i) := by
  have hqs : (c.validOf sw n).size = some (sw, n) := rfl
  by_cases he : c.en1 i = true
  · rw [if_pos he]
    have hgo : i.go = true := by simp [AccCfg.en1] at he; exact he.1
    have hnr : (c.hasReset && i.rst) = false := by
      cases hrr : c.hasReset with
      | false => rfl
      | true => simp [hr hrr hgo]
    have hrc : c.resetCond s i = s.prevMax := by simp [AccCfg.resetCond, hs, hnr]
    have hqr : (c.validOf sw n).resetCond q i = q.prevMax := by
      simp only [AccCfg.resetCond, hqs]
      show ((c.hasReset && i.rst) || _) = _
      rw [hnr]; simp
    apply block_enabled hs hi hp h1 h2 he inv.len
    · simp only [AccCfg.curCount, hrc]; exact inv.count
    · simp only [AccCfg.curData, hrc]; exact inv.data
    · simp only [AccCfg.curCount, hqr]; exact inv.qcount
  · rw [if_neg he]
    have hen2 : c.en2 s i = false := by simp [AccCfg.en2, hi, he]
    have hqe : (c.validOf sw n).en2 q i = false := by
      have : (c.validOf sw n).en1 i = c.en1 i := rfl
      simp [AccCfg.en2, this, he]
    have hnr : i.go = true → (c.hasReset && i.rst) = false := by
      intro hgo
      cases hrr : c.hasReset with
      | false => rfl
      | true => simp [hr hrr hgo]
    have e1 : (c.step s i).prevMax = s.prevMax := by simp [AccCfg.step, hs, hen2]
    have e2 : ((c.validOf sw n).step q i).prevMax = q.prevMax := by simp [AccCfg.step, hqs, hqe]
    have e3 : (c.step s i).count = s.count := by simp [AccCfg.step, hs, hen2]
    have e4 : ((c.validOf sw n).step q i).count = q.count := by simp [AccCfg.step, hqs, hqe]
    have e5 : s.prevMax = false → (c.step s i).data = s.data := by
      intro hpm
      simp only [AccCfg.step, hen2, Bool.false_eq_true, if_false]
      rw [if_neg]
      simp only [AccCfg.resetCond, hpm, Bool.and_false, Bool.or_false, Bool.and_eq_true, not_and]
      intro ⟨_, hg⟩ h hh
      have := hnr hg
      simp [h, hh] at this
    have e6 : i.go = true → ((c.validOf sw n).step q i).data = 0 := by
      intro hgo
      have hhe : c.hasEnable = true := by
        cases hh : c.hasEnable with
        | true => rfl
        | false => exact absurd (by simp [AccCfg.en1, hgo, hh]) he
      have hhr := her hhe
      have hqh : (c.validOf sw n).hasReset = true := hhr
      simp only [AccCfg.step, hqe, Bool.false_eq_true, if_false, hqh, hgo, Bool.and_self, Bool.true_and]
      cases hpm : q.prevMax with
      | true => simp [AccCfg.resetCond, hqs, hpm]; rfl
      | false =>
        have : (c.validOf sw n).resetCond q i = false := by
          have := hnr hgo
          simp only [AccCfg.resetCond, hpm, hqh, Bool.and_false, Bool.or_false, Bool.true_and]
          simpa [hhr] using this
        rw [this]
        simpa using inv.qdata hpm
    refine ⟨e6, ⟨inv.len, by rw [e1, e3]; exact inv.count, ?_, by rw [e2, e4]; exact inv.qcount, ?_⟩⟩
    · rw [e1, ← inv.data]
      cases hpm : s.prevMax with
      | true => rfl
      | false => simp [e5 hpm]
    · rw [e2]
      intro hpm
      cases hgo : i.go with
      | true => exact e6 hgo
      | false =>
        rw [← inv.qdata hpm]
        simp [AccCfg.step, hqe, hgo]

private theorem elems_cons' (c : AccCfg) (i : AccIn) (l : List AccIn) :
    elems c (i :: l) = (if c.en1 i then [i.x] else []) ++ elems c l := by
  unfold elems AccCfg.en1
  by_cases h : (i.go && (!c.hasEnable || i.en)) = true
  · simp only [List.filter_cons, h, if_true, List.map_cons, List.singleton_append]
  · simp only [List.filter_cons, h, if_false, List.nil_append, Bool.false_eq_true]

private theorem block_run {c : AccCfg} {sw n : Nat} (hs : c.size = some (sw, n))
    (hi : c.interval = none) (hp : c.pulse = false) (h1 : 1 ≤ n) (h2 : n < 2 ^ sw)
    (her : c.hasEnable = true → c.hasReset = true) : ∀ (l : List AccIn) {cur : List Int} {s q : AccSt},
    BlockInv c n cur s q → NoReset c l →
    reports c (c.validOf sw n) s q l = (blocks n cur (elems c l)).map (reduce c c.initval) := by
  intro l
  induction l with
  | nil => intro cur s q _ _; rfl
  | cons i l ih =>
    intro cur s q inv hn
    have hst := block_step hs hi hp h1 h2 her inv i (hn i (by simp))
    have hn' : NoReset c l := fun j hj => hn j (by simp [hj])
    rw [elems_cons']
    unfold reports
    by_cases he : c.en1 i = true
    · have hgo : i.go = true := by simp [AccCfg.en1] at he; exact he.1
      rw [if_pos he] at hst
      obtain ⟨a, b, d⟩ := hst
      rw [if_pos he, List.singleton_append, blocks, a, b, hgo, ih d hn']
      by_cases h : cur.length + 1 = n
      · simp [h]
      · simp [h]
    · rw [if_neg he] at hst
      rw [if_neg he, List.nil_append, ih hst.2 hn']
      cases hgo : i.go with
      | false => simp
      | true => simp [hst.1 hgo]

/-- C80: from power-up on, the reader who takes the reduction when the valid signal is 1 gets the
    reduction of every complete block of `size` enabled elements, in order and each once. -/
theorem c80_valid (c : AccCfg) {sw n : Nat} (hs : c.size = some (sw, n)) (hi : c.interval = none)
    (hp : c.pulse = false) (hri : c.regInit = c.initval) (h1 : 1 ≤ n) (h2 : n < 2 ^ sw)
    (her : c.hasEnable = true → c.hasReset = true) (l : List AccIn) (h : NoReset c l) :
    reports c (c.validOf sw n) c.init (c.validOf sw n).init l =
      (blocks n [] (elems c l)).map (reduce c c.initval) := by
  apply block_run hs hi hp h1 h2 her l _ h
  refine ⟨by simp; omega, rfl, ?_, rfl, fun _ => rfl⟩
  simp [AccCfg.init, reduce, hri]

/-- C80: the same from any state on, if the first record is enabled and has the reset. -/
theorem c80_valid_reset (c : AccCfg) {sw n : Nat} (hs : c.size = some (sw, n)) (hi : c.interval = none)
    (hp : c.pulse = false) (h1 : 1 ≤ n) (h2 : n < 2 ^ sw) (hr : c.hasReset = true) (s q : AccSt)
    (e : AccIn) (he : e.go = true ∧ e.rst = true ∧ (c.hasEnable = true → e.en = true))
    (l : List AccIn) (h : NoReset c l) :
    reports c (c.validOf sw n) s q (e :: l) =
      (blocks n [] (elems c (e :: l))).map (reduce c c.initval) := by
  have he1 : c.en1 e = true := by
    obtain ⟨a, _, b⟩ := he
    cases hc : c.hasEnable <;> simp_all [AccCfg.en1]
  have hqr : (c.validOf sw n).hasReset = true := hr
  have hst := block_enabled (cur := []) (s := s) (q := q) hs hi hp h1 h2 he1 (by simp; omega)
    (by simp [AccCfg.curCount, AccCfg.resetCond, hr, he.2.1])
    (by simp [AccCfg.curData, AccCfg.resetCond, hr, he.2.1, reduce])
    (by simp [AccCfg.curCount, AccCfg.resetCond, hqr, he.2.1])
  obtain ⟨a, b, d⟩ := hst
  rw [elems_cons', if_pos he1, List.singleton_append, blocks]
  unfold reports
  rw [a, b, he.1, block_run hs hi hp h1 h2 (fun _ => hr) l d h]
  by_cases hn : ([] : List Int).length + 1 = n
  · simp only [if_pos hn]; simp
  · simp only [if_neg hn]; simp

/-- C80 does not hold with `enable` but without `reset`: a record that is not enabled leaves the valid
    signal and the value as they are, so the value is reported again. -/
theorem c80_not_disabled (c : AccCfg) (sw n : Nat) (he : c.hasEnable = true)
    (hr : c.hasReset = false) (s q : AccSt) (hq : q.data = 1) (i : AccIn) (hgo : i.go = true)
    (hen : i.en = false) : reports c (c.validOf sw n) s q [i] = [s.data] := by
  have h1 : c.en2 s i = false := by simp [AccCfg.en2, AccCfg.en1, he, hen]
  have h2 : (c.validOf sw n).en2 q i = false := by
    have h : (c.validOf sw n).en1 i = c.en1 i := rfl
    have h' : c.en1 i = false := by simp [AccCfg.en1, he, hen]
    simp only [AccCfg.en2, h, h', Bool.false_and]
  have h3 : (c.validOf sw n).hasReset = false := hr
  simp [reports, AccCfg.step, h1, h2, h3, hr, hgo, hq]

/-- The sum of two elements is reported three times. -/
theorem c80_not_disabled_reached :
    let c : AccCfg := { ty := ⟨32, true⟩, op := fun a x => a + x, size := some (3, 2), hasEnable := true }
    let off : AccIn := { go := true, en := false }
    reports c (c.validOf 3 2) c.init (c.validOf 3 2).init
      [{ go := true, x := 3 }, { go := true, x := 4 }, off, off] = [7, 7, 7] := by decide

/-- C80 does not hold with an interval: the valid signal does not have it.  With size 2 and interval 2
    the sum of ones is reported after two records as 1, and after four as 2. -/
theorem c80_not_interval :
    let c : AccCfg := { ty := ⟨32, true⟩, op := fun a x => a + x, size := some (3, 2), interval := some 2 }
    reports c (c.validOf 3 2) c.init (c.validOf 3 2).init
      (List.replicate 6 { go := true, x := 1 }) = [1, 2, 2] := by decide

/-! ### CounterValid -/

/-- C80: the valid signal of `CounterValid(size)` is 1 for exactly the records with the last value,
    `size - 1`. -/
theorem c80_counter (c : CntCfg) {size : Val} {sw n : Nat} (hs : c.size = some size)
    (hn : size.val = n) (ho : c.offset = none) (hi : c.interval = none) (hok : size.Ok)
    (hst : c.step.Ok) (hst1 : c.step.val = 1) (hri : c.regInit = 0) (h1 : 1 ≤ n) (h2 : n < 2 ^ sw)
    (hfit : c.ty.wrap (n - 1) = n - 1) (l : List AccIn) (e : AccIn)
    (he : e.go = true ∧ (c.hasEnable = true → e.en = true)) (h : CntNoReset c (l ++ [e])) :
    ((c.validOf sw n).run (c.validOf sw n).init (l ++ [e])).data =
      if (c.run c.init (l ++ [e])).data = n - 1 then 1 else 0 := by
  have hp := c27_pulse sw n c.hasReset c.hasEnable h1 h2 l e he h
  have hc := c27_size c hs ho (by intro iv hv; rw [hi] at hv; cases hv) hok hst (by omega) (by omega)
    (by rw [hn]; exact hfit) (by omega) l e h he.1
  have hcnt : enabledCount c.hasEnable (l ++ [e]) = enabledCount c.hasEnable l + 1 := by
    unfold enabledCount
    rw [List.filter_append, List.length_append]
    have : (e.go && (!c.hasEnable || e.en)) = true := by
      cases hc : c.hasEnable <;> simp_all
    simp [this]
  rw [hcnt] at hp
  rw [CntCfg.validOf, hp, hc, hi, hri, hst1, hn]
  simp only [Option.getD_none, Nat.div_one, Int.zero_add, Int.mul_one]
  generalize enabledCount c.hasEnable l = k
  have e1 : ((k : Int) % n = n - 1) ↔ k % n = n - 1 := by omega
  have e2 : n ∣ k + 1 ↔ k % n = n - 1 := by
    rw [Nat.dvd_iff_mod_eq_zero]
    have hm := Nat.mod_lt k (show 0 < n by omega)
    have hdm := Nat.div_add_mod k n
    constructor
    · intro h
      have hd := Nat.div_add_mod (k + 1) n
      rw [h, Nat.add_zero] at hd
      by_contra hne
      have : (k + 1) % n = k % n + 1 := by
        rw [Nat.add_mod, Nat.mod_eq_of_lt (show 1 < n by omega), Nat.mod_eq_of_lt (by omega)]
      omega
    · intro h
      rw [Nat.add_mod, h]
      by_cases hn1 : n = 1
      · subst hn1; rfl
      · rw [Nat.mod_eq_of_lt (show 1 < n by omega), show n - 1 + 1 = n by omega, Nat.mod_self]
  by_cases h : k % n = n - 1
  · rw [if_pos (e2.2 h), if_pos (e1.2 h)]
  · rw [if_neg (fun hh => h (e2.1 hh)), if_neg (fun hh => h (e1.1 hh))]

/-- C80 does not hold for a counter with a step of 2: its period is `size / 2` but that of its valid
    signal is `size`. -/
theorem c80_not_counter_step :
    let c : CntCfg := { ty := ⟨32, false⟩, step := ⟨⟨3, true⟩, 2⟩, size := some ⟨⟨4, true⟩, 4⟩ }
    let one : AccIn := { go := true }
    ([1, 2, 3, 4].map fun k => (c.run c.init (List.replicate k one)).data) = [0, 2, 0, 2] ∧
    ([1, 2, 3, 4].map fun k =>
      ((c.validOf 4 4).run (c.validOf 4 4).init (List.replicate k one)).data) = [0, 0, 0, 1] := by decide

/-! ### The position of the maximum -/

/-- The value the register of `Predicate` has after the next advance of the stream. -/
private def ArgSt.settled (s : ArgSt) : Int := if s.v1 && s.update then s.cnt.data else s.idx

private theorem idx_adv (c : ArgCfg) (s : ArgSt) (i : ArgIn) (h : i.adv = true) :
    (c.step s i).idx = s.settled := by
  simp [ArgCfg.step, ArgSt.settled, h]

private theorem step_stay (c : ArgCfg) (s : ArgSt) (i : ArgIn) (h : i.adv = false) :
    (c.step s i) = s := by
  have h1 : i.toAcc.go = false := by simp [ArgIn.toAcc, h]
  simp [ArgCfg.step, h, c26_idle c.acc s.mx _ h1, c27_idle c.cnt s.cnt _ h1]

private theorem settled_step (c : ArgCfg) (s : ArgSt) (i : ArgIn) :
    (c.step s i).settled =
      if (i.adv && i.valid) && (c.step s i).mx.data != s.mx.data then (c.step s i).cnt.data
      else s.settled := by
  cases ha : i.adv with
  | false => rw [step_stay c s i ha]; simp
  | true =>
    cases hv : i.valid with
    | false =>
      have h1 : i.toAcc.go = false := by simp [ArgIn.toAcc, hv]
      simp [ArgCfg.step, ArgSt.settled, ha, hv]
    | true =>
      have : (c.step s i).prev = s.mx.data := by simp [ArgCfg.step, ha]
      have h2 : (c.step s i).v1 = true := by simp [ArgCfg.step, ha, hv]
      rw [← idx_adv c s i ha]
      simp only [ArgSt.settled, ArgSt.update, this, h2, Bool.true_and]

/-- The operands of the enabled records. -/
def ArgCfg.elems (c : ArgCfg) (l : List ArgIn) : List Int := Stream.elems c.acc (l.map ArgIn.toAcc)

/-- The size fits: the reduction and the counter have the same size, between 1 and `2 ^ 32`, and a block
    has `k` elements, or there is no size and `k` is at most `2 ^ 32`. -/
structure ArgCfg.Room (c : ArgCfg) (k : Nat) : Prop where
  le : k ≤ 2 ^ 32
  same : c.acc.size = c.size.map fun v => (v.ty.width, v.val.toNat)
  fits : ∀ v, c.size = some v → v.Ok ∧ v.val.toNat < 2 ^ v.ty.width ∧ 1 ≤ v.val ∧ v.val ≤ 2 ^ 32 ∧ k ≤ v.val

/-- In the middle of a block: `j` elements, not yet complete. -/
private structure MidInv (c : ArgCfg) (j : Nat) (s : ArgSt) : Prop where
  pmax : c.acc.size.isSome = true → s.mx.prevMax = false
  count : c.acc.size.isSome = true → s.mx.count = j
  cnt : s.cnt.count = j

private theorem cnt_next {c : ArgCfg} {k j : Nat} (hr : c.Room k) (hj : j + 1 < k) :
    c.cnt.next j = (j + 1 : Nat) := by
  have hst : (⟨⟨2, true⟩, 1⟩ : Val).Ok := by
    show Ty.wrap _ _ = _
    decide
  cases hs : c.size with
  | none =>
    have h := next_plain (c := c.cnt) hs hst (Or.inl (by show (0 : Int) ≤ 1; omega)) 0 j
    have hw : ∀ v : Nat, v < 2 ^ 32 → c.cnt.ty.wrap (0 + (v : Int) * c.cnt.step.val) = v := by
      intro v hv
      show (⟨32, false⟩ : Ty).wrap (0 + (v : Int) * 1) = v
      rw [Int.zero_add, Int.mul_one]
      apply Ty.wrap_of_inRange
      unfold Ty.InRange
      simp only [Bool.false_eq_true, if_false]
      omega
    have hle := hr.le
    rw [hw j (by omega), hw (j + 1) (by omega)] at h
    exact h
  | some v =>
    obtain ⟨hok, _, h1, h2, hk⟩ := hr.fits v hs
    have h := next_size (c := c.cnt) hs rfl hok hst (by show (0 : Int) < 1; omega) h1 (by
      show (⟨32, false⟩ : Ty).wrap _ = _
      apply Ty.wrap_of_inRange
      unfold Ty.InRange
      simp only [Bool.false_eq_true, if_false]
      omega) 0 j
    have hw : ∀ u : Nat, u < k → (0 + (u : Int) * c.cnt.step.val) % v.val = u := by
      intro u hu
      show (0 + (u : Int) * 1) % v.val = u
      rw [Int.zero_add, Int.mul_one]
      exact Int.emod_eq_of_lt (by omega) (by omega)
    rw [hw j (by omega), hw (j + 1) hj] at h
    exact h

/-- An enabled record at position `j` of its block. -/
private theorem arg_enabled {c : ArgCfg} {k j : Nat} (hr : c.Room k) (hi : c.acc.interval = none)
    (hp : c.acc.pulse = false) (hj : j < k) {s : ArgSt} {i : ArgIn} (he : c.acc.en1 i.toAcc = true)
    (hcc : c.acc.size.isSome = true → c.acc.curCount s.mx i.toAcc = j)
    (hcnt : c.cnt.curCount s.cnt i.toAcc = j) :
    (c.step s i).mx.data = c.acc.ty.wrap (c.acc.op (c.acc.curData s.mx i.toAcc) i.x) ∧
    (c.step s i).cnt.data = j ∧ (j + 1 < k → MidInv c (j + 1) (c.step s i)) := by
  have hen2 : c.acc.en2 s.mx i.toAcc = true := by simp [AccCfg.en2, hi, he]
  have hgo : i.toAcc.go = true := by simp [AccCfg.en1] at he; exact he.1
  have hce : c.cnt.en2 s.cnt i.toAcc = true := by
    simpa [CntCfg.en2, ArgCfg.cnt, CntCfg.en1, AccCfg.en1] using he
  refine ⟨by simp only [ArgCfg.step, AccCfg.step, hen2, if_true, AccCfg.value, hp]; rfl,
    by simp [ArgCfg.step, CntCfg.stepSt, hgo, hcnt], fun hjk => ?_⟩
  have h3 : (c.step s i).cnt.count = (j + 1 : Nat) := by
    simp only [ArgCfg.step, CntCfg.stepSt, hce, if_true, hcnt]
    exact cnt_next hr hjk
  cases hs : c.size with
  | none =>
    have : c.acc.size = none := by rw [hr.same, hs]; rfl
    exact ⟨by simp [this], by simp [this], h3⟩
  | some v =>
    obtain ⟨hok, hw, h1, h2, hk⟩ := hr.fits v hs
    have hsz : c.acc.size = some (v.ty.width, v.val.toNat) := by rw [hr.same, hs]; rfl
    have hcc' := hcc (by rw [hsz]; rfl)
    have hcm : c.acc.countMax s.mx i.toAcc = false := by
      simp only [AccCfg.countMax, hsz, hcc', sizeM1' (show 1 ≤ v.val.toNat by omega) hw,
        decide_eq_false_iff_not]
      omega
    refine ⟨fun _ => ?_, fun _ => ?_, h3⟩
    · simp [ArgCfg.step, AccCfg.step, hsz, hen2, hcm]
    · simp only [ArgCfg.step, AccCfg.step, hsz, hen2, if_true, hcm, Bool.false_eq_true, if_false, hcc']
      apply Nat.mod_eq_of_lt
      have : (2:Nat) ^ v.ty.width ≤ 2 ^ countWidth v.ty.width :=
        Nat.pow_le_pow_right (by omega) (by unfold countWidth; omega)
      omega

/-- The reduction and the index after the elements of a list, if before they were `m` and `idx` and the
    first element has position `j`. -/
private def scan (sel : Int → Int → Int) (m idx : Int) (j : Nat) : List Int → Int × Int
  | [] => (m, idx)
  | y :: ys => scan sel (sel m y) (if sel m y = m then idx else j) (j + 1) ys

private theorem scan_append (sel : Int → Int → Int) (a b : List Int) : ∀ (m idx : Int) (j : Nat),
    scan sel m idx j (a ++ b) =
      scan sel (scan sel m idx j a).1 (scan sel m idx j a).2 (j + a.length) b := by
  induction a with
  | nil => intro m idx j; simp [scan]
  | cons y ys ih =>
    intro m idx j
    simp only [List.cons_append, scan, List.length_cons]
    rw [ih, show j + 1 + ys.length = j + (ys.length + 1) by omega]

private theorem elems_cons_arg (c : ArgCfg) (i : ArgIn) (l : List ArgIn) :
    c.elems (i :: l) = (if c.acc.en1 i.toAcc then [i.x] else []) ++ c.elems l := by
  unfold ArgCfg.elems
  rw [List.map_cons, elems_cons']
  rfl

/-- No record of the list asks for a reset. -/
def ArgCfg.NoReset (c : ArgCfg) (l : List ArgIn) : Prop :=
  ∀ i ∈ l, c.acc.hasReset = true → i.adv = true → i.valid = true → i.rst = false

private theorem go_split {i : ArgIn} (h : i.toAcc.go = true) : i.adv = true ∧ i.valid = true := by
  simpa [ArgIn.toAcc] using h

/-- A record that is not enabled, or no record, in the middle of a block. -/
private theorem arg_disabled {c : ArgCfg} {j : Nat} (hi : c.acc.interval = none) {s : ArgSt} {i : ArgIn}
    (he : c.acc.en1 i.toAcc = false) (hn : c.acc.hasReset = true → i.adv = true → i.valid = true → i.rst = false)
    (inv : MidInv c j s) :
    (c.step s i).mx = s.mx ∧ (c.step s i).settled = s.settled ∧ MidInv c j (c.step s i) := by
  have hce : c.cnt.en2 s.cnt i.toAcc = false := by
    have : c.cnt.en1 i.toAcc = c.acc.en1 i.toAcc := rfl
    simp [CntCfg.en2, this, he]
  have hen2 : c.acc.en2 s.mx i.toAcc = false := by simp [AccCfg.en2, he]
  have hrc : (c.acc.hasReset && i.toAcc.go && c.acc.resetCond s.mx i.toAcc) = false := by
    by_contra h
    simp only [Bool.not_eq_false, Bool.and_eq_true, AccCfg.resetCond, Bool.or_eq_true] at h
    obtain ⟨⟨a, b⟩, d⟩ := h
    have hg := go_split b
    rcases d with d | d
    · have := hn a hg.1 hg.2
      rw [show i.toAcc.rst = i.rst from rfl, this] at d
      exact absurd d.2 (by simp)
    · rw [inv.pmax d.1] at d; exact absurd d.2 (by simp)
  have hmx : (c.step s i).mx = s.mx := by
    show c.acc.step s.mx i.toAcc = s.mx
    obtain ⟨⟨d, n, p, k⟩, _, _, _, _⟩ := s
    simp only [AccCfg.step, hen2, hrc, Bool.false_eq_true, if_false, hi]
    cases c.acc.size <;> rfl
  refine ⟨hmx, ?_, ⟨by rw [hmx]; exact inv.pmax, by rw [hmx]; exact inv.count, ?_⟩⟩
  · rw [settled_step, hmx]; simp
  · simp only [ArgCfg.step, CntCfg.stepSt, hce, Bool.false_eq_true, if_false]
    exact inv.cnt

private theorem arg_run {c : ArgCfg} {k : Nat} (hr : c.Room k) (hi : c.acc.interval = none)
    (hp : c.acc.pulse = false) : ∀ (l : List ArgIn) (j : Nat) (s : ArgSt), (j < k → MidInv c j s) →
    c.NoReset l → j + (c.elems l).length ≤ k →
    ((∀ i ∈ l, i.adv = true → i.valid = true → c.acc.hasEnable = true → i.en = true) ∨
      j + (c.elems l).length < k) →
    ((c.run s l).mx.data, (c.run s l).settled) =
      scan (fun a x => c.acc.ty.wrap (c.acc.op a x)) s.mx.data s.settled j (c.elems l) := by
  intro l
  induction l with
  | nil => intro j s _ _ _ _; rfl
  | cons i l ih =>
    intro j s hm hn hk hd
    have hn' : c.NoReset l := fun x hx => hn x (by simp [hx])
    have hni := hn i (by simp)
    rw [elems_cons_arg] at hk hd ⊢
    show ((c.run (c.step s i) l).mx.data, (c.run (c.step s i) l).settled) = _
    by_cases he : c.acc.en1 i.toAcc = true
    · rw [if_pos he] at hk hd ⊢
      simp only [List.length_append, List.length_singleton] at hk hd
      have hg := go_split (show i.toAcc.go = true by simp [AccCfg.en1] at he; exact he.1)
      have inv := hm (by omega)
      have hnr : (c.acc.hasReset && i.toAcc.rst) = false := by
        cases hh : c.acc.hasReset with
        | false => rfl
        | true => simpa [ArgIn.toAcc] using hni hh hg.1 hg.2
      have hrc : c.acc.resetCond s.mx i.toAcc = false := by
        simp only [AccCfg.resetCond, hnr, Bool.false_or]
        cases hh : c.acc.size.isSome with
        | false => rfl
        | true => simpa using inv.pmax hh
      obtain ⟨a, b, d⟩ := arg_enabled hr hi hp (show j < k by omega) he
        (s := s) (fun h => by simp only [AccCfg.curCount, hrc]; exact inv.count h)
        (by
          have : (c.cnt.hasReset && i.toAcc.rst) = false := hnr
          simp only [CntCfg.curCount, this]; exact inv.cnt)
      have hcd : c.acc.curData s.mx i.toAcc = s.mx.data := by simp [AccCfg.curData, hrc]
      rw [hcd] at a
      rw [ih (j + 1) (c.step s i) d hn' (by omega) (by
        rcases hd with h | h
        · exact Or.inl fun x hx => h x (by simp [hx])
        · exact Or.inr (by omega))]
      rw [List.singleton_append]
      show _ = scan _ (c.acc.ty.wrap (c.acc.op s.mx.data i.x)) _ _ _
      rw [settled_step, a, b, hg.1, hg.2]
      congr 1
      by_cases hx : c.acc.ty.wrap (c.acc.op s.mx.data i.x) = s.mx.data
      · simp [hx]
      · simp [hx]
    · have he' : c.acc.en1 i.toAcc = false := by simpa using he
      rw [if_neg he, List.nil_append] at hk hd ⊢
      by_cases hgo : i.toAcc.go = true
      · have hg := go_split hgo
        have hlt : j + (c.elems l).length < k := by
          rcases hd with h | h
          · exfalso
            apply he
            simp only [AccCfg.en1, hgo, Bool.true_and, Bool.or_eq_true, Bool.not_eq_true']
            cases hh : c.acc.hasEnable with
            | false => exact Or.inl rfl
            | true => exact Or.inr (h i (by simp) hg.1 hg.2 hh)
          · exact h
        obtain ⟨a, b, d⟩ := arg_disabled hi he' hni (hm (by omega))
        rw [ih j (c.step s i) (fun _ => d) hn' (by omega) (Or.inr hlt), a, b]
      · have hgo' : i.toAcc.go = false := by simpa using hgo
        have hmx : (c.step s i).mx = s.mx := c26_idle c.acc s.mx _ hgo'
        have hcn : (c.step s i).cnt = s.cnt := c27_idle c.cnt s.cnt _ hgo'
        have hse : (c.step s i).settled = s.settled := by rw [settled_step, hmx]; simp
        rw [ih j (c.step s i) (fun h => ⟨by rw [hmx]; exact (hm h).pmax, by rw [hmx]; exact (hm h).count,
          by rw [hcn]; exact (hm h).cnt⟩) hn' hk (by
          rcases hd with h | h
          · exact Or.inl fun x hx => h x (by simp [hx])
          · exact Or.inr h), hmx, hse]

/-! #### Where a block begins -/

/-- The number of elements since the first block began, with a size. -/
private structure HistInv (c : ArgCfg) (n len : Nat) (s : ArgSt) : Prop where
  count : (if s.mx.prevMax then 0 else s.mx.count) = len % n
  cnt : s.cnt.count = (len % n : Nat)
  data : len % n = 0 → (if s.mx.prevMax then c.acc.ty.wrap c.acc.initval else s.mx.data) =
    c.acc.ty.wrap c.acc.initval

/-- The size of a configuration is sound (with blocks of any length up to it). -/
private theorem Room.size {c : ArgCfg} {k : Nat} (hr : c.Room k) {v : Val} (hs : c.size = some v) :
    v.Ok ∧ v.val.toNat < 2 ^ v.ty.width ∧ 1 ≤ v.val ∧ v.val ≤ 2 ^ 32 := by
  obtain ⟨a, b, d, e, _⟩ := hr.fits v hs
  exact ⟨a, b, d, e⟩

private theorem mod_succ (len n : Nat) (h : 1 ≤ n) :
    (len + 1) % n = if len % n + 1 = n then 0 else len % n + 1 := by
  have hm := Nat.mod_lt len (show 0 < n by omega)
  rw [Nat.add_mod]
  by_cases hl : len % n + 1 = n
  · rw [if_pos hl]
    by_cases hn : n = 1
    · subst hn; simp [Nat.mod_one]
    · rw [Nat.mod_eq_of_lt (show 1 < n by omega), hl, Nat.mod_self]
  · rw [if_neg hl, Nat.mod_eq_of_lt (show 1 < n by omega), Nat.mod_eq_of_lt (by omega)]

private theorem hist_enabled {c : ArgCfg} {k : Nat} (hr : c.Room k) (hi : c.acc.interval = none) {v : Val}
    (hs : c.size = some v) {len : Nat} {s : ArgSt} {i : ArgIn} (he : c.acc.en1 i.toAcc = true)
    (hcc : c.acc.curCount s.mx i.toAcc = len % v.val.toNat)
    (hcnt : c.cnt.curCount s.cnt i.toAcc = (len % v.val.toNat : Nat)) :
    HistInv c v.val.toNat (len + 1) (c.step s i) := by
  obtain ⟨hok, hw, h1, h2⟩ := Room.size hr hs
  have hsz : c.acc.size = some (v.ty.width, v.val.toNat) := by rw [hr.same, hs]; rfl
  have hn1 : 1 ≤ v.val.toNat := by omega
  have hen2 : c.acc.en2 s.mx i.toAcc = true := by simp [AccCfg.en2, hi, he]
  have hce : c.cnt.en2 s.cnt i.toAcc = true := by
    simpa [CntCfg.en2, ArgCfg.cnt, CntCfg.en1, AccCfg.en1] using he
  have hm := Nat.mod_lt len (show 0 < v.val.toNat by omega)
  have hms := mod_succ len v.val.toNat hn1
  have hcm : c.acc.countMax s.mx i.toAcc = decide (len % v.val.toNat + 1 = v.val.toNat) := by
    simp only [AccCfg.countMax, hsz, hcc, sizeM1' hn1 hw]
    by_cases h : len % v.val.toNat + 1 = v.val.toNat
    · simp only [h, decide_true, decide_eq_true_eq]; omega
    · simp only [h, decide_false, decide_eq_false_iff_not]; omega
  have hpm : (c.step s i).mx.prevMax = decide (len % v.val.toNat + 1 = v.val.toNat) := by
    simp [ArgCfg.step, AccCfg.step, hsz, hen2, hcm]
  have hmod : (len % v.val.toNat + 1) % 2 ^ countWidth v.ty.width = len % v.val.toNat + 1 := by
    apply Nat.mod_eq_of_lt
    have : (2:Nat) ^ v.ty.width < 2 ^ countWidth v.ty.width :=
      Nat.pow_lt_pow_right (by omega) (by unfold countWidth; omega)
    omega
  refine ⟨?_, ?_, ?_⟩
  · rw [hms, hpm]
    by_cases h : len % v.val.toNat + 1 = v.val.toNat
    · simp [h]
    · simp [h, ArgCfg.step, AccCfg.step, hsz, hen2, hcm, hcc, hmod]
  · have hst : (⟨⟨2, true⟩, 1⟩ : Val).Ok := by
      show Ty.wrap _ _ = _
      decide
    have h := next_size (c := c.cnt) hs rfl hok hst (by show (0 : Int) < 1; omega) h1 (by
      show (⟨32, false⟩ : Ty).wrap _ = _
      apply Ty.wrap_of_inRange
      unfold Ty.InRange
      simp only [Bool.false_eq_true, if_false]
      omega) 0 len
    have e : ∀ u : Nat, (0 + (u : Int) * c.cnt.step.val) % v.val = (u % v.val.toNat : Nat) := by
      intro u
      show (0 + (u : Int) * 1) % v.val = _
      rw [Int.zero_add, Int.mul_one]
      have : v.val = (v.val.toNat : Int) := by omega
      rw [this]
      exact (Int.natCast_mod u v.val.toNat).symm
    rw [e, e] at h
    simp only [ArgCfg.step, CntCfg.stepSt, hce, if_true, hcnt]
    exact h
  · intro h0
    rw [hms] at h0
    rw [hpm]
    by_cases h : len % v.val.toNat + 1 = v.val.toNat
    · simp [h]
    · rw [if_neg h] at h0; omega

private theorem hist_run {c : ArgCfg} {k : Nat} (hr : c.Room k) (hi : c.acc.interval = none) {v : Val}
    (hs : c.size = some v) : ∀ (l : List ArgIn) (len : Nat) (s : ArgSt), HistInv c v.val.toNat len s →
    c.NoReset l → HistInv c v.val.toNat (len + (c.elems l).length) (c.run s l) := by
  have hsz : c.acc.size = some (v.ty.width, v.val.toNat) := by rw [hr.same, hs]; rfl
  intro l
  induction l with
  | nil => intro len s h _; exact h
  | cons i l ih =>
    intro len s inv hn
    have hn' : c.NoReset l := fun x hx => hn x (by simp [hx])
    have hni := hn i (by simp)
    rw [elems_cons_arg]
    show HistInv c v.val.toNat _ (c.run (c.step s i) l)
    have hnr : i.toAcc.go = true → (c.acc.hasReset && i.toAcc.rst) = false := by
      intro h
      have hg := go_split h
      cases hh : c.acc.hasReset with
      | false => rfl
      | true => simpa [ArgIn.toAcc] using hni hh hg.1 hg.2
    by_cases he : c.acc.en1 i.toAcc = true
    · rw [if_pos he]
      have hgo : i.toAcc.go = true := by simp [AccCfg.en1] at he; exact he.1
      have hrc : c.acc.resetCond s.mx i.toAcc = s.mx.prevMax := by
        simp [AccCfg.resetCond, hnr hgo, hsz]
      have := hist_enabled hr hi hs (s := s) he (by simp only [AccCfg.curCount, hrc]; exact inv.count)
        (by
          have : (c.cnt.hasReset && i.toAcc.rst) = false := hnr hgo
          simp only [CntCfg.curCount, this]; exact inv.cnt)
      have := ih _ _ this hn'
      simpa [Nat.add_assoc, Nat.add_comm] using this
    · rw [if_neg he, List.nil_append]
      apply ih _ _ _ hn'
      have he' : c.acc.en1 i.toAcc = false := by simpa using he
      have hce : c.cnt.en2 s.cnt i.toAcc = false := by
        have : c.cnt.en1 i.toAcc = c.acc.en1 i.toAcc := rfl
        simp [CntCfg.en2, this, he']
      have hen2 : c.acc.en2 s.mx i.toAcc = false := by simp [AccCfg.en2, he']
      have e1 : (c.step s i).mx.prevMax = s.mx.prevMax := by simp [ArgCfg.step, AccCfg.step, hsz, hen2]
      have e2 : (c.step s i).mx.count = s.mx.count := by simp [ArgCfg.step, AccCfg.step, hsz, hen2]
      have e3 : (c.step s i).cnt.count = s.cnt.count := by simp [ArgCfg.step, CntCfg.stepSt, hce]
      refine ⟨by rw [e1, e2]; exact inv.count, by rw [e3]; exact inv.cnt, fun h0 => ?_⟩
      have hd := inv.data h0
      rw [e1]
      cases hpm : s.mx.prevMax with
      | true => rfl
      | false =>
        rw [hpm] at hd
        simp only [Bool.false_eq_true, if_false] at hd ⊢
        simp only [ArgCfg.step, AccCfg.step, hen2, Bool.false_eq_true, if_false]
        split
        · rfl
        · exact hd

/-- A whole number of blocks, or none if there is no size. -/
def ArgCfg.Whole (c : ArgCfg) (len : Nat) : Prop :=
  match c.size with
  | none => len = 0
  | some v => v.val.toNat ∣ len

/-- The next enabled record is the first of a block: it has the reset, or a whole number of blocks has
    gone by since power-up, or since the last reset that came with an enabled record. -/
def ArgCfg.Begins (c : ArgCfg) (s : ArgSt) (e : ArgIn) : Prop :=
  (c.acc.hasReset = true ∧ e.rst = true) ∨
  (c.acc.hasReset = true → e.rst = false) ∧
  ((∃ pre, s = c.run c.init pre ∧ c.NoReset pre ∧ c.Whole (c.elems pre).length) ∨
   (c.acc.hasReset = true ∧ ∃ s0 e0 pre, s = c.run s0 (e0 :: pre) ∧ e0.adv = true ∧ e0.valid = true ∧ e0.rst = true ∧
     (c.acc.hasEnable = true → e0.en = true) ∧ c.NoReset pre ∧ c.Whole (c.elems (e0 :: pre)).length))

private theorem en1_of {c : ArgCfg} {e : ArgIn} (h1 : e.adv = true) (h2 : e.valid = true)
    (h3 : c.acc.hasEnable = true → e.en = true) : c.acc.en1 e.toAcc = true := by
  simp only [AccCfg.en1, ArgIn.toAcc, h1, h2, Bool.true_and, Bool.or_eq_true, Bool.not_eq_true']
  cases hh : c.acc.hasEnable with
  | false => exact Or.inl rfl
  | true => exact Or.inr (h3 hh)

private theorem begins {c : ArgCfg} {k : Nat} (hr : c.Room k) (hi : c.acc.interval = none)
    (hri : c.acc.regInit = c.acc.initval) {s : ArgSt} {e : ArgIn} (h : c.Begins s e) :
    (c.acc.size.isSome = true → c.acc.curCount s.mx e.toAcc = 0) ∧ c.cnt.curCount s.cnt e.toAcc = 0 ∧
    c.acc.curData s.mx e.toAcc = c.acc.ty.wrap c.acc.initval := by
  rcases h with ⟨h1, h2⟩ | ⟨hnr, h⟩
  · have h2' : e.toAcc.rst = true := h2
    have h1' : c.cnt.hasReset = true := h1
    have hrc : c.acc.resetCond s.mx e.toAcc = true := by simp [AccCfg.resetCond, h1, h2']
    refine ⟨fun _ => by simp [AccCfg.curCount, hrc], ?_, by simp [AccCfg.curData, hrc]⟩
    simp only [CntCfg.curCount, h1', h2', Bool.and_self, if_true]
    show (⟨32, false⟩ : Ty).wrap 0 = 0
    decide
  · have hnr' : (c.acc.hasReset && e.toAcc.rst) = false := by
      cases hh : c.acc.hasReset with
      | false => rfl
      | true => simpa [ArgIn.toAcc] using hnr hh
    have hcc : c.cnt.curCount s.cnt e.toAcc = s.cnt.count := by
      have : (c.cnt.hasReset && e.toAcc.rst) = false := hnr'
      simp [CntCfg.curCount, this]
    rw [hcc]
    cases hs : c.size with
    | none =>
      have hsz : c.acc.size = none := by rw [hr.same, hs]; rfl
      rcases h with ⟨pre, rfl, hn, hw⟩ | ⟨_, s0, e0, pre, _, h1, h2, _, h4, _, hw⟩
      · simp only [ArgCfg.Whole, hs] at hw
        have hrc : c.acc.resetCond (c.run c.init pre).mx e.toAcc = false := by
          simp [AccCfg.resetCond, hnr', hsz]
        refine ⟨by simp [hsz], ?_⟩
        simp only [AccCfg.curData, hrc, Bool.false_eq_true, if_false]
        have key : ∀ (l : List ArgIn) (s : ArgSt), MidInv c 0 s → c.NoReset l → (c.elems l).length = 0 →
            (c.run s l).mx = s.mx ∧ MidInv c 0 (c.run s l) := by
          intro l
          induction l with
          | nil => intro s h _ _; exact ⟨rfl, h⟩
          | cons i l ih =>
            intro s inv hn hl
            rw [elems_cons_arg] at hl
            have he : c.acc.en1 i.toAcc = false := by
              by_contra hh
              rw [if_pos (by simpa using hh)] at hl
              simp at hl
            rw [he] at hl
            obtain ⟨a, _, d⟩ := arg_disabled hi he (hn i (by simp)) inv
            have := ih (c.step s i) d (fun x hx => hn x (by simp [hx])) (by simpa using hl)
            rw [a] at this
            exact this
        have hinit : MidInv c 0 c.init := by
          refine ⟨fun _ => rfl, fun _ => rfl, ?_⟩
          show (⟨32, false⟩ : Ty).wrap 0 = _
          decide
        obtain ⟨a, d⟩ := key pre c.init hinit hn hw
        refine ⟨by simpa using d.cnt, ?_⟩
        rw [a]
        show c.acc.ty.wrap c.acc.regInit = _
        rw [hri]
      · simp only [ArgCfg.Whole, hs] at hw
        rw [elems_cons_arg, if_pos (en1_of h1 h2 h4)] at hw
        simp at hw
    | some v =>
      have hsz : c.acc.size = some (v.ty.width, v.val.toNat) := by rw [hr.same, hs]; rfl
      have hrc : c.acc.resetCond s.mx e.toAcc = s.mx.prevMax := by
        simp [AccCfg.resetCond, hnr', hsz]
      have main : ∃ len, HistInv c v.val.toNat len s ∧ v.val.toNat ∣ len := by
        rcases h with ⟨pre, rfl, hn, hw⟩ | ⟨h0, s0, e0, pre, rfl, h1, h2, h3, h4, hn, hw⟩
        · simp only [ArgCfg.Whole, hs] at hw
          refine ⟨_, hist_run hr hi hs pre 0 c.init ⟨by simp [ArgCfg.init, AccCfg.init], ?_, ?_⟩ hn, by simpa using hw⟩
          · show (⟨32, false⟩ : Ty).wrap 0 = _
            rw [Nat.zero_mod]
            decide
          · intro _
            simp [ArgCfg.init, AccCfg.init, hri]
        · simp only [ArgCfg.Whole, hs] at hw
          rw [elems_cons_arg, if_pos (en1_of h1 h2 h4)] at hw
          have h3' : e0.toAcc.rst = true := h3
          have hc0 : c.cnt.hasReset = true := h0
          have hb : HistInv c v.val.toNat 1 (c.step s0 e0) := by
            refine hist_enabled hr hi hs (len := 0) (en1_of h1 h2 h4) ?_ ?_
            · simp [AccCfg.curCount, AccCfg.resetCond, h0, h3']
            · simp only [CntCfg.curCount, hc0, h3', Bool.and_self, if_true, Nat.zero_mod]
              show (⟨32, false⟩ : Ty).wrap 0 = _
              decide
          refine ⟨_, hist_run hr hi hs pre 1 _ hb hn, by simpa [Nat.add_comm] using hw⟩
      obtain ⟨len, inv, hd⟩ := main
      have h0 := Nat.mod_eq_zero_of_dvd hd
      refine ⟨fun _ => ?_, by rw [inv.cnt, h0]; rfl, ?_⟩
      · simp only [AccCfg.curCount, hrc]; rw [inv.count, h0]
      · simp only [AccCfg.curData, hrc]; exact inv.data h0

/-- The reduction and the next index after a block. -/
private theorem arg_block {c : ArgCfg} {k : Nat} (hr : c.Room k) (hi : c.acc.interval = none)
    (hp : c.acc.pulse = false) (hri : c.acc.regInit = c.acc.initval) {s : ArgSt} {e : ArgIn} (hb : c.Begins s e)
    (h1 : e.adv = true) (h2 : e.valid = true) (h3 : c.acc.hasEnable = true → e.en = true)
    (l : List ArgIn) (hn : c.NoReset l) (hk : (c.elems (e :: l)).length ≤ k)
    (hd : (∀ i ∈ l, i.adv = true → i.valid = true → c.acc.hasEnable = true → i.en = true) ∨
      (c.elems (e :: l)).length < k) :
    c.elems (e :: l) = e.x :: c.elems l ∧
    ((c.run s (e :: l)).mx.data, (c.run s (e :: l)).settled) =
      let m := c.acc.ty.wrap (c.acc.op (c.acc.ty.wrap c.acc.initval) e.x)
      scan (fun a x => c.acc.ty.wrap (c.acc.op a x)) m (if m = s.mx.data then s.settled else 0) 1
        (c.elems l) := by
  have he := en1_of h1 h2 h3
  have hel : c.elems (e :: l) = e.x :: c.elems l := by rw [elems_cons_arg, if_pos he]; rfl
  refine ⟨hel, ?_⟩
  rw [hel] at hk hd
  simp only [List.length_cons] at hk hd
  obtain ⟨a1, a2, a3⟩ := begins hr hi hri hb
  obtain ⟨b1, b2, b3⟩ := arg_enabled hr hi hp (j := 0) (k := k) (by omega) he a1 a2
  rw [a3] at b1
  have := arg_run hr hi hp l 1 (c.step s e) b3 hn (by omega) (by
    rcases hd with h | h
    · exact Or.inl h
    · exact Or.inr (by omega))
  show ((c.run (c.step s e) l).mx.data, (c.run (c.step s e) l).settled) = _
  rw [this, settled_step, b1, b2, h1, h2]
  simp only
  congr 1
  by_cases hx : c.acc.ty.wrap (c.acc.op (c.acc.ty.wrap c.acc.initval) e.x) = s.mx.data
  · simp [hx]
  · simp [hx]

/-! #### The scan finds the first of the best -/

/-- `sel` takes the second of two values if it is better than the first. -/
private structure Chooses (good gx : Int → Prop) (lt : Int → Int → Prop) (sel : Int → Int → Int) : Prop where
  sub : ∀ x, gx x → good x
  yes : ∀ a x, good a → gx x → lt a x → sel a x = x
  no : ∀ a x, good a → gx x → ¬ lt a x → sel a x = a
  irr : ∀ a, ¬ lt a a

private theorem scan_keep {good gx lt sel} (h : Chooses good gx lt sel) :
    ∀ (ys : List Int) (m idx : Int) (j : Nat),
    good m → (∀ y ∈ ys, gx y ∧ ¬ lt m y) → scan sel m idx j ys = (m, idx) := by
  intro ys
  induction ys with
  | nil => intro m idx j _ _; rfl
  | cons y ys ih =>
    intro m idx j hm hy
    have hs := h.no m y hm (hy y (by simp)).1 (hy y (by simp)).2
    simp only [scan, hs, if_true]
    exact ih m idx _ hm fun z hz => hy z (by simp [hz])

private theorem scan_below {good gx lt sel} (h : Chooses good gx lt sel) (top : Int) :
    ∀ (ys : List Int) (m idx : Int) (j : Nat), good m → lt m top → (∀ y ∈ ys, gx y ∧ lt y top) →
    good (scan sel m idx j ys).1 ∧ lt (scan sel m idx j ys).1 top := by
  intro ys
  induction ys with
  | nil => intro m idx j hm hl _; exact ⟨hm, hl⟩
  | cons y ys ih =>
    intro m idx j hm hl hy
    simp only [scan]
    have hy1 := hy y (by simp)
    by_cases e : lt m y
    · rw [h.yes m y hm hy1.1 e]
      exact ih _ _ _ (h.sub y hy1.1) hy1.2 fun z hz => hy z (by simp [hz])
    · rw [h.no m y hm hy1.1 e]; exact ih _ _ _ hm hl fun z hz => hy z (by simp [hz])

private theorem scan_hit {good gx lt sel} (h : Chooses good gx lt sel) (a : List Int) (y : Int)
    (b : List Int) (m idx : Int) (j : Nat) (hm : good m) (hml : lt m y) (hy : gx y)
    (ha : ∀ x ∈ a, gx x ∧ lt x y) (hb : ∀ x ∈ b, gx x ∧ ¬ lt y x) :
    scan sel m idx j (a ++ y :: b) = (y, ((j + a.length : Nat) : Int)) := by
  rw [scan_append]
  obtain ⟨h1, h2⟩ := scan_below h y a m idx j hm hml ha
  simp only [scan, h.yes _ y h1 hy h2]
  have hne : y ≠ (scan sel m idx j a).1 := by
    intro e
    rw [← e] at h2
    exact h.irr _ h2
  rw [if_neg hne]
  exact scan_keep h b y _ _ (h.sub y hy) hb

private theorem chooses_max {c : AccCfg} {xt : Ty} (hop : c.op = maxOp c.ty xt) (hsg : xt.signed = c.ty.signed)
    (hw : xt.width ≤ c.ty.width) :
    Chooses (fun a => c.ty.wrap a = a) (fun x => (⟨xt, x⟩ : Val).Ok) (· < ·)
      fun a x => c.ty.wrap (c.op a x) := by
  have hsub : ∀ x, (⟨xt, x⟩ : Val).Ok → c.ty.wrap x = x := fun x hok =>
    Ty.wrap_of_inRange _ (Ty.inRange_mono ((Val.ok_iff _).1 hok) hsg hw)
  have key : ∀ a x, c.ty.wrap a = a → (⟨xt, x⟩ : Val).Ok → c.op a x = if a < x then x else a := by
    intro a x ha hok
    have h1 : (⟨c.ty, a⟩ : Val).read c.ty.signed = a := Val.read_self (v := ⟨c.ty, a⟩) ha
    have h2 : (⟨xt, x⟩ : Val).read c.ty.signed = x := by
      rw [← hsg]; exact Val.read_self (v := ⟨xt, x⟩) hok
    rw [hop]
    simp only [maxOp, hsg, Bool.and_self, h1, h2]
  refine ⟨hsub, ?_, ?_, fun a => by omega⟩
  · intro a x ha hx hlt
    simp only [key a x ha hx, if_pos hlt, hsub x hx]
  · intro a x ha hx hlt
    simp only [key a x ha hx, if_neg hlt, ha]

private theorem chooses_min {c : AccCfg} {xt : Ty} (hop : c.op = minOp c.ty xt) (hsg : xt.signed = c.ty.signed)
    (hw : xt.width ≤ c.ty.width) :
    Chooses (fun a => c.ty.wrap a = a) (fun x => (⟨xt, x⟩ : Val).Ok) (fun a x => x < a)
      fun a x => c.ty.wrap (c.op a x) := by
  have hsub : ∀ x, (⟨xt, x⟩ : Val).Ok → c.ty.wrap x = x := fun x hok =>
    Ty.wrap_of_inRange _ (Ty.inRange_mono ((Val.ok_iff _).1 hok) hsg hw)
  have key : ∀ a x, c.ty.wrap a = a → (⟨xt, x⟩ : Val).Ok → c.op a x = if x < a then x else a := by
    intro a x ha hok
    have h1 : (⟨c.ty, a⟩ : Val).read c.ty.signed = a := Val.read_self (v := ⟨c.ty, a⟩) ha
    have h2 : (⟨xt, x⟩ : Val).read c.ty.signed = x := by
      rw [← hsg]; exact Val.read_self (v := ⟨xt, x⟩) hok
    rw [hop]
    simp only [minOp, hsg, Bool.and_self, h1, h2, gt_iff_lt]
  refine ⟨hsub, ?_, ?_, fun a => by omega⟩
  · intro a x ha hx hlt
    simp only [key a x ha hx, if_pos hlt, hsub x hx]
  · intro a x ha hx hlt
    simp only [key a x ha hx, if_neg hlt, ha]

/-- A block of records: the record `e`, which begins it, and the cycles `l` with the rest of it.  Cycles
    in which the stream does not advance or has no valid record may come anywhere; records that are not
    enabled may come as long as the block is not complete. -/
structure ArgCfg.Block (c : ArgCfg) (s : ArgSt) (e : ArgIn) (l : List ArgIn) : Prop where
  noInterval : c.acc.interval = none
  noPulse : c.acc.pulse = false
  initval : c.acc.regInit = c.acc.initval ∧ c.acc.ty.wrap c.acc.initval = c.acc.initval
  begins : c.Begins s e
  record : e.adv = true ∧ e.valid = true ∧ (c.acc.hasEnable = true → e.en = true)
  noReset : c.NoReset l
  room : c.Room ((c.elems (e :: l)).length + 1) ∨ c.Room (c.elems (e :: l)).length ∧
    ∀ i ∈ l, i.adv = true → i.valid = true → c.acc.hasEnable = true → i.en = true

private theorem block_scan {c : ArgCfg} {s : ArgSt} {e : ArgIn} {l : List ArgIn} (h : c.Block s e l) :
    c.elems (e :: l) = e.x :: c.elems l ∧
    ((c.run s (e :: l)).mx.data, (c.run s (e :: l)).settled) =
      let m := c.acc.ty.wrap (c.acc.op c.acc.initval e.x)
      scan (fun a x => c.acc.ty.wrap (c.acc.op a x)) m (if m = s.mx.data then s.settled else 0) 1
        (c.elems l) := by
  rcases h.room with hr | ⟨hr, hd⟩
  · have := arg_block hr h.noInterval h.noPulse h.initval.1 h.begins h.record.1 h.record.2.1 h.record.2.2 l h.noReset
      (by omega) (Or.inr (by omega))
    rw [h.initval.2] at this
    exact this
  · have := arg_block hr h.noInterval h.noPulse h.initval.1 h.begins h.record.1 h.record.2.1 h.record.2.2 l h.noReset
      (by omega) (Or.inl hd)
    rw [h.initval.2] at this
    exact this

private theorem later {c : ArgCfg} {good gx lt} (hc : Chooses good gx lt fun a x => c.acc.ty.wrap (c.acc.op a x))
    (hgi : good c.acc.initval) {s : ArgSt} {e : ArgIn} {l : List ArgIn} (h : c.Block s e l) (f : ArgIn)
    (hf : f.adv = true) (a : List Int) (y : Int) (b : List Int) (hx : c.elems (e :: l) = a ++ y :: b)
    (hok : ∀ x ∈ c.elems (e :: l), gx x) (hne : a ≠ []) (hi : lt c.acc.initval y)
    (ha : ∀ x ∈ a, lt x y) (hb : ∀ x ∈ b, ¬ lt y x) :
    (c.run s (e :: l)).mx.data = y ∧ (c.step (c.run s (e :: l)) f).idx = a.length := by
  obtain ⟨h1, h2⟩ := block_scan h
  rw [idx_adv _ _ _ hf]
  rw [hx] at hok
  cases a with
  | nil => exact absurd rfl hne
  | cons z a =>
    rw [h1, List.cons_append] at hx
    have hz : e.x = z := (List.cons.inj hx).1
    have hl : c.elems l = a ++ y :: b := (List.cons.inj hx).2
    have hgz : gx z := hok z (by simp)
    have hzy := ha z (by simp)
    have hm : good (c.acc.ty.wrap (c.acc.op c.acc.initval e.x)) ∧
        lt (c.acc.ty.wrap (c.acc.op c.acc.initval e.x)) y := by
      rw [hz]
      by_cases hlt : lt c.acc.initval z
      · rw [show c.acc.ty.wrap (c.acc.op c.acc.initval z) = z from hc.yes _ _ hgi hgz hlt]
        exact ⟨hc.sub z hgz, hzy⟩
      · rw [show c.acc.ty.wrap (c.acc.op c.acc.initval z) = c.acc.initval from hc.no _ _ hgi hgz hlt]
        exact ⟨hgi, hi⟩
    simp only [hl] at h2
    rw [scan_hit hc a y b _ _ 1 hm.1 hm.2 (hok y (by simp))
      (fun x hx => ⟨hok x (by simp [hx]), ha x (by simp [hx])⟩)
      (fun x hx => ⟨hok x (by simp [hx]), hb x hx⟩)] at h2
    simp only [Prod.mk.injEq] at h2
    refine ⟨h2.1, ?_⟩
    rw [h2.2]
    simp [Nat.add_comm]

private theorem first {c : ArgCfg} {good gx lt} (hc : Chooses good gx lt fun a x => c.acc.ty.wrap (c.acc.op a x))
    (hgi : good c.acc.initval) {s : ArgSt} {e : ArgIn} {l : List ArgIn} (h : c.Block s e l) (f : ArgIn)
    (hf : f.adv = true) (m : Int) (hm1 : lt c.acc.initval e.x → m = e.x)
    (hm2 : ¬ lt c.acc.initval e.x → m = c.acc.initval)
    (hok : ∀ x ∈ c.elems (e :: l), gx x) (hb : ∀ x ∈ c.elems l, ¬ lt m x) :
    (c.run s (e :: l)).mx.data = m ∧
    (c.step (c.run s (e :: l)) f).idx = if s.mx.data = m then (c.step s f).idx else 0 := by
  obtain ⟨h1, h2⟩ := block_scan h
  rw [idx_adv _ _ _ hf, idx_adv _ _ _ hf]
  rw [h1] at hok
  have hge := hok e.x (by simp)
  have hm : c.acc.ty.wrap (c.acc.op c.acc.initval e.x) = m ∧ good m := by
    by_cases hlt : lt c.acc.initval e.x
    · rw [hm1 hlt]
      exact ⟨hc.yes _ _ hgi hge hlt, hc.sub _ hge⟩
    · rw [hm2 hlt]
      exact ⟨hc.no _ _ hgi hge hlt, hgi⟩
  simp only [hm.1] at h2
  rw [scan_keep hc (c.elems l) m _ 1 hm.2 (fun x hx => ⟨hok x (by simp [hx]), hb x hx⟩)] at h2
  simp only [Prod.mk.injEq] at h2
  refine ⟨h2.1, ?_⟩
  rw [h2.2]
  by_cases e : m = s.mx.data
  · rw [if_pos e, if_pos e.symm]
  · rw [if_neg e, if_neg (fun h => e h.symm)]

/-- The operator of the reduction is that of `ReduceMax` on operands of type `xt`, which fit. -/
structure ArgCfg.Max (c : ArgCfg) (xt : Ty) : Prop where
  op : c.acc.op = maxOp c.acc.ty xt
  sign : xt.signed = c.acc.ty.signed
  width : xt.width ≤ c.acc.ty.width

/-- The operator of the reduction is that of `ReduceMin`. -/
structure ArgCfg.Min (c : ArgCfg) (xt : Ty) : Prop where
  op : c.acc.op = minOp c.acc.ty xt
  sign : xt.signed = c.acc.ty.signed
  width : xt.width ≤ c.acc.ty.width

/-- C80, `ReduceArgMax`: whatever came before the block, if its maximum is above the initial value and
    is not its first element, the index after the block is the position of the first maximum. -/
theorem c80_argmax (c : ArgCfg) {xt : Ty} (hc : c.Max xt) (s : ArgSt) (e : ArgIn) (l : List ArgIn)
    (h : c.Block s e l) (f : ArgIn) (hf : f.adv = true)
    (hok : ∀ x ∈ c.elems (e :: l), (⟨xt, x⟩ : Val).Ok) (a : List Int) (y : Int) (b : List Int)
    (hx : c.elems (e :: l) = a ++ y :: b) (hne : a ≠ []) (hi : c.acc.initval < y)
    (ha : ∀ x ∈ a, x < y) (hb : ∀ x ∈ b, x ≤ y) :
    (c.run s (e :: l)).mx.data = y ∧ (c.step (c.run s (e :: l)) f).idx = a.length :=
  later (chooses_max hc.op hc.sign hc.width) h.initval.2 h f hf a y b hx hok hne hi ha
    (fun x hx => by have := hb x hx; omega)

/-- C80, `ReduceArgMax`: if the first element of the block is a maximum of it, or none is above the
    initial value, the index after the block is 0 only if the reduction did not show that maximum
    before the block; else it is what it was. -/
theorem c80_argmax_first (c : ArgCfg) {xt : Ty} (hc : c.Max xt) (s : ArgSt) (e : ArgIn) (l : List ArgIn)
    (h : c.Block s e l) (f : ArgIn) (hf : f.adv = true)
    (hok : ∀ x ∈ c.elems (e :: l), (⟨xt, x⟩ : Val).Ok)
    (hb : ∀ x ∈ c.elems l, x ≤ max c.acc.initval e.x) :
    (c.run s (e :: l)).mx.data = max c.acc.initval e.x ∧
    (c.step (c.run s (e :: l)) f).idx =
      if s.mx.data = max c.acc.initval e.x then (c.step s f).idx else 0 :=
  first (chooses_max hc.op hc.sign hc.width) h.initval.2 h f hf _ (fun h => by omega) (fun h => by omega) hok
    (fun x hx => by have := hb x hx; omega)

/-- C80, `ReduceArgMin`: as `c80_argmax`. -/
theorem c80_argmin (c : ArgCfg) {xt : Ty} (hc : c.Min xt) (s : ArgSt) (e : ArgIn) (l : List ArgIn)
    (h : c.Block s e l) (f : ArgIn) (hf : f.adv = true)
    (hok : ∀ x ∈ c.elems (e :: l), (⟨xt, x⟩ : Val).Ok) (a : List Int) (y : Int) (b : List Int)
    (hx : c.elems (e :: l) = a ++ y :: b) (hne : a ≠ []) (hi : y < c.acc.initval)
    (ha : ∀ x ∈ a, y < x) (hb : ∀ x ∈ b, y ≤ x) :
    (c.run s (e :: l)).mx.data = y ∧ (c.step (c.run s (e :: l)) f).idx = a.length :=
  later (chooses_min hc.op hc.sign hc.width) h.initval.2 h f hf a y b hx hok hne hi ha
    (fun x hx => by have := hb x hx; omega)

/-- C80, `ReduceArgMin`: as `c80_argmax_first`. -/
theorem c80_argmin_first (c : ArgCfg) {xt : Ty} (hc : c.Min xt) (s : ArgSt) (e : ArgIn) (l : List ArgIn)
    (h : c.Block s e l) (f : ArgIn) (hf : f.adv = true)
    (hok : ∀ x ∈ c.elems (e :: l), (⟨xt, x⟩ : Val).Ok)
    (hb : ∀ x ∈ c.elems l, min c.acc.initval e.x ≤ x) :
    (c.run s (e :: l)).mx.data = min c.acc.initval e.x ∧
    (c.step (c.run s (e :: l)) f).idx =
      if s.mx.data = min c.acc.initval e.x then (c.step s f).idx else 0 :=
  first (chooses_min hc.op hc.sign hc.width) h.initval.2 h f hf _ (fun h => by omega) (fun h => by omega) hok
    (fun x hx => by have := hb x hx; omega)

/-! #### Examples -/

/-- `ReduceArgMax(x, size=2)` for signed words. -/
private def exArg : ArgCfg :=
  { acc := { ty := ⟨32, true⟩, op := maxOp ⟨32, true⟩ ⟨32, true⟩, size := some (3, 2) },
    size := some ⟨⟨3, true⟩, 2⟩ }

private def recx (x : Int) : ArgIn := { adv := true, x := x }

/-- C80 does not hold for a block whose first element equals the maximum of the block before: in the
    blocks 3, 7 and 7, 5 the maximum 7 is at 1 and at 0, but both times 1 is reported. -/
theorem c80_not_argmax :
    let c : ArgCfg := { acc := { ty := ⟨32, true⟩, op := maxOp ⟨32, true⟩ ⟨32, true⟩, size := some (3, 2) },
                        size := some ⟨⟨3, true⟩, 2⟩ }
    let x (v : Int) : ArgIn := { adv := true, x := v }
    (c.run c.init [x 3, x 7, x 7]).idx = 1 ∧
    (c.run c.init [x 3, x 7, x 7, x 5, x 0]).idx = 1 ∧
    (c.run c.init [x 3, x 7, x 7, x 5]).mx.data = 7 := by decide

/-- C80 does not hold for a block of values below the initial value 0 either: for the block -5, -1, whose
    maximum is at 1, the value 0 and the index 0 are reported. -/
theorem c80_not_argmax_initval :
    let c : ArgCfg := { acc := { ty := ⟨32, true⟩, op := maxOp ⟨32, true⟩ ⟨32, true⟩, size := some (3, 2) },
                        size := some ⟨⟨3, true⟩, 2⟩ }
    let x (v : Int) : ArgIn := { adv := true, x := v }
    (c.run c.init [x 3, x 7, x (-5), x (-1)]).mx.data = 0 ∧
    (c.run c.init [x 3, x 7, x (-5), x (-1), x 0]).idx = 0 := by decide

private theorem exRoom : exArg.Room 2 := by
  refine ⟨by decide, rfl, fun v hv => ?_⟩
  cases hv
  refine ⟨?_, by decide, by decide, by decide, by decide⟩
  show Ty.wrap _ _ = _
  decide

/-- The second block of `c80_not_argmax`, with a stall and an empty cycle in it, is a `Block`. -/
private theorem exBlock : exArg.Block (exArg.run exArg.init [recx 3, recx 7]) (recx 4)
    [{ adv := false }, { adv := true, valid := false }, recx 9] := by
  refine ⟨rfl, rfl, ⟨rfl, by decide⟩, ?_, ⟨rfl, rfl, (by intro h; cases h)⟩, ?_, Or.inr ⟨exRoom, ?_⟩⟩
  · refine Or.inr ⟨(by intro h; cases h), Or.inl ⟨_, rfl, (by intro i _ h; cases h), ?_⟩⟩
    show (2 : Nat) ∣ 2
    exact Nat.dvd_refl 2
  · intro i _ h; cases h
  · intro i _ _ _ h; cases h

example : (exArg.step (exArg.run (exArg.run exArg.init [recx 3, recx 7])
    (recx 4 :: [{ adv := false }, { adv := true, valid := false }, recx 9])) (recx 0)).idx = 1 := by
  refine (c80_argmax exArg (xt := ⟨32, true⟩) ⟨rfl, rfl, Nat.le_refl _⟩ _ _ _ exBlock (recx 0) rfl ?_
    [4] 9 [] (by decide) (by simp) (by decide) (by simp) (by simp)).2
  intro x hx
  have : x = 4 ∨ x = 9 := by
    have : exArg.elems (recx 4 :: [{ adv := false }, { adv := true, valid := false }, recx 9]) = [4, 9] := by
      decide
    rw [this] at hx
    simpa using hx
  rcases this with rfl | rfl <;> (show Ty.wrap _ _ = _; decide)

/-- A sum with size, enable and reset, and its valid signal, over two blocks and a disabled record. -/
private def exSum : AccCfg :=
  { ty := ⟨32, true⟩, op := addOp ⟨32, true⟩ ⟨32, true⟩, size := some (3, 2), hasReset := true,
    hasEnable := true }

example : reports exSum (exSum.validOf 3 2) exSum.init (exSum.validOf 3 2).init
    [{ go := true, x := 3 }, { go := true, en := false, x := 9 }, { go := true, x := 4 },
     { go := true, en := false }, { go := false }, { go := true, x := 1 }, { go := true, x := 1 }] = [7, 2] := by
  rw [c80_valid exSum rfl rfl rfl rfl (by omega) (by omega) (fun _ => rfl) _ (by
    intro i hi _ _
    simp only [List.mem_cons, List.not_mem_nil, or_false] at hi
    rcases hi with rfl | rfl | rfl | rfl | rfl | rfl | rfl <;> rfl)]
  decide

example : let c : CntCfg := { ty := ⟨32, false⟩, step := ⟨⟨2, true⟩, 1⟩, size := some ⟨⟨3, true⟩, 3⟩ }
    let one : AccIn := { go := true }
    ([1, 2, 3, 4, 5, 6].map fun k =>
      ((c.validOf 3 3).run (c.validOf 3 3).init (List.replicate k one)).data) = [0, 0, 1, 0, 0, 1] := by decide

end Stream
