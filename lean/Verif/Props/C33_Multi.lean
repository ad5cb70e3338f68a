import Verif.Props.C31_Pattern

/-!
# C33: the multi-pattern source
-/

namespace Pat
open Dma (collect collect_zero collect_succ)

/-- A run of a multi-pattern source started at the edge before cycle 0 and not stopped; `num` is the value of the
    pattern counter, `settings` the setting registers. -/
structure MultiRun (aw nw : ℕ) (num : ℕ) (settings : List Buf) (σ : ℕ → Multi) (oready : ℕ → Bool) : Prop where
  start : ∃ s0 : Multi, s0.st = 0 ∧ s0.renable = false ∧ s0.num = num % 2 ^ nw ∧
    σ 0 = Multi.step aw nw settings s0 ⟨true, true, false⟩
  step : ∀ t, σ (t + 1) = Multi.step aw nw settings (σ t) ⟨false, oready t, false⟩

/-- The RAM reads of the first `t` cycles. -/
def mreads (σ : ℕ → Multi) (oready : ℕ → Bool) (t : ℕ) : List ℤ :=
  collect (fun t => (σ t).read ⟨false, oready t, false⟩) t

theorem decNum_eq {nw n : ℕ} (h1 : 1 ≤ n) (h2 : n ≤ 2 ^ nw) : decNum nw (n % 2 ^ nw) = n - 1 := by
  unfold decNum
  rw [Nat.add_mod, Nat.mod_mod, ← Nat.add_mod, show n + (2 ^ nw - 1) = (n - 1) + 2 ^ nw by omega, Nat.add_mod_right,
    Nat.mod_eq_of_lt (by omega)]

theorem decNum_eq' {nw n : ℕ} (h1 : 1 ≤ n) (h2 : n < 2 ^ nw) : decNum nw n = n - 1 := by
  rw [← decNum_eq h1 h2.le, Nat.mod_eq_of_lt h2]

/-- `cur_offset` and `count` of a dimension. -/
def cc (d : Dim) : ℤ × ℕ := (d.cur, d.count)

theorem dims_eq {aw : ℕ} (pat : List (ℕ × ℤ)) (h : ∀ p ∈ pat, p.1 < 2 ^ aw) (m : ℕ) :
    List.zipWith (fun (c : ℤ × ℕ) (p : ℕ × ℤ) => (⟨c.1, p.1, p.2, c.2⟩ : Dim)) ((dimsAt aw pat m).map cc)
      (pat.map fun p => (p.1 % 2 ^ aw, addr aw p.2)) = dimsAt aw pat m := by
  induction pat generalizing m with
  | nil => rfl
  | cons p pat ih =>
    obtain ⟨n, s⟩ := p
    have hn : n < 2 ^ aw := h (n, s) (by simp)
    simp [dimsAt, cc, ih (fun q hq => h q (by simp [hq])), Nat.mod_eq_of_lt hn]

theorem cc_wrap {aw : ℕ} (pat : List (ℕ × ℤ)) (h : ∀ p ∈ pat, 1 ≤ p.1) :
    (dimsAt aw pat (count pat)).map cc = (pat.map Prod.fst).map fun n => ((0 : ℤ), n - 1) := by
  induction pat with
  | nil => rfl
  | cons p pat ih =>
    obtain ⟨n, s⟩ := p
    have hn : 1 ≤ n := h (n, s) (by simp)
    have e : n * count pat / n = count pat := Nat.mul_div_cancel_left _ (by omega)
    simp only [count_cons, dimsAt, List.map_cons, e, Nat.mul_mod_right, ih fun q hq => h q (by simp [hq])]
    simp [cc, addr]

theorem cc_zero {aw : ℕ} (pat : List (ℕ × ℤ)) :
    (dimsAt aw pat 0).map cc = (pat.map Prod.fst).map fun n => ((0 : ℤ), n - 1) := by
  induction pat with
  | nil => rfl
  | cons p pat ih =>
    obtain ⟨n, s⟩ := p
    simp only [dimsAt, List.map_cons, Nat.zero_div, Nat.zero_mod, ih]
    simp [cc, addr]

theorem flatMap_get {α β : Type} {A : α → List β} {N : ℕ} (l : List α) (h : ∀ a ∈ l, (A a).length = N) {p r : ℕ}
    (hr : r < N) {a : α} (ha : l[p]? = some a) : (l.flatMap A)[p * N + r]? = (A a)[r]? := by
  induction l generalizing p with
  | nil => simp at ha
  | cons b l ih =>
    have hb : (A b).length = N := h b (by simp)
    rw [List.flatMap_cons]
    cases p with
    | zero =>
      have e : b = a := by simpa using ha
      subst e
      rw [Nat.zero_mul, Nat.zero_add, List.getElem?_append_left (by omega)]
    | succ p =>
      rw [List.getElem?_append_right (by rw [hb, Nat.add_mul]; omega), hb,
        show (p + 1) * N + r - N = p * N + r by rw [Nat.add_mul]; omega]
      exact ih (fun a ha => h a (by simp [ha])) (by simpa using ha)

theorem flatMap_len {α β : Type} {A : α → List β} {N : ℕ} (l : List α) (h : ∀ a ∈ l, (A a).length = N) :
    (l.flatMap A).length = l.length * N := by
  induction l with
  | nil => simp
  | cons b l ih =>
    rw [List.flatMap_cons, List.length_append, ih fun a ha => h a (by simp [ha]), h b (by simp), List.length_cons,
      Nat.add_mul]
    omega

theorem shift_drop (f : Buf → Buf) (P : List Buf) (p : ℕ) (e : List Buf) (hp : p < P.length) :
    ∃ e', shift ((P.drop p).map f ++ e) = (P.drop (p + 1)).map f ++ e' := by
  rw [List.drop_eq_getElem_cons hp]
  refine ⟨e ++ (((P[p] :: P.drop (p + 1)).map f ++ e).getLast?).toList, ?_⟩
  rw [shift, List.map_cons, List.cons_append, List.tail_cons, List.append_assoc]

/-- **C33.** When the patterns have the same sizes, the RAM reads so far are a prefix of the addresses of the patterns
    one after the other, one per unstalled cycle, and the machine is idle again exactly after the last one. -/
theorem c33_equal_sizes {aw nw : ℕ} {P extra : List Buf} {sizes : List ℕ} {σ : ℕ → Multi} {oready : ℕ → Bool}
    (hP : P ≠ []) (hM : P.length ≤ 2 ^ nw) (hsz : ∀ b ∈ P, b.pats.map Prod.fst = sizes)
    (hok : ∀ n ∈ sizes, 1 ≤ n ∧ n < 2 ^ aw) (R : MultiRun aw nw P.length (P ++ extra) σ oready) (t : ℕ) :
    mreads σ oready t <+: P.flatMap (fun b => (visit b.pats).map fun o => (b.offset + o) % 2 ^ aw) ∧
    ((σ t).st = 0 ↔ (P.flatMap fun b => visit b.pats).length < readies oready t) ∧
    ((σ t).st = 0 →
      mreads σ oready t = P.flatMap fun b => (visit b.pats).map fun o => (b.offset + o) % 2 ^ aw) := by
  have hcount : ∀ b ∈ P, count b.pats = sizes.prod := fun b hb => by rw [count, hsz b hb]
  have hok1 : ∀ b ∈ P, Ok aw b.pats := fun b hb p hp => by
    have : p.1 ∈ sizes := hsz b hb ▸ List.mem_map_of_mem hp
    exact ⟨(hok _ this).1, (hok _ this).2.trans (Nat.pow_lt_pow_right (by omega) (by omega))⟩
  have hok2 : ∀ b ∈ P, ∀ p ∈ b.pats, p.1 < 2 ^ aw := fun b hb p hp =>
    (hok _ (hsz b hb ▸ List.mem_map_of_mem hp)).2
  change _ <+: P.flatMap (fun b => addresses aw b.offset b.pats) ∧ _ ∧
    (_ → _ = P.flatMap fun b => addresses aw b.offset b.pats)
  rw [flatMap_len P (N := sizes.prod) fun b hb => by rw [visit_length, hcount b hb]]
  have hlen : (P.flatMap fun b => addresses aw b.offset b.pats).length = P.length * sizes.prod :=
    flatMap_len P fun b hb => by rw [addresses_length, hcount b hb]
  have hget : ∀ p r, ∀ hp : p < P.length, r < sizes.prod →
      (P.flatMap fun b => addresses aw b.offset b.pats)[p * sizes.prod + r]? =
        some (addr aw (P[p].offset + offs P[p].pats r)) := fun p r hp hr => by
    rw [flatMap_get P (fun b hb => by rw [addresses_length, hcount b hb]) hr (List.getElem?_eq_getElem hp),
      addresses_get]
    rw [hcount _ (List.getElem_mem hp)]
    exact hr
  generalize (P.flatMap fun b => addresses aw b.offset b.pats) = A at *
  have hMpos : 0 < P.length := List.length_pos_iff.2 hP
  have hNpos : 0 < sizes.prod := by
    rw [← hcount _ (List.getElem_mem hMpos)]; exact (hok1 _ (List.getElem_mem hMpos)).count_pos
  suffices h :
      ((∃ p r, ∃ hp : p < P.length, ∃ e, readies oready t = p * sizes.prod + r ∧ r < sizes.prod ∧ (σ t).st = 1 ∧
          (σ t).num = P.length - 1 - p ∧ (σ t).bufs = (P.drop p).map (Buf.load aw) ++ e ∧
          (σ t).curs = (dimsAt aw P[p].pats r).map cc ∧
          mreads σ oready t ++ (if (σ t).renable then [(σ t).raddr] else []) = A.take (readies oready t)) ∨
        (readies oready t = P.length * sizes.prod ∧ (σ t).st = 2 ∧
          mreads σ oready t ++ (if (σ t).renable then [(σ t).raddr] else []) = A)) ∨
      (P.length * sizes.prod < readies oready t ∧ (σ t).st = 0 ∧ (σ t).renable = false ∧
        mreads σ oready t = A) by
    rcases h with (⟨p, r, hp, e, h1, h2, h3, -, -, -, h7⟩ | ⟨h1, h3, h7⟩) | ⟨h1, h2, -, h4⟩
    · refine ⟨(List.prefix_append _ _).trans (h7 ▸ List.take_prefix _ _), ?_, ?_⟩
      · have : (p + 1) * sizes.prod ≤ P.length * sizes.prod := Nat.mul_le_mul_right _ hp
        rw [Nat.add_mul] at this
        simp only [h3]
        omega
      · intro h; simp [h3] at h
    · refine ⟨⟨_, h7⟩, ?_, ?_⟩
      · simp only [h3]
        omega
      · intro h; simp [h3] at h
    · exact ⟨h4 ▸ List.prefix_refl _, by simp [h1, h2], fun _ => h4⟩
  induction t with
  | zero =>
    left; left
    obtain ⟨s0, h0, h1, h2, e⟩ := R.start
    obtain ⟨b, P', rfl⟩ := List.exists_cons_of_ne_nil hP
    refine ⟨0, 0, hMpos, extra.map (Buf.load aw), ?_, hNpos, ?_, ?_, ?_, ?_, ?_⟩
    · simp [readies]
    · rw [e]; simp [Multi.step, h0]
    · rw [e]; simp only [Multi.step, h0, h2]; simp
      simpa using decNum_eq hMpos hM
    · rw [e]; simp [Multi.step, h0]
    · rw [e]
      have hb := hok1 b (by simp)
      simp only [List.getElem_cons_zero, ← dimsAt_zero hb, List.map_map]
      simp [Multi.step, h0, cc, Dim.load]
    · rw [e]; simp [Multi.step, h0, h1, mreads, readies]
  | succ t ih =>
    rw [R.step, readies_succ]
    have hreads : mreads σ oready (t + 1) = mreads σ oready t ++ ((σ t).read ⟨false, oready t, false⟩).toList :=
      collect_succ _ _
    rw [hreads]
    generalize mreads σ oready t = rs at *
    generalize readies oready t = m at *
    generalize σ t = s at *
    cases ho : oready t
    · simpa [Multi.step, Multi.read] using ih
    · have hflush : rs ++ (s.read ⟨false, true, false⟩).toList = rs ++ (if s.renable then [s.raddr] else []) := by
        simp only [Multi.read]
        cases s.renable <;> simp
      rw [hflush]
      rcases ih with (⟨p, r, hp, e, h1, h2, h3, h4, h5, h6, h7⟩ | ⟨h1, h3, h7⟩) | ⟨h1, h2, h3, h4⟩
      · left
        rw [h7]
        have hmem : P[p] ∈ P := List.getElem_mem hp
        have hhead : s.bufs.head? = some (Buf.load aw P[p]) := by
          rw [h5, List.drop_eq_getElem_cons hp]; rfl
        have hdims : s.dims = dimsAt aw P[p].pats r := by
          unfold Multi.dims
          rw [h6, hhead]
          exact dims_eq _ (hok2 _ hmem) r
        have hfin : fin s.dims = decide (r + 1 = sizes.prod) := by
          rw [hdims, fin_dimsAt (hok1 _ hmem), hcount _ hmem, Nat.mod_eq_of_lt h2]
        have htot : total aw ((s.bufs.head?.map (·.offset)).getD 0) s.dims =
            addr aw (P[p].offset + offs P[p].pats r) := by
          rw [hhead, hdims]
          exact total_dimsAt _ _ _ _
        have htick : (tick aw true s.dims).map (fun d => (d.cur, d.count)) =
            (dimsAt aw P[p].pats (r + 1)).map cc := by
          rw [hdims, tick_dimsAt (hok1 _ hmem)]; rfl
        have htake : A.take (m + 1) = A.take m ++ [addr aw (P[p].offset + offs P[p].pats r)] := by
          rw [List.take_add_one, h1, hget p r hp h2, Option.toList_some]
        by_cases hf : r + 1 = sizes.prod
        · have hm : m + 1 = (p + 1) * sizes.prod := by rw [Nat.add_mul, h1]; omega
          by_cases hl : p + 1 = P.length
          · right
            refine ⟨by simp only [if_true]; rw [hm, hl], ?_, ?_⟩
            · have : P.length - 1 - p = 0 := by omega
              simp only [Multi.step, h3, hfin, h4, this]
              simp [hf]
            · simp only [Multi.step, h3, htot]
              simp only [Bool.not_true, Bool.false_eq_true, if_false, Nat.one_ne_zero, if_true, Bool.not_false]
              rw [← htake, List.take_of_length_le]
              rw [hlen, hm, hl]
          · left
            have hp1 : p + 1 < P.length := by omega
            have hnum : ¬ (P.length - 1 - p = 0) := by omega
            obtain ⟨e', he'⟩ := shift_drop (Buf.load aw) P p e hp
            refine ⟨p + 1, 0, hp1, e', by simp only [if_true]; omega, hNpos, ?_, ?_, ?_, ?_, ?_⟩
            · simp only [Multi.step, h3, hfin, h4]
              simp [hnum]
            · simp only [Multi.step, h3, hfin, h4, hf]
              simp only [Bool.not_true, Bool.false_eq_true, if_false, Nat.one_ne_zero, if_true, decide_true]
              rw [decNum_eq' (by omega) (by omega)]
              omega
            · simp only [Multi.step, h3, hfin, hf]
              simp only [Bool.not_true, Bool.false_eq_true, if_false, Nat.one_ne_zero, if_true, decide_true]
              rw [h5, he']
            · simp only [Multi.step, h3, htick]
              simp only [Bool.not_true, Bool.false_eq_true, if_false, Nat.one_ne_zero, if_true]
              rw [cc_zero, hsz _ (List.getElem_mem hp1), hf, ← hcount _ hmem,
                cc_wrap _ fun q hq => (hok1 _ hmem q hq).1, hsz _ hmem]
            · simp only [if_true]
              rw [htake]
              simp [Multi.step, h3, htot]
        · left
          refine ⟨p, r + 1, hp, e, by simp only [if_true]; omega, by omega, ?_, ?_, ?_, ?_, ?_⟩
          · simp only [Multi.step, h3, hfin, hf]
            simp
          · simp only [Multi.step, h3, hfin, hf]
            simp [h4]
          · simp only [Multi.step, h3, hfin, hf]
            simp [h5]
          · simp only [Multi.step, h3, htick]
            simp
          · simp only [if_true]
            rw [htake]
            simp [Multi.step, h3, htot]
      · right
        rw [h7]
        refine ⟨by simp only [if_true]; omega, ?_, ?_, ?_⟩ <;> simp [Multi.step, h3]
      · right
        refine ⟨by simp only [if_true]; omega, ?_, ?_, ?_⟩ <;> simp [Multi.step, h2, h3, h4]

/-- The run from the idle state with the given setting, never stalled: a run for the theorems below. -/
def freeRun (aw nw num : ℕ) (settings : List Buf) : ℕ → Multi
  | 0 => Multi.step aw nw settings ⟨0, num % 2 ^ nw, [], [], 0, false, true⟩ ⟨true, true, false⟩
  | t + 1 => Multi.step aw nw settings (freeRun aw nw num settings t) ⟨false, true, false⟩

theorem freeRun_run (aw nw num : ℕ) (settings : List Buf) :
    MultiRun aw nw num settings (freeRun aw nw num settings) fun _ => true :=
  ⟨⟨_, rfl, rfl, rfl, rfl⟩, fun _ => rfl⟩

/-- **C33 fails for patterns of different sizes**: the counts are reloaded from the sizes of the old pattern, so after
    `(2, 1)` the pattern `(3, 1)` is left after two addresses. -/
theorem c33_different_sizes :
    ∃ σ oready t, MultiRun 4 2 2 [⟨0, [(2, 1)]⟩, ⟨8, [(3, 1)]⟩] σ oready ∧ (σ t).st = 0 ∧
      mreads σ oready t = [0, 1, 8, 9] :=
  ⟨_, _, 7, freeRun_run 4 2 2 [⟨0, [(2, 1)]⟩, ⟨8, [(3, 1)]⟩], by decide, by decide⟩

/-- **C33 fails for a second start without setting the patterns again**: the counter of patterns is decremented in
    place, so it stays in the running state. -/
theorem c33_restart :
    let P : List Buf := [⟨0, [(2, 1)]⟩, ⟨8, [(2, 1)]⟩, ⟨0, [(1, 0)]⟩]
    let σ := freeRun 4 2 2 P
    (σ 5).st = 0 ∧ (σ 5).num = 3 ∧
    ∃ σ' oready t, MultiRun 4 2 (σ 5).num P σ' oready ∧ readies oready t = 5 ∧ (σ' t).st = 1 ∧
      mreads σ' oready t = [0, 1, 8, 9] := by
  refine ⟨by decide, by decide, _, _, 5, freeRun_run 4 2 _ _, by decide, by decide, by decide⟩

/-- The hypotheses of `c33_equal_sizes` hold for two patterns. -/
example : ∃ σ, MultiRun 8 2 2 ([⟨0, [(2, 1), (3, 8)]⟩, ⟨100, [(2, 4), (3, 1)]⟩] ++ [⟨0, [(1, 0), (1, 0)]⟩]) σ
    (fun _ => true) := ⟨_, freeRun_run 8 2 2 _⟩

end Pat
