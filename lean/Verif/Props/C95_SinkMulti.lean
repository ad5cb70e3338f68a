import Verif.Props.C33_Multi

/-!
# C95: the multi-pattern sink
-/

namespace Pat
open Dma (collect collect_zero collect_succ)

/-- A run of a multi-pattern sink started at the edge before cycle 0 and not stopped; `num` is the value of the
    pattern counter, `settings` the setting registers. -/
structure MSinkRun {α : Type} (aw nw num : ℕ) (settings : List Buf) (σ : ℕ → MSink α) (oready when' : ℕ → Bool)
    (rdata : ℕ → α) : Prop where
  start : ∃ (s0 : MSink α) (w : Bool) (d : α), s0.st = 0 ∧ s0.num = num % 2 ^ nw ∧
    σ 0 = MSink.step aw nw settings s0 ⟨⟨true, true, false⟩, w, d⟩
  step : ∀ t, σ (t + 1) = MSink.step aw nw settings (σ t) ⟨⟨false, oready t, false⟩, when' t, rdata t⟩

/-- The stream output in the unstalled cycles of the first `t` in which the sink is running, with the `when`
    condition. -/
def beats {α : Type} (σ : ℕ → MSink α) (oready when' : ℕ → Bool) (rdata : ℕ → α) (t : ℕ) : List (Bool × α) :=
  collect (fun t => if (σ t).st = 2 ∧ oready t = true then some (when' t, rdata t) else none) t

/-- The RAM writes of the first `t` cycles, and the one waiting in the write port. -/
def mwrites {α : Type} (σ : ℕ → MSink α) (oready when' : ℕ → Bool) (rdata : ℕ → α) (t : ℕ) : List (ℤ × α) :=
  collect (fun t => (σ t).write ⟨⟨false, oready t, false⟩, when' t, rdata t⟩) t ++
    (if (σ t).wenable then [((σ t).waddr, (σ t).wdata)] else [])

/-- The words kept: those of the cycles in which the condition holds, with the address of the same position. -/
def kept {α β : Type} (l : List (β × Bool × α)) : List (β × α) :=
  l.filterMap fun x => if x.2.1 then some (x.1, x.2.2) else none

/-- **C95.** When the patterns have the same sizes, the word of the `k`-th unstalled cycle belongs to the `k`-th address
    of the patterns one after the other: it is written there if the `when` condition holds and dropped, with its
    address, if not. The machine stops exactly after as many cycles as there are addresses. -/
theorem c95_beats {α : Type} {aw nw : ℕ} {P extra : List Buf} {sizes : List ℕ} {σ : ℕ → MSink α}
    {oready when' : ℕ → Bool} {rdata : ℕ → α} (hP : P ≠ []) (hM : P.length ≤ 2 ^ nw)
    (hsz : ∀ b ∈ P, b.pats.map Prod.fst = sizes) (hok : ∀ n ∈ sizes, 1 ≤ n ∧ n < 2 ^ aw)
    (R : MSinkRun aw nw P.length (P ++ extra) σ oready when' rdata) (t : ℕ) :
    mwrites σ oready when' rdata t =
      kept ((P.flatMap fun b => (visit b.pats).map fun o => (b.offset + o) % 2 ^ aw).zip
        (beats σ oready when' rdata t)) ∧
    (beats σ oready when' rdata t).length ≤ (P.flatMap fun b => visit b.pats).length ∧
    ((σ t).st = 0 ↔ (beats σ oready when' rdata t).length = (P.flatMap fun b => visit b.pats).length) := by
  have hcount : ∀ b ∈ P, count b.pats = sizes.prod := fun b hb => by rw [count, hsz b hb]
  have hok1 : ∀ b ∈ P, Ok aw b.pats := fun b hb p hp => by
    have : p.1 ∈ sizes := hsz b hb ▸ List.mem_map_of_mem hp
    exact ⟨(hok _ this).1, (hok _ this).2.trans (Nat.pow_lt_pow_right (by omega) (by omega))⟩
  have hok2 : ∀ b ∈ P, ∀ p ∈ b.pats, p.1 < 2 ^ aw := fun b hb p hp =>
    (hok _ (hsz b hb ▸ List.mem_map_of_mem hp)).2
  change _ = kept ((P.flatMap fun b => addresses aw b.offset b.pats).zip _) ∧ _ ∧ _
  rw [flatMap_len P (N := sizes.prod) fun b hb => by rw [visit_length, hcount b hb]]
  have hget : ∀ p r, ∀ hp : p < P.length, r < sizes.prod →
      (P.flatMap fun b => addresses aw b.offset b.pats)[p * sizes.prod + r]? =
        some (addr aw (P[p].offset + offs P[p].pats r)) := fun p r hp hr => by
    rw [flatMap_get P (fun b hb => by rw [addresses_length, hcount b hb]) hr (List.getElem?_eq_getElem hp),
      addresses_get]
    rw [hcount _ (List.getElem_mem hp)]
    exact hr
  generalize (P.flatMap fun b => addresses aw b.offset b.pats) = A at *
  have hMpos : 0 < P.length := List.length_pos_iff.2 hP
  have hNpos : 0 < sizes.prod := by
    rw [← hcount _ (List.getElem_mem hMpos)]; exact (hok1 _ (List.getElem_mem hMpos)).count_pos
  have hall : 0 < P.length * sizes.prod := Nat.mul_pos hMpos hNpos
  suffices h : mwrites σ oready when' rdata t = kept (A.zip (beats σ oready when' rdata t)) ∧
      (((σ t).st = 1 ∧ beats σ oready when' rdata t = [] ∧ (σ t).num = P.length - 1 ∧
          ∃ e, (σ t).bufs = P.map (Buf.load aw) ++ e) ∨
        (∃ p r, ∃ hp : p < P.length, ∃ e, (beats σ oready when' rdata t).length = p * sizes.prod + r ∧
          r < sizes.prod ∧ (σ t).st = 2 ∧
          (σ t).num = P.length - 1 - p ∧ (σ t).bufs = (P.drop p).map (Buf.load aw) ++ e ∧
          (σ t).curs = (dimsAt aw P[p].pats r).map cc) ∨
        ((σ t).st = 0 ∧ (beats σ oready when' rdata t).length = P.length * sizes.prod)) by
    obtain ⟨h0, h⟩ := h
    refine ⟨h0, ?_⟩
    rcases h with ⟨h1, h2, -⟩ | ⟨p, r, hp, e, h1, h2, h3, -⟩ | ⟨h1, h2⟩
    · refine ⟨by simp [h2], ?_⟩
      rw [h1, h2, List.length_nil]
      omega
    · have : (p + 1) * sizes.prod ≤ P.length * sizes.prod := Nat.mul_le_mul_right _ hp
      rw [Nat.add_mul] at this
      rw [h1, h3]
      omega
    · rw [h1, h2]
      simp
  induction t with
  | zero =>
    obtain ⟨s0, w, d, h0, h2, e⟩ := R.start
    refine ⟨?_, Or.inl ⟨?_, rfl, ?_, extra.map (Buf.load aw), ?_⟩⟩
    · simp [mwrites, beats, kept, e, MSink.step, h0]
    · rw [e]; simp [MSink.step, h0]
    · rw [e]; simp only [MSink.step, h0, h2]; simp
      simpa using decNum_eq hMpos hM
    · rw [e]; simp [MSink.step, h0]
  | succ t ih =>
    have hb : beats σ oready when' rdata (t + 1) = beats σ oready when' rdata t ++
      (if (σ t).st = 2 ∧ oready t = true then some (when' t, rdata t) else none).toList := collect_succ _ _
    have hw : mwrites σ oready when' rdata (t + 1) =
        (if oready t then mwrites σ oready when' rdata t
          else collect (fun t => (σ t).write ⟨⟨false, oready t, false⟩, when' t, rdata t⟩) t) ++
        (if (σ (t + 1)).wenable then [((σ (t + 1)).waddr, (σ (t + 1)).wdata)] else []) := by
      unfold mwrites
      rw [collect_succ]
      cases ho : oready t
      · simp [MSink.write]
      · cases hwe : (σ t).wenable <;> simp [MSink.write, hwe]
    have hw0 : mwrites σ oready when' rdata t =
        collect (fun t => (σ t).write ⟨⟨false, oready t, false⟩, when' t, rdata t⟩) t ++
          (if (σ t).wenable then [((σ t).waddr, (σ t).wdata)] else []) := rfl
    rw [hw, hb, R.step]
    generalize beats σ oready when' rdata t = bs at *
    cases ho : oready t
    · simpa [MSink.step, ← hw0] using ih
    · generalize mwrites σ oready when' rdata t = wr at *
      generalize σ t = s at *
      obtain ⟨hz, hs⟩ := ih
      simp only [if_true]
      rcases hs with ⟨hst, hbs, hnum, e, hbuf⟩ | ⟨p, r, hp, e, h1, h2, hst, hnum, hbuf, hcurs⟩ | ⟨hst, hl⟩
      · refine ⟨by simp [MSink.step, hst, hz], Or.inr (Or.inl ⟨0, 0, hMpos, e, ?_, hNpos, ?_, ?_, ?_, ?_⟩)⟩
        · simp [hst, hbs]
        · simp [MSink.step, hst]
        · simp [MSink.step, hst, hnum]
        · simp [MSink.step, hst, hbuf]
        · have hmem : P[0] ∈ P := List.getElem_mem hMpos
          have hhead : s.bufs.head? = some (Buf.load aw P[0]) := by
            rw [hbuf]
            cases P with
            | nil => exact absurd rfl hP
            | cons b P => rfl
          have e1 : ((Buf.load aw P[0]).pats.map fun p => ((0 : ℤ), dec aw p.1)) =
              (dimsAt aw P[0].pats 0).map cc := by
            rw [cc_zero, Buf.load, List.map_map, List.map_map]
            apply List.map_congr_left
            intro q hq
            have hq1 := hok1 _ hmem q hq
            simp [Nat.mod_eq_of_lt (hok2 _ hmem q hq), dec_eq hq1.1 hq1.2.le]
          rw [← e1]
          simp [MSink.step, hst, hhead]
      · have hmem : P[p] ∈ P := List.getElem_mem hp
        have hhead : s.bufs.head? = some (Buf.load aw P[p]) := by
          rw [hbuf, List.drop_eq_getElem_cons hp]; rfl
        have hdims : s.dims = dimsAt aw P[p].pats r := by
          unfold MSink.dims
          rw [hcurs, hhead]
          exact dims_eq _ (hok2 _ hmem) r
        have hfin : fin s.dims = decide (r + 1 = sizes.prod) := by
          rw [hdims, fin_dimsAt (hok1 _ hmem), hcount _ hmem, Nat.mod_eq_of_lt h2]
        have htot : total aw ((s.bufs.head?.map (·.offset)).getD 0) s.dims =
            addr aw (P[p].offset + offs P[p].pats r) := by
          rw [hhead, hdims]
          exact total_dimsAt _ _ _ _
        have htick : (tick aw true s.dims).map (fun d => (d.cur, d.count)) =
            (dimsAt aw P[p].pats (r + 1)).map cc := by
          rw [hdims, tick_dimsAt (hok1 _ hmem)]; rfl
        refine ⟨?_, ?_⟩
        · simp only [hst, and_self, if_true, Option.toList_some]
          rw [zip_take_succ A bs (when' t, rdata t) (h1 ▸ hget p r hp h2), kept, List.filterMap_append, hz]
          congr 1
          simp only [MSink.step, hst, htot]
          cases when' t <;> simp
        · simp only [hst, and_self, if_true, Option.toList_some, List.length_append, List.length_singleton, h1]
          by_cases hf : r + 1 = sizes.prod
          · have hm : p * sizes.prod + r + 1 = (p + 1) * sizes.prod := by rw [Nat.add_mul]; omega
            by_cases hl : p + 1 = P.length
            · refine Or.inr (Or.inr ⟨?_, by rw [hm, hl]⟩)
              have : P.length - 1 - p = 0 := by omega
              simp only [MSink.step, hst, hfin, hnum, this]
              simp [hf]
            · have hp1 : p + 1 < P.length := by omega
              have hnz : ¬ (P.length - 1 - p = 0) := by omega
              obtain ⟨e', he'⟩ := shift_drop (Buf.load aw) P p e hp
              refine Or.inr (Or.inl ⟨p + 1, 0, hp1, e', by omega, hNpos, ?_, ?_, ?_, ?_⟩)
              · simp only [MSink.step, hst, hfin, hnum]
                simp [hnz]
              · simp only [MSink.step, hst, hfin, hnum, hf]
                simp only [Bool.not_true, Bool.false_eq_true, if_false, if_true, decide_true, OfNat.ofNat_ne_zero,
                  OfNat.ofNat_ne_one]
                rw [decNum_eq' (by omega) (by omega)]
                omega
              · simp only [MSink.step, hst, hfin, hf]
                simp only [Bool.not_true, Bool.false_eq_true, if_false, if_true, decide_true, OfNat.ofNat_ne_zero,
                  OfNat.ofNat_ne_one]
                rw [hbuf, he']
              · simp only [MSink.step, hst, htick]
                simp only [Bool.not_true, Bool.false_eq_true, if_false, OfNat.ofNat_ne_zero, OfNat.ofNat_ne_one]
                rw [cc_zero, hsz _ (List.getElem_mem hp1), hf, ← hcount _ hmem,
                  cc_wrap _ fun q hq => (hok1 _ hmem q hq).1, hsz _ hmem]
          · refine Or.inr (Or.inl ⟨p, r + 1, hp, e, by omega, by omega, ?_, ?_, ?_, ?_⟩)
            · simp only [MSink.step, hst, hfin, hf]
              simp
            · simp only [MSink.step, hst, hfin, hf]
              simp [hnum]
            · simp only [MSink.step, hst, hfin, hf]
              simp [hbuf]
            · simp only [MSink.step, hst, htick]
              simp
      · refine ⟨by simp [MSink.step, hst, hz], Or.inr (Or.inr ⟨by simp [MSink.step, hst], by simp [hst, hl]⟩)⟩

theorem kept_zip_true {α β : Type} (l : List β) (bs : List (Bool × α)) (h : ∀ b ∈ bs, b.1 = true) :
    kept (l.zip bs) = l.zip (bs.map Prod.snd) := by
  induction l generalizing bs with
  | nil => simp [kept]
  | cons a l ih =>
    cases bs with
    | nil => simp [kept]
    | cons b bs =>
      have := ih bs fun b hb => h b (by simp [hb])
      have hb := h b (by simp)
      simp only [kept] at this ⊢
      simp [hb, this]

theorem mem_beats {α : Type} {σ : ℕ → MSink α} {oready when' : ℕ → Bool} {rdata : ℕ → α} {t : ℕ} {b : Bool × α}
    (h : b ∈ beats σ oready when' rdata t) : ∃ u < t, b = (when' u, rdata u) := by
  induction t with
  | zero => simp [beats] at h
  | succ t ih =>
    rw [show beats σ oready when' rdata (t + 1) = beats σ oready when' rdata t ++
      (if (σ t).st = 2 ∧ oready t = true then some (when' t, rdata t) else none).toList from collect_succ _ _] at h
    rcases List.mem_append.1 h with h | h
    · obtain ⟨u, hu, e⟩ := ih h
      exact ⟨u, by omega, e⟩
    · split at h
      · exact ⟨t, by omega, by simpa using h⟩
      · simp at h

/-- **C95, `set_sink_multipattern` without a `when` condition.** For accepted settings whose patterns have the same
    sizes, the words of the unstalled cycles are written to the addresses of the patterns one after the other. -/
theorem c95_all {α : Type} {aw nw maxMulti maxLen num : ℕ} {offsets : List ℤ} {patterns : List (List (ℕ × ℤ))}
    {old settings : List Buf} {sizes : List ℕ} {σ : ℕ → MSink α} {oready : ℕ → Bool} {rdata : ℕ → α}
    (hset : setMulti maxMulti maxLen offsets patterns old = some (num, settings)) (hM : maxMulti ≤ 2 ^ nw) (haw : 1 ≤ aw)
    (hsz : ∀ p ∈ patterns, p.map Prod.fst = sizes) (hok : ∀ n ∈ sizes, 1 ≤ n ∧ n < 2 ^ aw)
    (R : MSinkRun aw nw num settings σ oready (fun _ => true) rdata) (t : ℕ) :
    let addrs := (offsets.zip patterns).flatMap fun b => (visit b.2).map fun o => (b.1 + o) % 2 ^ aw
    let words := (beats σ oready (fun _ => true) rdata t).map Prod.snd
    mwrites σ oready (fun _ => true) rdata t = addrs.zip words ∧ words.length ≤ addrs.length ∧
    ((σ t).st = 0 ↔ words.length = addrs.length) := by
  unfold setMulti at hset
  split at hset
  · simp at hset
  rename_i hc
  split at hset
  · simp at hset
  rename_i hlen
  simp only [not_or, not_not, not_lt] at hc
  obtain ⟨hne, hol, hmx⟩ := hc
  simp only [Option.some.injEq, Prod.mk.injEq] at hset
  obtain ⟨rfl, rfl⟩ := hset
  simp only [List.any_eq_true, decide_eq_true_eq, not_exists, not_and, not_lt] at hlen
  have hzl : (List.zipWith (fun (o : ℤ) (p : List (ℕ × ℤ)) =>
      (⟨o, p ++ List.replicate (maxLen - p.length) (1, 0)⟩ : Buf)) offsets patterns).length = patterns.length := by
    simp [hol]
  have hmemz : ∀ b ∈ List.zipWith (fun (o : ℤ) (p : List (ℕ × ℤ)) =>
      (⟨o, p ++ List.replicate (maxLen - p.length) (1, 0)⟩ : Buf)) offsets patterns,
      ∃ p ∈ patterns, b.pats = p ++ List.replicate (maxLen - p.length) (1, 0) := by
    intro b hb
    rw [List.mem_iff_getElem?] at hb
    obtain ⟨k, hk⟩ := hb
    rw [List.getElem?_zipWith] at hk
    cases ho : offsets[k]? with
    | none => simp [ho] at hk
    | some o =>
      cases hp : patterns[k]? with
      | none => simp [ho, hp] at hk
      | some p =>
        simp [ho, hp] at hk
        exact ⟨p, List.mem_of_getElem? hp, by rw [← hk]⟩
  have hlens : ∀ p ∈ patterns, p.length = sizes.length := fun p hp => by rw [← hsz p hp, List.length_map]
  have R' := R
  rw [← hzl] at R'
  have key := c95_beats (sizes := sizes ++ List.replicate (maxLen - sizes.length) 1)
    (by rw [← List.length_pos_iff, hzl]; exact List.length_pos_iff.2 hne) (by omega)
    (fun b hb => by
      obtain ⟨p, hp, e⟩ := hmemz b hb
      rw [e, List.map_append, hsz p hp, hlens p hp, List.map_replicate])
    (fun n hn => by
      rcases List.mem_append.1 hn with h | h
      · exact hok n h
      · rw [List.eq_of_mem_replicate h]
        exact ⟨le_rfl, Nat.one_lt_two_pow (by omega)⟩) R' t
  rw [kept_zip_true _ _ fun b hb => by obtain ⟨u, _, e⟩ := mem_beats hb; rw [e]] at key
  have eA : ∀ f : ℤ → ℤ → ℤ, ((List.zipWith (fun (o : ℤ) (p : List (ℕ × ℤ)) =>
      (⟨o, p ++ List.replicate (maxLen - p.length) (1, 0)⟩ : Buf)) offsets patterns).flatMap fun b =>
        (visit b.pats).map (f b.offset)) = (offsets.zip patterns).flatMap fun b => (visit b.2).map (f b.1) := by
    intro f
    clear key R R' hmemz hzl hlens hsz hlen hmx hne hol
    induction offsets generalizing patterns with
    | nil => simp
    | cons o offsets ih =>
      cases patterns with
      | nil => simp
      | cons p patterns => simp only [List.zipWith_cons_cons, List.zip_cons_cons, List.flatMap_cons, visit_pad, ih]
  have eL : ((List.zipWith (fun (o : ℤ) (p : List (ℕ × ℤ)) =>
      (⟨o, p ++ List.replicate (maxLen - p.length) (1, 0)⟩ : Buf)) offsets patterns).flatMap fun b =>
        visit b.pats).length = ((offsets.zip patterns).flatMap fun b => (visit b.2).map fun o =>
          (b.1 + o) % 2 ^ aw).length := by
    have := congrArg List.length (eA fun b o => (b + o) % 2 ^ aw)
    rw [← this]
    simp [List.length_flatMap]
  rw [eA fun b o => (b + o) % 2 ^ aw, eL] at key
  intro addrs words
  simpa [words, addrs] using key

/-! ## With a `when` condition -/

theorem kept_length {α β : Type} (l : List β) (bs : List (Bool × α)) (h : bs.length ≤ l.length) :
    (kept (l.zip bs)).length = (bs.filter Prod.fst).length := by
  induction bs generalizing l with
  | nil => simp [kept]
  | cons b bs ih =>
    cases l with
    | nil => simp at h
    | cons a l =>
      have := ih l (by simpa using h)
      simp only [kept] at this ⊢
      obtain ⟨w, d⟩ := b
      cases w <;> simp [this]

/-- **C95 fails with a `when` condition**: if the condition does not hold in one of the cycles, the machine is done with
    fewer words written than there are addresses. -/
theorem c95_not_when {α : Type} {aw nw : ℕ} {P extra : List Buf} {sizes : List ℕ} {σ : ℕ → MSink α}
    {oready when' : ℕ → Bool} {rdata : ℕ → α} (hP : P ≠ []) (hM : P.length ≤ 2 ^ nw)
    (hsz : ∀ b ∈ P, b.pats.map Prod.fst = sizes) (hok : ∀ n ∈ sizes, 1 ≤ n ∧ n < 2 ^ aw)
    (R : MSinkRun aw nw P.length (P ++ extra) σ oready when' rdata) {t : ℕ} (hdone : (σ t).st = 0) {d : α}
    (hd : (false, d) ∈ beats σ oready when' rdata t) :
    (mwrites σ oready when' rdata t).length < (P.flatMap fun b => visit b.pats).length := by
  obtain ⟨h1, -, h3⟩ := c95_beats hP hM hsz hok R t
  have hl := h3.1 hdone
  have e : (P.flatMap fun b => (visit b.pats).map fun o => (b.offset + o) % 2 ^ aw).length =
      (P.flatMap fun b => visit b.pats).length := by simp [List.length_flatMap]
  rw [h1, kept_length _ _ (by rw [e, hl]), ← hl]
  refine lt_of_le_of_ne (List.length_filter_le _ _) fun h => ?_
  have := List.length_filter_eq_length_iff.1 h (false, d) hd
  simp at this

/-- The run from the idle state with the given setting, never stalled, whose outputs are 0, 1, 2, …: a run for the
    theorems below. -/
def freeSink (aw nw num : ℕ) (settings : List Buf) (when' : ℕ → Bool) : ℕ → MSink ℕ
  | 0 => MSink.step aw nw settings ⟨0, num % 2 ^ nw, [], [], 0, 0, false⟩ ⟨⟨true, true, false⟩, false, 0⟩
  | t + 1 => MSink.step aw nw settings (freeSink aw nw num settings when' t) ⟨⟨false, true, false⟩, when' t, t⟩

theorem freeSink_run (aw nw num : ℕ) (settings : List Buf) (when' : ℕ → Bool) :
    MSinkRun aw nw num settings (freeSink aw nw num settings when') (fun _ => true) when' (fun t => t) :=
  ⟨⟨_, _, _, rfl, rfl, rfl⟩, fun _ => rfl⟩

/-- The words accepted in every other cycle go to every other address, where `set_sink_pattern` (`c31_sink`) would fill
    them all. -/
theorem c95_skips :
    ∃ (σ : ℕ → MSink ℕ) (oready when' : ℕ → Bool) (rdata : ℕ → ℕ) (t : ℕ),
      MSinkRun 4 2 1 [⟨0, [(4, 1)]⟩] σ oready when' rdata ∧ (σ t).st = 0 ∧
      mwrites σ oready when' rdata t = [(1, 2), (3, 4)] :=
  ⟨_, _, _, _, 5, freeSink_run 4 2 1 [⟨0, [(4, 1)]⟩] fun t => t % 2 == 0, by decide, by decide⟩

/-! ## Other settings -/

/-- **C95 fails for patterns of different sizes**: after `(2, 1)` the pattern `(3, 1)` is left after two addresses. -/
theorem c95_different_sizes :
    ∃ (σ : ℕ → MSink ℕ) (oready : ℕ → Bool) (rdata : ℕ → ℕ) (t : ℕ),
      MSinkRun 4 2 2 [⟨0, [(2, 1)]⟩, ⟨8, [(3, 1)]⟩] σ oready (fun _ => true) rdata ∧ (σ t).st = 0 ∧
      mwrites σ oready (fun _ => true) rdata t = [(0, 1), (1, 2), (8, 3), (9, 4)] :=
  ⟨_, _, _, 5, freeSink_run 4 2 2 [⟨0, [(2, 1)]⟩, ⟨8, [(3, 1)]⟩] fun _ => true, by decide, by decide⟩

/-- **C95 fails for a second start without setting the patterns again.** -/
theorem c95_restart :
    let P : List Buf := [⟨0, [(2, 1)]⟩, ⟨8, [(2, 1)]⟩, ⟨0, [(1, 0)]⟩]
    let σ := freeSink 4 2 2 P fun _ => true
    (σ 5).st = 0 ∧ (σ 5).num = 3 ∧
    ∃ (σ' : ℕ → MSink ℕ) (oready : ℕ → Bool) (rdata : ℕ → ℕ), MSinkRun 4 2 (σ 5).num P σ' oready (fun _ => true) rdata ∧
      (σ' 6).st = 2 ∧ mwrites σ' oready (fun _ => true) rdata 6 = [(0, 1), (1, 2), (8, 3), (9, 4), (0, 5)] :=
  ⟨by decide, by decide, _, _, _, freeSink_run 4 2 _ _ fun _ => true, by decide, by decide⟩

/-- **C95, what can be set**: every non-empty list of at most `max_multi` patterns of at most `max_pattern_length` entries
    with as many offsets, and nothing else. -/
theorem c95_settable (maxMulti maxLen : ℕ) (offsets : List ℤ) (patterns : List (List (ℕ × ℤ))) (old : List Buf) :
    (∃ settings, setMulti maxMulti maxLen offsets patterns old = some (patterns.length, settings)) ↔
      0 < patterns.length ∧ patterns.length ≤ maxMulti ∧ offsets.length = patterns.length ∧
        ∀ p ∈ patterns, p.length ≤ maxLen := by
  unfold setMulti
  constructor
  · rintro ⟨s, h⟩
    split at h
    · simp at h
    rename_i hc
    split at h
    · simp at h
    rename_i hl
    simp only [not_or, not_not, not_lt] at hc
    simp only [List.any_eq_true, decide_eq_true_eq, not_exists, not_and, not_lt] at hl
    exact ⟨List.length_pos_iff.2 hc.1, hc.2.2, hc.2.1, hl⟩
  · rintro ⟨h1, h2, h3, h4⟩
    rw [if_neg (by
      simp only [not_or, not_not, not_lt]
      exact ⟨List.length_pos_iff.1 h1, h3, h2⟩), if_neg (by
      simp only [List.any_eq_true, decide_eq_true_eq, not_exists, not_and, not_lt]
      exact h4)]
    exact ⟨_, rfl⟩

/-- The hypotheses of `c95_all` hold for two patterns, one of them padded. -/
example : setMulti 3 2 [0, 100] [[(2, 1)], [(2, 4)]] [⟨0, [(0, 0), (0, 0)]⟩, ⟨0, [(0, 0), (0, 0)]⟩, ⟨5, [(7, 1), (1, 0)]⟩] =
      some (2, [⟨0, [(2, 1), (1, 0)]⟩, ⟨100, [(2, 4), (1, 0)]⟩, ⟨0, [(7, 1), (1, 0)]⟩]) ∧
    ∃ (σ : ℕ → MSink ℕ), MSinkRun 8 2 2 [⟨0, [(2, 1), (1, 0)]⟩, ⟨100, [(2, 4), (1, 0)]⟩, ⟨0, [(7, 1), (1, 0)]⟩] σ
      (fun _ => true) (fun _ => true) (fun t => t) ∧
      mwrites σ (fun _ => true) (fun _ => true) (fun t => t) 9 = [(0, 1), (1, 2), (100, 3), (104, 4)] :=
  ⟨by decide, _, freeSink_run 8 2 2 _ fun _ => true, by decide⟩

/-- The hypotheses of `c95_not_when` hold for the run of `c95_skips`. -/
example : (freeSink 4 2 1 ([⟨0, [(4, 1)]⟩] ++ []) (fun t => t % 2 == 0) 5).st = 0 ∧
    (false, 1) ∈ beats (freeSink 4 2 1 ([⟨0, [(4, 1)]⟩] ++ []) fun t => t % 2 == 0) (fun _ => true)
      (fun t => t % 2 == 0) (fun t => t) 5 := by decide

end Pat
