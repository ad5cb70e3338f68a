import Verif.Lemmas.StreamJob

/-!
# Words of thread streams with FIFOs (for C76)
-/

namespace SFifo

variable {V : Type} {p : FPar V}

namespace Run

variable (r : Run p)

/-! ## Settings of sinks -/

/-- The settings of sink `k` in the unstalled cycles before `C`. -/
def sig (C k n : ℕ) : Option (p.core.sgen k).Set := if n < r.nt C then (r.inp (r.cy C n)).base.setSnk k else none

theorem setL_eq (C k c : ℕ) (hc : c ≤ C) (i : ℕ) : ((r.st c).core.setL k)[i]? =
    if i < p.core.depth + 2 ∧ i < r.nt c then some (r.sig C k (r.nt c - 1 - i)) else none := by
  induction c generalizing i with
  | zero => rw [r.start, nt_zero]; simp [St.init, SRun.St.init]
  | succ c ih =>
    cases hg : r.go c with
    | false =>
      rw [r.core_stall hg, nt_succ, hg]
      exact ih (by omega) i
    | true =>
      rw [r.core_go hg, nt_succ, hg, if_pos rfl]
      simp only [St.moved, SRun.St.step, SRun.push]
      rw [List.getElem?_take]
      by_cases hn : i < p.core.depth + 2
      · rw [if_pos hn]
        cases i with
        | zero =>
          have e : r.nt c + 1 - 1 - 0 = r.nt c := by omega
          rw [List.getElem?_cons_zero, if_pos ⟨by omega, by omega⟩, e, sig, if_pos (r.nt_lt hg (by omega)),
            r.cy_nt hg (by omega)]
        | succ i =>
          rw [List.getElem?_cons_succ, ih (by omega)]
          by_cases h : i < r.nt c
          · rw [if_pos ⟨by omega, h⟩, if_pos ⟨by omega, by omega⟩]
            congr 2; omega
          · rw [if_neg (by omega), if_neg (by omega)]
      · rw [if_neg hn, if_neg (by omega)]

theorem scfg_of (C k c : ℕ) (hc : c ≤ C) :
    (r.st c).core.scfg k = SRun.setting (r.sig C k) (p.core.sset0 k) (r.nt c - (p.core.depth + 2)) ∨
    (r.st c).core.scfg k = SRun.setting (r.sig C k) (p.core.sset0 k) (r.nt c - (p.core.depth + 1)) := by
  induction c with
  | zero => left; rw [r.start, nt_zero, Nat.zero_sub]; rfl
  | succ c ih =>
    have hnew : (((r.st c).core.setL k).getD (p.core.depth + 1) none).getD ((r.st c).core.scfg k) =
        SRun.setting (r.sig C k) (p.core.sset0 k) (r.nt c - (p.core.depth + 1)) := by
      rw [List.getD_eq_getElem?_getD, r.setL_eq C k c (by omega)]
      by_cases h : p.core.depth + 1 < r.nt c
      · rw [if_pos ⟨by omega, h⟩]
        have e1 : r.nt c - (p.core.depth + 1) = (r.nt c - (p.core.depth + 2)) + 1 := by omega
        have e2 : r.nt c - 1 - (p.core.depth + 1) = r.nt c - (p.core.depth + 2) := by omega
        have ih' := ih (by omega)
        rw [e1, SRun.setting] at ih' ⊢
        rw [e2, Option.getD_some]
        cases hs : r.sig C k (r.nt c - (p.core.depth + 2)) with
        | some x => rfl
        | none =>
          rw [hs] at ih'
          simpa using ih'
      · rw [if_neg (by omega)]
        have e1 : r.nt c - (p.core.depth + 1) = 0 := by omega
        have e2 : r.nt c - (p.core.depth + 2) = 0 := by omega
        have ih' := ih (by omega)
        rw [e1, e2] at ih'
        rw [e1]
        simpa using ih'
    cases hg : r.go c with
    | false =>
      right
      rw [r.core_stall hg, nt_succ, hg]
      exact hnew
    | true =>
      left
      rw [r.core_go hg, nt_succ, hg, if_pos rfl]
      have e : r.nt c + 1 - (p.core.depth + 2) = r.nt c - (p.core.depth + 1) := by omega
      rw [e]
      exact hnew

theorem setting_sig (C k c : ℕ) (hc : c ≤ C) :
    SRun.setting (fun t => if r.go t then (r.inp t).base.setSnk k else none) (p.core.sset0 k) c =
      SRun.setting (r.sig C k) (p.core.sset0 k) (r.nt c) := by
  induction c with
  | zero => rfl
  | succ c ih =>
    rw [SRun.setting, ih (by omega), nt_succ]
    cases hg : r.go c with
    | false => rfl
    | true =>
      rw [if_pos rfl, if_pos rfl, SRun.setting, sig, if_pos (r.nt_lt hg (by omega)), r.cy_nt hg (by omega)]

/-- The settings of sink `k` are admissible when a run starts, and it is not set again in the next unstalled cycle (a FIFO: the
    next two). -/
structure SinkOk (r : Run p) (S : SRun.Spec p.core) (k : ℕ) : Prop where
  ok : ∀ c, r.Starts c → S.sok k (r.snkSet c k)
  once : ∀ c t, r.Starts c → r.go t = true → r.nt t = r.nt c + 1 → (r.inp t).base.setSnk k = none
  twice : S.late k → ∀ c t, r.Starts c → r.go t = true → r.nt t = r.nt c + 2 → (r.inp t).base.setSnk k = none

variable {r} {S : SRun.Spec p.core}

theorem sig_none {C k n : ℕ} (h : ∀ t, r.go t = true → r.nt t = n → (r.inp t).base.setSnk k = none) : r.sig C k n = none := by
  unfold sig
  split
  · rename_i h1
    obtain ⟨a, _, b⟩ := r.cy_lt h1
    exact h _ a b
  · rfl

theorem flat_snkSet (g : r.Proper S) {k : ℕ} (hs : r.SinkOk S k) {C c : ℕ} (h : r.Starts c) (hc : c < C)
    (hC : r.nt c + p.core.depth + 4 ≤ r.nt C) : (r.flat C).snkSet (r.nt c) k = r.snkSet c k ∧
      (S.late k → (r.flat C).snkSet (r.nt c + 1) k = r.snkSet c k) := by
  have hg := (starts_go g c h).1
  have e0 : r.snkSet c k = SRun.setting (r.sig C k) (p.core.sset0 k) (r.nt c + 1) := by
    unfold snkSet
    rw [r.setting_sig C k _ (by omega), nt_succ, hg]; rfl
  have e1 : SRun.setting (r.sig C k) (p.core.sset0 k) (r.nt c + 2) = r.snkSet c k := by
    rw [SRun.setting, sig_none (hs.once c · h), ← e0]; rfl
  have key : ∀ T, T + p.core.depth + 3 ≤ r.nt C →
      (r.flat C).snkSet T k = SRun.setting (r.sig C k) (p.core.sset0 k) (T + 1) ∨
      (r.flat C).snkSet T k = SRun.setting (r.sig C k) (p.core.sset0 k) (T + 2) := by
    intro T hT
    have e : (r.flat C).snkSet T k = (r.st (r.cy C (T + p.core.depth + 3))).core.scfg k := rfl
    have := r.scfg_of C k (r.cy C (T + p.core.depth + 3)) (r.cy_le _ _)
    rw [r.nt_cy hT] at this
    have a1 : T + p.core.depth + 3 - (p.core.depth + 2) = T + 1 := by omega
    have a2 : T + p.core.depth + 3 - (p.core.depth + 1) = T + 2 := by omega
    rw [a1, a2] at this
    rw [e]; exact this
  constructor
  · rcases key (r.nt c) (by omega) with h1 | h1
    · rw [h1, e0]
    · rw [h1, e1]
  · intro hl
    rcases key (r.nt c + 1) (by omega) with h1 | h1
    · rw [h1, e1]
    · rw [h1, SRun.setting, sig_none (hs.twice hl c · h)]
      exact e1

/-- All runs started before cycle `d` have ended there. -/
def Ended (r : Run p) (S : SRun.Spec p.core) (d : ℕ) : Prop :=
  ∀ c, r.Starts c → c < d → r.nt c + 6 + p.core.depth + r.items S c ≤ r.nt d

theorem flat_sok (g : r.Proper S) {k : ℕ} (hs : r.SinkOk S k) {d : ℕ} (he : r.Ended S d) : (r.flat d).SOk S k := by
  intro T hT
  obtain ⟨h1, h2⟩ := (flat_started g (smooth g d) T).1 hT
  obtain ⟨_, h3, h4⟩ := r.cy_lt h1
  have := he _ h2 h3
  obtain ⟨h5, h6⟩ := flat_snkSet g hs h2 h3 (by omega)
  rw [h4] at h5 h6
  refine ⟨by rw [h5]; exact hs.ok _ h2, fun hl => by rw [h6 hl, h5]⟩

theorem ended (g : r.Proper S) {c d : ℕ} (hc : r.Starts c) (hd : c + 2 ≤ d) (hb : (r.st d).core.busy = false)
    (hlater : ∀ c', r.Starts c' → c' ≤ c ∨ d < c') : r.Ended S d := by
  intro c' h1 h2
  rcases hlater c' h1 with h3 | h3
  · rcases Nat.lt_or_ge c' c with h4 | h4
    · obtain ⟨d', h5, h6, h7⟩ := g.joined _ _ h1 hc h4
      have := join_of g (smooth g d) h1 h2 d' h5 (by omega) h7
      have := r.nt_mono (show d' ≤ d by omega)
      omega
    · have : c' = c := by omega
      subst this
      exact join_of g (smooth g d) h1 h2 d hd (Nat.le_refl _) hb
  · omega

/-! ## Cycles and ticks -/

/-- What happens in the cycles from `a` to before `b`, if it depends on the number of the unstalled cycle. -/
theorem over {X : Type} (f g : ℕ → Option X) {a b : ℕ} (hab : a ≤ b)
    (h : ∀ t, a ≤ t → t < b → r.go t = true → f t = g (r.nt t)) :
    (List.range (b - a)).filterMap (fun i => if r.go (a + i) then f (a + i) else none) =
      (List.range (r.nt b - r.nt a)).filterMap fun i => g (r.nt a + i) := by
  induction b, hab using Nat.le_induction with
  | base => simp
  | succ b hab ih =>
    have e : b + 1 - a = (b - a) + 1 := by omega
    have e2 : a + (b - a) = b := by omega
    have hm := r.nt_mono hab
    rw [e, List.range_succ, List.filterMap_append, ih fun t h1 h2 => h t h1 (by omega), nt_succ]
    cases hg : r.go b with
    | false => simp [e2, hg]
    | true =>
      have e3 : r.nt b + 1 - r.nt a = (r.nt b - r.nt a) + 1 := by omega
      have e4 : r.nt a + (r.nt b - r.nt a) = r.nt b := by omega
      rw [if_pos rfl, e3, List.range_succ, List.filterMap_append]
      simp only [List.filterMap_cons, List.filterMap_nil, e2, hg, if_true, e4, h b hab (by omega) hg]

theorem rel_at (g : r.Proper S) {d t : ℕ} (ht : t ≤ d) (hg : r.go t = true) : Rel (r.st t) ((r.flat d).st (r.nt t)) := by
  have := rel g.calm g.sync d (r.nt t) (r.nt_mono ht)
  rcases Nat.lt_or_ge t d with h | h
  · rwa [r.cy_nt hg h] at this
  · have : t = d := by omega
    subst this
    rwa [r.cy_ge (Nat.le_refl _)] at this

end Run

end SFifo
