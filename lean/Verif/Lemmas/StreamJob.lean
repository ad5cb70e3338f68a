import Verif.Lemmas.StreamStall

/-!
# Jobs of thread streams with FIFOs (for C76)
-/

namespace SFifo

variable {V : Type} {p : FPar V}

namespace Run

variable (r : Run p)

/-- A run is started in cycle `c`: `run` is executed while the stream is idle or the sources of the previous run end. -/
def Starts (c : ℕ) : Prop :=
  ((r.st c).core.fsm = 0 ∨ (r.go c = true ∧ (r.st c).core.stop = true)) ∧ (r.inp c).base.run = true

/-- The setting of a source last set at or before cycle `c`. -/
def srcSet (c j : ℕ) : (p.core.gen j).Set := SRun.setting (fun t => (r.inp t).base.setSrc j) (p.core.set0 j) (c + 1)

/-- The setting of a sink last set at or before cycle `c` (`set_sink` waits until the stream is not stalled). -/
def snkSet (c k : ℕ) : (p.core.sgen k).Set :=
  SRun.setting (fun t => if r.go t then (r.inp t).base.setSnk k else none) (p.core.sset0 k) (c + 1)

/-- The number of items of the run started in cycle `c`: the longest source. -/
def items (S : SRun.Spec p.core) (c : ℕ) : ℕ :=
  ((List.range p.core.ns).map fun j => (S.as j (r.srcSet c j)).length).foldr max 0

/-- The stream is used properly: only FIFOs stall it, the FIFOs of the sources are synchronous, no sink is set in the first
    cycle, the sources have admissible settings when a run starts, and between two starts some `join` has found the stream not
    busy. -/
structure Proper (r : Run p) (S : SRun.Spec p.core) : Prop where
  sync : Sync p
  ext : ∀ c, (r.inp c).ext = true
  first : ∀ k, (r.inp 0).base.setSnk k = none
  ok : ∀ c, r.Starts c → ∀ j, j < p.core.ns → S.ok j (r.srcSet c j)
  joined : ∀ c c', r.Starts c → r.Starts c' → c < c' → ∃ d, c + 2 ≤ d ∧ d < c' ∧ (r.st d).core.busy = false

/-- Starts before `C` are neither stalled nor followed by a stall. -/
def Smooth (r : Run p) (C : ℕ) : Prop := ∀ c, c < C → r.Starts c → r.go c = true ∧ (c + 1 < C → r.go (c + 1) = true)

variable {r} {S : SRun.Spec p.core}

theorem Proper.calm (g : r.Proper S) : r.Calm := ⟨g.ext 0, g.first⟩

/-- A stream that is not busy is not stalled. -/
theorem go_idle (g : r.Proper S) {c : ℕ} (h1 : (r.st c).core.sbusy = false) (h2 : (r.st c).core.sinkBusy = false) :
    r.go c = true := by
  unfold go St.oready
  rw [g.ext, Bool.and_true, Bool.and_eq_true, List.all_eq_true, List.all_eq_true]
  constructor
  · intro j _
    unfold St.srcReady
    cases p.srcF j <;> simp [h1]
  · intro k _
    unfold St.snkReady
    cases p.snkF k <;> simp [h2]

theorem not_busy {s : SRun.St p.core} (h : s.busy = false) : s.sbusy = false ∧ s.sinkBusy = false ∧ s.breg = false := by
  unfold SRun.St.busy at h
  rw [Bool.or_eq_false_iff, Bool.or_eq_false_iff] at h
  exact ⟨h.1.1, h.1.2, h.2⟩

theorem cfg_eq (c j : ℕ) : (r.st c).core.cfg j = SRun.setting (fun t => (r.inp t).base.setSrc j) (p.core.set0 j) c := by
  induction c with
  | zero => rw [r.start]; rfl
  | succ c ih =>
    rw [SRun.setting, ← ih]
    cases h : r.go c with
    | true => rw [r.core_go h]; rfl
    | false => rw [r.core_stall h]; rfl

/-- With no start in stalled cycles the stream stays in the first state. -/
theorem stay_idle {a b : ℕ} (hab : a ≤ b) (h0 : (r.st a).core.fsm = 0)
    (h : ∀ c, a ≤ c → c < b → r.go c = false ∧ ¬ r.Starts c) : (r.st b).core.fsm = 0 := by
  induction b with
  | zero => have : a = 0 := by omega
            subst this; exact h0
  | succ b ih =>
    rcases Nat.lt_or_ge b a with h1 | h1
    · have : a = b + 1 := by omega
      subst this; exact h0
    · have e := ih h1 (fun c h2 h3 => h c h2 (by omega))
      obtain ⟨h2, h3⟩ := h b h1 (by omega)
      rw [r.core_stall h2]
      cases hr : (r.inp b).base.run with
      | true => exact absurd ⟨Or.inl e, hr⟩ h3
      | false => simp [St.stalled, hr, e]

theorem flat_started (g : r.Proper S) {C : ℕ} (hH : r.Smooth C) (T : ℕ) :
    (r.flat C).Started T ↔ T < r.nt C ∧ r.Starts (r.cy C T) := by
  constructor
  · rintro ⟨h1, h2⟩
    rw [flat_inp] at h2
    simp only [tinp, Bool.and_eq_true, decide_eq_true_eq] at h2
    obtain ⟨h3, h4⟩ := h2
    have hR := rel g.calm g.sync C T (by omega)
    obtain ⟨hg, hlt, _⟩ := r.cy_lt h3
    have hst : (r.st (r.cy C T)).core.stop = ((r.flat C).st T).stop := by
      unfold SRun.St.stop SRun.St.allIdle
      rw [hR.fsm, hR.src]
    have h1' : (r.st (r.cy C T)).core.fsm = 0 ∨ (r.st (r.cy C T)).core.stop = true := by
      rw [hR.fsm, hst]; exact h1
    refine ⟨h3, h1'.imp_right fun h => ⟨hg, h⟩, ?_⟩
    cases hrun : (r.inp (r.cy C T)).base.run with
    | true => rfl
    | false =>
      exfalso
      have e0 : (r.st (r.cy C T + 1)).core.fsm = 0 := by
        rw [r.core_go hg]
        show SRun.St.nextFsm _ _ = 0
        have e : ({ (r.st (r.cy C T)).core with rdata := (r.st (r.cy C T)).rdata } : SRun.St p.core).stop =
            (r.st (r.cy C T)).core.stop := rfl
        unfold SRun.St.nextFsm
        rw [e, hrun]
        rcases h1' with h5 | h5
        · simp [h5]
        · have h6 : (r.st (r.cy C T)).core.fsm = 3 := by
            unfold SRun.St.stop at h5; simp at h5; exact h5.1
          simp [h5, h6]
      have hcy := r.cy_step h3
      have := stay_idle (r := r) (a := r.cy C T + 1) (b := r.cy C (T + 1)) (by omega) e0 (fun c h5 h6 => by
        have hng := r.between h3 (by omega : r.cy C T < c) h6
        refine ⟨hng, fun hs => ?_⟩
        have := (hH c (by have := r.cy_le C (T + 1); omega) hs).1
        rw [hng] at this; cases this)
      omega
  · rintro ⟨h3, h1, h2⟩
    have hR := rel g.calm g.sync C T (by omega)
    obtain ⟨hg, hlt, _⟩ := r.cy_lt h3
    have hst : (r.st (r.cy C T)).core.stop = ((r.flat C).st T).stop := by
      unfold SRun.St.stop SRun.St.allIdle
      rw [hR.fsm, hR.src]
    have h1' : (r.st (r.cy C T)).core.fsm = 0 ∨ (r.st (r.cy C T)).core.stop = true := h1.imp_right And.right
    refine ⟨by rw [← hR.fsm, ← hst]; exact h1', ?_⟩
    rw [flat_inp]
    simp only [tinp, Bool.and_eq_true, decide_eq_true_eq]
    refine ⟨h3, ?_⟩
    have e0 : (r.st (r.cy C T + 1)).core.fsm = 1 := by
      rw [r.core_go hg]
      show SRun.St.nextFsm _ _ = 1
      have e : ({ (r.st (r.cy C T)).core with rdata := (r.st (r.cy C T)).rdata } : SRun.St p.core).stop =
          (r.st (r.cy C T)).core.stop := rfl
      unfold SRun.St.nextFsm
      rw [e, h2]
      rcases h1' with h5 | h5
      · simp [h5]
      · have h6 : (r.st (r.cy C T)).core.fsm = 3 := by
          unfold SRun.St.stop at h5; simp at h5; exact h5.1
        simp [h5, h6]
    have hcy := r.cy_step h3
    have hH' := r.held g.sync (a := r.cy C T + 1) (b := r.cy C (T + 1)) (by omega)
      (fun c h5 h6 => r.between h3 (by omega) h6)
    rcases hH'.fsm with h5 | ⟨h5, _⟩
    · rw [h5, e0]
    · omega

/-- A start before `C` is one of the run without stalls. -/
theorem started_of (g : r.Proper S) {C : ℕ} (hH : r.Smooth C) {c : ℕ} (h : r.Starts c) (hc : c < C) :
    (r.flat C).Started (r.nt c) ∧ r.cy C (r.nt c) = c ∧ r.cy C (r.nt c + 1) = c + 1 ∧ r.nt (c + 1) = r.nt c + 1 := by
  obtain ⟨h1, h2⟩ := hH c hc h
  have e := r.cy_nt h1 hc
  have e1 : r.nt (c + 1) = r.nt c + 1 := by rw [nt_succ, if_pos h1]
  refine ⟨(flat_started g hH _).2 ⟨r.nt_lt h1 hc, by rw [e]; exact h⟩, e, ?_, e1⟩
  rcases Nat.lt_or_ge (c + 1) C with h3 | h3
  · rw [← e1]; exact r.cy_nt (h2 h3) h3
  · have : c + 1 = C := by omega
    rw [← e1, this]; exact r.cy_ge (Nat.le_refl _)

theorem flat_srcSet (g : r.Proper S) {C : ℕ} (hH : r.Smooth C) {c : ℕ} (h : r.Starts c) (hc : c < C) (j : ℕ) :
    (r.flat C).srcSet (r.nt c) j = r.srcSet c j := by
  obtain ⟨_, _, e, _⟩ := started_of g hH h hc
  unfold SRun.Run.srcSet
  rw [SRun.setting, flat_inp]
  show (r.st (r.cy C (r.nt c + 1))).core.cfg j = _
  rw [e, cfg_eq]
  rfl

theorem flat_items (g : r.Proper S) {C : ℕ} (hH : r.Smooth C) {c : ℕ} (h : r.Starts c) (hc : c < C) :
    (r.flat C).items S (r.nt c) = r.items S c := by
  unfold SRun.Run.items items
  congr 1
  apply List.map_congr_left
  intro j _
  rw [flat_srcSet g hH h hc]

theorem flat_ok (g : r.Proper S) {C : ℕ} (hH : r.Smooth C) : (r.flat C).Ok S := by
  intro T hT j hj
  obtain ⟨h1, h2⟩ := (flat_started g hH T).1 hT
  obtain ⟨_, h3, h4⟩ := r.cy_lt h1
  have := flat_srcSet g hH h2 h3 j
  rw [h4] at this
  rw [this]
  exact g.ok _ h2 j hj

/-- `join` returns no earlier than the last cycle in which the run can write. -/
theorem join_of (g : r.Proper S) {C : ℕ} (hH : r.Smooth C) {c : ℕ} (h : r.Starts c) (hc : c < C) :
    ∀ d, c + 2 ≤ d → d ≤ C → (r.st d).core.busy = false → r.nt c + 6 + p.core.depth + r.items S c ≤ r.nt d := by
  induction c using Nat.strongRecOn with
  | ind c ih =>
    intro d hd hdC hb
    obtain ⟨hT, e1, e2, e3⟩ := started_of g hH h hc
    have hr := flat_ok g hH
    have hit := flat_items g hH h hc
    obtain ⟨hg0, hg1⟩ := hH c hc h
    obtain ⟨b1, b2, b3⟩ := not_busy hb
    have hgd := go_idle g b1 b2
    have hcy : r.cy C (r.nt d) = d := by
      rcases Nat.lt_or_ge d C with h1 | h1
      · exact r.cy_nt hgd h1
      · have : d = C := by omega
        subst this; exact r.cy_ge (Nat.le_refl _)
    have hle := r.nt_mono hdC
    have hR := rel g.calm g.sync C (r.nt d) hle
    rw [hcy] at hR
    have hsk : (r.st d).core.sinkBusy = ((r.flat C).st (r.nt d)).sinkBusy := by
      unfold SRun.St.sinkBusy; rw [hR.busyL]
    have hn2 : r.nt c + 2 ≤ r.nt d := by
      have h1 := r.nt_mono hd
      have h2 : r.nt (c + 2) = r.nt c + 2 := by
        rw [show c + 2 = (c + 1) + 1 by omega, nt_succ, hg1 (by omega), e3]; rfl
      omega
    have hprev : ∀ T', (r.flat C).Started T' → T' < r.nt c → T' + 6 + p.core.depth + (r.flat C).items S T' ≤ r.nt c := by
      intro T' hT' hlt
      obtain ⟨h1, h2⟩ := (flat_started g hH T').1 hT'
      obtain ⟨h3, h4, h5⟩ := r.cy_lt h1
      have hlt' : r.cy C T' < c := by
        rcases Nat.lt_or_ge (r.cy C T') c with h6 | h6
        · exact h6
        · have := r.nt_mono h6; omega
      obtain ⟨d', h6, h7, h8⟩ := g.joined _ _ h2 h hlt'
      have := ih _ hlt' h2 h4 d' h6 (by omega) h8
      have h9 := r.nt_mono (Nat.le_of_lt h7)
      have h10 := flat_items g hH h2 h4
      rw [h5] at this h10
      omega
    cases hbr : ((r.flat C).st (r.nt d)).breg with
    | false =>
      have := SRun.c62_join hr hT (fun T' hT' hlt => Or.inl (by
        have := hprev T' hT' hlt
        unfold SRun.Run.last; omega)) hn2 (by
        unfold SRun.St.busy
        rw [← hR.sbusy, ← hsk, b1, b2, hbr]; rfl)
      omega
    | true =>
      rcases hR.breg with h1 | h1
      · rw [b3, hbr] at h1; cases h1
      · have h2 : (!((r.flat C).st (r.nt d)).sinkBusy &&
            SRun.tap ((r.flat C).st (r.nt d)).busyL (p.core.depth + 2)) = true := by
          rw [b3] at h1
          unfold nextReg at h1
          cases h3 : (!((r.flat C).st (r.nt d)).sinkBusy &&
            SRun.tap ((r.flat C).st (r.nt d)).busyL (p.core.depth + 2)) with
          | true => rfl
          | false => rw [h3, hbr] at h1; simp at h1
        rw [Bool.and_eq_true, Bool.not_eq_true'] at h2
        obtain ⟨T', hT', h4⟩ := SRun.Run.fall hr h2.1 h2.2
        have hl' : (r.flat C).last S T' = T' + 3 + (r.flat C).items S T' := rfl
        rcases Nat.lt_trichotomy T' (r.nt c) with h5 | h5 | h5
        · have := hprev T' hT' h5
          omega
        · subst h5; omega
        · have := SRun.Run.started_sep hr hT hT' h5
          have hl : (r.flat C).last S (r.nt c) = r.nt c + 3 + (r.flat C).items S (r.nt c) := rfl
          omega

/-- When a run is started, the previous ones have ended. -/
theorem ended_of (g : r.Proper S) {C : ℕ} (hH : r.Smooth C) (hC : r.Starts C) :
    ∀ T, (r.flat C).Started T → T + 6 + p.core.depth + (r.flat C).items S T ≤ r.nt C := by
  intro T hT
  obtain ⟨h1, h2⟩ := (flat_started g hH T).1 hT
  obtain ⟨h3, h4, h5⟩ := r.cy_lt h1
  obtain ⟨d, h6, h7, h8⟩ := g.joined _ _ h2 hC h4
  have := join_of g hH h2 h4 d h6 (by omega) h8
  have h9 := r.nt_mono (Nat.le_of_lt h7)
  have h10 := flat_items g hH h2 h4
  rw [h5] at this h10
  omega

/-- No start is stalled or followed by a stall. -/
theorem starts_go (g : r.Proper S) (c : ℕ) (h : r.Starts c) : r.go c = true ∧ r.go (c + 1) = true ∧ (r.st c).core.fsm = 0 := by
  induction c using Nat.strongRecOn with
  | ind c ih =>
    have hH : r.Smooth c := fun c' h1 h2 => ⟨(ih c' h1 h2).1, fun _ => (ih c' h1 h2).2.1⟩
    have hr := flat_ok g hH
    have hend := ended_of g hH h
    have hR := rel g.calm g.sync c (r.nt c) (Nat.le_refl _)
    rw [r.cy_ge (Nat.le_refl _)] at hR
    obtain ⟨h1, _, h3⟩ : ((r.flat c).st (r.nt c)).fsm = 0 ∧ (r.flat c).Quiet S (r.nt c) ∧
        ((r.flat c).st (r.nt c)).sbusy = false := by
      rcases SRun.Run.cover hr (r.nt c) with h1 | ⟨T, hT, _, h1, h2⟩
      · exact h1
      · have := hend T hT
        unfold SRun.Run.last at h2; omega
    have hsb : (r.st c).core.sbusy = false := by rw [hR.sbusy]; exact h3
    have hsk : (r.st c).core.sinkBusy = false := by
      have e : (r.st c).core.sinkBusy = ((r.flat c).st (r.nt c)).sinkBusy := by unfold SRun.St.sinkBusy; rw [hR.busyL]
      rw [e]
      cases h4 : ((r.flat c).st (r.nt c)).sinkBusy with
      | false => rfl
      | true =>
        obtain ⟨T, hT, _, h5⟩ := (SRun.Run.sink_busy_iff hr _).1 h4
        have := hend T hT
        unfold SRun.Run.last at h5; omega
    have hg := go_idle g hsb hsk
    have hf : (r.st c).core.fsm = 0 := by rw [hR.fsm]; exact h1
    refine ⟨hg, ?_, hf⟩
    apply go_idle g
    · rw [r.core_go hg]
      show SRun.St.nextBusy _ = false
      have hst : ({ (r.st c).core with rdata := (r.st c).rdata } : SRun.St p.core).stop = false := by
        unfold SRun.St.stop; simp [hf]
      unfold SRun.St.nextBusy
      rw [hst]
      simp [hf, hsb]
    · rw [r.core_go hg]
      have e : ((r.st c).moved (r.inp c)).sinkBusy = SRun.tap (r.st c).core.busyL p.core.depth := by
        unfold SRun.St.sinkBusy SRun.tap
        simp only [St.moved, SRun.St.step, SRun.push]
        rw [List.getD_eq_getElem?_getD, List.getElem?_take, if_pos (by omega), List.getElem?_cons_succ,
          ← List.getD_eq_getElem?_getD]
      rw [e, hR.busyL, (r.flat c).tap_busy _ _ (by omega)]
      split
      · cases h4 : ((r.flat c).st (r.nt c - 1 - p.core.depth)).sbusy with
        | false => rfl
        | true =>
          obtain ⟨T, hT, _, h5⟩ := (SRun.Run.sbusy_iff hr _).1 h4
          have := hend T hT
          unfold SRun.Run.last at h5; omega
      · rfl

theorem smooth (g : r.Proper S) (C : ℕ) : r.Smooth C :=
  fun c _ h => ⟨(starts_go g c h).1, fun _ => (starts_go g c h).2.1⟩

end Run

end SFifo
