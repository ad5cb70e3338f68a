import Verif.Model.StreamParam
import Verif.Props.C76_StreamFifo

/-!
# C81: parameters and empty sources of thread streams

`set_parameter(name, value)` before `run` gives every item of the run the value, and `set_source_empty(name, value)` does the same
for a source.  A value set while a run is going on is for the next run.  This also holds for runs chained with
`source_join_and_run`, as long as the stream does not stall, and with FIFOs if there is a `join` between two runs.
-/

namespace SRun

variable {X : Type}

/-- What a held register is, and when it changes. -/
theorem Hold.next_eq {h : ℕ → Hold X} {wr : ℕ → Option X} (hn : ∀ t, (h (t + 1)).next = (wr t).getD (h t).next) (t : ℕ) :
    (h t).next = setting wr (h 0).next t := by
  induction t with
  | zero => rfl
  | succ t ih => rw [hn, ih]; rfl

/-- The register keeps the value of the last start. -/
theorem Hold.keep {h : ℕ → Hold X} {a : ℕ} {v : X} (ha : (h a).data = v) {b : ℕ}
    (hs : ∀ t, a ≤ t → t < b → (h (t + 1)).data = (h t).data) {t : ℕ} (h1 : a ≤ t) (h2 : t ≤ b) : (h t).data = v := by
  induction t, h1 using Nat.le_induction with
  | base => exact ha
  | succ t ht ih => rw [hs t ht (by omega)]; exact ih (by omega)

variable {V : Type} {p : Par V} {r : Run p} {S : Spec p}

/-- The cycle after a start is the only one with `source_start` until the last item has entered the data path. -/
theorem Run.start_off (hr : r.Ok S) {T t : ℕ} (hT : r.Started T) (h1 : T + 2 ≤ t) (h2 : t < T + 4 + r.items S T) :
    (r.st t).sstart = false := by
  cases h : (r.st t).sstart with
  | false => rfl
  | true =>
    exfalso
    obtain ⟨T', hT', h3⟩ := (Run.sstart_iff hr t).1 h
    have := Run.started_sep hr hT hT' (by omega)
    unfold Run.last at this
    omega

/-- **C81, parameters.** Each item of each run is computed with the value last set for the parameter when the run was started,
    also for runs chained with `source_join_and_run`. -/
theorem c81_parameter (hr : r.Ok S) {h : ℕ → Hold X} {wr : ℕ → Option X}
    (hh : ∀ t, h (t + 1) = (h t).param (wr t) (r.st t).sstart) {T i : ℕ} (hT : r.Started T) (hi : i < r.items S T) :
    (h (T + 5 + i)).data = setting wr (h 0).next (T + 1) := by
  have hn := Hold.next_eq (h := h) (wr := wr) (fun t => by rw [hh]; rfl) (T + 1)
  have h1 : (h (T + 1 + 1)).data = setting wr (h 0).next (T + 1) := by
    rw [hh, Hold.param, (Run.sstart_iff hr _).2 ⟨T, hT, rfl⟩, if_pos rfl, hn]
  refine Hold.keep h1 (b := T + 4 + r.items S T) (fun t h2 h3 => ?_) (by omega) (by omega)
  rw [hh, Hold.param, Run.start_off hr hT (by omega) h3]
  rfl

/-- `source_start` and `source_busy` are never 1 together. -/
theorem c81_apart (hr : r.Ok S) (t : ℕ) : ¬ ((r.st t).sstart = true ∧ (r.st t).sbusy = true) := by
  rintro ⟨h1, h2⟩
  obtain ⟨T, hT, e⟩ := (Run.sstart_iff hr t).1 h1
  obtain ⟨T', hT', h3, h4⟩ := (Run.sbusy_iff hr t).1 h2
  have := Run.started_sep hr hT' hT (by omega)
  omega

/-- **C81, empty sources.** The same for a source that is only used with `set_source_empty`. -/
theorem c81_empty (hr : r.Ok S) {h : ℕ → Hold X} {wr : ℕ → Option X}
    (hh : ∀ t, h (t + 1) = (h t).source (wr t) (r.st t).sstart (r.st t).sbusy true none) {T i : ℕ} (hT : r.Started T)
    (hi : i < r.items S T) : (h (T + 5 + i)).data = setting wr (h 0).next (T + 1) := by
  refine c81_parameter hr (h := h) (wr := wr) (fun t => ?_) hT hi
  rw [hh]
  unfold Hold.source Hold.param
  cases (r.st t).sstart <;> cases (r.st t).sbusy <;> rfl

/-- **C81, a source used with `set_source` and with `set_source_empty`.** Once the program uses `set_source` for a source, an empty
    source does not work: every item is the word at the output of the RAM, whatever value was set. -/
theorem c81_not_empty (hr : r.Ok S) {h : ℕ → Hold X} {wr : ℕ → Option X} {ram : ℕ → X}
    (hh : ∀ t, h (t + 1) = (h t).source (wr t) (r.st t).sstart (r.st t).sbusy true (some (ram t))) {T i : ℕ} (hT : r.Started T)
    (hi : i < r.items S T) : (h (T + 5 + i)).data = ram (T + 4 + i) := by
  have e : T + 5 + i = (T + 4 + i) + 1 := by omega
  rw [e, hh, Hold.source, Run.start_off hr hT (by omega) (by omega), Run.busy_win hr hT (by omega) (by unfold Run.last; omega)]
  rfl

/-! ## Results -/

/-- A data path with a parameter: as `Run.Path`, with the value of the parameter in the cycle of each item. -/
def Run.PathP (r : Run p) (h : ℕ → Hold X) (F : ℕ → List (List V × X) → V) (W : ℕ → List (List V × X) → Bool) : Prop :=
  ∀ k a n, (∀ i, i ≤ n → (r.st (a + i)).ivalid = true) → (r.st a).rr = true →
    (∀ i, 0 < i → i ≤ n → (r.st (a + i)).rr = false) →
    (r.inp (a + n + p.depth)).dat k =
        F k ((List.range (n + 1)).map fun i => ((List.range p.ns).map fun j => (r.st (a + i)).wdata j, (h (a + i)).data)) ∧
      (r.inp (a + n + p.depth)).whn k =
        W k ((List.range (n + 1)).map fun i => ((List.range p.ns).map fun j => (r.st (a + i)).wdata j, (h (a + i)).data))

/-- **C81, result of a job.** With a data path that computes `F` and `W` from the items and the parameter, the job writes `F` of the
    items read from the sources, each with the value set before `run`. -/
theorem c81_result (hr : r.Ok S) (hj : r.Joined) {h : ℕ → Hold X} {wr : ℕ → Option X}
    (hh : ∀ t, h (t + 1) = (h t).param (wr t) (r.st t).sstart)
    {F : ℕ → List (List V × X) → V} {W : ℕ → List (List V × X) → Bool} (hp : r.PathP h F W) {k : ℕ} (hs : r.SOk S k) {T t : ℕ}
    (hT : r.Started T) (ht : T + 2 ≤ t) (hb : (r.st t).busy = false) (hlater : ∀ T', r.Started T' → T' ≤ T ∨ t < T')
    (hne : ∀ j, j < p.ns → 0 < (S.as j (r.srcSet T j)).length) {x : X} (hx : setting wr (h 0).next (T + 1) = x)
    (hfit : (S.sas k (r.snkSet T k)).length ≤ ((List.range (r.items S T)).filter fun i =>
      W k ((r.inputs S T (i + 1)).map fun l => (l, x))).length) :
    r.written k T t = (S.sas k (r.snkSet T k)).zip (((List.range (r.items S T)).filter fun i =>
      W k ((r.inputs S T (i + 1)).map fun l => (l, x))).map fun i => F k ((r.inputs S T (i + 1)).map fun l => (l, x))) := by
  rw [c62_job hr hj hs hT ht hb hlater]
  refine Run.result_of hr (F := fun k l => F k (l.map fun l => (l, x))) (W := fun k l => W k (l.map fun l => (l, x)))
    (fun i hi h1 h2 h3 => ?_) hT hne hfit
  have := hp k (T + 5) i h1 h2 h3
  have e : ((List.range (i + 1)).map fun i => ((List.range p.ns).map fun j => (r.st (T + 5 + i)).wdata j, (h (T + 5 + i)).data)) =
      ((List.range (i + 1)).map fun i => (List.range p.ns).map fun j => (r.st (T + 5 + i)).wdata j).map fun l => (l, x) := by
    rw [List.map_map]
    apply List.map_congr_left
    intro i' hi'
    have hi' := List.mem_range.1 hi'
    rw [c81_parameter hr hh hT (show i' < r.items S T by omega), hx]
    rfl
  rw [e] at this
  exact this

end SRun

/-! ## Streams with FIFOs -/

namespace SFifo

open SRun (Hold setting)

variable {X V : Type} {p : FPar V} {r : Run p} {S : SRun.Spec p.core}

/-- `source_start` is 1 in the cycle after a start and, if there is a `join` between two runs, in no other. -/
theorem Run.sstart_of (g : r.Proper S) (t : ℕ) : (r.st t).core.sstart = true ↔ ∃ c, r.Starts c ∧ t = c + 1 := by
  rw [r.inv]
  cases t with
  | zero =>
    rw [r.start]
    simp [St.init, SRun.St.init]
  | succ t =>
    rw [decide_eq_true_eq]
    constructor
    · intro h
      refine ⟨t, ?_, rfl⟩
      cases hg : r.go t with
      | false =>
        rw [r.core_stall hg] at h
        simp only [St.stalled] at h
        split at h
        · rename_i h1
          simp only [Bool.and_eq_true, decide_eq_true_eq] at h1
          exact ⟨Or.inl h1.1, h1.2⟩
        · exfalso
          -- a stalled cycle with `source_start`: it was started in the cycle before, and that start is not followed by a stall
          have := (Run.sstart_of g t).1 (by rw [r.inv, h]; rfl)
          obtain ⟨c, hc, e⟩ := this
          subst e
          rw [(Run.starts_go g c hc).2.1] at hg; cases hg
      | true =>
        rw [r.core_go hg] at h
        have h' : (r.st t).core.nextFsm (r.inp t).base.run = 1 := h
        unfold SRun.St.nextFsm at h'
        by_cases h0 : (r.st t).core.fsm = 0
        · rw [if_pos h0] at h'
          cases hrun : (r.inp t).base.run with
          | false => rw [hrun] at h'; cases h'
          | true => exact ⟨Or.inl h0, hrun⟩
        · rw [if_neg h0] at h'
          by_cases h1 : (r.st t).core.fsm = 1
          · rw [if_pos h1, r.inv, h1] at h'
            cases h'
          · rw [if_neg h1] at h'
            by_cases h2 : (r.st t).core.fsm = 2
            · rw [if_pos h2] at h'; cases h'
            · rw [if_neg h2] at h'
              cases hst : (r.st t).core.stop with
              | false => rw [hst] at h'; exact absurd h' h1
              | true =>
                rw [hst] at h'
                cases hrun : (r.inp t).base.run with
                | false => rw [hrun] at h'; cases h'
                | true => exact ⟨Or.inr ⟨hg, hst⟩, hrun⟩
    · rintro ⟨c, hc, e⟩
      have : t = c := by omega
      subst this
      obtain ⟨h1, _, h3⟩ := Run.starts_go g t hc
      rw [r.core_go h1]
      show (r.st t).core.nextFsm (r.inp t).base.run = 1
      rw [hc.2]
      simp [SRun.St.nextFsm, h3]
termination_by t

/-- Before the last item of a run has entered the data path there is no other start. -/
theorem Run.start_off (g : r.Proper S) {c t i : ℕ} (hc : r.Starts c) (h1 : c + 2 ≤ t) (hi : i < r.items S c)
    (hn : r.nt t ≤ r.nt c + 5 + i) : (r.st t).core.sstart = false := by
  cases h : (r.st t).core.sstart with
  | false => rfl
  | true =>
    exfalso
    obtain ⟨c', hc', e⟩ := (Run.sstart_of g t).1 h
    have := Run.prev_of g hc' c hc (by omega)
    have := r.nt_mono (show c' ≤ t by omega)
    omega

/-- **C81, parameters of a stream with FIFOs.** If there is a `join` between two runs, each item is computed with the value last set
    for the parameter when the run was started, however the stream stalls: in all the cycles in which item `i` is at the inputs
    of the data path. -/
theorem c81_stalled (g : r.Proper S) {h : ℕ → Hold X} {wr : ℕ → Option X}
    (hh : ∀ t, h (t + 1) = (h t).param (wr t) (r.st t).core.sstart) {c t i : ℕ} (hc : r.Starts c) (hi : i < r.items S c)
    (hn : r.nt t = r.nt c + 5 + i) : (h t).data = setting wr (h 0).next (c + 1) := by
  have hnx := Hold.next_eq (h := h) (wr := wr) (fun t => by rw [hh]; rfl) (c + 1)
  have h1 : (h (c + 1 + 1)).data = setting wr (h 0).next (c + 1) := by
    rw [hh, Hold.param, (Run.sstart_of g _).2 ⟨c, hc, rfl⟩, if_pos rfl, hnx]
  have hct : c + 2 ≤ t := by
    rcases Nat.lt_or_ge t (c + 2) with h2 | h2
    · have := r.nt_mono (show t ≤ c + 2 by omega)
      have e1 : r.nt (c + 2) ≤ r.nt (c + 1) + 1 := by rw [Run.nt_succ]; split <;> omega
      have e2 : r.nt (c + 1) ≤ r.nt c + 1 := by rw [Run.nt_succ]; split <;> omega
      omega
    · exact h2
  refine Hold.keep h1 (b := t) (fun u h2 h3 => ?_) (by omega) (Nat.le_refl _)
  rw [hh, Hold.param, Run.start_off g hc (by omega) hi (by have := r.nt_mono (Nat.le_of_lt h3); omega)]
  rfl

/-- **C81, empty sources of a stream with FIFOs.** -/
theorem c81_empty_stalled (g : r.Proper S) {h : ℕ → Hold X} {wr : ℕ → Option X}
    (hh : ∀ t, h (t + 1) = (h t).source (wr t) (r.st t).core.sstart (r.st t).core.sbusy (r.go t) none) {c t i : ℕ}
    (hc : r.Starts c) (hi : i < r.items S c) (hn : r.nt t = r.nt c + 5 + i) :
    (h t).data = setting wr (h 0).next (c + 1) := by
  refine c81_stalled g (h := h) (wr := wr) (fun t => ?_) hc hi hn
  rw [hh]
  unfold Hold.source Hold.param
  cases hs : (r.st t).core.sstart with
  | false => cases r.go t <;> cases (r.st t).core.sbusy <;> rfl
  | true =>
    obtain ⟨c, hc, e⟩ := (Run.sstart_of g t).1 hs
    subst e
    rw [(Run.starts_go g c hc).2.1]
    rfl

/-! ## Where the code does less -/

/-- **C81, a restart with a stall.** `source_join_and_run` starts the next run in the cycle in which the sources end, one cycle
    before the last item is at the inputs of the data path.  The register of the parameter is written in that cycle even if the
    stream is stalled, while the item stays where it is: the last item of the run is computed with the parameter of the next. -/
theorem c81_not_restart {h : ℕ → Hold X} {wr : ℕ → Option X} (hh : ∀ t, h (t + 1) = (h t).param (wr t) (r.st t).core.sstart)
    {c : ℕ} (hc : r.Starts c) (hg : r.go c = true) (hst : r.go (c + 1) = false) :
    (r.st (c + 2)).core.wdata = (r.st (c + 1)).core.wdata ∧ (r.st (c + 2)).core.ivalid = (r.st (c + 1)).core.ivalid ∧
      (h (c + 2)).data = setting wr (h 0).next (c + 1) := by
  have hs := c76_stall hst
  refine ⟨hs.2.2.2.2.2.1, hs.2.2.2.2.2.2.1, ?_⟩
  have hnx := Hold.next_eq (h := h) (wr := wr) (fun t => by rw [hh]; rfl) (c + 1)
  have h1 : (r.st (c + 1)).core.sstart = true := by
    rw [r.inv, r.core_go hg, decide_eq_true_eq]
    show (r.st c).core.nextFsm (r.inp c).base.run = 1
    rw [hc.2]
    rcases hc.1 with h0 | ⟨_, h0⟩
    · simp [SRun.St.nextFsm, h0]
    · have : (r.st c).core.fsm = 3 := by
        unfold SRun.St.stop at h0
        simp only [Bool.and_eq_true, beq_iff_eq] at h0
        exact h0.1
      simp [SRun.St.nextFsm, this, h0]
  rw [hh, Hold.param, h1, if_pos rfl, hnx]

/-! ## Examples -/

namespace Ex81

/-- The values of the parameter: 100 is set in cycle 0, 200 in cycle 5. -/
def wr (t : ℕ) : Option ℕ := if t = 0 then some 100 else if t = 5 then some 200 else none

/-- Source and sink are FIFOs and there is a parameter: `run` in the cycles of `l`.  The data path adds the parameter.  In cycle `t`
    the word `t` is put into the FIFO of the source if there is room; the FIFO of the sink is read from cycle `d` on. -/
def prog (n d : ℕ) (l : List ℕ) : Run (Ex.par true 2 n n) :=
  Run.mk' _ ((⟨0, 0⟩, 0) : Hold ℕ × ℕ) (fun t _ x => ⟨⟨l.contains t, fun _ => none, fun _ => none, fun _ _ => 0, fun _ => x.2,
    fun _ => true⟩, true, fun _ => some t, fun _ => decide (d ≤ t)⟩)
    (fun s i x => (x.1.param ((i.enq 0).bind wr) s.core.sstart,
      if s.oready i then s.core.wdata 0 + x.1.data else x.2))

/-- The parameter of a run. -/
def hold {n d : ℕ} {l : List ℕ} : ℕ → Hold ℕ
  | 0 => ⟨0, 0⟩
  | t + 1 => (hold (n := n) (d := d) (l := l) t).param (wr t) ((prog n d l).st t).core.sstart

/-- Two runs of 5 words without stalls: the first with 100, the second with 200. -/
example : (prog 5 0 [1, 9]).popped 0 0 40 = [0, 1, 2, 5, 6, 7, 8, 9, 13, 14] ∧
    (prog 5 0 [1, 9]).pushed 2 0 0 40 = [100, 101, 102, 105, 106, 207, 208, 209, 213, 214] := by decide +kernel

/-- **C81, a restart with a stall, reached.** The same runs with a stall in cycles 10 to 12: the last word of the first run, 6, is
    computed with the parameter of the second run. -/
theorem restart : (prog 5 12 [1, 9]).Starts 9 ∧ (prog 5 12 [1, 9]).go 9 = true ∧ (prog 5 12 [1, 9]).go 10 = false ∧
    ((prog 5 12 [1, 9]).st 10).core.ivalid = true ∧
    (prog 5 12 [1, 9]).popped 0 0 40 = [0, 1, 2, 5, 6, 7, 8, 9, 16, 17] ∧
    (prog 5 12 [1, 9]).pushed 2 0 0 40 = [100, 101, 102, 105, 206, 207, 208, 209, 216, 217] := by
  refine ⟨⟨Or.inr ⟨by decide +kernel, by decide +kernel⟩, rfl⟩, by decide +kernel, by decide +kernel, by decide +kernel,
    by decide +kernel, by decide +kernel⟩

/-- The register of the parameter in this run. -/
example : (hold (n := 5) (d := 12) (l := [1, 9]) 10).data = 100 ∧ (hold (n := 5) (d := 12) (l := [1, 9]) 11).data = 200 := by
  decide +kernel

/-- `c81_not_restart` for this run. -/
example : ((prog 5 12 [1, 9]).st 11).core.wdata = ((prog 5 12 [1, 9]).st 10).core.wdata ∧
    (hold (n := 5) (d := 12) (l := [1, 9]) 11).data = 200 := by
  obtain ⟨h1, h2, h3, _⟩ := restart
  have := c81_not_restart (h := hold (n := 5) (d := 12) (l := [1, 9])) (wr := wr) (fun _ => rfl) h1 h2 h3
  exact ⟨this.1, this.2.2.trans (by decide)⟩

theorem srcSet {n d : ℕ} {l : List ℕ} (c j : ℕ) : (prog n d l).srcSet c j = n := by
  unfold Run.srcSet
  generalize c + 1 = u
  induction u with
  | zero => rfl
  | succ u ih => exact ih

/-- A single run with stalls, for `c81_stalled`: item 3 of the run started in cycle 1. -/
theorem proper1 : (prog 5 14 [1]).Proper (Ex.spec true 2 5 5) where
  sync := fun j a b h => by
    have h' : some (2, true) = some (a, b) := h
    simp at h'
    exact h'.2
  ext := fun _ => rfl
  first := fun _ => rfl
  ok := fun c _ j _ => by
    rw [srcSet]
    show 1 ≤ 5 ∧ 5 < 2 ^ 4
    omega
  joined := fun c c' h h' hlt => by
    have h1 : [1].contains c = true := h.2
    have h2 : [1].contains c' = true := h'.2
    simp at h1 h2
    omega

theorem items1 : (prog 5 14 [1]).items (Ex.spec true 2 5 5) 1 = 5 := by
  have h : ((Ex.spec true 2 5 5).as 0 ((prog 5 14 [1]).srcSet 1 0)).length = 5 := List.length_replicate
  unfold Run.items
  show max ((Ex.spec true 2 5 5).as 0 ((prog 5 14 [1]).srcSet 1 0)).length 0 = 5
  rw [h]; rfl

example : (prog 5 14 [1]).go 10 = false ∧ (hold (n := 5) (d := 14) (l := [1]) 12).data = 100 := by
  refine ⟨by decide +kernel, ?_⟩
  exact (c81_stalled proper1 (h := hold (n := 5) (d := 14) (l := [1])) (wr := wr) (fun _ => rfl) (c := 1) (i := 4)
    ⟨Or.inl (by decide +kernel), rfl⟩ (by rw [items1]; decide) (by decide +kernel)).trans (by decide)

/-- The registers of an empty source. -/
def hold2 : ℕ → Hold ℕ
  | 0 => ⟨0, 0⟩
  | t + 1 => (hold2 t).source (wr t) ((prog 5 14 [1]).st t).core.sstart ((prog 5 14 [1]).st t).core.sbusy ((prog 5 14 [1]).go t) none

example : (hold2 12).data = 100 :=
  (c81_empty_stalled proper1 (h := hold2) (wr := wr) (fun _ => rfl) (c := 1) (i := 4)
    ⟨Or.inl (by decide +kernel), rfl⟩ (by rw [items1]; decide) (by decide +kernel)).trans (by decide)

end Ex81

end SFifo

namespace SRun.Ex81

/-- The registers of a parameter. -/
def hold {V : Type} {p : Par V} (r : Run p) (wr : ℕ → Option ℤ) : ℕ → Hold ℤ
  | 0 => ⟨0, 0⟩
  | t + 1 => (hold r wr t).param (wr t) (r.st t).sstart

/-- 1 is set in cycle 0, 7 in cycle 3. -/
def wr (t : ℕ) : Option ℤ := if t = 0 then some 1 else if t = 3 then some 7 else none

/-- Two chained runs of one item, in cycles 0 and 4: the first with 1, the second with 7. -/
example : (hold (Ex.prog 8 1 [0, 4]) wr 5).data = 1 ∧ (hold (Ex.prog 8 1 [0, 4]) wr 9).data = 7 := by
  have hr := Ex.ok 8 [0, 4] (n0 := 1) (by decide)
  have s0 : (Ex.prog 8 1 [0, 4]).Started 0 := ⟨Or.inl rfl, rfl⟩
  have s4 : (Ex.prog 8 1 [0, 4]).Started 4 := ⟨Or.inr ((Run.stop_iff hr 4).2 ⟨0, s0, by rw [Ex.last]⟩), rfl⟩
  exact ⟨(c81_parameter hr (h := hold _ wr) (wr := wr) (fun _ => rfl) (i := 0) s0 (by rw [Ex.items]; decide)).trans (by decide),
    (c81_parameter hr (h := hold _ wr) (wr := wr) (fun _ => rfl) (i := 0) s4 (by rw [Ex.items]; decide)).trans (by decide)⟩

/-- The registers of an empty source; `ram`: the word of the RAM, if `set_source` is used for it too. -/
def hold2 {V : Type} {p : Par V} (r : Run p) (wr ram : ℕ → Option ℤ) : ℕ → Hold ℤ
  | 0 => ⟨0, 0⟩
  | t + 1 => (hold2 r wr ram t).source (wr t) (r.st t).sstart (r.st t).sbusy true (ram t)

/-- An empty source set to 1 gives 1; if `set_source` is used for it too, what is at the output of the RAM, here 33. -/
example : (hold2 (Ex.prog 8 1 [0]) wr (fun _ => none) 5).data = 1 ∧
    (hold2 (Ex.prog 8 1 [0]) wr (fun _ => some 33) 5).data = 33 := by
  have hr := Ex.ok 8 [0] (n0 := 1) (by decide)
  have s0 : (Ex.prog 8 1 [0]).Started 0 := ⟨Or.inl rfl, rfl⟩
  exact ⟨(c81_empty hr (h := hold2 _ wr (fun _ => none)) (wr := wr) (fun _ => rfl) (i := 0) s0
      (by rw [Ex.items]; decide)).trans (by decide),
    c81_not_empty hr (h := hold2 _ wr (fun _ => some 33)) (wr := wr) (ram := fun _ => 33) (fun _ => rfl) (i := 0) s0
      (by rw [Ex.items]; decide)⟩

/-- The data path of `Ex.prog`, which adds 1, adds the parameter if it is 1 in the run. -/
theorem path {D n0 : ℕ} (h : 1 ≤ n0 ∧ n0 < 32) : (Ex.prog D n0 [0]).PathP (hold (Ex.prog D n0 [0]) wr)
    (fun _ l => ((l.getLast?.bind fun x => x.1.head?.map (· + x.2)).getD 0)) (fun _ _ => true) := by
  intro k a n h1 h2 h3
  refine ⟨?_, rfl⟩
  have hr := Ex.ok D [0] h
  have hp := (Ex.path D h k a n h1 h2 h3).1
  obtain ⟨T, hT, ha, hb⟩ := ((c62_items hr).2.1 _).1 (h1 n (Nat.le_refl _))
  have hz : T = 0 := by have := Ex.started D n0 hT; simpa using this
  subst hz
  have hx := c81_parameter hr (h := hold (Ex.prog D n0 [0]) wr) (wr := wr) (fun _ => rfl) (i := a + n - 5) hT (by omega)
  rw [show 0 + 5 + (a + n - 5) = a + n by omega] at hx
  have hx1 : (hold (Ex.prog D n0 [0]) wr (a + n)).data = 1 := hx.trans rfl
  rw [hp, List.range_succ, List.map_append, List.map_append]
  have hr1 : List.range (Ex.par D n0).ns = [0] := rfl
  simp only [hr1, List.map_cons, List.map_nil, List.getLast?_append, List.getLast?_singleton, Option.some_or, Option.bind_some,
    List.head?_cons, Option.getD_some, Option.map_some, hx1]

/-- A job of 4 words on a pipeline of 3 stages, the parameter being 1: `c81_result`. -/
example : ∃ t, (Ex.prog 3 4 [0]).written 0 0 t = [(8, 5), (9, 26), (10, 65), (11, 122)] := by
  have hr := Ex.ok 3 [0] (n0 := 4) (by decide)
  have hz : ∀ T, (Ex.prog 3 4 [0]).Started T → T = 0 := fun T hT => by have := Ex.started 3 4 hT; simpa using this
  have s0 : (Ex.prog 3 4 [0]).Started 0 := ⟨Or.inl rfl, rfl⟩
  have hd := c62_done hr s0 (fun T' h => Or.inl (by rw [hz T' h]))
  rw [Ex.items] at hd
  refine ⟨_, (c81_result hr (fun T T' h h' hlt => by have := hz T h; have := hz T' h'; omega) (h := hold _ wr) (wr := wr)
    (fun _ => rfl) (path (by decide)) (k := 0) (Ex.sok 3 [0] (by decide) 0) s0 (by decide) hd
    (fun T' h => Or.inl (by rw [hz T' h])) (fun j hj => ?_) (x := 1) (by decide) ?_).trans ?_⟩
  · have : j = 0 := by have : j < 1 := hj; omega
    subst this
    rw [Ex.srcSet]; decide
  · rw [Ex.items, Ex.snkSet]; decide
  · rw [Ex.items, Ex.snkSet]; decide +kernel

end SRun.Ex81
