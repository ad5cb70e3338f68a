import Verif.Model.StreamRun
import Verif.Props.C31_Pattern
import Mathlib.Tactic.Ring

/-!
# Runs of thread streams (for C62)
-/

namespace SRun

variable {V : Type}

/-! ## What an address generator does -/

/-- A source generator reads the addresses `as c` of its settings `c`, one per cycle, starting two cycles after the start. -/
structure Gen.Reads (g : Gen) (ok : g.Set → Prop) (as : g.Set → List ℤ) (Quiet : g.σ → Prop) : Prop where
  init : Quiet g.init
  quiet : ∀ x, Quiet x → g.idle x = true ∧ g.renable x = false
  stay : ∀ c stop x, Quiet x → Quiet (g.step c false stop x)
  first : ∀ (x : ℕ → g.σ) (c : ℕ → g.Set) (start stop : ℕ → Bool), (∀ t, x (t + 1) = g.step (c t) (start t) (stop t) (x t)) →
    Quiet (x 0) → start 0 = true → g.renable (x 1) = false
  read : ∀ (x : ℕ → g.σ) (c : ℕ → g.Set) (start stop : ℕ → Bool), (∀ t, x (t + 1) = g.step (c t) (start t) (stop t) (x t)) →
    Quiet (x 0) → start 0 = true → ok (c 0) → ∀ k (hk : k < (as (c 0)).length),
    (∀ t, 0 < t → t < 2 + k → start t = false ∧ stop t = false) →
    g.idle (x (2 + k)) = false ∧ g.renable (x (2 + k)) = true ∧ g.raddr (x (2 + k)) = (as (c 0))[k]
  last : ∀ (x : ℕ → g.σ) (c : ℕ → g.Set) (start stop : ℕ → Bool), (∀ t, x (t + 1) = g.step (c t) (start t) (stop t) (x t)) →
    Quiet (x 0) → start 0 = true → ok (c 0) →
    (∀ t, 0 < t → t < 2 + (as (c 0)).length → start t = false ∧ stop t = false) → Quiet (x (2 + (as (c 0)).length))

/-- The number of accepted items among the first `k`. -/
def accepted (w : ℕ → Bool) (k : ℕ) : ℕ := ((List.range k).filter w).length

/-- A sink generator writes the accepted items to the addresses `as c`, in order, at most one per address, starting with
    the item two cycles after the start and ending with the item of the cycle in which it is stopped.  If `late`, it does so
    only when the settings also hold in the cycle after the start. -/
structure SGen.Writes (g : SGen V) (late : Prop) (ok : g.Set → Prop) (as : g.Set → List ℤ) (Quiet : g.σ → Prop) : Prop where
  init : Quiet g.init ∧ g.write g.init = none
  stay : ∀ c stop w d y, Quiet y → Quiet (g.step c false stop w d y) ∧ g.write (g.step c false stop w d y) = none
  first : ∀ (y : ℕ → g.σ) (c : ℕ → g.Set) (start stop w : ℕ → Bool) (d : ℕ → V),
    (∀ t, y (t + 1) = g.step (c t) (start t) (stop t) (w t) (d t) (y t)) → Quiet (y 0) → start 0 = true →
    start 1 = false → stop 1 = false → g.write (y 1) = none ∧ g.write (y 2) = none
  write : ∀ (y : ℕ → g.σ) (c : ℕ → g.Set) (start stop w : ℕ → Bool) (d : ℕ → V),
    (∀ t, y (t + 1) = g.step (c t) (start t) (stop t) (w t) (d t) (y t)) → Quiet (y 0) → start 0 = true → ok (c 0) →
    (late → c 1 = c 0) →
    ∀ k, (∀ t, 0 < t → t < 2 + k → start t = false ∧ stop t = false) → start (2 + k) = false →
    g.write (y (3 + k)) = (if w (2 + k) then
      ((as (c 0))[accepted (fun i => w (2 + i)) k]?).map fun a => (a, d (2 + k)) else none) ∧
    (stop (2 + k) = true → Quiet (y (3 + k)))

/-! ## Runs -/

variable {p : Par V}

/-- A run of the stream. -/
structure Run (p : Par V) where
  inp : ℕ → In p
  st : ℕ → St p
  start : st 0 = St.init p
  step : ∀ t, st (t + 1) = (st t).step (inp t)

/-- What the generators of a stream do: sets of admissible settings, addresses, quiet states. -/
structure Spec (p : Par V) where
  ok : (j : ℕ) → (p.gen j).Set → Prop
  as : (j : ℕ) → (p.gen j).Set → List ℤ
  quiet : (j : ℕ) → (p.gen j).σ → Prop
  reads : ∀ j, (p.gen j).Reads (ok j) (as j) (quiet j)
  sok : (k : ℕ) → (p.sgen k).Set → Prop
  sas : (k : ℕ) → (p.sgen k).Set → List ℤ
  squiet : (k : ℕ) → (p.sgen k).σ → Prop
  late : ℕ → Prop
  writes : ∀ k, (p.sgen k).Writes (late k) (sok k) (sas k) (squiet k)

/-- The value last set before cycle `t`. -/
def setting {X : Type} (sets : ℕ → Option X) (x0 : X) : ℕ → X
  | 0 => x0
  | t + 1 => (sets t).getD (setting sets x0 t)

theorem chain {X : Type} {n : ℕ} {sig : ℕ → X} {l : ℕ → List X} (h0 : l 0 = []) (hs : ∀ t, l (t + 1) = push n (sig t) (l t))
    (t i : ℕ) : (l t)[i]? = if i < n ∧ i < t then some (sig (t - 1 - i)) else none := by
  induction t generalizing i with
  | zero => simp [h0]
  | succ t ih =>
    rw [hs, push, List.getElem?_take]
    by_cases hn : i < n
    · cases i with
      | zero => simp [hn]
      | succ i =>
        simp only [hn, if_true, List.getElem?_cons_succ, true_and]
        rw [ih]
        have : (i < n ∧ i < t) ↔ (i + 1 < t + 1) := by omega
        simp only [this]
        split
        · congr 2; omega
        · rfl
    · simp [hn]

namespace Run

variable (r : Run p)

/-- The settings of a source with which a run started at `T` works: last set at or before `T`. -/
def srcSet (T j : ℕ) : (p.gen j).Set := setting (fun t => (r.inp t).setSrc j) (p.set0 j) (T + 1)

/-- The settings of a sink. -/
def snkSet (T k : ℕ) : (p.sgen k).Set := setting (fun t => (r.inp t).setSnk k) (p.sset0 k) (T + 1)

/-- A run is started in cycle `T`: `run` is executed while the stream is idle or the sources of the previous run end. -/
def Started (T : ℕ) : Prop := ((r.st T).fsm = 0 ∨ (r.st T).stop = true) ∧ (r.inp T).run = true

theorem cfg_eq (t j : ℕ) : (r.st t).cfg j = setting (fun t => (r.inp t).setSrc j) (p.set0 j) t := by
  induction t with
  | zero => rw [r.start]; rfl
  | succ t ih => rw [r.step, setting, ← ih]; rfl

theorem tap_start (t i : ℕ) (hi : i < p.depth + 4) :
    tap (r.st t).startL i = if i < t then (r.st (t - 1 - i)).sstart else false := by
  have := chain (n := p.depth + 4) (sig := fun t => (r.st t).sstart) (l := fun t => (r.st t).startL) (by rw [r.start]; rfl)
    (fun t => by rw [r.step]; rfl) t i
  unfold tap
  rw [List.getD_eq_getElem?_getD, this]
  simp only [hi, true_and]
  split <;> rfl

theorem tap_end (t i : ℕ) (hi : i < p.depth + 2) :
    tap (r.st t).endL i = if i < t then (r.st (t - 1 - i)).stop else false := by
  have := chain (n := p.depth + 2) (sig := fun t => (r.st t).stop) (l := fun t => (r.st t).endL) (by rw [r.start]; rfl)
    (fun t => by rw [r.step]; rfl) t i
  unfold tap
  rw [List.getD_eq_getElem?_getD, this]
  simp only [hi, true_and]
  split <;> rfl

theorem tap_busy (t i : ℕ) (hi : i < p.depth + 3) :
    tap (r.st t).busyL i = if i < t then (r.st (t - 1 - i)).sbusy else false := by
  have := chain (n := p.depth + 3) (sig := fun t => (r.st t).sbusy) (l := fun t => (r.st t).busyL) (by rw [r.start]; rfl)
    (fun t => by rw [r.step]; rfl) t i
  unfold tap
  rw [List.getD_eq_getElem?_getD, this]
  simp only [hi, true_and]
  split <;> rfl

theorem sinkStart_eq (u : ℕ) : (r.st (u + p.depth + 2)).sinkStart = (r.st u).sstart := by
  unfold St.sinkStart
  rw [r.tap_start _ _ (by omega), if_pos (by omega)]
  congr 2; omega

theorem sinkStop_eq (u : ℕ) : (r.st (u + p.depth + 2)).sinkStop = (r.st u).stop := by
  unfold St.sinkStop
  rw [r.tap_end _ _ (by omega), if_pos (by omega)]
  congr 2; omega

theorem sinkBusy_eq (u : ℕ) : (r.st (u + p.depth + 2)).sinkBusy = (r.st u).sbusy := by
  unfold St.sinkBusy
  rw [r.tap_busy _ _ (by omega), if_pos (by omega)]
  congr 2; omega

theorem early (t : ℕ) (h : t < p.depth + 2) : (r.st t).sinkStart = false ∧ (r.st t).sinkBusy = false := by
  unfold St.sinkStart St.sinkBusy
  rw [r.tap_start _ _ (by omega), r.tap_busy _ _ (by omega), if_neg (by omega), if_neg (by omega)]
  exact ⟨rfl, rfl⟩

theorem scfg_early (t k : ℕ) (h : t ≤ p.depth + 2) : (r.st t).scfg k = p.sset0 k := by
  induction t with
  | zero => rw [r.start]; rfl
  | succ t ih =>
    rw [r.step]
    have := chain (n := p.depth + 2) (sig := fun t => (r.inp t).setSnk k) (l := fun t => (r.st t).setL k)
      (by rw [r.start]; rfl) (fun t => by rw [r.step]; rfl) t (p.depth + 1)
    rw [if_neg (by omega)] at this
    simp only [St.step, List.getD_eq_getElem?_getD, this]
    exact ih (by omega)

theorem scfg_eq (u k : ℕ) : (r.st (u + p.depth + 2)).scfg k = setting (fun t => (r.inp t).setSnk k) (p.sset0 k) u := by
  induction u with
  | zero => rw [r.scfg_early _ k (by omega)]; rfl
  | succ u ih =>
    have e : u + 1 + p.depth + 2 = (u + p.depth + 2) + 1 := by omega
    rw [e, r.step]
    have := chain (n := p.depth + 2) (sig := fun t => (r.inp t).setSnk k) (l := fun t => (r.st t).setL k)
      (by rw [r.start]; rfl) (fun t => by rw [r.step]; rfl) (u + p.depth + 2) (p.depth + 1)
    rw [if_pos (by omega)] at this
    have e2 : u + p.depth + 2 - 1 - (p.depth + 1) = u := by omega
    rw [e2] at this
    simp only [St.step, List.getD_eq_getElem?_getD, this, setting, ← ih]
    rfl

/-! ## The sources -/

variable (S : Spec p)

/-- The number of items of the run started at `T`: the longest source. -/
def items (T : ℕ) : ℕ := ((List.range p.ns).map fun j => (S.as j (r.srcSet T j)).length).foldr max 0

theorem le_items {T j : ℕ} (hj : j < p.ns) : (S.as j (r.srcSet T j)).length ≤ r.items S T := by
  unfold items
  have h : ∀ (l : List ℕ) (x : ℕ), x ∈ l → x ≤ l.foldr max 0 := by
    intro l
    induction l with
    | nil => simp
    | cons y l ih =>
      intro x hx
      rcases List.mem_cons.1 hx with rfl | hx
      · simp [Nat.le_max_left]
      · exact Nat.le_trans (ih x hx) (by simp [Nat.le_max_right])
  exact h _ _ (List.mem_map.2 ⟨j, List.mem_range.2 hj, rfl⟩)

theorem items_le {T k : ℕ} (hk : k < r.items S T) : ∃ j, j < p.ns ∧ k < (S.as j (r.srcSet T j)).length := by
  unfold items at hk
  have h : ∀ (l : List ℕ), k < l.foldr max 0 → ∃ x ∈ l, k < x := by
    intro l
    induction l with
    | nil => simp
    | cons y l ih =>
      intro hx
      simp only [List.foldr_cons] at hx
      rcases Nat.lt_or_ge k y with h | h
      · exact ⟨y, by simp, h⟩
      · obtain ⟨x, hx', hlt⟩ := ih (by omega)
        exact ⟨x, by simp [hx'], hlt⟩
  obtain ⟨x, hx, hlt⟩ := h _ hk
  obtain ⟨j, hj, rfl⟩ := List.mem_map.1 hx
  exact ⟨j, List.mem_range.1 hj, hlt⟩

/-- The last cycle in which the sources of the run are busy. -/
def last (T : ℕ) : ℕ := T + 3 + r.items S T

/-- The stream is quiet. -/
structure Quiet (t : ℕ) : Prop where
  sstart : (r.st t).sstart = false
  src : ∀ j, j < p.ns → S.quiet j ((r.st t).src j)

theorem quiet_idle {t : ℕ} (h : ∀ j, j < p.ns → S.quiet j ((r.st t).src j)) : (r.st t).allIdle = true := by
  unfold St.allIdle
  rw [List.all_eq_true]
  intro j hj
  exact ((S.reads j).quiet _ (h j (List.mem_range.1 hj))).1

variable {r S}

theorem t1 {T : ℕ} (hT : r.Started T) (hq : r.Quiet S T) :
    (r.st (T + 1)).fsm = 1 ∧ (r.st (T + 1)).sstart = true ∧ ∀ j, j < p.ns → S.quiet j ((r.st (T + 1)).src j) := by
  obtain ⟨h1, h2⟩ := hT
  rw [r.step]
  refine ⟨?_, ?_, ?_⟩
  · simp only [St.step, St.nextFsm, h2]
    rcases h1 with h | h
    · simp [h]
    · have : (r.st T).fsm = 3 := by
        unfold St.stop at h; simp at h; exact h.1
      simp [this, h]
  · simp only [St.step, St.nextStart, h2]
    rcases h1 with h | h
    · simp [h]
    · have : (r.st T).fsm = 3 := by
        unfold St.stop at h; simp at h; exact h.1
      simp [this, h]
  · intro j hj
    simp only [St.step, hq.sstart]
    exact (S.reads j).stay _ _ _ (hq.src j hj)

theorem stop_fsm {t : ℕ} (h : (r.st t).fsm ≠ 3) : (r.st t).stop = false := by
  unfold St.stop; simp [h]

theorem t2 {T : ℕ} (hT : r.Started T) (hq : r.Quiet S T) :
    (r.st (T + 2)).fsm = 2 ∧ (r.st (T + 2)).sstart = false ∧ (r.st (T + 2)).sbusy = true := by
  obtain ⟨h1, h2, _⟩ := t1 hT hq
  rw [r.step (T + 1)]
  refine ⟨?_, ?_, ?_⟩ <;> simp [St.step, St.nextFsm, St.nextStart, St.nextBusy, h1, h2]

theorem t3 {T : ℕ} (hT : r.Started T) (hq : r.Quiet S T) :
    (r.st (T + 3)).fsm = 3 ∧ (r.st (T + 3)).sstart = false ∧ (r.st (T + 3)).sbusy = true := by
  obtain ⟨h1, h2, h3⟩ := t2 hT hq
  have h4 := stop_fsm (r := r) (t := T + 2) (by omega)
  rw [r.step (T + 2)]
  refine ⟨?_, ?_, ?_⟩ <;> simp [St.step, St.nextFsm, St.nextStart, St.nextBusy, h1, h2, h3, h4]

theorem srcTrace (r : Run p) (j t : ℕ) :
    (r.st (t + 1)).src j = (p.gen j).step ((r.st t).cfg j) (r.st t).sstart (r.st t).stop ((r.st t).src j) := by
  rw [r.step]; rfl

/-- The sources work until the last of them has read its last word. -/
theorem window {T : ℕ} (hT : r.Started T) (hq : r.Quiet S T) (hok : ∀ j, j < p.ns → S.ok j (r.srcSet T j)) :
    ∀ k, k ≤ r.items S T → ((r.st (T + 3 + k)).fsm = 3 ∧ (r.st (T + 3 + k)).sstart = false ∧ (r.st (T + 3 + k)).sbusy = true) ∧
      ∀ t, T + 1 < t → t < T + 3 + k → (r.st t).sstart = false ∧ (r.st t).stop = false := by
  intro k
  induction k with
  | zero =>
    intro _
    refine ⟨t3 hT hq, ?_⟩
    intro t h1 h2
    have : t = T + 2 := by omega
    subst this
    obtain ⟨a, b, _⟩ := t2 hT hq
    exact ⟨b, stop_fsm (by omega)⟩
  | succ k ih =>
    intro hk
    obtain ⟨⟨h1, h2, h3⟩, h4⟩ := ih (by omega)
    obtain ⟨j, hj, hlt⟩ := r.items_le S (T := T) (k := k) (by omega)
    have hstop : (r.st (T + 3 + k)).stop = false := by
      have hread := (S.reads j).read (fun t => (r.st (T + 1 + t)).src j) (fun t => (r.st (T + 1 + t)).cfg j)
        (fun t => (r.st (T + 1 + t)).sstart) (fun t => (r.st (T + 1 + t)).stop) (fun t => srcTrace r j (T + 1 + t))
        ((t1 hT hq).2.2 j hj) (t1 hT hq).2.1 (by rw [r.cfg_eq]; exact hok j hj) k (by rw [r.cfg_eq]; exact hlt)
        (fun t ht1 ht2 => h4 _ (by omega) (by omega))
      have hi := hread.1
      have e : T + 1 + (2 + k) = T + 3 + k := by omega
      simp only [e] at hi
      unfold St.stop St.allIdle
      rw [Bool.and_eq_false_iff]
      right
      rw [List.all_eq_false]
      exact ⟨j, List.mem_range.2 hj, by simp [hi]⟩
    refine ⟨?_, ?_⟩
    · have e : T + 3 + (k + 1) = (T + 3 + k) + 1 := by omega
      rw [e, r.step]
      refine ⟨?_, ?_, ?_⟩ <;> simp [St.step, St.nextFsm, St.nextStart, St.nextBusy, h1, h2, h3, hstop]
    · intro t ht1 ht2
      by_cases he : t = T + 3 + k
      · subst he; exact ⟨h2, hstop⟩
      · exact h4 t ht1 (by omega)

theorem reading {T : ℕ} (hT : r.Started T) (hq : r.Quiet S T) (hok : ∀ j, j < p.ns → S.ok j (r.srcSet T j)) {j k : ℕ}
    (hj : j < p.ns) (hk : k < (S.as j (r.srcSet T j)).length) :
    (p.gen j).renable ((r.st (T + 3 + k)).src j) = true ∧
      (p.gen j).raddr ((r.st (T + 3 + k)).src j) = (S.as j (r.srcSet T j))[k] := by
  have hw := (window hT hq hok k (Nat.le_trans (Nat.le_of_lt hk) (r.le_items S hj))).2
  have hread := (S.reads j).read (fun t => (r.st (T + 1 + t)).src j) (fun t => (r.st (T + 1 + t)).cfg j)
    (fun t => (r.st (T + 1 + t)).sstart) (fun t => (r.st (T + 1 + t)).stop) (fun t => srcTrace r j (T + 1 + t))
    ((t1 hT hq).2.2 j hj) (t1 hT hq).2.1 (by rw [r.cfg_eq]; exact hok j hj) k (by rw [r.cfg_eq]; exact hk)
    (fun t ht1 ht2 => hw _ (by omega) (by omega))
  have e : T + 1 + (2 + k) = T + 3 + k := by omega
  simp only [e] at hread
  refine ⟨hread.2.1, hread.2.2.trans ?_⟩
  congr 1
  rw [r.cfg_eq]; rfl

theorem resting {T : ℕ} (hT : r.Started T) (hq : r.Quiet S T) (hok : ∀ j, j < p.ns → S.ok j (r.srcSet T j)) {j : ℕ}
    (hj : j < p.ns) : ∀ k, (S.as j (r.srcSet T j)).length ≤ k → k ≤ r.items S T →
      S.quiet j ((r.st (T + 3 + k)).src j) := by
  intro k h1 h2
  induction k, h1 using Nat.le_induction with
  | base =>
    have hw := (window hT hq hok _ h2).2
    have := (S.reads j).last (fun t => (r.st (T + 1 + t)).src j) (fun t => (r.st (T + 1 + t)).cfg j)
      (fun t => (r.st (T + 1 + t)).sstart) (fun t => (r.st (T + 1 + t)).stop) (fun t => srcTrace r j (T + 1 + t))
      ((t1 hT hq).2.2 j hj) (t1 hT hq).2.1 (by rw [r.cfg_eq]; exact hok j hj)
      (fun t ht1 ht2 => by
        rw [r.cfg_eq] at ht2
        have ht2' : t < 2 + (S.as j (r.srcSet T j)).length := ht2
        exact hw _ (by omega) (by omega))
    rw [r.cfg_eq] at this
    have e : T + 1 + (2 + (S.as j (r.srcSet T j)).length) = T + 3 + (S.as j (r.srcSet T j)).length := by omega
    rw [← e]
    exact this
  | succ k h1 ih =>
    have h3 := ih (by omega)
    have hw := (window hT hq hok k (by omega)).1
    have e : T + 3 + (k + 1) = (T + 3 + k) + 1 := by omega
    rw [e, srcTrace, hw.2.1]
    exact (S.reads j).stay _ _ _ h3

/-- In the last cycle all sources are quiet and `source_stop` is 1. -/
theorem at_last {T : ℕ} (hT : r.Started T) (hq : r.Quiet S T) (hok : ∀ j, j < p.ns → S.ok j (r.srcSet T j)) :
    (r.st (r.last S T)).stop = true ∧ r.Quiet S (r.last S T) := by
  have hw := window hT hq hok (r.items S T) (Nat.le_refl _)
  have hsrc : ∀ j, j < p.ns → S.quiet j ((r.st (r.last S T)).src j) :=
    fun j hj => resting hT hq hok hj _ (r.le_items S hj) (Nat.le_refl _)
  refine ⟨?_, hw.1.2.1, hsrc⟩
  unfold St.stop
  rw [Bool.and_eq_true]
  refine ⟨?_, r.quiet_idle S hsrc⟩
  have := hw.1.1
  unfold last
  simp [this]

/-- All settings are admissible when a run is started. -/
def Ok (r : Run p) (S : Spec p) : Prop := ∀ T, r.Started T → ∀ j, j < p.ns → S.ok j (r.srcSet T j)

/-- Every cycle is in the source phase of a run, or the stream is idle. -/
theorem cover (hr : r.Ok S) (t : ℕ) : ((r.st t).fsm = 0 ∧ r.Quiet S t ∧ (r.st t).sbusy = false) ∨
    ∃ T, r.Started T ∧ r.Quiet S T ∧ T < t ∧ t ≤ r.last S T := by
  induction t with
  | zero =>
    left
    rw [r.start]
    refine ⟨rfl, ⟨by rw [r.start]; rfl, fun j _ => ?_⟩, rfl⟩
    rw [r.start]
    exact (S.reads j).init
  | succ t ih =>
    rcases ih with ⟨h1, h2, h3⟩ | ⟨T, hT, hq, h1, h2⟩
    · cases hrun : (r.inp t).run with
      | true =>
        right
        exact ⟨t, ⟨Or.inl h1, hrun⟩, h2, by omega, by unfold last; omega⟩
      | false =>
        left
        have hst := stop_fsm (r := r) (t := t) (by omega)
        have e1 : (r.st (t + 1)).fsm = 0 := by rw [r.step]; simp [St.step, St.nextFsm, h1, hrun]
        have e2 : (r.st (t + 1)).sstart = false := by rw [r.step]; simp [St.step, St.nextStart, h1, hrun, h2.sstart]
        have e3 : (r.st (t + 1)).sbusy = false := by rw [r.step]; simp [St.step, St.nextBusy, h1, hst, h3]
        refine ⟨e1, ⟨e2, fun j hj => ?_⟩, e3⟩
        rw [srcTrace, h2.sstart]
        exact (S.reads j).stay _ _ _ (h2.src j hj)
    · rcases Nat.lt_or_ge t (r.last S T) with h3 | h3
      · exact Or.inr ⟨T, hT, hq, by omega, by omega⟩
      · have e : t = r.last S T := by omega
        obtain ⟨h4, h5⟩ := at_last hT hq (hr T hT)
        rw [← e] at h4 h5
        cases hrun : (r.inp t).run with
        | true => exact Or.inr ⟨t, ⟨Or.inr h4, hrun⟩, h5, by omega, by unfold last; omega⟩
        | false =>
          left
          have hf : (r.st t).fsm = 3 := by
            unfold St.stop at h4; simp at h4; exact h4.1
          have e1 : (r.st (t + 1)).fsm = 0 := by rw [r.step]; simp [St.step, St.nextFsm, hf, hrun, h4]
          have e2 : (r.st (t + 1)).sstart = false := by
            rw [r.step]; simp [St.step, St.nextStart, hf, hrun, h5.sstart]
          have e3 : (r.st (t + 1)).sbusy = false := by rw [r.step]; simp [St.step, St.nextBusy, hf, h4]
          refine ⟨e1, ⟨e2, fun j hj => ?_⟩, e3⟩
          rw [srcTrace, h5.sstart]
          exact (S.reads j).stay _ _ _ (h5.src j hj)


/-- The control signals during the source phase of a run. -/
theorem active (hr : r.Ok S) {T t : ℕ} (hT : r.Started T) (hq : r.Quiet S T) (h1 : T < t) (h2 : t ≤ r.last S T) :
    (r.st t).fsm ≠ 0 ∧ ((r.st t).stop = true ↔ t = r.last S T) ∧ ((r.st t).sstart = true ↔ t = T + 1) ∧
      ((r.st t).sbusy = true ↔ T + 2 ≤ t) := by
  have hok := hr T hT
  by_cases e1 : t = T + 1
  · subst e1
    have hf := t1 hT hq
    have hb : (r.st (T + 1)).sbusy = false := by
      rw [r.step]
      simp only [St.step, St.nextBusy]
      rcases hT.1 with h | h
      · rcases cover hr T with ⟨_, _, h3⟩ | ⟨T', hT', hq', h3, h4⟩
        · simp [h, h3, stop_fsm (r := r) (t := T) (by omega)]
        · exfalso
          obtain ⟨k, hk⟩ : ∃ k, T = T' + 1 + k := ⟨T - (T' + 1), by omega⟩
          by_cases a1 : T = T' + 1
          · have := (t1 hT' hq').1
            rw [← a1] at this; omega
          by_cases a2 : T = T' + 2
          · have := (t2 hT' hq').1
            rw [← a2] at this; omega
          have := (window hT' hq' (hr _ hT') (T - (T' + 3)) (by unfold last at h4; omega)).1.1
          have e : T' + 3 + (T - (T' + 3)) = T := by omega
          rw [e] at this; omega
      · have : (r.st T).fsm = 3 := by
          unfold St.stop at h; simp at h; exact h.1
        simp [this, h]
    refine ⟨by omega, ?_, by simp [hf.2.1], by simp [hb]⟩
    rw [stop_fsm (r := r) (by omega)]
    unfold last
    constructor
    · intro h; cases h
    · intro h; omega
  · by_cases e2 : t = T + 2
    · subst e2
      have := t2 hT hq
      refine ⟨by omega, ?_, by simp [this.2.1], by simp [this.2.2]⟩
      rw [stop_fsm (r := r) (by omega)]
      unfold last
      constructor
      · intro h; cases h
      · intro h; omega
    · obtain ⟨k, rfl⟩ : ∃ k, t = T + 3 + k := ⟨t - (T + 3), by omega⟩
      have hk : k ≤ r.items S T := by unfold last at h2; omega
      have hw := (window hT hq hok k hk).1
      refine ⟨by omega, ?_, ?_, ?_⟩
      · by_cases hlt : k < r.items S T
        · have := (window hT hq hok (k + 1) hlt).2 (T + 3 + k) (by omega) (by omega)
          rw [this.2]
          unfold last
          constructor
          · intro h; cases h
          · intro h; omega
        · have hk' : k = r.items S T := by omega
          subst hk'
          exact ⟨fun _ => rfl, fun _ => (at_last hT hq hok).1⟩
      · rw [hw.2.1]
        constructor
        · intro h; cases h
        · intro h; omega
      · rw [hw.2.2]
        constructor
        · intro _; omega
        · intro _; rfl

/-- The stream is quiet when a run is started. -/
theorem started_quiet (hr : r.Ok S) {T : ℕ} (hT : r.Started T) : r.Quiet S T := by
  rcases cover hr T with ⟨_, h, _⟩ | ⟨T', hT', hq, h1, h2⟩
  · exact h
  · obtain ⟨a, b, _⟩ := active hr hT' hq h1 h2
    rcases hT.1 with h | h
    · exact absurd h a
    · rw [b.1 h]; exact (at_last hT' hq (hr _ hT')).2

theorem stop_iff (hr : r.Ok S) (t : ℕ) : (r.st t).stop = true ↔ ∃ T, r.Started T ∧ t = r.last S T := by
  constructor
  · intro h
    rcases cover hr t with ⟨h1, _, _⟩ | ⟨T, hT, hq, h1, h2⟩
    · rw [stop_fsm (r := r) (by omega)] at h; cases h
    · exact ⟨T, hT, ((active hr hT hq h1 h2).2.1).1 h⟩
  · rintro ⟨T, hT, rfl⟩
    exact (at_last hT (started_quiet hr hT) (hr T hT)).1

theorem sstart_iff (hr : r.Ok S) (t : ℕ) : (r.st t).sstart = true ↔ ∃ T, r.Started T ∧ t = T + 1 := by
  constructor
  · intro h
    rcases cover hr t with ⟨_, h1, _⟩ | ⟨T, hT, hq, h1, h2⟩
    · rw [h1.sstart] at h; cases h
    · exact ⟨T, hT, ((active hr hT hq h1 h2).2.2.1).1 h⟩
  · rintro ⟨T, hT, rfl⟩
    exact (t1 hT (started_quiet hr hT)).2.1

theorem sbusy_iff (hr : r.Ok S) (t : ℕ) : (r.st t).sbusy = true ↔ ∃ T, r.Started T ∧ T + 2 ≤ t ∧ t ≤ r.last S T := by
  constructor
  · intro h
    rcases cover hr t with ⟨_, _, h1⟩ | ⟨T, hT, hq, h1, h2⟩
    · rw [h1] at h; cases h
    · exact ⟨T, hT, ((active hr hT hq h1 h2).2.2.2).1 h, h2⟩
  · rintro ⟨T, hT, h1, h2⟩
    exact ((active hr hT (started_quiet hr hT) (by omega) h2).2.2.2).2 h1

/-- The source phases of two runs do not overlap. -/
theorem started_sep (hr : r.Ok S) {T T' : ℕ} (hT : r.Started T) (hT' : r.Started T') (h : T < T') : r.last S T ≤ T' := by
  rcases Nat.lt_or_ge T' (r.last S T) with h1 | h1
  · exfalso
    obtain ⟨a, b, _⟩ := active hr hT (started_quiet hr hT) h (by omega)
    rcases hT'.1 with h2 | h2
    · exact a h2
    · have := b.1 h2; omega
  · exact h1

theorem stop_off (hr : r.Ok S) {T t : ℕ} (hT : r.Started T) (h1 : T < t) (h2 : t < r.last S T) : (r.st t).stop = false := by
  have := (active hr hT (started_quiet hr hT) h1 (by omega)).2.1
  cases h : (r.st t).stop with
  | false => rfl
  | true => have := this.1 h; omega

theorem sstart_off (hr : r.Ok S) {T t : ℕ} (hT : r.Started T) (h1 : T < t) (h2 : t ≤ r.last S T) (h3 : t ≠ T + 1) :
    (r.st t).sstart = false := by
  have := (active hr hT (started_quiet hr hT) h1 h2).2.2.1
  cases h : (r.st t).sstart with
  | false => rfl
  | true => exact absurd (this.1 h) h3

/-! ## The items -/

theorem rdata_step (r : Run p) (t j : ℕ) : (r.st (t + 1)).rdata j = if (p.gen j).renable ((r.st t).src j) then
    (r.inp t).mem j ((p.gen j).raddr ((r.st t).src j)) else (r.st t).rdata j := by rw [r.step]; rfl

theorem wdata_step (r : Run p) (t j : ℕ) :
    (r.st (t + 1)).wdata j = if (r.st t).sbusy then (r.st t).rdata j else (r.st t).wdata j := by rw [r.step]; rfl

/-- Word `k` read by source `j` in the run started at `T`. -/
def word (r : Run p) (S : Spec p) (T j k : ℕ) : V :=
  (r.inp (T + 3 + k)).mem j ((S.as j (r.srcSet T j)).getD k 0)

theorem rdata_eq (hr : r.Ok S) {T j k : ℕ} (hT : r.Started T) (hj : j < p.ns) (hn : 0 < (S.as j (r.srcSet T j)).length)
    (hk : k < r.items S T) :
    (r.st (T + 4 + k)).rdata j = r.word S T j (min k ((S.as j (r.srcSet T j)).length - 1)) := by
  have hq := started_quiet hr hT
  induction k with
  | zero =>
    obtain ⟨h1, h2⟩ := reading hT hq (hr T hT) hj hn
    have e : T + 4 + 0 = (T + 3 + 0) + 1 := by omega
    rw [e, rdata_step, h1, if_pos rfl, h2]
    simp [word, List.getD_eq_getElem?_getD, List.getElem?_eq_getElem hn]
  | succ k ih =>
    have e : T + 4 + (k + 1) = (T + 3 + (k + 1)) + 1 := by omega
    rw [e, rdata_step]
    by_cases hlt : k + 1 < (S.as j (r.srcSet T j)).length
    · obtain ⟨h1, h2⟩ := reading hT hq (hr T hT) hj hlt
      rw [h1, if_pos rfl, h2]
      have e2 : min (k + 1) ((S.as j (r.srcSet T j)).length - 1) = k + 1 := by omega
      rw [e2]
      simp [word, List.getD_eq_getElem?_getD, List.getElem?_eq_getElem hlt]
    · have hrest := resting hT hq (hr T hT) hj (k + 1) (by omega) (by omega)
      rw [((S.reads j).quiet _ hrest).2]
      have e3 : T + 3 + (k + 1) = T + 4 + k := by omega
      rw [e3, ih (by omega)]
      have e2 : min (k + 1) ((S.as j (r.srcSet T j)).length - 1) = min k ((S.as j (r.srcSet T j)).length - 1) := by omega
      rw [e2]
      simp

theorem busy_win (hr : r.Ok S) {T t : ℕ} (hT : r.Started T) (h1 : T + 2 ≤ t) (h2 : t ≤ r.last S T) :
    (r.st t).sbusy = true := (sbusy_iff hr t).2 ⟨T, hT, h1, h2⟩

theorem busy_gap (hr : r.Ok S) {T : ℕ} (hT : r.Started T) : (r.st (r.last S T + 1)).sbusy = false := by
  cases h : (r.st (r.last S T + 1)).sbusy with
  | false => rfl
  | true =>
    exfalso
    obtain ⟨T', hT', h1, h2⟩ := (sbusy_iff hr _).1 h
    rcases Nat.lt_trichotomy T T' with h3 | h3 | h3
    · have := started_sep hr hT hT' h3; omega
    · subst h3; omega
    · have := started_sep hr hT' hT h3
      unfold last at *; omega

/-! ## `ivalid` and `reduce_reset` -/

theorem ivalid_step (r : Run p) (t : ℕ) : (r.st (t + 1)).ivalid =
    if tap (r.st t).endL 0 then false else if tap (r.st t).startL 2 then true else (r.st t).ivalid := by
  rw [r.step]; rfl

theorem rr_step (r : Run p) (t : ℕ) : (r.st (t + 1)).rr =
    if tap (r.st t).endL 0 then true else if tap (r.st t).startL 3 then false else
      if tap (r.st t).startL 2 then true else (r.st t).rr := by
  rw [r.step]; rfl

theorem end_prev (r : Run p) {t : ℕ} (h : 0 < t) : tap (r.st t).endL 0 = (r.st (t - 1)).stop := by
  rw [r.tap_end t 0 (by omega), if_pos h]; rfl

theorem start_prev (r : Run p) {t i : ℕ} (h : i < t) (hi : i < 4) : tap (r.st t).startL i = (r.st (t - 1 - i)).sstart := by
  rw [r.tap_start t i (by omega), if_pos h]

theorem ivalid_iff (hr : r.Ok S) (t : ℕ) : (r.st t).ivalid = true ↔ ∃ T, r.Started T ∧ T + 5 ≤ t ∧ t < T + 5 + r.items S T := by
  induction t with
  | zero =>
    rw [r.start]
    constructor
    · intro h; cases h
    · rintro ⟨T, _, h, _⟩; omega
  | succ t ih =>
    rw [ivalid_step]
    by_cases h1 : tap (r.st t).endL 0 = true
    · rw [if_pos h1]
      constructor
      · intro h; cases h
      · rintro ⟨T, hT, h2, h3⟩
        exfalso
        rw [end_prev r (by omega)] at h1
        rw [stop_off hr hT (t := t - 1) (by omega) (by unfold last; omega)] at h1
        cases h1
    · rw [if_neg h1]
      by_cases h2 : tap (r.st t).startL 2 = true
      · rw [if_pos h2]
        refine ⟨fun _ => ?_, fun _ => rfl⟩
        rw [r.tap_start _ _ (by omega)] at h2
        split at h2
        · rename_i h3
          obtain ⟨T, hT, h4⟩ := (sstart_iff hr _).1 h2
          refine ⟨T, hT, by omega, ?_⟩
          rcases Nat.eq_zero_or_pos (r.items S T) with h5 | h5
          · exfalso
            apply h1
            rw [end_prev r (by omega)]
            exact (stop_iff hr _).2 ⟨T, hT, by unfold last; omega⟩
          · omega
        · cases h2
      · rw [if_neg h2, ih]
        constructor
        · rintro ⟨T, hT, h3, h4⟩
          refine ⟨T, hT, by omega, ?_⟩
          rcases Nat.lt_or_ge (t + 1) (T + 5 + r.items S T) with h5 | h5
          · exact h5
          · exfalso
            apply h1
            rw [end_prev r (by omega)]
            exact (stop_iff hr _).2 ⟨T, hT, by unfold last; omega⟩
        · rintro ⟨T, hT, h3, h4⟩
          refine ⟨T, hT, ?_, by omega⟩
          rcases Nat.lt_or_ge t (T + 5) with h5 | h5
          · exfalso
            apply h2
            rw [start_prev r (by omega) (by omega)]
            exact (sstart_iff hr _).2 ⟨T, hT, by omega⟩
          · exact h5

theorem rr_first (hr : r.Ok S) {T : ℕ} (hT : r.Started T) : (r.st (T + 5)).rr = true := by
  rw [rr_step]
  have h3 : tap (r.st (T + 4)).startL 3 = false := by
    rw [start_prev r (by omega) (by omega)]
    have e : T + 4 - 1 - 3 = T := by omega
    rw [e]; exact (started_quiet hr hT).sstart
  have h2 : tap (r.st (T + 4)).startL 2 = true := by
    rw [start_prev r (by omega) (by omega)]
    exact (sstart_iff hr _).2 ⟨T, hT, by omega⟩
  rw [h3, h2]
  simp

theorem rr_rest (hr : r.Ok S) {T k : ℕ} (hT : r.Started T) (h0 : 0 < k) (hk : k < r.items S T) : (r.st (T + 5 + k)).rr = false := by
  induction k with
  | zero => omega
  | succ k ih =>
    have e : T + 5 + (k + 1) = (T + 5 + k) + 1 := by omega
    rw [e, rr_step, end_prev r (by omega)]
    have h1 : (r.st (T + 5 + k - 1)).stop = false := stop_off hr hT (by omega) (by unfold last; omega)
    rw [h1]
    rcases Nat.eq_zero_or_pos k with h | h
    · subst h
      have h2 : tap (r.st (T + 5 + 0)).startL 3 = true := by
        rw [start_prev r (by omega) (by omega)]
        exact (sstart_iff hr _).2 ⟨T, hT, by omega⟩
      rw [h2]; simp
    · have h2 : tap (r.st (T + 5 + k)).startL 3 = false := by
        rw [start_prev r (by omega) (by omega)]
        exact sstart_off hr hT (by omega) (by unfold last; omega) (by omega)
      have h3 : tap (r.st (T + 5 + k)).startL 2 = false := by
        rw [start_prev r (by omega) (by omega)]
        exact sstart_off hr hT (by omega) (by unfold last; omega) (by omega)
      rw [h2, h3, ih h (by omega)]
      simp

/-! ## The sinks -/

/-- The sink settings are admissible when a run is started, and those of a late sink stay for a cycle. -/
def SOk (r : Run p) (S : Spec p) (k : ℕ) : Prop :=
  ∀ T, r.Started T → S.sok k (r.snkSet T k) ∧ (S.late k → r.snkSet (T + 1) k = r.snkSet T k)

theorem snkTrace (r : Run p) (k t : ℕ) : (r.st (t + 1)).snk k =
    (p.sgen k).step ((r.st t).scfg k) (r.st t).sinkStart (r.st t).sinkStop ((r.inp t).whn k) ((r.inp t).dat k)
      ((r.st t).snk k) := by
  rw [r.step]; rfl

theorem snk_early (S : Spec p) (k t : ℕ) (h : t ≤ p.depth + 2) :
    S.squiet k ((r.st t).snk k) ∧ (p.sgen k).write ((r.st t).snk k) = none := by
  induction t with
  | zero => rw [r.start]; exact (S.writes k).init
  | succ t ih =>
    rw [snkTrace, (r.early t (by omega)).1]
    exact (S.writes k).stay _ _ _ _ _ (ih (by omega)).1

theorem snk_shift (r : Run p) (k u : ℕ) : (r.st (u + 1 + p.depth + 2)).snk k =
    (p.sgen k).step ((r.st (u + p.depth + 2)).scfg k) (r.st u).sstart (r.st u).stop ((r.inp (u + p.depth + 2)).whn k)
      ((r.inp (u + p.depth + 2)).dat k) ((r.st (u + p.depth + 2)).snk k) := by
  have e : u + 1 + p.depth + 2 = (u + p.depth + 2) + 1 := by omega
  rw [e, snkTrace, r.sinkStart_eq, r.sinkStop_eq]

/-- What a sink does with item `i`, if it was quiet when the run reached it. -/
theorem snk_window (hr : r.Ok S) {T k : ℕ} (hT : r.Started T)
    (hs : S.sok k (r.snkSet T k) ∧ (S.late k → r.snkSet (T + 1) k = r.snkSet T k))
    (hq : S.squiet k ((r.st (T + 3 + p.depth)).snk k)) {i : ℕ} (hi : i ≤ r.items S T) :
    (p.sgen k).write ((r.st (T + 6 + p.depth + i)).snk k) = (if (r.inp (T + 5 + p.depth + i)).whn k then
      ((S.sas k (r.snkSet T k))[accepted (fun i => (r.inp (T + 5 + p.depth + i)).whn k) i]?).map
        fun a => (a, (r.inp (T + 5 + p.depth + i)).dat k) else none) ∧
    (i = r.items S T → S.squiet k ((r.st (T + 6 + p.depth + i)).snk k)) := by
  have hc : (r.st (T + 1 + 0 + p.depth + 2)).scfg k = r.snkSet T k := r.scfg_eq (T + 1) k
  have hc1 : (r.st (T + 1 + 1 + p.depth + 2)).scfg k = r.snkSet (T + 1) k := r.scfg_eq (T + 1 + 1) k
  have h := (S.writes k).write (fun t => (r.st (T + 1 + t + p.depth + 2)).snk k)
    (fun t => (r.st (T + 1 + t + p.depth + 2)).scfg k) (fun t => (r.st (T + 1 + t)).sstart) (fun t => (r.st (T + 1 + t)).stop)
    (fun t => (r.inp (T + 1 + t + p.depth + 2)).whn k) (fun t => (r.inp (T + 1 + t + p.depth + 2)).dat k)
    (fun t => snk_shift r k (T + 1 + t))
    (by
      have e : T + 1 + 0 + p.depth + 2 = T + 3 + p.depth := by omega
      show S.squiet k ((r.st (T + 1 + 0 + p.depth + 2)).snk k)
      rw [e]; exact hq)
    ((sstart_iff hr _).2 ⟨T, hT, rfl⟩) (hc ▸ hs.1) (fun hl => hc1.trans ((hs.2 hl).trans hc.symm)) i
    (fun t h1 h2 => ⟨sstart_off hr hT (by omega) (by unfold last; omega) (by omega),
      stop_off hr hT (by omega) (by unfold last; omega)⟩)
    (sstart_off hr hT (by omega) (by unfold last; omega) (by omega))
  simp only [hc] at h
  have e1 : T + 1 + (3 + i) + p.depth + 2 = T + 6 + p.depth + i := by omega
  have e2 : ∀ i, T + 1 + (2 + i) + p.depth + 2 = T + 5 + p.depth + i := by intro i; omega
  simp only [e1, e2] at h
  refine ⟨h.1, fun he => h.2 ?_⟩
  exact (stop_iff hr _).2 ⟨T, hT, by unfold last; omega⟩

theorem snk_first (hr : r.Ok S) {T k : ℕ} (hT : r.Started T) (hq : S.squiet k ((r.st (T + 3 + p.depth)).snk k)) :
    (p.sgen k).write ((r.st (T + 4 + p.depth)).snk k) = none ∧ (p.sgen k).write ((r.st (T + 5 + p.depth)).snk k) = none := by
  have h := (S.writes k).first (fun t => (r.st (T + 1 + t + p.depth + 2)).snk k)
    (fun t => (r.st (T + 1 + t + p.depth + 2)).scfg k) (fun t => (r.st (T + 1 + t)).sstart) (fun t => (r.st (T + 1 + t)).stop)
    (fun t => (r.inp (T + 1 + t + p.depth + 2)).whn k) (fun t => (r.inp (T + 1 + t + p.depth + 2)).dat k)
    (fun t => snk_shift r k (T + 1 + t))
    (by
      have e : T + 1 + 0 + p.depth + 2 = T + 3 + p.depth := by omega
      show S.squiet k ((r.st (T + 1 + 0 + p.depth + 2)).snk k)
      rw [e]; exact hq)
    ((sstart_iff hr _).2 ⟨T, hT, rfl⟩)
    (sstart_off hr hT (by omega) (by unfold last; omega) (by omega))
    (stop_off hr hT (by omega) (by unfold last; omega))
  have e1 : T + 1 + 1 + p.depth + 2 = T + 4 + p.depth := by omega
  have e2 : T + 1 + 2 + p.depth + 2 = T + 5 + p.depth := by omega
  simp only [e1, e2] at h
  exact h

/-- A sink is quiet whenever the stream was idle, or started, `depth + 2` cycles before. -/
theorem snk_quiet (hr : r.Ok S) {k : ℕ} (hs : r.SOk S k) (u : ℕ) :
    ((∀ T, r.Started T → ¬ (T < u ∧ u ≤ r.last S T)) ∨ ∃ T, r.Started T ∧ u = T + 1) →
      S.squiet k ((r.st (u + p.depth + 2)).snk k) := by
  induction u using Nat.strongRecOn with
  | ind u ih =>
    intro h
    cases u with
    | zero => rw [Nat.zero_add]; exact (snk_early S k _ (Nat.le_refl _)).1
    | succ u =>
      rcases cover hr u with ⟨h1, h2, _⟩ | ⟨T, hT, hq, h1, h2⟩
      · rw [snk_shift, h2.sstart]
        refine ((S.writes k).stay _ _ _ _ _ (ih u (by omega) (Or.inl ?_))).1
        rintro T hT ⟨h3, h4⟩
        exact (active hr hT (started_quiet hr hT) h3 h4).1 h1
      · have e : u = r.last S T := by
          rcases h with h | ⟨T', hT', h⟩
          · have := h T hT
            omega
          · have := started_sep hr hT hT' (by omega); omega
        have h3 : S.squiet k ((r.st (T + 3 + p.depth)).snk k) := by
          have := ih (T + 1) (by omega) (Or.inr ⟨T, hT, rfl⟩)
          have e2 : T + 1 + p.depth + 2 = T + 3 + p.depth := by omega
          rwa [e2] at this
        have h4 := (snk_window hr hT (hs T hT) h3 (Nat.le_refl _)).2 rfl
        have e2 : u + 1 + p.depth + 2 = T + 6 + p.depth + r.items S T := by unfold last at e; omega
        rw [e2]; exact h4

theorem snk_ready (hr : r.Ok S) {k : ℕ} (hs : r.SOk S k) {T : ℕ} (hT : r.Started T) :
    S.squiet k ((r.st (T + 3 + p.depth)).snk k) := by
  have := snk_quiet hr hs (T + 1) (Or.inr ⟨T, hT, rfl⟩)
  have e2 : T + 1 + p.depth + 2 = T + 3 + p.depth := by omega
  rwa [e2] at this

/-- Every write of a sink belongs to a run. -/
theorem snk_only (hr : r.Ok S) {k : ℕ} (hs : r.SOk S k) (t : ℕ) (h : (p.sgen k).write ((r.st t).snk k) ≠ none) :
    ∃ T, r.Started T ∧ ∃ i, i ≤ r.items S T ∧ t = T + 6 + p.depth + i := by
  rcases Nat.lt_or_ge (p.depth + 2) t with h0 | h0
  · obtain ⟨u, rfl⟩ : ∃ u, t = u + 1 + p.depth + 2 := ⟨t - (p.depth + 3), by omega⟩
    rcases cover hr u with ⟨h1, h2, _⟩ | ⟨T, hT, hq, h1, h2⟩
    · exfalso
      apply h
      rw [snk_shift, h2.sstart]
      refine ((S.writes k).stay _ _ _ _ _ (snk_quiet hr hs u (Or.inl ?_))).2
      rintro T hT ⟨h3, h4⟩
      exact (active hr hT (started_quiet hr hT) h3 h4).1 h1
    · have hf := snk_first hr hT (snk_ready hr hs hT)
      by_cases e1 : u = T + 1
      · exfalso; subst e1
        apply h
        have e : T + 1 + 1 + p.depth + 2 = T + 4 + p.depth := by omega
        rw [e]; exact hf.1
      by_cases e2 : u = T + 2
      · exfalso; subst e2
        apply h
        have e : T + 2 + 1 + p.depth + 2 = T + 5 + p.depth := by omega
        rw [e]; exact hf.2
      exact ⟨T, hT, u - (T + 3), by unfold last at h2; omega, by omega⟩
  · exact absurd (snk_early S k t h0).2 h

end Run

end SRun
