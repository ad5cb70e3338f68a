import Verif.Lemmas.StreamGen

/-!
# C62: running a thread stream

`set_source`, `set_source_pattern`, `set_sink`, `set_sink_pattern`, `run`, `join`, `source_join_and_run` of
veriloggen/thread/stream.py.  The theorems hold for any address generators that keep the contracts `Gen.Reads` and
`SGen.Writes`; `std` is a stream with the generators of the library, `stdSpec` says that they keep them.
-/

namespace SRun

variable {V : Type}

/-! ## Streams with the generators of the library -/

/-- The generator of a source: `false` for `set_source`, `true` for `set_source_pattern`. -/
def genOf (aw : ℕ) : Bool → Gen
  | false => normalSrc aw
  | true => patternSrc aw

/-- Admissible settings of a source. -/
def okOf (aw : ℕ) : (b : Bool) → (genOf aw b).Set → Prop
  | false => linOk aw
  | true => fun (c : ℤ × List (ℕ × ℤ)) => Pat.Ok aw c.2

/-- The addresses of a source: `offset + k * stride`, or those of the nested loops. -/
def asOf (aw : ℕ) : (b : Bool) → (genOf aw b).Set → List ℤ
  | false => lin aw
  | true => fun (c : ℤ × List (ℕ × ℤ)) => Pat.addresses aw c.1 c.2

/-- The quiet states of a source. -/
def quietOf (aw : ℕ) : (b : Bool) → (genOf aw b).σ → Prop
  | false => fun (x : NSrc) => x.st = 0 ∧ x.idle = true ∧ x.renable = false
  | true => fun (x : Pat.Src) => x.st = 0 ∧ x.idle = true ∧ x.renable = false

/-- The generator of a sink. -/
def sgenOf (V : Type) (aw maxLen : ℕ) (v0 : V) : Bool → SGen V
  | false => normalSink V aw v0
  | true => patternSink V aw maxLen v0

/-- Admissible settings of a sink. -/
def sokOf (aw maxLen : ℕ) (v0 : V) : (b : Bool) → (sgenOf V aw maxLen v0 b).Set → Prop
  | false => linOk aw
  | true => fun (c : ℤ × List (ℕ × ℤ)) => Pat.Ok aw c.2 ∧ c.2.length = maxLen

/-- The addresses of a sink. -/
def sasOf (aw maxLen : ℕ) (v0 : V) : (b : Bool) → (sgenOf V aw maxLen v0 b).Set → List ℤ
  | false => lin aw
  | true => fun (c : ℤ × List (ℕ × ℤ)) => Pat.addresses aw c.1 c.2

/-- The quiet states of a sink. -/
def squietOf (aw maxLen : ℕ) (v0 : V) : (b : Bool) → (sgenOf V aw maxLen v0 b).σ → Prop
  | false => fun (y : NSink V) => y.st = 0
  | true => fun (y : Pat.Sink V) => y.st = 0 ∧ y.dims.length = maxLen

/-- A stream with the generators of the library. -/
def std (D ns aw maxLen : ℕ) (kind skind : ℕ → Bool) (v0 : V) (set0 : (j : ℕ) → (genOf aw (kind j)).Set)
    (sset0 : (k : ℕ) → (sgenOf V aw maxLen v0 (skind k)).Set) : Par V :=
  ⟨D, ns, fun j => genOf aw (kind j), fun k => sgenOf V aw maxLen v0 (skind k), v0, set0, sset0⟩

/-- The generators of the library keep the contracts. -/
def stdSpec (D ns aw maxLen : ℕ) (kind skind : ℕ → Bool) (v0 : V) (set0 : (j : ℕ) → (genOf aw (kind j)).Set)
    (sset0 : (k : ℕ) → (sgenOf V aw maxLen v0 (skind k)).Set) : Spec (std D ns aw maxLen kind skind v0 set0 sset0) where
  ok := fun j => okOf aw (kind j)
  as := fun j => asOf aw (kind j)
  quiet := fun j => quietOf aw (kind j)
  reads := by
    intro j
    show (genOf aw (kind j)).Reads _ _ _
    cases kind j
    · exact normal_reads aw
    · exact pattern_reads aw
  sok := fun k => sokOf aw maxLen v0 (skind k)
  sas := fun k => sasOf aw maxLen v0 (skind k)
  squiet := fun k => squietOf aw maxLen v0 (skind k)
  late := fun _ => False
  writes := by
    intro k
    show (sgenOf V aw maxLen v0 (skind k)).Writes _ _ _ _
    cases skind k
    · exact normal_writes aw v0
    · exact pattern_writes aw maxLen v0

variable {p : Par V} {r : Run p} {S : Spec p}

/-! ## Sources -/

/-- **C62, reads.** In a run started in cycle `T`, source `j` reads the addresses of the settings last set before `run`, in
    order, one per cycle from cycle `T + 3`, and reads nothing else. -/
theorem c62_reads (hr : r.Ok S) {j : ℕ} (hj : j < p.ns) :
    (∀ T, r.Started T → ∀ k (hk : k < (S.as j (r.srcSet T j)).length),
      (p.gen j).renable ((r.st (T + 3 + k)).src j) = true ∧
        (p.gen j).raddr ((r.st (T + 3 + k)).src j) = (S.as j (r.srcSet T j))[k]) ∧
    ∀ t, (p.gen j).renable ((r.st t).src j) = true →
      ∃ T, r.Started T ∧ ∃ k, k < (S.as j (r.srcSet T j)).length ∧ t = T + 3 + k := by
  refine ⟨fun T hT k hk => Run.reading hT (Run.started_quiet hr hT) (hr T hT) hj hk, ?_⟩
  intro t h
  rcases Run.cover hr t with ⟨_, hq, _⟩ | ⟨T, hT, hq, h1, h2⟩
  · rw [((S.reads j).quiet _ (hq.src j hj)).2] at h; cases h
  · have ht1 := Run.t1 hT hq
    by_cases e1 : t = T + 1
    · subst e1
      rw [((S.reads j).quiet _ (ht1.2.2 j hj)).2] at h; cases h
    by_cases e2 : t = T + 2
    · subst e2
      have := (S.reads j).first (fun t => (r.st (T + 1 + t)).src j) (fun t => (r.st (T + 1 + t)).cfg j)
        (fun t => (r.st (T + 1 + t)).sstart) (fun t => (r.st (T + 1 + t)).stop) (fun t => Run.srcTrace r j (T + 1 + t))
        (ht1.2.2 j hj) ht1.2.1
      have h' : (p.gen j).renable ((r.st (T + 1 + 1)).src j) = true := h
      rw [this] at h'; cases h'
    refine ⟨T, hT, t - (T + 3), ?_, by omega⟩
    rcases Nat.lt_or_ge (t - (T + 3)) (S.as j (r.srcSet T j)).length with h3 | h3
    · exact h3
    · have := Run.resting hT hq (hr T hT) hj (t - (T + 3)) h3 (by unfold Run.last at h2; omega)
      have e : T + 3 + (t - (T + 3)) = t := by omega
      rw [e] at this
      rw [((S.reads j).quiet _ this).2] at h; cases h

/-- **C62, items.** Item `k` of a run (`k` below the length of the longest source) is on the inputs of the data path in cycle
    `T + 5 + k`; a source with fewer words repeats its last one.  The data path is told that the input is valid in exactly these
    cycles, and to reset its accumulators with item 0 and with no other item. -/
theorem c62_items (hr : r.Ok S) :
    (∀ T, r.Started T → ∀ k, k < r.items S T → ∀ j, j < p.ns → 0 < (S.as j (r.srcSet T j)).length →
      (r.st (T + 5 + k)).wdata j = r.word S T j (min k ((S.as j (r.srcSet T j)).length - 1))) ∧
    (∀ t, (r.st t).ivalid = true ↔ ∃ T, r.Started T ∧ T + 5 ≤ t ∧ t < T + 5 + r.items S T) ∧
    ∀ T, r.Started T → (r.st (T + 5)).rr = true ∧ ∀ k, 0 < k → k < r.items S T → (r.st (T + 5 + k)).rr = false := by
  refine ⟨?_, Run.ivalid_iff hr, fun T hT => ⟨Run.rr_first hr hT, fun k h0 hk => Run.rr_rest hr hT h0 hk⟩⟩
  intro T hT k hk j hj hn
  have e : T + 5 + k = (T + 4 + k) + 1 := by omega
  rw [e, Run.wdata_step, Run.busy_win hr hT (by omega) (by unfold Run.last; omega), if_pos rfl]
  exact Run.rdata_eq hr hT hj hn hk

/-! ## Sinks -/

/-- **C62, writes.** Item `i` reaches sink `k` in cycle `T + 5 + depth + i`.  If its `when` condition holds it is written in the
    next cycle to the next address of the sink's settings, last set before `run`, as long as there are addresses.  Besides the
    `n` items of the run there is a cycle `i = n` in which the sink still looks at the data path.  Nothing else is written. -/
theorem c62_writes (hr : r.Ok S) {k : ℕ} (hs : r.SOk S k) :
    (∀ T, r.Started T → ∀ i, i ≤ r.items S T →
      (p.sgen k).write ((r.st (T + 6 + p.depth + i)).snk k) = if (r.inp (T + 5 + p.depth + i)).whn k then
        ((S.sas k (r.snkSet T k))[accepted (fun i => (r.inp (T + 5 + p.depth + i)).whn k) i]?).map
          fun a => (a, (r.inp (T + 5 + p.depth + i)).dat k) else none) ∧
    ∀ t, (p.sgen k).write ((r.st t).snk k) ≠ none →
      ∃ T, r.Started T ∧ ∃ i, i ≤ r.items S T ∧ t = T + 6 + p.depth + i :=
  ⟨fun T hT _ hi => (Run.snk_window hr hT (hs T hT) (Run.snk_ready hr hs hT) hi).1, Run.snk_only hr hs⟩

/-! ## `join` -/

namespace Run

theorem breg_step (r : Run p) (t : ℕ) : (r.st (t + 1)).breg =
    if (r.st t).sbusy then true else if !(r.st t).sinkBusy && tap (r.st t).busyL (p.depth + 2) then false
      else (r.st t).breg := by
  rw [r.step]; rfl

theorem sink_busy_iff (hr : r.Ok S) (t : ℕ) : (r.st t).sinkBusy = true ↔
    ∃ T, r.Started T ∧ T + 4 + p.depth ≤ t ∧ t ≤ r.last S T + p.depth + 2 := by
  rcases Nat.lt_or_ge t (p.depth + 2) with h | h
  · rw [(r.early t h).2]
    constructor
    · intro h; cases h
    · rintro ⟨T, _, h1, _⟩; omega
  · obtain ⟨u, rfl⟩ : ∃ u, t = u + p.depth + 2 := ⟨t - (p.depth + 2), by omega⟩
    rw [r.sinkBusy_eq, sbusy_iff hr]
    constructor
    · rintro ⟨T, hT, h1, h2⟩; exact ⟨T, hT, by omega, by omega⟩
    · rintro ⟨T, hT, h1, h2⟩; exact ⟨T, hT, by omega, by omega⟩

/-- `busy_reg` is cleared in the cycles in which `sink_busy` has fallen. -/
theorem fall (hr : r.Ok S) {t : ℕ} (h1 : (r.st t).sinkBusy = false) (h2 : tap (r.st t).busyL (p.depth + 2) = true) :
    ∃ T, r.Started T ∧ t = r.last S T + p.depth + 3 := by
  rw [r.tap_busy _ _ (by omega)] at h2
  split at h2
  · rename_i h3
    obtain ⟨T, hT, h4, h5⟩ := (sbusy_iff hr _).1 h2
    refine ⟨T, hT, ?_⟩
    rcases Nat.lt_or_ge (t - 1 - (p.depth + 2)) (r.last S T) with h6 | h6
    · exfalso
      have : (r.st t).sinkBusy = true := (sink_busy_iff hr t).2 ⟨T, hT, by omega, by omega⟩
      rw [h1] at this; cases this
    · omega
  · cases h2

theorem last_lt (r : Run p) (S : Spec p) (T : ℕ) : T + 3 ≤ r.last S T := by unfold last; omega

/-- `busy` stays 1 until the last item was written. -/
theorem busy_until (hr : r.Ok S) {T : ℕ} (hT : r.Started T)
    (hsep : ∀ T', r.Started T' → T' < T → r.last S T' + p.depth + 3 ≤ r.last S T ∨ r.last S T' = T) (t : ℕ)
    (h1 : T + 3 ≤ t) (h2 : t ≤ r.last S T + p.depth + 3) : (r.st t).breg = true ∨ T + p.depth + 4 ≤ t := by
  obtain ⟨i, rfl⟩ : ∃ i, t = T + 3 + i := ⟨t - (T + 3), by omega⟩
  induction i with
  | zero =>
    left
    have := breg_step r (T + 2)
    rw [busy_win hr hT (Nat.le_refl _) (by have := last_lt r S T; omega), if_pos rfl] at this
    exact this
  | succ i ih =>
    rcases ih (by omega) (by omega) with h | h
    · have e : T + 3 + (i + 1) = (T + 3 + i) + 1 := by omega
      rw [e, breg_step]
      cases hb : (r.st (T + 3 + i)).sbusy with
      | true => left; simp
      | false =>
        by_cases hc : (!(r.st (T + 3 + i)).sinkBusy && tap (r.st (T + 3 + i)).busyL (p.depth + 2)) = true
        · right
          rw [Bool.and_eq_true, Bool.not_eq_true'] at hc
          obtain ⟨T', hT', h4⟩ := fall hr hc.1 hc.2
          rcases Nat.lt_trichotomy T T' with h5 | h5 | h5
          · have := started_sep hr hT hT' h5
            have := last_lt r S T'
            omega
          · subst h5; omega
          · rcases hsep T' hT' h5 with h6 | h6
            · rw [busy_win hr hT (by omega) (by omega)] at hb; cases hb
            · omega
        · left; simp [h, hc]
    · right; omega

end Run

/-- **C62, join.** If a run starts in cycle `T`, a `join` executed after `run` (in cycle `t ≥ T + 2`) that finds the stream not
    busy comes no earlier than the last cycle in which the run can write: provided each earlier run has ended `depth` items
    before the end of this run, or this run was started in the last source cycle of the earlier one (`source_join_and_run`). -/
theorem c62_join (hr : r.Ok S) {T : ℕ} (hT : r.Started T)
    (hsep : ∀ T', r.Started T' → T' < T → r.last S T' + p.depth + 3 ≤ r.last S T ∨ r.last S T' = T) {t : ℕ} (ht : T + 2 ≤ t)
    (hb : (r.st t).busy = false) : T + 6 + p.depth + r.items S T ≤ t := by
  rcases Nat.lt_or_ge t (r.last S T + p.depth + 3) with h | h
  · exfalso
    unfold St.busy at hb
    simp only [Bool.or_eq_false_iff] at hb
    by_cases e : t ≤ r.last S T
    · rw [Run.busy_win hr hT ht e] at hb; cases hb.1.1
    · rcases Run.busy_until hr hT hsep t (by have := Run.last_lt r S T; omega) (by omega) with h1 | h1
      · rw [h1] at hb; cases hb.2
      · have : (r.st t).sinkBusy = true := (Run.sink_busy_iff hr t).2 ⟨T, hT, by omega, by omega⟩
        rw [this] at hb; cases hb.1.2
  · unfold Run.last at h; omega

/-- **C62, join of long runs.** A run of at least `depth` items needs no proviso. -/
theorem c62_join_long (hr : r.Ok S) {T : ℕ} (hT : r.Started T) (hlong : p.depth ≤ r.items S T) {t : ℕ} (ht : T + 2 ≤ t)
    (hb : (r.st t).busy = false) : T + 6 + p.depth + r.items S T ≤ t := by
  refine c62_join hr hT (fun T' hT' h => Or.inl ?_) ht hb
  have := Run.started_sep hr hT' hT h
  unfold Run.last at *; omega

/-- Runs and joins alternate: between two starts some `join` has found the stream not busy. -/
def Run.Joined (r : Run p) : Prop := ∀ T T', r.Started T → r.Started T' → T < T' → ∃ t, T + 2 ≤ t ∧ t < T' ∧ (r.st t).busy = false

/-- **C62, join after every run.** -/
theorem c62_joined (hr : r.Ok S) (hj : r.Joined) {T : ℕ} (hT : r.Started T) {t : ℕ} (ht : T + 2 ≤ t)
    (hb : (r.st t).busy = false) : T + 6 + p.depth + r.items S T ≤ t := by
  induction T using Nat.strongRecOn generalizing t with
  | ind T ih =>
    refine c62_join hr hT (fun T' hT' h => Or.inl ?_) ht hb
    obtain ⟨t', h1, h2, h3⟩ := hj T' T hT' hT h
    have := ih T' h hT' h1 h3
    unfold Run.last; omega

/-- **C62, join returns.** The stream is not busy `depth + 7` cycles after the last item, unless it was started again. -/
theorem c62_done (hr : r.Ok S) {T : ℕ} (hT : r.Started T)
    (hno : ∀ T', r.Started T' → T' ≤ T ∨ T + 7 + p.depth + r.items S T ≤ T') :
    (r.st (T + 7 + p.depth + r.items S T)).busy = false := by
  have hE : r.last S T = T + 3 + r.items S T := rfl
  have hsb : ∀ u, r.last S T < u → u ≤ T + 7 + p.depth + r.items S T → (r.st u).sbusy = false := by
    intro u h1 h2
    cases h : (r.st u).sbusy with
    | false => rfl
    | true =>
      exfalso
      obtain ⟨T', hT', h3, h4⟩ := (Run.sbusy_iff hr u).1 h
      rcases hno T' hT' with h5 | h5
      · rcases Nat.lt_or_ge T' T with h6 | h6
        · have := Run.started_sep hr hT' hT h6; omega
        · have : T' = T := by omega
          subst this; omega
      · omega
  have hsk : ∀ t, r.last S T + p.depth + 2 < t → t ≤ T + 7 + p.depth + r.items S T → (r.st t).sinkBusy = false := by
    intro t h1 h2
    obtain ⟨u, rfl⟩ : ∃ u, t = u + p.depth + 2 := ⟨t - (p.depth + 2), by omega⟩
    rw [r.sinkBusy_eq]
    exact hsb u (by omega) (by omega)
  unfold St.busy
  rw [hsb _ (by omega) (Nat.le_refl _), hsk _ (by omega) (Nat.le_refl _)]
  have e : T + 7 + p.depth + r.items S T = (T + 6 + p.depth + r.items S T) + 1 := by omega
  rw [e, Run.breg_step, hsb _ (by omega) (by omega), hsk _ (by omega) (by omega), r.tap_busy _ _ (by omega),
    if_pos (by omega : p.depth + 2 < T + 6 + p.depth + r.items S T)]
  have e2 : T + 6 + p.depth + r.items S T - 1 - (p.depth + 2) = r.last S T := by omega
  rw [e2, Run.busy_win hr hT (by omega) (Nat.le_refl _)]
  simp

/-! ## Jobs -/

/-- The writes of sink `k` in the cycles after `a`, up to `b`. -/
def Run.written (r : Run p) (k a b : ℕ) : List (ℤ × V) :=
  (List.range (b - a)).filterMap fun i => (p.sgen k).write ((r.st (a + 1 + i)).snk k)

theorem zip_append_of_le {X Y : Type} (l : List X) (m m' : List Y) (h : l.length ≤ m.length) : l.zip (m ++ m') = l.zip m := by
  induction l generalizing m with
  | nil => simp
  | cons x l ih =>
    cases m with
    | nil => simp at h
    | cons y m => simp only [List.zip_cons_cons, List.cons_append]; rw [ih m (by simpa using h)]

theorem zip_accept {X : Type} (l : List ℤ) (w : ℕ → Bool) (d : ℕ → X) (n : ℕ) :
    (List.range n).filterMap (fun i => if w i then (l[accepted w i]?).map fun a => (a, d i) else none) =
      l.zip (((List.range n).filter w).map d) := by
  induction n with
  | zero => simp
  | succ n ih =>
    rw [List.range_succ, List.filterMap_append, ih, List.filter_append, List.map_append]
    cases hw : w n with
    | false => simp [hw]
    | true =>
      simp only [List.filterMap_cons, hw, if_true, List.filterMap_nil, List.filter_cons, List.filter_nil, List.map_cons,
        List.map_nil]
      cases hl : l[accepted w n]? with
      | none =>
        simp only [Option.map_none, List.append_nil]
        have h1 : l.length ≤ (((List.range n).filter w).map d).length := by
          rw [List.getElem?_eq_none_iff] at hl
          rw [List.length_map]; exact hl
        exact (zip_append_of_le _ _ _ h1).symm
      | some a =>
        simp only [Option.map_some]
        rw [Pat.zip_take_succ _ _ (d n) (a := a) (by rw [List.length_map]; exact hl)]

theorem filterMap_window {X : Type} (f : ℕ → Option X) (a n b : ℕ) (h1 : ∀ i, i < a → f i = none)
    (h2 : ∀ i, a + n ≤ i → i < a + n + b → f i = none) :
    (List.range (a + n + b)).filterMap f = (List.range n).filterMap fun i => f (a + i) := by
  have e1 : (List.range a).filterMap f = [] := by
    rw [List.filterMap_eq_nil_iff]
    intro i hi; exact h1 i (List.mem_range.1 hi)
  have e2 : ((List.range b).map fun i => a + n + i).filterMap f = [] := by
    rw [List.filterMap_eq_nil_iff]
    intro i hi
    obtain ⟨x, hx, rfl⟩ := List.mem_map.1 hi
    exact h2 _ (by omega) (by have := List.mem_range.1 hx; omega)
  rw [List.range_add, List.filterMap_append, e2, List.append_nil, List.range_add, List.filterMap_append, e1, List.nil_append,
    List.filterMap_map]
  rfl

/-- What a sink writes from the start of a run to a cycle after the end of the run. -/
theorem Run.job_of (hr : r.Ok S) {k : ℕ} (hs : r.SOk S k) {T t : ℕ} (hT : r.Started T)
    (hend : T + 6 + p.depth + r.items S T ≤ t)
    (hprev : ∀ T', r.Started T' → T' < T → T' + 6 + p.depth + r.items S T' ≤ T)
    (hlater : ∀ T', r.Started T' → T' ≤ T ∨ t < T') :
    r.written k T t = (S.sas k (r.snkSet T k)).zip
      (((List.range (r.items S T + 1)).filter fun i => (r.inp (T + 5 + p.depth + i)).whn k).map
        fun i => (r.inp (T + 5 + p.depth + i)).dat k) := by
  have hw := c62_writes hr hs
  obtain ⟨b, hbe⟩ : ∃ b, t - T = (5 + p.depth) + (r.items S T + 1) + b :=
    ⟨t - T - ((5 + p.depth) + (r.items S T + 1)), by omega⟩
  have hout : ∀ i, i < t - T → (i < 5 + p.depth ∨ 5 + p.depth + (r.items S T + 1) ≤ i) →
      (p.sgen k).write ((r.st (T + 1 + i)).snk k) = none := by
    intro i hi ho
    cases h : (p.sgen k).write ((r.st (T + 1 + i)).snk k) with
    | none => rfl
    | some x =>
      exfalso
      obtain ⟨T', hT', i', h1, h2⟩ := hw.2 (T + 1 + i) (by rw [h]; simp)
      rcases hlater T' hT' with h3 | h3
      · rcases Nat.lt_or_ge T' T with h4 | h4
        · have := hprev T' hT' h4
          omega
        · have : T' = T := by omega
          subst this; omega
      · omega
  unfold Run.written
  rw [hbe, filterMap_window _ (5 + p.depth) (r.items S T + 1) b (fun i hi => hout i (by omega) (Or.inl hi))
    (fun i h1 h2 => hout i (by omega) (Or.inr h1)), ← zip_accept]
  apply List.filterMap_congr
  intro i hi
  have hi' := List.mem_range.1 hi
  have e : T + 1 + (5 + p.depth + i) = T + 6 + p.depth + i := by omega
  rw [e]
  exact hw.1 T hT i (by omega)

/-- **C62, a job.** Runs and joins alternate.  Between the start of a run and a cycle in which a `join` after it finds the stream
    not busy (no later run being started up to then), each sink writes exactly the accepted outputs of the data path to the
    addresses of its settings, in order, until it runs out of addresses. -/
theorem c62_job (hr : r.Ok S) (hj : r.Joined) {k : ℕ} (hs : r.SOk S k) {T t : ℕ} (hT : r.Started T) (ht : T + 2 ≤ t)
    (hb : (r.st t).busy = false) (hlater : ∀ T', r.Started T' → T' ≤ T ∨ t < T') :
    r.written k T t = (S.sas k (r.snkSet T k)).zip
      (((List.range (r.items S T + 1)).filter fun i => (r.inp (T + 5 + p.depth + i)).whn k).map
        fun i => (r.inp (T + 5 + p.depth + i)).dat k) := by
  refine Run.job_of hr hs hT (c62_joined hr hj hT ht hb) (fun T' hT' h => ?_) hlater
  obtain ⟨t', h5, h6, h7⟩ := hj T' T hT' hT h
  have := c62_joined hr hj hT' h5 h7
  omega

/-- The first `n` items of a run: for each item the words of the sources. -/
def Run.inputs (r : Run p) (S : Spec p) (T n : ℕ) : List (List V) :=
  (List.range n).map fun i => (List.range p.ns).map fun j => r.word S T j (min i ((S.as j (r.srcSet T j)).length - 1))

/-- The data path computes `F` and `W` for the `n + 1` valid items from cycle `a`, the first of them with `reduce_reset`. -/
def Run.PathAt (r : Run p) (F : ℕ → List (List V) → V) (W : ℕ → List (List V) → Bool) (k a n : ℕ) : Prop :=
  (∀ i, i ≤ n → (r.st (a + i)).ivalid = true) → (r.st a).rr = true →
    (∀ i, 0 < i → i ≤ n → (r.st (a + i)).rr = false) →
    (r.inp (a + n + p.depth)).dat k =
        F k ((List.range (n + 1)).map fun i => (List.range p.ns).map fun j => (r.st (a + i)).wdata j) ∧
      (r.inp (a + n + p.depth)).whn k =
        W k ((List.range (n + 1)).map fun i => (List.range p.ns).map fun j => (r.st (a + i)).wdata j)

/-- A data path of `depth` stages with accumulators: in the cycle `depth` after an item, the output `k` and its `when` condition
    depend, by `F k` and `W k`, on the valid items since the last one with `reduce_reset` (see C24, C25). -/
def Run.Path (r : Run p) (F : ℕ → List (List V) → V) (W : ℕ → List (List V) → Bool) : Prop := ∀ k a n, r.PathAt F W k a n

/-- What the data path gives for the items of a run. -/
theorem Run.path_of (hr : r.Ok S) {F : ℕ → List (List V) → V} {W : ℕ → List (List V) → Bool} {k : ℕ}
    {T : ℕ} (hp : ∀ i, i < r.items S T → r.PathAt F W k (T + 5) i) (hT : r.Started T) (hne : ∀ j, j < p.ns → 0 < (S.as j (r.srcSet T j)).length) :
    ∀ i, i < r.items S T → (r.inp (T + 5 + p.depth + i)).dat k = F k (r.inputs S T (i + 1)) ∧
      (r.inp (T + 5 + p.depth + i)).whn k = W k (r.inputs S T (i + 1)) := by
  obtain ⟨hi1, hi2, hi3⟩ := c62_items hr
  intro i hi
  have := hp i hi (fun i' h => (hi2 _).2 ⟨T, hT, by omega, by omega⟩) (hi3 T hT).1
    (fun i' h0 h => (hi3 T hT).2 i' h0 (by omega))
  have e1 : T + 5 + i + p.depth = T + 5 + p.depth + i := by omega
  have e2 : ((List.range (i + 1)).map fun i => (List.range p.ns).map fun j => (r.st (T + 5 + i)).wdata j) =
      r.inputs S T (i + 1) := by
    unfold Run.inputs
    apply List.map_congr_left
    intro i' h
    have h' := List.mem_range.1 h
    apply List.map_congr_left
    intro j hj'
    have hj'' := List.mem_range.1 hj'
    exact hi1 T hT i' (by omega) j hj'' (hne j hj'')
  rw [e1, e2] at this
  exact this

/-- The writes of a job are those of its items, if the sink has no more addresses than accepted items. -/
theorem Run.result_of (hr : r.Ok S) {F : ℕ → List (List V) → V} {W : ℕ → List (List V) → Bool} {k : ℕ}
    {T : ℕ} (hp : ∀ i, i < r.items S T → r.PathAt F W k (T + 5) i) (hT : r.Started T) (hne : ∀ j, j < p.ns → 0 < (S.as j (r.srcSet T j)).length)
    (hfit : (S.sas k (r.snkSet T k)).length ≤
      ((List.range (r.items S T)).filter fun i => W k (r.inputs S T (i + 1))).length) :
    (S.sas k (r.snkSet T k)).zip
      (((List.range (r.items S T + 1)).filter fun i => (r.inp (T + 5 + p.depth + i)).whn k).map
        fun i => (r.inp (T + 5 + p.depth + i)).dat k) =
    (S.sas k (r.snkSet T k)).zip
      (((List.range (r.items S T)).filter fun i => W k (r.inputs S T (i + 1))).map fun i => F k (r.inputs S T (i + 1))) := by
  have hpath := Run.path_of hr hp hT hne
  have hf : ((List.range (r.items S T)).filter fun i => (r.inp (T + 5 + p.depth + i)).whn k) =
      (List.range (r.items S T)).filter fun i => W k (r.inputs S T (i + 1)) :=
    List.filter_congr fun i hi => (hpath i (List.mem_range.1 hi)).2
  have hm : (((List.range (r.items S T)).filter fun i => W k (r.inputs S T (i + 1))).map
      fun i => (r.inp (T + 5 + p.depth + i)).dat k) =
      ((List.range (r.items S T)).filter fun i => W k (r.inputs S T (i + 1))).map fun i => F k (r.inputs S T (i + 1)) :=
    List.map_congr_left fun i hi => (hpath i (List.mem_range.1 (List.mem_filter.1 hi).1)).1
  rw [List.range_succ, List.filter_append, List.map_append, hf, hm]
  exact zip_append_of_le _ _ _ (by rw [List.length_map]; exact hfit)

/-- **C62, result of a job.** With a data path that computes `F` and `W`, and a sink with no more addresses than accepted items,
    the job writes `F` of the items read from the sources, for the accepted items, to the addresses of the sink. -/
theorem c62_result (hr : r.Ok S) (hj : r.Joined) {F : ℕ → List (List V) → V} {W : ℕ → List (List V) → Bool}
    (hp : r.Path F W) {k : ℕ} (hs : r.SOk S k) {T t : ℕ} (hT : r.Started T) (ht : T + 2 ≤ t) (hb : (r.st t).busy = false)
    (hlater : ∀ T', r.Started T' → T' ≤ T ∨ t < T') (hne : ∀ j, j < p.ns → 0 < (S.as j (r.srcSet T j)).length)
    (hfit : (S.sas k (r.snkSet T k)).length ≤
      ((List.range (r.items S T)).filter fun i => W k (r.inputs S T (i + 1))).length) :
    r.written k T t = (S.sas k (r.snkSet T k)).zip
      (((List.range (r.items S T)).filter fun i => W k (r.inputs S T (i + 1))).map fun i => F k (r.inputs S T (i + 1))) := by
  rw [c62_job hr hj hs hT ht hb hlater, Run.result_of hr (fun i _ => hp k (T + 5) i) hT hne hfit]

/-! ## Where the code does less -/

/-- **C62, runs after `source_join`.** If a second run is started after the sources of the first have ended (`source_join`, `run`)
    and has fewer items than the pipeline needs to empty, the end of the first run clears `busy` before the second run has
    written anything: `join` returns too early. -/
theorem c62_not_gap (hr : r.Ok S) {T T' : ℕ} (hT' : r.Started T') (hT : r.Started T) (hgap : r.last S T' < T)
    (hshort : r.last S T < r.last S T' + p.depth + 3)
    (hno : ∀ T'', r.Started T'' → T'' ≤ T' ∨ T'' = T ∨ r.last S T' + p.depth + 4 ≤ T'') :
    (r.st (r.last S T' + p.depth + 4)).busy = false ∧ T + 2 ≤ r.last S T' + p.depth + 4 ∧
      r.last S T' + p.depth + 4 < T + 6 + p.depth := by
  have hlt := Run.last_lt r S T
  have hlt' := Run.last_lt r S T'
  have hle : ∀ T'', r.Started T'' → T'' ≤ T' → r.last S T'' ≤ r.last S T' := by
    intro T'' hs h
    rcases Nat.lt_or_ge T'' T' with h1 | h1
    · have := Run.started_sep hr hs hT' h1; omega
    · have : T'' = T' := by omega
      subst this; omega
  have hsb : ∀ u, r.last S T' + p.depth + 3 ≤ u → u ≤ r.last S T' + p.depth + 4 → (r.st u).sbusy = false := by
    intro u h1 h2
    cases h : (r.st u).sbusy with
    | false => rfl
    | true =>
      exfalso
      obtain ⟨T'', hs, h3, h4⟩ := (Run.sbusy_iff hr u).1 h
      rcases hno T'' hs with h5 | h5 | h5
      · have := hle T'' hs h5; omega
      · subst h5; omega
      · omega
  have hsk : ∀ u, r.last S T' + p.depth + 3 ≤ u → u ≤ r.last S T' + p.depth + 4 → (r.st u).sinkBusy = false := by
    intro u h1 h2
    cases h : (r.st u).sinkBusy with
    | false => rfl
    | true =>
      exfalso
      obtain ⟨T'', hs, h3, h4⟩ := (Run.sink_busy_iff hr u).1 h
      rcases hno T'' hs with h5 | h5 | h5
      · have := hle T'' hs h5; omega
      · subst h5; omega
      · omega
  refine ⟨?_, by omega, by omega⟩
  unfold St.busy
  rw [hsb _ (by omega) (Nat.le_refl _), hsk _ (by omega) (Nat.le_refl _)]
  have e : r.last S T' + p.depth + 4 = (r.last S T' + p.depth + 3) + 1 := by omega
  rw [e, Run.breg_step, hsb _ (by omega) (by omega), hsk _ (by omega) (by omega), r.tap_busy _ _ (by omega),
    if_pos (by omega : p.depth + 2 < r.last S T' + p.depth + 3)]
  have e2 : r.last S T' + p.depth + 3 - 1 - (p.depth + 2) = r.last S T' := by omega
  rw [e2, Run.busy_win hr hT' (by omega) (Nat.le_refl _)]
  simp

/-- **C62, three chained runs.** With two `source_join_and_run` in a row and short runs, `busy` is 0 for a cycle before the third
    run has written anything. -/
theorem c62_not_chain (hr : r.Ok S) {T : ℕ} (h0 : r.Started T) (h1 : r.Started (r.last S T))
    (h2 : r.Started (r.last S (r.last S T))) (hshort : r.last S (r.last S (r.last S T)) < r.last S T + p.depth + 3)
    (hno : ∀ T', r.Started T' → T' ≤ r.last S (r.last S T) ∨ r.last S (r.last S T) + p.depth + 3 ≤ T') :
    (r.st (r.last S (r.last S T) + p.depth + 3)).busy = false := by
  have hl0 := Run.last_lt r S T
  have hl1 := Run.last_lt r S (r.last S T)
  have hl2 := Run.last_lt r S (r.last S (r.last S T))
  have hsb : ∀ u, r.last S T + p.depth + 3 ≤ u → u ≤ r.last S (r.last S T) + p.depth + 3 → (r.st u).sbusy = false := by
    intro u h3 h4
    cases h : (r.st u).sbusy with
    | false => rfl
    | true =>
      exfalso
      obtain ⟨T', hs, h5, h6⟩ := (Run.sbusy_iff hr u).1 h
      rcases hno T' hs with h7 | h7
      · rcases Nat.lt_or_ge T' (r.last S (r.last S T)) with h8 | h8
        · have := Run.started_sep hr hs h2 h8; omega
        · have : T' = r.last S (r.last S T) := by omega
          subst this; omega
      · omega
  have hgap : (r.st (r.last S T + p.depth + 3)).sinkBusy = false := by
    have := r.sinkBusy_eq (r.last S T + 1)
    rw [Run.busy_gap hr h0] at this
    have e : r.last S T + 1 + p.depth + 2 = r.last S T + p.depth + 3 := by omega
    rwa [e] at this
  have hgap2 : (r.st (r.last S (r.last S T) + p.depth + 3)).sinkBusy = false := by
    have := r.sinkBusy_eq (r.last S (r.last S T) + 1)
    rw [Run.busy_gap hr h1] at this
    have e : r.last S (r.last S T) + 1 + p.depth + 2 = r.last S (r.last S T) + p.depth + 3 := by omega
    rwa [e] at this
  have hbr : ∀ i, r.last S T + p.depth + 4 + i ≤ r.last S (r.last S T) + p.depth + 3 →
      (r.st (r.last S T + p.depth + 4 + i)).breg = false := by
    intro i
    induction i with
    | zero =>
      intro _
      have e : r.last S T + p.depth + 4 + 0 = (r.last S T + p.depth + 3) + 1 := by omega
      rw [e, Run.breg_step, hsb _ (Nat.le_refl _) (by omega), hgap, r.tap_busy _ _ (by omega),
        if_pos (by omega : p.depth + 2 < r.last S T + p.depth + 3)]
      have e2 : r.last S T + p.depth + 3 - 1 - (p.depth + 2) = r.last S T := by omega
      rw [e2, Run.busy_win hr h0 (by omega) (Nat.le_refl _)]
      simp
    | succ i ih =>
      intro h
      have e : r.last S T + p.depth + 4 + (i + 1) = (r.last S T + p.depth + 4 + i) + 1 := by omega
      rw [e, Run.breg_step, hsb _ (by omega) (by omega), ih (by omega)]
      simp
  unfold St.busy
  rw [hsb _ (by omega) (Nat.le_refl _), hgap2]
  obtain ⟨i, hi⟩ : ∃ i, r.last S (r.last S T) + p.depth + 3 = r.last S T + p.depth + 4 + i :=
    ⟨r.last S (r.last S T) - r.last S T - 1, by omega⟩
  rw [hi, hbr i (by omega)]
  rfl

/-- **C62, a sink that is longer than the run.** After the last item the inputs of the data path keep the last item for one more
    cycle; if the `when` condition holds for it and the sink has an address left, this is written as one more word. -/
theorem c62_flush (hr : r.Ok S) {T : ℕ} (hT : r.Started T) (hpos : 0 < r.items S T) :
    (∀ j, (r.st (T + 5 + r.items S T)).wdata j = (r.st (T + 5 + (r.items S T - 1))).wdata j) ∧
    ∀ k, r.SOk S k → (r.inp (T + 5 + p.depth + r.items S T)).whn k = true →
      ∀ (h : accepted (fun i => (r.inp (T + 5 + p.depth + i)).whn k) (r.items S T) < (S.sas k (r.snkSet T k)).length),
      (p.sgen k).write ((r.st (T + 6 + p.depth + r.items S T)).snk k) =
        some ((S.sas k (r.snkSet T k))[accepted (fun i => (r.inp (T + 5 + p.depth + i)).whn k) (r.items S T)],
          (r.inp (T + 5 + p.depth + r.items S T)).dat k) := by
  constructor
  · intro j
    have e : T + 5 + r.items S T = (r.last S T + 1) + 1 := by unfold Run.last; omega
    have e2 : T + 5 + (r.items S T - 1) = r.last S T + 1 := by unfold Run.last; omega
    rw [e, Run.wdata_step, Run.busy_gap hr hT, e2]
    simp
  · intro k hs hw h
    rw [(c62_writes hr hs).1 T hT _ (Nat.le_refl _), hw, if_pos rfl, List.getElem?_eq_getElem h]
    rfl

/-- **C62, `run` during the source phase.** A `run` between the start of a run and the last cycle of its sources has no effect. -/
theorem c62_lost (hr : r.Ok S) {T t : ℕ} (hT : r.Started T) (h1 : T < t) (h2 : t < r.last S T) (b : Bool) :
    (r.st t).step { r.inp t with run := b } = r.st (t + 1) := by
  have hst := Run.stop_off hr hT h1 h2
  have hf := (Run.active hr hT (Run.started_quiet hr hT) h1 (by omega)).1
  have a1 : ∀ b, (r.st t).nextFsm b = (r.st t).nextFsm (r.inp t).run := by
    intro b; unfold St.nextFsm; simp [hf, hst]
  have a2 : ∀ b, (r.st t).nextStart b = (r.st t).nextStart (r.inp t).run := by
    intro b; unfold St.nextStart; simp [hf, hst]
  rw [r.step]
  unfold St.step
  simp only [a1 b, a2 b]

/-- **C62, size 0.** A source set with size 0 does not read nothing: its counter wraps around and it reads `2 ^ (aw + 1)` words. -/
theorem c62_not_empty {aw : ℕ} {x : ℕ → NSrc} {c : ℕ → ℤ × ℕ × ℤ} {start stop : ℕ → Bool}
    (hx : ∀ t, x (t + 1) = NSrc.step aw (c t) (start t) (stop t) (x t)) (h0 : (x 0).st = 0) (hs : start 0 = true)
    (hz : (c 0).2.1 = 0) (hn : ∀ t, 0 < t → stop t = false) {k : ℕ} (hk : k < 2 ^ (aw + 1)) :
    (x (2 + k)).renable = true ∧ (x (2 + k)).idle = false := by
  have key : ∀ k, k < 2 ^ (aw + 1) → (x (2 + k)).st = 2 ∧ (x (2 + k)).renable = true ∧ (x (2 + k)).idle = false ∧
      (x (2 + k)).count = (2 ^ (aw + 1) - k) % 2 ^ (aw + 1) := by
    intro k
    induction k with
    | zero =>
      intro _
      have e1 : x 1 = { x 0 with st := 1, renable := false, offset := Pat.addr aw (c 0).1, size := 0,
                                 stride := Pat.addr aw (c 0).2.2 } := by
        rw [hx 0, NSrc.step, if_pos h0, if_pos hs, hz, Nat.zero_mod]
      rw [show 2 + 0 = 1 + 1 by rfl, hx 1, NSrc.step, if_neg (by simp [e1]), if_pos (by simp [e1]), e1]
      simp
    | succ k ih =>
      intro hk
      obtain ⟨a1, a2, a3, a4⟩ := ih (by omega)
      rw [show 2 + (k + 1) = (2 + k) + 1 by omega, hx, NSrc.step, if_neg (by omega), if_neg (by omega), hn _ (by omega), a4]
      have hne : (2 ^ (aw + 1) - k) % 2 ^ (aw + 1) ≠ 1 := by
        rcases Nat.eq_zero_or_pos k with h | h
        · subst h; simp
        · rw [Nat.mod_eq_of_lt (by omega)]; omega
      have hd : Pat.dec aw ((2 ^ (aw + 1) - k) % 2 ^ (aw + 1)) = (2 ^ (aw + 1) - (k + 1)) % 2 ^ (aw + 1) := by
        unfold Pat.dec
        rw [Nat.mod_add_mod]
        have : 2 ^ (aw + 1) - k + (2 ^ (aw + 1) - 1) = (2 ^ (aw + 1) - (k + 1)) + 2 ^ (aw + 1) := by omega
        rw [this, Nat.add_mod_right]
      have e1 : ((2 ^ (aw + 1) - k) % 2 ^ (aw + 1) == 1) = false := by simpa using hne
      simp [e1, hd]
  exact ⟨(key k hk).2.1, (key k hk).2.2.1⟩

/-! ## Examples -/

/-- A run from its inputs. -/
def Run.mk' (p : Par V) (inp : ℕ → In p) : Run p where
  inp := inp
  st := fun t => Nat.rec (St.init p) (fun t s => s.step (inp t)) t
  start := rfl
  step := fun _ => rfl

namespace Ex

/-- One source, `set_source` with `n0` words from address 2 with stride 3, and one sink, `set_sink` with `n0` words from 8. -/
def par (D n0 : ℕ) : Par ℤ := std D 1 4 1 (fun _ => false) (fun _ => false) 0 (fun _ => ((2 : ℤ), n0, (3 : ℤ)))
  (fun _ => ((8 : ℤ), n0, (1 : ℤ)))

def spec (D n0 : ℕ) : Spec (par D n0) := stdSpec D 1 4 1 (fun _ => false) (fun _ => false) 0 _ _

/-- `run` in the cycles of `l`; RAM word `a` is `a * a`, and the data path adds 1 (for the run at 0). -/
def prog (D n0 : ℕ) (l : List ℕ) : Run (par D n0) :=
  Run.mk' _ fun t => ⟨l.contains t, fun _ => none, fun _ => none, fun _ a => a * a,
    fun _ => (2 + ((t - 5 - D : ℕ) : ℤ) * 3) % 2 ^ 4 * ((2 + ((t - 5 - D : ℕ) : ℤ) * 3) % 2 ^ 4) + 1, fun _ => true⟩

theorem srcSet (D n0 : ℕ) (l : List ℕ) (T j : ℕ) : (prog D n0 l).srcSet T j = ((2 : ℤ), n0, (3 : ℤ)) := by
  unfold Run.srcSet
  generalize T + 1 = u
  induction u with
  | zero => rfl
  | succ u ih => exact ih

theorem snkSet (D n0 : ℕ) (l : List ℕ) (T j : ℕ) : (prog D n0 l).snkSet T j = ((8 : ℤ), n0, (1 : ℤ)) := by
  unfold Run.snkSet
  generalize T + 1 = u
  induction u with
  | zero => rfl
  | succ u ih => exact ih

theorem ok (D : ℕ) {n0 : ℕ} (l : List ℕ) (h : 1 ≤ n0 ∧ n0 < 32) : (prog D n0 l).Ok (spec D n0) := by
  intro T _ j _
  rw [srcSet]
  exact h

theorem sok (D : ℕ) {n0 : ℕ} (l : List ℕ) (h : 1 ≤ n0 ∧ n0 < 32) (k : ℕ) : (prog D n0 l).SOk (spec D n0) k := by
  intro T _
  rw [snkSet]
  exact ⟨h, False.elim⟩

theorem items (D n0 : ℕ) (l : List ℕ) (T : ℕ) : (prog D n0 l).items (spec D n0) T = n0 := by
  have h : ((spec D n0).as 0 ((prog D n0 l).srcSet T 0)).length = n0 := by
    rw [srcSet]
    exact (List.length_map _).trans List.length_range
  unfold Run.items
  show max ((spec D n0).as 0 ((prog D n0 l).srcSet T 0)).length 0 = n0
  rw [h]; simp

theorem last (D n0 : ℕ) (l : List ℕ) (T : ℕ) : (prog D n0 l).last (spec D n0) T = T + 3 + n0 := by
  unfold Run.last; rw [items]

theorem started (D n0 : ℕ) {l : List ℕ} {T : ℕ} (h : (prog D n0 l).Started T) : T ∈ l := by
  have := h.2
  exact List.contains_iff_mem.1 this

/-- `run; source_join; run` with one word each on a pipeline of 8 stages. -/
theorem gap : ∃ t, 5 + 2 ≤ t ∧ t < 5 + 6 + 8 ∧ ((prog 8 1 [0, 5]).st t).busy = false ∧ (prog 8 1 [0, 5]).Started 0 ∧
    (prog 8 1 [0, 5]).Started 5 := by
  have hr := ok 8 [0, 5] (n0 := 1) (by decide)
  have s0 : (prog 8 1 [0, 5]).Started 0 := ⟨Or.inl rfl, rfl⟩
  have s5 : (prog 8 1 [0, 5]).Started 5 := by
    refine ⟨Or.inl ?_, rfl⟩
    rcases Run.cover hr 5 with ⟨h, _⟩ | ⟨T, hT, _, h1, h2⟩
    · exact h
    · rw [last] at h2
      have := started 8 1 hT
      simp at this; omega
  have := c62_not_gap hr s0 s5 (by rw [last]; decide) (by rw [last, last]; decide) (by
    intro T'' h
    have := started 8 1 h
    rw [last]
    simp at this; omega)
  rw [last] at this
  exact ⟨_, this.2.1, this.2.2, this.1, s0, s5⟩

/-- `run` and twice `source_join_and_run`. -/
theorem chain : ((prog 8 1 [0, 4, 8]).st 19).busy = false ∧ (prog 8 1 [0, 4, 8]).Started 8 ∧ 19 < 8 + 6 + 8 := by
  have hr := ok 8 [0, 4, 8] (n0 := 1) (by decide)
  have s0 : (prog 8 1 [0, 4, 8]).Started 0 := ⟨Or.inl rfl, rfl⟩
  have s4 : (prog 8 1 [0, 4, 8]).Started 4 := ⟨Or.inr ((Run.stop_iff hr 4).2 ⟨0, s0, by rw [last]⟩), rfl⟩
  have s8 : (prog 8 1 [0, 4, 8]).Started 8 := ⟨Or.inr ((Run.stop_iff hr 8).2 ⟨4, s4, by rw [last]⟩), rfl⟩
  have := c62_not_chain hr s0 (by rw [last]; exact s4) (by rw [last, last]; exact s8)
    (by rw [last, last, last]; decide) (by
      intro T' h
      have := started 8 1 h
      rw [last, last]
      simp at this; omega)
  rw [last, last] at this
  exact ⟨this, s8, by decide⟩

/-- The data path of `prog`, for a single run: the first source of the last item, plus 1. -/
theorem path (D : ℕ) {n0 : ℕ} (h : 1 ≤ n0 ∧ n0 < 32) :
    (prog D n0 [0]).Path (fun _ l => ((l.getLast?.bind List.head?).getD 0) + 1) (fun _ _ => true) := by
  intro k a n h1 h2 h3
  refine ⟨?_, rfl⟩
  have hr := ok D [0] h
  obtain ⟨i1, i2, i3⟩ := c62_items hr
  have hz : ∀ T, (prog D n0 [0]).Started T → T = 0 := fun T hT => by have := started D n0 hT; simpa using this
  obtain ⟨T, hT, ha, hb⟩ := (i2 _).1 (h1 n (Nat.le_refl _))
  obtain ⟨T2, hT2, ha2, hb2⟩ := (i2 _).1 (h1 0 (Nat.zero_le _))
  have e := hz T hT
  have e2 := hz T2 hT2
  subst e e2
  rw [items] at hb hb2
  have ea : a = 5 := by
    rcases Nat.lt_or_ge 5 a with h4 | h4
    · have := (i3 0 hT).2 (a - 5) (by omega) (by rw [items]; omega)
      have e : 0 + 5 + (a - 5) = a := by omega
      rw [e, h2] at this; cases this
    · omega
  subst ea
  rw [List.range_succ, List.map_append]
  have hlen : ((spec D n0).as 0 ((prog D n0 [0]).srcSet 0 0)).length = n0 := by
    rw [srcSet]
    exact (List.length_map _).trans List.length_range
  have hw := i1 0 hT n (by rw [items]; omega) 0 (by show 0 < 1; omega) (by rw [hlen]; omega)
  rw [hlen, show min n (n0 - 1) = n by omega] at hw
  have hr1 : List.range (par D n0).ns = [0] := rfl
  simp only [hr1, List.map_cons, List.map_nil, List.getLast?_append, List.getLast?_singleton, Option.some_or, Option.bind_some,
    List.head?_cons, Option.getD_some]
  rw [show (5 + n) = 0 + 5 + n by omega, hw]
  have hget : ((spec D n0).as 0 ((prog D n0 [0]).srcSet 0 0)).getD n 0 = (2 + (n : ℤ) * 3) % 2 ^ 4 := by
    rw [srcSet]
    show (lin 4 ((2 : ℤ), n0, (3 : ℤ))).getD n 0 = _
    have hn : n < n0 := by omega
    simp [lin, hn]
  show (2 + ((0 + 5 + n + D - 5 - D : ℕ) : ℤ) * 3) % 2 ^ 4 * ((2 + ((0 + 5 + n + D - 5 - D : ℕ) : ℤ) * 3) % 2 ^ 4) + 1 =
    (((spec D n0).as 0 ((prog D n0 [0]).srcSet 0 0)).getD n 0 * ((spec D n0).as 0 ((prog D n0 [0]).srcSet 0 0)).getD n 0) + 1
  rw [hget, show 0 + 5 + n + D - 5 - D = n by omega]

/-- A job of 3 words through a pipeline of 2 stages: it is finished in cycle 12 and has written the squares of 2, 5, 8 plus 1 to
    the addresses 8, 9, 10. -/
theorem job : ((prog 2 3 [0]).st 12).busy = false ∧ (prog 2 3 [0]).written 0 0 12 = [(8, 5), (9, 26), (10, 65)] := by
  have hr := ok 2 [0] (n0 := 3) (by decide)
  have s0 : (prog 2 3 [0]).Started 0 := ⟨Or.inl rfl, rfl⟩
  have hz : ∀ T, (prog 2 3 [0]).Started T → T = 0 := fun T hT => by have := started 2 3 hT; simpa using this
  have hb : ((prog 2 3 [0]).st 12).busy = false := by
    have := c62_done hr s0 (fun T' h => Or.inl (by have := hz T' h; omega))
    rw [items] at this
    exact this
  refine ⟨hb, ?_⟩
  have hj : (prog 2 3 [0]).Joined := by
    intro T T' h h' hlt
    have := hz T h
    have := hz T' h'
    omega
  have hlen : ((spec 2 3).as 0 ((prog 2 3 [0]).srcSet 0 0)).length = 3 := by
    rw [srcSet]
    exact (List.length_map _).trans List.length_range
  have := c62_result hr hj (path 2 (by decide)) (sok 2 [0] (by decide) 0) s0 (by omega : 0 + 2 ≤ 12) hb
    (fun T' h => Or.inl (by have := hz T' h; omega))
    (by
      intro j hj
      have : j = 0 := by
        have : j < 1 := hj
        omega
      subst this; rw [hlen]; omega)
    (by rw [items, snkSet]; exact Nat.le_refl 3)
  rw [this, items, snkSet]
  unfold Run.inputs Run.word
  have hw : ∀ i, i < 3 → ((spec 2 3).as 0 ((prog 2 3 [0]).srcSet 0 0)).getD (min i (((spec 2 3).as 0
      ((prog 2 3 [0]).srcSet 0 0)).length - 1)) 0 = (2 + (i : ℤ) * 3) % 2 ^ 4 := by
    intro i hi
    rw [hlen, srcSet]
    have : i = 0 ∨ i = 1 ∨ i = 2 := by omega
    rcases this with rfl | rfl | rfl <;> rfl
  have hr1 : List.range (par 2 3).ns = [0] := rfl
  simp only [hr1, List.map_cons, List.map_nil]
  rfl

end Ex

/-! The hypotheses of the theorems are met by `Ex.prog`: -/

example : (Ex.prog 2 3 [0]).Ok (Ex.spec 2 3) ∧ (Ex.prog 2 3 [0]).SOk (Ex.spec 2 3) 0 ∧ (Ex.prog 2 3 [0]).Started 0 :=
  ⟨Ex.ok 2 [0] (by decide), Ex.sok 2 [0] (by decide) 0, Or.inl rfl, rfl⟩

/-- The first and the last read. -/
example : ((Ex.prog 2 3 [0]).st 3).src 0 = (⟨2, 2, 3, 3, 2, true, 3, false⟩ : NSrc) ∧
    ((Ex.prog 2 3 [0]).st 5).src 0 = (⟨2, 2, 3, 3, 8, true, 1, false⟩ : NSrc) := ⟨rfl, rfl⟩

/-- A run of at least `depth` items. -/
example : (Ex.par 2 3).depth ≤ (Ex.prog 2 3 [0]).items (Ex.spec 2 3) 0 := by rw [Ex.items]; decide

/-- Settings of the pattern generators: a 2 by 3 block. -/
example : okOf 4 true ((1 : ℤ), [((3 : ℕ), (1 : ℤ)), (2, 8)]) ∧
    asOf 4 true ((1 : ℤ), [((3 : ℕ), (1 : ℤ)), (2, 8)]) = [1, 2, 3, 9, 10, 11] := by
  refine ⟨?_, rfl⟩
  intro q hq
  simp at hq
  rcases hq with rfl | rfl <;> decide

/-- Size 0. -/
example : (NSrc.step 1 (0, 0, 1) false false (NSrc.step 1 (0, 0, 1) false false
    (NSrc.step 1 (0, 0, 1) true false (normalSrc 1).init))).renable = true := rfl

end SRun
