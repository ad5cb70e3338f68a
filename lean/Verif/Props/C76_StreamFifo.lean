import Verif.Lemmas.StreamFlow
import Mathlib.Tactic.ByContra

/-!
# C76: thread streams with FIFOs

`set_source_fifo`, `set_sink_fifo`, `run`, `join` of veriloggen/thread/stream.py, and the stalls (`oready`) they cause.  The
theorems hold for any generators that keep the contracts of C62; `lib` is a stream with the generators of the library, for RAMs,
patterns and FIFOs, and `libSpec` says that they keep them.
-/

namespace SFifo

variable {V : Type}

/-! ## Streams with the generators of the library -/

/-- The generator of a source or sink: `set_source`, `set_source_pattern`, `set_source_fifo`. -/
inductive Kind
  | ram
  | pattern
  | fifo

/-- The generators of sources. -/
def genK (aw : ℕ) : Kind → SRun.Gen
  | .ram => SRun.normalSrc aw
  | .pattern => SRun.patternSrc aw
  | .fifo => fifoSrc aw

/-- Admissible settings. -/
def okK (aw : ℕ) : (b : Kind) → (genK aw b).Set → Prop
  | .ram => SRun.linOk aw
  | .pattern => fun (c : ℤ × List (ℕ × ℤ)) => Pat.Ok aw c.2
  | .fifo => sizeOk aw

/-- The addresses, for a FIFO as many zeros as words. -/
def asK (aw : ℕ) : (b : Kind) → (genK aw b).Set → List ℤ
  | .ram => SRun.lin aw
  | .pattern => fun (c : ℤ × List (ℕ × ℤ)) => Pat.addresses aw c.1 c.2
  | .fifo => fun n : ℕ => List.replicate n 0

/-- The quiet states. -/
def quietK (aw : ℕ) : (b : Kind) → (genK aw b).σ → Prop
  | .ram => fun (x : SRun.NSrc) => x.st = 0 ∧ x.idle = true ∧ x.renable = false
  | .pattern => fun (x : Pat.Src) => x.st = 0 ∧ x.idle = true ∧ x.renable = false
  | .fifo => fun (x : FSrc) => x.st = 0 ∧ x.idle = true ∧ x.deq = false

/-- The generators of sinks. -/
def sgenK (V : Type) (aw maxLen : ℕ) (v0 : V) : Kind → SRun.SGen V
  | .ram => SRun.normalSink V aw v0
  | .pattern => SRun.patternSink V aw maxLen v0
  | .fifo => fifoSnk V aw v0

/-- Admissible settings of a sink. -/
def sokK (aw maxLen : ℕ) (v0 : V) : (b : Kind) → (sgenK V aw maxLen v0 b).Set → Prop
  | .ram => SRun.linOk aw
  | .pattern => fun (c : ℤ × List (ℕ × ℤ)) => Pat.Ok aw c.2 ∧ c.2.length = maxLen
  | .fifo => sizeOk aw

/-- The addresses of a sink. -/
def sasK (aw maxLen : ℕ) (v0 : V) : (b : Kind) → (sgenK V aw maxLen v0 b).Set → List ℤ
  | .ram => SRun.lin aw
  | .pattern => fun (c : ℤ × List (ℕ × ℤ)) => Pat.addresses aw c.1 c.2
  | .fifo => fun n : ℕ => List.replicate n 0

/-- The quiet states of a sink. -/
def squietK (aw maxLen : ℕ) (v0 : V) : (b : Kind) → (sgenK V aw maxLen v0 b).σ → Prop
  | .ram => SRun.squietOf aw maxLen v0 false
  | .pattern => SRun.squietOf aw maxLen v0 true
  | .fifo => fun (y : FSnk V) => y.st = 0

/-- A stream with the generators of the library. -/
def lib (D ns nk aw maxLen : ℕ) (kind skind : ℕ → Kind) (srcF : ℕ → Option (ℕ × Bool)) (snkF : ℕ → Option ℕ) (v0 : V)
    (set0 : (j : ℕ) → (genK aw (kind j)).Set) (sset0 : (k : ℕ) → (sgenK V aw maxLen v0 (skind k)).Set) : FPar V where
  core := ⟨D, ns, fun j => genK aw (kind j), fun k => sgenK V aw maxLen v0 (skind k), v0, set0, sset0⟩
  nk := nk
  srcF := srcF
  snkF := snkF

/-- The generators of the library keep the contracts. -/
def libSpec (D ns nk aw maxLen : ℕ) (kind skind : ℕ → Kind) (srcF : ℕ → Option (ℕ × Bool)) (snkF : ℕ → Option ℕ) (v0 : V)
    (set0 : (j : ℕ) → (genK aw (kind j)).Set) (sset0 : (k : ℕ) → (sgenK V aw maxLen v0 (skind k)).Set) :
    SRun.Spec (lib D ns nk aw maxLen kind skind srcF snkF v0 set0 sset0).core where
  ok := fun j => okK aw (kind j)
  as := fun j => asK aw (kind j)
  quiet := fun j => quietK aw (kind j)
  reads := by
    intro j
    show (genK aw (kind j)).Reads _ _ _
    cases kind j
    · exact SRun.normal_reads aw
    · exact SRun.pattern_reads aw
    · exact fsrc_reads aw
  sok := fun k => sokK aw maxLen v0 (skind k)
  sas := fun k => sasK aw maxLen v0 (skind k)
  squiet := fun k => squietK aw maxLen v0 (skind k)
  late := fun k => skind k = .fifo
  writes := by
    intro k
    show (sgenK V aw maxLen v0 (skind k)).Writes _ _ _ _
    cases skind k
    · have := SRun.normal_writes (V := V) aw v0
      exact ⟨this.init, this.stay, this.first, fun y c a b w d h1 h2 h3 h4 _ => this.write y c a b w d h1 h2 h3 h4 False.elim⟩
    · have := SRun.pattern_writes (V := V) aw maxLen v0
      exact ⟨this.init, this.stay, this.first, fun y c a b w d h1 h2 h3 h4 _ => this.write y c a b w d h1 h2 h3 h4 False.elim⟩
    · have := fsnk_writes (V := V) aw v0
      exact ⟨this.init, this.stay, this.first,
        fun y c a b w d h1 h2 h3 h4 h5 => this.write y c a b w d h1 h2 h3 h4 fun _ => h5 rfl⟩

theorem map_snd_zip {X Y : Type} (l : List X) (m : List Y) : (l.zip m).map Prod.snd = m.take l.length := by
  induction l generalizing m with
  | nil => simp
  | cons x l ih =>
    cases m with
    | nil => simp
    | cons y m => simp [ih]

theorem put_list {X : Type} (b : Bool) (x : Option X) (v : X) :
    (if b then none else x).toList = if x.isSome && !b then [x.getD v] else [] := by
  cases b <;> cases x <;> rfl

/-! ## What is observed -/

variable {p : FPar V}

namespace Run

variable (r : Run p)

/-- The word the FIFO of source `j` hands out in cycle `t`: it is dequeued while not empty; the word is on its output in the
    next cycle. -/
def pop (j t : ℕ) : Option V :=
  if ((r.st t).srcIn (r.inp t) j).deq && !Fifo.isEmpty ((r.st t).ff j) then some ((r.st (t + 1)).ff j).rdata else none

/-- The words handed out from cycle `a` to before cycle `b`. -/
def popped (j a b : ℕ) : List V := (List.range (b - a)).filterMap fun i => r.pop j (a + i)

/-- The word put into the FIFO of source `j` in cycle `t`. -/
def put (aw j t : ℕ) : Option V := if Fifo.isFull aw ((r.st t).ff j) then none else (r.inp t).enq j

/-- The words put in from cycle `a` to before cycle `b`. -/
def given (aw j a b : ℕ) : List V := (List.range (b - a)).filterMap fun i => r.put aw j (a + i)

/-- What sink `k` gives to its RAM or its FIFO in cycle `t`. -/
def out (k t : ℕ) : Option (ℤ × V) := if r.go t then (p.core.sgen k).write ((r.st t).core.snk k) else none

/-- The same from cycle `a` to before cycle `b`. -/
def outs (k a b : ℕ) : List (ℤ × V) := (List.range (b - a)).filterMap fun i => r.out k (a + i)

/-- The word that gets into the FIFO of sink `k` in cycle `t`. -/
def push (aw k t : ℕ) : Option V :=
  if ((r.st t).snkIn (r.inp t) k).enq && !Fifo.isFull aw ((r.st t).sf k) then some ((r.st t).snkIn (r.inp t) k).wdata else none

/-- The same from cycle `a` to before cycle `b`. -/
def pushed (aw k a b : ℕ) : List V := (List.range (b - a)).filterMap fun i => r.push aw k (a + i)

/-- The word taken out of the FIFO of sink `k` in cycle `t`. -/
def take (k t : ℕ) : Option V :=
  if (r.inp t).deq k && !Fifo.isEmpty ((r.st t).sf k) then some ((r.st (t + 1)).sf k).rdata else none

/-- The same from cycle `a` to before cycle `b`. -/
def taken (k a b : ℕ) : List V := (List.range (b - a)).filterMap fun i => r.take k (a + i)

/-- Word `i` of source `j` in the job from cycle `c` to cycle `d`: that of its FIFO, or the word its RAM has at the address in the
    cycle in which it is read. -/
def word (S : SRun.Spec p.core) (c d j i : ℕ) : V :=
  match p.srcF j with
  | none => (r.inp (r.cy d (r.nt c + 3 + i))).base.mem j ((S.as j (r.srcSet c j)).getD i 0)
  | some _ => (r.popped j c d).getD i p.core.v0

/-- The first `n` items of a job: a source with fewer words repeats its last one. -/
def inputs (S : SRun.Spec p.core) (c d n : ℕ) : List (List V) :=
  (List.range n).map fun i => (List.range p.core.ns).map fun j => r.word S c d j (min i ((S.as j (r.srcSet c j)).length - 1))

/-- A data path of `depth` stages with accumulators that moves when the stream is not stalled: `depth` unstalled cycles after an
    item, output `k` and its `when` condition depend, by `F k` and `W k`, on the valid items since the last one with
    `reduce_reset`. -/
def Path (F : ℕ → List (List V) → V) (W : ℕ → List (List V) → Bool) : Prop :=
  ∀ k (t : ℕ → ℕ) (n e : ℕ), (∀ i, i ≤ n → r.go (t i) = true ∧ r.nt (t i) = r.nt (t 0) + i) → r.go e = true →
    r.nt e = r.nt (t 0) + n + p.core.depth → (∀ i, i ≤ n → (r.st (t i)).core.ivalid = true) → (r.st (t 0)).core.rr = true →
    (∀ i, 0 < i → i ≤ n → (r.st (t i)).core.rr = false) →
    (r.inp e).base.dat k =
        F k ((List.range (n + 1)).map fun i => (List.range p.core.ns).map fun j => (r.st (t i)).core.wdata j) ∧
      (r.inp e).base.whn k =
        W k ((List.range (n + 1)).map fun i => (List.range p.core.ns).map fun j => (r.st (t i)).core.wdata j)

end Run

variable {r : Run p} {S : SRun.Spec p.core}

/-! ## The FIFOs -/

/-- **C76, order of the sources' words.** The words handed out by the FIFO of a source, followed by those it still has, are the
    words put in. -/
theorem c76_order {j aw : ℕ} {b : Bool} (hj : p.srcF j = some (aw, b)) (t : ℕ) :
    ∃ q, r.given aw j 0 t = r.popped j 0 t ++ q ∧ Fifo.Rep aw ((r.st t).ff j) q := by
  induction t with
  | zero => exact ⟨[], rfl, by rw [r.start]; exact Fifo.rep_init _ _ _⟩
  | succ t ih =>
    obtain ⟨q, h1, h2⟩ := ih
    obtain ⟨q', h3, h4⟩ := Fifo.rep_step h2 ((r.st t).srcIn (r.inp t) j)
    have est : (r.st (t + 1)).ff j = Fifo.step aw ((r.st t).ff j) ((r.st t).srcIn (r.inp t) j) := by
      rw [r.step]; simp [St.step, hj]
    refine ⟨q', ?_, by rw [est]; exact h3⟩
    have e1 : r.given aw j 0 (t + 1) = r.given aw j 0 t ++ (r.put aw j t).toList := by
      unfold Run.given
      simp only [Nat.sub_zero, Nat.zero_add, List.range_succ, List.filterMap_append, List.filterMap_cons, List.filterMap_nil]
      cases r.put aw j t <;> rfl
    have e2 : r.popped j 0 (t + 1) = r.popped j 0 t ++ (r.pop j t).toList := by
      unfold Run.popped
      simp only [Nat.sub_zero, Nat.zero_add, List.range_succ, List.filterMap_append, List.filterMap_cons, List.filterMap_nil]
      cases r.pop j t <;> rfl
    have e3 : (r.put aw j t).toList = if ((r.st t).srcIn (r.inp t) j).enq && !(Fifo.flags aw ((r.st t).ff j)).full
        then [((r.st t).srcIn (r.inp t) j).wdata] else [] := by
      exact put_list _ _ _
    have e4 : (r.pop j t).toList = if ((r.st t).srcIn (r.inp t) j).deq && !(Fifo.flags aw ((r.st t).ff j)).empty
        then [(Fifo.step aw ((r.st t).ff j) ((r.st t).srcIn (r.inp t) j)).rdata] else [] := by
      rw [← est]
      unfold Run.pop
      show _ = if _ && !Fifo.isEmpty ((r.st t).ff j) then _ else _
      split <;> rfl
    rw [e1, e2, h1, List.append_assoc, List.append_assoc, e3, e4, h4]

/-- **C76, order of the sinks' words.** The words taken out of the FIFO of a sink, followed by those it still has, are the words
    that got in. -/
theorem c76_sink_order {k aw : ℕ} (hk : p.snkF k = some aw) (t : ℕ) :
    ∃ q, r.pushed aw k 0 t = r.taken k 0 t ++ q ∧ Fifo.Rep aw ((r.st t).sf k) q := by
  induction t with
  | zero => exact ⟨[], rfl, by rw [r.start]; exact Fifo.rep_init _ _ _⟩
  | succ t ih =>
    obtain ⟨q, h1, h2⟩ := ih
    obtain ⟨q', h3, h4⟩ := Fifo.rep_step h2 ((r.st t).snkIn (r.inp t) k)
    have est : (r.st (t + 1)).sf k = Fifo.step aw ((r.st t).sf k) ((r.st t).snkIn (r.inp t) k) := by
      rw [r.step]; simp [St.step, hk]
    refine ⟨q', ?_, by rw [est]; exact h3⟩
    have e1 : r.pushed aw k 0 (t + 1) = r.pushed aw k 0 t ++ (r.push aw k t).toList := by
      unfold Run.pushed
      simp only [Nat.sub_zero, Nat.zero_add, List.range_succ, List.filterMap_append, List.filterMap_cons, List.filterMap_nil]
      cases r.push aw k t <;> rfl
    have e2 : r.taken k 0 (t + 1) = r.taken k 0 t ++ (r.take k t).toList := by
      unfold Run.taken
      simp only [Nat.sub_zero, Nat.zero_add, List.range_succ, List.filterMap_append, List.filterMap_cons, List.filterMap_nil]
      cases r.take k t <;> rfl
    have e3 : (r.push aw k t).toList = if ((r.st t).snkIn (r.inp t) k).enq && !(Fifo.flags aw ((r.st t).sf k)).full
        then [((r.st t).snkIn (r.inp t) k).wdata] else [] := by
      unfold Run.push
      show _ = if _ && !Fifo.isFull aw ((r.st t).sf k) then _ else _
      split <;> rfl
    have e4 : (r.take k t).toList = if ((r.st t).snkIn (r.inp t) k).deq && !(Fifo.flags aw ((r.st t).sf k)).empty
        then [(Fifo.step aw ((r.st t).sf k) ((r.st t).snkIn (r.inp t) k)).rdata] else [] := by
      rw [← est]
      unfold Run.take
      show _ = if (r.inp t).deq k && !Fifo.isEmpty ((r.st t).sf k) then _ else _
      split <;> rfl
    rw [e1, e2, h1, List.append_assoc, List.append_assoc, e3, e4, h4]

/-! ## Sources -/

namespace Run

theorem idle_off {q : SRun.Par V} {f : SRun.Run q} {S : SRun.Spec q} (hr : f.Ok S) {T j k : ℕ} (hT : f.Started T) (hj : j < q.ns)
    (hk : k < (S.as j (f.srcSet T j)).length) : (q.gen j).idle ((f.st (T + 3 + k)).src j) = false := by
  have hq := SRun.Run.started_quiet hr hT
  have hw := (SRun.Run.window hT hq (hr T hT) k (Nat.le_trans (Nat.le_of_lt hk) (f.le_items S hj))).2
  have hread := (S.reads j).read (fun t => (f.st (T + 1 + t)).src j) (fun t => (f.st (T + 1 + t)).cfg j)
    (fun t => (f.st (T + 1 + t)).sstart) (fun t => (f.st (T + 1 + t)).stop) (fun t => SRun.Run.srcTrace f j (T + 1 + t))
    ((SRun.Run.t1 hT hq).2.2 j hj) (SRun.Run.t1 hT hq).2.1 (by rw [f.cfg_eq]; exact hr T hT j hj) k (by rw [f.cfg_eq]; exact hk)
    (fun t ht1 ht2 => hw _ (by omega) (by omega))
  have e : T + 1 + (2 + k) = T + 3 + k := by omega
  simp only [e] at hread
  exact hread.1

theorem pop_go (j t : ℕ) (h : r.pop j t ≠ none) :
    r.go t = true ∧ (p.core.gen j).renable ((r.st t).core.src j) = true ∧ Fifo.isEmpty ((r.st t).ff j) = false := by
  unfold pop at h
  split at h
  · rename_i h1
    simp only [St.srcIn, Bool.and_eq_true, Bool.not_eq_true'] at h1
    exact ⟨h1.1.1.1, h1.1.1.2, h1.2⟩
  · exact absurd rfl h

/-- A source that reads its FIFO does so in a run. -/
theorem read_in (g : r.Proper S) {j t : ℕ} (hj : j < p.core.ns) (hg : r.go t = true)
    (h : (p.core.gen j).renable ((r.st t).core.src j) = true) :
    ∃ c, r.Starts c ∧ c < t ∧ r.nt c + 3 ≤ r.nt t ∧ r.nt t < r.nt c + 3 + (S.as j (r.srcSet c j)).length := by
  have hR := rel_at g (Nat.le_refl t) hg
  rw [hR.src] at h
  obtain ⟨T, hT, k, h1, h2⟩ := (SRun.c62_reads (flat_ok g (smooth g t)) hj).2 _ h
  obtain ⟨h3, h4⟩ := (flat_started g (smooth g t) T).1 hT
  obtain ⟨_, h5, h6⟩ := r.cy_lt h3
  have e := flat_srcSet g (smooth g t) h4 h5 j
  rw [h6] at e
  rw [e] at h1
  exact ⟨_, h4, h5, by omega, by omega⟩

theorem reading_fifo (g : r.Proper S) {j aw : ℕ} {b : Bool} (hj : j < p.core.ns) (hf : p.srcF j = some (aw, b)) {t : ℕ}
    (hg : r.go t = true) (h : (p.core.gen j).renable ((r.st t).core.src j) = true) : Fifo.isEmpty ((r.st t).ff j) = false := by
  obtain ⟨c, hc, h1, h2, h3⟩ := read_in g hj hg h
  have hr := flat_ok g (smooth g t)
  obtain ⟨hT, _⟩ := started_of g (smooth g t) hc h1
  have hR := rel_at g (Nat.le_refl t) hg
  have hset := flat_srcSet g (smooth g t) hc h1 j
  have hk : r.nt t - (r.nt c + 3) < (S.as j ((r.flat t).srcSet (r.nt c) j)).length := by rw [hset]; omega
  have e : r.nt c + 3 + (r.nt t - (r.nt c + 3)) = r.nt t := by omega
  have hi := idle_off hr hT hj hk
  have hb : ((r.flat t).st (r.nt t)).sbusy = true := SRun.Run.busy_win hr hT (by omega) (by
    have := (r.flat t).le_items S (T := r.nt c) hj
    unfold SRun.Run.last; omega)
  rw [e, ← hR.src] at hi
  rw [← hR.sbusy] at hb
  have hgo : (r.st t).oready (r.inp t) = true := hg
  unfold St.oready at hgo
  rw [Bool.and_eq_true, Bool.and_eq_true, List.all_eq_true] at hgo
  have := hgo.1.1 j (List.mem_range.2 hj)
  unfold St.srcReady at this
  rw [hf] at this
  simpa [hi, hb] using this

theorem popped_eq (g : r.Proper S) {j aw : ℕ} {b : Bool} (hj : j < p.core.ns) (hf : p.srcF j = some (aw, b)) {c d : ℕ}
    (hc : r.Starts c) (hcd : c < d) (he : r.Ended S d) (hlater : ∀ c', r.Starts c' → c' ≤ c ∨ d < c')
    (hprev : ∀ c', r.Starts c' → c' < c → r.nt c' + 6 + p.core.depth + r.items S c' ≤ r.nt c) :
    r.popped j c d = (List.range (S.as j (r.srcSet c j)).length).map fun i => (r.flat d).word S (r.nt c) j i := by
  have hr := flat_ok g (smooth g d)
  obtain ⟨hT, _⟩ := started_of g (smooth g d) hc hcd
  have hset := flat_srcSet g (smooth g d) hc hcd j
  have hit := flat_items g (smooth g d) hc hcd
  have hreads := SRun.c62_reads hr hj
  have hle := (r.flat d).le_items S (T := r.nt c) hj
  rw [hset] at hle
  have hend := he c hc hcd
  have e1 : r.popped j c d = (List.range (d - c)).filterMap fun i => if r.go (c + i) then (fun t =>
      if (p.core.gen j).renable ((r.st t).core.src j) then some ((r.st (t + 1)).ff j).rdata else none) (c + i) else none := by
    unfold popped
    apply List.filterMap_congr
    intro i _
    unfold pop St.srcIn
    show (if ((r.go (c + i) && _) && _) && _ then _ else _) = _
    cases hg : r.go (c + i) with
    | false => simp
    | true =>
      cases hen : (p.core.gen j).renable ((r.st (c + i)).core.src j) with
      | false => simp [hen]
      | true => simp [hen, reading_fifo g hj hf hg hen]
  rw [e1, over (r := r) (fun t => if (p.core.gen j).renable ((r.st t).core.src j) then some ((r.st (t + 1)).ff j).rdata
    else none) (fun n => if (p.core.gen j).renable (((r.flat d).st n).src j) then
    some (((r.st (r.cy d n + 1)).ff j).rdata) else none) (Nat.le_of_lt hcd) (fun t h1 h2 h3 => by
      simp only [(rel_at g (Nat.le_of_lt h2) h3).src, r.cy_nt h3 h2])]
  have hoff : ∀ i, i < r.nt d - r.nt c → (i < 3 ∨ 3 + (S.as j (r.srcSet c j)).length ≤ i) →
      (p.core.gen j).renable (((r.flat d).st (r.nt c + i)).src j) = false := by
    intro i hi ho
    cases h : (p.core.gen j).renable (((r.flat d).st (r.nt c + i)).src j) with
    | false => rfl
    | true =>
      exfalso
      obtain ⟨T, hT', k, h1, h2⟩ := hreads.2 _ h
      obtain ⟨h3, h4⟩ := (flat_started g (smooth g d) T).1 hT'
      obtain ⟨_, h5, h6⟩ := r.cy_lt h3
      have hs' := flat_srcSet g (smooth g d) h4 h5 j
      have hit' := flat_items g (smooth g d) h4 h5
      have hle' := (r.flat d).le_items S (T := T) hj
      rw [h6] at hs' hit'
      rcases hlater _ h4 with h7 | h7
      · rcases Nat.lt_or_ge (r.cy d T) c with h8 | h8
        · have := hprev _ h4 h8
          rw [h6] at this
          omega
        · have e : r.cy d T = c := by omega
          rw [e] at h6 hs'
          rw [hs'] at h1
          omega
      · omega
  obtain ⟨m, hm⟩ : ∃ m, r.nt d - r.nt c = 3 + (S.as j (r.srcSet c j)).length + m :=
    ⟨r.nt d - r.nt c - (3 + (S.as j (r.srcSet c j)).length), by omega⟩
  rw [hm, SRun.filterMap_window _ 3 _ m (fun i hi => by simp [hoff i (by omega) (Or.inl hi)])
    (fun i h1 h2 => by simp [hoff i (by omega) (Or.inr h1)]), ← List.filterMap_eq_map]
  apply List.filterMap_congr
  intro i hi
  have hi' := List.mem_range.1 hi
  have := (hreads.1 (r.nt c) hT i (by rw [hset]; exact hi')).1
  have e : r.nt c + (3 + i) = r.nt c + 3 + i := by omega
  rw [e, this]
  simp only [if_true, Function.comp, SRun.Run.word, flat_inp, tinp, hf]

/-- The words of a job are those of the run without stalls. -/
theorem word_eq (g : r.Proper S) {c d : ℕ} (hc : r.Starts c) (hcd : c < d) (he : r.Ended S d)
    (hlater : ∀ c', r.Starts c' → c' ≤ c ∨ d < c')
    (hprev : ∀ c', r.Starts c' → c' < c → r.nt c' + 6 + p.core.depth + r.items S c' ≤ r.nt c) {j i : ℕ} (hj : j < p.core.ns)
    (hi : i < (S.as j (r.srcSet c j)).length) : (r.flat d).word S (r.nt c) j i = r.word S c d j i := by
  unfold word
  cases hf : p.srcF j with
  | none =>
    simp only [SRun.Run.word, flat_inp, tinp, hf, flat_srcSet g (smooth g d) hc hcd j]
  | some x =>
    obtain ⟨aw, b⟩ := x
    simp only [popped_eq g hj hf hc hcd he hlater hprev]
    simp [List.getD_eq_getElem?_getD, hi]

theorem prev_of (g : r.Proper S) {c : ℕ} (hc : r.Starts c) :
    ∀ c', r.Starts c' → c' < c → r.nt c' + 6 + p.core.depth + r.items S c' ≤ r.nt c := by
  intro c' h1 h2
  obtain ⟨d, h3, h4, h5⟩ := g.joined _ _ h1 hc h2
  have := join_of g (smooth g d) h1 (by omega) d h3 (Nat.le_refl _) h5
  have := r.nt_mono (Nat.le_of_lt h4)
  omega

end Run

/-- **C76, the words of a source.** Between the start of a run and a cycle in which a `join` after it finds the stream not busy, the
    FIFO of a source hands out exactly as many words as were set.  It is never read while empty, and never outside a run. -/
theorem c76_source (g : r.Proper S) {j aw : ℕ} {b : Bool} (hj : j < p.core.ns) (hf : p.srcF j = some (aw, b)) :
    (∀ c d, r.Starts c → c + 2 ≤ d → (r.st d).core.busy = false → (∀ c', r.Starts c' → c' ≤ c ∨ d < c') →
      (r.popped j c d).length = (S.as j (r.srcSet c j)).length) ∧
    (∀ t, r.go t = true → (p.core.gen j).renable ((r.st t).core.src j) = true → Fifo.isEmpty ((r.st t).ff j) = false) ∧
    ∀ t, r.pop j t ≠ none → ∃ c, r.Starts c ∧ c < t ∧ r.nt t < r.nt c + 3 + (S.as j (r.srcSet c j)).length := by
  refine ⟨?_, fun t hg h => Run.reading_fifo g hj hf hg h, ?_⟩
  · intro c d hc hd hb hlater
    rw [Run.popped_eq g hj hf hc (by omega) (Run.ended g hc hd hb hlater) hlater (Run.prev_of g hc)]
    simp
  · intro t h
    obtain ⟨h1, h2, _⟩ := Run.pop_go j t h
    obtain ⟨c, a, b, _, d⟩ := Run.read_in g hj h1 h2
    exact ⟨c, a, b, d⟩

/-! ## `join` -/

/-- **C76, join.** A `join` after `run` returns no earlier than `6 + depth + items` unstalled cycles after the start, when the run
    has written everything. -/
theorem c76_join (g : r.Proper S) {c d : ℕ} (hc : r.Starts c) (hd : c + 2 ≤ d) (hb : (r.st d).core.busy = false) :
    r.nt c + 6 + p.core.depth + r.items S c ≤ r.nt d :=
  Run.join_of g (Run.smooth g d) hc (by omega) d hd (Nat.le_refl _) hb

/-- **C76, starting.** The stream is idle when a run starts, and is not stalled then nor in the next cycle. -/
theorem c76_start (g : r.Proper S) {c : ℕ} (hc : r.Starts c) :
    r.go c = true ∧ r.go (c + 1) = true ∧ (r.st c).core.fsm = 0 := Run.starts_go g c hc

/-! ## Results -/

namespace Run

theorem outs_eq (g : r.Proper S) {k c d : ℕ} (hc : r.Starts c) (hcd : c < d) (hgd : r.go d = true) :
    r.outs k (c + 1) (d + 1) = (r.flat d).written k (r.nt c) (r.nt d) := by
  have e1 : r.nt (c + 1) = r.nt c + 1 := by rw [nt_succ, (starts_go g c hc).1]; rfl
  have e2 : r.nt (d + 1) = r.nt d + 1 := by rw [nt_succ, hgd]; rfl
  unfold outs out
  rw [over (r := r) (fun t => (p.core.sgen k).write ((r.st t).core.snk k))
    (fun n => (p.core.sgen k).write (((r.flat d).st n).snk k)) (by omega)
    (fun t h1 h2 h3 => by rw [(rel_at g (d := d) (by omega) h3).snk]), e1, e2]
  unfold SRun.Run.written
  have e : r.nt d + 1 - (r.nt c + 1) = r.nt d - r.nt c := by omega
  rw [e]

theorem path_at (g : r.Proper S) {F : ℕ → List (List V) → V} {W : ℕ → List (List V) → Bool} (hp : r.Path F W) {k d a n : ℕ}
    (h : a + n + p.core.depth < r.nt d) : (r.flat d).PathAt F W k a n := by
  intro h1 h2 h3
  have hR : ∀ i, i ≤ n → Rel (r.st (r.cy d (a + i))) ((r.flat d).st (a + i)) :=
    fun i hi => rel g.calm g.sync d (a + i) (by omega)
  have h0 := r.cy_lt (show a + 0 < r.nt d by omega)
  obtain ⟨e1, _, e3⟩ := r.cy_lt h
  have := hp k (fun i => r.cy d (a + i)) n (r.cy d (a + n + p.core.depth))
    (fun i hi => by
      obtain ⟨b1, _, b3⟩ := r.cy_lt (show a + i < r.nt d by omega)
      exact ⟨b1, by rw [b3, h0.2.2]; omega⟩)
    e1 (by rw [e3, h0.2.2]; omega) (fun i hi => by rw [(hR i hi).ivalid]; exact h1 i hi)
    (by rw [(hR 0 (by omega)).rr]; exact h2) (fun i hi hn => by rw [(hR i hn).rr]; exact h3 i hi hn)
  have ew : ((List.range (n + 1)).map fun i => (List.range p.core.ns).map fun j => (r.st (r.cy d (a + i))).core.wdata j) =
      (List.range (n + 1)).map fun i => (List.range p.core.ns).map fun j => ((r.flat d).st (a + i)).wdata j := by
    apply List.map_congr_left
    intro i hi
    have := List.mem_range.1 hi
    rw [(hR i (by omega)).wdata]
  rw [ew] at this
  exact this

theorem inputs_eq (g : r.Proper S) {c d : ℕ} (hc : r.Starts c) (hcd : c < d) (he : r.Ended S d)
    (hlater : ∀ c', r.Starts c' → c' ≤ c ∨ d < c') (hne : ∀ j, j < p.core.ns → 0 < (S.as j (r.srcSet c j)).length) (n : ℕ) :
    (r.flat d).inputs S (r.nt c) n = r.inputs S c d n := by
  unfold SRun.Run.inputs inputs
  apply List.map_congr_left
  intro i _
  apply List.map_congr_left
  intro j hj
  have hj' := List.mem_range.1 hj
  have := hne j hj'
  rw [flat_srcSet g (smooth g d) hc hcd j, word_eq g hc hcd he hlater (prev_of g hc) hj' (by omega)]

end Run

/-- **C76, result of a job.** The data path computes `F` and `W`.  Between the start of a run and a cycle in which a `join` after it
    finds the stream not busy, a sink with no more addresses than accepted items writes `F` of the items, for the accepted
    items, to its addresses, in order, whatever the FIFOs do in the meantime. -/
theorem c76_result (g : r.Proper S) {F : ℕ → List (List V) → V} {W : ℕ → List (List V) → Bool} (hp : r.Path F W) {k : ℕ}
    (hs : r.SinkOk S k) {c d : ℕ} (hc : r.Starts c) (hd : c + 2 ≤ d) (hb : (r.st d).core.busy = false)
    (hlater : ∀ c', r.Starts c' → c' ≤ c ∨ d < c') (hne : ∀ j, j < p.core.ns → 0 < (S.as j (r.srcSet c j)).length)
    (hfit : (S.sas k (r.snkSet c k)).length ≤
      ((List.range (r.items S c)).filter fun i => W k (r.inputs S c d (i + 1))).length) :
    r.outs k (c + 1) (d + 1) = (S.sas k (r.snkSet c k)).zip
      (((List.range (r.items S c)).filter fun i => W k (r.inputs S c d (i + 1))).map fun i => F k (r.inputs S c d (i + 1))) := by
  have hcd : c < d := by omega
  have he := Run.ended g hc hd hb hlater
  have hend := he c hc hcd
  obtain ⟨b1, b2, _⟩ := Run.not_busy hb
  have hr := Run.flat_ok g (Run.smooth g d)
  obtain ⟨hT, _⟩ := Run.started_of g (Run.smooth g d) hc hcd
  have hit := Run.flat_items g (Run.smooth g d) hc hcd
  have hsnk := (Run.flat_snkSet g hs hc hcd (by omega)).1
  have hin := Run.inputs_eq g hc hcd he hlater hne
  have hmap : ∀ T, (r.flat d).Started T → ∃ c', r.Starts c' ∧ c' < d ∧ r.nt c' = T := fun T h => by
    obtain ⟨h3, h4⟩ := (Run.flat_started g (Run.smooth g d) T).1 h
    obtain ⟨_, h5, h6⟩ := r.cy_lt h3
    exact ⟨_, h4, h5, h6⟩
  have hlt : ∀ c', r.Starts c' → r.nt c' < r.nt c → c' < c := fun c' _ h => by
    rcases Nat.lt_or_ge c' c with h1 | h1
    · exact h1
    · have := r.nt_mono h1; omega
  rw [Run.outs_eq g hc hcd (Run.go_idle g b1 b2), SRun.Run.job_of hr (Run.flat_sok g hs he) hT (by rw [hit]; exact hend)
    (fun T' h1 h2 => by
      obtain ⟨c', h3, h4, rfl⟩ := hmap T' h1
      rw [Run.flat_items g (Run.smooth g d) h3 h4]
      exact Run.prev_of g hc c' h3 (hlt c' h3 h2))
    (fun T' h1 => by
      obtain ⟨c', h3, h4, rfl⟩ := hmap T' h1
      rcases hlater c' h3 with h5 | h5
      · exact Or.inl (r.nt_mono h5)
      · omega),
    SRun.Run.result_of hr (F := F) (W := W) (fun i hi => Run.path_at g hp (by rw [hit] at hi; omega)) hT
      (fun j hj => by rw [Run.flat_srcSet g (Run.smooth g d) hc hcd j]; exact hne j hj)
      (by simp only [hsnk, hit, hin]; exact hfit)]
  simp only [hsnk, hit, hin]

/-- **C76, nothing is dropped.** A FIFO sink with no more words than accepted items puts all of them into its FIFO. -/
theorem c76_sink (g : r.Proper S) {F : ℕ → List (List V) → V} {W : ℕ → List (List V) → Bool} (hp : r.Path F W) {k aw : ℕ}
    (hk : k < p.nk) (hf : p.snkF k = some aw) (hs : r.SinkOk S k) {c d : ℕ} (hc : r.Starts c) (hd : c + 2 ≤ d)
    (hb : (r.st d).core.busy = false) (hlater : ∀ c', r.Starts c' → c' ≤ c ∨ d < c')
    (hne : ∀ j, j < p.core.ns → 0 < (S.as j (r.srcSet c j)).length)
    (hfit : (S.sas k (r.snkSet c k)).length ≤
      ((List.range (r.items S c)).filter fun i => W k (r.inputs S c d (i + 1))).length) :
    r.pushed aw k (c + 1) (d + 1) =
      (((List.range (r.items S c)).filter fun i => W k (r.inputs S c d (i + 1))).map fun i => F k (r.inputs S c d (i + 1))).take
        (S.sas k (r.snkSet c k)).length := by
  have hcd : c < d := by omega
  have he := Run.ended g hc hd hb hlater
  have hend := he c hc hcd
  have hr := Run.flat_ok g (Run.smooth g d)
  have hso := Run.flat_sok g hs he
  obtain ⟨hT, _⟩ := Run.started_of g (Run.smooth g d) hc hcd
  have hit := Run.flat_items g (Run.smooth g d) hc hcd
  have hsnk := (Run.flat_snkSet g hs hc hcd (by omega)).1
  have hin := Run.inputs_eq g hc hcd he hlater hne
  have hkey : ∀ t, c + 1 ≤ t → t < d + 1 → r.push aw k t = (r.out k t).map Prod.snd := by
    intro t h1 h2
    unfold Run.push Run.out St.snkIn
    show (if ((r.go t && _) && _) && _ then _ else _) = _
    cases hg : r.go t with
    | false => simp
    | true =>
      cases hw : (p.core.sgen k).write ((r.st t).core.snk k) with
      | none => simp
      | some x =>
        have hR := Run.rel_at g (show t ≤ d by omega) hg
        have hw' : (p.core.sgen k).write (((r.flat d).st (r.nt t)).snk k) = some x := by rw [← hR.snk]; exact hw
        obtain ⟨T, hT', i, h3, h4⟩ := (SRun.c62_writes hr hso).2 (r.nt t) (by rw [hw']; simp)
        obtain ⟨h5, h6⟩ := (Run.flat_started g (Run.smooth g d) T).1 hT'
        obtain ⟨_, h7, h8⟩ := r.cy_lt h5
        have hTc : T = r.nt c := by
          rcases hlater _ h6 with h9 | h9
          · rcases Nat.lt_or_ge (r.cy d T) c with h10 | h10
            · have a1 := Run.prev_of g hc _ h6 h10
              have a2 := Run.flat_items g (Run.smooth g d) h6 h7
              have a3 := r.nt_lt (Run.starts_go g c hc).1 (show c < t by omega)
              rw [h8] at a1 a2
              omega
            · have : r.cy d T = c := by omega
              rw [← h8, this]
          · omega
        subst hTc
        have hlt : i < r.items S c := by
          rcases Nat.lt_or_ge i (r.items S c) with h9 | h9
          · exact h9
          · exfalso
            have hi : i = r.items S c := by omega
            have hval := (SRun.c62_writes hr hso).1 (r.nt c) hT i h3
            rw [← h4, hw'] at hval
            have hpath := SRun.Run.path_of hr (F := F) (W := W) (k := k) (T := r.nt c)
              (fun i hi => Run.path_at g hp (by rw [hit] at hi; omega)) hT
              (fun j hj => by rw [Run.flat_srcSet g (Run.smooth g d) hc hcd j]; exact hne j hj)
            have hacc : SRun.accepted (fun i => ((r.flat d).inp (r.nt c + 5 + p.core.depth + i)).whn k) i =
                ((List.range (r.items S c)).filter fun i => W k (r.inputs S c d (i + 1))).length := by
              unfold SRun.accepted
              rw [hi]
              congr 1
              apply List.filter_congr
              intro x hx
              rw [(hpath x (by rw [hit]; exact List.mem_range.1 hx)).2, hin]
            rw [hacc, hsnk, List.getElem?_eq_none hfit] at hval
            simp at hval
        have hbusy : (r.st t).core.sinkBusy = true := by
          have e : (r.st t).core.sinkBusy = ((r.flat d).st (r.nt t)).sinkBusy := by
            unfold SRun.St.sinkBusy; rw [hR.busyL]
          rw [e]
          exact (SRun.Run.sink_busy_iff hr _).2 ⟨r.nt c, hT, by omega, by unfold SRun.Run.last; omega⟩
        have hgo : (r.st t).oready (r.inp t) = true := hg
        unfold St.oready at hgo
        rw [Bool.and_eq_true, Bool.and_eq_true, List.all_eq_true, List.all_eq_true] at hgo
        have := hgo.1.2 k (List.mem_range.2 hk)
        unfold St.snkReady at this
        rw [hf] at this
        have haf : (Fifo.flags aw ((r.st t).sf k)).almostFull = false := by simpa [hbusy] using this
        have hnf : Fifo.isFull aw ((r.st t).sf k) = false := by
          unfold Fifo.flags at haf
          simp only [Bool.or_eq_false_iff] at haf
          exact haf.2
        simp [hf, haf, hnf]
  have e : r.pushed aw k (c + 1) (d + 1) = (r.outs k (c + 1) (d + 1)).map Prod.snd := by
    unfold Run.pushed Run.outs
    rw [List.map_filterMap]
    apply List.filterMap_congr
    intro i hi
    exact hkey _ (by omega) (by have := List.mem_range.1 hi; omega)
  rw [e, c76_result g hp hs hc hd hb hlater hne hfit, map_snd_zip]

/-! ## Stalls -/

/-- **C76, a stall.** In a stalled cycle no word leaves a FIFO of a source, no sink writes, and the generators, the items and the
    valid flag stay what they are. -/
theorem c76_stall {c : ℕ} (h : r.go c = false) : (∀ j, r.pop j c = none) ∧ (∀ k, r.out k c = none) ∧
    (∀ aw k, r.push aw k c = none) ∧ (r.st (c + 1)).core.src = (r.st c).core.src ∧
    (r.st (c + 1)).core.snk = (r.st c).core.snk ∧ (r.st (c + 1)).core.wdata = (r.st c).core.wdata ∧
    (r.st (c + 1)).core.ivalid = (r.st c).core.ivalid ∧ (r.st (c + 1)).core.rr = (r.st c).core.rr := by
  have h' : (r.st c).oready (r.inp c) = false := h
  refine ⟨fun j => by simp [Run.pop, St.srcIn, h'], fun k => by simp [Run.out, h], fun aw k => by simp [Run.push, St.snkIn, h'],
    ?_⟩
  rw [r.core_stall h]
  exact ⟨rfl, rfl, rfl, rfl, rfl⟩

/-- **C76, who stalls.** Only FIFOs stall the stream: an empty one of a source that still has to read, while the sources are busy,
    or an almost full one while the sinks are busy. -/
theorem c76_reason (hext : ∀ c, (r.inp c).ext = true) (c : ℕ) : r.go c = false ↔
    (∃ j, j < p.core.ns ∧ p.srcF j ≠ none ∧ (r.st c).core.sbusy = true ∧
      (p.core.gen j).idle ((r.st c).core.src j) = false ∧ Fifo.isEmpty ((r.st c).ff j) = true) ∨
    ∃ k aw, k < p.nk ∧ p.snkF k = some aw ∧ (r.st c).core.sinkBusy = true ∧
      (Fifo.flags aw ((r.st c).sf k)).almostFull = true := by
  unfold Run.go St.oready
  rw [hext, Bool.and_true, Bool.and_eq_false_iff, List.all_eq_false, List.all_eq_false]
  refine or_congr ?_ ?_
  · constructor
    · rintro ⟨j, hj, h⟩
      refine ⟨j, List.mem_range.1 hj, ?_⟩
      unfold St.srcReady at h
      cases hf : p.srcF j with
      | none => rw [hf] at h; exact absurd rfl h
      | some x =>
        rw [hf] at h
        simp at h
        exact ⟨by simp, h.1, h.2.2, h.2.1⟩
    · rintro ⟨j, hj, hf, h1, h2, h3⟩
      refine ⟨j, List.mem_range.2 hj, ?_⟩
      unfold St.srcReady
      cases hf' : p.srcF j with
      | none => exact absurd hf' hf
      | some x => simp [h1, h2, h3]
  · constructor
    · rintro ⟨k, hk, h⟩
      unfold St.snkReady at h
      cases hf : p.snkF k with
      | none => rw [hf] at h; exact absurd rfl h
      | some aw =>
        rw [hf] at h
        simp at h
        exact ⟨k, aw, List.mem_range.1 hk, hf, h.1, h.2⟩
    · rintro ⟨k, aw, hk, hf, h1, h2⟩
      refine ⟨k, List.mem_range.2 hk, ?_⟩
      unfold St.snkReady
      simp [hf, h1, h2]

namespace Run

theorem filled {j aw : ℕ} {b : Bool} (hj : p.srcF j = some (aw, b)) {t : ℕ} (hg : r.go t = false)
    (h : Fifo.isEmpty ((r.st t).ff j) = false) : Fifo.isEmpty ((r.st (t + 1)).ff j) = false := by
  obtain ⟨q, h1, h2⟩ := c76_order (r := r) hj t
  obtain ⟨q', h3, h4⟩ := c76_order (r := r) hj (t + 1)
  rw [Fifo.isEmpty_iff h2] at h
  rw [Fifo.isEmpty_iff h4]
  have e1 : r.given aw j 0 (t + 1) = r.given aw j 0 t ++ (r.put aw j t).toList := by
    unfold given
    simp only [Nat.sub_zero, Nat.zero_add, List.range_succ, List.filterMap_append, List.filterMap_cons, List.filterMap_nil]
    cases r.put aw j t <;> rfl
  have e2 : r.popped j 0 (t + 1) = r.popped j 0 t := by
    unfold popped
    simp only [Nat.sub_zero, Nat.zero_add, List.range_succ, List.filterMap_append, List.filterMap_cons, List.filterMap_nil,
      (c76_stall hg).1 j, List.append_nil]
  have := congrArg List.length h3
  rw [e1, e2, h1] at this
  simp only [List.length_append] at this
  simp only [decide_eq_false_iff_not] at h ⊢
  omega

theorem drained {k aw : ℕ} (hk : p.snkF k = some aw) {t : ℕ} (hg : r.go t = false)
    (h : (Fifo.flags aw ((r.st t).sf k)).almostFull = false) : (Fifo.flags aw ((r.st (t + 1)).sf k)).almostFull = false := by
  obtain ⟨q, h1, h2⟩ := c76_sink_order (r := r) hk t
  obtain ⟨q', h3, h4⟩ := c76_sink_order (r := r) hk (t + 1)
  rw [Fifo.flags_eq h2] at h
  rw [Fifo.flags_eq h4]
  have e1 : r.pushed aw k 0 (t + 1) = r.pushed aw k 0 t := by
    unfold pushed
    simp only [Nat.sub_zero, Nat.zero_add, List.range_succ, List.filterMap_append, List.filterMap_cons, List.filterMap_nil,
      (c76_stall hg).2.2.1 aw k, List.append_nil]
  have e2 : r.taken k 0 (t + 1) = r.taken k 0 t ++ (r.take k t).toList := by
    unfold taken
    simp only [Nat.sub_zero, Nat.zero_add, List.range_succ, List.filterMap_append, List.filterMap_cons, List.filterMap_nil]
    cases r.take k t <;> rfl
  have := congrArg List.length h3
  rw [e1, e2, h1] at this
  simp only [List.length_append] at this
  simp only [Fifo.specFlags, decide_eq_false_iff_not] at h ⊢
  omega

/-- A FIFO that stalls the stream is served in the end: a word is put into that of a source, that of a sink gets less than almost
    full. -/
def Served (r : Run p) : Prop := ∀ c, r.go c = false →
  (∀ j, j < p.core.ns → (r.st c).srcReady j = false → ∃ t, c ≤ t ∧ Fifo.isEmpty ((r.st t).ff j) = false) ∧
  ∀ k aw, k < p.nk → p.snkF k = some aw → (r.st c).snkReady k = false →
    ∃ t, c ≤ t ∧ (Fifo.flags aw ((r.st t).sf k)).almostFull = false

theorem bound (P : ℕ → ℕ → Prop) (c n : ℕ) (h : ∀ j, j < n → ∃ t, c ≤ t ∧ ∀ t', t ≤ t' → P j t') :
    ∃ t, c ≤ t ∧ ∀ j, j < n → ∀ t', t ≤ t' → P j t' := by
  induction n with
  | zero => exact ⟨c, Nat.le_refl _, fun j hj => by omega⟩
  | succ n ih =>
    obtain ⟨t, h1, h2⟩ := ih fun j hj => h j (by omega)
    obtain ⟨s, h3, h4⟩ := h n (by omega)
    refine ⟨max t s, by omega, fun j hj t' ht => ?_⟩
    rcases Nat.lt_or_ge j n with h5 | h5
    · exact h2 j h5 t' (by omega)
    · have : j = n := by omega
      subst this
      exact h4 t' (by omega)

end Run

/-- **C76, progress.** If the FIFOs that stall the stream are served, every stall ends. -/
theorem c76_progress (hs : Sync p) (hext : ∀ c, (r.inp c).ext = true) (hv : r.Served) (c : ℕ) : ∃ t, c ≤ t ∧ r.go t = true := by
  by_contra hno
  have hst : ∀ t, c ≤ t → r.go t = false := fun t ht => by
    cases h : r.go t with
    | false => rfl
    | true => exact absurd ⟨t, ht, h⟩ hno
  have hheld : ∀ t, c ≤ t → Held (r.st c) (r.st t) := fun t ht => r.held hs ht fun t' h1 _ => hst t' h1
  obtain ⟨v1, v2⟩ := hv c (hst c (Nat.le_refl _))
  obtain ⟨t1, a1, a2⟩ := Run.bound (fun j t => (r.st t).srcReady j = true) c p.core.ns (by
    intro j hj
    cases hf : p.srcF j with
    | none => exact ⟨c, Nat.le_refl _, fun t _ => by simp [St.srcReady, hf]⟩
    | some x =>
      obtain ⟨aw, b⟩ := x
      cases hr : (r.st c).srcReady j with
      | false =>
        obtain ⟨t, h1, h2⟩ := v1 j hj hr
        refine ⟨t, h1, fun t' ht => ?_⟩
        have : Fifo.isEmpty ((r.st t').ff j) = false := by
          induction t', ht using Nat.le_induction with
          | base => exact h2
          | succ t' ht ih => exact Run.filled hf (hst t' (by omega)) ih
        simp [St.srcReady, hf, this]
      | true =>
        refine ⟨c, Nat.le_refl _, fun t' ht => ?_⟩
        have hh := hheld t' ht
        unfold St.srcReady at hr ⊢
        simp only [hf] at hr ⊢
        rw [hh.sbusy, hh.src]
        cases he : Fifo.isEmpty ((r.st c).ff j) with
        | true => rw [he] at hr; simp at hr ⊢; rcases hr with h | h <;> simp [h]
        | false =>
          have : Fifo.isEmpty ((r.st t').ff j) = false := by
            induction t', ht using Nat.le_induction with
            | base => exact he
            | succ t' ht ih => exact Run.filled hf (hst t' (by omega)) (ih (hheld t' ht))
          simp [this])
  obtain ⟨t2, b1, b2⟩ := Run.bound (fun k t => (r.st t).snkReady k = true) c p.nk (by
    intro k hk
    cases hf : p.snkF k with
    | none => exact ⟨c, Nat.le_refl _, fun t _ => by simp [St.snkReady, hf]⟩
    | some aw =>
      have hsb : ∀ t, c ≤ t → (r.st t).core.sinkBusy = (r.st c).core.sinkBusy := fun t ht => by
        unfold SRun.St.sinkBusy; rw [(hheld t ht).busyL]
      cases hr : (r.st c).snkReady k with
      | false =>
        obtain ⟨t, h1, h2⟩ := v2 k aw hk hf hr
        refine ⟨t, h1, fun t' ht => ?_⟩
        have : (Fifo.flags aw ((r.st t').sf k)).almostFull = false := by
          induction t', ht using Nat.le_induction with
          | base => exact h2
          | succ t' ht ih => exact Run.drained hf (hst t' (by omega)) ih
        simp [St.snkReady, hf, this]
      | true =>
        refine ⟨c, Nat.le_refl _, fun t' ht => ?_⟩
        unfold St.snkReady at hr ⊢
        simp only [hf] at hr ⊢
        rw [hsb t' ht]
        cases he : (Fifo.flags aw ((r.st c).sf k)).almostFull with
        | true => rw [he] at hr; simp at hr ⊢; simp [hr]
        | false =>
          have : (Fifo.flags aw ((r.st t').sf k)).almostFull = false := by
            induction t', ht using Nat.le_induction with
            | base => exact he
            | succ t' ht ih => exact Run.drained hf (hst t' (by omega)) ih
          simp [this])
  have hg := hst (max t1 t2) (by omega)
  have : r.go (max t1 t2) = true := by
    unfold Run.go St.oready
    rw [hext, Bool.and_true, Bool.and_eq_true, List.all_eq_true, List.all_eq_true]
    exact ⟨fun j hj => a2 j (List.mem_range.1 hj) _ (by omega), fun k hk => b2 k (List.mem_range.1 hk) _ (by omega)⟩
  rw [hg] at this; cases this

/-- **C76, join returns.** If the FIFOs that stall the stream are served and no later run is started, a `join` after `run` finds the
    stream not busy. -/
theorem c76_done (g : r.Proper S) (hv : r.Served) {c : ℕ} (hc : r.Starts c) (hno : ∀ c', r.Starts c' → c' ≤ c) :
    ∃ d, c + 2 ≤ d ∧ (r.st d).core.busy = false := by
  have hall : ∀ n, ∃ C, r.nt C = n := by
    intro n
    induction n with
    | zero => exact ⟨0, rfl⟩
    | succ n ih =>
      obtain ⟨C, hC⟩ := ih
      obtain ⟨t, ht, hg⟩ := c76_progress g.sync g.ext hv C
      have hex : ∃ t, C ≤ t ∧ r.go t = true := ⟨t, ht, hg⟩
      obtain ⟨h1, h2⟩ := Nat.find_spec hex
      have hmin : ∀ t, C ≤ t → t < Nat.find hex → r.go t = false := fun t a b => by
        cases h : r.go t with
        | false => rfl
        | true => exact absurd ⟨a, h⟩ (Nat.find_min hex b)
      have hn : ∀ t, C ≤ t → t ≤ Nat.find hex → r.nt t = n := by
        intro t ht
        induction t, ht using Nat.le_induction with
        | base => intro _; exact hC
        | succ t ht ih =>
          intro h
          rw [Run.nt_succ, hmin t ht (by omega)]
          exact ih (by omega)
      exact ⟨Nat.find hex + 1, by rw [Run.nt_succ, h2, hn _ h1 (Nat.le_refl _)]; rfl⟩
  obtain ⟨C, hC⟩ := hall (r.nt c + 7 + p.core.depth + r.items S c)
  have hcC : c < C := by
    rcases Nat.lt_or_ge c C with h | h
    · exact h
    · have := r.nt_mono h; omega
  have hstep : r.nt (c + 1) ≤ r.nt c + 1 := by rw [Run.nt_succ]; split <;> omega
  have hC2 : c + 2 ≤ C := by
    rcases Nat.lt_or_ge (c + 1) C with h | h
    · exact h
    · have := r.nt_mono h; omega
  refine ⟨C, hC2, ?_⟩
  have hr := Run.flat_ok g (Run.smooth g C)
  obtain ⟨hT, _⟩ := Run.started_of g (Run.smooth g C) hc hcC
  have hit := Run.flat_items g (Run.smooth g C) hc hcC
  have hb := SRun.c62_done hr hT (fun T' h => Or.inl (by
    obtain ⟨h3, h4⟩ := (Run.flat_started g (Run.smooth g C) T').1 h
    obtain ⟨_, _, h6⟩ := r.cy_lt h3
    have := r.nt_mono (hno _ h4)
    omega))
  rw [hit, ← hC] at hb
  have hR := Run.rel g.calm g.sync C (r.nt C) (Nat.le_refl _)
  rw [r.cy_ge (Nat.le_refl _)] at hR
  obtain ⟨b1, b2, b3⟩ := Run.not_busy hb
  unfold SRun.St.busy
  have e : (r.st C).core.sinkBusy = ((r.flat C).st (r.nt C)).sinkBusy := by unfold SRun.St.sinkBusy; rw [hR.busyL]
  rw [hR.sbusy, e, b1, b2]
  rcases hR.breg with h | h
  · rw [h, b3]; rfl
  · rw [h]
    unfold nextReg
    rw [b1, b2, b3]
    simp

/-! ## Where the code does less -/

/-- **C76, small FIFOs.** A FIFO of address width 1 (capacity 1) is always almost full: a stream that writes one stalls for ever
    as soon as its sinks are busy. -/
theorem c76_not_small (hs : Sync p) {k aw : ℕ} (hk : k < p.nk) (hf : p.snkF k = some aw) (ha : aw ≤ 1) {c : ℕ}
    (hb : (r.st c).core.sinkBusy = true) : ∀ t, c ≤ t → r.go t = false := by
  have key : ∀ t, (r.st t).core.sinkBusy = true → r.go t = false := by
    intro t h
    obtain ⟨q, _, hq⟩ := c76_sink_order (r := r) hf t
    have haf : (Fifo.flags aw ((r.st t).sf k)).almostFull = true := by
      rw [Fifo.flags_eq hq]
      have : 2 ^ aw ≤ 2 ^ 1 := Nat.pow_le_pow_right (by omega) ha
      simp only [Fifo.specFlags, decide_eq_true_eq]
      omega
    unfold Run.go St.oready
    rw [Bool.and_eq_false_iff, Bool.and_eq_false_iff, List.all_eq_false, List.all_eq_false]
    left; right
    exact ⟨k, List.mem_range.2 hk, by simp [St.snkReady, hf, h, haf]⟩
  have hall : ∀ t, c ≤ t → (r.st t).core.sinkBusy = true := by
    intro t ht
    induction t, ht using Nat.le_induction with
    | base => exact hb
    | succ t ht ih =>
      have := r.held hs (a := t) (b := t + 1) (by omega) (fun c' h1 h2 => by
        have : c' = t := by omega
        subst this; exact key c' ih)
      unfold SRun.St.sinkBusy at ih ⊢
      rw [this.busyL]; exact ih
  exact fun t ht => key t (hall t ht)

/-- **C76, asynchronous FIFOs.** The item of a source is taken from the output of the FIFO in the cycle after the word was handed out.
    The output of a FIFO with `sync=False` is then already the next word `v`: the word handed out is skipped. -/
theorem c76_not_async {j aw : ℕ} (hf : p.srcF j = some (aw, false)) {t : ℕ} (hg : r.go t = true)
    (hb : (r.st t).core.sbusy = true) {v : V} {q : List V} (hq : r.given aw j 0 t = r.popped j 0 t ++ v :: q) :
    (r.st (t + 1)).core.wdata j = v := by
  obtain ⟨q', h1, h2⟩ := c76_order (r := r) hf t
  rw [hq] at h1
  have e := List.append_cancel_left h1
  subst e
  rw [r.core_go hg]
  show (if (r.st t).core.sbusy then (r.st t).rdata j else _) = v
  rw [hb, if_pos rfl]
  unfold St.rdata
  simp only [hf]
  have := h2.mem_eq 0 (by simp)
  have ht := h2.tail_lt
  simpa [Fifo.asyncRdata, Nat.mod_eq_of_lt ht] using this

/-! ## Examples -/

/-- A run from its inputs, which may depend on the state and on further registers (the data path). -/
def Run.mk' (p : FPar V) {X : Type} (x0 : X) (inp : ℕ → St p → X → In p) (nx : St p → In p → X → X) : Run p where
  inp := fun t => inp t (Nat.rec (motive := fun _ => St p × X) (St.init p, x0)
    (fun t s => (s.1.step (inp t s.1 s.2), nx s.1 (inp t s.1 s.2) s.2)) t).1 (Nat.rec (motive := fun _ => St p × X) (St.init p, x0)
    (fun t s => (s.1.step (inp t s.1 s.2), nx s.1 (inp t s.1 s.2) s.2)) t).2
  st := fun t => (Nat.rec (motive := fun _ => St p × X) (St.init p, x0)
    (fun t s => (s.1.step (inp t s.1 s.2), nx s.1 (inp t s.1 s.2) s.2)) t).1
  start := rfl
  step := fun _ => rfl

namespace Ex

/-- One source that reads `n` words from a FIFO, and one sink that writes `m` words to a FIFO. -/
def par (sync : Bool) (aw n m : ℕ) : FPar ℕ := lib 1 1 1 3 1 (fun _ => .fifo) (fun _ => .fifo) (fun _ => some (2, sync))
  (fun _ => some aw) 0 (fun _ => n) (fun _ => m)

def spec (sync : Bool) (aw n m : ℕ) : SRun.Spec (par sync aw n m).core := libSpec 1 1 1 3 1 (fun _ => .fifo) (fun _ => .fifo)
  (fun _ => some (2, sync)) (fun _ => some aw) 0 _ _

/-- `run` in cycle 1; the words `e` are put into the FIFO of the source, that of the sink is read when `dq` says so; the sink is
    set when `ss` says so; the data path adds 1. -/
def prog (sync : Bool) (aw n m : ℕ) (e : ℕ → Option ℕ) (dq : ℕ → Bool) (ss : ℕ → Option ℕ) : Run (par sync aw n m) :=
  Run.mk' _ 0 (fun t _ x => ⟨⟨t == 1, fun _ => none, fun _ => ss t, fun _ _ => 0, fun _ => x, fun _ => true⟩, true, fun _ => e t,
    fun _ => dq t⟩) (fun s i x => if s.oready i then s.core.wdata 0 + 1 else x)

variable {aw n m : ℕ} {e : ℕ → Option ℕ} {dq : ℕ → Bool} {ss : ℕ → Option ℕ} {sync : Bool}

theorem srcSet (c j : ℕ) : (prog sync aw n m e dq ss).srcSet c j = n := by
  unfold Run.srcSet
  generalize c + 1 = u
  induction u with
  | zero => rfl
  | succ u ih => exact ih

theorem snkSet (c j : ℕ) : (prog sync aw n m e dq fun _ => none).snkSet c j = m := by
  unfold Run.snkSet
  generalize c + 1 = u
  induction u with
  | zero => rfl
  | succ u ih =>
    rw [SRun.setting, ih]
    cases (prog sync aw n m e dq fun _ => none).go u <;> rfl

theorem starts {c : ℕ} (h : (prog sync aw n m e dq ss).Starts c) : c = 1 := by
  have := h.2
  have h' : (c == 1) = true := this
  simpa using h'

theorem len (c : ℕ) : ((spec sync aw n m).as 0 ((prog sync aw n m e dq ss).srcSet c 0)).length = n := by
  rw [srcSet]
  exact List.length_replicate

theorem items (c : ℕ) : (prog sync aw n m e dq ss).items (spec sync aw n m) c = n := by
  unfold Run.items
  show max ((spec sync aw n m).as 0 ((prog sync aw n m e dq ss).srcSet c 0)).length 0 = n
  rw [len]; simp

theorem proper (hn : 1 ≤ n ∧ n < 16) (h0 : ss 0 = none) : (prog true aw n m e dq ss).Proper (spec true aw n m) where
  sync := fun j a b h => by
    have h' : some (2, true) = some (a, b) := h
    simp at h'
    exact h'.2
  ext := fun _ => rfl
  first := fun _ => h0
  ok := fun c _ j _ => by rw [srcSet]; exact hn
  joined := fun c c' h h' hlt => by
    have := starts h
    have := starts h'
    omega

theorem sinkOk (hm : 1 ≤ m ∧ m < 16) (k : ℕ) : (prog true aw n m e dq fun _ => none).SinkOk (spec true aw n m) k where
  ok := fun c _ => by rw [snkSet]; exact hm
  once := fun _ _ _ _ _ => rfl
  twice := fun _ _ _ _ _ _ => rfl

/-- The data path of `prog`: the only source of the last item, plus 1. -/
theorem path : (prog sync aw n m e dq ss).Path (fun _ l => ((l.getLast?.bind List.head?).getD 0) + 1) (fun _ _ => true) := by
  intro k t i u ht hu hn _ _ _
  refine ⟨?_, rfl⟩
  obtain ⟨hg, hti⟩ := ht i (Nat.le_refl _)
  have hn' : (prog sync aw n m e dq ss).nt u = (prog sync aw n m e dq ss).nt (t i) + 1 := by rw [hn, hti]; rfl
  have hlt : t i < u := by
    rcases Nat.lt_or_ge (t i) u with h | h
    · exact h
    · have := (prog sync aw n m e dq ss).nt_mono h; omega
  have key : ∀ u, t i < u → (prog sync aw n m e dq ss).nt u = (prog sync aw n m e dq ss).nt (t i) + 1 →
      ((prog sync aw n m e dq ss).inp u).base.dat k = ((prog sync aw n m e dq ss).st (t i)).core.wdata 0 + 1 := by
    intro u
    induction u with
    | zero => intro h; omega
    | succ u ih =>
      intro h1 h2
      have hstep : ((prog sync aw n m e dq ss).inp (u + 1)).base.dat k = if (prog sync aw n m e dq ss).go u then
          ((prog sync aw n m e dq ss).st u).core.wdata 0 + 1 else ((prog sync aw n m e dq ss).inp u).base.dat k := rfl
      rw [hstep]
      rcases Nat.lt_or_ge (t i) u with h3 | h3
      · have h4 := (prog sync aw n m e dq ss).nt_lt hg h3
        rw [Run.nt_succ] at h2
        cases hgu : (prog sync aw n m e dq ss).go u with
        | true => rw [hgu, if_pos rfl] at h2; omega
        | false => rw [hgu] at h2; exact ih h3 h2
      · have : u = t i := by omega
        subst this
        rw [hg]; rfl
  rw [key u hlt hn', List.range_succ, List.map_append]
  have hr1 : List.range (par sync aw n m).core.ns = [0] := rfl
  simp only [hr1, List.map_cons, List.map_nil, List.getLast?_append, List.getLast?_singleton, Option.some_or, Option.bind_some,
    List.head?_cons, Option.getD_some]

/-- Words 10, 20, 30 in the cycles 0, 7 and 12. -/
def late3 (t : ℕ) : Option ℕ := if t = 0 then some 10 else if t = 7 then some 20 else if t = 12 then some 30 else none

/-- A job of 3 words with stalls for want of words (cycles 5 to 7 and 9 to 12) and because the FIFO of the sink is almost full (17
    and 18). -/
abbrev job : Run (par true 2 3 3) := prog true 2 3 3 late3 (fun t => decide (18 ≤ t)) fun _ => none

theorem job_stalls : (List.range 22).filter (fun t => !job.go t) = [5, 6, 7, 9, 10, 11, 12, 17, 18] := by decide +kernel

theorem job_busy : (job.st 21).core.busy = false := by decide +kernel

theorem job_starts : job.Starts 1 := ⟨Or.inl (by decide +kernel), rfl⟩

theorem job_popped : job.popped 0 1 21 = [10, 20, 30] := by decide +kernel

theorem job_pushed : job.pushed 2 0 (1 + 1) (21 + 1) = [11, 21, 31] := by decide +kernel

/-- The hypotheses of `c76_sink` (and with them those of `c76_result`, `c76_join`, `c76_start`, `c76_source`) are met by `job`, and its
    conclusion is what the evaluation gives. -/
theorem job_sink : ([11, 21, 31] : List ℕ) =
    (((List.range 3).filter fun _ => true).map fun i => ((job.inputs (spec true 2 3 3) 1 21 (i + 1)).getLast?.bind
      List.head?).getD 0 + 1).take 3 := by
  have := c76_sink (proper (by decide) rfl) path (k := 0) (aw := 2) (by decide) rfl (sinkOk (by decide) 0) job_starts (by decide)
    job_busy (fun c' h => Or.inl (by rw [starts h])) (fun j hj => by
      have hj' : j < 1 := hj
      have : j = 0 := by omega
      subst this
      rw [len]; omega) (by rw [items, snkSet]; decide)
  rw [job_pushed, items, snkSet] at this
  exact this

example : job.nt 1 + 6 + 1 + 3 ≤ job.nt 21 := by
  have := c76_join (S := spec true 2 3 3) (proper (by decide) rfl) job_starts (by decide) job_busy
  rwa [items] at this

/-- Two words, one of which is stored and the other handed out. -/
example : job.given 2 0 0 8 = [10, 20] ∧ job.popped 0 0 8 = [10] := by decide +kernel

/-- Words that are taken out of the FIFO of the sink. -/
example : job.pushed 2 0 0 19 = [11, 21] ∧ job.taken 0 0 19 = [11] := by decide +kernel

/-- A stall for want of a word, and one because of an almost full FIFO. -/
example : job.go 5 = false ∧ Fifo.isEmpty ((job.st 5).ff 0) = true ∧ job.go 17 = false ∧
    (Fifo.flags 2 ((job.st 17).sf 0)).almostFull = true := by decide +kernel

/-- A stream whose FIFOs are always served. -/
abbrev fair : Run (par true 2 3 3) := prog true 2 3 3 (fun t => some t) (fun _ => true) fun _ => none

theorem fair_served : fair.Served := by
  have hlow : ∀ t, ∃ q, q.length ≤ 1 ∧ Fifo.Rep 2 ((fair.st t).sf 0) q := by
    intro t
    induction t with
    | zero => exact ⟨[], by simp, by rw [fair.start]; exact Fifo.rep_init _ _ _⟩
    | succ t ih =>
      obtain ⟨q, h1, h2⟩ := ih
      obtain ⟨q', h3, h4⟩ := Fifo.rep_step h2 ((fair.st t).snkIn (fair.inp t) 0)
      have est : (fair.st (t + 1)).sf 0 = Fifo.step 2 ((fair.st t).sf 0) ((fair.st t).snkIn (fair.inp t) 0) := rfl
      refine ⟨q', ?_, by rw [est]; exact h3⟩
      have hd : ((fair.st t).snkIn (fair.inp t) 0).deq = true := rfl
      have he : (Fifo.flags 2 ((fair.st t).sf 0)).empty = decide (q.length = 0) := by rw [Fifo.flags_eq h2]; rfl
      have := congrArg List.length h4
      rw [hd, he] at this
      by_cases h0 : q.length = 0
      · have hq := List.length_eq_zero_iff.1 h0
        subst hq
        simp at this
        split at this <;> simp at this <;> omega
      · simp [h0] at this
        split at this <;> simp at this <;> omega
  intro c hg
  constructor
  · intro j hj hr
    have hj' : j = 0 := by
      have : j < 1 := hj
      omega
    subst hj'
    refine ⟨c + 1, by omega, ?_⟩
    have hf : (par true 2 3 3).srcF 0 = some (2, true) := rfl
    obtain ⟨q, h1, h2⟩ := c76_order (r := fair) hf c
    obtain ⟨q', h3, h4⟩ := c76_order (r := fair) hf (c + 1)
    have hE : Fifo.isEmpty ((fair.st c).ff 0) = true := by
      have hr' : (!(fair.st c).core.sbusy || (!Fifo.isEmpty ((fair.st c).ff 0) ||
        ((par true 2 3 3).core.gen 0).idle ((fair.st c).core.src 0))) = false := hr
      simp only [Bool.or_eq_false_iff] at hr'
      simpa using hr'.2.1
    have hq : q.length = 0 := by rw [Fifo.isEmpty_iff h2] at hE; simpa using hE
    have hfull : Fifo.isFull 2 ((fair.st c).ff 0) = false := by rw [Fifo.isFull_iff h2, hq]; rfl
    have e1 : fair.given 2 0 0 (c + 1) = fair.given 2 0 0 c ++ [c] := by
      unfold Run.given
      have : fair.put 2 0 c = some c := by
        unfold Run.put
        rw [hfull]
        rfl
      simp only [Nat.sub_zero, Nat.zero_add, List.range_succ, List.filterMap_append, List.filterMap_cons, List.filterMap_nil, this]
    have e2 : fair.popped 0 0 (c + 1) = fair.popped 0 0 c := by
      unfold Run.popped
      simp only [Nat.sub_zero, Nat.zero_add, List.range_succ, List.filterMap_append, List.filterMap_cons, List.filterMap_nil,
        (c76_stall hg).1 0, List.append_nil]
    rw [Fifo.isEmpty_iff h4]
    have := congrArg List.length h3
    rw [e1, e2, h1] at this
    simp only [List.length_append, List.length_singleton] at this
    simp only [decide_eq_false_iff_not]
    omega
  · intro k aw hk hf _
    have hk' : k = 0 := by
      have : k < 1 := hk
      omega
    have ha : aw = 2 := by
      have : some 2 = some aw := hf
      simpa using this.symm
    subst hk' ha
    obtain ⟨q, h1, h2⟩ := hlow c
    refine ⟨c, Nat.le_refl _, ?_⟩
    rw [Fifo.flags_eq h2]
    simp only [Fifo.specFlags, decide_eq_false_iff_not]
    omega

/-- It comes to an end. -/
example : ∃ d, 1 + 2 ≤ d ∧ (fair.st d).core.busy = false :=
  c76_done (proper (by decide) rfl) fair_served ⟨Or.inl (by decide +kernel), rfl⟩ (fun c' h => by rw [starts h])

/-- Words 10, 20, 30 in the cycles 0, 1 and 2. -/
def all3 (t : ℕ) : Option ℕ := if t < 3 then some (10 * (t + 1)) else none

/-- The sinks of a stream with a FIFO of capacity 1 are busy in cycle 6. -/
example : ((prog true 1 2 2 all3 (fun _ => true) fun _ => none).st 6).core.sinkBusy = true := by decide +kernel

/-- The stream of `c76_not_async` reads 10 and 20, and works with 20 and 30. -/
theorem async : (prog false 2 2 2 all3 (fun _ => false) fun _ => none).popped 0 0 12 = [10, 20] ∧
    (prog false 2 2 2 all3 (fun _ => false) fun _ => none).pushed 2 0 0 12 = [21, 31] := by decide +kernel

example : (prog false 2 2 2 all3 (fun _ => false) fun _ => none).go 5 = true ∧
    ((prog false 2 2 2 all3 (fun _ => false) fun _ => none).st 5).core.sbusy = true ∧
    (prog false 2 2 2 all3 (fun _ => false) fun _ => none).given 2 0 0 5 =
      (prog false 2 2 2 all3 (fun _ => false) fun _ => none).popped 0 0 5 ++ [20, 30] := by decide +kernel

/-- Words 10, 20, 30 in the cycles 5, 6 and 13. -/
def slow3 (t : ℕ) : Option ℕ := if t = 5 then some 10 else if t = 6 then some 20 else if t = 13 then some 30 else none

end Ex

/-- **C76, setting a sink after `run`.** A job with sinks of 3 words, started in cycle 1; in the second unstalled cycle after the start
    (cycle 6) `set_sink_fifo` sets 1 word, for the next job.  The source stalls then and three cycles later, and so the running
    job uses the new setting: it writes 1 word instead of 3.  (`SinkOk` excludes this.) -/
theorem c76_not_late : ∃ r : Run (Ex.par true 3 3 3), r.Proper (Ex.spec true 3 3 3) ∧ r.Starts 1 ∧ r.snkSet 1 0 = (3 : ℕ) ∧
    r.nt 6 = r.nt 1 + 2 ∧ (r.inp 6).base.setSnk 0 = some (1 : ℕ) ∧ (∀ t, t ≠ 6 → (r.inp t).base.setSnk 0 = none) ∧
    r.popped 0 1 20 = [10, 20, 30] ∧ (r.st 20).core.busy = false ∧ r.pushed 3 0 2 21 = [11] := by
  refine ⟨Ex.prog true 3 3 3 Ex.slow3 (fun _ => false) (fun t => if t = 6 then some 1 else none), Ex.proper (by decide) rfl,
    ⟨Or.inl (by decide +kernel), rfl⟩, rfl, by decide +kernel, rfl, fun t ht => ?_, by decide +kernel, by decide +kernel,
    by decide +kernel⟩
  show (if t = 6 then some 1 else none) = none
  rw [if_neg ht]

/-- **C76, a sink that is longer than the run.** The sink of a job of 2 items is set to 3 words.  As in C62 it gives one more word, the
    last one again; but nothing waits for room for it in the FIFO, and if that is almost full the word is dropped. -/
theorem c76_not_flush : ∃ r : Run (Ex.par true 2 2 3), r.Proper (Ex.spec true 2 2 3) ∧ r.SinkOk (Ex.spec true 2 2 3) 0 ∧
    r.Starts 1 ∧ (r.st 11).core.busy = false ∧ r.outs 0 2 12 = [(0, 11), (0, 21), (0, 21)] ∧ r.pushed 2 0 2 12 = [11, 21] :=
  ⟨Ex.prog true 2 2 3 Ex.all3 (fun _ => false) fun _ => none, Ex.proper (by decide) rfl, Ex.sinkOk (by decide) 0,
    ⟨Or.inl (by decide +kernel), rfl⟩, by decide +kernel, by decide +kernel, by decide +kernel⟩

end SFifo
