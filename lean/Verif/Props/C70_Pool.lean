import Verif.Model.Pool
import Verif.Props.C61_ThreadRun

/-! # C70: thread pools -/

namespace Pool

open ThreadRun (Phase Child Code Stat Exec Calls settle upd)

variable {A S : Type}

/-! ## A pool with one parent behaves like its threads called directly -/

/-- The same calls without a pool: the two further states of `run` are statements of their own. -/
def direct : List (Call A) → List (ThreadRun.Call A)
  | [] => []
  | .work :: cs => .work :: direct cs
  | .run t a _ :: cs => .work :: .run t a :: .work :: direct cs
  | .join t :: cs => .join t :: direct cs
  | .reset t :: cs => .reset t :: direct cs

/-- The `tid`s are those of threads of the pool, and do not change during `run`. -/
def Ok (n : ℕ) : Call A → Prop
  | .work => True
  | .run t _ t' => t < n ∧ t' = t
  | .join t => t < n
  | .reset t => t < n

/-- Where the two machines are in their programs, and the register `start`. -/
inductive Rel (n : ℕ) : List (Micro A) → List (ThreadRun.Call A) → (ℕ → Bool) → Prop
  | at (cs : List (Call A)) : (∀ x ∈ cs, Ok n x) → Rel n (states cs) (direct cs) (fun _ => false)
  | fire (t : ℕ) (a : A) (cs : List (Call A)) : t < n → (∀ x ∈ cs, Ok n x) →
      Rel n (.fire a :: .clr t :: states cs) (.run t a :: .work :: direct cs) (fun k => decide (k = t))
  | clr (t : ℕ) (cs : List (Call A)) : t < n → (∀ x ∈ cs, Ok n x) →
      Rel n (.clr t :: states cs) (.work :: direct cs) (fun k => decide (k = t))

/-- The parent's other statements, and the states of `run`, which take one cycle. -/
def goOf (go : Bool) : Option (Micro A) → Bool
  | some (.set _) => true
  | some (.clr _) => true
  | _ => go

theorem split_states (cs : List (Call A)) : ∃ rs cs', cs = rs.map .reset ++ cs' ∧ (∀ t tl, cs' ≠ .reset t :: tl) ∧
    split (states cs) = (rs, states cs') ∧ ThreadRun.split (direct cs) = (rs, direct cs') := by
  induction cs with
  | nil => exact ⟨[], [], rfl, by simp, rfl, rfl⟩
  | cons x cs ih =>
    cases x with
    | reset t =>
      obtain ⟨rs, cs', h1, h2, h3, h4⟩ := ih
      refine ⟨t :: rs, cs', by simp [h1], h2, ?_, ?_⟩
      · show (t :: (split (states cs)).1, (split (states cs)).2) = _
        rw [h3]
      · show (t :: (ThreadRun.split (direct cs)).1, (ThreadRun.split (direct cs)).2) = _
        rw [h4]
    | work => exact ⟨[], .work :: cs, rfl, by simp, rfl, rfl⟩
    | run t a t' => exact ⟨[], .run t a t' :: cs, rfl, by simp, rfl, rfl⟩
    | join t => exact ⟨[], .join t :: cs, rfl, by simp, rfl, rfl⟩

theorem pick_id {n t : ℕ} (h : t < n) : pick n (fun k => k) t = some t := by
  unfold pick
  rw [List.find?_range_eq_some]
  refine ⟨by simp, by simpa using h, ?_⟩
  intro j hj
  simp; omega

theorem pick_none {n t : ℕ} (h : n ≤ t) : pick n (fun k => k) t = none := by
  unfold pick
  rw [List.find?_eq_none]
  intro k hk
  simp at hk ⊢; omega

/-- The argument with which a call starts thread `k`. -/
def startOf (k : ℕ) : Option (ThreadRun.Call A) → Option A
  | some (.run j a) => if j = k then some a else none
  | _ => none

theorem child_same (c : Code A S) (bit : Bool) (fs : List A) (rs : List ℕ) (act : Option (ThreadRun.Call A)) (k : ℕ)
    (x : Child S) (h : (if bit then fs.getLast? else none) = startOf k act) :
    stepChild c bit fs (rs.contains k) k x = ThreadRun.stepChild c act rs k x := by
  unfold stepChild ThreadRun.stepChild
  cases hx : x.phase with
  | busy => rfl
  | fin => simp
  | idle =>
    dsimp only
    rw [h]
    cases act with
    | none => rfl
    | some y =>
      cases y with
      | run j a => by_cases e : j = k <;> simp [startOf, e]
      | _ => rfl

theorem child_out (c : Code A S) (rs : List ℕ) (act : Option (ThreadRun.Call A)) (k : ℕ) (x : Child S)
    (hx : x.phase = .idle) (h : startOf k act = none) : ThreadRun.stepChild c act rs k x = x := by
  unfold ThreadRun.stepChild
  rw [hx]
  cases act with
  | none => rfl
  | some y =>
    cases y with
    | run j a => by_cases e : j = k <;> simp_all [startOf]
    | _ => rfl

/-- One step of both, when the parent is in a state that corresponds. -/
theorem both_step {c : Code A S} {n : ℕ} {go : ℕ → Bool} {r : List (Micro A)} {b : ℕ → Bool} {ch : ℕ → Child S}
    {r' : List (ThreadRun.Call A)} {rs : List ℕ} {q : List (Micro A)} {q' : List (ThreadRun.Call A)}
    (e : split r = (rs, q)) (e' : ThreadRun.split r' = (rs, q'))
    (hl : leaves n (fun k => k) (go 0) ch q.head? = ThreadRun.leaves (goOf (go 0) q.head?) ch q'.head?)
    (hst : ∀ k < n, (if b k then (fires q.head?.toList).getLast? else none) = startOf k q'.head?)
    (hout : ∀ k, n ≤ k → startOf k q'.head? = none)
    (hrel : Rel n r r' (nextBits n b q.head?.toList) ∨
      leaves n (fun k => k) (go 0) ch q.head? = true)
    (hrel' : leaves n (fun k => k) (go 0) ch q.head? = true → Rel n q.tail q'.tail (nextBits n b q.head?.toList))
    (hch : ∀ k, n ≤ k → (ch k).phase = .idle) :
    let s' := (⟨[r], b, ch⟩ : St A S).step c n (fun k => k) go
    let d' := (⟨r', ch⟩ : ThreadRun.St A S).step c (goOf (go 0) (split r).2.head?)
    ∃ q, s'.rest = [q] ∧ Rel n q d'.rest s'.bits ∧ s'.child = d'.child ∧ ∀ k, n ≤ k → (s'.child k).phase = .idle := by
  have ha : (⟨[r], b, ch⟩ : St A S).acts = q.head?.toList := by
    simp only [St.acts, List.filterMap_cons, List.filterMap_nil, e]
    cases q.head? <;> rfl
  have hr : (⟨[r], b, ch⟩ : St A S).resets = rs := by simp [St.resets, e]
  have hd : (⟨r', ch⟩ : ThreadRun.St A S).act = q'.head? := by simp [ThreadRun.St.act, e']
  have hcc : ((⟨[r], b, ch⟩ : St A S).step c n (fun k => k) go).child =
      ((⟨r', ch⟩ : ThreadRun.St A S).step c (goOf (go 0) (split r).2.head?)).child := by
    funext k
    simp only [St.step, ThreadRun.St.step, ha, hr, hd, e']
    split
    · rename_i hk
      exact child_same c _ _ _ _ _ _ (hst k hk)
    · rename_i hk
      exact (child_out c _ _ _ _ (hch k (by omega)) (hout k (by omega))).symm
  refine ⟨if leaves n (fun k => k) (go 0) ch q.head? then q.tail else r, ?_, ?_, hcc, ?_⟩
  · simp [St.step, e]
  · simp only [St.step, ThreadRun.St.step, ha, hd, e, e']
    rw [← hl]
    split
    · rename_i hlv
      exact hrel' hlv
    · rename_i hlv
      exact hrel.resolve_right hlv
  · intro k hk
    simp only [St.step, if_neg (show ¬ k < n by omega)]
    exact hch k hk

/-- One step of both. -/
theorem rel_step {c : Code A S} {n : ℕ} {go : ℕ → Bool} {r : List (Micro A)} {b : ℕ → Bool} {ch : ℕ → Child S}
    {r' : List (ThreadRun.Call A)} (h : Rel n r r' b) (hch : ∀ k, n ≤ k → (ch k).phase = .idle) :
    let s' := (⟨[r], b, ch⟩ : St A S).step c n (fun k => k) go
    let d' := (⟨r', ch⟩ : ThreadRun.St A S).step c (goOf (go 0) (split r).2.head?)
    ∃ q, s'.rest = [q] ∧ Rel n q d'.rest s'.bits ∧ s'.child = d'.child ∧ ∀ k, n ≤ k → (s'.child k).phase = .idle := by
  cases h with
  | «at» cs hok =>
    obtain ⟨rs, cs', h1, h2, h3, h4⟩ := split_states cs
    have hok' : ∀ x ∈ cs', Ok n x := fun x hx => hok x (by rw [h1]; simp [hx])
    cases cs' with
    | nil =>
      exact both_step h3 h4 rfl (fun k _ => rfl) (fun k _ => rfl) (Or.inl (.at cs hok)) (fun h => by (cases h)) hch
    | cons x cs' =>
      have hx := hok' x (by simp)
      have hok'' : ∀ y ∈ cs', Ok n y := fun y hy => hok' y (by simp [hy])
      cases x with
      | work =>
        exact both_step h3 h4 rfl (fun k _ => rfl) (fun k _ => rfl) (Or.inl (.at cs hok)) (fun _ => .at cs' hok'') hch
      | run t a t' =>
        obtain ⟨ht, rfl⟩ : t < n ∧ t' = t := hx
        refine both_step h3 h4 rfl (fun k _ => rfl) (fun k _ => rfl) (Or.inr rfl) (fun _ => ?_) hch
        have : nextBits n (fun _ => false) [(Micro.set t' : Micro A)] = fun k => decide (k = t') := by
          funext k
          simp only [nextBits, List.foldl_cons, List.foldl_nil]
          by_cases e : k = t'
          · subst e; simp [ht]
          · simp [e, Ne.symm e]
        show Rel n (.fire a :: .clr t' :: states cs') (.run t' a :: .work :: direct cs') (nextBits n (fun _ => false) [.set t'])
        rw [this]
        exact .fire t' a cs' ht hok''
      | join t =>
        have ht : t < n := hx
        refine both_step h3 h4 ?_ (fun k _ => rfl) (fun k _ => rfl) (Or.inl (.at cs hok)) (fun _ => .at cs' hok'') hch
        show leaves n (fun k => k) (go 0) ch (some (.join t)) = ThreadRun.leaves _ ch (some (.join t))
        simp only [leaves, ThreadRun.leaves, pick_id ht]
      | reset t => exact absurd rfl (h2 t cs')
  | fire t a cs ht hok =>
    refine both_step (rs := []) rfl rfl rfl ?_ ?_ (Or.inr rfl) (fun _ => .clr t cs ht hok) hch
    · intro k _
      by_cases e : k = t
      · subst e; simp [startOf, fires]
      · simp [startOf, e, Ne.symm e]
    · intro k hk
      have : ¬ t = k := by omega
      simp [startOf, this]
  | clr t cs ht hok =>
    refine both_step (rs := []) rfl rfl rfl (fun k _ => by simp [startOf, fires]) (fun k _ => rfl) (Or.inr rfl) (fun _ => ?_) hch
    have : nextBits n (fun k => decide (k = t)) [(Micro.clr t : Micro A)] = fun _ => false := by
      funext k
      simp only [nextBits, List.foldl_cons, List.foldl_nil]
      by_cases e : k = t
      · subst e; simp [ht]
      · simp [e, Ne.symm e]
    show Rel n (states cs) (direct cs) (nextBits n (fun k => decide (k = t)) [.clr t])
    rw [this]
    exact .at cs hok

/-- A run of a pool; `go t p`: a statement of parent `p` without the pool ends in cycle `t`. -/
structure Run (c : Code A S) (n : ℕ) (tids : ℕ → ℕ) (calls : List (List (Call A))) (r0 : ℕ → S) where
  go : ℕ → ℕ → Bool
  st : ℕ → St A S
  start : st 0 = St.init calls r0
  step : ∀ t, st (t + 1) = (st t).step c n tids (go t)

/-- A run exists for each program and environment. -/
def runOf (c : Code A S) (n : ℕ) (tids : ℕ → ℕ) (calls : List (List (Call A))) (r0 : ℕ → S) (go : ℕ → ℕ → Bool) :
    ℕ → St A S
  | 0 => St.init calls r0
  | t + 1 => (runOf c n tids calls r0 go t).step c n tids (go t)

/-- The run of a program. -/
def theRun (c : Code A S) (n : ℕ) (tids : ℕ → ℕ) (calls : List (List (Call A))) (r0 : ℕ → S) (go : ℕ → ℕ → Bool) :
    Run c n tids calls r0 := ⟨go, runOf c n tids calls r0 go, rfl, fun _ => rfl⟩

/-- Thread `k` in cycle `t`. -/
def Run.thread {c : Code A S} {n : ℕ} {tids : ℕ → ℕ} {calls : List (List (Call A))} {r0 : ℕ → S}
    (r : Run c n tids calls r0) (t k : ℕ) : Child S := (r.st t).child k

/-- The arguments with which the parents started thread `k` before cycle `t`. -/
def Run.fired {c : Code A S} {n : ℕ} {tids : ℕ → ℕ} {calls : List (List (Call A))} {r0 : ℕ → S}
    (r : Run c n tids calls r0) (k : ℕ) : ℕ → List A
  | 0 => []
  | t + 1 => r.fired k t ++ if (r.st t).bits (tids k) then fires (r.st t).acts else []

/-- The arguments of the calls of `pool.run(k, …)`. -/
def argsOf (k : ℕ) : List (Call A) → List A
  | [] => []
  | .run t a _ :: cs => if t = k then a :: argsOf k cs else argsOf k cs
  | _ :: cs => argsOf k cs

/-- The order of calls: `run`, `join`, `reset`, `run`, and so on, for each thread; in contrast to threads without a pool no
    statement is needed between `reset` and `run`. -/
def Disc : (ℕ → Stat) → List (Call A) → Prop
  | _, [] => True
  | s, .work :: cs => Disc (settle s) cs
  | s, .run t _ _ :: cs => (s t = .fresh ∨ s t = .pending) ∧ Disc (upd (settle s) t .started) cs
  | s, .join t :: cs => s t ≠ .fresh ∧ Disc (upd (settle s) t (if s t = .pending then .fresh else .joined)) cs
  | s, .reset t :: cs => s t ≠ .started ∧ Disc (upd s t (if s t = .fresh then .fresh else .pending)) cs

theorem settle_settle (s : ℕ → Stat) : settle (settle s) = settle s := by
  funext i
  by_cases e : s i = .pending <;> simp [settle, e]

theorem settle_upd (s : ℕ → Stat) (t : ℕ) : settle (upd (settle s) t .started) = upd (settle s) t .started := by
  funext i
  by_cases e : i = t
  · simp [settle, upd, e]
  · by_cases e2 : s i = .pending <;> simp [settle, upd, e, e2]

theorem disc_direct (cs : List (Call A)) : ∀ s : ℕ → Stat, Disc s cs → ThreadRun.Disc s (direct cs) := by
  induction cs with
  | nil => intro s _; trivial
  | cons x cs ih =>
    intro s h
    cases x with
    | work => exact ih _ h
    | run t a t' =>
      refine ⟨?_, ?_⟩
      · rcases h.1 with e | e <;> simp [settle, e]
      · rw [settle_settle]
        show ThreadRun.Disc (settle (upd (settle s) t .started)) (direct cs)
        rw [settle_upd]
        exact ih _ h.2
    | join t => exact ⟨h.1, ih _ h.2⟩
    | reset t => exact ⟨h.1, ih _ h.2⟩

theorem runsOf_direct (k : ℕ) (cs : List (Call A)) : ThreadRun.runsOf k (direct cs) = argsOf k cs := by
  induction cs with
  | nil => rfl
  | cons x cs ih => cases x <;> simp [direct, ThreadRun.runsOf, argsOf, ih]

section one
variable {c : Code A S} {n : ℕ} {calls : List (Call A)} {r0 : ℕ → S}

/-- The run of the same calls without a pool. -/
def Run.plain (r : Run c n (fun k => k) [calls] r0) : ThreadRun.Run c (direct calls) r0 :=
  ThreadRun.theRun c (direct calls) r0 fun t => goOf (r.go t 0) (r.st t).acts.head?

theorem plain_rel (r : Run c n (fun k => k) [calls] r0) (hok : ∀ x ∈ calls, Ok n x) (t : ℕ) :
    ∃ q, (r.st t).rest = [q] ∧ Rel n q (r.plain.st t).rest (r.st t).bits ∧ (r.st t).child = (r.plain.st t).child ∧
      ∀ k, n ≤ k → ((r.st t).child k).phase = .idle := by
  induction t with
  | zero =>
    rw [r.start]
    exact ⟨states calls, rfl, .at calls hok, rfl, fun _ _ => rfl⟩
  | succ t ih =>
    obtain ⟨q, h1, h2, h3, h4⟩ := ih
    have := rel_step (c := c) (go := r.go t) h2 h4
    have hs : r.st t = ⟨[q], (r.st t).bits, (r.st t).child⟩ := by rw [← h1]
    have hp : r.plain.st t = ⟨(r.plain.st t).rest, (r.st t).child⟩ := by rw [h3]
    have hg : (split q).2.head? = (r.st t).acts.head? := by
      simp only [St.acts, h1, List.filterMap_cons, List.filterMap_nil]
      cases (split q).2.head? <;> rfl
    rw [r.step, r.plain.step]
    show ∃ q', ((r.st t).step c n (fun k => k) (r.go t)).rest = [q'] ∧
      Rel n q' ((r.plain.st t).step c (goOf (r.go t 0) (r.st t).acts.head?)).rest _ ∧ _ = _ ∧ _
    rw [← hg, hp, hs]
    exact this

/-- **C70 (a pool is its threads).** With one parent and `tid`s of threads of the pool, in every cycle every thread of the pool
is in the state it is in when the parent calls the threads directly, with one more state before and after each `run`. -/
theorem c70_same (r : Run c n (fun k => k) [calls] r0) (hok : ∀ x ∈ calls, Ok n x) :
    ∃ p : ThreadRun.Run c (direct calls) r0, ∀ t k, r.thread t k = (p.st t).child k := by
  refine ⟨r.plain, fun t k => ?_⟩
  obtain ⟨-, -, -, h, -⟩ := plain_rel r hok t
  exact congrFun h k

/-- The state of the parent says what the parent of the plain run does. -/
theorem rel_act {q : List (Micro A)} {q' : List (ThreadRun.Call A)} {b : ℕ → Bool} (h : Rel n q q' b) (k : ℕ) (hk : k < n) :
    (if b k then fires (split q).2.head?.toList else []) =
      (match (ThreadRun.split q').2.head? with
       | some (.run j a) => if j = k then [a] else []
       | _ => []) ∧
    (∀ j, (split q).2.head? = some (.join j) → (ThreadRun.split q').2.head? = some (.join j)) := by
  cases h with
  | «at» cs hok =>
    obtain ⟨rs, cs', -, h2, h3, h4⟩ := split_states cs
    rw [h3, h4]
    cases cs' with
    | nil => simp [states, direct]
    | cons x cs' => cases x <;> simp [states, direct, Call.states]
  | fire t a cs ht hok =>
    by_cases e : k = t
    · subst e; simp [split, ThreadRun.split, fires]
    · simp [split, ThreadRun.split, e, Ne.symm e]
  | clr t cs ht hok => simp [split, ThreadRun.split, fires]

theorem acts_one {s : St A S} {q : List (Micro A)} (h : s.rest = [q]) : s.acts = (split q).2.head?.toList := by
  simp only [St.acts, h, List.filterMap_cons, List.filterMap_nil]
  cases (split q).2.head? <;> rfl

theorem fired_runs (r : Run c n (fun k => k) [calls] r0) (hok : ∀ x ∈ calls, Ok n x) (k : ℕ) (hk : k < n) (t : ℕ) :
    r.fired k t = ThreadRun.runsOf k (r.plain.done t) := by
  induction t with
  | zero =>
    show [] = ThreadRun.runsOf k ((direct calls).take ((direct calls).length - (direct calls).length))
    simp [ThreadRun.runsOf]
  | succ t ih =>
    obtain ⟨q, h1, h2, -, -⟩ := plain_rel r hok t
    rw [ThreadRun.Run.runs_succ, ← ih, Run.fired, acts_one h1, (rel_act h2 k hk).1]
    rfl

/-- **C70 (calls).** Whenever a thread is not running, its registers are those after calling its function once for each
`pool.run` that started it, in order, with the arguments of that `run`. -/
theorem c70_call (r : Run c n (fun k => k) [calls] r0) (hok : ∀ x ∈ calls, Ok n x) (hd : Disc (fun _ => .fresh) calls)
    (t k : ℕ) (hk : k < n) (h : (r.thread t k).phase ≠ .busy) : Calls c k (r.fired k t) (r0 k) (r.thread t k).reg := by
  obtain ⟨-, -, -, h3, -⟩ := plain_rel r hok t
  rw [fired_runs r hok k hk]
  have e : r.thread t k = (r.plain.st t).child k := congrFun h3 k
  rw [e] at h ⊢
  exact ThreadRun.c61_call r.plain (disc_direct _ _ hd) t k h

/-- The starts of a thread are those the program asks for, in order; all of them when the parent has no further state. -/
theorem c70_order (r : Run c n (fun k => k) [calls] r0) (hok : ∀ x ∈ calls, Ok n x) (t k : ℕ) (hk : k < n) :
    r.fired k t <+: argsOf k calls ∧ ((∀ q ∈ (r.st t).rest, (split q).2 = []) → r.fired k t = argsOf k calls) := by
  have hdr := r.plain.done_rest t
  have hr : ThreadRun.runsOf k (r.plain.done t) ++ ThreadRun.runsOf k (r.plain.st t).rest = argsOf k calls := by
    rw [← runsOf_direct, ← ThreadRun.runsOf_append]
    exact congrArg _ hdr
  rw [fired_runs r hok k hk]
  refine ⟨⟨_, hr⟩, fun hfin => ?_⟩
  obtain ⟨q, h1, h2, -, -⟩ := plain_rel r hok t
  have hq := hfin q (by rw [h1]; simp)
  have : ThreadRun.runsOf k (r.plain.st t).rest = [] := by
    revert hq
    generalize (r.plain.st t).rest = q' at h2
    generalize (r.st t).bits = b at h2
    intro hq
    cases h2 with
    | «at» cs hok' =>
      obtain ⟨rs, cs', e1, -, h3, h4⟩ := split_states cs
      rw [h3] at hq
      have : cs' = [] := by
        cases cs' with
        | nil => rfl
        | cons x cs' => cases x <;> simp [states, Call.states] at hq
      subst this
      have := (ThreadRun.split_eq (direct cs)).1
      rw [h4] at this
      rw [this]
      simp only [direct, List.append_nil]
      exact ThreadRun.runsOf_resets k rs
    | fire => simp [split] at hq
    | clr => simp [split] at hq
  rw [this, List.append_nil] at hr
  exact hr

/-- **C70 (`join`).** When the parent leaves `pool.join(k)`, thread `k` has finished the calls made so far, and its registers
hold their result, also in the next cycle, where the parent may use the return value. -/
theorem c70_join (r : Run c n (fun k => k) [calls] r0) (hok : ∀ x ∈ calls, Ok n x) (hd : Disc (fun _ => .fresh) calls)
    (t k : ℕ) (hk : k < n) (h : (r.st t).acts = [.join k]) (hl : (r.st (t + 1)).rest ≠ (r.st t).rest) :
    (r.thread t k).phase = .fin ∧ Calls c k (r.fired k t) (r0 k) (r.thread (t + 1) k).reg := by
  obtain ⟨q, h1, h2, h3, -⟩ := plain_rel r hok t
  have hf : (r.thread t k).phase = .fin := by
    have ha : (split q).2.head? = some (.join k) := by
      rw [acts_one h1] at h
      cases e : (split q).2.head? <;> rw [e] at h <;> simp at h
      rw [h]
    have hx : leaves n (fun k => k) (r.go t 0) (r.st t).child (some (Micro.join k : Micro A)) = true := by
      cases e : leaves n (fun k => k) (r.go t 0) (r.st t).child (some (Micro.join k : Micro A)) with
      | true => rfl
      | false =>
        exfalso
        apply hl
        rw [r.step]
        simp [St.step, h1, ha, e]
    simp only [leaves, pick_id hk] at hx
    simpa [Run.thread] using hx
  refine ⟨hf, ?_⟩
  have hc := c70_call r hok hd t k hk (by rw [hf]; simp)
  have : (r.thread (t + 1) k).reg = (r.thread t k).reg := by
    unfold Run.thread at hf ⊢
    rw [r.step]
    simp only [St.step, if_pos hk, stepChild, hf]
    split <;> rfl
  rw [this]
  exact hc

/-- **C70 (termination).** If the bodies and the other statements terminate, the parent comes to the end of its calls. -/
theorem c70_terminates (r : Run c n (fun k => k) [calls] r0) (hok : ∀ x ∈ calls, Ok n x) (hd : Disc (fun _ => .fresh) calls)
    (hb : ∀ k s, ∃ s', Exec (c.body k) s s') (hg : ∀ t, ∃ u, t ≤ u ∧ r.go u 0 = true) :
    ∃ t, (r.st t).acts = [] := by
  have hg' : ∀ t, ∃ u, t ≤ u ∧ r.plain.go u = true := by
    intro t
    obtain ⟨u, hu, hgo⟩ := hg t
    refine ⟨u, hu, ?_⟩
    show goOf (r.go u 0) (r.st u).acts.head? = true
    rw [hgo]
    unfold goOf
    split <;> rfl
  obtain ⟨t, ht⟩ := ThreadRun.c61_terminates r.plain (disc_direct _ _ hd) hb hg'
  refine ⟨t, ?_⟩
  obtain ⟨q, h1, h2, -, -⟩ := plain_rel r hok t
  rw [acts_one h1]
  revert ht
  generalize (r.plain.st t).rest = q' at h2
  generalize (r.st t).bits = b at h2
  intro ht
  cases h2 with
  | «at» cs hok' =>
    obtain ⟨rs, cs', e1, h2, h3, h4⟩ := split_states cs
    rw [h3]
    have hsp := (ThreadRun.split_eq (direct cs)).1
    rw [h4] at hsp
    rw [hsp] at ht
    cases cs' with
    | nil => rfl
    | cons x cs' =>
      exfalso
      cases x with
      | work =>
        obtain ⟨i, hi⟩ := ht .work (by simp [direct])
        cases hi
      | run a b d =>
        obtain ⟨i, hi⟩ := ht .work (by simp [direct])
        cases hi
      | join a =>
        obtain ⟨i, hi⟩ := ht (.join a) (by simp [direct])
        cases hi
      | reset a => exact h2 a cs' rfl
  | fire a b cs =>
    obtain ⟨i, hi⟩ := ht .work (by simp)
    cases hi
  | clr a cs =>
    obtain ⟨i, hi⟩ := ht .work (by simp)
    cases hi

/-- **C70 (`run`).** `pool.run(k, …)` starts thread `k`, which is not running, with its arguments, two cycles later; no other
thread of the pool is started by it. -/
theorem c70_run (r : Run c n (fun k => k) [calls] r0) (hok : ∀ x ∈ calls, Ok n x) (hd : Disc (fun _ => .fresh) calls)
    (t k : ℕ) (h : (r.st t).acts = [.set k]) :
    ∃ a, (r.st (t + 1)).acts = [.fire a] ∧ (r.thread (t + 1) k).phase = .idle ∧
      r.thread (t + 2) k = ⟨.busy, true, c.bind k a (r.thread (t + 1) k).reg⟩ ∧
      ∀ j ≠ k, (r.thread (t + 1) j).phase ≠ .busy → (r.thread (t + 2) j).phase ≠ .busy := by
  obtain ⟨q, h1, h2, h3, -⟩ := plain_rel r hok t
  obtain ⟨q1, g1, g2, g3, -⟩ := plain_rel r hok (t + 1)
  obtain ⟨-, -, -, k3, -⟩ := plain_rel r hok (t + 2)
  rw [acts_one h1] at h
  have hh : (split q).2.head? = some (.set k) := by
    cases e : (split q).2.head? <;> rw [e] at h <;> simp at h
    rw [h]
  -- the states of `run`
  have hq1 : ∃ a cs, q1 = .fire a :: .clr k :: states cs := by
    have : q1 = (split q).2.tail := by
      have := r.step t
      have hr : (r.st (t + 1)).rest = [(split q).2.tail] := by
        rw [this]; simp [St.step, h1, hh, leaves]
      rw [g1] at hr
      simpa using hr
    rw [this]
    revert hh
    generalize (r.plain.st t).rest = q' at h2
    generalize (r.st t).bits = b at h2
    intro hh
    cases h2 with
    | «at» cs hok' =>
      obtain ⟨rs, cs', e1, e2, e3, e4⟩ := split_states cs
      rw [e3] at hh ⊢
      have hcs' : ∀ x ∈ cs', Ok n x := fun x hx => hok' x (by rw [e1]; simp [hx])
      cases cs' with
      | nil => simp [states] at hh
      | cons x cs' =>
        cases x with
        | run u a u' =>
          obtain ⟨-, rfl⟩ : u < n ∧ u' = u := hcs' (.run u a u') (by simp)
          simp [states, Call.states] at hh
          subst hh
          exact ⟨a, cs', rfl⟩
        | _ => simp [states, Call.states] at hh
    | fire => simp [split] at hh
    | clr => simp [split] at hh
  obtain ⟨a, cs, rfl⟩ := hq1
  have hact : (r.plain.st (t + 1)).act = some (.run k a) := by
    unfold ThreadRun.St.act
    generalize (r.plain.st (t + 1)).rest = q' at g2
    generalize (r.st (t + 1)).bits = b at g2
    generalize hx : Micro.fire a :: Micro.clr k :: states cs = y at g2
    cases g2 with
    | «at» cs2 hok' =>
      cases cs2 with
      | nil => simp [states] at hx
      | cons x cs2 => cases x <;> simp [states, Call.states] at hx
    | fire u b cs2 =>
      simp only [List.cons.injEq, Micro.fire.injEq, Micro.clr.injEq] at hx
      obtain ⟨rfl, rfl, -⟩ := hx
      rfl
    | clr u cs2 => simp at hx
  obtain ⟨c1, c2, c3, c4⟩ := ThreadRun.c61_run r.plain (disc_direct _ _ hd) (t + 1) k a hact
  have e1 : ∀ j, r.thread (t + 1) j = (r.plain.st (t + 1)).child j := fun j => congrFun g3 j
  have e2 : ∀ j, r.thread (t + 2) j = (r.plain.st (t + 2)).child j := fun j => congrFun k3 j
  refine ⟨a, acts_one g1, by rw [e1]; exact c1, ?_, ?_⟩
  · rw [e1, e2]
    have hx : ∀ x : Child S, x = ⟨x.phase, x.called, x.reg⟩ := fun _ => rfl
    rw [hx ((r.plain.st (t + 2)).child k)]
    have c2' : ((r.plain.st (t + 2)).child k).phase = .busy := c2
    have c3' : ((r.plain.st (t + 2)).child k).reg = c.bind k a ((r.plain.st (t + 1)).child k).reg := c3
    rw [c2', c3', c4]
  · intro j hj h0 h9
    rw [e1] at h0
    rw [e2] at h9
    obtain ⟨b, hb⟩ := ThreadRun.c61_starts r.plain (t + 1) j h0 h9
    rw [hact] at hb
    cases hb
    exact hj rfl

end one

/-! ## Any pool -/

section any
variable {c : Code A S} {n : ℕ} {tids : ℕ → ℕ} {s : St A S} {go : ℕ → Bool}

/-- Which threads start, for any number of parents and any `tid`s of the threads: all the idle ones whose bit of `start` is
set, with the arguments of the last parent. -/
theorem c70_starts {a : A} {l : List A} (hf : fires s.acts = l ++ [a]) {k : ℕ} (hk : k < n)
    (hi : (s.child k).phase = .idle) :
    (s.step c n tids go).child k = if s.bits (tids k) then ⟨.busy, true, c.bind k a (s.child k).reg⟩ else s.child k := by
  simp only [St.step, if_pos hk, stepChild, hi, hf]
  cases s.bits (tids k) <;> simp

/-- Which finished threads become ready to be started again, for any number of parents and any `tid`s of the threads: those
whose `tid` is given to `reset`. -/
theorem c70_reset {k : ℕ} (hk : k < n) (hi : (s.child k).phase = .fin) :
    ((s.step c n tids go).child k).phase = .idle ↔ tids k ∈ s.resets := by
  simp only [St.step, if_pos hk, stepChild, hi]
  by_cases h : tids k ∈ s.resets <;> simp [h, hi]

/-- **C70 (disagreement, two parents).** When two parents are in the starting states of `pool.run(t, a)` and
`pool.run(u, b)` in the same cycle, both threads are started with the arguments of the second. -/
theorem c70_not_two_parents {t u : ℕ} {a b : A} {p q : List (Micro A)}
    (hr : s.rest = [.fire a :: p, .fire b :: q]) (ht : t < n) (hu : u < n)
    (ht' : s.bits t = true) (hu' : s.bits u = true) (hit : (s.child t).phase = .idle) (hiu : (s.child u).phase = .idle) :
    ((s.step c n (fun k => k) go).child t).reg = c.bind t b (s.child t).reg ∧
    ((s.step c n (fun k => k) go).child u).reg = c.bind u b (s.child u).reg := by
  have hf : fires s.acts = [a] ++ [b] := by simp [St.acts, hr, split, fires]
  rw [c70_starts (tids := fun k => k) hf ht hit, c70_starts (tids := fun k => k) hf hu hiu]
  simp [ht', hu']

/-- **C70 (disagreement, `tid` changes).** If the value of `tid` in the last state of `run` is another one than in the first,
the bit stays set. -/
theorem c70_not_tid {t t' : ℕ} {p : List (Micro A)} (hr : s.rest = [.clr t' :: p]) (hne : t' ≠ t) (hb : s.bits t = true) :
    (s.step c n tids go).bits t = true := by
  simp [St.step, St.acts, hr, split, nextBits, hb, hne]

/-- **C70 (disagreement, `tid` out of range).** `pool.run` with a `tid` that no thread has starts no thread, and `pool.join`
with such a `tid` is never left. -/
theorem c70_not_range {t : ℕ} (h : ∀ k < n, tids k ≠ t) {p : List (Micro A)} :
    (s.rest = [.set t :: p] → n ≤ t → (s.step c n tids go).bits = s.bits) ∧
    (s.rest = [.join t :: p] → (s.step c n tids go).rest = s.rest) := by
  constructor
  · intro hr hn
    funext k
    have : ¬ t < n := by omega
    simp [St.step, St.acts, hr, split, nextBits, this]
  · intro hr
    have : pick n tids t = none := by
      unfold pick
      rw [List.find?_eq_none]
      intro k hk
      have := h k (by simpa using hk)
      simpa using this
    simp [St.step, hr, split, leaves, this]

end any

/-! ## Examples -/

/-- Two threads run twice, `reset` directly followed by `run`. -/
def demo : List (Call ℕ) := [.run 0 1 0, .run 1 2 1, .join 0, .join 1, .reset 0, .run 0 7 0, .join 0]

example : (∀ x ∈ demo, Ok 2 x) ∧ Disc (fun _ => .fresh) demo := by
  refine ⟨?_, by simp [demo, Disc, upd, settle]⟩
  intro x hx
  simp only [demo, List.mem_cons, List.not_mem_nil, or_false] at hx
  rcases hx with rfl | rfl | rfl | rfl | rfl | rfl | rfl <;> simp [Ok]

/-- The threads of C61's examples: two cycles, ten is added to the argument. -/
def demoRun : Run ThreadRun.tc 2 (fun k => k) [demo] (fun _ => (0, false)) := theRun _ _ _ _ _ fun _ _ => true

example : (demoRun.st 15).acts.length = 0 ∧ demoRun.fired 0 15 = [1, 7] ∧ demoRun.fired 1 15 = [2] ∧
    (demoRun.thread 15 0).reg = (17, false) ∧ (demoRun.thread 15 1).reg = (12, false) := ⟨rfl, rfl, rfl, rfl, rfl⟩

example : (demoRun.st 0).acts = [.set 0] ∧ (demoRun.st 6).acts = [.join 0] ∧ (demoRun.st 7).rest.length = 1 ∧
    ((demoRun.st 7).rest.map List.length) ≠ ((demoRun.st 6).rest.map List.length) := ⟨rfl, rfl, rfl, by decide⟩

example : ∃ t, (demoRun.st t).acts = [] := by
  refine c70_terminates demoRun ?_ (by simp [demo, Disc, upd, settle]) ThreadRun.tc_terminates (fun t => ⟨t, Nat.le_refl t, rfl⟩)
  intro x hx
  simp only [demo, List.mem_cons, List.not_mem_nil, or_false] at hx
  rcases hx with rfl | rfl | rfl | rfl | rfl | rfl | rfl <;> simp [Ok]

/-- Two parents at once: thread 0 computes with the argument meant for thread 1. -/
def twoRun : Run ThreadRun.tc 2 (fun k => k) [[.run 0 1 0, .join 0], [.run 1 2 1, .join 1]] (fun _ => (0, false)) :=
  theRun _ _ _ _ _ fun _ _ => true

example : (twoRun.st 6).acts.length = 0 ∧ (twoRun.thread 6 0).reg = (12, false) ∧ (twoRun.thread 6 1).reg = (12, false) :=
  ⟨rfl, rfl, rfl⟩

/-- `tid` changes during the first `run`: the second one, of thread 1, also starts thread 0. -/
def tidRun : Run ThreadRun.tc 2 (fun k => k) [[.run 0 1 1, .join 0, .reset 0, .run 1 2 1, .join 1]] (fun _ => (0, false)) :=
  theRun _ _ _ _ _ fun _ _ => true

example : (tidRun.st 11).acts.length = 0 ∧ (tidRun.thread 11 0).reg = (12, false) ∧ tidRun.fired 0 11 = [1, 2] :=
  ⟨rfl, rfl, rfl⟩

/-- A thread that was put into a second pool as its first thread: in the first pool, `run(0)` starts it too, and `join(1)` is
never left. -/
def sharedRun : Run ThreadRun.tc 2 (fun _ => 0) [[.run 0 1 0, .join 0, .join 1]] (fun _ => (0, false)) :=
  theRun _ _ _ _ _ fun _ _ => true

example : (sharedRun.thread 6 1).reg = (11, false) ∧ (sharedRun.st 6).acts = [.join 1] ∧ ∀ k < 2, (fun _ => 0) k ≠ 1 :=
  ⟨rfl, rfl, fun _ _ => by simp⟩

/-- With the same pool, `reset(0)` makes both threads ready. -/
def resetRun : Run ThreadRun.tc 2 (fun _ => 0) [[.run 0 1 0, .join 0, .reset 0, .work, .work]] (fun _ => (0, false)) :=
  theRun _ _ _ _ _ fun _ _ => true

example : (resetRun.st 5).resets = [0] ∧ (resetRun.thread 5 1).phase = .fin ∧ (resetRun.thread 6 1).phase = .idle :=
  ⟨rfl, rfl, rfl⟩

end Pool
