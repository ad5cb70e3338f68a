import Verif.Model.ThreadRun

/-!
# C61: child threads are called like functions
-/

namespace ThreadRun

variable {A S : Type}

/-- A run of parent and children; `go t`: a statement of the parent without threads ends in cycle `t`. -/
structure Run (c : Code A S) (calls : List (Call A)) (r0 : ℕ → S) where
  go : ℕ → Bool
  st : ℕ → St A S
  start : st 0 = St.init calls r0
  step : ∀ t, st (t + 1) = (st t).step c (go t)

/-- One execution of the body: from its first state to the end. -/
inductive Exec (body : S → S × Bool) : S → S → Prop
  | last {s s'} : body s = (s', true) → Exec body s s'
  | next {s s' s''} : body s = (s', false) → Exec body s' s'' → Exec body s s''

/-- The function called several times in sequence with the given arguments. -/
inductive Calls (c : Code A S) (i : ℕ) : List A → S → S → Prop
  | nil {s} : Calls c i [] s s
  | snoc {as a s s' s''} : Calls c i as s s' → Exec (c.body i) (c.bind i a s') s'' → Calls c i (as ++ [a]) s s''

/-- The arguments of the calls of `run` of a thread. -/
def runsOf (i : ℕ) : List (Call A) → List A
  | [] => []
  | .run j a :: cs => if j = i then a :: runsOf i cs else runsOf i cs
  | _ :: cs => runsOf i cs

/-- What the calls so far say about a thread: it may be started, is started, joined, or joined and reset in the state of the
    next statement. -/
inductive Stat
  | fresh | started | joined | pending
  deriving DecidableEq

/-- After a statement with a state of its own the reset is done. -/
def settle (s : ℕ → Stat) (i : ℕ) : Stat := if s i = .pending then .fresh else s i

/-- One entry changed. -/
def upd (s : ℕ → Stat) (i : ℕ) (v : Stat) (j : ℕ) : Stat := if j = i then v else s j

/-- The order of calls: `run`, `join`, `reset`, some other statement, `run`, and so on, for each thread. -/
def Disc : (ℕ → Stat) → List (Call A) → Prop
  | _, [] => True
  | s, .work :: cs => Disc (settle s) cs
  | s, .run i _ :: cs => s i = .fresh ∧ Disc (upd (settle s) i .started) cs
  | s, .join i :: cs => s i ≠ .fresh ∧ Disc (upd (settle s) i (if s i = .pending then .fresh else .joined)) cs
  | s, .reset i :: cs => s i ≠ .started ∧ Disc (upd s i (if s i = .fresh then .fresh else .pending)) cs

theorem split_eq (cs : List (Call A)) : cs = (split cs).1.map .reset ++ (split cs).2 ∧ ∀ i tl, (split cs).2 ≠ .reset i :: tl := by
  induction cs with
  | nil => simp [split]
  | cons x cs ih =>
    cases x with
    | reset i =>
      refine ⟨?_, ih.2⟩
      simp only [split, List.map_cons, List.cons_append]
      rw [← ih.1]
    | work => simp [split]
    | run i a => simp [split]
    | join i => simp [split]

/-- Status when the resets before a statement are called. -/
def withResets (s : ℕ → Stat) (rs : List ℕ) (i : ℕ) : Stat := if i ∈ rs ∧ s i ≠ .fresh then .pending else s i

theorem disc_resets (rs : List ℕ) : ∀ (s : ℕ → Stat) (cs : List (Call A)), Disc s (rs.map .reset ++ cs) →
    (∀ i ∈ rs, s i ≠ .started) ∧ Disc (withResets s rs) cs := by
  induction rs with
  | nil =>
    intro s cs h
    refine ⟨by simp, ?_⟩
    have : withResets s [] = s := by funext i; simp [withResets]
    rw [this]
    exact h
  | cons r rs ih =>
    intro s cs h
    obtain ⟨h1, h2⟩ := h
    obtain ⟨i1, i2⟩ := ih _ cs h2
    refine ⟨?_, ?_⟩
    · intro i hi
      by_cases e : i = r
      · rw [e]; exact h1
      · have := i1 i (by simpa [e] using hi)
        simpa [upd, e] using this
    · have : withResets s (r :: rs) = withResets (upd s r (if s r = .fresh then .fresh else .pending)) rs := by
        funext i
        simp only [withResets, upd, List.mem_cons]
        by_cases e : i = r
        · subst e
          by_cases hf : s i = .fresh <;> simp [hf]
        · simp [e]
      rw [this]
      exact i2

namespace Run

variable {c : Code A S} {calls : List (Call A)} {r0 : ℕ → S} (r : Run c calls r0)

/-- The calls executed before cycle `t`. -/
def done (t : ℕ) : List (Call A) := calls.take (calls.length - (r.st t).rest.length)

theorem rest_suffix (t : ℕ) : (r.st t).rest <:+ calls := by
  induction t with
  | zero => rw [r.start]; exact List.suffix_rfl
  | succ t ih =>
    rw [r.step]
    simp only [St.step]
    split
    · refine List.IsSuffix.trans (List.tail_suffix _) (List.IsSuffix.trans ?_ ih)
      exact ⟨_, (split_eq (r.st t).rest).1.symm⟩
    · exact ih

theorem done_rest (t : ℕ) : r.done t ++ (r.st t).rest = calls := by
  obtain ⟨p, hp⟩ := r.rest_suffix t
  have hlen := congrArg List.length hp
  simp only [List.length_append] at hlen
  have : calls.length - (r.st t).rest.length = p.length := by omega
  rw [done, this]
  have h2 : List.take p.length calls = p := by
    have := congrArg (List.take p.length) hp
    rw [List.take_left'] at this
    · exact this.symm
    · rfl
  rw [h2]; exact hp

/-- A child in the cycle `t`. -/
def phase (t i : ℕ) : Phase := ((r.st t).child i).phase

/-- The registers of a child in a cycle. -/
def reg (t i : ℕ) : S := ((r.st t).child i).reg


end Run

/-! ## The invariant -/

/-- The phases of the children agree with the order of the calls. -/
structure Inv (s : ℕ → Stat) (x : St A S) : Prop where
  settled : ∀ i, s i ≠ .pending
  disc : Disc s x.rest
  fresh : ∀ i, s i = .fresh → (x.child i).phase = .idle
  started : ∀ i, s i = .started → (x.child i).phase ≠ .idle
  joined : ∀ i, s i = .joined → (x.child i).phase = .fin ∨
    (i ∈ (split x.rest).1 ∧ (x.child i).phase = .idle ∧ x.act ≠ some (.join i))

theorem Inv.resets {s : ℕ → Stat} {x : St A S} (h : Inv s x) :
    (∀ i ∈ (split x.rest).1, s i ≠ .started) ∧ Disc (withResets s (split x.rest).1) (split x.rest).2 := by
  apply disc_resets
  rw [← (split_eq x.rest).1]
  exact h.disc

theorem Inv.act_run {s : ℕ → Stat} {x : St A S} (h : Inv s x) {i : ℕ} {a : A} (ha : x.act = some (.run i a)) :
    s i = .fresh := by
  have h2 := h.resets.2
  unfold St.act at ha
  cases e : (split x.rest).2 with
  | nil => rw [e] at ha; cases ha
  | cons y tl =>
    rw [e] at ha h2
    cases Option.some.inj ha
    have := h2.1
    unfold withResets at this
    split at this
    · cases this
    · exact this

theorem Inv.act_join {s : ℕ → Stat} {x : St A S} (h : Inv s x) {i : ℕ} (ha : x.act = some (.join i)) :
    s i ≠ .fresh := by
  have h2 := h.resets.2
  unfold St.act at ha
  cases e : (split x.rest).2 with
  | nil => rw [e] at ha; cases ha
  | cons y tl =>
    rw [e] at ha h2
    cases Option.some.inj ha
    have := h2.1
    intro hf
    apply this
    simp [withResets, hf]

/-- The status after the state of a call. -/
def after (s : ℕ → Stat) : Option (Call A) → ℕ → Stat
  | some (.run i _) => upd (settle s) i .started
  | some (.join i) => upd (settle s) i (if s i = .pending then .fresh else .joined)
  | _ => settle s

theorem disc_after {s : ℕ → Stat} {cs : List (Call A)} (h : Disc s cs) (hr : ∀ i tl, cs ≠ .reset i :: tl) :
    Disc (after s cs.head?) cs.tail := by
  cases cs with
  | nil => trivial
  | cons x cs =>
    cases x with
    | work => exact h
    | run i a => exact h.2
    | join i => exact h.2
    | reset i => exact absurd rfl (hr i cs)

theorem after_ne_pending (s : ℕ → Stat) (x : Option (Call A)) (i : ℕ) : after s x i ≠ .pending := by
  have hs : ∀ j, settle s j ≠ .pending := by
    intro j; unfold settle; split
    · simp
    · assumption
  unfold after
  split
  · unfold upd; split
    · simp
    · exact hs i
  · unfold upd; split
    · split <;> simp
    · exact hs i
  · exact hs i

theorem inv_stay {c : Code A S} {go : Bool} {s : ℕ → Stat} {x : St A S} (h : Inv s x)
    (hl : leaves go x.child x.act = false) : Inv s (x.step c go) := by
  have hrest : (x.step c go).rest = x.rest := by simp [St.step, hl]
  have hact : (x.step c go).act = x.act := by unfold St.act; rw [hrest]
  have hnr : ∀ i a, x.act ≠ some (.run i a) := by
    intro i a e; rw [e] at hl; cases hl
  have hidle : ∀ i, (x.child i).phase = .idle → ((x.step c go).child i).phase = .idle := by
    intro i e
    simp only [St.step, stepChild, e]
  refine ⟨h.settled, by rw [hrest]; exact h.disc, fun i hi => hidle i (h.fresh i hi), ?_, ?_⟩
  · intro i hi
    have hp := h.started i hi
    simp only [St.step, stepChild]
    cases e : (x.child i).phase with
    | idle => exact absurd e hp
    | busy => simp only; split <;> simp
    | fin =>
      have : i ∉ (split x.rest).1 := fun hm => h.resets.1 i hm hi
      simp [this, e]
  · intro i hi
    rw [hrest, hact]
    rcases h.joined i hi with hf | ⟨hm, hd, ha⟩
    · by_cases hm : i ∈ (split x.rest).1
      · refine Or.inr ⟨hm, ?_, ?_⟩
        · simp [St.step, stepChild, hf, hm]
        · intro e; rw [e] at hl; simp [leaves, hf] at hl
      · left
        simp [St.step, stepChild, hf, hm]
    · exact Or.inr ⟨hm, hidle i hd, ha⟩

theorem inv_leave {c : Code A S} {go : Bool} {s : ℕ → Stat} {x : St A S} (h : Inv s x)
    (hl : leaves go x.child x.act = true) :
    Inv (after (withResets s (split x.rest).1) x.act) (x.step c go) := by
  have hrest : (x.step c go).rest = (split x.rest).2.tail := by simp [St.step, hl]
  obtain ⟨h1, h2⟩ := h.resets
  have key : ∀ i, (s i = .fresh ∧ ((after (withResets s (split x.rest).1) x.act i = .fresh ∧
        ((x.step c go).child i).phase = .idle) ∨ (after (withResets s (split x.rest).1) x.act i = .started ∧
        ((x.step c go).child i).phase ≠ .idle))) ∨
      (s i = .started ∧ ((after (withResets s (split x.rest).1) x.act i = .started ∧
        ((x.step c go).child i).phase ≠ .idle) ∨ (after (withResets s (split x.rest).1) x.act i = .joined ∧
        ((x.step c go).child i).phase = .fin))) ∨
      (s i = .joined ∧ ((after (withResets s (split x.rest).1) x.act i = .joined ∧
        ((x.step c go).child i).phase = .fin) ∨ (after (withResets s (split x.rest).1) x.act i = .fresh ∧
        ((x.step c go).child i).phase = .idle))) := by
    intro i
    cases es : s i with
    | pending => exact absurd es (h.settled i)
    | fresh =>
      left
      refine ⟨rfl, ?_⟩
      have hd := h.fresh i es
      have hw : withResets s (split x.rest).1 i = .fresh := by simp [withResets, es]
      have hse : settle (withResets s (split x.rest).1) i = .fresh := by simp [settle, hw]
      cases ea : x.act with
      | none => rw [ea] at hl; cases hl
      | some y =>
        cases y with
        | work => left; exact ⟨hse, by simp [St.step, stepChild, hd, ea]⟩
        | reset j => rw [ea] at hl; cases hl
        | join j =>
          left
          have : i ≠ j := fun e => h.act_join ea (e ▸ es)
          exact ⟨by simp [after, upd, this, hse], by simp [St.step, stepChild, hd, ea]⟩
        | run j a =>
          by_cases e : j = i
          · right
            exact ⟨by simp [after, upd, e], by simp [St.step, stepChild, hd, ea, e]⟩
          · left
            exact ⟨by simp [after, upd, Ne.symm e, hse], by simp [St.step, stepChild, hd, ea, e]⟩
    | started =>
      right; left
      refine ⟨rfl, ?_⟩
      have hm : i ∉ (split x.rest).1 := fun hm => h1 i hm es
      have hw : withResets s (split x.rest).1 i = .started := by simp [withResets, es, hm]
      have hse : settle (withResets s (split x.rest).1) i = .started := by simp [settle, hw]
      have hp : ((x.step c go).child i).phase ≠ .idle := by
        simp only [St.step, stepChild]
        cases e : (x.child i).phase with
        | idle => exact absurd e (h.started i es)
        | busy => simp only; split <;> simp
        | fin => simp [hm, e]
      cases ea : x.act with
      | none => rw [ea] at hl; cases hl
      | some y =>
        cases y with
        | work => left; exact ⟨hse, hp⟩
        | reset j => rw [ea] at hl; cases hl
        | run j a =>
          left
          have : i ≠ j := by
            intro e
            have := h.act_run ea
            rw [← e, es] at this; cases this
          exact ⟨by simp [after, upd, this, hse], hp⟩
        | join j =>
          by_cases e : i = j
          · right
            have hf : (x.child i).phase = .fin := by
              rw [ea] at hl; rw [e]; simpa [leaves] using hl
            subst e
            exact ⟨by simp [after, upd, hw], by simp [St.step, stepChild, hf, hm]⟩
          · left
            exact ⟨by simp [after, upd, e, hse], hp⟩
    | joined =>
      right; right
      refine ⟨rfl, ?_⟩
      by_cases hm : i ∈ (split x.rest).1
      · right
        have hw : withResets s (split x.rest).1 i = .pending := by simp [withResets, es, hm]
        have hse : settle (withResets s (split x.rest).1) i = .fresh := by simp [settle, hw]
        have hr : ∀ a, x.act ≠ some (.run i a) := by
          intro a e
          have := h.act_run e
          rw [es] at this; cases this
        have hp : ((x.step c go).child i).phase = .idle := by
          rcases h.joined i es with hf | ⟨_, hd, _⟩
          · simp [St.step, stepChild, hf, hm]
          · simp only [St.step, stepChild, hd]
            split
            · rename_i j a e2
              split
              · rename_i e3; exact absurd (e3 ▸ e2) (hr a)
              · exact hd
            · exact hd
        refine ⟨?_, hp⟩
        cases ea : x.act with
        | none => exact hse
        | some y =>
          cases y with
          | work => exact hse
          | reset j => exact hse
          | run j a =>
            have : i ≠ j := fun e => hr a (e ▸ ea)
            simp [after, upd, this, hse]
          | join j =>
            by_cases e : i = j
            · subst e; simp [after, upd, hw]
            · simp [after, upd, e, hse]
      · left
        have hw : withResets s (split x.rest).1 i = .joined := by simp [withResets, es, hm]
        have hse : settle (withResets s (split x.rest).1) i = .joined := by simp [settle, hw]
        have hf : (x.child i).phase = .fin := by
          rcases h.joined i es with hf | ⟨hm', _⟩
          · exact hf
          · exact absurd hm' hm
        refine ⟨?_, by simp [St.step, stepChild, hf, hm]⟩
        cases ea : x.act with
        | none => exact hse
        | some y =>
          cases y with
          | work => exact hse
          | reset j => exact hse
          | run j a =>
            have : i ≠ j := by
              intro e
              have := h.act_run ea
              rw [← e, es] at this; cases this
            simp [after, upd, this, hse]
          | join j =>
            by_cases e : i = j
            · subst e; simp [after, upd, hw]
            · simp [after, upd, e, hse]
  refine ⟨after_ne_pending _ _, ?_, ?_, ?_, ?_⟩
  · rw [hrest]
    exact disc_after h2 (split_eq x.rest).2
  · intro i hi
    rcases key i with ⟨_, k | k⟩ | ⟨_, k | k⟩ | ⟨_, k | k⟩ <;> first | exact k.2 | (rw [k.1] at hi; cases hi)
  · intro i hi
    rcases key i with ⟨_, k | k⟩ | ⟨_, k | k⟩ | ⟨_, k | k⟩ <;> first | exact k.2 | (rw [k.1] at hi; cases hi)
  · intro i hi
    left
    rcases key i with ⟨_, k | k⟩ | ⟨_, k | k⟩ | ⟨_, k | k⟩ <;> first | exact k.2 | (rw [k.1] at hi; cases hi)

theorem runsOf_append (i : ℕ) (p q : List (Call A)) : runsOf i (p ++ q) = runsOf i p ++ runsOf i q := by
  induction p with
  | nil => rfl
  | cons x p ih =>
    cases x with
    | run j a => simp only [List.cons_append, runsOf]; split <;> simp [ih]
    | work => exact ih
    | join j => exact ih
    | reset j => exact ih

theorem runsOf_resets (i : ℕ) (rs : List ℕ) : runsOf i (rs.map (Call.reset (A := A))) = [] := by
  induction rs with
  | nil => rfl
  | cons r rs ih => exact ih

namespace Run

variable {c : Code A S} {calls : List (Call A)} {r0 : ℕ → S} (r : Run c calls r0)

theorem inv (hd : Disc (fun _ => .fresh) calls) (t : ℕ) : ∃ s, Inv s (r.st t) := by
  induction t with
  | zero =>
    refine ⟨fun _ => .fresh, ?_⟩
    rw [r.start]
    exact ⟨by simp, hd, fun _ _ => rfl, by simp, by simp⟩
  | succ t ih =>
    obtain ⟨s, hs⟩ := ih
    rw [r.step]
    cases hl : leaves (r.go t) (r.st t).child (r.st t).act with
    | false => exact ⟨s, inv_stay hs hl⟩
    | true => exact ⟨_, inv_leave hs hl⟩

theorem done_stay {t : ℕ} (hl : leaves (r.go t) (r.st t).child (r.st t).act = false) : r.done (t + 1) = r.done t := by
  unfold done
  rw [r.step]
  simp [St.step, hl]

theorem done_leave {t : ℕ} (hl : leaves (r.go t) (r.st t).child (r.st t).act = true) :
    ∃ x, (r.st t).act = some x ∧ r.done (t + 1) = r.done t ++ ((split (r.st t).rest).1.map .reset ++ [x]) := by
  cases e : (split (r.st t).rest).2 with
  | nil =>
    have : (r.st t).act = none := by unfold St.act; rw [e]; rfl
    rw [this] at hl; cases hl
  | cons x tl =>
    have ha : (r.st t).act = some x := by unfold St.act; rw [e]; rfl
    refine ⟨x, ha, ?_⟩
    have h1 := r.done_rest t
    have h2 := r.done_rest (t + 1)
    have h3 : (r.st (t + 1)).rest = tl := by rw [r.step]; simp [St.step, hl, e]
    rw [h3] at h2
    rw [(split_eq (r.st t).rest).1, e] at h1
    have : r.done t ++ ((split (r.st t).rest).1.map .reset ++ [x]) ++ tl = r.done (t + 1) ++ tl := by
      refine Eq.trans ?_ (h1.trans h2.symm)
      simp
    exact (List.append_cancel_right this).symm

/-- The runs executed grow by the run in whose state the parent is. -/
theorem runs_succ (t i : ℕ) : runsOf i (r.done (t + 1)) = runsOf i (r.done t) ++
    (match (r.st t).act with
     | some (.run j a) => if j = i then [a] else []
     | _ => []) := by
  cases hl : leaves (r.go t) (r.st t).child (r.st t).act with
  | false =>
    rw [r.done_stay hl]
    cases ea : (r.st t).act with
    | none => simp
    | some y =>
      cases y with
      | run j a => rw [ea] at hl; cases hl
      | work => simp
      | join j => simp
      | reset j => simp
  | true =>
    obtain ⟨x, hx, hd⟩ := r.done_leave hl
    rw [hd, hx, runsOf_append, runsOf_append, runsOf_resets]
    cases x <;> simp [runsOf]

/-- The registers of a child, as a sequence of calls. -/
def RegInv (c : Code A S) (i : ℕ) (as : List A) (s0 : S) (x : Child S) : Prop :=
  (x.phase ≠ .busy → Calls c i as s0 x.reg) ∧
  (x.phase = .busy → ∃ bs a s', as = bs ++ [a] ∧ Calls c i bs s0 s' ∧
    ∀ s'', Exec (c.body i) x.reg s'' → Exec (c.body i) (c.bind i a s') s'')

theorem regInv (hd : Disc (fun _ => .fresh) calls) (t i : ℕ) :
    RegInv c i (runsOf i (r.done t)) (r0 i) ((r.st t).child i) := by
  induction t with
  | zero =>
    have : r.done 0 = [] := by
      have := r.done_rest 0
      rw [r.start] at this
      simpa [St.init] using this
    rw [this, r.start]
    exact ⟨fun _ => .nil, by simp [St.init]⟩
  | succ t ih =>
    obtain ⟨s, hs⟩ := r.inv hd t
    rw [r.runs_succ]
    have hst : (r.st (t + 1)).child i = stepChild c (r.st t).act (split (r.st t).rest).1 i ((r.st t).child i) := by
      rw [r.step]; rfl
    rw [hst]
    by_cases hr : ∃ a, (r.st t).act = some (.run i a)
    · obtain ⟨a, ha⟩ := hr
      have hidle := hs.fresh i (hs.act_run ha)
      have h1 := ih.1 (by rw [hidle]; simp)
      simp only [ha, stepChild, hidle, if_true]
      exact ⟨by simp, fun _ => ⟨_, a, _, rfl, h1, fun _ h => h⟩⟩
    · have hnil : (match (r.st t).act with
          | some (.run j a) => if j = i then [a] else []
          | _ => []) = ([] : List A) := by
        cases ea : (r.st t).act with
        | none => rfl
        | some y =>
          cases y with
          | run j a =>
            have : j ≠ i := fun e => hr ⟨a, e ▸ ea⟩
            simp [this]
          | work => rfl
          | join j => rfl
          | reset j => rfl
      rw [hnil, List.append_nil]
      cases hp : ((r.st t).child i).phase with
      | idle =>
        have : stepChild c (r.st t).act (split (r.st t).rest).1 i ((r.st t).child i) = (r.st t).child i := by
          simp only [stepChild, hp]
          split
          · rename_i j a e2
            split
            · rename_i e3; exact absurd ⟨a, e3 ▸ e2⟩ hr
            · rfl
          · rfl
        rw [this]; exact ih
      | busy =>
        obtain ⟨bs, a, s', e1, e2, e3⟩ := ih.2 hp
        simp only [stepChild, hp]
        cases hb : c.body i ((r.st t).child i).reg with
        | mk v f =>
          cases f with
          | true =>
            refine ⟨fun _ => ?_, by simp⟩
            rw [e1]
            exact .snoc e2 (e3 _ (.last hb))
          | false =>
            refine ⟨by simp, fun _ => ⟨bs, a, s', e1, e2, fun s'' h => e3 _ (.next hb h)⟩⟩
      | fin =>
        have h1 := ih.1 (by rw [hp]; simp)
        simp only [stepChild, hp]
        split
        · exact ⟨fun _ => h1, by simp⟩
        · exact ih

end Run

/-! ## The claims -/

/-- The result of a sequence of calls is unique. -/
theorem exec_unique {body : S → S × Bool} {s a b : S} (h1 : Exec body s a) (h2 : Exec body s b) : a = b := by
  induction h1 with
  | last e =>
    cases h2 with
    | last e' => rw [e] at e'; exact (Prod.mk.inj e').1
    | next e' _ => rw [e] at e'; cases (Prod.mk.inj e').2
  | next e _ ih =>
    cases h2 with
    | last e' => rw [e] at e'; cases (Prod.mk.inj e').2
    | next e' h' =>
      rw [e] at e'
      exact ih ((Prod.mk.inj e').1 ▸ h')

variable {c : Code A S} {calls : List (Call A)} {r0 : ℕ → S}

/-- Whenever a child is not running its registers are those after calling its function once for each executed `run`, in
    order, with the arguments of that `run`. -/
theorem c61_call (r : Run c calls r0) (hd : Disc (fun _ => .fresh) calls) (t i : ℕ) (h : r.phase t i ≠ .busy) :
    Calls c i (runsOf i (r.done t)) (r0 i) (r.reg t i) :=
  (r.regInv hd t i).1 h

/-- Each executed `run` starts an execution with its arguments. -/
theorem c61_run (r : Run c calls r0) (hd : Disc (fun _ => .fresh) calls) (t i : ℕ) (a : A)
    (h : (r.st t).act = some (.run i a)) :
    r.phase t i = .idle ∧ r.phase (t + 1) i = .busy ∧ r.reg (t + 1) i = c.bind i a (r.reg t i) ∧
      ((r.st (t + 1)).child i).called = true := by
  obtain ⟨s, hs⟩ := r.inv hd t
  have hidle := hs.fresh i (hs.act_run h)
  refine ⟨hidle, ?_, ?_, ?_⟩ <;> simp [Run.phase, Run.reg, r.step, St.step, stepChild, hidle, h]

/-- When the parent leaves `join` the child has finished the calls before it, and the registers hold their result, also in
    the next cycle, where the parent may use the return value. -/
theorem c61_join (r : Run c calls r0) (hd : Disc (fun _ => .fresh) calls) (t i : ℕ)
    (h : (r.st t).act = some (.join i)) (hl : (r.st (t + 1)).rest ≠ (r.st t).rest) :
    r.phase t i = .fin ∧ Calls c i (runsOf i (r.done t)) (r0 i) (r.reg (t + 1) i) := by
  have hf : r.phase t i = .fin := by
    cases e : leaves (r.go t) (r.st t).child (r.st t).act with
    | false => exact absurd (by rw [r.step]; simp [St.step, e]) hl
    | true => rw [h] at e; simpa [leaves, Run.phase] using e
  refine ⟨hf, ?_⟩
  have h1 := c61_call r hd t i (by rw [hf]; simp)
  have : r.reg (t + 1) i = r.reg t i := by
    unfold Run.phase at hf
    simp only [Run.reg, r.step, St.step, stepChild, hf]
    split <;> rfl
  rw [this]; exact h1

/-- A child runs only between a `run` and its end. -/
theorem c61_starts (r : Run c calls r0) (t i : ℕ) (h0 : r.phase t i ≠ .busy) (h1 : r.phase (t + 1) i = .busy) :
    ∃ a, (r.st t).act = some (.run i a) := by
  unfold Run.phase at h0 h1
  simp only [r.step, St.step, stepChild] at h1
  cases e : ((r.st t).child i).phase with
  | busy => exact absurd e h0
  | fin =>
    simp only [e] at h1
    split at h1
    · cases h1
    · rw [e] at h1; cases h1
  | idle =>
    simp only [e] at h1
    split at h1
    · rename_i j a e2
      split at h1
      · rename_i e3; exact ⟨a, e3 ▸ e2⟩
      · rw [e] at h1; cases h1
    · rw [e] at h1; cases h1

/-- `called` says that the child was started and not reset since. -/
theorem c61_called (r : Run c calls r0) (t i : ℕ) : ((r.st t).child i).called = true ↔ r.phase t i ≠ .idle := by
  unfold Run.phase
  induction t with
  | zero => rw [r.start]; simp [St.init]
  | succ t ih =>
    rw [r.step]
    simp only [St.step, stepChild]
    cases e : ((r.st t).child i).phase with
    | idle =>
      rw [e] at ih
      simp only
      split
      · split
        · simp
        · rw [e]; exact ih
      · rw [e]; exact ih
    | busy =>
      rw [e] at ih
      simp only
      constructor
      · intro _; split <;> simp
      · intro _; exact ih.2 (by simp)
    | fin =>
      rw [e] at ih
      simp only
      split
      · simp
      · rw [e]; exact ih

/-- If the bodies terminate and the other statements do, every call is executed. -/
theorem c61_terminates (r : Run c calls r0) (hd : Disc (fun _ => .fresh) calls)
    (hb : ∀ i s, ∃ s', Exec (c.body i) s s') (hg : ∀ t, ∃ u, t ≤ u ∧ r.go u = true) :
    ∃ t, ∀ x ∈ (r.st t).rest, ∃ i, x = .reset i := by
  have stay : ∀ t, leaves (r.go t) (r.st t).child (r.st t).act = false → (r.st (t + 1)).rest = (r.st t).rest := by
    intro t h; rw [r.step]; simp [St.step, h]
  have leave : ∀ t, leaves (r.go t) (r.st t).child (r.st t).act = true →
      (r.st (t + 1)).rest.length < (r.st t).rest.length := by
    intro t h
    have h1 : (r.st (t + 1)).rest = (split (r.st t).rest).2.tail := by rw [r.step]; simp [St.step, h]
    have h2 := congrArg List.length (split_eq (r.st t).rest).1
    cases e : (split (r.st t).rest).2 with
    | nil =>
      have : (r.st t).act = none := by unfold St.act; rw [e]; rfl
      rw [this] at h; cases h
    | cons x tl =>
      rw [h1, e]
      rw [e] at h2
      simp at h2 ⊢
      omega
  -- a call that waits is executed
  have progress : ∀ t, (r.st t).act ≠ none → ∃ u, t ≤ u ∧ (r.st u).rest.length < (r.st t).rest.length := by
    intro t ha
    cases ea : (r.st t).act with
    | none => exact absurd ea ha
    | some y =>
      cases y with
      | run i a => exact ⟨t + 1, by omega, leave t (by rw [ea]; rfl)⟩
      | reset i =>
        unfold St.act at ea
        cases e : (split (r.st t).rest).2 with
        | nil => rw [e] at ea; cases ea
        | cons z tl =>
          rw [e] at ea
          cases Option.some.inj ea
          exact absurd e ((split_eq (r.st t).rest).2 i tl)
      | work =>
        obtain ⟨u, hu, hgu⟩ := hg t
        have : ∀ n v, v + n = u → (r.st v).act = some .work → ∃ w, v ≤ w ∧
            (r.st w).rest.length < (r.st v).rest.length := by
          intro n
          induction n with
          | zero =>
            intro v hv hw
            have : v = u := by omega
            subst this
            exact ⟨v + 1, by omega, leave v (by rw [hw]; exact hgu)⟩
          | succ n ih =>
            intro v hv hw
            cases hl : leaves (r.go v) (r.st v).child (r.st v).act with
            | true => exact ⟨v + 1, by omega, leave v hl⟩
            | false =>
              have hs := stay v hl
              obtain ⟨w, h1, h2⟩ := ih (v + 1) (by omega) (by unfold St.act at hw ⊢; rw [hs]; exact hw)
              exact ⟨w, by omega, by rw [← hs]; exact h2⟩
        exact this (u - t) t (by omega) ea
      | join i =>
        have fin : ∀ v, (r.st v).act = some (.join i) → ((r.st v).child i).phase = .fin → ∃ w, v ≤ w ∧
            (r.st w).rest.length < (r.st v).rest.length := by
          intro v hv hf
          exact ⟨v + 1, by omega, leave v (by rw [hv]; simp [leaves, hf])⟩
        have busy : ∀ s s', Exec (c.body i) s s' → ∀ v, (r.st v).act = some (.join i) → ((r.st v).child i).phase = .busy →
            ((r.st v).child i).reg = s → ∃ w, v ≤ w ∧ (r.st w).rest.length < (r.st v).rest.length := by
          intro s s' he
          induction he with
          | last e =>
            intro v hv hp hr
            have hl : leaves (r.go v) (r.st v).child (r.st v).act = false := by rw [hv]; simp [leaves, hp]
            have hs := stay v hl
            have hp' : ((r.st (v + 1)).child i).phase = .fin := by
              rw [r.step]; simp [St.step, stepChild, hp, hr, e]
            obtain ⟨w, h1, h2⟩ := fin (v + 1) (by unfold St.act at hv ⊢; rw [hs]; exact hv) hp'
            exact ⟨w, by omega, by rw [← hs]; exact h2⟩
          | next e _ ih =>
            intro v hv hp hr
            have hl : leaves (r.go v) (r.st v).child (r.st v).act = false := by rw [hv]; simp [leaves, hp]
            have hs := stay v hl
            obtain ⟨w, h1, h2⟩ := ih (v + 1) (by unfold St.act at hv ⊢; rw [hs]; exact hv)
              (by rw [r.step]; simp [St.step, stepChild, hp, hr, e])
              (by rw [r.step]; simp [St.step, stepChild, hp, hr, e])
            exact ⟨w, by omega, by rw [← hs]; exact h2⟩
        cases hp : ((r.st t).child i).phase with
        | fin => exact fin t ea hp
        | busy =>
          obtain ⟨s', hs'⟩ := hb i ((r.st t).child i).reg
          exact busy _ _ hs' t ea hp rfl
        | idle =>
          exfalso
          obtain ⟨s, hs⟩ := r.inv hd t
          have h1 := hs.act_join ea
          cases es : s i with
          | fresh => exact h1 es
          | started => exact hs.started i es hp
          | pending => exact hs.settled i es
          | joined =>
            rcases hs.joined i es with h | h
            · rw [hp] at h; cases h
            · exact h.2.2 ea
  have all : ∀ n t, (r.st t).rest.length = n → ∃ u, (r.st u).act = none := by
    intro n
    induction n using Nat.strongRecOn with
    | _ n ih =>
      intro t ht
      by_cases h : (r.st t).act = none
      · exact ⟨t, h⟩
      · obtain ⟨u, _, h2⟩ := progress t h
        exact ih _ (by omega) u rfl
  obtain ⟨u, hu⟩ := all _ 0 rfl
  refine ⟨u, ?_⟩
  intro x hx
  have hn : (split (r.st u).rest).2 = [] := by
    unfold St.act at hu
    cases e : (split (r.st u).rest).2 with
    | nil => rfl
    | cons y tl => rw [e] at hu; cases hu
  have := (split_eq (r.st u).rest).1
  rw [hn, List.append_nil] at this
  rw [this] at hx
  obtain ⟨i, _, e⟩ := List.mem_map.1 hx
  exact ⟨i, e.symm⟩

/-! ## Arguments -/

/-- Positional arguments go to the first parameters, the others take their defaults. -/
theorem c61_bind {E : Type} (params : List String) (defaults args : List E) (h : args.length ≤ params.length) :
    ∃ bs, bindArgs params defaults args [] = .ok bs ∧ bs.map Prod.fst = params ∧
      ∀ k (hk : k < bs.length), (∀ ha : k < args.length, bs[k].2 = .given args[k]) ∧
        (args.length ≤ k → ∀ hdn : params.length ≤ k + defaults.length,
          ∃ hd2 : k + defaults.length - params.length < defaults.length,
            bs[k].2 = .default (defaults[k + defaults.length - params.length])) := by
  refine ⟨_, by rw [bindArgs, if_neg (Nat.not_lt.2 h)], ?_, ?_⟩
  · apply List.ext_getElem?
    intro k
    cases e : params[k]? <;> simp [e]
  · intro k hk
    simp only [List.length_mapIdx] at hk
    refine ⟨fun ha => by simp [ha], fun hle hdn => ⟨by omega, ?_⟩⟩
    have h1 : args[k]? = none := by simp [hle]
    have h2 : k + defaults.length - params.length < defaults.length := by omega
    simp [h1, h2, hdn]

/-- Too many arguments raise `TypeError`. -/
theorem c61_too_many {E : Type} (params : List String) (defaults args : List E) (kws : List (String × E))
    (h : params.length < args.length) : bindArgs params defaults args kws = .error .typeError := by
  simp [bindArgs, h]

/-- A keyword argument is never bound: `run` raises an exception. -/
theorem c61_not_kwargs {E : Type} (params : List String) (defaults args : List E) (kw : String × E) (kws : List (String × E)) :
    ∃ e, bindArgs params defaults args (kw :: kws) = .error e := by
  simp only [bindArgs]
  split
  · exact ⟨_, rfl⟩
  · split <;> exact ⟨_, rfl⟩

/-- In a second `run` a parameter without argument and default keeps the value of the previous call, where Python raises `TypeError`. -/
theorem c61_not_missing : bindArgs ["x", "y"] [] [(5 : ℕ)] [] = .ok [("x", .given 5), ("y", .old)] := rfl

/-! ## Orders of calls that fail -/

/-- The child used in the tests: two cycles, the second adds ten to the argument. -/
def tc : Code ℕ (ℕ × Bool) where
  bind _ a _ := (a, false)
  body _ s := if s.2 then ((s.1 + 10, false), true) else ((s.1, true), false)

/-- The run of a program. -/
def runOf (c : Code A S) (calls : List (Call A)) (r0 : ℕ → S) (go : ℕ → Bool) : ℕ → St A S
  | 0 => St.init calls r0
  | t + 1 => (runOf c calls r0 go t).step c (go t)

/-- A run exists for each program and environment. -/
def theRun (c : Code A S) (calls : List (Call A)) (r0 : ℕ → S) (go : ℕ → Bool) : Run c calls r0 :=
  ⟨go, runOf c calls r0 go, rfl, fun _ => rfl⟩

/-- The order of the library's examples: a statement between `reset` and the next `run`. -/
def goodCalls : List (Call ℕ) := [.run 0 1, .run 1 2, .work, .join 0, .join 1, .reset 0, .work, .run 0 7, .join 0]

theorem disc_good : Disc (fun _ => .fresh) goodCalls := by
  simp [goodCalls, Disc, upd, settle]

theorem tc_terminates (i : ℕ) (s : ℕ × Bool) : ∃ s', Exec (tc.body i) s s' := by
  obtain ⟨a, b⟩ := s
  cases b with
  | true => exact ⟨_, .last rfl⟩
  | false => exact ⟨_, .next rfl (.last rfl)⟩

/-- `reset` directly followed by `run`: both are in one state of the parent, the child is then in `end_state`, the start is
    lost, and the following `join` never returns. -/
theorem c61_not_reset_run (go : ℕ → Bool) :
    let r := theRun tc [.run 0 1, .join 0, .reset 0, .run 0 2, .join 0] (fun _ => (0, false)) go
    ∀ t, 5 ≤ t → (r.st t).act = some (.join 0) ∧ r.phase t 0 = .idle := by
  intro r t ht
  have h5 : (r.st 5).rest = [.join 0] ∧ r.phase 5 0 = .idle := ⟨rfl, rfl⟩
  have : (r.st t).rest = [.join 0] ∧ r.phase t 0 = .idle := by
    induction ht with
    | refl => exact h5
    | @step t _ ih =>
      obtain ⟨h1, h2⟩ := ih
      have ha : (r.st t).act = some (.join 0) := by unfold St.act; rw [h1]; rfl
      unfold Run.phase at h2 ⊢
      rw [r.step]
      constructor
      · simp [St.step, ha, leaves, h2, h1]
      · simp [St.step, stepChild, ha, h2]
  refine ⟨?_, this.2⟩
  unfold St.act; rw [this.1]; rfl

/-- `run` after `join` without `reset`: the start is lost, `join` returns at once with the result of the first call. -/
theorem c61_not_no_reset (go : ℕ → Bool) :
    let r := theRun tc [.run 0 1, .join 0, .run 0 2, .join 0, .work] (fun _ => (0, false)) go
    r.done 6 = [.run 0 1, .join 0, .run 0 2, .join 0] ∧ r.phase 6 0 = .fin ∧ r.reg 6 0 = (11, false) :=
  ⟨rfl, rfl, rfl⟩

/-- `run` while the child runs: the start is lost. -/
theorem c61_not_running (go : ℕ → Bool) :
    let r := theRun tc [.run 0 1, .run 0 2, .join 0, .work] (fun _ => (0, false)) go
    r.done 4 = [.run 0 1, .run 0 2, .join 0] ∧ r.phase 4 0 = .fin ∧ r.reg 4 0 = (11, false) :=
  ⟨rfl, rfl, rfl⟩

/-! ## Examples -/

example : ∃ t, ∀ x ∈ ((theRun tc goodCalls (fun _ => (0, false)) (fun _ => true)).st t).rest, ∃ i, x = .reset i :=
  c61_terminates _ disc_good tc_terminates (fun t => ⟨t, Nat.le_refl t, rfl⟩)

example : let r := theRun tc goodCalls (fun _ => (0, false)) (fun _ => true)
    (r.st 11).rest = [] ∧ r.phase 11 0 = .fin ∧ r.reg 11 0 = (17, false) ∧ runsOf 0 (r.done 11) = [1, 7] := by
  exact ⟨rfl, rfl, rfl, rfl⟩

example : Calls tc 0 [1, 7] (0, false) (17, false) := by
  have h1 : Calls tc 0 ([] ++ [1]) (0, false) (11, false) := .snoc .nil (.next rfl (.last rfl))
  exact Calls.snoc h1 (.next rfl (.last rfl))

example : (theRun tc goodCalls (fun _ => (0, false)) (fun _ => true)).phase 3 0 ≠ .busy := by decide

example : ((theRun tc goodCalls (fun _ => (0, false)) (fun _ => true)).st 0).act = some (.run 0 1) := rfl

example : ((theRun tc goodCalls (fun _ => (0, false)) (fun _ => true)).st 3).act = some (.join 0) ∧
    ((theRun tc goodCalls (fun _ => (0, false)) (fun _ => true)).st 4).rest.length = 5 := ⟨rfl, rfl⟩

example : ["x"].length < [(5 : ℕ), 6].length := by decide

example : bindArgs ["x", "y", "z"] [8, 9] [(5 : ℕ)] [] = .ok [("x", .given 5), ("y", .default 8), ("z", .default 9)] := rfl

end ThreadRun
