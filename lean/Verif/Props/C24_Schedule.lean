import Verif.Lemmas.SchedOps
import Verif.Lemmas.SchedAsap
import Mathlib.Tactic.Linarith
import Mathlib.Tactic.IntervalCases
import Mathlib.Data.List.Forall2

/-!
# C24: scheduling preserves the meaning of a stream graph

A graph `G` of `N` nodes is what the user built (`Fresh`: operands are created before the node that uses them, nothing is
scheduled).  `implement` is the scheduler with the balancing of the outputs: it returns the nodes that drive the outputs
and the graph with the delays.  `Run` is the circuit; `Op.Drives` is the contract of an operator, which
Lemmas/SchedOps.lean derives from the registers generated for stateless operators, delays, `prev`, accumulators and
multipliers.
-/

namespace Sch

variable {G : ℕ → Node} {N : ℕ} {en : ℕ → Bool}

/-- `a` is `b` behind some delay registers. -/
inductive DelayOf (h : Heap) (b : ℕ) : ℕ → Prop
  | self : DelayOf h b b
  | delay {a p : ℕ} : (h.node a).kind = .op delayOp → (h.node a).args = [p] → DelayOf h b p → DelayOf h b a

theorem Inv.delayOf {h : Heap} (I : Inv G N h) : ∀ e id, id < h.next → (h.node id).end_ = some e →
    DelayOf h (h.origin id) id := by
  intro e
  induction e using Nat.strongRecOn with
  | _ e ih =>
  intro id hid he
  by_cases hN : id < N
  · rw [I.origin_self hN]; exact .self
  · obtain ⟨o, p, e', e0, q1, q2, q3, q4, q5, q6, q7, q8, _, _⟩ := I.delay id (by omega) hid
    have ho : h.origin id = o := by unfold Heap.origin; rw [q3]; rfl
    have he' : e = e' + 1 := by rw [q5] at he; cases he; rfl
    have := ih e' (by omega) p (I.argsLt id hid p (by rw [q2]; simp)) q8
    rw [ho, ← q7]
    exact .delay q1 q2 this

theorem Inv.delayOf_at {h : Heap} (I : Inv G N h) {id s : ℕ} (hid : id < h.next) (ha : h.At id s) :
    DelayOf h (h.origin id) id := by
  rcases ha with ha | ⟨⟨v, hv⟩, _⟩
  · exact I.delayOf s id hid ha
  · have hN : id < N := by
      by_contra hge
      obtain ⟨_, _, _, _, w, _⟩ := I.delay id (by omega) hid
      rw [hv] at w; cases w
    rw [I.origin_self hN]; exact .self

theorem impl_inv (F : Fresh G N) {outs : List ℕ} (ho : ∀ o ∈ outs, o < N) {rs : List ℕ} {h : Heap}
    (hi : implement ⟨G, N⟩ outs = some (rs, h)) : ∃ d, Inv G N h ∧ (∀ r ∈ rs, r < h.next) ∧ rs.map h.origin = outs ∧
      ∀ r ∈ rs, h.At r d := by
  obtain ⟨h1, rs', h', q1, q2, q3, q4, q5, q6, q7, q8, q9⟩ := implement_spec F outs ho
  rw [hi] at q2
  cases q2
  exact ⟨_, q4, q7, q8, q9⟩

/-- Scheduling an acyclic graph never raises: no operand ends after the stage it is needed in, and no loop is reported. -/
theorem c24_total (F : Fresh G N) (outs : List ℕ) (ho : ∀ o ∈ outs, o < N) : ∃ rs h, implement ⟨G, N⟩ outs = some (rs, h) := by
  obtain ⟨h1, rs, h, _, q2, _⟩ := implement_spec F outs ho
  exact ⟨rs, h, q2⟩

/-- Every scheduled operator takes `lat` stages, and all its operands arrive in its start stage or are constant; what its
    `dependency` computes is ready by then. -/
theorem c24_operands (F : Fresh G N) {outs : List ℕ} (ho : ∀ o ∈ outs, o < N) {rs : List ℕ} {h : Heap}
    (hi : implement ⟨G, N⟩ outs = some (rs, h)) {id s : ℕ} {o : Op} (hid : id < h.next) (hk : (h.node id).kind = .op o)
    (hs : (h.node id).start = some s) :
    (h.node id).end_ = some (s + o.lat) ∧
    (∀ a ∈ (h.node id).args, (h.node a).end_ = some s ∨ ∃ v, (h.node a).kind = .const v) ∧
    ∀ a ∈ (h.node id).deps, (∃ e, (h.node a).end_ = some e ∧ e ≤ s) ∨ ∃ v, (h.node a).kind = .const v := by
  obtain ⟨d, I, _, _, _⟩ := impl_inv F ho hi
  by_cases hN : id < N
  · rcases I.op id hN o (by rw [← I.kind id hN, hk]) with ⟨q, _⟩ | ⟨s', q1, q2, q3, q4⟩
    · rw [hs] at q; cases q
    · rw [hs] at q1; cases q1
      refine ⟨q2, fun a ha => ?_, fun a ha => ?_⟩
      · rcases q3 a ha with r | ⟨r, _⟩
        · exact Or.inl r
        · exact Or.inr r
      · rcases (q4 a ha).2 with r | ⟨r, _⟩
        · exact Or.inl r
        · exact Or.inr r
  · obtain ⟨o', p, e, e0, q1, q2, q3, q4, q5, q6, q7, q8, _, _, q11⟩ := I.delay id (by omega) hid
    rw [hk] at q1; cases q1
    rw [hs] at q4; cases q4
    refine ⟨q5, fun a ha => ?_, fun a ha => ?_⟩
    · rw [q2] at ha; simp at ha; subst ha; exact Or.inl q8
    · rw [q11] at ha; simp at ha

/-- Scheduling only inserts delays: the operands of every node of the user are the original ones behind delay registers. -/
theorem c24_same_graph (F : Fresh G N) {outs : List ℕ} (ho : ∀ o ∈ outs, o < N) {rs : List ℕ} {h : Heap}
    (hi : implement ⟨G, N⟩ outs = some (rs, h)) {id s : ℕ} (hid : id < N) (hs : (h.node id).start = some s) :
    (h.node id).kind = (G id).kind ∧ (h.node id).deps = (G id).deps ∧
    ((∃ o, (G id).kind = .op o) → List.Forall₂ (DelayOf h) (G id).args (h.node id).args) := by
  obtain ⟨d, I, _, _, _⟩ := impl_inv F ho hi
  refine ⟨I.kind id hid, I.deps id hid, ?_⟩
  rintro ⟨o, hk⟩
  rcases I.op id hid o hk with ⟨q, _⟩ | ⟨s', q1, q2, q3, q4⟩
  · rw [hs] at q; cases q
  · rw [← I.origin id hid, List.forall₂_map_left_iff, List.forall₂_same]
    exact fun a ha => I.delayOf_at (I.argsLt id (lt_of_lt_of_le hid I.next) a ha) (q3 a ha)

/-- All outputs are balanced: there is one depth such that every output is the node of the user behind delay registers, in
    that stage, or constant. -/
theorem c24_balanced (F : Fresh G N) {outs : List ℕ} (ho : ∀ o ∈ outs, o < N) {rs : List ℕ} {h : Heap}
    (hi : implement ⟨G, N⟩ outs = some (rs, h)) :
    List.Forall₂ (DelayOf h) outs rs ∧
    ∃ d, ∀ r ∈ rs, (h.node r).end_ = some d ∨ ∃ v, (h.node r).kind = .const v := by
  obtain ⟨d, I, h1, h2, h3⟩ := impl_inv F ho hi
  refine ⟨?_, d, fun r hr => ?_⟩
  · rw [← h2, List.forall₂_map_left_iff, List.forall₂_same]
    exact fun r hr => I.delayOf_at (h1 r hr) (h3 r hr)
  · rcases h3 r hr with q | ⟨q, _⟩
    · exact Or.inl q
    · exact Or.inr q

/-- The depth is as small as it can be: every output is in the stage given by the longest chain of operators that any output
    depends on (through operands or `dependency`), with the latencies as lengths; 0 if there is none. -/
theorem c24_depth (F : Fresh G N) {outs : List ℕ} (ho : ∀ o ∈ outs, o < N) {rs : List ℕ} {h : Heap}
    (hi : implement ⟨G, N⟩ outs = some (rs, h)) :
    ∃ d, (∀ r ∈ rs, (h.node r).end_ = some d ∨ ∃ v, (h.node r).kind = .const v) ∧
      (d = 0 ∨ ∃ o ∈ outs, Chain G o d) ∧ ∀ o ∈ outs, ∀ n, Chain G o n → n ≤ d := by
  obtain ⟨h1, rs', h', q1, q2, q3, q4, q5, q6, q7, q8, q9⟩ := implement_spec F outs ho
  rw [hi] at q2
  cases q2
  have hasap := implement_asap F ho hi
  have keep : ∀ o' ∈ outs, ∀ e, (h1.node o').end_ = some e → (h.node o').end_ = some e := fun o' ho' e he =>
    q5.end_ o' (lt_of_lt_of_le (ho o' ho') q3.next) e he
  refine ⟨depth h1 outs, fun r hr => (q9 r hr).imp (fun w => w) fun w => w.1, ?_, ?_⟩
  · have hd : maxStage (some 0 :: outs.map fun o => (h1.node o).end_) = some (depth h1 outs) := by
      obtain ⟨M, w, _⟩ := maxStage_aux (some 0 :: outs.map fun o => (h1.node o).end_) none (some 0) (by simp) 0 rfl
      unfold depth maxStage
      rw [w]; rfl
    rcases List.mem_cons.1 (maxStage_mem hd) with w | w
    · left; simpa using w
    · obtain ⟨o', ho', w⟩ := List.mem_map.1 w
      exact Or.inr ⟨o', ho', end_chain F q4 hasap o' (ho o' ho') _ (keep o' ho' _ w)⟩
  · intro o' ho' n p
    obtain ⟨w1, w2⟩ := q6 o' ho'
    rcases w1 with ⟨e, w1⟩ | ⟨v, w1⟩
    · exact le_trans (p.le q4 (ho o' ho') e (keep o' ho' e w1)) (w2 e w1)
    · rw [q3.kind o' (ho o' ho')] at w1
      exact absurd w1 (p.not_const v)

/-- The nodes that are implemented: those the outputs depend on (`AllVisitor`, stream/visitor.py:123-175). -/
inductive Reach (h : Heap) (rs : List ℕ) : ℕ → Prop
  | out {r : ℕ} : r ∈ rs → Reach h rs r
  | arg {id a : ℕ} : Reach h rs id → a ∈ (h.node id).args ++ (h.node id).deps → Reach h rs a

theorem Inv.start_le {h : Heap} (I : Inv G N h) {id e : ℕ} (hid : id < h.next) (he : (h.node id).end_ = some e) :
    ∃ s, (h.node id).start = some s ∧ s ≤ e := by
  by_cases hN : id < N
  · cases hk : (G id).kind with
    | const v => rw [(I.const id hN v hk).1] at he; cases he
    | input k => rw [(I.input id hN k hk).1] at he; exact ⟨e, he, le_refl _⟩
    | op o =>
      rcases I.op id hN o hk with ⟨_, q, _⟩ | ⟨s', q1, q2, _⟩
      · rw [he] at q; cases q
      · rw [he] at q2; cases q2; exact ⟨s', q1, by omega⟩
  · obtain ⟨o', p, e', e0, q1, q2, q3, q4, q5, _⟩ := I.delay id (by omega) hid
    rw [he] at q5; cases q5; exact ⟨e', q4, by omega⟩

/-- Every implemented node is scheduled in a stage of the pipeline, so that its valid flag exists, unless it is constant; and
    the nodes it uses are implemented before it, in the order by start stage (-1 for constants) and `object_id` of the
    allocator. -/
theorem c24_allocation (F : Fresh G N) {outs : List ℕ} (ho : ∀ o ∈ outs, o < N) {rs : List ℕ} {h : Heap}
    (hi : implement ⟨G, N⟩ outs = some (rs, h)) :
    ∃ d, (∀ r ∈ rs, (h.node r).end_ = some d ∨ ∃ v, (h.node r).kind = .const v) ∧
      (∀ id, Reach h rs id → id < h.next ∧ ((∃ v, (h.node id).kind = .const v) ∨
        ∃ s, (h.node id).start = some s ∧ s ≤ d)) ∧
      ∀ id o, Reach h rs id → (h.node id).kind = .op o → ∀ a ∈ (h.node id).args,
        (h.node a).start = none ∨ ∃ s s', (h.node a).start = some s ∧ (h.node id).start = some s' ∧
          (s < s' ∨ s = s' ∧ a < id) := by
  obtain ⟨d, I, h1, h2, h3⟩ := impl_inv F ho hi
  have reach : ∀ id, Reach h rs id → id < h.next ∧ ((∃ v, (h.node id).kind = .const v) ∧ (h.node id).end_ = none ∨
      ∃ e, (h.node id).end_ = some e ∧ e ≤ d) := by
    intro id hr
    induction hr with
    | out hr =>
      refine ⟨h1 _ hr, ?_⟩
      rcases h3 _ hr with q | q
      · exact Or.inr ⟨d, q, le_refl _⟩
      · exact Or.inl q
    | @arg id a hr ha ih =>
      obtain ⟨hid, ih⟩ := ih
      by_cases hN : id < N
      · cases hk : (G id).kind with
        | const v =>
          obtain ⟨f1, f2⟩ := F.leaf id hN (by rw [hk]; simp)
          rw [I.deps id hN, f2, List.map_eq_nil_iff.1 ((I.origin id hN).trans f1)] at ha; simp at ha
        | input k =>
          obtain ⟨f1, f2⟩ := F.leaf id hN (by rw [hk]; simp)
          rw [I.deps id hN, f2, List.map_eq_nil_iff.1 ((I.origin id hN).trans f1)] at ha; simp at ha
        | op o =>
          rcases I.op id hN o hk with ⟨_, q, _⟩ | ⟨s', q1, q2, q3, q4⟩
          · rcases ih with ⟨⟨v, w⟩, _⟩ | ⟨e, w, _⟩
            · rw [I.kind id hN, hk] at w; cases w
            · rw [q] at w; cases w
          · have hle : s' ≤ d := by
              rcases ih with ⟨_, w⟩ | ⟨e, w, w'⟩
              · rw [q2] at w; cases w
              · rw [q2] at w; cases w; omega
            rcases List.mem_append.1 ha with ha | ha
            · refine ⟨I.argsLt id hid a ha, ?_⟩
              rcases q3 a ha with r | r
              · exact Or.inr ⟨s', r, hle⟩
              · exact Or.inl r
            · obtain ⟨w1, w2⟩ := q4 a ha
              refine ⟨lt_of_lt_of_le w1 I.next, ?_⟩
              rcases w2 with ⟨e, r, r'⟩ | r
              · exact Or.inr ⟨e, r, by omega⟩
              · exact Or.inl r
      · obtain ⟨o', p, e, e0, q1, q2, q3, q4, q5, q6, q7, q8, _, _, q11⟩ := I.delay id (by omega) hid
        rw [q2, q11] at ha
        simp at ha
        subst ha
        refine ⟨I.argsLt id hid a (by rw [q2]; simp), Or.inr ⟨e, q8, ?_⟩⟩
        rcases ih with ⟨⟨v, w⟩, _⟩ | ⟨e', w, w'⟩
        · rw [q1] at w; cases w
        · rw [q5] at w; cases w; omega
  refine ⟨d, fun r hr => ?_, fun id hr => ?_, fun id o hr hk a ha => ?_⟩
  · rcases h3 r hr with q | ⟨q, _⟩
    · exact Or.inl q
    · exact Or.inr q
  · obtain ⟨hid, q⟩ := reach id hr
    refine ⟨hid, ?_⟩
    rcases q with ⟨q, _⟩ | ⟨e, q, q'⟩
    · exact Or.inl q
    · obtain ⟨s, w, w'⟩ := I.start_le hid q
      exact Or.inr ⟨s, w, by omega⟩
  · obtain ⟨hid, q⟩ := reach id hr
    obtain ⟨hal, qa⟩ := reach a (.arg hr (List.mem_append_left _ ha))
    rcases q with ⟨⟨v, q⟩, _⟩ | ⟨e, q, q'⟩
    · rw [hk] at q; cases q
    obtain ⟨s', w, w'⟩ := I.start_le hid q
    obtain ⟨_, c2, _⟩ := c24_operands F ho hi hid hk w
    rcases c2 a ha with r | ⟨v, r⟩
    · obtain ⟨s, v, v'⟩ := I.start_le hal r
      refine Or.inr ⟨s, s', v, w, ?_⟩
      rcases Nat.lt_or_eq_of_le v' with hlt | heq
      · exact Or.inl hlt
      · refine Or.inr ⟨heq, ?_⟩
        have haN : a < N := by
          by_contra hge
          obtain ⟨o', p, e, e0, q1, q2, q3, q4, q5, _⟩ := I.delay a (by omega) hal
          rw [v] at q4; rw [r] at q5; cases q4; cases q5; omega
        by_cases hN : id < N
        · have hk' : (G id).kind = .op o := by rw [← I.kind id hN, hk]
          have : a ∈ (G id).args := by
            rw [← I.origin id hN]; exact List.mem_map.2 ⟨a, ha, I.origin_self haN⟩
          exact F.args id hN a (by simp [this])
        · omega
    · left
      by_cases haN : a < N
      · exact (I.const a haN v (by rw [← I.kind a haN, r])).2
      · obtain ⟨_, _, _, _, w, _⟩ := I.delay a (by omega) hal
        rw [r] at w; cases w

/-! ### The values -/

/-- The value of an output in cycle `t` is the value of the graph (`mean`: what the operators compute on the inputs, one
    record for each cycle in which the stream advances) on the inputs up to `d` advances before, for every stall schedule
    `en`, every input history, every schedule of `ivalid`; from the moment the pipeline was filled.  `mem` is the number of
    records the graph remembers besides the last one (0 for stateless operators and gated accumulators).  An
    operator that remembers more must ignore what comes before the first valid operands. -/
theorem c24_values_lead (F : Fresh G N) {outs : List ℕ} (ho : ∀ o ∈ outs, o < N) {rs : List ℕ} {h : Heap}
    (hi : implement ⟨G, N⟩ outs = some (rs, h)) {iv : Option (ℕ → Bool)} {x : ℕ → ℕ → Int} {valid : ℕ → ℕ → Bool}
    {sig : ℕ → ℕ → Int} (R : Run h en iv x valid sig) {mem : ℕ → ℕ} (C : CalmL G N iv.isSome mem) :
    ∃ d, (∀ r ∈ rs, (h.node r).end_ = some d ∨ ∃ v, (h.node r).kind = .const v) ∧
      List.Forall₂ (fun o r => ∀ t, d + mem o ≤ (cyc en t).length →
        sig r t = mean G o (((cyc en t ++ [t]).take ((cyc en t).length + 1 - d)).map (recAt iv x))) outs rs := by
  obtain ⟨d, I, h1, h2, h3⟩ := impl_inv F ho hi
  refine ⟨d, fun r hr => ?_, ?_⟩
  · rcases h3 r hr with q | ⟨q, _⟩
    · exact Or.inl q
    · exact Or.inr q
  · rw [← h2, List.forall₂_map_left_iff, List.forall₂_same]
    intro r hr t ht
    rcases h3 r hr with q | ⟨⟨v, q⟩, _⟩
    · exact aligned F I R C _ d r (h1 r hr) rfl q t ht
    · have haN : r < N := by
        by_contra hge
        obtain ⟨_, _, _, _, w, _⟩ := I.delay r (by omega) (h1 r hr)
        rw [q] at w; cases w
      rw [R.const r v (h1 r hr) q t, I.origin_self haN, mean_const (by rw [← I.kind r haN, q])]

/-- The same for graphs of stateless operators, `prev` and gated accumulators. -/
theorem c24_values (F : Fresh G N) {outs : List ℕ} (ho : ∀ o ∈ outs, o < N) {rs : List ℕ} {h : Heap}
    (hi : implement ⟨G, N⟩ outs = some (rs, h)) {iv : Option (ℕ → Bool)} {x : ℕ → ℕ → Int} {valid : ℕ → ℕ → Bool}
    {sig : ℕ → ℕ → Int} (R : Run h en iv x valid sig) {mem : ℕ → ℕ} (C : Calm G N iv.isSome mem) :
    ∃ d, (∀ r ∈ rs, (h.node r).end_ = some d ∨ ∃ v, (h.node r).kind = .const v) ∧
      List.Forall₂ (fun o r => ∀ t, d + mem o ≤ (cyc en t).length →
        sig r t = mean G o (((cyc en t ++ [t]).take ((cyc en t).length + 1 - d)).map (recAt iv x))) outs rs :=
  c24_values_lead F ho hi R C.lead

/-- A graph that remembers `mem` records: its value depends on the last `mem + 1` records. -/
theorem mean_window (F : Fresh G N) {mem : ℕ → ℕ} (C : Calm G N false mem) : ∀ id < N, ∀ g h : List Rec,
    h.length = mem id + 1 → mean G id (g ++ h) = mean G id h := by
  intro id
  induction id using Nat.strongRecOn with
  | _ id ih =>
  intro hN g h hl
  have hne : h ≠ [] := by intro h0; subst h0; simp at hl
  have hlast : ∀ (g h : List Rec), h ≠ [] → (g ++ h).getLast? = h.getLast? := by
    intro g h hne; rw [List.getLast?_append_of_ne_nil _ hne]
  cases hk : (G id).kind with
  | const v => rw [mean_const hk, mean_const hk]
  | input k => rw [mean_input hk, mean_input hk, hlast g h hne]
  | op o =>
    rw [mean_op F hN hk, mean_op F hN hk]
    rcases C id hN o hk with ⟨m, hw, hmle, hm⟩ | ⟨hg, _⟩
    · have split : ∀ l : Hist, m + 1 ≤ l.length → o.f l = o.f (l.drop (l.length - (m + 1))) := by
        intro l hl
        conv_lhs => rw [← List.take_append_drop (l.length - (m + 1)) l]
        exact hw _ _ (by rw [List.length_drop]; omega)
      have l1 : ((prefixes (g ++ h)).map (argsOf G id)).length = g.length + h.length := by
        rw [List.length_map, prefixes_length, List.length_append]
      have l2 : ((prefixes h).map (argsOf G id)).length = h.length := by
        rw [List.length_map, prefixes_length]
      rw [split _ (by rw [l1]; omega), split ((prefixes h).map _) (by rw [l2]; omega)]
      congr 1
      apply List.ext_getElem?
      intro j
      rw [List.getElem?_drop, List.getElem?_drop, l1, l2]
      by_cases hj : j < m + 1
      · rw [List.getElem?_map, List.getElem?_map, prefixes_get _ (by rw [List.length_append]; omega),
          prefixes_get _ (by omega)]
        set i := h.length - (m + 1) + j with hi
        have e1 : g.length + h.length - (m + 1) + j + 1 = g.length + (i + 1) := by omega
        rw [e1, List.take_length_add_append]
        simp only [Option.map_some, Option.some.injEq]
        have htne : h.take (i + 1) ≠ [] := by
          intro h0
          have := congrArg List.length h0
          rw [List.length_take, List.length_nil] at this
          omega
        unfold argsOf
        rw [hlast g _ htne]
        congr 1
        apply List.map_congr_left
        intro a ha
        have halt : a < id := F.args id hN a (by simp [ha])
        have hma := hm a ha
        have hlen : (h.take (i + 1)).length = i + 1 := by rw [List.length_take]; omega
        have key := ih a halt (by omega)
        have cut : ∀ l : List Rec, mem a + 1 ≤ l.length → mean G a l = mean G a (l.drop (l.length - (mem a + 1))) := by
          intro l hl
          conv_lhs => rw [← List.take_append_drop (l.length - (mem a + 1)) l]
          exact key _ _ (by rw [List.length_drop]; omega)
        rw [cut (g ++ h.take (i + 1)) (by rw [List.length_append]; omega), cut (h.take (i + 1)) (by omega)]
        congr 1
        rw [List.length_append, List.drop_append]
        have : g.drop (g.length + (h.take (i + 1)).length - (mem a + 1)) = [] := List.drop_of_length_le (by omega)
        rw [this, List.nil_append]
        congr 1
        omega
      · have b1 : ((prefixes (g ++ h)).map (argsOf G id)).length ≤ g.length + h.length - (m + 1) + j := by
          rw [l1]; omega
        have b2 : ((prefixes h).map (argsOf G id)).length ≤ h.length - (m + 1) + j := by rw [l2]; omega
        rw [List.getElem?_eq_none b1, List.getElem?_eq_none b2]
    · cases hg

/-- For a graph of stateless operators: without stalls, the output at cycle `t + d` is the graph evaluated on the inputs
    presented in cycle `t`. -/
theorem c24_stateless (F : Fresh G N) {outs : List ℕ} (ho : ∀ o ∈ outs, o < N) {rs : List ℕ} {h : Heap}
    (hi : implement ⟨G, N⟩ outs = some (rs, h)) {iv : Option (ℕ → Bool)} {x : ℕ → ℕ → Int} {valid : ℕ → ℕ → Bool}
    {sig : ℕ → ℕ → Int} (R : Run h (fun _ => true) iv x valid sig) (C : Calm G N false fun _ => 0) :
    ∃ d, (∀ r ∈ rs, (h.node r).end_ = some d ∨ ∃ v, (h.node r).kind = .const v) ∧
      List.Forall₂ (fun o r => ∀ t, sig r (t + d) = mean G o [recAt iv x t]) outs rs := by
  have C' : Calm G N iv.isSome fun _ => 0 := by
    intro id hN o hk
    rcases C id hN o hk with q | ⟨q, _⟩
    · exact Or.inl q
    · cases q
  obtain ⟨d, h1, h2⟩ := c24_values F ho hi R C'
  refine ⟨d, h1, ?_⟩
  have hlen := h2.length_eq
  rw [List.forall₂_iff_get] at h2 ⊢
  refine ⟨hlen, fun i hi1 hi2 t => ?_⟩
  have hc : cyc (fun _ => true) (t + d) = List.range (t + d) := by simp [cyc]
  have := h2.2 i hi1 hi2 (t + d) (by rw [hc]; simp)
  rw [this, hc, ← List.range_succ, List.length_range, show t + d + 1 - d = t + 1 by omega, List.take_range,
    Nat.min_eq_left (by omega), List.range_succ, List.map_append]
  exact mean_window F C _ (ho _ (List.get_mem _ _)) _ _ (by simp)

/-! ### The hypotheses can be met -/

/-- The valid flags. -/
def mkValid (en : ℕ → Bool) (iv : Option (ℕ → Bool)) : ℕ → ℕ → Bool
  | 0, t => (iv.map (· t)).getD true
  | _ + 1, 0 => iv.isNone
  | i + 1, t + 1 => if en t then mkValid en iv i t else mkValid en iv (i + 1) t

theorem mkValid_chain (en : ℕ → Bool) (iv : Option (ℕ → Bool)) : ValidChain en iv (mkValid en iv) :=
  ⟨fun t => by unfold mkValid; rfl, fun i => by unfold mkValid; rfl, fun i t => by conv_lhs => unfold mkValid⟩

/-- The signals, computed to a given depth of the graph. -/
def sim (h : Heap) (en : ℕ → Bool) (x : ℕ → ℕ → Int) (valid : ℕ → ℕ → Bool) : ℕ → ℕ → ℕ → Int
  | 0, _, _ => 0
  | f + 1, id, t =>
    match (h.node id).kind with
    | .const v => v
    | .input k => x k t
    | .op o => o.f (((cyc en t ++ [t]).take ((cyc en t).length + 1 - o.lat)).map fun t' =>
        (valid ((h.node id).start.getD 0) t', (h.node id).args.map fun a => sim h en x valid f a t'))

theorem exists_bound (g : ℕ → ℕ) : ∀ n, ∃ B, ∀ i < n, g i < B
  | 0 => ⟨0, fun i hi => absurd hi (Nat.not_lt_zero _)⟩
  | n + 1 => by
    obtain ⟨B, hB⟩ := exists_bound g n
    refine ⟨B + g n + 1, fun i hi => ?_⟩
    rcases Nat.lt_or_eq_of_le (Nat.le_of_lt_succ hi) with q | rfl
    · have := hB i q; omega
    · omega

/-- Every scheduled graph has a circuit, for every stall schedule and all inputs. -/
theorem run_exists (F : Fresh G N) {h : Heap} (I : Inv G N h) (en : ℕ → Bool) (iv : Option (ℕ → Bool))
    (x : ℕ → ℕ → Int) : ∃ valid sig, Run h en iv x valid sig := by
  obtain ⟨K, hK⟩ := exists_bound (fun id => ((h.node id).end_).getD 0) h.next
  set μ : ℕ → ℕ := fun id => h.origin id * K + ((h.node id).end_).getD 0 with hμ
  obtain ⟨B, hB⟩ := exists_bound μ h.next
  have harg : ∀ id o s, id < h.next → (h.node id).kind = .op o → (h.node id).start = some s → ∀ a ∈ (h.node id).args,
      (∃ v, (h.node a).kind = .const v) ∨ (μ a < μ id ∧ a < h.next ∧ ∃ e, (h.node a).end_ = some e) := by
    intro id o s hid hk hs a ha
    have hal := I.argsLt id hid a ha
    by_cases hN : id < N
    · rcases I.op id hN o (by rw [← I.kind id hN, hk]) with ⟨q, _⟩ | ⟨s', q1, q2, q3, q4⟩
      · rw [hs] at q; cases q
      · rcases q3 a ha with r | ⟨r, _⟩
        · refine Or.inr ⟨?_, hal, s', r⟩
          have hlt : h.origin a < id := F.args id hN _ (by
            have : h.origin a ∈ (G id).args := by rw [← I.origin id hN]; exact List.mem_map.2 ⟨a, ha, rfl⟩
            simp [this])
          have hb := hK a hal
          simp only [hμ]
          rw [I.origin_self hN]
          have : (h.origin a + 1) * K ≤ id * K := Nat.mul_le_mul_right _ hlt
          rw [Nat.add_mul, Nat.one_mul] at this
          omega
        · exact Or.inl r
    · obtain ⟨o', p, e', e0, q1, q2, q3, q4, q5, q6, q7, q8, _⟩ := I.delay id (by omega) hid
      rw [q2] at ha; simp at ha; subst ha
      refine Or.inr ⟨?_, hal, e', q8⟩
      have ho : h.origin id = o' := by unfold Heap.origin; rw [q3]; rfl
      simp only [hμ]
      rw [ho, q7, q5, q8]
      simp
  have hfresh : ∀ id, id < h.next → ∀ o, (h.node id).kind = .op o → (∃ e, (h.node id).end_ = some e) →
      ∃ s, (h.node id).start = some s := by
    intro id hid o hk ⟨e, he⟩
    obtain ⟨s, q, _⟩ := I.start_le hid he
    exact ⟨s, q⟩
  have stab : ∀ f id, id < h.next → (∃ e, (h.node id).end_ = some e) → μ id + 1 < f →
      sim h en x (mkValid en iv) f id = sim h en x (mkValid en iv) (f + 1) id := by
    intro f
    induction f with
    | zero => intro id _ _ hlt; exact absurd hlt (Nat.not_lt_zero _)
    | succ f ih =>
      intro id hid hend hlt
      funext t
      cases hk : (h.node id).kind with
      | const v => unfold sim; rw [hk]
      | input k => unfold sim; rw [hk]
      | op o =>
        obtain ⟨s, hs⟩ := hfresh id hid o hk hend
        rw [sim, sim, hk]
        simp only
        congr 1
        apply List.map_congr_left
        intro t' _
        congr 1
        apply List.map_congr_left
        intro a ha
        rcases harg id o s hid hk hs a ha with ⟨v, hv⟩ | ⟨q1, q2, q3⟩
        · have hc : ∀ g, sim h en x (mkValid en iv) (g + 1) a t' = v := fun g => by unfold sim; rw [hv]
          match f, hlt with
          | 0, hlt => omega
          | g + 1, _ => rw [hc, hc]
        · exact congrFun (ih a q2 q3 (by omega)) t'
  refine ⟨mkValid en iv, fun id => sim h en x (mkValid en iv) (B + 3) id, mkValid_chain en iv, ?_, ?_, ?_⟩
  · intro id v _ hk t; unfold sim; rw [hk]
  · intro id k _ hk t; unfold sim; rw [hk]
  · intro id o s hid hk hs t _
    rw [sim, hk]
    simp only
    congr 1
    apply List.map_congr_left
    intro t' _
    rw [hs]
    simp only [Option.getD_some]
    congr 1
    apply List.map_congr_left
    intro a ha
    rcases harg id o s hid hk hs a ha with ⟨v, hv⟩ | ⟨q1, q2, q3⟩
    · have hc : ∀ g, sim h en x (mkValid en iv) (g + 1) a t' = v := fun g => by unfold sim; rw [hv]
      rw [hc, hc]
    · have := hB a q2
      exact congrFun (stab (B + 2) a q2 q3 (by omega)) t'

/-- Two outputs of different depth: `4 = 0 * 3 + 1` and `5 = 1 - 0` of the inputs 0 and 1. -/
def exG : ℕ → Node
  | 0 => { kind := .input 0 }
  | 1 => { kind := .input 1 }
  | 2 => { kind := .const 3 }
  | 3 => { kind := .op (pureOp 3 fun as => as.getD 0 0 * as.getD 1 0), args := [0, 2] }
  | 4 => { kind := .op (pureOp 1 fun as => as.getD 0 0 + as.getD 1 0), args := [3, 1] }
  | 5 => { kind := .op (pureOp 1 fun as => as.getD 0 0 - as.getD 1 0), args := [1, 0] }
  | _ => { kind := .const 0 }

theorem exG_fresh : Fresh exG 6 := by
  refine ⟨?_, ?_, ?_, ?_, ?_, ?_⟩ <;> intro id hid <;> interval_cases id <;> simp [exG]

theorem exG_calm : Calm exG 6 false fun _ => 0 := by
  intro id hid o hk
  interval_cases id <;> simp only [exG, Kind.op.injEq, reduceCtorEq] at hk
  all_goals
    subst hk
    exact Or.inl ⟨0, pureOp_window _ _, le_refl _, by simp⟩

/-- Three delays of input 1 for the sum, three of the difference for the output; the depth is 4. -/
example : (implement ⟨exG, 6⟩ [4, 5]).map (fun p => (p.1, p.2.next, (p.2.node 4).args, (p.2.node 4).start,
    p.1.map fun r => (p.2.node r).end_)) = some ([4, 11], 12, [3, 8], some 3, [some 4, some 4]) := by decide

/-- The longest chain is that of the product and the sum. -/
example : Chain exG 4 (0 + 3 + 1) :=
  .op (o := pureOp 1 _) rfl (by simp [exG] : 3 ∈ _) (.op (a := 0) (o := pureOp 3 _) rfl (by simp [exG]) (.input rfl))

/-- The values of this graph. -/
example : ∃ rs h valid sig, implement ⟨exG, 6⟩ [4, 5] = some (rs, h) ∧
    Run h (fun _ => true) none (fun k t => 10 * t + k) valid sig ∧
    List.Forall₂ (fun o r => ∀ t, sig r (t + 4) = mean exG o [recAt none (fun k t => 10 * t + k) t]) [4, 5] rs := by
  obtain ⟨rs, h, hi⟩ := c24_total exG_fresh [4, 5] (by simp)
  obtain ⟨_, I, _⟩ := impl_inv exG_fresh (by simp) hi
  obtain ⟨valid, sig, R⟩ := run_exists exG_fresh I (fun _ => true) none (fun k t => 10 * t + k)
  obtain ⟨d, h1, h2⟩ := c24_stateless exG_fresh (by simp) hi R exG_calm
  have hd : (implement ⟨exG, 6⟩ [4, 5]).map (fun p => (p.1, (p.2.node 4).end_)) = some ([4, 11], some 4) := by decide
  rw [hi] at hd
  simp only [Option.map_some, Option.some.injEq, Prod.mk.injEq] at hd
  have hd4 : d = 4 := by
    rcases h1 4 (by rw [hd.1]; simp) with q | ⟨v, q⟩
    · rw [hd.2] at q; cases q; rfl
    · rw [I.kind 4 (by omega)] at q; simp [exG] at q
  subst hd4
  exact ⟨rs, h, valid, sig, hi, R, h2⟩

/-- In cycle 2 the inputs are 20 and 21. -/
example : mean exG 4 [recAt none (fun k t => 10 * t + k) 2] = 81 ∧ mean exG 5 [recAt none (fun k t => 10 * t + k) 2] = 1 := by
  decide

/-! ### An accumulator without `ivalid` -/

/-- The sum of `x + 5`, after a register. -/
def accG : ℕ → Node
  | 0 => { kind := .input 0 }
  | 1 => { kind := .op (pureOp 1 fun as => as.getD 0 0), args := [0] }
  | 2 => { kind := .op (pureOp 1 fun as => as.getD 0 0 + 5), args := [1] }
  | 3 => { kind := .op (accOp 0 (fun s as => s + as.getD 0 0) id), args := [2] }
  | _ => { kind := .const 0 }

theorem accG_fresh : Fresh accG 4 := by
  refine ⟨?_, ?_, ?_, ?_, ?_, ?_⟩ <;> intro id hid <;> interval_cases id <;> simp [accG]

/-- One register. -/
theorem pipe_one {g : List Int → Int} {a : ℕ → List Int} {sig : ℕ → Int} (h0 : sig 0 = 0)
    (hs : ∀ t, sig (t + 1) = if en t then g (a t) else sig t) : Pipe 1 g en a sig := by
  let r : ℕ → ℕ → Int := fun i => Nat.rec sig (fun _ p t => Nat.rec 0 (fun t q => if en t then p t else q) t) i
  refine ⟨r, fun i => ?_, hs, fun i t => rfl, fun t => rfl⟩
  cases i with
  | zero => exact h0
  | succ i => rfl

/-- The signals of this graph for the input 0. -/
def accSig : ℕ → ℕ → Int
  | 2, t => if t = 0 then 0 else 5
  | 3, t => 5 * ((t - 1 : ℕ) : Int)
  | _, _ => 0

theorem accG_mean (x : List Rec) (hx : ∀ p ∈ x, p = (true, fun _ => 0)) : mean accG 3 x = 5 * x.length := by
  rw [mean_op accG_fresh (by omega) (o := accOp 0 (fun s as => s + as.getD 0 0) id) rfl]
  change id (((prefixes x).map (argsOf accG 3)).foldl _ 0) = _
  have h5 : ∀ p ∈ prefixes x, argsOf accG 3 p = (true, [5]) := by
    intro p hp
    obtain ⟨i, hi, rfl⟩ := List.mem_map.1 hp
    rw [List.mem_range] at hi
    obtain ⟨y, hy⟩ : ∃ y, (x.take (i + 1)).getLast? = some y := by
      refine Option.ne_none_iff_exists'.1 fun h0 => ?_
      have := congrArg List.length (List.getLast?_eq_none_iff.1 h0)
      rw [List.length_take, List.length_nil] at this
      omega
    have hyx : y = (true, fun _ => 0) := hx y (List.mem_of_mem_take (List.mem_of_getLast? hy))
    subst hyx
    have h0 : mean accG 0 (x.take (i + 1)) = 0 := by rw [mean_input (k := 0) rfl, hy]; rfl
    have one : ∀ (k : ℕ) (l : List Rec) (g : List Int → Int), l ≠ [] →
        lastArgs ((prefixes l).map (argsOf accG k)) = (argsOf accG k l).2 := by
      intro k l g hl
      obtain ⟨l', z, rfl⟩ : ∃ l' z, l = l' ++ [z] := ⟨_, _, (List.dropLast_append_getLast hl).symm⟩
      rw [prefixes_snoc, List.map_append]
      unfold lastArgs
      simp
    have hne : x.take (i + 1) ≠ [] := by intro h0; rw [h0] at hy; cases hy
    have h1 : mean accG 1 (x.take (i + 1)) = 0 := by
      rw [mean_op accG_fresh (by omega) (o := pureOp 1 fun as => as.getD 0 0) rfl]
      change (lastArgs _).getD 0 0 = 0
      rw [one 1 _ (fun _ => 0) hne]
      change (mean accG 0 _) = 0
      exact h0
    have h2 : mean accG 2 (x.take (i + 1)) = 5 := by
      rw [mean_op accG_fresh (by omega) (o := pureOp 1 fun as => as.getD 0 0 + 5) rfl]
      change (lastArgs _).getD 0 0 + 5 = 5
      rw [one 2 _ (fun _ => 0) hne]
      change (mean accG 1 _) + 5 = 5
      rw [h1]; rfl
    unfold argsOf
    rw [hy]
    change (true, [mean accG 2 _]) = _
    rw [h2]
  have hsum : ∀ (l : Hist) (a : Int), (∀ p ∈ l, p = (true, [5])) →
      l.foldl (fun s p => if p.1 then s + p.2.getD 0 0 else s) a = a + 5 * l.length := by
    intro l
    induction l with
    | nil => intro a _; simp
    | cons p l ih =>
      intro a hl
      rw [List.foldl_cons, ih _ (fun q hq => hl q (by simp [hq])), hl p (by simp)]
      simp only [List.length_cons]
      push_cast
      simp
      ring
  have := hsum ((prefixes x).map (argsOf accG 3)) 0 (by
    intro p hp
    obtain ⟨q, hq, rfl⟩ := List.mem_map.1 hp
    exact h5 q hq)
  rw [List.length_map, prefixes_length] at this
  simpa using this

/-- Without `ivalid`, an accumulator also adds what the registers before it contain while the pipeline fills: the sum of
    `x + 5` is 5 too large, forever. -/
theorem c24_not_acc_without_valid : ∃ h valid, implement ⟨accG, 4⟩ [3] = some ([3], h) ∧
    Run h (fun _ => true) none (fun _ _ => 0) valid accSig ∧
    Pipe 1 (fun as => as.getD 0 0) (fun _ => true) (fun t => [accSig 0 t]) (accSig 1) ∧
    Pipe 1 (fun as => as.getD 0 0 + 5) (fun _ => true) (fun t => [accSig 1 t]) (accSig 2) ∧
    AccRegs 0 (fun s as => s + as.getD 0 0) id (fun _ => true) (fun t => (valid 2 t, [accSig 2 t])) (accSig 3) ∧
    ∀ t, 3 ≤ t → accSig 3 t = mean accG 3 (((List.range (t + 1)).take (t + 1 - 3)).map (recAt none fun _ _ => 0)) + 5 := by
  obtain ⟨rs, h, hi⟩ := c24_total accG_fresh [3] (by simp)
  obtain ⟨_, I, _⟩ := impl_inv accG_fresh (by simp) hi
  have hd : (implement ⟨accG, 4⟩ [3]).map (fun p => (p.1, p.2.next, (List.range 4).map fun i =>
      ((p.2.node i).args, (p.2.node i).start))) =
      some ([3], 4, [([], some 0), ([0], some 0), ([1], some 1), ([2], some 2)]) := by decide
  rw [hi] at hd
  simp only [Option.map_some, Option.some.injEq, Prod.mk.injEq, List.range, List.range.loop, List.map_cons, List.map_nil,
    List.cons.injEq] at hd
  obtain ⟨rfl, hn, ⟨a0, s0⟩, ⟨a1, s1⟩, ⟨a2, s2⟩, ⟨a3, s3⟩, _⟩ := hd
  have V := mkValid_chain (fun _ => true) none
  have hv : ∀ i t, mkValid (fun _ => true) none i t = true := by
    intro i t
    rw [valid_eq V]
    split_ifs
    · cases (hp (fun _ => true) t)[(cyc (fun _ => true) t).length - i]? <;> rfl
    · rfl
  have P1 : Pipe 1 (fun as => as.getD 0 0) (fun _ => true) (fun t => [accSig 0 t]) (accSig 1) :=
    pipe_one rfl (fun t => rfl)
  have P2 : Pipe 1 (fun as => as.getD 0 0 + 5) (fun _ => true) (fun t => [accSig 1 t]) (accSig 2) :=
    pipe_one rfl (fun t => rfl)
  have P3 : AccRegs 0 (fun s as => s + as.getD 0 0) id (fun _ => true)
      (fun t => (mkValid (fun _ => true) none 2 t, [accSig 2 t])) (accSig 3) := by
    refine ⟨accSig 3, rfl, fun t => ?_, fun t => rfl⟩
    simp only [hv, Bool.and_self, if_true]
    cases t with
    | zero => rfl
    | succ t => simp [accSig]; ring
  refine ⟨h, mkValid (fun _ => true) none, hi, ⟨V, ?_, ?_, ?_⟩, P1, P2, P3, ?_⟩
  · intro id v hid hk t
    rw [hn] at hid
    rw [I.kind id hid] at hk
    interval_cases id <;> simp [accG] at hk
  · intro id k hid hk t
    rw [hn] at hid
    rw [I.kind id hid] at hk
    interval_cases id <;> simp [accG] at hk
    rfl
  · intro id o s hid hk hs
    rw [hn] at hid
    rw [I.kind id hid] at hk
    interval_cases id <;> simp only [accG, Kind.op.injEq, reduceCtorEq] at hk
    · subst hk; rw [a1]; exact pipe_drives P1
    · subst hk; rw [a2]; exact pipe_drives P2
    · subst hk
      rw [s3] at hs; cases hs
      rw [a3]; exact acc_drives P3
  · intro t ht
    rw [accG_mean]
    · rw [List.length_map, List.length_take, List.length_range, Nat.min_eq_left (by omega)]
      simp only [accSig]
      have : ((t - 1 : ℕ) : Int) = ((t + 1 - 3 : ℕ) : Int) + 1 := by omega
      rw [this]; ring
    · intro p hp
      obtain ⟨t', _, rfl⟩ := List.mem_map.1 hp
      rfl

end Sch
