import Verif.Model.Sched
import Mathlib.Tactic.Common
import Mathlib.Data.Nat.Basic
import Mathlib.Tactic.SplitIfs

/-! The invariant of the scheduler: every scheduled operator starts at the end stage of all its operands. -/

namespace Sch

variable {G : ℕ → Node} {N : ℕ}

/-- A graph as built by the user: operands were created before, nothing is scheduled. -/
structure Fresh (G : ℕ → Node) (N : ℕ) : Prop where
  args : ∀ id < N, ∀ a ∈ (G id).args ++ (G id).deps, a < id
  leaf : ∀ id < N, (∀ o, (G id).kind ≠ .op o) → (G id).args = [] ∧ (G id).deps = []
  start : ∀ id < N, (G id).start = none
  end_ : ∀ id < N, (G id).end_ = none
  delayed : ∀ id < N, (G id).delayed = []
  parent : ∀ id < N, (G id).parent = none

/-- The node a delay belongs to; a node of the user for itself. -/
def Heap.origin (h : Heap) (id : ℕ) : ℕ := (h.node id).parent.getD id

/-- The operand `a` is at stage `s`, or constant. -/
def Heap.At (h : Heap) (a s : ℕ) : Prop :=
  (h.node a).end_ = some s ∨ (∃ v, (h.node a).kind = .const v) ∧ (h.node a).end_ = none

/-- The node `a` is at stage `s` or before, or constant. -/
def Heap.Before (h : Heap) (a s : ℕ) : Prop :=
  (∃ e, (h.node a).end_ = some e ∧ e ≤ s) ∨ (∃ v, (h.node a).kind = .const v) ∧ (h.node a).end_ = none

structure Inv (G : ℕ → Node) (N : ℕ) (h : Heap) : Prop where
  next : N ≤ h.next
  kind : ∀ id < N, (h.node id).kind = (G id).kind
  deps : ∀ id < N, (h.node id).deps = (G id).deps
  parent : ∀ id < N, (h.node id).parent = none
  argsLt : ∀ id < h.next, ∀ a ∈ (h.node id).args, a < h.next
  origin : ∀ id < N, (h.node id).args.map h.origin = (G id).args
  delay : ∀ id, N ≤ id → id < h.next → ∃ o p e e0, (h.node id).kind = .op delayOp ∧ (h.node id).args = [p] ∧
    (h.node id).parent = some o ∧ (h.node id).start = some e ∧ (h.node id).end_ = some (e + 1) ∧ o < N ∧
    h.origin p = o ∧ (h.node p).end_ = some e ∧ (h.node o).end_ = some e0 ∧ e0 ≤ e ∧ (h.node id).deps = []
  delayed : ∀ id < N, ∀ k r, (h.node id).delayed.lookup k = some r →
    N ≤ r ∧ r < h.next ∧ (h.node r).parent = some id ∧ (h.node r).end_ = some k
  const : ∀ id < N, ∀ v, (G id).kind = .const v → (h.node id).end_ = none ∧ (h.node id).start = none
  input : ∀ id < N, ∀ k, (G id).kind = .input k → (h.node id).end_ = (h.node id).start ∧
    ((h.node id).start = none ∨ (h.node id).start = some 0)
  op : ∀ id < N, ∀ o, (G id).kind = .op o →
    ((h.node id).start = none ∧ (h.node id).end_ = none ∧ (h.node id).args = (G id).args) ∨
    ∃ s, (h.node id).start = some s ∧ (h.node id).end_ = some (s + o.lat) ∧ (∀ a ∈ (h.node id).args, h.At a s) ∧
      ∀ a ∈ (h.node id).deps, a < N ∧ h.Before a s

/-- What a scheduling step keeps: everything scheduled, and the start stages of the nodes after `b`. -/
structure Ext (N b : ℕ) (h h' : Heap) : Prop where
  next : h.next ≤ h'.next
  kind : ∀ id < h.next, (h'.node id).kind = (h.node id).kind
  parent : ∀ id < h.next, (h'.node id).parent = (h.node id).parent
  end_ : ∀ id < h.next, ∀ e, (h.node id).end_ = some e → (h'.node id).end_ = some e
  start : ∀ id < h.next, ∀ e, (h.node id).start = some e → (h'.node id).start = some e
  args : ∀ id < h.next, (h.node id).start ≠ none → (h'.node id).args = (h.node id).args
  later : ∀ id, b ≤ id → id < N → (h'.node id).start = (h.node id).start

theorem Ext.refl (b : ℕ) (h : Heap) : Ext N b h h :=
  ⟨le_refl _, fun _ _ => rfl, fun _ _ => rfl, fun _ _ _ q => q, fun _ _ _ q => q, fun _ _ _ => rfl, fun _ _ _ => rfl⟩

theorem Ext.trans {b c : ℕ} {h h' h'' : Heap} (hbc : b ≤ c) (p : Ext N b h h') (q : Ext N c h' h'') : Ext N c h h'' := by
  refine ⟨le_trans p.next q.next, fun id hi => ?_, fun id hi => ?_, fun id hi e he => ?_, fun id hi e he => ?_,
    fun id hi hs => ?_, fun id hb hi => ?_⟩
  · rw [q.kind id (lt_of_lt_of_le hi p.next), p.kind id hi]
  · rw [q.parent id (lt_of_lt_of_le hi p.next), p.parent id hi]
  · exact q.end_ id (lt_of_lt_of_le hi p.next) e (p.end_ id hi e he)
  · exact q.start id (lt_of_lt_of_le hi p.next) e (p.start id hi e he)
  · obtain ⟨s, hs'⟩ := Option.ne_none_iff_exists'.1 hs
    rw [q.args id (lt_of_lt_of_le hi p.next) (by rw [p.start id hi s hs']; simp), p.args id hi hs]
  · rw [q.later id hb hi, p.later id (le_trans hbc hb) hi]

theorem Ext.mono {b c : ℕ} {h h' : Heap} (hbc : b ≤ c) (p : Ext N b h h') : Ext N c h h' :=
  ⟨p.next, p.kind, p.parent, p.end_, p.start, p.args, fun id hb => p.later id (le_trans hbc hb)⟩

theorem Ext.origin {b : ℕ} {h h' : Heap} (p : Ext N b h h') {id : ℕ} (hi : id < h.next) : h'.origin id = h.origin id := by
  unfold Heap.origin; rw [p.parent id hi]

theorem Inv.origin_lt {h : Heap} (I : Inv G N h) {id : ℕ} (hi : id < h.next) : h.origin id < N := by
  unfold Heap.origin
  by_cases hN : id < N
  · rw [I.parent id hN]; exact hN
  · obtain ⟨o, p, e, e0, _, _, h3, _, _, h6, _⟩ := I.delay id (by omega) hi
    rw [h3]; exact h6

theorem Inv.origin_self {h : Heap} (I : Inv G N h) {id : ℕ} (hi : id < N) : h.origin id = id := by
  unfold Heap.origin; rw [I.parent id hi]; rfl

/-- Creating one delay. -/
theorem newDelay {h : Heap} (I : Inv G N h) {n prev cur e0 : ℕ} (hn : n < N) (hp : prev < h.next)
    (ho : h.origin prev = n) (he : (h.node prev).end_ = some cur) (he0 : (h.node n).end_ = some e0) (hle : e0 ≤ cur)
    (hl : (h.node n).delayed.lookup (cur + 1) = none) :
    let h1 := h.set n { h.node n with delayed := (h.node n).delayed ++ [(cur + 1, h.next)] }
    let h2 : Heap := { h1.set h.next { kind := .op delayOp, args := [prev], start := some cur, end_ := some (cur + 1),
                                       parent := some n } with next := h.next + 1 }
    Inv G N h2 ∧ Ext N 0 h h2 ∧ h2.origin h.next = n ∧ (h2.node h.next).end_ = some (cur + 1) ∧ h2.next = h.next + 1 := by
  intro h1 h2
  have hNn : n < h.next := lt_of_lt_of_le hn I.next
  have hnode : ∀ id, id < h.next → id ≠ n → h2.node id = h.node id := by
    intro id hi hne
    simp only [h2, h1, Heap.set]
    rw [Function.update_of_ne (by omega), Function.update_of_ne hne]
  have hnn : h2.node n = { h.node n with delayed := (h.node n).delayed ++ [(cur + 1, h.next)] } := by
    simp only [h2, h1, Heap.set]
    rw [Function.update_of_ne (by omega), Function.update_self]
  have hnew : h2.node h.next = { kind := .op delayOp, args := [prev], start := some cur, end_ := some (cur + 1),
                                 parent := some n } := by
    simp only [h2, h1, Heap.set]
    rw [Function.update_self]
  have hnext : h2.next = h.next + 1 := rfl
  have fld : ∀ id, id < h.next → (h2.node id).kind = (h.node id).kind ∧ (h2.node id).args = (h.node id).args ∧
      (h2.node id).deps = (h.node id).deps ∧ (h2.node id).start = (h.node id).start ∧
      (h2.node id).end_ = (h.node id).end_ ∧ (h2.node id).parent = (h.node id).parent := by
    intro id hi
    by_cases hne : id = n
    · subst hne; rw [hnn]; simp
    · rw [hnode id hi hne]; simp
  have horig : ∀ id, id < h.next → h2.origin id = h.origin id := by
    intro id hi; unfold Heap.origin; rw [(fld id hi).2.2.2.2.2]
  have hlt : ∀ {id}, id < N → id < h.next := fun hi => lt_of_lt_of_le hi I.next
  refine ⟨⟨?_, ?_, ?_, ?_, ?_, ?_, ?_, ?_, ?_, ?_, ?_⟩, ⟨?_, ?_, ?_, ?_, ?_, ?_, ?_⟩, ?_, ?_, rfl⟩
  · rw [hnext]; have := I.next; omega
  · intro id hi; rw [(fld id (hlt hi)).1, I.kind id hi]
  · intro id hi; rw [(fld id (hlt hi)).2.2.1, I.deps id hi]
  · intro id hi; rw [(fld id (hlt hi)).2.2.2.2.2, I.parent id hi]
  · intro id hi a ha
    rw [hnext] at hi ⊢
    by_cases h' : id = h.next
    · subst h'; rw [hnew] at ha; simp at ha; omega
    · rw [(fld id (by omega)).2.1] at ha
      have := I.argsLt id (by omega) a ha; omega
  · intro id hi
    rw [(fld id (hlt hi)).2.1, ← I.origin id hi]
    exact List.map_congr_left fun a ha => horig a (I.argsLt id (hlt hi) a ha)
  · intro id hN hi
    rw [hnext] at hi
    by_cases h' : id = h.next
    · subst h'
      exact ⟨n, prev, cur, e0, by rw [hnew], by rw [hnew], by rw [hnew], by rw [hnew], by rw [hnew], hn,
        by rw [horig prev hp, ho], by rw [(fld prev hp).2.2.2.2.1, he], by rw [(fld n hNn).2.2.2.2.1, he0], hle, by rw [hnew]⟩
    · obtain ⟨o, p, e, e1, q1, q2, q3, q4, q5, q6, q7, q8, q9, q10, q11⟩ := I.delay id hN (by omega)
      have hpl : p < h.next := I.argsLt id (by omega) p (by rw [q2]; simp)
      obtain ⟨f1, f2, f3, f4, f5, f6⟩ := fld id (by omega)
      exact ⟨o, p, e, e1, by rw [f1, q1], by rw [f2, q2], by rw [f6, q3], by rw [f4, q4], by rw [f5, q5], q6,
        by rw [horig p hpl, q7], by rw [(fld p hpl).2.2.2.2.1, q8], by rw [(fld o (hlt q6)).2.2.2.2.1, q9], q10, by rw [f3, q11]⟩
  · intro id hi k r hk
    have old : (h.node id).delayed.lookup k = some r → N ≤ r ∧ r < h2.next ∧ (h2.node r).parent = some id ∧
        (h2.node r).end_ = some k := by
      intro hk
      obtain ⟨q1, q2, q3, q4⟩ := I.delayed id hi k r hk
      exact ⟨q1, by rw [hnext]; omega, by rw [(fld r q2).2.2.2.2.2, q3], by rw [(fld r q2).2.2.2.2.1, q4]⟩
    by_cases hne : id = n
    · subst hne
      rw [hnn] at hk
      simp only [List.lookup_append] at hk
      cases hq : (h.node id).delayed.lookup k with
      | some r' => rw [hq] at hk; simp at hk; subst hk; exact old hq
      | none =>
        rw [hq] at hk
        simp only [Option.none_or, List.lookup_cons, List.lookup_nil] at hk
        by_cases hkc : k = cur + 1
        · subst hkc; simp at hk; subst hk
          exact ⟨I.next, by rw [hnext]; omega, by rw [hnew], by rw [hnew]⟩
        · have : (k == cur + 1) = false := by simpa using hkc
          rw [this] at hk; simp at hk
    · rw [hnode id (hlt hi) hne] at hk; exact old hk
  · intro id hi v hv
    rw [(fld id (hlt hi)).2.2.2.2.1, (fld id (hlt hi)).2.2.2.1]; exact I.const id hi v hv
  · intro id hi k hk
    rw [(fld id (hlt hi)).2.2.2.2.1, (fld id (hlt hi)).2.2.2.1]; exact I.input id hi k hk
  · intro id hi o hk
    obtain ⟨f1, f2, f3, f4, f5, f6⟩ := fld id (hlt hi)
    rw [f4, f5, f2]
    rcases I.op id hi o hk with q | ⟨s, q1, q2, q3⟩
    · exact Or.inl q
    · refine Or.inr ⟨s, q1, q2, fun a ha => ?_, fun a ha => ?_⟩
      · obtain ⟨g1, g2, g3, g4, g5, g6⟩ := fld a (I.argsLt id (hlt hi) a ha)
        unfold Heap.At; rw [g1, g5]; exact q3.1 a ha
      · rw [f3] at ha
        obtain ⟨w1, w2⟩ := q3.2 a ha
        obtain ⟨g1, g2, g3, g4, g5, g6⟩ := fld a (hlt w1)
        unfold Heap.Before; rw [g1, g5]; exact ⟨w1, w2⟩
  · rw [hnext]; omega
  · intro id hi; exact (fld id hi).1
  · intro id hi; exact (fld id hi).2.2.2.2.2
  · intro id hi e q; rw [(fld id hi).2.2.2.2.1, q]
  · intro id hi e q; rw [(fld id hi).2.2.2.1, q]
  · intro id hi _; exact (fld id hi).2.1
  · intro id _ hi; exact (fld id (hlt hi)).2.2.2.1
  · unfold Heap.origin; rw [hnew]; rfl
  · rw [hnew]

theorem fillLoop_spec {n : ℕ} (hn : n < N) : ∀ (k : ℕ) {h : Heap} {prev cur e0 : ℕ}, Inv G N h → prev < h.next →
    h.origin prev = n → (h.node prev).end_ = some cur → (h.node n).end_ = some e0 → e0 ≤ cur →
    ∃ r h', fillLoop n k prev cur h = (r, h') ∧ Inv G N h' ∧ Ext N 0 h h' ∧ r < h'.next ∧ h'.origin r = n ∧
      (h'.node r).end_ = some (cur + k)
  | 0, h, prev, cur, e0, I, hp, ho, he, _, _ => ⟨prev, h, rfl, I, Ext.refl 0 h, hp, ho, he⟩
  | k + 1, h, prev, cur, e0, I, hp, ho, he, he0, hle => by
    unfold fillLoop
    cases hl : (h.node n).delayed.lookup (cur + 1) with
    | some r =>
      obtain ⟨q1, q2, q3, q4⟩ := I.delayed n hn _ r hl
      obtain ⟨r', h', p1, p2, p3, p4, p5, p6⟩ := fillLoop_spec hn k (cur := cur + 1) I q2
        (by unfold Heap.origin; rw [q3]; rfl) q4 he0 (by omega)
      exact ⟨r', h', p1, p2, p3, p4, p5, by rw [p6]; congr 1; omega⟩
    | none =>
      obtain ⟨I2, x, o2, e2, n2⟩ := newDelay I hn hp ho he he0 hle hl
      obtain ⟨r', h', p1, p2, p3, p4, p5, p6⟩ := fillLoop_spec hn k (cur := cur + 1) I2 (prev := h.next)
        (by rw [n2]; omega) o2 e2 (x.end_ n (lt_of_lt_of_le hn I.next) e0 he0) (by omega)
      exact ⟨r', h', p1, p2, x.trans (le_refl _) p3, p4, p5, by rw [p6]; congr 1; omega⟩

theorem fillGap_spec {h : Heap} (I : Inv G N h) {id m : ℕ} (hi : id < h.next)
    (he : ∀ e, (h.node id).end_ = some e → e ≤ m) (hc : (h.node id).end_ = none → ∃ v, (h.node id).kind = .const v) :
    ∃ r h', fillGap h id m = some (r, h') ∧ Inv G N h' ∧ Ext N 0 h h' ∧ r < h'.next ∧ h'.origin r = h.origin id ∧
      h'.At r m := by
  unfold fillGap
  cases hq : (h.node id).end_ with
  | none => exact ⟨id, h, rfl, I, Ext.refl 0 h, hi, rfl, Or.inr ⟨hc hq, hq⟩⟩
  | some e =>
    simp only
    by_cases h1 : e = m
    · rw [if_pos h1]; exact ⟨id, h, rfl, I, Ext.refl 0 h, hi, rfl, Or.inl (by rw [hq, h1])⟩
    · have := he e hq
      rw [if_neg h1, if_neg (by omega)]
      have ho := I.origin_lt hi
      change ∃ r h', some (fillLoop (h.origin id) (m - ((h.node (h.origin id)).end_).getD 0) (h.origin id)
        (((h.node (h.origin id)).end_).getD 0) h) = some (r, h') ∧ _
      obtain ⟨e0, g1, g2⟩ : ∃ e0, (h.node (h.origin id)).end_ = some e0 ∧ e0 ≤ e := by
        by_cases hN : id < N
        · rw [I.origin_self hN]; exact ⟨e, hq, le_refl _⟩
        · obtain ⟨o, p, e', e0, _, _, q3, _, q5, _, _, _, q9, q10, _⟩ := I.delay id (by omega) hi
          rw [hq] at q5
          have : h.origin id = o := by unfold Heap.origin; rw [q3]; rfl
          rw [this]; exact ⟨e0, q9, by simp at q5; omega⟩
      rw [g1, Option.getD_some]
      obtain ⟨r, h', p1, p2, p3, p4, p5, p6⟩ := fillLoop_spec ho (m - e0) I (prev := h.origin id)
        (lt_of_lt_of_le ho I.next) (I.origin_self ho) g1 g1 (le_refl _)
      refine ⟨r, h', by rw [p1], p2, p3, p4, p5, Or.inl ?_⟩
      rw [p6]; congr 1; omega

theorem Ext.at {b : ℕ} {h h' : Heap} (I : Inv G N h) (I' : Inv G N h') (x : Ext N b h h') {a s : ℕ} (ha : a < h.next)
    (p : h.At a s) : h'.At a s := by
  rcases p with p | ⟨⟨v, p⟩, q⟩
  · exact Or.inl (x.end_ a ha s p)
  · have hk : (h'.node a).kind = .const v := by rw [x.kind a ha, p]
    refine Or.inr ⟨⟨v, hk⟩, ?_⟩
    by_cases hN : a < N
    · exact (I'.const a hN v (by rw [← I'.kind a hN, hk])).1
    · obtain ⟨_, _, _, _, q1, _⟩ := I.delay a (by omega) ha
      rw [p] at q1; simp at q1

theorem fillAll_spec : ∀ (as : List ℕ) {m : ℕ} {h : Heap}, Inv G N h → (∀ a ∈ as, a < h.next) →
    (∀ a ∈ as, ∀ e, (h.node a).end_ = some e → e ≤ m) →
    (∀ a ∈ as, (h.node a).end_ = none → ∃ v, (h.node a).kind = .const v) →
    ∃ rs h', fillAll as m h = some (rs, h') ∧ Inv G N h' ∧ Ext N 0 h h' ∧ (∀ r ∈ rs, r < h'.next) ∧
      rs.map h'.origin = as.map h.origin ∧ ∀ r ∈ rs, h'.At r m
  | [], m, h, I, _, _, _ => ⟨[], h, rfl, I, Ext.refl 0 h, by simp, rfl, by simp⟩
  | a :: as, m, h, I, h1, h2, h3 => by
    obtain ⟨r, h', p1, p2, p3, p4, p5, p6⟩ := fillGap_spec I (h1 a (by simp)) (h2 a (by simp)) (h3 a (by simp))
    have hlt : ∀ b ∈ as, b < h.next := fun b hb => h1 b (by simp [hb])
    have hend : ∀ b ∈ as, ∀ e, (h'.node b).end_ = some e → e ≤ m := by
      intro b hb e he
      cases hq : (h.node b).end_ with
      | some e' =>
        rw [p3.end_ b (hlt b hb) e' hq] at he
        cases he; exact h2 b (by simp [hb]) e hq
      | none =>
        have q := Ext.at (s := m) I p2 p3 (hlt b hb) (Or.inr ⟨h3 b (by simp [hb]) hq, hq⟩)
        rcases q with q | ⟨_, q⟩
        · rw [q] at he; cases he; exact le_refl _
        · rw [q] at he; cases he
    have hcon : ∀ b ∈ as, (h'.node b).end_ = none → ∃ v, (h'.node b).kind = .const v := by
      intro b hb he
      cases hq : (h.node b).end_ with
      | some e' => rw [p3.end_ b (hlt b hb) e' hq] at he; cases he
      | none => rw [p3.kind b (hlt b hb)]; exact h3 b (by simp [hb]) hq
    obtain ⟨rs, h'', q1, q2, q3, q4, q5, q6⟩ := fillAll_spec as p2 (fun b hb => lt_of_lt_of_le (hlt b hb) p3.next) hend hcon
    refine ⟨r :: rs, h'', by simp only [fillAll, p1, q1], q2, p3.trans (le_refl _) q3, ?_, ?_, ?_⟩
    · intro x hx
      rcases List.mem_cons.1 hx with rfl | hx
      · exact lt_of_lt_of_le p4 q3.next
      · exact q4 x hx
    · rw [List.map_cons, List.map_cons, q5, q3.origin p4, p5]
      congr 1
      exact List.map_congr_left fun b hb => p3.origin (hlt b hb)
    · intro x hx
      rcases List.mem_cons.1 hx with rfl | hx
      · exact Ext.at p2 q2 q3 p4 p6
      · exact q6 x hx

theorem maxStage_aux (l : List (Option ℕ)) : ∀ m : Option ℕ, ∀ v ∈ l, ∀ e, v = some e → ∃ M,
    l.foldl maxStep m = some M ∧ e ≤ M := by
  have grow : ∀ (l : List (Option ℕ)) (e : ℕ), ∃ M, l.foldl maxStep (some e) = some M ∧ e ≤ M := by
    intro l
    induction l with
    | nil => intro e; exact ⟨e, rfl, le_refl _⟩
    | cons a l ih =>
      intro e
      rw [List.foldl_cons]
      cases a with
      | none => exact ih e
      | some v =>
        obtain ⟨M, q, q'⟩ := ih (if e < v then v else e)
        exact ⟨M, q, by split_ifs at q' <;> omega⟩
  induction l with
  | nil => intro m v hv; simp at hv
  | cons a l ih =>
    intro m v hv e he
    rw [List.foldl_cons]
    rcases List.mem_cons.1 hv with rfl | hv
    · subst he
      cases m with
      | none => exact grow l e
      | some m =>
        obtain ⟨M, q, q'⟩ := grow l (if m < e then e else m)
        exact ⟨M, q, by split_ifs at q' <;> omega⟩
    · exact ih _ v hv e he

theorem le_maxStage {l : List (Option ℕ)} {e : ℕ} (h : some e ∈ l) : e ≤ (maxStage l).getD 0 := by
  obtain ⟨M, q, q'⟩ := maxStage_aux l none _ h e rfl
  unfold maxStage; rw [q]; exact q'

/-- The node is scheduled, or constant. -/
def Heap.Seen (h : Heap) (id : ℕ) : Prop :=
  (∃ e, (h.node id).end_ = some e) ∨ ∃ v, (h.node id).kind = .const v

/-- What a visit of `id` does. -/
def VisitSpec (G : ℕ → Node) (N b : ℕ) (visit : ℕ → Heap → Option (Option ℕ × Heap)) : Prop :=
  ∀ id < b, id < N → ∀ h, Inv G N h → ∃ e h', visit id h = some (e, h') ∧ Inv G N h' ∧ Ext N (id + 1) h h' ∧
    (h'.node id).end_ = e ∧ h'.Seen id

theorem visitAll_spec {b : ℕ} {visit : ℕ → Heap → Option (Option ℕ × Heap)} (hv : VisitSpec G N b visit) :
    ∀ (l : List ℕ), (∀ a ∈ l, a < b ∧ a < N) → ∀ h, Inv G N h → ∃ es h', visitAll visit l h = some (es, h') ∧ Inv G N h' ∧
      Ext N b h h' ∧ ∀ a ∈ l, (∀ e, (h'.node a).end_ = some e → some e ∈ es) ∧
        ((h'.node a).end_ = none → ∃ v, (h'.node a).kind = .const v)
  | [], _, h, I => ⟨[], h, rfl, I, Ext.refl b h, by simp⟩
  | a :: l, hl, h, I => by
    obtain ⟨hb, hN⟩ := hl a (by simp)
    obtain ⟨e, h', p1, p2, p3, p4, p5⟩ := hv a hb hN h I
    obtain ⟨es, h'', q1, q2, q3, q4⟩ := visitAll_spec hv l (fun c hc => hl c (by simp [hc])) h' p2
    refine ⟨e :: es, h'', by simp only [visitAll, p1, q1], q2, (p3.mono (by omega)).trans (le_refl _) q3, ?_⟩
    have halt : a < h'.next := lt_of_lt_of_le hN p2.next
    intro c hc
    rcases List.mem_cons.1 hc with rfl | hc
    · rcases p5 with ⟨e', p5⟩ | ⟨v, p5⟩
      · rw [p5] at p4
        have := q3.end_ c halt e' p5
        rw [this, ← p4]
        exact ⟨fun x hx => by simp [hx], by simp⟩
      · have hk : (h''.node c).kind = .const v := by rw [q3.kind c halt, p5]
        have := (q2.const c hN v (by rw [← q2.kind c hN, hk])).1
        rw [this]
        exact ⟨by simp, fun _ => ⟨v, hk⟩⟩
    · exact ⟨fun x hx => by simp [(q4 c hc).1 x hx], (q4 c hc).2⟩

/-- Setting the stages of a node that was not scheduled. -/
theorem setNode {h : Heap} (I : Inv G N h) {id : ℕ} (hN : id < N) (hs : (h.node id).start = none)
    (he : (h.node id).end_ = none) (hc : ∀ v, (G id).kind ≠ .const v) (as : List ℕ) (s e : ℕ)
    (hlt : ∀ a ∈ as, a < h.next) (hor : as.map h.origin = (G id).args)
    (hin : ∀ k, (G id).kind = .input k → s = 0 ∧ e = 0)
    (hop : ∀ o, (G id).kind = .op o → e = s + o.lat ∧ (∀ a ∈ as, a ≠ id ∧ h.At a s) ∧
      ∀ a ∈ (h.node id).deps, a < N ∧ h.Before a s) :
    Inv G N (h.set id { h.node id with args := as, start := some s, end_ := some e }) ∧
    Ext N (id + 1) h (h.set id { h.node id with args := as, start := some s, end_ := some e }) := by
  set h2 := h.set id { h.node id with args := as, start := some s, end_ := some e } with hh2
  have hnode : ∀ i, i ≠ id → h2.node i = h.node i := fun i hne => by
    simp only [hh2, Heap.set]; rw [Function.update_of_ne hne]
  have hnew : h2.node id = { h.node id with args := as, start := some s, end_ := some e } := by
    simp only [hh2, Heap.set]; rw [Function.update_self]
  have hnext : h2.next = h.next := rfl
  have fld : ∀ i, (h2.node i).kind = (h.node i).kind ∧ (h2.node i).deps = (h.node i).deps ∧
      (h2.node i).parent = (h.node i).parent ∧ (h2.node i).delayed = (h.node i).delayed := by
    intro i
    by_cases hne : i = id
    · subst hne; rw [hnew]; simp
    · rw [hnode i hne]; simp
  have horig : ∀ i, h2.origin i = h.origin i := fun i => by unfold Heap.origin; rw [(fld i).2.2.1]
  have hidlt : id < h.next := lt_of_lt_of_le hN I.next
  have hEnd : ∀ i e', (h.node i).end_ = some e' → (h2.node i).end_ = some e' := by
    intro i e' q
    by_cases hne : i = id
    · subst hne; rw [he] at q; cases q
    · rw [hnode i hne]; exact q
  have hAt : ∀ i s', i < h.next → h.At i s' → h2.At i s' := by
    intro i s' hi q
    rcases q with q | ⟨⟨v, q⟩, q'⟩
    · exact Or.inl (hEnd i s' q)
    · by_cases hne : i = id
      · subst hne; rw [I.kind i hN] at q; exact absurd q (hc v)
      · exact Or.inr ⟨⟨v, by rw [hnode i hne, q]⟩, by rw [hnode i hne, q']⟩
  have hBefore : ∀ i s', i < h.next → h.Before i s' → h2.Before i s' := by
    intro i s' hi q
    rcases q with ⟨e', q, q'⟩ | ⟨⟨v, q⟩, q'⟩
    · exact Or.inl ⟨e', hEnd i e' q, q'⟩
    · by_cases hne : i = id
      · subst hne; rw [I.kind i hN] at q; exact absurd q (hc v)
      · exact Or.inr ⟨⟨v, by rw [hnode i hne, q]⟩, by rw [hnode i hne, q']⟩
  refine ⟨⟨I.next, ?_, ?_, ?_, ?_, ?_, ?_, ?_, ?_, ?_, ?_⟩, ⟨le_refl _, ?_, ?_, ?_, ?_, ?_, ?_⟩⟩
  · intro i hi; rw [(fld i).1, I.kind i hi]
  · intro i hi; rw [(fld i).2.1, I.deps i hi]
  · intro i hi; rw [(fld i).2.2.1, I.parent i hi]
  · intro i hi a ha
    by_cases hne : i = id
    · subst hne; rw [hnew] at ha; exact hlt a ha
    · rw [hnode i hne] at ha; exact I.argsLt i hi a ha
  · intro i hi
    rw [show h2.origin = h.origin from funext horig]
    by_cases hne : i = id
    · subst hne; rw [hnew]; exact hor
    · rw [hnode i hne]; exact I.origin i hi
  · intro i hi hi'
    obtain ⟨o, p, e', e1, q1, q2, q3, q4, q5, q6, q7, q8, q9, q10, q11⟩ := I.delay i hi hi'
    have hne : i ≠ id := by omega
    exact ⟨o, p, e', e1, by rw [hnode i hne, q1], by rw [hnode i hne, q2], by rw [hnode i hne, q3], by rw [hnode i hne, q4],
      by rw [hnode i hne, q5], q6, by rw [horig, q7], hEnd p _ q8, hEnd o _ q9, q10, by rw [hnode i hne, q11]⟩
  · intro i hi k r hk
    rw [(fld i).2.2.2] at hk
    obtain ⟨q1, q2, q3, q4⟩ := I.delayed i hi k r hk
    exact ⟨q1, q2, by rw [(fld r).2.2.1, q3], hEnd r _ q4⟩
  · intro i hi v hv
    by_cases hne : i = id
    · subst hne; exact absurd hv (hc v)
    · rw [hnode i hne]; exact I.const i hi v hv
  · intro i hi k hk
    by_cases hne : i = id
    · subst hne; rw [hnew]; obtain ⟨rfl, rfl⟩ := hin k hk; simp
    · rw [hnode i hne]; exact I.input i hi k hk
  · intro i hi o ho
    by_cases hne : i = id
    · subst hne
      obtain ⟨q1, q2⟩ := hop o ho
      refine Or.inr ⟨s, by rw [hnew], by rw [hnew, q1], fun a ha => ?_, fun a ha => ?_⟩
      · rw [hnew] at ha
        exact hAt a s (hlt a ha) (q2.1 a ha).2
      · rw [(fld i).2.1] at ha
        obtain ⟨w1, w2⟩ := q2.2 a ha
        exact ⟨w1, hBefore a s (lt_of_lt_of_le w1 I.next) w2⟩
    · rw [hnode i hne]
      rcases I.op i hi o ho with q | ⟨s', q1, q2, q3⟩
      · exact Or.inl q
      · exact Or.inr ⟨s', q1, q2, fun a ha => hAt a s' (I.argsLt i (lt_of_lt_of_le hi I.next) a ha) (q3.1 a ha),
          fun a ha => ⟨(q3.2 a ha).1, hBefore a s' (lt_of_lt_of_le (q3.2 a ha).1 I.next) (q3.2 a ha).2⟩⟩
  · intro i _; exact (fld i).1
  · intro i _; exact (fld i).2.2.1
  · intro i _ e' q; exact hEnd i e' q
  · intro i _ e' q
    by_cases hne : i = id
    · subst hne; rw [hs] at q; cases q
    · rw [hnode i hne]; exact q
  · intro i _ q
    by_cases hne : i = id
    · subst hne; exact absurd hs q
    · rw [hnode i hne]
  · intro i hi _
    rw [hnode i (by omega)]

theorem visit_spec (F : Fresh G N) : ∀ f, VisitSpec G N f (visit f)
  | 0 => fun id hid => absurd hid (Nat.not_lt_zero _)
  | f + 1 => by
    intro id hid hN h I
    have hlt : id < h.next := lt_of_lt_of_le hN I.next
    unfold visit
    cases hk : (h.node id).kind with
    | const v =>
      have hk' : (G id).kind = .const v := by rw [← I.kind id hN, hk]
      exact ⟨none, h, rfl, I, Ext.refl _ h, (I.const id hN v hk').1, Or.inr ⟨v, hk⟩⟩
    | input k =>
      have hk' : (G id).kind = .input k := by rw [← I.kind id hN, hk]
      obtain ⟨q1, q2⟩ := I.input id hN k hk'
      simp only
      by_cases hst : (h.node id).start.isSome
      · rw [if_pos hst]
        refine ⟨_, h, rfl, I, Ext.refl _ h, rfl, Or.inl ?_⟩
        obtain ⟨s, hs⟩ := Option.isSome_iff_exists.1 hst
        exact ⟨s, by rw [q1, hs]⟩
      · rw [if_neg hst]
        have hs : (h.node id).start = none := by simpa using hst
        have he : (h.node id).end_ = none := by rw [q1, hs]
        have ha : ∀ a ∈ (h.node id).args, a < h.next := I.argsLt id hlt
        obtain ⟨I2, x2⟩ := setNode I hN hs he (by intro v; rw [hk']; simp) (h.node id).args 0 0 ha (I.origin id hN)
          (by simp) (by intro o ho; rw [hk'] at ho; cases ho)
        refine ⟨_, _, rfl, I2, x2, ?_, Or.inl ⟨0, ?_⟩⟩ <;> simp [Heap.set]
    | op o =>
      have hk' : (G id).kind = .op o := by rw [← I.kind id hN, hk]
      simp only
      by_cases hst : (h.node id).start.isSome
      · rw [if_pos hst]
        refine ⟨_, h, rfl, I, Ext.refl _ h, rfl, Or.inl ?_⟩
        obtain ⟨s, hs⟩ := Option.isSome_iff_exists.1 hst
        rcases I.op id hN o hk' with ⟨q, _⟩ | ⟨s', _, q2, _⟩
        · rw [hs] at q; cases q
        · exact ⟨_, q2⟩
      · rw [if_neg hst]
        have hs : (h.node id).start = none := by simpa using hst
        have hargs : (h.node id).args = (G id).args := by
          rcases I.op id hN o hk' with ⟨_, _, q⟩ | ⟨s', q, _⟩
          · exact q
          · rw [hs] at q; cases q
        have hb : ∀ a ∈ (h.node id).args ++ (h.node id).deps, a < id := by
          rw [hargs, I.deps id hN]; exact F.args id hN
        have hv : VisitSpec G N id (visit f) := fun i hi => visit_spec F f i (by omega)
        obtain ⟨es, h1, p1, p2, p3, p4⟩ := visitAll_spec hv _ (fun a ha => ⟨hb a ha, lt_trans (hb a ha) hN⟩) h I
        have hs1 : (h1.node id).start = none := by rw [p3.later id (le_refl _) hN, hs]
        have h1n : (h1.node id).end_ = none ∧ (h1.node id).args = (G id).args := by
          rcases p2.op id hN o hk' with ⟨_, q⟩ | ⟨s', q, _⟩
          · exact q
          · rw [hs1] at q; cases q
        rw [p1]
        simp only
        have hargs1 : (h1.node id).args = (h.node id).args := by rw [h1n.2, hargs]
        have hmem : ∀ a ∈ (h1.node id).args, a ∈ (h.node id).args ++ (h.node id).deps := fun a ha => by
          rw [hargs1] at ha; simp [ha]
        obtain ⟨as, h2, q1, q2, q3, q4, q5, q6⟩ := fillAll_spec (h1.node id).args (m := (maxStage es).getD 0) p2
          (p2.argsLt id (lt_of_lt_of_le hN p2.next)) (fun a ha e he => le_maxStage ((p4 a (hmem a ha)).1 e he))
          (fun a ha => (p4 a (hmem a ha)).2)
        rw [q1]
        simp only
        have hs2 : (h2.node id).start = none := by rw [q3.later id (Nat.zero_le _) hN, hs1]
        have h2n : (h2.node id).end_ = none := by
          rcases q2.op id hN o hk' with ⟨_, q, _⟩ | ⟨s', q, _⟩
          · exact q
          · rw [hs2] at q; cases q
        obtain ⟨I3, x3⟩ := setNode q2 hN hs2 h2n (by intro v; rw [hk']; simp) as ((maxStage es).getD 0)
          ((maxStage es).getD 0 + o.lat) q4
          (by rw [q5, p2.origin id hN])
          (by intro k hk2; rw [hk'] at hk2; cases hk2)
          (by
            intro o' ho'
            rw [hk'] at ho'; cases ho'
            refine ⟨rfl, fun a ha => ⟨?_, q6 a ha⟩, fun a ha => ?_⟩
            · rintro rfl
              rcases q6 a ha with q | ⟨⟨v, q⟩, _⟩
              · rw [h2n] at q; cases q
              · rw [q2.kind a hN, hk'] at q; cases q
            · have ha' : a ∈ (h.node id).args ++ (h.node id).deps := by
                rw [q2.deps id hN, ← I.deps id hN] at ha; simp [ha]
              have haN : a < N := lt_trans (hb a ha') hN
              have hal : a < h1.next := lt_of_lt_of_le haN p2.next
              refine ⟨haN, ?_⟩
              cases hq : (h1.node a).end_ with
              | some e => exact Or.inl ⟨e, q3.end_ a hal e hq, le_maxStage ((p4 a ha').1 e hq)⟩
              | none =>
                obtain ⟨v, hv'⟩ := (p4 a ha').2 hq
                have hk2 : (h2.node a).kind = .const v := by rw [q3.kind a hal, hv']
                exact Or.inr ⟨⟨v, hk2⟩, (q2.const a haN v (by rw [← q2.kind a haN, hk2])).1⟩)
        refine ⟨_, _, rfl, I3, ?_, ?_, Or.inl ⟨(maxStage es).getD 0 + o.lat, ?_⟩⟩
        · exact (((p3.mono (Nat.le_succ _)).trans (le_refl _) (q3.mono (Nat.zero_le _))).trans (le_refl _) x3)
        · simp [Heap.set]
        · simp [Heap.set]

theorem inv_fresh (F : Fresh G N) : Inv G N ⟨G, N⟩ := by
  have ho : ∀ id < N, (⟨G, N⟩ : Heap).origin id = id := fun id hi => by
    unfold Heap.origin; rw [F.parent id hi]; rfl
  have hlt : ∀ id < N, ∀ a ∈ (G id).args, a < N := fun id hi a ha =>
    lt_trans (F.args id hi a (by simp [ha])) hi
  refine ⟨le_refl _, fun _ _ => rfl, fun _ _ => rfl, F.parent, fun id hi => hlt id hi, ?_, ?_, ?_, ?_, ?_, ?_⟩
  · intro id hi
    conv_rhs => rw [← List.map_id (G id).args]
    exact List.map_congr_left fun a ha => ho a (hlt id hi a ha)
  · intro id h1 h2; simp at h2; omega
  · intro id hi k r hk; simp only [F.delayed id hi] at hk; simp at hk
  · intro id hi v _; exact ⟨F.end_ id hi, F.start id hi⟩
  · intro id hi k _; exact ⟨by simp only [F.end_ id hi, F.start id hi], Or.inl (F.start id hi)⟩
  · intro id hi o _; exact Or.inl ⟨F.start id hi, F.end_ id hi, rfl⟩

/-- The result of scheduling and balancing. -/
theorem implement_spec (F : Fresh G N) (outs : List ℕ) (ho : ∀ o ∈ outs, o < N) :
    ∃ h1 rs h, schedule ⟨G, N⟩ outs = some h1 ∧ implement ⟨G, N⟩ outs = some (rs, h) ∧ Inv G N h1 ∧ Inv G N h ∧ Ext N 0 h1 h ∧
      (∀ o ∈ outs, h1.Seen o ∧ ∀ e, (h1.node o).end_ = some e → e ≤ depth h1 outs) ∧
      (∀ r ∈ rs, r < h.next) ∧ rs.map h.origin = outs ∧ ∀ r ∈ rs, h.At r (depth h1 outs) := by
  obtain ⟨es, h1, p1, p2, p3, p4⟩ := visitAll_spec (visit_spec F N) outs (fun o h => ⟨ho o h, ho o h⟩) _ (inv_fresh F)
  have hsch : schedule ⟨G, N⟩ outs = some h1 := by unfold schedule; rw [p1]; rfl
  have hd : ∀ o ∈ outs, ∀ e, (h1.node o).end_ = some e → e ≤ depth h1 outs := by
    intro o hm e he
    refine le_maxStage (List.mem_cons_of_mem _ (List.mem_map.2 ⟨o, hm, he⟩))
  obtain ⟨rs, h, q1, q2, q3, q4, q5, q6⟩ := fillAll_spec outs (m := depth h1 outs) p2
    (fun o h => lt_of_lt_of_le (ho o h) p2.next) hd (fun o h => (p4 o h).2)
  refine ⟨h1, rs, h, hsch, by unfold implement; rw [hsch]; exact q1, p2, q2, q3, ?_, q4, ?_, q6⟩
  · intro o hm
    refine ⟨?_, hd o hm⟩
    cases hq : (h1.node o).end_ with
    | some e => exact Or.inl ⟨e, hq⟩
    | none => exact Or.inr ((p4 o hm).2 hq)
  · rw [q5]
    conv_rhs => rw [← List.map_id outs]
    exact List.map_congr_left fun o h => p2.origin_self (ho o h)

end Sch
