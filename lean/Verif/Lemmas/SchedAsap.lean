import Verif.Lemmas.SchedInv
import Mathlib.Tactic.ByContra

/-! The scheduler starts every operator as soon as possible. -/

namespace Sch

variable {G : ℕ → Node} {N : ℕ}

theorem maxStage_mem {l : List (Option ℕ)} {M : ℕ} (h : maxStage l = some M) : some M ∈ l := by
  have : ∀ (l : List (Option ℕ)) (m : Option ℕ) (M : ℕ), l.foldl maxStep m = some M → m = some M ∨ some M ∈ l := by
    intro l
    induction l with
    | nil => intro m M h; exact Or.inl h
    | cons a l ih =>
      intro m M h
      rw [List.foldl_cons] at h
      rcases ih _ _ h with q | q
      · cases a with
        | none => exact Or.inl q
        | some v =>
          cases m with
          | none => simp only [maxStep, Option.some.injEq] at q; simp [q]
          | some m =>
            simp only [maxStep, Option.some.injEq] at q
            split_ifs at q <;> simp [q]
      · exact Or.inr (by simp [q])
  rcases this l none M h with q | q
  · cases q
  · exact q

/-- An operator starts when one of its operands ends, or in stage 0. -/
def Asap (G : ℕ → Node) (N : ℕ) (h : Heap) : Prop :=
  ∀ id < N, ∀ o s, (G id).kind = .op o → (h.node id).start = some s →
    s = 0 ∨ ∃ a ∈ (G id).args ++ (G id).deps, (h.node a).end_ = some s

theorem Asap.ext (F : Fresh G N) {h h' : Heap} (I : Inv G N h) (x : Ext N 0 h h') (q : Asap G N h) : Asap G N h' := by
  intro id hN o s hk hs
  rw [x.later id (Nat.zero_le _) hN] at hs
  rcases q id hN o s hk hs with q | ⟨a, ha, q⟩
  · exact Or.inl q
  · exact Or.inr ⟨a, ha, x.end_ a (lt_of_lt_of_le (lt_trans (F.args id hN a ha) hN) I.next) s q⟩

theorem Asap.set {h : Heap} (I : Inv G N h) (q : Asap G N h) {id : ℕ} (hN : id < N)
    (hs : (h.node id).start = none) {as : List ℕ} {s e : ℕ}
    (hn : ∀ o, (G id).kind = .op o → s = 0 ∨ ∃ a ∈ (G id).args ++ (G id).deps, (h.node a).end_ = some s) :
    Asap G N (h.set id { h.node id with args := as, start := some s, end_ := some e }) := by
  have hnode : ∀ i, i ≠ id → (h.set id { h.node id with args := as, start := some s, end_ := some e }).node i = h.node i :=
    fun i hi => by simp [Heap.set, hi]
  have hend : (h.node id).end_ = none := by
    cases hk : (G id).kind with
    | const v => exact (I.const id hN v hk).1
    | input k => rw [(I.input id hN k hk).1, hs]
    | op o =>
      rcases I.op id hN o hk with ⟨_, q, _⟩ | ⟨s', q, _⟩
      · exact q
      · rw [hs] at q; cases q
  have keep : ∀ a x, (h.node a).end_ = some x →
      ((h.set id { h.node id with args := as, start := some s, end_ := some e }).node a).end_ = some x := by
    intro a x hx
    by_cases ha : a = id
    · subst ha; rw [hend] at hx; cases hx
    · rw [hnode a ha, hx]
  intro i hi o s' hk hst
  by_cases hid : i = id
  · subst hid
    have : s' = s := by simpa [Heap.set] using hst.symm
    subst this
    exact (hn o hk).imp (fun w => w) fun ⟨a, ha, w⟩ => ⟨a, ha, keep a _ w⟩
  · rw [hnode i hid] at hst
    exact (q i hi o s' hk hst).imp (fun w => w) fun ⟨a, ha, w⟩ => ⟨a, ha, keep a _ w⟩

theorem visitAll_asap {b : ℕ} {visit : ℕ → Heap → Option (Option ℕ × Heap)} (hv : VisitSpec G N b visit)
    (ha : ∀ id < b, id < N → ∀ h, Inv G N h → Asap G N h → ∀ e h', visit id h = some (e, h') → Asap G N h') :
    ∀ (l : List ℕ), (∀ a ∈ l, a < b ∧ a < N) → ∀ h, Inv G N h → Asap G N h → ∀ es h', visitAll visit l h = some (es, h') →
      Asap G N h' ∧ ∀ e, some e ∈ es → ∃ a ∈ l, (h'.node a).end_ = some e
  | [], _, h, _, q, es, h', hr => by
    simp only [visitAll, Option.some.injEq, Prod.mk.injEq] at hr
    obtain ⟨rfl, rfl⟩ := hr
    exact ⟨q, by simp⟩
  | a :: l, hl, h, I, q, es, h', hr => by
    obtain ⟨hb, hN⟩ := hl a (by simp)
    obtain ⟨e, h1, p1, p2, p3, p4, p5⟩ := hv a hb hN h I
    have q1 := ha a hb hN h I q e h1 p1
    obtain ⟨es', h2, r1, r2, r3, _⟩ := visitAll_spec hv l (fun c hc => hl c (by simp [hc])) h1 p2
    simp only [visitAll, p1, r1, Option.some.injEq, Prod.mk.injEq] at hr
    obtain ⟨rfl, rfl⟩ := hr
    obtain ⟨w1, w2⟩ := visitAll_asap hv ha l (fun c hc => hl c (by simp [hc])) h1 p2 q1 es' h2 r1
    refine ⟨w1, fun x hx => ?_⟩
    rcases List.mem_cons.1 hx with hx | hx
    · exact ⟨a, by simp, r3.end_ a (lt_of_lt_of_le hN p2.next) x (by rw [p4, hx])⟩
    · obtain ⟨c, hc, w⟩ := w2 x hx
      exact ⟨c, by simp [hc], w⟩

theorem visit_asap (F : Fresh G N) : ∀ f, ∀ id < f, id < N → ∀ h, Inv G N h → Asap G N h → ∀ e h',
    visit f id h = some (e, h') → Asap G N h'
  | 0, id, hid, _, _, _, _, _, _, _ => absurd hid (Nat.not_lt_zero _)
  | f + 1, id, hid, hN, h, I, q, e, h', hr => by
    unfold visit at hr
    cases hk : (h.node id).kind with
    | const v => rw [hk] at hr; simp only [Option.some.injEq, Prod.mk.injEq] at hr; rw [← hr.2]; exact q
    | input k =>
      have hk' : (G id).kind = .input k := by rw [← I.kind id hN, hk]
      rw [hk] at hr
      simp only at hr
      by_cases hst : (h.node id).start.isSome
      · rw [if_pos hst] at hr; simp only [Option.some.injEq, Prod.mk.injEq] at hr; rw [← hr.2]; exact q
      · rw [if_neg hst] at hr
        simp only [Option.some.injEq, Prod.mk.injEq] at hr
        rw [← hr.2]
        exact q.set I hN (by simpa using hst) (as := (h.node id).args) (by intro o ho; rw [hk'] at ho; cases ho)
    | op o =>
      have hk' : (G id).kind = .op o := by rw [← I.kind id hN, hk]
      rw [hk] at hr
      simp only at hr
      by_cases hst : (h.node id).start.isSome
      · rw [if_pos hst] at hr; simp only [Option.some.injEq, Prod.mk.injEq] at hr; rw [← hr.2]; exact q
      · rw [if_neg hst] at hr
        have hs : (h.node id).start = none := by simpa using hst
        have hargs : (h.node id).args = (G id).args := by
          rcases I.op id hN o hk' with ⟨_, _, w⟩ | ⟨s', w, _⟩
          · exact w
          · rw [hs] at w; cases w
        have hb : ∀ a ∈ (h.node id).args ++ (h.node id).deps, a < id := by
          rw [hargs, I.deps id hN]; exact F.args id hN
        have hl : ∀ a ∈ (h.node id).args ++ (h.node id).deps, a < id ∧ a < N := fun a ha => ⟨hb a ha, lt_trans (hb a ha) hN⟩
        have hv : VisitSpec G N id (visit f) := fun i hi => visit_spec F f i (by omega)
        obtain ⟨es, h1, p1, p2, p3, p4⟩ := visitAll_spec hv _ hl h I
        obtain ⟨w1, w2⟩ := visitAll_asap hv (fun i hi hiN h I q e h' => visit_asap F f i (by omega) hiN h I q e h') _ hl h I q es h1 p1
        rw [p1] at hr
        simp only at hr
        have hs1 : (h1.node id).start = none := by rw [p3.later id (le_refl _) hN, hs]
        have hargs1 : (h1.node id).args = (h.node id).args := by
          rw [hargs]
          rcases p2.op id hN o hk' with ⟨_, _, w⟩ | ⟨s', w, _⟩
          · exact w
          · rw [hs1] at w; cases w
        have hmem : ∀ a ∈ (h1.node id).args, a ∈ (h.node id).args ++ (h.node id).deps := fun a ha => by
          rw [hargs1] at ha; simp [ha]
        obtain ⟨as, h2, q1, q2, q3, _⟩ := fillAll_spec (h1.node id).args (m := (maxStage es).getD 0) p2
          (p2.argsLt id (lt_of_lt_of_le hN p2.next)) (fun a ha e he => le_maxStage ((p4 a (hmem a ha)).1 e he))
          (fun a ha => (p4 a (hmem a ha)).2)
        rw [q1] at hr
        simp only [Option.some.injEq, Prod.mk.injEq] at hr
        rw [← hr.2]
        refine (w1.ext F p2 q3).set q2 hN (by rw [q3.later id (Nat.zero_le _) hN, hs1]) fun _ _ => ?_
        cases hm : maxStage es with
        | none => exact Or.inl rfl
        | some M =>
          obtain ⟨a, ha, w⟩ := w2 M (maxStage_mem hm)
          refine Or.inr ⟨a, by rw [hargs, I.deps id hN] at ha; exact ha, ?_⟩
          exact q3.end_ a (lt_of_lt_of_le (hl a ha).2 p2.next) M w

theorem implement_asap (F : Fresh G N) {outs : List ℕ} (ho : ∀ o ∈ outs, o < N) {rs : List ℕ} {h : Heap}
    (hi : implement ⟨G, N⟩ outs = some (rs, h)) : Asap G N h := by
  obtain ⟨h1, rs', h', p1, p2, p3, p4, p5, _⟩ := implement_spec F outs ho
  rw [hi] at p2
  cases p2
  refine Asap.ext F p3 p5 ?_
  unfold schedule at p1
  obtain ⟨⟨es, h2⟩, q1, q2⟩ := Option.map_eq_some_iff.1 p1
  cases q2
  refine (visitAll_asap (visit_spec F N) (fun id h1 h2 h I q e h' => visit_asap F N id h1 h2 h I q e h') outs
    (fun o h => ⟨ho o h, ho o h⟩) ⟨G, N⟩ (inv_fresh F) ?_ es _ q1).1
  intro id hid o s _ hs
  have := F.start id hid
  simp only [this] at hs
  cases hs

theorem Inv.origin_end {h : Heap} (I : Inv G N h) {a e : ℕ} (ha : a < h.next) (he : (h.node a).end_ = some e) :
    ∃ e0, (h.node (h.origin a)).end_ = some e0 ∧ e0 ≤ e := by
  by_cases hN : a < N
  · rw [I.origin_self hN]; exact ⟨e, he, le_refl _⟩
  · obtain ⟨o, p, e', e0, _, _, q3, _, q5, _, _, _, q9, q10, _⟩ := I.delay a (by omega) ha
    rw [he] at q5
    have : h.origin a = o := by unfold Heap.origin; rw [q3]; rfl
    rw [this]; exact ⟨e0, q9, by simp at q5; omega⟩

/-- A chain of operators up to the node that begins with a variable or with an operator, with the sum of their latencies. -/
inductive Chain (G : ℕ → Node) : ℕ → ℕ → Prop
  | input {id k : ℕ} : (G id).kind = .input k → Chain G id 0
  | first {id : ℕ} {o : Op} : (G id).kind = .op o → Chain G id o.lat
  | op {id a n : ℕ} {o : Op} : (G id).kind = .op o → a ∈ (G id).args ++ (G id).deps → Chain G a n → Chain G id (n + o.lat)

theorem Chain.not_const {id n : ℕ} (p : Chain G id n) (v : Int) : (G id).kind ≠ .const v := by
  cases p with
  | input h => rw [h]; simp
  | first h => rw [h]; simp
  | op h => rw [h]; simp

theorem Chain.le {h : Heap} (I : Inv G N h) {id n : ℕ} (p : Chain G id n) : id < N → ∀ e, (h.node id).end_ = some e → n ≤ e := by
  induction p with
  | input hk => intro _ _ _; exact Nat.zero_le _
  | @first id o hk =>
    intro hN e he
    rcases I.op id hN o hk with ⟨_, q, _⟩ | ⟨s, _, q2, _⟩
    · rw [he] at q; cases q
    · rw [he] at q2; cases q2; omega
  | @op id a n o hk ha hp ih =>
    intro hN e he
    rcases I.op id hN o hk with ⟨_, q, _⟩ | ⟨s, _, q2, q3, q4⟩
    · rw [he] at q; cases q
    · rw [he] at q2
      cases q2
      rcases List.mem_append.1 ha with ha | ha
      · rw [← I.origin id hN] at ha
        obtain ⟨b, hb, hba⟩ := List.mem_map.1 ha
        have hbl := I.argsLt id (lt_of_lt_of_le hN I.next) b hb
        have haN : a < N := by rw [← hba]; exact I.origin_lt hbl
        rcases q3 b hb with w | ⟨⟨v, w⟩, _⟩
        · obtain ⟨e0, g1, g2⟩ := I.origin_end hbl w
          rw [hba] at g1
          have := ih haN e0 g1
          omega
        · have hbN : b < N := by
            by_contra hge
            obtain ⟨_, _, _, _, u, _⟩ := I.delay b (by omega) hbl
            rw [w] at u; cases u
          rw [I.origin_self hbN] at hba
          subst hba
          exact absurd (by rw [← I.kind b hbN]; exact w) (hp.not_const v)
      · rw [← I.deps id hN] at ha
        obtain ⟨haN, w⟩ := q4 a ha
        rcases w with ⟨e, w, w'⟩ | ⟨⟨v, w⟩, _⟩
        · have := ih haN e w
          omega
        · exact absurd (by rw [← I.kind a haN]; exact w) (hp.not_const v)

theorem end_chain (F : Fresh G N) {h : Heap} (I : Inv G N h) (q : Asap G N h) :
    ∀ id < N, ∀ e, (h.node id).end_ = some e → Chain G id e := by
  intro id
  induction id using Nat.strongRecOn with
  | _ id ih =>
  intro hN e he
  cases hk : (G id).kind with
  | const v => rw [(I.const id hN v hk).1] at he; cases he
  | input k =>
    obtain ⟨q1, q2⟩ := I.input id hN k hk
    rw [he] at q1
    rcases q2 with q2 | q2
    · rw [q2] at q1; cases q1
    · rw [q2] at q1; cases q1; exact .input hk
  | op o =>
    rcases I.op id hN o hk with ⟨_, w, _⟩ | ⟨s, w1, w2, w3, _⟩
    · rw [he] at w; cases w
    · rw [he] at w2
      cases w2
      rcases q id hN o s hk w1 with rfl | ⟨a, ha, w⟩
      · rw [Nat.zero_add]; exact .first hk
      · have hlt := F.args id hN a ha
        exact .op hk ha (ih a hlt (lt_trans hlt hN) s w)

end Sch
