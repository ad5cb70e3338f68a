import Verif.Model.DfSched
import Verif.Lemmas.SchedAsap
import Verif.Props.C24_Schedule
import Verif.Props.C58_Dataflow

/-! Scheduling of dataflow graphs: agreement with the scheduler of the streams, stages as longest paths, the network. -/

namespace DfSch

open Sch

variable {G : ℕ → Sch.Node} {N : ℕ}

/-- The node depends on a variable. -/
inductive Dep (G : ℕ → Sch.Node) : ℕ → Prop
  | input {id k : ℕ} : (G id).kind = .input k → Dep G id
  | op {id a : ℕ} {o : Op} : (G id).kind = .op o → a ∈ (G id).args → Dep G a → Dep G id

/-- The nodes used by the outputs. -/
inductive Used (G : ℕ → Sch.Node) (outs : List ℕ) : ℕ → Prop
  | out {o : ℕ} : o ∈ outs → Used G outs o
  | arg {id a : ℕ} : Used G outs id → a ∈ (G id).args → Used G outs a

/-- The graphs considered: acyclic, all operators used depend on a variable. -/
structure Alive (G : ℕ → Sch.Node) (N : ℕ) (outs : List ℕ) : Prop where
  fresh : Fresh G N
  outsLt : ∀ o ∈ outs, o < N
  deps : ∀ id < N, (G id).deps = []
  dep : ∀ id, Used G outs id → ∀ o, (G id).kind = .op o → Dep G id

theorem Dep.not_const {id : ℕ} (d : Dep G id) (v : Int) : (G id).kind ≠ .const v := by
  cases d with
  | input h => rw [h]; simp
  | op h => rw [h]; simp

/-! ### Agreement -/

theorem visitAll_agree {P : ℕ → Prop} {b : ℕ} {v w : ℕ → Heap → Option (Option ℕ × Heap)} (hw : VisitSpec G N b w)
    (hag : ∀ id < b, id < N → P id → ∀ h, Inv G N h → v id h = w id h) :
    ∀ l, (∀ a ∈ l, a < b ∧ a < N ∧ P a) → ∀ h, Inv G N h → visitAll v l h = visitAll w l h
  | [], _, _, _ => rfl
  | a :: l, hl, h, I => by
    obtain ⟨h1, h2, h3⟩ := hl a (by simp)
    obtain ⟨e, h', p1, p2, _⟩ := hw a h1 h2 h I
    have hr := visitAll_agree hw hag l (fun c hc => hl c (by simp [hc])) h' p2
    simp only [visitAll, hag a h1 h2 h3 h I, p1, hr]

theorem visit_agree {outs : List ℕ} (A : Alive G N outs) : ∀ f, ∀ id < f, id < N → Used G outs id → ∀ h, Inv G N h →
    DfSch.visit f id h = Sch.visit f id h
  | 0, id, hid, _, _, _, _ => absurd hid (Nat.not_lt_zero _)
  | f + 1, id, hid, hN, hu, h, I => by
    unfold DfSch.visit Sch.visit
    cases hk : (h.node id).kind with
    | const v => rfl
    | input k => rfl
    | op o =>
      have hk' : (G id).kind = .op o := by rw [← I.kind id hN, hk]
      simp only
      by_cases hst : (h.node id).start.isSome
      · rw [if_pos hst, if_pos hst]
      · rw [if_neg hst, if_neg hst]
        have hs : (h.node id).start = none := by simpa using hst
        have hargs : (h.node id).args = (G id).args := by
          rcases I.op id hN o hk' with ⟨_, _, q⟩ | ⟨s', q, _⟩
          · exact q
          · rw [hs] at q; cases q
        have hd : (h.node id).args ++ (h.node id).deps = (G id).args := by
          rw [hargs, I.deps id hN, A.deps id hN, List.append_nil]
        rw [hd]
        have hb : ∀ a ∈ (G id).args, a < id := fun a ha => A.fresh.args id hN a (by simp [ha])
        have hv : VisitSpec G N id (Sch.visit f) := fun i hi => visit_spec A.fresh f i (by omega)
        have hl : ∀ a ∈ (G id).args, a < id ∧ a < N := fun a ha => ⟨hb a ha, lt_trans (hb a ha) hN⟩
        rw [visitAll_agree (P := Used G outs) hv
          (fun i hi hiN hiu h I => visit_agree A f i (by omega) hiN hiu h I) (G id).args
          (fun a ha => ⟨(hl a ha).1, (hl a ha).2, .arg hu ha⟩) h I]
        obtain ⟨es, h1, p1, p2, p3, p4⟩ := visitAll_spec hv (G id).args hl h I
        rw [p1]
        simp only
        have hdep := A.dep id hu o hk'
        obtain ⟨a, ha, hda⟩ : ∃ a ∈ (G id).args, Dep G a := by
          cases hdep with
          | input q => rw [hk'] at q; cases q
          | op _ q1 q2 => exact ⟨_, q1, q2⟩
        have hm : ∃ M, maxStage es = some M := by
          cases he : (h1.node a).end_ with
          | none =>
            obtain ⟨v, q⟩ := (p4 a ha).2 he
            rw [p2.kind a (hl a ha).2] at q
            exact absurd q (hda.not_const v)
          | some e =>
            obtain ⟨M, q, _⟩ := maxStage_aux es none _ ((p4 a ha).1 e he) e rfl
            exact ⟨M, q⟩
        obtain ⟨M, hm⟩ := hm
        rw [hm]
        rfl

theorem implement_agree {outs : List ℕ} (A : Alive G N outs) :
    DfSch.implement ⟨G, N⟩ outs = Sch.implement ⟨G, N⟩ outs := by
  have : DfSch.schedule ⟨G, N⟩ outs = Sch.schedule ⟨G, N⟩ outs := by
    unfold DfSch.schedule Sch.schedule
    rw [visitAll_agree (P := Used G outs) (b := N) (visit_spec A.fresh N)
      (fun id h1 h2 h3 h I => visit_agree A N id h1 h2 h3 h I) outs
      (fun o ho => ⟨A.outsLt o ho, A.outsLt o ho, .out ho⟩) _ (inv_fresh A.fresh)]
  unfold DfSch.implement Sch.implement
  rw [this]
  cases Sch.schedule ⟨G, N⟩ outs <;> rfl

/-! ### Stages -/

/-- A path from a variable to the node, with the sum of the latencies of its operators. -/
inductive Path (G : ℕ → Sch.Node) : ℕ → ℕ → Prop
  | input {id k : ℕ} : (G id).kind = .input k → Path G id 0
  | op {id a n : ℕ} {o : Op} : (G id).kind = .op o → a ∈ (G id).args → Path G a n → Path G id (n + o.lat)

/-- A constant has no path. -/
theorem Path.not_const {id n : ℕ} (p : Path G id n) (v : Int) : (G id).kind ≠ .const v := by
  cases p with
  | input h => rw [h]; simp
  | op h => rw [h]; simp

theorem Path.le {h : Heap} (I : Inv G N h) {id n : ℕ} (p : Path G id n) : id < N → ∀ e, (h.node id).end_ = some e → n ≤ e := by
  induction p with
  | input hk => intro _ _ _; exact Nat.zero_le _
  | @op id a n o hk ha hp ih =>
    intro hN e he
    rcases I.op id hN o hk with ⟨_, q, _⟩ | ⟨s, _, q2, q3, _⟩
    · rw [he] at q; cases q
    · rw [he] at q2
      cases q2
      rw [← I.origin id hN] at ha
      obtain ⟨b, hb, hba⟩ := List.mem_map.1 ha
      have hbl := I.argsLt id (lt_of_lt_of_le hN I.next) b hb
      have haN : a < N := by rw [← hba]; exact I.origin_lt hbl
      rcases q3 b hb with w | ⟨⟨v, w⟩, _⟩
      · obtain ⟨e0, g1, g2⟩ := I.origin_end hbl w
        rw [hba] at g1
        have := ih haN e0 g1
        omega
      · have hbN : b < N := by
          by_contra hge
          obtain ⟨_, _, _, _, u, _⟩ := I.delay b (by omega) hbl
          rw [w] at u; cases u
        rw [I.origin_self hbN] at hba
        subst hba
        exact absurd (by rw [← I.kind b hbN]; exact w) (hp.not_const v)

/-- Whatever is used is scheduled. -/
theorem Used.lt {outs : List ℕ} (A : Alive G N outs) {id : ℕ} (u : Used G outs id) : id < N := by
  induction u with
  | out h => exact A.outsLt _ h
  | arg _ ha ih => exact lt_trans (A.fresh.args _ ih _ (by simp [ha])) ih

theorem end_path {outs : List ℕ} (A : Alive G N outs) {h : Heap} (I : Inv G N h) (q : Asap G N h) :
    ∀ id, Used G outs id → ∀ e, (h.node id).end_ = some e → Path G id e := by
  intro id
  induction id using Nat.strongRecOn with
  | _ id ih =>
  intro hu e he
  have hN := hu.lt A
  cases hk : (G id).kind with
  | const v => rw [(I.const id hN v hk).1] at he; cases he
  | input k =>
    obtain ⟨q1, q2⟩ := I.input id hN k hk
    rw [he] at q1
    rcases q2 with q2 | q2
    · rw [q2] at q1; cases q1
    · rw [q2] at q1; cases q1; exact .input hk
  | op o =>
    rcases I.op id hN o hk with ⟨_, w, _⟩ | ⟨s, w1, w2, w3, _⟩
    · rw [he] at w; cases w
    · rw [he] at w2
      cases w2
      have hsome : ∃ a ∈ (G id).args, (h.node a).end_ = some s := by
        rcases q id hN o s hk w1 with rfl | ⟨a, ha, w⟩
        · obtain ⟨a, ha, hda⟩ : ∃ a ∈ (G id).args, Dep G a := by
            cases A.dep id hu o hk with
            | input q => rw [hk] at q; cases q
            | op _ q1 q2 => exact ⟨_, q1, q2⟩
          refine ⟨a, ha, ?_⟩
          have ha' := ha
          rw [← I.origin id hN] at ha'
          obtain ⟨b, hb, hba⟩ := List.mem_map.1 ha'
          have hbl := I.argsLt id (lt_of_lt_of_le hN I.next) b hb
          rcases w3 b hb with w | ⟨⟨v, w⟩, _⟩
          · obtain ⟨e0, g1, g2⟩ := I.origin_end hbl w
            rw [← hba, g1, Nat.le_zero.1 g2]
          · have hbN : b < N := by
              by_contra hge
              obtain ⟨_, _, _, _, u, _⟩ := I.delay b (by omega) hbl
              rw [w] at u; cases u
            rw [I.origin_self hbN] at hba
            subst hba
            exact absurd (by rw [← I.kind b hbN]; exact w) (hda.not_const v)
        · rw [A.deps id hN, List.append_nil] at ha
          exact ⟨a, ha, w⟩
      obtain ⟨a, ha, w⟩ := hsome
      exact .op hk ha (ih a (A.fresh.args id hN a (by simp [ha])) (.arg hu ha) s w)

/-! ### The network -/

section
variable {outs rs : List ℕ} {h : Heap}

/-- What is known of the scheduled graph. -/
structure Good (G : ℕ → Sch.Node) (N : ℕ) (outs rs : List ℕ) (h : Heap) (d : ℕ) : Prop where
  alive : Alive G N outs
  inv : Inv G N h
  asap : Asap G N h
  lt : ∀ r ∈ rs, r < h.next
  origin : rs.map h.origin = outs
  at_ : ∀ r ∈ rs, h.At r d

/-- The nodes the balanced outputs use. -/
inductive Rea (h : Heap) (rs : List ℕ) : ℕ → Prop
  | out {r : ℕ} : r ∈ rs → Rea h rs r
  | arg {id a : ℕ} : Rea h rs id → a ∈ (h.node id).args → Rea h rs a

theorem Good.rea {d : ℕ} (g : Good G N outs rs h d) {id : ℕ} (hr : Rea h rs id) : id < h.next ∧ Used G outs (h.origin id) ∧
    ((∃ v, (h.node id).kind = .const v) ∧ (h.node id).end_ = none ∨ ∃ e, (h.node id).end_ = some e ∧ e ≤ d) := by
  induction hr with
  | @out r hr =>
    refine ⟨g.lt r hr, .out (by rw [← g.origin]; exact List.mem_map.2 ⟨r, hr, rfl⟩), ?_⟩
    rcases g.at_ r hr with q | q
    · exact Or.inr ⟨d, q, le_refl _⟩
    · exact Or.inl q
  | @arg id a hr ha ih =>
    obtain ⟨hid, hu, ih⟩ := ih
    have I := g.inv
    have hal := I.argsLt id hid a ha
    by_cases hN : id < N
    · rw [I.origin_self hN] at hu
      have hua : Used G outs (h.origin a) := .arg hu (by rw [← I.origin id hN]; exact List.mem_map.2 ⟨a, ha, rfl⟩)
      refine ⟨hal, hua, ?_⟩
      cases hk : (G id).kind with
      | const v =>
        obtain ⟨f1, _⟩ := g.alive.fresh.leaf id hN (by rw [hk]; simp)
        rw [List.map_eq_nil_iff.1 ((I.origin id hN).trans f1)] at ha; simp at ha
      | input k =>
        obtain ⟨f1, _⟩ := g.alive.fresh.leaf id hN (by rw [hk]; simp)
        rw [List.map_eq_nil_iff.1 ((I.origin id hN).trans f1)] at ha; simp at ha
      | op o =>
        rcases I.op id hN o hk with ⟨_, q, _⟩ | ⟨s, _, q2, q3, _⟩
        · rcases ih with ⟨⟨v, w⟩, _⟩ | ⟨e, w, _⟩
          · rw [I.kind id hN, hk] at w; cases w
          · rw [q] at w; cases w
        · rcases q3 a ha with r | r
          · rcases ih with ⟨_, w⟩ | ⟨e, w, w'⟩
            · rw [q2] at w; cases w
            · rw [q2] at w; cases w; exact Or.inr ⟨s, r, by omega⟩
          · exact Or.inl r
    · obtain ⟨o', p, e, e0, q1, q2, q3, q4, q5, q6, q7, q8, _⟩ := I.delay id (by omega) hid
      rw [q2] at ha
      simp at ha
      subst ha
      have : h.origin id = o' := by unfold Heap.origin; rw [q3]; rfl
      refine ⟨hal, by rw [q7, ← this]; exact hu, Or.inr ⟨e, q8, ?_⟩⟩
      rcases ih with ⟨⟨v, w⟩, _⟩ | ⟨e', w, w'⟩
      · rw [q1] at w; cases w
      · rw [q5] at w; cases w; omega

/-- An operator of the scheduled graph. -/
theorem Good.op {d : ℕ} (g : Good G N outs rs h d) {id : ℕ} (hr : Rea h rs id) {o : Op} (hk : (h.node id).kind = .op o) :
    ∃ s, (h.node id).start = some s ∧ (h.node id).end_ = some (s + o.lat) ∧ s + o.lat ≤ d ∧
      (∀ a ∈ (h.node id).args, h.At a s) ∧ (∃ a ∈ (h.node id).args, (h.node a).end_ = some s) ∧
      ∀ a ∈ (h.node id).args, key h a < key h id := by
  obtain ⟨hid, hu, hend⟩ := g.rea hr
  have I := g.inv
  have key_lt : ∀ s, (h.node id).start = some s → (∀ a ∈ (h.node id).args, h.At a s) →
      (∀ a ∈ (h.node id).args, (h.node a).start = some s → a < id) →
      ∀ a ∈ (h.node id).args, key h a < key h id := by
    intro s hs hat hlt a ha
    have hal := I.argsLt id hid a ha
    unfold key
    rw [hs]
    simp only [Option.map_some, Option.getD_some]
    rcases hat a ha with q | ⟨⟨v, q⟩, q'⟩
    · obtain ⟨s', w, w'⟩ := I.start_le hal q
      rw [w]
      simp only [Option.map_some, Option.getD_some]
      rcases Nat.lt_or_eq_of_le w' with hl | he
      · have := Nat.mul_le_mul_right (h.next + 1) hl
        rw [Nat.succ_eq_add_one] at this
        rw [Nat.add_mul] at *
        rw [Nat.add_mul s]
        omega
      · subst he
        have := hlt a ha w
        omega
    · have : (h.node a).start = none := by
        by_cases haN : a < N
        · exact (I.const a haN v (by rw [← I.kind a haN, q])).2
        · obtain ⟨_, _, _, _, u, _⟩ := I.delay a (by omega) hal
          rw [q] at u; cases u
      rw [this]
      simp only [Option.map_none, Option.getD_none, Nat.zero_mul]
      have : h.next + 1 ≤ (s + 1) * (h.next + 1) := by
        rw [Nat.add_mul]; omega
      omega
  by_cases hN : id < N
  · have hk' : (G id).kind = .op o := by rw [← I.kind id hN, hk]
    rw [I.origin_self hN] at hu
    rcases I.op id hN o hk' with ⟨_, q, _⟩ | ⟨s, q1, q2, q3, _⟩
    · rcases hend with ⟨⟨v, w⟩, _⟩ | ⟨e, w, _⟩
      · rw [hk] at w; cases w
      · rw [q] at w; cases w
    · refine ⟨s, q1, q2, ?_, q3, ?_, key_lt s q1 q3 ?_⟩
      · rcases hend with ⟨_, w⟩ | ⟨e, w, w'⟩
        · rw [q2] at w; cases w
        · rw [q2] at w; cases w; exact w'
      · obtain ⟨a, ha, hda⟩ : ∃ a ∈ (G id).args, Dep G a := by
          cases g.alive.dep id hu o hk' with
          | input q => rw [hk'] at q; cases q
          | op _ q1 q2 => exact ⟨_, q1, q2⟩
        rw [← I.origin id hN] at ha
        obtain ⟨b, hb, hba⟩ := List.mem_map.1 ha
        refine ⟨b, hb, ?_⟩
        rcases q3 b hb with w | ⟨⟨v, w⟩, _⟩
        · exact w
        · have hbl := I.argsLt id hid b hb
          have hbN : b < N := by
            by_contra hge
            obtain ⟨_, _, _, _, u, _⟩ := I.delay b (by omega) hbl
            rw [w] at u; cases u
          rw [I.origin_self hbN] at hba
          subst hba
          exact absurd (by rw [← I.kind b hbN]; exact w) (hda.not_const v)
      · intro a ha hs
        have hal := I.argsLt id hid a ha
        have haN : a < N := by
          by_contra hge
          obtain ⟨o', p, e, e0, w1, w2, w3, w4, w5, _⟩ := I.delay a (by omega) hal
          rw [hs] at w4; cases w4
          rcases q3 a ha with w | ⟨_, w⟩
          · rw [w] at w5; simp at w5
          · rw [w] at w5; cases w5
        have : a ∈ (G id).args := by
          rw [← I.origin id hN]; exact List.mem_map.2 ⟨a, ha, I.origin_self haN⟩
        exact g.alive.fresh.args id hN a (by simp [this])
  · obtain ⟨o', p, e, e0, q1, q2, q3, q4, q5, q6, q7, q8, _⟩ := I.delay id (by omega) hid
    rw [hk] at q1
    cases q1
    have hat : ∀ a ∈ (h.node id).args, h.At a e := by
      intro a ha; rw [q2] at ha; simp at ha; subst ha; exact Or.inl q8
    refine ⟨e, q4, q5, ?_, hat, ⟨p, by rw [q2]; simp, q8⟩, key_lt e q4 hat ?_⟩
    · rcases hend with ⟨_, w⟩ | ⟨x, w, w'⟩
      · rw [q5] at w; cases w
      · rw [q5] at w; cases w; exact w'
    · intro a ha hs
      have hal := I.argsLt id hid a ha
      rw [q2] at ha; simp at ha; subst ha
      have haN : a < N := by
        by_contra hge
        obtain ⟨o', p, e, e0, w1, w2, w3, w4, w5, _⟩ := I.delay a (by omega) hal
        rw [hs] at w4; cases w4
        rw [q8] at w5; simp at w5
      omega

/-- A node without operands, or an operator. -/
theorem Good.key_lt {d : ℕ} (g : Good G N outs rs h d) {id : ℕ} (hr : Rea h rs id) {a : ℕ} (ha : a ∈ (h.node id).args) :
    key h a < key h id := by
  cases hk : (h.node id).kind with
  | op o =>
    obtain ⟨_, _, _, _, _, _, w⟩ := g.op hr hk
    exact w a ha
  | const v =>
    exfalso
    have I := g.inv
    have hid := (g.rea hr).1
    by_cases hN : id < N
    · obtain ⟨f1, _⟩ := g.alive.fresh.leaf id hN (by rw [← I.kind id hN, hk]; simp)
      rw [List.map_eq_nil_iff.1 ((I.origin id hN).trans f1)] at ha; simp at ha
    · obtain ⟨_, _, _, _, u, _⟩ := I.delay id (by omega) hid
      rw [hk] at u; cases u
  | input v =>
    exfalso
    have I := g.inv
    have hid := (g.rea hr).1
    by_cases hN : id < N
    · obtain ⟨f1, _⟩ := g.alive.fresh.leaf id hN (by rw [← I.kind id hN, hk]; simp)
      rw [List.map_eq_nil_iff.1 ((I.origin id hN).trans f1)] at ha; simp at ha
    · obtain ⟨_, _, _, _, u, _⟩ := I.delay id (by omega) hid
      rw [hk] at u; cases u

theorem allOf_rea {f id x : ℕ} (hx : x ∈ allOf h f id) (hr : Rea h rs id) : Rea h rs x := by
  induction f generalizing id with
  | zero => simp only [allOf, List.mem_singleton] at hx; rw [hx]; exact hr
  | succ f ih =>
    simp only [allOf, List.mem_cons, List.mem_flatMap] at hx
    rcases hx with rfl | ⟨a, ha, hx⟩
    · exact hr
    · exact ih hx (.arg hr ha)

theorem allOf_self (f id : ℕ) : id ∈ allOf h f id := by cases f <;> simp [allOf]

theorem allOf_closed {d : ℕ} (g : Good G N outs rs h d) : ∀ {f id x a : ℕ}, Rea h rs id → key h id < f → x ∈ allOf h f id →
    a ∈ (h.node x).args → a ∈ allOf h f id
  | 0, _, _, _, _, hf, _, _ => absurd hf (Nat.not_lt_zero _)
  | f + 1, id, x, a, hr, hf, hx, ha => by
    simp only [allOf, List.mem_cons, List.mem_flatMap] at hx ⊢
    rcases hx with rfl | ⟨b, hb, hx⟩
    · exact Or.inr ⟨a, ha, allOf_self f a⟩
    · have := g.key_lt hr hb
      exact Or.inr ⟨b, hb, allOf_closed g (.arg hr hb) (by omega) hx ha⟩

/-- The visitor finds the nodes used by the outputs. -/
theorem mem_allVars {d : ℕ} (g : Good G N outs rs h d) {x : ℕ} : x ∈ allVars h rs ↔ Rea h rs x := by
  constructor
  · intro hx
    obtain ⟨r, hr, hx⟩ := List.mem_flatMap.1 hx
    exact allOf_rea hx (.out hr)
  · intro hx
    induction hx with
    | @out r hr => exact List.mem_flatMap.2 ⟨r, hr, allOf_self _ r⟩
    | @arg id a hid ha ih =>
      obtain ⟨r, hr, hx⟩ := List.mem_flatMap.1 ih
      exact List.mem_flatMap.2 ⟨r, hr, allOf_closed g (.out hr) (Nat.lt_succ_self _) hx ha⟩

theorem mem_order {d : ℕ} (g : Good G N outs rs h d) {x : ℕ} : x ∈ order h rs ↔ Rea h rs x ∧ ∃ o, (h.node x).kind = .op o := by
  unfold order
  rw [List.mem_insertionSort, List.mem_filter, List.mem_range, Bool.and_eq_true, List.contains_iff_mem, mem_allVars g]
  constructor
  · rintro ⟨_, h1, h2⟩
    refine ⟨h2, ?_⟩
    unfold isOp at h1
    cases hk : (h.node x).kind with
    | op o => exact ⟨o, rfl⟩
    | const v => rw [hk] at h1; cases h1
    | input v => rw [hk] at h1; cases h1
  · rintro ⟨h2, o, hk⟩
    exact ⟨(g.rea h2).1, by unfold isOp; rw [hk], h2⟩

theorem order_idx_lt {a b : ℕ} (ha : a ∈ order h rs) (hb : b ∈ order h rs) (hk : key h a < key h b) :
    (order h rs).idxOf a < (order h rs).idxOf b := by
  have hp : (order h rs).Pairwise fun a b => key h a ≤ key h b := by
    unfold order
    haveI : Std.Total (fun a b : ℕ => key h a ≤ key h b) := ⟨fun a b => Nat.le_total _ _⟩
    haveI : IsTrans ℕ (fun a b : ℕ => key h a ≤ key h b) := ⟨fun a b c => Nat.le_trans⟩
    exact List.pairwise_insertionSort _ _
  have la := List.idxOf_lt_length_of_mem ha
  have lb := List.idxOf_lt_length_of_mem hb
  by_contra hge
  rcases Nat.lt_or_eq_of_le (Nat.le_of_not_lt hge) with hlt | heq
  · have := List.pairwise_iff_getElem.1 hp _ _ lb la hlt
    rw [List.getElem_idxOf, List.getElem_idxOf] at this
    omega
  · have : a = b := by
      rw [← List.getElem_idxOf la, ← List.getElem_idxOf lb]
      simp only [heq]
    subst this
    omega

end

end DfSch
