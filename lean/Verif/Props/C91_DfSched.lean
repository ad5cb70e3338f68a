import Verif.Lemmas.DfSched
import Mathlib.Data.List.GetD

/-!
# C91: from a dataflow graph to the results

The graph of the user is scheduled, delays are inserted, outputs are balanced and the operators are implemented in the order of
the allocator.  The network that results computes the graph, and its depth is the longest path.
-/

namespace DfSch

open Sch
open Dataflow (Src)

variable {G : ℕ → Sch.Node} {N : ℕ} {outs rs : List ℕ} {h : Heap}

/-! ### The network -/

theorem good_of (A : Alive G N outs) (hi : DfSch.implement ⟨G, N⟩ outs = some (rs, h)) : ∃ d, Good G N outs rs h d := by
  rw [implement_agree A] at hi
  obtain ⟨d, I, h1, h2, h3⟩ := impl_inv A.fresh A.outsLt hi
  exact ⟨d, A, I, implement_asap A.fresh A.outsLt hi, h1, h2, h3⟩

theorem net_get {j : ℕ} {nd : Dataflow.Node Hist Int} (hj : (net h rs)[j]? = some nd) :
    ∃ id, (order h rs)[j]? = some id ∧ nd = mkNode h (order h rs) id := by
  unfold net at hj
  rw [List.getElem?_map, Option.map_eq_some_iff] at hj
  obtain ⟨id, h1, h2⟩ := hj
  exact ⟨id, h1, h2.symm⟩

theorem order_nodup : (order h rs).Nodup := by
  unfold order
  exact (List.perm_insertionSort _ _).nodup_iff.2 (List.nodup_range.filter _)

theorem idx_get {j id : ℕ} (hj : (order h rs)[j]? = some id) : (order h rs).idxOf id = j := by
  obtain ⟨hl, rfl⟩ := List.getElem?_eq_some_iff.1 hj
  exact order_nodup.idxOf_getElem _ _

theorem get_idx {id : ℕ} (hm : id ∈ order h rs) : (order h rs)[(order h rs).idxOf id]? = some id := by
  rw [List.getElem?_eq_getElem (List.idxOf_lt_length_of_mem hm), List.getElem_idxOf]

theorem mem_ins {id : ℕ} {a : Src × ℕ} (ha : a ∈ (mkNode h (order h rs) id).ins) :
    ∃ b ∈ (h.node id).args, src h (order h rs) b = some a.1 ∧ a.2 = 0 := by
  simp only [mkNode, List.mem_filterMap, Option.map_eq_some_iff] at ha
  obtain ⟨b, hb, x, hx, rfl⟩ := ha
  exact ⟨b, hb, hx, rfl⟩

theorem ins_of {id b : ℕ} {x : Src} (hb : b ∈ (h.node id).args) (hx : src h (order h rs) b = some x) :
    (x, 0) ∈ (mkNode h (order h rs) id).ins := by
  simp only [mkNode, List.mem_filterMap]
  exact ⟨b, hb, by rw [hx]; rfl⟩

theorem ordered {d : ℕ} (g : Good G N outs rs h d) : Dataflow.Ordered (net h rs) := by
  intro j nd hj a ha k hk
  obtain ⟨id, h1, rfl⟩ := net_get hj
  obtain ⟨b, hb, hx, _⟩ := mem_ins ha
  rw [hk] at hx
  have hm := List.mem_of_getElem? h1
  obtain ⟨hr, o, hko⟩ := (mem_order g).1 hm
  unfold src at hx
  cases hkb : (h.node b).kind with
  | const v => rw [hkb] at hx; cases hx
  | input v => rw [hkb] at hx; cases hx
  | op o' =>
    rw [hkb] at hx
    simp only [Option.some.injEq, Src.op.injEq] at hx
    rw [← hx, ← idx_get h1]
    exact order_idx_lt ((mem_order g).2 ⟨.arg hr hb, o', hkb⟩) hm (g.key_lt hr hb)

/-- The stage of a source. -/
def lev (h : Heap) (rs : List ℕ) : Src → ℕ
  | .var _ => 0
  | .op j => (((order h rs)[j]?).bind fun id => (h.node id).end_).getD 0

theorem lev_src {d s a : ℕ} {x : Src} (g : Good G N outs rs h d) (hr : Rea h rs a) (hx : src h (order h rs) a = some x)
    (ha : (h.node a).end_ = some s) : lev h rs x = s := by
  unfold src at hx
  cases hk : (h.node a).kind with
  | const v => rw [hk] at hx; cases hx
  | input k =>
    rw [hk] at hx
    cases hx
    have hN : a < N := by
      by_contra hge
      obtain ⟨_, _, _, _, u, _⟩ := g.inv.delay a (by omega) (g.rea hr).1
      rw [hk] at u; cases u
    obtain ⟨q1, q2⟩ := g.inv.input a hN k (by rw [← g.inv.kind a hN, hk])
    rw [ha] at q1
    rcases q2 with q2 | q2
    · rw [q2] at q1; cases q1
    · rw [q2] at q1; cases q1; rfl
  | op o =>
    rw [hk] at hx
    cases hx
    simp only [lev, get_idx ((mem_order g).2 ⟨hr, o, hk⟩), Option.bind_some, ha, Option.getD_some]

theorem src_of_not_const {a : ℕ} (hc : ∀ v, (h.node a).kind ≠ .const v) : ∃ x, src h (order h rs) a = some x := by
  unfold src
  cases hk : (h.node a).kind with
  | const v => exact absurd hk (hc v)
  | input k => exact ⟨_, rfl⟩
  | op o => exact ⟨_, rfl⟩

theorem Good.not_const {d : ℕ} (g : Good G N outs rs h d) {a s : ℕ} (hr : Rea h rs a) (ha : (h.node a).end_ = some s) (v : Int) :
    (h.node a).kind ≠ .const v := by
  intro hk
  by_cases hN : a < N
  · have := (g.inv.const a hN v (by rw [← g.inv.kind a hN, hk])).1
    rw [ha] at this; cases this
  · obtain ⟨_, _, _, _, u, _⟩ := g.inv.delay a (by omega) (g.rea hr).1
    rw [hk] at u; cases u

theorem balanced {d : ℕ} (g : Good G N outs rs h d) (hlat : ∀ id, Used G outs id → ∀ o, (G id).kind = .op o → o.lat = 1) :
    Dataflow.Run.Balanced1 (net h rs) (lev h rs) d := by
  have lat1 : ∀ id o, Rea h rs id → (h.node id).kind = .op o → o.lat = 1 := by
    intro id o hr hk
    obtain ⟨hid, hu, _⟩ := g.rea hr
    by_cases hN : id < N
    · rw [g.inv.origin_self hN] at hu
      exact hlat id hu o (by rw [← g.inv.kind id hN, hk])
    · obtain ⟨_, _, _, _, u, _⟩ := g.inv.delay id (by omega) hid
      rw [hk] at u; cases u; rfl
  have levop : ∀ j id, (order h rs)[j]? = some id → ∃ o s, Rea h rs id ∧ (h.node id).kind = .op o ∧ o.lat = 1 ∧
      (h.node id).end_ = some (s + 1) ∧ lev h rs (.op j) = s + 1 ∧ s + 1 ≤ d ∧ (∀ a ∈ (h.node id).args, h.At a s) ∧
      ∃ a ∈ (h.node id).args, (h.node a).end_ = some s := by
    intro j id hj
    obtain ⟨hr, o, hk⟩ := (mem_order g).1 (List.mem_of_getElem? hj)
    obtain ⟨s, q1, q2, q3, q4, q5, _⟩ := g.op hr hk
    rw [lat1 id o hr hk] at q2 q3
    exact ⟨o, s, hr, hk, lat1 id o hr hk, q2, by simp [lev, hj, q2], q3, q4, q5⟩
  refine ⟨fun _ => rfl, ?_, ?_, ?_, ?_⟩
  · rintro j nd ⟨hj, _⟩
    obtain ⟨id, h1, rfl⟩ := net_get hj
    obtain ⟨o, s, hr, hk, hl, he, hle, hd, hat, _⟩ := levop j id h1
    refine ⟨by simp only [mkNode, hk, hl], fun a ha => ?_⟩
    obtain ⟨b, hb, hx, _⟩ := mem_ins ha
    rcases hat b hb with w | ⟨⟨v, w⟩, _⟩
    · rw [lev_src g (.arg hr hb) hx w, hle]
    · unfold src at hx; rw [w] at hx; cases hx
  · intro j nd hj hins
    exfalso
    obtain ⟨id, h1, rfl⟩ := net_get hj
    obtain ⟨o, s, hr, hk, hl, he, hle, hd, hat, a, ha, hae⟩ := levop j id h1
    obtain ⟨x, hx⟩ := src_of_not_const (rs := rs) (g.not_const (.arg hr ha) hae)
    have := ins_of ha hx
    rw [hins] at this
    simp at this
  · rintro j nd ⟨hj, _⟩ hlt
    obtain ⟨id, h1, rfl⟩ := net_get hj
    obtain ⟨o, s, hr, hk, hl, he, hle, hd, hat, _⟩ := levop j id h1
    cases hr with
    | out hm =>
      rcases g.at_ id hm with w | ⟨⟨v, w⟩, _⟩
      · rw [he] at w; cases w; omega
      · rw [hk] at w; cases w
    | @arg id' _ hr' ha =>
      have hop : ∃ o', (h.node id').kind = .op o' := by
        have hid := (g.rea hr').1
        by_cases hN : id' < N
        · cases hk' : (G id').kind with
          | op o' => exact ⟨o', by rw [g.inv.kind id' hN, hk']⟩
          | const v =>
            obtain ⟨f1, _⟩ := g.alive.fresh.leaf id' hN (by rw [hk']; simp)
            rw [List.map_eq_nil_iff.1 ((g.inv.origin id' hN).trans f1)] at ha; simp at ha
          | input v =>
            obtain ⟨f1, _⟩ := g.alive.fresh.leaf id' hN (by rw [hk']; simp)
            rw [List.map_eq_nil_iff.1 ((g.inv.origin id' hN).trans f1)] at ha; simp at ha
        · obtain ⟨_, _, _, _, u, _⟩ := g.inv.delay id' (by omega) hid
          exact ⟨_, u⟩
      have hm' := (mem_order g).2 ⟨hr', hop⟩
      refine ⟨(order h rs).idxOf id', mkNode h (order h rs) id', ?_, (.op j, 0), ins_of ha ?_, rfl⟩
      · unfold net; rw [List.getElem?_map, get_idx hm']; rfl
      · unfold src; rw [hk]; simp only [idx_get h1]
  · rintro j nd ⟨hj, _⟩
    obtain ⟨id, h1, rfl⟩ := net_get hj
    obtain ⟨o, s, hr, hk, hl, he, hle, hd, hat, _⟩ := levop j id h1
    rw [hle]; exact hd

/-! ### The values -/

/-- The first `k + 1` values of the variables. -/
def recs (vs : ℕ → ℕ → Int) (k : ℕ) : List Rec := (List.range (k + 1)).map fun i => (true, fun v => vs v i)

theorem prefixes_recs (vs : ℕ → ℕ → Int) (k : ℕ) : prefixes (recs vs k) = (List.range (k + 1)).map (recs vs) := by
  unfold prefixes recs
  rw [List.length_map, List.length_range]
  apply List.map_congr_left
  intro i hi
  rw [List.mem_range] at hi
  rw [← List.map_take, List.take_range]
  congr 2
  omega

theorem recs_last (vs : ℕ → ℕ → Int) (k : ℕ) : (recs vs k).getLast? = some (true, fun v => vs v k) := by
  unfold recs
  rw [List.range_succ, List.map_append]
  simp

theorem merge_eq (f : ℕ → Int) (val : Src → Int) (ord : List ℕ) : ∀ args : List ℕ,
    (∀ a ∈ args, ∀ v, con h a = some v → f a = v) → (∀ a ∈ args, ∀ x, src h ord a = some x → f a = val x) →
    merge (args.map (con h)) ((args.filterMap fun a => (src h ord a).map (·, 0)).map fun p : Src × ℕ => val p.1) = args.map f
  | [], _, _ => rfl
  | a :: args, h1, h2 => by
    have ih := merge_eq f val ord args (fun b hb => h1 b (by simp [hb])) (fun b hb => h2 b (by simp [hb]))
    have g1 := h1 a (by simp)
    have g2 := h2 a (by simp)
    rw [List.map_cons, List.map_cons]
    unfold con src at *
    cases hk : (h.node a).kind with
    | const v =>
      rw [hk] at g1
      rw [List.filterMap_cons_none (by rw [hk]; rfl), ← ih, g1 v rfl]
      rfl
    | input k =>
      rw [hk] at g2
      rw [List.filterMap_cons_some (b := (Src.var k, 0)) (by rw [hk]; rfl), ← ih, g2 _ rfl]
      rfl
    | op o =>
      rw [hk] at g2
      rw [List.filterMap_cons_some (b := (Src.op (ord.idxOf a), 0)) (by rw [hk]; rfl), ← ih, g2 _ rfl]
      rfl

theorem stateAt_hist (id : ℕ) (ord : List ℕ) (args : ℕ → List Int) : ∀ k,
    (mkNode h ord id).stateAt args k = (List.range k).map fun i => (true, merge ((h.node id).args.map (con h)) (args i))
  | 0 => rfl
  | k + 1 => by
    rw [List.range_succ, List.map_append, ← stateAt_hist id ord args k]
    rfl

/-- The stream of an operator of the network is that of the node of the user it belongs to. -/
theorem den_mean {d : ℕ} (g : Good G N outs rs h d) (vs : ℕ → ℕ → Int) : ∀ (f j id : ℕ), j < f → (order h rs)[j]? = some id →
    ∀ k, Dataflow.den (net h rs) 0 vs f (.op j) k = mean G (h.origin id) (recs vs k) := by
  intro f
  induction f with
  | zero => intro j id hj; omega
  | succ f ih =>
    intro j id hj hid k
    have hm := List.mem_of_getElem? hid
    obtain ⟨hr, o, hk⟩ := (mem_order g).1 hm
    have hlt := (g.rea hr).1
    have hnet : (net h rs)[j]? = some (mkNode h (order h rs) id) := by
      unfold net; rw [List.getElem?_map, hid]; rfl
    -- the operands
    have harg : ∀ i, ∀ a ∈ (h.node id).args, ∀ x, src h (order h rs) a = some x →
        mean G (h.origin a) (recs vs i) = Dataflow.den (net h rs) 0 vs f x i := by
      intro i a ha x hx
      have hra : Rea h rs a := .arg hr ha
      have hal := (g.rea hra).1
      unfold src at hx
      cases hka : (h.node a).kind with
      | const v => rw [hka] at hx; cases hx
      | input n =>
        rw [hka] at hx
        cases hx
        have haN : a < N := by
          by_contra hge
          obtain ⟨_, _, _, _, u, _⟩ := g.inv.delay a (by omega) hal
          rw [hka] at u; cases u
        rw [g.inv.origin_self haN, mean_input (k := n) (by rw [← g.inv.kind a haN, hka]), recs_last]
        cases f <;> rfl
      | op o' =>
        rw [hka] at hx
        cases hx
        have hma := (mem_order g).2 ⟨hra, o', hka⟩
        have := order_idx_lt hma hm (g.key_lt hr ha)
        rw [idx_get hid] at this
        exact (ih _ a (by omega) (get_idx hma) i).symm
    have hcon : ∀ i, ∀ a ∈ (h.node id).args, ∀ v, con h a = some v → mean G (h.origin a) (recs vs i) = v := by
      intro i a ha v hv
      unfold con at hv
      cases hka : (h.node a).kind with
      | input n => rw [hka] at hv; cases hv
      | op o => rw [hka] at hv; cases hv
      | const w =>
        rw [hka] at hv
        cases hv
        have hal := (g.rea (.arg hr ha)).1
        have haN : a < N := by
          by_contra hge
          obtain ⟨_, _, _, _, u, _⟩ := g.inv.delay a (by omega) hal
          rw [hka] at u; cases u
        rw [g.inv.origin_self haN]
        exact mean_const (by rw [← g.inv.kind a haN, hka]) _
    have hops : ∀ i, merge ((h.node id).args.map (con h)) ((mkNode h (order h rs) id).ins.map fun a =>
        if a.2 ≤ i then Dataflow.den (net h rs) 0 vs f a.1 (i - a.2) else 0) =
        (h.node id).args.map fun a => mean G (h.origin a) (recs vs i) := by
      intro i
      rw [← merge_eq (fun a => mean G (h.origin a) (recs vs i)) (fun x => Dataflow.den (net h rs) 0 vs f x i) (order h rs)
        (h.node id).args (hcon i) (harg i)]
      congr 1
      apply List.map_congr_left
      intro a ha
      obtain ⟨_, _, _, h0⟩ := mem_ins ha
      simp only [h0, Nat.zero_le, if_true, Nat.sub_zero]
    simp only [Dataflow.den, hnet]
    have hout : (mkNode h (order h rs) id).out = o.f := by simp only [mkNode, hk]
    have hnext : ∀ s xs, (mkNode h (order h rs) id).next s xs = s ++ [(true, merge ((h.node id).args.map (con h)) xs)] :=
      fun _ _ => rfl
    rw [hout, hnext, stateAt_hist]
    have hsn : ∀ (F : ℕ → Bool × List Int), (List.range k).map F ++ [F k] = (List.range (k + 1)).map F := by
      intro F; rw [List.range_succ, List.map_append]; rfl
    rw [hsn fun i => (true, merge ((h.node id).args.map (con h)) ((mkNode h (order h rs) id).ins.map fun a =>
        if a.2 ≤ i then Dataflow.den (net h rs) 0 vs f a.1 (i - a.2) else 0))]
    simp only [hops]
    by_cases hN : id < N
    · have hk' : (G id).kind = .op o := by rw [← g.inv.kind id hN, hk]
      rw [g.inv.origin_self hN, mean_op g.alive.fresh hN hk', prefixes_recs, List.map_map]
      congr 1
      apply List.map_congr_left
      intro i _
      simp only [Function.comp, argsOf, recs_last, Option.map_some, Option.getD_some, ← g.inv.origin id hN, List.map_map]
      rfl
    · obtain ⟨o', p, e, e0, q1, q2, q3, q4, q5, q6, q7, q8, _⟩ := g.inv.delay id (by omega) hlt
      rw [hk] at q1
      cases q1
      have : h.origin id = o' := by unfold Heap.origin; rw [q3]; rfl
      rw [q2, this, ← q7]
      simp [delayOp, lastArgs, List.range_succ]

/-! ## C91 -/

/-- Scheduling never raises for an acyclic graph whose operators depend on variables. -/
theorem c91_total (A : Alive G N outs) : ∃ rs h, DfSch.implement ⟨G, N⟩ outs = some (rs, h) ∧ rs.length = outs.length := by
  obtain ⟨rs, h, hi⟩ := c24_total A.fresh outs A.outsLt
  rw [← implement_agree A] at hi
  obtain ⟨d, g⟩ := good_of A hi
  exact ⟨rs, h, hi, by rw [← g.origin, List.length_map]⟩

/-- The depth: all outputs that are not constant are in the same stage, which is the longest path from a variable to an output,
    the latencies of the operators being the lengths. -/
theorem c91_depth (A : Alive G N outs) (hi : DfSch.implement ⟨G, N⟩ outs = some (rs, h)) {o : ℕ} (hm : o ∈ outs)
    (hc : ∀ v, (G o).kind ≠ .const v) :
    ∃ d, (∀ r ∈ rs, (h.node r).end_ = some d ∨ ∃ v, (h.node r).kind = .const v) ∧
      (∃ o' ∈ outs, Path G o' d) ∧ ∀ o' ∈ outs, ∀ n, Path G o' n → n ≤ d := by
  have hi' := hi
  rw [implement_agree A] at hi'
  obtain ⟨h1, rs', h', q1, q2, q3, q4, q5, q6, q7, q8, q9⟩ := implement_spec A.fresh outs A.outsLt
  rw [hi'] at q2
  cases q2
  have hasap := implement_asap A.fresh A.outsLt hi'
  have keep : ∀ o' ∈ outs, ∀ e, (h1.node o').end_ = some e → (h.node o').end_ = some e := fun o' ho' e he =>
    q5.end_ o' (lt_of_lt_of_le (A.outsLt o' ho') q3.next) e he
  refine ⟨depth h1 outs, fun r hr => (q9 r hr).imp (fun w => w) fun w => w.1, ?_, ?_⟩
  · have hsome : ∃ o' ∈ outs, (h1.node o').end_ = some (depth h1 outs) := by
      have hd : maxStage (some 0 :: outs.map fun o => (h1.node o).end_) = some (depth h1 outs) := by
        obtain ⟨M, w, _⟩ := maxStage_aux (some 0 :: outs.map fun o => (h1.node o).end_) none (some 0) (by simp) 0 rfl
        unfold depth maxStage
        rw [w]; rfl
      rcases List.mem_cons.1 (maxStage_mem hd) with w | w
      · refine ⟨o, hm, ?_⟩
        obtain ⟨w1, w2⟩ := q6 o hm
        rcases w1 with ⟨e, w1⟩ | ⟨v, w1⟩
        · have := w2 e w1
          rw [w1]
          simp only [Option.some.injEq] at w ⊢
          omega
        · rw [q3.kind o (A.outsLt o hm)] at w1
          exact absurd w1 (hc v)
      · obtain ⟨o', ho', w⟩ := List.mem_map.1 w
        exact ⟨o', ho', w⟩
    obtain ⟨o', ho', w⟩ := hsome
    exact ⟨o', ho', end_path A q4 hasap o' (.out ho') _ (keep o' ho' _ w)⟩
  · intro o' ho' n p
    obtain ⟨w1, w2⟩ := q6 o' ho'
    rcases w1 with ⟨e, w1⟩ | ⟨v, w1⟩
    · exact le_trans (p.le q4 (A.outsLt o' ho') e (keep o' ho' e w1)) (w2 e w1)
    · rw [q3.kind o' (A.outsLt o' ho')] at w1
      exact absurd w1 (p.not_const v)

/-- The values: whatever the timing, the `k`-th value delivered at an output is the value of the expression of the user on the
    first `k + 1` values accepted from the variables (`mean`, Lemmas/SchedSem.lean), if operands are ready together. -/
theorem c91_values (A : Alive G N outs) (hi : DfSch.implement ⟨G, N⟩ outs = some (rs, h)) {s0 : Hist}
    (r : Dataflow.Run (net h rs) 0 s0) (hc : r.Consistent) (t : ℕ) (vs : ℕ → ℕ → Int)
    (hvs : ∀ i k v, (r.xfer (.var i) t)[k]? = some v → vs i k = v) {i o b : ℕ} {x : Src} (ho : outs[i]? = some o)
    (hb : rs[i]? = some b) (hx : src h (order h rs) b = some x) {k : ℕ} {v : Int} (hv : (r.xfer x t)[k]? = some v) :
    v = mean G o (recs vs k) := by
  obtain ⟨d, g⟩ := good_of A hi
  have hor : h.origin b = o := by
    rw [← g.origin, List.getElem?_map, hb] at ho
    simpa using ho
  have hr : Rea h rs b := .out (List.mem_of_getElem? hb)
  unfold src at hx
  cases hk : (h.node b).kind with
  | const w => rw [hk] at hx; cases hx
  | input n =>
    rw [hk] at hx
    cases hx
    have hN : b < N := by
      by_contra hge
      obtain ⟨_, _, _, _, u, _⟩ := g.inv.delay b (by omega) (g.rea hr).1
      rw [hk] at u; cases u
    rw [g.inv.origin_self hN] at hor
    subst hor
    rw [mean_input (k := n) (by rw [← g.inv.kind b hN, hk]), recs_last, ← hvs n k v hv]
    rfl
  | op o' =>
    rw [hk] at hx
    cases hx
    have hm := (mem_order g).2 ⟨hr, o', hk⟩
    have hnet : (net h rs)[(order h rs).idxOf b]? = some (mkNode h (order h rs) b) := by
      unfold net; rw [List.getElem?_map, get_idx hm]; rfl
    have := r.c58_stream (ordered g) hc t vs hvs _ _ (Nat.lt_succ_self _) _ hnet k v hv
    rw [← this, den_mean g vs _ _ b (Nat.lt_succ_self _) (get_idx hm) k, hor]

/-- An operator of the network in the last stage is an output. -/
theorem last_out {d : ℕ} (g : Good G N outs rs h d) (hlat : ∀ id, Used G outs id → ∀ o, (G id).kind = .op o → o.lat = 1)
    {j : ℕ} (hd : 0 < d) (hj : lev h rs (.op j) = d) : ∃ b ∈ rs, (order h rs)[j]? = some b := by
  cases hid : (order h rs)[j]? with
  | none => simp only [lev, hid, Option.bind_none, Option.getD_none] at hj; omega
  | some id =>
    refine ⟨id, ?_, rfl⟩
    obtain ⟨hr, o, hk⟩ := (mem_order g).1 (List.mem_of_getElem? hid)
    obtain ⟨s, q1, q2, q3, _⟩ := g.op hr hk
    simp only [lev, hid, Option.bind_some, q2, Option.getD_some] at hj
    cases hr with
    | out hm => exact hm
    | @arg id' _ hr' ha =>
      exfalso
      cases hk' : (h.node id').kind with
      | op o' =>
        obtain ⟨s', w1, w2, w3, w4, _⟩ := g.op hr' hk'
        have hl : o'.lat = 1 := by
          obtain ⟨hlt, hu, _⟩ := g.rea hr'
          by_cases hN : id' < N
          · rw [g.inv.origin_self hN] at hu
            exact hlat id' hu o' (by rw [← g.inv.kind id' hN, hk'])
          · obtain ⟨_, _, _, _, u, _⟩ := g.inv.delay id' (by omega) hlt
            rw [hk'] at u; cases u; rfl
        rcases w4 id ha with w | ⟨⟨v, w⟩, _⟩
        · rw [q2] at w; cases w; omega
        · rw [hk] at w; cases w
      | const v =>
        have hlt := (g.rea hr').1
        by_cases hN : id' < N
        · obtain ⟨f1, _⟩ := g.alive.fresh.leaf id' hN (by rw [← g.inv.kind id' hN, hk']; simp)
          rw [List.map_eq_nil_iff.1 ((g.inv.origin id' hN).trans f1)] at ha; simp at ha
        · obtain ⟨_, _, _, _, u, _⟩ := g.inv.delay id' (by omega) hlt
          rw [hk'] at u; cases u
      | input v =>
        have hlt := (g.rea hr').1
        by_cases hN : id' < N
        · obtain ⟨f1, _⟩ := g.alive.fresh.leaf id' hN (by rw [← g.inv.kind id' hN, hk']; simp)
          rw [List.map_eq_nil_iff.1 ((g.inv.origin id' hN).trans f1)] at ha; simp at ha
        · obtain ⟨_, _, _, _, u, _⟩ := g.inv.delay id' (by omega) hlt
          rw [hk'] at u; cases u

/-- For operators of latency 1 this needs only that the variables become valid together and the outputs ready together. -/
theorem c91_together (A : Alive G N outs) (hlat : ∀ id, Used G outs id → ∀ o, (G id).kind = .op o → o.lat = 1)
    (hi : DfSch.implement ⟨G, N⟩ outs = some (rs, h)) {s0 : Hist} (r : Dataflow.Run (net h rs) 0 s0)
    (hvalid : ∀ t i i', (r.inp t).vvalid i = (r.inp t).vvalid i')
    (hready : ∀ t j j', (∃ b ∈ rs, src h (order h rs) b = some (.op j)) → (∃ b ∈ rs, src h (order h rs) b = some (.op j')) →
      (r.inp t).oready j = (r.inp t).oready j')
    (hready1 : ∀ t j, (∀ b ∈ rs, src h (order h rs) b ≠ some (.op j)) → (r.inp t).oready j = true) :
    r.Consistent := by
  obtain ⟨d, g⟩ := good_of A hi
  have hb := balanced g hlat
  rcases Nat.eq_zero_or_pos d with rfl | hd
  · intro t j nd hj a ha
    have ho : Dataflow.Run.OpAt (net h rs) j nd := ⟨hj, List.ne_nil_of_mem ha⟩
    have h1 := (hb.ins j nd ho).2 a ha
    have h2 := hb.last j nd ho
    omega
  · have key : ∀ j, lev h rs (.op j) = d → ∃ b ∈ rs, src h (order h rs) b = some (.op j) := by
      intro j hj
      obtain ⟨b, hm, w⟩ := last_out g hlat hd hj
      obtain ⟨_, o, hk⟩ := (mem_order g).1 (List.mem_of_getElem? w)
      exact ⟨b, hm, by unfold src; rw [hk]; simp only [idx_get w]⟩
    refine r.c58_lockstep (ordered g) hb hvalid (fun t j j' h1 h2 => hready t j j' (key j h1) (key j' h2)) fun t j hj => ?_
    refine hready1 t j fun b hbm hx => hj ?_
    have hr : Rea h rs b := .out hbm
    rcases g.at_ b hbm with w | ⟨⟨v, w⟩, _⟩
    · exact lev_src g hr hx w
    · unfold src at hx; rw [w] at hx; cases hx

/-- With outputs that are always ready, an output is valid exactly `d` cycles after the variables, `d` being the longest path
    from a variable to an output, and its values are taken at once. -/
theorem c91_latency (A : Alive G N outs) (hlat : ∀ id, Used G outs id → ∀ o, (G id).kind = .op o → o.lat = 1)
    (hi : DfSch.implement ⟨G, N⟩ outs = some (rs, h)) {s0 : Hist} (r : Dataflow.Run (net h rs) 0 s0)
    (hvalid : ∀ t i i', (r.inp t).vvalid i = (r.inp t).vvalid i') (hready : ∀ t j, (r.inp t).oready j = true)
    {b j d : ℕ} (hb : b ∈ rs) (hx : src h (order h rs) b = some (.op j))
    (hd : ∃ o ∈ outs, Path G o d) (hd' : ∀ o ∈ outs, ∀ n, Path G o n → n ≤ d) (t i : ℕ) :
    r.valid (t + d) (.op j) = (r.inp t).vvalid i ∧ (r.valid t (.op j) = true → r.ready t (.op j) = true) := by
  obtain ⟨d', g⟩ := good_of A hi
  have hr : Rea h rs b := .out hb
  have hop : ∃ o, (h.node b).kind = .op o ∧ (order h rs).idxOf b = j := by
    unfold src at hx
    cases hk : (h.node b).kind with
    | const v => rw [hk] at hx; cases hx
    | input v => rw [hk] at hx; cases hx
    | op o => rw [hk] at hx; cases hx; exact ⟨o, rfl, rfl⟩
  obtain ⟨o, hk, hj⟩ := hop
  obtain ⟨s, q1, q2, _, _, ⟨a, ha, hae⟩, _⟩ := g.op hr hk
  obtain ⟨x, hxa⟩ := src_of_not_const (rs := rs) (g.not_const (.arg hr ha) hae)
  have hm := (mem_order g).2 ⟨hr, o, hk⟩
  have hnet : (net h rs)[j]? = some (mkNode h (order h rs) b) := by
    unfold net; rw [List.getElem?_map, ← hj, get_idx hm]; rfl
  have hat : Dataflow.Run.OpAt (net h rs) j (mkNode h (order h rs) b) :=
    ⟨hnet, List.ne_nil_of_mem (ins_of ha hxa)⟩
  have hbal := balanced g hlat
  have hl : lev h rs (.op j) = d' := by
    rcases g.at_ b hb with w | ⟨⟨v, w⟩, _⟩
    · exact lev_src g hr hx w
    · rw [hk] at w; cases w
  have hout : h.origin b ∈ outs := by rw [← g.origin]; exact List.mem_map.2 ⟨b, hb, rfl⟩
  have hdd : d = d' := by
    obtain ⟨o1, ho1, p1⟩ := hd
    have hc : ∀ v, (G (h.origin b)).kind ≠ .const v := by
      intro v hv
      have hu := (g.rea hr).2.1
      have hbl := (g.rea hr).1
      have := (g.inv.const _ (g.inv.origin_lt hbl) v hv).1
      obtain ⟨e0, w, _⟩ := g.inv.origin_end hbl q2
      rw [w] at this; cases this
    obtain ⟨d2, w1, ⟨o2, ho2, p2⟩, w3⟩ := c91_depth A hi hout hc
    have e2 : d2 = d' := by
      rcases w1 b hb with w | ⟨v, w⟩
      · rcases g.at_ b hb with u | ⟨⟨v, u⟩, _⟩
        · rw [w] at u; cases u; rfl
        · rw [hk] at u; cases u
      · rw [hk] at w; cases w
    have := w3 o1 ho1 d p1
    have := hd' o2 ho2 d2 p2
    omega
  have := r.c58_latency (ordered g) hbal hvalid hready t j _ hat i
  rw [hl, ← hdd] at this
  exact this

/-! ### Constant expressions -/

theorem visitAll_const (h : Heap) (f : ℕ) : ∀ l : List ℕ, (∀ a ∈ l, ∃ v, (h.node a).kind = .const v) →
    visitAll (DfSch.visit (f + 1)) l h = some (l.map fun _ => none, h)
  | [], _ => rfl
  | a :: l, hl => by
    obtain ⟨v, hv⟩ := hl a (by simp)
    have := visitAll_const h f l (fun b hb => hl b (by simp [hb]))
    have h1 : DfSch.visit (f + 1) a h = some (none, h) := by unfold DfSch.visit; rw [hv]
    simp only [visitAll, h1, this, List.map_cons]

/-- An operator on constants is scheduled in stage 0 with no start stage, whatever its latency, though its register holds the
    result only after `lat` cycles.  (The scheduler of the streams puts it in stage `lat`.) -/
theorem c91_not_stage {id f : ℕ} {o : Op} (hk : (h.node id).kind = .op o) (hs : (h.node id).start = none)
    (hc : ∀ a ∈ (h.node id).args ++ (h.node id).deps, ∃ v, (h.node a).kind = .const v) :
    ∃ h', DfSch.visit (f + 2) id h = some (some 0, h') ∧ (h'.node id).start = none ∧ (h'.node id).end_ = some 0 := by
  have hm : ∀ l : List ℕ, maxStage (l.map fun _ => (none : Option ℕ)) = none := by
    intro l
    unfold maxStage
    induction l with
    | nil => rfl
    | cons a l ih => exact ih
  refine ⟨h.set id { h.node id with end_ := some 0 }, ?_, by simpa [Heap.set] using hs, by simp [Heap.set]⟩
  rw [DfSch.visit]
  simp only [hk, hs, Option.isSome_none, Bool.false_eq_true, if_false, visitAll_const h f _ hc, hm]

section Ex91

/-- `5 = x + (1 + 2)` and `6 = x + y`. -/
def conG : ℕ → Sch.Node
  | 0 => { kind := .input 0 }
  | 1 => { kind := .input 1 }
  | 2 => { kind := .const 1 }
  | 3 => { kind := .const 2 }
  | 4 => { kind := .op (pureOp 1 fun as => as.getD 0 0 + as.getD 1 0), args := [2, 3] }
  | 5 => { kind := .op (pureOp 1 fun as => as.getD 0 0 + as.getD 1 0), args := [0, 4] }
  | 6 => { kind := .op (pureOp 1 fun as => as.getD 0 0 + as.getD 1 0), args := [0, 1] }
  | _ => { kind := .const 0 }

/-- The scheduled graph. -/
def conI : List ℕ × Heap := (DfSch.implement ⟨conG, 7⟩ [5, 6]).getD ([], ⟨conG, 0⟩)

/-- Both variables are always valid and keep their datum until it is taken; both outputs are always ready. -/
def conIn (t : ℕ) : Dataflow.In Int :=
  ⟨fun i => if i = 0 then 100 + ((t - 1 : ℕ) : Int) else 5 + (t : Int), fun _ => true, fun _ => true⟩

/-- The second output is wrong because of the constant expression of the first: the register of `1 + 2` is not valid in the first
    cycle, so `x` is not taken, but `y` is, and lost: the first sum is `100 + 6` instead of `100 + 5`. -/
theorem c91_not_const : DfSch.implement ⟨conG, 7⟩ [5, 6] = some conI ∧
    ∃ r : Dataflow.Run (net conI.2 conI.1) 0 [], (∀ t i, (r.inp t).vvalid i = true) ∧ (∀ t j, (r.inp t).oready j = true) ∧
      conI.1.map (src conI.2 (order conI.2 conI.1)) = [some (.op 1), some (.op 2)] ∧
      r.xfer (.var 0) 3 = [100, 101] ∧ r.xfer (.var 1) 3 = [5, 6, 7] ∧ r.xfer (.op 2) 3 = [106] ∧
      mean conG 6 (recs (fun i k => ((r.xfer (.var i) 3)[k]?).getD 0) 0) = 105 := by
  have h1 : (DfSch.implement ⟨conG, 7⟩ [5, 6]).isSome = true := by decide +kernel
  refine ⟨?_, Dataflow.Run.of _ 0 [] conIn, fun _ _ => rfl, fun _ _ => rfl, by decide +kernel⟩
  obtain ⟨p, hp⟩ := Option.isSome_iff_exists.1 h1
  unfold conI
  rw [hp]
  rfl

/-- `4 = (x + y) + 3`, `5 = y - x`, `6` the running sum of `4`. -/
def okG : ℕ → Sch.Node
  | 0 => { kind := .input 0 }
  | 1 => { kind := .input 1 }
  | 2 => { kind := .const 3 }
  | 3 => { kind := .op (pureOp 1 fun as => as.getD 0 0 + as.getD 1 0), args := [0, 1] }
  | 4 => { kind := .op (pureOp 1 fun as => as.getD 0 0 + as.getD 1 0), args := [3, 2] }
  | 5 => { kind := .op (pureOp 1 fun as => as.getD 0 0 - as.getD 1 0), args := [1, 0] }
  | 6 => { kind := .op (accOp 0 (fun s as => s + as.getD 0 0) id), args := [4] }
  | _ => { kind := .const 0 }

theorem okG_alive : Alive okG 7 [6, 5] := by
  have d0 : Dep okG 0 := .input rfl
  have d1 : Dep okG 1 := .input rfl
  have d3 : Dep okG 3 := .op rfl (by simp [okG] : 0 ∈ (okG 3).args) d0
  have d4 : Dep okG 4 := .op rfl (by simp [okG] : 3 ∈ (okG 4).args) d3
  have d5 : Dep okG 5 := .op rfl (by simp [okG] : 1 ∈ (okG 5).args) d1
  have d6 : Dep okG 6 := .op rfl (by simp [okG] : 4 ∈ (okG 6).args) d4
  have F : Fresh okG 7 := by
    refine ⟨?_, ?_, ?_, ?_, ?_, ?_⟩ <;> intro id hid <;> interval_cases id <;> simp [okG]
  refine ⟨F, by simp, fun id hid => by interval_cases id <;> rfl, ?_⟩
  intro id hu o hk
  have hlt : id < 7 := by
    clear hk
    induction hu with
    | out h => simp at h; omega
    | @arg id a _ ha ih => exact lt_trans (F.args id ih a (by simp [ha])) ih
  interval_cases id
  · exact d0
  · exact d1
  · cases hk
  · exact d3
  · exact d4
  · exact d5
  · exact d6

/-- The operators of this graph have latency 1, its longest path to an output has length 3. -/
example : (∀ id, Used okG [6, 5] id → ∀ o, (okG id).kind = .op o → o.lat = 1) ∧ Path okG 6 3 := by
  constructor
  · intro id hu o hk
    have hlt := hu.lt okG_alive
    interval_cases id <;> simp only [okG, Kind.op.injEq, reduceCtorEq] at hk <;> subst hk <;> rfl
  · have p3 : Path okG 3 (0 + 1) := Path.op (a := 0) (o := pureOp 1 _) rfl (by simp [okG]) (.input rfl)
    have p4 : Path okG 4 (0 + 1 + 1) := Path.op (a := 3) (o := pureOp 1 _) rfl (by simp [okG]) p3
    exact Path.op (a := 4) (o := accOp 0 _ _) rfl (by simp [okG]) p4

/-- The scheduled graph. -/
def okI : List ℕ × Heap := (DfSch.implement ⟨okG, 7⟩ [6, 5]).getD ([], ⟨okG, 0⟩)

/-- Two delays were inserted for the difference; with gaps and stalls, both outputs deliver the values of their expressions. -/
example : okI.1.map (src okI.2 (order okI.2 okI.1)) = [some (.op 4), some (.op 5)] ∧
    okI.1.map (fun r => (okI.2.node r).end_) = [some 3, some 3] ∧
    let r := Dataflow.Run.of (net okI.2 okI.1) 0 [] fun t =>
      ⟨fun i => 10 * t + i, fun _ => t % 2 == 0 && t < 6, fun j => (j != 4 && j != 5) || t % 3 == 0⟩
    r.xfer (.op 4) 20 = [4, 4 + 44, 4 + 44 + 84] ∧ r.xfer (.op 5) 20 = [1, 1, 1] ∧
      mean okG 6 (recs (fun i k => 20 * k + i) 2) = 4 + 44 + 84 := by
  decide +kernel

end Ex91

end DfSch
