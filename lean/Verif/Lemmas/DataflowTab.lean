import Verif.Props.C58_Dataflow

/-!
# Evaluation of dataflow networks by tables

For networks of operators of latency 1 without previous values, the state is a table with one entry for each operator.  Used to
compute concrete runs.
-/

namespace Dataflow

variable {S V : Type} (net : Net S V) (v0 : V) (s0 : S)

/-- The state with the given table. -/
def tabSt (T : List (S × Option V)) : St S V :=
  ⟨fun j => (T.getD j (s0, none)).1, fun j => [(T.getD j (s0, none)).2], fun _ _ => v0⟩

/-- The table after a clock edge. -/
def tabNext (i : In V) (T : List (S × Option V)) : List (S × Option V) :=
  let st := tabSt v0 s0 T
  (List.range net.length).map fun j => match net[j]? with
    | none => (s0, none)
    | some nd =>
      if st.fire net i j nd then (nd.next (st.s j) (nd.ins.map (st.arg v0 i)), some (nd.out (nd.next (st.s j) (nd.ins.map (st.arg v0 i)))))
      else (st.s j, if st.accept net i j then none else (T.getD j (s0, none)).2)

/-- The state and the table agree on the operators. -/
def TabOk (st : St S V) (T : List (S × Option V)) : Prop :=
  ∀ j < net.length, st.s j = (tabSt v0 s0 T).s j ∧ st.pipe j = (tabSt v0 s0 T).pipe j

/-- A variable, or an operator of the network. -/
def Inside : Src → Prop
  | .var _ => True
  | .op j => j < net.length

/-- Networks of operators of latency 1 without previous values. -/
structure Simple : Prop where
  ord : Ordered net
  lat : ∀ (j : ℕ) (nd : Node S V), net[j]? = some nd → nd.lat = 0
  dly : ∀ (j : ℕ) (nd : Node S V), net[j]? = some nd → ∀ a ∈ nd.ins, a.2 = 0

variable {net v0 s0}

theorem Simple.inside (hs : Simple net) {j : ℕ} {nd : Node S V} (hj : net[j]? = some nd) {a : Src × ℕ} (ha : a ∈ nd.ins) :
    Inside net a.1 := by
  have hl : j < net.length := (List.getElem?_eq_some_iff.1 hj).1
  cases h : a.1 with
  | var k => trivial
  | op k => exact Nat.lt_trans (hs.ord j nd hj a ha k h) hl

theorem TabOk.val {st : St S V} {T : List (S × Option V)} (h : TabOk net v0 s0 st T) (i : In V) {x : Src} (hx : Inside net x) :
    st.val i x = (tabSt v0 s0 T).val i x := by
  cases x with
  | var k => rfl
  | op j => simp only [St.val]; rw [(h j hx).2]

theorem TabOk.allValid {st : St S V} {T : List (S × Option V)} (hs : Simple net) (h : TabOk net v0 s0 st T) (i : In V) {j : ℕ}
    {nd : Node S V} (hj : net[j]? = some nd) : st.allValid i nd = (tabSt v0 s0 T).allValid i nd := by
  have key : ∀ a ∈ nd.ins, st.valid i a.1 = (tabSt v0 s0 T).valid i a.1 := fun a ha => by
    unfold St.valid
    rw [h.val i (hs.inside hj ha)]
  unfold St.allValid
  rw [Bool.eq_iff_iff, List.all_eq_true, List.all_eq_true]
  exact ⟨fun h a ha => by rw [← key a ha]; exact h a ha, fun h a ha => by rw [key a ha]; exact h a ha⟩

theorem TabOk.rdyN {st : St S V} {T : List (S × Option V)} (hs : Simple net) (h : TabOk net v0 s0 st T) (i : In V) (k : ℕ) :
    ∀ x, st.rdyN net i k x = (tabSt v0 s0 T).rdyN net i k x := by
  induction k with
  | zero => intro x; rfl
  | succ k ih =>
    intro x
    simp only [St.rdyN]
    congr 1
    rw [Bool.eq_iff_iff, List.all_eq_true, List.all_eq_true]
    apply forall₂_congr
    intro s hsr
    have hsl : s < net.length := List.mem_range.1 hsr
    cases hn : net[s]? with
    | none => exact Iff.rfl
    | some nd =>
      simp only
      rw [ih, h.allValid hs i hn]
      have : st.valid i (.op s) = (tabSt v0 s0 T).valid i (.op s) := by
        unfold St.valid
        rw [h.val (x := .op s) i hsl]
      rw [this]

theorem TabOk.ready {st : St S V} {T : List (S × Option V)} (hs : Simple net) (h : TabOk net v0 s0 st T) (i : In V) (x : Src) :
    st.ready net i x = (tabSt v0 s0 T).ready net i x := h.rdyN hs i _ x

theorem TabOk.accept {st : St S V} {T : List (S × Option V)} (hs : Simple net) (h : TabOk net v0 s0 st T) (i : In V) {j : ℕ}
    (hj : j < net.length) : st.accept net i j = (tabSt v0 s0 T).accept net i j := by
  unfold St.accept St.valid
  rw [h.ready hs, h.val (x := .op j) i hj]

theorem TabOk.fire {st : St S V} {T : List (S × Option V)} (hs : Simple net) (h : TabOk net v0 s0 st T) (i : In V) {j : ℕ}
    {nd : Node S V} (hj : net[j]? = some nd) : st.fire net i j nd = (tabSt v0 s0 T).fire net i j nd := by
  unfold St.fire
  rw [h.accept hs i (List.getElem?_eq_some_iff.1 hj).1, h.allValid hs i hj]
  simp only [h.ready hs]

theorem TabOk.args {st : St S V} {T : List (S × Option V)} (hs : Simple net) (h : TabOk net v0 s0 st T) (i : In V) {j : ℕ}
    {nd : Node S V} (hj : net[j]? = some nd) : nd.ins.map (st.arg v0 i) = nd.ins.map ((tabSt v0 s0 T).arg v0 i) := by
  apply List.map_congr_left
  intro a ha
  unfold St.arg
  rw [hs.dly j nd hj a ha, h.val i (hs.inside hj ha)]

theorem TabOk.step {st : St S V} {T : List (S × Option V)} (hs : Simple net) (h : TabOk net v0 s0 st T) (i : In V) :
    TabOk net v0 s0 (st.step net v0 i) (tabNext net v0 s0 i T) := by
  intro j hj
  have hn := List.getElem?_eq_getElem hj
  have hget : (tabNext net v0 s0 i T).getD j (s0, none) =
      if (tabSt v0 s0 T).fire net i j net[j] then
        (net[j].next ((tabSt v0 s0 T).s j) (net[j].ins.map ((tabSt v0 s0 T).arg v0 i)),
          some (net[j].out (net[j].next ((tabSt v0 s0 T).s j) (net[j].ins.map ((tabSt v0 s0 T).arg v0 i)))))
      else ((tabSt v0 s0 T).s j, if (tabSt v0 s0 T).accept net i j then none else (T.getD j (s0, none)).2) := by
    rw [List.getD_eq_getElem?_getD]
    simp only [tabNext, List.getElem?_map, List.getElem?_range hj, Option.map_some, Option.getD_some, hn]
  have hp := (h j hj).2
  have hsj := (h j hj).1
  constructor
  · simp only [St.step, hn]
    show _ = ((tabNext net v0 s0 i T).getD j (s0, none)).1
    rw [hget, h.fire hs i hn, h.args hs i hn, hsj]
    split <;> rfl
  · simp only [St.step, hn]
    show _ = [((tabNext net v0 s0 i T).getD j (s0, none)).2]
    rw [hget, h.fire hs i hn, h.args hs i hn, h.accept hs i hj, hsj, hp]
    by_cases hf : (tabSt v0 s0 T).fire net i j net[j] = true
    · have ha : (tabSt v0 s0 T).accept net i j = true := by
        simp only [St.fire, Bool.and_eq_true] at hf
        exact hf.1.1
      simp only [hf, ha, if_true]
      rfl
    · simp only [hf, if_false]
      by_cases ha : (tabSt v0 s0 T).accept net i j = true
      · simp only [ha, if_true]; rfl
      · simp only [ha, if_false]; rfl

/-- The first table. -/
def tabInit (net : Net S V) : List (S × Option V) := net.map fun nd => (nd.init, none)

theorem TabOk.init (hs : Simple net) : TabOk net v0 s0 (St.init net v0 s0) (tabInit net) := by
  intro j hj
  have hn := List.getElem?_eq_getElem hj
  constructor
  · simp [St.init, tabSt, tabInit, hn]
  · simp only [St.init, hn, Option.map_some, Option.getD_some, hs.lat j _ hn]
    simp [tabSt, tabInit, hn]

/-- What a source delivers in a cycle. -/
def tabOut (net : Net S V) (v0 : V) (s0 : S) (i : In V) (T : List (S × Option V)) (x : Src) : List V :=
  if (tabSt v0 s0 T).valid i x && (tabSt v0 s0 T).ready net i x then [((tabSt v0 s0 T).val i x).getD v0] else []

/-- A run computed by tables: what the sources `xs` deliver. -/
theorem Run.tab (hs : Simple net) (r : Run net v0 s0) (T : ℕ → List (S × Option V)) (n : ℕ) (h0 : T 0 = tabInit net)
    (hT : ∀ t < n, T (t + 1) = tabNext net v0 s0 (r.inp t) (T t)) (x : Src) (hx : Inside net x) (t : ℕ) (ht : t ≤ n) :
    TabOk net v0 s0 (r.st t) (T t) ∧ r.xfer x t = (List.range t).flatMap fun t => tabOut net v0 s0 (r.inp t) (T t) x := by
  induction t with
  | zero =>
    refine ⟨?_, rfl⟩
    rw [r.start, h0]
    exact TabOk.init hs
  | succ t ih =>
    obtain ⟨i1, i2⟩ := ih (by omega)
    refine ⟨?_, ?_⟩
    · rw [r.step, hT t (by omega)]
      exact i1.step hs _
    · rw [List.range_succ, List.flatMap_append, ← i2]
      have e1 : r.valid t x = (tabSt v0 s0 (T t)).valid (r.inp t) x := by
        show ((r.st t).val (r.inp t) x).isSome = _
        rw [i1.val _ hx]
        rfl
      have e2 : r.ready t x = (tabSt v0 s0 (T t)).ready net (r.inp t) x := i1.ready hs _ _
      have e3 : r.data t x = ((tabSt v0 s0 (T t)).val (r.inp t) x).getD v0 := by
        show ((r.st t).val (r.inp t) x).getD v0 = _
        rw [i1.val _ hx]
      simp only [xfer, List.flatMap_cons, List.flatMap_nil, List.append_nil, tabOut, e1, e2, e3]

end Dataflow
