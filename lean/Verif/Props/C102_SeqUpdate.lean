import Verif.Model.SeqUpdate
import Verif.Props.C12_SeqOrder
import Verif.Props.C15_SeqReset

/-!
# C102: merging one `Seq` into another

`a.update(b)` moves the statements of `b` to `a`.  The registers behave as they would with two
separate `always` blocks, except while reset is asserted when only one of the two managers has
registers with an initial value.
-/

namespace Hdl

open SeqSt

/-! ## What the merged manager contains -/

theorem filterMap_pairs (d e : Nat) (l : List Code) :
    (l.map fun c => (e, c)).filterMap (fun p : Nat × Code => if p.1 = d then some p.2 else none) =
      if e = d then l else [] := by
  induction l with
  | nil => simp
  | cons c l ih =>
    simp only [List.map_cons, List.filterMap_cons]
    by_cases h : e = d
    · simp only [h, if_true] at ih ⊢; rw [ih]
    · simp only [h, if_false] at ih ⊢; rw [ih]

theorem filterMap_range (f : Nat → List Code) (d n : Nat) :
    ((List.range n).flatMap fun e => (f e).map fun c => (e, c)).filterMap
      (fun p : Nat × Code => if p.1 = d then some p.2 else none) = if d < n then f d else [] := by
  induction n with
  | zero => simp
  | succ n ih =>
    rw [List.range_succ, List.flatMap_append, List.filterMap_append, ih]
    simp only [List.flatMap_cons, List.flatMap_nil, List.append_nil]
    rw [filterMap_pairs]
    by_cases h1 : d < n
    · simp [h1, show ¬ n = d by omega, show d < n + 1 by omega]
    · by_cases h2 : n = d
      · subst h2; simp
      · simp [h1, h2, show ¬ d < n + 1 by omega]

theorem merge_delayedAt (a b : SeqSt) (d : Nat) :
    (a.merge b).delayedAt d = a.delayedAt d ++ b.delayedAt d := by
  have : (a.merge b).delayedAt d = a.delayedAt d ++ if d < b.maxDelay + 1 then b.delayedAt d else [] := by
    rw [← filterMap_range b.delayedAt d (b.maxDelay + 1)]
    unfold SeqSt.merge SeqSt.delayedAt
    rw [List.filterMap_append]
  rw [this]
  by_cases h : d < b.maxDelay + 1
  · rw [if_pos h]
  · rw [if_neg h, delayedAt_nil (s := b) (by omega)]

theorem merge_pos {a b : SeqSt} (ha : ∀ e ∈ a.delayed, 0 < e.1) (hb : ∀ e ∈ b.delayed, 0 < e.1) :
    ∀ e ∈ (a.merge b).delayed, 0 < e.1 := by
  rintro ⟨d, c⟩ he
  have : c ∈ (a.merge b).delayedAt d := mem_delayedAt.2 he
  rw [merge_delayedAt, List.mem_append] at this
  rcases this with h | h
  · exact ha _ (mem_delayedAt.1 h)
  · exact hb _ (mem_delayedAt.1 h)

theorem merge_cls (a b : SeqSt) (d : Nat) (env : Env) (x : Var) :
    (a.merge b).cls d env x = a.cls d env x ++ b.cls d env x := by
  unfold SeqSt.cls
  by_cases h : d = 0
  · subst h
    simp [SeqSt.bodyTrace, SeqSt.merge, traceL_append]
  · simp only [h, if_false]
    rw [merge_delayedAt, traceL_append]

theorem mem_merge_makeCode (a b : SeqSt) (c : Code) :
    c ∈ (a.merge b).makeCode ↔ c ∈ a.makeCode ∨ c ∈ b.makeCode := by
  simp only [mem_makeCode, ← mem_delayedAt, merge_delayedAt, List.mem_append]
  simp only [SeqSt.merge, List.mem_append]
  constructor
  · rintro (⟨d, h | h⟩ | ⟨it, h | h, rfl⟩)
    · exact .inl (.inl ⟨d, h⟩)
    · exact .inr (.inl ⟨d, h⟩)
    · exact .inl (.inr ⟨it, h, rfl⟩)
    · exact .inr (.inr ⟨it, h, rfl⟩)
  · rintro ((⟨d, h⟩ | ⟨it, h, rfl⟩) | (⟨d, h⟩ | ⟨it, h, rfl⟩))
    · exact .inl ⟨d, .inl h⟩
    · exact .inr ⟨it, .inl h, rfl⟩
    · exact .inl ⟨d, .inr h⟩
    · exact .inr ⟨it, .inr h, rfl⟩

/-- One name is one register object for the two managers together. -/
def OneObject (a b : SeqSt) : Prop :=
  ∀ r ∈ a.managed ++ b.managed, ∀ q ∈ a.managed ++ b.managed, r.name = q.name → r = q

theorem OneObject.left {a b : SeqSt} (h : OneObject a b) : a.Consistent := fun r hr q hq =>
  h r (List.mem_append_left _ hr) q (List.mem_append_left _ hq)

theorem OneObject.right {a b : SeqSt} (h : OneObject a b) : b.Consistent := fun r hr q hq =>
  h r (List.mem_append_right _ hr) q (List.mem_append_right _ hq)

theorem mem_managed_dst {s : SeqSt} {r : Reg} (h : r ∈ s.dstVar) : r ∈ s.managed :=
  List.mem_append_right _ h

theorem updDst_eq {a b : SeqSt} (h : OneObject a b) :
    updDst a.dstVar b.dstVar =
      a.dstVar ++ b.dstVar.filter fun q => !a.dstVar.any fun r => r.name = q.name := by
  unfold updDst
  congr 1
  refine (List.map_congr_left (g := id) fun r hr => ?_).trans (List.map_id _)
  cases hf : b.dstVar.find? fun q => q.name = r.name with
  | none => rfl
  | some q =>
    have hq := List.mem_of_find?_eq_some hf
    have hn := List.find?_some hf
    simp only [decide_eq_true_eq] at hn
    exact h q (List.mem_append_right _ (mem_managed_dst hq)) r
      (List.mem_append_left _ (mem_managed_dst hr)) hn

theorem mem_merge_dst {a b : SeqSt} (h : OneObject a b) (r : Reg) :
    r ∈ (a.merge b).dstVar ↔ r ∈ a.dstVar ∨ r ∈ b.dstVar := by
  show r ∈ updDst a.dstVar b.dstVar ↔ _
  rw [updDst_eq h, List.mem_append, List.mem_filter]
  constructor
  · rintro (h | h)
    · exact .inl h
    · exact .inr h.1
  · rintro (hr | hr)
    · exact .inl hr
    · by_cases hm : r ∈ a.dstVar
      · exact .inl hm
      · refine .inr ⟨hr, ?_⟩
        rw [Bool.not_eq_true', List.any_eq_false]
        intro q hq he
        simp only [decide_eq_true_eq] at he
        exact hm (h q (List.mem_append_left _ (mem_managed_dst hq)) r
          (List.mem_append_right _ (mem_managed_dst hr)) he ▸ hq)

theorem merge_dst_nodup {a b : SeqSt} (h : OneObject a b) (ha : a.dstNames.Nodup)
    (hb : b.dstNames.Nodup) : (a.merge b).dstNames.Nodup := by
  show ((updDst a.dstVar b.dstVar).map Reg.name).Nodup
  rw [updDst_eq h, List.map_append]
  refine List.nodup_append.2 ⟨ha, (List.filter_sublist.map _).nodup hb, ?_⟩
  intro x hx y hy he
  obtain ⟨r, hr, rfl⟩ := List.mem_map.1 hx
  obtain ⟨q, hq, rfl⟩ := List.mem_map.1 hy
  have := (List.mem_filter.1 hq).2
  rw [Bool.not_eq_true', List.any_eq_false] at this
  exact this r hr (by simpa using he)

/-- Some register of the manager declares an initial value. -/
def SeqSt.hasReset (s : SeqSt) : Prop := ∃ r ∈ s.managed, r.init ≠ none

theorem mem_dst_of_mem_managed {s : SeqSt} (hcov : s.Covered) (hc : s.Consistent) {r : Reg}
    (hr : r ∈ s.managed) : r ∈ s.dstVar := by
  rcases List.mem_append.1 hr with hr' | hr'
  · rw [Code.targets_block, List.mem_flatMap] at hr'
    obtain ⟨c, hcm, hrc⟩ := hr'
    obtain ⟨d, hd, he⟩ := List.mem_map.1 (hcov c hcm r hrc)
    have := hc d (List.mem_append_right _ hd) r hr he
    exact this ▸ hd
  · exact hr'

theorem makeReset_ne_iff {s : SeqSt} (hcov : s.Covered) (hc : s.Consistent) :
    s.makeReset ≠ [] ↔ s.hasReset := by
  constructor
  · intro h
    obtain ⟨c, hm⟩ := List.exists_mem_of_ne_nil _ h
    obtain ⟨d, hd, hde⟩ := List.mem_filterMap.1 hm
    obtain ⟨v, hv, -⟩ := Option.map_eq_some_iff.1 hde
    exact ⟨d, mem_managed_dst hd, by simp [hv]⟩
  · rintro ⟨r, hr, hi⟩
    cases hv : r.init with
    | none => exact absurd hv hi
    | some v => exact makeReset_ne (mem_dst_of_mem_managed hcov hc hr) hv

theorem mem_merge_managed {a b : SeqSt} (h : OneObject a b) (r : Reg) :
    r ∈ (a.merge b).managed ↔ r ∈ a.managed ∨ r ∈ b.managed := by
  unfold SeqSt.managed
  simp only [List.mem_append, Code.targets_block, List.mem_flatMap, mem_merge_makeCode,
    mem_merge_dst h]
  constructor
  · rintro (⟨c, h | h, hr⟩ | (h | h))
    · exact .inl (.inl ⟨c, h, hr⟩)
    · exact .inr (.inl ⟨c, h, hr⟩)
    · exact .inl (.inr h)
    · exact .inr (.inr h)
  · rintro ((⟨c, h, hr⟩ | h) | (⟨c, h, hr⟩ | h))
    · exact .inl ⟨c, .inl h, hr⟩
    · exact .inr (.inl h)
    · exact .inl ⟨c, .inr h, hr⟩
    · exact .inr (.inr h)

theorem merge_consistent {a b : SeqSt} (h : OneObject a b) : (a.merge b).Consistent := by
  intro r hr q hq he
  exact h r (List.mem_append.2 ((mem_merge_managed h r).1 hr)) q
    (List.mem_append.2 ((mem_merge_managed h q).1 hq)) he

theorem merge_hasReset {a b : SeqSt} (h : OneObject a b) :
    (a.merge b).hasReset ↔ a.hasReset ∨ b.hasReset := by
  unfold SeqSt.hasReset
  simp only [mem_merge_managed h]
  constructor
  · rintro ⟨r, h | h, hi⟩
    · exact .inl ⟨r, h, hi⟩
    · exact .inr ⟨r, h, hi⟩
  · rintro (⟨r, h, hi⟩ | ⟨r, h, hi⟩)
    · exact ⟨r, .inl h, hi⟩
    · exact ⟨r, .inr h, hi⟩

theorem merge_covered {a b : SeqSt} (h : OneObject a b) (ha : a.Covered) (hb : b.Covered) :
    (a.merge b).Covered := by
  intro c hc r hr
  rcases (mem_merge_makeCode a b c).1 hc with hc | hc
  · obtain ⟨d, hd, he⟩ := List.mem_map.1 (ha c hc r hr)
    exact List.mem_map.2 ⟨d, (mem_merge_dst h d).2 (.inl hd), he⟩
  · obtain ⟨d, hd, he⟩ := List.mem_map.1 (hb c hc r hr)
    exact List.mem_map.2 ⟨d, (mem_merge_dst h d).2 (.inr hd), he⟩

/-! ## When it is possible -/

/-- **C102, errors.**  `a.update(b)` raises exactly if `a` is implemented already, or if `b` is
    another manager, not yet implemented or merged, and the two differ in module, clock or reset or
    have the same name. -/
theorem c102_raises (a b : SeqObj) :
    a.update b = none ↔ a.done = true ∨ (b.done = false ∧ a.oid ≠ b.oid ∧
      ¬ (a.m = b.m ∧ a.clk = b.clk ∧ a.rst = b.rst ∧ a.st.name ≠ b.st.name)) := by
  unfold SeqObj.update
  by_cases h1 : a.done = true
  · simp [h1]
  · by_cases h2 : b.done = true
    · simp [h1, h2]
    · by_cases h3 : a.oid = b.oid
      · simp [h1, h2, h3]
      · by_cases h4 : a.m = b.m <;> by_cases h5 : a.clk = b.clk <;> by_cases h6 : a.rst = b.rst <;>
          by_cases h7 : a.st.name = b.st.name <;> simp [h1, h2, h3, h4, h5, h6, h7]

/-- What a successful merge of two different live managers returns. -/
theorem update_eq {a b a' b' : SeqObj} (hu : a.update b = some (a', b')) (hb : b.done = false)
    (hne : a.oid ≠ b.oid) :
    a.done = false ∧ a.rst = b.rst ∧ a' = { a with st := a.st.merge b.st } ∧
      b' = { b with done := true } := by
  unfold SeqObj.update at hu
  by_cases h1 : a.done = true
  · simp [h1] at hu
  · by_cases h4 : a.m = b.m <;> by_cases h5 : a.clk = b.clk <;> by_cases h6 : a.rst = b.rst <;>
      by_cases h7 : a.st.name = b.st.name <;> simp [h1, hb, hne, h4, h5, h6, h7] at hu
    refine ⟨by simpa using h1, h6, ?_, hu.2.symm⟩
    rw [← hu.1]
    cases a
    simp_all

/-- The two managers were built by calls of the API and not yet implemented. -/
structure Mergeable (a b : SeqObj) : Prop where
  reachA : Reach a.st.name a.st
  reachB : Reach b.st.name b.st
  live : b.done = false
  other : a.oid ≠ b.oid
  one : OneObject a.st b.st

theorem tick_always (s : SeqSt) (rst : Option Expr) (env : Env) (x : Var) :
    (s.always rst).tick env x = (((s.always rst).trace env x).getLast?).getD (env x) := by
  rw [Code.tick, Code.exec_eq_trace]

/-- **C102, which assignment counts.**  At every clock edge at which reset is not asserted, after
    the merge: a register assigned by no executed statement of either manager keeps its value;
    otherwise the smallest delay with an executed assignment in either manager decides, and within
    that delay the last assignment of `b` if there is one, else the last one of `a`. -/
theorem c102_priority {a b a' b' : SeqObj} (h : Mergeable a b) (hu : a.update b = some (a', b'))
    (env : Env) (hr : isReset a.rstE env = false) (x : Var) :
    ((∀ d, a.st.cls d env x = [] ∧ b.st.cls d env x = []) →
      (a'.st.always a'.rstE).tick env x = env x) ∧
    (∀ d v, (∀ d' < d, a.st.cls d' env x = [] ∧ b.st.cls d' env x = []) →
      ((b.st.cls d env x).getLast? = some v ∨
        (b.st.cls d env x = [] ∧ (a.st.cls d env x).getLast? = some v)) →
      (a'.st.always a'.rstE).tick env x = v) := by
  obtain ⟨-, -, rfl, -⟩ := update_eq hu h.live h.other
  have hs := SeqSt.stored (merge_pos h.reachA.delayed_pos h.reachB.delayed_pos) a.rstE env hr x
  refine ⟨fun h0 => hs.1 fun d => by rw [merge_cls, (h0 d).1, (h0 d).2]; rfl, ?_⟩
  intro d v hlt hv
  refine hs.2 d v ?_ fun d' hd' => by rw [merge_cls, (hlt d' hd').1, (hlt d' hd').2]; rfl
  rw [merge_cls, List.getLast?_append]
  rcases hv with hv | ⟨h0, hv⟩
  · rw [hv]; rfl
  · rw [h0, hv]; rfl

/-- **C102, reset.**  At an edge with reset asserted, if some register of either manager declares an
    initial value: all registers of both that declare one take it, every other register keeps its
    value. -/
theorem c102_reset {a b a' b' : SeqObj} (h : Mergeable a b) (hu : a.update b = some (a', b'))
    (env : Env) (hr : isReset a.rstE env = true) (hsome : a.st.hasReset ∨ b.st.hasReset) :
    (∀ r ∈ a.st.managed ++ b.st.managed, ∀ v, r.init = some v →
      (a'.st.always a'.rstE).tick env r.name = r.wrap v) ∧
    (∀ x, (∀ r ∈ a.st.managed ++ b.st.managed, r.name = x → r.init = none) →
      (a'.st.always a'.rstE).tick env x = env x) := by
  obtain ⟨-, -, rfl, -⟩ := update_eq hu h.live h.other
  have hcov := merge_covered h.one h.reachA.inv.covered h.reachB.inv.covered
  have hcons := merge_consistent h.one
  have hne := (makeReset_ne_iff hcov hcons).2 ((merge_hasReset h.one).2 hsome)
  have ht : ∀ x, ((a.st.merge b.st).always a.rstE).tick env x =
      ((traceL (a.st.merge b.st).makeReset env x).getLast?).getD (env x) := by
    intro x
    rw [tick_always, trace_always, if_pos ⟨hr, hne⟩]
  constructor
  · intro r hm v hv
    have hm' := (mem_merge_managed h.one r).2 (List.mem_append.1 hm)
    show ((a.st.merge b.st).always a.rstE).tick env r.name = _
    rw [ht, SeqSt.makeReset,
      trace_reset_mem _ (merge_dst_nodup h.one h.reachA.inv.nodup h.reachB.inv.nodup) r
        (mem_dst_of_mem_managed hcov hcons hm'), hv]
    rfl
  · intro x hx
    show ((a.st.merge b.st).always a.rstE).tick env x = _
    rw [ht, traceReset_none fun r hr he => hx r
      (List.mem_append.2 ((mem_merge_managed h.one r).1 (mem_managed_dst hr))) he]
    rfl

/-! ## Comparison with two blocks -/

theorem tickAll_eq (cs : List Code) (env acc : Env) (x : Var) :
    cs.foldl (fun acc c => c.exec env acc) acc x =
      ((cs.flatMap fun c => c.trace env x).getLast?).getD (acc x) := by
  induction cs generalizing acc with
  | nil => rfl
  | cons c cs ih =>
    simp only [List.foldl_cons, List.flatMap_cons]
    rw [ih, Code.exec_eq_trace, List.getLast?_append]
    cases (cs.flatMap fun c => c.trace env x).getLast? <;> simp

theorem implement_trace (o : SeqObj) (hd : o.done = false) (env : Env) (x : Var) :
    (o.implement.1.toList.flatMap fun c => c.trace env x) = (o.st.always o.rstE).trace env x := by
  unfold SeqObj.implement
  by_cases h : o.st.makeReset = [] ∧ o.st.makeCode = []
  · simp only [hd, Bool.false_eq_true, if_false, h, and_self, if_true, Option.toList_none,
      List.flatMap_nil]
    rw [trace_always]
    simp [h.1, h.2, traceL]
  · simp [hd, h]

theorem implementAll_trace (os : List SeqObj) (env : Env) (x : Var) :
    ((implementAll os).flatMap fun c => c.trace env x) =
      os.flatMap fun o => o.implement.1.toList.flatMap fun c => c.trace env x := by
  unfold implementAll
  induction os with
  | nil => rfl
  | cons o os ih =>
    rw [List.filterMap_cons, List.flatMap_cons, ← ih]
    cases o.implement.1 <;> simp

theorem tick_implementAll (a b : SeqObj) (ha : a.done = false) (hb : b.done = false) (env : Env)
    (x : Var) : tickAll (implementAll [a, b]) env x =
      (((a.st.always a.rstE).trace env x ++ (b.st.always b.rstE).trace env x).getLast?).getD
        (env x) := by
  rw [tickAll, tickAll_eq, ← implement_trace a ha, ← implement_trace b hb, implementAll_trace]
  simp only [List.flatMap_cons, List.flatMap_nil, List.append_nil]

/-- No register belongs to both managers. -/
def Apart (a b : SeqSt) : Prop := ∀ r ∈ a.managed, ∀ q ∈ b.managed, r.name ≠ q.name

theorem makeCode_nil {s : SeqSt} {x : Var} (h : ∀ r ∈ s.managed, r.name ≠ x) (env : Env) (d : Nat) :
    traceL (s.delayedAt d) env x = [] ∧ s.bodyTrace env x = [] ∧ traceL s.makeCode env x = [] ∧
      traceL s.makeReset env x = [] := by
  have key : ∀ c ∈ s.makeCode, ∀ r ∈ c.targets, r.name ≠ x := fun c hc r hr => h r
    (List.mem_append_left _ (by rw [Code.targets_block, List.mem_flatMap]; exact ⟨c, hc, hr⟩))
  refine ⟨traceL_eq_nil fun c hc r hr he => ?_, traceL_eq_nil fun c hc r hr he => ?_,
    traceL_eq_nil fun c hc r hr he => key c hc r hr he, ?_⟩
  · exact key c (mem_makeCode.2 (.inl ⟨d, mem_delayedAt.1 hc⟩)) r hr he
  · obtain ⟨it, hit, rfl⟩ := List.mem_map.1 hc
    exact key _ (mem_makeCode.2 (.inr ⟨it, hit, rfl⟩)) r hr he
  · exact traceReset_none (fun r hr he => absurd he (h r (mem_managed_dst hr))) env

theorem merge_trace_left {a b : SeqSt} {x : Var} (h : ∀ r ∈ b.managed, r.name ≠ x) (env : Env) :
    traceL (a.merge b).makeCode env x = traceL a.makeCode env x := by
  rw [trace_makeCode _ env x (max ((a.merge b).maxDelay + 1) (a.maxDelay + 1)) (by omega),
    trace_makeCode a env x (max ((a.merge b).maxDelay + 1) (a.maxDelay + 1)) (by omega)]
  congr 1
  · refine seg_congr _ fun d _ _ => ?_
    rw [merge_delayedAt, traceL_append, (makeCode_nil h env d).1, List.append_nil]
  · have := merge_cls a b 0 env x
    simp only [SeqSt.cls, if_true] at this
    rw [this, (makeCode_nil h env 0).2.1, List.append_nil]

theorem merge_trace_right {a b : SeqSt} {x : Var} (h : ∀ r ∈ a.managed, r.name ≠ x) (env : Env) :
    traceL (a.merge b).makeCode env x = traceL b.makeCode env x := by
  rw [trace_makeCode _ env x (max ((a.merge b).maxDelay + 1) (b.maxDelay + 1)) (by omega),
    trace_makeCode b env x (max ((a.merge b).maxDelay + 1) (b.maxDelay + 1)) (by omega)]
  congr 1
  · refine seg_congr _ fun d _ _ => ?_
    rw [merge_delayedAt, traceL_append, (makeCode_nil h env d).1, List.nil_append]
  · have := merge_cls a b 0 env x
    simp only [SeqSt.cls, if_true] at this
    rw [this, (makeCode_nil h env 0).2.1, List.nil_append]

theorem merge_reset_trace {a b : SeqSt} (h : OneObject a b) (hap : Apart a b) (env : Env)
    (x : Var) : traceL (a.merge b).makeReset env x =
      traceL a.makeReset env x ++ traceL b.makeReset env x := by
  rw [← traceL_append]
  congr 1
  show (updDst a.dstVar b.dstVar).filterMap _ = _
  rw [updDst_eq h, List.filterMap_append]
  have : (b.dstVar.filter fun q => !a.dstVar.any fun r => r.name = q.name) = b.dstVar := by
    rw [List.filter_eq_self]
    intro q hq
    rw [Bool.not_eq_true', List.any_eq_false]
    intro r hr he
    simp only [decide_eq_true_eq] at he
    exact hap r (mem_managed_dst hr) q (mem_managed_dst hq) he
  rw [this]
  rfl

/-- **C102, same behaviour.**  If no register belongs to both managers, the module with the merged
    manager (and the emptied one) makes the same step, at every clock edge and for every register,
    as the module with the two separate blocks: always when reset is not asserted, and also when it
    is unless only one of the two managers has registers with an initial value. -/
theorem c102_same {a b a' b' : SeqObj} (h : Mergeable a b) (hu : a.update b = some (a', b'))
    (hap : Apart a.st b.st) (env : Env)
    (hr : isReset a.rstE env = false ∨ (a.st.hasReset ↔ b.st.hasReset)) (x : Var) :
    tickAll (implementAll [a', b']) env x = tickAll (implementAll [a, b]) env x := by
  obtain ⟨hd, hrst, rfl, rfl⟩ := update_eq hu h.live h.other
  rw [tick_implementAll a b hd h.live]
  have hrE : b.rstE = a.rstE := by simp [SeqObj.rstE, hrst]
  have hl : tickAll (implementAll [{ a with st := a.st.merge b.st }, { b with done := true }]) env x
      = ((((a.st.merge b.st).always a.rstE).trace env x).getLast?).getD (env x) := by
    rw [tickAll, tickAll_eq, implementAll_trace]
    simp only [List.flatMap_cons, List.flatMap_nil, List.append_nil]
    rw [implement_trace { a with st := a.st.merge b.st } hd, show ({ b with done := true } : SeqObj).implement.1 = none from rfl]
    simp only [Option.toList_none, List.flatMap_nil, List.append_nil]
    rfl
  rw [hl]
  congr 2
  rw [trace_always, trace_always, trace_always, hrE]
  have ra := makeReset_ne_iff h.reachA.inv.covered h.one.left
  have rb := makeReset_ne_iff h.reachB.inv.covered h.one.right
  have rm := (makeReset_ne_iff (merge_covered h.one h.reachA.inv.covered h.reachB.inv.covered)
      (merge_consistent h.one)).trans (merge_hasReset h.one)
  have code : traceL (a.st.merge b.st).makeCode env x =
      traceL a.st.makeCode env x ++ traceL b.st.makeCode env x := by
    by_cases hx : ∃ r ∈ a.st.managed, r.name = x
    · obtain ⟨r, hm, rfl⟩ := hx
      have hb : ∀ q ∈ b.st.managed, q.name ≠ r.name := fun q hq he => hap r hm q hq he.symm
      rw [merge_trace_left hb, (makeCode_nil hb env 0).2.2.1, List.append_nil]
    · have ha : ∀ r ∈ a.st.managed, r.name ≠ x := fun r hr he => hx ⟨r, hr, he⟩
      rw [merge_trace_right ha, (makeCode_nil ha env 0).2.2.1, List.nil_append]
  by_cases hR : isReset a.rstE env = true
  · have hiff : a.st.hasReset ↔ b.st.hasReset := hr.resolve_left (by simp [hR])
    by_cases hA : a.st.hasReset
    · have hB := hiff.1 hA
      rw [if_pos ⟨hR, rm.2 (.inl hA)⟩, if_pos ⟨hR, ra.2 hA⟩, if_pos ⟨hR, rb.2 hB⟩, merge_reset_trace h.one hap]
    · have hB : ¬ b.st.hasReset := fun hB => hA (hiff.2 hB)
      rw [if_neg (fun hh => (rm.1 hh.2).elim hA hB), if_neg (fun hh => hA (ra.1 hh.2)),
        if_neg (fun hh => hB (rb.1 hh.2)), code]
  · rw [if_neg (fun hh => hR hh.1), if_neg (fun hh => hR hh.1), if_neg (fun hh => hR hh.1), code]

/-- **C102, the exception.**  If no register of `a` declares an initial value but some register of
    `b` does, then at an edge with reset asserted the separate block of `a` executes its statements,
    while after the merge every register of `a` keeps its value; likewise with the roles
    exchanged. -/
theorem c102_not_same {a b a' b' : SeqObj} (h : Mergeable a b) (hu : a.update b = some (a', b'))
    (hap : Apart a.st b.st) (env : Env) (hr : isReset a.rstE env = true) :
    (¬ a.st.hasReset → b.st.hasReset → ∀ r ∈ a.st.managed,
      (a'.st.always a'.rstE).tick env r.name = env r.name ∧
      tickAll (implementAll [a, b]) env r.name = (a.st.always none).tick env r.name) ∧
    (a.st.hasReset → ¬ b.st.hasReset → ∀ r ∈ b.st.managed,
      (a'.st.always a'.rstE).tick env r.name = env r.name ∧
      tickAll (implementAll [a, b]) env r.name = (b.st.always none).tick env r.name) := by
  obtain ⟨hd, hrst, -, -⟩ := update_eq hu h.live h.other
  have hrE : b.rstE = a.rstE := by simp [SeqObj.rstE, hrst]
  constructor
  · intro hA hB r hm
    have hb : ∀ q ∈ b.st.managed, q.name ≠ r.name := fun q hq he => hap r hm q hq he.symm
    refine ⟨(c102_reset h hu env hr (.inr hB)).2 r.name fun q hq he => ?_, ?_⟩
    · rcases List.mem_append.1 hq with hq | hq
      · by_contra hi; exact hA ⟨q, hq, hi⟩
      · exact absurd he (hb q hq)
    · rw [tick_implementAll a b hd h.live, tick_always, hrE, trace_always, trace_always, trace_always,
        if_neg (fun hh => hA ((makeReset_ne_iff h.reachA.inv.covered h.one.left).1 hh.2)),
        if_neg (c := isReset none env = true ∧ _) (fun hh => by simp [isReset] at hh)]
      have : (if isReset a.rstE env = true ∧ b.st.makeReset ≠ [] then
          traceL b.st.makeReset env r.name else traceL b.st.makeCode env r.name) = [] := by
        split
        · exact (makeCode_nil hb env 0).2.2.2
        · exact (makeCode_nil hb env 0).2.2.1
      rw [this, List.append_nil]
  · intro hA hB r hm
    have ha : ∀ q ∈ a.st.managed, q.name ≠ r.name := fun q hq he => hap q hq r hm he
    refine ⟨(c102_reset h hu env hr (.inl hA)).2 r.name fun q hq he => ?_, ?_⟩
    · rcases List.mem_append.1 hq with hq | hq
      · exact absurd he (ha q hq)
      · by_contra hi; exact hB ⟨q, hq, hi⟩
    · rw [tick_implementAll a b hd h.live, tick_always, hrE, trace_always, trace_always, trace_always,
        if_neg (c := _ ∧ b.st.makeReset ≠ [])
          (fun hh => hB ((makeReset_ne_iff h.reachB.inv.covered h.one.right).1 hh.2)),
        if_neg (c := isReset none env = true ∧ _) (fun hh => by simp [isReset] at hh)]
      have : (if isReset a.rstE env = true ∧ a.st.makeReset ≠ [] then
          traceL a.st.makeReset env r.name else traceL a.st.makeCode env r.name) = [] := by
        split
        · exact (makeCode_nil ha env 0).2.2.2
        · exact (makeCode_nil ha env 0).2.2.1
      rw [this, List.nil_append]

/-! ## The source afterwards -/

/-- **C102, the source.**  After the merge the source adds no block to the module, whatever further
    calls are made on it, and merging it again, into any manager that is not yet implemented,
    changes nothing. -/
theorem c102_source {a b a' b' : SeqObj} (h : Mergeable a b) (hu : a.update b = some (a', b')) :
    (∀ ops st, b'.st.applyAll ops = some st → ({ b' with st := st } : SeqObj).implement.1 = none) ∧
    ∀ c : SeqObj, c.done = false → c.update b' = some (c, b') := by
  obtain ⟨-, -, -, rfl⟩ := update_eq hu h.live h.other
  refine ⟨fun ops st _ => by simp [SeqObj.implement], fun c hc => by simp [SeqObj.update, hc]⟩

/-! ## Examples -/

/-- `x <= y`, and with `d` also a delayed `w <= 3`, in a manager called `p`. -/
def exUpdA (d : Bool) : List SeqOp :=
  .add [.subst ⟨.user "x", 8, false, none⟩ (.var (.user "y"))] ::
    if d then [.delay 2, .add [.subst ⟨.user "w", 8, false, some 4⟩ (.int 3)]] else []

/-- An undelayed `r <= 5` in a manager called `q`. -/
def exUpdB (r : Reg) : List SeqOp := [.add [.subst r (.int 5)]]

/-- The two managers as objects of one module. -/
def exObj (oid : Nat) (name : String) (ops : List SeqOp) : SeqObj :=
  ⟨oid, 0, "CLK", some "RST", ((SeqSt.fresh name).applyAll ops).getD (SeqSt.fresh name), false⟩

theorem exMergeable (d : Bool) (r : Reg) (hr : r = ⟨.user "z", 8, false, some 1⟩ ∨
    r = ⟨.user "x", 8, false, none⟩) :
    Mergeable (exObj 0 "p" (exUpdA d)) (exObj 1 "q" (exUpdB r)) ∧
      ((exObj 0 "p" (exUpdA d)).update (exObj 1 "q" (exUpdB r))).isSome = true := by
  have hok : ∀ q : Reg, (q = ⟨.user "z", 8, false, some 1⟩ ∨ q = ⟨.user "x", 8, false, none⟩) →
      q.name.genBy "q" = false := by rintro q (rfl | rfl) <;> rfl
  refine ⟨⟨⟨exUpdA d, ?_, ?_⟩, ⟨exUpdB r, ?_, ?_⟩, rfl, Nat.zero_ne_one, ?_⟩, ?_⟩
  · cases d <;> simp [exUpdA, SeqOp.Ok, Code.targets, Var.genBy]
  · cases d <;> rfl
  · show ∀ op ∈ exUpdB r, op.Ok "q"
    simpa [exUpdB, SeqOp.Ok, Code.targets] using hok r hr
  · rfl
  · rcases hr with rfl | rfl <;> cases d <;> unfold OneObject <;> decide
  · rcases hr with rfl | rfl <;> cases d <;> decide

/-- `x <= y` and a delayed statement in `p`, `z <= 5` in `q`: both have initial values, no register
    in common, and the merged block does the same as the two, also under reset. -/
example : ∃ a b a' b', Mergeable a b ∧ a.update b = some (a', b') ∧ Apart a.st b.st ∧
    a.st.hasReset ∧ b.st.hasReset ∧ a.st.delayed.length = 2 ∧
    (implementAll [a, b]).length = 2 ∧ (implementAll [a', b']).length = 1 ∧
    ∀ env x, tickAll (implementAll [a', b']) env x = tickAll (implementAll [a, b]) env x := by
  obtain ⟨hm, hs⟩ := exMergeable true ⟨.user "z", 8, false, some 1⟩ (.inl rfl)
  obtain ⟨⟨a', b'⟩, hu⟩ := Option.isSome_iff_exists.1 hs
  have ha : (exObj 0 "p" (exUpdA true)).st.hasReset := by unfold SeqSt.hasReset; decide
  have hb : (exObj 1 "q" (exUpdB ⟨.user "z", 8, false, some 1⟩)).st.hasReset := by
    unfold SeqSt.hasReset; decide
  have hap : Apart (exObj 0 "p" (exUpdA true)).st
      (exObj 1 "q" (exUpdB ⟨.user "z", 8, false, some 1⟩)).st := by unfold Apart; decide
  refine ⟨_, _, a', b', hm, hu, hap, ha, hb, by decide, by decide, ?_, fun env x =>
    c102_same hm hu hap env (.inr ⟨fun _ => hb, fun _ => ha⟩) x⟩
  obtain ⟨-, -, rfl, rfl⟩ := update_eq hu hm.live hm.other
  decide

/-- **C102, the exception happens.**  `p` has `x <= y` with no initial value, `q` has a register
    with one: under reset `x` follows `y` with two blocks, and is frozen after the merge. -/
theorem c102_not_same_witness : ∃ a b a' b', Mergeable a b ∧ a.update b = some (a', b') ∧
    Apart a.st b.st ∧ ∃ env : Env, isReset a.rstE env = true ∧
      tickAll (implementAll [a, b]) env (.user "x") = 7 ∧
      tickAll (implementAll [a', b']) env (.user "x") = 1 := by
  obtain ⟨hm, hs⟩ := exMergeable false ⟨.user "z", 8, false, some 1⟩ (.inl rfl)
  obtain ⟨⟨a', b'⟩, hu⟩ := Option.isSome_iff_exists.1 hs
  refine ⟨_, _, a', b', hm, hu, by unfold Apart; decide,
    fun v => if v = .user "y" then 7 else 1, by decide, by decide, ?_⟩
  obtain ⟨-, -, rfl, rfl⟩ := update_eq hu hm.live hm.other
  decide

/-- Both managers assign `x`: the source wins. -/
example : ∃ a b a' b', Mergeable a b ∧ a.update b = some (a', b') ∧
    ∀ env, isReset a.rstE env = false → (a'.st.always a'.rstE).tick env (.user "x") = 5 := by
  obtain ⟨hm, hs⟩ := exMergeable true ⟨.user "x", 8, false, none⟩ (.inr rfl)
  obtain ⟨⟨a', b'⟩, hu⟩ := Option.isSome_iff_exists.1 hs
  exact ⟨_, _, a', b', hm, hu, fun env hr => (c102_priority hm hu env hr (.user "x")).2 0 5
    (fun d hd => by omega) (.inl rfl)⟩

/-- Two managers of one name, or with different resets, cannot be merged. -/
example : ((exObj 0 "p" (exUpdA true)).update (exObj 1 "p" (exUpdA false))).isNone = true ∧
    ((exObj 0 "p" (exUpdA true)).update { exObj 1 "q" [] with rst := none }).isNone = true ∧
    ((exObj 0 "p" (exUpdA true)).update (exObj 0 "p" (exUpdA true))).isSome = true := by decide

end Hdl
