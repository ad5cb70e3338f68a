import Verif.Lemmas.Hdl
import Verif.Model.Seq

/-! Helper lemmas about the `Seq` builder: how each API call changes the generated code. -/

namespace Hdl
namespace SeqSt

/-! ## Traces of the generated code, by delay -/

/-- Values assigned to `x` by the statements of delay `lo + cnt - 1` down to `lo`. -/
def seg (s : SeqSt) (env : Env) (x : Var) (lo : Nat) : Nat → List Int
  | 0 => []
  | c + 1 => traceL (s.delayedAt (lo + c)) env x ++ seg s env x lo c

/-- Values assigned to `x` by the undelayed statements. -/
def bodyTrace (s : SeqSt) (env : Env) (x : Var) : List Int :=
  traceL (s.body.map Item.code) env x

theorem foldl_max_init (l : List (Nat × Code)) (m : Nat) :
    l.foldl (fun m e => max m e.1) m = max m (l.foldl (fun m e => max m e.1) 0) := by
  induction l generalizing m with
  | nil => simp
  | cons e l ih => simp only [List.foldl_cons]; rw [ih, ih (max 0 e.1)]; omega

theorem le_maxDelay {s : SeqSt} {d : Nat} {c : Code} (h : (d, c) ∈ s.delayed) :
    d ≤ s.maxDelay := by
  unfold maxDelay
  generalize s.delayed = l at h
  induction l with
  | nil => simp at h
  | cons e l ih =>
    simp only [List.foldl_cons]
    rw [foldl_max_init]
    rcases List.mem_cons.1 h with rfl | h
    · simp only [Nat.zero_max]; omega
    · have := ih h; omega

theorem delayedAt_nil {s : SeqSt} {d : Nat} (h : s.maxDelay < d) : s.delayedAt d = [] := by
  unfold delayedAt
  rw [List.filterMap_eq_nil_iff]
  rintro ⟨d', c⟩ hm
  have := le_maxDelay hm
  simp only [ite_eq_right_iff]
  omega

theorem mem_delayedAt {s : SeqSt} {d : Nat} {c : Code} :
    c ∈ s.delayedAt d ↔ (d, c) ∈ s.delayed := by
  unfold delayedAt
  simp only [List.mem_filterMap]
  constructor
  · rintro ⟨⟨d', c'⟩, hm, he⟩
    by_cases h : d' = d
    · simp [h] at he; subst h; subst he; exact hm
    · simp [h] at he
  · intro h; exact ⟨_, h, by simp⟩

theorem seg_stable (s : SeqSt) (env : Env) (x : Var) (N : Nat) (h : s.maxDelay + 1 ≤ N) :
    s.seg env x 0 N = s.seg env x 0 (s.maxDelay + 1) := by
  induction N with
  | zero => omega
  | succ N ih =>
    by_cases h' : s.maxDelay + 1 ≤ N
    · rw [seg, ih h', delayedAt_nil (by omega)]; simp
    · have : s.maxDelay = N := by omega
      rw [this]

theorem seg_eq (s : SeqSt) (env : Env) (x : Var) (N : Nat) :
    s.seg env x 0 N =
      traceL ((List.range N).reverse.flatMap fun d => s.delayedAt d) env x := by
  induction N with
  | zero => rfl
  | succ N ih =>
    rw [List.range_succ, List.reverse_append]
    simp only [List.reverse_cons, List.reverse_nil, List.nil_append, List.singleton_append,
      List.flatMap_cons]
    rw [traceL_append, seg, ih]
    simp

/-- The values assigned to `x` by the whole generated block. -/
theorem trace_makeCode (s : SeqSt) (env : Env) (x : Var) (N : Nat) (h : s.maxDelay + 1 ≤ N) :
    traceL s.makeCode env x = s.seg env x 0 N ++ s.bodyTrace env x := by
  rw [seg_stable s env x N h, seg_eq, makeCode, traceL_append, bodyTrace]

theorem seg_add (s : SeqSt) (env : Env) (x : Var) (lo a b : Nat) :
    s.seg env x lo (a + b) = s.seg env x (lo + a) b ++ s.seg env x lo a := by
  induction b with
  | zero => simp [seg]
  | succ b ih =>
    show traceL (s.delayedAt (lo + (a + b))) env x ++ s.seg env x lo (a + b) = _
    rw [ih, seg, List.append_assoc, Nat.add_assoc]

theorem seg_congr {s s' : SeqSt} {env : Env} {x : Var} {lo : Nat} (cnt : Nat)
    (h : ∀ d, lo ≤ d → d < lo + cnt →
      traceL (s.delayedAt d) env x = traceL (s'.delayedAt d) env x) :
    s.seg env x lo cnt = s'.seg env x lo cnt := by
  induction cnt with
  | zero => rfl
  | succ c ih => rw [seg, seg, h (lo + c) (by omega) (by omega), ih fun d h1 h2 => h d h1 (by omega)]

/-! ## Primitive changes -/

/-- The names of the registers the manager resets. -/
def dstNames (s : SeqSt) : List Var := s.dstVar.map Reg.name

/-- Everything but `dstVar` is untouched by `addDst`. -/
theorem addDst_eq (s : SeqSt) (rs : List Reg) :
    ∃ extra, s.addDst rs = { s with dstVar := s.dstVar ++ extra } ∧
      (∀ r ∈ extra, r ∈ rs ∧ r.name ∉ s.dstNames) ∧
      (extra.map Reg.name).Nodup ∧
      (∀ r ∈ rs, ∃ d ∈ s.dstVar ++ extra, d.name = r.name) ∧
      (∀ r ∈ rs, r.name ∉ s.dstNames → (∀ r' ∈ rs, r'.name = r.name → r' = r) → r ∈ extra) := by
  induction rs generalizing s with
  | nil => exact ⟨[], by simp [addDst], by simp, by simp, by simp, by simp⟩
  | cons r rs ih =>
    by_cases h : s.dstVar.any (fun d => d.name = r.name) = true
    · obtain ⟨extra, h1, h2, h3, h4, h5⟩ := ih s
      refine ⟨extra, by rw [addDst, if_pos h, h1], fun r' hr' => ?_, h3, ?_, ?_⟩
      · exact ⟨by simp [(h2 r' hr').1], (h2 r' hr').2⟩
      · intro r' hr'
        rcases List.mem_cons.1 hr' with rfl | hr'
        · simp only [List.any_eq_true, decide_eq_true_eq] at h
          obtain ⟨d, hd, he⟩ := h
          exact ⟨d, by simp [hd], he⟩
        · exact h4 r' hr'
      · intro r' hr' hn hu
        rcases List.mem_cons.1 hr' with rfl | hr'
        · exfalso
          simp only [List.any_eq_true, decide_eq_true_eq] at h
          obtain ⟨d, hd, he⟩ := h
          exact hn (List.mem_map.2 ⟨d, hd, he⟩)
        · exact h5 r' hr' hn fun q hq => hu q (by simp [hq])
    · obtain ⟨extra, h1, h2, h3, h4, h5⟩ := ih { s with dstVar := s.dstVar ++ [r] }
      have hn : r.name ∉ s.dstNames := by
        intro hm
        obtain ⟨d, hd, he⟩ := List.mem_map.1 hm
        exact h (List.any_eq_true.2 ⟨d, hd, by simpa using he⟩)
      refine ⟨r :: extra, ?_, ?_, ?_, ?_, ?_⟩
      · rw [addDst, if_neg h, h1]; simp
      · intro r' hr'
        rcases List.mem_cons.1 hr' with rfl | hr'
        · exact ⟨by simp, hn⟩
        · obtain ⟨ha, hb⟩ := h2 r' hr'
          exact ⟨by simp [ha], fun hm => hb (by
            simp only [dstNames, List.map_append, List.mem_append]; exact Or.inl hm)⟩
      · simp only [List.map_cons, List.nodup_cons]
        refine ⟨?_, h3⟩
        intro hm
        obtain ⟨q, hq, he⟩ := List.mem_map.1 hm
        exact (h2 q hq).2 (by simp [dstNames, he])
      · intro r' hr'
        rcases List.mem_cons.1 hr' with rfl | hr'
        · exact ⟨r', by simp, rfl⟩
        · obtain ⟨d, hd, he⟩ := h4 r' hr'
          exact ⟨d, by simpa using hd, he⟩
      · intro r' hr' hn' hu
        by_cases he : r.name = r'.name
        · have := hu r (by simp) he
          simp [this]
        · rcases List.mem_cons.1 hr' with rfl | hr'
          · simp
          · refine List.mem_cons_of_mem _ (h5 r' hr' ?_ fun q hq => hu q (by simp [hq]))
            simp only [dstNames, List.map_append, List.mem_append, List.map_cons, List.map_nil,
              List.mem_singleton, not_or]
            exact ⟨hn', fun h => he h.symm⟩

/-- One primitive change of the builder that only adds code whose targets satisfy `ok`. -/
inductive Prim (ok : Reg → Prop) (s : SeqSt) : SeqSt → Prop
  /-- bookkeeping: the code and the reset list stay the same -/
  | book {s'} (hn : s'.name = s.name) (hd : s'.delayed = s.delayed) (hb : s'.body = s.body)
      (hv : s'.dstVar = s.dstVar) : Prim ok s s'
  | body (it : Item) (h : ∀ r ∈ it.code.targets, ok r) : Prim ok s (s.pushBody it)
  | delayed (d : Nat) (c : Code) (hd : 0 < d) (h : ∀ r ∈ c.targets, ok r) :
      Prim ok s (s.pushDelayed d c)
  | elif (i : Nat) (c : Expr) (b : Code) (h : ∀ r ∈ b.targets, ok r) :
      Prim ok s (s.extendElif i c b)
  | els (i : Nat) (b : Code) (h : ∀ r ∈ b.targets, ok r) : Prim ok s (s.extendElse i b)
  | reset (r : Reg) (h : ok r) : Prim ok s (s.addReset r)

/-- A sequence of primitive changes. -/
inductive Grows (ok : Reg → Prop) : SeqSt → SeqSt → Prop
  | refl (s) : Grows ok s s
  | tail {a b c} (h : Grows ok a b) (p : Prim ok b c) : Grows ok a c

theorem Grows.trans {ok : Reg → Prop} {a b c : SeqSt} (h : Grows ok a b) (h' : Grows ok b c) :
    Grows ok a c := by
  induction h' with
  | refl => exact h
  | tail _ p ih => exact .tail ih p

theorem Grows.one {ok : Reg → Prop} {a b : SeqSt} (h : Prim ok a b) : Grows ok a b :=
  .tail (.refl _) h

theorem Prim.mono {ok ok' : Reg → Prop} {a b : SeqSt} (hm : ∀ r, ok r → ok' r)
    (h : Prim ok a b) : Prim ok' a b := by
  cases h with
  | book h1 h2 h3 h4 => exact .book h1 h2 h3 h4
  | body it h => exact .body it fun r hr => hm r (h r hr)
  | delayed d c hd h => exact .delayed d c hd fun r hr => hm r (h r hr)
  | elif i c b h => exact .elif i c b fun r hr => hm r (h r hr)
  | els i b h => exact .els i b fun r hr => hm r (h r hr)
  | reset r h => exact .reset r (hm r h)

theorem Grows.mono {ok ok' : Reg → Prop} {a b : SeqSt} (hm : ∀ r, ok r → ok' r)
    (h : Grows ok a b) : Grows ok' a b := by
  induction h with
  | refl => exact .refl _
  | tail _ p ih => exact .tail ih (p.mono hm)

theorem addDst_fields (s : SeqSt) (rs : List Reg) :
    (s.addDst rs).name = s.name ∧ (s.addDst rs).delayed = s.delayed ∧
    (s.addDst rs).body = s.body ∧ (s.addDst rs).tmpCount = s.tmpCount ∧
    (s.addDst rs).modTmp = s.modTmp ∧ (s.addDst rs).prevDict = s.prevDict ∧
    (s.addDst rs).lastIf = s.lastIf ∧ (s.addDst rs).lastCond = s.lastCond ∧
    (s.addDst rs).next = s.next ∧ (s.addDst rs).nextElse = s.nextElse ∧
    (s.addDst rs).elifCond = s.elifCond ∧ (s.addDst rs).lastDelay = s.lastDelay := by
  obtain ⟨extra, h, -⟩ := addDst_eq s rs
  rw [h]; simp

@[simp] theorem addDst_name (s : SeqSt) (rs) : (s.addDst rs).name = s.name := (addDst_fields s rs).1
@[simp] theorem addDst_delayed (s : SeqSt) (rs) : (s.addDst rs).delayed = s.delayed :=
  (addDst_fields s rs).2.1
@[simp] theorem addDst_body (s : SeqSt) (rs) : (s.addDst rs).body = s.body :=
  (addDst_fields s rs).2.2.1
@[simp] theorem addDst_tmpCount (s : SeqSt) (rs) : (s.addDst rs).tmpCount = s.tmpCount :=
  (addDst_fields s rs).2.2.2.1
@[simp] theorem addDst_modTmp (s : SeqSt) (rs) : (s.addDst rs).modTmp = s.modTmp :=
  (addDst_fields s rs).2.2.2.2.1
@[simp] theorem addDst_prevDict (s : SeqSt) (rs) : (s.addDst rs).prevDict = s.prevDict :=
  (addDst_fields s rs).2.2.2.2.2.1
@[simp] theorem addDst_lastIf (s : SeqSt) (rs) : (s.addDst rs).lastIf = s.lastIf :=
  (addDst_fields s rs).2.2.2.2.2.2.1
@[simp] theorem addDst_lastCond (s : SeqSt) (rs) : (s.addDst rs).lastCond = s.lastCond :=
  (addDst_fields s rs).2.2.2.2.2.2.2.1
@[simp] theorem addDst_next (s : SeqSt) (rs) : (s.addDst rs).next = s.next :=
  (addDst_fields s rs).2.2.2.2.2.2.2.2.1
@[simp] theorem addDst_nextElse (s : SeqSt) (rs) : (s.addDst rs).nextElse = s.nextElse :=
  (addDst_fields s rs).2.2.2.2.2.2.2.2.2.1
@[simp] theorem addDst_elifCond (s : SeqSt) (rs) : (s.addDst rs).elifCond = s.elifCond :=
  (addDst_fields s rs).2.2.2.2.2.2.2.2.2.2.1
@[simp] theorem addDst_lastDelay (s : SeqSt) (rs) : (s.addDst rs).lastDelay = s.lastDelay :=
  (addDst_fields s rs).2.2.2.2.2.2.2.2.2.2.2

theorem delayedAt_congr {s s' : SeqSt} (h : s'.delayed = s.delayed) (d : Nat) :
    s'.delayedAt d = s.delayedAt d := by
  simp [delayedAt, h]

theorem maxDelay_congr {s s' : SeqSt} (h : s'.delayed = s.delayed) :
    s'.maxDelay = s.maxDelay := by
  simp [maxDelay, h]

theorem makeCode_congr {s s' : SeqSt} (h : s'.delayed = s.delayed) (hb : s'.body = s.body) :
    s'.makeCode = s.makeCode := by
  unfold makeCode
  rw [maxDelay_congr h, hb]
  congr 2
  funext d
  exact delayedAt_congr h d

theorem delayedAt_push (s : SeqSt) (d : Nat) (c : Code) (e : Nat) :
    (s.pushDelayed d c).delayedAt e = s.delayedAt e ++ (if d = e then [c] else []) := by
  have h : (s.pushDelayed d c).delayed = s.delayed ++ [(d, c)] := by simp [pushDelayed]
  unfold delayedAt
  rw [h, List.filterMap_append]
  congr 1
  by_cases hd : d = e <;> simp [hd]

theorem maxDelay_push (s : SeqSt) (d : Nat) (c : Code) :
    (s.pushDelayed d c).maxDelay = max s.maxDelay d := by
  have h : (s.pushDelayed d c).delayed = s.delayed ++ [(d, c)] := by simp [pushDelayed]
  unfold maxDelay
  rw [h, List.foldl_append]
  simp

/-- Adding to the body adds at the end. -/
theorem trace_pushBody (s : SeqSt) (it : Item) (env : Env) (x : Var) :
    traceL (s.pushBody it).makeCode env x = traceL s.makeCode env x ++ it.code.trace env x := by
  have hd : (s.pushBody it).delayed = s.delayed := by simp [pushBody]
  have hb : (s.pushBody it).body = s.body ++ [it] := by simp [pushBody]
  rw [trace_makeCode _ env x (s.maxDelay + 1) (Nat.le_of_eq (by rw [maxDelay_congr hd])),
    trace_makeCode s env x (s.maxDelay + 1) (Nat.le_refl _),
    seg_congr (s' := s) _ fun d _ _ => by rw [delayedAt_congr hd]]
  simp [bodyTrace, hb, traceL_append, traceL_cons]

/-- Adding with a delay inserts after all statements of the same or a longer delay. -/
theorem trace_pushDelayed (s : SeqSt) (d : Nat) (c : Code) (env : Env) (x : Var) (N : Nat)
    (hN : max s.maxDelay d < d + N) :
    traceL s.makeCode env x =
      s.seg env x d N ++ (s.seg env x 0 d ++ s.bodyTrace env x) ∧
    traceL (s.pushDelayed d c).makeCode env x =
      s.seg env x d N ++ c.trace env x ++ (s.seg env x 0 d ++ s.bodyTrace env x) := by
  have hb : (s.pushDelayed d c).body = s.body := by simp [pushDelayed]
  have hbt : (s.pushDelayed d c).bodyTrace env x = s.bodyTrace env x := by
    simp [bodyTrace, hb]
  constructor
  · rw [trace_makeCode s env x (d + N) (by omega), seg_add, Nat.zero_add, List.append_assoc]
  · rw [trace_makeCode _ env x (d + N) (by rw [maxDelay_push]; omega), seg_add, Nat.zero_add, hbt]
    have h1 : (s.pushDelayed d c).seg env x 0 d = s.seg env x 0 d :=
      seg_congr _ fun e _ he => by rw [delayedAt_push]; simp [show d ≠ e by omega]
    rw [h1]
    obtain ⟨M, rfl⟩ : ∃ M, N = 1 + M := ⟨N - 1, by omega⟩
    rw [seg_add, seg_add s]
    have h2 : (s.pushDelayed d c).seg env x (d + 1) M = s.seg env x (d + 1) M :=
      seg_congr _ fun e he _ => by rw [delayedAt_push]; simp [show d ≠ e by omega]
    rw [h2]
    have h3 : (s.pushDelayed d c).seg env x d 1 = s.seg env x d 1 ++ c.trace env x := by
      simp [seg, delayedAt_push, traceL_append, traceL_cons]
    rw [h3]; simp

theorem trace_modify (l : List Item) (i : Nat) (f : Item → Item) (env : Env) (x : Var)
    (h : ∀ it, (f it).code.trace env x = it.code.trace env x) :
    traceL ((l.modify i f).map Item.code) env x = traceL (l.map Item.code) env x := by
  induction l generalizing i with
  | nil => cases i <;> simp
  | cons it l ih =>
    cases i with
    | zero => simp [traceL_cons, h]
    | succ i => simp [traceL_cons, ih]

/-- Code whose targets avoid `x` does not change what happens to `x`. -/
theorem Prim.trace {ok : Reg → Prop} {s s' : SeqSt} (p : Prim ok s s') {x : Var}
    (hx : ∀ r, ok r → r.name ≠ x) (env : Env) :
    traceL s'.makeCode env x = traceL s.makeCode env x := by
  cases p with
  | book hn hd hb hv => rw [makeCode_congr hd hb]
  | body it h =>
    rw [trace_pushBody, Code.trace_nil fun r hr => hx r (h r hr)]; simp
  | delayed d c hd h =>
    obtain ⟨h1, h2⟩ := trace_pushDelayed s d c env x (max s.maxDelay d + 1) (by omega)
    rw [h1, h2, Code.trace_nil fun r hr => hx r (h r hr)]; simp
  | elif i c b h =>
    have hb : b.trace env x = [] := Code.trace_nil fun r hr => hx r (h r hr)
    have hd : (s.extendElif i c b).delayed = s.delayed := by simp [extendElif]
    rw [trace_makeCode _ env x (s.maxDelay + 1) (Nat.le_of_eq (by rw [maxDelay_congr hd])),
      trace_makeCode s env x (s.maxDelay + 1) (Nat.le_refl _),
      seg_congr (s' := s) _ fun d _ _ => by rw [delayedAt_congr hd]]
    congr 1
    simp only [bodyTrace, extendElif, addDst_body]
    refine trace_modify _ _ _ _ _ fun it => ?_
    rcases it with _ | ⟨bs, _ | _⟩
    · rfl
    · simp only [Item.code]
      rw [chainCode_trace, chainCode_trace, List.find?_append]
      cases bs.find? (fun b => b.1.truthy env) with
      | some b => simp
      | none => by_cases hc : c.truthy env = true <;> simp [hc, hb]
    · rfl
  | els i b h =>
    have hb : b.trace env x = [] := Code.trace_nil fun r hr => hx r (h r hr)
    have hd : (s.extendElse i b).delayed = s.delayed := by simp [extendElse]
    rw [trace_makeCode _ env x (s.maxDelay + 1) (Nat.le_of_eq (by rw [maxDelay_congr hd])),
      trace_makeCode s env x (s.maxDelay + 1) (Nat.le_refl _),
      seg_congr (s' := s) _ fun d _ _ => by rw [delayedAt_congr hd]]
    congr 1
    simp only [bodyTrace, extendElse, addDst_body]
    refine trace_modify _ _ _ _ _ fun it => ?_
    rcases it with _ | ⟨bs, _ | _⟩
    · rfl
    · simp only [Item.code]
      rw [chainCode_trace, chainCode_trace]
      cases bs.find? (fun b => b.1.truthy env) with
      | some b => simp
      | none => simp [hb]
    · rfl
  | reset r h => rw [makeCode_congr (s := s) (by simp [addReset]) (by simp [addReset])]

theorem Grows.trace {ok : Reg → Prop} {s s' : SeqSt} (g : Grows ok s s') {x : Var}
    (hx : ∀ r, ok r → r.name ≠ x) (env : Env) :
    traceL s'.makeCode env x = traceL s.makeCode env x := by
  induction g with
  | refl => rfl
  | tail _ p ih => rw [p.trace hx, ih]

theorem Prim.name {ok : Reg → Prop} {s s' : SeqSt} (p : Prim ok s s') : s'.name = s.name := by
  cases p <;> simp_all [pushBody, pushDelayed, extendElif, extendElse, addReset]

theorem Grows.name {ok : Reg → Prop} {s s' : SeqSt} (g : Grows ok s s') : s'.name = s.name := by
  induction g with
  | refl => rfl
  | tail _ p ih => rw [p.name, ih]

/-- The reset list only grows, by registers that satisfy `ok`, one per name. -/
theorem Prim.dst {ok : Reg → Prop} {s s' : SeqSt} (p : Prim ok s s') :
    ∃ extra, s'.dstVar = s.dstVar ++ extra ∧ (∀ r ∈ extra, ok r ∧ r.name ∉ s.dstNames) ∧
      (extra.map Reg.name).Nodup := by
  have key : ∀ (a : SeqSt) (rs : List Reg), a.dstVar = s.dstVar → (∀ r ∈ rs, ok r) →
      ∃ extra, (a.addDst rs).dstVar = s.dstVar ++ extra ∧
        (∀ r ∈ extra, ok r ∧ r.name ∉ s.dstNames) ∧ (extra.map Reg.name).Nodup := by
    intro a rs ha hrs
    obtain ⟨extra, h1, h2, h3, -⟩ := addDst_eq a rs
    refine ⟨extra, by rw [h1, ← ha], fun r hr => ⟨hrs r (h2 r hr).1, ?_⟩, h3⟩
    have := (h2 r hr).2
    simpa [dstNames, ha] using this
  cases p with
  | book hn hd hb hv => exact ⟨[], by simp [hv], by simp, by simp⟩
  | body it h => exact key _ _ rfl h
  | delayed d c hd h => exact key _ _ rfl h
  | elif i c b h => exact key _ _ rfl h
  | els i b h => exact key _ _ rfl h
  | reset r h => exact key _ _ rfl (by simpa using h)

theorem Grows.dst {ok : Reg → Prop} {s s' : SeqSt} (g : Grows ok s s') :
    ∃ extra, s'.dstVar = s.dstVar ++ extra ∧ (∀ r ∈ extra, ok r ∧ r.name ∉ s.dstNames) ∧
      (extra.map Reg.name).Nodup := by
  induction g with
  | refl => exact ⟨[], by simp, by simp, by simp⟩
  | tail _ p ih =>
    obtain ⟨e1, h1, h2, h3⟩ := ih
    obtain ⟨e2, k1, k2, k3⟩ := p.dst
    refine ⟨e1 ++ e2, by rw [k1, h1, List.append_assoc], ?_, ?_⟩
    · intro r hr
      rcases List.mem_append.1 hr with hr | hr
      · exact h2 r hr
      · refine ⟨(k2 r hr).1, fun hm => (k2 r hr).2 ?_⟩
        simp only [dstNames, h1, List.map_append, List.mem_append]
        exact Or.inl hm
    · rw [List.map_append, List.nodup_append]
      refine ⟨h3, k3, ?_⟩
      rintro a ha b hb rfl
      obtain ⟨r, hr, he⟩ := List.mem_map.1 hb
      refine (k2 r hr).2 ?_
      simp only [dstNames, h1, List.map_append, List.mem_append]
      exact Or.inr (he ▸ ha)

/-- The statements that are there stay there. -/
theorem Prim.delayed_mem {ok : Reg → Prop} {s s' : SeqSt} (p : Prim ok s s') {e : Nat × Code}
    (h : e ∈ s.delayed) : e ∈ s'.delayed := by
  cases p <;> simp_all [pushBody, pushDelayed, extendElif, extendElse, addReset]

/-- Every assigned register is in the reset list. -/
def Covered (s : SeqSt) : Prop := ∀ c ∈ s.makeCode, ∀ r ∈ c.targets, r.name ∈ s.dstNames

theorem mem_makeCode {s : SeqSt} {c : Code} :
    c ∈ s.makeCode ↔ (∃ d, (d, c) ∈ s.delayed) ∨ ∃ it ∈ s.body, it.code = c := by
  unfold makeCode
  simp only [List.mem_append, List.mem_flatMap, List.mem_reverse, List.mem_range, mem_delayedAt,
    List.mem_map]
  constructor
  · rintro (⟨d, -, h⟩ | h)
    · exact Or.inl ⟨d, h⟩
    · exact Or.inr h
  · rintro (⟨d, h⟩ | h)
    · exact Or.inl ⟨d, by have := le_maxDelay h; omega, h⟩
    · exact Or.inr h

theorem mem_dstNames_addDst (s : SeqSt) (rs : List Reg) (v : Var) :
    v ∈ (s.addDst rs).dstNames ↔ v ∈ s.dstNames ∨ ∃ r ∈ rs, r.name = v := by
  obtain ⟨extra, h1, h2, -, h4, -⟩ := addDst_eq s rs
  rw [h1]
  constructor
  · intro h
    simp only [dstNames, List.map_append, List.mem_append] at h
    rcases h with h | h
    · exact Or.inl h
    · obtain ⟨r, hr, he⟩ := List.mem_map.1 h
      exact Or.inr ⟨r, (h2 r hr).1, he⟩
  · rintro (h | ⟨r, hr, he⟩)
    · simp only [dstNames, List.map_append, List.mem_append]; exact Or.inl h
    · obtain ⟨d, hd, hde⟩ := h4 r hr
      exact List.mem_map.2 ⟨d, hd, by rw [hde, he]⟩

theorem Prim.covered {ok : Reg → Prop} {s s' : SeqSt} (p : Prim ok s s') (hc : s.Covered) :
    s'.Covered := by
  cases p with
  | book hn hd hb hv =>
    intro c hm r hr
    rw [makeCode_congr hd hb] at hm
    have := hc c hm r hr
    simpa [dstNames, hv] using this
  | body it h =>
    intro c hm r hr
    simp only [pushBody, mem_dstNames_addDst]
    rcases mem_makeCode.1 hm with ⟨d, hm⟩ | ⟨it', hm, he⟩
    · left
      exact hc c (mem_makeCode.2 (Or.inl ⟨d, by simpa [pushBody] using hm⟩)) r hr
    · have hm : it' ∈ s.body ++ [it] := by simpa [pushBody] using hm
      rcases List.mem_append.1 hm with hm | hm
      · left; exact hc c (mem_makeCode.2 (Or.inr ⟨it', hm, he⟩)) r hr
      · right
        rw [List.mem_singleton] at hm
        subst hm
        subst he
        exact ⟨r, hr, rfl⟩
  | delayed d c' hd h =>
    intro c hm r hr
    simp only [pushDelayed, mem_dstNames_addDst]
    rcases mem_makeCode.1 hm with ⟨e, hm⟩ | ⟨it', hm, he⟩
    · have hm : (e, c) ∈ s.delayed ++ [(d, c')] := by simpa [pushDelayed] using hm
      rcases List.mem_append.1 hm with hm | hm
      · left; exact hc c (mem_makeCode.2 (Or.inl ⟨e, hm⟩)) r hr
      · right
        rw [List.mem_singleton] at hm
        obtain ⟨rfl, rfl⟩ := Prod.mk.inj hm
        exact ⟨r, hr, rfl⟩
    · left
      exact hc c (mem_makeCode.2 (Or.inr ⟨it', by simpa [pushDelayed] using hm, he⟩)) r hr
  | elif i cnd b h =>
    intro c hm r hr
    simp only [extendElif, mem_dstNames_addDst]
    rcases mem_makeCode.1 hm with ⟨d, hm⟩ | ⟨it', hm, he⟩
    · left
      exact hc c (mem_makeCode.2 (Or.inl ⟨d, by simpa [extendElif] using hm⟩)) r hr
    · simp only [extendElif, addDst_body] at hm
      obtain ⟨j, hj⟩ := List.mem_iff_getElem?.1 hm
      rw [List.getElem?_modify] at hj
      by_cases hij : i = j
      · simp only [hij, if_true, Option.map_eq_map] at hj
        obtain ⟨it, hit, hf⟩ := Option.map_eq_some_iff.1 hj
        have hin := List.mem_of_getElem? hit
        rcases it with _ | ⟨bs, _ | _⟩
        · left; exact hc c (mem_makeCode.2 (Or.inr ⟨_, hin, by rw [← he, ← hf]⟩)) r hr
        · rw [← he, ← hf] at hr
          simp only [Item.code, chainCode_targets, List.flatMap_append, List.mem_append] at hr
          rcases hr with (hr | hr) | hr
          · left
            refine hc _ (mem_makeCode.2 (Or.inr ⟨_, hin, rfl⟩)) r ?_
            simp only [Item.code, chainCode_targets, List.mem_append]
            exact Or.inl hr
          · right; exact ⟨r, by simpa using hr, rfl⟩
          · simp at hr
        · left; exact hc c (mem_makeCode.2 (Or.inr ⟨_, hin, by rw [← he, ← hf]⟩)) r hr
      · simp only [hij, if_false, Option.map_eq_map] at hj
        left
        have hj' : s.body[j]? = some it' := by simpa using hj
        exact hc c (mem_makeCode.2 (Or.inr ⟨_, List.mem_of_getElem? hj', he⟩)) r hr
  | els i b h =>
    intro c hm r hr
    simp only [extendElse, mem_dstNames_addDst]
    rcases mem_makeCode.1 hm with ⟨d, hm⟩ | ⟨it', hm, he⟩
    · left
      exact hc c (mem_makeCode.2 (Or.inl ⟨d, by simpa [extendElse] using hm⟩)) r hr
    · simp only [extendElse, addDst_body] at hm
      obtain ⟨j, hj⟩ := List.mem_iff_getElem?.1 hm
      rw [List.getElem?_modify] at hj
      by_cases hij : i = j
      · simp only [hij, if_true, Option.map_eq_map] at hj
        obtain ⟨it, hit, hf⟩ := Option.map_eq_some_iff.1 hj
        have hin := List.mem_of_getElem? hit
        rcases it with _ | ⟨bs, _ | _⟩
        · left; exact hc c (mem_makeCode.2 (Or.inr ⟨_, hin, by rw [← he, ← hf]⟩)) r hr
        · rw [← he, ← hf] at hr
          simp only [Item.code, chainCode_targets, List.mem_append] at hr
          rcases hr with hr | hr
          · left
            refine hc _ (mem_makeCode.2 (Or.inr ⟨_, hin, rfl⟩)) r ?_
            simp only [Item.code, chainCode_targets, List.mem_append]
            exact Or.inl hr
          · right; exact ⟨r, by simpa using hr, rfl⟩
        · left; exact hc c (mem_makeCode.2 (Or.inr ⟨_, hin, by rw [← he, ← hf]⟩)) r hr
      · simp only [hij, if_false, Option.map_eq_map] at hj
        left
        have hj' : s.body[j]? = some it' := by simpa using hj
        exact hc c (mem_makeCode.2 (Or.inr ⟨_, List.mem_of_getElem? hj', he⟩)) r hr
  | reset r h =>
    intro c hm r hr
    simp only [addReset, mem_dstNames_addDst]
    left
    refine hc c ?_ r hr
    rwa [makeCode_congr (s := s) (by simp [addReset]) (by simp [addReset])] at hm

theorem Grows.covered {ok : Reg → Prop} {s s' : SeqSt} (g : Grows ok s s') (hc : s.Covered) :
    s'.Covered := by
  induction g with
  | refl => exact hc
  | tail _ p ih => exact p.covered ih

theorem Grows.delayed_mem {ok : Reg → Prop} {s s' : SeqSt} (g : Grows ok s s') {e : Nat × Code}
    (h : e ∈ s.delayed) : e ∈ s'.delayed := by
  induction g with
  | refl => exact h
  | tail _ p ih => exact p.delayed_mem ih

end SeqSt
end Hdl
