import Verif.Lemmas.Fsm

/-! Invariants of the `FSM` builder over arbitrary sequences of API calls. -/

namespace Hdl

/-- Names generated by the FSM `own` itself. -/
def Var.ownGen (own : String) : Var → Bool
  | .cond o _ _ => o = own
  | .sbst o _ _ => o = own
  | .state o => o = own
  | .dstate o _ => o = own
  | _ => false

/-- Names generated by the FSM `own` or by its parallel `Seq`. -/
def Var.fgenBy (own : String) (v : Var) : Bool := v.ownGen own || v.genBy (own ++ "_par")

/-- The user's statements assign only registers the FSM did not generate itself. -/
def FsmOp.Ok (own : String) : FsmOp → Prop
  | .add stmts => ∀ c ∈ stmts, ∀ r ∈ c.targets, r.name.fgenBy own = false
  | .par op => op.Ok (own ++ "_par") ∧ ∀ x, x.ownGen own = true → ¬ op.mentions x
  | _ => True

theorem append_par_ne (own : String) : own ++ "_par" ≠ own := by
  intro h
  have := congrArg String.length h
  simp [String.length_append] at this

theorem Var.not_both (own : String) (v : Var) (h : v.ownGen own = true) :
    v.genBy (own ++ "_par") = false := by
  have hne : ¬ own = own ++ "_par" := fun h => append_par_ne own h.symm
  cases v <;> simp_all [Var.ownGen, Var.genBy]

namespace FsmSt

/-- Names in the reset list of the FSM proper. -/
def dstNames (s : FsmSt) : List Var := s.dstVar.map Reg.name

/-- Every register assigned in some state is in the reset list. -/
def Covered (s : FsmSt) : Prop := ∀ e ∈ s.code, ∀ r ∈ e.2.code.targets, r.name ∈ s.dstNames

/-- There is a delayed state register for every delay in use. -/
def Bound (s : FsmSt) : Prop := ∀ e ∈ s.code, e.1.1 ≤ s.delayAmount

/-- `last_if_statement` refers to an `If` object without else branch. -/
def LastIfOk (s : FsmSt) : Prop :=
  ∀ i, s.lastIf = some i → ∃ k bs, s.code[i]? = some (k, .chain bs none)

/-- `x` is assigned by some statement. -/
def Drives (s : FsmSt) (x : Var) : Prop := ∃ e ∈ s.code, ∃ r ∈ e.2.code.targets, r.name = x

theorem addDst_eq (s : FsmSt) (rs : List Reg) :
    ∃ extra, s.addDst rs = { s with dstVar := s.dstVar ++ extra } ∧
      (∀ r ∈ extra, r ∈ rs ∧ r.name ∉ s.dstNames) ∧
      (extra.map Reg.name).Nodup ∧
      (∀ r ∈ rs, ∃ d ∈ s.dstVar ++ extra, d.name = r.name) ∧
      (∀ r ∈ rs, r.name ∉ s.dstNames → (∀ r' ∈ rs, r'.name = r.name → r' = r) → r ∈ extra) := by
  -- same function as for `Seq`
  have tr : ∀ (rs : List Reg) (s : FsmSt) (q : SeqSt), q.dstVar = s.dstVar →
      s.addDst rs = { s with dstVar := (q.addDst rs).dstVar } := by
    intro rs
    induction rs with
    | nil => intro s q h; simp [addDst, SeqSt.addDst, h]
    | cons r rs ih =>
      intro s q h
      rw [addDst, SeqSt.addDst, h]
      by_cases hc : s.dstVar.any (fun d => d.name = r.name) = true
      · rw [if_pos hc, if_pos hc]; exact ih s q h
      · rw [if_neg hc, if_neg hc]
        exact ih { s with dstVar := s.dstVar ++ [r] } { q with dstVar := s.dstVar ++ [r] } rfl
  obtain ⟨extra, h1, h2, h3, h4, h5⟩ := SeqSt.addDst_eq { name := "", dstVar := s.dstVar } rs
  refine ⟨extra, ?_, h2, h3, h4, h5⟩
  rw [tr rs s { name := "", dstVar := s.dstVar } rfl, h1]

/-- A change of the FSM proper that adds code for registers satisfying `ok` only. -/
structure Step (ok : Reg → Prop) (s s' : FsmSt) : Prop where
  name : s'.name = s.name
  width : s'.width = s.width
  seq : s'.seq = s.seq
  key : ∀ x, (∀ r, ok r → r.name ≠ x) → ∀ d i env, s'.keyTrace d i env x = s.keyTrace d i env x
  dst : ∃ extra, s'.dstVar = s.dstVar ++ extra ∧ (∀ r ∈ extra, ok r ∧ r.name ∉ s.dstNames) ∧
    (extra.map Reg.name).Nodup
  covered : s.Covered → s'.Covered
  bound : s.Bound → s'.Bound
  lastIf : s.LastIfOk → s'.LastIfOk
  tmp : s.tmpCount ≤ s'.tmpCount
  delay : s.delayAmount ≤ s'.delayAmount
  drives : ∀ x, s.Drives x → s'.Drives x

theorem Step.refl (ok) (s : FsmSt) : Step ok s s :=
  ⟨rfl, rfl, rfl, fun _ _ _ _ _ => rfl, ⟨[], by simp, by simp, by simp⟩, id, id, id,
    Nat.le_refl _, Nat.le_refl _, fun _ => id⟩

theorem Step.mono {ok ok' : Reg → Prop} {a b : FsmSt} (hm : ∀ r, ok r → ok' r) (h : Step ok a b) :
    Step ok' a b := by
  obtain ⟨e, h1, h2, h3⟩ := h.dst
  exact ⟨h.name, h.width, h.seq, fun x hx => h.key x fun r hr => hx r (hm r hr),
    ⟨e, h1, fun r hr => ⟨hm r (h2 r hr).1, (h2 r hr).2⟩, h3⟩, h.covered, h.bound, h.lastIf, h.tmp,
    h.delay, h.drives⟩

theorem Step.trans {ok} {a b c : FsmSt} (h : Step ok a b) (k : Step ok b c) : Step ok a c := by
  obtain ⟨e1, h1, h2, h3⟩ := h.dst
  obtain ⟨e2, k1, k2, k3⟩ := k.dst
  refine ⟨k.name.trans h.name, k.width.trans h.width, k.seq.trans h.seq,
    fun x hx d i env => (k.key x hx d i env).trans (h.key x hx d i env),
    ⟨e1 ++ e2, by rw [k1, h1, List.append_assoc], ?_, ?_⟩, k.covered ∘ h.covered,
    k.bound ∘ h.bound, k.lastIf ∘ h.lastIf, Nat.le_trans h.tmp k.tmp,
    Nat.le_trans h.delay k.delay, fun x hx => k.drives x (h.drives x hx)⟩
  · intro r hr
    rcases List.mem_append.1 hr with hr | hr
    · exact h2 r hr
    · refine ⟨(k2 r hr).1, fun hm => (k2 r hr).2 ?_⟩
      simp only [dstNames, h1, List.map_append, List.mem_append]
      exact Or.inl hm
  · rw [List.map_append, List.nodup_append]
    refine ⟨h3, k3, ?_⟩
    rintro a ha b hb rfl
    obtain ⟨r, hr, he⟩ := List.mem_map.1 hb
    refine (k2 r hr).2 ?_
    simp only [dstNames, h1, List.map_append, List.mem_append, he]
    exact Or.inr ha

/-- Changes that leave code, reset list and parallel code alone. -/
theorem Step.book {ok} {s s' : FsmSt} (hn : s'.name = s.name) (hw : s'.width = s.width)
    (hs : s'.seq = s.seq) (hc : s'.code = s.code) (hv : s'.dstVar = s.dstVar)
    (hd : s'.delayAmount = s.delayAmount) (ht : s.tmpCount ≤ s'.tmpCount)
    (hl : s'.lastIf = s.lastIf ∨ s'.lastIf = none) : Step ok s s' := by
  refine ⟨hn, hw, hs, fun x _ d i env => ?_, ⟨[], by simp [hv], by simp, by simp⟩, ?_, ?_, ?_, ht,
    Nat.le_of_eq hd.symm, ?_⟩
  · simp [keyTrace, at', hc]
  · intro h; simpa [Covered, dstNames, hc, hv] using h
  · intro h; simpa [Bound, hc, hd] using h
  · intro h i hi
    rcases hl with hl | hl
    · rw [hc]; exact h i (hl ▸ hi)
    · rw [hl] at hi; simp at hi
  · intro x h; simpa [Drives, hc] using h

/-- Appending one entry. -/
theorem keyTrace_push (s : FsmSt) (d i : Nat) (it : Item) (d' i' : Nat) (env : Env) (x : Var) :
    (s.push d i it).keyTrace d' i' env x = s.keyTrace d' i' env x ++
      if (d, i) = (d', i') then it.code.trace env x else [] := by
  obtain ⟨extra, h1, -⟩ := addDst_eq
    { s with code := s.code ++ [((d, i), it)], delayAmount := max s.delayAmount d } it.code.targets
  unfold keyTrace at' push
  rw [h1]
  simp only [List.filterMap_append, traceL_append]
  congr 1
  by_cases h : (d, i) = (d', i')
  · simp [h, traceL_cons]
  · simp [h]

theorem push_fields (s : FsmSt) (d i : Nat) (it : Item) :
    (s.push d i it).name = s.name ∧ (s.push d i it).width = s.width ∧
    (s.push d i it).seq = s.seq ∧ (s.push d i it).code = s.code ++ [((d, i), it)] ∧
    (s.push d i it).delayAmount = max s.delayAmount d ∧
    (s.push d i it).tmpCount = s.tmpCount ∧ (s.push d i it).lastIf = s.lastIf ∧
    (s.push d i it).cur = s.cur ∧ (s.push d i it).jumps = s.jumps := by
  obtain ⟨extra, h1, -⟩ := addDst_eq
    { s with code := s.code ++ [((d, i), it)], delayAmount := max s.delayAmount d } it.code.targets
  unfold push
  rw [h1]
  simp

theorem Step.push {ok} (s : FsmSt) (d i : Nat) (it : Item) (h : ∀ r ∈ it.code.targets, ok r) :
    Step ok s (s.push d i it) := by
  obtain ⟨f1, f2, f3, f4, f5, f6, f7, f8, f9⟩ := push_fields s d i it
  obtain ⟨extra, h1, h2, h3, h4, h5⟩ := addDst_eq
    { s with code := s.code ++ [((d, i), it)], delayAmount := max s.delayAmount d } it.code.targets
  have hdst : (s.push d i it).dstVar = s.dstVar ++ extra := by unfold FsmSt.push; rw [h1]
  refine ⟨f1, f2, f3, ?_, ⟨extra, hdst, fun r hr => ⟨h r (h2 r hr).1, (h2 r hr).2⟩, h3⟩, ?_, ?_, ?_,
    Nat.le_of_eq f6.symm, by omega, ?_⟩
  · intro x hx d' i' env
    rw [keyTrace_push]
    split
    · rw [Code.trace_nil fun r hr => hx r (h r hr)]; simp
    · simp
  · intro hc e he r hr
    rw [f4] at he
    simp only [dstNames, hdst, List.map_append, List.mem_append]
    rcases List.mem_append.1 he with he | he
    · exact Or.inl (hc e he r hr)
    · rw [List.mem_singleton] at he
      subst he
      obtain ⟨q, hq, hqe⟩ := h4 r hr
      rw [← hqe]
      rcases List.mem_append.1 hq with hq | hq
      · exact Or.inl (List.mem_map_of_mem hq)
      · exact Or.inr (List.mem_map_of_mem hq)
  · intro hb e he
    rw [f4] at he
    rw [f5]
    rcases List.mem_append.1 he with he | he
    · have := hb e he; omega
    · rw [List.mem_singleton] at he
      subst he
      simp only
      omega
  · intro hl j hj
    rw [f7] at hj
    obtain ⟨k, bs, hb⟩ := hl j hj
    refine ⟨k, bs, ?_⟩
    rw [f4, List.getElem?_append_left (by
      rcases Nat.lt_or_ge j s.code.length with h | h
      · exact h
      · rw [List.getElem?_eq_none h] at hb; simp at hb), hb]
  · rintro x ⟨e, he, hx⟩
    exact ⟨e, by rw [f4]; exact List.mem_append_left _ he, hx⟩

/-- The branch-adding changes of an `If` object. -/
def extFn (f : List (Expr × Code) → Item) : (Nat × Nat) × Item → (Nat × Nat) × Item
  | (k, .chain bs none) => (k, f bs)
  | e => e

/-- The `If` object at position `i` changed by `f`. -/
def extAt (s : FsmSt) (i : Nat) (f : List (Expr × Code) → Item) : FsmSt :=
  { s with code := s.code.modify i (extFn f) }

theorem keyTrace_modify (l : List ((Nat × Nat) × Item)) (i : Nat)
    (f : (Nat × Nat) × Item → (Nat × Nat) × Item) (env : Env) (x : Var) (k : Nat × Nat)
    (h1 : ∀ e, (f e).1 = e.1) (h2 : ∀ e, (f e).2.code.trace env x = e.2.code.trace env x) :
    traceL ((l.modify i f).filterMap fun e => if e.1 = k then some e.2.code else none) env x =
    traceL (l.filterMap fun e => if e.1 = k then some e.2.code else none) env x := by
  induction l generalizing i with
  | nil => cases i <;> simp
  | cons e l ih =>
    cases i with
    | zero =>
      simp only [List.modify_zero_cons, List.filterMap_cons, h1]
      by_cases h : e.1 = k <;> simp [h, traceL_cons, h2]
    | succ i =>
      simp only [List.modify_succ_cons, List.filterMap_cons]
      by_cases h : e.1 = k <;> simp [h, traceL_cons, ih i]

theorem mem_modify {α} {l : List α} {i : Nat} {f : α → α} {a : α} (h : a ∈ l.modify i f) :
    a ∈ l ∨ ∃ b ∈ l, a = f b := by
  induction l generalizing i with
  | nil => cases i <;> simp at h
  | cons e l ih =>
    cases i with
    | zero =>
      simp only [List.modify_zero_cons, List.mem_cons] at h
      rcases h with h | h
      · exact Or.inr ⟨e, by simp, h⟩
      · exact Or.inl (by simp [h])
    | succ i =>
      simp only [List.modify_succ_cons, List.mem_cons] at h
      rcases h with h | h
      · exact Or.inl (by simp [h])
      · rcases ih h with h | ⟨b, hb, h⟩
        · exact Or.inl (by simp [h])
        · exact Or.inr ⟨b, by simp [hb], h⟩

theorem modify_mem {α} {l : List α} {i : Nat} {f : α → α} {a : α} (h : a ∈ l) :
    a ∈ l.modify i f ∨ f a ∈ l.modify i f := by
  induction l generalizing i with
  | nil => simp at h
  | cons e l ih =>
    cases i with
    | zero =>
      simp only [List.modify_zero_cons, List.mem_cons] at h ⊢
      rcases h with rfl | h
      · exact Or.inr (Or.inl rfl)
      · exact Or.inl (Or.inr h)
    | succ i =>
      simp only [List.modify_succ_cons, List.mem_cons] at h ⊢
      rcases h with rfl | h
      · exact Or.inl (Or.inl rfl)
      · rcases ih (i := i) h with h | h
        · exact Or.inl (Or.inr h)
        · exact Or.inr (Or.inr h)

/-- Extending an `If` object by a branch `b`. -/
theorem Step.ext {ok} (s : FsmSt) (i : Nat) (f : List (Expr × Code) → Item) (b : Code)
    (h : ∀ r ∈ b.targets, ok r)
    (hf : ∀ bs r, r ∈ (f bs).code.targets ↔ r ∈ (Item.chain bs none).code.targets ∨ r ∈ b.targets)
    (ht : ∀ bs env x, (∀ r ∈ b.targets, r.name ≠ x) →
      (f bs).code.trace env x = (Item.chain bs none).code.trace env x)
    {s' : FsmSt} (hs : s' = addDst (s.extAt i f) b.targets)
    (hl : s.LastIfOk → s'.LastIfOk) : Step ok s s' := by
  obtain ⟨extra, h1, h2, h3, h4, h5⟩ := addDst_eq (s.extAt i f) b.targets
  rw [h1] at hs
  have e1 : ∀ e, (extFn f e).1 = e.1 := by
    intro e
    unfold extFn
    split <;> rfl
  have e2 : ∀ e r, r ∈ (extFn f e).2.code.targets → r ∈ e.2.code.targets ∨ r ∈ b.targets := by
    intro e r hr
    unfold extFn at hr
    split at hr
    · exact (hf _ r).1 hr
    · exact Or.inl hr
  have e3 : ∀ e r, r ∈ e.2.code.targets → r ∈ (extFn f e).2.code.targets := by
    intro e r hr
    unfold extFn
    split
    · exact (hf _ r).2 (Or.inl hr)
    · exact hr
  subst hs
  refine ⟨rfl, rfl, rfl, ?_, ⟨extra, rfl, fun r hr => ⟨h r (h2 r hr).1, (h2 r hr).2⟩, h3⟩, ?_, ?_,
    hl, Nat.le_refl _, Nat.le_refl _, ?_⟩
  · intro x hx d' i' env
    refine keyTrace_modify _ _ _ _ _ _ e1 ?_
    intro e
    unfold extFn
    split
    · exact ht _ env x fun r hr => hx r (h r hr)
    · rfl
  · intro hc e he r hr
    simp only [dstNames, List.map_append, List.mem_append]
    have key : r ∈ b.targets → r.name ∈ s.dstVar.map Reg.name ∨ r.name ∈ extra.map Reg.name := by
      intro hr
      obtain ⟨q, hq, hqe⟩ := h4 r hr
      rw [← hqe]
      rcases List.mem_append.1 hq with hq | hq
      · exact Or.inl (List.mem_map_of_mem hq)
      · exact Or.inr (List.mem_map_of_mem hq)
    rcases mem_modify he with he | ⟨e', he', rfl⟩
    · exact Or.inl (hc e he r hr)
    · rcases e2 e' r hr with hr | hr
      · exact Or.inl (hc e' he' r hr)
      · exact key hr
  · intro hb e he
    rcases mem_modify he with he | ⟨e', he', rfl⟩
    · exact hb e he
    · rw [e1]; exact hb e' he'
  · rintro x ⟨e, he, r, hr, hx⟩
    rcases modify_mem (i := i) (f := extFn f) he with he | he
    · exact ⟨e, he, r, hr, hx⟩
    · exact ⟨_, he, r, e3 e r hr, hx⟩

theorem elif_form (s : FsmSt) (i : Nat) (c : Expr) (b : Code) :
    s.extendElif i c b = addDst (s.extAt i fun bs => .chain (bs ++ [(c, b)]) none) b.targets := by
  have : (fun e : (Nat × Nat) × Item => match e with
      | (k, .chain bs none) => (k, Item.chain (bs ++ [(c, b)]) none)
      | e => e) = extFn fun bs => .chain (bs ++ [(c, b)]) none := by
    funext e
    unfold extFn
    split <;> rfl
  unfold extAt
  rw [← this]
  rfl

theorem else_form (s : FsmSt) (i : Nat) (b : Code) :
    s.extendElse i b = addDst (s.extAt i fun bs => .chain bs (some b)) b.targets := by
  have : (fun e : (Nat × Nat) × Item => match e with
      | (k, .chain bs none) => (k, Item.chain bs (some b))
      | e => e) = extFn fun bs => .chain bs (some b) := by
    funext e
    unfold extFn
    split <;> rfl
  unfold extAt
  rw [← this]
  rfl

theorem chain_elif_trace (bs : List (Expr × Code)) (c : Expr) (b : Code) (env : Env) (x : Var)
    (h : ∀ r ∈ b.targets, r.name ≠ x) :
    (Item.chain (bs ++ [(c, b)]) none).code.trace env x = (Item.chain bs none).code.trace env x := by
  simp only [Item.code, chainCode_trace, List.find?_append]
  cases bs.find? (fun b => b.1.truthy env) with
  | some q => simp
  | none =>
    by_cases hc : c.truthy env = true
    · simp [hc, Code.trace_nil h]
    · simp [hc]

theorem chain_else_trace (bs : List (Expr × Code)) (b : Code) (env : Env) (x : Var)
    (h : ∀ r ∈ b.targets, r.name ≠ x) :
    (Item.chain bs (some b)).code.trace env x = (Item.chain bs none).code.trace env x := by
  simp only [Item.code, chainCode_trace]
  cases bs.find? (fun b => b.1.truthy env) with
  | some q => simp
  | none => simp [Code.trace_nil h]

theorem Step.elif {ok} (s : FsmSt) (i : Nat) (c : Expr) (b : Code) (h : ∀ r ∈ b.targets, ok r)
    (hl : s.lastIf = some i) : Step ok s (s.extendElif i c b) := by
  refine .ext s i _ b h ?_ (fun bs env x hx => chain_elif_trace bs c b env x hx)
    (elif_form s i c b) ?_
  · intro bs r
    simp [Item.code, chainCode_targets]
  · intro hL j hj
    rw [elif_form] at hj ⊢
    obtain ⟨extra, h1, -⟩ := addDst_eq (s.extAt i fun bs => .chain (bs ++ [(c, b)]) none) b.targets
    rw [h1] at hj ⊢
    have hj' : s.lastIf = some j := hj
    have : i = j := by rw [hl] at hj'; simpa using hj'
    subst this
    obtain ⟨k, bs, hb⟩ := hL i hl
    refine ⟨k, bs ++ [(c, b)], ?_⟩
    simp only [extAt, List.getElem?_modify, hb]
    simp [extFn]

theorem Step.els {ok} (s : FsmSt) (i : Nat) (b : Code) (h : ∀ r ∈ b.targets, ok r) :
    Step ok s { s.extendElse i b with lastIf := none } := by
  have h1 : ∀ t : FsmSt, t.lastIf = none → t.LastIfOk := by
    intro t ht j hj
    rw [ht] at hj
    simp at hj
  have hs : Step ok { s with lastIf := none } ({ s with lastIf := none }.extendElse i b) := by
    refine .ext _ i _ b h ?_ (fun bs env x hx => chain_else_trace bs b env x hx)
      (else_form _ i b) ?_
    · intro bs r
      simp [Item.code, chainCode_targets]
    · intro _
      refine h1 _ ?_
      rw [else_form]
      obtain ⟨extra, e, -⟩ := addDst_eq (({ s with lastIf := none } : FsmSt).extAt i
        fun bs => .chain bs (some b)) b.targets
      rw [e]
      rfl
  have he : ({ s with lastIf := none } : FsmSt).extendElse i b =
      { s.extendElse i b with lastIf := none } := by
    rw [else_form, else_form]
    have : ∀ (rs : List Reg) (t : FsmSt), addDst { t with lastIf := none } rs =
        { addDst t rs with lastIf := none } := by
      intro rs
      induction rs with
      | nil => intro t; rfl
      | cons r rs ih =>
        intro t
        rw [addDst, addDst]
        by_cases hc : t.dstVar.any (fun d => d.name = r.name) = true
        · rw [if_pos hc, if_pos hc]; exact ih t
        · rw [if_neg hc, if_neg hc]; exact ih { t with dstVar := t.dstVar ++ [r] }
    exact this b.targets (s.extAt i fun bs => .chain bs (some b))
  rw [← he]
  exact Step.trans (b := { s with lastIf := none })
    (.book rfl rfl rfl rfl rfl rfl (Nat.le_refl _) (Or.inr rfl)) hs

/-! ## The invariant -/

/-- Names in use are the user's or counted. -/
def GenOk (s : FsmSt) (v : Var) : Prop :=
  v.fgenBy s.name = false ∨
    ∃ k i, k < s.tmpCount ∧ (v = .cond s.name k i ∨ v = .sbst s.name k i)

/-- Invariant of every reachable builder state. -/
structure Inv (s : FsmSt) : Prop where
  covered : s.Covered
  nodup : s.dstNames.Nodup
  gen : ∀ v ∈ s.dstNames, s.GenOk v
  bound : s.Bound
  lastIf : s.LastIfOk
  seqInv : s.seq.Inv
  seqName : s.seq.name = s.name ++ "_par"
  seqNames : ∀ v ∈ s.seq.dstNames, v.ownGen s.name = false

theorem GenOk.mono {s s' : FsmSt} (hn : s'.name = s.name) (ht : s.tmpCount ≤ s'.tmpCount) {v : Var}
    (h : s.GenOk v) : s'.GenOk v := by
  unfold GenOk
  rw [hn]
  rcases h with h | ⟨k, i, hk, h⟩
  · exact Or.inl h
  · exact Or.inr ⟨k, i, by omega, h⟩

theorem Inv.step {ok} {s s' : FsmSt} (hi : s.Inv) (h : Step ok s s')
    (hok : ∀ r, ok r → s'.GenOk r.name) : s'.Inv := by
  obtain ⟨extra, h1, h2, h3⟩ := h.dst
  refine ⟨h.covered hi.covered, ?_, ?_, h.bound hi.bound, h.lastIf hi.lastIf, by rw [h.seq]; exact hi.seqInv,
    by rw [h.seq, h.name]; exact hi.seqName, by rw [h.seq, h.name]; exact hi.seqNames⟩
  · simp only [dstNames, h1, List.map_append]
    rw [List.nodup_append]
    refine ⟨hi.nodup, h3, ?_⟩
    rintro a ha b hb rfl
    obtain ⟨r, hr, he⟩ := List.mem_map.1 hb
    exact (h2 r hr).2 (he ▸ ha)
  · intro v hv
    simp only [dstNames, h1, List.map_append, List.mem_append] at hv
    rcases hv with hv | hv
    · exact (hi.gen v hv).mono h.name h.tmp
    · obtain ⟨r, hr, he⟩ := List.mem_map.1 hv
      exact he ▸ hok r (h2 r hr).1

/-- What every API call does: it preserves the invariant, lets counters only grow, and never changes
    the code of a generated register that already exists. -/
structure Good (s s' : FsmSt) : Prop where
  inv : s'.Inv
  name : s'.name = s.name
  width : s'.width = s.width
  key : ∀ x ∈ s.dstNames, x.ownGen s.name = true → ∀ d i env,
    s'.keyTrace d i env x = s.keyTrace d i env x
  dst : ∀ r ∈ s.dstVar, r ∈ s'.dstVar
  delay : s.delayAmount ≤ s'.delayAmount
  drives : ∀ x, s.Drives x → s'.Drives x

theorem Good.refl {s : FsmSt} (h : s.Inv) : Good s s :=
  ⟨h, rfl, rfl, fun _ _ _ _ _ _ => rfl, fun _ => id, Nat.le_refl _, fun _ => id⟩

theorem Good.trans {a b c : FsmSt} (h : Good a b) (k : Good b c) : Good a c := by
  refine ⟨k.inv, k.name.trans h.name, k.width.trans h.width, ?_, fun r hr => k.dst r (h.dst r hr),
    Nat.le_trans h.delay k.delay, fun x hx => k.drives x (h.drives x hx)⟩
  intro x hx hg d i env
  have hx' : x ∈ b.dstNames := by
    obtain ⟨r, hr, he⟩ := List.mem_map.1 hx
    exact List.mem_map.2 ⟨r, h.dst r hr, he⟩
  rw [k.key x hx' (by rw [h.name]; exact hg), h.key x hx hg]

/-- Registers a change may touch. -/
def okAt (s : FsmSt) (r : Reg) : Prop := r.name.ownGen s.name = false ∨ r.name ∉ s.dstNames

theorem Good.of_step {ok} {s s' : FsmSt} (hi : s.Inv) (h : Step ok s s')
    (hok : ∀ r, ok r → s'.GenOk r.name) (hok' : ∀ r, ok r → s.okAt r) : Good s s' := by
  refine ⟨hi.step h hok, h.name, h.width, ?_, ?_, h.delay, h.drives⟩
  · intro x hx hg d i env
    refine h.key x ?_ d i env
    rintro r hr rfl
    rcases hok' r hr with h | h
    · rw [hg] at h; simp at h
    · exact h hx
  · obtain ⟨e, h1, -⟩ := h.dst
    rw [h1]
    exact fun r hr => List.mem_append_left _ hr

/-- Steps for the user's registers. -/
theorem Good.user {s s' : FsmSt} (hi : s.Inv)
    (h : Step (fun r => r.name.fgenBy s.name = false) s s') : Good s s' := by
  refine .of_step hi h ?_ ?_
  · intro r hr
    left
    rw [h.name]
    exact hr
  · intro r hr
    left
    simp only [Var.fgenBy, Bool.or_eq_false_iff] at hr
    exact hr.1

theorem Good.book {s s' : FsmSt} (hi : s.Inv) (hn : s'.name = s.name) (hw : s'.width = s.width)
    (hs : s'.seq = s.seq) (hc : s'.code = s.code) (hv : s'.dstVar = s.dstVar)
    (hd : s'.delayAmount = s.delayAmount) (ht : s.tmpCount ≤ s'.tmpCount)
    (hl : s'.lastIf = s.lastIf ∨ s'.lastIf = none) : Good s s' :=
  .user hi (.book hn hw hs hc hv hd ht hl)

/-! ## Pipelines -/

theorem pipeLoop_step {ok} (reg : Nat → Reg) (m i : Nat) (prev : Expr) (s : FsmSt)
    (h : ∀ j, i < j → j ≤ i + m → ok (reg j)) :
    Step ok s (pipeLoop reg m i prev s).2 ∧ (pipeLoop reg m i prev s).2.cur = s.cur ∧
      (pipeLoop reg m i prev s).2.tmpCount = s.tmpCount := by
  induction m generalizing i prev s with
  | zero => exact ⟨.refl _ _, rfl, rfl⟩
  | succ m ih =>
    obtain ⟨a, b, c⟩ := ih (i + 1) (.var (reg (i + 1)).name)
      (s.push i s.cur (.plain (.subst (reg (i + 1)) prev))) fun j h1 h2 => h j (by omega) (by omega)
    have hp := push_fields s i s.cur (.plain (.subst (reg (i + 1)) prev))
    refine ⟨Step.trans (.push s i s.cur _ ?_) a, b.trans hp.2.2.2.2.2.2.2.1,
      c.trans hp.2.2.2.2.2.1⟩
    intro r hr
    simp only [Item.code, Code.targets, List.mem_singleton] at hr
    exact hr ▸ h (i + 1) (by omega) (by omega)

theorem cond_fresh {s : FsmSt} (hi : s.Inv) (k i : Nat) (hk : s.tmpCount ≤ k) :
    (condReg s.name k i).name ∉ s.dstNames := by
  intro h
  rcases hi.gen _ h with h | ⟨k', i', hk', h | h⟩
  · simp [Var.fgenBy, Var.ownGen, condReg] at h
  · simp [condReg] at h; omega
  · simp [condReg] at h

theorem sbst_fresh {s : FsmSt} (hi : s.Inv) (left : Reg) (k i : Nat) (hk : s.tmpCount ≤ k) :
    (sbstReg s.name left k i).name ∉ s.dstNames := by
  intro h
  rcases hi.gen _ h with h | ⟨k', i', hk', h | h⟩
  · simp [Var.fgenBy, Var.ownGen, sbstReg] at h
  · simp [sbstReg] at h
  · simp [sbstReg] at h; omega

theorem Good.bump {s : FsmSt} (hi : s.Inv) : Good s { s with tmpCount := s.tmpCount + 1 } :=
  .book hi rfl rfl rfl rfl rfl rfl (by simp) (Or.inl rfl)

theorem Good.addDelayedCond {s : FsmSt} (hi : s.Inv) (c : Expr) (n : Nat) :
    Good s (s.addDelayedCond c n).2 ∧ (s.addDelayedCond c n).2.cur = s.cur := by
  unfold FsmSt.addDelayedCond
  obtain ⟨hst, hcur, htmp⟩ := pipeLoop_step (ok := fun r => ∃ j, r = condReg s.name s.tmpCount j)
    (condReg s.name s.tmpCount) n 0 c { s with tmpCount := s.tmpCount + 1 } fun j _ _ => ⟨j, rfl⟩
  refine ⟨(Good.bump hi).trans (.of_step (Good.bump hi).inv hst ?_ ?_), hcur⟩
  · rintro r ⟨j, rfl⟩
    right
    refine ⟨s.tmpCount, j, ?_, Or.inl ?_⟩
    · rw [htmp]; simp
    · rw [hst.name]; rfl
  · rintro r ⟨j, rfl⟩
    exact Or.inr (cond_fresh hi _ j (Nat.le_refl _))

theorem Good.addDelayedSubst {s : FsmSt} (hi : s.Inv) (c : Code) (n : Nat) :
    Good s (s.addDelayedSubst c n).2 ∧ (s.addDelayedSubst c n).2.cur = s.cur := by
  unfold FsmSt.addDelayedSubst
  split
  · rename_i left f
    obtain ⟨hst, hcur, htmp⟩ := pipeLoop_step
      (ok := fun r => ∃ j, r = sbstReg s.name left s.tmpCount j)
      (sbstReg s.name left s.tmpCount) n 0 (.fn f) { s with tmpCount := s.tmpCount + 1 }
      fun j _ _ => ⟨j, rfl⟩
    refine ⟨(Good.bump hi).trans (.of_step (Good.bump hi).inv hst ?_ ?_), hcur⟩
    · rintro r ⟨j, rfl⟩
      right
      refine ⟨s.tmpCount, j, ?_, Or.inr ?_⟩
      · rw [htmp]; simp
      · rw [hst.name]; rfl
    · rintro r ⟨j, rfl⟩
      exact Or.inr (sbst_fresh hi left _ j (Nat.le_refl _))
  · exact ⟨.refl hi, rfl⟩

theorem addDelayedSubst_targets (s : FsmSt) (c : Code) (n : Nat) :
    (s.addDelayedSubst c n).1.targets = c.targets := by
  unfold FsmSt.addDelayedSubst
  split <;> simp [Code.targets]

theorem Good.addDelayedSubsts {s : FsmSt} (hi : s.Inv) (cs : List Code) (n : Nat) :
    Good s (s.addDelayedSubsts cs n).2 ∧ (s.addDelayedSubsts cs n).2.cur = s.cur ∧
      (s.addDelayedSubsts cs n).1.map Code.targets = cs.map Code.targets := by
  induction cs generalizing s with
  | nil => exact ⟨.refl hi, rfl, rfl⟩
  | cons c cs ih =>
    have h1 := Good.addDelayedSubst hi c n
    have h2 := ih h1.1.inv
    refine ⟨h1.1.trans h2.1, h2.2.1.trans h1.2, ?_⟩
    show (s.addDelayedSubst c n).1.targets :: _ = _
    rw [addDelayedSubst_targets]
    exact congrArg (c.targets :: ·) h2.2.2

/-- The two stages before the statement itself is added: value pipelines and guard. -/
theorem addDelayed_eq (s : FsmSt) (stmts : List Code) (index n : Nat) (cond : Option Expr)
    (lz eager : Bool) :
    s.addDelayed stmts index n cond lz eager =
      (let p1 := if eager then s.addDelayedSubsts stmts n else (stmts, s)
       let p2 := if lz then
          (match cond.getD (.int 1) with
            | .int 1 => (p1.2.addDelayedCond (.int 1) n).1
            | c => Expr.and (p1.2.addDelayedCond (.int 1) n).1 c, (p1.2.addDelayedCond (.int 1) n).2)
        else p1.2.addDelayedCond (cond.getD (.int 1)) n
       p2.2.push n index (.plain (.ite p2.1 (Code.block p1.1) .skip))) := by
  unfold FsmSt.addDelayed
  cases eager <;> cases lz <;> rfl

theorem Good.push {s : FsmSt} (hi : s.Inv) (d i : Nat) (it : Item)
    (h : ∀ r ∈ it.code.targets, r.name.fgenBy s.name = false) : Good s (s.push d i it) :=
  .user hi (.push s d i it h)

theorem block_ok {own : String} {stmts : List Code}
    (h : ∀ c ∈ stmts, ∀ r ∈ c.targets, r.name.fgenBy own = false) :
    ∀ r ∈ (Code.block stmts).targets, r.name.fgenBy own = false := by
  intro r hr
  simp only [Code.targets_block, List.mem_flatMap] at hr
  obtain ⟨c, hc, hr⟩ := hr
  exact h c hc r hr

theorem Good.addDelayed {s : FsmSt} (hi : s.Inv) (stmts : List Code) (index n : Nat)
    (cond : Option Expr) (lz eager : Bool)
    (h : ∀ c ∈ stmts, ∀ r ∈ c.targets, r.name.fgenBy s.name = false) :
    Good s (s.addDelayed stmts index n cond lz eager) := by
  have key : ∀ s1 : FsmSt, Good s s1 → ∀ stmts' : List Code,
      stmts'.map Code.targets = stmts.map Code.targets → ∀ g : Expr,
      Good s (s1.push n index (.plain (.ite g (Code.block stmts') .skip))) := by
    intro s1 hg stmts' hm g
    refine hg.trans (.push hg.inv n index _ ?_)
    intro r hr
    simp only [Item.code, Code.targets, Code.targets_block, List.append_nil, List.mem_flatMap] at hr
    obtain ⟨c, hc, hr⟩ := hr
    have : c.targets ∈ stmts.map Code.targets := hm ▸ List.mem_map_of_mem hc
    obtain ⟨c', hc', he⟩ := List.mem_map.1 this
    rw [hg.name]
    exact h c' hc' r (he ▸ hr)
  rw [addDelayed_eq]
  cases eager with
  | false =>
    cases lz with
    | false => exact key _ (Good.addDelayedCond hi _ n).1 stmts rfl _
    | true => exact key _ (Good.addDelayedCond hi _ n).1 stmts rfl _
  | true =>
    have h1 := Good.addDelayedSubsts hi stmts n
    cases lz with
    | false => exact key _ (h1.1.trans (Good.addDelayedCond h1.1.inv _ n).1) _ h1.2.2 _
    | true => exact key _ (h1.1.trans (Good.addDelayedCond h1.1.inv _ n).1) _ h1.2.2 _

theorem Step.pushIf {ok} (s : FsmSt) (i : Nat) (c : Expr) (b : Code) (h : ∀ r ∈ b.targets, ok r) :
    Step ok s ({ s with lastIf := some s.code.length }.push 0 i (.chain [(c, b)] none)) := by
  have ht : ∀ r ∈ (Item.chain [(c, b)] none).code.targets, ok r := by
    intro r hr
    exact h r (by simpa [Item.code, chainCode, Code.targets] using hr)
  have hp := Step.push (ok := ok) { s with lastIf := some s.code.length } 0 i
    (.chain [(c, b)] none) ht
  refine ⟨hp.name, hp.width, hp.seq, hp.key, hp.dst, hp.covered, hp.bound, ?_, hp.tmp, hp.delay,
    hp.drives⟩
  intro _ j hj
  have hf := push_fields { s with lastIf := some s.code.length } 0 i (.chain [(c, b)] none)
  rw [hf.2.2.2.2.2.2.1] at hj
  have : s.code.length = j := by simpa using hj
  subst this
  rw [hf.2.2.2.1]
  exact ⟨(0, i), [(c, b)], by simp⟩

theorem Good.addStatement1 {s : FsmSt} (hi : s.Inv) (stmts : List Code) (index d : Nat)
    (cond : Option Expr) (lz eager : Bool)
    (h : ∀ c ∈ stmts, ∀ r ∈ c.targets, r.name.fgenBy s.name = false) :
    Good s (s.addStatement1 stmts index d cond lz eager) := by
  unfold FsmSt.addStatement1
  split
  · split
    · exact .user hi (.pushIf s index _ _ (block_ok h))
    · induction stmts generalizing s with
      | nil => exact .refl hi
      | cons c cs ih =>
        simp only [List.foldl_cons]
        have h1 := Good.push hi 0 index (.plain c) (h c (by simp))
        refine h1.trans (ih h1.inv fun c' hc' r hr => ?_)
        rw [h1.name]
        exact h c' (by simp [hc']) r hr
  · exact .addDelayed hi stmts index d cond lz eager h

theorem Good.addStatement {s : FsmSt} (hi : s.Inv) (stmts : List Code) (kw : FKwargs)
    (h : ∀ c ∈ stmts, ∀ r ∈ c.targets, r.name.fgenBy s.name = false) :
    Good s (s.addStatement stmts kw) := by
  unfold FsmSt.addStatement
  simp only
  split
  · rename_i m hm
    generalize List.range m = l
    generalize kw.index.getD s.cur = index
    clear hm
    induction l generalizing s with
    | nil => exact .refl hi
    | cons i l ih =>
      simp only [List.foldl_cons]
      have h1 := Good.addStatement1 hi stmts index (kw.delay.getD 0 + i) kw.cond
        (kw.lazyCond.getD false) (kw.eagerVal.getD false) h
      refine h1.trans (ih h1.inv fun c' hc' r hr => ?_)
      rw [h1.name]
      exact h c' hc' r hr
  · exact .addStatement1 hi stmts _ _ _ _ _ h

theorem Good.addKw {s s' : FsmSt} (hi : s.Inv) (kw : FKwargs) (stmts : List Code)
    (h : ∀ c ∈ stmts, ∀ r ∈ c.targets, r.name.fgenBy s.name = false)
    (hs : s.addKw kw stmts = some s') : Good s s' := by
  unfold FsmSt.addKw at hs
  split at hs
  · split at hs
    · rename_i c _ _ _ i hl
      simp only [Option.some.injEq] at hs
      subst hs
      exact .user hi (Step.trans (.elif s i c _ (block_ok h) hl)
        (.book rfl rfl rfl rfl rfl rfl (Nat.le_refl _) (Or.inl rfl)))
    · simp at hs
  · split at hs
    · split at hs
      · rename_i i hl
        simp only [Option.some.injEq] at hs
        subst hs
        exact .user hi (Step.trans (.els s i _ (block_ok h))
          (.book rfl rfl rfl rfl rfl rfl (Nat.le_refl _) (Or.inl rfl)))
      · simp at hs
    · simp only [Option.some.injEq] at hs
      subst hs
      have g1 : Good s { s with lastIf := none, nextElse := false } :=
        .book hi rfl rfl rfl rfl rfl rfl (Nat.le_refl _) (Or.inr rfl)
      exact g1.trans (.addStatement g1.inv stmts _ h)

theorem Good.add {s s' : FsmSt} (hi : s.Inv) (stmts : List Code)
    (h : ∀ c ∈ stmts, ∀ r ∈ c.targets, r.name.fgenBy s.name = false)
    (hs : s.add stmts = some s') : Good s s' := by
  have g0 : Good s { s with lastDelay := s.next.delay, next := {} } :=
    .book hi rfl rfl rfl rfl rfl rfl (Nat.le_refl _) (Or.inl rfl)
  exact g0.trans (.addKw g0.inv _ stmts h hs)

/-! ## Calls that add no code -/

theorem iff_fields (s : FsmSt) (cs : List Expr) :
    (s.iff cs).name = s.name ∧ (s.iff cs).width = s.width ∧ (s.iff cs).seq = s.seq ∧
    (s.iff cs).code = s.code ∧ (s.iff cs).dstVar = s.dstVar ∧
    (s.iff cs).delayAmount = s.delayAmount ∧ (s.iff cs).tmpCount = s.tmpCount ∧
    (s.iff cs).lastIf = s.lastIf ∧ (s.iff cs).jumps = s.jumps ∧ (s.iff cs).cur = s.cur := by
  unfold FsmSt.iff
  cases makeCond cs <;> simp

theorem thn_fields (s : FsmSt) :
    s.thn.name = s.name ∧ s.thn.width = s.width ∧ s.thn.seq = s.seq ∧
    s.thn.code = s.code ∧ s.thn.dstVar = s.dstVar ∧
    s.thn.delayAmount = s.delayAmount ∧ s.thn.tmpCount = s.tmpCount ∧
    s.thn.lastIf = s.lastIf ∧ s.thn.jumps = s.jumps ∧ s.thn.cur = s.cur := by
  unfold FsmSt.thn
  simpa using iff_fields { s with lastCond := [] } (makeCond s.lastCond).toList

/-- The calls that add no statement leave all code alone, except that the jumps may grow. -/
theorem apply_book {s s' : FsmSt} (op : FsmOp) (h1 : ∀ stmts, op ≠ .add stmts)
    (h2 : ∀ o, op ≠ .par o) (hs : op.apply s = some s') :
    s'.name = s.name ∧ s'.width = s.width ∧ s'.seq = s.seq ∧ s'.code = s.code ∧
    s'.dstVar = s.dstVar ∧ s'.delayAmount = s.delayAmount ∧ s'.tmpCount = s.tmpCount ∧
    (s'.lastIf = s.lastIf ∨ s'.lastIf = none) := by
  cases op with
  | add stmts => exact absurd rfl (h1 stmts)
  | par o => exact absurd rfl (h2 o)
  | iff cs =>
    simp only [FsmOp.apply, Option.some.injEq] at hs
    subst hs
    have := iff_fields s cs
    simp [this]
  | els =>
    simp only [FsmOp.apply, FsmSt.els] at hs
    split at hs
    · simp at hs
    · split at hs
      · simp only [Option.some.injEq] at hs
        subst hs
        have := thn_fields { s with elifCond := none, lastCond := SeqSt.negLast s.lastCond }
        simp [this]
      · simp only [Option.some.injEq] at hs
        subst hs
        simp
  | elif c cs =>
    simp only [FsmOp.apply, FsmSt.elif] at hs
    split at hs
    · simp at hs
    · split at hs
      · simp only [Option.some.injEq] at hs
        subst hs
        have := thn_fields { s with lastCond := SeqSt.negLast s.lastCond ++ [cs.foldl Expr.and c] }
        simp [this]
      · simp only [Option.some.injEq] at hs
        subst hs
        simp
  | thn =>
    simp only [FsmOp.apply, Option.some.injEq] at hs
    subst hs
    have := thn_fields s
    simp [this]
  | _ =>
    simp only [FsmOp.apply, Option.some.injEq] at hs
    subst hs
    simp [FsmSt.clear, FsmSt.goto, FsmSt.gotoNext, FsmSt.gotoFrom, FsmSt.setIndex]

/-- Every API call preserves the invariant and leaves existing generated registers alone. -/
theorem Good.apply {s s' : FsmSt} (hi : s.Inv) (op : FsmOp) (ho : op.Ok s.name)
    (hs : op.apply s = some s') : Good s s' := by
  by_cases h1 : ∃ stmts, op = .add stmts
  · obtain ⟨stmts, rfl⟩ := h1
    exact .add hi stmts ho hs
  · by_cases h2 : ∃ o, op = .par o
    · obtain ⟨o, rfl⟩ := h2
      simp only [FsmOp.apply, Option.map_eq_some_iff] at hs
      obtain ⟨q, hq, rfl⟩ := hs
      obtain ⟨ho1, ho2⟩ := ho
      rw [← hi.seqName] at ho1
      have gq := SeqSt.Good.apply hi.seqInv o ho1 hq
      refine ⟨⟨hi.covered, hi.nodup, hi.gen, hi.bound, hi.lastIf, gq.inv, ?_, ?_⟩, rfl, rfl,
        fun _ _ _ _ _ _ => rfl, fun _ => id, Nat.le_refl _, fun _ => id⟩
      · exact gq.step.name.trans hi.seqName
      · intro v hv
        cases hg : v.ownGen s.name with
        | false => rfl
        | true =>
          have hx : v.genBy s.seq.name = false := by
            rw [hi.seqName]; exact Var.not_both _ _ hg
          have hgr := SeqSt.apply_grows hi.seqInv o ho1 hx (ho2 v hg) hq
          obtain ⟨extra, e1, e2, -⟩ := hgr.dst
          have hv' : v ∈ q.dstVar.map Reg.name := hv
          rw [e1, List.map_append, List.mem_append] at hv'
          rcases hv' with hv' | hv'
          · rw [hi.seqNames v hv'] at hg; simp at hg
          · obtain ⟨r, hr, he⟩ := List.mem_map.1 hv'
            exact absurd he (e2 r hr).1
    · obtain ⟨a1, a2, a3, a4, a5, a6, a7, a8⟩ := apply_book op (fun st h => h1 ⟨st, h⟩)
        (fun o h => h2 ⟨o, h⟩) hs
      exact .book hi a1 a2 a3 a4 a5 a6 (by omega) a8

theorem Good.applyAll {s s' : FsmSt} (hi : s.Inv) (ops : List FsmOp)
    (ho : ∀ op ∈ ops, op.Ok s.name) (hs : s.applyAll ops = some s') : Good s s' := by
  induction ops generalizing s with
  | nil =>
    simp only [FsmSt.applyAll, Option.some.injEq] at hs
    subst hs
    exact .refl hi
  | cons op ops ih =>
    simp only [FsmSt.applyAll, Option.bind_eq_some_iff] at hs
    obtain ⟨s1, h1, h2⟩ := hs
    have g := Good.apply hi op (ho op (by simp)) h1
    refine g.trans (ih g.inv (fun o hm => ?_) h2)
    rw [g.name]
    exact ho o (by simp [hm])

theorem inv_fresh (name : String) (w : Nat) : (FsmSt.fresh name w).Inv := by
  refine ⟨by simp [FsmSt.fresh, Covered], by simp [FsmSt.fresh, dstNames],
    by simp [FsmSt.fresh, dstNames], by simp [FsmSt.fresh, Bound], by simp [FsmSt.fresh, LastIfOk],
    SeqSt.inv_fresh _, rfl, by simp [FsmSt.fresh, SeqSt.fresh, SeqSt.dstNames]⟩

/-- `Reach name w s`: some sequence of calls on a new FSM `name` of state width `w` leads to `s`,
    and the user's statements do not assign registers the FSM generated itself (its state
    register included). -/
def Reach (name : String) (w : Nat) (s : FsmSt) : Prop :=
  ∃ ops, (∀ op ∈ ops, op.Ok name) ∧ (FsmSt.fresh name w).applyAll ops = some s

theorem Reach.good {name : String} {w : Nat} {s : FsmSt} (h : Reach name w s) :
    Good (FsmSt.fresh name w) s := by
  obtain ⟨ops, ho, hs⟩ := h
  exact .applyAll (inv_fresh name w) ops ho hs

theorem Reach.inv {name : String} {w : Nat} {s : FsmSt} (h : Reach name w s) : s.Inv := h.good.inv

theorem Reach.name_eq {name : String} {w : Nat} {s : FsmSt} (h : Reach name w s) : s.name = name :=
  h.good.name

theorem Reach.width_eq {name : String} {w : Nat} {s : FsmSt} (h : Reach name w s) : s.width = w :=
  h.good.width

theorem applyAll_append (s s1 s2 : FsmSt) (a b : List FsmOp) (h1 : s.applyAll a = some s1)
    (h2 : s1.applyAll b = some s2) : s.applyAll (a ++ b) = some s2 := by
  induction a generalizing s with
  | nil => simp only [FsmSt.applyAll, Option.some.injEq] at h1; subst h1; exact h2
  | cons op a ih =>
    simp only [List.cons_append, FsmSt.applyAll, Option.bind_eq_some_iff] at h1 ⊢
    obtain ⟨s', ha, hb⟩ := h1
    exact ⟨s', ha, ih s' hb⟩

theorem Reach.append {name : String} {w : Nat} {s s' : FsmSt} (h : Reach name w s)
    (ops : List FsmOp) (ho : ∀ op ∈ ops, op.Ok name) (hs : s.applyAll ops = some s') :
    Reach name w s' := by
  obtain ⟨pre, hp, h1⟩ := h
  refine ⟨pre ++ ops, ?_, applyAll_append _ _ _ _ _ h1 hs⟩
  intro op hop
  rcases List.mem_append.1 hop with h | h
  · exact hp op h
  · exact ho op h

end FsmSt
end Hdl
