import Verif.Lemmas.Seq

/-! Invariants of the `Seq` builder over arbitrary sequences of API calls, and the behaviour of the
generated delay pipelines. -/

namespace Hdl

/-- Names generated by the manager called `own`. -/
def Var.genBy (own : String) : Var → Bool
  | .cond o _ _ => o = own
  | .sbst o _ _ => o = own
  | .prev _ _ => true
  | .tmp _ => true
  | _ => false

/-- The user's statements assign only registers the manager did not generate itself. -/
def SeqOp.Ok (own : String) : SeqOp → Prop
  | .add stmts => ∀ c ∈ stmts, ∀ r ∈ c.targets, r.name.genBy own = false
  | .addReset r => r.name.genBy own = false
  | _ => True

namespace SeqSt

/-- A generated name that is in use has been counted. -/
def GenOk (s : SeqSt) : Var → Prop
  | .cond o k _ => o = s.name → k < s.tmpCount
  | .sbst o k _ => o = s.name → k < s.tmpCount
  | .prev p i => ∃ r, ((p, i), r) ∈ s.prevDict
  | .tmp k => k < s.modTmp
  | _ => True

/-- `last_if_statement` refers to an `If` object without else branch. -/
def LastIfOk (s : SeqSt) : Prop :=
  ∀ i, s.lastIf = some i → ∃ bs, s.body[i]? = some (.chain bs none)

/-- Invariant of every reachable builder state. -/
structure Inv (s : SeqSt) : Prop where
  covered : s.Covered
  nodup : s.dstNames.Nodup
  gen : ∀ v ∈ s.dstNames, s.GenOk v
  lastIf : s.LastIfOk

/-- A change that adds code for registers satisfying `ok` and lets the counters only grow. -/
structure Step (ok : Reg → Prop) (s s' : SeqSt) : Prop where
  grows : Grows ok s s'
  lastIf : s.LastIfOk → s'.LastIfOk
  tmp : s.tmpCount ≤ s'.tmpCount
  modTmp : s.modTmp ≤ s'.modTmp
  prev : ∀ e ∈ s.prevDict, e ∈ s'.prevDict

theorem Step.refl (ok) (s : SeqSt) : Step ok s s :=
  ⟨.refl _, id, Nat.le_refl _, Nat.le_refl _, fun _ => id⟩

theorem Step.trans {ok} {a b c : SeqSt} (h : Step ok a b) (k : Step ok b c) : Step ok a c :=
  ⟨h.grows.trans k.grows, k.lastIf ∘ h.lastIf, Nat.le_trans h.tmp k.tmp,
    Nat.le_trans h.modTmp k.modTmp, fun e he => k.prev e (h.prev e he)⟩

theorem Step.mono {ok ok' : Reg → Prop} {a b : SeqSt} (hm : ∀ r, ok r → ok' r) (h : Step ok a b) :
    Step ok' a b := ⟨h.grows.mono hm, h.lastIf, h.tmp, h.modTmp, h.prev⟩

theorem Step.name {ok} {a b : SeqSt} (h : Step ok a b) : b.name = a.name := h.grows.name

theorem Step.pushBody {ok} (s : SeqSt) (it : Item) (h : ∀ r ∈ it.code.targets, ok r) :
    Step ok s (s.pushBody it) := by
  refine ⟨.one (.body it h), ?_, by simp [SeqSt.pushBody], by simp [SeqSt.pushBody],
    by simp [SeqSt.pushBody]⟩
  intro hl i hi
  have hi' : s.lastIf = some i := by simpa [SeqSt.pushBody] using hi
  obtain ⟨bs, hb⟩ := hl i hi'
  refine ⟨bs, ?_⟩
  have : (s.pushBody it).body = s.body ++ [it] := by simp [SeqSt.pushBody]
  rw [this, List.getElem?_append_left (by
    rcases Nat.lt_or_ge i s.body.length with h | h
    · exact h
    · rw [List.getElem?_eq_none h] at hb; simp at hb), hb]

theorem Step.pushDelayed {ok} (s : SeqSt) (d : Nat) (hd : 0 < d) (c : Code)
    (h : ∀ r ∈ c.targets, ok r) : Step ok s (s.pushDelayed d c) := by
  refine ⟨.one (.delayed d c hd h), ?_, by simp [SeqSt.pushDelayed], by simp [SeqSt.pushDelayed],
    by simp [SeqSt.pushDelayed]⟩
  intro hl i hi
  have hi' : s.lastIf = some i := by simpa [SeqSt.pushDelayed] using hi
  obtain ⟨bs, hb⟩ := hl i hi'
  exact ⟨bs, by simpa [SeqSt.pushDelayed] using hb⟩

theorem Step.pushRaw {ok} (s : SeqSt) (d : Nat) (c : Code) (h : ∀ r ∈ c.targets, ok r) :
    Step ok s (s.pushRaw d c) := by
  unfold SeqSt.pushRaw
  split
  · exact .pushBody s _ h
  · exact .pushDelayed s d (by omega) c h

theorem Step.book {ok} {s s' : SeqSt} (hn : s'.name = s.name) (hd : s'.delayed = s.delayed)
    (hb : s'.body = s.body) (hv : s'.dstVar = s.dstVar) (hl : s.LastIfOk → s'.LastIfOk)
    (ht : s.tmpCount ≤ s'.tmpCount) (hm : s.modTmp ≤ s'.modTmp)
    (hp : ∀ e ∈ s.prevDict, e ∈ s'.prevDict) : Step ok s s' :=
  ⟨.one (.book hn hd hb hv), hl, ht, hm, hp⟩

/-! ## Pipelines -/

theorem pipeLoop_step {ok} (reg : Nat → Reg) (m i : Nat) (prev : Expr) (s : SeqSt)
    (h : ∀ j, i < j → j ≤ i + m → ok (reg j)) : Step ok s (pipeLoop reg m i prev s).2 := by
  induction m generalizing i prev s with
  | zero => exact .refl _ _
  | succ m ih =>
    refine Step.trans (.pushRaw s i _ ?_) (ih (i + 1) _ _ fun j h1 h2 => h j (by omega) (by omega))
    intro r hr
    simp only [Code.targets, List.mem_singleton] at hr
    exact hr ▸ h (i + 1) (by omega) (by omega)

/-- Nothing but the body, delayed statements and reset list is touched. -/
theorem pipeLoop_fields (reg : Nat → Reg) (m i : Nat) (prev : Expr) (s : SeqSt) :
    (pipeLoop reg m i prev s).2.tmpCount = s.tmpCount ∧
    (pipeLoop reg m i prev s).2.lastIf = s.lastIf ∧
    (pipeLoop reg m i prev s).2.prevDict = s.prevDict ∧
    (pipeLoop reg m i prev s).2.modTmp = s.modTmp := by
  induction m generalizing i prev s with
  | zero => simp [pipeLoop]
  | succ m ih =>
    simp only [pipeLoop]
    obtain ⟨h1, h2, h3, h4⟩ := ih (i + 1) (.var (reg (i + 1)).name)
      (s.pushRaw i (.subst (reg (i + 1)) prev))
    rw [h1, h2, h3, h4]
    unfold SeqSt.pushRaw
    split <;> simp [SeqSt.pushBody, SeqSt.pushDelayed]

/-- Register `r` is assigned exactly once per edge, the value `e`, and is reset. -/
def PipeAt (s : SeqSt) (r : Reg) (e : Expr) : Prop :=
  r ∈ s.dstVar ∧ ∀ env, traceL s.makeCode env r.name = [r.wrap (e.eval env)]

theorem trace_fresh {s : SeqSt} (hc : s.Covered) {x : Var} (h : x ∉ s.dstNames) (env : Env) :
    traceL s.makeCode env x = [] :=
  traceL_eq_nil fun c hm r hr he => h (he ▸ hc c hm r hr)

theorem mem_addDst_singleton (s : SeqSt) (r : Reg) (h : r.name ∉ s.dstNames) :
    r ∈ (s.addDst [r]).dstVar := by
  obtain ⟨extra, h1, -, -, -, h5⟩ := addDst_eq s [r]
  rw [h1]
  exact List.mem_append_right _ (h5 r (by simp) h (by simp))

theorem pipeAt_pushRaw {s : SeqSt} (hc : s.Covered) (d : Nat) (r : Reg) (e : Expr)
    (h : r.name ∉ s.dstNames) : PipeAt (s.pushRaw d (.subst r e)) r e := by
  have hn := fun env => trace_fresh hc h env
  unfold SeqSt.pushRaw
  split
  · refine ⟨?_, fun env => ?_⟩
    · simp only [SeqSt.pushBody]
      exact mem_addDst_singleton { s with body := s.body ++ [Item.plain (.subst r e)] } r h
    · rw [trace_pushBody, hn]; simp [Item.code, Code.trace]
  · refine ⟨?_, fun env => ?_⟩
    · simp only [SeqSt.pushDelayed]
      exact mem_addDst_singleton { s with delayed := s.delayed ++ [(d, .subst r e)] } r h
    · obtain ⟨h1, h2⟩ := trace_pushDelayed s d (.subst r e) env r.name
        (max s.maxDelay d + 1) (by omega)
      rw [hn] at h1
      have h1' := h1.symm
      rw [List.append_eq_nil_iff] at h1'
      rw [h2, h1'.1, h1'.2]; simp [Code.trace]

theorem PipeAt.grows {ok} {s s' : SeqSt} {r : Reg} {e : Expr} (p : PipeAt s r e)
    (g : Grows ok s s') (h : ∀ r', ok r' → r'.name ≠ r.name) : PipeAt s' r e := by
  obtain ⟨extra, h1, -⟩ := g.dst
  refine ⟨by rw [h1]; exact List.mem_append_left _ p.1, fun env => ?_⟩
  rw [g.trace h, p.2]

/-- What stage `j` of a pipeline fed by `c` holds. -/
def stage (reg : Nat → Reg) (c : Expr) : Nat → Expr
  | 0 => c
  | j + 1 => .var (reg (j + 1)).name

theorem pipeLoop_pipes (reg : Nat → Reg) (c : Expr) (m i : Nat) (s : SeqSt) (hc : s.Covered)
    (hinj : ∀ a b, (reg a).name = (reg b).name → a = b)
    (hf : ∀ j, i < j → (reg j).name ∉ s.dstNames) :
    (pipeLoop reg m i (stage reg c i) s).1 = stage reg c (i + m) ∧
    ∀ j, i ≤ j → j < i + m →
      PipeAt (pipeLoop reg m i (stage reg c i) s).2 (reg (j + 1)) (stage reg c j) := by
  induction m generalizing i s with
  | zero => exact ⟨rfl, fun j h1 h2 => by omega⟩
  | succ m ih =>
    have hst : Step (fun r => r = reg (i + 1)) s
        (s.pushRaw i (.subst (reg (i + 1)) (stage reg c i))) :=
      .pushRaw s i _ fun r hr => by simpa [Code.targets] using hr
    have hf' : ∀ j, i + 1 < j →
        (reg j).name ∉ (s.pushRaw i (.subst (reg (i + 1)) (stage reg c i))).dstNames := by
      intro j hj hm
      obtain ⟨extra, h1, h2, -⟩ := hst.grows.dst
      simp only [dstNames, h1, List.map_append, List.mem_append] at hm
      rcases hm with hm | hm
      · exact hf j (by omega) hm
      · obtain ⟨r, hr, he⟩ := List.mem_map.1 hm
        have := (h2 r hr).1
        rw [this] at he
        have := hinj _ _ he
        omega
    have ih' := ih (i + 1) (s.pushRaw i (.subst (reg (i + 1)) (stage reg c i)))
      (hst.grows.covered hc) hf'
    refine ⟨?_, fun j h1 h2 => ?_⟩
    · have := ih'.1
      rw [show i + (m + 1) = i + 1 + m by omega]
      exact this
    · by_cases hj : j = i
      · subst hj
        have p := pipeAt_pushRaw hc j (reg (j + 1)) (stage reg c j) (hf (j + 1) (by omega))
        refine p.grows (ok := fun r => ∃ q, j + 1 < q ∧ r = reg q)
          (pipeLoop_step reg m (j + 1) _ _ fun q h3 h4 => ⟨q, h3, rfl⟩).grows ?_
        rintro r' ⟨q, hq, rfl⟩ he
        have := hinj _ _ he
        omega
      · exact ih'.2 j (by omega) (by omega)

/-! ## Every API call preserves the invariant -/

theorem GenOk.mono {ok} {s s' : SeqSt} (h : Step ok s s') {v : Var} (g : s.GenOk v) :
    s'.GenOk v := by
  cases v with
  | cond o k i =>
    intro ho
    have := g (ho.trans h.name)
    have := h.tmp
    omega
  | sbst o k i =>
    intro ho
    have := g (ho.trans h.name)
    have := h.tmp
    omega
  | prev p i =>
    obtain ⟨r, hr⟩ := g
    exact ⟨r, h.prev _ hr⟩
  | tmp k =>
    have g' : k < s.modTmp := g
    have := h.modTmp
    show k < s'.modTmp
    omega
  | user => trivial
  | state => trivial
  | dstate => trivial

theorem genOk_of_not_genBy {s : SeqSt} {v : Var} (h : v.genBy s.name = false) : s.GenOk v := by
  cases v with
  | cond o k i => intro ho; simp [Var.genBy, ho] at h
  | sbst o k i => intro ho; simp [Var.genBy, ho] at h
  | prev p i => simp [Var.genBy] at h
  | tmp k => simp [Var.genBy] at h
  | user => trivial
  | state => trivial
  | dstate => trivial

theorem Inv.step {ok} {s s' : SeqSt} (hi : s.Inv) (h : Step ok s s')
    (hok : ∀ r, ok r → s'.GenOk r.name) : s'.Inv := by
  obtain ⟨extra, h1, h2, h3⟩ := h.grows.dst
  refine ⟨h.grows.covered hi.covered, ?_, ?_, h.lastIf hi.lastIf⟩
  · simp only [dstNames, h1, List.map_append]
    rw [List.nodup_append]
    refine ⟨hi.nodup, h3, ?_⟩
    rintro a ha b hb rfl
    obtain ⟨r, hr, he⟩ := List.mem_map.1 hb
    exact (h2 r hr).2 (he ▸ ha)
  · intro v hv
    simp only [dstNames, h1, List.map_append, List.mem_append] at hv
    rcases hv with hv | hv
    · exact (hi.gen v hv).mono h
    · obtain ⟨r, hr, he⟩ := List.mem_map.1 hv
      exact he ▸ hok r (h2 r hr).1

/-- Registers an API call may touch: the user's, or freshly generated ones. -/
def okAt (s : SeqSt) (r : Reg) : Prop :=
  r.name.genBy s.name = false ∨ r.name ∉ s.dstNames

/-- What every API call does: it preserves the invariant and never touches a generated register
    that already exists. -/
structure Good (s s' : SeqSt) : Prop where
  inv : s'.Inv
  step : Step s.okAt s s'

theorem okAt_trans {a b : SeqSt} (h : Step a.okAt a b) {r : Reg} (hr : b.okAt r) : a.okAt r := by
  rcases hr with hr | hr
  · left; rw [← h.name]; exact hr
  · right
    intro hm
    obtain ⟨extra, h1, -⟩ := h.grows.dst
    exact hr (by simp only [dstNames, h1, List.map_append, List.mem_append]; exact Or.inl hm)

theorem Good.trans {a b c : SeqSt} (h : Good a b) (k : Good b c) : Good a c :=
  ⟨k.inv, h.step.trans (k.step.mono fun _ hr => okAt_trans h.step hr)⟩

theorem Good.refl {s : SeqSt} (h : s.Inv) : Good s s := ⟨h, .refl _ _⟩

theorem Good.of_step {ok} {s s' : SeqSt} (hi : s.Inv) (h : Step ok s s')
    (hok : ∀ r, ok r → s'.GenOk r.name) (hok' : ∀ r, ok r → s.okAt r) : Good s s' :=
  ⟨hi.step h hok, h.mono hok'⟩

/-- Changes that affect neither code nor reset list nor the `If` reference. -/
theorem Good.book {s s' : SeqSt} (hi : s.Inv) (hn : s'.name = s.name)
    (hd : s'.delayed = s.delayed) (hb : s'.body = s.body) (hv : s'.dstVar = s.dstVar)
    (hl : s'.lastIf = s.lastIf ∨ s'.lastIf = none) (ht : s.tmpCount ≤ s'.tmpCount)
    (hm : s.modTmp ≤ s'.modTmp) (hp : ∀ e ∈ s.prevDict, e ∈ s'.prevDict) : Good s s' := by
  refine .of_step (ok := fun _ => False) hi (.book hn hd hb hv ?_ ht hm hp) (by simp) (by simp)
  intro h i hi
  rcases hl with hl | hl
  · rw [hb]; exact h i (hl ▸ hi)
  · rw [hl] at hi; simp at hi

theorem Good.pushBody {s : SeqSt} (hi : s.Inv) (it : Item)
    (h : ∀ r ∈ it.code.targets, r.name.genBy s.name = false) : Good s (s.pushBody it) := by
  refine .of_step (ok := fun r => r.name.genBy s.name = false) hi (.pushBody s it h) ?_
    fun r hr => Or.inl hr
  intro r hr
  exact genOk_of_not_genBy (by simpa [SeqSt.pushBody] using hr)

theorem Good.pushDelayed {s : SeqSt} (hi : s.Inv) (d : Nat) (hd : 0 < d) (c : Code)
    (h : ∀ r ∈ c.targets, r.name.genBy s.name = false) : Good s (s.pushDelayed d c) := by
  refine .of_step (ok := fun r => r.name.genBy s.name = false) hi (.pushDelayed s d hd c h) ?_
    fun r hr => Or.inl hr
  intro r hr
  exact genOk_of_not_genBy (by simpa [SeqSt.pushDelayed] using hr)

theorem cond_fresh {s : SeqSt} (hi : s.Inv) (i : Nat) :
    (condReg s.name s.tmpCount i).name ∉ s.dstNames := by
  intro h
  have := hi.gen _ h rfl
  omega

theorem sbst_fresh {s : SeqSt} (hi : s.Inv) (left : Reg) (i : Nat) :
    (sbstReg s.name left s.tmpCount i).name ∉ s.dstNames := by
  intro h
  have := hi.gen _ h rfl
  omega

theorem Good.bump {s : SeqSt} (hi : s.Inv) : Good s { s with tmpCount := s.tmpCount + 1 } :=
  .book hi rfl rfl rfl rfl (Or.inl rfl) (by simp) (Nat.le_refl _) fun _ => id

theorem Good.addDelayedCond {s : SeqSt} (hi : s.Inv) (c : Expr) (n : Nat) :
    Good s (s.addDelayedCond c n).2 := by
  have hst := pipeLoop_step (ok := fun r => ∃ j, r = condReg s.name s.tmpCount j)
    (condReg s.name s.tmpCount) n 0 c { s with tmpCount := s.tmpCount + 1 }
    fun j _ _ => ⟨j, rfl⟩
  have hf := pipeLoop_fields (condReg s.name s.tmpCount) n 0 c
    { s with tmpCount := s.tmpCount + 1 }
  have he : (s.addDelayedCond c n).2 = (pipeLoop (condReg s.name s.tmpCount) n 0 c
    { s with tmpCount := s.tmpCount + 1 }).2 := rfl
  rw [he]
  refine (Good.bump hi).trans (.of_step (Good.bump hi).inv hst ?_ ?_)
  · rintro r ⟨j, rfl⟩ ho
    rw [hf.1]; simp
  · rintro r ⟨j, rfl⟩
    exact Or.inr (cond_fresh hi j)

theorem Good.addDelayedSubst {s : SeqSt} (hi : s.Inv) (c : Code) (n : Nat) :
    Good s (s.addDelayedSubst c n).2 := by
  unfold SeqSt.addDelayedSubst
  split
  · rename_i left f
    have hst := pipeLoop_step (ok := fun r => ∃ j, r = sbstReg s.name left s.tmpCount j)
      (sbstReg s.name left s.tmpCount) n 0 (.fn f) { s with tmpCount := s.tmpCount + 1 }
      fun j _ _ => ⟨j, rfl⟩
    have hf := pipeLoop_fields (sbstReg s.name left s.tmpCount) n 0 (.fn f)
      { s with tmpCount := s.tmpCount + 1 }
    refine (Good.bump hi).trans (.of_step (Good.bump hi).inv hst ?_ ?_)
    · rintro r ⟨j, rfl⟩ ho
      rw [hf.1]; simp
    · rintro r ⟨j, rfl⟩
      exact Or.inr (sbst_fresh hi left j)
  · exact .refl hi

theorem addDelayedSubst_targets (s : SeqSt) (c : Code) (n : Nat) :
    (s.addDelayedSubst c n).1.targets = c.targets := by
  unfold SeqSt.addDelayedSubst
  split <;> simp [Code.targets]

theorem Good.addDelayedSubsts {s : SeqSt} (hi : s.Inv) (cs : List Code) (n : Nat) :
    Good s (s.addDelayedSubsts cs n).2 ∧
      (s.addDelayedSubsts cs n).1.map Code.targets = cs.map Code.targets := by
  induction cs generalizing s with
  | nil => exact ⟨.refl hi, rfl⟩
  | cons c cs ih =>
    have h1 := Good.addDelayedSubst hi c n
    have h2 := ih h1.inv
    refine ⟨h1.trans h2.1, ?_⟩
    show (s.addDelayedSubst c n).1.targets :: _ = _
    rw [addDelayedSubst_targets]
    exact congrArg (c.targets :: ·) h2.2

theorem Good.addDelayed {s : SeqSt} (hi : s.Inv) (stmts : List Code) (n : Nat) (hn : 0 < n)
    (cond : Option Expr) (lz eager : Bool)
    (h : ∀ c ∈ stmts, ∀ r ∈ c.targets, r.name.genBy s.name = false) :
    Good s (s.addDelayed stmts n cond lz eager) := by
  have key : ∀ s1 : SeqSt, Good s s1 → ∀ stmts' : List Code,
      stmts'.map Code.targets = stmts.map Code.targets → ∀ g : Expr,
      Good s (s1.pushDelayed n (.ite g (Code.block stmts') .skip)) := by
    intro s1 hg stmts' hm g
    refine hg.trans (.pushDelayed hg.inv n hn _ ?_)
    intro r hr
    simp only [Code.targets, Code.targets_block, List.append_nil, List.mem_flatMap] at hr
    obtain ⟨c, hc, hr⟩ := hr
    have : c.targets ∈ stmts.map Code.targets := hm ▸ List.mem_map_of_mem hc
    obtain ⟨c', hc', he⟩ := List.mem_map.1 this
    rw [hg.step.name]
    exact h c' hc' r (he ▸ hr)
  unfold SeqSt.addDelayed
  cases eager with
  | false =>
    cases lz with
    | false => exact key _ (.addDelayedCond hi _ n) stmts rfl _
    | true => exact key _ (.addDelayedCond hi _ n) stmts rfl _
  | true =>
    have h1 := Good.addDelayedSubsts hi stmts n
    cases lz with
    | false => exact key _ (h1.1.trans (.addDelayedCond h1.1.inv _ n)) _ h1.2 _
    | true => exact key _ (h1.1.trans (.addDelayedCond h1.1.inv _ n)) _ h1.2 _

/-- Adding a new `If` object and remembering it. -/
theorem Good.pushIf {s : SeqSt} (hi : s.Inv) (c : Expr) (b : Code)
    (h : ∀ r ∈ b.targets, s.okAt r) (hg : ∀ r ∈ b.targets, s.GenOk r.name) :
    Good s ({ s with lastIf := some s.body.length }.pushBody (.chain [(c, b)] none)) := by
  have ht : ∀ r ∈ (Item.chain [(c, b)] none).code.targets, r ∈ b.targets := by
    intro r hr
    simpa [Item.code, chainCode, Code.targets] using hr
  have hp := Grows.one (Prim.body (ok := fun r => r ∈ b.targets)
    (s := { s with lastIf := some s.body.length }) (.chain [(c, b)] none) ht)
  have hb : Grows (fun r => r ∈ b.targets) s { s with lastIf := some s.body.length } :=
    .one (.book rfl rfl rfl rfl)
  refine .of_step (ok := fun r => r ∈ b.targets) hi ⟨hb.trans hp, ?_, ?_, ?_, ?_⟩ ?_ h
  · intro _ i hi
    have : s.body.length = i := by simpa [SeqSt.pushBody] using hi
    subst this
    exact ⟨[(c, b)], by simp [SeqSt.pushBody]⟩
  · simp [SeqSt.pushBody]
  · simp [SeqSt.pushBody]
  · simp [SeqSt.pushBody]
  · intro r hr
    have := hg r hr
    revert this
    cases r.name <;> simp [GenOk, SeqSt.pushBody]

theorem Good.addStatement1 {s : SeqSt} (hi : s.Inv) (stmts : List Code) (d : Nat)
    (cond : Option Expr) (lz eager : Bool)
    (h : ∀ c ∈ stmts, ∀ r ∈ c.targets, r.name.genBy s.name = false) :
    Good s (s.addStatement1 stmts d cond lz eager) := by
  unfold SeqSt.addStatement1
  split
  · split
    · rename_i c
      have hb : ∀ r ∈ (Code.block stmts).targets, r.name.genBy s.name = false := by
        intro r hr
        simp only [Code.targets_block, List.mem_flatMap] at hr
        obtain ⟨c, hc, hr⟩ := hr
        exact h c hc r hr
      exact .pushIf hi c _ (fun r hr => Or.inl (hb r hr)) fun r hr => genOk_of_not_genBy (hb r hr)
    · induction stmts generalizing s with
      | nil => exact .refl hi
      | cons c cs ih =>
        simp only [List.foldl_cons]
        have h1 := Good.pushBody hi (.plain c) (h c (by simp))
        refine h1.trans (ih h1.inv fun c' hc' r hr => ?_)
        rw [h1.step.name]
        exact h c' (by simp [hc']) r hr
  · exact .addDelayed hi stmts d (by omega) cond lz eager h

theorem Good.addStatement {s : SeqSt} (hi : s.Inv) (stmts : List Code) (kw : Kwargs)
    (h : ∀ c ∈ stmts, ∀ r ∈ c.targets, r.name.genBy s.name = false) :
    Good s (s.addStatement stmts kw) := by
  unfold SeqSt.addStatement
  simp only
  split
  · rename_i m hm
    generalize List.range m = l
    clear hm
    induction l generalizing s with
    | nil => exact .refl hi
    | cons i l ih =>
      simp only [List.foldl_cons]
      have h1 := Good.addStatement1 hi stmts (kw.delay.getD 0 + i) kw.cond
        (kw.lazyCond.getD false) (kw.eagerVal.getD false) h
      refine h1.trans (ih h1.inv fun c' hc' r hr => ?_)
      rw [h1.step.name]
      exact h c' hc' r hr
  · exact .addStatement1 hi stmts _ _ _ _ h

theorem block_ok {s : SeqSt} {stmts : List Code}
    (h : ∀ c ∈ stmts, ∀ r ∈ c.targets, r.name.genBy s.name = false) :
    ∀ r ∈ (Code.block stmts).targets, r.name.genBy s.name = false := by
  intro r hr
  simp only [Code.targets_block, List.mem_flatMap] at hr
  obtain ⟨c, hc, hr⟩ := hr
  exact h c hc r hr

theorem Good.add {s s' : SeqSt} (hi : s.Inv) (stmts : List Code)
    (h : ∀ c ∈ stmts, ∀ r ∈ c.targets, r.name.genBy s.name = false)
    (hs : s.add stmts = some s') : Good s s' := by
  have g0 : Good s { s with lastDelay := s.next.delay, next := {} } :=
    .book hi rfl rfl rfl rfl (Or.inl rfl) (Nat.le_refl _) (Nat.le_refl _) fun _ => id
  have h' : ∀ c ∈ stmts, ∀ r ∈ c.targets,
      r.name.genBy ({ s with lastDelay := s.next.delay, next := {} } : SeqSt).name = false := h
  refine g0.trans ?_
  have hs0 := g0.inv
  unfold SeqSt.add at hs
  generalize hkw : s.next = kw at hs
  rw [hkw] at g0 h' hs0
  generalize ({ s with lastDelay := kw.delay, next := {} } : SeqSt) = s0 at *
  unfold SeqSt.addKw at hs
  split at hs
  · split at hs
    · rename_i c _ _ _ i hl
      simp only [Option.some.injEq] at hs
      subst hs
      have hst : Step (fun r => r.name.genBy s0.name = false) s0
          { s0.extendElif i c (Code.block stmts) with elifCond := none } := by
        refine ⟨.tail (.one (.elif i c _ (block_ok h'))) (.book rfl rfl rfl rfl), ?_, ?_, ?_, ?_⟩
        · intro hL j hj
          have hj' : s0.lastIf = some j := by simpa [extendElif] using hj
          obtain ⟨bs, hb⟩ := hL j hj'
          have : i = j := by rw [hl] at hj'; simpa using hj'
          subst this
          refine ⟨bs ++ [(c, Code.block stmts)], ?_⟩
          simp only [extendElif, addDst_body]
          rw [List.getElem?_modify, hb]
          simp
        · simp [extendElif]
        · simp [extendElif]
        · simp [extendElif]
      refine .of_step hs0 hst ?_ fun r hr => Or.inl hr
      intro r hr
      exact genOk_of_not_genBy (by simpa [extendElif] using hr)
    · simp at hs
  · split at hs
    · split at hs
      · rename_i i hl
        simp only [Option.some.injEq] at hs
        subst hs
        have hst : Step (fun r => r.name.genBy s0.name = false) s0
            { s0.extendElse i (Code.block stmts) with
              lastIf := none, nextElse := false, elifCond := none } := by
          refine ⟨.tail (.one (.els i _ (block_ok h'))) (.book rfl rfl rfl rfl), ?_, ?_, ?_, ?_⟩
          · intro hL j hj
            simp at hj
          · simp [extendElse]
          · simp [extendElse]
          · simp [extendElse]
        refine .of_step hs0 hst ?_ fun r hr => Or.inl hr
        intro r hr
        exact genOk_of_not_genBy (by simpa [extendElse] using hr)
      · simp at hs
    · simp only [Option.some.injEq] at hs
      subst hs
      have g1 : Good s0 { s0 with lastIf := none, nextElse := false } :=
        .book hs0 rfl rfl rfl rfl (Or.inr rfl) (Nat.le_refl _) (Nat.le_refl _) fun _ => id
      exact g1.trans (.addStatement g1.inv stmts _ h')

theorem lookupPrev_none {s : SeqSt} {key : String × Nat} (h : s.lookupPrev key = none) :
    ∀ r, (key, r) ∉ s.prevDict := by
  intro r hm
  unfold lookupPrev at h
  rw [Option.map_eq_none_iff, List.find?_eq_none] at h
  simpa using h _ hm

/-- Creating one unconditional `Prev` register. -/
theorem Good.prevStage {s : SeqSt} (hi : s.Inv) (pfx : String) (var : Reg) (init : Int) (i : Nat)
    (p : Reg) (h : s.lookupPrev (pfx, i) = none) :
    Good s ({ s with prevDict := s.prevDict ++ [((pfx, i), prevReg pfx var init i)] }.pushBody
      (.plain (.subst (prevReg pfx var init i) (.var p.name)))) := by
  have g1 : Good s { s with prevDict := s.prevDict ++ [((pfx, i), prevReg pfx var init i)] } :=
    .book hi rfl rfl rfl rfl (Or.inl rfl) (Nat.le_refl _) (Nat.le_refl _) fun e he => by simp [he]
  refine g1.trans (.of_step (ok := fun r => r = prevReg pfx var init i) g1.inv
    (.pushBody _ _ ?_) ?_ ?_)
  · intro r hr
    simpa [Item.code, Code.targets] using hr
  · rintro r rfl
    exact ⟨prevReg pfx var init i, by simp [SeqSt.pushBody]⟩
  · rintro r rfl
    right
    intro hm
    have hm' : (prevReg pfx var init i).name ∈ s.dstNames := hm
    obtain ⟨r, hr⟩ := hi.gen _ hm'
    exact lookupPrev_none h r hr

theorem Good.prevLoop {s : SeqSt} (hi : s.Inv) (pfx : String) (var : Reg) (init : Int) (m i : Nat)
    (p : Reg) : Good s (prevLoop pfx var init m i p s).2 := by
  induction m generalizing s i p with
  | zero => exact .refl hi
  | succ m ih =>
    unfold SeqSt.prevLoop
    split
    · exact ih hi _ _
    · rename_i h
      have g := Good.prevStage hi pfx var init (i + 1) p h
      exact g.trans (ih g.inv _ _)

theorem Good.prevCondLoop {s : SeqSt} (hi : s.Inv) (var : Reg) (init : Int) (c : Expr) (m : Nat)
    (p : Reg) : Good s (prevCondLoop var init c m p s).2 := by
  induction m generalizing s p with
  | zero => exact .refl hi
  | succ m ih =>
    unfold SeqSt.prevCondLoop
    have g1 : Good s { s with modTmp := s.modTmp + 1 } :=
      .book hi rfl rfl rfl rfl (Or.inl rfl) (Nat.le_refl _) (by simp) fun _ => id
    have g2 := Good.pushIf g1.inv c
      (.block [.subst ⟨.tmp s.modTmp, var.width, var.signed, some init⟩ (.var p.name)])
      (by
        intro r hr
        simp only [Code.block, Code.targets, List.append_nil, List.mem_singleton] at hr
        subst hr
        right
        intro hm
        have hm' : Var.tmp s.modTmp ∈ s.dstNames := hm
        have := hi.gen _ hm'
        simp [GenOk] at this)
      (by
        intro r hr
        simp only [Code.block, Code.targets, List.append_nil, List.mem_singleton] at hr
        subst hr
        simp [GenOk])
    exact (g1.trans g2).trans (ih (g1.trans g2).inv _)

theorem Good.prev {s : SeqSt} (hi : s.Inv) (pfx : String) (var : Reg) (n : Nat) (init : Int)
    (c : Option Expr) : Good s (s.prev pfx var n init c).2 := by
  unfold SeqSt.prev
  split
  · exact .refl hi
  · split
    · exact .refl hi
    · split
      · exact .prevLoop hi _ _ _ _ _ _
      · exact .prevCondLoop hi _ _ _ _ _

theorem iff_fields (s : SeqSt) (cs : List Expr) :
    (s.iff cs).name = s.name ∧ (s.iff cs).delayed = s.delayed ∧ (s.iff cs).body = s.body ∧
    (s.iff cs).dstVar = s.dstVar ∧ (s.iff cs).lastIf = s.lastIf ∧
    (s.iff cs).tmpCount = s.tmpCount ∧ (s.iff cs).modTmp = s.modTmp ∧
    (s.iff cs).prevDict = s.prevDict := by
  unfold SeqSt.iff
  cases makeCond cs <;> simp

theorem thn_fields (s : SeqSt) :
    s.thn.name = s.name ∧ s.thn.delayed = s.delayed ∧ s.thn.body = s.body ∧
    s.thn.dstVar = s.dstVar ∧ s.thn.lastIf = s.lastIf ∧ s.thn.tmpCount = s.tmpCount ∧
    s.thn.modTmp = s.modTmp ∧ s.thn.prevDict = s.prevDict := by
  unfold SeqSt.thn
  simpa using iff_fields { s with lastCond := [] } (makeCond s.lastCond).toList

theorem Good.book_eq {s s' : SeqSt} (hi : s.Inv)
    (h : s'.name = s.name ∧ s'.delayed = s.delayed ∧ s'.body = s.body ∧
      s'.dstVar = s.dstVar ∧ s'.lastIf = s.lastIf ∧ s'.tmpCount = s.tmpCount ∧
      s'.modTmp = s.modTmp ∧ s'.prevDict = s.prevDict) : Good s s' :=
  .book hi h.1 h.2.1 h.2.2.1 h.2.2.2.1 (Or.inl h.2.2.2.2.1) (by omega) (by omega)
    (by rw [h.2.2.2.2.2.2.2]; exact fun _ => id)

/-- Every API call preserves the invariant and leaves existing generated registers alone. -/
theorem Good.apply {s s' : SeqSt} (hi : s.Inv) (op : SeqOp) (ho : op.Ok s.name)
    (hs : op.apply s = some s') : Good s s' := by
  cases op with
  | iff cs =>
    simp only [SeqOp.apply, Option.some.injEq] at hs
    subst hs
    exact .book_eq hi (iff_fields s cs)
  | els =>
    simp only [SeqOp.apply, SeqSt.els] at hs
    split at hs
    · simp at hs
    · split at hs
      · simp only [Option.some.injEq] at hs
        subst hs
        refine .book_eq hi ?_
        have := thn_fields { s with elifCond := none, lastCond := negLast s.lastCond }
        simpa using this
      · split at hs
        · simp at hs
        · simp only [Option.some.injEq] at hs
          subst hs
          exact .book_eq hi (by simp)
  | elif c cs =>
    simp only [SeqOp.apply, SeqSt.elif] at hs
    split at hs
    · simp at hs
    · split at hs
      · simp only [Option.some.injEq] at hs
        subst hs
        refine .book_eq hi ?_
        have := thn_fields { s with lastCond := negLast s.lastCond ++ [cs.foldl Expr.and c] }
        simpa using this
      · split at hs
        · simp at hs
        · simp only [Option.some.injEq] at hs
          subst hs
          exact .book_eq hi (by simp)
  | thn =>
    simp only [SeqOp.apply, Option.some.injEq] at hs
    subst hs
    exact .book_eq hi (thn_fields s)
  | delay n | keep n | lazyCond n | eagerVal n =>
    simp only [SeqOp.apply, Option.some.injEq] at hs
    subst hs
    exact .book_eq hi (by simp)
  | clear =>
    simp only [SeqOp.apply, Option.some.injEq] at hs
    subst hs
    exact .book hi rfl rfl rfl rfl (Or.inr rfl) (Nat.le_refl _) (Nat.le_refl _) fun _ => id
  | add stmts => exact .add hi stmts ho hs
  | prev pfx v n i c =>
    simp only [SeqOp.apply, Option.some.injEq] at hs
    subst hs
    exact .prev hi pfx v n i c
  | addReset r =>
    simp only [SeqOp.apply, Option.some.injEq] at hs
    subst hs
    have ho' : r.name.genBy s.name = false := ho
    refine .of_step (ok := fun r => r.name.genBy s.name = false) hi
      ⟨.one (.reset r ho'), ?_, by simp [SeqSt.addReset], by simp [SeqSt.addReset],
        by simp [SeqSt.addReset]⟩ ?_ fun r hr => Or.inl hr
    · intro hL i hi
      have hi' : s.lastIf = some i := by simpa [SeqSt.addReset] using hi
      obtain ⟨bs, hb⟩ := hL i hi'
      exact ⟨bs, by simpa [SeqSt.addReset] using hb⟩
    · intro r hr
      exact genOk_of_not_genBy (by simpa [SeqSt.addReset] using hr)

theorem Good.applyAll {s s' : SeqSt} (hi : s.Inv) (ops : List SeqOp)
    (ho : ∀ op ∈ ops, op.Ok s.name) (hs : s.applyAll ops = some s') : Good s s' := by
  induction ops generalizing s with
  | nil =>
    simp only [SeqSt.applyAll, Option.some.injEq] at hs
    subst hs
    exact .refl hi
  | cons op ops ih =>
    simp only [SeqSt.applyAll, Option.bind_eq_some_iff] at hs
    obtain ⟨s1, h1, h2⟩ := hs
    have g := Good.apply hi op (ho op (by simp)) h1
    refine g.trans (ih g.inv (fun o hm => ?_) h2)
    rw [g.step.name]
    exact ho o (by simp [hm])

theorem inv_fresh (name : String) : (SeqSt.fresh name).Inv := by
  refine ⟨?_, by simp [SeqSt.fresh, dstNames], by simp [SeqSt.fresh, dstNames], ?_⟩
  · intro c hc
    simp [SeqSt.fresh, mem_makeCode] at hc
  · intro i hi
    simp [SeqSt.fresh] at hi

/-- A generated register keeps its meaning whatever is added afterwards. -/
theorem PipeAt.good {s s' : SeqSt} {r : Reg} {e : Expr} (p : PipeAt s r e) (g : Good s s')
    (hr : r.name.genBy s.name = true) : PipeAt s' r e := by
  refine p.grows g.step.grows ?_
  rintro r' (h | h) he
  · rw [he, hr] at h; simp at h
  · exact h (he ▸ List.mem_map_of_mem p.1)

end SeqSt
end Hdl
