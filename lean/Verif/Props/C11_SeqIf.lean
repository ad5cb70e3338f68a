import Verif.Lemmas.SeqRun

/-!
# C11: If/Elif/Else chains of `Seq`

A chain `seq.If(c1)(s1)`, `seq.Elif(c2)(s2)`, ..., `seq.Else(sn)` executes at every clock edge
exactly the statements of the first branch whose condition holds.  `seq.Then()` afterwards refers
to the branch written last.
-/

namespace Hdl

/-- One branch as the user writes it: conditions (conjunction) and statements. -/
structure Branch where
  c : Expr
  cs : List Expr := []
  stmts : List Code

/-- All conditions of the branch hold. -/
def Branch.holds (b : Branch) (env : Env) : Bool := (b.c :: b.cs).all fun c => c.truthy env

/-- The calls `If(..)(..)`, `Elif(..)(..)` ..., `Else(..)`. -/
def chainCalls (first : Branch) (rest : List Branch) (els : Option (List Code)) : List SeqOp :=
  [.iff (first.c :: first.cs), .add first.stmts] ++
  rest.flatMap (fun b => [.elif b.c b.cs, .add b.stmts]) ++
  (match els with
    | none => []
    | some e => [.els, .add e])

/-- The statements that must take effect: those of the first branch that holds, else the else
    branch. -/
def selected (branches : List Branch) (els : Option (List Code)) (env : Env) : List Code :=
  match branches.find? (fun b => b.holds env) with
  | some b => b.stmts
  | none => els.getD []

/-- The condition under which the branch of the chain written last is the one executed. -/
def lastSelected (branches : List Branch) (els : Option (List Code)) (env : Env) : Bool :=
  match els with
  | none => branches.dropLast.all (fun b => !b.holds env) &&
      (branches.getLast?.any fun b => b.holds env)
  | some _ => branches.all fun b => !b.holds env

/-- No call is half-finished: no attributes are pending for the next statement. -/
def SeqSt.Ready (s : SeqSt) : Prop := s.next = {} ∧ s.nextElse = false

namespace SeqSt

theorem truthy_foldl (cs : List Expr) (c : Expr) (env : Env) :
    (cs.foldl Expr.and c).truthy env = (c :: cs).all fun c => c.truthy env := by
  induction cs generalizing c with
  | nil => simp
  | cons d cs ih => rw [List.foldl_cons, ih]; simp [Expr.truthy_and, Bool.and_assoc]

theorem truthy_makeCond (l : List Expr) (e : Expr) (h : makeCond l = some e) (env : Env) :
    e.truthy env = l.all fun c => c.truthy env := by
  cases l with
  | nil => simp [makeCond] at h
  | cons c cs =>
    simp only [makeCond, Option.some.injEq] at h
    rw [← h, truthy_foldl]

def Branch' (b : Branch) : Expr × Code := (b.cs.foldl Expr.and b.c, Code.block b.stmts)

/-- The builder in the middle of a chain whose branches so far are `init ++ [last]`. -/
structure Mid (s s1 : SeqSt) (init : List Branch) (last : Branch) : Prop where
  delayed : s1.delayed = s.delayed
  body : s1.body = s.body ++ [.chain ((init ++ [last]).map Branch') none]
  lastIf : s1.lastIf = some s.body.length
  elif : s1.elifCond = none
  next : s1.next = {}
  nextElse : s1.nextElse = false
  lastDelay : s1.lastDelay = none
  lastCond : s1.lastCond = init.map (fun b => (Branch' b).1.not) ++ [(Branch' last).1]

theorem mid_first (s : SeqSt) (h : s.Ready) (b : Branch) :
    ∃ s1, s.applyAll [.iff (b.c :: b.cs), .add b.stmts] = some s1 ∧ Mid s s1 [] b := by
  obtain ⟨hn, he⟩ := h
  simp only [SeqSt.applyAll, SeqOp.apply, SeqSt.iff, makeCond, hn, Option.bind_some, SeqSt.add,
    SeqSt.addKw, Kwargs.hasArgs, he, SeqSt.addStatement, SeqSt.addStatement1]
  refine ⟨_, rfl, ?_⟩
  constructor <;> simp [SeqSt.pushBody, Branch']

theorem negLast_append (l : List Expr) (c : Expr) : negLast (l ++ [c]) = l ++ [c.not] := by
  simp [negLast]

theorem modify_append_length {α} (l : List α) (a : α) (f : α → α) :
    (l ++ [a]).modify l.length f = l ++ [f a] := by
  induction l with
  | nil => simp
  | cons b l ih => simp [ih]

theorem makeCond_snoc (l : List Expr) (c : Expr) : ∃ e, makeCond (l ++ [c]) = some e := by
  cases l with
  | nil => exact ⟨_, rfl⟩
  | cons a l => exact ⟨_, rfl⟩

theorem mid_elif (s s1 : SeqSt) (init : List Branch) (last : Branch) (h : Mid s s1 init last)
    (b : Branch) :
    ∃ s2, s1.applyAll [.elif b.c b.cs, .add b.stmts] = some s2 ∧ Mid s s2 (init ++ [last]) b := by
  obtain ⟨e, hm⟩ := makeCond_snoc (init.map (fun b => (Branch' b).1.not) ++ [(Branch' last).1.not])
    (b.cs.foldl Expr.and b.c)
  have hne : init.map (fun b => (Branch' b).1.not) ++ [(Branch' last).1] ≠ [] := by simp
  simp only [SeqSt.applyAll, SeqOp.apply, SeqSt.elif, h.lastCond, if_neg hne, negLast_append,
    h.lastDelay, h.lastIf, hm, h.next, Option.getD_none, gt_iff_lt, Nat.lt_irrefl, if_false,
    Option.bind_some, SeqSt.add, SeqSt.addKw, Kwargs.hasArgs, Option.isSome_none, Bool.or_self]
  refine ⟨_, rfl, ?_⟩
  constructor
  · simp [extendElif, h.delayed]
  · simp only [extendElif, addDst_body, h.body, modify_append_length]
    simp [Branch']
  · simp [extendElif, h.lastIf]
  · rfl
  · simp [extendElif]
  · simp [extendElif, h.nextElse]
  · simp [extendElif]
  · simp [extendElif, Branch']

/-- After the whole chain: the code gained one if-chain at its end. -/
structure Fin (s s1 : SeqSt) (branches : List Branch) (els : Option (List Code)) : Prop where
  delayed : s1.delayed = s.delayed
  body : s1.body = s.body ++ [.chain (branches.map Branch') (els.map Code.block)]
  elif : s1.elifCond = none
  next : s1.next = {}
  nextElse : s1.nextElse = false
  lastCond : ∃ l, s1.lastCond = l ∧ l ≠ [] ∧ ∀ env, l.all (fun c => c.truthy env) =
    lastSelected branches els env

theorem truthy_Branch' (b : Branch) (env : Env) : (Branch' b).1.truthy env = b.holds env := by
  simp [Branch', truthy_foldl, Branch.holds]

theorem applyAll_append (s s1 s2 : SeqSt) (a b : List SeqOp) (h1 : s.applyAll a = some s1)
    (h2 : s1.applyAll b = some s2) : s.applyAll (a ++ b) = some s2 := by
  induction a generalizing s with
  | nil => simp only [SeqSt.applyAll, Option.some.injEq] at h1; subst h1; exact h2
  | cons op a ih =>
    simp only [List.cons_append, SeqSt.applyAll, Option.bind_eq_some_iff] at h1 ⊢
    obtain ⟨s', ha, hb⟩ := h1
    exact ⟨s', ha, ih s' hb⟩

theorem fin_chain (s s1 : SeqSt) (init : List Branch) (last : Branch) (h : Mid s s1 init last)
    (rest : List Branch) (els : Option (List Code)) :
    ∃ s2, s1.applyAll (rest.flatMap (fun b => [.elif b.c b.cs, .add b.stmts]) ++
        (match els with
          | none => []
          | some e => [.els, .add e])) = some s2 ∧
      Fin s s2 (init ++ [last] ++ rest) els := by
  induction rest generalizing s1 init last with
  | cons b rest ih =>
    obtain ⟨s2, h2, hm⟩ := mid_elif s s1 init last h b
    obtain ⟨s3, h3, hf⟩ := ih s2 (init ++ [last]) b hm
    refine ⟨s3, ?_, by simpa using hf⟩
    simp only [List.flatMap_cons, List.append_assoc]
    exact applyAll_append _ _ _ _ _ h2 h3
  | nil =>
    cases els with
    | none =>
      refine ⟨s1, rfl, ?_⟩
      refine ⟨h.delayed, by simp [h.body], h.elif, h.next, h.nextElse,
        ⟨_, h.lastCond, by simp, fun env => ?_⟩⟩
      simp only [lastSelected, List.all_append, List.all_map, Function.comp_def, Expr.truthy_not,
        truthy_Branch', List.all_cons, List.all_nil, Bool.and_true, List.append_nil,
        List.dropLast_concat, List.getLast?_concat, Option.any_some]
    | some e =>
      have hne : init.map (fun b => (Branch' b).1.not) ++ [(Branch' last).1] ≠ [] := by simp
      obtain ⟨q, hq⟩ := makeCond_snoc (init.map (fun b => (Branch' b).1.not))
        ((Branch' last).1.not)
      simp only [List.flatMap_nil, List.nil_append, SeqSt.applyAll, SeqOp.apply, SeqSt.els,
        h.lastCond, if_neg hne, negLast_append, h.lastDelay, h.lastIf, hq, h.next,
        Option.getD_none, gt_iff_lt, Nat.lt_irrefl, if_false, Option.bind_some, SeqSt.add,
        SeqSt.addKw, Kwargs.hasArgs, Option.isSome_none, Bool.or_self, Bool.not_false,
        Bool.and_self, if_true, List.append_nil]
      refine ⟨_, rfl, ?_, ?_, rfl, ?_, rfl, ?_⟩
      · simp [extendElse, h.delayed]
      · simp only [extendElse, addDst_body, h.body, modify_append_length]
        simp
      · simp [extendElse]
      · refine ⟨init.map (fun b => (Branch' b).1.not) ++ [(Branch' last).1.not],
          by simp [extendElse], by simp, fun env => ?_⟩
        simp [lastSelected, Function.comp_def, Expr.truthy_not, truthy_Branch']

theorem exec_of_body (s s1 : SeqSt) (it : Item) (hd : s1.delayed = s.delayed)
    (hb : s1.body = s.body ++ [it]) (env acc : Env) :
    (Code.block s1.makeCode).exec env acc =
      it.code.exec env ((Code.block s.makeCode).exec env acc) := by
  funext x
  rw [Code.exec_eq_trace, Code.exec_eq_trace, Code.exec_eq_trace, Code.trace_block,
    Code.trace_block]
  have hp : s1.makeCode = (s.pushBody it).makeCode :=
    makeCode_congr (by simp [pushBody, hd]) (by simp [pushBody, hb])
  rw [hp, trace_pushBody, List.getLast?_append]
  cases (it.code.trace env x).getLast? <;> simp

theorem exec_chain (branches : List Branch) (els : Option (List Code)) (env acc : Env) :
    (chainCode (branches.map Branch') (els.map Code.block)).exec env acc =
      (Code.block (selected branches els env)).exec env acc := by
  funext x
  rw [Code.exec_eq_trace, Code.exec_eq_trace, chainCode_trace, List.find?_map]
  have hp : (fun b : Expr × Code => b.1.truthy env) ∘ Branch' = fun b => b.holds env := by
    funext b; exact truthy_Branch' b env
  rw [hp]
  unfold selected
  cases branches.find? (fun b => b.holds env) with
  | some b => simp [Branch']
  | none => cases els <;> simp [Code.block, Code.trace]

end SeqSt

open SeqSt

/-- **C11.** Whatever was built before, a chain `If(c1)(s1)`, `Elif(c2)(s2)`, ..., `Else(sn)` is
    accepted, and in the generated block the statements of the first branch whose conditions hold
    (or the else branch, or nothing) are executed after everything written before. -/
theorem c11_if_chain (s : SeqSt) (hs : s.Ready) (first : Branch) (rest : List Branch)
    (els : Option (List Code)) :
    ∃ s', s.applyAll (chainCalls first rest els) = some s' ∧ s'.Ready ∧
      ∀ env acc, (Code.block s'.makeCode).exec env acc =
        (Code.block (selected (first :: rest) els env)).exec env
          ((Code.block s.makeCode).exec env acc) := by
  obtain ⟨s1, h1, hm⟩ := mid_first s hs first
  obtain ⟨s2, h2, hf⟩ := fin_chain s s1 [] first hm rest els
  refine ⟨s2, ?_, ⟨hf.next, hf.nextElse⟩, fun env acc => ?_⟩
  · unfold chainCalls
    rw [List.append_assoc]
    exact applyAll_append _ _ _ _ _ h1 h2
  · rw [exec_of_body s s2 _ hf.delayed hf.body, Item.code]
    exact exec_chain (first :: rest) els env _

/-- **C11, Then.** After a chain, `Then()(stmts)` executes `stmts` exactly at the edges at which the
    branch written last is executed. -/
theorem c11_then (s : SeqSt) (hs : s.Ready) (first : Branch) (rest : List Branch)
    (els : Option (List Code)) (stmts : List Code) :
    ∃ s' s'', s.applyAll (chainCalls first rest els) = some s' ∧
      s'.applyAll [.thn, .add stmts] = some s'' ∧
      ∀ env acc, (Code.block s''.makeCode).exec env acc =
        (if lastSelected (first :: rest) els env then Code.block stmts else .skip).exec env
          ((Code.block s'.makeCode).exec env acc) := by
  obtain ⟨s1, h1, hm⟩ := mid_first s hs first
  obtain ⟨s2, h2, hf⟩ := fin_chain s s1 [] first hm rest els
  obtain ⟨l, hl, hne, hall⟩ := hf.lastCond
  obtain ⟨g, hg⟩ : ∃ g, makeCond l = some g := by
    cases l with
    | nil => exact absurd rfl hne
    | cons a l => exact ⟨_, rfl⟩
  have hit : ∃ s3, s2.applyAll [.thn, .add stmts] = some s3 ∧ s3.delayed = s2.delayed ∧
      s3.body = s2.body ++ [.chain [(g, Code.block stmts)] none] := by
    have ht : s2.thn = { s2 with next := { cond := some g }, lastCond := [g] } := by
      have h1 : makeCond [g] = some g := rfl
      unfold SeqSt.thn SeqSt.iff
      rw [hl, hg]
      simp only [Option.toList_some, h1, hf.next]
      have he := hf.elif
      rw [← he]
    simp only [SeqSt.applyAll, SeqOp.apply, Option.bind_some, ht, SeqSt.add, SeqSt.addKw,
      Kwargs.hasArgs, Option.isSome_none, Bool.or_self, hf.nextElse, hf.elif, Bool.false_and,
      Bool.false_eq_true, if_false, SeqSt.addStatement, SeqSt.addStatement1, Option.getD_none,
      if_true]
    exact ⟨_, rfl, by simp [pushBody], by simp [pushBody]⟩
  obtain ⟨s3, h3, hd3, hb3⟩ := hit
  refine ⟨s2, s3, ?_, h3, fun env acc => ?_⟩
  · unfold chainCalls
    rw [List.append_assoc]
    exact applyAll_append _ _ _ _ _ h1 h2
  · rw [exec_of_body s2 s3 _ hd3 hb3]
    have hgt : g.truthy env = lastSelected (first :: rest) els env := by
      rw [truthy_makeCond l g hg, hall]
      rfl
    simp only [Item.code, chainCode, Code.exec, hgt]
    split <;> rfl

/-- Example: three overlapping branches, the second one is taken. -/
example : selected
    [⟨.int 0, [], [.subst ⟨.user "a", 8, false, none⟩ (.int 1)]⟩,
     ⟨.var (.user "x"), [], [.subst ⟨.user "a", 8, false, none⟩ (.int 2)]⟩,
     ⟨.int 1, [], [.subst ⟨.user "a", 8, false, none⟩ (.int 3)]⟩] none (fun _ => 5) =
    [.subst ⟨.user "a", 8, false, none⟩ (.int 2)] := rfl

/-- Example: the hypotheses are met by a fresh Seq, and the chain stores 2 when `x` is non-zero. -/
example : ((SeqSt.fresh "s").applyAll (chainCalls
    ⟨.int 0, [], [.subst ⟨.user "a", 8, false, none⟩ (.int 1)]⟩
    [⟨.var (.user "x"), [], [.subst ⟨.user "a", 8, false, none⟩ (.int 2)]⟩]
    (some [.subst ⟨.user "a", 8, false, none⟩ (.int 3)]))).map
      (fun s => ((s.always none).tick (fun _ => 5) (.user "a"),
                 (s.always none).tick (fun _ => 0) (.user "a"))) = some (2, 3) := by decide

/-- **Disagreement.** `seq.If(c)(s1)` followed by `seq.Else.If(d)(s2)` drops the condition `d`: the
    pending `Else` swallows the statement, and `s2` is executed whenever `c` is false
    (seq/seq.py:121-127: `next_else` is tested, `kwargs['cond']` is not). -/
theorem c11_else_if_drops_condition :
    ∃ s', (SeqSt.fresh "s").applyAll
        [.iff [.var (.user "c")], .add [.subst ⟨.user "a", 8, false, none⟩ (.int 1)],
         .els, .iff [.var (.user "d")], .add [.subst ⟨.user "a", 8, false, none⟩ (.int 2)]] =
          some s' ∧
      (s'.always none).tick (fun _ => 0) (.user "a") = 2 := by
  refine ⟨_, rfl, ?_⟩
  decide

end Hdl
