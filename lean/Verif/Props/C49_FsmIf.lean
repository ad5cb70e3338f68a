import Verif.Props.C11_SeqIf
import Verif.Props.C16_FsmStep

/-!
# C49: If/Elif/Else chains of an FSM

Statements: `fsm.If(c1)(s1)`, `fsm.Elif(c2)(s2)`, ..., `fsm.Else(sn)` executes, at an edge at which the FSM is in the
state of the chain, exactly the statements of the first branch whose condition holds (`c49_chain`), and
`fsm.Then().goto(d)` afterwards jumps exactly when the branch written last is executed (`c49_then_goto`,
`c49_then_goto_next`).

Jumps: `fsm.If(c1).goto(d1)`, `fsm.Elif(c2).goto(d2)`, ..., `fsm.Else.goto(dn)` jumps to the destination of the first
branch whose condition holds, and to nowhere else (`c49_jumps`).  This holds when no `If` statement is open; when one
is, the pending `Else` is not used up by `goto` and the next statement written becomes its else branch
(`c49_not_after_if`).  After `goto_next` or `inc` there is no condition left: `Else` and `Elif` raise
(`c49_else_raises`).
-/

namespace Hdl

open SeqSt (Branch' truthy_Branch' negLast_append modify_append_length makeCond_snoc truthy_makeCond)

/-- The calls `When(i).If(..)(..)`, `Elif(..)(..)` ..., `Else(..)`. -/
def fsmChain (wh : Option Nat) (first : Branch) (rest : List Branch) (els : Option (List Code)) : List FsmOp :=
  whenIf wh (first.c :: first.cs) ++ [.add first.stmts] ++
  rest.flatMap (fun b => [.elif b.c b.cs, .add b.stmts]) ++
  (match els with
    | none => []
    | some e => [.els, .add e])

/-- A branch of a chain of jumps. -/
structure JBranch where
  c : Expr
  cs : List Expr := []
  dst : Nat

/-- All conditions of the branch hold. -/
def JBranch.holds (b : JBranch) (env : Env) : Bool := (b.c :: b.cs).all fun c => c.truthy env

/-- `When(i)` before a call, if given. -/
def whenOps (wh : Option Nat) : List FsmOp := wh.toList.map .whn

/-- `When(i).Else.goto(e)`, if given. -/
def elseJump (wh : Option Nat) : Option Nat → List FsmOp
  | none => []
  | some e => whenOps wh ++ [.els, .goto e none none]

/-- The calls `When(i).If(..).goto(d1)`, `When(i).Elif(..).goto(d2)` ..., `When(i).Else.goto(dn)`. -/
def jumpChain (wh : Option Nat) (first : JBranch) (rest : List JBranch) (els : Option Nat) : List FsmOp :=
  whenOps wh ++ [.iff (first.c :: first.cs), .goto first.dst none none] ++
  rest.flatMap (fun b => whenOps wh ++ [.elif b.c b.cs, .goto b.dst none none]) ++ elseJump wh els

/-- The destination of the first branch that holds, else that of the else branch. -/
def jumpTarget (branches : List JBranch) (els : Option Nat) (env : Env) : Option Nat :=
  match branches.find? (fun b => b.holds env) with
  | some b => some b.dst
  | none => els

namespace FsmSt

/-- The fields that determine the behaviour without reset. -/
structure SameFsm (s s' : FsmSt) : Prop where
  name : s'.name = s.name
  width : s'.width = s.width
  seq : s'.seq = s.seq
  jumps : s'.jumps = s.jumps
  delay : s'.delayAmount = s.delayAmount

theorem tick_congr {s s' : FsmSt} (h : SameFsm s s') (hc : s'.code = s.code) (rst : Expr) (uc : Bool) (env : Env)
    (hr : rst.truthy env = false) (x : Var) : (s'.always rst uc).tick env x = (s.always rst uc).tick env x := by
  have a1 : s'.delayedSubsts = s.delayedSubsts := by
    simp [delayedSubsts, h.delay, dstateReg_congr h.name h.width]
  rw [tick_eq _ rst uc env hr, tick_eq _ rst uc env hr, makeCase_trace, makeCase_trace, h.seq, h.delay, a1,
    jumpTrace_congr h.name h.width h.jumps, seg_congr (s' := s') (s := s) _ fun d _ _ =>
      active_congr h.name h.width d fun i => keyTrace_congr hc d i env x]

theorem addDst_fields (s : FsmSt) (rs : List Reg) : SameFsm s (s.addDst rs) ∧ (s.addDst rs).code = s.code ∧
    (s.addDst rs).cur = s.cur ∧ (s.addDst rs).lastIf = s.lastIf ∧ (s.addDst rs).next = s.next ∧
    (s.addDst rs).nextElse = s.nextElse ∧ (s.addDst rs).elifCond = s.elifCond ∧
    (s.addDst rs).lastCond = s.lastCond ∧ (s.addDst rs).lastDelay = s.lastDelay := by
  obtain ⟨ex, hx, -⟩ := addDst_eq s rs
  rw [hx]
  exact ⟨⟨rfl, rfl, rfl, rfl, rfl⟩, rfl, rfl, rfl, rfl, rfl, rfl, rfl, rfl⟩

/-- The builder in the middle of a chain for state `i` whose branches so far are `init ++ [last]`. -/
structure Mid (s s1 : FsmSt) (i : Nat) (init : List Branch) (last : Branch) : Prop where
  same : SameFsm s s1
  cur : s1.cur = s.cur
  code : s1.code = s.code ++ [((0, i), .chain ((init ++ [last]).map Branch') none)]
  lastIf : s1.lastIf = some s.code.length
  idle : s1.Idle
  lastDelay : s1.lastDelay = none
  lastCond : s1.lastCond = init.map (fun b => (Branch' b).1.not) ++ [(Branch' last).1]

theorem mid_first (s : FsmSt) (h : s.Idle) (wh : Option Nat) (b : Branch) :
    ∃ s1, s.applyAll (whenIf wh (b.c :: b.cs) ++ [.add b.stmts]) = some s1 ∧
      Mid s s1 (wh.getD s.cur) [] b := by
  obtain ⟨hn, he, hl⟩ := h
  have key : ∀ t : FsmSt, SameFsm s t → t.cur = s.cur → t.code = s.code → t.next = { index := wh } →
      t.nextElse = false → t.elifCond = none →
      ∃ s1, t.applyAll ([.iff (b.c :: b.cs)] ++ [.add b.stmts]) = some s1 ∧ Mid s s1 (wh.getD s.cur) [] b := by
    intro t ht hc hcode hnx hne hel
    simp only [List.cons_append, List.nil_append, FsmSt.applyAll, FsmOp.apply, FsmSt.iff, makeCond, hnx,
      Option.bind_some, FsmSt.add, FsmSt.addKw, Kwargs.hasArgs, hne, FsmSt.addStatement, FsmSt.addStatement1]
    refine ⟨_, rfl, ?_⟩
    obtain ⟨a1, a2, a3, a4, a5, a6, a7, a8, a9⟩ := addDst_fields
      { t with elifCond := none, lastCond := [b.cs.foldl Expr.and b.c], lastDelay := none, next := {},
               lastIf := some t.code.length, nextElse := false,
               code := t.code ++ [((0, wh.getD t.cur), .chain [(b.cs.foldl Expr.and b.c, Code.block b.stmts)] none)],
               delayAmount := max t.delayAmount 0 }
      (Item.chain [(b.cs.foldl Expr.and b.c, Code.block b.stmts)] none).code.targets
    refine ⟨⟨a1.name.trans ht.name, a1.width.trans ht.width, a1.seq.trans ht.seq, a1.jumps.trans ht.jumps, ?_⟩,
      a3.trans hc, ?_, ?_, ⟨a5, a6, a7⟩, a9, a8⟩
    · exact a1.delay.trans ((Nat.max_eq_left (Nat.zero_le _)).trans ht.delay)
    · rw [← hcode, ← hc]; exact a2
    · rw [← hcode]; exact a4
  cases wh with
  | none => exact key s ⟨rfl, rfl, rfl, rfl, rfl⟩ rfl rfl (by rw [hn]) he hl
  | some i =>
    exact key { s with next := { s.next with index := some i } } ⟨rfl, rfl, rfl, rfl, rfl⟩ rfl rfl (by rw [hn])
      he hl

theorem mid_elif (s s1 : FsmSt) (i : Nat) (init : List Branch) (last : Branch) (h : Mid s s1 i init last)
    (b : Branch) :
    ∃ s2, s1.applyAll [.elif b.c b.cs, .add b.stmts] = some s2 ∧ Mid s s2 i (init ++ [last]) b := by
  obtain ⟨e, hm⟩ := makeCond_snoc (init.map (fun b => (Branch' b).1.not) ++ [(Branch' last).1.not])
    (b.cs.foldl Expr.and b.c)
  obtain ⟨hn, hne, hel⟩ := h.idle
  have hnil : init.map (fun b => (Branch' b).1.not) ++ [(Branch' last).1] ≠ [] := by simp
  simp only [FsmSt.applyAll, FsmOp.apply, FsmSt.elif, h.lastCond, if_neg hnil, negLast_append,
    h.lastDelay, h.lastIf, hm, hn, Option.getD_none, gt_iff_lt, Nat.lt_irrefl, if_false,
    Option.bind_some, FsmSt.add, FsmSt.addKw, Kwargs.hasArgs, Option.isSome_none, Option.isSome_some, Bool.or_self,
    if_true]
  refine ⟨_, rfl, ?_⟩
  obtain ⟨a1, a2, a3, a4, a5, a6, a7, a8, a9⟩ := addDst_fields
    { s1 with lastCond := init.map (fun b => (Branch' b).1.not) ++ [(Branch' last).1.not] ++ [b.cs.foldl Expr.and b.c],
              lastIf := some s.code.length, elifCond := some (b.cs.foldl Expr.and b.c), lastDelay := none, next := {},
              code := s1.code.modify s.code.length fun e => match e with
                | (k, .chain bs none) => (k, .chain (bs ++ [(b.cs.foldl Expr.and b.c, Code.block b.stmts)]) none)
                | e => e } (Code.block b.stmts).targets
  refine ⟨⟨a1.name.trans h.same.name, a1.width.trans h.same.width, a1.seq.trans h.same.seq,
    a1.jumps.trans h.same.jumps, a1.delay.trans h.same.delay⟩, a3.trans h.cur, ?_, a4, ⟨a5, a6.trans hne, rfl⟩, a9, ?_⟩
  · refine a2.trans ?_
    simp only [h.code, modify_append_length]
    simp [Branch']
  · refine a8.trans ?_
    simp [Branch']

/-- After the whole chain: the code gained one if-chain at its end. -/
structure Fin (s s1 : FsmSt) (i : Nat) (branches : List Branch) (els : Option (List Code)) : Prop where
  same : SameFsm s s1
  cur : s1.cur = s.cur
  code : s1.code = s.code ++ [((0, i), .chain (branches.map Branch') (els.map Code.block))]
  idle : s1.Idle
  lastCond : s1.lastCond ≠ [] ∧ ∀ env, s1.lastCond.all (fun c => c.truthy env) = lastSelected branches els env

theorem fin_chain (s s1 : FsmSt) (i : Nat) (init : List Branch) (last : Branch) (h : Mid s s1 i init last)
    (rest : List Branch) (els : Option (List Code)) :
    ∃ s2, s1.applyAll (rest.flatMap (fun b => [.elif b.c b.cs, .add b.stmts]) ++
        (match els with
          | none => []
          | some e => [.els, .add e])) = some s2 ∧
      Fin s s2 i (init ++ [last] ++ rest) els := by
  induction rest generalizing s1 init last with
  | cons b rest ih =>
    obtain ⟨s2, h2, hm⟩ := mid_elif s s1 i init last h b
    obtain ⟨s3, h3, hf⟩ := ih s2 (init ++ [last]) b hm
    refine ⟨s3, ?_, by simpa using hf⟩
    simp only [List.flatMap_cons, List.append_assoc]
    exact applyAll_append _ _ _ _ _ h2 h3
  | nil =>
    cases els with
    | none =>
      refine ⟨s1, rfl, h.same, h.cur, by simp [h.code], h.idle, ?_, fun env => ?_⟩
      · rw [h.lastCond]; simp
      · rw [h.lastCond]
        simp only [lastSelected, List.all_append, List.all_map, Function.comp_def, Expr.truthy_not,
          truthy_Branch', List.all_cons, List.all_nil, Bool.and_true, List.append_nil,
          List.dropLast_concat, List.getLast?_concat, Option.any_some]
    | some e =>
      have hnil : init.map (fun b => (Branch' b).1.not) ++ [(Branch' last).1] ≠ [] := by simp
      obtain ⟨q, hq⟩ := makeCond_snoc (init.map (fun b => (Branch' b).1.not)) ((Branch' last).1.not)
      obtain ⟨hn, hne, hel⟩ := h.idle
      simp only [List.flatMap_nil, List.nil_append, FsmSt.applyAll, FsmOp.apply, FsmSt.els, h.lastCond,
        if_neg hnil, negLast_append, h.lastDelay, h.lastIf, hq, hn, Option.getD_none, gt_iff_lt, Nat.lt_irrefl,
        if_false, Option.bind_some, FsmSt.add, FsmSt.addKw, Kwargs.hasArgs, Option.isSome_none, Option.isSome_some,
        Bool.or_self, Bool.or_true, Bool.not_false, Bool.and_self, if_true, List.append_nil]
      refine ⟨_, rfl, ?_⟩
      obtain ⟨a1, a2, a3, a4, a5, a6, a7, a8, a9⟩ := addDst_fields
        { s1 with lastCond := init.map (fun b => (Branch' b).1.not) ++ [(Branch' last).1.not],
                  lastIf := some s.code.length, elifCond := none, nextElse := true, lastDelay := none, next := {},
                  code := s1.code.modify s.code.length fun c => match c with
                    | (k, .chain bs none) => (k, .chain bs (some (Code.block e)))
                    | e => e } (Code.block e).targets
      refine ⟨⟨a1.name.trans h.same.name, a1.width.trans h.same.width, a1.seq.trans h.same.seq,
        a1.jumps.trans h.same.jumps, a1.delay.trans h.same.delay⟩, a3.trans h.cur, ?_, ⟨a5, rfl, rfl⟩, ?_⟩
      · refine a2.trans ?_
        simp only [h.code, modify_append_length]
        simp
      · refine ⟨?_, fun env => ?_⟩
        · intro hh; exact absurd (a8.symm.trans hh) (by simp)
        · have := a8
          refine (congrArg (fun l => l.all fun c => c.truthy env) a8).trans ?_
          simp [lastSelected, Function.comp_def, Expr.truthy_not, truthy_Branch']

theorem chain_ok {name : String} (wh : Option Nat) (first : Branch) (rest : List Branch)
    (els : Option (List Code))
    (hok : ∀ l ∈ (first :: rest).map (·.stmts) ++ els.toList, ∀ c ∈ l, ∀ r ∈ c.targets, r.name.fgenBy name = false) :
    ∀ op ∈ fsmChain wh first rest els, op.Ok name := by
  intro op hop
  simp only [fsmChain, whenIf, List.mem_append] at hop
  rcases hop with (((hop | hop) | hop) | hop) | hop
  · cases wh with
    | none => simp at hop
    | some i => simp at hop; subst hop; trivial
  · simp at hop; subst hop; trivial
  · simp only [List.mem_singleton] at hop; subst hop; exact hok _ (by simp)
  · obtain ⟨b, hb, hop⟩ := List.mem_flatMap.1 hop
    simp only [List.mem_cons, List.not_mem_nil, or_false] at hop
    rcases hop with rfl | rfl
    · trivial
    · exact hok b.stmts (List.mem_append_left _ (List.mem_map.2 ⟨b, List.mem_cons_of_mem _ hb, rfl⟩))
  · cases els with
    | none => simp at hop
    | some e =>
      simp only [List.mem_cons, List.not_mem_nil, or_false] at hop
      rcases hop with rfl | rfl
      · trivial
      · exact hok e (by simp)

theorem chain_run {name : String} {w : Nat} {s : FsmSt} (h : Reach name w s) (hidle : s.Idle)
    (wh : Option Nat) (first : Branch) (rest : List Branch) (els : Option (List Code)) 
    (hok : ∀ l ∈ (first :: rest).map (·.stmts) ++ els.toList, ∀ c ∈ l, ∀ r ∈ c.targets, r.name.fgenBy name = false) :
    ∃ s', s.applyAll (fsmChain wh first rest els) = some s' ∧ Reach name w s' ∧
      Fin s s' (wh.getD s.cur) (first :: rest) els := by
  obtain ⟨s1, h1, hm⟩ := mid_first s hidle wh first
  obtain ⟨s2, h2, hf⟩ := fin_chain s s1 (wh.getD s.cur) [] first hm rest els
  have hap : s.applyAll (fsmChain wh first rest els) = some s2 := by
    unfold fsmChain
    rw [List.append_assoc]
    exact applyAll_append _ _ _ _ _ h1 h2
  exact ⟨s2, hap, h.append _ (chain_ok wh first rest els hok) hap, hf⟩

theorem thn_spec (s : FsmSt) (hidle : s.Idle) (hl : s.lastCond ≠ []) :
    ∃ s1, s.thn = s1 ∧ (∃ g, makeCond s.lastCond = some g ∧ s1.next = { cond := some g }) ∧ s1.nextElse = false ∧
      s1.elifCond = none ∧ SameFsm s s1 ∧ s1.code = s.code ∧ s1.cur = s.cur := by
  obtain ⟨hn, hne, hel⟩ := hidle
  obtain ⟨g, hg⟩ : ∃ g, makeCond s.lastCond = some g := by
    cases h : s.lastCond with
    | nil => exact absurd h hl
    | cons a l => exact ⟨_, rfl⟩
  have h1 : makeCond [g] = some g := rfl
  refine ⟨_, rfl, ⟨g, hg, ?_⟩, ?_, ?_, ?_, ?_, ?_⟩ <;> unfold FsmSt.thn FsmSt.iff <;>
    simp only [hg, Option.toList_some, h1, hn, hne]
  exact ⟨rfl, rfl, rfl, rfl, rfl⟩

end FsmSt

open FsmSt

/-- **C49, statements.**  Whatever was built before, the chain `When(i).If(c1)(s1)`, `Elif(c2)(s2)`, ..., `Else(sn)`
    (without `When`: `i` is the current state of the builder) is accepted, and at an edge at which the FSM is in state
    `i` exactly the statements of the first branch whose conditions hold (else those of the else branch) are executed,
    after everything added before; at any other edge the chain has no effect. -/
theorem c49_chain {name : String} {w : Nat} {s : FsmSt} (h : Reach name w s) (hidle : s.Idle)
    (wh : Option Nat) (first : Branch) (rest : List Branch) (els : Option (List Code))
    (hok : ∀ l ∈ (first :: rest).map (·.stmts) ++ els.toList, ∀ c ∈ l, ∀ r ∈ c.targets, r.name.fgenBy name = false) :
    ∃ s', s.applyAll (fsmChain wh first rest els) = some s' ∧ Reach name w s' ∧ s'.Idle ∧ s'.cur = s.cur ∧
      ∀ rst uc env, Expr.truthy rst env = false → ∀ x,
        (s'.always rst uc).tick env x =
          if env (.state name) = ((wh.getD s.cur : Nat) : Int) then
            (Code.block (selected (first :: rest) els env)).exec env ((s.always rst uc).tick env) x
          else (s.always rst uc).tick env x := by
  obtain ⟨s', hap, hreach, hf⟩ := chain_run h hidle wh first rest els hok
  refine ⟨s', hap, hreach, hf.idle, hf.cur, fun rst uc env hr x => ?_⟩
  have hnm := h.name_eq
  let it : Item := .chain ((first :: rest).map Branch') (els.map Code.block)
  have hitok : ∀ r ∈ it.code.targets, r.name.fgenBy s.name = false := by
    intro r hr
    -- the targets of a chain are those of its branches
    have hsub : ∀ (bs : List Branch) (e : Option (List Code)), ∀ r ∈ (chainCode (bs.map Branch') (e.map Code.block)).targets,
        ∃ l ∈ bs.map (·.stmts) ++ e.toList, ∃ c ∈ l, r ∈ c.targets := by
      intro bs e
      induction bs with
      | nil =>
        intro r hr
        cases e with
        | none => simp [chainCode, Code.targets] at hr
        | some e =>
          simp only [List.map_nil, Option.map_some, chainCode] at hr
          rw [Code.targets_block] at hr
          obtain ⟨c, hc, hr⟩ := List.mem_flatMap.1 hr
          exact ⟨e, by simp, c, hc, hr⟩
      | cons b bs ih =>
        intro r hr
        simp only [List.map_cons, Branch', chainCode, Code.targets, List.mem_append] at hr
        rcases hr with hr | hr
        · rw [Code.targets_block] at hr
          obtain ⟨c, hc, hr⟩ := List.mem_flatMap.1 hr
          exact ⟨b.stmts, by simp, c, hc, hr⟩
        · obtain ⟨l, hl, rest⟩ := ih r hr
          exact ⟨l, by simp only [List.map_cons, List.cons_append]; exact List.mem_cons_of_mem _ hl, rest⟩
    obtain ⟨l, hl, c, hc, hr⟩ := hsub _ _ r hr
    rw [hnm]
    exact hok l hl c hc r hr
  obtain ⟨f1, f2, f3, f4, f5, f6, f7, f8, f9⟩ := push_fields s 0 (wh.getD s.cur) it
  have hd : (s.push 0 (wh.getD s.cur) it).delayAmount = s.delayAmount := by rw [f5]; omega
  have hsame : SameFsm (s.push 0 (wh.getD s.cur) it) s' :=
    ⟨hf.same.name.trans f1.symm, hf.same.width.trans f2.symm, hf.same.seq.trans f3.symm,
      hf.same.jumps.trans f9.symm, hf.same.delay.trans hd.symm⟩
  have hcode : s'.code = (s.push 0 (wh.getD s.cur) it).code := by
    rw [hf.code]
    exact f4.symm
  rw [tick_congr hsame hcode rst uc env hr x, push0_tick s _ it hitok rst uc env hr x, hnm]
  split
  · exact congrFun (SeqSt.exec_chain (first :: rest) els env _) x
  · rfl


/-- **C49, `Then().goto`.**  After the chain, `fsm.Then().goto(dst, else_dst=e)` jumps, from the current state, to `dst`
    exactly when the branch of the chain written last is the one selected, else to `e` if given. -/
theorem c49_then_goto {name : String} {w : Nat} {s : FsmSt} (h : Reach name w s) (hidle : s.Idle)
    (wh : Option Nat) (first : Branch) (rest : List Branch) (els : Option (List Code))
    (hok : ∀ l ∈ (first :: rest).map (·.stmts) ++ els.toList, ∀ c ∈ l, ∀ r ∈ c.targets, r.name.fgenBy name = false)
    (dst : Nat) (e : Option Nat) (hdst : dst < 2 ^ w) (he : ∀ d, e = some d → d < 2 ^ w) :
    ∃ s' s'', s.applyAll (fsmChain wh first rest els) = some s' ∧
      s'.applyAll [.thn, .goto dst none e] = some s'' ∧ Reach name w s'' ∧ s''.Idle ∧ s''.cur = s.cur ∧
      ∀ rst uc env, Expr.truthy rst env = false → ∀ x,
        (s''.always rst uc).tick env x =
          if x = .state name ∧ env (.state name) = (s.cur : Int) then
            takeJump (lastSelected (first :: rest) els env) dst e ((s'.always rst uc).tick env x)
          else (s'.always rst uc).tick env x := by
  obtain ⟨s', hap, hreach, hf⟩ := chain_run h hidle wh first rest els hok
  obtain ⟨s1, hthn, hn1, hn2, hn3, hsame, hcode, hcur⟩ := thn_spec s' hf.idle hf.lastCond.1
  obtain ⟨g, hg, hnext⟩ := hn1
  have hap2 : s'.applyAll [.thn, .goto dst none e] = some (s1.goto dst none e) := by
    simp [FsmSt.applyAll, FsmOp.apply, hthn]
  have hreach2 := hreach.append _ (by
    intro op hop
    simp only [List.mem_cons, List.not_mem_nil, or_false] at hop
    rcases hop with rfl | rfl <;> trivial) hap2
  refine ⟨s', _, hap, hap2, hreach2, ⟨rfl, hn2, hn3⟩, hcur.trans hf.cur, fun rst uc env hr x => ?_⟩
  have key := jump_core (s' := s1.goto dst none e) hreach.inv hreach2.inv hsame.name hsame.width hsame.seq hcode
    hsame.delay s.cur dst (some g) e (by simp [FsmSt.goto, hnext, hsame.jumps, hcur, hf.cur])
    (by rw [hreach.width_eq]; exact hdst) (by rw [hreach.width_eq]; exact he) rst uc env hr x
  rw [key, hreach.name_eq]
  have : holds (some g) env = lastSelected (first :: rest) els env := by
    rw [← hf.lastCond.2 env, ← truthy_makeCond _ g hg env]; rfl
  rw [this]

/-- **C49, `Then().goto_next`.**  The usual form `fsm.If(c)(stmts)`, `fsm.Then().goto_next()`: the jump to the next state
    is taken exactly when the branch written last is the one selected, and the builder moves on to the next state. -/
theorem c49_then_goto_next {name : String} {w : Nat} {s : FsmSt} (h : Reach name w s) (hidle : s.Idle)
    (wh : Option Nat) (first : Branch) (rest : List Branch) (els : Option (List Code))
    (hok : ∀ l ∈ (first :: rest).map (·.stmts) ++ els.toList, ∀ c ∈ l, ∀ r ∈ c.targets, r.name.fgenBy name = false)
    (hdst : s.cur + 1 < 2 ^ w) :
    ∃ s' s'', s.applyAll (fsmChain wh first rest els) = some s' ∧
      s'.applyAll [.thn, .gotoNext none] = some s'' ∧ Reach name w s'' ∧ s''.Idle ∧ s''.cur = s.cur + 1 ∧
      ∀ rst uc env, Expr.truthy rst env = false → ∀ x,
        (s''.always rst uc).tick env x =
          if x = .state name ∧ env (.state name) = (s.cur : Int) ∧
              lastSelected (first :: rest) els env = true then ((s.cur + 1 : Nat) : Int)
          else (s'.always rst uc).tick env x := by
  obtain ⟨s', hap, hreach, hf⟩ := chain_run h hidle wh first rest els hok
  obtain ⟨s1, hthn, hn1, hn2, hn3, hsame, hcode, hcur⟩ := thn_spec s' hf.idle hf.lastCond.1
  obtain ⟨g, hg, hnext⟩ := hn1
  have hap2 : s'.applyAll [.thn, .gotoNext none] = some (s1.gotoNext none) := by
    simp [FsmSt.applyAll, FsmOp.apply, hthn]
  have hreach2 := hreach.append _ (by
    intro op hop
    simp only [List.mem_cons, List.not_mem_nil, or_false] at hop
    rcases hop with rfl | rfl <;> trivial) hap2
  refine ⟨s', _, hap, hap2, hreach2, ⟨rfl, rfl, rfl⟩, by simp [FsmSt.gotoNext, FsmSt.setIndex, hcur, hf.cur],
    fun rst uc env hr x => ?_⟩
  have key := jump_core (s' := s1.gotoNext none) hreach.inv hreach2.inv hsame.name hsame.width hsame.seq hcode
    hsame.delay s.cur (s.cur + 1) (some g) none
    (by simp [FsmSt.gotoNext, FsmSt.setIndex, FsmSt.goto, hnext, hsame.jumps, hcur, hf.cur])
    (by rw [hreach.width_eq]; exact hdst) (by simp) rst uc env hr x
  rw [key, hreach.name_eq]
  have : holds (some g) env = lastSelected (first :: rest) els env := by
    rw [← hf.lastCond.2 env, ← truthy_makeCond _ g hg env]; rfl
  rw [this]
  by_cases hx : x = .state name ∧ env (.state name) = (s.cur : Int)
  · rw [if_pos hx]
    cases hl : lastSelected (first :: rest) els env with
    | true => rw [if_pos ⟨hx.1, hx.2, rfl⟩]; rfl
    | false => rw [if_neg (by simp)]; rfl
  · rw [if_neg hx, if_neg fun hh => hx ⟨hh.1, hh.2.1⟩]

namespace FsmSt

/-- The builder in the middle of a chain of jumps from state `i`; `hold` says which branch conditions were written. -/
structure JMid (name : String) (w : Nat) (s s1 : FsmSt) (i : Nat) (init : List JBranch) (last : JBranch) : Prop where
  reach : Reach name w s1
  idle : s1.Idle
  cur : s1.cur = s.cur
  lastIf : s1.lastIf = none
  lastCond : s1.lastCond = init.map (fun b => (b.cs.foldl Expr.and b.c).not) ++ [last.cs.foldl Expr.and last.c]
  tick : ∀ rst uc env, Expr.truthy rst env = false → ∀ x, (s1.always rst uc).tick env x =
    if x = .state name ∧ env (.state name) = (i : Int) then
      ((jumpTarget (init ++ [last]) none env).map fun d => (d : Int)).getD ((s.always rst uc).tick env x)
    else (s.always rst uc).tick env x

theorem JBranch_truthy (b : JBranch) (env : Env) : (b.cs.foldl Expr.and b.c).truthy env = b.holds env := by
  rw [SeqSt.truthy_foldl]; rfl

theorem whenOps_run (s : FsmSt) (h : s.next = {}) (wh : Option Nat) (rest : List FsmOp) :
    s.applyAll (whenOps wh ++ rest) = { s with next := { index := wh } }.applyAll rest := by
  cases wh with
  | none => rw [← h]; rfl
  | some i => simp [whenOps, FsmSt.applyAll, FsmOp.apply, h]

theorem whenOps_ok {name : String} (wh : Option Nat) : ∀ op ∈ whenOps wh, op.Ok name := by
  intro op hop
  cases wh with
  | none => simp [whenOps] at hop
  | some i => simp [whenOps] at hop; subst hop; trivial

theorem jmid_first {name : String} {w : Nat} {s : FsmSt} (h : Reach name w s) (hidle : s.Idle)
    (hl : s.lastIf = none) (wh : Option Nat) (b : JBranch) (hdst : b.dst < 2 ^ w) :
    ∃ s1, s.applyAll (whenOps wh ++ [.iff (b.c :: b.cs), .goto b.dst none none]) = some s1 ∧
      JMid name w s s1 (wh.getD s.cur) [] b := by
  obtain ⟨hn, he, hel⟩ := hidle
  have hap : s.applyAll (whenOps wh ++ [.iff (b.c :: b.cs), .goto b.dst none none]) =
      some { s with elifCond := none, next := {}, lastCond := [b.cs.foldl Expr.and b.c],
                    jumps := s.jumps ++ [(wh.getD s.cur, ⟨b.dst, some (b.cs.foldl Expr.and b.c), none⟩)] } := by
    rw [whenOps_run s hn]
    rfl
  have hreach := h.append _ (by
    intro op hop
    rcases List.mem_append.1 hop with hop | hop
    · exact whenOps_ok wh op hop
    · simp only [List.mem_cons, List.not_mem_nil, or_false] at hop
      rcases hop with rfl | rfl <;> trivial) hap
  refine ⟨_, hap, hreach, ⟨rfl, he, rfl⟩, rfl, hl, by simp, fun rst uc env hr x => ?_⟩
  have key := jump_core (s := s) h.inv hreach.inv rfl rfl rfl rfl rfl
    (wh.getD s.cur) b.dst (some (b.cs.foldl Expr.and b.c)) none rfl
    (by rw [h.width_eq]; exact hdst) (by simp) rst uc env hr x
  rw [key, h.name_eq]
  have : holds (some (b.cs.foldl Expr.and b.c)) env = b.holds env := JBranch_truthy b env
  rw [this]
  unfold takeJump jumpTarget
  cases hb : b.holds env <;> simp [List.find?, hb]

/-- One more jump, whose condition holds when no earlier branch does and `c` (everything, for `Else`) does. -/
theorem jmid_next {name : String} {w : Nat} {s s1 s2 : FsmSt} {i : Nat} {init : List JBranch} {last : JBranch}
    (h : JMid name w s s1 i init last) (hreach : Reach name w s2) (hs : SameFsm s1 { s2 with jumps := s1.jumps })
    (hc : s2.code = s1.code)
    (g : Expr) (dst : Nat) (hdst : dst < 2 ^ w) (hj : s2.jumps = s1.jumps ++ [(i, ⟨dst, some g, none⟩)])
    (c : Env → Bool)
    (hg : ∀ env, g.truthy env = ((init ++ [last]).all (fun b => !b.holds env) && c env)) (rst : Expr) (uc : Bool)
    (env : Env) (hr : rst.truthy env = false) (x : Var) :
    (s2.always rst uc).tick env x =
      if x = .state name ∧ env (.state name) = (i : Int) then
        ((jumpTarget (init ++ [last]) (if c env then some dst else none) env).map fun d => (d : Int)).getD
          ((s.always rst uc).tick env x)
      else (s.always rst uc).tick env x := by
  have key := jump_core (s := s1) h.reach.inv hreach.inv hs.name hs.width hs.seq hc hs.delay i dst (some g) none hj
    (by rw [h.reach.width_eq]; exact hdst) (by simp) rst uc env hr x
  rw [key, h.reach.name_eq]
  by_cases hx : x = .state name ∧ env (.state name) = (i : Int)
  · rw [if_pos hx, if_pos hx, h.tick rst uc env hr x, if_pos hx]
    have hh : holds (some g) env = ((init ++ [last]).all (fun b => !b.holds env) && c env) := hg env
    rw [hh]
    unfold takeJump jumpTarget
    cases hf : (init ++ [last]).find? (fun b => b.holds env) with
    | some b =>
      have : (init ++ [last]).all (fun b => !b.holds env) = false := by
        rw [List.all_eq_false]
        exact ⟨b, List.mem_of_find?_eq_some hf, by have := List.find?_some hf; simp_all⟩
      simp [this]
    | none =>
      have : (init ++ [last]).all (fun b => !b.holds env) = true := by
        rw [List.all_eq_true]
        intro b hb
        have := List.find?_eq_none.1 hf b hb
        simp at this
        simp [this]
      rw [this]
      cases c env <;> simp
  · rw [if_neg hx, if_neg hx, h.tick rst uc env hr x, if_neg hx]

theorem jmid_elif {name : String} {w : Nat} {s s1 : FsmSt} (wh : Option Nat) {init : List JBranch} {last : JBranch}
    (h : JMid name w s s1 (wh.getD s.cur) init last) (b : JBranch) (hdst : b.dst < 2 ^ w) :
    ∃ s2, s1.applyAll (whenOps wh ++ [.elif b.c b.cs, .goto b.dst none none]) = some s2 ∧
      JMid name w s s2 (wh.getD s.cur) (init ++ [last]) b := by
  obtain ⟨hn, hne, hel⟩ := h.idle
  obtain ⟨e, hm⟩ := makeCond_snoc
    (init.map (fun b => (b.cs.foldl Expr.and b.c).not) ++ [(last.cs.foldl Expr.and last.c).not])
    (b.cs.foldl Expr.and b.c)
  have hnil : init.map (fun b : JBranch => (b.cs.foldl Expr.and b.c).not) ++ [last.cs.foldl Expr.and last.c] ≠ [] := by
    simp
  have h1 : makeCond [e] = some e := rfl
  have hap : s1.applyAll (whenOps wh ++ [.elif b.c b.cs, .goto b.dst none none]) =
      some { s1 with next := {},
                     lastCond := init.map (fun b => (b.cs.foldl Expr.and b.c).not) ++
                       [(last.cs.foldl Expr.and last.c).not] ++ [b.cs.foldl Expr.and b.c],
                     jumps := s1.jumps ++ [(wh.getD s.cur, ⟨b.dst, some e, none⟩)] } := by
    rw [whenOps_run s1 hn]
    simp only [FsmSt.applyAll, FsmOp.apply, FsmSt.elif, h.lastCond, if_neg hnil, negLast_append, Option.bind_some,
      h.lastIf, hm, Option.isSome_none, Bool.false_eq_true, if_false]
    split
    · simp only [FsmSt.thn, FsmSt.iff, hm, Option.toList_some, h1, Option.bind_some, FsmSt.goto, h.cur, hel,
        Option.bind_some]
    · simp only [Option.bind_some, FsmSt.goto, h.cur]
  have hreach := h.reach.append _ (by
    intro op hop
    rcases List.mem_append.1 hop with hop | hop
    · exact whenOps_ok wh op hop
    · simp only [List.mem_cons, List.not_mem_nil, or_false] at hop
      rcases hop with rfl | rfl <;> trivial) hap
  refine ⟨_, hap, hreach, ⟨rfl, hne, hel⟩, h.cur, h.lastIf, by simp, fun rst uc env hr x => ?_⟩
  have := jmid_next h hreach ⟨rfl, rfl, rfl, rfl, rfl⟩ rfl e b.dst hdst rfl (fun env => b.holds env) (fun env => by
    rw [truthy_makeCond _ e hm env]
    simp [Function.comp_def, Expr.truthy_not, JBranch_truthy, Bool.and_assoc]) rst uc env hr x
  rw [this]
  have ht : jumpTarget (init ++ [last]) (if b.holds env then some b.dst else none) env =
      jumpTarget (init ++ [last] ++ [b]) none env := by
    unfold jumpTarget
    rw [List.find?_append (xs := init ++ [last])]
    cases hf : (init ++ [last]).find? (fun b => b.holds env) with
    | some a => simp
    | none => cases hb : b.holds env <;> simp [List.find?, hb]
  rw [ht]

theorem jfin_chain {name : String} {w : Nat} {s s1 : FsmSt} (wh : Option Nat) {init : List JBranch} {last : JBranch}
    (h : JMid name w s s1 (wh.getD s.cur) init last) (rest : List JBranch) (els : Option Nat)
    (hrest : ∀ b ∈ rest, b.dst < 2 ^ w) (hels : ∀ e, els = some e → e < 2 ^ w) :
    ∃ s2, s1.applyAll (rest.flatMap (fun b => whenOps wh ++ [.elif b.c b.cs, .goto b.dst none none]) ++ elseJump wh els) = some s2 ∧
      Reach name w s2 ∧ s2.Idle ∧ s2.lastIf = none ∧ s2.cur = s.cur ∧
      ∀ rst uc env, Expr.truthy rst env = false → ∀ x, (s2.always rst uc).tick env x =
        if x = .state name ∧ env (.state name) = ((wh.getD s.cur : Nat) : Int) then
          ((jumpTarget (init ++ [last] ++ rest) els env).map fun d => (d : Int)).getD ((s.always rst uc).tick env x)
        else (s.always rst uc).tick env x := by
  induction rest generalizing s1 init last with
  | cons b rest ih =>
    obtain ⟨s2, h2, hm⟩ := jmid_elif wh h b (hrest b (by simp))
    obtain ⟨s3, h3, hf⟩ := ih hm (fun b hb => hrest b (by simp [hb]))
    refine ⟨s3, ?_, by simpa using hf⟩
    simp only [List.flatMap_cons, List.append_assoc] at h2 ⊢
    have := applyAll_append _ _ _ _ _ h2 h3
    simpa using this
  | nil =>
    cases els with
    | none => exact ⟨s1, rfl, h.reach, h.idle, h.lastIf, h.cur, by simpa using h.tick⟩
    | some d =>
      obtain ⟨hn, hne, hel⟩ := h.idle
      obtain ⟨e, hm⟩ := makeCond_snoc (init.map (fun b => (b.cs.foldl Expr.and b.c).not))
        ((last.cs.foldl Expr.and last.c).not)
      have hnil : init.map (fun b : JBranch => (b.cs.foldl Expr.and b.c).not) ++
          [last.cs.foldl Expr.and last.c] ≠ [] := by simp
      have h1 : makeCond [e] = some e := rfl
      have hap : s1.applyAll (whenOps wh ++ [.els, .goto d none none]) =
          some { s1 with next := {}, elifCond := none,
                         lastCond := init.map (fun b => (b.cs.foldl Expr.and b.c).not) ++
                           [(last.cs.foldl Expr.and last.c).not],
                         jumps := s1.jumps ++ [(wh.getD s.cur, ⟨d, some e, none⟩)] } := by
        rw [whenOps_run s1 hn]
        simp only [FsmSt.applyAll, FsmOp.apply, FsmSt.els, h.lastCond, if_neg hnil, negLast_append,
          Option.bind_some, h.lastIf, hm, Option.isSome_none, Bool.or_false]
        split
        · simp only [FsmSt.thn, FsmSt.iff, hm, Option.toList_some, h1, Option.bind_some, FsmSt.goto, h.cur]
        · simp only [Option.bind_some, FsmSt.goto, h.cur]
      have hreach := h.reach.append _ (by
        intro op hop
        rcases List.mem_append.1 hop with hop | hop
        · exact whenOps_ok wh op hop
        · simp only [List.mem_cons, List.not_mem_nil, or_false] at hop
          rcases hop with rfl | rfl <;> trivial) hap
      refine ⟨_, hap, hreach, ⟨rfl, hne, rfl⟩, h.lastIf, h.cur, fun rst uc env hr x => ?_⟩
      have := jmid_next h hreach ⟨rfl, rfl, rfl, rfl, rfl⟩ rfl e d (hels d rfl) rfl (fun _ => true) (fun env => by
        rw [truthy_makeCond _ e hm env]
        simp [Function.comp_def, Expr.truthy_not, JBranch_truthy]) rst uc env hr x
      rw [this]
      simp

end FsmSt

/-- **C49, jumps.**  When no `If` statement is open (`lastIf = none`: the last statement, if any, was not written with
    `If`, or a state was begun since), the chain `When(i).If(c1).goto(d1)`, `When(i).Elif(c2).goto(d2)`, ...,
    `When(i).Else.goto(dn)` is accepted, and after an edge at which the FSM was in state `i` it is in the destination of
    the first branch whose conditions hold, else in that of the else branch; otherwise, and from any other state, the
    next state is what it was without the chain.  No other register is affected. -/
theorem c49_jumps {name : String} {w : Nat} {s : FsmSt} (h : Reach name w s) (hidle : s.Idle) (hl : s.lastIf = none)
    (wh : Option Nat) (first : JBranch) (rest : List JBranch) (els : Option Nat)
    (hdst : ∀ b ∈ first :: rest, b.dst < 2 ^ w) (hels : ∀ e, els = some e → e < 2 ^ w) :
    ∃ s', s.applyAll (jumpChain wh first rest els) = some s' ∧ Reach name w s' ∧ s'.Idle ∧ s'.lastIf = none ∧
      s'.cur = s.cur ∧
      ∀ rst uc env, Expr.truthy rst env = false → ∀ x, (s'.always rst uc).tick env x =
        if x = .state name ∧ env (.state name) = ((wh.getD s.cur : Nat) : Int) then
          ((jumpTarget (first :: rest) els env).map fun d => (d : Int)).getD ((s.always rst uc).tick env x)
        else (s.always rst uc).tick env x := by
  obtain ⟨s1, h1, hm⟩ := jmid_first h hidle hl wh first (hdst _ (by simp))
  obtain ⟨s2, h2, hf⟩ := jfin_chain wh hm rest els (fun b hb => hdst b (by simp [hb])) hels
  refine ⟨s2, ?_, by simpa using hf⟩
  unfold jumpChain
  rw [List.append_assoc (whenOps wh ++ _)]
  exact applyAll_append _ _ _ _ _ h1 h2

/-- **C49, after a state is finished.**  After `goto_next`, `inc` or `set_index` there is no condition left that `Else`
    or `Elif` could refer to: both raise. -/
theorem c49_else_raises (s : FsmSt) (op : FsmOp) (hop : (∃ c, op = .gotoNext c) ∨ op = .inc ∨ ∃ i, op = .setIndex i) :
    ∃ s', op.apply s = some s' ∧ s'.applyAll [.els] = none ∧ ∀ c cs, s'.applyAll [.elif c cs] = none := by
  rcases hop with ⟨c, rfl⟩ | rfl | ⟨i, rfl⟩ <;>
    exact ⟨_, rfl, rfl, fun _ _ => rfl⟩

section Witness

private def regX : Reg := ⟨.user "x", 8, false, some 0⟩
private def regY : Reg := ⟨.user "y", 8, false, some 0⟩
private def eA : Expr := .var (.user "a")
private def eB : Expr := .var (.user "b")

/-- **Disagreement.**  With an `If` statement open, `Else.goto` leaves the `Else` pending (fsm/fsm.py:98 clears only
    the keyword arguments): `fsm.If(a)(x(1))`, `fsm.If(b).goto(2)`, `fsm.Else.goto(3)`, `fsm(y(1))` makes `y(1)` the
    else branch of `If(a)`, so that `y` keeps its value when `a` holds, although it was written without condition. -/
theorem c49_not_after_if :
    ∃ s, (FsmSt.fresh "fsm" 8).applyAll
        ([.iff [eA], .add [.subst regX (.int 1)]] ++ jumpChain none ⟨eB, [], 2⟩ [] (some 3) ++
          [.add [.subst regY (.int 1)]]) = some s ∧
      (s.always (.int 0) true).tick (fun v => if v = .user "a" then 1 else 0) (.user "y") = 0 ∧
      (s.always (.int 0) true).tick (fun _ => 0) (.user "y") = 1 := by
  refine ⟨_, rfl, ?_⟩
  decide

/-- The hypotheses of `c49_chain` and `c49_jumps` are met by a new FSM; three branches, of which the second is
    taken. -/
example : ∃ s, Reach "fsm" 8 s ∧ s.Idle ∧ s.lastIf = none :=
  ⟨_, ⟨[], by simp, rfl⟩, ⟨rfl, rfl, rfl⟩, rfl⟩

example : ((FsmSt.fresh "fsm" 8).applyAll
    (jumpChain none ⟨eA, [], 1⟩ [⟨eB, [], 2⟩, ⟨.int 1, [], 3⟩] (some 4))).map (fun s =>
      ((s.always (.int 0) true).tick (fun v => if v = .user "b" then 1 else 0) (.state "fsm"),
       (s.always (.int 0) true).tick (fun _ => 0) (.state "fsm"))) = some (2, 3) := by decide

example : ((FsmSt.fresh "fsm" 8).applyAll
    (fsmChain (some 0) ⟨eA, [], [.subst regX (.int 1)]⟩ [⟨eB, [], [.subst regX (.int 2)]⟩]
      (some [.subst regX (.int 3)]) ++ [.thn, .gotoNext none])).map (fun s =>
      ((s.always (.int 0) true).tick (fun v => if v = .user "b" then 1 else 0) (.user "x"),
       (s.always (.int 0) true).tick (fun v => if v = .user "b" then 1 else 0) (.state "fsm"),
       (s.always (.int 0) true).tick (fun _ => 0) (.user "x"),
       (s.always (.int 0) true).tick (fun _ => 0) (.state "fsm"))) = some (2, 0, 3, 1) := by decide

end Witness

end Hdl
