import Verif.Props.C49_FsmIf

/-!
# C11, C49: `If(..).If(..)`

`seq.If(a).If(b)(s)`, `fsm.If(a).If(b)(s)` and `fsm.If(a).If(b).goto(d)` act exactly when all the conditions of all the
`If` calls hold.
-/

namespace Hdl

/-- The arguments of one `If` call. -/
abbrev IfArgs := Expr × List Expr

/-- All conditions of all the calls hold. -/
def allHold (gs : List IfArgs) (env : Env) : Bool := gs.all fun g => (g.1 :: g.2).all fun c => c.truthy env

/-- The conjunction `make_condition` builds from the arguments of one call. -/
def IfArgs.conj (g : IfArgs) : Expr := g.2.foldl Expr.and g.1

theorem IfArgs.truthy_conj (g : IfArgs) (env : Env) :
    g.conj.truthy env = (g.1 :: g.2).all fun c => c.truthy env := SeqSt.truthy_foldl g.2 g.1 env

theorem all_conj (gs : List IfArgs) (env : Env) :
    (gs.map IfArgs.conj).all (fun c => c.truthy env) = allHold gs env := by
  rw [List.all_map]
  exact congrArg (gs.all ·) (funext fun g => g.truthy_conj env)

namespace SeqSt

theorem iff_iffs (gs : List IfArgs) (rest : List SeqOp) (s : SeqSt) (c : Expr) (hc : s.next.cond = some c)
    (hl : s.lastCond = [c]) (he : s.elifCond = none) :
    s.applyAll (gs.map (fun g => SeqOp.iff (g.1 :: g.2)) ++ rest) =
      SeqSt.applyAll { s with next := { s.next with cond := some ((gs.map IfArgs.conj).foldl Expr.and c) },
                              lastCond := [(gs.map IfArgs.conj).foldl Expr.and c] } rest := by
  induction gs generalizing s c with
  | nil =>
    simp only [List.map_nil, List.nil_append, List.foldl_nil]
    rw [← hc, ← hl]
  | cons g gs ih =>
    simp only [List.map_cons, List.cons_append, applyAll, SeqOp.apply, iff, makeCond, hc, Option.bind_some]
    rw [ih _ (c.and g.conj) rfl rfl rfl]
    simp only [List.foldl_cons, he]

/-- **C11, chained `If`.**  `seq.If(..).If(..)...(s)` executes `s` exactly when all conditions of all calls hold. -/
theorem c11_nested_if (s : SeqSt) (hs : s.Ready) (g : IfArgs) (gs : List IfArgs) (stmts : List Code) :
    ∃ s', s.applyAll ((g :: gs).map (fun g => SeqOp.iff (g.1 :: g.2)) ++ [.add stmts]) = some s' ∧ s'.Ready ∧
      ∀ env acc, (Code.block s'.makeCode).exec env acc =
        (if allHold (g :: gs) env then Code.block stmts else .skip).exec env ((Code.block s.makeCode).exec env acc) := by
  obtain ⟨s', h1, h2, h3⟩ := c11_if_chain s hs ⟨g.conj, gs.map IfArgs.conj, stmts⟩ [] none
  refine ⟨s', ?_, h2, fun env acc => ?_⟩
  · rw [← h1]
    simp only [List.map_cons, List.cons_append, applyAll, SeqOp.apply, Option.bind_some, chainCalls, List.flatMap_nil,
      List.append_nil, List.nil_append]
    rw [iff_iffs gs [.add stmts] (s.iff (g.1 :: g.2)) g.conj (by simp [iff, makeCond, hs.1]; rfl)
      (by simp [iff, makeCond, hs.1]; rfl) rfl]
    simp only [iff, makeCond, hs.1]
    rfl
  · rw [h3]
    have : (g.conj :: gs.map IfArgs.conj).all (fun c => c.truthy env) = allHold (g :: gs) env := all_conj (g :: gs) env
    cases h : allHold (g :: gs) env
    · simp [selected, Branch.holds, List.find?, this, h, Code.exec, Code.block]
    · simp [selected, Branch.holds, List.find?, this, h]

end SeqSt

namespace FsmSt

theorem iff_iffs (gs : List IfArgs) (rest : List FsmOp) (s : FsmSt) (c : Expr) (hc : s.next.cond = some c)
    (hl : s.lastCond = [c]) (he : s.elifCond = none) :
    s.applyAll (gs.map (fun g => FsmOp.iff (g.1 :: g.2)) ++ rest) =
      FsmSt.applyAll { s with next := { s.next with cond := some ((gs.map IfArgs.conj).foldl Expr.and c) },
                              lastCond := [(gs.map IfArgs.conj).foldl Expr.and c] } rest := by
  induction gs generalizing s c with
  | nil =>
    simp only [List.map_nil, List.nil_append, List.foldl_nil]
    rw [← hc, ← hl]
  | cons g gs ih =>
    simp only [List.map_cons, List.cons_append, applyAll, FsmOp.apply, iff, makeCond, hc, Option.bind_some]
    rw [ih _ (c.and g.conj) rfl rfl rfl]
    simp only [List.foldl_cons, he]

/-- The calls `When(i).If(..).If(..)...` leave the builder as one `If` with the conjunctions of each call. -/
theorem nested_eq (s : FsmSt) (hs : s.Idle) (wh : Option Nat) (g : IfArgs) (gs : List IfArgs) (rest : List FsmOp) :
    s.applyAll (whenOps wh ++ (g :: gs).map (fun g => FsmOp.iff (g.1 :: g.2)) ++ rest) =
      s.applyAll (whenIf wh ((g :: gs).map IfArgs.conj) ++ rest) := by
  have key : ∀ t : FsmSt, t.next.cond = none →
      t.applyAll ((g :: gs).map (fun g => FsmOp.iff (g.1 :: g.2)) ++ rest) =
        t.applyAll (FsmOp.iff ((g :: gs).map IfArgs.conj) :: rest) := by
    intro t ht
    simp only [List.map_cons, List.cons_append, applyAll, FsmOp.apply, Option.bind_some]
    rw [iff_iffs gs rest (t.iff (g.1 :: g.2)) g.conj (by simp [iff, makeCond, ht]; rfl)
      (by simp [iff, makeCond, ht]; rfl) rfl]
    simp only [iff, makeCond, ht]
  cases wh with
  | none => exact key s (by rw [hs.1])
  | some i =>
    exact key { s with next := { s.next with index := some i } } (by rw [hs.1])

/-- **C49, chained `If`.**  `fsm.When(i).If(..).If(..)...(s)` executes `s` at an edge at which the FSM is in the state
    and all conditions of all calls hold, and at no other. -/
theorem c49_nested_if {name : String} {w : Nat} {s : FsmSt} (h : Reach name w s) (hidle : s.Idle)
    (wh : Option Nat) (g : IfArgs) (gs : List IfArgs) (stmts : List Code)
    (hok : ∀ c ∈ stmts, ∀ r ∈ c.targets, r.name.fgenBy name = false) :
    ∃ s', s.applyAll (whenOps wh ++ (g :: gs).map (fun g => FsmOp.iff (g.1 :: g.2)) ++ [.add stmts]) = some s' ∧
      Reach name w s' ∧ s'.Idle ∧ s'.cur = s.cur ∧
      ∀ rst uc env, Expr.truthy rst env = false → ∀ x,
        (s'.always rst uc).tick env x =
          if env (.state name) = ((wh.getD s.cur : Nat) : Int) ∧ allHold (g :: gs) env = true then
            (Code.block stmts).exec env ((s.always rst uc).tick env) x
          else (s.always rst uc).tick env x := by
  obtain ⟨s', h1, h2, h3, h4, h5⟩ := c49_chain h hidle wh ⟨g.conj, gs.map IfArgs.conj, stmts⟩ [] none (by simpa using hok)
  refine ⟨s', ?_, h2, h3, h4, fun rst uc env hr x => ?_⟩
  · rw [nested_eq s hidle, ← h1]
    simp [fsmChain]
  · rw [h5 rst uc env hr x]
    have : (g.conj :: gs.map IfArgs.conj).all (fun c => c.truthy env) = allHold (g :: gs) env := all_conj (g :: gs) env
    by_cases hst : env (.state name) = ((wh.getD s.cur : Nat) : Int)
    · rw [if_pos hst]
      cases hh : allHold (g :: gs) env
      · rw [if_neg (by simp)]
        simp [selected, Branch.holds, List.find?, this, hh, Code.exec, Code.block]
      · rw [if_pos ⟨hst, rfl⟩]
        simp [selected, Branch.holds, List.find?, this, hh]
    · rw [if_neg hst, if_neg fun h => hst h.1]

/-- **C49, chained `If`, jumps.**  `fsm.When(i).If(..).If(..)....goto(d)` jumps exactly when the FSM is in the state and
    all conditions of all calls hold. -/
theorem c49_nested_goto {name : String} {w : Nat} {s : FsmSt} (h : Reach name w s) (hidle : s.Idle)
    (wh : Option Nat) (g : IfArgs) (gs : List IfArgs) (dst : Nat) (hdst : dst < 2 ^ w) :
    ∃ s', s.applyAll (whenOps wh ++ (g :: gs).map (fun g => FsmOp.iff (g.1 :: g.2)) ++ [.goto dst none none]) = some s' ∧
      Reach name w s' ∧ s'.Idle ∧ s'.cur = s.cur ∧
      ∀ rst uc env, Expr.truthy rst env = false → ∀ x,
        (s'.always rst uc).tick env x =
          if x = .state name ∧ env (.state name) = ((wh.getD s.cur : Nat) : Int) ∧ allHold (g :: gs) env = true then
            (dst : Int)
          else (s.always rst uc).tick env x := by
  obtain ⟨s', h1, h2, h3, h4, h5⟩ := c16_goto h hidle wh ((g :: gs).map IfArgs.conj) dst none hdst (by simp)
  refine ⟨s', by rw [nested_eq s hidle, ← h1], h2, h3, h4, fun rst uc env hr x => ?_⟩
  rw [h5 rst uc env hr x, condsHold, all_conj (g :: gs) env]
  cases hh : allHold (g :: gs) env
  · simp [takeJump]
  · simp [takeJump]

/-- Two calls of `If`: `x` is written only when both `a` and `b` hold. -/
example : ((FsmSt.fresh "fsm" 8).applyAll
    [.iff [.var (.user "a")], .iff [.var (.user "b")], .add [.subst ⟨.user "x", 8, false, some 0⟩ (.int 1)]]).map (fun s =>
      ((s.always (.int 0) true).tick (fun v => if v = .user "b" then 1 else 0) (.user "x"),
       (s.always (.int 0) true).tick (fun v => if v = .user "a" then 1 else 0) (.user "x"),
       (s.always (.int 0) true).tick (fun v => if v = .user "a" ∨ v = .user "b" then 1 else 0) (.user "x"))) =
    some (0, 0, 1) := by decide

end FsmSt

end Hdl
