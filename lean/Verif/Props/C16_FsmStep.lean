import Verif.Lemmas.FsmStep
import Verif.Props.C13_SeqDelay

/-!
# C16: one clock edge of an FSM

The meaning of an FSM is given call by call.  `(s.always rst uc).tick env` are the register values
after a clock edge, from the values `env` before it, for the FSM built so far (`uc`: rendered as a
`case` or as `if` statements).  Starting from a new FSM (`c16_fresh`), each jump call changes the
next state exactly when the FSM is in the source state and its condition holds (`c16_goto`,
`c16_goto_cond`, `c16_goto_next`, `c16_goto_from`), each statement is executed exactly when the FSM
is in its state and its condition holds, after everything added before (`c16_add`), and no other
call changes the next state (`c16_other`).
-/

namespace Hdl

open FsmSt

/-- No call is half-finished. -/
def FsmSt.Idle (s : FsmSt) : Prop := s.next = {} ∧ s.nextElse = false ∧ s.elifCond = none

/-- `fsm.When(i).If(*conds)`; calls with empty arguments are left out. -/
def whenIf (w : Option Nat) (conds : List Expr) : List FsmOp :=
  (match w with
    | none => []
    | some i => [.whn i]) ++ (if conds.isEmpty then [] else [.iff conds])

/-- `Ands(x, y)`-style conjunction of what `If` collected; `none` if there was no condition. -/
def holds (c : Option Expr) (env : Env) : Bool :=
  match c with
  | none => true
  | some c => c.truthy env

/-- A jump to `dst` under `c`, else to `els`, else nothing changes. -/
def takeJump (c : Bool) (dst : Nat) (els : Option Nat) (old : Int) : Int :=
  if c then (dst : Int) else (els.map fun e => (e : Int)).getD old

namespace FsmSt

theorem whenIf_spec (s : FsmSt) (h : s.Idle) (w : Option Nat) (conds : List Expr)
    (rest : List FsmOp) :
    ∃ s1 : FsmSt, s.applyAll (whenIf w conds ++ rest) = s1.applyAll rest ∧
      s1.next = { cond := makeCond conds, index := w } ∧ s1.nextElse = false ∧ s1.elifCond = none ∧
      s1.name = s.name ∧ s1.width = s.width ∧ s1.seq = s.seq ∧ s1.code = s.code ∧
      s1.jumps = s.jumps ∧ s1.dstVar = s.dstVar ∧ s1.delayAmount = s.delayAmount ∧
      s1.tmpCount = s.tmpCount ∧ s1.cur = s.cur ∧ s1.lastIf = s.lastIf := by
  obtain ⟨h1, h2, h3⟩ := h
  cases w with
  | none =>
    cases conds with
    | nil => exact ⟨s, rfl, h1, h2, h3, rfl, rfl, rfl, rfl, rfl, rfl, rfl, rfl, rfl, rfl⟩
    | cons c cs =>
      refine ⟨s.iff (c :: cs), rfl, ?_⟩
      simp [FsmSt.iff, makeCond, h1, h2]
  | some i =>
    cases conds with
    | nil =>
      refine ⟨{ s with next := { s.next with index := some i } }, rfl, ?_⟩
      simp [h1, h2, h3, makeCond]
    | cons c cs =>
      refine ⟨{ s with next := { s.next with index := some i } }.iff (c :: cs), rfl, ?_⟩
      simp [FsmSt.iff, makeCond, h1, h2]

theorem jumpCode_trace (st : Reg) (c : Option Expr) (dst : Nat) (els : Option Nat) (env : Env)
    (old : Int) (hs : st.signed = false) (hd : dst < 2 ^ st.width)
    (he : ∀ e, els = some e → e < 2 ^ st.width) :
    (((jumpCode st ⟨dst, c, els⟩).trace env st.name).getLast?).getD old =
      takeJump (holds c env) dst els old := by
  have hw : ∀ n : Nat, n < 2 ^ st.width → st.wrap (n : Int) = (n : Int) := by
    intro n hn
    rw [Reg.wrap, hs]
    simp only [Bool.false_eq_true, if_false]
    rw [← Int.natCast_emod, Nat.mod_eq_of_lt hn]
  unfold jumpCode takeJump holds
  cases c with
  | none => simp [Code.trace, Expr.eval, hw dst hd]
  | some c =>
    by_cases h : c.truthy env = true
    · simp [Code.trace, h, Expr.eval, hw dst hd]
    · cases els with
      | none => simp [Code.trace, h]
      | some e => simp [Code.trace, h, Expr.eval, hw e (he e rfl)]

/-- Everything a new jump changes. -/
theorem jump_core {s s' : FsmSt} (hi : s.Inv) (hi' : s'.Inv) (hn : s'.name = s.name)
    (hw : s'.width = s.width) (hs : s'.seq = s.seq) (hc : s'.code = s.code)
    (hd : s'.delayAmount = s.delayAmount) (i dst : Nat) (c : Option Expr) (els : Option Nat)
    (hj : s'.jumps = s.jumps ++ [(i, ⟨dst, c, els⟩)]) (hdst : dst < 2 ^ s.width)
    (hels : ∀ e, els = some e → e < 2 ^ s.width) (rst : Expr) (uc : Bool) (env : Env)
    (hr : rst.truthy env = false) (x : Var) :
    (s'.always rst uc).tick env x =
      if x = .state s.name ∧ env (.state s.name) = (i : Int) then
        takeJump (holds c env) dst els ((s.always rst uc).tick env x)
      else (s.always rst uc).tick env x := by
  have hst : s'.stateReg = s.stateReg := by simp [stateReg, hn, hw]
  by_cases hx : x = s.stateReg.name
  · subst hx
    have h1 := tick_state hi' rst uc env hr
    rw [hst] at h1
    rw [h1, tick_state hi rst uc env hr, jumpTrace_snoc s s' hn hw i _ hj]
    by_cases h : env s.stateReg.name = (i : Int)
    · have h' : env (.state s.name) = (i : Int) := h
      rw [if_pos h, if_pos ⟨rfl, h'⟩, List.getLast?_append]
      rw [← jumpCode_trace s.stateReg c dst els env _ rfl hdst hels]
      cases ((jumpCode s.stateReg ⟨dst, c, els⟩).trace env s.stateReg.name).getLast? <;> simp
    · have h' : ¬ env (.state s.name) = (i : Int) := h
      rw [if_neg h, if_neg fun hh => h' hh.2, List.append_nil]
  · have hx' : ¬ x = .state s.name := hx
    rw [if_neg fun hh => hx' hh.1, tick_eq s' rst uc env hr, tick_eq s rst uc env hr,
      makeCase_trace, makeCase_trace, hs, hd]
    have e1 : s'.delayedSubsts = s.delayedSubsts := by
      simp [delayedSubsts, hd, dstateReg_congr hn hw]
    have e2 : s'.seg env x 0 (s.delayAmount + 1) = s.seg env x 0 (s.delayAmount + 1) :=
      seg_congr _ fun d _ _ => active_congr hn hw d fun i => keyTrace_congr hc d i env x
    rw [e1, e2, jumpTrace_nil s hx, jumpTrace_nil s' (by rw [hst]; exact hx)]

end FsmSt

/-- A new FSM stays in its state and changes nothing. -/
theorem c16_fresh (name : String) (w : Nat) (rst : Expr) (uc : Bool) (env : Env)
    (hr : rst.truthy env = false) (x : Var) :
    ((FsmSt.fresh name w).always rst uc).tick env x = env x := by
  have h : traceL (FsmSt.fresh name w).makeCase env x = [] := by
    rw [makeCase_trace]
    have h1 : traceL (FsmSt.fresh name w).seq.makeCode env x = [] := rfl
    have h2 : traceL (FsmSt.fresh name w).delayedSubsts env x = [] := rfl
    rw [h1, h2, seg_nil (inv_fresh name w).covered (by simp [FsmSt.fresh, FsmSt.dstNames])]
    simp [jumpTrace, jumpsAt, FsmSt.fresh, traceL]
  rw [tick_eq _ rst uc env hr, h]
  rfl

/-- **C16, jumps.**  `fsm.When(i).If(*conds).goto(dst, else_dst=els)` (without `When`: `i` is the
    current state of the builder): after an edge at which the FSM was in state `i`, it is in `dst`
    if the conditions held, else in `els` if given; otherwise, and from every other state, the next
    state is what it was without this call.  No other register is affected. -/
theorem c16_goto {name : String} {w : Nat} {s : FsmSt} (h : Reach name w s) (hidle : s.Idle)
    (wh : Option Nat) (conds : List Expr) (dst : Nat) (els : Option Nat) (hdst : dst < 2 ^ w)
    (hels : ∀ e, els = some e → e < 2 ^ w) :
    ∃ s', s.applyAll (whenIf wh conds ++ [.goto dst none els]) = some s' ∧ Reach name w s' ∧
      s'.Idle ∧ s'.cur = s.cur ∧
      ∀ rst uc env, Expr.truthy rst env = false → ∀ x,
        (s'.always rst uc).tick env x =
          if x = .state name ∧ env (.state name) = ((wh.getD s.cur : Nat) : Int) then
            takeJump (condsHold conds env) dst els ((s.always rst uc).tick env x)
          else (s.always rst uc).tick env x := by
  obtain ⟨s1, h1, f1, f2, f3, f4, f5, f6, f7, f8, f9, f10, f11, f12, -⟩ :=
    whenIf_spec s hidle wh conds [.goto dst none els]
  have hap : s.applyAll (whenIf wh conds ++ [.goto dst none els]) = some (s1.goto dst none els) := by
    rw [h1]; rfl
  have hreach := h.append _ (by
    intro op hop
    simp only [whenIf, List.mem_append, List.mem_singleton] at hop
    rcases hop with (hop | hop) | hop
    · cases wh with
      | none => simp at hop
      | some i => simp at hop; subst hop; trivial
    · cases conds with
      | nil => simp at hop
      | cons c cs => simp at hop; subst hop; trivial
    · subst hop; trivial) hap
  refine ⟨_, hap, hreach, ⟨rfl, f2, f3⟩, f12, ?_⟩
  intro rst uc env hr x
  have hwd := h.width_eq
  have hnm := h.name_eq
  have key := jump_core (s' := s1.goto dst none els) h.inv hreach.inv f4 f5 f6 f7 f10
    (wh.getD s.cur) dst (makeCond conds) els (by simp [FsmSt.goto, f1, f8, f12])
    (by rw [hwd]; exact hdst) (by rw [hwd]; exact hels) rst uc env hr x
  rw [key, hnm]
  have : holds (makeCond conds) env = condsHold conds env := by
    cases hc : makeCond conds with
    | none => cases conds with
      | nil => rfl
      | cons a l => simp [makeCond] at hc
    | some c => exact SeqSt.truthy_makeCond conds c hc env
  rw [this]

/-- **C16, jumps with an explicit condition argument**: `fsm.When(i).goto(dst, cond, else_dst)`. -/
theorem c16_goto_cond {name : String} {w : Nat} {s : FsmSt} (h : Reach name w s) (hidle : s.Idle)
    (wh : Option Nat) (c : Expr) (dst : Nat) (els : Option Nat) (hdst : dst < 2 ^ w)
    (hels : ∀ e, els = some e → e < 2 ^ w) :
    ∃ s', s.applyAll (whenIf wh [] ++ [.goto dst (some c) els]) = some s' ∧ Reach name w s' ∧
      s'.Idle ∧ s'.cur = s.cur ∧
      ∀ rst uc env, Expr.truthy rst env = false → ∀ x,
        (s'.always rst uc).tick env x =
          if x = .state name ∧ env (.state name) = ((wh.getD s.cur : Nat) : Int) then
            takeJump (c.truthy env) dst els ((s.always rst uc).tick env x)
          else (s.always rst uc).tick env x := by
  obtain ⟨s1, h1, f1, f2, f3, f4, f5, f6, f7, f8, f9, f10, f11, f12, -⟩ :=
    whenIf_spec s hidle wh [] [.goto dst (some c) els]
  have hap : s.applyAll (whenIf wh [] ++ [.goto dst (some c) els]) =
      some (s1.goto dst (some c) els) := by
    rw [h1]; rfl
  have hreach := h.append _ (by
    intro op hop
    simp only [whenIf, List.mem_append, List.mem_singleton] at hop
    rcases hop with (hop | hop) | hop
    · cases wh with
      | none => simp at hop
      | some i => simp at hop; subst hop; trivial
    · simp at hop
    · subst hop; trivial) hap
  refine ⟨_, hap, hreach, ⟨rfl, f2, f3⟩, f12, ?_⟩
  intro rst uc env hr x
  have hwd := h.width_eq
  have hnm := h.name_eq
  have key := jump_core (s' := s1.goto dst (some c) els) h.inv hreach.inv f4 f5 f6 f7 f10
    (wh.getD s.cur) dst (some c) els (by simp [FsmSt.goto, f1, f8, f12])
    (by rw [hwd]; exact hdst) (by rw [hwd]; exact hels) rst uc env hr x
  rw [key, hnm]
  rfl

/-- **C16, `goto_next`**: the jump goes to the state after the source state, and the builder moves on
    to the state after its current one. -/
theorem c16_goto_next {name : String} {w : Nat} {s : FsmSt} (h : Reach name w s) (hidle : s.Idle)
    (wh : Option Nat) (conds : List Expr) (hdst : wh.getD s.cur + 1 < 2 ^ w) :
    ∃ s', s.applyAll (whenIf wh conds ++ [.gotoNext none]) = some s' ∧ Reach name w s' ∧
      s'.Idle ∧ s'.cur = s.cur + 1 ∧
      ∀ rst uc env, Expr.truthy rst env = false → ∀ x,
        (s'.always rst uc).tick env x =
          if x = .state name ∧ env (.state name) = ((wh.getD s.cur : Nat) : Int) ∧
              condsHold conds env = true then ((wh.getD s.cur + 1 : Nat) : Int)
          else (s.always rst uc).tick env x := by
  obtain ⟨s1, h1, f1, f2, f3, f4, f5, f6, f7, f8, f9, f10, f11, f12, -⟩ :=
    whenIf_spec s hidle wh conds [.gotoNext none]
  have hap : s.applyAll (whenIf wh conds ++ [.gotoNext none]) = some (s1.gotoNext none) := by
    rw [h1]; rfl
  have hreach := h.append _ (by
    intro op hop
    simp only [whenIf, List.mem_append, List.mem_singleton] at hop
    rcases hop with (hop | hop) | hop
    · cases wh with
      | none => simp at hop
      | some i => simp at hop; subst hop; trivial
    · cases conds with
      | nil => simp at hop
      | cons c cs => simp at hop; subst hop; trivial
    · subst hop; trivial) hap
  refine ⟨_, hap, hreach, ⟨rfl, rfl, rfl⟩, by simp [FsmSt.gotoNext, FsmSt.setIndex, f12], ?_⟩
  intro rst uc env hr x
  have hwd := h.width_eq
  have hnm := h.name_eq
  have key := jump_core (s' := s1.gotoNext none) h.inv hreach.inv f4 f5 f6 f7 f10
    (wh.getD s.cur) (wh.getD s.cur + 1) (makeCond conds) none
    (by simp [FsmSt.gotoNext, FsmSt.setIndex, FsmSt.goto, f1, f8, f12])
    (by rw [hwd]; exact hdst) (by simp) rst uc env hr x
  rw [key, hnm]
  have : holds (makeCond conds) env = condsHold conds env := by
    cases hc : makeCond conds with
    | none => cases conds with
      | nil => rfl
      | cons a l => simp [makeCond] at hc
    | some c => exact SeqSt.truthy_makeCond conds c hc env
  rw [this]
  by_cases hx : x = .state name ∧ env (.state name) = ((wh.getD s.cur : Nat) : Int)
  · rw [if_pos hx]
    cases hch : condsHold conds env with
    | true => rw [if_pos ⟨hx.1, hx.2, rfl⟩]; rfl
    | false => rw [if_neg (by simp)]; rfl
  · rw [if_neg hx, if_neg fun hh => hx ⟨hh.1, hh.2.1⟩]

/-- **C16, `goto_from`**: `fsm.If(*conds).goto_from(src, dst, else_dst=els)`. -/
theorem c16_goto_from {name : String} {w : Nat} {s : FsmSt} (h : Reach name w s) (hidle : s.Idle)
    (conds : List Expr) (src dst : Nat) (els : Option Nat) (hdst : dst < 2 ^ w)
    (hels : ∀ e, els = some e → e < 2 ^ w) :
    ∃ s', s.applyAll (whenIf none conds ++ [.gotoFrom src dst none els]) = some s' ∧
      Reach name w s' ∧ s'.Idle ∧ s'.cur = s.cur ∧
      ∀ rst uc env, Expr.truthy rst env = false → ∀ x,
        (s'.always rst uc).tick env x =
          if x = .state name ∧ env (.state name) = (src : Int) then
            takeJump (condsHold conds env) dst els ((s.always rst uc).tick env x)
          else (s.always rst uc).tick env x := by
  obtain ⟨s1, h1, f1, f2, f3, f4, f5, f6, f7, f8, f9, f10, f11, f12, -⟩ :=
    whenIf_spec s hidle none conds [.gotoFrom src dst none els]
  have hap : s.applyAll (whenIf none conds ++ [.gotoFrom src dst none els]) =
      some (s1.gotoFrom src dst none els) := by
    rw [h1]; rfl
  have hreach := h.append _ (by
    intro op hop
    simp only [whenIf, List.mem_append, List.mem_singleton] at hop
    rcases hop with (hop | hop) | hop
    · simp at hop
    · cases conds with
      | nil => simp at hop
      | cons c cs => simp at hop; subst hop; trivial
    · subst hop; trivial) hap
  refine ⟨_, hap, hreach, ⟨rfl, f2, f3⟩, f12, ?_⟩
  intro rst uc env hr x
  have hwd := h.width_eq
  have hnm := h.name_eq
  have key := jump_core (s' := s1.gotoFrom src dst none els) h.inv hreach.inv f4 f5 f6 f7 f10
    src dst (makeCond conds) els (by simp [FsmSt.gotoFrom, FsmSt.goto, f1, f8])
    (by rw [hwd]; exact hdst) (by rw [hwd]; exact hels) rst uc env hr x
  rw [key, hnm]
  have : holds (makeCond conds) env = condsHold conds env := by
    cases hc : makeCond conds with
    | none => cases conds with
      | nil => rfl
      | cons a l => simp [makeCond] at hc
    | some c => exact SeqSt.truthy_makeCond conds c hc env
  rw [this]

namespace FsmSt

/-- A statement appended to the code of state `i` is executed last. -/
theorem push0_tick (s : FsmSt) (i : Nat) (it : Item)
    (hok : ∀ r ∈ it.code.targets, r.name.fgenBy s.name = false) (rst : Expr) (uc : Bool) (env : Env)
    (hr : rst.truthy env = false) (x : Var) :
    ((s.push 0 i it).always rst uc).tick env x =
      if env (.state s.name) = (i : Int) then
        it.code.exec env ((s.always rst uc).tick env) x
      else (s.always rst uc).tick env x := by
  obtain ⟨f1, f2, f3, f4, f5, f6, f7, f8, f9⟩ := push_fields s 0 i it
  have hst : (s.push 0 i it).stateReg = s.stateReg := by simp [stateReg, f1, f2]
  have hd : (s.push 0 i it).delayAmount = s.delayAmount := by rw [f5]; omega
  have e1 : (s.push 0 i it).delayedSubsts = s.delayedSubsts := by
    simp [delayedSubsts, hd, dstateReg_congr f1 f2]
  have htr : traceL (s.push 0 i it).makeCase env x =
      traceL s.seq.makeCode env x ++ traceL s.delayedSubsts env x ++ (s.seg env x 0 (s.delayAmount + 1)
        ++ (if env (.state s.name) = (i : Int) then it.code.trace env x else []) ++
        s.jumpTrace env x) := by
    rw [makeCase_trace, f3, e1, hd, jumpTrace_congr f1 f2 f9]
    congr 2
    have a1 := seg_add (s.push 0 i it) env x 0 1 s.delayAmount
    have a2 := seg_add s env x 0 1 s.delayAmount
    rw [Nat.add_comm 1] at a1 a2
    rw [a1, a2]
    have b1 : (s.push 0 i it).seg env x (0 + 1) s.delayAmount =
        s.seg env x (0 + 1) s.delayAmount := by
      refine seg_congr _ fun d h1 _ => active_congr f1 f2 d fun j => ?_
      rw [keyTrace_push, if_neg (by simp; omega), List.append_nil]
    rw [b1, List.append_assoc]
    congr 1
    have c1 : (s.push 0 i it).active 0 env x = s.active 0 env x ++
        (if env (.state s.name) = (i : Int) then it.code.trace env x else []) := by
      unfold active
      rw [dstateReg_congr f1 f2]
      have hn : (s.dstateReg 0).name = .state s.name := rfl
      rw [hn]
      by_cases h0 : 0 ≤ env (.state s.name)
      · rw [if_pos h0, if_pos h0, keyTrace_push]
        congr 1
        by_cases h : env (.state s.name) = (i : Int)
        · simp [h]
        · have : ¬ i = (env (.state s.name)).toNat := by omega
          simp [h, this]
      · rw [if_neg h0, if_neg h0, if_neg (by omega)]
        rfl
    simp [seg, c1]
  rw [tick_eq _ rst uc env hr, htr, tick_eq s rst uc env hr]
  by_cases hx : x = s.stateReg.name
  · have hnil : it.code.trace env x = [] := by
      refine Code.trace_nil fun r hr he => ?_
      have := hok r hr
      rw [he, hx] at this
      simp [Var.fgenBy, stateReg, Var.ownGen] at this
    have hset : (if env (.state s.name) = (i : Int) then it.code.trace env x else []) = [] := by
      rw [hnil]; simp
    rw [hset, List.append_nil, ← makeCase_trace]
    split
    · rw [Code.exec_eq_trace, hnil, tick_eq s rst uc env hr]; rfl
    · rfl
  · rw [jumpTrace_nil s hx, List.append_nil, ← List.append_assoc]
    have hm : traceL s.seq.makeCode env x ++ traceL s.delayedSubsts env x ++
        s.seg env x 0 (s.delayAmount + 1) = traceL s.makeCase env x := by
      rw [makeCase_trace, jumpTrace_nil s hx, List.append_nil]
    rw [hm]
    by_cases h : env (.state s.name) = (i : Int)
    · rw [if_pos h, if_pos h, Code.exec_eq_trace, tick_eq s rst uc env hr, List.getLast?_append]
      cases (it.code.trace env x).getLast? <;> simp
    · rw [if_neg h, if_neg h, List.append_nil]

theorem push_idle (s : FsmSt) (h : s.Idle) (d i : Nat) (it : Item) : (s.push d i it).Idle := by
  obtain ⟨ex, hx, -⟩ := addDst_eq
    { s with code := s.code ++ [((d, i), it)], delayAmount := max s.delayAmount d } it.code.targets
  unfold push
  rw [hx]
  exact h

/-- Statements appended to the code of state `i`, unconditionally. -/
theorem pushes_tick (i : Nat) (l : List Code) : ∀ t : FsmSt, t.Inv → t.Idle →
    (∀ c ∈ l, ∀ r ∈ c.targets, r.name.fgenBy t.name = false) →
    (l.foldl (fun s c => s.push 0 i (.plain c)) t).cur = t.cur ∧
    (l.foldl (fun s c => s.push 0 i (.plain c)) t).Idle ∧
    ∀ rst uc env, Expr.truthy rst env = false → ∀ x,
      ((l.foldl (fun s c => s.push 0 i (.plain c)) t).always rst uc).tick env x =
        if env (.state t.name) = (i : Int) then
          (Code.block l).exec env ((t.always rst uc).tick env) x
        else (t.always rst uc).tick env x := by
  induction l with
  | nil =>
    intro t _ hidle _
    refine ⟨rfl, hidle, fun rst uc env _ x => ?_⟩
    simp [Code.block, Code.exec]
  | cons c l ih =>
    intro t ht hidle hl
    have hp := fun rst uc env hr x => push0_tick t i (.plain c) (hl c (by simp)) rst uc env hr x
    have gp := Good.push ht 0 i (.plain c) (hl c (by simp))
    obtain ⟨i1, i2, i3⟩ := ih (t.push 0 i (.plain c)) gp.inv (push_idle t hidle _ _ _)
      (by rw [gp.name]; exact fun c hc => hl c (by simp [hc]))
    refine ⟨i1.trans (push_fields t 0 _ _).2.2.2.2.2.2.2.1, i2, fun rst uc env hr x => ?_⟩
    simp only [List.foldl_cons]
    rw [i3 rst uc env hr x, gp.name]
    by_cases hst : env (.state t.name) = (i : Int)
    · rw [if_pos hst, if_pos hst]
      have : ((t.push 0 i (.plain c)).always rst uc).tick env =
          c.exec env ((t.always rst uc).tick env) := by
        funext y
        rw [hp rst uc env hr y, if_pos hst]
        rfl
      rw [this]
      rfl
    · rw [if_neg hst, if_neg hst, hp rst uc env hr x, if_neg hst]

/-- Undelayed statements of state `i`. -/
theorem addStatement1_tick (t : FsmSt) (ht : t.Inv) (hidle : t.Idle) (i : Nat) (conds : List Expr)
    (stmts : List Code)
    (hok : ∀ c ∈ stmts, ∀ r ∈ c.targets, r.name.fgenBy t.name = false) :
    (t.addStatement1 stmts i 0 (makeCond conds) false false).cur = t.cur ∧
    (t.addStatement1 stmts i 0 (makeCond conds) false false).Idle ∧
    ∀ rst uc env, Expr.truthy rst env = false → ∀ x,
      ((t.addStatement1 stmts i 0 (makeCond conds) false false).always rst uc).tick env x =
        if env (.state t.name) = (i : Int) ∧ condsHold conds env = true then
          (Code.block stmts).exec env ((t.always rst uc).tick env) x
        else (t.always rst uc).tick env x := by
  unfold addStatement1
  rw [if_pos rfl]
  cases hc : makeCond conds with
  | none =>
    have hnil : conds = [] := by
      cases conds with
      | nil => rfl
      | cons a l => simp [makeCond] at hc
    obtain ⟨h1, h2, h3⟩ := pushes_tick i stmts t ht hidle hok
    refine ⟨h1, h2, fun rst uc env hr x => ?_⟩
    show ((stmts.foldl (fun s c => s.push 0 i (.plain c)) t).always rst uc).tick env x = _
    rw [h3 rst uc env hr x]
    subst hnil
    simp [condsHold]
  | some c =>
    refine ⟨(push_fields _ _ _ _).2.2.2.2.2.2.2.1, push_idle { t with lastIf := some t.code.length } hidle _ _ _, ?_⟩
    intro rst uc env hr x
    have hcode : ∀ r ∈ (Item.chain [(c, Code.block stmts)] none).code.targets,
        r.name.fgenBy t.name = false := by
      intro r hr
      simp only [Item.code, chainCode, Code.targets, List.append_nil] at hr
      rw [Code.targets_block] at hr
      obtain ⟨c', hc', hr'⟩ := List.mem_flatMap.1 hr
      exact hok c' hc' r hr'
    have := push0_tick { t with lastIf := some t.code.length } i
      (.chain [(c, Code.block stmts)] none) hcode rst uc env hr x
    have he := SeqSt.truthy_makeCond conds c hc env
    rw [this]
    by_cases hst : env (.state t.name) = (i : Int)
    · rw [if_pos hst]
      cases hch : condsHold conds env with
      | true =>
        rw [if_pos ⟨hst, rfl⟩]
        have h2 : c.truthy env = true := he.trans hch
        simp only [Item.code, chainCode, Code.exec, h2, if_true]
        rfl
      | false =>
        rw [if_neg (by simp)]
        have h2 : c.truthy env = false := he.trans hch
        simp [Item.code, chainCode, Code.exec, h2]
        rfl
    · rw [if_neg hst, if_neg fun hh => hst hh.1]
      rfl

theorem applyAll_add (s1 : FsmSt) (stmts : List Code) :
    s1.applyAll [.add stmts] = s1.add stmts := by
  simp only [FsmSt.applyAll, FsmOp.apply]
  cases s1.add stmts <;> rfl

end FsmSt

/-- **C16, statements.**  `fsm.When(i).If(*conds)(*stmts)` (without `When`: `i` is the current state
    of the builder): at an edge at which the FSM is in state `i` and the conditions hold the
    statements are executed, after everything added before; at any other edge they have no
    effect. -/
theorem c16_add {name : String} {w : Nat} {s : FsmSt} (h : Reach name w s) (hidle : s.Idle)
    (wh : Option Nat) (conds : List Expr) (stmts : List Code)
    (hok : ∀ c ∈ stmts, ∀ r ∈ c.targets, r.name.fgenBy name = false) :
    ∃ s', s.applyAll (whenIf wh conds ++ [.add stmts]) = some s' ∧ Reach name w s' ∧
      s'.Idle ∧ s'.cur = s.cur ∧
      ∀ rst uc env, Expr.truthy rst env = false → ∀ x,
        (s'.always rst uc).tick env x =
          if env (.state name) = ((wh.getD s.cur : Nat) : Int) ∧ condsHold conds env = true then
            (Code.block stmts).exec env ((s.always rst uc).tick env) x
          else (s.always rst uc).tick env x := by
  obtain ⟨s1, h1, f1, f2, f3, f4, f5, f6, f7, f8, f9, f10, f11, f12, f13⟩ :=
    whenIf_spec s hidle wh conds [.add stmts]
  -- the builder just before the statement is appended
  obtain ⟨s2, hs2, e1, e2, e3, e4, e5, e6, e7, e8, e9, e10⟩ : ∃ s2 : FsmSt,
      s1.add stmts = some (s2.addStatement1 stmts (wh.getD s.cur) 0 (makeCond conds) false false) ∧
      s2.name = s.name ∧ s2.width = s.width ∧ s2.seq = s.seq ∧ s2.code = s.code ∧
      s2.jumps = s.jumps ∧ s2.dstVar = s.dstVar ∧ s2.delayAmount = s.delayAmount ∧
      s2.tmpCount = s.tmpCount ∧ s2.cur = s.cur ∧ s2.Idle ∧ s2.lastIf = none := by
    refine ⟨{ s1 with lastDelay := s1.next.delay, next := {}, lastIf := none, nextElse := false },
      ?_, f4, f5, f6, f7, f8, f9, f10, f11, f12, ⟨rfl, rfl, f3⟩, rfl⟩
    simp [FsmSt.add, FsmSt.addKw, f1, f2, f3, FsmSt.addStatement, f12]
  have g2 : Good s s2 := .book h.inv e1 e2 e3 e4 e6 e7 (by omega) (Or.inr e10.2)
  have hap : s.applyAll (whenIf wh conds ++ [.add stmts]) =
      some (s2.addStatement1 stmts (wh.getD s.cur) 0 (makeCond conds) false false) := by
    rw [h1, applyAll_add, hs2]
  have hreach := h.append _ (by
    intro op hop
    simp only [whenIf, List.mem_append, List.mem_singleton] at hop
    rcases hop with (hop | hop) | hop
    · cases wh with
      | none => simp at hop
      | some i => simp at hop; subst hop; trivial
    · cases conds with
      | nil => simp at hop
      | cons c cs => simp at hop; subst hop; trivial
    · subst hop; exact hok) hap
  have hnm := h.name_eq
  have htick2 : ∀ rst uc env, Expr.truthy rst env = false → ∀ x,
      (s2.always rst uc).tick env x = (s.always rst uc).tick env x := by
    intro rst uc env hr x
    have a1 : s2.delayedSubsts = s.delayedSubsts := by
      simp [delayedSubsts, e7, dstateReg_congr e1 e2]
    rw [tick_eq _ rst uc env hr, tick_eq _ rst uc env hr, makeCase_trace, makeCase_trace, e3, e7, a1,
      jumpTrace_congr e1 e2 e5, seg_congr (s' := s2) (s := s) _ fun d _ _ =>
        active_congr e1 e2 d fun i => keyTrace_congr e4 d i env x]
  obtain ⟨a1, a2, a3⟩ := addStatement1_tick s2 g2.inv e10.1 (wh.getD s.cur) conds stmts
    (by rw [e1, hnm]; exact hok)
  refine ⟨_, hap, hreach, a2, a1.trans e9, ?_⟩
  intro rst uc env hr x
  rw [a3 rst uc env hr x, e1, hnm, htick2 rst uc env hr x]
  have : (s2.always rst uc).tick env = (s.always rst uc).tick env :=
    funext fun y => htick2 rst uc env hr y
  rw [this]

/-- The calls that can set the next state. -/
def FsmOp.isJump : FsmOp → Bool
  | .goto _ _ _ | .gotoNext _ | .gotoFrom _ _ _ _ => true
  | _ => false

namespace FsmSt

theorem pipeLoop_jumps (reg : Nat → Reg) (m : Nat) : ∀ (i : Nat) (p : Expr) (s : FsmSt),
    (pipeLoop reg m i p s).2.jumps = s.jumps := by
  induction m with
  | zero => intro i p s; rfl
  | succ m ih =>
    intro i p s
    rw [pipeLoop, ih]
    exact (push_fields _ _ _ _).2.2.2.2.2.2.2.2

theorem addDelayedCond_jumps (s : FsmSt) (c : Expr) (n : Nat) :
    (s.addDelayedCond c n).2.jumps = s.jumps := pipeLoop_jumps _ _ _ _ _

theorem addDelayedSubst_jumps (s : FsmSt) (c : Code) (n : Nat) :
    (s.addDelayedSubst c n).2.jumps = s.jumps := by
  unfold addDelayedSubst
  split
  · exact pipeLoop_jumps _ _ _ _ _
  · rfl

theorem addDelayedSubsts_jumps (cs : List Code) (n : Nat) : ∀ s : FsmSt,
    (s.addDelayedSubsts cs n).2.jumps = s.jumps := by
  induction cs with
  | nil => intro s; rfl
  | cons c cs ih =>
    intro s
    show ((s.addDelayedSubst c n).2.addDelayedSubsts cs n).2.jumps = _
    rw [ih, addDelayedSubst_jumps]

theorem addDelayed_jumps (s : FsmSt) (stmts : List Code) (i n : Nat) (c : Option Expr)
    (lz eager : Bool) : (s.addDelayed stmts i n c lz eager).jumps = s.jumps := by
  unfold addDelayed
  cases eager <;> cases lz <;>
    simp [(push_fields _ _ _ _).2.2.2.2.2.2.2.2, addDelayedCond_jumps, addDelayedSubsts_jumps]

theorem addStatement1_jumps (s : FsmSt) (stmts : List Code) (i n : Nat) (c : Option Expr)
    (lz eager : Bool) : (s.addStatement1 stmts i n c lz eager).jumps = s.jumps := by
  unfold addStatement1
  split
  · split
    · exact (push_fields _ _ _ _).2.2.2.2.2.2.2.2
    · have : ∀ (l : List Code) (t : FsmSt),
          (l.foldl (fun s c => s.push 0 i (.plain c)) t).jumps = t.jumps := by
        intro l
        induction l with
        | nil => intro t; rfl
        | cons c l ih => intro t; rw [List.foldl_cons, ih]; exact (push_fields _ _ _ _).2.2.2.2.2.2.2.2
      exact this _ _
  · exact addDelayed_jumps _ _ _ _ _ _ _

theorem addStatement_jumps (s : FsmSt) (stmts : List Code) (kw : FKwargs) :
    (s.addStatement stmts kw).jumps = s.jumps := by
  unfold addStatement
  simp only
  split
  · have : ∀ (l : List Nat) (t : FsmSt),
        (l.foldl (fun s' i => s'.addStatement1 stmts (kw.index.getD s.cur) (kw.delay.getD 0 + i)
          kw.cond (kw.lazyCond.getD false) (kw.eagerVal.getD false)) t).jumps = t.jumps := by
      intro l
      induction l with
      | nil => intro t; rfl
      | cons c l ih => intro t; rw [List.foldl_cons, ih, addStatement1_jumps]
    exact this _ _
  · exact addStatement1_jumps _ _ _ _ _ _ _

theorem addDst_jumps (s : FsmSt) (rs : List Reg) : (s.addDst rs).jumps = s.jumps := by
  obtain ⟨ex, hx, -⟩ := addDst_eq s rs
  rw [hx]

theorem addKw_jumps {s s' : FsmSt} {kw : FKwargs} {stmts : List Code}
    (h : s.addKw kw stmts = some s') : s'.jumps = s.jumps := by
  unfold addKw at h
  split at h
  · split at h
    · simp only [Option.some.injEq] at h; subst h; exact addDst_jumps _ _
    · simp at h
  · split at h
    · split at h
      · simp only [Option.some.injEq] at h; subst h; exact addDst_jumps _ _
      · simp at h
    · simp only [Option.some.injEq] at h; subst h; exact addStatement_jumps _ _ _

theorem apply_jumps {s s' : FsmSt} {op : FsmOp} (h : op.apply s = some s') (hj : op.isJump = false) :
    s'.jumps = s.jumps := by
  cases op with
  | goto _ _ _ => simp [FsmOp.isJump] at hj
  | gotoNext _ => simp [FsmOp.isJump] at hj
  | gotoFrom _ _ _ _ => simp [FsmOp.isJump] at hj
  | iff cs => simp only [FsmOp.apply, Option.some.injEq] at h; subst h; simp [iff_fields]
  | thn => simp only [FsmOp.apply, Option.some.injEq] at h; subst h; simp [thn_fields]
  | els =>
    simp only [FsmOp.apply, els] at h
    split at h
    · simp at h
    · split at h
      · simp only [Option.some.injEq] at h; subst h; simp [thn_fields]
      · simp only [Option.some.injEq] at h; subst h; rfl
  | elif c cs =>
    simp only [FsmOp.apply, elif] at h
    split at h
    · simp at h
    · split at h
      · simp only [Option.some.injEq] at h; subst h; simp [thn_fields]
      · simp only [Option.some.injEq] at h; subst h; rfl
  | add stmts => exact (addKw_jumps (s := { s with lastDelay := s.next.delay, next := {} }) h)
  | par op =>
    simp only [FsmOp.apply, Option.map_eq_some_iff] at h
    obtain ⟨q, -, rfl⟩ := h
    rfl
  | _ => simp only [FsmOp.apply, Option.some.injEq] at h; subst h; rfl

end FsmSt

/-- **C16, everything else.**  A call that is not a jump does not change the next state. -/
theorem c16_other {name : String} {w : Nat} {s s' : FsmSt} (h : Reach name w s) {op : FsmOp}
    (hok : op.Ok name) (hop : op.apply s = some s') (hj : op.isJump = false) (rst : Expr) (uc : Bool)
    (env : Env) (hr : rst.truthy env = false) :
    (s'.always rst uc).tick env (.state name) = (s.always rst uc).tick env (.state name) := by
  have hap : s.applyAll [op] = some s' := by simp [FsmSt.applyAll, hop]
  have hreach := h.append [op] (by simpa using hok) hap
  have e1 : s'.name = s.name := hreach.name_eq.trans h.name_eq.symm
  have e2 : s'.width = s.width := hreach.width_eq.trans h.width_eq.symm
  have h1 := tick_state hreach.inv rst uc env hr
  have h2 := tick_state h.inv rst uc env hr
  rw [jumpTrace_congr e1 e2 (apply_jumps hop hj)] at h1
  have n1 : s'.stateReg.name = .state name := by simp [stateReg, hreach.name_eq]
  have n2 : s.stateReg.name = .state name := by simp [stateReg, h.name_eq]
  rw [n1] at h1
  rw [n2] at h2
  rw [h1, h2]

/-! The hypotheses are met: three states, `If(a).goto_next()` twice from a new FSM; then
`When(0).If(b).goto(2)` is a third call whose effect `c16_goto` describes.  The concrete run: from
state 0, with `b` true, the later jump wins. -/

section Example

private def va : Expr := .var (.user "a")
private def vb : Expr := .var (.user "b")
private def regQ : Reg := ⟨.user "q", 8, false, some 0⟩

private def exOps : List FsmOp :=
  [.iff [va], .add [.subst regQ (.int 5)], .iff [va], .gotoNext none, .iff [va], .gotoNext none]

example : ∃ s, Reach "fsm" 32 s ∧ s.Idle ∧ s.cur = 2 := by
  obtain ⟨s, hs, h⟩ : ∃ s, (FsmSt.fresh "fsm" 32).applyAll exOps = some s ∧
      (s.next = {} ∧ s.nextElse = false ∧ s.elifCond = none) ∧ s.cur = 2 :=
    ⟨_, rfl, ⟨rfl, rfl, rfl⟩, rfl⟩
  refine ⟨s, ⟨exOps, ?_, hs⟩, h.1, h.2⟩
  intro op hop
  simp only [exOps, List.mem_cons, List.not_mem_nil, or_false] at hop
  rcases hop with rfl | rfl | rfl | rfl | rfl | rfl <;> try trivial
  intro c hc r hr
  simp only [List.mem_singleton] at hc
  subst hc
  simp only [Code.targets, List.mem_singleton] at hr
  subst hr
  rfl

example (s : FsmSt)
    (hs : (FsmSt.fresh "fsm" 32).applyAll
      (exOps ++ whenIf (some 0) [vb] ++ [.goto 2 none none]) = some s) :
    (s.always (.int 0) true).tick
        (fun x => if x = .user "a" ∨ x = .user "b" then 1 else 0) (.state "fsm") = 2 ∧
    (s.always (.int 0) true).tick
        (fun x => if x = .user "a" then 1 else 0) (.state "fsm") = 1 ∧
    (s.always (.int 0) true).tick
        (fun x => if x = .user "a" then 1 else 0) (.user "q") = 5 := by
  have : s = ((FsmSt.fresh "fsm" 32).applyAll
      (exOps ++ whenIf (some 0) [vb] ++ [.goto 2 none none])).getD (FsmSt.fresh "fsm" 32) := by rw [hs]; rfl
  rw [this]
  decide

end Example

end Hdl
