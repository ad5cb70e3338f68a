import Verif.Lemmas.FsmOnly
import Verif.Props.C16_FsmStep

/-!
# C18: delayed statements of an FSM
-/

namespace Hdl

open FsmSt

/-- `fsm.When(i).If(*conds).Delay(n).LazyCond().EagerVal()(*stmts)`; the parts not asked for are
    left out. -/
def fsmDelayCalls (wh : Option Nat) (conds : List Expr) (n : Nat) (lz eager : Bool)
    (stmts : List Code) : List FsmOp :=
  whenIf wh conds ++ ([.delay n] ++ (if lz then [.lazyCond true] else []) ++
    (if eager then [.eagerVal true] else []) ++ [.add stmts])

namespace FsmSt

theorem fsmDelayCalls_kw (s : FsmSt) (h : s.Idle) (wh : Option Nat) (conds : List Expr) (n : Nat)
    (hn : 0 < n) (lz eager : Bool) (stmts : List Code) :
    ∃ s2 : FsmSt, s.applyAll (fsmDelayCalls wh conds n lz eager stmts) =
        some (s2.addDelayed stmts (wh.getD s.cur) n (makeCond conds) lz eager) ∧
      s2.name = s.name ∧ s2.width = s.width ∧ s2.seq = s.seq ∧ s2.code = s.code ∧
      s2.dstVar = s.dstVar ∧ s2.delayAmount = s.delayAmount ∧
      s2.tmpCount = s.tmpCount ∧ s2.cur = s.cur ∧ s2.lastIf = none := by
  obtain ⟨s1, h1, f1, f2, f3, f4, f5, f6, f7, f8, f9, f10, f11, f12, f13⟩ :=
    whenIf_spec s h wh conds ([.delay n] ++ (if lz then [.lazyCond true] else []) ++
      (if eager then [.eagerVal true] else []) ++ [.add stmts])
  refine ⟨{ s1 with lastDelay := some n, next := {}, lastIf := none, nextElse := false },
    ?_, f4, f5, f6, f7, f9, f10, f11, f12, rfl⟩
  have hn' : n ≠ 0 := by omega
  unfold fsmDelayCalls
  rw [h1]
  cases lz <;> cases eager <;>
    simp [FsmSt.applyAll, FsmOp.apply, FsmSt.add, FsmSt.addKw, f1, f2, f3, FsmSt.addStatement,
      FsmSt.addStatement1, hn', f12]

theorem fsmDelayCalls_ok {name : String} {wh : Option Nat} {conds : List Expr} {n : Nat}
    {lz eager : Bool} {stmts : List Code}
    (hok : ∀ c ∈ stmts, ∀ r ∈ c.targets, r.name.fgenBy name = false) :
    ∀ op ∈ fsmDelayCalls wh conds n lz eager stmts, op.Ok name := by
  intro op hop
  simp only [fsmDelayCalls, whenIf, List.mem_append, List.mem_singleton] at hop
  rcases hop with (hop | hop) | ((hop | hop) | hop) | hop
  · cases wh with
    | none => simp at hop
    | some i => simp at hop; subst hop; trivial
  · cases conds with
    | nil => simp at hop
    | cons c cs => simp at hop; subst hop; trivial
  · subst hop; trivial
  · cases lz
    · simp at hop
    · simp at hop; subst hop; trivial
  · cases eager
    · simp at hop
    · simp at hop; subst hop; trivial
  · subst hop; exact hok

end FsmSt

/-- **C18.**  In an FSM built by calls `pre`, then `fsm.If(*conds).Delay(n)(*stmts)` (optionally with
    `LazyCond`, `EagerVal`, and `When` naming the current state), then any calls `post`, consider a
    register `x` that `stmts` assigns and that no other call mentions.  At every clock edge `t + n`
    without reset, `x` is assigned by `stmts` exactly when the FSM was, at edge `t`, in the state
    `i` the statement was added to, the conditions held at edge `t` (with `LazyCond`: hold at edge
    `t + n`), and reset was not asserted at edges `t, ..., t + n - 1`; otherwise `x` keeps its value.
    The right-hand sides are evaluated at edge `t + n`, with `EagerVal` at edge `t`. -/
theorem c18_delay {name : String} {w : Nat} {pre : List FsmOp} {s : FsmSt} {x : Var}
    (hpre : ∀ op ∈ pre, op.Ok name ∧ ¬ op.mentions x)
    (hs : (FsmSt.fresh name w).applyAll pre = some s) (hidle : s.Idle)
    (wh : Option Nat) (hwh : wh.getD s.cur = s.cur)
    (conds : List Expr) (n : Nat) (hn : 0 < n) (lz eager : Bool) (stmts : List Code)
    (hok : ∀ c ∈ stmts, ∀ r ∈ c.targets, r.name.fgenBy name = false)
    (hmem : ∃ c ∈ stmts, ∃ r ∈ c.targets, r.name = x)
    (hbit : lz = false → OneBit conds)
    (heager : eager = true → ∀ c ∈ stmts, ∃ r e, c = .subst r e) :
    ∃ s', s.applyAll (fsmDelayCalls wh conds n lz eager stmts) = some s' ∧ Reach name w s' ∧
      ∀ (post : List FsmOp) (s2 : FsmSt), (∀ op ∈ post, op.Ok name ∧ ¬ op.mentions x) →
        s'.applyAll post = some s2 →
      ∀ (rst : Expr) (uc : Bool) (E : Nat → Env), Run (s2.always rst uc) E →
        (E 0 (.state name)) % 2 ^ w = E 0 (.state name) →
      ∀ t, rst.truthy (E (t + n)) = false →
        E (t + n + 1) x =
          if resetIn (some rst) E t n = false ∧ E t (.state name) = (s.cur : Int) ∧
              condsHold conds (E (if lz then t + n else t)) = true
          then (Code.block stmts).exec (E (if eager then t else t + n)) (E (t + n)) x
          else E (t + n) x := by
  have hreach0 : Reach name w s := ⟨pre, fun op h => (hpre op h).1, hs⟩
  obtain ⟨s1, h1, f4, f5, f6, f7, f9, f10, f11, f12, f13⟩ :=
    fsmDelayCalls_kw s hidle wh conds n hn lz eager stmts
  have g1 : Good s s1 := .book hreach0.inv f4 f5 f6 f7 f9 f10 (by omega) (Or.inr f13)
  have hnm : s1.name = name := f4.trans hreach0.name_eq
  have hwd : s1.width = w := f5.trans hreach0.width_eq
  have hreach := hreach0.append _ (fsmDelayCalls_ok hok) h1
  refine ⟨_, h1, hreach, ?_⟩
  intro post s2 hpost hs2 rst uc E hE h0 t hrst
  obtain ⟨c, hc, r, hr, rfl⟩ := hmem
  have hx : r.name.fgenBy name = false := hok c hc r hr
  have hx' : r.name.ownGen name = false := by
    simp only [Var.fgenBy, Bool.or_eq_false_iff] at hx; exact hx.1
  obtain ⟨g, stmts', hne, htg, ⟨s3, hpush⟩, hkey, hspec⟩ := addDelayed_spec g1.inv stmts
    (wh.getD s.cur) n hn (makeCond conds) lz eager (by rw [hnm]; exact hok)
  have hgd : Good _ s2 := .applyAll hreach.inv post
    (by rw [hreach.name_eq]; exact fun op h => (hpost op h).1) hs2
  have hsame2 := applyAll_same hreach.inv post
    (by rw [hreach.name_eq]; exact fun op h => (hpost op h).1)
    (by rw [hreach.name_eq]; exact hx) (fun op h => (hpost op h).2) hs2
  have hsame0 := applyAll_same (inv_fresh name w) pre (fun op h => (hpre op h).1) hx
    (fun op h => (hpre op h).2) hs
  obtain ⟨hg1, hg2⟩ := hspec s2 hgd rst uc E hE (by rw [hnm, hwd]; exact h0) t
  rw [hnm, f12] at hg2
  have hreach2 := hreach.append post (fun op h => (hpost op h).1) hs2
  -- the register is driven by the block
  have htm : r.name ∈ (s2.always rst uc).targets.map Reg.name := by
    obtain ⟨en, he, q, hq, hqn⟩ := hgd.drives r.name (by
      rw [hpush]
      refine ⟨((n, wh.getD s.cur), .plain (.ite g (Code.block stmts') .skip)),
        by rw [(push_fields _ _ _ _).2.2.2.1]; simp, ?_⟩
      have : c.targets ∈ stmts'.map Code.targets := htg ▸ List.mem_map_of_mem hc
      obtain ⟨c', hc', hce⟩ := List.mem_map.1 this
      refine ⟨r, ?_, rfl⟩
      simp only [Item.code, Code.targets, Code.targets_block, List.append_nil, List.mem_flatMap]
      exact ⟨c', hc', hce ▸ hr⟩)
    exact List.mem_map.2 ⟨q, mem_always_code hreach2.inv.bound he hq rst uc, hqn⟩
  rw [run_trace hE htm, if_neg (by simp [hrst])]
  -- its assignments in the final design
  have hkt : ∀ d i, s2.keyTrace d i (E (t + n)) r.name = if (n, s.cur) = (d, i) then
      (if g.truthy (E (t + n)) = true then traceL stmts' (E (t + n)) r.name else []) else [] := by
    intro d i
    rw [hsame2.key, hkey _ _ _ _ (by rw [hnm]; exact hx), keyTrace_congr f7, hsame0.key, hwh]
    rfl
  obtain ⟨a1, a2⟩ := active_single s2 (E (t + n)) r.name n s.cur _ hkt
  have hle : n ≤ s2.delayAmount := by
    have := hgd.delay
    rw [hpush, (push_fields _ _ _ _).2.2.2.2.1] at this
    omega
  have htr : traceL s2.makeCase (E (t + n)) r.name =
      if E (t + n) (s2.dstateReg n).name = (s.cur : Int) then
        (if g.truthy (E (t + n)) = true then traceL stmts' (E (t + n)) r.name else []) else [] := by
    have hsq : traceL s2.seq.makeCode (E (t + n)) r.name = [] := by
      have hseq1 : (s1.addDelayed stmts (wh.getD s.cur) n (makeCond conds) lz eager).seq =
          s1.seq := by
        exact addDelayed_seq s1 stmts (wh.getD s.cur) n (makeCond conds) lz eager
      rw [hsame2.seq, hseq1, f6, hsame0.seq]
      rfl
    rw [makeCase_trace, hsq, delayedSubsts_nil _ (fun d hd => by
        have h2 := dstateReg_own s2 (d + 1)
        rw [← hd, hreach2.name_eq, hx'] at h2
        simp at h2),
      jumpTrace_nil s2 (fun hd => by
        have h2 := dstateReg_own s2 0
        have h3 : (s2.dstateReg 0).name = s2.stateReg.name := rfl
        rw [h3, ← hd, hreach2.name_eq, hx'] at h2
        simp at h2), List.append_nil, seg_single s2 _ _ n _ _ a1,
      if_pos ⟨Nat.zero_le _, by omega⟩, a2]
    simp
  rw [htr]
  cases hres : resetIn (some rst) E t n with
  | true =>
    rw [hg1 hres]
    simp
  | false =>
    have hd := run_dstate_hist hreach2.inv hE
      (by rw [hreach2.name_eq, hreach2.width_eq]; exact h0) t n hle hres
    rw [hreach2.name_eq] at hd
    rw [hd]
    by_cases hst : E t (.state name) = (s.cur : Int)
    · obtain ⟨hb, hv⟩ := hg2 hres hst
      have hcond : (match makeCond conds with
          | none => true
          | some c => if lz = true then c.truthy (E (t + n)) else c.eval (E t) % 2 == 1) =
          condsHold conds (E (if lz = true then t + n else t)) := by
        cases hc : makeCond conds with
        | none =>
          cases conds with
          | nil => rfl
          | cons a l => simp [makeCond] at hc
        | some c =>
          cases lz with
          | true => simp only [if_true, condsHold]; exact SeqSt.truthy_makeCond conds c hc _
          | false =>
            simp only [Bool.false_eq_true, if_false]
            exact makeCond_low_bit conds (hbit rfl) c hc _
      have hb' : g.truthy (E (t + n)) = condsHold conds (E (if lz = true then t + n else t)) :=
        hb.trans hcond
      rw [if_pos hst, hb']
      by_cases hh : condsHold conds (E (if lz = true then t + n else t)) = true
      · rw [if_pos hh, if_pos ⟨rfl, hst, hh⟩, Code.exec_eq_trace, Code.trace_block]
        cases eager with
        | false => rw [hne rfl]; simp
        | true => rw [hv rfl (heager rfl)]; simp
      · rw [if_neg hh, if_neg fun hx => hh hx.2.2]; rfl
    · rw [if_neg hst, if_neg fun hx => hst hx.2.1]; rfl

/-- **Disagreement.**  With `When(i)` naming a state other than the builder's current one, the
    registers that carry the delayed condition are updated in the current state instead of state `i`
    (fsm/fsm.py:840, 865).  `fsm.When(1).If(c).Delay(1)(a(1))` on a new FSM: while the FSM stays in
    state 1 and `c` is 1 all the time, `a` is never assigned. -/
theorem c18_other_state_lost :
    ∃ s', (FsmSt.fresh "f" 32).applyAll (fsmDelayCalls (some 1) [.var (.user "c")] 1 false false
        [.subst ⟨.user "a", 8, false, none⟩ (.int 1)]) = some s' ∧
      ∀ E, Run (s'.always (.var (.user "rst")) true) E → E 0 (.cond "f" 0 1) = 0 →
        (∀ t, E t (.user "rst") = 0 ∧ E t (.state "f") = 1 ∧ E t (.user "c") = 1) →
        ∀ t, E t (.user "a") = E 0 (.user "a") := by
  obtain ⟨s', hs', hcode⟩ : ∃ s', (FsmSt.fresh "f" 32).applyAll
        (fsmDelayCalls (some 1) [.var (.user "c")] 1 false false
          [.subst ⟨.user "a", 8, false, none⟩ (.int 1)]) = some s' ∧
      s'.makeCase = [.subst ⟨.dstate "f" 1, 32, false, some 0⟩ (.var (.state "f")),
        caseCode (.var (.dstate "f" 1)) [((1 : Nat), .seq (.ite (.var (.cond "f" 0 1))
          (.seq (.subst ⟨.user "a", 8, false, none⟩ (.int 1)) .skip) .skip) .skip)],
        caseCode (.var (.state "f")) [((0 : Nat),
          .seq (.subst (condReg "f" 0 1) (.var (.user "c"))) .skip)]] := ⟨_, rfl, rfl⟩
  refine ⟨s', hs', ?_⟩
  intro E hE hc0 h
  have hstep : ∀ t x, E t (.cond "f" 0 1) = 0 → x ≠ .dstate "f" 1 →
      (s'.always (.var (.user "rst")) true).tick (E t) x = E t x := by
    intro t x hc hx
    obtain ⟨h1, h2, h3⟩ := h t
    rw [tick_eq _ _ _ _ (by simp [Expr.truthy, Expr.var, Expr.eval, h1]), hcode]
    by_cases hd : E t (.dstate "f" 1) = 1 <;>
      simp [traceL_cons, caseCode, Code.trace, Expr.truthy, Expr.var, Expr.eval, hd, hc, h2, hx,
        Ne.symm hx]
  have hdrv : Var.cond "f" 0 1 ∈ (s'.always (.var (.user "rst")) true).targets.map Reg.name ∧
      Var.user "a" ∈ (s'.always (.var (.user "rst")) true).targets.map Reg.name := by
    simp [always, hcode, Code.targets, Code.targets_block, caseCode, condReg]
  have hc : ∀ t, E t (.cond "f" 0 1) = 0 := by
    intro t
    induction t with
    | zero => exact hc0
    | succ t ih => rw [hE t _ hdrv.1, hstep t _ ih (by simp), ih]
  intro t
  induction t with
  | zero => rfl
  | succ t ih => rw [hE t _ hdrv.2, hstep t _ (hc t) (by simp), ih]

/-- Example: the hypotheses of `c18_delay` are met by a statement added to state 1, after
    `fsm.If(go).goto_next()`. -/
example : ∃ s, (FsmSt.fresh "f" 32).applyAll (whenIf none [.var (.user "go")] ++ [.gotoNext none]) =
      some s ∧ s.Idle ∧ s.cur = 1 ∧ OneBit [.var (.user "x"), .var (.user "y")] ∧
      ∀ op ∈ whenIf none [.var (.user "go")] ++ [.gotoNext none],
        op.Ok "f" ∧ ¬ op.mentions (.user "a") := by
  refine ⟨_, rfl, ⟨rfl, rfl, rfl⟩, rfl, by intro c h; simp at h, ?_⟩
  intro op hop
  simp only [whenIf, List.mem_append, List.mem_singleton, List.isEmpty_cons, Bool.false_eq_true,
    if_false, List.not_mem_nil, false_or] at hop
  rcases hop with rfl | rfl <;> exact ⟨trivial, id⟩

/-- Example: a run in which the FSM enters state 1 at edge 1 with the conditions true, leaves it at
    edge 2, and `a` is assigned at edge 1 + 2. -/
example : ∃ s', (FsmSt.fresh "f" 32).applyAll ((whenIf none [.var (.user "go")] ++ [.gotoNext none])
      ++ (fsmDelayCalls none [.var (.user "x"), .var (.user "y")] 2 false false
        [.subst ⟨.user "a", 8, false, none⟩ (.int 7)] ++ [.goto 0 none none])) = some s' ∧
    let E : Nat → Env := fun t => Nat.rec
      (fun v => if v = .user "go" ∨ v = .user "x" ∨ v = .user "y" then 1 else 0)
      (fun k e => Function.update ((s'.always (.int 0) true).tick e) (.user "go") 0) t
    (List.range 6).map (fun t => (E t (.state "f"), E t (.user "a"))) =
      [(0, 0), (1, 0), (0, 0), (0, 0), (0, 7), (0, 7)] := by
  refine ⟨_, rfl, ?_⟩
  decide

end Hdl
