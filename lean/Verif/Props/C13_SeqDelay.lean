import Verif.Props.C12_SeqOrder

/-!
# C13: `Seq.Delay(n)`

`E t` are the values of all signals before clock edge `t`; `Run (s.always rst) E` says that the
registers assigned by the finished design follow the generated `always` block, everything else is
arbitrary.
-/

namespace Hdl

open SeqSt

/-- All conditions hold. -/
def condsHold (conds : List Expr) (env : Env) : Bool := conds.all fun c => c.truthy env

/-- The value of a list of conditions fits in one bit: this is always so for two or more (they are
    joined by `&&`) and for none; a single condition must itself be 0 or 1. -/
def OneBit (conds : List Expr) : Prop :=
  ∀ c, conds = [c] → ∀ env, c.eval env = 0 ∨ c.eval env = 1

theorem makeCond_low_bit (conds : List Expr) (h1 : OneBit conds) (c : Expr)
    (h : makeCond conds = some c) (env : Env) :
    (c.eval env % 2 == 1) = condsHold conds env := by
  rw [condsHold, ← truthy_makeCond conds c h]
  have hb : c.eval env = 0 ∨ c.eval env = 1 := by
    cases conds with
    | nil => simp [makeCond] at h
    | cons a l =>
      cases l with
      | nil =>
        simp only [makeCond, List.foldl_nil, Option.some.injEq] at h
        subst h
        exact h1 a rfl env
      | cons b l =>
        have : ∃ p q, c = Expr.and p q := by
          simp only [makeCond, Option.some.injEq] at h
          rw [← h]
          generalize hl : b :: l = l'
          have : l' ≠ [] := by rw [← hl]; simp
          clear hl h
          refine ⟨l'.dropLast.foldl Expr.and a, l'.getLast this, ?_⟩
          have e := List.dropLast_concat_getLast this
          have e2 : l'.foldl Expr.and a = (l'.dropLast ++ [l'.getLast this]).foldl Expr.and a := by
            rw [e]
          rw [e2, List.foldl_append]
          rfl
        obtain ⟨p, q, rfl⟩ := this
        simp only [Expr.and, Expr.eval]
        split <;> simp
  rcases hb with hb | hb <;> simp [Expr.truthy, hb]

theorem SeqSt.seg_single (s : SeqSt) (env : Env) (x : Var) (n lo cnt : Nat)
    (h : ∀ d, d ≠ n → traceL (s.delayedAt d) env x = []) :
    s.seg env x lo cnt =
      if lo ≤ n ∧ n < lo + cnt then traceL (s.delayedAt n) env x else [] := by
  induction cnt with
  | zero => rw [if_neg (by omega)]; rfl
  | succ cnt ih =>
    have : s.seg env x lo (cnt + 1) =
      traceL (s.delayedAt (lo + cnt)) env x ++ s.seg env x lo cnt := rfl
    rw [this, ih]
    by_cases hn : n = lo + cnt
    · rw [if_neg (by omega), if_pos (by omega), ← hn, List.append_nil]
    · rw [h _ (Ne.symm hn), List.nil_append]
      by_cases h2 : lo ≤ n ∧ n < lo + cnt
      · rw [if_pos h2, if_pos (by omega)]
      · rw [if_neg h2, if_neg (by omega)]

theorem SeqSt.trace_single {name : String} {s : SeqSt} (h : Reach name s) (env : Env) (x : Var)
    (n : Nat) (hn : 0 < n) (hc : ∀ d, d ≠ n → s.cls d env x = []) :
    traceL s.makeCode env x = s.cls n env x := by
  have h0 : s.delayedAt 0 = [] := by
    refine List.eq_nil_iff_forall_not_mem.2 fun c hc => ?_
    have := h.delayed_pos _ (mem_delayedAt.1 hc)
    simp at this
  have hd : ∀ d, d ≠ n → traceL (s.delayedAt d) env x = [] := by
    intro d hdn
    by_cases hz : d = 0
    · rw [hz, h0]; rfl
    · have := hc d hdn
      rwa [cls, if_neg hz] at this
  have hb : s.bodyTrace env x = [] := hc 0 (by omega)
  rw [trace_makeCode s env x (max s.maxDelay n + 1) (by omega), seg_single s env x n _ _ hd,
    if_pos (by omega), hb, List.append_nil, cls, if_neg (by omega)]

/-- Shared part of the C13 theorems. -/
theorem delay_core {name : String} {s : SeqSt} (h : Reach name s) (hidle : s.Idle)
    (conds : List Expr) (n : Nat) (hn : 0 < n) (lz eager : Bool) (stmts : List Code)
    (hok : ∀ c ∈ stmts, ∀ r ∈ c.targets, r.name.genBy name = false)
    (hbit : lz = false → OneBit conds)
    (heager : eager = true → ∀ c ∈ stmts, ∃ r e, c = .subst r e) :
    ∃ s', s.applyAll (addCalls conds n lz eager stmts) = some s' ∧ Reach name s' ∧
      ∀ (post : List SeqOp) (s2 : SeqSt), (∀ op ∈ post, op.Ok name) →
        s'.applyAll post = some s2 →
      ∀ (rst : Option Expr) (E : Nat → Env), Run (s2.always rst) E →
      ∀ x : Var, x.genBy name = false → (∀ d env, s.cls d env x = []) →
        (∀ op ∈ post, ¬ op.mentions x) →
      ∀ t, traceL s2.makeCode (E (t + n)) x =
        if resetIn rst E t n = false ∧ condsHold conds (E (if lz then t + n else t)) = true
        then traceL stmts (E (if eager then t else t + n)) x else [] := by
  obtain ⟨s1, h1, hnm, hd, hb, hv, ht, hm, hp, hl, -⟩ := addCalls_kw s hidle conds n lz eager stmts
  have g1 : Good s s1 := .book h.inv hnm hd hb hv (Or.inr hl) (by omega) (by omega)
    (by rw [hp]; exact fun _ => id)
  have hs1 : s1.name = name := hnm.trans h.name_eq
  have hadd : s1.addStatement1 stmts n (makeCond conds) lz eager =
      s1.addDelayed stmts n (makeCond conds) lz eager := by
    simp [addStatement1, show n ≠ 0 by omega]
  rw [hadd] at h1
  obtain ⟨g, stmts', hne, hcls, hspec⟩ := addDelayed_spec g1.inv stmts n hn (makeCond conds) lz eager
    (by rw [hs1]; exact hok)
  have hreach := h.append _ (addCalls_ok hok) h1
  refine ⟨_, h1, hreach, ?_⟩
  intro post s2 hpost hs2 rst E hE x hx hx0 hmn t
  have hgd : Good _ s2 := .applyAll hreach.inv post (by rw [hreach.name_eq]; exact hpost) hs2
  obtain ⟨hguard, hval⟩ := hspec s2 hgd rst E hE t
  -- assignments to `x` in the final design
  have hgr := applyAll_grows hreach.inv post (by rw [hreach.name_eq]; exact hpost)
    (by rw [hreach.name_eq]; exact hx) hmn hs2
  rw [hgr.trace fun r hr => hr]
  have hc1 : ∀ d env, s1.cls d env x = [] := by
    intro d env
    rw [← hx0 d env]
    unfold cls bodyTrace
    rw [hb, delayedAt_congr hd]
  have htr : ∀ env, traceL (s1.addDelayed stmts n (makeCond conds) lz eager).makeCode env x =
      if g.truthy env = true then traceL stmts' env x else [] := by
    intro env
    have hcl := fun d => hcls env x d (by rw [hs1]; exact hx)
    simp only [hc1, List.nil_append] at hcl
    rw [trace_single hreach env x n hn fun d hd => by rw [hcl, if_neg fun h => hd h.1], hcl]
    simp
  have hcond : (match makeCond conds with
      | none => true
      | some c => if lz = true then c.truthy (E (t + n)) else c.eval (E t) % 2 == 1) =
      condsHold conds (E (if lz = true then t + n else t)) := by
    cases hc : makeCond conds with
    | none =>
      cases conds with
      | nil => rfl
      | cons a l => simp [makeCond] at hc
    | some c =>
      cases lz with
      | true => simp only [if_true, condsHold]; exact truthy_makeCond conds c hc _
      | false =>
        simp only [Bool.false_eq_true, if_false]
        exact makeCond_low_bit conds (hbit rfl) c hc _
  have hguard' : g.truthy (E (t + n)) = (!resetIn rst E t n &&
      condsHold conds (E (if lz = true then t + n else t))) :=
    hguard.trans (congrArg (fun b => !resetIn rst E t n && b) hcond)
  rw [htr, hguard']
  by_cases hres : resetIn rst E t n = true
  · simp [hres]
  · have hres : resetIn rst E t n = false := by simpa using hres
    by_cases hh : condsHold conds (E (if lz = true then t + n else t)) = true
    · simp only [hres, hh, Bool.not_false, Bool.and_self, if_true, and_self]
      cases eager with
      | false => rw [hne rfl]; simp
      | true => simpa using hval rfl (heager rfl) hres x
    · simp [hh]

/-- **C13.**  On any design, `seq.If(*conds).Delay(n)(*stmts)`, optionally with `LazyCond` and
    `EagerVal`, followed by any further calls: consider a register `x` that no other statement of
    the design assigns.  At every clock edge `t + n` at which reset is not asserted, `x` is assigned
    by `stmts` exactly when the conditions held at edge `t` (with `LazyCond`: hold at edge `t + n`)
    and reset was not asserted at the edges `t, ..., t + n - 1`; otherwise it keeps its value.  The
    right-hand sides are evaluated at edge `t + n`, with `EagerVal` at edge `t` (for plain
    assignments). -/
theorem c13_delay {name : String} {s : SeqSt} (h : Reach name s) (hidle : s.Idle)
    (conds : List Expr) (n : Nat) (hn : 0 < n) (lz eager : Bool) (stmts : List Code)
    (hok : ∀ c ∈ stmts, ∀ r ∈ c.targets, r.name.genBy name = false)
    (hbit : lz = false → OneBit conds)
    (heager : eager = true → ∀ c ∈ stmts, ∃ r e, c = .subst r e) :
    ∃ s', s.applyAll (addCalls conds n lz eager stmts) = some s' ∧ Reach name s' ∧
      ∀ (post : List SeqOp) (s2 : SeqSt), (∀ op ∈ post, op.Ok name) →
        s'.applyAll post = some s2 →
      ∀ (rst : Option Expr) (E : Nat → Env), Run (s2.always rst) E →
      ∀ x : Var, (∃ c ∈ stmts, ∃ r ∈ c.targets, r.name = x) → (∀ d env, s.cls d env x = []) →
        (∀ op ∈ post, ¬ op.mentions x) →
      ∀ t, isReset rst (E (t + n)) = false →
        E (t + n + 1) x =
          if resetIn rst E t n = false ∧ condsHold conds (E (if lz then t + n else t)) = true
          then (Code.block stmts).exec (E (if eager then t else t + n)) (E (t + n)) x
          else E (t + n) x := by
  obtain ⟨s', h1, h2, h3⟩ := delay_core h hidle conds n hn lz eager stmts hok hbit heager
  refine ⟨s', h1, h2, ?_⟩
  intro post s2 hpost hs2 rst E hE x hmem hx0 hmn t hrst
  obtain ⟨c, hc, r, hr, rfl⟩ := hmem
  have htr := h3 post s2 hpost hs2 rst E hE r.name (hok c hc r hr) hx0 hmn t
  have hreach2 := h2.append post hpost hs2
  -- the register is driven by the block
  have hmem : r.name ∈ (s2.always rst).targets.map Reg.name := by
    have hgr := (Good.applyAll h2.inv post (by rw [h2.name_eq]; exact hpost) hs2)
    obtain ⟨s1, k1, -, -, -, -, -, -, -, -, -⟩ := addCalls_kw s hidle conds n lz eager stmts
    have he : s' = s1.addStatement1 stmts n (makeCond conds) lz eager := by
      rw [h1] at k1; exact Option.some.inj k1
    obtain ⟨s3, g, stmts', htg, hpush⟩ : ∃ (s3 : SeqSt) (g : Expr) (stmts' : List Code),
        stmts'.map Code.targets = stmts.map Code.targets ∧
        s' = s3.pushDelayed n (.ite g (Code.block stmts') .skip) := by
      rw [he]
      simp only [addStatement1, show n ≠ 0 by omega, if_false, addDelayed]
      have hts : ∀ (s : SeqSt) (l : List Code), (s.addDelayedSubsts l n).1.map Code.targets =
          l.map Code.targets := by
        intro s l
        induction l generalizing s with
        | nil => rfl
        | cons c l ih =>
          show (s.addDelayedSubst c n).1.targets :: _ = _
          rw [addDelayedSubst_targets]
          exact congrArg (c.targets :: ·) (ih _)
      cases eager with
      | true => exact ⟨_, _, _, hts _ _, rfl⟩
      | false => exact ⟨_, _, _, rfl, rfl⟩
    have hin : (n, Code.ite g (Code.block stmts') .skip) ∈ s2.delayed := by
      refine hgr.step.grows.delayed_mem ?_
      rw [hpush]
      simp [pushDelayed]
    refine mem_always_targets (c := .ite g (Code.block stmts') .skip) ?_ ?_ rfl
    · exact mem_makeCode.2 (Or.inl ⟨_, hin⟩)
    · have : c.targets ∈ stmts'.map Code.targets := htg ▸ List.mem_map_of_mem hc
      obtain ⟨c', hc', hce⟩ := List.mem_map.1 this
      simp only [Code.targets, Code.targets_block, List.append_nil, List.mem_flatMap]
      exact ⟨c', hc', hce ▸ hr⟩
  rw [hE (t + n) r.name hmem, Code.tick, Code.exec_eq_trace, trace_always,
    if_neg (by simp [hrst]), htr]
  by_cases hc : resetIn rst E t n = false ∧
      condsHold conds (E (if lz = true then t + n else t)) = true
  · rw [if_pos hc, if_pos hc, Code.exec_eq_trace, Code.trace_block]
  · rw [if_neg hc, if_neg hc]; rfl

/-- **Disagreement.**  The registers that carry a delayed condition are one bit wide
    (seq/seq.py:681-686), so a single condition that is a multi-bit value keeps only its lowest bit:
    `seq.If(c).Delay(1)(a(1))` with `c = 2` does nothing, although `seq.If(c)(a(1))` does. -/
theorem c13_multi_bit_condition_lost :
    ∃ s', (SeqSt.fresh "s").applyAll (addCalls [.var (.user "c")] 1 false false
        [.subst ⟨.user "a", 8, false, none⟩ (.int 1)]) = some s' ∧
      ∀ E, Run (s'.always none) E → E 0 (.user "c") = 2 → E 2 (.user "a") = E 1 (.user "a") := by
  obtain ⟨s', hs', hcode⟩ : ∃ s', (SeqSt.fresh "s").applyAll (addCalls [.var (.user "c")] 1 false
      false [.subst ⟨.user "a", 8, false, none⟩ (.int 1)]) = some s' ∧
    s'.always none = .seq (.ite (.var (.cond "s" 0 1))
      (.seq (.subst ⟨.user "a", 8, false, none⟩ (.int 1)) .skip) .skip)
      (.seq (.subst (condReg "s" 0 1) (.var (.user "c"))) .skip) := ⟨_, rfl, rfl⟩
  refine ⟨s', hs', ?_⟩
  intro E hE hc
  rw [hcode] at hE
  have h1 := hE 0 (.cond "s" 0 1) (by decide)
  have h2 := hE 1 (.user "a") (by decide)
  have e1 : E 1 (.cond "s" 0 1) = 0 := by
    rw [h1]
    by_cases hb : E 0 (.cond "s" 0 1) = 0 <;>
      simp [Code.tick, Code.exec, Expr.truthy, Expr.var, Expr.eval, condReg, Reg.wrap, hc, hb,
        Function.update]
  rw [h2]
  simp [Code.tick, Code.exec, Expr.truthy, Expr.var, Expr.eval, condReg, e1, Function.update]

/-- Example: the hypotheses are met by a fresh manager and a register with `Delay(3)`. -/
example : Reach "s" (SeqSt.fresh "s") ∧ (SeqSt.fresh "s").Idle ∧
    OneBit [.var (.user "x"), .var (.user "y")] ∧
    (∀ d env, (SeqSt.fresh "s").cls d env (.user "a") = []) :=
  ⟨⟨[], by simp, rfl⟩, ⟨rfl, rfl, rfl⟩, by intro c h; simp at h, by
    intro d env
    unfold cls
    split <;> rfl⟩

/-- Example: the conditions of such a design hold at edge 0 and `a` changes exactly at edge 3. -/
example : ∃ s', (SeqSt.fresh "s").applyAll (addCalls [.var (.user "x"), .var (.user "y")] 3 false
      false [.subst ⟨.user "a", 8, false, none⟩ (.int 7)]) = some s' ∧
    let E : Nat → Env := fun t => Nat.rec (fun _ => 0) (fun k e => Function.update
      (Function.update ((s'.always none).tick e) (.user "x") (if k = 0 then 1 else 0))
        (.user "y") 1) t
    (List.range 7).map (fun t => E t (.user "a")) = [0, 0, 0, 0, 0, 7, 7] := by
  refine ⟨_, rfl, ?_⟩
  decide

end Hdl
