import Verif.Lemmas.SeqOnly

/-!
# C12: which assignment of a `Seq` wins

`SeqSt.cls s d env x` is the list of values the executed statements of delay `d` (0: undelayed)
assign to `x`, in the order in which they were added.  `c12_add` says that adding a statement
appends its values to the list of its own delay and changes no other list; `c12_priority` says
which of the listed values is stored.
-/

namespace Hdl

/-- The calls `seq.If(*conds).Delay(d).LazyCond().EagerVal()(*stmts)`; calls with empty or default
    arguments are left out. -/
def addCalls (conds : List Expr) (d : Nat) (lz eager : Bool) (stmts : List Code) : List SeqOp :=
  (if conds.isEmpty then [] else [.iff conds]) ++
  (if d = 0 then [] else [.delay d]) ++
  (if lz then [.lazyCond true] else []) ++
  (if eager then [.eagerVal true] else []) ++ [.add stmts]

/-- No call is half-finished (`seq.Clear()` or a completed statement leads here). -/
def SeqSt.Idle (s : SeqSt) : Prop := s.next = {} ∧ s.nextElse = false ∧ s.elifCond = none

namespace SeqSt

/-- The attributes collected by `addCalls`. -/
theorem addCalls_kw (s : SeqSt) (h : s.Idle) (conds : List Expr) (d : Nat) (lz eager : Bool)
    (stmts : List Code) :
    ∃ s1 : SeqSt, s.applyAll (addCalls conds d lz eager stmts) =
        some (s1.addStatement1 stmts d (makeCond conds) lz eager) ∧
      s1.name = s.name ∧ s1.delayed = s.delayed ∧ s1.body = s.body ∧ s1.dstVar = s.dstVar ∧
      s1.tmpCount = s.tmpCount ∧ s1.modTmp = s.modTmp ∧ s1.prevDict = s.prevDict ∧
      s1.lastIf = none ∧ s1.Idle := by
  obtain ⟨hn, he, hel⟩ := h
  have step : ∀ s0 : SeqSt, s0.elifCond = none → s0.nextElse = false → s0.next.keep = none →
      ∃ s1 : SeqSt, s0.add stmts = some (s1.addStatement1 stmts (s0.next.delay.getD 0) s0.next.cond
          (s0.next.lazyCond.getD false) (s0.next.eagerVal.getD false)) ∧
        s1.name = s0.name ∧ s1.delayed = s0.delayed ∧ s1.body = s0.body ∧
        s1.dstVar = s0.dstVar ∧ s1.tmpCount = s0.tmpCount ∧ s1.modTmp = s0.modTmp ∧
        s1.prevDict = s0.prevDict ∧ s1.lastIf = none ∧ s1.Idle := by
    intro s0 h1 h2 h3
    refine ⟨{ s0 with lastDelay := s0.next.delay, next := {}, lastIf := none, nextElse := false },
      ?_, rfl, rfl, rfl, rfl, rfl, rfl, rfl, rfl, rfl, rfl, h1⟩
    simp [SeqSt.add, SeqSt.addKw, h1, h2, SeqSt.addStatement, h3]
  have key : ∃ s0 : SeqSt, s.applyAll (addCalls conds d lz eager stmts) = s0.add stmts ∧
      s0.elifCond = none ∧ s0.nextElse = false ∧
      s0.next = { cond := makeCond conds, delay := if d = 0 then none else some d,
                  keep := none, lazyCond := if lz then some true else none,
                  eagerVal := if eager then some true else none } ∧
      s0.name = s.name ∧ s0.delayed = s.delayed ∧ s0.body = s.body ∧
        s0.dstVar = s.dstVar ∧ s0.tmpCount = s.tmpCount ∧ s0.modTmp = s.modTmp ∧
        s0.prevDict = s.prevDict := by
    have fin : ∀ s0 : SeqSt, s0.applyAll [.add stmts] = s0.add stmts := by
      intro s0
      simp only [SeqSt.applyAll, SeqOp.apply]
      cases s0.add stmts <;> rfl
    cases conds with
    | nil =>
      by_cases hd : d = 0 <;> cases lz <;> cases eager <;>
        simp only [addCalls, List.isEmpty_nil, if_true, hd, if_false, List.nil_append,
          List.cons_append, Bool.false_eq_true, SeqSt.applyAll, SeqOp.apply, Option.bind_some] <;>
        exact ⟨_, fin _, hel, he, by simp [hn, makeCond], rfl, rfl, rfl, rfl, rfl, rfl, rfl⟩
    | cons c cs =>
      have hiff : s.iff (c :: cs) = { s with
          elifCond := none, next := { cond := makeCond (c :: cs) },
          lastCond := [cs.foldl Expr.and c] } := by
        simp [SeqSt.iff, makeCond, hn]
      by_cases hd : d = 0 <;> cases lz <;> cases eager <;>
        simp only [addCalls, List.isEmpty_cons, if_true, hd, if_false, List.nil_append,
          List.cons_append, Bool.false_eq_true, SeqSt.applyAll, SeqOp.apply, Option.bind_some,
          hiff] <;>
        exact ⟨_, fin _, rfl, he, by simp [hn, makeCond], rfl, rfl, rfl, rfl, rfl, rfl, rfl⟩
  obtain ⟨s0, h1, h2, h3, h4, f1, f2, f3, f4, f5, f6, f7⟩ := key
  obtain ⟨s1, g0, g1, g2, g3, g4, g5, g6, g7, g8, g9⟩ := step s0 h2 h3 (by rw [h4])
  refine ⟨s1, ?_, g1.trans f1, g2.trans f2, g3.trans f3, g4.trans f4, g5.trans f5, g6.trans f6,
    g7.trans f7, g8, g9⟩
  rw [h1, g0, h4]
  by_cases hd : d = 0 <;> cases lz <;> cases eager <;> simp [hd]

theorem addCalls_ok {name : String} {conds : List Expr} {d : Nat} {lz eager : Bool}
    {stmts : List Code} (h : ∀ c ∈ stmts, ∀ r ∈ c.targets, r.name.genBy name = false) :
    ∀ op ∈ addCalls conds d lz eager stmts, op.Ok name := by
  intro op hop
  simp only [addCalls, List.mem_append] at hop
  rcases hop with (((hop | hop) | hop) | hop) | hop
  · split at hop
    · simp at hop
    · simp only [List.mem_singleton] at hop; subst hop; trivial
  · split at hop
    · simp at hop
    · simp only [List.mem_singleton] at hop; subst hop; trivial
  · split at hop
    · simp only [List.mem_singleton] at hop; subst hop; trivial
    · simp at hop
  · split at hop
    · simp only [List.mem_singleton] at hop; subst hop; trivial
    · simp at hop
  · simp only [List.mem_singleton] at hop; subst hop; exact h

theorem bodyTrace_foldl (stmts : List Code) (s : SeqSt) (env : Env) (x : Var) :
    (stmts.foldl (fun s c => s.pushBody (.plain c)) s).bodyTrace env x =
      s.bodyTrace env x ++ traceL stmts env x ∧
    (stmts.foldl (fun s c => s.pushBody (.plain c)) s).delayed = s.delayed := by
  induction stmts generalizing s with
  | nil => simp [traceL]
  | cons c cs ih =>
    obtain ⟨h1, h2⟩ := ih (s.pushBody (.plain c))
    simp only [List.foldl_cons]
    rw [h1, h2, traceL_cons]
    constructor
    · simp [bodyTrace, pushBody, traceL, Item.code]
    · simp [pushBody]

/-- Values assigned by class, after one more statement (delayed or not). -/
theorem addStatement1_cls {s : SeqSt} (hi : s.Inv) (stmts : List Code) (d : Nat)
    (conds : List Expr) (lz : Bool)
    (hok : ∀ c ∈ stmts, ∀ r ∈ c.targets, r.name.genBy s.name = false) :
    ∃ g : Expr, (d = 0 → ∀ env, g.truthy env = conds.all fun c => c.truthy env) ∧
      ∀ env x e, x.genBy s.name = false →
        (s.addStatement1 stmts d (makeCond conds) lz false).cls e env x = s.cls e env x ++
          (if e = d ∧ g.truthy env = true then traceL stmts env x else []) := by
  unfold addStatement1
  by_cases hd : d = 0
  · subst hd
    simp only [if_true]
    cases hc : makeCond conds with
    | none =>
      have : conds = [] := by
        cases conds with
        | nil => rfl
        | cons c cs => simp [makeCond] at hc
      subst this
      refine ⟨.int 1, fun _ env => by simp [Expr.truthy, Expr.eval], fun env x e _ => ?_⟩
      obtain ⟨h1, h2⟩ := bodyTrace_foldl stmts s env x
      unfold cls
      by_cases he : e = 0
      · subst he; simp [h1, Expr.truthy, Expr.eval]
      · simp only [he, if_false, false_and, List.append_nil]
        rw [delayedAt_congr h2]
    | some c =>
      refine ⟨c, fun _ env => truthy_makeCond conds c hc env, fun env x e _ => ?_⟩
      unfold cls
      by_cases he : e = 0
      · subst he
        by_cases hg : c.truthy env = true <;>
          simp [bodyTrace, pushBody, traceL, Item.code, chainCode, Code.trace, Code.trace_block, hg]
      · simp only [he, if_false, false_and, List.append_nil]
        rw [delayedAt_congr (s := s)]
        simp [pushBody]
  · simp only [hd, if_false]
    obtain ⟨g, stmts', he, h1, -⟩ :=
      addDelayed_spec hi stmts d (by omega) (makeCond conds) lz false hok
    rw [he rfl] at h1
    exact ⟨g, fun h => h.elim, fun env x e hx => h1 env x e hx⟩

theorem getLast?_append_ne {α} (l : List α) {m : List α} (h : m ≠ []) :
    (l ++ m).getLast? = m.getLast? := by
  rw [List.getLast?_append]
  cases hm : m.getLast? with
  | none => exact absurd (List.getLast?_eq_none_iff.1 hm) h
  | some a => rfl

/-- The segment of delays `1..n`, longest first, by class. -/
theorem seg_last (s : SeqSt) (env : Env) (x : Var) (n : Nat) :
    ((∀ d, 0 < d → d ≤ n → traceL (s.delayedAt d) env x = []) → s.seg env x 1 n = []) ∧
    (∀ d, 0 < d → d ≤ n → traceL (s.delayedAt d) env x ≠ [] →
      (∀ d', 0 < d' → d' < d → traceL (s.delayedAt d') env x = []) →
      ∀ y, (y ++ s.seg env x 1 n).getLast? = (traceL (s.delayedAt d) env x).getLast?) := by
  induction n with
  | zero => exact ⟨fun _ => rfl, fun d h1 h2 => by omega⟩
  | succ n ih =>
    have hs : s.seg env x 1 (n + 1) = traceL (s.delayedAt (1 + n)) env x ++ s.seg env x 1 n := rfl
    constructor
    · intro h
      rw [hs, ih.1 fun d h1 h2 => h d h1 (by omega), h (1 + n) (by omega) (by omega)]
      rfl
    · intro d h1 h2 h3 h4 y
      rw [hs]
      by_cases hd : d = n + 1
      · subst hd
        rw [ih.1 fun d' h1 h2 => h4 d' h1 (by omega), List.append_nil, Nat.add_comm 1 n,
          getLast?_append_ne _ h3]
      · rw [← List.append_assoc]
        exact ih.2 d h1 (by omega) h3 h4 _

theorem trace_makeCode_cls {s : SeqSt} (h : ∀ e ∈ s.delayed, 0 < e.1) (env : Env) (x : Var) :
    traceL s.makeCode env x = s.seg env x 1 (s.maxDelay + 1) ++ s.cls 0 env x := by
  rw [trace_makeCode s env x (s.maxDelay + 1 + 1) (by omega)]
  have h0 : s.delayedAt 0 = [] := by
    refine List.eq_nil_iff_forall_not_mem.2 fun c hc => ?_
    have := h _ (mem_delayedAt.1 hc)
    simp at this
  have : s.seg env x 0 (s.maxDelay + 1 + 1) = s.seg env x 1 (s.maxDelay + 1) := by
    rw [show s.maxDelay + 1 + 1 = 1 + (s.maxDelay + 1) by omega, seg_add]
    simp [seg, h0, traceL]
  rw [this]
  rfl

end SeqSt

open SeqSt

theorem SeqSt.stored {s : SeqSt} (h : ∀ e ∈ s.delayed, 0 < e.1) (rst : Option Expr) (env : Env)
    (hr : isReset rst env = false) (x : Var) :
    ((∀ d, s.cls d env x = []) → (s.always rst).tick env x = env x) ∧
    (∀ d v, (s.cls d env x).getLast? = some v → (∀ d' < d, s.cls d' env x = []) →
      (s.always rst).tick env x = v) := by
  have ht : (s.always rst).tick env x =
      ((s.seg env x 1 (s.maxDelay + 1) ++ s.cls 0 env x).getLast?).getD (env x) := by
    rw [Code.tick, Code.exec_eq_trace, trace_always, if_neg (by simp [hr]), trace_makeCode_cls h]
  have hcls : ∀ d, 0 < d → s.cls d env x = traceL (s.delayedAt d) env x := by
    intro d hd
    simp [cls, show d ≠ 0 by omega]
  constructor
  · intro h0
    rw [ht, h0 0, (seg_last s env x (s.maxDelay + 1)).1 fun d h1 _ => by rw [← hcls d h1]; exact h0 d]
    rfl
  · intro d v hv hlt
    rw [ht]
    by_cases hd : d = 0
    · subst hd
      have hne : s.cls 0 env x ≠ [] := by
        intro he; rw [he] at hv; simp at hv
      rw [getLast?_append_ne _ hne, hv]
      rfl
    · have hne : traceL (s.delayedAt d) env x ≠ [] := by
        intro he; rw [hcls d (by omega), he] at hv; simp at hv
      have hle : d ≤ s.maxDelay + 1 := by
        by_contra hgt
        rw [delayedAt_nil (by omega)] at hne
        simp [traceL] at hne
      have := (seg_last s env x (s.maxDelay + 1)).2 d (by omega) hle hne
        (fun d' h1 h2 => by rw [← hcls d' h1]; exact hlt d' h2) []
      rw [hlt 0 (by omega), List.append_nil]
      rw [List.nil_append] at this
      rw [this, ← hcls d (by omega), hv]
      rfl

/-- **C12, what is stored.**  In every design built with `Seq`, at every clock edge at which reset
    is not asserted: a register no executed statement assigns keeps its value; otherwise the last
    assignment of the smallest delay that assigns it at all is the one that counts. -/
theorem c12_priority {name : String} {s : SeqSt} (h : Reach name s) (rst : Option Expr) (env : Env)
    (hr : isReset rst env = false) (x : Var) :
    ((∀ d, s.cls d env x = []) → (s.always rst).tick env x = env x) ∧
    (∀ d v, (s.cls d env x).getLast? = some v → (∀ d' < d, s.cls d' env x = []) →
      (s.always rst).tick env x = v) :=
  SeqSt.stored h.delayed_pos rst env hr x

/-- **C12, where a statement goes.**  `seq.If(*conds).Delay(d)(*stmts)` on any design appends the
    values assigned by `stmts`, if its guard holds, to those of the statements of the same delay
    added before, and changes nothing else.  Without delay the guard is the conjunction of the
    conditions (what it is with a delay is C13). -/
theorem c12_add {name : String} {s : SeqSt} (h : Reach name s) (hidle : s.Idle)
    (conds : List Expr) (d : Nat) (lz : Bool) (stmts : List Code)
    (hok : ∀ c ∈ stmts, ∀ r ∈ c.targets, r.name.genBy name = false) :
    ∃ s' g, s.applyAll (addCalls conds d lz false stmts) = some s' ∧ Reach name s' ∧
      (d = 0 → ∀ env, Expr.truthy g env = conds.all fun c => c.truthy env) ∧
      ∀ env x, x.genBy name = false → ∀ e,
        s'.cls e env x = s.cls e env x ++
          (if e = d ∧ g.truthy env = true then traceL stmts env x else []) := by
  obtain ⟨s1, h1, hn, hd, hb, hv, ht, hm, hp, hl, -⟩ := addCalls_kw s hidle conds d lz false stmts
  have g1 : Good s s1 := .book h.inv hn hd hb hv (Or.inr hl) (by omega) (by omega)
    (by rw [hp]; exact fun _ => id)
  have hs1 : s1.name = name := hn.trans h.name_eq
  obtain ⟨g, hg, hc⟩ := addStatement1_cls g1.inv stmts d conds lz (by rw [hs1]; exact hok)
  refine ⟨_, g, h1, h.append _ (addCalls_ok hok) h1, hg, fun env x hx e => ?_⟩
  rw [hc env x e (by rw [hs1]; exact hx)]
  have : s1.cls e env x = s.cls e env x := by
    unfold cls bodyTrace
    rw [hb, delayedAt_congr hd]
  rw [this]

/-- Example: an undelayed assignment beats one with delay 1, which beats one with delay 2, whatever
    the order in which they were written. -/
example : ((SeqSt.fresh "s").applyAll (
      addCalls [] 0 false false [.subst ⟨.user "a", 8, false, none⟩ (.int 1)] ++
      addCalls [.var (.user "c")] 2 false false [.subst ⟨.user "a", 8, false, none⟩ (.int 2)])).map
      (fun s => (s.cls 0 (fun _ => 1) (.user "a"), s.cls 2 (fun _ => 1) (.user "a"),
        (s.always none).tick (fun _ => 1) (.user "a"))) = some ([1], [2], 1) := by decide

end Hdl
