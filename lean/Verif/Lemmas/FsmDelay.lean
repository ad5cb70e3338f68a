import Verif.Lemmas.FsmStep
import Verif.Props.C13_SeqDelay

/-! Reset, delayed states and delay pipelines of an `FSM` over time. -/

namespace Hdl
namespace FsmSt

/-! ## Reset -/

/-- What the reset branch assigns. -/
theorem resetList_trace (env : Env) (x : Var) : ∀ (l : List Reg) (seen : List Var),
    traceL (resetList l seen) env x = if x ∈ seen then [] else
      ((l.find? fun r => decide (r.name = x) && r.init.isSome).bind
        fun r => r.init.map r.wrap).toList := by
  intro l
  induction l with
  | nil => intro seen; simp [resetList]
  | cons r l ih =>
    intro seen
    unfold resetList
    cases hi : r.init with
    | none => simp only [ih, List.find?_cons, hi]; simp
    | some v =>
      by_cases hs : r.name ∈ seen
      · simp only [hs, if_true, ih, List.find?_cons]
        by_cases hx : r.name = x
        · subst hx; simp [hs]
        · simp [hx]
      · simp only [hs, if_false, traceL_cons, ih, List.find?_cons]
        by_cases hx : r.name = x
        · subst hx; simp [hs, hi, Code.trace, Expr.eval]
        · simp [hx, Code.trace, Ne.symm hx]

theorem makeReset_trace (s : FsmSt) (env : Env) (x : Var) :
    traceL s.makeReset env x =
      ((s.resetRegs.find? fun r => decide (r.name = x) && r.init.isSome).bind
        fun r => r.init.map r.wrap).toList := by
  rw [makeReset, resetList_trace]; simp

/-- If all registers of that name in the list are the same object. -/
theorem makeReset_trace_of {s : FsmSt} {r : Reg} {v : Int} (hr : r ∈ s.resetRegs)
    (hv : r.init = some v) (hu : ∀ r' ∈ s.resetRegs, r'.name = r.name → r' = r) (env : Env) :
    traceL s.makeReset env r.name = [r.wrap v] := by
  rw [makeReset_trace]
  cases hf : s.resetRegs.find? (fun q => decide (q.name = r.name) && q.init.isSome) with
  | none =>
    have := List.find?_eq_none.1 hf r hr
    simp [hv] at this
  | some q =>
    have h1 := List.find?_some hf
    have h2 := List.mem_of_find?_eq_some hf
    simp only [Bool.and_eq_true, decide_eq_true_eq] at h1
    rw [hu q h2 h1.1]
    simp [hv]

theorem makeReset_trace_none {s : FsmSt} {x : Var}
    (h : ∀ r ∈ s.resetRegs, r.name = x → r.init = none) (env : Env) :
    traceL s.makeReset env x = [] := by
  rw [makeReset_trace]
  cases hf : s.resetRegs.find? (fun q => decide (q.name = x) && q.init.isSome) with
  | none => rfl
  | some q =>
    have h1 := List.find?_some hf
    have h2 := List.mem_of_find?_eq_some hf
    simp only [Bool.and_eq_true, decide_eq_true_eq] at h1
    rw [h q h2 h1.1] at h1
    simp at h1

theorem dstateReg_name_inj (s : FsmSt) {a b : Nat}
    (h : (s.dstateReg a).name = (s.dstateReg b).name) : a = b := by
  cases a <;> cases b <;> simp_all [dstateReg, stateReg]

theorem dstateReg_own (s : FsmSt) (d : Nat) : (s.dstateReg d).name.ownGen s.name = true := by
  cases d <;> simp [dstateReg, stateReg, Var.ownGen]

theorem mem_resetRegs {s : FsmSt} {r : Reg} : r ∈ s.resetRegs ↔
    (∃ d ≤ s.delayAmount, r = s.dstateReg d) ∨ r ∈ s.dstVar ∨ r ∈ s.seq.dstVar := by
  simp only [resetRegs, List.mem_append, List.mem_map, List.mem_range]
  constructor
  · rintro ((⟨d, hd, rfl⟩ | h) | h)
    · exact Or.inl ⟨d, by omega, rfl⟩
    · exact Or.inr (Or.inl h)
    · exact Or.inr (Or.inr h)
  · rintro (⟨d, hd, rfl⟩ | h | h)
    · exact Or.inl (Or.inl ⟨d, by omega, rfl⟩)
    · exact Or.inl (Or.inr h)
    · exact Or.inr h

theorem reset_dstate {s : FsmSt} (hi : s.Inv) (d : Nat) (hd : d ≤ s.delayAmount) (env : Env) :
    traceL s.makeReset env (s.dstateReg d).name = [0] := by
  have hz : (s.dstateReg d).init = some 0 := by cases d <;> rfl
  have h := makeReset_trace_of (mem_resetRegs.2 (Or.inl ⟨d, hd, rfl⟩)) hz (by
    intro r' hr' he
    rcases mem_resetRegs.1 hr' with ⟨e, -, rfl⟩ | h | h
    · rw [dstateReg_name_inj s he]
    · exact absurd (List.mem_map.2 ⟨r', h, he⟩) (dstateReg_not_dst hi d)
    · have := hi.seqNames r'.name (List.mem_map_of_mem h)
      rw [he, dstateReg_own] at this
      simp at this) env
  rw [h]
  cases d <;> simp [dstateReg, stateReg, Reg.wrap]

theorem reset_gen {s : FsmSt} (hi : s.Inv) {r : Reg} {v : Int} (hr : r ∈ s.dstVar)
    (hg : r.name.ownGen s.name = true) (hv : r.init = some v) (env : Env) :
    traceL s.makeReset env r.name = [r.wrap v] := by
  refine makeReset_trace_of (mem_resetRegs.2 (Or.inr (Or.inl hr))) hv ?_ env
  intro r' hr' he
  rcases mem_resetRegs.1 hr' with ⟨e, -, rfl⟩ | h | h
  · exact absurd (List.mem_map.2 ⟨r, hr, he.symm⟩) (dstateReg_not_dst hi e)
  · exact (List.inj_on_of_nodup_map hi.nodup) h hr he
  · have := hi.seqNames r'.name (List.mem_map_of_mem h)
    rw [he, hg] at this
    simp at this

/-! ## What the block assigns -/

theorem mem_caseCode_targets (sel : Expr) {l : List (Int × Code)} {k : Int} {c : Code}
    (h : (k, c) ∈ l) {r : Reg} (hr : r ∈ c.targets) : r ∈ (caseCode sel l).targets := by
  induction l with
  | nil => simp at h
  | cons e l ih =>
    obtain ⟨k', c'⟩ := e
    simp only [caseCode, Code.targets, List.mem_append]
    rcases List.mem_cons.1 h with he | h
    · obtain ⟨rfl, rfl⟩ : k = k' ∧ c = c' := by simpa using he
      exact Or.inl hr
    · exact Or.inr (ih h)

theorem mem_always_code {s : FsmSt} (hb : s.Bound) {e : (Nat × Nat) × Item} (he : e ∈ s.code)
    {r : Reg} (hr : r ∈ e.2.code.targets) (rst : Expr) (uc : Bool) :
    r ∈ (s.always rst uc).targets := by
  obtain ⟨⟨d, i⟩, it⟩ := e
  have hd : d ≤ s.delayAmount := hb _ he
  have hi : i ∈ s.indexes d := (mem_indexes s d i).2 (Or.inl ⟨_, he, rfl⟩)
  have harm : r ∈ (s.armCode d i).targets := by
    rw [armCode, Code.targets_block, List.mem_flatMap]
    refine ⟨it.code, List.mem_append_left _ ?_, hr⟩
    exact List.mem_filterMap.2 ⟨_, he, by simp⟩
  unfold always
  simp only [Code.targets, List.mem_append, Code.targets_block, List.mem_flatMap]
  right
  cases uc with
  | true =>
    refine ⟨s.caseAt d, ?_, mem_caseCode_targets _ (List.mem_map.2 ⟨i, hi, rfl⟩) harm⟩
    simp only [if_true, makeCase, List.mem_append, List.mem_map, List.mem_reverse, List.mem_range]
    exact Or.inr ⟨d, by omega, rfl⟩
  | false =>
    refine ⟨s.ifAt d i, ?_, by simp [ifAt, Code.targets, harm]⟩
    simp only [Bool.false_eq_true, if_false, makeIf, List.mem_append, List.mem_flatMap,
      List.mem_reverse, List.mem_range, List.mem_map]
    exact Or.inr ⟨d, by omega, i, hi, rfl⟩

theorem mem_always_dstate (s : FsmSt) (d : Nat) (hd : d ≤ s.delayAmount) (rst : Expr) (uc : Bool) :
    (s.dstateReg d).name ∈ (s.always rst uc).targets.map Reg.name := by
  refine List.mem_map.2 ⟨s.dstateReg d, ?_, rfl⟩
  cases d with
  | zero =>
    unfold always
    simp only [Code.targets, List.mem_append, Code.targets_block, List.mem_flatMap]
    refine Or.inl ⟨.subst s.stateReg (.int 0), ?_, by simp [Code.targets, dstateReg]⟩
    obtain ⟨rest, this⟩ : ∃ rest, s.makeReset = .subst s.stateReg (.int 0) :: rest := by
      unfold makeReset resetRegs
      rw [List.range_succ_eq_map]
      exact ⟨_, rfl⟩
    rw [this]
    simp
  | succ d =>
    unfold always
    simp only [Code.targets, List.mem_append, Code.targets_block, List.mem_flatMap]
    refine Or.inr ⟨.subst (s.dstateReg (d + 1)) (.var (s.dstateReg d).name), ?_,
      by simp [Code.targets]⟩
    have : Code.subst (s.dstateReg (d + 1)) (.var (s.dstateReg d).name) ∈ s.delayedSubsts :=
      List.mem_map.2 ⟨d, by rw [List.mem_range]; omega, rfl⟩
    cases uc <;> simp [makeCase, makeIf, this]

/-! ## Delayed states over time -/

section Run

variable {s : FsmSt} {rst : Expr} {uc : Bool} {E : Nat → Env}

theorem run_trace (hE : Run (s.always rst uc) E) {x : Var}
    (hx : x ∈ (s.always rst uc).targets.map Reg.name) (t : Nat) :
    E (t + 1) x = if rst.truthy (E t) = true then
        ((traceL s.makeReset (E t) x).getLast?).getD (E t x)
      else ((traceL s.makeCase (E t) x).getLast?).getD (E t x) := by
  rw [hE t x hx, Code.tick, Code.exec_eq_trace, always_trace]
  split <;> rfl

theorem run_dstate (hi : s.Inv) (hE : Run (s.always rst uc) E) (d : Nat) (hd : d < s.delayAmount)
    (t : Nat) : E (t + 1) (s.dstateReg (d + 1)).name =
      if rst.truthy (E t) = true then 0 else (E t (s.dstateReg d).name) % 2 ^ s.width := by
  rw [run_trace hE (mem_always_dstate s (d + 1) (by omega) rst uc), reset_dstate hi (d + 1) (by omega),
    dstate_trace hi d hd]
  rfl

theorem run_state_reset (hi : s.Inv) (hE : Run (s.always rst uc) E) (t : Nat)
    (h : rst.truthy (E t) = true) : E (t + 1) (.state s.name) = 0 := by
  have := run_trace hE (mem_always_dstate s 0 (by omega) rst uc) t
  rw [if_pos h, reset_dstate hi 0 (by omega)] at this
  exact this

theorem jumpTrace_range (s : FsmSt) (env : Env) (x : Var) :
    ∀ v ∈ s.jumpTrace env x, v % 2 ^ s.width = v := by
  have hcode : ∀ (j : Jump), ∀ v ∈ (jumpCode s.stateReg j).trace env x, v % 2 ^ s.width = v := by
    intro j v hv
    have hw : ∀ a : Int, s.stateReg.wrap a % 2 ^ s.width = s.stateReg.wrap a := by
      intro a; simp [stateReg, Reg.wrap]
    have hsub : ∀ a : Int, ∀ v ∈ (Code.subst s.stateReg (.int a)).trace env x,
        v % 2 ^ s.width = v := by
      intro a v hv
      simp only [Code.trace] at hv
      split at hv
      · simp only [List.mem_singleton] at hv; subst hv; exact hw _
      · simp at hv
    unfold jumpCode at hv
    split at hv
    · exact hsub _ v hv
    · simp only [Code.trace] at hv
      split at hv
      · exact hsub _ v hv
      · split at hv
        · simp [Code.trace] at hv
        · exact hsub _ v hv
  unfold jumpTrace
  split
  · unfold jumpsAt traceL
    intro v hv
    obtain ⟨c, hc, hv⟩ := List.mem_flatMap.1 hv
    obtain ⟨e, -, he⟩ := List.mem_filterMap.1 hc
    by_cases hk : e.1 = (env s.stateReg.name).toNat
    · simp only [hk, if_true, Option.some.injEq] at he
      subst he
      exact hcode _ v hv
    · simp [hk] at he
  · simp

/-- The state register holds a value of its width. -/
theorem run_state_range (hi : s.Inv) (hE : Run (s.always rst uc) E)
    (h0 : (E 0 (.state s.name)) % 2 ^ s.width = E 0 (.state s.name)) (t : Nat) :
    (E t (.state s.name)) % 2 ^ s.width = E t (.state s.name) := by
  induction t with
  | zero => exact h0
  | succ t ih =>
    by_cases hr : rst.truthy (E t) = true
    · rw [run_state_reset hi hE t hr]; simp
    · have h : E (t + 1) (.state s.name) =
          ((s.jumpTrace (E t) (.state s.name)).getLast?).getD (E t (.state s.name)) := by
        have := run_trace hE (mem_always_dstate s 0 (by omega) rst uc) t
        rw [if_neg hr] at this
        exact this.trans (congrArg (fun l : List Int => l.getLast?.getD (E t (.state s.name)))
          (state_trace hi (E t)))
      rw [h]
      cases hl : (s.jumpTrace (E t) (.state s.name)).getLast? with
      | none => exact ih
      | some v =>
        exact jumpTrace_range s (E t) _ v (List.mem_of_getLast? hl)

/-- Without reset, delayed state `j` is the state `j` edges ago. -/
theorem run_dstate_hist (hi : s.Inv) (hE : Run (s.always rst uc) E)
    (h0 : (E 0 (.state s.name)) % 2 ^ s.width = E 0 (.state s.name)) (t j : Nat)
    (hj : j ≤ s.delayAmount) (hr : resetIn (some rst) E t j = false) :
    E (t + j) (s.dstateReg j).name = E t (.state s.name) := by
  induction j with
  | zero => rfl
  | succ j ih =>
    rw [resetIn_succ, Bool.or_eq_false_iff] at hr
    have hr2 : rst.truthy (E (t + j)) = false := hr.2
    rw [← Nat.add_assoc, run_dstate hi hE j (by omega), if_neg (by simp [hr2]),
      ih (by omega) hr.1, run_state_range hi hE h0]

end Run

/-! ## Pipelines -/

/-- `r` is a generated register whose only assignment is `r <= e` in state `i`, delay `j`. -/
structure PipeAt (s : FsmSt) (j i : Nat) (r : Reg) (e : Expr) : Prop where
  mem : r ∈ s.dstVar
  own : r.name.ownGen s.name = true
  drives : s.Drives r.name
  le : j ≤ s.delayAmount
  trace : ∀ env d i', s.keyTrace d i' env r.name =
    if (j, i) = (d, i') then [r.wrap (e.eval env)] else []

theorem PipeAt.good {s s' : FsmSt} {j i : Nat} {r : Reg} {e : Expr} (p : PipeAt s j i r e)
    (g : Good s s') : PipeAt s' j i r e := by
  refine ⟨g.dst r p.mem, by rw [g.name]; exact p.own, g.drives _ p.drives,
    Nat.le_trans p.le g.delay, fun env d i' => ?_⟩
  rw [g.key r.name (List.mem_map_of_mem p.mem) p.own, p.trace]

theorem PipeAt.step {ok} {s s' : FsmSt} {j i : Nat} {r : Reg} {e : Expr} (p : PipeAt s j i r e)
    (g : Step ok s s') (h : ∀ r', ok r' → r'.name ≠ r.name) : PipeAt s' j i r e := by
  obtain ⟨extra, h1, -⟩ := g.dst
  refine ⟨by rw [h1]; exact List.mem_append_left _ p.mem, by rw [g.name]; exact p.own,
    g.drives _ p.drives, Nat.le_trans p.le g.delay, fun env d i' => ?_⟩
  rw [g.key r.name h, p.trace]

theorem pipeAt_push {s : FsmSt} (hc : s.Covered) (j i : Nat) (r : Reg) (e : Expr)
    (hf : r.name ∉ s.dstNames) (hown : r.name.ownGen s.name = true) :
    PipeAt (s.push j i (.plain (.subst r e))) j i r e := by
  obtain ⟨f1, -, -, f4, f5, -⟩ := push_fields s j i (.plain (.subst r e))
  refine ⟨?_, by rw [f1]; exact hown, ?_, by rw [f5]; omega, fun env d i' => ?_⟩
  · obtain ⟨extra, h1, h2, h3, h4, h5⟩ := addDst_eq
      { s with code := s.code ++ [((j, i), .plain (.subst r e))],
               delayAmount := max s.delayAmount j } (Item.plain (.subst r e)).code.targets
    unfold push
    rw [h1]
    refine List.mem_append_right _ (h5 r (by simp [Item.code, Code.targets]) hf ?_)
    intro r' hr' _
    simpa [Item.code, Code.targets] using hr'
  · exact ⟨((j, i), .plain (.subst r e)), by rw [f4]; simp, r, by simp [Item.code, Code.targets], rfl⟩
  · rw [keyTrace_push, keyTrace_nil hc hf]
    simp [Item.code, Code.trace]

theorem pipeLoop_pipes (reg : Nat → Reg) (c : Expr) (m i : Nat) (s : FsmSt) (hc : s.Covered)
    (hinj : ∀ a b, (reg a).name = (reg b).name → a = b)
    (hown : ∀ j, (reg j).name.ownGen s.name = true)
    (hf : ∀ j, i < j → (reg j).name ∉ s.dstNames) :
    (pipeLoop reg m i (SeqSt.stage reg c i) s).1 = SeqSt.stage reg c (i + m) ∧
    ∀ j, i ≤ j → j < i + m →
      PipeAt (pipeLoop reg m i (SeqSt.stage reg c i) s).2 j s.cur (reg (j + 1))
        (SeqSt.stage reg c j) := by
  induction m generalizing i s with
  | zero => exact ⟨rfl, fun j h1 h2 => by omega⟩
  | succ m ih =>
    have hst : Step (fun r => r = reg (i + 1)) s
        (s.push i s.cur (.plain (.subst (reg (i + 1)) (SeqSt.stage reg c i)))) :=
      .push s i s.cur _ fun r hr => by simpa [Item.code, Code.targets] using hr
    have hcur : (s.push i s.cur (.plain (.subst (reg (i + 1)) (SeqSt.stage reg c i)))).cur = s.cur :=
      (push_fields _ _ _ _).2.2.2.2.2.2.2.1
    have hf' : ∀ j, i + 1 < j → (reg j).name ∉
        (s.push i s.cur (.plain (.subst (reg (i + 1)) (SeqSt.stage reg c i)))).dstNames := by
      intro j hj hm
      obtain ⟨extra, h1, h2, -⟩ := hst.dst
      simp only [dstNames, h1, List.map_append, List.mem_append] at hm
      rcases hm with hm | hm
      · exact hf j (by omega) hm
      · obtain ⟨r, hr, he⟩ := List.mem_map.1 hm
        have := (h2 r hr).1
        rw [this] at he
        have := hinj _ _ he
        omega
    have ih' := ih (i + 1) _ (hst.covered hc) (by rw [hst.name]; exact hown) hf'
    rw [hcur] at ih'
    refine ⟨?_, fun j h1 h2 => ?_⟩
    · have := ih'.1
      rw [show i + (m + 1) = i + 1 + m by omega]
      exact this
    · by_cases hj : j = i
      · subst hj
        have p := pipeAt_push hc j s.cur (reg (j + 1)) (SeqSt.stage reg c j) (hf (j + 1) (by omega))
          (hown _)
        refine p.step (ok := fun r => ∃ q, j + 1 < q ∧ r = reg q)
          (pipeLoop_step reg m (j + 1) _ _ fun q h3 h4 => ⟨q, h3, rfl⟩).1 ?_
        rintro r' ⟨q, hq, rfl⟩ he
        have := hinj _ _ he
        omega
      · exact ih'.2 j (by omega) (by omega)

/-- Only one delay has code for `x`. -/
theorem seg_single (s : FsmSt) (env : Env) (x : Var) (n lo cnt : Nat)
    (h : ∀ d, d ≠ n → s.active d env x = []) :
    s.seg env x lo cnt = if lo ≤ n ∧ n < lo + cnt then s.active n env x else [] := by
  induction cnt with
  | zero => rw [if_neg (by omega)]; rfl
  | succ cnt ih =>
    rw [seg, ih]
    by_cases hn : n = lo + cnt
    · rw [if_neg (by omega), if_pos (by omega), ← hn, List.append_nil]
    · rw [h _ (Ne.symm hn), List.nil_append]
      by_cases h2 : lo ≤ n ∧ n < lo + cnt
      · rw [if_pos h2, if_pos (by omega)]
      · rw [if_neg h2, if_neg (by omega)]

/-- Only delay `n` and state `i` have code for `x`. -/
theorem active_single (s : FsmSt) (env : Env) (x : Var) (n i : Nat) (l : List Int)
    (h : ∀ d i', s.keyTrace d i' env x = if (n, i) = (d, i') then l else []) :
    (∀ d, d ≠ n → s.active d env x = []) ∧
    s.active n env x = if env (s.dstateReg n).name = (i : Int) then l else [] := by
  constructor
  · intro d hd
    unfold active
    split
    · rw [h, if_neg]; simp only [Prod.mk.injEq]; exact fun hh => hd hh.1.symm
    · rfl
  · unfold active
    by_cases h0 : 0 ≤ env (s.dstateReg n).name
    · rw [if_pos h0, h]
      by_cases he : env (s.dstateReg n).name = (i : Int)
      · simp [he]
      · have : ¬ i = (env (s.dstateReg n).name).toNat := by omega
        simp [he, this]
    · rw [if_neg h0, if_neg (by omega)]

section Run

variable {s : FsmSt} {rst : Expr} {uc : Bool} {E : Nat → Env}

theorem run_pipe (hi : s.Inv) (hE : Run (s.always rst uc) E) {j i : Nat} {r : Reg} {e : Expr}
    {v : Int} (p : PipeAt s j i r e) (hv : r.init = some v) (t : Nat) :
    E (t + 1) r.name = if rst.truthy (E t) = true then r.wrap v
      else if E t (s.dstateReg j).name = (i : Int) then r.wrap (e.eval (E t)) else E t r.name := by
  obtain ⟨en, he, q, hq, hqn⟩ := p.drives
  have hmem : r.name ∈ (s.always rst uc).targets.map Reg.name :=
    List.mem_map.2 ⟨q, mem_always_code hi.bound he hq rst uc, hqn⟩
  rw [run_trace hE hmem, reset_gen hi p.mem p.own hv]
  have hdst : r.name ∈ s.dstNames := List.mem_map_of_mem p.mem
  obtain ⟨h1, h2⟩ := active_single s (E t) r.name j i _ (p.trace (E t))
  have htr : traceL s.makeCase (E t) r.name =
      if E t (s.dstateReg j).name = (i : Int) then [r.wrap (e.eval (E t))] else [] := by
    rw [makeCase_trace, seq_trace_nil hi p.own, delayedSubsts_nil _ (by
        intro d hd; exact dstateReg_not_dst hi (d + 1) (hd ▸ hdst)),
      jumpTrace_nil s (fun hd => stateReg_not_dst hi (hd ▸ hdst)), List.append_nil,
      seg_single s _ _ j _ _ h1, if_pos ⟨Nat.zero_le _, by have := p.le; omega⟩, h2]
    simp
  rw [htr]
  by_cases h : rst.truthy (E t) = true
  · simp [h]
  · by_cases h3 : E t (s.dstateReg j).name = (i : Int) <;> simp [h, h3]

/-- After a reset the initial values travel down the pipeline. -/
theorem pipe_after_reset (hi : s.Inv) (hE : Run (s.always rst uc) E) (reg : Nat → Reg) (c : Expr)
    (v : Int) (w : Int → Int) (hw : ∀ j, (reg j).wrap = w) (hww : ∀ a, w (w a) = w a)
    (hv : ∀ j, (reg j).init = some v) (n i : Nat)
    (hp : ∀ j, j < n → PipeAt s j i (reg (j + 1)) (SeqSt.stage reg c j)) (u : Nat)
    (hu : rst.truthy (E u) = true) (m j : Nat) (hm : m < j) (hj : j ≤ n) :
    E (u + 1 + m) (reg j).name = w v := by
  induction m generalizing j with
  | zero =>
    obtain ⟨j, rfl⟩ : ∃ k, j = k + 1 := ⟨j - 1, by omega⟩
    have h := run_pipe hi hE (hp j (by omega)) (hv _) u
    rw [if_pos hu, hw] at h
    exact h
  | succ m ih =>
    obtain ⟨j, rfl⟩ : ∃ k, j = k + 1 := ⟨j - 1, by omega⟩
    have h := run_pipe hi hE (hp j (by omega)) (hv _) (u + 1 + m)
    rw [hw] at h
    rw [← Nat.add_assoc, h]
    obtain ⟨j', rfl⟩ : ∃ k, j = k + 1 := ⟨j - 1, by omega⟩
    have e1 : (SeqSt.stage reg c (j' + 1)).eval (E (u + 1 + m)) =
        E (u + 1 + m) (reg (j' + 1)).name := rfl
    rw [e1, ih (j' + 1) (by omega) (by omega), ih (j' + 1 + 1) (by omega) (by omega), hww]
    simp

/-- The end of a pipeline of `n` registers fed in state `i`. -/
theorem pipe_run (hi : s.Inv) (hE : Run (s.always rst uc) E)
    (h0 : (E 0 (.state s.name)) % 2 ^ s.width = E 0 (.state s.name)) (reg : Nat → Reg) (c : Expr)
    (v : Int) (w : Int → Int) (hw : ∀ j, (reg j).wrap = w) (hww : ∀ a, w (w a) = w a)
    (hv : ∀ j, (reg j).init = some v) (n i : Nat)
    (hp : ∀ j, j < n → PipeAt s j i (reg (j + 1)) (SeqSt.stage reg c j)) (hn : 0 < n) (t : Nat) :
    (resetIn (some rst) E t n = true → E (t + n) (reg n).name = w v) ∧
    (resetIn (some rst) E t n = false → E t (.state s.name) = (i : Int) →
      E (t + n) (reg n).name = w (c.eval (E t))) := by
  constructor
  · intro hr
    rw [resetIn, List.any_eq_true] at hr
    obtain ⟨k, hk, hrk⟩ := hr
    rw [List.mem_range] at hk
    have := pipe_after_reset hi hE reg c v w hw hww hv n i hp (t + k) hrk (n - 1 - k) n (by omega)
      (Nat.le_refl _)
    rwa [show t + k + 1 + (n - 1 - k) = t + n by omega] at this
  · intro hr hst
    have key : ∀ k, k + 1 ≤ n → E (t + (k + 1)) (reg (k + 1)).name = w (c.eval (E t)) := by
      intro k
      induction k with
      | zero =>
        intro hk
        have h := run_pipe hi hE (hp 0 (by omega)) (hv _) t
        have hr0 : rst.truthy (E t) = false := by
          rw [resetIn, List.any_eq_false] at hr
          have := hr 0 (by rw [List.mem_range]; omega)
          simpa [isReset] using this
        rw [hw] at h
        rw [h, if_neg (by simp [hr0]), if_pos (by exact hst)]
        rfl
      | succ k ih =>
        intro hk
        have h := run_pipe hi hE (hp (k + 1) (by omega)) (hv _) (t + (k + 1))
        have hrk : rst.truthy (E (t + (k + 1))) = false := by
          rw [resetIn, List.any_eq_false] at hr
          have := hr (k + 1) (by rw [List.mem_range]; omega)
          simpa [isReset] using this
        have hrj : resetIn (some rst) E t (k + 1) = false := by
          rw [resetIn, List.any_eq_false] at hr ⊢
          intro u hu
          exact hr u (by rw [List.mem_range] at hu ⊢; omega)
        have hd := run_dstate_hist hi hE h0 t (k + 1) (hp (k + 1) (by omega)).le hrj
        rw [hw] at h
        rw [show t + (k + 1 + 1) = t + (k + 1) + 1 by omega, h, if_neg (by simp [hrk]),
          if_pos (by rw [hd]; exact hst)]
        have e1 : (SeqSt.stage reg c (k + 1)).eval (E (t + (k + 1))) =
          E (t + (k + 1)) (reg (k + 1)).name := rfl
        rw [e1, ih (by omega), hww]
    obtain ⟨k, rfl⟩ : ∃ k, n = k + 1 := ⟨n - 1, by omega⟩
    exact key k (Nat.le_refl _)

end Run

/-- The condition pipeline in every later design. -/
theorem addDelayedCond_meaning {s : FsmSt} (hi : s.Inv) (c : Expr) (n : Nat) (hn : 0 < n)
    {s2 : FsmSt} (g : Good (s.addDelayedCond c n).2 s2) {rst : Expr} {uc : Bool} {E : Nat → Env}
    (hE : Run (s2.always rst uc) E)
    (h0 : (E 0 (.state s.name)) % 2 ^ s.width = E 0 (.state s.name)) (t : Nat) :
    (resetIn (some rst) E t n = true → (s.addDelayedCond c n).1.eval (E (t + n)) = 0) ∧
    (resetIn (some rst) E t n = false → E t (.state s.name) = (s.cur : Int) →
      (s.addDelayedCond c n).1.eval (E (t + n)) = c.eval (E t) % 2) := by
  have hp := pipeLoop_pipes (condReg s.name s.tmpCount) c n 0 { s with tmpCount := s.tmpCount + 1 }
    (Good.bump hi).inv.covered (by intro a b h; simpa [condReg] using h)
    (by intro j; simp [condReg, Var.ownGen]) (fun j _ => cond_fresh hi _ j (Nat.le_refl _))
  have he : (s.addDelayedCond c n) = pipeLoop (condReg s.name s.tmpCount) n 0
    (SeqSt.stage (condReg s.name s.tmpCount) c 0) { s with tmpCount := s.tmpCount + 1 } := rfl
  rw [← he] at hp
  have g0 := (Good.addDelayedCond hi c n).1.trans g
  have hr := pipe_run g.inv hE (by rw [g0.name, g0.width]; exact h0) (condReg s.name s.tmpCount) c 0
    (fun a => a % 2) (by intro j; funext a; simp [Reg.wrap, condReg])
    (by intro a; simp) (by intro j; rfl) n s.cur
    (fun j hj => (hp.2 j (by omega) (by omega)).good g) hn t
  rw [hp.1, Nat.zero_add]
  obtain ⟨m, rfl⟩ : ∃ m, n = m + 1 := ⟨n - 1, by omega⟩
  refine ⟨fun h => by simpa [SeqSt.stage, Expr.var, Expr.eval] using hr.1 h, fun h hst => ?_⟩
  have := hr.2 h (by rw [g0.name]; exact hst)
  simpa [SeqSt.stage, Expr.var, Expr.eval] using this

theorem addDelayedSubst_meaning {s : FsmSt} (hi : s.Inv) (r : Reg) (e : Expr) (n : Nat)
    (hn : 0 < n) {s2 : FsmSt} (g : Good (s.addDelayedSubst (.subst r e) n).2 s2)
    {rst : Expr} {uc : Bool} {E : Nat → Env} (hE : Run (s2.always rst uc) E)
    (h0 : (E 0 (.state s.name)) % 2 ^ s.width = E 0 (.state s.name)) (t : Nat)
    (hreset : resetIn (some rst) E t n = false) (hst : E t (.state s.name) = (s.cur : Int))
    (x : Var) :
    (s.addDelayedSubst (.subst r e) n).1.trace (E (t + n)) x = (Code.subst r e).trace (E t) x := by
  cases e with
  | int c => rfl
  | fn f =>
    have hp := pipeLoop_pipes (sbstReg s.name r s.tmpCount) (.fn f) n 0
      { s with tmpCount := s.tmpCount + 1 }
      (Good.bump hi).inv.covered (by intro a b h; simpa [sbstReg] using h)
      (by intro j; simp [sbstReg, Var.ownGen]) (fun j _ => sbst_fresh hi r _ j (Nat.le_refl _))
    have he : s.addDelayedSubst (.subst r (.fn f)) n =
        (.subst r (pipeLoop (sbstReg s.name r s.tmpCount) n 0
          (SeqSt.stage (sbstReg s.name r s.tmpCount) (.fn f) 0)
            { s with tmpCount := s.tmpCount + 1 }).1,
         (pipeLoop (sbstReg s.name r s.tmpCount) n 0
          (SeqSt.stage (sbstReg s.name r s.tmpCount) (.fn f) 0)
            { s with tmpCount := s.tmpCount + 1 }).2) := rfl
    have g0 := (Good.addDelayedSubst hi (.subst r (.fn f)) n).1.trans g
    rw [he] at g ⊢
    have hr := (pipe_run g.inv hE (by rw [g0.name, g0.width]; exact h0)
      (sbstReg s.name r s.tmpCount) (.fn f) 0 r.wrap
      (by intro j; rfl) r.wrap_wrap (by intro j; rfl) n s.cur
      (fun j hj => (hp.2 j (by omega) (by omega)).good g) hn t).2 hreset
        (by rw [g0.name]; exact hst)
    simp only [hp.1, Nat.zero_add]
    obtain ⟨m, rfl⟩ : ∃ m, n = m + 1 := ⟨n - 1, by omega⟩
    simp only [Code.trace, SeqSt.stage]
    have : (Expr.var (sbstReg s.name r s.tmpCount (m + 1)).name).eval (E (t + (m + 1))) =
        E (t + (m + 1)) (sbstReg s.name r s.tmpCount (m + 1)).name := rfl
    rw [this, hr, Reg.wrap_wrap]

theorem addDelayedSubsts_meaning {s : FsmSt} (hi : s.Inv) (cs : List Code) (n : Nat) (hn : 0 < n)
    (hsub : ∀ c ∈ cs, ∃ r e, c = .subst r e)
    {s2 : FsmSt} (g : Good (s.addDelayedSubsts cs n).2 s2)
    {rst : Expr} {uc : Bool} {E : Nat → Env} (hE : Run (s2.always rst uc) E)
    (h0 : (E 0 (.state s.name)) % 2 ^ s.width = E 0 (.state s.name)) (t : Nat)
    (hreset : resetIn (some rst) E t n = false) (hst : E t (.state s.name) = (s.cur : Int))
    (x : Var) :
    traceL (s.addDelayedSubsts cs n).1 (E (t + n)) x = traceL cs (E t) x := by
  induction cs generalizing s with
  | nil => rfl
  | cons c cs ih =>
    obtain ⟨r, e, rfl⟩ := hsub c (by simp)
    have h1 := Good.addDelayedSubst hi (.subst r e) n
    have h2 := Good.addDelayedSubsts h1.1.inv cs n
    have ht := addDelayedSubst_meaning hi r e n hn (h2.1.trans g) hE h0 t hreset hst x
    have ih' := ih h1.1.inv (fun c hc => hsub c (by simp [hc])) g
      (by rw [h1.1.name, h1.1.width]; exact h0) (by rw [h1.1.name, h1.2]; exact hst)
    show traceL ((s.addDelayedSubst (.subst r e) n).1 ::
      ((s.addDelayedSubst (.subst r e) n).2.addDelayedSubsts cs n).1) (E (t + n)) x = _
    rw [traceL_cons, traceL_cons, ht, ih']

theorem own_ne {own : String} {x y : Var} (hx : x.fgenBy own = false) (hy : y.ownGen own = true) :
    y ≠ x := by
  rintro rfl
  simp [Var.fgenBy, hy] at hx

theorem addDelayedCond_step {ok} (s : FsmSt) (c : Expr) (n : Nat)
    (h : ∀ j, ok (condReg s.name s.tmpCount j)) : Step ok s (s.addDelayedCond c n).2 := by
  have h1 : Step ok s { s with tmpCount := s.tmpCount + 1 } :=
    .book rfl rfl rfl rfl rfl rfl (by simp) (Or.inl rfl)
  exact h1.trans (pipeLoop_step (condReg s.name s.tmpCount) n 0 c _ fun j _ _ => h j).1

theorem addDelayedSubst_step {ok} (s : FsmSt) (c : Code) (n : Nat)
    (h : ∀ r j, ok (sbstReg s.name r s.tmpCount j)) : Step ok s (s.addDelayedSubst c n).2 := by
  unfold addDelayedSubst
  split
  · have h1 : Step ok s { s with tmpCount := s.tmpCount + 1 } :=
      .book rfl rfl rfl rfl rfl rfl (by simp) (Or.inl rfl)
    exact h1.trans (pipeLoop_step (sbstReg s.name _ s.tmpCount) n 0 _ _ fun j _ _ => h _ j).1
  · exact .refl _ _

theorem addDelayedSubsts_step {ok} (cs : List Code) (n : Nat) : ∀ s : FsmSt,
    (∀ r k j, ok (sbstReg s.name r k j)) → Step ok s (s.addDelayedSubsts cs n).2 := by
  induction cs with
  | nil => intro s _; exact .refl _ _
  | cons c cs ih =>
    intro s h
    have h1 := addDelayedSubst_step (ok := ok) s c n fun r j => h r _ j
    exact h1.trans (ih (s.addDelayedSubst c n).2 (by rw [h1.name]; exact h))

theorem addDelayedCond_ne (s : FsmSt) (c : Expr) (n : Nat) {x : Var} (hx : x.fgenBy s.name = false) :
    Step (fun r => r.name ≠ x) s (s.addDelayedCond c n).2 :=
  addDelayedCond_step s c n fun j => own_ne hx (by simp [condReg, Var.ownGen])

theorem addDelayedSubsts_ne (cs : List Code) (n : Nat) (s : FsmSt) {x : Var}
    (hx : x.fgenBy s.name = false) : Step (fun r => r.name ≠ x) s (s.addDelayedSubsts cs n).2 :=
  addDelayedSubsts_step cs n s fun r k j => own_ne hx (by simp [sbstReg, Var.ownGen])

theorem addDelayedCond_key (s : FsmSt) (c : Expr) (n : Nat) {x : Var}
    (hx : x.fgenBy s.name = false) (d i : Nat) (env : Env) :
    (s.addDelayedCond c n).2.keyTrace d i env x = s.keyTrace d i env x :=
  (addDelayedCond_ne s c n hx).key x (fun _ h => h) d i env

theorem addDelayedSubsts_key (cs : List Code) (n : Nat) (s : FsmSt) {x : Var}
    (hx : x.fgenBy s.name = false) (d i : Nat) (env : Env) :
    (s.addDelayedSubsts cs n).2.keyTrace d i env x = s.keyTrace d i env x :=
  (addDelayedSubsts_ne cs n s hx).key x (fun _ h => h) d i env

/-- Everything there is to know about a delayed addition for state `index`, made while the builder is
    at state `s.cur`. -/
theorem addDelayed_spec {s : FsmSt} (hi : s.Inv) (stmts : List Code) (index n : Nat) (hn : 0 < n)
    (cond : Option Expr) (lz eager : Bool)
    (hok : ∀ c ∈ stmts, ∀ r ∈ c.targets, r.name.fgenBy s.name = false) :
    ∃ (g : Expr) (stmts' : List Code), (eager = false → stmts' = stmts) ∧
      stmts'.map Code.targets = stmts.map Code.targets ∧
      (∃ s3 : FsmSt, s.addDelayed stmts index n cond lz eager =
        s3.push n index (.plain (.ite g (Code.block stmts') .skip))) ∧
      (∀ env x d i, x.fgenBy s.name = false →
        (s.addDelayed stmts index n cond lz eager).keyTrace d i env x = s.keyTrace d i env x ++
          (if (n, index) = (d, i) then
            if g.truthy env = true then traceL stmts' env x else [] else [])) ∧
      ∀ s2, Good (s.addDelayed stmts index n cond lz eager) s2 → ∀ rst uc E,
        Run (s2.always rst uc) E → (E 0 (.state s.name)) % 2 ^ s.width = E 0 (.state s.name) → ∀ t,
        (resetIn (some rst) E t n = true → g.truthy (E (t + n)) = false) ∧
        (resetIn (some rst) E t n = false → E t (.state s.name) = (s.cur : Int) →
          g.truthy (E (t + n)) = (match cond with
            | none => true
            | some c => if lz then c.truthy (E (t + n)) else c.eval (E t) % 2 == 1) ∧
          (eager = true → (∀ c ∈ stmts, ∃ r e, c = .subst r e) →
            ∀ x, traceL stmts' (E (t + n)) x = traceL stmts (E t) x)) := by
  -- stage 1: values
  obtain ⟨stmts', s1, hs1, hne, hg1, hcur1, hkey1, htg, hval⟩ : ∃ stmts' s1,
      (if eager then s.addDelayedSubsts stmts n else (stmts, s)) = (stmts', s1) ∧
      (eager = false → stmts' = stmts) ∧ Good s s1 ∧ s1.cur = s.cur ∧
      (∀ x, x.fgenBy s.name = false → ∀ d i env, s1.keyTrace d i env x = s.keyTrace d i env x) ∧
      stmts'.map Code.targets = stmts.map Code.targets ∧
      (∀ s2, Good s1 s2 → ∀ rst uc E, Run (s2.always rst uc) E →
        (E 0 (.state s.name)) % 2 ^ s.width = E 0 (.state s.name) → ∀ t,
        (resetIn (some rst) E t n = false → E t (.state s.name) = (s.cur : Int) →
          (eager = true → (∀ c ∈ stmts, ∃ r e, c = .subst r e) →
            ∀ x, traceL stmts' (E (t + n)) x = traceL stmts (E t) x))) := by
    cases eager with
    | false =>
      exact ⟨stmts, s, rfl, fun _ => rfl, .refl hi, rfl, fun _ _ _ _ _ => rfl, rfl,
        fun _ _ _ _ _ _ _ _ _ _ h => by simp at h⟩
    | true =>
      obtain ⟨a, b, c⟩ := Good.addDelayedSubsts hi stmts n
      refine ⟨_, _, rfl, fun h => by simp at h, a, b, ?_, c, ?_⟩
      · intro x hx d i env
        exact addDelayedSubsts_key stmts n s hx d i env
      · intro s2 g rst uc E hE h0 t hr hst _ hsub x
        exact addDelayedSubsts_meaning hi stmts n hn hsub g hE h0 t hr hst x
  have hi1 := hg1.inv
  -- stage 2: the guard
  obtain ⟨g, s2', hs2, hg2, hkey2, hgd⟩ : ∃ g s2',
      (if lz then
        (match cond.getD (.int 1) with
          | .int 1 => (s1.addDelayedCond (.int 1) n).1
          | c => Expr.and (s1.addDelayedCond (.int 1) n).1 c, (s1.addDelayedCond (.int 1) n).2)
      else s1.addDelayedCond (cond.getD (.int 1)) n) = (g, s2') ∧ Good s1 s2' ∧
      (∀ x, x.fgenBy s.name = false → ∀ d i env, s2'.keyTrace d i env x = s1.keyTrace d i env x) ∧
      ∀ s2, Good s2' s2 → ∀ rst uc E, Run (s2.always rst uc) E →
        (E 0 (.state s.name)) % 2 ^ s.width = E 0 (.state s.name) → ∀ t,
        (resetIn (some rst) E t n = true → g.truthy (E (t + n)) = false) ∧
        (resetIn (some rst) E t n = false → E t (.state s.name) = (s.cur : Int) →
          g.truthy (E (t + n)) = (match cond with
            | none => true
            | some c => if lz then c.truthy (E (t + n)) else c.eval (E t) % 2 == 1)) := by
    have hk : ∀ c : Expr, ∀ x, x.fgenBy s.name = false → ∀ d i env,
        (s1.addDelayedCond c n).2.keyTrace d i env x = s1.keyTrace d i env x := by
      intro c x hx d i env
      exact addDelayedCond_key s1 c n (by rw [hg1.name]; exact hx) d i env
    cases lz with
    | false =>
      refine ⟨(s1.addDelayedCond (cond.getD (.int 1)) n).1,
        (s1.addDelayedCond (cond.getD (.int 1)) n).2, rfl, (Good.addDelayedCond hi1 _ n).1,
        hk _, ?_⟩
      intro s2 gd rst uc E hE h0 t
      have := addDelayedCond_meaning hi1 (cond.getD (.int 1)) n hn gd hE
        (by rw [hg1.name, hg1.width]; exact h0) t
      rw [hg1.name, hcur1] at this
      refine ⟨fun hr => by rw [Expr.truthy, this.1 hr]; rfl, fun hr hst => ?_⟩
      rw [Expr.truthy, this.2 hr hst]
      cases cond with
      | none => simp [Expr.eval]
      | some c =>
        simp only [Option.getD_some, Bool.false_eq_true, if_false]
        rcases Int.emod_two_eq (c.eval (E t)) with h | h <;> simp [h]
    | true =>
      refine ⟨_, _, rfl, (Good.addDelayedCond hi1 _ n).1, hk _, ?_⟩
      intro s2 gd rst uc E hE h0 t
      have := addDelayedCond_meaning hi1 (.int 1) n hn gd hE
        (by rw [hg1.name, hg1.width]; exact h0) t
      rw [hg1.name, hcur1] at this
      have ht1 : resetIn (some rst) E t n = true →
          (s1.addDelayedCond (.int 1) n).1.truthy (E (t + n)) = false := by
        intro hr; rw [Expr.truthy, this.1 hr]; rfl
      have ht2 : resetIn (some rst) E t n = false → E t (.state s.name) = (s.cur : Int) →
          (s1.addDelayedCond (.int 1) n).1.truthy (E (t + n)) = true := by
        intro hr hst; rw [Expr.truthy, this.2 hr hst]; simp [Expr.eval]
      cases cond with
      | none => exact ⟨ht1, ht2⟩
      | some c =>
        simp only [Option.getD_some, if_true]
        split
        · exact ⟨ht1, fun a b => by rw [ht2 a b]; simp [Expr.truthy, Expr.eval]⟩
        · exact ⟨fun a => by rw [Expr.truthy_and, ht1 a]; rfl,
            fun a b => by rw [Expr.truthy_and, ht2 a b]; simp⟩
  have hdef : s.addDelayed stmts index n cond lz eager =
      s2'.push n index (.plain (.ite g (Code.block stmts') .skip)) := by
    rw [addDelayed_eq, hs1]
    simp only
    have : (if lz then
        (match cond.getD (.int 1) with
          | .int 1 => (s1.addDelayedCond (.int 1) n).1
          | c => Expr.and (s1.addDelayedCond (.int 1) n).1 c, (s1.addDelayedCond (.int 1) n).2)
      else s1.addDelayedCond (cond.getD (.int 1)) n) = (g, s2') := hs2
    cases lz with
    | false =>
      simp only [Bool.false_eq_true, if_false] at this ⊢
      rw [this]
    | true =>
      simp only [if_true] at this ⊢
      have h1 := congrArg Prod.fst this
      have h2 := congrArg Prod.snd this
      simp only at h1 h2
      rw [← h1, ← h2]
      rfl
  have hgp : Good s2' (s2'.push n index (.plain (.ite g (Code.block stmts') .skip))) := by
    refine .push hg2.inv n index _ ?_
    intro r hr
    simp only [Item.code, Code.targets, Code.targets_block, List.append_nil, List.mem_flatMap] at hr
    obtain ⟨c, hc, hr⟩ := hr
    have : c.targets ∈ stmts.map Code.targets := htg ▸ List.mem_map_of_mem hc
    obtain ⟨c', hc', he⟩ := List.mem_map.1 this
    rw [hg2.name, hg1.name]
    exact hok c' hc' r (he ▸ hr)
  refine ⟨g, stmts', hne, htg, ⟨s2', hdef⟩, ?_, ?_⟩
  · intro env x d i hx
    rw [hdef, keyTrace_push, hkey2 x hx, hkey1 x hx]
    simp [Item.code, Code.trace, Code.trace_block]
  · intro s2 gd rst uc E hE h0 t
    rw [hdef] at gd
    have g1 : Good s2' s2 := hgp.trans gd
    obtain ⟨a, b⟩ := hgd s2 g1 rst uc E hE h0 t
    exact ⟨a, fun hr hst => ⟨b hr hst, hval s2 (hg2.trans g1) rst uc E hE h0 t hr hst⟩⟩

end FsmSt
end Hdl
