import Verif.Lemmas.FsmInv

/-! What one clock edge does, register by register. -/

namespace Hdl
namespace FsmSt

theorem mem_at' {s : FsmSt} {d i : Nat} {c : Code} (h : c ∈ s.at' d i) :
    ∃ e ∈ s.code, e.1 = (d, i) ∧ e.2.code = c := by
  obtain ⟨e, he, h⟩ := List.mem_filterMap.1 h
  by_cases hk : e.1 = (d, i)
  · exact ⟨e, he, hk, by simpa [hk] using h⟩
  · simp [hk] at h

theorem keyTrace_nil {s : FsmSt} (hc : s.Covered) {x : Var} (hx : x ∉ s.dstNames) (d i : Nat)
    (env : Env) : s.keyTrace d i env x = [] := by
  refine traceL_eq_nil fun c hm r hr he => ?_
  obtain ⟨e, he', -, rfl⟩ := mem_at' hm
  exact hx (he ▸ hc e he' r hr)

theorem active_nil {s : FsmSt} (hc : s.Covered) {x : Var} (hx : x ∉ s.dstNames) (d : Nat)
    (env : Env) : s.active d env x = [] := by
  unfold active
  split
  · exact keyTrace_nil hc hx _ _ _
  · rfl

theorem seg_nil {s : FsmSt} (hc : s.Covered) {x : Var} (hx : x ∉ s.dstNames) (lo cnt : Nat)
    (env : Env) : s.seg env x lo cnt = [] := by
  induction cnt with
  | zero => rfl
  | succ c ih => rw [seg, ih, active_nil hc hx]; rfl

theorem seg_congr {s s' : FsmSt} {env : Env} {x : Var} {lo : Nat} (cnt : Nat)
    (h : ∀ d, lo ≤ d → d < lo + cnt → s'.active d env x = s.active d env x) :
    s'.seg env x lo cnt = s.seg env x lo cnt := by
  induction cnt with
  | zero => rfl
  | succ c ih =>
    rw [seg, seg, h (lo + c) (by omega) (by omega), ih fun d h1 h2 => h d h1 (by omega)]

/-- Beyond the largest delay there is nothing. -/
theorem active_beyond {s : FsmSt} (hb : s.Bound) (d : Nat) (hd : s.delayAmount < d) (env : Env)
    (x : Var) : s.active d env x = [] := by
  unfold active
  split
  · refine traceL_eq_nil fun c hm => ?_
    obtain ⟨e, he, hk, -⟩ := mem_at' hm
    have := hb e he
    rw [hk] at this
    simp only at this
    omega
  · rfl

theorem seg_add (s : FsmSt) (env : Env) (x : Var) (lo a b : Nat) :
    s.seg env x lo (a + b) = s.seg env x (lo + a) b ++ s.seg env x lo a := by
  induction b with
  | zero => simp [seg]
  | succ b ih =>
    show s.active (lo + (a + b)) env x ++ s.seg env x lo (a + b) = _
    rw [ih, seg, List.append_assoc, Nat.add_assoc]

theorem seg_ge {s : FsmSt} (hb : s.Bound) (env : Env) (x : Var) (N : Nat)
    (hN : s.delayAmount + 1 ≤ N) :
    s.seg env x 0 N = s.seg env x 0 (s.delayAmount + 1) := by
  obtain ⟨k, rfl⟩ : ∃ k, N = (s.delayAmount + 1) + k := ⟨N - (s.delayAmount + 1), by omega⟩
  rw [seg_add]
  have : s.seg env x (0 + (s.delayAmount + 1)) k = [] := by
    generalize hlo : 0 + (s.delayAmount + 1) = lo
    clear hN
    induction k with
    | zero => rfl
    | succ k ih => rw [seg, ih, active_beyond hb _ (by omega)]; rfl
  rw [this, List.nil_append]

theorem state_not_dst {s : FsmSt} (hi : s.Inv) {x : Var} (h : x.ownGen s.name = true)
    (h1 : ∀ k i, x ≠ .cond s.name k i) (h2 : ∀ k i, x ≠ .sbst s.name k i) : x ∉ s.dstNames := by
  intro hm
  rcases hi.gen x hm with hg | ⟨k, i, -, hg | hg⟩
  · simp [Var.fgenBy, h] at hg
  · exact h1 k i hg
  · exact h2 k i hg

theorem stateReg_not_dst {s : FsmSt} (hi : s.Inv) : s.stateReg.name ∉ s.dstNames :=
  state_not_dst hi (by simp [stateReg, Var.ownGen]) (by simp [stateReg]) (by simp [stateReg])

theorem dstateReg_not_dst {s : FsmSt} (hi : s.Inv) (d : Nat) : (s.dstateReg d).name ∉ s.dstNames := by
  cases d with
  | zero => exact stateReg_not_dst hi
  | succ d =>
    exact state_not_dst hi (by simp [dstateReg, Var.ownGen]) (by simp [dstateReg])
      (by simp [dstateReg])

theorem seq_trace_nil {s : FsmSt} (hi : s.Inv) {x : Var} (h : x.ownGen s.name = true) (env : Env) :
    traceL s.seq.makeCode env x = [] := by
  refine SeqSt.trace_fresh hi.seqInv.covered (fun hm => ?_) env
  rw [hi.seqNames x hm] at h
  simp at h

theorem delayedSubsts_nil (s : FsmSt) {x : Var} (h : ∀ d, x ≠ (s.dstateReg (d + 1)).name)
    (env : Env) : traceL s.delayedSubsts env x = [] := by
  refine traceL_eq_nil fun c hc r hr he => ?_
  obtain ⟨d, -, rfl⟩ := List.mem_map.1 hc
  simp only [Code.targets, List.mem_singleton] at hr
  subst hr
  exact h d he.symm

theorem delayedSubsts_trace (s : FsmSt) (d : Nat) (hd : d < s.delayAmount) (env : Env) :
    traceL s.delayedSubsts env (s.dstateReg (d + 1)).name =
      [(s.dstateReg (d + 1)).wrap (env (s.dstateReg d).name)] := by
  unfold delayedSubsts
  generalize s.delayAmount = n at hd
  induction n with
  | zero => omega
  | succ n ih =>
    rw [List.range_succ, List.map_append, traceL_append]
    by_cases h : d = n
    · subst h
      have : traceL ((List.range d).map fun d => Code.subst (s.dstateReg (d + 1))
          (.var (s.dstateReg d).name)) env (s.dstateReg (d + 1)).name = [] := by
        refine traceL_eq_nil fun c hc r hr he => ?_
        obtain ⟨e, he', rfl⟩ := List.mem_map.1 hc
        simp only [Code.targets, List.mem_singleton] at hr
        subst hr
        simp only [dstateReg, Var.dstate.injEq, Nat.add_right_cancel_iff, true_and] at he
        rw [List.mem_range] at he'
        omega
      rw [this]
      simp [traceL_cons, Code.trace, Expr.var, Expr.eval]
    · rw [ih (by omega)]
      have : (s.dstateReg (n + 1)).name ≠ (s.dstateReg (d + 1)).name := by
        simp only [dstateReg, ne_eq, Var.dstate.injEq, Nat.add_right_cancel_iff, true_and]
        exact fun h' => h h'.symm
      simp [traceL_cons, Code.trace, this]

theorem jumpCode_targets (st : Reg) (j : Jump) : ∀ r ∈ (jumpCode st j).targets, r = st := by
  intro r hr
  unfold jumpCode at hr
  split at hr
  · simpa [Code.targets] using hr
  · split at hr <;> simpa [Code.targets] using hr

theorem jumpTrace_nil (s : FsmSt) {x : Var} (h : x ≠ s.stateReg.name) (env : Env) :
    s.jumpTrace env x = [] := by
  unfold jumpTrace
  split
  · refine traceL_eq_nil fun c hc r hr he => ?_
    obtain ⟨⟨i, j⟩, -, hj⟩ := List.mem_filterMap.1 hc
    by_cases hi : i = (env s.stateReg.name).toNat
    · simp only [hi, if_true, Option.some.injEq] at hj
      subst hj
      rw [jumpCode_targets _ _ r hr] at he
      exact h he.symm
    · simp [hi] at hj
  · rfl

/-- Only jumps assign the state register. -/
theorem state_trace {s : FsmSt} (hi : s.Inv) (env : Env) :
    traceL s.makeCase env s.stateReg.name = s.jumpTrace env s.stateReg.name := by
  rw [makeCase_trace, seq_trace_nil hi (by simp [stateReg, Var.ownGen]), delayedSubsts_nil _ (by
    intro d; simp [stateReg, dstateReg]), seg_nil hi.covered (stateReg_not_dst hi)]
  rfl

/-- The delayed state registers shift. -/
theorem dstate_trace {s : FsmSt} (hi : s.Inv) (d : Nat) (hd : d < s.delayAmount) (env : Env) :
    traceL s.makeCase env (s.dstateReg (d + 1)).name =
      [(s.dstateReg (d + 1)).wrap (env (s.dstateReg d).name)] := by
  rw [makeCase_trace, seq_trace_nil hi (by simp [dstateReg, Var.ownGen]),
    delayedSubsts_trace s d hd, seg_nil hi.covered (dstateReg_not_dst hi (d + 1)),
    jumpTrace_nil s (by simp [stateReg, dstateReg])]
  simp

theorem tick_eq (s : FsmSt) (rst : Expr) (uc : Bool) (env : Env) (hr : rst.truthy env = false)
    (x : Var) : (s.always rst uc).tick env x =
      ((traceL s.makeCase env x).getLast?).getD (env x) := by
  rw [Code.tick, Code.exec_eq_trace, always_trace, if_neg (by simp [hr])]

/-- The state after an edge is decided by the jumps alone. -/
theorem tick_state {s : FsmSt} (hi : s.Inv) (rst : Expr) (uc : Bool) (env : Env)
    (hr : rst.truthy env = false) : (s.always rst uc).tick env s.stateReg.name =
      ((s.jumpTrace env s.stateReg.name).getLast?).getD (env s.stateReg.name) := by
  rw [tick_eq s rst uc env hr, state_trace hi]

theorem jumpTrace_congr {s s' : FsmSt} (hn : s'.name = s.name) (hw : s'.width = s.width)
    (hj : s'.jumps = s.jumps) (env : Env) (x : Var) : s'.jumpTrace env x = s.jumpTrace env x := by
  have : s'.stateReg = s.stateReg := by simp [stateReg, hn, hw]
  simp [jumpTrace, jumpsAt, this, hj]

theorem keyTrace_congr {s s' : FsmSt} (h : s'.code = s.code) (d i : Nat) (env : Env) (x : Var) :
    s'.keyTrace d i env x = s.keyTrace d i env x := by
  simp [keyTrace, at', h]

theorem dstateReg_congr {s s' : FsmSt} (hn : s'.name = s.name) (hw : s'.width = s.width) (d : Nat) :
    s'.dstateReg d = s.dstateReg d := by
  cases d <;> simp [dstateReg, stateReg, hn, hw]

theorem active_congr {s s' : FsmSt} (hn : s'.name = s.name) (hw : s'.width = s.width)
    {env : Env} {x : Var} (d : Nat)
    (h : ∀ i, s'.keyTrace d i env x = s.keyTrace d i env x) :
    s'.active d env x = s.active d env x := by
  unfold active
  rw [dstateReg_congr hn hw, h]

/-- Appending a jump. -/
theorem jumpTrace_snoc (s s' : FsmSt) (hn : s'.name = s.name) (hw : s'.width = s.width) (i : Nat)
    (j : Jump) (hj : s'.jumps = s.jumps ++ [(i, j)]) (env : Env) (x : Var) :
    s'.jumpTrace env x = s.jumpTrace env x ++
      if env s.stateReg.name = (i : Int) then (jumpCode s.stateReg j).trace env x else [] := by
  have hst : s'.stateReg = s.stateReg := by simp [stateReg, hn, hw]
  unfold jumpTrace jumpsAt
  rw [hst, hj]
  by_cases h0 : 0 ≤ env s.stateReg.name
  · rw [if_pos h0, if_pos h0, List.filterMap_append, traceL_append]
    congr 1
    by_cases h : env s.stateReg.name = (i : Int)
    · simp [h, traceL_cons]
    · have : ¬ i = (env s.stateReg.name).toNat := by omega
      simp [h, this]
  · rw [if_neg h0, if_neg h0, if_neg (by omega)]
    rfl

end FsmSt
end Hdl
