import Verif.Model.Hdl

/-! Helper lemmas about the register-transfer core. -/

namespace Hdl

theorem Code.exec_eq_trace (c : Code) (env acc : Env) (x : Var) :
    c.exec env acc x = ((c.trace env x).getLast?).getD (acc x) := by
  induction c generalizing acc with
  | skip => simp [Code.exec, Code.trace]
  | seq a b iha ihb =>
    simp only [Code.exec, Code.trace]
    rw [ihb, iha, List.getLast?_append]
    cases (b.trace env x).getLast? <;> simp
  | subst r e =>
    by_cases h : r.name = x
    · subst h; simp [Code.exec, Code.trace]
    · simp [Code.exec, Code.trace, h, Function.update_of_ne (Ne.symm h)]
  | ite c t e iht ihe =>
    simp only [Code.exec, Code.trace]
    split <;> simp [*]

theorem Code.trace_block (l : List Code) (env : Env) (x : Var) :
    (Code.block l).trace env x = traceL l env x := by
  induction l with
  | nil => simp [Code.block, Code.trace, traceL]
  | cons c l ih => simp [Code.block, Code.trace, traceL, ih, List.flatMap_cons]

theorem Code.targets_block (l : List Code) :
    (Code.block l).targets = l.flatMap Code.targets := by
  induction l with
  | nil => simp [Code.block, Code.targets]
  | cons c l ih => simp [Code.block, Code.targets, ih]

theorem Code.trace_nil {c : Code} {env : Env} {x : Var}
    (h : ∀ r ∈ c.targets, r.name ≠ x) : c.trace env x = [] := by
  induction c with
  | skip => simp [Code.trace]
  | seq a b iha ihb =>
    simp only [Code.trace, Code.targets, List.mem_append] at *
    simp [iha fun r hr => h r (Or.inl hr), ihb fun r hr => h r (Or.inr hr)]
  | subst r e =>
    have : r.name ≠ x := h r (by simp [Code.targets])
    simp [Code.trace, this]
  | ite c t e iht ihe =>
    simp only [Code.trace, Code.targets, List.mem_append] at *
    simp [iht fun r hr => h r (Or.inl hr), ihe fun r hr => h r (Or.inr hr)]

theorem traceL_append (a b : List Code) (env : Env) (x : Var) :
    traceL (a ++ b) env x = traceL a env x ++ traceL b env x := by
  simp [traceL]

theorem traceL_cons (a : Code) (b : List Code) (env : Env) (x : Var) :
    traceL (a :: b) env x = a.trace env x ++ traceL b env x := by
  simp [traceL]

@[simp] theorem traceL_nil (env : Env) (x : Var) : traceL [] env x = [] := rfl

theorem traceL_eq_nil {l : List Code} {env : Env} {x : Var}
    (h : ∀ c ∈ l, ∀ r ∈ c.targets, r.name ≠ x) : traceL l env x = [] := by
  induction l with
  | nil => rfl
  | cons c l ih =>
    rw [traceL_cons, Code.trace_nil (h c (by simp)), ih fun c hc => h c (by simp [hc])]
    rfl

theorem chainCode_targets (bs : List (Expr × Code)) (els : Option Code) :
    (chainCode bs els).targets = bs.flatMap (fun b => b.2.targets) ++
      (els.map Code.targets).getD [] := by
  induction bs with
  | nil => cases els <;> simp [chainCode, Code.targets]
  | cons b bs ih => obtain ⟨c, s⟩ := b; simp [chainCode, Code.targets, ih]

/-- An if/elif/else chain acts as its first branch whose condition holds. -/
theorem chainCode_trace (bs : List (Expr × Code)) (els : Option Code) (env : Env) (x : Var) :
    (chainCode bs els).trace env x =
      match bs.find? (fun b => b.1.truthy env) with
      | some b => b.2.trace env x
      | none => ((els.map fun e => e.trace env x).getD []) := by
  induction bs with
  | nil => cases els <;> simp [chainCode, Code.trace]
  | cons b bs ih =>
    obtain ⟨c, s⟩ := b
    by_cases h : c.truthy env = true
    · simp [chainCode, Code.trace, h]
    · simp [chainCode, Code.trace, h, ih]

theorem Reg.wrap_wrap (r : Reg) (v : Int) : r.wrap (r.wrap v) = r.wrap v := by
  unfold Reg.wrap
  split
  · simp
  · simp

theorem Expr.truthy_and (a b : Expr) (env : Env) :
    (a.and b).truthy env = (a.truthy env && b.truthy env) := by
  simp only [Expr.and]
  rw [Expr.truthy.eq_1 (Expr.fn _)]
  simp only [Expr.eval]
  cases a.truthy env && b.truthy env <;> simp

theorem Expr.truthy_not (a : Expr) (env : Env) : (a.not).truthy env = !a.truthy env := by
  simp only [Expr.not]
  rw [Expr.truthy.eq_1 (Expr.fn _)]
  simp only [Expr.eval]
  cases a.truthy env <;> simp

end Hdl
