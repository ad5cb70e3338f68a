import Verif.Lemmas.SeqDelay

/-! Calls that do not mention a register leave everything about it unchanged. -/

namespace Hdl

/-- The call adds an assignment to `x` (or registers it for reset). -/
def SeqOp.mentions (x : Var) : SeqOp → Prop
  | .add stmts => ∃ c ∈ stmts, ∃ r ∈ c.targets, r.name = x
  | .addReset r => r.name = x
  | _ => False

namespace SeqSt

theorem Hidden.ne {s s' : SeqSt} (h : Hidden s s') {x : Var} (hx : x.genBy s.name = false) :
    Grows (fun r => r.name ≠ x) s s' :=
  h.grows.mono fun r hr he => by rw [he, hx] at hr; simp at hr

theorem addDelayed_grows {s : SeqSt} (hi : s.Inv) (stmts : List Code) (n : Nat) (hn : 0 < n)
    (cond : Option Expr) (lz eager : Bool) {x : Var} (hx : x.genBy s.name = false)
    (h : ∀ c ∈ stmts, ∀ r ∈ c.targets, r.name ≠ x) :
    Grows (fun r => r.name ≠ x) s (s.addDelayed stmts n cond lz eager) := by
  have key : ∀ s1 : SeqSt, Hidden s s1 → ∀ stmts' : List Code,
      stmts'.map Code.targets = stmts.map Code.targets → ∀ g : Expr,
      Grows (fun r => r.name ≠ x) s (s1.pushDelayed n (.ite g (Code.block stmts') .skip)) := by
    intro s1 hg stmts' hm g
    refine .tail (hg.ne hx) (.delayed n _ hn ?_)
    intro r hr
    simp only [Code.targets, Code.targets_block, List.append_nil, List.mem_flatMap] at hr
    obtain ⟨c, hc, hr⟩ := hr
    have : c.targets ∈ stmts.map Code.targets := hm ▸ List.mem_map_of_mem hc
    obtain ⟨c', hc', he⟩ := List.mem_map.1 this
    exact h c' hc' r (he ▸ hr)
  unfold SeqSt.addDelayed
  cases eager with
  | false =>
    cases lz with
    | false => exact key _ (.addDelayedCond hi _ n) stmts rfl _
    | true => exact key _ (.addDelayedCond hi _ n) stmts rfl _
  | true =>
    have h1 := Hidden.addDelayedSubsts hi stmts n
    have h2 := (Good.addDelayedSubsts hi stmts n).2
    cases lz with
    | false => exact key _ (h1.trans (.addDelayedCond h1.good.inv _ n)) _ h2 _
    | true => exact key _ (h1.trans (.addDelayedCond h1.good.inv _ n)) _ h2 _

theorem block_ne {x : Var} {stmts : List Code} (h : ∀ c ∈ stmts, ∀ r ∈ c.targets, r.name ≠ x) :
    ∀ r ∈ (Code.block stmts).targets, r.name ≠ x := by
  intro r hr
  simp only [Code.targets_block, List.mem_flatMap] at hr
  obtain ⟨c, hc, hr⟩ := hr
  exact h c hc r hr

theorem pushIf_grows {s : SeqSt} (c : Expr) (b : Code) {x : Var}
    (h : ∀ r ∈ b.targets, r.name ≠ x) :
    Grows (fun r => r.name ≠ x) s
      ({ s with lastIf := some s.body.length }.pushBody (.chain [(c, b)] none)) := by
  have hb : Grows (fun r => r.name ≠ x) s { s with lastIf := some s.body.length } :=
    .one (.book rfl rfl rfl rfl)
  refine .tail hb (.body _ ?_)
  intro r hr
  exact h r (by simpa [Item.code, chainCode, Code.targets] using hr)

theorem addStatement1_grows {s : SeqSt} (hi : s.Inv) (stmts : List Code) (d : Nat)
    (cond : Option Expr) (lz eager : Bool) {x : Var} (hx : x.genBy s.name = false)
    (h : ∀ c ∈ stmts, ∀ r ∈ c.targets, r.name ≠ x) :
    Grows (fun r => r.name ≠ x) s (s.addStatement1 stmts d cond lz eager) := by
  unfold SeqSt.addStatement1
  split
  · split
    · exact pushIf_grows _ _ (block_ne h)
    · clear hi hx
      induction stmts generalizing s with
      | nil => exact .refl _
      | cons c cs ih =>
        simp only [List.foldl_cons]
        have h1 : Grows (fun r => r.name ≠ x) s (s.pushBody (.plain c)) :=
          .one (.body (.plain c) (h c (by simp)))
        exact h1.trans (ih fun c' hc' => h c' (by simp [hc']))
  · exact addDelayed_grows hi stmts d (by omega) cond lz eager hx h

theorem addStatement_grows {s : SeqSt} (hi : s.Inv) (stmts : List Code) (kw : Kwargs) {x : Var}
    (hx : x.genBy s.name = false) (h : ∀ c ∈ stmts, ∀ r ∈ c.targets, r.name ≠ x)
    (ho : ∀ c ∈ stmts, ∀ r ∈ c.targets, r.name.genBy s.name = false) :
    Grows (fun r => r.name ≠ x) s (s.addStatement stmts kw) := by
  unfold SeqSt.addStatement
  simp only
  split
  · rename_i m hm
    generalize List.range m = l
    clear hm
    induction l generalizing s with
    | nil => exact .refl _
    | cons i l ih =>
      simp only [List.foldl_cons]
      have h0 := Good.addStatement1 hi stmts (kw.delay.getD 0 + i) kw.cond
        (kw.lazyCond.getD false) (kw.eagerVal.getD false) ho
      have h1 := addStatement1_grows hi stmts (kw.delay.getD 0 + i) kw.cond
        (kw.lazyCond.getD false) (kw.eagerVal.getD false) hx h
      refine h1.trans (ih h0.inv (by rw [h0.step.name]; exact hx) ?_)
      intro c hc r hr
      rw [h0.step.name]
      exact ho c hc r hr
  · exact addStatement1_grows hi stmts _ _ _ _ hx h

theorem add_grows {s s' : SeqSt} (hi : s.Inv) (stmts : List Code) {x : Var}
    (hx : x.genBy s.name = false) (h : ∀ c ∈ stmts, ∀ r ∈ c.targets, r.name ≠ x)
    (ho : ∀ c ∈ stmts, ∀ r ∈ c.targets, r.name.genBy s.name = false)
    (hs : s.add stmts = some s') : Grows (fun r => r.name ≠ x) s s' := by
  have g0 : Good s { s with lastDelay := s.next.delay, next := {} } :=
    .book hi rfl rfl rfl rfl (Or.inl rfl) (Nat.le_refl _) (Nat.le_refl _) fun _ => id
  have g0' : Grows (fun r => r.name ≠ x) s { s with lastDelay := s.next.delay, next := {} } :=
    .one (.book rfl rfl rfl rfl)
  have ho' : ∀ c ∈ stmts, ∀ r ∈ c.targets,
      r.name.genBy ({ s with lastDelay := s.next.delay, next := {} } : SeqSt).name = false := ho
  have hx' : x.genBy ({ s with lastDelay := s.next.delay, next := {} } : SeqSt).name = false := hx
  refine g0'.trans ?_
  have hs0 := g0.inv
  unfold SeqSt.add at hs
  clear g0'
  generalize hkw : s.next = kw at hs
  rw [hkw] at g0 hx' ho' hs0
  generalize ({ s with lastDelay := kw.delay, next := {} } : SeqSt) = s0 at *
  unfold SeqSt.addKw at hs
  split at hs
  · split at hs
    · rename_i c _ _ _ i hl
      simp only [Option.some.injEq] at hs
      subst hs
      exact .tail (.one (.elif i c _ (block_ne h))) (.book rfl rfl rfl rfl)
    · simp at hs
  · split at hs
    · split at hs
      · rename_i i hl
        simp only [Option.some.injEq] at hs
        subst hs
        exact .tail (.one (.els i _ (block_ne h))) (.book rfl rfl rfl rfl)
      · simp at hs
    · simp only [Option.some.injEq] at hs
      subst hs
      have g1 : Good s0 { s0 with lastIf := none, nextElse := false } :=
        .book hs0 rfl rfl rfl rfl (Or.inr rfl) (Nat.le_refl _) (Nat.le_refl _) fun _ => id
      have g1' : Grows (fun r => r.name ≠ x) s0 { s0 with lastIf := none, nextElse := false } :=
        .one (.book rfl rfl rfl rfl)
      exact g1'.trans (addStatement_grows g1.inv stmts _ hx' h ho')

theorem prevLoop_grows {s : SeqSt} (pfx : String) (var : Reg) (init : Int) (m i : Nat)
    (p : Reg) {x : Var} (hx : x.genBy s.name = false) :
    Grows (fun r => r.name ≠ x) s (prevLoop pfx var init m i p s).2 := by
  have hx' : ∀ i, (prevReg pfx var init i).name ≠ x := by
    rintro i rfl
    simp [prevReg, Var.genBy] at hx
  clear hx
  induction m generalizing s i p with
  | zero => exact .refl _
  | succ m ih =>
    unfold SeqSt.prevLoop
    split
    · exact ih _ _
    · have h1 : Grows (fun r => r.name ≠ x) s
        { s with prevDict := s.prevDict ++ [((pfx, i + 1), prevReg pfx var init (i + 1))] } :=
        .one (.book rfl rfl rfl rfl)
      refine Grows.trans (.tail h1 (.body (.plain (.subst (prevReg pfx var init (i + 1))
        (.var p.name))) ?_)) (ih _ _)
      intro r hr
      simp only [Item.code, Code.targets, List.mem_singleton] at hr
      subst hr
      exact hx' _

theorem prevCondLoop_grows {s : SeqSt} (var : Reg) (init : Int) (c : Expr) (m : Nat)
    (p : Reg) {x : Var} (hx : x.genBy s.name = false) :
    Grows (fun r => r.name ≠ x) s (prevCondLoop var init c m p s).2 := by
  have hx' : ∀ k, Var.tmp k ≠ x := by
    rintro i rfl
    simp [Var.genBy] at hx
  clear hx
  induction m generalizing s p with
  | zero => exact .refl _
  | succ m ih =>
    unfold SeqSt.prevCondLoop
    have h1 : Grows (fun r => r.name ≠ x) s { s with modTmp := s.modTmp + 1 } :=
      .one (.book rfl rfl rfl rfl)
    refine (h1.trans (pushIf_grows c _ ?_)).trans (ih _)
    intro r hr
    simp only [Code.block, Code.targets, List.append_nil, List.mem_singleton] at hr
    subst hr
    exact hx' _

theorem prev_grows {s : SeqSt} (pfx : String) (var : Reg) (n : Nat) (init : Int)
    (c : Option Expr) {x : Var} (hx : x.genBy s.name = false) :
    Grows (fun r => r.name ≠ x) s (s.prev pfx var n init c).2 := by
  unfold SeqSt.prev
  split
  · exact .refl _
  · split
    · exact .refl _
    · split
      · exact prevLoop_grows _ _ _ _ _ _ hx
      · exact prevCondLoop_grows _ _ _ _ _ hx

/-- Calls that do not mention `x` leave its assignments as they are. -/
theorem apply_grows {s s' : SeqSt} (hi : s.Inv) (op : SeqOp) (ho : op.Ok s.name) {x : Var}
    (hx : x.genBy s.name = false) (hm : ¬ op.mentions x) (hs : op.apply s = some s') :
    Grows (fun r => r.name ≠ x) s s' := by
  have hb : (∀ stmts, op ≠ .add stmts) → (∀ r, op ≠ .addReset r) →
      (∀ a b c d e, op ≠ .prev a b c d e) → Grows (fun r => r.name ≠ x) s s' := by
    intro h1 h2 h3
    have g := Good.apply hi op ho hs
    cases op with
    | add => exact absurd rfl (h1 _)
    | addReset => exact absurd rfl (h2 _)
    | prev => exact absurd rfl (h3 _ _ _ _ _)
    | iff cs =>
      simp only [SeqOp.apply, Option.some.injEq] at hs
      subst hs
      have := iff_fields s cs
      exact .one (.book this.1 this.2.1 this.2.2.1 this.2.2.2.1)
    | els =>
      simp only [SeqOp.apply, SeqSt.els] at hs
      split at hs
      · simp at hs
      · split at hs
        · simp only [Option.some.injEq] at hs
          subst hs
          have := thn_fields { s with elifCond := none, lastCond := negLast s.lastCond }
          exact .one (.book this.1 this.2.1 this.2.2.1 this.2.2.2.1)
        · split at hs
          · simp at hs
          · simp only [Option.some.injEq] at hs
            subst hs
            exact .one (.book rfl rfl rfl rfl)
    | elif c cs =>
      simp only [SeqOp.apply, SeqSt.elif] at hs
      split at hs
      · simp at hs
      · split at hs
        · simp only [Option.some.injEq] at hs
          subst hs
          have := thn_fields { s with lastCond := negLast s.lastCond ++ [cs.foldl Expr.and c] }
          exact .one (.book this.1 this.2.1 this.2.2.1 this.2.2.2.1)
        · split at hs
          · simp at hs
          · simp only [Option.some.injEq] at hs
            subst hs
            exact .one (.book rfl rfl rfl rfl)
    | thn =>
      simp only [SeqOp.apply, Option.some.injEq] at hs
      subst hs
      have := thn_fields s
      exact .one (.book this.1 this.2.1 this.2.2.1 this.2.2.2.1)
    | delay n | keep n | lazyCond n | eagerVal n | clear =>
      simp only [SeqOp.apply, Option.some.injEq] at hs
      subst hs
      exact .one (.book rfl rfl rfl rfl)
  cases op with
  | add stmts =>
    refine add_grows hi stmts hx ?_ ho hs
    intro c hc r hr he
    exact hm ⟨c, hc, r, hr, he⟩
  | prev pfx v n i c =>
    simp only [SeqOp.apply, Option.some.injEq] at hs
    subst hs
    exact prev_grows pfx v n i c hx
  | addReset r =>
    simp only [SeqOp.apply, Option.some.injEq] at hs
    subst hs
    exact .one (.reset r hm)
  | _ => exact hb (by simp) (by simp) (by simp)

theorem applyAll_grows {s s' : SeqSt} (hi : s.Inv) (ops : List SeqOp)
    (ho : ∀ op ∈ ops, op.Ok s.name) {x : Var} (hx : x.genBy s.name = false)
    (hm : ∀ op ∈ ops, ¬ op.mentions x) (hs : s.applyAll ops = some s') :
    Grows (fun r => r.name ≠ x) s s' := by
  induction ops generalizing s with
  | nil =>
    simp only [SeqSt.applyAll, Option.some.injEq] at hs
    subst hs
    exact .refl _
  | cons op ops ih =>
    simp only [SeqSt.applyAll, Option.bind_eq_some_iff] at hs
    obtain ⟨s1, h1, h2⟩ := hs
    have g := Good.apply hi op (ho op (by simp)) h1
    refine (apply_grows hi op (ho op (by simp)) hx (hm op (by simp)) h1).trans
      (ih g.inv (fun o hm' => ?_) ?_ (fun o ho' => hm o (by simp [ho'])) h2)
    · rw [g.step.name]; exact ho o (by simp [hm'])
    · rw [g.step.name]; exact hx

/-- `Reach name s`: some sequence of calls on a new manager `name` leads to `s`, and the user's
    statements do not assign registers the manager generated itself. -/
def Reach (name : String) (s : SeqSt) : Prop :=
  ∃ ops, (∀ op ∈ ops, op.Ok name) ∧ (SeqSt.fresh name).applyAll ops = some s

theorem Reach.good {name : String} {s : SeqSt} (h : Reach name s) :
    Good (SeqSt.fresh name) s := by
  obtain ⟨ops, ho, hs⟩ := h
  exact .applyAll (inv_fresh name) ops ho hs

theorem Reach.inv {name : String} {s : SeqSt} (h : Reach name s) : s.Inv := h.good.inv

theorem Reach.name_eq {name : String} {s : SeqSt} (h : Reach name s) : s.name = name :=
  h.good.step.name

theorem Reach.delayed_pos {name : String} {s : SeqSt} (h : Reach name s) :
    ∀ e ∈ s.delayed, 0 < e.1 :=
  h.good.step.grows.delayed_pos (by simp [SeqSt.fresh])

theorem Reach.append {name : String} {s s' : SeqSt} (h : Reach name s) (ops : List SeqOp)
    (ho : ∀ op ∈ ops, op.Ok name) (hs : s.applyAll ops = some s') : Reach name s' := by
  obtain ⟨pre, hp, h1⟩ := h
  refine ⟨pre ++ ops, ?_, applyAll_append _ _ _ _ _ h1 hs⟩
  intro op hop
  rcases List.mem_append.1 hop with h | h
  · exact hp op h
  · exact ho op h

end SeqSt
end Hdl
