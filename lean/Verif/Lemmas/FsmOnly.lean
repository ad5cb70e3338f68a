import Verif.Lemmas.FsmDelay

/-! Calls that do not mention a register do not change the code that assigns it. -/

namespace Hdl

/-- The call contains an assignment to `x`. -/
def FsmOp.mentions (x : Var) : FsmOp → Prop
  | .add stmts => ∃ c ∈ stmts, ∃ r ∈ c.targets, r.name = x
  | .par op => op.mentions x
  | _ => False

namespace FsmSt

/-- The statements that assign `x`, per state and delay and of the parallel `Seq`, are the same. -/
structure Same (x : Var) (s s' : FsmSt) : Prop where
  key : ∀ d i env, s'.keyTrace d i env x = s.keyTrace d i env x
  seq : ∀ env, traceL s'.seq.makeCode env x = traceL s.seq.makeCode env x

theorem Same.refl (x : Var) (s : FsmSt) : Same x s s := ⟨fun _ _ _ => rfl, fun _ => rfl⟩

theorem Same.trans {x : Var} {a b c : FsmSt} (h : Same x a b) (k : Same x b c) : Same x a c :=
  ⟨fun d i env => (k.key d i env).trans (h.key d i env), fun env => (k.seq env).trans (h.seq env)⟩

theorem Same.of_step {x : Var} {s s' : FsmSt} (h : Step (fun r => r.name ≠ x) s s') : Same x s s' :=
  ⟨fun d i env => h.key x (fun _ hr => hr) d i env, fun env => by rw [h.seq]⟩

section

variable {x : Var} {stmts : List Code}

theorem block_ne (h : ∀ c ∈ stmts, ∀ r ∈ c.targets, r.name ≠ x) :
    ∀ r ∈ (Code.block stmts).targets, r.name ≠ x := by
  intro r hr
  rw [Code.targets_block, List.mem_flatMap] at hr
  obtain ⟨c, hc, hr⟩ := hr
  exact h c hc r hr

theorem addDelayed_ne (s : FsmSt) (index n : Nat) (cond : Option Expr) (lz eager : Bool)
    (hx : x.fgenBy s.name = false) (h : ∀ c ∈ stmts, ∀ r ∈ c.targets, r.name ≠ x) :
    Step (fun r => r.name ≠ x) s (s.addDelayed stmts index n cond lz eager) := by
  have key : ∀ s1 : FsmSt, Step (fun r => r.name ≠ x) s s1 → ∀ stmts' : List Code,
      stmts'.map Code.targets = stmts.map Code.targets → ∀ g : Expr,
      Step (fun r => r.name ≠ x) s (s1.push n index (.plain (.ite g (Code.block stmts') .skip))) := by
    intro s1 hg stmts' hm g
    refine hg.trans (.push s1 n index _ ?_)
    intro r hr
    simp only [Item.code, Code.targets, Code.targets_block, List.append_nil, List.mem_flatMap] at hr
    obtain ⟨c, hc, hr⟩ := hr
    have : c.targets ∈ stmts.map Code.targets := hm ▸ List.mem_map_of_mem hc
    obtain ⟨c', hc', he⟩ := List.mem_map.1 this
    exact h c' hc' r (he ▸ hr)
  have hts : ∀ (l : List Code) (s : FsmSt), (s.addDelayedSubsts l n).1.map Code.targets =
      l.map Code.targets := by
    intro l
    induction l with
    | nil => intro s; rfl
    | cons c l ih =>
      intro s
      show (s.addDelayedSubst c n).1.targets :: _ = _
      rw [addDelayedSubst_targets]
      exact congrArg (c.targets :: ·) (ih _)
  rw [addDelayed_eq]
  cases eager with
  | false =>
    cases lz with
    | false => exact key _ (addDelayedCond_ne s _ n hx) stmts rfl _
    | true => exact key _ (addDelayedCond_ne s _ n hx) stmts rfl _
  | true =>
    have h1 := addDelayedSubsts_ne stmts n s hx
    have hx1 : x.fgenBy (s.addDelayedSubsts stmts n).2.name = false := by rw [h1.name]; exact hx
    cases lz with
    | false => exact key _ (h1.trans (addDelayedCond_ne _ _ n hx1)) _ (hts _ _) _
    | true => exact key _ (h1.trans (addDelayedCond_ne _ _ n hx1)) _ (hts _ _) _

theorem addDelayed_seq (s : FsmSt) (stmts : List Code) (index n : Nat) (cond : Option Expr)
    (lz eager : Bool) : (s.addDelayed stmts index n cond lz eager).seq = s.seq := by
  rw [addDelayed_eq]
  have h1 : (s.addDelayedSubsts stmts n).2.seq = s.seq :=
    (addDelayedSubsts_step (ok := fun _ => True) stmts n s fun _ _ _ => trivial).seq
  have h2 : ∀ (t : FsmSt) c, (t.addDelayedCond c n).2.seq = t.seq := fun t c =>
    (addDelayedCond_step (ok := fun _ => True) t c n fun _ => trivial).seq
  cases eager <;> cases lz <;> simp [(push_fields _ _ _ _).2.2.1, h1, h2]

theorem addStatement1_ne (s : FsmSt) (index d : Nat) (cond : Option Expr) (lz eager : Bool)
    (hx : x.fgenBy s.name = false) (h : ∀ c ∈ stmts, ∀ r ∈ c.targets, r.name ≠ x) :
    Step (fun r => r.name ≠ x) s (s.addStatement1 stmts index d cond lz eager) := by
  unfold addStatement1
  split
  · split
    · exact .pushIf s index _ _ (block_ne h)
    · clear hx
      induction stmts generalizing s with
      | nil => exact .refl _ _
      | cons c cs ih =>
        simp only [List.foldl_cons]
        exact Step.trans (.push s 0 index (.plain c) (h c (by simp)))
          (ih _ fun c' hc' => h c' (by simp [hc']))
  · exact addDelayed_ne s index d cond lz eager hx h

theorem addStatement_ne (s : FsmSt) (kw : FKwargs)
    (hx : x.fgenBy s.name = false) (h : ∀ c ∈ stmts, ∀ r ∈ c.targets, r.name ≠ x) :
    Step (fun r => r.name ≠ x) s (s.addStatement stmts kw) := by
  unfold addStatement
  simp only
  split
  · rename_i m hm
    generalize List.range m = l
    generalize kw.index.getD s.cur = index
    clear hm
    induction l generalizing s with
    | nil => exact .refl _ _
    | cons i l ih =>
      simp only [List.foldl_cons]
      have h1 := addStatement1_ne (stmts := stmts) s index (kw.delay.getD 0 + i) kw.cond
        (kw.lazyCond.getD false) (kw.eagerVal.getD false) hx h
      exact h1.trans (ih _ (by rw [h1.name]; exact hx))
  · exact addStatement1_ne s _ _ _ _ _ hx h

theorem addKw_ne {s s' : FsmSt} (kw : FKwargs) (hx : x.fgenBy s.name = false)
    (h : ∀ c ∈ stmts, ∀ r ∈ c.targets, r.name ≠ x) (hs : s.addKw kw stmts = some s') :
    Step (fun r => r.name ≠ x) s s' := by
  unfold FsmSt.addKw at hs
  split at hs
  · split at hs
    · rename_i c _ _ _ i hl
      simp only [Option.some.injEq] at hs
      subst hs
      exact Step.trans (.elif s i c _ (block_ne h) hl)
        (.book rfl rfl rfl rfl rfl rfl (Nat.le_refl _) (Or.inl rfl))
    · simp at hs
  · split at hs
    · split at hs
      · rename_i i hl
        simp only [Option.some.injEq] at hs
        subst hs
        exact Step.trans (.els s i _ (block_ne h))
          (.book rfl rfl rfl rfl rfl rfl (Nat.le_refl _) (Or.inl rfl))
      · simp at hs
    · simp only [Option.some.injEq] at hs
      subst hs
      have g1 : Step (fun r => r.name ≠ x) s { s with lastIf := none, nextElse := false } :=
        .book rfl rfl rfl rfl rfl rfl (Nat.le_refl _) (Or.inr rfl)
      exact g1.trans (addStatement_ne _ _ hx h)

end

theorem apply_same {s s' : FsmSt} (hi : s.Inv) (op : FsmOp) (ho : op.Ok s.name) {x : Var}
    (hx : x.fgenBy s.name = false) (hm : ¬ op.mentions x) (hs : op.apply s = some s') :
    Same x s s' := by
  by_cases h1 : ∃ stmts, op = .add stmts
  · obtain ⟨stmts, rfl⟩ := h1
    have g0 : Step (fun r => r.name ≠ x) s { s with lastDelay := s.next.delay, next := {} } :=
      .book rfl rfl rfl rfl rfl rfl (Nat.le_refl _) (Or.inl rfl)
    refine .of_step (g0.trans (addKw_ne (s := { s with lastDelay := s.next.delay, next := {} })
      s.next hx ?_ hs))
    intro c hc r hr he
    exact hm ⟨c, hc, r, hr, he⟩
  · by_cases h2 : ∃ o, op = .par o
    · obtain ⟨o, rfl⟩ := h2
      simp only [FsmOp.apply, Option.map_eq_some_iff] at hs
      obtain ⟨q, hq, rfl⟩ := hs
      obtain ⟨ho1, ho2⟩ := ho
      rw [← hi.seqName] at ho1
      have hx' : x.genBy s.seq.name = false := by
        rw [hi.seqName]
        simp only [Var.fgenBy, Bool.or_eq_false_iff] at hx
        exact hx.2
      have hgr := SeqSt.apply_grows hi.seqInv o ho1 hx' hm hq
      exact ⟨fun _ _ _ => rfl, fun env => hgr.trace (fun r hr => hr) env⟩
    · obtain ⟨a1, a2, a3, a4, a5, a6, a7, a8⟩ := apply_book op (fun st h => h1 ⟨st, h⟩)
        (fun o h => h2 ⟨o, h⟩) hs
      exact .of_step (.book a1 a2 a3 a4 a5 a6 (by omega) a8)

theorem applyAll_same {s s' : FsmSt} (hi : s.Inv) (ops : List FsmOp)
    (ho : ∀ op ∈ ops, op.Ok s.name) {x : Var} (hx : x.fgenBy s.name = false)
    (hm : ∀ op ∈ ops, ¬ op.mentions x) (hs : s.applyAll ops = some s') : Same x s s' := by
  induction ops generalizing s with
  | nil =>
    simp only [FsmSt.applyAll, Option.some.injEq] at hs
    subst hs
    exact .refl _ _
  | cons op ops ih =>
    simp only [FsmSt.applyAll, Option.bind_eq_some_iff] at hs
    obtain ⟨s1, h1, h2⟩ := hs
    have g := Good.apply hi op (ho op (by simp)) h1
    refine (apply_same hi op (ho op (by simp)) hx (hm op (by simp)) h1).trans
      (ih g.inv (fun o hm => ?_) (by rw [g.name]; exact hx) (fun o h => hm o (by simp [h])) h2)
    rw [g.name]
    exact ho o (by simp [hm])

end FsmSt
end Hdl
