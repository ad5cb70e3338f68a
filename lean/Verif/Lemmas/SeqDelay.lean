import Verif.Props.C11_SeqIf

/-! What adding a statement, delayed or not, does to the generated block. -/

namespace Hdl
namespace SeqSt

/-- Values assigned to `x` by the statements of delay `d` (0: undelayed), in execution order. -/
def cls (s : SeqSt) (d : Nat) (env : Env) (x : Var) : List Int :=
  if d = 0 then s.bodyTrace env x else traceL (s.delayedAt d) env x

theorem Prim.delayed_pos {ok} {s s' : SeqSt} (p : Prim ok s s')
    (h : ∀ e ∈ s.delayed, 0 < e.1) : ∀ e ∈ s'.delayed, 0 < e.1 := by
  cases p with
  | book hn hd hb hv => rw [hd]; exact h
  | body it _ => simpa [pushBody] using h
  | delayed d c hd _ =>
    intro e he
    have he : e ∈ s.delayed ++ [(d, c)] := by simpa [pushDelayed] using he
    rcases List.mem_append.1 he with he | he
    · exact h e he
    · rw [List.mem_singleton] at he; subst he; exact hd
  | elif i c b _ => simpa [extendElif] using h
  | els i b _ => simpa [extendElse] using h
  | reset r _ => simpa [addReset] using h

theorem Grows.delayed_pos {ok} {s s' : SeqSt} (g : Grows ok s s')
    (h : ∀ e ∈ s.delayed, 0 < e.1) : ∀ e ∈ s'.delayed, 0 < e.1 := by
  induction g with
  | refl => exact h
  | tail _ p ih => exact p.delayed_pos ih

theorem Prim.delayedAt_trace {ok} {s s' : SeqSt} (p : Prim ok s s') {x : Var}
    (hx : ∀ r, ok r → r.name ≠ x) (env : Env) (d : Nat) :
    traceL (s'.delayedAt d) env x = traceL (s.delayedAt d) env x := by
  cases p with
  | book hn hd hb hv => rw [delayedAt_congr hd]
  | body it _ => rw [delayedAt_congr (s := s) (by simp [pushBody])]
  | delayed e c hd h =>
    rw [delayedAt_push, traceL_append]
    split
    · rw [traceL_cons, Code.trace_nil fun r hr => hx r (h r hr)]; simp
    · simp
  | elif i c b _ => rw [delayedAt_congr (s := s) (by simp [extendElif])]
  | els i b _ => rw [delayedAt_congr (s := s) (by simp [extendElse])]
  | reset r _ => rw [delayedAt_congr (s := s) (by simp [addReset])]

theorem Grows.delayedAt_trace {ok} {s s' : SeqSt} (g : Grows ok s s') {x : Var}
    (hx : ∀ r, ok r → r.name ≠ x) (env : Env) (d : Nat) :
    traceL (s'.delayedAt d) env x = traceL (s.delayedAt d) env x := by
  induction g with
  | refl => rfl
  | tail _ p ih => rw [p.delayedAt_trace hx, ih]

theorem Grows.bodyTrace {ok} {s s' : SeqSt} (g : Grows ok s s') {x : Var}
    (hx : ∀ r, ok r → r.name ≠ x) (env : Env) : s'.bodyTrace env x = s.bodyTrace env x := by
  have h := g.trace hx env
  have hN := trace_makeCode s env x (max s.maxDelay s'.maxDelay + 1) (by omega)
  have hN' := trace_makeCode s' env x (max s.maxDelay s'.maxDelay + 1) (by omega)
  rw [hN, hN', seg_congr (s' := s) _ fun d _ _ => g.delayedAt_trace hx env d] at h
  exact List.append_cancel_left h

theorem Grows.cls {ok} {s s' : SeqSt} (g : Grows ok s s') {x : Var}
    (hx : ∀ r, ok r → r.name ≠ x) (env : Env) (d : Nat) : s'.cls d env x = s.cls d env x := by
  unfold SeqSt.cls
  split
  · exact g.bodyTrace hx env
  · exact g.delayedAt_trace hx env d

/-- Changes that only concern generated registers. -/
structure Hidden (s s' : SeqSt) : Prop where
  good : Good s s'
  grows : Grows (fun r => r.name.genBy s.name = true) s s'

theorem Hidden.trans {a b c : SeqSt} (h : Hidden a b) (k : Hidden b c) : Hidden a c :=
  ⟨h.good.trans k.good, h.grows.trans (k.grows.mono fun r hr => by rw [← h.grows.name]; exact hr)⟩

theorem Hidden.refl {s : SeqSt} (h : s.Inv) : Hidden s s := ⟨.refl h, .refl _⟩

theorem Hidden.addDelayedCond {s : SeqSt} (hi : s.Inv) (c : Expr) (n : Nat) :
    Hidden s (s.addDelayedCond c n).2 := by
  refine ⟨.addDelayedCond hi c n, ?_⟩
  have h1 : Grows (fun r => r.name.genBy s.name = true) s
    { s with tmpCount := s.tmpCount + 1 } := .one (.book rfl rfl rfl rfl)
  refine h1.trans ?_
  refine (pipeLoop_step (condReg s.name s.tmpCount) n 0 c _ fun j _ _ => ?_).grows
  simp [condReg, Var.genBy]

theorem Hidden.addDelayedSubst {s : SeqSt} (hi : s.Inv) (c : Code) (n : Nat) :
    Hidden s (s.addDelayedSubst c n).2 := by
  refine ⟨.addDelayedSubst hi c n, ?_⟩
  unfold SeqSt.addDelayedSubst
  split
  · rename_i left f
    have h1 : Grows (fun r => r.name.genBy s.name = true) s
      { s with tmpCount := s.tmpCount + 1 } := .one (.book rfl rfl rfl rfl)
    refine h1.trans ?_
    refine (pipeLoop_step (sbstReg s.name left s.tmpCount) n 0 (.fn f) _ fun j _ _ => ?_).grows
    simp [sbstReg, Var.genBy]
  · exact .refl _

theorem Hidden.addDelayedSubsts {s : SeqSt} (hi : s.Inv) (cs : List Code) (n : Nat) :
    Hidden s (s.addDelayedSubsts cs n).2 := by
  induction cs generalizing s with
  | nil => exact .refl hi
  | cons c cs ih =>
    have h1 := Hidden.addDelayedSubst hi c n
    exact h1.trans (ih h1.good.inv)

/-- The condition pipeline: in every later design, the guard at edge `t + n` is the low bit of the
    condition at edge `t`, unless a reset came in between. -/
theorem addDelayedCond_meaning {s : SeqSt} (hi : s.Inv) (c : Expr) (n : Nat) (hn : 0 < n)
    {s2 : SeqSt} (g : Good (s.addDelayedCond c n).2 s2) {rst : Option Expr} {E : Nat → Env}
    (hE : Run (s2.always rst) E) (t : Nat) :
    (s.addDelayedCond c n).1.eval (E (t + n)) =
      if resetIn rst E t n = true then 0 else c.eval (E t) % 2 := by
  have hp := pipeLoop_pipes (condReg s.name s.tmpCount) c n 0 { s with tmpCount := s.tmpCount + 1 }
    (Good.bump hi).inv.covered (by intro a b h; simpa [condReg] using h)
    (fun j _ => cond_fresh hi j)
  have he : (s.addDelayedCond c n) = pipeLoop (condReg s.name s.tmpCount) n 0
    (stage (condReg s.name s.tmpCount) c 0) { s with tmpCount := s.tmpCount + 1 } := rfl
  rw [← he] at hp
  have hname : (s.addDelayedCond c n).2.name = s.name := (Good.addDelayedCond hi c n).step.name
  have hr := pipe_run g.inv hE (condReg s.name s.tmpCount) c 0
    (fun a => a % 2) (by intro j; funext a; simp [Reg.wrap, condReg])
    (by intro a; simp) (by intro j; rfl) n
    (fun j hj => (hp.2 j (by omega) (by omega)).good g (by simp [condReg, Var.genBy, hname])) hn t
  rw [hp.1, Nat.zero_add]
  obtain ⟨m, rfl⟩ : ∃ m, n = m + 1 := ⟨n - 1, by omega⟩
  simpa [stage, Expr.var, Expr.eval] using hr

/-- The value pipeline of an assignment. -/
theorem addDelayedSubst_meaning {s : SeqSt} (hi : s.Inv) (r : Reg) (e : Expr) (n : Nat)
    (hn : 0 < n) {s2 : SeqSt} (g : Good (s.addDelayedSubst (.subst r e) n).2 s2)
    {rst : Option Expr} {E : Nat → Env} (hE : Run (s2.always rst) E) (t : Nat)
    (hreset : resetIn rst E t n = false) (x : Var) :
    (s.addDelayedSubst (.subst r e) n).1.trace (E (t + n)) x =
      (Code.subst r e).trace (E t) x := by
  cases e with
  | int c => rfl
  | fn f =>
    have hp := pipeLoop_pipes (sbstReg s.name r s.tmpCount) (.fn f) n 0
      { s with tmpCount := s.tmpCount + 1 }
      (Good.bump hi).inv.covered (by intro a b h; simpa [sbstReg] using h)
      (fun j _ => sbst_fresh hi r j)
    have he : s.addDelayedSubst (.subst r (.fn f)) n =
        (.subst r (pipeLoop (sbstReg s.name r s.tmpCount) n 0
          (stage (sbstReg s.name r s.tmpCount) (.fn f) 0) { s with tmpCount := s.tmpCount + 1 }).1,
         (pipeLoop (sbstReg s.name r s.tmpCount) n 0
          (stage (sbstReg s.name r s.tmpCount) (.fn f) 0)
            { s with tmpCount := s.tmpCount + 1 }).2) := rfl
    have hname := (Good.addDelayedSubst hi (.subst r (.fn f)) n).step.name
    rw [he] at hname g ⊢
    have hr := pipe_run g.inv hE (sbstReg s.name r s.tmpCount) (.fn f) 0 r.wrap
      (by intro j; rfl) r.wrap_wrap (by intro j; rfl) n
      (fun j hj => (hp.2 j (by omega) (by omega)).good g
        (by simp only at hname; rw [hname]; simp [sbstReg, Var.genBy])) hn t
    simp only [hp.1, Nat.zero_add]
    obtain ⟨m, rfl⟩ : ∃ m, n = m + 1 := ⟨n - 1, by omega⟩
    simp only [hreset, Bool.false_eq_true, if_false] at hr
    simp only [Code.trace, stage]
    have : (Expr.var (sbstReg s.name r s.tmpCount (m + 1)).name).eval (E (t + (m + 1))) =
        E (t + (m + 1)) (sbstReg s.name r s.tmpCount (m + 1)).name := rfl
    rw [this, hr, Reg.wrap_wrap]

theorem addDelayedSubsts_meaning {s : SeqSt} (hi : s.Inv) (cs : List Code) (n : Nat) (hn : 0 < n)
    (hsub : ∀ c ∈ cs, ∃ r e, c = .subst r e)
    {s2 : SeqSt} (g : Good (s.addDelayedSubsts cs n).2 s2)
    {rst : Option Expr} {E : Nat → Env} (hE : Run (s2.always rst) E) (t : Nat)
    (hreset : resetIn rst E t n = false) (x : Var) :
    traceL (s.addDelayedSubsts cs n).1 (E (t + n)) x = traceL cs (E t) x := by
  induction cs generalizing s with
  | nil => rfl
  | cons c cs ih =>
    obtain ⟨r, e, rfl⟩ := hsub c (by simp)
    have h1 := Good.addDelayedSubst hi (.subst r e) n
    have h2 := Good.addDelayedSubsts h1.inv cs n
    have ht := addDelayedSubst_meaning hi r e n hn (h2.1.trans g) hE t hreset x
    have ih' := ih h1.inv (fun c hc => hsub c (by simp [hc])) g
    show traceL ((s.addDelayedSubst (.subst r e) n).1 ::
      ((s.addDelayedSubst (.subst r e) n).2.addDelayedSubsts cs n).1) (E (t + n)) x = _
    rw [traceL_cons, traceL_cons, ht, ih']

/-- Everything there is to know about a delayed addition. -/
theorem addDelayed_spec {s : SeqSt} (hi : s.Inv) (stmts : List Code) (n : Nat) (hn : 0 < n)
    (cond : Option Expr) (lz eager : Bool)
    (hok : ∀ c ∈ stmts, ∀ r ∈ c.targets, r.name.genBy s.name = false) :
    ∃ (g : Expr) (stmts' : List Code), (eager = false → stmts' = stmts) ∧
      -- position: after everything of the same or a longer delay
      (∀ env x d, x.genBy s.name = false →
        (s.addDelayed stmts n cond lz eager).cls d env x = s.cls d env x ++
          (if d = n ∧ g.truthy env = true then traceL stmts' env x else [])) ∧
      -- the guard and the values
      ∀ s2, Good (s.addDelayed stmts n cond lz eager) s2 → ∀ rst E, Run (s2.always rst) E → ∀ t,
        (g.truthy (E (t + n)) = (!resetIn rst E t n &&
          (match cond with
            | none => true
            | some c => if lz then c.truthy (E (t + n)) else c.eval (E t) % 2 == 1))) ∧
        (eager = true → (∀ c ∈ stmts, ∃ r e, c = .subst r e) → resetIn rst E t n = false →
          ∀ x, traceL stmts' (E (t + n)) x = traceL stmts (E t) x) := by
  -- stage 1: values
  obtain ⟨stmts', s1, hs1, hne, hid1, htg, hval⟩ : ∃ stmts' s1,
      (if eager then s.addDelayedSubsts stmts n else (stmts, s)) = (stmts', s1) ∧
      (eager = false → stmts' = stmts) ∧ Hidden s s1 ∧
      stmts'.map Code.targets = stmts.map Code.targets ∧
      (∀ s2, Good s1 s2 → ∀ rst E, Run (s2.always rst) E → ∀ t,
        (eager = true → (∀ c ∈ stmts, ∃ r e, c = .subst r e) → resetIn rst E t n = false →
          ∀ x, traceL stmts' (E (t + n)) x = traceL stmts (E t) x)) := by
    cases eager with
    | false =>
      exact ⟨stmts, s, rfl, fun _ => rfl, .refl hi, rfl, fun _ _ _ _ _ _ h => by simp at h⟩
    | true =>
      refine ⟨_, _, rfl, fun h => by simp at h, .addDelayedSubsts hi stmts n, (Good.addDelayedSubsts hi stmts n).2, ?_⟩
      intro s2 g rst E hE t
      exact fun _ hsub hr x => addDelayedSubsts_meaning hi stmts n hn hsub g hE t hr x
  -- stage 2: the guard
  obtain ⟨g, s2', hs2, hid2, hgd⟩ : ∃ g s2',
      (if lz then
        (match cond.getD (.int 1) with
          | .int 1 => (s1.addDelayedCond (.int 1) n).1
          | c => Expr.and (s1.addDelayedCond (.int 1) n).1 c, (s1.addDelayedCond (.int 1) n).2)
      else s1.addDelayedCond (cond.getD (.int 1)) n) = (g, s2') ∧ Hidden s1 s2' ∧
      ∀ s2, Good s2' s2 → ∀ rst E, Run (s2.always rst) E → ∀ t,
        (g.truthy (E (t + n)) = (!resetIn rst E t n &&
          (match cond with
            | none => true
            | some c => if lz then c.truthy (E (t + n)) else c.eval (E t) % 2 == 1))) := by
    have hi1 := hid1.good.inv
    cases lz with
    | false =>
      refine ⟨(s1.addDelayedCond (cond.getD (.int 1)) n).1,
        (s1.addDelayedCond (cond.getD (.int 1)) n).2, rfl, .addDelayedCond hi1 _ n, ?_⟩
      intro s2 gd rst E hE t
      have := addDelayedCond_meaning hi1 _ n hn gd hE t
      rw [Expr.truthy, this]
      cases cond with
      | none => cases resetIn rst E t n <;> simp [Expr.eval]
      | some c =>
        cases resetIn rst E t n with
        | true => simp
        | false =>
          simp only [Option.getD_some, Bool.false_eq_true, if_false, Bool.not_false, Bool.true_and]
          rcases Int.emod_two_eq (c.eval (E t)) with h | h <;> simp [h]
    | true =>
      refine ⟨_, _, rfl, .addDelayedCond hi1 _ n, ?_⟩
      intro s2 gd rst E hE t
      have := addDelayedCond_meaning hi1 _ n hn gd hE t
      have ht : (s1.addDelayedCond (.int 1) n).1.truthy (E (t + n)) = !resetIn rst E t n := by
        rw [Expr.truthy, this]
        cases resetIn rst E t n <;> simp [Expr.eval]
      cases cond with
      | none => simpa using ht
      | some c =>
        simp only [Option.getD_some, if_true]
        split
        · rw [ht]; simp [Expr.truthy, Expr.eval]
        · rw [Expr.truthy_and, ht]
  have hdef : s.addDelayed stmts n cond lz eager =
      s2'.pushDelayed n (.ite g (Code.block stmts') .skip) := by
    unfold addDelayed
    rw [hs1]
    simp only
    have : (if lz then
        (match cond.getD (.int 1) with
          | .int 1 => (s1.addDelayedCond (.int 1) n).1
          | c => Expr.and (s1.addDelayedCond (.int 1) n).1 c, (s1.addDelayedCond (.int 1) n).2)
      else s1.addDelayedCond (cond.getD (.int 1)) n) = (g, s2') := hs2
    cases lz with
    | false =>
      simp only [Bool.false_eq_true, if_false] at this ⊢
      rw [this]
    | true =>
      simp only [if_true] at this ⊢
      have h1 := congrArg Prod.fst this
      have h2 := congrArg Prod.snd this
      simp only at h1 h2
      rw [← h1, ← h2]
      rfl
  have hid := hid1.trans hid2
  have hgp : Good s2' (s2'.pushDelayed n (.ite g (Code.block stmts') .skip)) := by
    refine .pushDelayed hid.good.inv n hn _ ?_
    intro r hr
    simp only [Code.targets, Code.targets_block, List.append_nil, List.mem_flatMap] at hr
    obtain ⟨c, hc, hr⟩ := hr
    have : c.targets ∈ stmts.map Code.targets := htg ▸ List.mem_map_of_mem hc
    obtain ⟨c', hc', he⟩ := List.mem_map.1 this
    rw [hid.good.step.name]
    exact hok c' hc' r (he ▸ hr)
  refine ⟨g, stmts', hne, ?_, ?_⟩
  · intro env x d hx
    rw [hdef]
    have hh : ∀ d, s2'.cls d env x = s.cls d env x :=
      fun d => hid.grows.cls (by rintro r hr rfl; rw [hx] at hr; simp at hr) env d
    rw [← hh]
    unfold cls
    by_cases hd : d = 0
    · subst hd
      simp [bodyTrace, pushDelayed, show ¬ (0 = n) by omega]
    · simp only [hd, if_false, delayedAt_push, traceL_append]
      by_cases hdn : d = n
      · subst hdn
        by_cases hg : g.truthy env = true <;>
          simp [hg, traceL_cons, Code.trace, Code.trace_block]
      · simp [hdn, Ne.symm hdn]
  · intro s2 gd rst E hE t
    rw [hdef] at gd
    have g1 : Good s2' s2 := hgp.trans gd
    exact ⟨hgd s2 g1 rst E hE t, hval s2 (hid2.good.trans g1) rst E hE t⟩

end SeqSt
end Hdl
