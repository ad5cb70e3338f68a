import Verif.Lemmas.ThreadPar
import Verif.Props.C19_Thread

/-!
# C96: a parallel block of a thread is one simultaneous assignment

`(startP name w args rv P).cs.fsm` is the FSM of a thread whose statements `P` may contain calls of `set_parallel` and
`unset_parallel`; `p.block rest` is `set_parallel()`, the statements `p`, `unset_parallel()`, then `rest`.
`Seqd rv false P Q`: `Q` is `P` with every block replaced by one assignment of all that is assigned in its text.
-/

namespace Thr
open Hdl

section
variable {name : String} {w : ℕ} {args : List (Reg × Expr)} {rv : Reg} {P : PProg} {Q : Prog} {rst : Expr} {uc : Bool}
  {E : ℕ → Env}

theorem run_seqd (h : Seqd rv false P Q) (hE : Run name (startP name w args rv P).cs rst uc E) :
    Run name (start name w args rv Q) rst uc E :=
  ⟨hE.start, hE.norst, fun t => (hE.step t).trans ((startP_sim h).tick rst uc _)⟩

/-- **C96.**  A thread with parallel blocks computes what the program computes in which each block is one simultaneous
    assignment: if that program, executed in order, ends with the values `env'`, the FSM reaches its last state, all
    registers but the state register then have the values `env'`, and they keep them.  The hypotheses on `Q` are those
    of C19. -/
theorem c96_final (h : Seqd rv false P Q) (hg : Q.good = true) (he : Q.esc = false) (hb : Q.Ok (.state name) rv)
    (ha : ∀ b ∈ args, b.1.name ≠ .state name ∧ Indep (.state name) b.2)
    (hw : (startP name w args rv P).cur < 2 ^ w) (hE : Run name (startP name w args rv P).cs rst uc E)
    {o : Out} {env' : Env} (hx : Exec rv Q (bindAll args (E 0)) o env') :
    ∃ n, (∀ t < n, E t (.state name) < (startP name w args rv P).cur) ∧
      ∀ t ≥ n, E t (.state name) = (startP name w args rv P).cur ∧ ∀ x ≠ .state name, E t x = env' x := by
  have hc : (startP name w args rv P).cur = (start name w args rv Q).cur := (startP_sim h).cur.symm
  rw [hc] at hw ⊢
  exact c19_final hg he hb ha hw (run_seqd h hE) hx

/-- **C96, termination.**  If the FSM ever is in its last state, that program terminates. -/
theorem c96_terminates (h : Seqd rv false P Q) (hg : Q.good = true) (he : Q.esc = false) (hb : Q.Ok (.state name) rv)
    (ha : ∀ b ∈ args, b.1.name ≠ .state name ∧ Indep (.state name) b.2)
    (hw : (startP name w args rv P).cur < 2 ^ w) (hE : Run name (startP name w args rv P).cs rst uc E) (t : ℕ)
    (ht : E t (.state name) = (startP name w args rv P).cur) :
    ∃ o env', Exec rv Q (bindAll args (E 0)) o env' ∧ ∀ x ≠ .state name, E t x = env' x := by
  have hc : (startP name w args rv P).cur = (start name w args rv Q).cur := (startP_sim h).cur.symm
  rw [hc] at hw ht
  exact c19_terminates hg he hb ha hw (run_seqd h hE) t ht

/-- **C96, one clock cycle.**  A thread that consists of one parallel block, whatever is in it, is in its last state two
    clock cycles after its start (one for the arguments, one for the block), and the registers then are as after the
    simultaneous assignment of everything assigned in the text of the block. -/
theorem c96_block {p : PProg} (hi : p.inner false = true)
    (hp : ∀ b ∈ p.flat rv false, b.1.name ≠ .state name ∧ Indep (.state name) b.2)
    (ha : ∀ b ∈ args, b.1.name ≠ .state name ∧ Indep (.state name) b.2) (hw : 1 < w)
    (hE : Run name (startP name w args rv (p.block .nil)).cs rst uc E) :
    ∀ t ≥ 2, E t (.state name) = (startP name w args rv (p.block .nil)).cur ∧
      ∀ x ≠ .state name, E t x = bindAll (p.flat rv false) (bindAll args (E 0)) x := by
  have h : Seqd rv false (p.block .nil) (.assign (p.flat rv false) .nil) := .par hi (.inr rfl) .nil
  have hR := run_seqd h hE
  have hc : (startP name w args rv (p.block .nil)).cur = (start name w args rv (.assign (p.flat rv false) .nil)).cur :=
    (startP_sim h).cur.symm
  obtain ⟨hpl, hf, hl⟩ := start_lay name w args rv (.assign (p.flat rv false) .nil) rfl rfl
  have hcur : (start name w args rv (.assign (p.flat rv false) .nil)).cur = 2 := by
    obtain ⟨-, m, -, -, ⟨-, -, h1⟩, h2⟩ := hl
    have h1' : m = 0 + 1 + 1 := h1
    have h2' : _ = m := h2
    rw [h2', h1']
  have hw4 : (2 : ℕ) < 2 ^ w := by
    calc (2 : ℕ) < 2 ^ 2 := by decide
      _ ≤ 2 ^ w := Nat.pow_le_pow_right (by decide) hw
  have hok : (Prog.assign (p.flat rv false) .nil).Ok (.state name) rv := ⟨hp, trivial⟩
  obtain ⟨n, h1, h2⟩ := c19_final (o := .norm) rfl rfl hok ha (by rw [hcur]; exact hw4) hR (.assign .nil)
  have hwf := start_wf name w args rv (.assign (p.flat rv false) .nil) ha hok
  -- the state after two cycles
  have hs2 : E 2 (.state name) = (start name w args rv (.assign (p.flat rv false) .nil)).cur := by
    rw [hR.eq hpl hwf (by rw [hcur]; exact hw4) 2, hcur]
    obtain ⟨-, m, hb, hj, ⟨hb2, hj2, h1⟩, -⟩ := hl
    change (lift _ (mstep _ (mstep _ (0, E 0)))) _ = _
    rw [mstep_to hb hj, mstep_to hb2 hj2]
    simp [lift]
  rw [hc]
  intro t ht
  refine h2 t ?_
  by_contra hlt
  have := h1 2 (by omega)
  omega

/-- **C96, old values.**  In a block `x = f; y = g` both expressions are evaluated with the values from before the
    block, also if `g` reads `x`. -/
theorem c96_old_values {x y : Reg} {f g : Expr} (hxy : x.name ≠ y.name) (hx : x.name ≠ .state name)
    (hy : y.name ≠ .state name) (hf : Indep (.state name) f) (hg : Indep (.state name) g) (hw : 1 < w)
    (hE : Run name (startP name w [] rv (PProg.block (.assign [(x, f)] (.assign [(y, g)] .nil)) .nil)).cs rst uc E) :
    ∀ t ≥ 2, E t x.name = x.wrap (f.eval (E 0)) ∧ E t y.name = y.wrap (g.eval (E 0)) := by
  intro t ht
  have h := (c96_block (p := .assign [(x, f)] (.assign [(y, g)] .nil)) rfl (by
    intro b hb
    simp only [PProg.flat, Bool.false_eq_true, if_false, List.append_nil, List.cons_append, List.nil_append,
      List.mem_cons, List.not_mem_nil, or_false] at hb
    rcases hb with rfl | rfl
    · exact ⟨hx, hf⟩
    · exact ⟨hy, hg⟩) (by simp) hw hE t ht).2
  rw [h _ hx, h _ hy]
  constructor
  · change Function.update (Function.update (E 0) x.name (x.wrap (f.eval (E 0)))) y.name _ x.name = _
    rw [Function.update_of_ne hxy, Function.update_self]
  · change Function.update _ y.name _ y.name = _
    rw [Function.update_self]
    rfl

/-- **C96, disagreement.**  The condition of an `if` in a block is ignored: `if c: x = f else: x = g` assigns `g`
    whatever the condition is. -/
theorem c96_not_if {x : Reg} {c f g : Expr} (hx : x.name ≠ .state name) (hf : Indep (.state name) f)
    (hg : Indep (.state name) g) (hw : 1 < w)
    (hE : Run name (startP name w [] rv
      (PProg.block (.ifte c (.assign [(x, f)] .nil) (.assign [(x, g)] .nil) .nil) .nil)).cs rst uc E) :
    ∀ t ≥ 2, E t x.name = x.wrap (g.eval (E 0)) := by
  intro t ht
  have h := (c96_block (p := .ifte c (.assign [(x, f)] .nil) (.assign [(x, g)] .nil) .nil) rfl (by
    intro b hb
    simp only [PProg.flat, Bool.false_eq_true, if_false, List.append_nil, List.cons_append, List.nil_append,
      List.mem_cons, List.not_mem_nil, or_false] at hb
    rcases hb with rfl | rfl
    · exact ⟨hx, hf⟩
    · exact ⟨hx, hg⟩) (by simp) hw hE t ht).2
  rw [h _ hx]
  change Function.update _ x.name _ x.name = _
  rw [Function.update_self]
  rfl

/-- **C96, disagreement.**  The body of a `while` in a block is executed exactly once, whatever its condition is. -/
theorem c96_not_while {c : Expr} {bs : List (Reg × Expr)}
    (hb : ∀ b ∈ bs, b.1.name ≠ .state name ∧ Indep (.state name) b.2) (hw : 1 < w)
    (hE : Run name (startP name w [] rv (PProg.block (.while_ .nil c (.assign bs .nil) .nil) .nil)).cs rst uc E) :
    ∀ t ≥ 2, ∀ x ≠ .state name, E t x = bindAll bs (E 0) x := by
  intro t ht
  have hfl : (PProg.while_ .nil c (.assign bs .nil) .nil).flat rv false = bs := by simp [PProg.flat]
  have h := (c96_block (p := .while_ .nil c (.assign bs .nil) .nil) rfl (by rw [hfl]; exact hb) (by simp) hw hE t ht).2
  rw [hfl] at h
  exact h

/-- **C96, disagreement.**  A function called in a block gives its result too late: in `y = f(a)`, with `f` returning
    `g` of its parameter `k`, the register `y` gets what the return register `r` held before. -/
theorem c96_not_call {k r y : Reg} {a g : Expr} (hk : k.name ≠ .state name) (hr : r.name ≠ .state name)
    (hy : y.name ≠ .state name) (ha : Indep (.state name) a) (hg : Indep (.state name) g) (hw : 1 < w)
    (hE : Run name (startP name w [] rv (PProg.block (.call [(k, a)] r (.ret (some g) .nil)
      (.assign [(y, .var r.name)] .nil)) .nil)).cs rst uc E) :
    ∀ t ≥ 2, E t y.name = y.wrap (E 0 r.name) := by
  intro t ht
  have h := (c96_block (p := .call [(k, a)] r (.ret (some g) .nil) (.assign [(y, .var r.name)] .nil)) rfl (by
    intro b hb
    simp only [PProg.flat, Bool.false_eq_true, if_false, List.append_nil, List.cons_append, List.nil_append,
      List.mem_cons, List.not_mem_nil, or_false, Option.map_some, Option.toList_some] at hb
    rcases hb with rfl | rfl | rfl
    · exact ⟨hk, ha⟩
    · exact ⟨hr, hg⟩
    · refine ⟨hy, fun env z => ?_⟩
      change Function.update env (.state name) z r.name = env r.name
      exact Function.update_of_ne hr z env) (by simp) hw hE t ht).2
  rw [h _ hy]
  change Function.update _ y.name _ y.name = _
  rw [Function.update_self]
  rfl

/-- **C96, a block that is not closed.**  Without `unset_parallel` the thread stays in the state of the block and makes
    the assignments again in every clock cycle. -/
theorem c96_unclosed {bs : List (Reg × Expr)} (hb : ∀ b ∈ bs, b.1.name ≠ .state name ∧ Indep (.state name) b.2)
    (ha : ∀ b ∈ args, b.1.name ≠ .state name ∧ Indep (.state name) b.2) (hw : 0 < w)
    (hE : Run name (startP name w args rv (.setPar (.assign bs .nil))).cs rst uc E) :
    ∀ t, E (t + 1) (.state name) = 1 ∧ ∀ x ≠ .state name, E (t + 2) x = bindAll bs (E (t + 1)) x := by
  have hs : (startP name w args rv (.setPar (.assign bs .nil))).cs =
      ((((⟨FsmSt.fresh name w, {}⟩ : CS).binds args).jumpNext.inc).binds bs).withFrame {} := by
    have e0 : ((((⟨FsmSt.fresh name w, {}⟩ : CS).binds args).jumpNext.inc)).frame = {} := by simp [CS.jumpNext]
    have e1 : compileP (.setPar (.assign bs .nil)) rv ⟨((⟨FsmSt.fresh name w, {}⟩ : CS).binds args).jumpNext.inc, false⟩ =
        ⟨(((⟨FsmSt.fresh name w, {}⟩ : CS).binds args).jumpNext.inc).binds bs, true⟩ := by
      have hC : ∀ C : CS, C.frame = {} → compileP (.setPar (.assign bs .nil)) rv ⟨C, false⟩ = ⟨C.binds bs, true⟩ := by
        rintro ⟨f, fr⟩ rfl
        rfl
      exact hC _ e0
    have e2 : ((((⟨FsmSt.fresh name w, {}⟩ : CS).binds args).jumpNext.inc).binds bs).frame.allRet = [] := by
      rw [binds_frame, e0]; rfl
    have key : ∀ u v : PS, u = v → v.cs.frame.allRet = [] →
        ({ u.cs.resolve u.cs.frame.allRet u.cs.cur with frame := {} } : CS) = v.cs.withFrame {} := by
      intro u v huv hv
      rw [huv, hv]
      rfl
    exact key _ _ e1 e2
  have p0 : Pl name w (⟨FsmSt.fresh name w, {}⟩ : CS) := ⟨rfl, rfl, rfl, rfl, rfl⟩
  have p1 := ((p0.binds args).jump ((⟨FsmSt.fresh name w, {}⟩ : CS).binds args).cur
    (((⟨FsmSt.fresh name w, {}⟩ : CS).binds args).cur + 1) none none).inc
  have p2 := (p1.binds bs).withFrame {}
  have w0 : WF (.state name) 1 (⟨FsmSt.fresh name w, {}⟩ : CS) :=
    ⟨fun x hx => by simp [FsmSt.fresh] at hx, fun x hx => by simp [FsmSt.fresh] at hx⟩
  have w1 := (((w0.binds args ha).jump (p0.binds args).next ((⟨FsmSt.fresh name w, {}⟩ : CS).binds args).cur
    (((⟨FsmSt.fresh name w, {}⟩ : CS).binds args).cur + 1) none none (by rw [binds_cur]; exact Nat.le_refl _)
    (by simp) (by simp)).inc.binds bs hb).withFrame {}
  have hw' : 1 < 2 ^ w := Nat.one_lt_two_pow (by omega)
  rw [hs] at hE
  have hr := hE.eq p2 w1 hw'
  -- the two states
  have hX : ((⟨FsmSt.fresh name w, {}⟩ : CS).binds args).jumpNext.inc.cur = 1 := by
    change ((⟨FsmSt.fresh name w, {}⟩ : CS).binds args).cur + 1 = 1
    rw [binds_cur]
    rfl
  have hcode : ∀ i, ((((⟨FsmSt.fresh name w, {}⟩ : CS).binds args).jumpNext.inc).binds bs).code i =
      (if 0 = i then args.map (fun b => Code.subst b.1 b.2) else []) ++
        if 1 = i then bs.map (fun b => Code.subst b.1 b.2) else [] := by
    intro i
    have h1 := binds_code (((⟨FsmSt.fresh name w, {}⟩ : CS).binds args).jumpNext.inc) bs i
    have h2 := binds_code (⟨FsmSt.fresh name w, {}⟩ : CS) args i
    rw [hX, show (((⟨FsmSt.fresh name w, {}⟩ : CS).binds args).jumpNext.inc).code i =
      ((⟨FsmSt.fresh name w, {}⟩ : CS).binds args).code i from rfl, h2] at h1
    exact h1
  have hB0 : Binds (((((⟨FsmSt.fresh name w, {}⟩ : CS).binds args).jumpNext.inc).binds bs).withFrame {}).fsm 0 args :=
    (hcode 0).trans (by simp)
  have hB1 : Binds (((((⟨FsmSt.fresh name w, {}⟩ : CS).binds args).jumpNext.inc).binds bs).withFrame {}).fsm 1 bs :=
    (hcode 1).trans (by simp)
  have hj : ∀ i, jl (((((⟨FsmSt.fresh name w, {}⟩ : CS).binds args).jumpNext.inc).binds bs).withFrame {}).fsm i =
      if 0 = i then [⟨1, none, none⟩] else [] := by
    intro i
    have h1 := binds_jl (((⟨FsmSt.fresh name w, {}⟩ : CS).binds args).jumpNext.inc) bs i
    have h2 : ((⟨FsmSt.fresh name w, {}⟩ : CS).binds args).jumpNext.jl i = _ :=
      jump_jl (p0.binds args) ((⟨FsmSt.fresh name w, {}⟩ : CS).binds args).cur
      (((⟨FsmSt.fresh name w, {}⟩ : CS).binds args).cur + 1) none none i
    rw [binds_jl, binds_cur] at h2
    exact h1.trans h2
  obtain ⟨T, hT⟩ : ∃ T, (((((⟨FsmSt.fresh name w, {}⟩ : CS).binds args).jumpNext.inc).binds bs).withFrame {}).fsm = T :=
    ⟨_, rfl⟩
  rw [hT] at hr hB0 hB1 hj
  have step1 : ∀ e, mstep T (1, e) = (1, bindAll bs e) := by
    intro e
    refine Prod.ext ?_ (mstep_binds hB1 e)
    simp only [mstep, hj 1]
    rfl
  have st : ∀ t, ((mstep T)^[t + 1] (0, E 0)).1 = 1 := by
    intro t
    induction t with
    | zero => simp only [Function.iterate_succ, Function.iterate_zero, Function.comp, id, mstep, hj 0]; rfl
    | succ t ih =>
      rw [Function.iterate_succ_apply']
      obtain ⟨c, hc⟩ : ∃ c, (mstep T)^[t + 1] (0, E 0) = c := ⟨_, rfl⟩
      rw [hc] at ih ⊢
      obtain ⟨a, e⟩ := c
      obtain rfl : a = 1 := ih
      rw [step1]
  intro t
  refine ⟨?_, fun x hx => ?_⟩
  · rw [hr]
    simp only [lift, Function.update_self, st t]
    rfl
  have h1 := hr (t + 2)
  have h2 := hr (t + 1)
  rw [Function.iterate_succ_apply'] at h1
  obtain ⟨c, hc⟩ : ∃ c, (mstep T)^[t + 1] (0, E 0) = c := ⟨_, rfl⟩
  have hst := st t
  rw [hc] at h1 h2 hst
  obtain ⟨a, e⟩ := c
  obtain rfl : a = 1 := hst
  rw [step1] at h1
  have hbi : ∀ (l : List (Reg × Expr)) (acc : Env), (∀ b ∈ l, b.1.name ≠ .state name ∧ Indep (.state name) b.2) →
      ∀ x ≠ Var.state name, l.foldl (fun acc b => Function.update acc b.1.name (b.1.wrap (b.2.eval
        (Function.update e (.state name) 1)))) acc x =
        l.foldl (fun acc b => Function.update acc b.1.name (b.1.wrap (b.2.eval e))) acc x := by
    intro l
    induction l with
    | nil => intro acc _ x _; rfl
    | cons b l ih =>
      intro acc hl x hx
      simp only [List.foldl_cons]
      rw [(hl b (by simp)).2]
      exact ih _ (fun b hb => hl b (by simp [hb])) x hx
  have hacc : ∀ (l : List (Reg × Expr)) (acc acc' : Env), acc x = acc' x →
      l.foldl (fun acc b => Function.update acc b.1.name (b.1.wrap (b.2.eval e))) acc x =
        l.foldl (fun acc b => Function.update acc b.1.name (b.1.wrap (b.2.eval e))) acc' x := by
    intro l
    induction l with
    | nil => intro acc acc' h; exact h
    | cons b l ih =>
      intro acc acc' h
      refine ih _ _ ?_
      by_cases hxb : x = b.1.name
      · simp only [hxb, Function.update_self]
      · simp only [Function.update_of_ne hxb, h]
  have h2' : E (t + 1) = Function.update e (.state name) 1 := h2
  rw [h1, h2']
  simp only [lift, Function.update_of_ne hx]
  unfold bindAll
  rw [hbi bs _ hb x hx]
  exact hacc bs _ _ (Function.update_of_ne hx _ _).symm

end

/-! ## Concrete threads -/

namespace Ex

/-- `while 1: { set_parallel(); if x == 1: break; unset_parallel() }` -/
def brkPar : PProg := .while_ .nil (.int 1) (PProg.block (.ifte (eq x 1) (.brk .nil) .nil .nil) .nil) .nil

/-- The same without the parallel block. -/
def brkSeq : Prog := .while_ .nil (.int 1) (.ifte (eq x 1) (.brk .nil) .nil .nil) .nil

/-- `x = 0` for ever: the loop does not end. -/
theorem brkSeq_loops {env : Env} (h0 : env x.name = 0) : ¬ ∃ o env', Exec rv brkSeq env o env' := by
  rintro ⟨o, env', h⟩
  obtain ⟨P, hP⟩ : ∃ P, brkSeq = P := ⟨_, rfl⟩
  obtain ⟨r, hr⟩ : ∃ r, rv = r := ⟨_, rfl⟩
  rw [hP, hr] at h
  clear hr
  have hne : (eq x 1).truthy env = false := by
    simp [Expr.truthy, eq, Expr.eval.eq_2, h0]
  have body : ∀ {r o e1}, Exec r (.ifte (eq x 1) (.brk .nil) .nil .nil) env o e1 → o = .norm ∧ e1 = env := by
    intro r o e1 hb
    cases hb with
    | ifT hc => rw [hne] at hc; cases hc
    | ifTx hc => rw [hne] at hc; cases hc
    | ifF _ h1 h2 => cases h1; cases h2; exact ⟨rfl, rfl⟩
    | ifFx _ h1 hn => cases h1; exact absurd rfl hn
  induction h with
  | whileEnd h1 hc =>
    cases hP
    cases hc
  | whileAgain h1 _ h2 _ _ _ _ ih =>
    cases hP
    cases h1
    obtain ⟨-, rfl⟩ := body h2
    exact ih h0 rfl hne body
  | whileBrk h1 _ h2 =>
    cases hP
    cases h1
    exact absurd (body h2).1 (by decide)
  | whileRet h1 _ h2 =>
    cases hP
    cases h1
    exact absurd (body h2).1 (by decide)
  | _ => cases hP

theorem brkPar_pl : Pl "th" 32 (startP "th" 32 [] rv brkPar).cs := ⟨rfl, rfl, rfl, rfl, rfl⟩

theorem brkPar_wf : WF (.state "th") 4 (startP "th" 32 [] rv brkPar).cs := by
  have hc : (startP "th" 32 [] rv brkPar).cs.fsm.code = [] := rfl
  refine ⟨fun y hy => by rw [hc] at hy; simp at hy, fun y hy => ?_⟩
  have hj : (startP "th" 32 [] rv brkPar).cs.fsm.jumps =
      [(0, ⟨1, none, none⟩), (2, ⟨2, some (eq x 1), some 2⟩), (2, ⟨3, none, none⟩), (1, ⟨2, some (.int 1), some 4⟩),
        (3, ⟨1, none, none⟩), (2, ⟨4, none, none⟩)] := rfl
  rw [hj] at hy
  simp only [List.mem_cons, List.not_mem_nil, or_false] at hy
  rcases hy with rfl | rfl | rfl | rfl | rfl | rfl <;> refine ⟨by decide, by simp, ?_⟩ <;> intro c hc <;>
    simp only [Option.mem_def, Option.some.injEq, reduceCtorEq] at hc <;> subst hc
  · exact indep_eq (by decide)
  · exact indep_int _ _

end Ex

open Ex in
/-- **C96, disagreement.**  A `break` under an `if` in a block is always taken: `while 1: { set_parallel(); if x == 1:
    break; unset_parallel() }` ends after three clock cycles with `x = 0`, while in program order the loop never ends. -/
theorem c96_not_break (rst : Expr) (uc : Bool) (E : ℕ → Env) (hE : Run "th" (startP "th" 32 [] rv brkPar).cs rst uc E)
    (h0 : E 0 x.name = 0) : (¬ ∃ o env', Exec rv brkSeq (E 0) o env') ∧
      E 3 (.state "th") = (startP "th" 32 [] rv brkPar).cur := by
  refine ⟨brkSeq_loops h0, ?_⟩
  rw [hE.eq brkPar_pl brkPar_wf (by decide) 3]
  change lift _ (mstep _ (mstep _ (mstep _ (0, E 0)))) _ = _
  have m0 : ∀ e, mstep (startP "th" 32 [] rv brkPar).cs.fsm (0, e) = (1, e) := fun e => rfl
  have m1 : ∀ e, mstep (startP "th" 32 [] rv brkPar).cs.fsm (1, e) = (2, e) := fun e => rfl
  have m2 : ∀ e, mstep (startP "th" 32 [] rv brkPar).cs.fsm (2, e) = (4, e) := fun e => rfl
  rw [m0, m1, m2]
  rfl

namespace Ex

def y : Reg := ⟨.user "y", 32, true, none⟩

/-- `x = 7; set_parallel(); x = y; if n == 0: y = x; unset_parallel(); while x < 9: { set_parallel(); x = x + 1; n = x;
    unset_parallel() }` -/
def swap : PProg := .assign [(x, .int 7)] (PProg.block (.assign [(x, var y)] (.ifte (eq n 0) (.assign [(y, var x)] .nil)
  .nil .nil)) (.while_ .nil (lt x 9) (PProg.block (.assign [(x, inc x)] (.assign [(n, var x)] .nil)) .nil) .nil))

/-- The program it is compared with. -/
def swapSeq : Prog := .assign [(x, .int 7)] (.assign [(x, var y), (y, var x)]
  (.while_ .nil (lt x 9) (.assign [(x, inc x), (n, var x)] .nil) .nil))

theorem swap_seqd : Seqd rv false swap swapSeq :=
  .assign (.par rfl (.inl rfl) (.while_ (.par rfl (.inl rfl) .nil) .nil))

theorem ok_swap : swapSeq.Ok (.state "th") rv := by
  refine ⟨?_, ?_, indep_lt (by decide), trivial, ⟨?_, trivial⟩, trivial⟩ <;> intro b hb <;>
    simp only [List.mem_cons, List.not_mem_nil, or_false] at hb
  · subst hb; exact ⟨by decide, indep_int _ _⟩
  · rcases hb with rfl | rfl <;> exact ⟨by decide, indep_var (by decide)⟩
  · rcases hb with rfl | rfl
    · exact ⟨by decide, indep_inc (by decide)⟩
    · exact ⟨by decide, indep_var (by decide)⟩

/-- All registers 0 except `y = 8`. -/
def e8 : Env := fun v => if v = .user "y" then 8 else 0

theorem exec_swap : ∃ env', Exec rv swapSeq (bindAll [] e8) .norm env' ∧ env' x.name = 9 ∧ env' y.name = 7 ∧
    env' n.name = 8 := by
  refine ⟨_, .assign (.assign (.whileAgain .nil ?_ (.assign .nil) (.inl rfl) (.whileEnd .nil ?_ .nil))), ?_⟩
  all_goals decide +kernel

/-- `c96_final` on a thread with two blocks: a swap, and a loop around a block. -/
example : ∃ t, runFrom (startP "th" 32 [] rv swap).cs true e8 t y.name = 7 ∧
    runFrom (startP "th" 32 [] rv swap).cs true e8 t n.name = 8 := by
  obtain ⟨env', h, -, h2, h3⟩ := exec_swap
  obtain ⟨t, -, h4⟩ := c96_final (name := "th") (w := 32) (args := []) (rst := .int 0) (uc := true) swap_seqd
    (by decide) (by decide) ok_swap (by simp) (by decide +kernel)
    (runFrom_run (name := "th") (startP "th" 32 [] rv swap).cs true e8 rfl) h
  have := (h4 t (Nat.le_refl _)).2
  exact ⟨t, (this _ (by decide)).trans h2, (this _ (by decide)).trans h3⟩

/-- `c96_old_values`: `set_parallel(); x = y; y = x; unset_parallel()` swaps. -/
example : runFrom (startP "th" 32 [] rv (PProg.block (.assign [(x, var y)] (.assign [(y, var x)] .nil)) .nil)).cs true
    e8 2 x.name = 8 :=
  (c96_old_values (by decide) (by decide) (by decide) (indep_var (by decide)) (indep_var (by decide)) (by decide)
    (runFrom_run (name := "th") _ true e8 rfl) 2 (by decide)).1.trans (by decide)

/-- `c96_not_if` with a condition that holds. -/
example : (Expr.int 1).truthy e8 = true ∧ runFrom (startP "th" 32 [] rv (PProg.block (.ifte (.int 1)
    (.assign [(x, .int 1)] .nil) (.assign [(x, .int 2)] .nil) .nil) .nil)).cs true e8 2 x.name = 2 :=
  ⟨by decide, (c96_not_if (by decide) (indep_int _ _) (indep_int _ _) (by decide)
    (runFrom_run (name := "th") _ true e8 rfl) 2 (by decide)).trans (by decide)⟩

/-- `c96_not_while` with `while x < 5: x = x + 1`: ends with `x = 1`. -/
example : runFrom (startP "th" 32 [] rv (PProg.block (.while_ .nil (lt x 5) (.assign [(x, inc x)] .nil) .nil) .nil)).cs
    true e8 2 x.name = 1 :=
  (c96_not_while (by
    intro b hb
    simp only [List.mem_singleton] at hb
    subst hb
    exact ⟨by decide, indep_inc (by decide)⟩) (by decide) (runFrom_run (name := "th") _ true e8 rfl) 2 (by decide) _
    (by decide)).trans (by decide)

/-- `c96_not_call` with `x = f(3)`, `def f(n): return n + 1`: ends with `x = 0`, the old value of the return register. -/
example : runFrom (startP "th" 32 [] rv (PProg.block (.call [(n, .int 3)] i (.ret (some (inc n)) .nil)
    (.assign [(x, .var i.name)] .nil)) .nil)).cs true e8 2 x.name = 0 :=
  (c96_not_call (by decide) (by decide) (by decide) (indep_int _ _) (indep_inc (by decide)) (by decide)
    (runFrom_run (name := "th") _ true e8 rfl) 2 (by decide)).trans (by decide)

/-- `c96_unclosed` with `x = x + 1`: still counting in the third cycle. -/
example : runFrom (startP "th" 32 [] rv (.setPar (.assign [(x, inc x)] .nil))).cs true e8 3 x.name =
    bindAll [(x, inc x)] (runFrom (startP "th" 32 [] rv (.setPar (.assign [(x, inc x)] .nil))).cs true e8 2) x.name :=
  ((c96_unclosed (by
    intro b hb
    simp only [List.mem_singleton] at hb
    subst hb
    exact ⟨by decide, indep_inc (by decide)⟩) (by simp) (by decide) (runFrom_run (name := "th") _ true e8 rfl)) 1).2 _
    (by decide)

/-- The run of `c96_not_break` exists. -/
example : Run "th" (startP "th" 32 [] rv brkPar).cs (.int 0) true (runFrom (startP "th" 32 [] rv brkPar).cs true e0) ∧
    runFrom (startP "th" 32 [] rv brkPar).cs true e0 0 x.name = 0 :=
  ⟨runFrom_run _ _ _ rfl, rfl⟩

end Ex

end Thr
