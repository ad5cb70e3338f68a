import Verif.Lemmas.ThreadTick
import Verif.Lemmas.FsmDelay
import Mathlib.Tactic.Ring

/-!
# C19: the thread compiler preserves the control flow of the program

`(start name w args rv body).fsm` is the FSM that `Thread.start` produces for the function with statements `body`
called with arguments `args`, return register `rv`; `Run` are the register values over time, from the cycle in which
the FSM is in its initial state.  `Exec` executes the statements in program order.
-/

namespace Thr
open Hdl

section
variable {name : String} {w : ℕ} {args : List (Reg × Expr)} {rv : Reg} {body : Prog} {rst : Expr} {uc : Bool}
  {E : ℕ → Env}

theorem call_exec {e0 env' : Env} {o : Out} : Exec rv (.call args rv body .nil) e0 o env' ↔
    o = .norm ∧ ∃ o', (o' = .norm ∨ o' = .ret) ∧ Exec rv body (bindAll args e0) o' env' := by
  constructor
  · intro h
    cases h with
    | call h1 ho h2 => cases h2; exact ⟨rfl, _, ho, h1⟩
  · rintro ⟨rfl, o', ho, h⟩
    exact .call h ho .nil

theorem final_stays (hf : Fresh (start name w args rv body)) (e : Env) (n : ℕ) :
    (mstep (start name w args rv body).fsm)^[n] ((start name w args rv body).cur, e) =
      ((start name w args rv body).cur, e) := by
  have h1 : mstep (start name w args rv body).fsm ((start name w args rv body).cur, e) =
      ((start name w args rv body).cur, e) := by
    have hc := hf.code _ (Nat.le_refl _)
    have hj := hf.jl _ (Nat.le_refl _)
    simp only [CS.code] at hc
    simp only [CS.jl] at hj
    simp only [mstep, hc, hj]
    rfl
  exact Function.iterate_fixed h1 n

/-- **C19.**  If the statements, executed in program order from the initial values, end with the values `env'`, the
    FSM reaches its last state, all registers but the state register then have the values `env'`, and they keep
    them.

    `good`: no function is called in the test of a `while`, and in no statement list does a loop come after an `if` with
    a `break` or `continue` in it (see `c19_not_break`, `c19_not_while_call`).  `Ok`: the program does not mention the
    state register. -/
theorem c19_final (hg : body.good = true) (he : body.esc = false) (hb : body.Ok (.state name) rv)
    (ha : ∀ b ∈ args, b.1.name ≠ .state name ∧ Indep (.state name) b.2)
    (hw : (start name w args rv body).cur < 2 ^ w) (hE : Run name (start name w args rv body) rst uc E)
    {o : Out} {env' : Env} (hx : Exec rv body (bindAll args (E 0)) o env') :
    ∃ n, (∀ t < n, E t (.state name) < (start name w args rv body).cur) ∧
      ∀ t ≥ n, E t (.state name) = (start name w args rv body).cur ∧ ∀ x ≠ .state name, E t x = env' x := by
  obtain ⟨hp, hf, hl⟩ := start_lay name w args rv body hg he
  have hwf := start_wf name w args rv body ha hb
  have ho := hx.closed he
  obtain ⟨n, h1, h2⟩ := Lay.forward (call_exec.2 ⟨rfl, o, ho, hx⟩) hl
  refine ⟨n, fun t ht => ?_, fun t ht => ?_⟩
  · rw [hE.eq hp hwf hw t]
    simp only [lift, Function.update_self]
    exact_mod_cast (h2 t ht).2
  · obtain ⟨k, rfl⟩ := Nat.exists_eq_add_of_le ht
    have := hE.eq hp hwf hw (n + k)
    rw [Nat.add_comm n k, Function.iterate_add_apply, h1] at this
    have h3 := final_stays hf env' k
    rw [show (Out.norm.target (start name w args rv body).cur 0 0 0) = (start name w args rv body).cur from rfl, h3] at this
    rw [Nat.add_comm n k, this]
    exact ⟨by simp [lift], fun x hx => by simp [lift, hx]⟩

/-- **C19, termination.**  If the FSM ever is in its last state, the program terminates (with the values given by
    `c19_final`). -/
theorem c19_terminates (hg : body.good = true) (he : body.esc = false) (hb : body.Ok (.state name) rv)
    (ha : ∀ b ∈ args, b.1.name ≠ .state name ∧ Indep (.state name) b.2)
    (hw : (start name w args rv body).cur < 2 ^ w) (hE : Run name (start name w args rv body) rst uc E) (t : ℕ)
    (ht : E t (.state name) = (start name w args rv body).cur) :
    ∃ o env', Exec rv body (bindAll args (E 0)) o env' ∧ ∀ x ≠ .state name, E t x = env' x := by
  obtain ⟨hp, hf, hl⟩ := start_lay name w args rv body hg he
  have hwf := start_wf name w args rv body ha hb
  have hs := hE.eq hp hwf hw t
  rw [hs] at ht
  simp only [lift, Function.update_self] at ht
  have ht' : ((mstep (start name w args rv body).fsm)^[t] (0, E 0)).1 = (start name w args rv body).cur := by
    exact_mod_cast ht
  obtain ⟨o, env', h⟩ := Lay.backward t _ rv 0 _ 0 0 0 (E 0) hl (by omega)
  obtain ⟨rfl, o', ho, h'⟩ := call_exec.1 h
  refine ⟨o', env', h', fun x hx => ?_⟩
  obtain ⟨n, h1, h2⟩ := c19_final hg he hb ha hw hE h'
  refine (h2 t ?_).2 x hx
  by_contra hlt
  have := h1 t (by omega)
  rw [hs] at this
  simp only [lift, Function.update_self] at this
  omega

/-- **C19, start.**  After a clock edge with reset active the FSM is in its initial state. -/
theorem c19_reset (env : Env) (hr : rst.truthy env = true) :
    (((start name w args rv body).fsm.always rst uc).tick env) (.state name) = 0 := by
  have hn := (start_pl name w args rv body).name
  rw [Code.tick, Code.exec_eq_trace, FsmSt.always_trace, if_pos hr, FsmSt.makeReset_trace]
  have : (start name w args rv body).fsm.resetRegs = (start name w args rv body).fsm.stateReg ::
      ((start name w args rv body).fsm.resetRegs).tail := by
    simp [FsmSt.resetRegs, List.range_succ_eq_map, FsmSt.dstateReg]
  rw [this, List.find?_cons_of_pos (by simp [hn, FsmSt.stateReg])]
  simp [FsmSt.stateReg, Reg.wrap]

end

/-! ## `for ... in range` -/

/-- The values of `range(b, e, s)` of Python, `s > 0`. -/
def pyRange (b e s : Int) : List Int := (List.range ((e - b + s - 1) / s).toNat).map fun k : ℕ => b + k * s

theorem pyRange_nil {b e s : Int} (hs : 0 < s) (h : ¬ b < e) : pyRange b e s = [] := by
  have : (e - b + s - 1) / s ≤ 0 := by
    have : (e - b + s - 1) / s < 1 := Int.ediv_lt_of_lt_mul hs (by omega)
    omega
  rw [pyRange, Int.toNat_of_nonpos this]; rfl

theorem pyRange_cons {b e s : Int} (hs : 0 < s) (h : b < e) : pyRange b e s = b :: pyRange (b + s) e s := by
  have h1 : (e - b + s - 1) / s = (e - (b + s) + s - 1) / s + 1 := by
    rw [show e - b + s - 1 = (e - (b + s) + s - 1) + 1 * s by ring, Int.add_mul_ediv_right _ _ (by omega)]
  have h2 : 0 ≤ (e - (b + s) + s - 1) / s := Int.ediv_nonneg (by omega) (by omega)
  unfold pyRange
  rw [h1, Int.toNat_add h2 (by omega), show (1 : Int).toNat = 1 from rfl, List.range_succ_eq_map, List.map_cons,
    List.map_map]
  congr 1
  · simp
  · apply List.map_congr_left
    intro k _
    simp only [Function.comp_apply, Nat.succ_eq_add_one]
    push_cast
    ring

example : pyRange 1 8 3 = [1, 4, 7] := by decide

/-- Python's `for i in vs: p`: the values are fixed before the first iteration and assigned one after the other.  Ends
    as `norm` (no more values), `brk` or `ret`. -/
inductive PyFor (rv : Reg) (i : Var) (p : Prog) : List Int → Env → Out → Env → Prop
  | done {env} : PyFor rv i p [] env .norm env
  | next {v vs env o1 e1 o env'} : Exec rv p (Function.update env i v) o1 e1 → (o1 = .norm ∨ o1 = .cont) →
      PyFor rv i p vs e1 o env' → PyFor rv i p (v :: vs) env o env'
  | brk {v vs env e1} : Exec rv p (Function.update env i v) .brk e1 → PyFor rv i p (v :: vs) env .brk e1
  | ret {v vs env e1} : Exec rv p (Function.update env i v) .ret e1 → PyFor rv i p (v :: vs) env .ret e1

section
variable {rv i : Reg} {e s : Expr} {p rest : Prog}

/-- The assumptions on the body and bounds of a `for` loop: the body does not change the loop variable or the value of
    the end and step expressions, which do not depend on the loop variable. -/
structure Plain (rv i : Reg) (e s : Expr) (p : Prog) : Prop where
  var : ∀ env o env', Exec rv p env o env' → env' i.name = env i.name
  end_ : ∀ env o env', Exec rv p env o env' → e.eval env' = e.eval env
  step : ∀ env o env', Exec rv p env o env' → s.eval env' = s.eval env
  endI : Indep i.name e
  stepI : Indep i.name s

/-- The loop variable after the last iteration. -/
def after (b e s : Int) : Int := b + (pyRange b e s).length * s

theorem after_nil {b e s : Int} (hs : 0 < s) (h : ¬ b < e) : after b e s = b := by
  rw [after, pyRange_nil hs h]; simp

theorem after_cons {b e s : Int} (hs : 0 < s) (h : b < e) : after b e s = after (b + s) e s := by
  rw [after, pyRange_cons hs h, after, List.length_cons]; push_cast; ring

theorem loopr_to_py (h : Plain rv i e s p) {env env' : Env} {o : Out} (hx : Exec rv (.loopr i e s p rest) env o env') :
    ∀ (E S : Int), e.eval env = E → s.eval env = S → 0 < S →
    (∀ v, env i.name ≤ v → v < E + S → i.wrap v = v) → ∀ env0 : Env, env = Function.update env0 i.name (env i.name) →
    (∃ eP, PyFor rv i.name p (pyRange (env i.name) E S) env0 .norm eP ∧
        Exec rv rest (Function.update eP i.name (after (env i.name) E S)) o env') ∨
      (∃ eP, PyFor rv i.name p (pyRange (env i.name) E S) env0 .brk eP ∧ Exec rv rest eP o env') ∨
      (o = .ret ∧ PyFor rv i.name p (pyRange (env i.name) E S) env0 .ret env') := by
  generalize hq : Prog.loopr i e s p rest = q at hx
  induction hx with
  | loopEnd hc h2 =>
    cases hq
    intro E S he hs hS _ env0 h0
    rw [he] at hc
    refine .inl ⟨env0, ?_, ?_⟩
    · rw [pyRange_nil hS hc]
      exact .done
    · rw [after_nil hS hc]
      exact h0 ▸ h2
  | loopBrk hc h1 h2 =>
    cases hq
    intro E S he hs hS _ env0 h0
    rw [he] at hc
    refine .inr (.inl ⟨_, ?_, h2⟩)
    rw [pyRange_cons hS hc]
    exact .brk (h0 ▸ h1)
  | loopRet hc h1 =>
    cases hq
    intro E S he hs hS _ env0 h0
    rw [he] at hc
    refine .inr (.inr ⟨rfl, ?_⟩)
    rw [pyRange_cons hS hc]
    exact .ret (h0 ▸ h1)
  | @loopAgain _ _ _ _ _ _ env o1 e1 o env' hc h1 ho h2 _ ih2 =>
    cases hq
    intro E S he hs hS hw env0 h0
    rw [he] at hc
    have hi := h.var _ _ _ h1
    have hs' : s.eval e1 = S := (h.step _ _ _ h1).trans hs
    have hv : i.wrap (e1 i.name + s.eval e1) = env i.name + S := by
      rw [hi, hs']; exact hw _ (by omega) (by omega)
    rw [hv] at ih2
    simp only [Function.update_self] at ih2
    have := ih2 h trivial E S (by rw [h.endI, h.end_ _ _ _ h1, he]) (by rw [h.stepI, hs']) hS
      (fun v h1 h2 => hw v (by omega) h2) e1 rfl
    rw [pyRange_cons hS hc, after_cons hS hc]
    rcases this with ⟨eP, g1, g4⟩ | ⟨eP, g1, g2⟩ | ⟨g0, g1⟩
    · exact .inl ⟨eP, .next (h0 ▸ h1) ho g1, g4⟩
    · exact .inr (.inl ⟨eP, .next (h0 ▸ h1) ho g1, g2⟩)
    · exact .inr (.inr ⟨g0, .next (h0 ▸ h1) ho g1⟩)
  | _ => cases hq

theorem py_to_loopr (h : Plain rv i e s p) {E S : Int} (hS : 0 < S) {l : List Int} {env0 eP : Env} {o1 : Out}
    (hx : PyFor rv i.name p l env0 o1 eP) : ∀ (v : Int), l = pyRange v E S → e.eval env0 = E → s.eval env0 = S →
    (∀ u, v ≤ u → u < E + S → i.wrap u = u) →
    (o1 = .norm → ∀ o env', Exec rv rest (Function.update eP i.name (after v E S)) o env' →
      Exec rv (.loopr i e s p rest) (Function.update env0 i.name v) o env') ∧
    (o1 = .brk → ∀ o env', Exec rv rest eP o env' →
      Exec rv (.loopr i e s p rest) (Function.update env0 i.name v) o env') ∧
    (o1 = .ret → Exec rv (.loopr i e s p rest) (Function.update env0 i.name v) .ret eP) := by
  have key : ∀ {a : Int} {l : List Int} {v : Int}, a :: l = pyRange v E S → v < E ∧ a = v ∧ l = pyRange (v + S) E S := by
    intro a l v hl
    by_cases hv : v < E
    · rw [pyRange_cons hS hv] at hl
      cases hl
      exact ⟨hv, rfl, rfl⟩
    · rw [pyRange_nil hS hv] at hl; cases hl
  induction hx with
  | done =>
    intro v hl he hs _
    have hv : ¬ v < E := by
      intro hv
      rw [pyRange_cons hS hv] at hl
      cases hl
    refine ⟨fun _ o env' hr => ?_, by simp, by simp⟩
    rw [after_nil hS hv] at hr
    refine .loopEnd ?_ hr
    rw [h.endI, he, Function.update_self]
    exact hv
  | @next a l env o1 e1 o eP h1 ho _ ih =>
    intro v hl he hs hw
    obtain ⟨hv, rfl, hl⟩ := key hl
    have g1 := h.var _ _ _ h1
    have g2 := h.end_ _ _ _ h1
    have g3 := h.step _ _ _ h1
    rw [Function.update_self] at g1
    rw [h.endI, he] at g2
    rw [h.stepI, hs] at g3
    have hv' : i.wrap (e1 i.name + s.eval e1) = a + S := by rw [g1, g3]; exact hw _ (by omega) (by omega)
    obtain ⟨i1, i2, i3⟩ := ih (a + S) hl g2 g3 (fun u h1 h2 => hw u (by omega) h2)
    have hlt : (Function.update env i.name a) i.name < e.eval (Function.update env i.name a) := by
      rw [h.endI, he, Function.update_self]; exact hv
    refine ⟨fun k o env' hr => ?_, fun k o env' hr => ?_, fun k => ?_⟩
    · rw [after_cons hS hv] at hr
      exact .loopAgain hlt h1 ho (by rw [hv']; exact i1 k o env' hr)
    · exact .loopAgain hlt h1 ho (by rw [hv']; exact i2 k o env' hr)
    · exact .loopAgain hlt h1 ho (by rw [hv']; exact i3 k)
  | @brk a l env e1 h1 =>
    intro v hl he hs hw
    obtain ⟨hv, rfl, hl⟩ := key hl
    refine ⟨by simp, fun _ o env' hr => .loopBrk ?_ h1 hr, by simp⟩
    rw [h.endI, he, Function.update_self]; exact hv
  | @ret a l env e1 h1 =>
    intro v hl he hs hw
    obtain ⟨hv, rfl, hl⟩ := key hl
    refine ⟨by simp, by simp, fun _ => .loopRet ?_ h1⟩
    rw [h.endI, he, Function.update_self]; exact hv

/-- **C19, `for i in range(b, e, s)`.**  With a positive step, a body that changes neither the loop variable nor the
    bounds, and a loop variable wide enough for the values, the loop does what Python's does, except that after the last
    iteration the loop variable has the next value of the progression. -/
theorem c19_range {b : Expr} (h : Plain rv i e s p) {env : Env} (hS : 0 < s.eval env)
    (hb : i.wrap (b.eval env) = b.eval env)
    (hw : ∀ v, b.eval env ≤ v → v < e.eval env + s.eval env → i.wrap v = v) (o : Out) (env' : Env) :
    Exec rv (.forr i b e s p rest) env o env' ↔
      (∃ eP, PyFor rv i.name p (pyRange (b.eval env) (e.eval env) (s.eval env)) env .norm eP ∧
        Exec rv rest (Function.update eP i.name (after (b.eval env) (e.eval env) (s.eval env))) o env') ∨
      (∃ eP, PyFor rv i.name p (pyRange (b.eval env) (e.eval env) (s.eval env)) env .brk eP ∧ Exec rv rest eP o env') ∨
      (o = .ret ∧ PyFor rv i.name p (pyRange (b.eval env) (e.eval env) (s.eval env)) env .ret env') := by
  have hbind : bindAll [(i, b)] env = Function.update env i.name (b.eval env) := by
    simp only [bindAll, List.foldl_cons, List.foldl_nil, hb]
  constructor
  · intro hx
    cases hx with
    | assign hx =>
      rw [hbind] at hx
      have := loopr_to_py h hx (e.eval env) (s.eval env) (h.endI _ _) (h.stepI _ _) hS
        (by rw [Function.update_self]; exact hw) env (by rw [Function.update_self])
      rwa [Function.update_self] at this
  · intro hx
    refine .assign ?_
    rw [hbind]
    rcases hx with ⟨eP, h1, h2⟩ | ⟨eP, h1, h2⟩ | ⟨rfl, h1⟩
    · exact (py_to_loopr h hS h1 _ rfl rfl rfl hw).1 rfl o env' h2
    · exact (py_to_loopr h hS h1 _ rfl rfl rfl hw).2.1 rfl o env' h2
    · exact (py_to_loopr h hS h1 _ rfl rfl rfl hw).2.2 rfl

end

/-! ## Programs the compiler gets wrong -/

section
variable {name : String} {w : ℕ} {args : List (Reg × Expr)} {rv : Reg} {body : Prog} {rst : Expr} {uc : Bool}
  {E : ℕ → Env}

theorem run_eq (hb : body.Ok (.state name) rv) (ha : ∀ b ∈ args, b.1.name ≠ .state name ∧ Indep (.state name) b.2)
    (hw : (start name w args rv body).cur < 2 ^ w) (hE : Run name (start name w args rv body) rst uc E) (t : ℕ) :
    E t = lift (.state name) ((mstep (start name w args rv body).fsm)^[t] (0, E 0)) :=
  hE.eq (start_pl name w args rv body) (start_wf name w args rv body ha hb) hw t

/-- The FSM from given values on, with reset inactive. -/
def runFrom (s : CS) (uc : Bool) (e0 : Env) (t : ℕ) : Env := ((s.fsm.always (.int 0) uc).tick)^[t] e0

theorem runFrom_run (s : CS) (uc : Bool) (e0 : Env) (h : e0 (.state name) = 0) :
    Run name s (.int 0) uc (runFrom s uc e0) :=
  ⟨h, fun t => rfl, fun t => Function.iterate_succ_apply' _ _ _⟩

end

namespace Ex

def x : Reg := ⟨.user "x", 32, true, none⟩
def n : Reg := ⟨.user "n", 32, true, none⟩
def i : Reg := ⟨.user "i", 32, true, none⟩
def rv : Reg := ⟨.user "tmp_0", 32, true, none⟩
/-- `x + 1` etc. -/
def inc (r : Reg) : Expr := .fn fun env => env r.name + 1
def lt (r : Reg) (k : Int) : Expr := .fn fun env => if env r.name < k then 1 else 0
def eq (r : Reg) (k : Int) : Expr := .fn fun env => if env r.name = k then 1 else 0
def var (r : Reg) : Expr := .fn fun env => env r.name

theorem indep_int (v : Var) (k : Int) : Indep v (.int k) := fun _ _ => rfl
theorem indep_inc {v : Var} {r : Reg} (h : r.name ≠ v) : Indep v (inc r) := fun env y => by
  simp [inc, Expr.eval.eq_2, Function.update_of_ne h]
theorem indep_lt {v : Var} {r : Reg} {k : Int} (h : r.name ≠ v) : Indep v (lt r k) := fun env y => by
  simp [lt, Expr.eval.eq_2, Function.update_of_ne h]
theorem indep_eq {v : Var} {r : Reg} {k : Int} (h : r.name ≠ v) : Indep v (eq r k) := fun env y => by
  simp [eq, Expr.eval.eq_2, Function.update_of_ne h]
theorem indep_var {v : Var} {r : Reg} (h : r.name ≠ v) : Indep v (var r) := fun env y => by
  simp [var, Expr.eval.eq_2, Function.update_of_ne h]

/-- `x = 0; while x < 1: { if 1: break; while 0: pass; x = x + 1 }` -/
def misBreak : Prog := .assign [(x, .int 0)] (.while_ .nil (lt x 1)
  (.ifte (.int 1) (.brk .nil) .nil (.while_ .nil (.int 0) (.pass .nil) (.assign [(x, inc x)] .nil))) .nil)

/-- `x = 0; while f(x): { x = x + 1; if x == 3: break }` with `def f(k): return k == 0`. -/
def testCall : Prog := .assign [(x, .int 0)] (.while_ (.call [(i, var x)] n (.ret (some (eq i 0)) .nil) .nil) (var n)
  (.assign [(x, inc x)] (.ifte (eq x 3) (.brk .nil) .nil .nil)) .nil)

/-- `n = 3; x = 0; for i in range(n): { n = 1; x = x + 1 }` -/
def endChange : Prog := .assign [(n, .int 3)] (.assign [(x, .int 0)]
  (.forr i (.int 0) (var n) (.int 1) (.assign [(n, .int 1)] (.assign [(x, inc x)] .nil)) .nil))

/-- `x = 0; for i in range(3, 0, -1): x = x + 1` -/
def negStep : Prog := .assign [(x, .int 0)]
  (.forr i (.int 3) (.int 0) (.int (-1)) (.assign [(x, inc x)] .nil) .nil)

theorem ok_misBreak : misBreak.Ok (.state "th") rv := by
  refine ⟨?_, indep_lt (by decide), trivial, ⟨indep_int _ _, trivial, trivial, indep_int _ _, trivial, trivial, ?_, trivial⟩,
    trivial⟩ <;> intro b hb <;> simp only [List.mem_singleton] at hb <;> subst hb
  · exact ⟨by decide, indep_int _ _⟩
  · exact ⟨by decide, indep_inc (by decide)⟩

theorem ok_testCall : testCall.Ok (.state "th") rv := by
  refine ⟨?_, indep_var (by decide), ⟨?_, ⟨?_, trivial⟩, trivial⟩, ⟨?_, indep_eq (by decide), trivial, trivial, trivial⟩,
    trivial⟩ <;> intro b hb <;> simp only [List.mem_singleton, Option.mem_def, Option.some.injEq] at hb <;> subst hb
  · exact ⟨by decide, indep_int _ _⟩
  · exact ⟨by decide, indep_var (by decide)⟩
  · exact ⟨by decide, indep_eq (by decide)⟩
  · exact ⟨by decide, indep_inc (by decide)⟩

theorem ok_endChange : endChange.Ok (.state "th") rv := by
  refine ⟨?_, ?_, ?_, by decide, indep_var (by decide), indep_int _ _, ⟨?_, ?_, trivial⟩, trivial⟩ <;> intro b hb <;>
    simp only [List.mem_singleton] at hb <;> subst hb
  · exact ⟨by decide, indep_int _ _⟩
  · exact ⟨by decide, indep_int _ _⟩
  · exact ⟨by decide, indep_int _ _⟩
  · exact ⟨by decide, indep_int _ _⟩
  · exact ⟨by decide, indep_inc (by decide)⟩

theorem ok_negStep : negStep.Ok (.state "th") rv := by
  refine ⟨?_, ?_, by decide, indep_int _ _, indep_int _ _, ⟨?_, trivial⟩, trivial⟩ <;> intro b hb <;>
    simp only [List.mem_singleton] at hb <;> subst hb
  · exact ⟨by decide, indep_int _ _⟩
  · exact ⟨by decide, indep_int _ _⟩
  · exact ⟨by decide, indep_inc (by decide)⟩

/-- All registers are 0. -/
def e0 : Env := fun _ => 0

end Ex

open Ex in
/-- **C19, disagreement.**  `x = 0; while x < 1: { if 1: break; while 0: pass; x = x + 1 }` ends with `x = 0`; the FSM
    ends with `x = 1`: its `break` leaves only the inner loop. -/
theorem c19_not_break (rst : Expr) (uc : Bool) (E : ℕ → Env) (hE : Run "th" (start "th" 32 [] rv misBreak) rst uc E)
    (h0 : E 0 = e0) : (∃ env', Exec rv misBreak (bindAll [] (E 0)) .norm env' ∧ env' x.name = 0) ∧
      E 8 (.state "th") = (start "th" 32 [] rv misBreak).cur ∧ E 8 x.name = 1 := by
  constructor
  · refine ⟨_, .assign (.whileBrk .nil ?_ (.ifTx ?_ .brk (by decide)) .nil), ?_⟩
    · rw [h0]; decide
    · rfl
    · rw [h0]; decide
  · rw [run_eq ok_misBreak (by simp) (by decide) hE 8, h0]
    decide +kernel

open Ex in
/-- **C19, disagreement.**  `x = 0; while f(x): { x = x + 1; if x == 3: break }` with `f(k) = (k == 0)` ends with `x = 1`;
    the FSM ends with `x = 3`: it calls `f` only once. -/
theorem c19_not_while_call (rst : Expr) (uc : Bool) (E : ℕ → Env)
    (hE : Run "th" (start "th" 32 [] rv testCall) rst uc E) (h0 : E 0 = e0) :
    (∃ env', Exec rv testCall (bindAll [] (E 0)) .norm env' ∧ env' x.name = 1) ∧
      E 16 (.state "th") = (start "th" 32 [] rv testCall).cur ∧ E 16 x.name = 3 := by
  constructor
  · refine ⟨_, .assign (.whileAgain (.call .ret (.inr rfl) .nil) ?_ (.assign (.ifF ?_ .nil .nil)) (.inl rfl)
      (.whileEnd (.call .ret (.inr rfl) .nil) ?_ .nil)), ?_⟩
    all_goals rw [h0]; decide +kernel
  · rw [run_eq ok_testCall (by simp) (by decide) hE 16, h0]
    decide +kernel

open Ex in
/-- **C19, disagreement.**  In `n = 3; x = 0; for i in range(n): { n = 1; x = x + 1 }` the body is executed three times in
    Python, ending with `x = 3`; the FSM compares with the changed `n` and ends with `x = 1`. -/
theorem c19_not_range_end (rst : Expr) (uc : Bool) (E : ℕ → Env)
    (hE : Run "th" (start "th" 32 [] rv endChange) rst uc E) (h0 : E 0 = e0) :
    (∃ env', PyFor rv i.name (.assign [(n, .int 1)] (.assign [(x, inc x)] .nil)) (pyRange 0 3 1)
        (bindAll [(x, .int 0)] (bindAll [(n, .int 3)] (E 0))) .norm env' ∧ env' x.name = 3) ∧
      E 9 (.state "th") = (start "th" 32 [] rv endChange).cur ∧ E 9 x.name = 1 := by
  constructor
  · rw [show pyRange 0 3 1 = [0, 1, 2] by decide]
    refine ⟨_, .next (.assign (.assign .nil)) (.inl rfl) (.next (.assign (.assign .nil)) (.inl rfl)
      (.next (.assign (.assign .nil)) (.inl rfl) .done)), ?_⟩
    rw [h0]; decide +kernel
  · rw [run_eq ok_endChange (by simp) (by decide) hE 9, h0]
    decide +kernel

open Ex in
/-- **C19, disagreement.**  `x = 0; for i in range(3, 0, -1): x = x + 1` ends with `x = 3` in Python (`i` is 3, 2, 1); the
    FSM tests `i < 0` and ends with `x = 0`. -/
theorem c19_not_range_down (rst : Expr) (uc : Bool) (E : ℕ → Env)
    (hE : Run "th" (start "th" 32 [] rv negStep) rst uc E) (h0 : E 0 = e0) :
    (∃ env', PyFor rv i.name (.assign [(x, inc x)] .nil) [3, 2, 1] (bindAll [(x, .int 0)] (E 0)) .norm env' ∧
        env' x.name = 3) ∧
      E 4 (.state "th") = (start "th" 32 [] rv negStep).cur ∧ E 4 x.name = 0 := by
  constructor
  · refine ⟨_, .next (.assign .nil) (.inl rfl) (.next (.assign .nil) (.inl rfl)
      (.next (.assign .nil) (.inl rfl) .done)), ?_⟩
    rw [h0]; decide +kernel
  · rw [run_eq ok_negStep (by simp) (by decide) hE 4, h0]
    decide +kernel

open Ex in
/-- Such runs exist. -/
example : Run "th" (start "th" 32 [] rv misBreak) (.int 0) true (runFrom (start "th" 32 [] rv misBreak) true e0) :=
  runFrom_run _ _ _ rfl

namespace Ex

/-- `def f(n): x = 0; for i in range(0, n): { if i == 1: continue; if i == 3: break; x = x + i }; return x` -/
def sum : Prog := .assign [(x, .int 0)] (.forr i (.int 0) (var n) (.int 1)
  (.ifte (eq i 1) (.cont .nil) .nil (.ifte (eq i 3) (.brk .nil) .nil
    (.assign [(x, .fn fun env => env x.name + env i.name)] .nil))) (.ret (some (var x)) .nil))

theorem ok_sum : sum.Ok (.state "th") rv := by
  refine ⟨?_, ?_, by decide, indep_var (by decide), indep_int _ _, ⟨indep_eq (by decide), trivial, trivial,
    indep_eq (by decide), trivial, trivial, ?_, trivial⟩, ?_, trivial⟩ <;> intro b hb <;>
    simp only [List.mem_singleton, Option.mem_def, Option.some.injEq] at hb <;> subst hb
  · exact ⟨by decide, indep_int _ _⟩
  · exact ⟨by decide, indep_int _ _⟩
  · refine ⟨by decide, fun env y => ?_⟩
    simp only [Expr.eval.eq_2]
    rw [Function.update_of_ne (by decide), Function.update_of_ne (by decide)]
  · exact ⟨by decide, indep_var (by decide)⟩

/-- Called with `n = 5`: 0 + 2, then `break`. -/
theorem exec_sum : ∃ env', Exec rv sum (bindAll [(n, .int 5)] e0) .ret env' ∧ env' rv.name = 2 := by
  refine ⟨_, .assign (.assign (.loopAgain ?_ (.ifF ?_ .nil (.ifF ?_ .nil (.assign .nil))) (.inl rfl)
    (.loopAgain ?_ (.ifTx ?_ .cont (by decide)) (.inr rfl)
    (.loopAgain ?_ (.ifF ?_ .nil (.ifF ?_ .nil (.assign .nil))) (.inl rfl)
    (.loopBrk ?_ (.ifF ?_ .nil (.ifTx ?_ .brk (by decide))) .ret))))), ?_⟩
  all_goals decide +kernel

/-- All hypotheses of `c19_final` hold; it gives the result 2 in the return register. -/
example : ∃ t, runFrom (start "th" 32 [(n, .int 5)] rv sum) true e0 t rv.name = 2 := by
  obtain ⟨env', h, h2⟩ := exec_sum
  obtain ⟨t, -, h3⟩ := c19_final (name := "th") (w := 32) (args := [(n, .int 5)]) (rst := .int 0) (uc := true)
    (by decide) (by decide) ok_sum (by intro b hb; simp only [List.mem_singleton] at hb; subst hb
                                       exact ⟨by decide, indep_int _ _⟩)
    (by decide) (runFrom_run (name := "th") (start "th" 32 [(n, .int 5)] rv sum) true e0 rfl) h
  exact ⟨t, ((h3 t (Nat.le_refl _)).2 rv.name (by decide)).trans h2⟩

/-- All hypotheses of `c19_range` hold for the loop of `sum`. -/
theorem plain_sum : Plain rv i (var n) (.int 1) (.ifte (eq i 1) (.cont .nil) .nil (.ifte (eq i 3) (.brk .nil) .nil
    (.assign [(x, .fn fun env => env x.name + env i.name)] .nil))) := by
  have key : ∀ (env : Env) (o : Out) (env' : Env), Exec rv (.ifte (eq i 1) (.cont .nil) .nil (.ifte (eq i 3) (.brk .nil)
      .nil (.assign [(x, .fn fun env => env x.name + env i.name)] .nil))) env o env' →
      ∀ y ≠ x.name, env' y = env y := by
    intro env o env' h y hy
    cases h with
    | ifT _ h _ => cases h
    | ifTx _ h _ => cases h; rfl
    | ifFx _ h hne => cases h; exact absurd rfl hne
    | ifF _ h h2 =>
      cases h
      cases h2 with
      | ifT _ h _ => cases h
      | ifTx _ h _ => cases h; rfl
      | ifFx _ h hne => cases h; exact absurd rfl hne
      | ifF _ h h2 =>
        cases h
        cases h2 with
        | assign h => cases h; simp [bindAll, Function.update_of_ne hy]
  exact ⟨fun _ _ _ h => key _ _ _ h _ (by decide), fun _ _ _ h => key _ _ _ h _ (by decide), fun _ _ _ _ => rfl,
    indep_var (by decide), indep_int _ _⟩

end Ex

end Thr
