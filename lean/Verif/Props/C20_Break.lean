import Verif.Props.C19_Thread

/-!
# C20: `break` and `continue` belong to the innermost loop around them

`Prog.sites` lists the reachable `break` and `continue` statements of a program with the states of the innermost loop
around each, following the syntax.
-/

namespace Thr
open Hdl

/-- The number of states of a program. -/
def Prog.size : Prog → ℕ
  | .nil => 0
  | .pass rest => rest.size
  | .assign _ rest => 1 + rest.size
  | .ifte _ p q rest => 1 + p.size + (if q.isNil then 0 else 1 + q.size) + rest.size
  | .while_ pre _ p rest => pre.size + 1 + p.size + 1 + rest.size
  | .loopr _ _ _ p rest => 1 + p.size + 1 + rest.size
  | .brk rest => 1 + rest.dead
  | .cont rest => 1 + rest.dead
  | .ret _ rest => 1 + rest.dead
  | .call _ _ body rest => 1 + body.size + rest.size

/-- The states of a loop: where the condition `cond` is tested, where it is left to, and where the next iteration
    begins, with the assignments made there (the update of the loop variable of a `for`; in a `while`, `again = check`). -/
structure LoopI where
  check : ℕ
  cond : Expr
  exit : ℕ
  again : ℕ
  upd : List (Reg × Expr)

/-- The reachable `break` (`true`) and `continue` (`false`) statements of a program that starts in state `a` in the loop
    `L`: the state of the statement, and the innermost loop around it. -/
def Prog.sites : Prog → ℕ → Option LoopI → List (ℕ × Bool × LoopI)
  | .nil, _, _ => []
  | .pass rest, a, L => rest.sites a L
  | .assign _ rest, a, L => rest.sites (a + 1) L
  | .ifte _ p q rest, a, L =>
    p.sites (a + 1) L ++
      if q.isNil then rest.sites (a + 1 + p.size) L
      else q.sites (a + 1 + p.size + 1) L ++ rest.sites (a + 1 + p.size + 1 + q.size) L
  | .while_ _ c p rest, a, L =>
    p.sites (a + 1) (some ⟨a, c, a + 1 + p.size + 1, a, []⟩) ++ rest.sites (a + 1 + p.size + 1) L
  | .loopr i e s p rest, a, L =>
    p.sites (a + 1) (some ⟨a, ltE i e, a + 1 + p.size + 1, a + 1 + p.size, [(i, plusE i s)]⟩) ++
      rest.sites (a + 1 + p.size + 1) L
  | .brk _, a, L => L.toList.map fun L => (a, true, L)
  | .cont _, a, L => L.toList.map fun L => (a, false, L)
  | .ret _ _, _, _ => []
  | .call _ _ body rest, a, L => body.sites (a + 1) none ++ rest.sites (a + 1 + body.size) L

theorem Lay.size {T : FsmSt} {p : Prog} {rv : Reg} {a b β γ ρ : ℕ} (h : Lay T p rv a b β γ ρ) : b = a + p.size := by
  induction p generalizing rv a b β γ ρ with
  | nil => exact h
  | pass rest ih => exact ih h
  | assign bs rest ih => have := ih h.2.2; simp only [Prog.size]; omega
  | ifte c p q rest ihp ihq ihr =>
    cases hq : q.isNil with
    | true =>
      cases q <;> simp only [Prog.isNil, Bool.false_eq_true] at hq
      obtain ⟨m, -, -, h1, h2⟩ := h
      have := ihp h1
      have := ihr h2
      simp only [Prog.size, Prog.isNil, if_true]; omega
    | false =>
      have h' : ∃ m e, Binds T a [] ∧ jl T a = [⟨a + 1, some c, some (m + 1)⟩] ∧ Lay T p rv (a + 1) m β γ ρ ∧
          Binds T m [] ∧ JumpsTo (jl T m) e ∧ Lay T q rv (m + 1) e β γ ρ ∧ Lay T rest rv e b β γ ρ := by
        cases q <;> first | exact h | simp [Prog.isNil] at hq
      obtain ⟨m, e, -, -, h1, -, -, h2, h3⟩ := h'
      have := ihp h1
      have := ihq h2
      have := ihr h3
      simp only [Prog.size, hq, Bool.false_eq_true, if_false]; omega
  | while_ pre c p rest ih0 ihp ihr =>
    obtain ⟨rfl, m, -, -, h1, -, -, h2⟩ := h
    have := ihp h1
    have := ihr h2
    simp only [Prog.size]; omega
  | loopr i e s p rest ihp ihr =>
    obtain ⟨m, -, -, h1, -, -, h2⟩ := h
    have := ihp h1
    have := ihr h2
    simp only [Prog.size]; omega
  | brk rest _ => have := h.2.2; simp only [Prog.size]; omega
  | cont rest _ => have := h.2.2; simp only [Prog.size]; omega
  | ret e rest _ => have := h.2.2; simp only [Prog.size]; omega
  | call args rv' body rest ihb ihr =>
    obtain ⟨-, m, -, -, h1, h2⟩ := h
    have := ihb h1
    have := ihr h2
    simp only [Prog.size]; omega

/-- The states of a loop in the FSM. -/
structure LoopOk (T : FsmSt) (L : LoopI) : Prop where
  checkB : Binds T L.check []
  checkJ : jl T L.check = [⟨L.check + 1, some L.cond, some L.exit⟩]
  again : (L.again = L.check ∧ L.upd = []) ∨ (Binds T L.again L.upd ∧ JumpsTo (jl T L.again) L.check)

structure SiteOk (T : FsmSt) (x : ℕ × Bool × LoopI) : Prop where
  binds : Binds T x.1 []
  jump : JumpsTo (jl T x.1) (if x.2.1 then x.2.2.exit else x.2.2.again)
  loop : LoopOk T x.2.2

theorem Lay.sites {T : FsmSt} {p : Prog} {rv : Reg} {a b β γ ρ : ℕ} {L : Option LoopI} (h : Lay T p rv a b β γ ρ)
    (hL : ∀ l ∈ L, β = l.exit ∧ γ = l.again ∧ LoopOk T l) : ∀ x ∈ p.sites a L, SiteOk T x := by
  induction p generalizing rv a b β γ ρ L with
  | nil => intro x hx; simp [Prog.sites] at hx
  | pass rest ih => exact ih h hL
  | assign bs rest ih => exact ih h.2.2 hL
  | ifte c p q rest ihp ihq ihr =>
    intro x hx
    simp only [Prog.sites, List.mem_append] at hx
    cases hq : q.isNil with
    | true =>
      cases q <;> simp only [Prog.isNil, Bool.false_eq_true] at hq
      obtain ⟨m, -, -, h1, h2⟩ := h
      have := h1.size
      subst this
      simp only [Prog.isNil, if_true] at hx
      exact hx.elim (ihp h1 hL x) (ihr h2 hL x)
    | false =>
      have h' : ∃ m e, Binds T a [] ∧ jl T a = [⟨a + 1, some c, some (m + 1)⟩] ∧ Lay T p rv (a + 1) m β γ ρ ∧
          Binds T m [] ∧ JumpsTo (jl T m) e ∧ Lay T q rv (m + 1) e β γ ρ ∧ Lay T rest rv e b β γ ρ := by
        cases q <;> first | exact h | simp [Prog.isNil] at hq
      obtain ⟨m, e, -, -, h1, -, -, h2, h3⟩ := h'
      have := h1.size
      subst this
      have := h2.size
      subst this
      simp only [hq, Bool.false_eq_true, if_false, List.mem_append] at hx
      exact hx.elim (ihp h1 hL x) fun hx => hx.elim (ihq h2 hL x) (ihr h3 hL x)
  | while_ pre c p rest ih0 ihp ihr =>
    obtain ⟨rfl, m, g1, g2, h1, g3, g4, h2⟩ := h
    have := h1.size
    subst this
    intro x hx
    simp only [Prog.sites, List.mem_append] at hx
    refine hx.elim (ihp h1 ?_ x) (ihr h2 hL x)
    intro l hl
    cases hl
    exact ⟨rfl, rfl, g1, g2, .inl ⟨rfl, rfl⟩⟩
  | loopr i e s p rest ihp ihr =>
    obtain ⟨m, g1, g2, h1, g3, g4, h2⟩ := h
    have := h1.size
    subst this
    intro x hx
    simp only [Prog.sites, List.mem_append] at hx
    refine hx.elim (ihp h1 ?_ x) (ihr h2 hL x)
    intro l hl
    cases hl
    exact ⟨rfl, rfl, g1, g2, .inr ⟨g3, g4⟩⟩
  | brk rest _ =>
    intro x hx
    cases L with
    | none => simp [Prog.sites] at hx
    | some l =>
      simp only [Prog.sites, Option.toList_some, List.map_cons, List.map_nil, List.mem_singleton] at hx
      subst hx
      obtain ⟨k1, k2, k3⟩ := hL l rfl
      exact ⟨h.1, by simpa [k1] using h.2.1, k3⟩
  | cont rest _ =>
    intro x hx
    cases L with
    | none => simp [Prog.sites] at hx
    | some l =>
      simp only [Prog.sites, Option.toList_some, List.map_cons, List.map_nil, List.mem_singleton] at hx
      subst hx
      obtain ⟨k1, k2, k3⟩ := hL l rfl
      exact ⟨h.1, by simpa [k2] using h.2.1, k3⟩
  | ret e rest _ => intro x hx; simp [Prog.sites] at hx
  | call args rv' body rest ihb ihr =>
    obtain ⟨-, m, -, -, h1, h2⟩ := h
    have := h1.size
    subst this
    intro x hx
    simp only [Prog.sites, List.mem_append] at hx
    exact hx.elim (ihb h1 (by simp) x) (ihr h2 hL x)

section
variable {name : String} {w : ℕ} {args : List (Reg × Expr)} {rv : Reg} {body : Prog} {rst : Expr} {uc : Bool}
  {E : ℕ → Env}

/-- **C20.**  In a `good` program, whenever the FSM is in the state of a `break`, the next state is the exit of the
    innermost loop around it; in the state of a `continue`, the state where the next iteration of that loop begins.  No
    register but the state register changes.

    The exit is the state entered when the condition of that loop is false; the next iteration begins with the test of
    the condition, after updating the loop variable if it is a `for` loop. -/
theorem c20_innermost (hg : body.good = true) (he : body.esc = false) (hb : body.Ok (.state name) rv)
    (ha : ∀ b ∈ args, b.1.name ≠ .state name ∧ Indep (.state name) b.2)
    (hw : (start name w args rv body).cur < 2 ^ w) (hE : Run name (start name w args rv body) rst uc E)
    {site : ℕ} {isBreak : Bool} {L : LoopI} (hs : (site, isBreak, L) ∈ body.sites 1 none) (t : ℕ) :
    (E t (.state name) = site →
      E (t + 1) = Function.update (E t) (.state name) ((if isBreak then L.exit else L.again : ℕ) : Int)) ∧
    (E t (.state name) = L.check → L.cond.truthy (E t) = false →
      E (t + 1) = Function.update (E t) (.state name) (L.exit : Int)) ∧
    (E t (.state name) = L.check → L.cond.truthy (E t) = true → E (t + 1) (.state name) = ((L.check + 1 : ℕ) : Int)) ∧
    (L.again ≠ L.check → E t (.state name) = L.again →
      E (t + 1) = Function.update (bindAll L.upd (E t)) (.state name) (L.check : Int)) := by
  obtain ⟨hp, hf, hl⟩ := start_lay name w args rv body hg he
  have hwf := start_wf name w args rv body ha hb
  have hok : SiteOk (start name w args rv body).fsm (site, isBreak, L) :=
    Lay.sites (L := none) hl (by simp) _ (by
      simp only [Prog.sites, List.mem_append]
      exact .inl hs)
  have key : ∀ k : ℕ, E t (.state name) = k →
      E (t + 1) = lift (.state name) (mstep (start name w args rv body).fsm (k, E t)) := by
    intro k hk
    have h1 : lift (.state name) (k, E t) = E t := by
      funext y
      by_cases hy : y = .state name
      · subst hy; simp [lift, hk]
      · simp [lift, hy]
    have := tick_lift hp hwf hw rst uc k (E t) (by rw [h1]; exact hE.norst t)
    rw [h1] at this
    rw [hE.step, this]
  refine ⟨fun h => ?_, fun h hc => ?_, fun h hc => ?_, fun hne h => ?_⟩
  · rw [key _ h, mstep_to hok.binds hok.jump]
    rfl
  · rw [key _ h, mstep_cond hok.loop.checkB hok.loop.checkJ, if_neg (by simp [hc])]
    rfl
  · rw [key _ h, mstep_cond hok.loop.checkB hok.loop.checkJ, if_pos hc]
    simp [lift]
  · rcases hok.loop.again with h' | h'
    · exact absurd h'.1 hne
    · rw [key _ h, mstep_to h'.1 h'.2]
      rfl

open Ex in
/-- **C20, disagreement.**  In `while x < 1: { if 1: break; while 0: pass; x = x + 1 }` the `break` belongs to the outer
    loop, which is left to state 9; the FSM goes from the state of the `break` to state 7, the exit of the inner loop. -/
theorem c20_not_innermost : (∃ L, (4, true, L) ∈ misBreak.sites 1 none ∧ L.check = 2 ∧ L.exit = 9) ∧
    (∀ rst uc E, Run "th" (start "th" 32 [] rv misBreak) rst uc E → E 0 = e0 →
      E 4 (.state "th") = 4 ∧ E 5 (.state "th") = 7) := by
  refine ⟨⟨_, List.mem_append_left _ (List.mem_append_left _ (List.mem_singleton.2 rfl)), rfl, rfl⟩, ?_⟩
  intro rst uc E hE h0
  rw [run_eq ok_misBreak (by simp) (by decide) hE 4, run_eq ok_misBreak (by simp) (by decide) hE 5, h0]
  decide +kernel

open Ex in
/-- A program with both: the `continue` in state 5 goes to the update in state 9, the `break` in state 7 to the exit in
    state 10 (`c20_innermost` applies, see the example after `exec_sum`). -/
example : (sum.sites 1 none).map (fun x => (x.1, x.2.1, x.2.2.check, x.2.2.exit, x.2.2.again)) =
    [(5, false, 3, 10, 9), (7, true, 3, 10, 9)] := by decide

end

end Thr
