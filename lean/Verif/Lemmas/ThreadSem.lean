import Verif.Model.Thread
import Mathlib.Logic.Function.Iterate
import Mathlib.Data.Nat.Notation

/-!
# Meaning of thread programs, and of a layout of states
-/

namespace Thr
open Hdl

/-- How a list of statements ends. -/
inductive Out
  | norm | brk | cont | ret
  deriving DecidableEq

/-- Simultaneous assignment: the right-hand sides are evaluated first; the value is stored in the width of the
    register. -/
def bindAll (bs : List (Reg × Expr)) (env : Env) : Env :=
  bs.foldl (fun acc b => Function.update acc b.1.name (b.1.wrap (b.2.eval env))) env

/-- Execution of a list of statements in program order: from `env`, it ends as `o` with the values `env'`. -/
inductive Exec : Reg → Prog → Env → Out → Env → Prop
  | nil {rv env} : Exec rv .nil env .norm env
  | pass {rv rest env o env'} : Exec rv rest env o env' → Exec rv (.pass rest) env o env'
  | assign {rv bs rest env o env'} : Exec rv rest (bindAll bs env) o env' → Exec rv (.assign bs rest) env o env'
  | ifT {rv c p q rest env e1 o env'} : c.truthy env = true → Exec rv p env .norm e1 → Exec rv rest e1 o env' →
      Exec rv (.ifte c p q rest) env o env'
  | ifTx {rv c p q rest env o e1} : c.truthy env = true → Exec rv p env o e1 → o ≠ .norm →
      Exec rv (.ifte c p q rest) env o e1
  | ifF {rv c p q rest env e1 o env'} : c.truthy env = false → Exec rv q env .norm e1 → Exec rv rest e1 o env' →
      Exec rv (.ifte c p q rest) env o env'
  | ifFx {rv c p q rest env o e1} : c.truthy env = false → Exec rv q env o e1 → o ≠ .norm →
      Exec rv (.ifte c p q rest) env o e1
  | whileEnd {rv pre c p rest env e0 o env'} : Exec rv pre env .norm e0 → c.truthy e0 = false →
      Exec rv rest e0 o env' → Exec rv (.while_ pre c p rest) env o env'
  | whileAgain {rv pre c p rest env e0 o1 e1 o env'} : Exec rv pre env .norm e0 → c.truthy e0 = true →
      Exec rv p e0 o1 e1 → (o1 = .norm ∨ o1 = .cont) → Exec rv (.while_ pre c p rest) e1 o env' →
      Exec rv (.while_ pre c p rest) env o env'
  | whileBrk {rv pre c p rest env e0 e1 o env'} : Exec rv pre env .norm e0 → c.truthy e0 = true →
      Exec rv p e0 .brk e1 → Exec rv rest e1 o env' → Exec rv (.while_ pre c p rest) env o env'
  | whileRet {rv pre c p rest env e0 e1} : Exec rv pre env .norm e0 → c.truthy e0 = true →
      Exec rv p e0 .ret e1 → Exec rv (.while_ pre c p rest) env .ret e1
  | loopEnd {rv i e s p rest env o env'} : ¬ env i.name < e.eval env →
      Exec rv rest env o env' → Exec rv (.loopr i e s p rest) env o env'
  | loopAgain {rv i e s p rest env o1 e1 o env'} : env i.name < e.eval env →
      Exec rv p env o1 e1 → (o1 = .norm ∨ o1 = .cont) →
      Exec rv (.loopr i e s p rest) (Function.update e1 i.name (i.wrap (e1 i.name + s.eval e1))) o env' →
      Exec rv (.loopr i e s p rest) env o env'
  | loopBrk {rv i e s p rest env e1 o env'} : env i.name < e.eval env →
      Exec rv p env .brk e1 → Exec rv rest e1 o env' → Exec rv (.loopr i e s p rest) env o env'
  | loopRet {rv i e s p rest env e1} : env i.name < e.eval env →
      Exec rv p env .ret e1 → Exec rv (.loopr i e s p rest) env .ret e1
  | brk {rv rest env} : Exec rv (.brk rest) env .brk env
  | cont {rv rest env} : Exec rv (.cont rest) env .cont env
  | ret {rv e rest env} : Exec rv (.ret e rest) env .ret (bindAll ((e.map fun e => (rv, e)).toList) env)
  | call {rv args rv' body rest env o1 e1 o env'} : Exec rv' body (bindAll args env) o1 e1 →
      (o1 = .norm ∨ o1 = .ret) → Exec rv rest e1 o env' → Exec rv (.call args rv' body rest) env o env'

/-- Execution is deterministic. -/
theorem Exec.det {rv : Reg} {p : Prog} {env env1 env2 : Env} {o1 o2 : Out} (h1 : Exec rv p env o1 env1)
    (h2 : Exec rv p env o2 env2) : o1 = o2 ∧ env1 = env2 := by
  induction h1 generalizing o2 env2 with
  | nil => cases h2; exact ⟨rfl, rfl⟩
  | pass _ ih => cases h2 with | pass h => exact ih h
  | assign _ ih => cases h2 with | assign h => exact ih h
  | ifT hc _ _ ih1 ih2 =>
    cases h2 with
    | ifT _ h3 h4 => obtain ⟨-, rfl⟩ := ih1 h3; exact ih2 h4
    | ifTx _ h3 hne => exact absurd (ih1 h3).1.symm hne
    | ifF hc' => rw [hc] at hc'; cases hc'
    | ifFx hc' => rw [hc] at hc'; cases hc'
  | ifTx hc _ hne ih1 =>
    cases h2 with
    | ifT _ h3 h4 => exact absurd (ih1 h3).1 hne
    | ifTx _ h3 _ => exact ih1 h3
    | ifF hc' => rw [hc] at hc'; cases hc'
    | ifFx hc' => rw [hc] at hc'; cases hc'
  | ifF hc _ _ ih1 ih2 =>
    cases h2 with
    | ifF _ h3 h4 => obtain ⟨-, rfl⟩ := ih1 h3; exact ih2 h4
    | ifFx _ h3 hne => exact absurd (ih1 h3).1.symm hne
    | ifT hc' => rw [hc] at hc'; cases hc'
    | ifTx hc' => rw [hc] at hc'; cases hc'
  | ifFx hc _ hne ih1 =>
    cases h2 with
    | ifF _ h3 h4 => exact absurd (ih1 h3).1 hne
    | ifFx _ h3 _ => exact ih1 h3
    | ifT hc' => rw [hc] at hc'; cases hc'
    | ifTx hc' => rw [hc] at hc'; cases hc'
  | whileEnd _ hc _ ih0 ih1 =>
    cases h2 with
    | whileEnd h0 _ h3 => obtain ⟨-, rfl⟩ := ih0 h0; exact ih1 h3
    | whileAgain h0 hc' => obtain ⟨-, rfl⟩ := ih0 h0; rw [hc] at hc'; cases hc'
    | whileBrk h0 hc' => obtain ⟨-, rfl⟩ := ih0 h0; rw [hc] at hc'; cases hc'
    | whileRet h0 hc' => obtain ⟨-, rfl⟩ := ih0 h0; rw [hc] at hc'; cases hc'
  | whileAgain _ hc _ ho _ ih0 ih1 ih2 =>
    cases h2 with
    | whileEnd h0 hc' => obtain ⟨-, rfl⟩ := ih0 h0; rw [hc] at hc'; cases hc'
    | whileAgain h0 _ h3 _ h4 => obtain ⟨-, rfl⟩ := ih0 h0; obtain ⟨-, rfl⟩ := ih1 h3; exact ih2 h4
    | whileBrk h0 _ h3 => obtain ⟨-, rfl⟩ := ih0 h0; obtain ⟨rfl, -⟩ := ih1 h3; simp at ho
    | whileRet h0 _ h3 => obtain ⟨-, rfl⟩ := ih0 h0; obtain ⟨rfl, -⟩ := ih1 h3; simp at ho
  | whileBrk _ hc _ _ ih0 ih1 ih2 =>
    cases h2 with
    | whileEnd h0 hc' => obtain ⟨-, rfl⟩ := ih0 h0; rw [hc] at hc'; cases hc'
    | whileAgain h0 _ h3 ho => obtain ⟨-, rfl⟩ := ih0 h0; obtain ⟨rfl, -⟩ := ih1 h3; simp at ho
    | whileBrk h0 _ h3 h4 => obtain ⟨-, rfl⟩ := ih0 h0; obtain ⟨-, rfl⟩ := ih1 h3; exact ih2 h4
    | whileRet h0 _ h3 => obtain ⟨-, rfl⟩ := ih0 h0; cases (ih1 h3).1
  | whileRet _ hc _ ih0 ih1 =>
    cases h2 with
    | whileEnd h0 hc' => obtain ⟨-, rfl⟩ := ih0 h0; rw [hc] at hc'; cases hc'
    | whileAgain h0 _ h3 ho => obtain ⟨-, rfl⟩ := ih0 h0; obtain ⟨rfl, -⟩ := ih1 h3; simp at ho
    | whileBrk h0 _ h3 => obtain ⟨-, rfl⟩ := ih0 h0; cases (ih1 h3).1
    | whileRet h0 _ h3 => obtain ⟨-, rfl⟩ := ih0 h0; exact ih1 h3
  | loopEnd hc _ ih1 =>
    cases h2 with
    | loopEnd _ h3 => exact ih1 h3
    | loopAgain hc' => exact absurd hc' hc
    | loopBrk hc' => exact absurd hc' hc
    | loopRet hc' => exact absurd hc' hc
  | loopAgain hc _ ho _ ih1 ih2 =>
    cases h2 with
    | loopEnd hc' => exact absurd hc hc'
    | loopAgain _ h3 _ h4 => obtain ⟨-, rfl⟩ := ih1 h3; exact ih2 h4
    | loopBrk _ h3 => obtain ⟨rfl, -⟩ := ih1 h3; simp at ho
    | loopRet _ h3 => obtain ⟨rfl, -⟩ := ih1 h3; simp at ho
  | loopBrk hc _ _ ih1 ih2 =>
    cases h2 with
    | loopEnd hc' => exact absurd hc hc'
    | loopAgain _ h3 ho => obtain ⟨rfl, -⟩ := ih1 h3; simp at ho
    | loopBrk _ h3 h4 => obtain ⟨-, rfl⟩ := ih1 h3; exact ih2 h4
    | loopRet _ h3 => cases (ih1 h3).1
  | loopRet hc _ ih1 =>
    cases h2 with
    | loopEnd hc' => exact absurd hc hc'
    | loopAgain _ h3 ho => obtain ⟨rfl, -⟩ := ih1 h3; simp at ho
    | loopBrk _ h3 => cases (ih1 h3).1
    | loopRet _ h3 => exact ih1 h3
  | brk => cases h2; exact ⟨rfl, rfl⟩
  | cont => cases h2; exact ⟨rfl, rfl⟩
  | ret => cases h2; exact ⟨rfl, rfl⟩
  | call _ _ _ ih1 ih2 =>
    cases h2 with
    | call h3 _ h4 => obtain ⟨-, rfl⟩ := ih1 h3; exact ih2 h4

/-- The statement list contains a `break` or `continue` of an enclosing loop. -/
def Prog.esc : Prog → Bool
  | .nil => false
  | .pass rest => rest.esc
  | .assign _ rest => rest.esc
  | .ifte _ p q rest => p.esc || q.esc || rest.esc
  | .while_ pre _ _ rest => pre.esc || rest.esc
  | .loopr _ _ _ _ rest => rest.esc
  | .brk _ => true
  | .cont _ => true
  | .ret _ rest => rest.esc
  | .call _ _ _ rest => rest.esc

theorem Exec.closed {rv : Reg} {p : Prog} {env env' : Env} {o : Out} (h : Exec rv p env o env')
    (he : p.esc = false) : o = .norm ∨ o = .ret := by
  induction h <;> simp_all [Prog.esc]

/-! ## The machine -/

/-- The jumps of a state. -/
def jl (T : FsmSt) (i : ℕ) : List Jump := T.jumps.filterMap fun e => if e.1 = i then some e.2 else none

/-- The state after the jumps of a list, later ones winning. -/
def nextSt (l : List Jump) (env : Env) (i : ℕ) : ℕ :=
  l.foldl (fun cur j => match j.cond with
    | none => j.dst
    | some c => if c.truthy env then j.dst else j.elseDst.getD cur) i

/-- One clock cycle of the FSM, as state and other values. -/
def mstep (T : FsmSt) (c : ℕ × Env) : ℕ × Env :=
  (nextSt (jl T c.1) c.2 c.1, (Code.block (T.at' 0 c.1)).exec c.2 c.2)

/-- From `c` the machine gets to `c'`, through states in `[lo, hi)` only. -/
def Leads (T : FsmSt) (lo hi : ℕ) (c c' : ℕ × Env) : Prop :=
  ∃ n, (mstep T)^[n] c = c' ∧ ∀ k < n, lo ≤ ((mstep T)^[k] c).1 ∧ ((mstep T)^[k] c).1 < hi

theorem Leads.refl (T : FsmSt) (lo hi : ℕ) (c : ℕ × Env) : Leads T lo hi c c := ⟨0, rfl, by simp⟩

theorem Leads.trans {T : FsmSt} {lo hi : ℕ} {a b c : ℕ × Env} (h1 : Leads T lo hi a b) (h2 : Leads T lo hi b c) :
    Leads T lo hi a c := by
  obtain ⟨n, e1, k1⟩ := h1
  obtain ⟨m, e2, k2⟩ := h2
  refine ⟨m + n, by rw [Function.iterate_add_apply, e1, e2], fun k hk => ?_⟩
  rcases Nat.lt_or_ge k n with h | h
  · exact k1 k h
  · obtain ⟨j, rfl⟩ := Nat.exists_eq_add_of_le h
    rw [Nat.add_comm, Function.iterate_add_apply, e1]
    exact k2 j (by omega)

theorem Leads.mono {T : FsmSt} {lo hi lo' hi' : ℕ} {a b : ℕ × Env} (h : Leads T lo hi a b) (h1 : lo' ≤ lo)
    (h2 : hi ≤ hi') : Leads T lo' hi' a b := by
  obtain ⟨n, e, k⟩ := h
  exact ⟨n, e, fun j hj => ⟨Nat.le_trans h1 (k j hj).1, Nat.lt_of_lt_of_le (k j hj).2 h2⟩⟩

theorem Leads.one {T : FsmSt} {lo hi : ℕ} {a b : ℕ × Env} (h1 : lo ≤ a.1) (h2 : a.1 < hi) (e : mstep T a = b) :
    Leads T lo hi a b :=
  ⟨1, e, fun k hk => by obtain rfl : k = 0 := by omega
                        exact ⟨h1, h2⟩⟩

/-! ## Layout of a program in the states -/

/-- The number of states that unreachable statements (after a jump) take: only the jumps among them take one. -/
def Prog.dead : Prog → ℕ
  | .nil => 0
  | .pass rest => rest.dead
  | .assign _ rest => rest.dead
  | .ifte _ _ _ rest => rest.dead
  | .while_ _ _ _ rest => rest.dead
  | .loopr _ _ _ _ rest => rest.dead
  | .brk rest => rest.dead + 1
  | .cont rest => rest.dead + 1
  | .ret _ rest => rest.dead + 1
  | .call _ _ _ rest => rest.dead

/-- All jumps of the state go to `t`. -/
def JumpsTo (l : List Jump) (t : ℕ) : Prop := l ≠ [] ∧ ∀ j ∈ l, j = ⟨t, none, none⟩

/-- State `a` makes the assignments `bs` (and nothing else). -/
def Binds (T : FsmSt) (a : ℕ) (bs : List (Reg × Expr)) : Prop := T.at' 0 a = bs.map fun b => .subst b.1 b.2

/-- The states from `a` on, before `b`, hold the program: it is entered in state `a` and ends in state `b`; `break`
    goes to `β`, `continue` to `γ`, `return` to `ρ`. -/
def Lay (T : FsmSt) : Prog → Reg → ℕ → ℕ → ℕ → ℕ → ℕ → Prop
  | .nil, _, a, b, _, _, _ => b = a
  | .pass rest, rv, a, b, β, γ, ρ => Lay T rest rv a b β γ ρ
  | .assign bs rest, rv, a, b, β, γ, ρ =>
    Binds T a bs ∧ JumpsTo (jl T a) (a + 1) ∧ Lay T rest rv (a + 1) b β γ ρ
  | .ifte c p .nil rest, rv, a, b, β, γ, ρ =>
    ∃ m, Binds T a [] ∧ jl T a = [⟨a + 1, some c, some m⟩] ∧ Lay T p rv (a + 1) m β γ ρ ∧ Lay T rest rv m b β γ ρ
  | .ifte c p q rest, rv, a, b, β, γ, ρ =>
    ∃ m e, Binds T a [] ∧ jl T a = [⟨a + 1, some c, some (m + 1)⟩] ∧ Lay T p rv (a + 1) m β γ ρ ∧
      Binds T m [] ∧ JumpsTo (jl T m) e ∧ Lay T q rv (m + 1) e β γ ρ ∧ Lay T rest rv e b β γ ρ
  | .while_ pre c p rest, rv, a, b, β, γ, ρ =>
    pre = .nil ∧ ∃ m, Binds T a [] ∧ jl T a = [⟨a + 1, some c, some (m + 1)⟩] ∧ Lay T p rv (a + 1) m (m + 1) a ρ ∧
      Binds T m [] ∧ JumpsTo (jl T m) a ∧ Lay T rest rv (m + 1) b β γ ρ
  | .loopr i e s p rest, rv, a, b, β, γ, ρ =>
    ∃ m, Binds T a [] ∧ jl T a = [⟨a + 1, some (ltE i e), some (m + 1)⟩] ∧ Lay T p rv (a + 1) m (m + 1) m ρ ∧
      Binds T m [(i, plusE i s)] ∧ JumpsTo (jl T m) a ∧ Lay T rest rv (m + 1) b β γ ρ
  | .brk rest, _, a, b, β, _, _ => Binds T a [] ∧ JumpsTo (jl T a) β ∧ b = a + 1 + rest.dead
  | .cont rest, _, a, b, _, γ, _ => Binds T a [] ∧ JumpsTo (jl T a) γ ∧ b = a + 1 + rest.dead
  | .ret e rest, rv, a, b, _, _, ρ =>
    Binds T a ((e.map fun e => (rv, e)).toList) ∧ JumpsTo (jl T a) ρ ∧ b = a + 1 + rest.dead
  | .call args rv' body rest, rv, a, b, β, γ, ρ =>
    body.esc = false ∧ ∃ m, Binds T a args ∧ JumpsTo (jl T a) (a + 1) ∧ Lay T body rv' (a + 1) m 0 0 m ∧
      Lay T rest rv m b β γ ρ

theorem exec_block_substs (bs : List (Reg × Expr)) (env acc : Env) :
    (Code.block (bs.map fun b => .subst b.1 b.2)).exec env acc =
      bs.foldl (fun acc b => Function.update acc b.1.name (b.1.wrap (b.2.eval env))) acc := by
  induction bs generalizing acc with
  | nil => rfl
  | cons b bs ih => simp only [List.map_cons, Code.block, Code.exec, ih, List.foldl_cons]

theorem mstep_binds {T : FsmSt} {a : ℕ} {bs : List (Reg × Expr)} (h : Binds T a bs) (env : Env) :
    (mstep T (a, env)).2 = bindAll bs env := by
  simp only [mstep]
  rw [h, exec_block_substs]
  rfl

theorem nextSt_jumpsTo {l : List Jump} {t : ℕ} (h : JumpsTo l t) (env : Env) (i : ℕ) : nextSt l env i = t := by
  obtain ⟨h1, h2⟩ := h
  have : ∀ i, (∀ j ∈ l, j = ⟨t, none, none⟩) → l ≠ [] → nextSt l env i = t := by
    clear h1 h2
    induction l with
    | nil => intro i _ h; exact absurd rfl h
    | cons j l ih =>
      intro i hj _
      have hj0 := hj j (by simp)
      subst hj0
      cases l with
      | nil => rfl
      | cons k l => exact ih t (fun j hj' => hj j (by simp [hj'])) (by simp)
  exact this i h2 h1

theorem mstep_to {T : FsmSt} {a t : ℕ} {bs : List (Reg × Expr)} (hb : Binds T a bs) (h : JumpsTo (jl T a) t)
    (env : Env) : mstep T (a, env) = (t, bindAll bs env) :=
  Prod.ext (nextSt_jumpsTo h env a) (mstep_binds hb env)

theorem mstep_cond {T : FsmSt} {a t f : ℕ} {c : Expr} (hb : Binds T a []) (h : jl T a = [⟨t, some c, some f⟩])
    (env : Env) : mstep T (a, env) = (if c.truthy env then t else f, env) := by
  refine Prod.ext ?_ (mstep_binds hb env)
  simp only [mstep, h, nextSt, List.foldl_cons, List.foldl_nil, Option.getD_some]

theorem Lay.le {T : FsmSt} {p : Prog} {rv : Reg} {a b β γ ρ : ℕ} (h : Lay T p rv a b β γ ρ) : a ≤ b := by
  induction p generalizing rv a b β γ ρ with
  | nil => exact Nat.le_of_eq h.symm
  | pass _ ih => exact ih h
  | assign _ _ ih => have := ih h.2.2; omega
  | ifte c p q rest ihp ihq ihr =>
    cases q with
    | nil =>
      obtain ⟨m, -, -, h1, h2⟩ := h
      have := ihp h1; have := ihr h2; omega
    | _ =>
      obtain ⟨m, e, -, -, h1, -, -, h2, h3⟩ := h
      have := ihp h1; have := ihq h2; have := ihr h3; omega
  | while_ _ c p rest _ ihp ihr =>
    obtain ⟨-, m, -, -, h1, -, -, h2⟩ := h
    have := ihp h1; have := ihr h2; omega
  | loopr i e s p rest ihp ihr =>
    obtain ⟨m, -, -, h1, -, -, h2⟩ := h
    have := ihp h1; have := ihr h2; omega
  | brk => have := h.2.2; omega
  | cont => have := h.2.2; omega
  | ret => have := h.2.2; omega
  | call args rv' body rest ihb ihr =>
    obtain ⟨-, m, -, -, h1, h2⟩ := h
    have := ihb h1; have := ihr h2; omega

/-- Where a program ends. -/
def Out.target (o : Out) (b β γ ρ : ℕ) : ℕ :=
  match o with
  | .norm => b
  | .brk => β
  | .cont => γ
  | .ret => ρ

theorem ltE_truthy (i : Reg) (e : Expr) (env : Env) :
    (ltE i e).truthy env = decide (env i.name < e.eval env) := by
  simp only [ltE, Expr.truthy, Expr.eval.eq_2]
  by_cases h : env i.name < e.eval env <;> simp [h]

theorem plusE_bind (i : Reg) (s : Expr) (env : Env) :
    bindAll [(i, plusE i s)] env = Function.update env i.name (i.wrap (env i.name + s.eval env)) := rfl

/-- The layout executes the program, staying inside until the end. -/
theorem Lay.forward {T : FsmSt} {p : Prog} {rv : Reg} {env env' : Env} {o : Out} (h : Exec rv p env o env') :
    ∀ {a b β γ ρ : ℕ}, Lay T p rv a b β γ ρ → Leads T a b (a, env) (o.target b β γ ρ, env') := by
  induction h with
  | nil => intro a b β γ ρ hl; obtain rfl : b = a := hl; exact Leads.refl _ _ _ _
  | pass _ ih => intro a b β γ ρ hl; exact ih hl
  | assign _ ih =>
    intro a b β γ ρ hl
    obtain ⟨h1, h2, h3⟩ := hl
    have hle := h3.le
    exact (Leads.one (Nat.le_refl _) (by show a < b; omega) (mstep_to h1 h2 _)).trans
      ((ih h3).mono (by omega) (Nat.le_refl _))
  | @ifT rv c p q rest env e1 o env' hc _ _ ih1 ih2 =>
    intro a b β γ ρ hl
    cases q with
    | nil =>
      obtain ⟨m, h1, h2, h3, h4⟩ := hl
      have := h3.le; have := h4.le
      have s1 := mstep_cond h1 h2 env
      rw [hc] at s1
      exact (Leads.one (Nat.le_refl _) (by show a < b; omega) s1).trans
        (((ih1 h3).mono (by omega) (by omega)).trans ((ih2 h4).mono (by omega) (Nat.le_refl _)))
    | _ =>
      obtain ⟨m, e, h1, h2, h3, h5, h6, h7, h4⟩ := hl
      have := h3.le; have := h4.le; have := h7.le
      have s1 := mstep_cond h1 h2 env
      rw [hc] at s1
      exact (Leads.one (Nat.le_refl _) (by show a < b; omega) s1).trans
        (((ih1 h3).mono (by omega) (by omega)).trans ((Leads.one (by show a ≤ m; omega) (by show m < b; omega)
          (mstep_to h5 h6 _)).trans ((ih2 h4).mono (by omega) (Nat.le_refl _))))
  | @ifTx rv c p q rest env o e1 hc _ hne ih1 =>
    intro a b β γ ρ hl
    have ht : ∀ m, o.target m β γ ρ = o.target b β γ ρ := by intro m; cases o <;> simp_all [Out.target]
    cases q with
    | nil =>
      obtain ⟨m, h1, h2, h3, h4⟩ := hl
      have := h3.le; have := h4.le
      have s1 := mstep_cond h1 h2 env
      rw [hc] at s1
      rw [← ht m]
      exact (Leads.one (Nat.le_refl _) (by show a < b; omega) s1).trans ((ih1 h3).mono (by omega) (by omega))
    | _ =>
      obtain ⟨m, e, h1, h2, h3, h5, h6, h7, h4⟩ := hl
      have := h3.le; have := h4.le; have := h7.le
      have s1 := mstep_cond h1 h2 env
      rw [hc] at s1
      rw [← ht m]
      exact (Leads.one (Nat.le_refl _) (by show a < b; omega) s1).trans ((ih1 h3).mono (by omega) (by omega))
  | @ifF rv c p q rest env e1 o env' hc hq _ ih1 ih2 =>
    intro a b β γ ρ hl
    cases q with
    | nil =>
      obtain ⟨m, h1, h2, h3, h4⟩ := hl
      have := h3.le; have := h4.le
      have s1 := mstep_cond h1 h2 env
      rw [hc] at s1
      cases hq
      exact (Leads.one (Nat.le_refl _) (by show a < b; omega) s1).trans ((ih2 h4).mono (by omega) (Nat.le_refl _))
    | _ =>
      obtain ⟨m, e, h1, h2, h3, h5, h6, h7, h4⟩ := hl
      have := h3.le; have := h4.le; have := h7.le
      have s1 := mstep_cond h1 h2 env
      rw [hc] at s1
      exact (Leads.one (Nat.le_refl _) (by show a < b; omega) s1).trans
        (((ih1 h7).mono (by omega) (by omega)).trans ((ih2 h4).mono (by omega) (Nat.le_refl _)))
  | @ifFx rv c p q rest env o e1 hc hq hne ih1 =>
    intro a b β γ ρ hl
    have ht : ∀ m, o.target m β γ ρ = o.target b β γ ρ := by intro m; cases o <;> simp_all [Out.target]
    cases q with
    | nil => cases hq; exact absurd rfl hne
    | _ =>
      obtain ⟨m, e, h1, h2, h3, h5, h6, h7, h4⟩ := hl
      have := h3.le; have := h4.le; have := h7.le
      have s1 := mstep_cond h1 h2 env
      rw [hc] at s1
      rw [← ht e]
      exact (Leads.one (Nat.le_refl _) (by show a < b; omega) s1).trans ((ih1 h7).mono (by omega) (by omega))
  | @whileEnd rv pre c p rest env e0 o env' hpre hc _ _ ih1 =>
    intro a b β γ ρ hl
    obtain ⟨rfl, m, h1, h2, h3, h4, h5, h6⟩ := hl
    cases hpre
    have := h3.le; have := h6.le
    have s1 := mstep_cond h1 h2 env
    rw [hc] at s1
    exact (Leads.one (Nat.le_refl _) (by show a < b; omega) s1).trans ((ih1 h6).mono (by omega) (Nat.le_refl _))
  | @whileAgain rv pre c p rest env e0 o1 e1 o env' hpre hc _ ho _ _ ih1 ih2 =>
    intro a b β γ ρ hl
    have hl' := hl
    obtain ⟨rfl, m, h1, h2, h3, h4, h5, h6⟩ := hl
    cases hpre
    have := h3.le; have := h6.le
    have s1 := mstep_cond h1 h2 env
    rw [hc] at s1
    refine (Leads.one (Nat.le_refl _) (by show a < b; omega) s1).trans ?_
    have hb := (ih1 h3).mono (lo' := a) (hi' := b) (by omega) (by omega)
    refine Leads.trans ?_ (ih2 hl')
    rcases ho with rfl | rfl
    · exact hb.trans (Leads.one (by show a ≤ m; omega) (by show m < b; omega) (mstep_to h4 h5 _))
    · exact hb
  | @whileBrk rv pre c p rest env e0 e1 o env' hpre hc _ _ _ ih1 ih2 =>
    intro a b β γ ρ hl
    obtain ⟨rfl, m, h1, h2, h3, h4, h5, h6⟩ := hl
    cases hpre
    have := h3.le; have := h6.le
    have s1 := mstep_cond h1 h2 env
    rw [hc] at s1
    exact (Leads.one (Nat.le_refl _) (by show a < b; omega) s1).trans
      (((ih1 h3).mono (by omega) (by omega)).trans ((ih2 h6).mono (by omega) (Nat.le_refl _)))
  | @whileRet rv pre c p rest env e0 e1 hpre hc _ _ ih1 =>
    intro a b β γ ρ hl
    obtain ⟨rfl, m, h1, h2, h3, h4, h5, h6⟩ := hl
    cases hpre
    have := h3.le; have := h6.le
    have s1 := mstep_cond h1 h2 env
    rw [hc] at s1
    exact (Leads.one (Nat.le_refl _) (by show a < b; omega) s1).trans ((ih1 h3).mono (by omega) (by omega))
  | @loopEnd rv i e s p rest env o env' hc _ ih1 =>
    intro a b β γ ρ hl
    obtain ⟨m, h1, h2, h3, h4, h5, h6⟩ := hl
    have := h3.le; have := h6.le
    have s1 := mstep_cond h1 h2 env
    rw [ltE_truthy, decide_eq_false hc] at s1
    exact (Leads.one (Nat.le_refl _) (by show a < b; omega) s1).trans ((ih1 h6).mono (by omega) (Nat.le_refl _))
  | @loopAgain rv i e s p rest env o1 e1 o env' hc _ ho _ ih1 ih2 =>
    intro a b β γ ρ hl
    have hl' := hl
    obtain ⟨m, h1, h2, h3, h4, h5, h6⟩ := hl
    have := h3.le; have := h6.le
    have s1 := mstep_cond h1 h2 env
    rw [ltE_truthy, decide_eq_true hc] at s1
    refine (Leads.one (Nat.le_refl _) (by show a < b; omega) s1).trans ?_
    have hb := (ih1 h3).mono (lo' := a) (hi' := b) (by omega) (by omega)
    refine Leads.trans (Leads.trans ?_ (Leads.one (by show a ≤ m; omega) (by show m < b; omega) (mstep_to h4 h5 e1))) (ih2 hl')
    rcases ho with rfl | rfl
    · exact hb
    · exact hb
  | @loopBrk rv i e s p rest env e1 o env' hc _ _ ih1 ih2 =>
    intro a b β γ ρ hl
    obtain ⟨m, h1, h2, h3, h4, h5, h6⟩ := hl
    have := h3.le; have := h6.le
    have s1 := mstep_cond h1 h2 env
    rw [ltE_truthy, decide_eq_true hc] at s1
    exact (Leads.one (Nat.le_refl _) (by show a < b; omega) s1).trans
      (((ih1 h3).mono (by omega) (by omega)).trans ((ih2 h6).mono (by omega) (Nat.le_refl _)))
  | @loopRet rv i e s p rest env e1 hc _ ih1 =>
    intro a b β γ ρ hl
    obtain ⟨m, h1, h2, h3, h4, h5, h6⟩ := hl
    have := h3.le; have := h6.le
    have s1 := mstep_cond h1 h2 env
    rw [ltE_truthy, decide_eq_true hc] at s1
    exact (Leads.one (Nat.le_refl _) (by show a < b; omega) s1).trans ((ih1 h3).mono (by omega) (by omega))
  | brk =>
    intro a b β γ ρ hl
    exact Leads.one (Nat.le_refl _) (by have := hl.2.2; show a < b; omega) (mstep_to hl.1 hl.2.1 _)
  | cont =>
    intro a b β γ ρ hl
    exact Leads.one (Nat.le_refl _) (by have := hl.2.2; show a < b; omega) (mstep_to hl.1 hl.2.1 _)
  | ret =>
    intro a b β γ ρ hl
    exact Leads.one (Nat.le_refl _) (by have := hl.2.2; show a < b; omega) (mstep_to hl.1 hl.2.1 _)
  | @call rv args rv' body rest env o1 e1 o env' _ ho _ ih1 ih2 =>
    intro a b β γ ρ hl
    obtain ⟨-, m, h1, h2, h3, h4⟩ := hl
    have := h3.le; have := h4.le
    refine (Leads.one (Nat.le_refl _) (by show a < b; omega) (mstep_to h1 h2 _)).trans
      (Leads.trans ?_ ((ih2 h4).mono (by omega) (Nat.le_refl _)))
    have hb := (ih1 h3).mono (lo' := a) (hi' := b) (by omega) (by omega)
    rcases ho with rfl | rfl
    · exact hb
    · exact hb

theorem Leads.rest {T : FsmSt} {lo hi lo' hi' n : ℕ} {c c' : ℕ × Env} (h : Leads T lo hi c c') (h1 : lo' ≤ lo)
    (h2 : hi ≤ hi') (hn : ¬ (lo' ≤ ((mstep T)^[n] c).1 ∧ ((mstep T)^[n] c).1 < hi')) :
    ∃ n', n' ≤ n ∧ (mstep T)^[n'] c' = (mstep T)^[n] c := by
  obtain ⟨m, e, k⟩ := h.mono h1 h2
  have hm : m ≤ n := by
    by_contra hlt
    exact hn (k n (by omega))
  exact ⟨n - m, by omega, by rw [← e, ← Function.iterate_add_apply, Nat.sub_add_cancel hm]⟩

theorem out_sub {s lo hi lo' hi' : ℕ} (hn : ¬ (lo ≤ s ∧ s < hi)) (h1 : lo ≤ lo') (h2 : hi' ≤ hi) :
    ¬ (lo' ≤ s ∧ s < hi') := by omega

theorem first_step {T : FsmSt} {a b n : ℕ} {env : Env} (hab : a < b)
    (hn : ¬ (a ≤ ((mstep T)^[n] (a, env)).1 ∧ ((mstep T)^[n] (a, env)).1 < b)) :
    ∃ n', n = n' + 1 ∧ (mstep T)^[n] (a, env) = (mstep T)^[n'] (mstep T (a, env)) := by
  cases n with
  | zero => exact absurd ⟨Nat.le_refl _, hab⟩ hn
  | succ n => exact ⟨n, rfl, rfl⟩

/-- Conversely: if the machine ever leaves the layout, the program ends. -/
theorem Lay.backward {T : FsmSt} (n : ℕ) : ∀ (p : Prog) (rv : Reg) (a b β γ ρ : ℕ) (env : Env),
    Lay T p rv a b β γ ρ → ¬ (a ≤ ((mstep T)^[n] (a, env)).1 ∧ ((mstep T)^[n] (a, env)).1 < b) →
    ∃ o env', Exec rv p env o env' := by
  induction n using Nat.strongRecOn with
  | ind n ihn =>
  intro p
  -- the statement for shorter runs and any program
  have sub : ∀ (q : Prog) (rv : Reg) (a b β γ ρ : ℕ) (env : Env) (n' : ℕ) (s : ℕ × Env), n' < n →
      (mstep T)^[n'] (a, env) = s → Lay T q rv a b β γ ρ → ¬ (a ≤ s.1 ∧ s.1 < b) → ∃ o env', Exec rv q env o env' := by
    intro q rv a b β γ ρ env n' s hlt hs hq hout
    subst hs
    exact ihn n' hlt q rv a b β γ ρ env hq hout
  induction p with
  | nil => intro rv a b β γ ρ env _ _; exact ⟨_, _, .nil⟩
  | pass rest ih =>
    intro rv a b β γ ρ env hl hn
    obtain ⟨o, env', h⟩ := ih rv a b β γ ρ env hl hn
    exact ⟨o, env', .pass h⟩
  | assign bs rest =>
    intro rv a b β γ ρ env hl hn
    obtain ⟨h1, h2, h3⟩ := hl
    have := h3.le
    obtain ⟨n', rfl, e⟩ := first_step (by omega) hn
    rw [mstep_to h1 h2] at e
    obtain ⟨o, env', h⟩ := sub rest rv _ _ _ _ _ _ n' _ (by omega) e.symm h3 (out_sub hn (by omega) (by omega))
    exact ⟨o, env', .assign h⟩
  | ifte c p q rest =>
    intro rv a b β γ ρ env hl hn
    have hp : ∃ m, a + 1 ≤ m ∧ m ≤ b ∧ Lay T p rv (a + 1) m β γ ρ ∧
        ∀ e1, ∃ e, m ≤ e ∧ Leads T m e (m, e1) (e, e1) ∧ e ≤ b ∧ Lay T rest rv e b β γ ρ := by
      cases q with
      | nil =>
        obtain ⟨m, h1, h2, h3, h4⟩ := hl
        have := h3.le; have := h4.le
        exact ⟨m, by omega, by omega, h3, fun e1 => ⟨m, Nat.le_refl _, Leads.refl _ _ _ _, by omega, h4⟩⟩
      | _ =>
        obtain ⟨m, e, h1, h2, h3, h5, h6, h7, h4⟩ := hl
        have := h3.le; have := h4.le; have := h7.le
        exact ⟨m, by omega, by omega, h3, fun e1 => ⟨e, by omega, Leads.one (Nat.le_refl _) (by show m < e; omega) (mstep_to h5 h6 _), by omega, h4⟩⟩
    have hq : ∃ m e, a + 1 ≤ m ∧ m ≤ e ∧ e ≤ b ∧ mstep T (a, env) = (if c.truthy env then a + 1 else m, env) ∧
        Lay T q rv m e β γ ρ ∧ Lay T rest rv e b β γ ρ := by
      cases q with
      | nil =>
        obtain ⟨m, h1, h2, h3, h4⟩ := hl
        have := h3.le; have := h4.le
        exact ⟨m, m, by omega, by omega, by omega, mstep_cond h1 h2 env, rfl, h4⟩
      | _ =>
        obtain ⟨m, e, h1, h2, h3, h5, h6, h7, h4⟩ := hl
        have := h3.le; have := h4.le; have := h7.le
        exact ⟨m + 1, e, by omega, by omega, by omega, mstep_cond h1 h2 env, h7, h4⟩
    clear hl
    obtain ⟨m, hm1, hm2, hp, hpr⟩ := hp
    obtain ⟨m', e', hm3, hm4, hm5, hst, hq, hr⟩ := hq
    obtain ⟨n', rfl, e⟩ := first_step (by omega) hn
    rw [hst] at e
    cases hc : c.truthy env with
    | true =>
      rw [hc, if_pos rfl] at e
      obtain ⟨o, e1, h⟩ := sub p rv _ _ _ _ _ _ n' _ (by omega) e.symm hp (out_sub hn (by omega) (by omega))
      by_cases ho : o = .norm
      · subst ho
        obtain ⟨f, hmf, hf, hfb, hfr⟩ := hpr e1
        rw [e] at hn
        obtain ⟨n2, hn2, e2⟩ := ((Lay.forward h hp).mono (lo' := a + 1) (hi' := f) (Nat.le_refl _) hmf |>.trans
          (hf.mono (by omega) (Nat.le_refl _))).rest (by omega) (by omega) hn
        obtain ⟨o, env', h'⟩ := sub rest rv _ _ _ _ _ _ n2 _ (by omega) e2 hfr (out_sub hn (by omega) (by omega))
        exact ⟨o, env', .ifT hc h h'⟩
      · exact ⟨o, e1, .ifTx hc h ho⟩
    | false =>
      rw [hc, if_neg (by simp)] at e
      obtain ⟨o, e1, h⟩ := sub q rv _ _ _ _ _ _ n' _ (by omega) e.symm hq (out_sub hn (by omega) (by omega))
      by_cases ho : o = .norm
      · subst ho
        rw [e] at hn
        have hfq : Leads T m' e' (m', env) (e', e1) := Lay.forward h hq
        obtain ⟨n2, hn2, e2⟩ := hfq.rest (by omega) (by omega) hn
        obtain ⟨o, env', h'⟩ := sub rest rv _ _ _ _ _ _ n2 _ (by omega) e2 hr (out_sub hn (by omega) (by omega))
        exact ⟨o, env', .ifF hc h h'⟩
      · exact ⟨o, e1, .ifFx hc h ho⟩
  | while_ pre c p rest =>
    intro rv a b β γ ρ env hl hn
    have hl' := hl
    obtain ⟨rfl, m, h1, h2, h3, h4, h5, h6⟩ := hl
    have := h3.le; have := h6.le
    obtain ⟨n', rfl, e⟩ := first_step (by omega) hn
    rw [mstep_cond h1 h2] at e
    cases hc : c.truthy env with
    | true =>
      rw [hc, if_pos rfl] at e
      obtain ⟨o, e1, h⟩ := sub p rv _ _ _ _ _ _ n' _ (by omega) e.symm h3 (out_sub hn (by omega) (by omega))
      rw [e] at hn
      have hf := Lay.forward h h3
      cases o with
      | norm =>
        obtain ⟨n2, hn2, e2⟩ := (hf.mono (lo' := a) (hi' := b) (by omega) (by omega) |>.trans
          (Leads.one (by show a ≤ m; omega) (by show m < b; omega) (mstep_to h4 h5 _))).rest (by omega) (by omega) hn
        obtain ⟨o, env', h'⟩ := sub _ rv _ _ _ _ _ _ n2 _ (by omega) e2 hl' (out_sub hn (by omega) (by omega))
        exact ⟨o, env', .whileAgain .nil hc h (.inl rfl) h'⟩
      | cont =>
        replace hf : Leads T (a + 1) m (a + 1, env) (a, e1) := hf
        obtain ⟨n2, hn2, e2⟩ := hf.rest (by omega) (by omega) hn
        obtain ⟨o, env', h'⟩ := sub _ rv _ _ _ _ _ _ n2 _ (by omega) e2 hl' (out_sub hn (by omega) (by omega))
        exact ⟨o, env', .whileAgain .nil hc h (.inr rfl) h'⟩
      | brk =>
        replace hf : Leads T (a + 1) m (a + 1, env) (m + 1, e1) := hf
        obtain ⟨n2, hn2, e2⟩ := hf.rest (by omega) (by omega) hn
        obtain ⟨o, env', h'⟩ := sub _ rv _ _ _ _ _ _ n2 _ (by omega) e2 h6 (out_sub hn (by omega) (by omega))
        exact ⟨o, env', .whileBrk .nil hc h h'⟩
      | ret => exact ⟨_, _, .whileRet .nil hc h⟩
    | false =>
      rw [hc, if_neg (by simp)] at e
      obtain ⟨o, e1, h⟩ := sub rest rv _ _ _ _ _ _ n' _ (by omega) e.symm h6 (out_sub hn (by omega) (by omega))
      exact ⟨o, e1, .whileEnd .nil hc h⟩
  | loopr i ee st p rest =>
    intro rv a b β γ ρ env hl hn
    have hl' := hl
    obtain ⟨m, h1, h2, h3, h4, h5, h6⟩ := hl
    have := h3.le; have := h6.le
    obtain ⟨n', rfl, e⟩ := first_step (by omega) hn
    rw [mstep_cond h1 h2, ltE_truthy] at e
    by_cases hc : env i.name < ee.eval env
    · rw [decide_eq_true hc, if_pos rfl] at e
      obtain ⟨o, e1, h⟩ := sub p rv _ _ _ _ _ _ n' _ (by omega) e.symm h3 (out_sub hn (by omega) (by omega))
      rw [e] at hn
      have hf := Lay.forward h h3
      have hs : mstep T (m, e1) = (a, Function.update e1 i.name (i.wrap (e1 i.name + st.eval e1))) := mstep_to h4 h5 e1
      cases o with
      | norm =>
        obtain ⟨n2, hn2, e2⟩ := (hf.mono (lo' := a) (hi' := b) (by omega) (by omega) |>.trans
          (Leads.one (by show a ≤ m; omega) (by show m < b; omega) hs)).rest (by omega) (by omega) hn
        obtain ⟨o, env', h'⟩ := sub _ rv _ _ _ _ _ _ n2 _ (by omega) e2 hl' (out_sub hn (by omega) (by omega))
        exact ⟨o, env', .loopAgain hc h (.inl rfl) h'⟩
      | cont =>
        obtain ⟨n2, hn2, e2⟩ := (hf.mono (lo' := a) (hi' := b) (by omega) (by omega) |>.trans
          (Leads.one (by show a ≤ m; omega) (by show m < b; omega) hs)).rest (by omega) (by omega) hn
        obtain ⟨o, env', h'⟩ := sub _ rv _ _ _ _ _ _ n2 _ (by omega) e2 hl' (out_sub hn (by omega) (by omega))
        exact ⟨o, env', .loopAgain hc h (.inr rfl) h'⟩
      | brk =>
        replace hf : Leads T (a + 1) m (a + 1, env) (m + 1, e1) := hf
        obtain ⟨n2, hn2, e2⟩ := hf.rest (by omega) (by omega) hn
        obtain ⟨o, env', h'⟩ := sub _ rv _ _ _ _ _ _ n2 _ (by omega) e2 h6 (out_sub hn (by omega) (by omega))
        exact ⟨o, env', .loopBrk hc h h'⟩
      | ret => exact ⟨_, _, .loopRet hc h⟩
    · rw [decide_eq_false hc, if_neg (by simp)] at e
      obtain ⟨o, e1, h⟩ := sub rest rv _ _ _ _ _ _ n' _ (by omega) e.symm h6 (out_sub hn (by omega) (by omega))
      exact ⟨o, e1, .loopEnd hc h⟩
  | brk rest => intro rv a b β γ ρ env _ _; exact ⟨_, _, .brk⟩
  | cont rest => intro rv a b β γ ρ env _ _; exact ⟨_, _, .cont⟩
  | ret e rest => intro rv a b β γ ρ env _ _; exact ⟨_, _, .ret⟩
  | call args rv' body rest =>
    intro rv a b β γ ρ env hl hn
    obtain ⟨hb, m, h1, h2, h3, h4⟩ := hl
    have := h3.le; have := h4.le
    obtain ⟨n', rfl, e⟩ := first_step (by omega) hn
    rw [mstep_to h1 h2] at e
    obtain ⟨o, e1, h⟩ := sub body rv' _ _ _ _ _ _ n' _ (by omega) e.symm h3 (out_sub hn (by omega) (by omega))
    have ho := h.closed hb
    have hf : Leads T (a + 1) m (a + 1, bindAll args env) (m, e1) := by
      have := Lay.forward h h3
      rcases ho with rfl | rfl <;> exact this
    rw [e] at hn
    obtain ⟨n2, hn2, e2⟩ := hf.rest (by omega) (by omega) hn
    obtain ⟨o', env', h'⟩ := sub rest rv _ _ _ _ _ _ n2 _ (by omega) e2 h4 (out_sub hn (by omega) (by omega))
    exact ⟨o', env', .call h ho h'⟩

end Thr
