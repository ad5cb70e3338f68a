import Verif.Model.Mux

/-!
# C47, C48: multiplexers pick the right operand
-/

namespace Hdl

@[local simp] private theorem eval_int (c : Int) (env : Env) : (Expr.int c).eval env = c := rfl

@[local simp] private theorem eval_fn (f : Env → Int) (env : Env) : (Expr.fn f).eval env = f env := rfl

/-! ### C48 -/

/-- C48: `Mux` has the value of the selected operand, whether or not the condition is folded. -/
theorem c48_mux (c t e : Expr) (env : Env) :
    (mux c t e).eval env = if c.eval env ≠ 0 then t.eval env else e.eval env := by
  cases c with
  | int n => by_cases h : n = 0 <;> simp [mux, h]
  | fn f => by_cases h : f env = 0 <;> simp [mux, Expr.cond, Expr.truthy, h]

/-- The pattern that applies: the first one that has no condition or whose condition holds. -/
def Applies (env : Env) {α : Type} (p : Option Expr × α) : Bool :=
  match p.1 with
  | none => true
  | some c => c.eval env != 0

private theorem loop_some : ∀ (ps : List (Expr × Expr)) (prev : Expr),
    ∃ e, patternMuxLoop (some prev) (ps.reverse.map fun p => (some p.1, p.2)) = some (some e) ∧
      ∀ env, e.eval env =
        ((ps.find? fun p => p.1.eval env != 0).map fun p => p.2.eval env).getD (prev.eval env) := by
  intro ps
  induction ps with
  | nil => intro prev; exact ⟨prev, rfl, fun _ => rfl⟩
  | cons p ps ih =>
    intro prev
    obtain ⟨e, he, hv⟩ := ih prev
    refine ⟨mux p.1 p.2 e, ?_, ?_⟩
    · have happ : ∀ (l l' : List (Option Expr × Expr)) (s : Option Expr),
          patternMuxLoop s (l ++ l') = (patternMuxLoop s l).bind fun s' => patternMuxLoop s' l' := by
        intro l
        induction l with
        | nil => intro l' s; rfl
        | cons q l ihl =>
          intro l' s
          obtain ⟨qc, qv⟩ := q
          cases s <;> cases qc <;> simp [patternMuxLoop, ihl]
      rw [List.reverse_cons, List.map_append, happ, he]
      rfl
    · intro env
      rw [c48_mux]
      by_cases h : p.1.eval env = 0
      · rw [List.find?_cons_of_neg (by simp [h])]
        simp [h, hv env]
      · rw [List.find?_cons_of_pos (by simp [h])]
        simp [h]

/-- The patterns `(c1, v1), ..., (cn, vn), (None, dflt)`. -/
def withDefault (ps : List (Expr × Expr)) (dflt : Expr) : List (Option Expr × Expr) :=
  ps.map (fun p => (some p.1, p.2)) ++ [(none, dflt)]

/-- C48: a pattern list whose last pattern, and no other, has the condition `None` is accepted and
    has the value of the first pattern that applies. -/
theorem c48_pattern_mux (ps : List (Expr × Expr)) (dflt : Expr) :
    ∃ e, patternMux (withDefault ps dflt) = some e ∧
      ∀ env, some (e.eval env) =
        ((withDefault ps dflt).find? (Applies env)).map (fun p => p.2.eval env) := by
  unfold withDefault
  obtain ⟨e, he, hv⟩ := loop_some ps dflt
  refine ⟨e, ?_, ?_⟩
  · unfold patternMux
    rw [List.reverse_append, ← List.map_reverse]
    show (patternMuxLoop (some dflt) (ps.reverse.map fun p => (some p.1, p.2))).join = _
    rw [he]; rfl
  · intro env
    rw [hv env, List.find?_append, List.find?_map]
    have : (fun p : Expr × Expr => p.1.eval env != 0) =
        (Applies env ∘ fun p : Expr × Expr => ((some p.1, p.2) : Option Expr × Expr)) := rfl
    rw [this]
    cases ps.find? (Applies env ∘ fun p : Expr × Expr => ((some p.1, p.2) : Option Expr × Expr)) with
    | none => simp [Applies]
    | some p => simp

/-- C48: every other pattern list is rejected (or is empty). -/
theorem c48_pattern_mux_only (ps : List (Option Expr × Expr)) {e : Expr}
    (h : patternMux ps = some e) :
    ∃ (l : List (Expr × Expr)) (dflt : Expr), ps = withDefault l dflt := by
  unfold withDefault
  have key : ∀ (l : List (Option Expr × Expr)) (s e : Expr),
      patternMuxLoop (some s) l = some (some e) →
      ∃ l' : List (Expr × Expr), l = l'.map fun p => (some p.1, p.2) := by
    intro l
    induction l with
    | nil => intro s e _; exact ⟨[], rfl⟩
    | cons q l ih =>
      intro s e h
      obtain ⟨qc, qv⟩ := q
      cases qc with
      | none => simp [patternMuxLoop] at h
      | some c =>
        obtain ⟨l', hl⟩ := ih _ _ h
        exact ⟨(c, qv) :: l', by simp [hl]⟩
  unfold patternMux at h
  cases hr : ps.reverse with
  | nil => rw [hr] at h; simp [patternMuxLoop] at h
  | cons q l =>
    rw [hr] at h
    obtain ⟨qc, qv⟩ := q
    cases qc with
    | some c => simp [patternMuxLoop] at h
    | none =>
      simp only [patternMuxLoop] at h
      cases hl : patternMuxLoop (some qv) l with
      | none => rw [hl] at h; simp at h
      | some o =>
        rw [hl] at h
        simp only [Option.join_some] at h
        obtain ⟨l', hl'⟩ := key l qv e (by rw [hl, h])
        refine ⟨l'.reverse, qv, ?_⟩
        rw [← List.reverse_reverse ps, hr, hl', List.reverse_cons, List.map_reverse]

private theorem if_loop (len : Nat) : ∀ (ps : List (Option Expr × Code)) (i : Nat) (c : Code),
    patternIfLoop len i ps = some c → ∀ env acc, c.exec env acc =
      match ps.find? (Applies env) with
      | some p => p.2.exec env acc
      | none => acc := by
  intro ps
  induction ps with
  | nil => intro i c h env acc; cases h; rfl
  | cons p ps ih =>
    intro i c h env acc
    obtain ⟨pc, s⟩ := p
    cases pc with
    | none =>
      unfold patternIfLoop at h
      split at h
      · contradiction
      · cases h; rw [List.find?_cons_of_pos rfl]
    | some cnd =>
      simp only [patternIfLoop, Option.map_eq_some_iff] at h
      obtain ⟨e, he, rfl⟩ := h
      have := ih (i + 1) e he env acc
      by_cases hc : cnd.eval env = 0
      · rw [List.find?_cons_of_neg (by simp [Applies, hc])]
        simp only [Code.exec, Expr.truthy, hc]
        exact this
      · rw [List.find?_cons_of_pos (by simp [Applies, hc])]
        simp [Code.exec, Expr.truthy, hc]

/-- C48: `PatternIf` executes the statements of the first pattern that applies, or nothing. -/
theorem c48_pattern_if (asList : Bool) (ps : List (Option Expr × Code)) {c : Code}
    (h : patternIf asList ps = some c) (env acc : Env) :
    c.exec env acc = match ps.find? (Applies env) with
      | some p => p.2.exec env acc
      | none => acc := if_loop _ ps 0 c h env acc

/-- C48: `PatternIf` accepts every list in which only the last pattern may have the condition
    `None`. -/
theorem c48_pattern_if_total (asList : Bool) (ps : List (Expr × Code)) (dflt : Option Code) :
    (patternIf asList (ps.map (fun p => (some p.1, p.2)) ++
      (dflt.map fun s => (none, s)).toList)).isSome := by
  have key : ∀ (ps : List (Expr × Code)) (i len : Nat),
      len ≤ i + ps.length + dflt.toList.length →
      (patternIfLoop len i (ps.map (fun p => (some p.1, p.2)) ++
        (dflt.map fun s => (none, s)).toList)).isSome := by
    intro ps
    induction ps with
    | nil =>
      intro i len h
      cases dflt with
      | none => simp [patternIfLoop]
      | some s =>
        simp at h
        simp [patternIfLoop]
        omega
    | cons p ps ih =>
      intro i len h
      simp only [List.map_cons, List.cons_append, patternIfLoop, Option.isSome_map]
      apply ih
      simp at h ⊢; omega
  cases asList with
  | false =>
    apply key
    cases dflt <;> simp
  | true =>
    cases ps with
    | nil =>
      cases dflt with
      | none => rfl
      | some s => rfl
    | cons p ps =>
      apply key
      simp; omega

/-! ### C47 -/

/-- Entries of `add_mux` calls. -/
private theorem mux_calls (x : Int) : ∀ (l : List (Expr × Expr)) (w : Expr),
    ∃ e, applyAssigns x (some w) (l.map fun p => .addMux p.1 p.2) = some (some e) ∧
      ∀ env, e.eval env =
        ((l.reverse.find? fun p => p.1.eval env != 0).map fun p => p.2.eval env).getD (w.eval env) := by
  intro l
  induction l with
  | nil => intro w; exact ⟨w, rfl, fun _ => rfl⟩
  | cons p l ih =>
    intro w
    obtain ⟨e, he, hv⟩ := ih (mux p.1 p.2 w)
    refine ⟨e, he, fun env => ?_⟩
    rw [hv env, List.reverse_cons, List.find?_append]
    cases h : l.reverse.find? (fun p => p.1.eval env != 0) with
    | some q => simp
    | none =>
      rw [c48_mux]
      by_cases hp : p.1.eval env = 0
      · rw [List.find?_cons_of_neg (by simp [hp])]; simp [hp]
      · rw [List.find?_cons_of_pos (by simp [hp])]; simp [hp]

/-- C47: after `assign(v)` and any `add_mux` calls the wire has the value of the most recently added
    entry whose condition holds, and the original value if there is none. -/
theorem c47_add_mux (x : Int) (v : Expr) (l : List (Expr × Expr)) :
    ∃ e, applyAssigns x none (.assign v :: l.map fun p => .addMux p.1 p.2) = some (some e) ∧
      ∀ env, e.eval env =
        ((l.reverse.find? fun p => p.1.eval env != 0).map fun p => p.2.eval env).getD (v.eval env) := mux_calls x l v

/-- C47: without a previous assignment, the wire has the value of the most recently added entry whose
    condition holds, and is unknown if there is none. -/
theorem c47_add_mux_fresh (x : Int) (l : List (Expr × Expr)) (hl : l ≠ []) :
    ∃ e, applyAssigns x none (l.map fun p => .addMux p.1 p.2) = some (some e) ∧
      ∀ env, e.eval env =
        ((l.reverse.find? fun p => p.1.eval env != 0).map fun p => p.2.eval env).getD x := by
  cases l with
  | nil => contradiction
  | cons p l => exact mux_calls x (p :: l) (.int x)

private theorem enable_eq (x : Int) (l : List (Expr × Expr)) (w : Expr) :
    applyAssigns x (some w) (l.map fun p => .addEnable p.1 p.2) =
      applyAssigns x (some w) (l.map fun p => .addMux p.1 p.2) := by
  induction l generalizing w with
  | nil => rfl
  | cons p l ih => exact ih (mux p.1 p.2 w)

/-- C47: after `add_enable_cond(targ, c, 1)` calls the wire is 1 if one of the conditions holds
    and 0 otherwise. -/
theorem c47_enable (x : Int) (cs : List Expr) (hl : cs ≠ []) :
    ∃ e, applyAssigns x none (cs.map fun c => .addEnable c (.int 1)) = some (some e) ∧
      ∀ env, e.eval env = if ∃ c ∈ cs, c.eval env ≠ 0 then 1 else 0 := by
  have hm : ∀ l : List Expr, (l.map fun c => AssignOp.addEnable c (.int 1)) =
      (l.map fun c => (c, Expr.int 1)).map fun p => .addEnable p.1 p.2 := by
    intro l; rw [List.map_map]; rfl
  cases cs with
  | nil => contradiction
  | cons c cs =>
    obtain ⟨e, he, hv⟩ := mux_calls x ((c :: cs).map fun c => (c, Expr.int 1)) (.int 0)
    refine ⟨e, ?_, ?_⟩
    · rw [← he, ← enable_eq, ← hm]
      rfl
    · intro env
      rw [hv env, ← List.map_reverse, List.find?_map]
      cases hf : (c :: cs).reverse.find? ((fun p : Expr × Expr => p.1.eval env != 0) ∘
          fun c => (c, Expr.int 1)) with
      | some q =>
        have h1 := List.find?_some hf
        have h2 := List.mem_of_find?_eq_some hf
        rw [if_pos ⟨q, List.mem_reverse.1 h2, by simpa using h1⟩]
        rfl
      | none =>
        rw [List.find?_eq_none] at hf
        rw [if_neg]
        · rfl
        · rintro ⟨q, hq, hne⟩
          exact hf q (List.mem_reverse.2 hq) (by simpa using hne)

private theorem disable_calls (x : Int) : ∀ (l : List (Expr × Expr)) (w : Expr),
    ∃ e, applyAssigns x (some w) (l.map fun p => .addDisable p.1 p.2) = some (some e) ∧
      ∀ env, e.eval env ≠ 0 ↔ w.eval env ≠ 0 ∧ ∀ p ∈ l, p.1.eval env ≠ 0 → p.2.eval env ≠ 0 := by
  intro l
  induction l with
  | nil => intro w; exact ⟨w, rfl, fun _ => by simp⟩
  | cons p l ih =>
    intro w
    obtain ⟨e, he, hv⟩ := ih (.and (mux p.1 p.2 (.int 1)) w)
    refine ⟨e, he, fun env => ?_⟩
    rw [hv env]
    have : (Expr.and (mux p.1 p.2 (.int 1)) w).eval env ≠ 0 ↔
        (p.1.eval env ≠ 0 → p.2.eval env ≠ 0) ∧ w.eval env ≠ 0 := by
      simp only [Expr.and, eval_fn, eval_int, Expr.truthy, c48_mux]
      by_cases h1 : p.1.eval env = 0 <;> by_cases h2 : p.2.eval env = 0 <;>
        by_cases h3 : w.eval env = 0 <;> simp [h1, h2, h3]
    rw [this]
    simp only [List.mem_cons, forall_eq_or_imp]
    constructor
    · rintro ⟨⟨a, b⟩, c⟩; exact ⟨b, a, c⟩
    · rintro ⟨b, a, c⟩; exact ⟨⟨a, b⟩, c⟩

/-- C47: `add_disable_cond(targ, c, v)` calls on an assigned wire mask it: it is true exactly if it
    was true before and every entry whose condition holds has a true value. -/
theorem c47_disable (x : Int) (v : Expr) (l : List (Expr × Expr)) :
    ∃ e, applyAssigns x none (.assign v :: l.map fun p => .addDisable p.1 p.2) = some (some e) ∧
      ∀ env, e.eval env ≠ 0 ↔ v.eval env ≠ 0 ∧ ∀ p ∈ l, p.1.eval env ≠ 0 → p.2.eval env ≠ 0 :=
  disable_calls x l v

/-- C47: without a previous assignment the wire is true unless an entry whose condition holds has
    the value 0. -/
theorem c47_disable_fresh (x : Int) (l : List (Expr × Expr)) (hl : l ≠ []) :
    ∃ e, applyAssigns x none (l.map fun p => .addDisable p.1 p.2) = some (some e) ∧
      ∀ env, e.eval env ≠ 0 ↔ ∀ p ∈ l, p.1.eval env ≠ 0 → p.2.eval env ≠ 0 := by
  cases l with
  | nil => contradiction
  | cons p l =>
    obtain ⟨e, he, hv⟩ := disable_calls x l (mux p.1 p.2 (.int 1))
    refine ⟨e, he, fun env => ?_⟩
    rw [hv env, c48_mux]
    simp only [List.mem_cons, forall_eq_or_imp]
    by_cases h1 : p.1.eval env = 0 <;> simp [h1]

/-- C47: `overwrite_assign` replaces whatever was assigned. -/
theorem c47_overwrite (x : Int) (w : Option Expr) (v : Expr) (env : Env) :
    (applyAssigns x w [.overwrite v]).join.map (fun e => e.eval env) = some (v.eval env) := rfl

/-! Examples: three entries, the two later conditions hold. -/

private def sig (s : String) : Expr := .var (.user s)
private def env0 : Env := fun v => match v with
  | .user "b" => 1
  | .user "c" => 1
  | _ => 0

example : (applyAssigns 7 none [.addMux (sig "a") (.int 10), .addMux (sig "b") (.int 20),
    .addMux (sig "c") (.int 30), .addMux (sig "d") (.int 40)]).join.map (·.eval env0) = some 30 := by
  decide
example : (applyAssigns 7 none [.addMux (sig "a") (.int 10)]).join.map (·.eval env0) = some 7 := by
  decide
example : (applyAssigns 7 none [.addEnable (sig "a") (.int 1), .addEnable (sig "b") (.int 1),
    .addDisable (sig "d") (.int 0)]).join.map (·.eval env0) = some 1 := by decide
example : (patternMux [(some (sig "a"), .int 1), (some (sig "b"), .int 2), (none, .int 3)]).map
    (·.eval env0) = some 2 := by decide
example : (patternMux [(some (sig "a"), .int 1), (some (sig "b"), .int 2)]).isNone := by decide

private def ry : Reg := { name := .user "y", width := 8 }

example : ((patternIf true [(some (sig "a"), .subst ry (.int 1)),
    (some (sig "b"), .subst ry (.int 2)), (none, .subst ry (.int 3))]).map
    fun c => c.exec env0 env0 (.user "y")) = some 2 := by decide

end Hdl
