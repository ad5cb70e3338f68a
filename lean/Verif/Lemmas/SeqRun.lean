import Verif.Lemmas.SeqInv

/-! Clocked executions of a generated block, and what a pipeline of registers holds over time. -/

namespace Hdl

/-- An execution in which the registers assigned by the block `c` are driven by nothing else:
    `E t` are the values before edge `t`.  All other signals change freely. -/
def Run (c : Code) (E : Nat → Env) : Prop :=
  ∀ t, ∀ x ∈ c.targets.map Reg.name, E (t + 1) x = c.tick (E t) x

/-- The reset input is asserted. -/
def isReset (rst : Option Expr) (env : Env) : Bool :=
  match rst with
  | none => false
  | some r => r.truthy env

/-- Reset was asserted at one of the `n` edges from edge `t` on. -/
def resetIn (rst : Option Expr) (E : Nat → Env) (t n : Nat) : Bool :=
  (List.range n).any fun u => isReset rst (E (t + u))

theorem resetIn_succ (rst : Option Expr) (E : Nat → Env) (t n : Nat) :
    resetIn rst E t (n + 1) = (resetIn rst E t n || isReset rst (E (t + n))) := by
  simp [resetIn, List.range_succ]

namespace SeqSt

theorem trace_reset_mem (l : List Reg) (hnd : (l.map Reg.name).Nodup) (r : Reg) (hr : r ∈ l)
    (env : Env) :
    traceL (l.filterMap fun r => r.init.map fun v => Code.subst r (.int v)) env r.name =
      (r.init.map r.wrap).toList := by
  induction l with
  | nil => simp at hr
  | cons a l ih =>
    simp only [List.map_cons, List.nodup_cons] at hnd
    rcases List.mem_cons.1 hr with rfl | hr
    · have hz : traceL (l.filterMap fun r => r.init.map fun v => Code.subst r (.int v)) env r.name
          = [] := by
        refine traceL_eq_nil fun c hc q hq he => ?_
        obtain ⟨b, hb, hbe⟩ := List.mem_filterMap.1 hc
        obtain ⟨v, -, hv⟩ := Option.map_eq_some_iff.1 hbe
        subst hv
        simp only [Code.targets, List.mem_singleton] at hq
        subst hq
        exact hnd.1 (he ▸ List.mem_map_of_mem hb)
      cases h : r.init with
      | none => simp [h, hz]
      | some v => simp [h, traceL_cons, hz, Code.trace, Expr.eval]
    · have hne : a.name ≠ r.name := fun he => hnd.1 (he ▸ List.mem_map_of_mem hr)
      cases h : a.init with
      | none => simpa [h] using ih hnd.2 hr
      | some v => simpa [h, traceL_cons, Code.trace, hne] using ih hnd.2 hr

theorem trace_makeReset {s : SeqSt} (hi : s.Inv) {r : Reg} (hr : r ∈ s.dstVar) (env : Env) :
    traceL s.makeReset env r.name = (r.init.map r.wrap).toList :=
  trace_reset_mem s.dstVar hi.nodup r hr env

theorem makeReset_ne {s : SeqSt} {r : Reg} {v : Int} (hr : r ∈ s.dstVar) (h : r.init = some v) :
    s.makeReset ≠ [] := by
  intro he
  have : Code.subst r (.int v) ∈ s.makeReset := by
    refine List.mem_filterMap.2 ⟨r, hr, by simp [h]⟩
  rw [he] at this
  simp at this

/-- All traces of the whole block. -/
theorem trace_always (s : SeqSt) (rst : Option Expr) (env : Env) (x : Var) :
    (s.always rst).trace env x =
      if isReset rst env = true ∧ s.makeReset ≠ [] then traceL s.makeReset env x
      else traceL s.makeCode env x := by
  unfold always
  cases rst with
  | none => simp [isReset, Code.trace_block]
  | some r =>
    by_cases h : s.makeReset = []
    · simp [h, Code.trace_block]
    · by_cases hr : r.truthy env = true <;> simp [h, hr, isReset, Code.trace, Code.trace_block]

theorem mem_always_targets {s : SeqSt} {rst : Option Expr} {x : Var} {c : Code} {r : Reg}
    (hc : c ∈ s.makeCode) (hr : r ∈ c.targets) (hx : r.name = x) :
    x ∈ (s.always rst).targets.map Reg.name := by
  have h : r ∈ (Code.block s.makeCode).targets := by
    rw [Code.targets_block, List.mem_flatMap]
    exact ⟨c, hc, hr⟩
  refine List.mem_map.2 ⟨r, ?_, hx⟩
  unfold always
  cases rst with
  | none => exact h
  | some q =>
    by_cases hm : s.makeReset = []
    · simp [hm, h]
    · simp only [hm, if_false, Code.targets, List.mem_append]; exact Or.inr h

theorem mem_targets_of_trace {l : List Code} {env : Env} {x : Var} (h : traceL l env x ≠ []) :
    ∃ c ∈ l, ∃ r ∈ c.targets, r.name = x := by
  by_contra hn
  exact h (traceL_eq_nil fun c hc r hr he => hn ⟨c, hc, r, hr, he⟩)

theorem run_pipe {s : SeqSt} (hi : s.Inv) {rst : Option Expr} {E : Nat → Env}
    (hE : Run (s.always rst) E) {r : Reg} {e : Expr} {v : Int} (p : PipeAt s r e)
    (hv : r.init = some v) (t : Nat) :
    E (t + 1) r.name =
      if isReset rst (E t) = true then r.wrap v else r.wrap (e.eval (E t)) := by
  obtain ⟨c, hc, q, hq, hx⟩ := mem_targets_of_trace (l := s.makeCode) (env := E t) (x := r.name)
    (by rw [p.2]; simp)
  rw [hE t r.name (mem_always_targets hc hq hx), Code.tick, Code.exec_eq_trace, trace_always]
  by_cases h : isReset rst (E t) = true
  · rw [if_pos ⟨h, makeReset_ne p.1 hv⟩, trace_makeReset hi p.1, hv]; simp [h]
  · rw [if_neg fun hh => h hh.1, p.2]; simp [h]

/-- A chain of `n` registers holds what its input was `n` edges ago, or the initial value if a
    reset came in between. -/
theorem pipe_run {s : SeqSt} (hi : s.Inv) {rst : Option Expr} {E : Nat → Env}
    (hE : Run (s.always rst) E) (reg : Nat → Reg) (c : Expr) (v : Int) (w : Int → Int)
    (hw : ∀ j, (reg j).wrap = w) (hww : ∀ a, w (w a) = w a) (hv : ∀ j, (reg j).init = some v)
    (n : Nat) (hp : ∀ j, j < n → PipeAt s (reg (j + 1)) (stage reg c j)) (hn : 0 < n) (t : Nat) :
    E (t + n) (reg n).name =
      if resetIn rst E t n = true then w v else w (c.eval (E t)) := by
  induction n with
  | zero => omega
  | succ n ih =>
    have h := run_pipe hi hE (hp n (by omega)) (hv _) (t + n)
    rw [hw] at h
    rw [← Nat.add_assoc, h, resetIn_succ]
    cases n with
    | zero =>
      simp [stage, resetIn]
    | succ n =>
      have ih' := ih (fun j hj => hp j (by omega)) (by omega)
      have hs : (stage reg c (n + 1)).eval (E (t + (n + 1))) = E (t + (n + 1)) (reg (n + 1)).name :=
        rfl
      rw [hs, ih']
      by_cases h1 : isReset rst (E (t + (n + 1))) = true
      · simp [h1]
      · by_cases h2 : resetIn rst E t (n + 1) = true
        · simp [h1, h2, hww]
        · simp [h1, h2, hww]

end SeqSt
end Hdl
