import Verif.Model.Fsm
import Verif.Lemmas.SeqOnly
import Mathlib.Data.List.Nodup

/-! Structure of the code an FSM generates, and what each primitive change of the builder does. -/

namespace Hdl
namespace FsmSt

/-- Values assigned to `x` by the statements kept for delay `d` and state `i`. -/
def keyTrace (s : FsmSt) (d i : Nat) (env : Env) (x : Var) : List Int :=
  traceL (s.at' d i) env x

/-- Values assigned to `x` by the statements of delay `d` that are active. -/
def active (s : FsmSt) (d : Nat) (env : Env) (x : Var) : List Int :=
  if 0 ≤ env (s.dstateReg d).name then s.keyTrace d (env (s.dstateReg d).name).toNat env x else []

/-- The jump statements that are active. -/
def jumpTrace (s : FsmSt) (env : Env) (x : Var) : List Int :=
  if 0 ≤ env s.stateReg.name then traceL (s.jumpsAt (env s.stateReg.name).toNat) env x else []

/-- The active statements of delay `lo, ..., lo + cnt - 1`, by decreasing delay. -/
def seg (s : FsmSt) (env : Env) (x : Var) (lo : Nat) : Nat → List Int
  | 0 => []
  | c + 1 => s.active (lo + c) env x ++ seg s env x lo c

/-! ## Case and if -/

theorem caseCode_trace_skip (sel : Expr) (l : List (Int × Code)) (env : Env) (x : Var)
    (h : ∀ e ∈ l, e.1 ≠ sel.eval env) : (caseCode sel l).trace env x = [] := by
  induction l with
  | nil => rfl
  | cons e l ih =>
    obtain ⟨k, c⟩ := e
    have hk : sel.eval env ≠ k := fun he => h (k, c) (by simp) he.symm
    have := ih fun e he => h e (by simp [he])
    simp [caseCode, Code.trace, Expr.truthy, Expr.eval.eq_2, hk, this]

theorem caseCode_trace_of (sel : Expr) (l : List (Int × Code)) (env : Env) (x : Var) (k : Int)
    (c : Code) (hk : sel.eval env = k) (hm : (k, c) ∈ l) (hn : (l.map Prod.fst).Nodup) :
    (caseCode sel l).trace env x = c.trace env x := by
  induction l with
  | nil => simp at hm
  | cons e l ih =>
    obtain ⟨k', c'⟩ := e
    simp only [List.map_cons, List.nodup_cons] at hn
    rcases List.mem_cons.1 hm with he | hm'
    · obtain ⟨rfl, rfl⟩ : k = k' ∧ c = c' := by simpa using he
      simp [caseCode, Code.trace, Expr.truthy, Expr.eval.eq_2, hk]
    · have hne : k ≠ k' := by
        rintro rfl
        exact hn.1 (List.mem_map.2 ⟨(k, c), hm', rfl⟩)
      simp [caseCode, Code.trace, Expr.truthy, Expr.eval.eq_2, hk, hne, ih hm' hn.2]

theorem le_foldl_max (l : List Nat) (m : Nat) : m ≤ l.foldl max m ∧ ∀ i ∈ l, i ≤ l.foldl max m := by
  induction l generalizing m with
  | nil => simp
  | cons a l ih =>
    obtain ⟨h1, h2⟩ := ih (max m a)
    simp only [List.foldl_cons, List.mem_cons, forall_eq_or_imp]
    exact ⟨by omega, by omega, h2⟩

theorem mem_sortedKeys (l : List Nat) (i : Nat) : i ∈ sortedKeys l ↔ i ∈ l := by
  simp only [sortedKeys, List.mem_filter, List.mem_range, decide_eq_true_eq]
  constructor
  · exact fun h => h.2
  · intro h
    have := (le_foldl_max l 0).2 i h
    exact ⟨by omega, h⟩

theorem sortedKeys_nodup (l : List Nat) : (sortedKeys l).Nodup :=
  List.nodup_range.sublist List.filter_sublist

theorem mem_indexes (s : FsmSt) (d i : Nat) :
    i ∈ s.indexes d ↔ (∃ e ∈ s.code, e.1 = (d, i)) ∨ (d = 0 ∧ ∃ j, (i, j) ∈ s.jumps) := by
  unfold indexes
  rw [mem_sortedKeys, List.mem_append, List.mem_filterMap]
  constructor
  · rintro (⟨e, he, h⟩ | h)
    · left
      obtain ⟨⟨d', i'⟩, it⟩ := e
      by_cases hd : d' = d
      · simp only [hd, if_true, Option.some.injEq] at h
        exact ⟨_, he, by simp [hd, h]⟩
      · simp [hd] at h
    · right
      by_cases hd : d = 0
      · simp only [hd, if_true, List.mem_map] at h
        obtain ⟨⟨a, j⟩, hj, rfl⟩ := h
        exact ⟨hd, j, hj⟩
      · simp [hd] at h
  · rintro (⟨e, he, h⟩ | ⟨hd, j, hj⟩)
    · left
      exact ⟨e, he, by simp [h]⟩
    · right
      simp only [hd, if_true, List.mem_map]
      exact ⟨_, hj, rfl⟩

theorem at'_nil {s : FsmSt} {d i : Nat} (h : i ∉ s.indexes d) : s.at' d i = [] := by
  unfold at'
  rw [List.filterMap_eq_nil_iff]
  intro e he
  by_cases hk : e.1 = (d, i)
  · exact absurd ((mem_indexes s d i).2 (Or.inl ⟨e, he, hk⟩)) h
  · simp [hk]

theorem jumpsAt_nil {s : FsmSt} {i : Nat} (h : i ∉ s.indexes 0) : s.jumpsAt i = [] := by
  unfold jumpsAt
  rw [List.filterMap_eq_nil_iff]
  rintro ⟨a, j⟩ he
  by_cases hk : a = i
  · subst hk
    exact absurd ((mem_indexes s 0 a).2 (Or.inr ⟨rfl, j, he⟩)) h
  · simp [hk]

/-- The statements for state `i`, as a trace. -/
theorem armCode_trace (s : FsmSt) (d i : Nat) (env : Env) (x : Var) :
    (s.armCode d i).trace env x = s.keyTrace d i env x ++
      if d = 0 then traceL (s.jumpsAt i) env x else [] := by
  unfold armCode keyTrace
  rw [Code.trace_block, traceL_append]
  split <;> simp

/-- What the statements of delay `d` contribute. -/
def armTrace (s : FsmSt) (d : Nat) (env : Env) (x : Var) : List Int :=
  s.active d env x ++ if d = 0 then s.jumpTrace env x else []

theorem armTrace_eq (s : FsmSt) (d : Nat) (env : Env) (x : Var) :
    s.armTrace d env x =
      if 0 ≤ env (s.dstateReg d).name then
        (s.armCode d (env (s.dstateReg d).name).toNat).trace env x else [] := by
  unfold armTrace active jumpTrace
  rw [armCode_trace]
  by_cases hd : d = 0
  · subst hd
    simp only [dstateReg, if_true]
    split <;> simp [*]
  · simp only [hd, if_false, List.append_nil]

theorem armCode_nil {s : FsmSt} {d i : Nat} (h : i ∉ s.indexes d) (env : Env) (x : Var) :
    (s.armCode d i).trace env x = [] := by
  rw [armCode_trace, keyTrace, at'_nil h]
  by_cases hd : d = 0
  · subst hd; simp [jumpsAt_nil h]
  · simp [hd]

theorem caseAt_trace (s : FsmSt) (d : Nat) (env : Env) (x : Var) :
    (s.caseAt d).trace env x = s.armTrace d env x := by
  rw [armTrace_eq]
  unfold caseAt
  have hsel : (Expr.var (s.dstateReg d).name).eval env = env (s.dstateReg d).name := rfl
  by_cases h0 : 0 ≤ env (s.dstateReg d).name
  · rw [if_pos h0]
    obtain ⟨n, hn⟩ := Int.eq_ofNat_of_zero_le h0
    rw [hn, Int.toNat_natCast]
    by_cases hm : n ∈ s.indexes d
    · refine caseCode_trace_of _ _ env x (n : Int) _ (by rw [hsel, hn]) ?_ ?_
      · exact List.mem_map.2 ⟨n, hm, rfl⟩
      · rw [List.map_map]
        exact List.Nodup.map (fun a b h => Int.ofNat_inj.1 h) (sortedKeys_nodup _)
    · rw [armCode_nil hm]
      refine caseCode_trace_skip _ _ env x ?_
      intro e he
      obtain ⟨i, hi, rfl⟩ := List.mem_map.1 he
      rw [hsel, hn]
      intro heq
      have : i = n := Int.ofNat_inj.1 heq
      exact hm (this ▸ hi)
  · rw [if_neg h0]
    refine caseCode_trace_skip _ _ env x ?_
    intro e he
    obtain ⟨i, hi, rfl⟩ := List.mem_map.1 he
    rw [hsel]
    simp only
    omega

theorem ifs_trace (s : FsmSt) (d : Nat) (env : Env) (x : Var) (l : List Nat) (hn : l.Nodup) :
    traceL (l.map fun i => s.ifAt d i) env x =
      if 0 ≤ env (s.dstateReg d).name ∧ (env (s.dstateReg d).name).toNat ∈ l then
        (s.armCode d (env (s.dstateReg d).name).toNat).trace env x else [] := by
  induction l with
  | nil => simp
  | cons a l ih =>
    simp only [List.nodup_cons] at hn
    rw [List.map_cons, traceL_cons, ih hn.2]
    have ha : (s.ifAt d a).trace env x =
        if env (s.dstateReg d).name = (a : Int) then (s.armCode d a).trace env x else [] := by
      unfold ifAt
      simp only [Code.trace, Expr.truthy, Expr.eval.eq_2]
      by_cases h : env (s.dstateReg d).name = (a : Int) <;> simp [h]
    rw [ha]
    by_cases h : env (s.dstateReg d).name = (a : Int)
    · simp [h, hn.1]
    · have : ¬ (0 ≤ env (s.dstateReg d).name ∧ (env (s.dstateReg d).name).toNat = a) := by omega
      rw [if_neg h, List.nil_append]
      by_cases h2 : 0 ≤ env (s.dstateReg d).name ∧ (env (s.dstateReg d).name).toNat ∈ l
      · rw [if_pos h2, if_pos ⟨h2.1, List.mem_cons_of_mem _ h2.2⟩]
      · rw [if_neg h2, if_neg]
        rintro ⟨h3, h4⟩
        rcases List.mem_cons.1 h4 with h4 | h4
        · exact this ⟨h3, h4⟩
        · exact h2 ⟨h3, h4⟩

theorem ifsAt_trace (s : FsmSt) (d : Nat) (env : Env) (x : Var) :
    traceL ((s.indexes d).map fun i => s.ifAt d i) env x = s.armTrace d env x := by
  rw [ifs_trace s d env x (s.indexes d) (sortedKeys_nodup _), armTrace_eq]
  by_cases h0 : 0 ≤ env (s.dstateReg d).name
  · by_cases hm : (env (s.dstateReg d).name).toNat ∈ s.indexes d
    · simp [h0, hm]
    · simp [hm, armCode_nil hm]
  · simp [h0]

theorem traceL_map_reverse_range (f : Nat → Code) (N : Nat) (env : Env) (x : Var) :
    traceL ((List.range (N + 1)).reverse.map f) env x =
      (f N).trace env x ++ traceL ((List.range N).reverse.map f) env x := by
  rw [List.range_succ, List.reverse_append]
  simp [traceL_cons]

theorem cases_trace (s : FsmSt) (N : Nat) (env : Env) (x : Var) :
    traceL ((List.range (N + 1)).reverse.map fun d => s.caseAt d) env x =
      s.seg env x 0 (N + 1) ++ s.jumpTrace env x := by
  induction N with
  | zero =>
    rw [traceL_map_reverse_range, caseAt_trace]
    simp [armTrace, seg]
  | succ N ih =>
    rw [traceL_map_reverse_range, ih, caseAt_trace]
    have : s.seg env x 0 (N + 1 + 1) = s.active (N + 1) env x ++ s.seg env x 0 (N + 1) := by
      rw [seg]; simp
    rw [this]
    simp [armTrace]

theorem ifs_eq_cases (s : FsmSt) (N : Nat) (env : Env) (x : Var) :
    traceL ((List.range N).reverse.flatMap fun d => (s.indexes d).map fun i => s.ifAt d i) env x =
      traceL ((List.range N).reverse.map fun d => s.caseAt d) env x := by
  induction N with
  | zero => rfl
  | succ N ih =>
    rw [traceL_map_reverse_range, List.range_succ, List.reverse_append, List.flatMap_append,
      traceL_append, ih, caseAt_trace]
    simp [ifsAt_trace]

/-- All assignments the FSM executes outside reset, in order. -/
theorem makeCase_trace (s : FsmSt) (env : Env) (x : Var) :
    traceL s.makeCase env x = traceL s.seq.makeCode env x ++ traceL s.delayedSubsts env x ++
      (s.seg env x 0 (s.delayAmount + 1) ++ s.jumpTrace env x) := by
  unfold makeCase
  rw [traceL_append, traceL_append, cases_trace]

theorem makeIf_trace (s : FsmSt) (env : Env) (x : Var) :
    traceL s.makeIf env x = traceL s.makeCase env x := by
  unfold makeIf makeCase
  rw [traceL_append, traceL_append, traceL_append, traceL_append, ifs_eq_cases]

theorem always_trace (s : FsmSt) (rst : Expr) (uc : Bool) (env : Env) (x : Var) :
    (s.always rst uc).trace env x =
      if rst.truthy env = true then traceL s.makeReset env x else traceL s.makeCase env x := by
  unfold always
  simp only [Code.trace, Code.trace_block]
  cases uc <;> simp [makeIf_trace]

end FsmSt
end Hdl
