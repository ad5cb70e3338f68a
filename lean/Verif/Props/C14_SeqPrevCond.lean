import Verif.Props.C14_SeqPrev

/-!
# C14, conditional `Prev`

`seq.Prev(x, n, cond=c)` (when no unconditional `Prev(x, n)` exists, see `c14_condition_ignored`) is
the value of `x` at the `n`-th most recent edge at which `c` held.
-/

namespace Hdl

/-- The values of `x` at those of the edges `lo, ..., lo + m - 1` at which `c` held, most recent
    first. -/
def recent (E : Nat → Env) (c : Expr) (x : Var) (lo : Nat) : Nat → List Int
  | 0 => []
  | m + 1 =>
    if c.truthy (E (lo + m)) then E (lo + m) x :: recent E c x lo m else recent E c x lo m

namespace SeqSt

/-- Register `r` is assigned only when `c` holds, then the value `e`, and is reset. -/
def CondPipeAt (s : SeqSt) (r : Reg) (c e : Expr) : Prop :=
  r ∈ s.dstVar ∧ ∀ env, traceL s.makeCode env r.name =
    if c.truthy env = true then [r.wrap (e.eval env)] else []

theorem CondPipeAt.good {s s' : SeqSt} {r : Reg} {c e : Expr} (p : CondPipeAt s r c e)
    (g : Good s s') (hr : r.name.genBy s.name = true) : CondPipeAt s' r c e := by
  obtain ⟨extra, h1, -⟩ := g.step.grows.dst
  refine ⟨by rw [h1]; exact List.mem_append_left _ p.1, fun env => ?_⟩
  rw [g.step.grows.trace, p.2]
  rintro r' (h | h) he
  · rw [he, hr] at h; simp at h
  · exact h (he ▸ List.mem_map_of_mem p.1)

/-- Register `i` of the chain. -/
def tmpReg (k : Nat) (var : Reg) (init : Int) : Nat → Reg
  | 0 => var
  | i + 1 => ⟨.tmp (k + i), var.width, var.signed, some init⟩

theorem prevCondLoop_pipes {s : SeqSt} (hi : s.Inv) (var : Reg) (init : Int) (c : Expr)
    (k : Nat) (m i : Nat) (hk : s.modTmp = k + i)
    (hp : ∀ j, j < i → CondPipeAt s (tmpReg k var init (j + 1)) c (.var (tmpReg k var init j).name)) :
    (prevCondLoop var init c m (tmpReg k var init i) s).1 = tmpReg k var init (i + m) ∧
    ∀ j, j < i + m → CondPipeAt (prevCondLoop var init c m (tmpReg k var init i) s).2
      (tmpReg k var init (j + 1)) c (.var (tmpReg k var init j).name) := by
  induction m generalizing s i with
  | zero => exact ⟨rfl, hp⟩
  | succ m ih =>
    unfold prevCondLoop
    have g1 : Good s { s with modTmp := s.modTmp + 1 } :=
      .book hi rfl rfl rfl rfl (Or.inl rfl) (Nat.le_refl _) (by simp) fun _ => id
    have hfresh : Var.tmp s.modTmp ∉ s.dstNames := by
      intro hm
      have := hi.gen _ hm
      simp [GenOk] at this
    have g2 := Good.pushIf g1.inv c
      (.block [.subst ⟨.tmp s.modTmp, var.width, var.signed, some init⟩
        (.var (tmpReg k var init i).name)])
      (by
        intro r hr
        simp only [Code.block, Code.targets, List.append_nil, List.mem_singleton] at hr
        subst hr
        exact Or.inr hfresh)
      (by
        intro r hr
        simp only [Code.block, Code.targets, List.append_nil, List.mem_singleton] at hr
        subst hr
        simp [GenOk])
    have hreg : (⟨.tmp s.modTmp, var.width, var.signed, some init⟩ : Reg) =
        tmpReg k var init (i + 1) := by rw [hk]; rfl
    simp only
    rw [hreg] at g2 ⊢
    rw [show i + (m + 1) = i + 1 + m by omega]
    have hnew : CondPipeAt ({ s with modTmp := s.modTmp + 1, lastIf := some s.body.length }.pushBody
        (.chain [(c, .block [.subst (tmpReg k var init (i + 1))
          (.var (tmpReg k var init i).name)])] none))
        (tmpReg k var init (i + 1)) c (.var (tmpReg k var init i).name) := by
      have hf : (tmpReg k var init (i + 1)).name ∉ s.dstNames := by rw [← hreg]; exact hfresh
      refine ⟨?_, fun env => ?_⟩
      · simp only [SeqSt.pushBody, Item.code, chainCode, Code.block, Code.targets, List.append_nil]
        exact mem_addDst_singleton _ _ hf
      · rw [trace_pushBody]
        have : traceL (SeqSt.makeCode
            { s with modTmp := s.modTmp + 1, lastIf := some s.body.length }) env
            (tmpReg k var init (i + 1)).name = [] :=
          trace_fresh (s := s) hi.covered hf env
        rw [this]
        by_cases hc : c.truthy env = true <;>
          simp [Item.code, chainCode, Code.trace, Code.block, hc]
    have hname : s.name = ({ s with modTmp := s.modTmp + 1 } : SeqSt).name := rfl
    refine ih (g1.trans g2).inv (i + 1) ?_ ?_
    · simp only [SeqSt.pushBody, addDst_modTmp]; omega
    · intro j hj
      by_cases hji : j = i
      · subst hji; exact hnew
      · exact (hp j (by omega)).good (g1.trans g2) (by simp [tmpReg, Var.genBy])

theorem run_cond_pipe {s : SeqSt} (hi : s.Inv) {rst : Option Expr} {E : Nat → Env}
    (hE : Run (s.always rst) E) {r : Reg} {c e : Expr} {v : Int} (p : CondPipeAt s r c e)
    (hv : r.init = some v) (hd : ∃ env, c.truthy env = true) (t : Nat) :
    E (t + 1) r.name =
      if isReset rst (E t) = true then r.wrap v
      else if c.truthy (E t) = true then r.wrap (e.eval (E t)) else E t r.name := by
  obtain ⟨env, henv⟩ := hd
  obtain ⟨cd, hc, q, hq, hx⟩ := mem_targets_of_trace (l := s.makeCode) (env := env) (x := r.name)
    (by rw [p.2]; simp [henv])
  rw [hE t r.name (mem_always_targets hc hq hx), Code.tick, Code.exec_eq_trace, trace_always]
  by_cases h : isReset rst (E t) = true
  · rw [if_pos ⟨h, makeReset_ne p.1 hv⟩, trace_makeReset hi p.1, hv]; simp [h]
  · rw [if_neg fun hh => h hh.1, p.2, if_neg h]
    split <;> rfl

end SeqSt

open SeqSt

/-- **C14, conditional.**  `r = seq.Prev(x, n, cond=c)` in any design in which the pair of `x` and
    `n` has no unconditional register yet.  Suppose reset is asserted at edge `t0` and not at the
    `m` edges after it: then `r` holds the value `x` had at the `n`-th most recent of these edges at
    which `c` held, or the initial value if there were fewer than `n` such edges. -/
theorem c14_prev_cond {name : String} {s s2 : SeqSt} (h : Reach name s) (post : List SeqOp)
    (pfx : String) (x : Reg) (init : Int) (n : Nat) (c : Expr) (hn : 0 < n)
    (hd : ∃ env, c.truthy env = true)
    (hnew : s.lookupPrev (pfx, n) = none)
    (hpost : ∀ op ∈ post, op.Ok name)
    (hs2 : (s.prev pfx x n init (some c)).2.applyAll post = some s2)
    (rst : Option Expr) (E : Nat → Env) (hE : Run (s2.always rst) E)
    (hrange : ∀ t, x.wrap (E t x.name) = E t x.name)
    (t0 m : Nat) (hr0 : isReset rst (E t0) = true)
    (hr : ∀ u < m, isReset rst (E (t0 + 1 + u)) = false) :
    E (t0 + 1 + m) (s.prev pfx x n init (some c)).1.name =
      ((recent E c x.name (t0 + 1) m)[n - 1]?).getD (x.wrap init) := by
  have hprev : s.prev pfx x n init (some c) = prevCondLoop x init c n x s := by
    unfold SeqSt.prev
    rw [if_neg (by omega), hnew]
  have g1 := Good.prev h.inv pfx x n init (some c)
  have g2 : Good _ s2 := Good.applyAll g1.inv post
    (by rw [g1.step.name, h.name_eq]; exact hpost) hs2
  have hp := prevCondLoop_pipes h.inv x init c s.modTmp n 0 rfl (fun j hj => by omega)
  have hx0 : tmpReg s.modTmp x init 0 = x := rfl
  rw [hx0, ← hprev, Nat.zero_add] at hp
  have hpipe : ∀ j, j < n → CondPipeAt s2 (tmpReg s.modTmp x init (j + 1)) c
      (.var (tmpReg s.modTmp x init j).name) :=
    fun j hj => (hp.2 j hj).good g2 (by simp [tmpReg, Var.genBy])
  have hstep := fun j (hj : j < n) t => run_cond_pipe g2.inv hE (hpipe j hj) (v := init) rfl hd t
  -- values in range
  have hrec : ∀ m, ∀ v ∈ recent E c x.name (t0 + 1) m, x.wrap v = v := by
    intro m
    induction m with
    | zero => simp [recent]
    | succ m ih =>
      intro v hv
      unfold recent at hv
      split at hv
      · rcases List.mem_cons.1 hv with rfl | hv
        · exact hrange _
        · exact ih v hv
      · exact ih v hv
  have main : ∀ m, (∀ u < m, isReset rst (E (t0 + 1 + u)) = false) → ∀ j, j < n →
      E (t0 + 1 + m) (tmpReg s.modTmp x init (j + 1)).name =
        ((recent E c x.name (t0 + 1) m)[j]?).getD (x.wrap init) := by
    intro m
    induction m with
    | zero =>
      intro _ j hj
      have := hstep j hj t0
      rw [if_pos hr0] at this
      have e : (recent E c x.name (t0 + 1) 0)[j]? = none := by simp [recent]
      rw [e]
      exact this
    | succ m ih =>
      intro hr j hj
      have ihm := ih fun u hu => hr u (by omega)
      have := hstep j hj (t0 + 1 + m)
      rw [if_neg (by rw [hr m (by omega)]; simp)] at this
      rw [← Nat.add_assoc, this]
      unfold recent
      by_cases hc : c.truthy (E (t0 + 1 + m)) = true
      · rw [if_pos hc, if_pos hc]
        show x.wrap (E (t0 + 1 + m) (tmpReg s.modTmp x init j).name) = _
        cases j with
        | zero =>
          show x.wrap (E (t0 + 1 + m) x.name) = _
          rw [hrange]; rfl
        | succ j =>
          rw [ihm j (by omega), List.getElem?_cons_succ]
          cases hg : (recent E c x.name (t0 + 1) m)[j]? with
          | none => exact x.wrap_wrap init
          | some v => exact hrec m v (List.mem_of_getElem? hg)
      · rw [if_neg hc, if_neg hc]
        exact ihm j hj
  rw [hp.1]
  obtain ⟨k, rfl⟩ : ∃ k, n = k + 1 := ⟨n - 1, by omega⟩
  exact main m hr k (by omega)

/-- Example: with `c` true at edges 1 and 3 only, the samples of `x` are those of edges 3 and 1. -/
example : recent (fun t v => if v = .user "c" then (t % 2 : Nat) else (10 * t : Nat)) (.var (.user "c"))
    (.user "x") 1 4 = [30, 10] := by decide

end Hdl
