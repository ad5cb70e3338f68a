import Verif.Lemmas.SeqOnly

/-!
# C15 (Seq part): synchronous reset
-/

namespace Hdl

open SeqSt

/-- All register objects the design assigns (generated ones included) or registered for reset. -/
def SeqSt.managed (s : SeqSt) : List Reg := (Code.block s.makeCode).targets ++ s.dstVar

/-- A name denotes one register object: `Module.Reg` raises on a name that is taken
    (core/module.py:105-113, 1284-1293). -/
def SeqSt.Consistent (s : SeqSt) : Prop :=
  ∀ r ∈ s.managed, ∀ r' ∈ s.managed, r.name = r'.name → r = r'

theorem SeqSt.mem_dst_of_managed {name : String} {s : SeqSt} (h : Reach name s)
    (hc : s.Consistent) {r : Reg} (hr : r ∈ s.managed) : r ∈ s.dstVar := by
  rcases List.mem_append.1 hr with hr' | hr'
  · rw [Code.targets_block, List.mem_flatMap] at hr'
    obtain ⟨c, hcm, hrc⟩ := hr'
    obtain ⟨d, hd, he⟩ := List.mem_map.1 (h.inv.covered c hcm r hrc)
    have := hc d (List.mem_append_right _ hd) r hr he
    exact this ▸ hd
  · exact hr'

theorem SeqSt.traceReset_none {s : SeqSt} {x : Var} (h : ∀ r ∈ s.dstVar, r.name = x → r.init = none)
    (env : Env) : traceL s.makeReset env x = [] := by
  refine traceL_eq_nil fun c hc r hr he => ?_
  obtain ⟨d, hd, hde⟩ := List.mem_filterMap.1 hc
  obtain ⟨v, hv, hve⟩ := Option.map_eq_some_iff.1 hde
  subst hve
  simp only [Code.targets, List.mem_singleton] at hr
  subst hr
  rw [h r hd he] at hv
  simp at hv

/-- **C15, Seq.**  In any design in which some register declares an initial value, at a clock edge
    with reset asserted: every register the design assigns or registered by `add_reset`, generated
    delay registers included, that declares an initial value takes it; every other register keeps
    its value. -/
theorem c15_reset {name : String} {s : SeqSt} (h : Reach name s) (hcons : s.Consistent)
    (rst : Expr) (env : Env) (hr : rst.truthy env = true)
    (hsome : ∃ r ∈ s.managed, r.init ≠ none) :
    (∀ r ∈ s.managed, ∀ v, r.init = some v → (s.always (some rst)).tick env r.name = r.wrap v) ∧
    (∀ x, (∀ r ∈ s.managed, r.name = x → r.init = none) →
      (s.always (some rst)).tick env x = env x) := by
  have hne : s.makeReset ≠ [] := by
    obtain ⟨r, hr, hi⟩ := hsome
    cases hv : r.init with
    | none => exact absurd hv hi
    | some v => exact makeReset_ne (mem_dst_of_managed h hcons hr) hv
  have ht : ∀ x, (s.always (some rst)).tick env x =
      ((traceL s.makeReset env x).getLast?).getD (env x) := by
    intro x
    rw [Code.tick, Code.exec_eq_trace, trace_always, if_pos ⟨hr, hne⟩]
  constructor
  · intro r hm v hv
    rw [ht, trace_makeReset h.inv (mem_dst_of_managed h hcons hm), hv]
    rfl
  · intro x hx
    rw [ht, traceReset_none fun r hr he => hx r (List.mem_append_right _ hr) he]
    rfl

/-- A design none of whose registers declares an initial value has no reset branch: the body is
    executed also while reset is asserted (seq/seq.py:383-384). -/
theorem c15_no_initial_values {name : String} {s : SeqSt} (_h : Reach name s) (rst : Expr)
    (hnone : ∀ r ∈ s.managed, r.init = none) :
    s.always (some rst) = s.always none := by
  have : s.makeReset = [] := by
    rw [makeReset, List.filterMap_eq_nil_iff]
    intro r hr
    rw [hnone r (List.mem_append_right _ hr)]
    rfl
  simp [always, this]

/-- Example: a design with a delayed statement: the condition register is reset to 0 although the
    user never mentions it, `a` to its initial value 3, and `b` (no initial value) keeps 9. -/
example : ((SeqSt.fresh "s").applyAll [.iff [.var (.user "c")], .delay 1,
      .add [.subst ⟨.user "a", 8, false, some 3⟩ (.int 1), .subst ⟨.user "b", 8, false, none⟩ (.int 2)]]
      ).map (fun s => ((s.always (some (.int 1))).tick (fun _ => 9) (.cond "s" 0 1),
        (s.always (some (.int 1))).tick (fun _ => 9) (.user "a"),
        (s.always (some (.int 1))).tick (fun _ => 9) (.user "b"),
        s.managed.map Reg.init)) =
      some (0, 3, 9, [some 3, none, some 0, some 0, some 3, none]) := by decide

end Hdl
