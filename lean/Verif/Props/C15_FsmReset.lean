import Verif.Lemmas.FsmOnly
import Verif.Props.C15_SeqReset

/-!
# C15 (FSM part): synchronous reset
-/

namespace Hdl

open FsmSt

/-- All register objects the FSM assigns or resets: the state register and its delayed copies,
    everything assigned by a statement of a state (generated delay registers included), and
    everything managed by the parallel `Seq`. -/
def FsmSt.managed (s : FsmSt) : List Reg :=
  (List.range (s.delayAmount + 1)).map s.dstateReg ++ s.code.flatMap (fun e => e.2.code.targets) ++
    s.dstVar ++ s.seq.managed

/-- A name denotes one register object: `Module.Reg` raises on a name that is taken
    (core/module.py:105-113, 1284-1293). -/
def FsmSt.Consistent (s : FsmSt) : Prop :=
  ∀ r ∈ s.managed, ∀ r' ∈ s.managed, r.name = r'.name → r = r'

theorem FsmSt.mem_resetRegs_of_managed {name : String} {w : Nat} {s : FsmSt} (h : Reach name w s)
    (hc : s.Consistent) {r : Reg} (hr : r ∈ s.managed) : r ∈ s.resetRegs := by
  have hsub : ∀ d ∈ s.seq.dstVar, d ∈ s.managed := by
    intro d hd
    simp only [FsmSt.managed, SeqSt.managed, List.mem_append]
    exact Or.inr (Or.inr hd)
  have hsub' : ∀ d ∈ s.dstVar, d ∈ s.managed := by
    intro d hd
    simp only [FsmSt.managed, List.mem_append]
    exact Or.inl (Or.inr hd)
  have hr0 := hr
  simp only [FsmSt.managed, SeqSt.managed, List.mem_append, List.mem_map, List.mem_range] at hr
  rw [mem_resetRegs]
  rcases hr with ((⟨d, hd, rfl⟩ | hr) | hr) | hr | hr
  · exact Or.inl ⟨d, by omega, rfl⟩
  · obtain ⟨e, he, hre⟩ := List.mem_flatMap.1 hr
    obtain ⟨d, hd, hde⟩ := List.mem_map.1 (h.inv.covered e he r hre)
    have := hc d (hsub' d hd) r hr0 hde
    exact Or.inr (Or.inl (this ▸ hd))
  · exact Or.inr (Or.inl hr)
  · rw [Code.targets_block, List.mem_flatMap] at hr
    obtain ⟨c, hcm, hrc⟩ := hr
    obtain ⟨d, hd, hde⟩ := List.mem_map.1 (h.inv.seqInv.covered c hcm r hrc)
    have := hc d (hsub d hd) r hr0 hde
    exact Or.inr (Or.inr (this ▸ hd))
  · exact Or.inr (Or.inr hr)

theorem FsmSt.managed_of_resetRegs {s : FsmSt} {r : Reg} (hr : r ∈ s.resetRegs) : r ∈ s.managed := by
  simp only [FsmSt.managed, SeqSt.managed, List.mem_append, List.mem_map, List.mem_range]
  rcases mem_resetRegs.1 hr with ⟨d, hd, rfl⟩ | h | h
  · exact Or.inl (Or.inl (Or.inl ⟨d, by omega, rfl⟩))
  · exact Or.inl (Or.inr h)
  · exact Or.inr (Or.inr h)

/-- **C15, FSM.**  At a clock edge with reset asserted: every register the FSM manages that declares
    an initial value takes it; in particular the FSM and all its delayed states go to state 0; every
    other register keeps its value. -/
theorem c15_fsm_reset {name : String} {w : Nat} {s : FsmSt} (h : Reach name w s)
    (hcons : s.Consistent) (rst : Expr) (uc : Bool) (env : Env) (hr : rst.truthy env = true) :
    (∀ r ∈ s.managed, ∀ v, r.init = some v → (s.always rst uc).tick env r.name = r.wrap v) ∧
    (s.always rst uc).tick env (.state name) = 0 ∧
    (∀ x, (∀ r ∈ s.managed, r.name = x → r.init = none) →
      (s.always rst uc).tick env x = env x) := by
  have ht : ∀ x, (s.always rst uc).tick env x =
      ((traceL s.makeReset env x).getLast?).getD (env x) := by
    intro x
    rw [Code.tick, Code.exec_eq_trace, always_trace, if_pos hr]
  refine ⟨?_, ?_, ?_⟩
  · intro r hm v hv
    rw [ht, makeReset_trace_of (mem_resetRegs_of_managed h hcons hm) hv fun r' hr' he =>
      hcons r' (managed_of_resetRegs hr') r hm he]
    rfl
  · have := reset_dstate h.inv 0 (by omega) env
    have e : (s.dstateReg 0).name = .state name := by simp [dstateReg, stateReg, h.name_eq]
    rw [e] at this
    rw [ht, this]
    rfl
  · intro x hx
    rw [ht, makeReset_trace_none fun r hr he => hx r (managed_of_resetRegs hr) he]
    rfl

/-- Example: state, delayed state, the generated condition register and `a` are reset, `b` (no
    initial value) keeps 9; the design is consistent. -/
example : ((FsmSt.fresh "f" 32).applyAll [.iff [.var (.user "c")], .delay 1,
      .add [.subst ⟨.user "a", 8, false, some 3⟩ (.int 1), .subst ⟨.user "b", 8, false, none⟩ (.int 2)]]
      ).map (fun s => ((s.always (.int 1) true).tick (fun _ => 9) (.state "f"),
        (s.always (.int 1) true).tick (fun _ => 9) (.dstate "f" 1),
        (s.always (.int 1) true).tick (fun _ => 9) (.cond "f" 0 1),
        (s.always (.int 1) true).tick (fun _ => 9) (.user "a"),
        (s.always (.int 1) true).tick (fun _ => 9) (.user "b"),
        decide (∀ r ∈ s.managed, ∀ r' ∈ s.managed, r.name = r'.name → r = r'))) =
      some (0, 0, 0, 3, 9, true) := by decide

end Hdl
