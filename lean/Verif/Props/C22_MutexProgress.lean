import Verif.Props.C21_Mutex
import Verif.Props.C15_SeqReset

/-!
# C22: progress of the mutex
-/

namespace Hdl

open FsmSt

/-- The lock register is clear. -/
def Sys.Free (s : Sys) (env : Env) : Prop := env s.mx.lockReg.name = 0

section

variable {name : String} {width fw : Nat} {tmps : List String} {s : Sys} {rst : Expr}
  {uc : String → Bool} {E : Nat → Env}

theorem SysInv.try_next (h : SysInv name width fw tmps s) (hc : s.Clean)
    (hE : s.Exec rst uc E) {c : Site} (hm : c ∈ s.sites) (hk : c.kind ≠ .lock) (t : Nat)
    (hr : rst.truthy (E t) = false) (hst : E t (.state c.th) = (c.st : Int)) :
    E (t + 1) (.state c.th) = ((c.st + 1 : Nat) : Int) := by
  have hf := h.fits hc hm
  have he : fromState (Site.jumps s.mx c) c.st = [⟨c.st + 1, none, none⟩] := by
    cases hk' : c.kind with
    | lock => exact absurd hk' hk
    | _ => simp [fromState, Site.jumps, hk']
  have hj := h.jumpsFrom hm c.st (by rw [(hc c hm).2.1, he]; rfl)
  have hn := run_next (h.reach c.th) (hE.thread c hm) t c.st hr hst (by
    rw [hj, he]
    simp
    omega)
  rw [hj, he] at hn
  rw [hn]
  simp [nextState, takeJump, holds]

/-- **C22.**  If the mutex is free and at least one thread requests it (is in the first state of
    `lock` or `try_lock`) while nobody unlocks, then one of the requesting threads has it two edges
    later. -/
theorem c22_progress (h : Built name width fw tmps s) (hc : s.Clean) (hE : s.Exec rst uc E) (t : Nat)
    (hr : rst.truthy (E t) = false) (hr1 : rst.truthy (E (t + 1)) = false)
    (hfree : s.Free (E t)) (ht : ∃ n, s.Trying n (E t)) (hu : ∀ n, ¬ s.Unlocking n (E t)) :
    ∃ n, s.Trying n (E t) ∧ s.Acquires E n (t + 1) ∧
      (¬ s.Unlocking n (E (t + 1)) → s.Holds rst E n (t + 2)) := by
  obtain ⟨c, hm, hk, hst, h1, h2⟩ := h.inv.grab hE.mutex t hr hfree ht hu
  have hacq : s.Acquires E c.th (t + 1) := by
    refine ⟨c, hm, rfl, ?_, ?_⟩
    · by_cases hl : c.kind = .lock
      · have hf' : s.reg (E t) = 0 := hfree
        rw [h.inv.lock_try hc hE hm hl t hr hst, if_pos (Or.inl hf')]
      · exact h.inv.try_next hc hE hm hl t hr hst
    · cases hkind : c.kind with
      | lock =>
        have h3 : E (t + 1) (.state c.th) = ((c.st + 1 : Nat) : Int) := by
          have hf' : s.reg (E t) = 0 := hfree
          rw [h.inv.lock_try hc hE hm hkind t hr hst, if_pos (Or.inl hf')]
        exact (h.inv.lock_verify hc hE hm hkind (t + 1) hr1 h3).1 ⟨by rw [h1]; decide, h2⟩
      | tryLock tmp =>
        have h3 := h.inv.try_next hc hE hm (by simp [hkind]) t hr hst
        have := h.inv.try_result hE hm hkind (t + 1) hr1 h3
        rw [if_pos h2, h1] at this
        exact this
      | unlock => exact absurd hkind hk
  refine ⟨c.th, ⟨c, hm, hk, rfl, hst⟩, hacq, fun hun => ⟨t + 1, by omega, hacq, ?_, ?_⟩⟩
  · intro u h3 h4
    obtain rfl : u = t + 1 := by omega
    exact hr1
  · intro u h3 h4
    obtain rfl : u = t + 1 := by omega
    exact hun

/-- **C22, unlock.**  A thread that holds the mutex and executes `unlock` frees it. -/
theorem c22_unlock (h : Built name width fw tmps s) (hc : s.Clean) (hE : s.Exec rst uc E) (t : Nat)
    (hr : rst.truthy (E t) = false) {n : String} (hh : s.Holds rst E n t)
    (hu : s.Unlocking n (E t)) : s.Free (E (t + 1)) :=
  h.inv.release hE.mutex t hr (h.inv.holds_owns hc hE hh).1 hu

/-- **C22, reset.**  Reset frees the mutex. -/
theorem c22_reset (h : Built name width fw tmps s) (hE : s.Exec rst uc E) (t : Nat)
    (hcons : s.mx.seq.Consistent) (hr : rst.truthy (E t) = true) (hs : s.sites ≠ []) :
    s.Free (E (t + 1)) := by
  have hi := h.inv
  obtain ⟨c, hc⟩ := List.exists_mem_of_ne_nil _ hs
  have hm : Site.code s.mx c ∈ s.mx.seq.makeCode := by
    have : Site.code s.mx c ∈ s.mx.seq.body.map Item.code := by
      rw [hi.body]; exact List.mem_map_of_mem hc
    exact List.mem_append_right _ this
  have hr' : s.mx.lockReg ∈ (Site.code s.mx c).targets := by
    unfold Site.code
    cases c.kind <;> simp [Code.targets, Code.block]
  have hman : s.mx.lockReg ∈ s.mx.seq.managed := by
    refine List.mem_append_left _ ?_
    rw [Code.targets_block, List.mem_flatMap]
    exact ⟨_, hm, hr'⟩
  unfold Sys.Free
  rw [hE.mutex t _ (SeqSt.mem_always_targets hm hr' rfl),
    (c15_reset hi.seqReach hcons rst (E t) hr ⟨_, hman, by simp [MutexSt.lockReg]⟩).1 _ hman 0 rfl]
  simp [MutexSt.lockReg, Reg.wrap]

/-- **C22, meaning of free.**  While the mutex is free no thread holds it. -/
theorem c22_free (h : Built name width fw tmps s) (hc : s.Clean) (hE : s.Exec rst uc E) (t : Nat)
    (hfree : s.Free (E t)) (n : String) : ¬ s.Holds rst E n t :=
  fun hh => (h.inv.holds_owns hc hE hh).1.1 hfree

/-- **C22, converse.**  The mutex is locked only by a request: if it is free and nobody requests it,
    it stays free. -/
theorem c22_stays_free (h : Built name width fw tmps s) (hE : s.Exec rst uc E) (t : Nat)
    (hr : rst.truthy (E t) = false) (hs : s.sites ≠ []) (hfree : s.Free (E t))
    (ht : ∀ n, ¬ s.Trying n (E t)) : s.Free (E (t + 1)) := by
  have hi := h.inv
  obtain ⟨c0, hc0⟩ := List.exists_mem_of_ne_nil _ hs
  unfold Sys.Free
  rw [hi.next hE.mutex t hr ⟨c0, hc0, Site.drives_reg s.mx c0⟩]
  have hall : ∀ v ∈ (s.sites.flatMap fun c => (Site.code s.mx c).trace (E t) s.mx.lockReg.name),
      v = 0 := by
    intro v hv
    obtain ⟨c, hc, hv⟩ := List.mem_flatMap.1 hv
    rw [Site.trace_reg] at hv
    split at hv
    · rename_i hst
      cases hk : c.kind with
      | unlock => simp only [hk] at hv; split at hv <;> simp at hv; exact hv
      | _ => exact absurd ⟨c, hc, by simp [hk], rfl, hst⟩ (ht c.th)
    · simp at hv
  cases hl : (s.sites.flatMap fun c =>
      (Site.code s.mx c).trace (E t) s.mx.lockReg.name).getLast? with
  | none => exact hfree
  | some v => simpa using hall v (List.mem_of_getLast? hl)

end

namespace MutexEx

/-- In the example both threads request the free mutex at edge 0, and `b` has it at edge 2. -/
example : exSys.Free (exE 0) ∧ exSys.Trying "a" (exE 0) ∧ exSys.Trying "b" (exE 0) ∧
    (∀ n, ¬ exSys.Unlocking n (exE 0)) ∧ ∃ n, exSys.Acquires exE n 1 := by
  have ha : exSys.Trying "a" (exE 0) :=
    ⟨⟨.lock, "a", 0⟩, by simp [exSys], by simp, rfl, rfl⟩
  have hu : ∀ n, ¬ exSys.Unlocking n (exE 0) := by
    rintro n ⟨c, hc, hk, hn, hst⟩
    simp only [exSys, List.mem_cons, List.not_mem_nil, or_false] at hc
    rcases hc with rfl | rfl | rfl | rfl | rfl <;> simp [exE, sim] at hk hst
  refine ⟨rfl, ha, ⟨⟨.tryLock "_tmp_0", "b", 0⟩, by simp [exSys], by simp, rfl, rfl⟩, hu, ?_⟩
  obtain ⟨n, -, h, -⟩ := c22_progress exBuilt exClean exExec 0 rfl rfl rfl ⟨"a", ha⟩ hu
  exact ⟨n, h⟩

example : exSys.mx.seq.Consistent ∧ exSys.sites ≠ [] := by
  unfold SeqSt.Consistent; decide

end MutexEx

end Hdl
