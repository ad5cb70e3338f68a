import Verif.Lemmas.MutexRun
import Verif.Lemmas.Sim

/-!
# C21: mutual exclusion

For every design that uses a mutex from any number of threads, any number of call sites, in any
order, and any execution.
-/

namespace Hdl

open FsmSt

/-- At edge `t` thread `n` completes a `lock`, or a `try_lock` with result 1. -/
def Sys.Acquires (s : Sys) (E : Nat → Env) (n : String) (t : Nat) : Prop :=
  ∃ c ∈ s.sites, c.th = n ∧ E t (.state n) = ((c.st + 1 : Nat) : Int) ∧
    match c.kind with
    | .lock => E (t + 1) (.state n) = ((c.st + 2 : Nat) : Int)
    | .tryLock tmp => E (t + 1) (.user tmp) = 1
    | .unlock => False

/-- Thread `n` is between the completion of a `lock` (or successful `try_lock`) and the completion of
    its next `unlock`, and there was no reset since. -/
def Sys.Holds (s : Sys) (rst : Expr) (E : Nat → Env) (n : String) (t : Nat) : Prop :=
  ∃ t0, t0 < t ∧ s.Acquires E n t0 ∧ (∀ u, t0 ≤ u → u < t → rst.truthy (E u) = false) ∧
    ∀ u, t0 ≤ u → u < t → ¬ s.Unlocking n (E u)

instance (s : Sys) (n : String) (env : Env) : Decidable (s.Owns n env) := by
  unfold Sys.Owns; infer_instance

section

variable {name : String} {width fw : Nat} {tmps : List String} {s : Sys} {rst : Expr}
  {uc : String → Bool} {E : Nat → Env}

theorem SysInv.fits (h : SysInv name width fw tmps s) (hc : s.Clean) {c : Site} (hm : c ∈ s.sites) :
    c.st + 2 < 2 ^ fw := by
  have := (hc c hm).1
  rw [(h.reach c.th).width_eq] at this
  exact this

/-- The verify state of `lock` is left forward exactly if the thread owns the mutex. -/
theorem SysInv.lock_verify (h : SysInv name width fw tmps s) (hc : s.Clean)
    (hE : s.Exec rst uc E) {c : Site} (hm : c ∈ s.sites) (hk : c.kind = .lock) (t : Nat)
    (hr : rst.truthy (E t) = false) (hst : E t (.state c.th) = ((c.st + 1 : Nat) : Int)) :
    (s.Owns c.th (E t) → E (t + 1) (.state c.th) = ((c.st + 2 : Nat) : Int)) ∧
    (¬ s.Owns c.th (E t) → E (t + 1) (.state c.th) = (c.st : Int)) := by
  have hf := h.fits hc hm
  have hl := (hc c hm).2.2 (by simp [hk])
  rw [if_pos hk] at hl
  have hj := h.jumpsFrom hm (c.st + 1) (by rw [hl]; simp [fromState, Site.jumps, hk])
  have hn := run_next (h.reach c.th) (hE.thread c hm) t (c.st + 1) hr hst (by
    rw [hj]
    simp only [fromState, Site.jumps, hk]
    simp
    omega)
  rw [hj] at hn
  have hown : (Expr.and (.var s.mx.lockReg.name) (s.mx.isMine (s.mx.ids.idxOf c.th))).truthy (E t) =
      decide (s.Owns c.th (E t)) := by
    unfold Sys.Owns Sys.reg Sys.owner
    by_cases h1 : E t s.mx.lockReg.name = 0 <;>
      by_cases h2 : E t s.mx.lockId.name = (s.mx.ids.idxOf c.th : Int) <;>
      simp [Expr.and, Expr.truthy, Expr.eval, Expr.var, MutexSt.isMine, Expr.eqInt, h1, h2]
  have hnot : (Expr.not (Expr.and (.var s.mx.lockReg.name)
      (s.mx.isMine (s.mx.ids.idxOf c.th)))).truthy (E t) = !decide (s.Owns c.th (E t)) := by
    rw [← hown]
    cases hh : (Expr.and (.var s.mx.lockReg.name)
      (s.mx.isMine (s.mx.ids.idxOf c.th))).truthy (E t) <;>
      simp [Expr.not, Expr.truthy, Expr.eval] <;> simpa [Expr.truthy, Expr.eval] using hh
  have he : fromState (Site.jumps s.mx c) (c.st + 1) =
      [⟨c.st, some (.not (.and (.var s.mx.lockReg.name) (s.mx.isMine (s.mx.ids.idxOf c.th)))), none⟩,
       ⟨c.st + 2, some (.and (.var s.mx.lockReg.name) (s.mx.isMine (s.mx.ids.idxOf c.th))), none⟩] := by
    simp [fromState, Site.jumps, hk]
  rw [he] at hn
  simp only [nextState, List.foldl_cons, List.foldl_nil, holds, hown, hnot] at hn
  constructor
  · intro ho
    rw [hn]
    simp [ho, takeJump]
  · intro ho
    rw [hn]
    simp [ho, takeJump]

/-- The try state of `lock`: the thread goes on if the mutex is free or its own. -/
theorem SysInv.lock_try (h : SysInv name width fw tmps s) (hc : s.Clean)
    (hE : s.Exec rst uc E) {c : Site} (hm : c ∈ s.sites) (hk : c.kind = .lock) (t : Nat)
    (hr : rst.truthy (E t) = false) (hst : E t (.state c.th) = (c.st : Int)) :
    E (t + 1) (.state c.th) =
      if s.reg (E t) = 0 ∨ s.owner (E t) = (s.mx.ids.idxOf c.th : Int) then ((c.st + 1 : Nat) : Int)
      else c.st := by
  have hf := h.fits hc hm
  have he : fromState (Site.jumps s.mx c) c.st =
      [⟨c.st + 1, some (.or s.mx.isFree (s.mx.isMine (s.mx.ids.idxOf c.th))), none⟩] := by
    simp [fromState, Site.jumps, hk]
  have hj := h.jumpsFrom hm c.st (by rw [(hc c hm).2.1, he]; rfl)
  have hn := run_next (h.reach c.th) (hE.thread c hm) t c.st hr hst (by
    rw [hj, he]
    simp
    omega)
  rw [hj, he] at hn
  rw [hn]
  unfold Sys.reg Sys.owner
  by_cases h1 : E t s.mx.lockReg.name = 0 <;>
      by_cases h2 : E t s.mx.lockId.name = (s.mx.ids.idxOf c.th : Int) <;>
      simp [nextState, holds, takeJump, Expr.or, Expr.truthy, Expr.eval, Expr.var, MutexSt.isMine,
        MutexSt.isFree, Expr.not, Expr.eqInt, h1, h2]

/-- The result of `try_lock`. -/
theorem SysInv.try_result (h : SysInv name width fw tmps s) (hE : s.Exec rst uc E) {c : Site}
    (hm : c ∈ s.sites) {tmp : String} (hk : c.kind = .tryLock tmp) (t : Nat)
    (hr : rst.truthy (E t) = false) (hst : E t (.state c.th) = ((c.st + 1 : Nat) : Int)) :
    E (t + 1) (.user tmp) = (if s.owner (E t) = (s.mx.ids.idxOf c.th : Int) then s.reg (E t) else 0) % 2 := by
  obtain ⟨-, ⟨e, he, r, hr', hx⟩, hu⟩ := h.used c hm tmp hk
  obtain ⟨h1, h2⟩ := hu (E t)
  have hinv := (h.reach c.th).inv
  have hmem : Var.user tmp ∈ ((s.th c.th).always rst (uc c.th)).targets.map Reg.name :=
    List.mem_map.2 ⟨r, mem_always_code hinv.bound he hr' rst (uc c.th), hx⟩
  have hn := run_trace (hE.thread c hm) hmem t
  rw [if_neg (by simp [hr])] at hn
  have h2' : ∀ d i', (s.th c.th).keyTrace d i' (E t) (.user tmp) =
      if (0, c.st + 1) = (d, i') then [(Site.own s.mx c).eval (E t) % 2] else [] := h2
  obtain ⟨a1, a2⟩ := active_single (s.th c.th) (E t) (.user tmp) 0 (c.st + 1) _ h2'
  have hname : ((s.th c.th).dstateReg 0).name = .state c.th := by
    simp [dstateReg, stateReg, (h.reach c.th).name_eq]
  have htr : traceL (s.th c.th).makeCase (E t) (.user tmp) = [(Site.own s.mx c).eval (E t) % 2] := by
    rw [makeCase_trace, h1, delayedSubsts_nil _ (by intro d; simp [dstateReg]),
      jumpTrace_nil _ (by simp [stateReg]), seg_single _ _ _ 0 _ _ a1,
      if_pos ⟨Nat.le_refl _, by omega⟩, a2, hname, if_pos hst]
    rfl
  rw [hn, htr]
  simp only [List.getLast?_singleton, Option.getD_some, Site.own, Expr.band1, Expr.eval, Expr.var,
    MutexSt.isMine, Expr.eqInt, Sys.owner, Sys.reg]
  by_cases h3 : E t s.mx.lockId.name = (s.mx.ids.idxOf c.th : Int) <;> simp [h3]

/-- A thread that acquires the mutex owns it. -/
theorem SysInv.acquires_owns (h : SysInv name width fw tmps s) (hc : s.Clean)
    (hE : s.Exec rst uc E) {n : String} {t : Nat} (hr : rst.truthy (E t) = false)
    (ha : s.Acquires E n t) :
    s.Owns n (E t) ∧ ∃ c ∈ s.sites, c.kind ≠ .unlock ∧ c.th = n := by
  obtain ⟨c, hm, rfl, hst, hk⟩ := ha
  have hf := h.fits hc hm
  cases hkind : c.kind with
  | lock =>
    rw [hkind] at hk
    refine ⟨?_, c, hm, by simp [hkind], rfl⟩
    by_contra hno
    have := (h.lock_verify hc hE hm hkind t hr hst).2 hno
    rw [this] at hk
    simp only at hk
    omega
  | tryLock tmp =>
    rw [hkind] at hk
    refine ⟨?_, c, hm, by simp [hkind], rfl⟩
    have := h.try_result hE hm hkind t hr hst
    simp only at hk
    rw [hk] at this
    by_cases h1 : s.owner (E t) = (s.mx.ids.idxOf c.th : Int)
    · refine ⟨fun h0 => ?_, h1⟩
      rw [if_pos h1, h0] at this
      simp at this
    · rw [if_neg h1] at this
      simp at this
  | unlock => rw [hkind] at hk; exact hk.elim

theorem SysInv.holds_owns (h : SysInv name width fw tmps s) (hc : s.Clean)
    (hE : s.Exec rst uc E) {n : String} {t : Nat} (hh : s.Holds rst E n t) :
    s.Owns n (E t) ∧ ∃ c ∈ s.sites, c.kind ≠ .unlock ∧ c.th = n := by
  obtain ⟨t0, h0, ha, hr, hu⟩ := hh
  obtain ⟨ho, c, hm, hk, hn⟩ := h.acquires_owns hc hE (hr t0 (Nat.le_refl _) h0) ha
  refine ⟨?_, c, hm, hk, hn⟩
  have hid : n ∈ s.mx.ids := hn ▸ (h.ids c hm).1
  have : ∀ u, t0 ≤ u → u ≤ t → s.Owns n (E u) := by
    intro u h1 h2
    induction u with
    | zero => have : t0 = 0 := by omega
              subst this; exact ho
    | succ u ih =>
      by_cases he : t0 = u + 1
      · subst he; exact ho
      · have hou := ih (by omega) (by omega)
        exact h.keep hE.mutex u (hr u (by omega) (by omega)) hid ⟨c, hm, hk⟩ hou
          (hu u (by omega) (by omega))
  exact this t (by omega) (Nat.le_refl _)

/-- **C21.**  Two different threads never hold the mutex at the same time. -/
theorem c21_exclusion (h : Built name width fw tmps s) (hc : s.Clean) (hE : s.Exec rst uc E)
    {a b : String} (hab : a ≠ b) (t : Nat) : ¬ (s.Holds rst E a t ∧ s.Holds rst E b t) := by
  rintro ⟨ha, hb⟩
  obtain ⟨h1, c1, m1, -, n1⟩ := h.inv.holds_owns hc hE ha
  obtain ⟨h2, c2, m2, -, n2⟩ := h.inv.holds_owns hc hE hb
  have := h1.2.symm.trans h2.2
  exact hab (idxOf_inj (n1 ▸ (h.inv.ids c1 m1).1) (n2 ▸ (h.inv.ids c2 m2).1) (Int.ofNat_inj.1 this))

/-- **C21, `try_lock`.**  While another thread holds the mutex, the result of `try_lock` is 0. -/
theorem c21_try_fails (h : Built name width fw tmps s) (hc : s.Clean) (hE : s.Exec rst uc E)
    {a : String} (t : Nat) (ha : s.Holds rst E a t) {c : Site} (hm : c ∈ s.sites) {tmp : String}
    (hk : c.kind = .tryLock tmp) (hne : c.th ≠ a) (hr : rst.truthy (E t) = false)
    (hst : E t (.state c.th) = ((c.st + 1 : Nat) : Int)) : E (t + 1) (.user tmp) = 0 := by
  obtain ⟨h1, c1, m1, -, n1⟩ := h.inv.holds_owns hc hE ha
  rw [h.inv.try_result hE hm hk t hr hst, if_neg]
  · rfl
  · intro hh
    have := h1.2.symm.trans hh
    exact hne (idxOf_inj (n1 ▸ (h.inv.ids c1 m1).1) (h.inv.ids c hm).1 (Int.ofNat_inj.1 this)).symm

end

/-! An example design: threads `a` and `b` lock and unlock the mutex forever; `b` uses `try_lock`
once before. -/

namespace MutexEx

def exA1 : MutexSt × FsmSt :=
  ((MutexSt.fresh "m" 4).lock (FsmSt.fresh "a" 4)).getD (MutexSt.fresh "m" 4, FsmSt.fresh "a" 4)
def exA2 : MutexSt × FsmSt := (exA1.1.unlock exA1.2).getD exA1
def exA3 : FsmSt := exA2.2.goto 0 none none
def exB1 : MutexSt × FsmSt :=
  (exA2.1.tryLock (FsmSt.fresh "b" 4) "_tmp_0").getD (exA2.1, FsmSt.fresh "b" 4)
def exB2 : MutexSt × FsmSt := (exB1.1.lock exB1.2).getD exB1
def exB3 : MutexSt × FsmSt := (exB2.1.unlock exB2.2).getD exB2
def exB4 : FsmSt := exB3.2.goto 0 none none

def exSys : Sys :=
  ⟨exB3.1, Function.update (Function.update (Function.update (Function.update (Function.update
    (Function.update (Function.update (fun n => FsmSt.fresh n 4) "a" exA1.2) "a" exA2.2) "a" exA3)
      "b" exB1.2) "b" exB2.2) "b" exB3.2) "b" exB4,
    [⟨.lock, "a", 0⟩, ⟨.unlock, "a", 2⟩, ⟨.tryLock "_tmp_0", "b", 0⟩, ⟨.lock, "b", 2⟩,
     ⟨.unlock, "b", 4⟩]⟩

theorem exBuilt : Built "m" 4 4 ["_tmp_0"] exSys := by
  have h0 : Built "m" 4 4 ["_tmp_0"] ⟨MutexSt.fresh "m" 4, fun n => FsmSt.fresh n 4, []⟩ := .fresh
  have h1 := Built.lock "a" (m := exA1.1) (f := exA1.2) h0 ⟨rfl, rfl, rfl⟩ rfl
  have h2 := Built.unlock "a" (m := exA2.1) (f := exA2.2) h1 ⟨rfl, rfl, rfl⟩ rfl
  have h3 := Built.fsm "a" (.goto 0 none none) (f := exA3) h2 trivial (fun _ _ h => h) rfl
  have h4 := Built.tryLock "b" "_tmp_0" (m := exB1.1) (f := exB1.2) h3 ⟨rfl, rfl, rfl⟩ (by simp)
    (by decide) rfl
  have h5 := Built.lock "b" (m := exB2.1) (f := exB2.2) h4 ⟨rfl, rfl, rfl⟩ rfl
  have h6 := Built.unlock "b" (m := exB3.1) (f := exB3.2) h5 ⟨rfl, rfl, rfl⟩ rfl
  exact Built.fsm "b" (.goto 0 none none) (f := exB4) h6 trivial (fun _ _ h => h) rfl

theorem exClean : exSys.Clean := by
  intro c hc
  simp only [exSys, List.mem_cons, List.not_mem_nil, or_false] at hc
  rcases hc with rfl | rfl | rfl | rfl | rfl <;> decide

def exBlocks : List Code :=
  [exSys.mx.seq.always (some (.int 0)), (exSys.th "a").always (.int 0) true,
   (exSys.th "b").always (.int 0) false]

def exE : Nat → Env := sim exBlocks (fun _ => 0) (fun _ _ => 0)

theorem exExec : exSys.Exec (.int 0) (fun n => n == "a") exE := by
  have hd : Disjoint' exBlocks := by decide
  refine ⟨sim_run hd _ _ (by simp [exBlocks]), ?_⟩
  intro c hc
  simp only [exSys, List.mem_cons, List.not_mem_nil, or_false] at hc
  rcases hc with rfl | rfl | rfl | rfl | rfl <;> exact sim_run hd _ _ (by simp [exBlocks])

/-- In this execution `b` gets the mutex by `try_lock` (it was added last), and then `lock`s again
    and `unlock`s; meanwhile `a` waits. -/
example : exSys.Holds (.int 0) exE "b" 2 ∧ ¬ exSys.Holds (.int 0) exE "a" 2 := by
  have hb : exSys.Holds (.int 0) exE "b" 2 := by
    refine ⟨1, by decide, ⟨⟨.tryLock "_tmp_0", "b", 0⟩, by simp [exSys], rfl, by decide, by decide⟩,
      fun _ _ _ => rfl, ?_⟩
    intro u h1 h2
    obtain rfl : u = 1 := by omega
    rintro ⟨c, hc, hk, hn, hst⟩
    simp only [exSys, List.mem_cons, List.not_mem_nil, or_false] at hc
    have h3 : exE 1 (.state "b") = 1 := by decide
    rw [h3] at hst
    rcases hc with rfl | rfl | rfl | rfl | rfl <;> simp at hk hn hst
  exact ⟨hb, fun ha => c21_exclusion exBuilt exClean exExec (by decide) 2 ⟨ha, hb⟩⟩

end MutexEx

end Hdl
