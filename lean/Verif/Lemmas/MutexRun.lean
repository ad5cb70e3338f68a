import Verif.Lemmas.MutexInv

/-! Executions of a design with a mutex. -/

namespace Hdl

open FsmSt

/-- The states of mutex calls have no other jumps than those of the call, and state numbers fit the
    state registers. -/
def Sys.Clean (s : Sys) : Prop := ∀ c ∈ s.sites,
  c.st + 2 < 2 ^ (s.th c.th).width ∧
  ((s.th c.th).jumpsFrom c.st).length = 1 ∧
  (c.kind ≠ .unlock → ((s.th c.th).jumpsFrom (c.st + 1)).length = if c.kind = .lock then 2 else 1)

/-- An execution: the `Seq` of the mutex and the FSMs of all threads run on one clock and reset.
    (`uc`: whether each FSM is rendered as a `case`.) -/
structure Sys.Exec (s : Sys) (rst : Expr) (uc : String → Bool) (E : Nat → Env) : Prop where
  mutex : Run (s.mx.seq.always (some rst)) E
  thread : ∀ c ∈ s.sites, Run ((s.th c.th).always rst (uc c.th)) E

section

variable {name : String} {width fw : Nat} {tmps : List String} {s : Sys}

theorem SysInv.trace (h : SysInv name width fw tmps s) (env : Env) (x : Var) :
    traceL s.mx.seq.makeCode env x = s.sites.flatMap fun c => (Site.code s.mx c).trace env x := by
  have : s.mx.seq.makeCode = s.sites.map (Site.code s.mx) := by
    rw [← h.body]
    unfold SeqSt.makeCode SeqSt.maxDelay SeqSt.delayedAt
    rw [h.delayed]
    simp
  rw [this, traceL, List.flatMap_map]

theorem SysInv.next (h : SysInv name width fw tmps s) {rst : Expr} {E : Nat → Env}
    (hE : Run (s.mx.seq.always (some rst)) E) (t : Nat) (hr : rst.truthy (E t) = false) {x : Var}
    (hx : ∃ c ∈ s.sites, ∃ r ∈ (Site.code s.mx c).targets, r.name = x) :
    E (t + 1) x = ((s.sites.flatMap fun c => (Site.code s.mx c).trace (E t) x).getLast?).getD
      (E t x) := by
  obtain ⟨c, hc, r, hr', hx⟩ := hx
  have hm : Site.code s.mx c ∈ s.mx.seq.makeCode := by
    have : Site.code s.mx c ∈ s.mx.seq.body.map Item.code := by
      rw [h.body]; exact List.mem_map_of_mem hc
    exact List.mem_append_right _ this
  rw [hE t x (SeqSt.mem_always_targets hm hr' hx), Code.tick, Code.exec_eq_trace,
    SeqSt.trace_always, if_neg (by simp [isReset, hr]), h.trace]

theorem lockId_ne (m : MutexSt) : m.lockReg.name ≠ m.lockId.name := by
  simp only [MutexSt.lockReg, MutexSt.lockId, ne_eq, Var.user.injEq]
  intro h
  have := congrArg String.length h
  simp only [String.length_append] at this
  have h2 : "_lock_reg".length = 9 := by decide
  have h3 : "_lock_id".length = 8 := by decide
  omega

/-- What a call contributes to `lock_reg`. -/
theorem Site.trace_reg (m : MutexSt) (c : Site) (env : Env) :
    (Site.code m c).trace env m.lockReg.name =
      if env (.state c.th) = (c.st : Int) then
        match c.kind with
        | .unlock => if env m.lockId.name = (m.ids.idxOf c.th : Int) then ([0] : List Int) else []
        | _ => if env m.lockReg.name = 0 then ([1] : List Int) else []
      else [] := by
  have hne := lockId_ne m
  unfold Site.code
  by_cases h1 : env (.state c.th) = (c.st : Int)
  · cases hk : c.kind with
    | unlock =>
      by_cases h2 : env m.lockId.name = (m.ids.idxOf c.th : Int)
      · simp [Code.trace, Expr.and, Expr.truthy, Expr.eval, Expr.eqInt, MutexSt.isMine, h1, h2,
          Code.block, Reg.wrap]
      · simp [Code.trace, Expr.and, Expr.truthy, Expr.eval, Expr.eqInt, MutexSt.isMine, h1, h2]
    | _ =>
      by_cases h2 : env m.lockReg.name = 0
      · simp [Code.trace, Expr.and, Expr.truthy, Expr.eval, Expr.eqInt, MutexSt.isFree, Expr.not,
          Expr.var, h1, h2, Code.block, Reg.wrap, Ne.symm hne]
        rfl
      · simp [Code.trace, Expr.and, Expr.truthy, Expr.eval, Expr.eqInt, MutexSt.isFree, Expr.not,
          Expr.var, h1, h2]
  · cases hk : c.kind <;>
      simp [Code.trace, Expr.and, Expr.truthy, Expr.eval, Expr.eqInt, h1]

/-- What a call contributes to `lock_id`. -/
theorem Site.trace_id (m : MutexSt) (c : Site) (env : Env)
    (hid : m.ids.idxOf c.th ≤ 2 ^ m.width - 1) :
    (Site.code m c).trace env m.lockId.name =
      if env (.state c.th) = (c.st : Int) ∧ c.kind ≠ .unlock ∧ env m.lockReg.name = 0 then
        [(m.ids.idxOf c.th : Int)] else [] := by
  have hne := lockId_ne m
  have hw : m.lockId.wrap (m.ids.idxOf c.th : Int) = (m.ids.idxOf c.th : Int) := by
    have h2 : m.ids.idxOf c.th < 2 ^ m.width := by
      have := Nat.two_pow_pos m.width
      omega
    unfold Reg.wrap
    rw [if_neg (by simp [MutexSt.lockId])]
    show (m.ids.idxOf c.th : Int) % ((2 ^ m.width : Nat) : Int) = _
    rw [← Int.natCast_emod, Nat.mod_eq_of_lt h2]
  unfold Site.code
  by_cases h1 : env (.state c.th) = (c.st : Int)
  · cases hk : c.kind with
    | unlock =>
      by_cases h2 : env m.lockId.name = (m.ids.idxOf c.th : Int)
      · simp [Code.trace, Expr.and, Expr.truthy, Expr.eval, Expr.eqInt, MutexSt.isMine, h1, h2,
          Code.block, hne]
      · simp [Code.trace, Expr.and, Expr.truthy, Expr.eval, Expr.eqInt, MutexSt.isMine, h1, h2]
    | _ =>
      by_cases h2 : env m.lockReg.name = 0
      · simp [Code.trace, Expr.and, Expr.truthy, Expr.eval, Expr.eqInt, MutexSt.isFree, Expr.not,
          Expr.var, h1, h2, Code.block, hne, hw]
      · simp [Code.trace, Expr.and, Expr.truthy, Expr.eval, Expr.eqInt, MutexSt.isFree, Expr.not,
          Expr.var, h1, h2]
  · cases hk : c.kind <;>
      simp [Code.trace, Expr.and, Expr.truthy, Expr.eval, Expr.eqInt, h1]

theorem Site.drives_reg (m : MutexSt) (c : Site) :
    ∃ r ∈ (Site.code m c).targets, r.name = m.lockReg.name := by
  refine ⟨m.lockReg, ?_, rfl⟩
  unfold Site.code
  cases c.kind <;> simp [Code.targets, Code.block]

theorem Site.drives_id (m : MutexSt) (c : Site) (h : c.kind ≠ .unlock) :
    ∃ r ∈ (Site.code m c).targets, r.name = m.lockId.name := by
  refine ⟨m.lockId, ?_, rfl⟩
  unfold Site.code
  cases hk : c.kind with
  | unlock => exact absurd hk h
  | _ => simp [Code.targets, Code.block]

/-- The lock register and the owner number. -/
def Sys.reg (s : Sys) (env : Env) : Int := env s.mx.lockReg.name
def Sys.owner (s : Sys) (env : Env) : Int := env s.mx.lockId.name

/-- `n` owns the mutex: it is locked under the number of `n`. -/
def Sys.Owns (s : Sys) (n : String) (env : Env) : Prop :=
  s.reg env ≠ 0 ∧ s.owner env = (s.mx.ids.idxOf n : Int)

/-- Thread `n` is about to execute an `unlock`. -/
def Sys.Unlocking (s : Sys) (n : String) (env : Env) : Prop :=
  ∃ c ∈ s.sites, c.kind = .unlock ∧ c.th = n ∧ env (.state n) = (c.st : Int)

/-- Thread `n` is in the first state of `lock` or `try_lock`. -/
def Sys.Trying (s : Sys) (n : String) (env : Env) : Prop :=
  ∃ c ∈ s.sites, c.kind ≠ .unlock ∧ c.th = n ∧ env (.state n) = (c.st : Int)

/-- Ownership is kept until an `unlock` of the owner. -/
theorem SysInv.keep (h : SysInv name width fw tmps s) {rst : Expr} {E : Nat → Env}
    (hE : Run (s.mx.seq.always (some rst)) E) (t : Nat) (hr : rst.truthy (E t) = false) {n : String}
    (hn : n ∈ s.mx.ids) (hsome : ∃ c ∈ s.sites, c.kind ≠ .unlock) (ho : s.Owns n (E t))
    (hu : ¬ s.Unlocking n (E t)) : s.Owns n (E (t + 1)) := by
  obtain ⟨c0, hc0, hk0⟩ := hsome
  have h1 := h.next hE t hr ⟨c0, hc0, Site.drives_reg s.mx c0⟩
  have h2 := h.next hE t hr ⟨c0, hc0, Site.drives_id s.mx c0 hk0⟩
  have e1 : (s.sites.flatMap fun c => (Site.code s.mx c).trace (E t) s.mx.lockReg.name) = [] := by
    rw [List.flatMap_eq_nil_iff]
    intro c hc
    rw [Site.trace_reg]
    split
    · rename_i hst
      cases hk : c.kind with
      | unlock =>
        simp only
        rw [if_neg]
        intro hid
        have hown := ho.2
        unfold Sys.owner at hown
        rw [hown] at hid
        have := idxOf_inj hn (h.ids c hc).1 (Int.ofNat_inj.1 hid)
        exact hu ⟨c, hc, hk, this.symm, by rw [this]; exact hst⟩
      | _ => exact if_neg ho.1
    · rfl
  have e2 : (s.sites.flatMap fun c => (Site.code s.mx c).trace (E t) s.mx.lockId.name) = [] := by
    rw [List.flatMap_eq_nil_iff]
    intro c hc
    rw [Site.trace_id _ _ _ (by rw [h.mwidth]; exact (h.ids c hc).2), if_neg]
    exact fun hh => ho.1 hh.2.2
  rw [e1] at h1
  rw [e2] at h2
  exact ⟨by unfold Sys.reg; rw [h1]; exact ho.1, by unfold Sys.owner; rw [h2]; exact ho.2⟩

/-- An `unlock` of the owner frees the mutex. -/
theorem SysInv.release (h : SysInv name width fw tmps s) {rst : Expr} {E : Nat → Env}
    (hE : Run (s.mx.seq.always (some rst)) E) (t : Nat) (hr : rst.truthy (E t) = false) {n : String}
    (ho : s.Owns n (E t)) (hu : s.Unlocking n (E t)) : s.reg (E (t + 1)) = 0 := by
  obtain ⟨c0, hc0, hk0, hn0, hst0⟩ := hu
  unfold Sys.reg
  rw [h.next hE t hr ⟨c0, hc0, Site.drives_reg s.mx c0⟩]
  have hall : ∀ v ∈ (s.sites.flatMap fun c => (Site.code s.mx c).trace (E t) s.mx.lockReg.name),
      v = 0 := by
    intro v hv
    obtain ⟨c, hc, hv⟩ := List.mem_flatMap.1 hv
    rw [Site.trace_reg] at hv
    split at hv
    · cases hk : c.kind with
      | unlock => simp only [hk] at hv; split at hv <;> simp at hv; exact hv
      | _ => simp only [hk] at hv; rw [if_neg (show ¬ E t s.mx.lockReg.name = 0 from ho.1)] at hv; simp at hv
    · simp at hv
  have hmem : (0 : Int) ∈
      (s.sites.flatMap fun c => (Site.code s.mx c).trace (E t) s.mx.lockReg.name) := by
    refine List.mem_flatMap.2 ⟨c0, hc0, ?_⟩
    rw [Site.trace_reg, hk0]
    have hown := ho.2
    unfold Sys.owner at hown
    simp [hn0, hst0, hown]
  cases hl : (s.sites.flatMap fun c =>
      (Site.code s.mx c).trace (E t) s.mx.lockReg.name).getLast? with
  | none =>
    rw [List.getLast?_eq_none_iff] at hl
    rw [hl] at hmem
    simp at hmem
  | some v => simpa using hall v (List.mem_of_getLast? hl)

/-- If the mutex is free and someone tries, someone who tries gets it. -/
theorem SysInv.grab (h : SysInv name width fw tmps s) {rst : Expr} {E : Nat → Env}
    (hE : Run (s.mx.seq.always (some rst)) E) (t : Nat) (hr : rst.truthy (E t) = false)
    (hfree : s.reg (E t) = 0) (ht : ∃ n, s.Trying n (E t)) (hu : ∀ n, ¬ s.Unlocking n (E t)) :
    ∃ c ∈ s.sites, c.kind ≠ .unlock ∧ E t (.state c.th) = (c.st : Int) ∧
      s.reg (E (t + 1)) = 1 ∧ s.owner (E (t + 1)) = (s.mx.ids.idxOf c.th : Int) := by
  obtain ⟨n, c0, hc0, hk0, hn0, hst0⟩ := ht
  have h1 := h.next hE t hr ⟨c0, hc0, Site.drives_reg s.mx c0⟩
  have h2 := h.next hE t hr ⟨c0, hc0, Site.drives_id s.mx c0 hk0⟩
  have hst0' : E t (.state c0.th) = (c0.st : Int) := by rw [hn0]; exact hst0
  have hfree' : E t s.mx.lockReg.name = 0 := hfree
  have hall : ∀ v ∈ (s.sites.flatMap fun c => (Site.code s.mx c).trace (E t) s.mx.lockReg.name),
      v = 1 := by
    intro v hv
    obtain ⟨c, hc, hv⟩ := List.mem_flatMap.1 hv
    rw [Site.trace_reg] at hv
    split at hv
    · rename_i hst
      cases hk : c.kind with
      | unlock => exact absurd ⟨c, hc, hk, rfl, hst⟩ (hu c.th)
      | _ => simpa [hk, hfree'] using hv
    · simp at hv
  have hmem : (1 : Int) ∈
      (s.sites.flatMap fun c => (Site.code s.mx c).trace (E t) s.mx.lockReg.name) := by
    refine List.mem_flatMap.2 ⟨c0, hc0, ?_⟩
    rw [Site.trace_reg, if_pos hst0']
    cases hk : c0.kind with
    | unlock => exact absurd hk hk0
    | _ => simp [hfree']
  have hreg : s.reg (E (t + 1)) = 1 := by
    unfold Sys.reg
    rw [h1]
    cases hl : (s.sites.flatMap fun c =>
        (Site.code s.mx c).trace (E t) s.mx.lockReg.name).getLast? with
    | none =>
      rw [List.getLast?_eq_none_iff] at hl
      rw [hl] at hmem
      simp at hmem
    | some v => simpa using hall v (List.mem_of_getLast? hl)
  have htr : ∀ c ∈ s.sites, _ := fun c hc =>
    Site.trace_id s.mx c (E t) (by rw [h.mwidth]; exact (h.ids c hc).2)
  have hmem2 : (s.mx.ids.idxOf c0.th : Int) ∈
      (s.sites.flatMap fun c => (Site.code s.mx c).trace (E t) s.mx.lockId.name) := by
    refine List.mem_flatMap.2 ⟨c0, hc0, ?_⟩
    rw [htr c0 hc0, if_pos ⟨hst0', hk0, hfree'⟩]
    simp
  cases hl : (s.sites.flatMap fun c =>
      (Site.code s.mx c).trace (E t) s.mx.lockId.name).getLast? with
  | none =>
    rw [List.getLast?_eq_none_iff] at hl
    rw [hl] at hmem2
    simp at hmem2
  | some v =>
    rw [hl] at h2
    obtain ⟨c, hc, hv⟩ := List.mem_flatMap.1 (List.mem_of_getLast? hl)
    rw [htr c hc] at hv
    split at hv
    · rename_i hcond
      simp only [List.mem_singleton] at hv
      subst hv
      exact ⟨c, hc, hcond.2.1, hcond.1, hreg, h2⟩
    · simp at hv

/-- The jumps out of a state of a call are those of the call. -/
theorem SysInv.jumpsFrom (h : SysInv name width fw tmps s) {c : Site} (hc : c ∈ s.sites) (i : Nat)
    (hl : ((s.th c.th).jumpsFrom i).length = (fromState (Site.jumps s.mx c) i).length) :
    (s.th c.th).jumpsFrom i = fromState (Site.jumps s.mx c) i :=
  ((h.jumps c hc i).eq_of_length hl.symm).symm

end

end Hdl
