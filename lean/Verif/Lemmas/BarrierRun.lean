import Verif.Lemmas.Barrier
import Verif.Props.C22_MutexProgress

/-! Executions of a design with a barrier. -/

namespace Hdl

open FsmSt

namespace BSys

/-- Thread `n` is in the `k`-th state of a call of `wait` (0: the first one, where it asks for the
    mutex, to 4: the last one, where it waits for `done`). -/
def At (s : BSys) (k : Nat) (n : String) (env : Env) : Prop :=
  ∃ w ∈ s.waits, w.th = n ∧ env (.state n) = ((w.st + k : Nat) : Int)

instance (s : BSys) (k : Nat) (n : String) (env : Env) : Decidable (s.At k n env) := by
  unfold At; infer_instance

/-- `ths` are the threads that use the barrier, as many as it was made for.  The states of a `wait`
    have no other jumps, the user's jumps lead to the first state only, and the states of two `wait`s
    are not mixed; state numbers fit the state registers. -/
structure Clean (s : BSys) (ths : List String) : Prop where
  nodup : ths.Nodup
  len : ths.length = s.b.parties
  pos : 1 ≤ s.b.parties
  mem : ∀ w ∈ s.waits, w.th ∈ ths
  apart : ∀ w ∈ s.waits, ∀ w' ∈ s.waits, w.th = w'.th →
    w = w' ∨ w.st + 5 ≤ w'.st ∨ w'.st + 5 ≤ w.st
  single : ∀ w ∈ s.waits, ∀ k ≤ 4,
    ((s.th w.th).jumpsFrom (w.st + k)).length = if k = 1 then 2 else 1
  fits : ∀ w ∈ s.waits, ∀ e ∈ (s.th w.th).jumps, ∀ x, x = e.2.dst ∨ e.2.elseDst = some x →
    x < 2 ^ (s.th w.th).width
  enter : ∀ w ∈ s.waits, ∀ e ∈ (s.th w.th).jumps, ∀ x, x = e.2.dst ∨ e.2.elseDst = some x →
    w.st < x → x ≤ w.st + 4 → w.st ≤ e.1 ∧ e.1 < w.st + 4

/-- An execution: barrier, mutex and all threads on one clock and reset. -/
structure Exec (s : BSys) (rst : Expr) (uc : String → Bool) (E : Nat → Env) : Prop where
  barrier : Run (s.b.seq.always (some rst)) E
  sys : s.sys.Exec rst uc E

/-- `count` and `done`. -/
def count (s : BSys) (env : Env) : Int := env (BarrierSt.countReg s.b.name s.b.parties).name
def done (s : BSys) (env : Env) : Int := env (BarrierSt.doneReg s.b.name).name

end BSys

theorem nextState_mem (js : List Jump) (env : Env) (old : Int) :
    nextState js env old = old ∨
    ∃ j ∈ js, ∃ x : Nat, (x = j.dst ∨ j.elseDst = some x) ∧ nextState js env old = (x : Int) := by
  induction js generalizing old with
  | nil => exact Or.inl rfl
  | cons j js ih =>
    rw [nextState, List.foldl_cons]
    rw [← nextState]
    rcases ih (takeJump (holds j.cond env) j.dst j.elseDst old) with h | ⟨j', hj', x, hx, he⟩
    · rw [h]
      unfold takeJump
      split
      · exact Or.inr ⟨j, by simp, j.dst, Or.inl rfl, rfl⟩
      · cases he : j.elseDst with
        | none => exact Or.inl rfl
        | some e => exact Or.inr ⟨j, by simp, e, Or.inr he, rfl⟩
    · exact Or.inr ⟨j', by simp [hj'], x, hx, he⟩

theorem mem_jumpsFrom {f : FsmSt} {i : Nat} {j : Jump} (h : j ∈ f.jumpsFrom i) : (i, j) ∈ f.jumps := by
  obtain ⟨e, he, h2⟩ := List.mem_filterMap.1 h
  by_cases hi : e.1 = i
  · rw [if_pos hi] at h2
    simp only [Option.some.injEq] at h2
    subst h2 hi
    exact he
  · rw [if_neg hi] at h2
    simp at h2

section

variable {name : String} {parties fw : Nat} {s : BSys} {ths : List String} {rst : Expr}
  {uc : String → Bool} {E : Nat → Env}

theorem BSys.lock_mem {w : Wait} (hw : w ∈ s.waits) : (⟨.lock, w.th, w.st⟩ : Site) ∈ s.sys.sites :=
  List.mem_flatMap.2 ⟨w, hw, by simp [Wait.sites]⟩

theorem BSys.unlock_mem {w : Wait} (hw : w ∈ s.waits) :
    (⟨.unlock, w.th, w.st + 3⟩ : Site) ∈ s.sys.sites :=
  List.mem_flatMap.2 ⟨w, hw, by simp [Wait.sites]⟩

theorem BSys.of_site {c : Site} (hc : c ∈ s.sys.sites) : ∃ w ∈ s.waits,
    c = ⟨.lock, w.th, w.st⟩ ∨ c = ⟨.unlock, w.th, w.st + 3⟩ := by
  obtain ⟨w, hw, h⟩ := List.mem_flatMap.1 hc
  exact ⟨w, hw, by simpa [Wait.sites] using h⟩

theorem BInv.jumps_eq (h : BInv name parties fw s) (hc : s.Clean ths) {w : Wait} (hw : w ∈ s.waits) :
    (s.th w.th).jumpsFrom (w.st + 2) = [⟨w.st + 3, none, none⟩] ∧
    (s.th w.th).jumpsFrom (w.st + 4) =
      [⟨w.st + 5, some (.var (BarrierSt.doneReg name).name), none⟩] := by
  have h2 := h.jumps w hw (w.st + 2)
  have h4 := h.jumps w hw (w.st + 4)
  have e2 : fromState (w.jumps name) (w.st + 2) = [⟨w.st + 3, none, none⟩] := by
    simp [fromState, Wait.jumps]
  have e4 : fromState (w.jumps name) (w.st + 4) =
      [⟨w.st + 5, some (.var (BarrierSt.doneReg name).name), none⟩] := by
    simp [fromState, Wait.jumps]
  have l2 := hc.single w hw 2 (by decide)
  have l4 := hc.single w hw 4 (by decide)
  rw [e2] at h2
  rw [e4] at h4
  exact ⟨(h2.eq_of_length (by rw [l2]; rfl)).symm, (h4.eq_of_length (by rw [l4]; rfl)).symm⟩

theorem BInv.fits5 (h : BInv name parties fw s) (hc : s.Clean ths) {w : Wait} (hw : w ∈ s.waits) :
    w.st + 5 < 2 ^ (s.th w.th).width := by
  have hj := (h.jumps_eq hc hw).2
  have hm : (⟨w.st + 5, some (.var (BarrierSt.doneReg name).name), none⟩ : Jump) ∈
      (s.th w.th).jumpsFrom (w.st + 4) := by rw [hj]; simp
  exact hc.fits w hw _ (mem_jumpsFrom hm) _ (Or.inl rfl)

theorem BInv.clean (h : BInv name parties fw s) (hc : s.Clean ths) : s.sys.Clean := by
  intro c hm
  obtain ⟨w, hw, rfl | rfl⟩ := BSys.of_site hm
  · have := h.fits5 hc hw
    refine ⟨by simp only [BSys.sys]; omega, ?_, ?_⟩
    · exact hc.single w hw 0 (by decide)
    · intro _
      exact hc.single w hw 1 (by decide)
  · have := h.fits5 hc hw
    refine ⟨by simp only [BSys.sys]; omega, ?_, by simp⟩
    exact hc.single w hw 3 (by decide)

/-- The steps of a thread inside `wait`. -/
theorem BInv.steps (h : BInv name parties fw s) (hc : s.Clean ths) (hE : s.Exec rst uc E) {w : Wait}
    (hw : w ∈ s.waits) (t : Nat) (hr : rst.truthy (E t) = false) :
    (E t (.state w.th) = ((w.st : Nat) : Int) → E (t + 1) (.state w.th) =
      if s.sys.reg (E t) = 0 ∨ s.sys.owner (E t) = (s.sys.mx.ids.idxOf w.th : Int)
      then ((w.st + 1 : Nat) : Int) else (w.st : Int)) ∧
    (E t (.state w.th) = ((w.st + 1 : Nat) : Int) → E (t + 1) (.state w.th) =
      if s.sys.Owns w.th (E t) then ((w.st + 2 : Nat) : Int) else (w.st : Int)) ∧
    (E t (.state w.th) = ((w.st + 2 : Nat) : Int) →
      E (t + 1) (.state w.th) = ((w.st + 3 : Nat) : Int)) ∧
    (E t (.state w.th) = ((w.st + 3 : Nat) : Int) →
      E (t + 1) (.state w.th) = ((w.st + 4 : Nat) : Int)) ∧
    (E t (.state w.th) = ((w.st + 4 : Nat) : Int) → E (t + 1) (.state w.th) =
      if s.done (E t) ≠ 0 then ((w.st + 5 : Nat) : Int) else ((w.st + 4 : Nat) : Int)) := by
  have hi := h.built.inv
  have hcl := h.clean hc
  have h5 := h.fits5 hc hw
  have hreach : Reach w.th fw (s.th w.th) := hi.reach w.th
  rw [hreach.width_eq] at h5
  obtain ⟨j2, j4⟩ := h.jumps_eq hc hw
  have hrun : Run ((s.th w.th).always rst (uc w.th)) E := hE.sys.thread _ (BSys.lock_mem hw)
  refine ⟨fun hst => ?_, fun hst => ?_, fun hst => ?_, fun hst => ?_, fun hst => ?_⟩
  · exact hi.lock_try hcl hE.sys (BSys.lock_mem hw) rfl t hr hst
  · have := hi.lock_verify hcl hE.sys (BSys.lock_mem hw) rfl t hr hst
    split
    · rename_i ho; exact this.1 ho
    · rename_i ho; exact this.2 ho
  · have hn := run_next hreach hrun t (w.st + 2) hr hst (by rw [j2]; simp; omega)
    rw [hn, j2]
    simp [nextState, takeJump, holds]
  · exact hi.try_next hcl hE.sys (BSys.unlock_mem hw) (by simp) t hr hst
  · have hn := run_next hreach hrun t (w.st + 4) hr hst (by rw [j4]; simp; omega)
    rw [hn, j4]
    have e : s.done (E t) = E t (BarrierSt.doneReg name).name := by rw [BSys.done, h.bname]
    rw [e]
    by_cases h0 : E t (BarrierSt.doneReg name).name = 0 <;>
      simp [nextState, takeJump, holds, Expr.var, Expr.truthy, Expr.eval, h0]

/-- A thread gets into the states 1 to 4 of a `wait` only from the states 0 to 4 of it. -/
theorem BInv.back (h : BInv name parties fw s) (hc : s.Clean ths) (hE : s.Exec rst uc E) {w : Wait}
    (hw : w ∈ s.waits) (t : Nat) (hr : rst.truthy (E t) = false) {i : Nat}
    (hi : E t (.state w.th) = (i : Int)) {k : Nat} (hk : 1 ≤ k) (hk4 : k ≤ 4)
    (hst : E (t + 1) (.state w.th) = ((w.st + k : Nat) : Int)) :
    ∃ k' ≤ 4, E t (.state w.th) = ((w.st + k' : Nat) : Int) := by
  have hreach : Reach w.th fw (s.th w.th) := h.built.inv.reach w.th
  have hrun : Run ((s.th w.th).always rst (uc w.th)) E := hE.sys.thread _ (BSys.lock_mem hw)
  have hn := run_next hreach hrun t i hr hi (by
    intro j hj
    have := hc.fits w hw _ (mem_jumpsFrom hj)
    rw [hreach.width_eq] at this
    exact ⟨this _ (Or.inl rfl), fun e he => this e (Or.inr he)⟩)
  rcases nextState_mem ((s.th w.th).jumpsFrom i) (E t) i with h1 | ⟨j, hj, x, hx, he⟩
  · refine ⟨k, hk4, ?_⟩
    rw [hi, ← h1, ← hn, hst]
  · have hxk : x = w.st + k := by
      rw [← hn, hst] at he
      exact (Int.ofNat_inj.1 he).symm
    have := hc.enter w hw _ (mem_jumpsFrom hj) x hx (by omega) (by omega)
    simp only at this
    refine ⟨i - w.st, by omega, ?_⟩
    rw [hi]
    congr 1
    omega

/-- The state of a thread stays a natural number. -/
theorem BInv.nat (h : BInv name parties fw s) (hc : s.Clean ths) (hE : s.Exec rst uc E) {w : Wait}
    (hw : w ∈ s.waits) (t : Nat) (hr : rst.truthy (E t) = false) {i : Nat}
    (hi : E t (.state w.th) = (i : Int)) : ∃ i' : Nat, E (t + 1) (.state w.th) = (i' : Int) := by
  have hreach : Reach w.th fw (s.th w.th) := h.built.inv.reach w.th
  have hrun : Run ((s.th w.th).always rst (uc w.th)) E := hE.sys.thread _ (BSys.lock_mem hw)
  have hn := run_next hreach hrun t i hr hi (by
    intro j hj
    have := hc.fits w hw _ (mem_jumpsFrom hj)
    rw [hreach.width_eq] at this
    exact ⟨this _ (Or.inl rfl), fun e he => this e (Or.inr he)⟩)
  rcases nextState_mem ((s.th w.th).jumpsFrom i) (E t) i with h1 | ⟨j, hj, x, hx, he⟩
  · exact ⟨i, by rw [hn, h1]⟩
  · exact ⟨x, by rw [hn, he]⟩

/-- A thread is in one state of one `wait`. -/
theorem BSys.Clean.unique (hc : s.Clean ths) {k k' : Nat} (hk : k ≤ 4) (hk' : k' ≤ 4) {w w' : Wait}
    (hw : w ∈ s.waits) (hw' : w' ∈ s.waits) (hn : w.th = w'.th) {env : Env}
    (h1 : env (.state w.th) = ((w.st + k : Nat) : Int))
    (h2 : env (.state w.th) = ((w'.st + k' : Nat) : Int)) : w = w' ∧ k = k' := by
  have e : w.st + k = w'.st + k' := Int.ofNat_inj.1 (h1.symm.trans h2)
  rcases hc.apart w hw w' hw' hn with h | h | h
  · subst h
    exact ⟨rfl, by omega⟩
  · omega
  · omega

theorem BSys.Clean.at_unique (hc : s.Clean ths) {k k' : Nat} (hk : k ≤ 4) (hk' : k' ≤ 4) {n : String}
    {env : Env} (h1 : s.At k n env) (h2 : s.At k' n env) : k = k' := by
  obtain ⟨w, hw, rfl, e⟩ := h1
  obtain ⟨w', hw', hn, e'⟩ := h2
  exact (hc.unique hk hk' hw hw' hn.symm e e').2

theorem countReg_ne (name : String) (parties : Nat) :
    (BarrierSt.countReg name parties).name ≠ (BarrierSt.doneReg name).name := by
  simp only [BarrierSt.countReg, BarrierSt.doneReg, ne_eq, Var.user.injEq]
  intro h
  have := congrArg String.length h
  simp only [String.length_append] at this
  have h2 : "_barrier_count".length = 14 := by decide
  have h3 : "_barrier_done".length = 13 := by decide
  omega

theorem BInv.code (h : BInv name parties fw s) : s.b.seq.makeCode =
    barrierBase name parties ++ s.waits.map (Wait.code name parties) := by
  rw [← h.body]
  unfold SeqSt.makeCode SeqSt.maxDelay SeqSt.delayedAt
  rw [h.delayed]
  simp

theorem BInv.next (h : BInv name parties fw s) (hE : s.Exec rst uc E) (t : Nat)
    (hr : rst.truthy (E t) = false) {x : Var} {c : Code}
    (hc : c ∈ barrierBase name parties) {r : Reg} (hrt : r ∈ c.targets) (hx : r.name = x) :
    E (t + 1) x = ((traceL (barrierBase name parties) (E t) x ++
      s.waits.flatMap fun w => (w.code name parties).trace (E t) x).getLast?).getD (E t x) := by
  have hm : c ∈ s.b.seq.makeCode := by rw [h.code]; exact List.mem_append_left _ hc
  rw [hE.barrier t x (SeqSt.mem_always_targets hm hrt hx), Code.tick, Code.exec_eq_trace,
    SeqSt.trace_always, if_neg (by simp [isReset, hr]), h.code, traceL_append, traceL, traceL,
    List.flatMap_map]

theorem BInv.done_next (h : BInv name parties fw s) (hE : s.Exec rst uc E) (t : Nat)
    (hr : rst.truthy (E t) = false) :
    s.done (E (t + 1)) = if s.count (E t) = (parties : Int) then 1 else 0 := by
  have hne := countReg_ne name parties
  have hnext := h.next (x := (BarrierSt.doneReg name).name) hE t hr
    (c := .subst (BarrierSt.doneReg name) (.int 0)) (by simp [barrierBase])
    (r := BarrierSt.doneReg name) (by simp [Code.targets]) rfl
  have e : (s.waits.flatMap fun w =>
      (w.code name parties).trace (E t) (BarrierSt.doneReg name).name) = [] := by
    rw [List.flatMap_eq_nil_iff]
    intro w _
    unfold Wait.code
    by_cases h1 : E t (.state w.th) = ((w.st + 2 : Nat) : Int) <;>
      simp [Code.trace, Code.block, hne]
  rw [e, List.append_nil] at hnext
  rw [BSys.done, h.bname, hnext, BSys.count, h.bname, h.bparties]
  by_cases h1 : E t (BarrierSt.countReg name parties).name = (parties : Int)
  · have hw : (BarrierSt.doneReg name).wrap 1 = 1 := rfl
    simp [barrierBase, traceL, Code.trace, Code.block, Expr.truthy, Expr.eval, Expr.eqInt, h1,
      hne, hw]
  · have hw : (BarrierSt.doneReg name).wrap 0 = 0 := rfl
    simp [barrierBase, traceL, Code.trace, Code.block, Expr.truthy, Expr.eval, Expr.eqInt, h1, hw]

theorem clog2_lt (n : Nat) : n < 2 ^ (clog2 n + 1) := by
  unfold clog2
  split
  · have : n ≤ 1 := by assumption
    omega
  · have h1 : n - 1 < 2 ^ ((n - 1).log2 + 1) := Nat.lt_log2_self
    have h2 : 2 ^ ((n - 1).log2 + 1 + 1) = 2 * 2 ^ ((n - 1).log2 + 1) := by rw [Nat.pow_succ]; omega
    omega

theorem BInv.count_next (h : BInv name parties fw s) (hE : s.Exec rst uc E) (t : Nat)
    (hr : rst.truthy (E t) = false) :
    ((∃ n, s.At 2 n (E t)) →
      s.count (E (t + 1)) = (s.count (E t) + 1) % ((2 ^ (clog2 parties + 1) : Nat) : Int)) ∧
    ((¬ ∃ n, s.At 2 n (E t)) →
      s.count (E (t + 1)) = if s.count (E t) = (parties : Int) then 0 else s.count (E t)) := by
  have hne := countReg_ne name parties
  have hnext := h.next (x := (BarrierSt.countReg name parties).name) hE t hr
    (c := .ite (.eqInt (BarrierSt.countReg name parties).name parties)
     (.block [.subst (BarrierSt.countReg name parties) (.int 0),
       .subst (BarrierSt.doneReg name) (.int 1)]) .skip) (by simp [barrierBase])
    (r := BarrierSt.countReg name parties) (by simp [Code.targets, Code.block]) rfl
  have ec : ∀ env, s.count env = env (BarrierSt.countReg name parties).name := by
    intro env; rw [BSys.count, h.bname, h.bparties]
  rw [ec, ec, hnext]
  have ew : ∀ w : Wait, (w.code name parties).trace (E t) (BarrierSt.countReg name parties).name =
      if E t (.state w.th) = ((w.st + 2 : Nat) : Int) then
        [(E t (BarrierSt.countReg name parties).name + 1) % ((2 ^ (clog2 parties + 1) : Nat) : Int)]
      else [] := by
    intro w
    unfold Wait.code
    by_cases h1 : E t (.state w.th) = ((w.st + 2 : Nat) : Int)
    · rw [if_pos h1]
      have : (BarrierSt.countReg name parties).wrap (E t (BarrierSt.countReg name parties).name + 1) =
          (E t (BarrierSt.countReg name parties).name + 1) %
            ((2 ^ (clog2 parties + 1) : Nat) : Int) := by
        unfold Reg.wrap
        rw [if_neg (by simp [BarrierSt.countReg])]
        rfl
      rw [← this]
      simp only [Code.trace, Expr.truthy, Expr.eval, Expr.eqInt, h1]
      simp [Code.block, Code.trace, Expr.eval]
    · rw [if_neg h1]
      simp only [Code.trace, Expr.truthy, Expr.eval, Expr.eqInt, if_neg h1]
      simp
  have hall : ∀ v ∈ (s.waits.flatMap fun w =>
      (w.code name parties).trace (E t) (BarrierSt.countReg name parties).name),
      v = (E t (BarrierSt.countReg name parties).name + 1) %
        ((2 ^ (clog2 parties + 1) : Nat) : Int) := by
    intro v hv
    obtain ⟨w, _, hv⟩ := List.mem_flatMap.1 hv
    rw [ew] at hv
    split at hv <;> simp at hv
    exact hv
  rw [List.getLast?_append]
  constructor
  · intro hany
    obtain ⟨n, w, hw, rfl, hst⟩ := hany
    cases hl : (s.waits.flatMap fun w =>
      (w.code name parties).trace (E t) (BarrierSt.countReg name parties).name).getLast? with
    | none =>
      rw [List.getLast?_eq_none_iff, List.flatMap_eq_nil_iff] at hl
      have := hl w hw
      rw [ew, if_pos hst] at this
      simp at this
    | some v => simpa using hall v (List.mem_of_getLast? hl)
  · intro hany
    have e : (s.waits.flatMap fun w =>
      (w.code name parties).trace (E t) (BarrierSt.countReg name parties).name) = [] := by
      rw [List.flatMap_eq_nil_iff]
      intro w hw
      rw [ew, if_neg]
      intro hst
      exact hany ⟨w.th, w, hw, rfl, hst⟩
    rw [e]
    by_cases h1 : E t (BarrierSt.countReg name parties).name = (parties : Int)
    · simp [barrierBase, traceL, Code.trace, Code.block, Expr.truthy, Expr.eval, Expr.eqInt, h1,
        Ne.symm hne, Reg.wrap]
    · simp [barrierBase, traceL, Code.trace, Code.block, Expr.truthy, Expr.eval, Expr.eqInt, h1,
        Ne.symm hne]

end

end Hdl
