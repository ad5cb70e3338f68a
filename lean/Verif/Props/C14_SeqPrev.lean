import Verif.Lemmas.SeqOnly

/-!
# C14: `Seq.Prev`

`pfx` below is the string `prefix + x.name` under which `Prev` remembers its registers
(seq/seq.py:166).
-/

namespace Hdl

namespace SeqSt

/-- Stage `i` of the register chain: the variable itself, then the generated registers. -/
def chainReg (pfx : String) (var : Reg) (init : Int) : Nat → Reg
  | 0 => var
  | i + 1 => prevReg pfx var init (i + 1)

/-- Stages `1..n` exist and are shifted by one at each edge. -/
def PrevPipes (s : SeqSt) (pfx : String) (var : Reg) (init : Int) (n : Nat) : Prop :=
  ∀ j, j < n → PipeAt s (prevReg pfx var init (j + 1)) (.var (chainReg pfx var init j).name)

/-- Everything remembered for `pfx` is a stage of the chain of `var`. -/
def PrevOk (s : SeqSt) (pfx : String) (var : Reg) (init : Int) : Prop :=
  ∀ i r, ((pfx, i), r) ∈ s.prevDict →
    0 < i ∧ r = prevReg pfx var init i ∧ PrevPipes s pfx var init i

theorem PrevPipes.good {s s' : SeqSt} {pfx var init n} (h : PrevPipes s pfx var init n)
    (g : Good s s') : PrevPipes s' pfx var init n :=
  fun j hj => (h j hj).good g (by simp [prevReg, Var.genBy])

theorem PrevOk.good {s s' : SeqSt} {pfx var init} (h : PrevOk s pfx var init) (g : Good s s')
    (hp : ∀ i r, ((pfx, i), r) ∈ s'.prevDict → ((pfx, i), r) ∈ s.prevDict) :
    PrevOk s' pfx var init := by
  intro i r hr
  obtain ⟨h1, h2, h3⟩ := h i r (hp i r hr)
  exact ⟨h1, h2, h3.good g⟩

theorem lookupPrev_some {s : SeqSt} {key : String × Nat} {r : Reg}
    (h : s.lookupPrev key = some r) : (key, r) ∈ s.prevDict := by
  unfold lookupPrev at h
  obtain ⟨e, he, rfl⟩ := Option.map_eq_some_iff.1 h
  have h1 := List.mem_of_find?_eq_some he
  have h2 := List.find?_some he
  simp only [decide_eq_true_eq] at h2
  rw [← h2]
  exact h1

/-- The loop of `Prev` extends the chain. -/
theorem prevLoop_ok {s : SeqSt} (hi : s.Inv) {pfx : String} {var : Reg} {init : Int}
    (hok : PrevOk s pfx var init) (m i : Nat) (hpipes : PrevPipes s pfx var init i) :
    (prevLoop pfx var init m i (chainReg pfx var init i) s).1 = chainReg pfx var init (i + m) ∧
    PrevOk (prevLoop pfx var init m i (chainReg pfx var init i) s).2 pfx var init ∧
    PrevPipes (prevLoop pfx var init m i (chainReg pfx var init i) s).2 pfx var init (i + m) := by
  induction m generalizing s i with
  | zero => exact ⟨rfl, hok, hpipes⟩
  | succ m ih =>
    unfold prevLoop
    split
    · rename_i r hr
      obtain ⟨-, hr2, hr3⟩ := hok _ _ (lookupPrev_some hr)
      have he : r = chainReg pfx var init (i + 1) := hr2
      rw [he, show i + (m + 1) = i + 1 + m by omega]
      exact ih hi hok (i + 1) hr3
    · rename_i hnone
      have g := Good.prevStage hi pfx var init (i + 1) (chainReg pfx var init i) hnone
      have hfresh : (prevReg pfx var init (i + 1)).name ∉ s.dstNames := by
        intro hm
        obtain ⟨r, hr⟩ := hi.gen _ hm
        exact lookupPrev_none hnone r hr
      have hnew : PipeAt ({ s with prevDict := s.prevDict ++
            [((pfx, i + 1), prevReg pfx var init (i + 1))] }.pushBody
          (.plain (.subst (prevReg pfx var init (i + 1)) (.var (chainReg pfx var init i).name))))
          (prevReg pfx var init (i + 1)) (.var (chainReg pfx var init i).name) := by
        have := pipeAt_pushRaw (s := { s with prevDict := s.prevDict ++
            [((pfx, i + 1), prevReg pfx var init (i + 1))] })
          (by exact hi.covered) 0 (prevReg pfx var init (i + 1))
          (.var (chainReg pfx var init i).name) hfresh
        simpa [pushRaw] using this
      have hp' : PrevPipes ({ s with prevDict := s.prevDict ++
            [((pfx, i + 1), prevReg pfx var init (i + 1))] }.pushBody
          (.plain (.subst (prevReg pfx var init (i + 1)) (.var (chainReg pfx var init i).name))))
          pfx var init (i + 1) := by
        intro j hj
        by_cases hji : j = i
        · subst hji; exact hnew
        · exact (hpipes.good g) j (by omega)
      have hok' : PrevOk ({ s with prevDict := s.prevDict ++
            [((pfx, i + 1), prevReg pfx var init (i + 1))] }.pushBody
          (.plain (.subst (prevReg pfx var init (i + 1)) (.var (chainReg pfx var init i).name))))
          pfx var init := by
        intro k r hr
        have hr' : ((pfx, k), r) ∈ s.prevDict ++
            [((pfx, i + 1), prevReg pfx var init (i + 1))] := by simpa [pushBody] using hr
        rcases List.mem_append.1 hr' with hr' | hr'
        · obtain ⟨h1, h2, h3⟩ := hok k r hr'
          exact ⟨h1, h2, h3.good g⟩
        · simp only [List.mem_singleton, Prod.mk.injEq, true_and] at hr'
          obtain ⟨rfl, rfl⟩ := hr'
          exact ⟨by omega, rfl, hp'⟩
      rw [show i + (m + 1) = i + 1 + m by omega]
      exact ih g.inv hok' (i + 1) hp'

theorem prevLoop_other {pfx pfx' : String} (hne : pfx' ≠ pfx) (var : Reg) (init : Int)
    (m i : Nat) (p : Reg) (s : SeqSt) (k : Nat) (r : Reg)
    (h : ((pfx, k), r) ∈ (prevLoop pfx' var init m i p s).2.prevDict) :
    ((pfx, k), r) ∈ s.prevDict := by
  induction m generalizing s i p with
  | zero => exact h
  | succ m ih =>
    unfold prevLoop at h
    split at h
    · exact ih _ _ _ h
    · have := ih _ _ _ h
      have : ((pfx, k), r) ∈ s.prevDict ++ [((pfx', i + 1), prevReg pfx' var init (i + 1))] := by
        simpa [pushBody] using this
      rcases List.mem_append.1 this with h' | h'
      · exact h'
      · simp only [List.mem_singleton, Prod.mk.injEq] at h'
        exact absurd h'.1.1.symm hne

theorem prevCondLoop_prevDict (var : Reg) (init : Int) (c : Expr) (m : Nat) (p : Reg) (s : SeqSt) :
    (prevCondLoop var init c m p s).2.prevDict = s.prevDict := by
  induction m generalizing s p with
  | zero => rfl
  | succ m ih =>
    unfold prevCondLoop
    rw [ih]
    simp [pushBody]

theorem addDelayedCond_prevDict (s : SeqSt) (c : Expr) (n : Nat) :
    (s.addDelayedCond c n).2.prevDict = s.prevDict :=
  (pipeLoop_fields (condReg s.name s.tmpCount) n 0 c { s with tmpCount := s.tmpCount + 1 }).2.2.1

theorem addDelayedSubst_prevDict (s : SeqSt) (c : Code) (n : Nat) :
    (s.addDelayedSubst c n).2.prevDict = s.prevDict := by
  unfold addDelayedSubst
  split
  · rename_i left f
    exact (pipeLoop_fields (sbstReg s.name left s.tmpCount) n 0 (.fn f)
      { s with tmpCount := s.tmpCount + 1 }).2.2.1
  · rfl

theorem addDelayedSubsts_prevDict (s : SeqSt) (cs : List Code) (n : Nat) :
    (s.addDelayedSubsts cs n).2.prevDict = s.prevDict := by
  induction cs generalizing s with
  | nil => rfl
  | cons c cs ih =>
    exact (ih (s.addDelayedSubst c n).2).trans (addDelayedSubst_prevDict s c n)

theorem addDelayed_prevDict (s : SeqSt) (stmts : List Code) (n : Nat) (cond : Option Expr)
    (lz eager : Bool) : (s.addDelayed stmts n cond lz eager).prevDict = s.prevDict := by
  unfold addDelayed
  cases eager <;> cases lz <;>
    simp [pushDelayed, addDelayedCond_prevDict, addDelayedSubsts_prevDict]

theorem addStatement1_prevDict (s : SeqSt) (stmts : List Code) (n : Nat) (cond : Option Expr)
    (lz eager : Bool) : (s.addStatement1 stmts n cond lz eager).prevDict = s.prevDict := by
  unfold addStatement1
  split
  · split
    · simp [pushBody]
    · induction stmts generalizing s with
      | nil => rfl
      | cons c cs ih => rw [List.foldl_cons, ih]; simp [pushBody]
  · exact addDelayed_prevDict _ _ _ _ _ _

theorem addStatement_prevDict (s : SeqSt) (stmts : List Code) (kw : Kwargs) :
    (s.addStatement stmts kw).prevDict = s.prevDict := by
  unfold addStatement
  simp only
  split
  · rename_i m _
    generalize List.range m = l
    induction l generalizing s with
    | nil => rfl
    | cons i l ih => rw [List.foldl_cons, ih, addStatement1_prevDict]
  · exact addStatement1_prevDict _ _ _ _ _ _

theorem addKw_prevDict {s s' : SeqSt} {kw : Kwargs} {stmts : List Code}
    (h : s.addKw kw stmts = some s') : s'.prevDict = s.prevDict := by
  unfold addKw at h
  split at h
  · split at h
    · simp only [Option.some.injEq] at h
      subst h
      simp [extendElif]
    · simp at h
  · split at h
    · split at h
      · simp only [Option.some.injEq] at h
        subst h
        simp [extendElse]
      · simp at h
    · simp only [Option.some.injEq] at h
      subst h
      rw [addStatement_prevDict]

/-- Calls of `Prev` under the prefix `pfx` concern `var` with initial value `init`. -/
def _root_.Hdl.SeqOp.PrevFor (pfx : String) (var : Reg) (init : Int) : SeqOp → Prop
  | .prev p v _ i _ => p = pfx → v = var ∧ i = init
  | _ => True

theorem PrevOk.apply {s s' : SeqSt} (hi : s.Inv) {pfx : String} {var : Reg} {init : Int}
    (hok : PrevOk s pfx var init) (op : SeqOp) (ho : op.Ok s.name) (hp : op.PrevFor pfx var init)
    (hs : op.apply s = some s') : PrevOk s' pfx var init := by
  have g := Good.apply hi op ho hs
  have same : s'.prevDict = s.prevDict → PrevOk s' pfx var init :=
    fun h => hok.good g fun i r hr => h ▸ hr
  cases op with
  | prev p v n i c =>
    simp only [SeqOp.apply, Option.some.injEq] at hs
    unfold SeqSt.prev at hs
    split at hs
    · subst hs; exact hok
    · split at hs
      · subst hs; exact hok
      · split at hs
        · by_cases hpp : p = pfx
          · obtain ⟨rfl, rfl⟩ := hp hpp
            subst hpp
            rw [← hs]
            exact (prevLoop_ok hi hok n 0 fun j hj => by omega).2.1
          · refine hok.good g fun k r hr => ?_
            rw [← hs] at hr
            exact prevLoop_other hpp v i n 0 v s k r hr
        · refine same ?_
          rw [← hs]
          exact prevCondLoop_prevDict _ _ _ _ _ _
  | add stmts =>
    refine same ?_
    exact (addKw_prevDict hs : _)
  | iff cs =>
    simp only [SeqOp.apply, Option.some.injEq] at hs
    subst hs
    exact same (iff_fields s cs).2.2.2.2.2.2.2
  | thn =>
    simp only [SeqOp.apply, Option.some.injEq] at hs
    subst hs
    exact same (thn_fields s).2.2.2.2.2.2.2
  | els =>
    refine same ?_
    simp only [SeqOp.apply, SeqSt.els] at hs
    split at hs
    · simp at hs
    · split at hs
      · simp only [Option.some.injEq] at hs
        subst hs
        exact (thn_fields { s with elifCond := none, lastCond := negLast s.lastCond }).2.2.2.2.2.2.2
      · split at hs
        · simp at hs
        · simp only [Option.some.injEq] at hs
          subst hs
          rfl
  | elif c cs =>
    refine same ?_
    simp only [SeqOp.apply, SeqSt.elif] at hs
    split at hs
    · simp at hs
    · split at hs
      · simp only [Option.some.injEq] at hs
        subst hs
        exact (thn_fields { s with
          lastCond := negLast s.lastCond ++ [cs.foldl Expr.and c] }).2.2.2.2.2.2.2
      · split at hs
        · simp at hs
        · simp only [Option.some.injEq] at hs
          subst hs
          rfl
  | delay n | keep n | lazyCond n | eagerVal n | clear =>
    simp only [SeqOp.apply, Option.some.injEq] at hs
    subst hs
    exact same rfl
  | addReset r =>
    simp only [SeqOp.apply, Option.some.injEq] at hs
    subst hs
    exact same (by simp [addReset])

theorem PrevOk.applyAll {s s' : SeqSt} (hi : s.Inv) {pfx : String} {var : Reg} {init : Int}
    (hok : PrevOk s pfx var init) (ops : List SeqOp) (ho : ∀ op ∈ ops, op.Ok s.name)
    (hp : ∀ op ∈ ops, op.PrevFor pfx var init) (hs : s.applyAll ops = some s') :
    PrevOk s' pfx var init := by
  induction ops generalizing s with
  | nil =>
    simp only [SeqSt.applyAll, Option.some.injEq] at hs
    subst hs
    exact hok
  | cons op ops ih =>
    simp only [SeqSt.applyAll, Option.bind_eq_some_iff] at hs
    obtain ⟨s1, h1, h2⟩ := hs
    have g := Good.apply hi op (ho op (by simp)) h1
    exact ih g.inv (hok.apply hi op (ho op (by simp)) (hp op (by simp)) h1)
      (fun o hm => by rw [g.step.name]; exact ho o (by simp [hm])) (fun o hm => hp o (by simp [hm]))
      h2

end SeqSt

open SeqSt

/-- **C14.**  Any calls `pre`, then `r = seq.Prev(x, n)`, then any calls `post`; the calls of `Prev`
    in `pre` under the same prefix and name (any delays, any order, conditional or not) concern the
    same variable and initial value.  In every execution of the finished design, `r` has at edge
    `t + n` the value `x` had at edge `t`, or the initial value if reset was asserted in between. -/
theorem c14_prev {name : String} (pre post : List SeqOp) {s s2 : SeqSt} (pfx : String) (x : Reg)
    (init : Int) (n : Nat)
    (hpre : ∀ op ∈ pre, op.Ok name) (hpost : ∀ op ∈ post, op.Ok name)
    (hfor : ∀ op ∈ pre, op.PrevFor pfx x init)
    (hs : (SeqSt.fresh name).applyAll pre = some s)
    (hs2 : (s.prev pfx x n init none).2.applyAll post = some s2)
    (rst : Option Expr) (E : Nat → Env) (hE : Run (s2.always rst) E)
    (hrange : ∀ t, x.wrap (E t x.name) = E t x.name) (t : Nat) :
    E (t + n) (s.prev pfx x n init none).1.name =
      if resetIn rst E t n = true then x.wrap init else E t x.name := by
  have hreach : Reach name s := ⟨pre, hpre, hs⟩
  have hok : PrevOk s pfx x init := by
    refine PrevOk.applyAll (inv_fresh name) ?_ pre hpre hfor hs
    intro i r hr
    simp [SeqSt.fresh] at hr
  have g1 := Good.prev hreach.inv pfx x n init none
  have g2 : Good _ s2 := Good.applyAll g1.inv post
    (by rw [g1.step.name, hreach.name_eq]; exact hpost) hs2
  by_cases hn : n = 0
  · subst hn
    simp [prev, resetIn]
  · have key : (s.prev pfx x n init none).1 = chainReg pfx x init n ∧
        PrevPipes (s.prev pfx x n init none).2 pfx x init n := by
      unfold SeqSt.prev
      rw [if_neg hn]
      split
      · rename_i r hr
        obtain ⟨-, h2, h3⟩ := hok _ _ (lookupPrev_some hr)
        refine ⟨?_, h3⟩
        rw [h2]
        obtain ⟨k, rfl⟩ : ∃ k, n = k + 1 := ⟨n - 1, by omega⟩
        rfl
      · have := prevLoop_ok hreach.inv hok n 0 fun j hj => by omega
        rw [Nat.zero_add] at this
        exact ⟨this.1, this.2.2⟩
    have hp := key.2.good g2
    have hr := pipe_run g2.inv hE (prevReg pfx x init) (.var x.name) init x.wrap
      (fun j => rfl) x.wrap_wrap (fun j => rfl) n (fun j hj => by
        have := hp j hj
        cases j with
        | zero => exact this
        | succ j => exact this) (by omega) t
    rw [key.1]
    obtain ⟨k, rfl⟩ : ∃ k, n = k + 1 := ⟨n - 1, by omega⟩
    have e : (Expr.var x.name).eval (E t) = E t x.name := rfl
    rw [e, hrange] at hr
    exact hr

/-- Example: `Prev(a, 3)` after `Prev(a, 1)` shares the first register. -/
example : ∃ s, (SeqSt.fresh "s").applyAll [.prev "_a" ⟨.user "a", 8, false, none⟩ 1 0 none] = some s ∧
    (s.prev "_a" ⟨.user "a", 8, false, none⟩ 3 0 none).1.name = .prev "_a" 3 ∧
    (s.prev "_a" ⟨.user "a", 8, false, none⟩ 3 0 none).2.prevDict.length = 3 :=
  ⟨_, rfl, by decide, by decide⟩

/-- **Disagreement 1.**  `seq.Prev(a, 2, cond=c)` after `seq.Prev(a, 2)` returns the register of the
    unconditional call: the condition is ignored (seq/seq.py:171-172). -/
theorem c14_condition_ignored (a : Reg) (c : Expr) :
    ∃ s, (SeqSt.fresh "s").applyAll [.prev "_a" a 2 0 none] = some s ∧
      s.prev "_a" a 2 0 (some c) = s.prev "_a" a 2 0 none := by
  refine ⟨_, rfl, ?_⟩
  rfl

/-- **Disagreement 2.**  `seq.Prev(a, 1, initval=5)` after `seq.Prev(a, 1)` returns a register that
    is reset to 0. -/
theorem c14_initval_ignored (a : Reg) :
    ∃ s, (SeqSt.fresh "s").applyAll [.prev "_a" a 1 0 none] = some s ∧
      (s.prev "_a" a 1 5 none).1.init = some 0 :=
  ⟨_, rfl, rfl⟩

/-- **Disagreement 3.**  The registers are remembered under `prefix + name`: `seq.Prev(b, 1,
    prefix='_a')` for a variable called `b` after `seq.Prev(ab, 1)` (default prefix `_`) for a
    variable called `ab` returns the register of `ab`. -/
theorem c14_prefix_collision (ab b : Reg) :
    ∃ s, (SeqSt.fresh "s").applyAll [.prev ("_" ++ "ab") ab 1 0 none] = some s ∧
      (s.prev ("_a" ++ "b") b 1 0 none).2 = s ∧
      PipeAt s (s.prev ("_a" ++ "b") b 1 0 none).1 (.var ab.name) := by
  refine ⟨_, rfl, rfl, ?_⟩
  exact (prevLoop_ok (inv_fresh "s") (pfx := "_ab") (var := ab) (init := 0)
    (by intro i r hr; simp [SeqSt.fresh] at hr) 1 0 (fun j hj => by omega)).2.2 0 (by omega)

end Hdl
