import Verif.Model.Mutex
import Verif.Lemmas.FsmDelay
import Verif.Lemmas.FsmOnly
import Verif.Props.C16_FsmStep

/-! Designs with a mutex: what the calls leave in the builders. -/

namespace Hdl

open FsmSt

/-! ## The FSM side -/

namespace FsmSt

/-- The jumps out of state `i`, in order. -/
def jumpsFrom (s : FsmSt) (i : Nat) : List Jump :=
  s.jumps.filterMap fun e => if e.1 = i then some e.2 else none

/-- The state after an edge: every jump in turn overrides what the earlier ones chose. -/
def nextState (js : List Jump) (env : Env) (old : Int) : Int :=
  js.foldl (fun o j => takeJump (holds j.cond env) j.dst j.elseDst o) old

theorem jumpsAt_eq (s : FsmSt) (i : Nat) :
    s.jumpsAt i = (s.jumpsFrom i).map (jumpCode s.stateReg) := by
  unfold jumpsAt jumpsFrom
  rw [List.map_filterMap]
  congr 1
  funext e
  split <;> simp

theorem nextState_trace (st : Reg) (hs : st.signed = false) (js : List Jump) (env : Env) (old : Int)
    (hj : ∀ j ∈ js, j.dst < 2 ^ st.width ∧ ∀ e, j.elseDst = some e → e < 2 ^ st.width) :
    ((traceL (js.map (jumpCode st)) env st.name).getLast?).getD old = nextState js env old := by
  induction js generalizing old with
  | nil => rfl
  | cons j js ih =>
    have h := hj j (by simp)
    rw [List.map_cons, traceL_cons, List.getLast?_append]
    have e := ih (takeJump (holds j.cond env) j.dst j.elseDst old) fun j hj' => hj j (by simp [hj'])
    rw [nextState, List.foldl_cons]
    rw [nextState] at e
    rw [← e, ← jumpCode_trace st j.cond j.dst j.elseDst env old hs h.1 h.2]
    cases (traceL (js.map (jumpCode st)) env st.name).getLast? <;> simp

theorem run_next {name : String} {w : Nat} {s : FsmSt} (h : Reach name w s) {rst : Expr} {uc : Bool}
    {E : Nat → Env} (hE : Run (s.always rst uc) E) (t i : Nat) (hr : rst.truthy (E t) = false)
    (hi : E t (.state name) = (i : Int))
    (hj : ∀ j ∈ s.jumpsFrom i, j.dst < 2 ^ w ∧ ∀ e, j.elseDst = some e → e < 2 ^ w) :
    E (t + 1) (.state name) = nextState (s.jumpsFrom i) (E t) i := by
  have hn := h.name_eq
  have hw := h.width_eq
  have hst : s.stateReg.name = .state name := by simp [stateReg, hn]
  have h1 := hE t s.stateReg.name (mem_always_dstate s 0 (by omega) rst uc)
  rw [tick_state h.inv rst uc (E t) hr, hst, hi] at h1
  rw [h1, ← nextState_trace s.stateReg rfl (s.jumpsFrom i) (E t) i (by
    intro j hm; have := hj j hm; rw [← hw] at this; exact this), ← jumpsAt_eq, hst]
  unfold jumpTrace
  rw [hst, hi]
  simp

theorem goto_jumps (s : FsmSt) (dst : Nat) (c : Option Expr) (e : Option Nat) :
    ∃ extra, (s.goto dst c e).jumps = s.jumps ++ extra := ⟨_, rfl⟩

theorem apply_grows {s s' : FsmSt} {op : FsmOp} (h : op.apply s = some s') :
    ∃ extra, s'.jumps = s.jumps ++ extra := by
  by_cases hj : op.isJump = false
  · exact ⟨[], by rw [apply_jumps h hj]; simp⟩
  · cases op <;> simp [FsmOp.isJump] at hj
    all_goals
      simp only [FsmOp.apply, Option.some.injEq] at h
      subst h
      exact ⟨_, rfl⟩

theorem applyAll_grows {s s' : FsmSt} {ops : List FsmOp} (h : s.applyAll ops = some s') :
    ∃ extra, s'.jumps = s.jumps ++ extra := by
  induction ops generalizing s with
  | nil =>
    simp only [applyAll, Option.some.injEq] at h
    exact ⟨[], by simp [h]⟩
  | cons op ops ih =>
    simp only [applyAll, Option.bind_eq_some_iff] at h
    obtain ⟨s1, h1, h2⟩ := h
    obtain ⟨e1, he1⟩ := apply_grows h1
    obtain ⟨e2, he2⟩ := ih h2
    exact ⟨e1 ++ e2, by rw [he2, he1, List.append_assoc]⟩

theorem jumpsFrom_append {s s' : FsmSt} {l : List (Nat × Jump)} (h : s'.jumps = s.jumps ++ l)
    (i : Nat) : s'.jumpsFrom i = s.jumpsFrom i ++
      l.filterMap fun e => if e.1 = i then some e.2 else none := by
  simp [jumpsFrom, h]

end FsmSt

/-! ## The Seq side -/

namespace SeqSt

theorem iff_add (s : SeqSt) (h : s.Idle) (c : Expr) (cs : List Expr) (stmts : List Code) :
    ∃ s1 : SeqSt, s.applyAll [.iff (c :: cs), .add stmts] =
        some (s1.pushBody (.chain [(cs.foldl Expr.and c, Code.block stmts)] none)) ∧
      s1.name = s.name ∧ s1.delayed = s.delayed ∧ s1.body = s.body ∧ s1.dstVar = s.dstVar ∧
      s1.Idle := by
  obtain ⟨s1, h1, hn, hd, hb, hv, -, -, -, -, hi⟩ := addCalls_kw s h (c :: cs) 0 false false stmts
  exact ⟨{ s1 with lastIf := some s1.body.length }, h1, hn, hd, hb, hv, hi⟩

end SeqSt

/-! ## Whole designs -/

/-- The kinds of calls. -/
inductive CallKind
  | lock
  | tryLock (tmp : String)
  | unlock
  deriving DecidableEq

/-- One call of a mutex method: the thread (name of its FSM) and the state number at the call. -/
structure Site where
  kind : CallKind
  th : String
  st : Nat
  deriving DecidableEq

/-- A mutex and the FSMs of all threads; `sites` records the calls on the mutex, in order. -/
structure Sys where
  mx : MutexSt
  th : String → FsmSt
  sites : List Site

/-- The designs that can be built with one mutex: any sequence of calls on the FSMs of the threads
    and of mutex calls, in any order.  The user's statements assign neither FSM-generated registers
    nor the result registers of `try_lock`, whose names `tmps` are generated by the module and never
    repeated.  A mutex call is made when no `If`, `Delay`, ... of the thread's FSM is pending. -/
inductive Built (name : String) (width fw : Nat) (tmps : List String) : Sys → Prop
  | fresh : Built name width fw tmps ⟨MutexSt.fresh name width, fun n => FsmSt.fresh n fw, []⟩
  | fsm {s : Sys} (n : String) (op : FsmOp) {f : FsmSt} (h : Built name width fw tmps s)
      (hok : op.Ok n) (htmp : ∀ tmp ∈ tmps, ¬ op.mentions (.user tmp))
      (hf : op.apply (s.th n) = some f) :
      Built name width fw tmps { s with th := Function.update s.th n f }
  | lock {s : Sys} (n : String) {m : MutexSt} {f : FsmSt} (h : Built name width fw tmps s)
      (hidle : (s.th n).Idle) (hf : s.mx.lock (s.th n) = some (m, f)) :
      Built name width fw tmps
        ⟨m, Function.update s.th n f, s.sites ++ [⟨.lock, n, (s.th n).cur⟩]⟩
  | tryLock {s : Sys} (n tmp : String) {m : MutexSt} {f : FsmSt} (h : Built name width fw tmps s)
      (hidle : (s.th n).Idle) (hmem : tmp ∈ tmps) (hnew : ∀ c ∈ s.sites, c.kind ≠ .tryLock tmp)
      (hf : s.mx.tryLock (s.th n) tmp = some (m, f)) :
      Built name width fw tmps
        ⟨m, Function.update s.th n f, s.sites ++ [⟨.tryLock tmp, n, (s.th n).cur⟩]⟩
  | unlock {s : Sys} (n : String) {m : MutexSt} {f : FsmSt} (h : Built name width fw tmps s)
      (hidle : (s.th n).Idle) (hf : s.mx.unlock (s.th n) = some (m, f)) :
      Built name width fw tmps
        ⟨m, Function.update s.th n f, s.sites ++ [⟨.unlock, n, (s.th n).cur⟩]⟩

/-- The statement a call leaves in the `Seq` of the mutex. -/
def Site.code (m : MutexSt) (c : Site) : Code :=
  match c.kind with
  | .unlock => .ite (.and (.eqInt (.state c.th) c.st) (m.isMine (m.ids.idxOf c.th)))
      (.block [.subst m.lockReg (.int 0)]) .skip
  | _ => .ite (.and (.eqInt (.state c.th) c.st) m.isFree)
      (.block [.subst m.lockReg (.int 1), .subst m.lockId (.int (m.ids.idxOf c.th))]) .skip

/-- The jumps a call leaves in the FSM of the thread. -/
def Site.jumps (m : MutexSt) (c : Site) : List (Nat × Jump) :=
  let id := m.ids.idxOf c.th
  let own := Expr.and (.var m.lockReg.name) (m.isMine id)
  match c.kind with
  | .lock => [(c.st, ⟨c.st + 1, some (.or m.isFree (m.isMine id)), none⟩),
      (c.st + 1, ⟨c.st, some (.not own), none⟩), (c.st + 1, ⟨c.st + 2, some own, none⟩)]
  | .tryLock _ => [(c.st, ⟨c.st + 1, none, none⟩), (c.st + 1, ⟨c.st + 2, none, none⟩)]
  | .unlock => [(c.st, ⟨c.st + 1, none, none⟩)]

namespace MutexSt

theorem getId_spec (m : MutexSt) (n : String) :
    ∃ ids', (m.getId n).2 = { m with ids := ids' } ∧ (m.getId n).1 = ids'.idxOf n ∧ n ∈ ids' ∧
      (∃ l, ids' = m.ids ++ l) ∧ ∀ k, k ∈ ids' → k ∈ m.ids ∨ k = n := by
  unfold getId
  by_cases h : n ∈ m.ids
  · rw [if_pos h]
    exact ⟨m.ids, rfl, rfl, h, ⟨[], by simp⟩, fun k hk => Or.inl hk⟩
  · rw [if_neg h]
    refine ⟨m.ids ++ [n], rfl, ?_, by simp, ⟨[n], rfl⟩, by simp⟩
    rw [List.idxOf_append_of_notMem h]
    simp

end MutexSt

theorem idxOf_prefix {l e : List String} {n : String} (h : n ∈ l) :
    (l ++ e).idxOf n = l.idxOf n := List.idxOf_append_of_mem h

/-- Two threads never get the same number. -/
theorem idxOf_inj {l : List String} {a b : String} (ha : a ∈ l) (hb : b ∈ l)
    (h : l.idxOf a = l.idxOf b) : a = b := by
  have h1 := List.getElem_idxOf (List.idxOf_lt_length_of_mem ha)
  have h2 := List.getElem_idxOf (List.idxOf_lt_length_of_mem hb)
  rw [← h1, ← h2]
  simp [h]


/-- The value `try_lock` stores. -/
def Site.own (m : MutexSt) (c : Site) : Expr :=
  .band1 (.var m.lockReg.name) (m.isMine (m.ids.idxOf c.th))

/-- The effect of one mutex call, whatever its kind. -/
structure CallEff (kind : CallKind) (m m' : MutexSt) (f f' : FsmSt) : Prop where
  mname : m'.name = m.name
  mwidth : m'.width = m.width
  ids : ∃ l, m'.ids = m.ids ++ l
  mem : f.name ∈ m'.ids
  small : m'.ids.idxOf f.name ≤ 2 ^ m.width - 1
  sname : m'.seq.name = m.seq.name
  idle : m'.seq.Idle
  delayed : m'.seq.delayed = m.seq.delayed
  body : m'.seq.body.map Item.code = m.seq.body.map Item.code ++ [Site.code m' ⟨kind, f.name, f.cur⟩]
  seqOps : ∃ ops, (∀ op ∈ ops, op.Ok m.seq.name) ∧ m.seq.applyAll ops = some m'.seq
  fname : f'.name = f.name
  fidle : f'.Idle
  jumps : f'.jumps = f.jumps ++ Site.jumps m' ⟨kind, f.name, f.cur⟩
  fops : ∃ ops, (∀ op ∈ ops, op.Ok f.name) ∧ (∀ op ∈ ops, ∀ x, op.mentions x → ∃ tmp,
    kind = .tryLock tmp ∧ x = .user tmp) ∧ f.applyAll ops = some f'

theorem iff_add_code (m : MutexSt) (h : m.seq.Idle) (c1 c2 : Expr) (stmts : List Code) (q : SeqSt)
    (hq : m.seq.applyAll [.iff [c1, c2], .add stmts] = some q) :
    q.name = m.seq.name ∧ q.Idle ∧ q.delayed = m.seq.delayed ∧
    q.body.map Item.code = m.seq.body.map Item.code ++ [.ite (.and c1 c2) (.block stmts) .skip] := by
  obtain ⟨s1, h1, hn, hd, hb, hv, hi⟩ := SeqSt.iff_add m.seq h c1 [c2] stmts
  rw [h1] at hq
  simp only [Option.some.injEq] at hq
  subst hq
  have f := SeqSt.addDst_fields { s1 with body := s1.body ++
    [.chain [([c2].foldl Expr.and c1, Code.block stmts)] none] }
    (Item.chain [([c2].foldl Expr.and c1, Code.block stmts)] none).code.targets
  refine ⟨f.1.trans hn, ⟨?_, ?_, ?_⟩, f.2.1.trans hd, ?_⟩
  · exact f.2.2.2.2.2.2.2.2.1.trans hi.1
  · exact f.2.2.2.2.2.2.2.2.2.1.trans hi.2.1
  · exact f.2.2.2.2.2.2.2.2.2.2.1.trans hi.2.2
  · show (SeqSt.addDst _ _).body.map _ = _
    rw [f.2.2.1]
    simp [hb, Item.code, chainCode]

theorem lock_eff {m m' : MutexSt} {f f' : FsmSt} (hm : m.seq.Idle) (hf : f.Idle)
    (h : m.lock f = some (m', f')) : CallEff .lock m m' f f' := by
  obtain ⟨ids', e1, e2, e3, e4, -⟩ := m.getId_spec f.name
  simp only [MutexSt.lock, e1, e2] at h
  split at h
  · simp at h
  · rename_i hsmall
    simp only [Option.bind_eq_some_iff, Option.map_eq_some_iff, Prod.mk.injEq] at h
    obtain ⟨q, hq, f1, hf1, rfl, rfl⟩ := h
    obtain ⟨a1, a2, a3, a4⟩ := iff_add_code m hm _ _ _ q hq
    refine ⟨rfl, rfl, e4, e3, by simpa using hsmall, a1, a2, a3, a4, ⟨_, ?_, hq⟩, ?_, ?_, ?_,
      ⟨_, ?_, ?_, hf1⟩⟩
    · intro op hop
      simp only [List.mem_cons, List.not_mem_nil, or_false] at hop
      rcases hop with rfl | rfl
      · trivial
      · intro c hc r hr
        simp only [List.mem_cons, List.not_mem_nil, or_false] at hc
        rcases hc with rfl | rfl <;> (simp only [Code.targets, List.mem_singleton] at hr; subst hr; rfl)
    all_goals
      try
        simp only [FsmSt.applyAll, FsmOp.apply, FsmSt.iff, makeCond, FsmSt.goto, FsmSt.gotoNext,
          FsmSt.setIndex, hf.1, Option.bind_some, Option.some.injEq, Option.getD_none] at hf1
        subst hf1
    · rfl
    · exact ⟨rfl, rfl, rfl⟩
    · simp [Site.jumps]; exact ⟨rfl, rfl, rfl⟩
    · intro op hop
      simp only [List.mem_cons, List.not_mem_nil, or_false] at hop
      rcases hop with rfl | rfl | rfl | rfl | rfl | rfl <;> trivial
    · intro op hop x hx
      simp only [List.mem_cons, List.not_mem_nil, or_false] at hop
      rcases hop with rfl | rfl | rfl | rfl | rfl | rfl <;> exact hx.elim

theorem unlock_eff {m m' : MutexSt} {f f' : FsmSt} (hm : m.seq.Idle) (hf : f.Idle)
    (h : m.unlock f = some (m', f')) : CallEff .unlock m m' f f' := by
  obtain ⟨ids', e1, e2, e3, e4, -⟩ := m.getId_spec f.name
  simp only [MutexSt.unlock, e1, e2] at h
  split at h
  · simp at h
  · rename_i hsmall
    simp only [Option.bind_eq_some_iff, Option.map_eq_some_iff, Prod.mk.injEq] at h
    obtain ⟨q, hq, f1, hf1, rfl, rfl⟩ := h
    obtain ⟨a1, a2, a3, a4⟩ := iff_add_code m hm _ _ _ q hq
    refine ⟨rfl, rfl, e4, e3, by simpa using hsmall, a1, a2, a3, a4, ⟨_, ?_, hq⟩, ?_, ?_, ?_,
      ⟨_, ?_, ?_, hf1⟩⟩
    · intro op hop
      simp only [List.mem_cons, List.not_mem_nil, or_false] at hop
      rcases hop with rfl | rfl
      · trivial
      · intro c hc r hr
        simp only [List.mem_cons, List.not_mem_nil, or_false] at hc
        subst hc
        simp only [Code.targets, List.mem_singleton] at hr; subst hr; rfl
    all_goals
      try
        simp only [FsmSt.applyAll, FsmOp.apply, FsmSt.goto, FsmSt.gotoNext,
          FsmSt.setIndex, hf.1, Option.bind_some, Option.some.injEq, Option.getD_none] at hf1
        subst hf1
    · rfl
    · exact ⟨rfl, rfl, rfl⟩
    · simp [Site.jumps]
    · intro op hop
      simp only [List.mem_cons, List.not_mem_nil, or_false] at hop
      subst hop; trivial
    · intro op hop x hx
      simp only [List.mem_cons, List.not_mem_nil, or_false] at hop
      subst hop; exact hx.elim

/-- The statement `try_lock` adds is the only change to the code of the thread. -/
theorem tryLock_eff {m m' : MutexSt} {f f' : FsmSt} {tmp : String} (hm : m.seq.Idle) (hf : f.Idle)
    (h : m.tryLock f tmp = some (m', f')) : CallEff (.tryLock tmp) m m' f f' ∧
    f'.seq = f.seq ∧ f'.Drives (.user tmp) ∧
    ∀ d i env x, f'.keyTrace d i env x = f.keyTrace d i env x ++
      if (0, f.cur + 1) = (d, i) ∧ x = .user tmp then
        [(Site.own m' ⟨.tryLock tmp, f.name, f.cur⟩).eval env % 2] else [] := by
  obtain ⟨ids', e1, e2, e3, e4, -⟩ := m.getId_spec f.name
  simp only [MutexSt.tryLock, e1, e2] at h
  split at h
  · simp at h
  · rename_i hsmall
    simp only [Option.bind_eq_some_iff, Option.map_eq_some_iff, Prod.mk.injEq] at h
    obtain ⟨q, hq, f1, hf1, rfl, rfl⟩ := h
    obtain ⟨a1, a2, a3, a4⟩ := iff_add_code m hm _ _ _ q hq
    have hf1' := hf1
    obtain ⟨g, hg1, hg2, hg3, hg4, hg5, hg6, hg7⟩ : ∃ g : FsmSt, f1 = (g.push 0 (f.cur + 1)
        (.plain (.subst (MutexSt.resultReg tmp) (Expr.band1 (.var m.lockReg.name)
          (m.isMine (ids'.idxOf f.name)))))).gotoNext none ∧ g.name = f.name ∧ g.Idle ∧
        g.jumps = f.jumps ++ [(f.cur, ⟨f.cur + 1, none, none⟩)] ∧ g.cur = f.cur + 1 ∧
        g.code = f.code ∧ g.seq = f.seq := by
      refine ⟨{ f.gotoNext none with lastDelay := none }, ?_, rfl, ⟨rfl, rfl, rfl⟩, ?_, rfl, rfl,
        rfl⟩
      · simp only [FsmSt.applyAll, FsmOp.apply, Option.bind_some, Option.bind_eq_some_iff] at hf1
        obtain ⟨f2, hf2, hf3⟩ := hf1
        simp only [Option.some.injEq] at hf3
        subst hf3
        congr 1
        simp only [FsmSt.add, FsmSt.gotoNext, FsmSt.setIndex, FsmSt.addKw, FsmSt.addStatement,
          FsmSt.addStatement1, FsmSt.goto] at hf2
        simp only [Kwargs.hasArgs, Option.isSome_none, Bool.or_self, Bool.not_false, Bool.and_true,
          Bool.false_eq_true, if_false, Option.getD_none, if_true, List.foldl_cons, List.foldl_nil,
          Option.some.injEq] at hf2
        rw [← hf2]
        rfl
      · simp [FsmSt.gotoNext, FsmSt.setIndex, FsmSt.goto, hf.1]
    have pf := push_fields g 0 (f.cur + 1)
        (.plain (.subst (MutexSt.resultReg tmp) (Expr.band1 (.var m.lockReg.name)
          (m.isMine (ids'.idxOf f.name)))))
    refine ⟨⟨rfl, rfl, e4, e3, by simpa using hsmall, a1, a2, a3, a4, ⟨_, ?_, hq⟩, ?_, ?_, ?_,
      ⟨_, ?_, ?_, hf1'⟩⟩, ?_, ?_, ?_⟩
    · intro op hop
      simp only [List.mem_cons, List.not_mem_nil, or_false] at hop
      rcases hop with rfl | rfl
      · trivial
      · intro c hc r hr
        simp only [List.mem_cons, List.not_mem_nil, or_false] at hc
        rcases hc with rfl | rfl <;> (simp only [Code.targets, List.mem_singleton] at hr; subst hr; rfl)
    · rw [hg1]; exact pf.1.trans hg2
    · rw [hg1]; exact ⟨rfl, rfl, rfl⟩
    · rw [hg1]
      simp [FsmSt.gotoNext, FsmSt.setIndex, FsmSt.goto, pf, hg3.1, hg4, hg5, Site.jumps, (push_idle g hg3 0 (f.cur + 1) _).1]
    · intro op hop
      simp only [List.mem_cons, List.not_mem_nil, or_false] at hop
      rcases hop with rfl | rfl | rfl
      · trivial
      · intro c hc r hr
        simp only [List.mem_cons, List.not_mem_nil, or_false] at hc
        subst hc
        simp only [Code.targets, List.mem_singleton] at hr; subst hr; rfl
      · trivial
    · intro op hop x hx
      simp only [List.mem_cons, List.not_mem_nil, or_false] at hop
      rcases hop with rfl | rfl | rfl
      · exact hx.elim
      · obtain ⟨c, hc, r, hr, rfl⟩ := hx
        simp only [List.mem_cons, List.not_mem_nil, or_false] at hc
        subst hc
        simp only [Code.targets, List.mem_singleton] at hr; subst hr
        exact ⟨tmp, rfl, rfl⟩
      · exact hx.elim
    · rw [hg1]; exact pf.2.2.1.trans hg7
    · rw [hg1]
      refine ⟨((0, f.cur + 1), .plain (.subst (MutexSt.resultReg tmp)
        (Expr.band1 (.var m.lockReg.name) (m.isMine (ids'.idxOf f.name))))), ?_,
        MutexSt.resultReg tmp, by simp [Item.code, Code.targets], rfl⟩
      show _ ∈ (g.push _ _ _).code
      rw [pf.2.2.2.1]
      simp
    · intro d i env x
      rw [hg1]
      have k1 := keyTrace_push g 0 (f.cur + 1) (.plain (.subst (MutexSt.resultReg tmp)
        (Expr.band1 (.var m.lockReg.name) (m.isMine (ids'.idxOf f.name))))) d i env x
      rw [keyTrace_congr hg6 d i env x] at k1
      refine (show _ = (g.push _ _ _).keyTrace d i env x from rfl).trans (k1.trans ?_)
      congr 1
      by_cases h1 : (0, f.cur + 1) = (d, i)
      · rw [if_pos h1]
        by_cases h2 : x = .user tmp
        · rw [if_pos ⟨h1, h2⟩, h2]
          simp [Item.code, Code.trace, MutexSt.resultReg, Reg.wrap, Site.own]
          rfl
        · rw [if_neg fun h => h2 h.2]
          simp only [Item.code, Code.trace, MutexSt.resultReg]
          rw [if_neg fun h => h2 h.symm]
      · rw [if_neg h1, if_neg fun h => h1 h.1]

end Hdl
