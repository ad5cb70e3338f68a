import Verif.Lemmas.MutexRun

/-! Designs with a barrier: what the calls of `wait` leave in the builders. -/

namespace Hdl

open FsmSt

/-- One call of `wait`: the thread (name of its FSM) and the state number at the call. -/
structure Wait where
  th : String
  st : Nat
  deriving DecidableEq

/-- A barrier and the FSMs of all threads; `waits` records the calls of `wait`, in order. -/
structure BSys where
  b : BarrierSt
  th : String → FsmSt
  waits : List Wait

/-- The designs that can be built with one barrier: any sequence of calls on the FSMs of the threads
    and of `wait`.  The user's statements assign no FSM-generated register; `wait` is called when no
    `If`, `Delay`, ... of the thread's FSM is pending. -/
inductive BBuilt (name : String) (parties fw : Nat) : BSys → Prop
  | fresh {b : BarrierSt} (h : BarrierSt.fresh name parties = some b) :
      BBuilt name parties fw ⟨b, fun n => FsmSt.fresh n fw, []⟩
  | fsm {s : BSys} (n : String) (op : FsmOp) {f : FsmSt} (h : BBuilt name parties fw s)
      (hok : op.Ok n) (hf : op.apply (s.th n) = some f) :
      BBuilt name parties fw { s with th := Function.update s.th n f }
  | wait {s : BSys} (n : String) {b : BarrierSt} {f : FsmSt} (h : BBuilt name parties fw s)
      (hidle : (s.th n).Idle) (hf : s.b.wait (s.th n) = some (b, f)) :
      BBuilt name parties fw ⟨b, Function.update s.th n f, s.waits ++ [⟨n, (s.th n).cur⟩]⟩

/-- The mutex calls of a `wait`. -/
def Wait.sites (w : Wait) : List Site := [⟨.lock, w.th, w.st⟩, ⟨.unlock, w.th, w.st + 3⟩]

/-- The mutex of the barrier and its callers. -/
def BSys.sys (s : BSys) : Sys := ⟨s.b.mutex, s.th, s.waits.flatMap Wait.sites⟩

/-- The other jumps of a `wait`. -/
def Wait.jumps (name : String) (w : Wait) : List (Nat × Jump) :=
  [(w.st + 2, ⟨w.st + 3, none, none⟩),
   (w.st + 4, ⟨w.st + 5, some (.var (BarrierSt.doneReg name).name), none⟩)]

/-- The statement a `wait` leaves in the `Seq` of the barrier. -/
def Wait.code (name : String) (parties : Nat) (w : Wait) : Code :=
  .ite (.eqInt (.state w.th) (w.st + 2 : Nat))
    (.block [.subst (BarrierSt.countReg name parties)
      (.fn fun env => env (BarrierSt.countReg name parties).name + 1)]) .skip

/-- The statements of the constructor. -/
def barrierBase (name : String) (parties : Nat) : List Code :=
  [.subst (BarrierSt.doneReg name) (.int 0),
   .ite (.eqInt (BarrierSt.countReg name parties).name parties)
     (.block [.subst (BarrierSt.countReg name parties) (.int 0),
       .subst (BarrierSt.doneReg name) (.int 1)]) .skip]

structure BInv (name : String) (parties fw : Nat) (s : BSys) : Prop where
  bname : s.b.name = name
  bparties : s.b.parties = parties
  built : Built ("_" ++ name ++ "_barrier_mutex") 32 fw [] s.sys
  seqReach : SeqSt.Reach name s.b.seq
  seqIdle : s.b.seq.Idle
  delayed : s.b.seq.delayed = []
  body : s.b.seq.body.map Item.code =
    barrierBase name parties ++ s.waits.map (Wait.code name parties)
  jumps : ∀ w ∈ s.waits, ∀ i, (fromState (w.jumps name) i).Sublist ((s.th w.th).jumpsFrom i)

theorem lock_cur {m m' : MutexSt} {f f' : FsmSt} (h : m.lock f = some (m', f')) :
    f'.cur = f.cur + 2 := by
  simp only [MutexSt.lock] at h
  split at h
  · simp at h
  · simp only [Option.bind_eq_some_iff, Option.map_eq_some_iff, Prod.mk.injEq] at h
    obtain ⟨q, hq, f1, hf1, rfl, rfl⟩ := h
    simp only [FsmSt.applyAll, FsmOp.apply, FsmSt.iff, makeCond, FsmSt.goto, FsmSt.gotoNext,
      FsmSt.setIndex, Option.bind_some, Option.some.injEq] at hf1
    subst hf1
    rfl

theorem unlock_cur {m m' : MutexSt} {f f' : FsmSt} (h : m.unlock f = some (m', f')) :
    f'.cur = f.cur + 1 := by
  simp only [MutexSt.unlock] at h
  split at h
  · simp at h
  · simp only [Option.bind_eq_some_iff, Option.map_eq_some_iff, Prod.mk.injEq] at h
    obtain ⟨q, hq, f1, hf1, rfl, rfl⟩ := h
    simp only [FsmSt.applyAll, FsmOp.apply, FsmSt.goto, FsmSt.gotoNext,
      FsmSt.setIndex, Option.bind_some, Option.some.injEq] at hf1
    subst hf1
    rfl

theorem iff_add1_code (s : SeqSt) (h : s.Idle) (c : Expr) (stmts : List Code) (q : SeqSt)
    (hq : s.applyAll [.iff [c], .add stmts] = some q) :
    q.name = s.name ∧ q.Idle ∧ q.delayed = s.delayed ∧
    q.body.map Item.code = s.body.map Item.code ++ [.ite c (.block stmts) .skip] := by
  obtain ⟨s1, h1, hn, hd, hb, hv, hi⟩ := SeqSt.iff_add s h c [] stmts
  rw [h1] at hq
  simp only [Option.some.injEq] at hq
  subst hq
  have f := SeqSt.addDst_fields { s1 with body := s1.body ++
    [.chain [(([] : List Expr).foldl Expr.and c, Code.block stmts)] none] }
    (Item.chain [(([] : List Expr).foldl Expr.and c, Code.block stmts)] none).code.targets
  refine ⟨f.1.trans hn, ⟨?_, ?_, ?_⟩, f.2.1.trans hd, ?_⟩
  · exact f.2.2.2.2.2.2.2.2.1.trans hi.1
  · exact f.2.2.2.2.2.2.2.2.2.1.trans hi.2.1
  · exact f.2.2.2.2.2.2.2.2.2.2.1.trans hi.2.2
  · show (SeqSt.addDst _ _).body.map _ = _
    rw [f.2.2.1]
    simp [hb, Item.code, chainCode]

theorem add1_code (s : SeqSt) (h : s.Idle) (c : Code) (q : SeqSt)
    (hq : s.applyAll [.add [c]] = some q) :
    q.name = s.name ∧ q.Idle ∧ q.delayed = s.delayed ∧
    q.body.map Item.code = s.body.map Item.code ++ [c] := by
  obtain ⟨s1, h1, hn, hd, hb, hv, -, -, -, -, hi⟩ := SeqSt.addCalls_kw s h [] 0 false false [c]
  have h1' : s.applyAll [.add [c]] = some (s1.pushBody (.plain c)) := h1
  rw [h1'] at hq
  simp only [Option.some.injEq] at hq
  subst hq
  have f := SeqSt.addDst_fields { s1 with body := s1.body ++ [.plain c] } (Item.plain c).code.targets
  refine ⟨f.1.trans hn, ⟨?_, ?_, ?_⟩, f.2.1.trans hd, ?_⟩
  · exact f.2.2.2.2.2.2.2.2.1.trans hi.1
  · exact f.2.2.2.2.2.2.2.2.2.1.trans hi.2.1
  · exact f.2.2.2.2.2.2.2.2.2.2.1.trans hi.2.2
  · show (SeqSt.addDst _ _).body.map _ = _
    rw [f.2.2.1]
    simp [hb, Item.code]

theorem BInv.fresh {name : String} {parties fw : Nat} {b : BarrierSt}
    (h : BarrierSt.fresh name parties = some b) :
    BInv name parties fw ⟨b, fun n => FsmSt.fresh n fw, []⟩ := by
  simp only [BarrierSt.fresh, Option.map_eq_some_iff] at h
  obtain ⟨q, hq, rfl⟩ := h
  have hq' := hq
  simp only [SeqSt.applyAll, Option.bind_eq_some_iff] at hq
  obtain ⟨q1, h1, q2, h2, q3, h3, h4⟩ := hq
  obtain ⟨a1, a2, a3, a4⟩ := add1_code (SeqSt.fresh name) ⟨rfl, rfl, rfl⟩
    (.subst (BarrierSt.doneReg name) (.int 0)) q1 (by simp [SeqSt.applyAll, h1])
  obtain ⟨b1, b2, b3, b4⟩ := iff_add1_code q1 a2 _ _ q
    (by simp only [SeqSt.applyAll, Option.bind_eq_some_iff]; exact ⟨q2, h2, q3, h3, h4⟩)
  refine ⟨rfl, rfl, .fresh, ⟨_, ?_, hq'⟩, b2, b3.trans a3, ?_, by simp⟩
  · intro op hop
    simp only [List.mem_cons, List.not_mem_nil, or_false] at hop
    rcases hop with rfl | rfl | rfl
    · intro c hc r hr
      simp only [List.mem_cons, List.not_mem_nil, or_false] at hc
      subst hc
      simp only [Code.targets, List.mem_singleton] at hr; subst hr; rfl
    · trivial
    · intro c hc r hr
      simp only [List.mem_cons, List.not_mem_nil, or_false] at hc
      rcases hc with rfl | rfl <;>
        (simp only [Code.targets, List.mem_singleton] at hr; subst hr; rfl)
  · rw [b4, a4]
    rfl

theorem BBuilt.inv {name : String} {parties fw : Nat} {s : BSys} (h : BBuilt name parties fw s) :
    BInv name parties fw s := by
  induction h with
  | fresh h => exact .fresh h
  | @fsm s n op f h hok hf ih =>
    refine ⟨ih.bname, ih.bparties, ?_, ih.seqReach, ih.seqIdle, ih.delayed, ih.body, ?_⟩
    · exact Built.fsm n op ih.built hok (by simp) hf
    · intro w hw i
      by_cases hk : w.th = n
      · have := ih.jumps w hw i
        rw [hk] at this
        obtain ⟨extra, he⟩ := apply_grows hf
        simp only [hk, Function.update_self]
        rw [jumpsFrom_append he]
        exact this.trans (List.sublist_append_left _ _)
      · simpa [hk] using ih.jumps w hw i
  | @wait s n b f h hidle hf ih =>
    have hinv := ih.built.inv
    have hn : (s.th n).name = n := (hinv.reach n).name_eq
    simp only [BarrierSt.wait, Option.bind_eq_some_iff, Option.map_eq_some_iff, Prod.exists,
      Prod.mk.injEq] at hf
    obtain ⟨m1, f1, hl, q, hq, f2, hf2, m2, f3, hu, f4, hf4, rfl, rfl⟩ := hf
    have hf2' := hf2
    have hf4' := hf4
    have el := lock_eff hinv.seqIdle hidle hl
    have cl := lock_cur hl
    obtain ⟨q1, q2, q3, q4⟩ := iff_add1_code s.b.seq ih.seqIdle _ _ q hq
    simp only [FsmSt.applyAll, FsmOp.apply, FsmSt.goto, FsmSt.gotoNext,
      FsmSt.setIndex, Option.bind_some, Option.some.injEq] at hf2
    have i2 : f2.Idle := by subst hf2; exact ⟨rfl, rfl, rfl⟩
    have c2 : f2.cur = (s.th n).cur + 3 := by subst hf2; simp [cl]
    have n2 : f2.name = n := by subst hf2; exact el.fname.trans hn
    have j2 : f2.jumps = f1.jumps ++ [((s.th n).cur + 2, ⟨(s.th n).cur + 3, none, none⟩)] := by
      subst hf2
      simp [cl, el.fidle.1]
    have eu := unlock_eff el.idle i2 hu
    have cu := unlock_cur hu
    simp only [FsmSt.applyAll, FsmOp.apply, FsmSt.iff, makeCond, FsmSt.goto, FsmSt.gotoNext,
      FsmSt.setIndex, Option.bind_some, Option.some.injEq] at hf4
    have j4 : f4.jumps = f3.jumps ++ [((s.th n).cur + 4, ⟨(s.th n).cur + 5,
        some (.var (BarrierSt.doneReg name).name), none⟩)] := by
      subst hf4
      simp [cu, c2, eu.fidle.1, ih.bname]
    -- the mutex calls
    have B1 : Built ("_" ++ name ++ "_barrier_mutex") 32 fw []
        ⟨m1, Function.update s.th n f1, s.sys.sites ++ [⟨.lock, n, (s.th n).cur⟩]⟩ :=
      Built.lock n ih.built hidle hl
    have B2 := Built.fsm (f := f2) n (.gotoNext none) B1 trivial (by simp) (by
      simp only [Function.update_self]
      simpa [FsmSt.applyAll] using hf2')
    simp only [Function.update_idem] at B2
    have B3 := Built.unlock (m := m2) (f := f3) n B2 (by simpa using i2) (by simpa using hu)
    simp only [Function.update_idem, Function.update_self, c2] at B3
    obtain ⟨g, hg1, hg2⟩ : ∃ g, (FsmOp.iff [.var (BarrierSt.doneReg s.b.name).name]).apply f3 =
        some g ∧ (FsmOp.gotoNext none).apply g = some f4 := ⟨_, rfl, by
      simpa [FsmSt.applyAll, FsmOp.apply] using hf4'⟩
    have B4 := Built.fsm (f := g) n (.iff [.var (BarrierSt.doneReg s.b.name).name]) B3 trivial (by simp) (by simpa using hg1)
    simp only [Function.update_idem] at B4
    have B5 := Built.fsm (f := f4) n (.gotoNext none) B4 trivial (by simp) (by simpa using hg2)
    simp only [Function.update_idem] at B5
    refine ⟨ih.bname, ih.bparties, ?_, ih.seqReach.append _ ?_ hq, q2, q3.trans ih.delayed, ?_, ?_⟩
    · have e : BSys.sys ⟨{ s.b with seq := q, mutex := m2 }, Function.update s.th n f4,
          s.waits ++ [⟨n, (s.th n).cur⟩]⟩ = ⟨m2, Function.update s.th n f4,
          s.sys.sites ++ [⟨.lock, n, (s.th n).cur⟩] ++ [⟨.unlock, n, (s.th n).cur + 3⟩]⟩ := by
        simp [BSys.sys, Wait.sites]
      rw [e]
      exact B5
    · intro op hop
      simp only [List.mem_cons, List.not_mem_nil, or_false] at hop
      rcases hop with rfl | rfl
      · trivial
      · intro c hc r hr
        simp only [List.mem_cons, List.not_mem_nil, or_false] at hc
        subst hc
        simp only [BarrierSt.incCount, Code.targets, List.mem_singleton] at hr; subst hr; rfl
    · show q.body.map Item.code = _
      rw [q4, ih.body, List.map_append, List.append_assoc]
      congr 2
      simp [Wait.code, BarrierSt.incCount, ih.bname, ih.bparties, FsmSt.inState, el.fname, hn, cl]
    · have jall : f4.jumps = (s.th n).jumps ++ (Site.jumps m1 ⟨.lock, (s.th n).name, (s.th n).cur⟩ ++
          [((s.th n).cur + 2, ⟨(s.th n).cur + 3, none, none⟩)] ++
          Site.jumps m2 ⟨.unlock, f2.name, f2.cur⟩ ++ [((s.th n).cur + 4, ⟨(s.th n).cur + 5,
            some (.var (BarrierSt.doneReg name).name), none⟩)]) := by
        rw [j4, eu.jumps, j2, el.jumps]
        simp
      intro w hw i
      simp only [List.mem_append, List.mem_singleton] at hw
      rcases hw with hw | rfl
      · by_cases hk : w.th = n
        · have := ih.jumps w hw i
          rw [hk] at this
          simp only [hk, Function.update_self]
          rw [jumpsFrom_append jall]
          exact this.trans (List.sublist_append_left _ _)
        · simpa [hk] using ih.jumps w hw i
      · simp only [Function.update_self]
        rw [jumpsFrom_append jall]
        refine List.Sublist.trans ?_ (List.sublist_append_right _ _)
        refine List.Sublist.filterMap _ ?_
        have key : ∀ (a c : List (Nat × Jump)) (x y : Nat × Jump),
            [x, y].Sublist (a ++ [x] ++ c ++ [y]) := by
          intro a c x y
          have h1 : [x].Sublist (a ++ [x] ++ c) :=
            (List.sublist_append_right _ _).trans (List.sublist_append_left _ _)
          exact h1.append (List.Sublist.refl [y])
        exact key _ _ _ _

end Hdl
