import Verif.Lemmas.Mutex

/-! The shape of every design that can be built with a mutex. -/

namespace Hdl

open FsmSt

/-- The jumps out of `i` among a list. -/
def fromState (l : List (Nat × Jump)) (i : Nat) : List Jump :=
  l.filterMap fun e => if e.1 = i then some e.2 else none

structure SysInv (name : String) (width fw : Nat) (tmps : List String) (s : Sys) : Prop where
  mname : s.mx.name = name
  mwidth : s.mx.width = width
  seqReach : SeqSt.Reach name s.mx.seq
  seqIdle : s.mx.seq.Idle
  delayed : s.mx.seq.delayed = []
  body : s.mx.seq.body.map Item.code = s.sites.map (Site.code s.mx)
  reach : ∀ n, FsmSt.Reach n fw (s.th n)
  ids : ∀ c ∈ s.sites, c.th ∈ s.mx.ids ∧ s.mx.ids.idxOf c.th ≤ 2 ^ width - 1
  jumps : ∀ c ∈ s.sites, ∀ i, (fromState (Site.jumps s.mx c) i).Sublist ((s.th c.th).jumpsFrom i)
  unused : ∀ tmp ∈ tmps, (∀ c ∈ s.sites, c.kind ≠ .tryLock tmp) → ∀ n env,
    traceL (s.th n).seq.makeCode env (.user tmp) = [] ∧
    ∀ d i, (s.th n).keyTrace d i env (.user tmp) = []
  used : ∀ c ∈ s.sites, ∀ tmp, c.kind = .tryLock tmp → tmp ∈ tmps ∧
    (s.th c.th).Drives (.user tmp) ∧ ∀ env,
    traceL (s.th c.th).seq.makeCode env (.user tmp) = [] ∧
    ∀ d i, (s.th c.th).keyTrace d i env (.user tmp) =
      if (0, c.st + 1) = (d, i) then [(Site.own s.mx c).eval env % 2] else []

theorem user_fgenBy (n x : String) : (Var.user x).fgenBy n = false := rfl

theorem Site.congr {m m' : MutexSt} (h1 : m'.name = m.name) (h2 : m'.width = m.width)
    (h3 : ∃ l, m'.ids = m.ids ++ l) {c : Site} (hc : c.th ∈ m.ids) :
    Site.code m' c = Site.code m c ∧ Site.jumps m' c = Site.jumps m c ∧
    Site.own m' c = Site.own m c := by
  obtain ⟨l, hl⟩ := h3
  have e : m'.ids.idxOf c.th = m.ids.idxOf c.th := by rw [hl, idxOf_prefix hc]
  have e1 : m'.lockReg = m.lockReg := by simp [MutexSt.lockReg, h1]
  have e2 : m'.lockId = m.lockId := by simp [MutexSt.lockId, h1, h2]
  refine ⟨?_, ?_, ?_⟩
  · unfold Site.code
    simp only [e, e1, e2, MutexSt.isMine, MutexSt.isFree]
  · unfold Site.jumps
    simp only [e, e1, e2, MutexSt.isMine, MutexSt.isFree]
  · unfold Site.own
    simp only [e, e1, e2, MutexSt.isMine]

theorem SysInv.fresh (name : String) (width fw : Nat) (tmps : List String) :
    SysInv name width fw tmps ⟨MutexSt.fresh name width, fun n => FsmSt.fresh n fw, []⟩ := by
  refine ⟨rfl, rfl, ⟨[], by simp, rfl⟩, ⟨rfl, rfl, rfl⟩, rfl, rfl, fun n => ⟨[], by simp, rfl⟩,
    by simp, by simp, ?_, by simp⟩
  intro tmp _ _ n env
  refine ⟨rfl, fun d i => rfl⟩

/-- A change of one thread that keeps its jumps and the code for the result registers. -/
theorem SysInv.step {name : String} {width fw : Nat} {tmps : List String} {s : Sys}
    (h : SysInv name width fw tmps s) (n : String) {f : FsmSt} (ops : List FsmOp)
    (hok : ∀ op ∈ ops, op.Ok n) (hm : ∀ op ∈ ops, ∀ tmp ∈ tmps, ¬ op.mentions (.user tmp))
    (hf : (s.th n).applyAll ops = some f) :
    SysInv name width fw tmps { s with th := Function.update s.th n f } := by
  have hr := h.reach n
  have hn := hr.name_eq
  have hsame : ∀ tmp ∈ tmps, Same (.user tmp) (s.th n) f := fun tmp ht =>
    applyAll_same hr.inv ops (by rw [hn]; exact hok) (user_fgenBy _ _)
      (fun op ho => hm op ho tmp ht) hf
  have hgood : Good (s.th n) f := .applyAll hr.inv ops (by rw [hn]; exact hok) hf
  refine ⟨h.mname, h.mwidth, h.seqReach, h.seqIdle, h.delayed, h.body, ?_, h.ids, ?_, ?_, ?_⟩
  · intro k
    by_cases hk : k = n
    · subst hk; simpa using hr.append ops hok hf
    · simpa [hk] using h.reach k
  · intro c hc i
    by_cases hk : c.th = n
    · have := h.jumps c hc i
      rw [hk] at this
      obtain ⟨extra, he⟩ := applyAll_grows hf
      simp only [hk, Function.update_self]
      rw [jumpsFrom_append he]
      exact this.trans (List.sublist_append_left _ _)
    · simpa [hk] using h.jumps c hc i
  · intro tmp ht hc k env
    by_cases hk : k = n
    · subst hk
      have := h.unused tmp ht hc k env
      simp only [Function.update_self]
      exact ⟨((hsame tmp ht).seq env).trans this.1, fun d i => ((hsame tmp ht).key d i env).trans (this.2 d i)⟩
    · simpa [hk] using h.unused tmp ht hc k env
  · intro c hc tmp ht
    by_cases hk : c.th = n
    · have := h.used c hc tmp ht
      rw [hk] at this
      simp only [hk, Function.update_self]
      have hs := hsame tmp this.1
      exact ⟨this.1, hgood.drives _ this.2.1, fun env => ⟨(hs.seq env).trans (this.2.2 env).1,
        fun d i => (hs.key d i env).trans ((this.2.2 env).2 d i)⟩⟩
    · simpa [hk] using h.used c hc tmp ht

/-- A call of the mutex. -/
theorem SysInv.call {name : String} {width fw : Nat} {tmps : List String} {s : Sys}
    (h : SysInv name width fw tmps s) (n : String) (kind : CallKind) {m : MutexSt} {f : FsmSt}
    (e : CallEff kind s.mx m (s.th n) f)
    (hnew : ∀ tmp, kind = .tryLock tmp → tmp ∈ tmps ∧ (∀ c ∈ s.sites, c.kind ≠ .tryLock tmp) ∧
      f.seq = (s.th n).seq ∧ f.Drives (.user tmp) ∧
      ∀ d i env x, f.keyTrace d i env x = (s.th n).keyTrace d i env x ++
        if (0, (s.th n).cur + 1) = (d, i) ∧ x = .user tmp then
          [(Site.own m ⟨.tryLock tmp, (s.th n).name, (s.th n).cur⟩).eval env % 2] else []) :
    SysInv name width fw tmps
      ⟨m, Function.update s.th n f, s.sites ++ [⟨kind, n, (s.th n).cur⟩]⟩ := by
  have hr := h.reach n
  have hn := hr.name_eq
  obtain ⟨ops, hok, hment, hf⟩ := e.fops
  rw [hn] at hok
  obtain ⟨sops, hsok, hsf⟩ := e.seqOps
  have hgood : Good (s.th n) f := .applyAll hr.inv ops (by rw [hn]; exact hok) hf
  have hsame : ∀ tmp, kind ≠ .tryLock tmp → Same (.user tmp) (s.th n) f := fun tmp ht =>
    applyAll_same hr.inv ops (by rw [hn]; exact hok) (user_fgenBy _ _)
      (fun op ho hx => by
        obtain ⟨tmp', h1, h2⟩ := hment op ho _ hx
        simp only [Var.user.injEq] at h2
        subst h2
        exact ht h1) hf
  have hcongr : ∀ c ∈ s.sites, _ := fun c hc =>
    Site.congr (m := s.mx) (m' := m) e.mname e.mwidth e.ids (h.ids c hc).1
  refine ⟨e.mname.trans h.mname, e.mwidth.trans h.mwidth, h.seqReach.append sops ?_ hsf, e.idle,
    e.delayed.trans h.delayed, ?_, ?_, ?_, ?_, ?_, ?_⟩
  · rw [h.seqReach.name_eq] at hsok; exact hsok
  · rw [e.body, h.body, List.map_append]
    congr 1
    · exact List.map_congr_left fun c hc => (hcongr c hc).1.symm
    · simp [hn]
  · intro k
    by_cases hk : k = n
    · subst hk; simpa using hr.append ops hok hf
    · simpa [hk] using h.reach k
  · intro c hc
    simp only [List.mem_append, List.mem_singleton] at hc
    rcases hc with hc | rfl
    · have := h.ids c hc
      obtain ⟨l, hl⟩ := e.ids
      simp only [hl]
      exact ⟨by simp [this.1], by rw [idxOf_prefix this.1]; exact this.2⟩
    · have := e.mem
      have hs := e.small
      rw [hn] at this hs
      rw [h.mwidth] at hs
      exact ⟨this, hs⟩
  · intro c hc i
    simp only [List.mem_append, List.mem_singleton] at hc
    have hj := jumpsFrom_append e.jumps i
    rcases hc with hc | rfl
    · have := h.jumps c hc i
      simp only [(hcongr c hc).2.1]
      by_cases hk : c.th = n
      · rw [hk] at this
        simp only [hk, Function.update_self]
        rw [hj]
        exact this.trans (List.sublist_append_left _ _)
      · simpa [hk] using this
    · simp only [Function.update_self]
      rw [hj, hn]
      exact List.sublist_append_right _ _
  · intro tmp ht hc k env
    have hk1 : kind ≠ .tryLock tmp := hc ⟨kind, n, (s.th n).cur⟩ (by simp)
    have hc' : ∀ c ∈ s.sites, c.kind ≠ .tryLock tmp := fun c hm => hc c (by simp [hm])
    by_cases hk : k = n
    · subst hk
      have := h.unused tmp ht hc' k env
      simp only [Function.update_self]
      exact ⟨((hsame tmp hk1).seq env).trans this.1,
        fun d i => ((hsame tmp hk1).key d i env).trans (this.2 d i)⟩
    · simpa [hk] using h.unused tmp ht hc' k env
  · intro c hc tmp ht
    simp only [List.mem_append, List.mem_singleton] at hc
    rcases hc with hc | rfl
    · have hu := h.used c hc tmp ht
      have hk1 : kind ≠ .tryLock tmp := fun hk => (hnew tmp hk).2.1 c hc ht
      simp only [(hcongr c hc).2.2]
      by_cases hk : c.th = n
      · rw [hk] at hu
        simp only [hk, Function.update_self]
        have hs := hsame tmp hk1
        exact ⟨hu.1, hgood.drives _ hu.2.1, fun env => ⟨(hs.seq env).trans (hu.2.2 env).1,
          fun d i => (hs.key d i env).trans ((hu.2.2 env).2 d i)⟩⟩
      · simpa [hk] using hu
    · obtain ⟨h1, h2, h3, h4, h5⟩ := hnew tmp ht
      simp only at ht
      subst ht
      simp only [Function.update_self]
      refine ⟨h1, h4, fun env => ?_⟩
      have hu := h.unused tmp h1 h2 n env
      refine ⟨by rw [h3]; exact hu.1, fun d i => ?_⟩
      rw [h5, hu.2 d i, hn, List.nil_append]
      by_cases hd : (0, (s.th n).cur + 1) = (d, i)
      · rw [if_pos ⟨hd, rfl⟩, if_pos hd]
      · rw [if_neg fun hh => hd hh.1, if_neg hd]

theorem Built.inv {name : String} {width fw : Nat} {tmps : List String} {s : Sys}
    (h : Built name width fw tmps s) : SysInv name width fw tmps s := by
  induction h with
  | fresh => exact .fresh _ _ _ _
  | fsm n op h hok htmp hf ih =>
    exact ih.step n [op] (by simpa using hok) (by simpa using htmp) (by simp [FsmSt.applyAll, hf])
  | lock n h hidle hf ih =>
    exact ih.call n .lock (lock_eff ih.seqIdle hidle hf) (by simp)
  | unlock n h hidle hf ih =>
    exact ih.call n .unlock (unlock_eff ih.seqIdle hidle hf) (by simp)
  | tryLock n tmp h hidle hmem hnew hf ih =>
    obtain ⟨e, h1, h2, h3⟩ := tryLock_eff ih.seqIdle hidle hf
    refine ih.call n (.tryLock tmp) e ?_
    intro tmp' ht
    simp only [CallKind.tryLock.injEq] at ht
    subst ht
    exact ⟨hmem, hnew, h1, h2, h3⟩

end Hdl
