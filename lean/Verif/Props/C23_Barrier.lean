import Verif.Lemmas.BarrierRun
import Verif.Props.C15_FsmReset

/-!
# C23: the barrier
-/

namespace Hdl

open FsmSt

namespace BSys

/-- The state after reset. -/
structure Init (s : BSys) (env : Env) : Prop where
  state : ∀ w ∈ s.waits, env (.state w.th) = 0
  count : s.count env = 0
  done : s.done env = 0
  free : s.sys.Free env

/-- At edge `t` thread `n` returns from a `wait`. -/
def Returns (s : BSys) (E : Nat → Env) (n : String) (t : Nat) : Prop :=
  ∃ w ∈ s.waits, w.th = n ∧ E t (.state n) = ((w.st + 4 : Nat) : Int) ∧
    E (t + 1) (.state n) = ((w.st + 5 : Nat) : Int)

/-- Thread `n` is executing a `wait`. -/
def Waiting (s : BSys) (n : String) (env : Env) : Prop := ∃ k ≤ 4, s.At k n env

/-- The thread has been counted. -/
def Counted (s : BSys) (n : String) (env : Env) : Prop := s.At 3 n env ∨ s.At 4 n env

instance (s : BSys) (n : String) (env : Env) : Decidable (s.Counted n env) := by
  unfold Counted; infer_instance

/-- The number of counted threads. -/
def counted (s : BSys) (ths : List String) (env : Env) : Nat :=
  ths.countP fun n => decide (s.Counted n env)

structure Ok (s : BSys) (ths : List String) (env : Env) : Prop where
  nat : ∀ w ∈ s.waits, ∃ i : Nat, env (.state w.th) = (i : Int)
  own : ∀ n, s.At 2 n env ∨ s.At 3 n env → s.sys.Owns n env
  lock : s.sys.reg env ≠ 0 → ∃ n, (s.At 1 n env ∨ s.At 2 n env ∨ s.At 3 n env) ∧ s.sys.Owns n env
  cnt : (s.done env = 0 ∧ s.count env = (s.counted ths env : Int)) ∨
    (s.done env = 1 ∧ s.count env = 0 ∧ ∀ n ∈ ths, s.At 4 n env)

end BSys

section

variable {name : String} {parties fw : Nat} {s : BSys} {ths : List String} {rst : Expr}
  {uc : String → Bool} {E : Nat → Env}

theorem BInv.fwd2 (h : BInv name parties fw s) (hc : s.Clean ths) (hE : s.Exec rst uc E) (t : Nat)
    (hr : rst.truthy (E t) = false) {n : String} (ha : s.At 2 n (E t)) : s.At 3 n (E (t + 1)) := by
  obtain ⟨w, hw, rfl, hst⟩ := ha
  exact ⟨w, hw, rfl, (h.steps hc hE hw t hr).2.2.1 hst⟩

theorem BInv.fwd3 (h : BInv name parties fw s) (hc : s.Clean ths) (hE : s.Exec rst uc E) (t : Nat)
    (hr : rst.truthy (E t) = false) {n : String} (ha : s.At 3 n (E t)) : s.At 4 n (E (t + 1)) := by
  obtain ⟨w, hw, rfl, hst⟩ := ha
  exact ⟨w, hw, rfl, (h.steps hc hE hw t hr).2.2.2.1 hst⟩

theorem BInv.fwd4 (h : BInv name parties fw s) (hc : s.Clean ths) (hE : s.Exec rst uc E) (t : Nat)
    (hr : rst.truthy (E t) = false) {n : String} (ha : s.At 4 n (E t)) (hd : s.done (E t) = 0) :
    s.At 4 n (E (t + 1)) := by
  obtain ⟨w, hw, rfl, hst⟩ := ha
  refine ⟨w, hw, rfl, ?_⟩
  rw [(h.steps hc hE hw t hr).2.2.2.2 hst, if_neg (by simp [hd])]

/-- Where a thread in one of the later states of `wait` comes from. -/
theorem BInv.bwd (h : BInv name parties fw s) (hc : s.Clean ths) (hE : s.Exec rst uc E) (t : Nat)
    (hr : rst.truthy (E t) = false) (hnat : ∀ w ∈ s.waits, ∃ i : Nat, E t (.state w.th) = (i : Int))
    {n : String} :
    (s.At 2 n (E (t + 1)) → s.At 1 n (E t) ∧ s.sys.Owns n (E t)) ∧
    (s.At 3 n (E (t + 1)) → s.At 2 n (E t)) ∧
    (s.At 4 n (E (t + 1)) → s.At 3 n (E t) ∨ (s.At 4 n (E t) ∧ s.done (E t) = 0)) := by
  have key : ∀ k, 2 ≤ k → k ≤ 4 → s.At k n (E (t + 1)) →
      (k = 2 ∧ s.At 1 n (E t) ∧ s.sys.Owns n (E t)) ∨ (k = 3 ∧ s.At 2 n (E t)) ∨
      (k = 4 ∧ (s.At 3 n (E t) ∨ (s.At 4 n (E t) ∧ s.done (E t) = 0))) := by
    rintro k h2 h4 ⟨w, hw, rfl, hst⟩
    obtain ⟨i, hi⟩ := hnat w hw
    obtain ⟨k', hk', hst'⟩ := h.back hc hE hw t hr hi (by omega) h4 hst
    obtain ⟨s0, s1, s2, s3, s4⟩ := h.steps hc hE hw t hr
    have hcase : k' = 0 ∨ k' = 1 ∨ k' = 2 ∨ k' = 3 ∨ k' = 4 := by omega
    rcases hcase with rfl | rfl | rfl | rfl | rfl
    · have := s0 hst'
      rw [hst] at this
      split at this <;> omega
    · have := s1 hst'
      rw [hst] at this
      split at this
      · rename_i ho
        exact Or.inl ⟨by omega, ⟨w, hw, rfl, hst'⟩, ho⟩
      · omega
    · have := s2 hst'
      rw [hst] at this
      exact Or.inr (Or.inl ⟨by omega, ⟨w, hw, rfl, hst'⟩⟩)
    · have := s3 hst'
      rw [hst] at this
      exact Or.inr (Or.inr ⟨by omega, Or.inl ⟨w, hw, rfl, hst'⟩⟩)
    · have := s4 hst'
      rw [hst] at this
      split at this
      · omega
      · rename_i hd
        exact Or.inr (Or.inr ⟨by omega, Or.inr ⟨⟨w, hw, rfl, hst'⟩, by simpa using hd⟩⟩)
  refine ⟨fun ha => ?_, fun ha => ?_, fun ha => ?_⟩
  · have := key 2 (by decide) (by decide) ha
    simpa using this
  · have := key 3 (by decide) (by decide) ha
    simpa using this
  · have := key 4 (by decide) (by decide) ha
    simpa using this

theorem BSys.At.mem (hc : s.Clean ths) {k : Nat} {n : String} {env : Env} (h : s.At k n env) :
    n ∈ ths := by
  obtain ⟨w, hw, rfl, -⟩ := h
  exact hc.mem w hw

theorem BInv.ids (h : BInv name parties fw s) {k : Nat} {n : String} {env : Env}
    (ha : s.At k n env) : n ∈ s.sys.mx.ids := by
  obtain ⟨w, hw, rfl, -⟩ := ha
  exact (h.built.inv.ids _ (BSys.lock_mem hw)).1

/-- Two threads do not own the mutex. -/
theorem BInv.own_unique (h : BInv name parties fw s) {n m : String} {env : Env} {k k' : Nat}
    (hn : s.At k n env) (hm : s.At k' m env) (h1 : s.sys.Owns n env) (h2 : s.sys.Owns m env) :
    n = m :=
  idxOf_inj (h.ids hn) (h.ids hm) (Int.ofNat_inj.1 (h1.2.symm.trans h2.2))

theorem BInv.unlocking (hc : s.Clean ths) {n : String} {env : Env}
    (hu : s.sys.Unlocking n env) : s.At 3 n env := by
  obtain ⟨c, hm, hk, rfl, hst⟩ := hu
  obtain ⟨w, hw, rfl | rfl⟩ := BSys.of_site hm
  · simp at hk
  · exact ⟨w, hw, rfl, hst⟩

theorem BInv.unlocking' {n : String} {env : Env} (ha : s.At 3 n env) : s.sys.Unlocking n env := by
  obtain ⟨w, hw, rfl, hst⟩ := ha
  exact ⟨_, BSys.unlock_mem hw, rfl, rfl, hst⟩

theorem BInv.trying {n : String} {env : Env} (hu : s.sys.Trying n env) : s.At 0 n env := by
  obtain ⟨c, hm, hk, rfl, hst⟩ := hu
  obtain ⟨w, hw, rfl | rfl⟩ := BSys.of_site hm
  · exact ⟨w, hw, rfl, hst⟩
  · simp at hk

theorem BInv.trying' {n : String} {env : Env} (ha : s.At 0 n env) : s.sys.Trying n env := by
  obtain ⟨w, hw, rfl, hst⟩ := ha
  exact ⟨_, BSys.lock_mem hw, by simp, rfl, hst⟩

/-- Ownership is kept outside the unlock state. -/
theorem BInv.keep (h : BInv name parties fw s) (hc : s.Clean ths) (hE : s.Exec rst uc E) (t : Nat)
    (hr : rst.truthy (E t) = false) {n : String} {k : Nat} (ha : s.At k n (E t)) (hk : k ≤ 4)
    (hk3 : k ≠ 3) (ho : s.sys.Owns n (E t)) : s.sys.Owns n (E (t + 1)) := by
  have ha' := ha
  obtain ⟨w, hw, -, -⟩ := ha'
  exact h.built.inv.keep hE.sys.mutex t hr (h.ids ha) ⟨_, BSys.lock_mem hw, by simp⟩ ho
    fun hu => hk3 (hc.at_unique hk (by decide) ha (BInv.unlocking hc hu))

theorem BInv.counted_le (hc : s.Clean ths) (h : BInv name parties fw s) (env : Env) :
    s.counted ths env ≤ parties := by
  have := List.countP_le_length (p := fun n => decide (s.Counted n env)) (l := ths)
  have hl := hc.len
  rw [h.bparties] at hl
  unfold BSys.counted
  omega

theorem countP_add_one {l : List String} (hl : l.Nodup) {p q : String → Bool} {a : String}
    (ha : a ∈ l) (hp : p a = false) (hq : ∀ n ∈ l, q n = (p n || decide (n = a))) :
    l.countP q = l.countP p + 1 := by
  induction l with
  | nil => simp at ha
  | cons b l ih =>
    rw [List.nodup_cons] at hl
    rw [List.countP_cons, List.countP_cons, hq b (by simp)]
    rcases List.mem_cons.1 ha with rfl | ha
    · have : l.countP q = l.countP p := by
        refine List.countP_congr fun n hn => ?_
        rw [hq n (by simp [hn])]
        have : n ≠ a := fun e => hl.1 (e ▸ hn)
        simp [this]
      rw [this]
      simp [hp]
    · have := ih hl.2 ha fun n hn => hq n (by simp [hn])
      have hne : b ≠ a := fun e => hl.1 (e ▸ ha)
      rw [this]
      simp [hne]
      omega

theorem BInv.ok_step (h : BInv name parties fw s) (hc : s.Clean ths) (hE : s.Exec rst uc E) (t : Nat)
    (hr : rst.truthy (E t) = false) (hwne : s.waits ≠ []) (ok : s.Ok ths (E t)) :
    s.Ok ths (E (t + 1)) := by
  have hi := h.built.inv
  have hcl := h.clean hc
  refine ⟨?_, ?_, ?_, ?_⟩
  · intro w hw
    obtain ⟨i, hi⟩ := ok.nat w hw
    exact h.nat hc hE hw t hr hi
  · intro n hn
    rcases hn with hn | hn
    · obtain ⟨ha, ho⟩ := (h.bwd hc hE t hr ok.nat).1 hn
      exact h.keep hc hE t hr ha (by decide) (by decide) ho
    · have ha := (h.bwd hc hE t hr ok.nat).2.1 hn
      exact h.keep hc hE t hr ha (by decide) (by decide) (ok.own n (Or.inl ha))
  · intro hreg
    by_cases h0 : s.sys.reg (E t) = 0
    · have hnu : ∀ n, ¬ s.sys.Unlocking n (E t) := fun n hu =>
        (ok.own n (Or.inr (BInv.unlocking hc hu))).1 h0
      by_cases ht : ∃ n, s.sys.Trying n (E t)
      · obtain ⟨c, hm, hk, hst, h1, h2⟩ := hi.grab hE.sys.mutex t hr h0 ht hnu
        refine ⟨c.th, Or.inl ?_, ⟨by rw [h1]; decide, h2⟩⟩
        obtain ⟨w, hw, rfl | rfl⟩ := BSys.of_site hm
        · refine ⟨w, hw, rfl, ?_⟩
          rw [(h.steps hc hE hw t hr).1 hst, if_pos (Or.inl h0)]
        · simp at hk
      · obtain ⟨w, hw⟩ := List.exists_mem_of_ne_nil _ hwne
        exact absurd (c22_stays_free h.built hE.sys t hr
          (List.ne_nil_of_mem (BSys.lock_mem hw)) h0 fun n hn => ht ⟨n, hn⟩) hreg
    · obtain ⟨n, hn, ho⟩ := ok.lock h0
      rcases hn with hn | hn | hn
      · refine ⟨n, Or.inr (Or.inl ?_), h.keep hc hE t hr hn (by decide) (by decide) ho⟩
        obtain ⟨w, hw, rfl, hst⟩ := hn
        refine ⟨w, hw, rfl, ?_⟩
        rw [(h.steps hc hE hw t hr).2.1 hst, if_pos ho]
      · exact ⟨n, Or.inr (Or.inr (h.fwd2 hc hE t hr hn)),
          h.keep hc hE t hr hn (by decide) (by decide) ho⟩
      · exact absurd (hi.release hE.sys.mutex t hr ho (BInv.unlocking' hn)) hreg
  · have hdn := h.done_next hE t hr
    obtain ⟨hc1, hc2⟩ := h.count_next hE t hr
    have hpos := hc.pos
    rw [h.bparties] at hpos
    have hlen := hc.len
    rw [h.bparties] at hlen
    rcases ok.cnt with ⟨hd, hcnt⟩ | ⟨hd, hcnt, hall⟩
    · have hcounted : ∀ n, s.Counted n (E (t + 1)) ↔ s.Counted n (E t) ∨ s.At 2 n (E t) := by
        intro n
        obtain ⟨b2, b3, b4⟩ := h.bwd hc hE t hr ok.nat (n := n)
        constructor
        · rintro (ha | ha)
          · exact Or.inr (b3 ha)
          · rcases b4 ha with ha | ha
            · exact Or.inl (Or.inl ha)
            · exact Or.inl (Or.inr ha.1)
        · rintro ((ha | ha) | ha)
          · exact Or.inr (h.fwd3 hc hE t hr ha)
          · exact Or.inr (h.fwd4 hc hE t hr ha hd)
          · exact Or.inl (h.fwd2 hc hE t hr ha)
      by_cases h2 : ∃ n, s.At 2 n (E t)
      · -- one thread increments
        have hcnt2 := hc1 h2
        obtain ⟨a, ha⟩ := h2
        have hnot : ¬ s.Counted a (E t) := by
          rintro (h3 | h3)
          · have := hc.at_unique (by decide) (by decide) ha h3; omega
          · have := hc.at_unique (by decide) (by decide) ha h3; omega
        have huniq : ∀ n, s.At 2 n (E t) → n = a := fun n hn =>
          h.own_unique hn ha (ok.own n (Or.inl hn)) (ok.own a (Or.inl ha))
        have hplus : s.counted ths (E (t + 1)) = s.counted ths (E t) + 1 := by
          refine countP_add_one hc.nodup (ha.mem hc) (by simpa using hnot) fun n _ => ?_
          have := hcounted n
          by_cases h1 : n = a
          · subst h1
            simp [this, ha]
          · have h3 : ¬ s.At 2 n (E t) := fun hn => h1 (huniq n hn)
            simp [this, h1, h3]
        have hle := h.counted_le hc (E (t + 1))
        refine Or.inl ⟨?_, ?_⟩
        · rw [hdn, if_neg]
          rw [hcnt]
          intro e
          have := Int.ofNat_inj.1 e
          omega
        · rw [hcnt2, hcnt, hplus]
          have := clog2_lt parties
          rw [show ((s.counted ths (E t) : Int) + 1) = ((s.counted ths (E t) + 1 : Nat) : Int) by simp,
            ← Int.natCast_emod, Nat.mod_eq_of_lt (by omega)]
      · have hcnt2 := hc2 h2
        have hsame : s.counted ths (E (t + 1)) = s.counted ths (E t) := by
          refine List.countP_congr fun n _ => ?_
          have h3 : ¬ s.At 2 n (E t) := fun hn => h2 ⟨n, hn⟩
          simp [hcounted n, h3]
        by_cases hfull : s.counted ths (E t) = parties
        · have hf : s.count (E t) = (parties : Int) := by rw [hcnt, hfull]
          rw [if_pos hf] at hcnt2 hdn
          refine Or.inr ⟨hdn, hcnt2, fun n hn => ?_⟩
          have : ∀ n ∈ ths, decide (s.Counted n (E t)) = true := by
            refine List.countP_eq_length.1 ?_
            rw [hlen]; exact hfull
          rcases (by simpa using this n hn : s.Counted n (E t)) with h3 | h3
          · exact h.fwd3 hc hE t hr h3
          · exact h.fwd4 hc hE t hr h3 hd
        · have hf : ¬ s.count (E t) = (parties : Int) := by
            rw [hcnt]; intro e; exact hfull (Int.ofNat_inj.1 e)
          rw [if_neg hf] at hcnt2 hdn
          exact Or.inl ⟨hdn, by rw [hcnt2, hcnt, hsame]⟩
    · -- everybody leaves
      have hno2 : ¬ ∃ n, s.At 2 n (E t) := by
        rintro ⟨n, hn⟩
        have := hc.at_unique (by decide) (by decide) hn (hall n (hn.mem hc))
        omega
      have hcnt2 := hc2 hno2
      have hf : ¬ s.count (E t) = (parties : Int) := by rw [hcnt]; omega
      rw [if_neg hf] at hcnt2 hdn
      refine Or.inl ⟨hdn, ?_⟩
      have hzero : s.counted ths (E (t + 1)) = 0 := by
        refine List.countP_eq_zero.2 fun n hn => ?_
        have h4 := hall n hn
        obtain ⟨b2, b3, b4⟩ := h.bwd hc hE t hr ok.nat (n := n)
        simp only [decide_eq_true_eq]
        rintro (ha | ha)
        · have := hc.at_unique (by decide) (by decide) (b3 ha) h4; omega
        · rcases b4 ha with ha | ⟨-, ha⟩
          · have := hc.at_unique (by decide) (by decide) ha h4; omega
          · omega
      rw [hcnt2, hcnt, hzero]
      rfl

theorem BInv.ok_init (hc : s.Clean ths) {env : Env} (hi : s.Init env) : s.Ok ths env := by
  have hno : ∀ k n, 1 ≤ k → ¬ s.At k n env := by
    rintro k n hk ⟨w, hw, rfl, hst⟩
    rw [hi.state w hw] at hst
    omega
  refine ⟨fun w hw => ⟨0, hi.state w hw⟩, ?_, fun h => absurd hi.free h, Or.inl ⟨hi.done, ?_⟩⟩
  · rintro n (hn | hn)
    · exact absurd hn (hno 2 n (by decide))
    · exact absurd hn (hno 3 n (by decide))
  · have : s.counted ths env = 0 := by
      refine List.countP_eq_zero.2 fun n _ => ?_
      simp only [decide_eq_true_eq]
      rintro (ha | ha)
      · exact hno 3 n (by decide) ha
      · exact hno 4 n (by decide) ha
    rw [hi.count, this]
    rfl

theorem BInv.ok (h : BInv name parties fw s) (hc : s.Clean ths) (hE : s.Exec rst uc E) {t0 : Nat}
    (h0 : s.Init (E t0)) (hwne : s.waits ≠ []) (t : Nat) (ht : t0 ≤ t)
    (hr : ∀ u, t0 ≤ u → u < t → rst.truthy (E u) = false) : s.Ok ths (E t) := by
  induction t with
  | zero =>
    obtain rfl : t0 = 0 := by omega
    exact BInv.ok_init hc h0
  | succ t ih =>
    by_cases he : t0 = t + 1
    · subst he; exact BInv.ok_init hc h0
    · exact h.ok_step hc hE t (hr t (by omega) (by omega)) hwne
        (ih (by omega) fun u h1 h2 => hr u h1 (by omega))

/-- **C23.**  The threads return together: when one of them returns from `wait`, all of them do, at
    the same clock edge (so each of them had called `wait`). -/
theorem c23_together (h : BBuilt name parties fw s) (hc : s.Clean ths) (hE : s.Exec rst uc E)
    {t0 : Nat} (h0 : s.Init (E t0)) (t : Nat) (ht : t0 ≤ t)
    (hr : ∀ u, t0 ≤ u → u ≤ t → rst.truthy (E u) = false) {n : String}
    (hret : s.Returns E n t) : ∀ m ∈ ths, s.Returns E m t := by
  have hi := h.inv
  obtain ⟨w, hw, rfl, h4, h5⟩ := hret
  have ok := hi.ok hc hE h0 (List.ne_nil_of_mem hw) t ht fun u h1 h2 => hr u h1 (by omega)
  have hrt := hr t ht (Nat.le_refl _)
  have hst := (hi.steps hc hE hw t hrt).2.2.2.2 h4
  rw [h5] at hst
  split at hst
  · rename_i hd
    rcases ok.cnt with hd' | ⟨-, -, hall⟩
    · exact absurd hd'.1 hd
    · intro m hm
      obtain ⟨w', hw', rfl, h4'⟩ := hall m hm
      refine ⟨w', hw', rfl, h4', ?_⟩
      rw [(hi.steps hc hE hw' t hrt).2.2.2.2 h4', if_pos hd]
  · omega

/-- `done` is up and everybody waits for it. -/
def BSys.Released (s : BSys) (ths : List String) (env : Env) : Prop :=
  s.done env = 1 ∧ ∀ n ∈ ths, s.At 4 n env

/-- Progress inside one round: the next thread to be counted is `r` edges away at most. -/
def BSys.Rank (s : BSys) (r : Nat) (env : Env) : Prop :=
  (r = 4 ∧ s.sys.reg env = 0 ∧ ∃ n, s.At 0 n env) ∨
  (r = 5 ∧ s.sys.reg env = 0 ∧ ¬ ∃ n, s.At 0 n env) ∨
  (r = 3 ∧ ∃ n, s.At 1 n env ∧ s.sys.Owns n env) ∨
  (r = 2 ∧ ∃ n, s.At 2 n env) ∨
  (r = 6 ∧ ∃ n, s.At 3 n env)

theorem BSys.Rank.exists {env : Env} (ok : s.Ok ths env) : ∃ r ≤ 6, s.Rank r env := by
  by_cases h0 : s.sys.reg env = 0
  · by_cases ht : ∃ n, s.At 0 n env
    · exact ⟨4, by decide, Or.inl ⟨rfl, h0, ht⟩⟩
    · exact ⟨5, by decide, Or.inr (Or.inl ⟨rfl, h0, ht⟩)⟩
  · obtain ⟨n, h1 | h1 | h1, ho⟩ := ok.lock h0
    · exact ⟨3, by decide, Or.inr (Or.inr (Or.inl ⟨rfl, n, h1, ho⟩))⟩
    · exact ⟨2, by decide, Or.inr (Or.inr (Or.inr (Or.inl ⟨rfl, n, h1⟩)))⟩
    · exact ⟨6, by decide, Or.inr (Or.inr (Or.inr (Or.inr ⟨rfl, n, h1⟩)))⟩

theorem BInv.waiting_step (h : BInv name parties fw s) (hc : s.Clean ths) (hE : s.Exec rst uc E)
    (t : Nat) (hr : rst.truthy (E t) = false) (hd : s.done (E t) = 0) {n : String}
    (hw : s.Waiting n (E t)) : s.Waiting n (E (t + 1)) := by
  obtain ⟨k, hk, w, hw, rfl, hst⟩ := hw
  obtain ⟨s0, s1, s2, s3, s4⟩ := h.steps hc hE hw t hr
  have hcase : k = 0 ∨ k = 1 ∨ k = 2 ∨ k = 3 ∨ k = 4 := by omega
  rcases hcase with rfl | rfl | rfl | rfl | rfl
  · have := s0 hst
    split at this
    · exact ⟨1, by decide, w, hw, rfl, this⟩
    · exact ⟨0, by decide, w, hw, rfl, this⟩
  · have := s1 hst
    split at this
    · exact ⟨2, by decide, w, hw, rfl, this⟩
    · exact ⟨0, by decide, w, hw, rfl, this⟩
  · exact ⟨3, by decide, w, hw, rfl, s2 hst⟩
  · exact ⟨4, by decide, w, hw, rfl, s3 hst⟩
  · have := s4 hst
    rw [if_neg (by simp [hd])] at this
    exact ⟨4, by decide, w, hw, rfl, this⟩

/-- The number of counted threads does not go down while `done` is low, and goes up when a thread
    is in the state that increments. -/
theorem BInv.counted_step (h : BInv name parties fw s) (hc : s.Clean ths) (hE : s.Exec rst uc E)
    (t : Nat) (hr : rst.truthy (E t) = false) (hd : s.done (E t) = 0) :
    s.counted ths (E t) ≤ s.counted ths (E (t + 1)) ∧
    ((∃ n, s.At 2 n (E t)) → s.counted ths (E t) + 1 ≤ s.counted ths (E (t + 1))) := by
  have hmono : ∀ n, s.Counted n (E t) → s.Counted n (E (t + 1)) := by
    rintro n (ha | ha)
    · exact Or.inr (h.fwd3 hc hE t hr ha)
    · exact Or.inr (h.fwd4 hc hE t hr ha hd)
  refine ⟨List.countP_mono_left fun n _ hn => by simpa using hmono n (by simpa using hn), ?_⟩
  rintro ⟨a, ha⟩
  have hnot : ¬ s.Counted a (E t) := by
    rintro (h3 | h3)
    · have := hc.at_unique (by decide) (by decide) ha h3; omega
    · have := hc.at_unique (by decide) (by decide) ha h3; omega
  have h1 : s.Counted a (E (t + 1)) := Or.inl (h.fwd2 hc hE t hr ha)
  have e := countP_add_one (q := fun n => decide (s.Counted n (E t)) || decide (n = a)) hc.nodup
    (ha.mem hc) (p := fun n => decide (s.Counted n (E t))) (by simpa using hnot) fun n _ => rfl
  unfold BSys.counted
  rw [← e]
  refine List.countP_mono_left fun n _ hn => ?_
  simp only [Bool.or_eq_true, decide_eq_true_eq] at hn
  rcases hn with hn | rfl
  · simpa using hmono n hn
  · simpa using h1

theorem BInv.rank_step (h : BInv name parties fw s) (hc : s.Clean ths) (hE : s.Exec rst uc E)
    (t : Nat) (hr : rst.truthy (E t) = false) (ok : s.Ok ths (E t)) (ok' : s.Ok ths (E (t + 1)))
    (hd : s.done (E t) = 0) (hlt : s.counted ths (E t) < parties)
    (hw : ∀ n ∈ ths, s.Waiting n (E t)) {r : Nat} (hrank : s.Rank r (E t)) :
    ∃ r' ≤ 6, s.Rank r' (E (t + 1)) ∧
      6 * (parties - s.counted ths (E (t + 1))) + r' < 6 * (parties - s.counted ths (E t)) + r := by
  obtain ⟨hm1, hm2⟩ := h.counted_step hc hE t hr hd
  have hle := h.counted_le hc (E (t + 1))
  have hnu : s.sys.reg (E t) = 0 → ∀ n, ¬ s.sys.Unlocking n (E t) := fun h0 n hu =>
    (ok.own n (Or.inr (BInv.unlocking hc hu))).1 h0
  rcases hrank with ⟨rfl, h0, n, hn⟩ | ⟨rfl, h0, hno⟩ | ⟨rfl, n, hn, ho⟩ | ⟨rfl, n, hn⟩ |
    ⟨rfl, n, hn⟩
  · obtain ⟨c, hm, hk, hst, h1, h2⟩ := h.built.inv.grab hE.sys.mutex t hr h0
      ⟨n, BInv.trying' hn⟩ (hnu h0)
    refine ⟨3, by decide, Or.inr (Or.inr (Or.inl ⟨rfl, c.th, ?_, by rw [h1]; decide, h2⟩)), by omega⟩
    obtain ⟨w, hw, rfl | rfl⟩ := BSys.of_site hm
    · refine ⟨w, hw, rfl, ?_⟩
      rw [(h.steps hc hE hw t hr).1 hst, if_pos (Or.inl h0)]
    · simp at hk
  · -- nobody asks: somebody fell back to the first state
    have hex : ∃ n ∈ ths, ¬ s.Counted n (E t) := by
      by_contra hcon
      have : s.counted ths (E t) = ths.length :=
        List.countP_eq_length.2 fun n hn => by
          by_contra hx
          exact hcon ⟨n, hn, by simpa using hx⟩
      have hl := hc.len
      rw [h.bparties] at hl
      omega
    obtain ⟨n, hn, hnc⟩ := hex
    obtain ⟨k, hk, hat⟩ := hw n hn
    have hk1 : k = 1 := by
      have hcase : k = 0 ∨ k = 1 ∨ k = 2 ∨ k = 3 ∨ k = 4 := by omega
      rcases hcase with rfl | rfl | rfl | rfl | rfl
      · exact absurd ⟨n, hat⟩ hno
      · rfl
      · exact absurd h0 (ok.own n (Or.inl hat)).1
      · exact absurd (Or.inl hat) hnc
      · exact absurd (Or.inr hat) hnc
    subst hk1
    obtain ⟨w, hw', rfl, hst⟩ := hat
    have h1 := (h.steps hc hE hw' t hr).2.1 hst
    rw [if_neg fun ho : s.sys.Owns w.th (E t) => ho.1 h0] at h1
    have hfree := c22_stays_free h.built hE.sys t hr (List.ne_nil_of_mem (BSys.lock_mem hw')) h0
      fun n hn => hno ⟨n, BInv.trying hn⟩
    exact ⟨4, by decide, Or.inl ⟨rfl, hfree, w.th, w, hw', rfl, h1⟩, by omega⟩
  · refine ⟨2, by decide, Or.inr (Or.inr (Or.inr (Or.inl ⟨rfl, n, ?_⟩))), by omega⟩
    obtain ⟨w, hw, rfl, hst⟩ := hn
    refine ⟨w, hw, rfl, ?_⟩
    rw [(h.steps hc hE hw t hr).2.1 hst, if_pos ho]
  · have := hm2 ⟨n, hn⟩
    exact ⟨6, by decide, Or.inr (Or.inr (Or.inr (Or.inr ⟨rfl, n, h.fwd2 hc hE t hr hn⟩))), by omega⟩
  · have h0 : s.sys.reg (E (t + 1)) = 0 := h.built.inv.release hE.sys.mutex t hr
      (ok.own n (Or.inr hn)) (BInv.unlocking' hn)
    by_cases ht : ∃ n, s.At 0 n (E (t + 1))
    · exact ⟨4, by decide, Or.inl ⟨rfl, h0, ht⟩, by omega⟩
    · exact ⟨5, by decide, Or.inr (Or.inl ⟨rfl, h0, ht⟩), by omega⟩

/-- When everybody is counted, `done` goes up. -/
theorem BInv.full_step (h : BInv name parties fw s) (hE : s.Exec rst uc E)
    (t : Nat) (hr : rst.truthy (E t) = false) (ok : s.Ok ths (E t)) (ok' : s.Ok ths (E (t + 1)))
    (hd : s.done (E t) = 0) (hf : s.counted ths (E t) = parties) : s.Released ths (E (t + 1)) := by
  have hcnt : s.count (E t) = (parties : Int) := by
    rcases ok.cnt with h1 | h1
    · rw [h1.2, hf]
    · rw [h1.1] at hd; omega
  have hdn := h.done_next hE t hr
  rw [if_pos hcnt] at hdn
  rcases ok'.cnt with h1 | h1
  · rw [h1.1] at hdn; omega
  · exact ⟨h1.1, h1.2.2⟩

theorem BInv.released_returns (h : BInv name parties fw s) (hc : s.Clean ths)
    (hE : s.Exec rst uc E) (t : Nat) (hr : rst.truthy (E t) = false)
    (hrel : s.Released ths (E t)) : ∀ n ∈ ths, s.Returns E n t := by
  intro n hn
  obtain ⟨w, hw, rfl, hst⟩ := hrel.2 n hn
  refine ⟨w, hw, rfl, hst, ?_⟩
  rw [(h.steps hc hE hw t hr).2.2.2.2 hst, if_pos (by rw [hrel.1]; decide)]

theorem BInv.progress (h : BInv name parties fw s) (hc : s.Clean ths) (hE : s.Exec rst uc E)
    (hwne : s.waits ≠ []) (m : Nat) : ∀ (t r : Nat), s.Ok ths (E t) →
    (∀ u, t ≤ u → rst.truthy (E u) = false) → (∀ n ∈ ths, s.Waiting n (E t)) → s.Rank r (E t) →
    6 * (parties - s.counted ths (E t)) + r ≤ m →
    ∃ u, t ≤ u ∧ u ≤ t + m + 1 ∧ s.Released ths (E u) := by
  induction m with
  | zero =>
    intro t r ok hr hw hrank hm
    exfalso
    have : r = 0 := by omega
    rcases hrank with h1 | h1 | h1 | h1 | h1 <;> omega
  | succ m ih =>
    intro t r ok hr hw hrank hm
    by_cases hd : s.done (E t) = 0
    · have hrt := hr t (Nat.le_refl _)
      have ok' := h.ok_step hc hE t hrt hwne ok
      have hle := h.counted_le hc (E t)
      by_cases hf : s.counted ths (E t) = parties
      · exact ⟨t + 1, by omega, by omega, h.full_step hE t hrt ok ok' hd hf⟩
      · obtain ⟨r', -, hr1, hr2⟩ := h.rank_step hc hE t hrt ok ok' hd (by omega) hw hrank
        obtain ⟨u, h1, h2, h3⟩ := ih (t + 1) r' ok' (fun u hu => hr u (by omega))
          (fun n hn => h.waiting_step hc hE t hrt hd (hw n hn)) hr1 (by omega)
        exact ⟨u, by omega, by omega, h3⟩
    · refine ⟨t, Nat.le_refl _, by omega, ?_⟩
      rcases ok.cnt with h1 | h1
      · exact absurd h1.1 hd
      · exact ⟨h1.1, h1.2.2⟩

/-- **C23, nobody is left behind.**  Once all threads have called `wait`, they all return, at one
    clock edge, after a number of cycles linear in the number of threads. -/
theorem c23_released (h : BBuilt name parties fw s) (hc : s.Clean ths) (hE : s.Exec rst uc E)
    {t0 : Nat} (h0 : s.Init (E t0)) (hr : ∀ u, t0 ≤ u → rst.truthy (E u) = false) (t : Nat)
    (ht : t0 ≤ t) (hw : ∀ n ∈ ths, s.Waiting n (E t)) :
    ∃ u, t ≤ u ∧ u ≤ t + 6 * parties + 7 ∧ ∀ n ∈ ths, s.Returns E n u := by
  have hi := h.inv
  have hwne : s.waits ≠ [] := by
    have hl := hc.len
    have hp := hc.pos
    cases hths : ths with
    | nil => rw [hths] at hl; simp at hl; omega
    | cons n l =>
      obtain ⟨k, -, w, hw, -, -⟩ := hw n (by simp [hths])
      exact List.ne_nil_of_mem hw
  have ok := hi.ok hc hE h0 hwne t ht fun u h1 _ => hr u h1
  obtain ⟨r, hr6, hrank⟩ := BSys.Rank.exists ok
  obtain ⟨u, h1, h2, h3⟩ := hi.progress hc hE hwne (6 * parties + 6) t r ok
    (fun u hu => hr u (by omega)) hw hrank (by omega)
  exact ⟨u, h1, by omega, hi.released_returns hc hE u (hr u (by omega)) h3⟩

/-- **C23, timing of the last arrival.**  If one thread is in the state that counts it while all the
    others already wait for `done`, then all return two edges later. -/
theorem c23_last (h : BBuilt name parties fw s) (hc : s.Clean ths) (hE : s.Exec rst uc E)
    {t0 : Nat} (h0 : s.Init (E t0)) (t : Nat) (ht : t0 ≤ t)
    (hr : ∀ u, t0 ≤ u → u ≤ t + 2 → rst.truthy (E u) = false) {a : String} (ha : s.At 2 a (E t))
    (hothers : ∀ n ∈ ths, n ≠ a → s.At 4 n (E t)) : ∀ n ∈ ths, s.Returns E n (t + 2) := by
  have hi := h.inv
  have hwne : s.waits ≠ [] := by
    obtain ⟨w, hw, -, -⟩ := ha
    exact List.ne_nil_of_mem hw
  have ok := hi.ok hc hE h0 hwne t ht fun u h1 h2 => hr u h1 (by omega)
  have ok1 := hi.ok_step hc hE t (hr t ht (by omega)) hwne ok
  have ok2 := hi.ok_step hc hE (t + 1) (hr (t + 1) (by omega) (by omega)) hwne ok1
  have hd : s.done (E t) = 0 := by
    rcases ok.cnt with h1 | h1
    · exact h1.1
    · have := hc.at_unique (by decide) (by decide) ha (h1.2.2 a (ha.mem hc)); omega
  have ha1 := hi.fwd2 hc hE t (hr t ht (by omega)) ha
  have hd1 : s.done (E (t + 1)) = 0 := by
    rcases ok1.cnt with h1 | h1
    · exact h1.1
    · have := hc.at_unique (by decide) (by decide) ha1 (h1.2.2 a (ha.mem hc)); omega
  have hfull : s.counted ths (E (t + 1)) = parties := by
    have hl := hc.len
    rw [hi.bparties] at hl
    rw [← hl]
    refine List.countP_eq_length.2 fun n hn => ?_
    rw [decide_eq_true_eq]
    by_cases hna : n = a
    · subst hna; exact Or.inl ha1
    · exact Or.inr (hi.fwd4 hc hE t (hr t ht (by omega)) (hothers n hn hna) hd)
  exact hi.released_returns hc hE (t + 2) (hr (t + 2) (by omega) (by omega))
    (hi.full_step hE (t + 1) (hr (t + 1) (by omega) (by omega)) ok1 ok2 hd1 hfull)

instance (s : BSys) (E : Nat → Env) (n : String) (t : Nat) : Decidable (s.Returns E n t) := by
  unfold BSys.Returns; infer_instance

/-- How many times thread `n` returned from `wait`, and how many times it was counted (which happens
    once in every `wait`), in the `d` cycles from `t0` on. -/
def BSys.returns (s : BSys) (E : Nat → Env) (n : String) (t0 d : Nat) : Nat :=
  (List.range d).countP fun v => decide (s.Returns E n (t0 + v))
def BSys.arrivals (s : BSys) (E : Nat → Env) (n : String) (t0 d : Nat) : Nat :=
  (List.range d).countP fun v => decide (s.At 2 n (E (t0 + v)))

/-- **C23, rounds.**  At any time all threads have returned equally often, and each thread has
    arrived as often as it has returned, once more if it is still waiting for the others.  Hence no
    thread returns from its `k`-th `wait` before every thread has arrived `k` times. -/
theorem c23_rounds (h : BBuilt name parties fw s) (hc : s.Clean ths) (hE : s.Exec rst uc E)
    {t0 : Nat} (h0 : s.Init (E t0)) (d : Nat)
    (hr : ∀ u, t0 ≤ u → u < t0 + d → rst.truthy (E u) = false) :
    (∀ n ∈ ths, ∀ m ∈ ths, s.returns E n t0 d = s.returns E m t0 d) ∧
    (∀ n ∈ ths, s.arrivals E n t0 d = s.returns E n t0 d +
      if s.Counted n (E (t0 + d)) then 1 else 0) ∧
    (∀ n ∈ ths, ∀ m ∈ ths, s.returns E n t0 d ≤ s.arrivals E m t0 d) := by
  have hi := h.inv
  have key : (∀ n ∈ ths, ∀ m ∈ ths, s.returns E n t0 d = s.returns E m t0 d) ∧
      (∀ n ∈ ths, s.arrivals E n t0 d = s.returns E n t0 d +
        if s.Counted n (E (t0 + d)) then 1 else 0) := by
    induction d with
    | zero =>
      refine ⟨fun _ _ _ _ => rfl, fun n hn => ?_⟩
      rw [if_neg]
      · rfl
      · rintro (⟨w, hw, rfl, hst⟩ | ⟨w, hw, rfl, hst⟩) <;>
          (rw [Nat.add_zero, h0.state w hw] at hst; omega)
    | succ d ih =>
      obtain ⟨ih1, ih2⟩ := ih fun u h1 h2 => hr u h1 (by omega)
      have hrt := hr (t0 + d) (by omega) (by omega)
      have hiff : ∀ n ∈ ths, ∀ m ∈ ths, s.Returns E n (t0 + d) ↔ s.Returns E m (t0 + d) := by
        intro n hn m hm
        constructor
        · intro hx
          exact c23_together h hc hE h0 (t0 + d) (by omega) (fun u h1 h2 => hr u h1 (by omega)) hx m hm
        · intro hx
          exact c23_together h hc hE h0 (t0 + d) (by omega) (fun u h1 h2 => hr u h1 (by omega)) hx n hn
      refine ⟨?_, ?_⟩
      · intro n hn m hm
        unfold BSys.returns
        rw [List.range_succ, List.countP_append, List.countP_append]
        have := ih1 n hn m hm
        unfold BSys.returns at this
        rw [this]
        simp [hiff n hn m hm]
      · intro n hn
        have e := ih2 n hn
        have e1 : s.arrivals E n t0 (d + 1) = s.arrivals E n t0 d +
            if s.At 2 n (E (t0 + d)) then 1 else 0 := by
          unfold BSys.arrivals
          rw [List.range_succ, List.countP_append]
          simp
        have e2 : s.returns E n t0 (d + 1) = s.returns E n t0 d +
            if s.Returns E n (t0 + d) then 1 else 0 := by
          unfold BSys.returns
          rw [List.range_succ, List.countP_append]
          simp
        rw [e1, e2, e]
        have hretAt : s.Returns E n (t0 + d) → s.At 4 n (E (t0 + d)) ∧ s.done (E (t0 + d)) ≠ 0 := by
          rintro ⟨w, hw, rfl, h4, h5⟩
          refine ⟨⟨w, hw, rfl, h4⟩, fun hd => ?_⟩
          have := (hi.steps hc hE hw _ hrt).2.2.2.2 h4
          rw [h5, if_neg (by simp [hd])] at this
          omega
        have hatRet : s.At 4 n (E (t0 + d)) → s.done (E (t0 + d)) ≠ 0 → s.Returns E n (t0 + d) := by
          rintro ⟨w, hw, rfl, h4⟩ hd
          refine ⟨w, hw, rfl, h4, ?_⟩
          rw [(hi.steps hc hE hw _ hrt).2.2.2.2 h4, if_pos hd]
        by_cases hwne : s.waits = []
        · have hno : ∀ k env, ¬ s.At k n env := by
            rintro k env ⟨w, hw, -, -⟩
            rw [hwne] at hw
            simp at hw
          have hc1 : ∀ env, ¬ s.Counted n env := by
            rintro env (h1 | h1) <;> exact hno _ _ h1
          rw [if_neg (hc1 _), if_neg (hc1 _), if_neg (hno _ _),
            if_neg fun hx => hno _ _ (hretAt hx).1]
        · have ok := hi.ok hc hE h0 hwne (t0 + d) (by omega) fun u h1 h2 => hr u h1 (by omega)
          obtain ⟨b2, b3, b4⟩ := hi.bwd hc hE (t0 + d) hrt ok.nat (n := n)
          show _ = _ + if s.Counted n (E (t0 + d + 1)) then 1 else 0
          by_cases a2 : s.At 2 n (E (t0 + d))
          · have c1 : s.Counted n (E (t0 + d + 1)) := Or.inl (hi.fwd2 hc hE _ hrt a2)
            have c0 : ¬ s.Counted n (E (t0 + d)) := by
              rintro (h3 | h3)
              · have := hc.at_unique (by decide) (by decide) a2 h3; omega
              · have := hc.at_unique (by decide) (by decide) a2 h3; omega
            have r0 : ¬ s.Returns E n (t0 + d) := fun hx => c0 (Or.inr (hretAt hx).1)
            rw [if_pos c1, if_neg c0, if_neg r0, if_pos a2]
          · rw [if_neg a2]
            by_cases a3 : s.At 3 n (E (t0 + d))
            · have c1 : s.Counted n (E (t0 + d + 1)) := Or.inr (hi.fwd3 hc hE _ hrt a3)
              have r0 : ¬ s.Returns E n (t0 + d) := fun hx => by
                have := hc.at_unique (by decide) (by decide) a3 (hretAt hx).1; omega
              rw [if_pos c1, if_pos (show s.Counted n (E (t0 + d)) from Or.inl a3), if_neg r0]
            · by_cases a4 : s.At 4 n (E (t0 + d))
              · by_cases hd : s.done (E (t0 + d)) = 0
                · have c1 : s.Counted n (E (t0 + d + 1)) := Or.inr (hi.fwd4 hc hE _ hrt a4 hd)
                  rw [if_pos c1, if_pos (show s.Counted n (E (t0 + d)) from Or.inr a4), if_neg fun hx => (hretAt hx).2 hd]
                · have c1 : ¬ s.Counted n (E (t0 + d + 1)) := by
                    rintro (h3 | h3)
                    · exact a2 (b3 h3)
                    · rcases b4 h3 with h3 | h3
                      · exact a3 h3
                      · exact hd h3.2
                  rw [if_neg c1, if_pos (show s.Counted n (E (t0 + d)) from Or.inr a4), if_pos (hatRet a4 hd)]
              · have c0 : ¬ s.Counted n (E (t0 + d)) := by
                  rintro (h3 | h3)
                  · exact a3 h3
                  · exact a4 h3
                have c1 : ¬ s.Counted n (E (t0 + d + 1)) := by
                  rintro (h3 | h3)
                  · exact a2 (b3 h3)
                  · rcases b4 h3 with h3 | h3
                    · exact a3 h3
                    · exact a4 h3.1
                rw [if_neg c1, if_neg c0, if_neg fun hx => a4 (hretAt hx).1]
  refine ⟨key.1, key.2, fun n hn m hm => ?_⟩
  rw [key.1 n hn m hm, key.2 m hm]
  omega

/-- **C23, reset.**  Reset leads to the initial state assumed above. -/
theorem c23_reset (h : BBuilt name parties fw s) (hE : s.Exec rst uc E) (t : Nat)
    (hcb : s.b.seq.Consistent) (hcm : s.b.mutex.seq.Consistent)
    (hcf : ∀ w ∈ s.waits, (s.th w.th).Consistent) (hr : rst.truthy (E t) = true)
    (hwne : s.waits ≠ []) : s.Init (E (t + 1)) := by
  have hi := h.inv
  have hreg : ∀ r : Reg, (∃ c ∈ barrierBase name parties, r ∈ c.targets) → r.init = some 0 →
      E (t + 1) r.name = r.wrap 0 := by
    rintro r ⟨c, hc, hrt⟩ hv
    have hm : c ∈ s.b.seq.makeCode := by rw [hi.code]; exact List.mem_append_left _ hc
    have hman : r ∈ s.b.seq.managed := by
      refine List.mem_append_left _ ?_
      rw [Code.targets_block, List.mem_flatMap]
      exact ⟨_, hm, hrt⟩
    rw [hE.barrier t _ (SeqSt.mem_always_targets hm hrt rfl)]
    exact (c15_reset hi.seqReach hcb rst (E t) hr ⟨_, hman, by simp [hv]⟩).1 _ hman 0 hv
  refine ⟨fun w hw => ?_, ?_, ?_, ?_⟩
  · have hreach : Reach w.th fw (s.th w.th) := hi.built.inv.reach w.th
    have hrun : Run ((s.th w.th).always rst (uc w.th)) E := hE.sys.thread _ (BSys.lock_mem hw)
    have e : ((s.th w.th).dstateReg 0).name = .state w.th := by
      simp [dstateReg, stateReg, hreach.name_eq]
    have hmem := mem_always_dstate (s.th w.th) 0 (by omega) rst (uc w.th)
    rw [e] at hmem
    rw [hrun t _ hmem]
    exact (c15_fsm_reset hreach (hcf w hw) rst (uc w.th) (E t) hr).2.1
  · rw [BSys.count, hi.bname, hi.bparties, hreg (BarrierSt.countReg name parties)
      ⟨_, by simp [barrierBase]; exact Or.inr rfl, by simp [Code.targets, Code.block]⟩ rfl]
    simp [Reg.wrap, BarrierSt.countReg]
  · rw [BSys.done, hi.bname, hreg (BarrierSt.doneReg name)
      ⟨_, by simp [barrierBase]; exact Or.inl rfl, by simp [Code.targets]⟩ rfl]
    rfl
  · obtain ⟨w, hw⟩ := List.exists_mem_of_ne_nil _ hwne
    exact c22_reset hi.built hE.sys t hcm hr (List.ne_nil_of_mem (BSys.lock_mem hw))

end

/-! Example: two threads that meet at a barrier again and again; `b` does something else first. -/

namespace BarrierEx

def b0 : BarrierSt := (BarrierSt.fresh "x" 2).getD ⟨"x", 2, SeqSt.fresh "x", MutexSt.fresh "m" 1⟩
def p1 : BarrierSt × FsmSt := (b0.wait (FsmSt.fresh "a" 4)).getD (b0, FsmSt.fresh "a" 4)
def fa : FsmSt := p1.2.goto 0 none none
def fb0 : FsmSt := (FsmSt.fresh "b" 4).gotoNext none
def p2 : BarrierSt × FsmSt := (p1.1.wait fb0).getD (p1.1, fb0)
def fb : FsmSt := p2.2.goto 0 none none

def bs : BSys :=
  ⟨p2.1, Function.update (Function.update (Function.update (Function.update (Function.update
    (fun n => FsmSt.fresh n 4) "a" p1.2) "a" fa) "b" fb0) "b" p2.2) "b" fb, [⟨"a", 0⟩, ⟨"b", 1⟩]⟩

theorem built : BBuilt "x" 2 4 bs := by
  have h0 : BBuilt "x" 2 4 ⟨b0, fun n => FsmSt.fresh n 4, []⟩ := .fresh rfl
  have h1 := BBuilt.wait "a" (b := p1.1) (f := p1.2) h0 ⟨rfl, rfl, rfl⟩ rfl
  have h2 := BBuilt.fsm "a" (.goto 0 none none) (f := fa) h1 trivial rfl
  have h3 := BBuilt.fsm "b" (.gotoNext none) (f := fb0) h2 trivial rfl
  have h4 := BBuilt.wait "b" (b := p2.1) (f := p2.2) h3 ⟨rfl, rfl, rfl⟩ rfl
  exact BBuilt.fsm "b" (.goto 0 none none) (f := fb) h4 trivial rfl

theorem clean : bs.Clean ["a", "b"] := by
  refine ⟨by decide, rfl, by decide, by decide, by decide, ?_, ?_, ?_⟩
  · intro w hw k hk
    simp only [bs, List.mem_cons, List.not_mem_nil, or_false] at hw
    have hcase : k = 0 ∨ k = 1 ∨ k = 2 ∨ k = 3 ∨ k = 4 := by omega
    rcases hw with rfl | rfl <;> rcases hcase with rfl | rfl | rfl | rfl | rfl <;> rfl
  · intro w hw
    simp only [bs, List.mem_cons, List.not_mem_nil, or_false] at hw
    have : ∀ l : List (Nat × Jump), (∀ e ∈ l, e.2.dst < 16 ∧ e.2.elseDst = none) →
        ∀ e ∈ l, ∀ x, x = e.2.dst ∨ e.2.elseDst = some x → x < 2 ^ 4 := by
      intro l hl e he x hx
      have := hl e he
      rcases hx with rfl | hx
      · omega
      · rw [this.2] at hx; simp at hx
    rcases hw with rfl | rfl <;> exact this _ (by decide)
  · intro w hw
    simp only [bs, List.mem_cons, List.not_mem_nil, or_false] at hw
    have : ∀ (a : Nat) (l : List (Nat × Jump)), (∀ e ∈ l, (a < e.2.dst → e.2.dst ≤ a + 4 →
        a ≤ e.1 ∧ e.1 < a + 4) ∧ e.2.elseDst = none) → ∀ e ∈ l, ∀ x,
        x = e.2.dst ∨ e.2.elseDst = some x → a < x → x ≤ a + 4 → a ≤ e.1 ∧ e.1 < a + 4 := by
      intro a l hl e he x hx h1 h2
      have := hl e he
      rcases hx with rfl | hx
      · exact this.1 h1 h2
      · rw [this.2] at hx; simp at hx
    rcases hw with rfl | rfl
    · exact this 0 _ (by decide)
    · exact this 1 _ (by decide)

def blocks : List Code :=
  [bs.b.seq.always (some (.int 0)), bs.b.mutex.seq.always (some (.int 0)),
   (bs.th "a").always (.int 0) true, (bs.th "b").always (.int 0) false]

def E : Nat → Env := sim blocks (fun _ => 0) (fun _ _ => 0)

theorem exec : bs.Exec (.int 0) (fun n => n == "a") E := by
  have hd : Disjoint' blocks := by decide
  refine ⟨sim_run hd _ _ (by simp [blocks]), sim_run hd _ _ (by simp [blocks, BSys.sys]), ?_⟩
  intro c hc
  obtain ⟨w, hw, h⟩ := BSys.of_site hc
  simp only [bs, List.mem_cons, List.not_mem_nil, or_false] at hw
  rcases hw with rfl | rfl <;> rcases h with rfl | rfl <;>
    exact sim_run hd _ _ (by simp [blocks, BSys.sys])

theorem init : bs.Init (E 0) := ⟨fun _ _ => rfl, rfl, rfl, rfl⟩

/-- In this execution everybody is in `wait` at time 1, and hence released. -/
example : ∃ u, 1 ≤ u ∧ bs.Returns E "a" u ∧ bs.Returns E "b" u := by
  obtain ⟨u, h1, -, h2⟩ := c23_released built clean exec init (fun _ _ => rfl) 1 (by decide) (by
    intro n hn
    simp only [List.mem_cons, List.not_mem_nil, or_false] at hn
    rcases hn with rfl | rfl
    · exact ⟨1, by decide, by decide⟩
    · exact ⟨0, by decide, by decide⟩)
  exact ⟨u, h1, h2 "a" (by simp), h2 "b" (by simp)⟩

set_option maxRecDepth 100000 in
/-- At time 6 the last thread is counted; all return at the edge of time 8. -/
example : bs.Returns E "a" 8 ∧ bs.Returns E "b" 8 := by
  have h := c23_last built clean exec init 6 (by decide) (fun _ _ _ => rfl) (a := "b")
    ⟨⟨"b", 1⟩, by decide, rfl, by decide⟩ (by
      intro n hn hne
      simp only [List.mem_cons, List.not_mem_nil, or_false] at hn
      rcases hn with rfl | rfl
      · exact ⟨⟨"a", 0⟩, by decide, rfl, by decide⟩
      · exact absurd rfl hne)
  exact ⟨h "a" (by simp), h "b" (by simp)⟩

example : bs.b.seq.Consistent ∧ bs.b.mutex.seq.Consistent ∧
    ∀ w ∈ bs.waits, (bs.th w.th).Consistent := by
  unfold SeqSt.Consistent FsmSt.Consistent; decide

end BarrierEx

end Hdl
