import Verif.Model.DmaFsm
import Mathlib.Tactic.Ring
import Mathlib.Algebra.Order.Ring.Nat
import Mathlib.Data.Nat.Log
import Mathlib.Tactic.NormNum

/-! The DMA request machine cuts a transfer into bursts. -/

namespace Dma

/-- Word sizes that fit the page and the address. -/
structure Cfg.Ok (c : Cfg) : Prop where
  page : c.s ≤ 12
  addr : c.s ≤ c.aw

theorem maskAddr_eq (c : Cfg) (a : ℕ) : c.maskAddr a = (a - a % 2 ^ c.s) % 2 ^ c.aw := by
  unfold Cfg.maskAddr
  rw [Nat.shiftRight_eq_div_pow, Nat.shiftLeft_eq, Nat.mod_mul_mod]
  congr 1
  have := Nat.div_add_mod a (2 ^ c.s)
  rw [Nat.mul_comm] at this
  omega

theorem maskAddr_of_aligned {c : Cfg} {a : ℕ} (h : 2 ^ c.s ∣ a) (ha : a < 2 ^ c.aw) : c.maskAddr a = a := by
  rw [maskAddr_eq, Nat.mod_eq_zero_of_dvd h, Nat.sub_zero, Nat.mod_eq_of_lt ha]

theorem maskAddr_aligned {c : Cfg} (hc : c.Ok) (a : ℕ) : 2 ^ c.s ∣ c.maskAddr a := by
  rw [maskAddr_eq]
  have h1 : 2 ^ c.s ∣ a - a % 2 ^ c.s := Nat.dvd_sub_mod a
  exact (Nat.dvd_mod_iff (Nat.pow_dvd_pow 2 hc.addr)).2 h1

theorem maskAddr_lt (c : Cfg) (a : ℕ) : c.maskAddr a < 2 ^ c.aw := by
  rw [maskAddr_eq]; exact Nat.mod_lt _ (by positivity)

/-- Words left in the page. -/
def Cfg.room (c : Cfg) (a : ℕ) : ℕ := (boundary - a % boundary) / 2 ^ c.s

/-- The arithmetic of a page. -/
theorem page {c : Cfg} (hc : c.Ok) {a : ℕ} (h : 2 ^ c.s ∣ a) :
    ∃ q r, a % boundary = q * 2 ^ c.s ∧ c.room a = r ∧ 1 ≤ r ∧ (q + r) * 2 ^ c.s = boundary := by
  have hp : (0 : ℕ) < 2 ^ c.s := by positivity
  have hB : boundary = 2 ^ (12 - c.s) * 2 ^ c.s := by
    rw [← pow_add, Nat.sub_add_cancel hc.page]; rfl
  have hd : 2 ^ c.s ∣ a % boundary := (Nat.dvd_mod_iff (by rw [hB]; exact Nat.dvd_mul_left _ _)).2 h
  obtain ⟨q, hq⟩ := hd
  rw [Nat.mul_comm] at hq
  have hlt : a % boundary < boundary := Nat.mod_lt _ (by decide)
  have hql : q < 2 ^ (12 - c.s) := by
    rw [hq, hB] at hlt
    exact Nat.lt_of_mul_lt_mul_right hlt
  refine ⟨q, 2 ^ (12 - c.s) - q, hq, ?_, by omega, ?_⟩
  · unfold Cfg.room
    rw [hq, hB, ← Nat.sub_mul, Nat.mul_div_cancel _ hp]
  · rw [Nat.add_sub_cancel' hql.le, hB]

theorem land_page (a : ℕ) : a &&& (boundary - 1) = a % boundary := Nat.and_two_pow_sub_one_eq_mod a 12

/-- The size of the next burst. -/
def Cfg.next (c : Cfg) (a n : ℕ) : ℕ := min n (min c.maxBurst (c.room a))

theorem check4KB_eq {c : Cfg} (hc : c.Ok) {a n : ℕ} (h : 2 ^ c.s ∣ a) (ha : a < 2 ^ c.aw)
    (hn : n < 2 ^ (c.aw + 1)) : c.check4KB a n = (c.next a n, n - c.next a n) := by
  obtain ⟨q, r, hq, hr, h1, hB⟩ := page hc h
  have hp : (0 : ℕ) < 2 ^ c.s := by positivity
  have hrest : c.restBoundary a = r := by
    rw [Cfg.restBoundary, maskAddr_of_aligned h ha, land_page, Nat.shiftRight_eq_div_pow]
    exact hr
  have hcheck : ∀ l, c.checkBoundary a l = decide (r ≤ l) := by
    intro l
    rw [Cfg.checkBoundary, maskAddr_of_aligned h ha, land_page, Nat.shiftLeft_eq, hq, ← Nat.add_mul, ← hB]
    congr 1
    rw [ge_iff_le, Nat.mul_le_mul_right_iff hp]
    simp
  unfold Cfg.check4KB
  simp only [hrest, hcheck, decide_eq_true_eq]
  have hw : ∀ v, v ≤ n → v % 2 ^ (c.aw + 1) = v := fun v hv => Nat.mod_eq_of_lt (by omega)
  unfold Cfg.next
  rw [hr]
  by_cases c1 : n ≤ c.maxBurst <;> by_cases c2 : r ≤ n
  · rw [if_pos ⟨c1, c2⟩, hw r c2, hw _ (by omega)]
    have : min n (min c.maxBurst r) = r := by omega
    rw [this]
  · rw [if_neg (by tauto), if_pos c1, hw n le_rfl]
    have : min n (min c.maxBurst r) = n := by omega
    rw [this, Nat.sub_self]
  all_goals
    rw [if_neg (by tauto), if_neg c1]
    by_cases c3 : r ≤ c.maxBurst
    · rw [if_pos c3, hw r (by omega), hw _ (by omega)]
      have : min n (min c.maxBurst r) = r := by omega
      rw [this]
    · rw [if_neg c3, hw c.maxBurst (by omega), hw _ (by omega)]
      have : min n (min c.maxBurst r) = c.maxBurst := by omega
      rw [this]

theorem maxBurst_pos (c : Cfg) : 1 ≤ c.maxBurst := Nat.one_le_two_pow

theorem next_pos {c : Cfg} (hc : c.Ok) {a n : ℕ} (h : 2 ^ c.s ∣ a) (hn : n ≠ 0) : 1 ≤ c.next a n := by
  obtain ⟨q, r, -, hr, h1, -⟩ := page hc h
  have := maxBurst_pos c
  unfold Cfg.next
  rw [hr]; omega

theorem next_le (c : Cfg) (a n : ℕ) : c.next a n ≤ n := by unfold Cfg.next; omega

/-- The address after a burst. -/
def Cfg.after (c : Cfg) (a k : ℕ) : ℕ := (a + k * 2 ^ c.s) % 2 ^ c.aw

theorem after_aligned {c : Cfg} (hc : c.Ok) {a : ℕ} (h : 2 ^ c.s ∣ a) (k : ℕ) : 2 ^ c.s ∣ c.after a k :=
  (Nat.dvd_mod_iff (Nat.pow_dvd_pow 2 hc.addr)).2 (Nat.dvd_add h (Nat.dvd_mul_left _ _))

theorem after_lt (c : Cfg) (a k : ℕ) : c.after a k < 2 ^ c.aw := Nat.mod_lt _ (by positivity)

/-- The bursts of a transfer (`fuel` is any number at least `n`). -/
def Cfg.chunks (c : Cfg) : ℕ → ℕ → ℕ → List (ℕ × ℕ)
  | 0, _, _ => []
  | fuel + 1, a, n =>
    if n = 0 then []
    else (a, c.next a n) :: c.chunks fuel (c.after a (c.next a n)) (n - c.next a n)

theorem chunks_fuel {c : Cfg} (hc : c.Ok) (f g a n : ℕ) (h : 2 ^ c.s ∣ a) (hf : n ≤ f) (hg : n ≤ g) :
    c.chunks f a n = c.chunks g a n := by
  induction f generalizing g a n with
  | zero =>
    obtain rfl : n = 0 := by omega
    cases g <;> simp [Cfg.chunks]
  | succ f ih =>
    cases g with
    | zero =>
      obtain rfl : n = 0 := by omega
      simp [Cfg.chunks]
    | succ g =>
      simp only [Cfg.chunks]
      by_cases hn : n = 0
      · simp [hn]
      · have := next_pos hc h hn
        rw [if_neg hn, if_neg hn, ih g _ _ (after_aligned hc h _) (by omega) (by omega)]

theorem chunks_cons {c : Cfg} (hc : c.Ok) {a n : ℕ} (h : 2 ^ c.s ∣ a) (hn : n ≠ 0) :
    c.chunks n a n = (a, c.next a n) ::
      c.chunks (n - c.next a n) (c.after a (c.next a n)) (n - c.next a n) := by
  have := next_pos hc h hn
  obtain ⟨m, rfl⟩ : ∃ m, n = m + 1 := ⟨n - 1, by omega⟩
  conv_lhs => rw [Cfg.chunks, if_neg hn]
  rw [chunks_fuel hc m _ _ _ (after_aligned hc h _) (by omega) le_rfl]

/-- What the machine issues for a transfer: a transfer of 0 words gives one request of length 0. -/
def Cfg.issue (c : Cfg) (a n : ℕ) : List (ℕ × ℕ) := if n = 0 then [(a, 0)] else c.chunks n a n

/-- What the machine is still going to issue. -/
def ReqSt.remaining (c : Cfg) (σ : ReqSt) : List (ℕ × ℕ) :=
  if σ.st1 then (σ.addr, σ.cur) :: c.chunks σ.rest (c.after σ.addr σ.cur) σ.rest
  else if σ.start then c.issue σ.addr σ.rest
  else if σ.cont then c.chunks σ.rest σ.addr σ.rest
  else []

/-- Reachable states. -/
structure ReqSt.Inv (c : Cfg) (σ : ReqSt) : Prop where
  dvd : 2 ^ c.s ∣ σ.addr
  addr : σ.addr < 2 ^ c.aw
  rest : σ.rest < 2 ^ (c.aw + 1)
  phase : (σ.st1 = false ∧ σ.start = false ∧ σ.busy = false ∧ σ.cont = false) ∨
    (σ.st1 = false ∧ σ.start = true ∧ σ.cont = false) ∨
    (σ.st1 = true ∧ σ.start = false ∧ σ.busy = true) ∨
    (σ.st1 = false ∧ σ.start = false ∧ σ.busy = true ∧ σ.cont = true ∧ σ.rest ≠ 0)

theorem init_inv (c : Cfg) : ReqSt.init.Inv c :=
  ⟨by simp [ReqSt.init], by simp [ReqSt.init], by simp [ReqSt.init], Or.inl ⟨rfl, rfl, rfl, rfl⟩⟩

/-- Requests taken are the ones issued or still to be issued. -/
theorem step_inv {c : Cfg} (hc : c.Ok) {σ : ReqSt} (hi : σ.Inv c) (i : ReqIn) :
    (σ.step c i).Inv c ∧
    (σ.issued i).toList ++ (σ.step c i).remaining c = σ.remaining c ++
      (σ.taken i).toList.flatMap fun q => c.issue (c.maskAddr q.1) (q.2 % 2 ^ (c.aw + 1)) := by
  obtain ⟨st1, start, busy, cont, addr, rest, cur⟩ := σ
  obtain ⟨ask, af, ack⟩ := i
  obtain ⟨hd, ha, hr, hph⟩ := hi
  simp only at hd ha hr hph
  have hck := check4KB_eq hc hd ha hr
  have hle := next_le c addr rest
  have hlt : ∀ n, n % 2 ^ (c.aw + 1) < 2 ^ (c.aw + 1) := fun n => Nat.mod_lt _ (by positivity)
  rcases hph with ⟨rfl, rfl, rfl, rfl⟩ | ⟨rfl, rfl, rfl⟩ | ⟨rfl, rfl, rfl⟩ | ⟨rfl, rfl, rfl, rfl, hne⟩
  · cases ask with
    | none =>
      exact ⟨⟨by simpa [ReqSt.step, ReqSt.taken] using hd, by simpa [ReqSt.step, ReqSt.taken] using ha,
        by simpa [ReqSt.step, ReqSt.taken, ReqSt.check] using hr,
        Or.inl (by simp [ReqSt.step, ReqSt.taken, ReqSt.check])⟩,
        by simp [ReqSt.step, ReqSt.taken, ReqSt.check, ReqSt.remaining, ReqSt.issued]⟩
    | some q =>
      obtain ⟨a, n⟩ := q
      exact ⟨⟨by simpa [ReqSt.step, ReqSt.taken, ReqSt.idle] using maskAddr_aligned hc a,
        by simpa [ReqSt.step, ReqSt.taken, ReqSt.idle] using maskAddr_lt c a,
        by simpa [ReqSt.step, ReqSt.taken, ReqSt.check, ReqSt.idle] using hlt n,
        Or.inr (Or.inl (by simp [ReqSt.step, ReqSt.taken, ReqSt.check, ReqSt.idle]))⟩,
        by simp [ReqSt.step, ReqSt.taken, ReqSt.check, ReqSt.remaining, ReqSt.issued, ReqSt.idle]⟩
  · cases af with
    | true =>
      exact ⟨⟨by simpa [ReqSt.step, ReqSt.taken, ReqSt.idle] using hd,
        by simpa [ReqSt.step, ReqSt.taken, ReqSt.idle] using ha,
        by simpa [ReqSt.step, ReqSt.taken, ReqSt.check, ReqSt.idle] using hr,
        Or.inr (Or.inl (by simp [ReqSt.step, ReqSt.taken, ReqSt.check, ReqSt.idle]))⟩,
        by simp [ReqSt.step, ReqSt.taken, ReqSt.check, ReqSt.remaining, ReqSt.issued, ReqSt.idle]⟩
    | false =>
      refine ⟨⟨by simpa [ReqSt.step, ReqSt.taken, ReqSt.idle] using hd,
        by simpa [ReqSt.step, ReqSt.taken, ReqSt.idle] using ha,
        by simp [ReqSt.step, ReqSt.taken, ReqSt.check, ReqSt.idle, hck]; omega,
        Or.inr (Or.inr (Or.inl (by simp [ReqSt.step, ReqSt.taken, ReqSt.check, ReqSt.idle])))⟩, ?_⟩
      simp [ReqSt.step, ReqSt.taken, ReqSt.check, ReqSt.remaining, ReqSt.issued, ReqSt.idle, hck, Cfg.issue]
      by_cases h0 : rest = 0
      · subst h0
        simp [Cfg.next, Cfg.chunks]
      · rw [if_neg h0, chunks_cons hc hd h0]
  · cases ack with
    | false =>
      exact ⟨⟨by simpa [ReqSt.step, ReqSt.taken, ReqSt.idle] using hd,
        by simpa [ReqSt.step, ReqSt.taken, ReqSt.idle] using ha,
        by simpa [ReqSt.step, ReqSt.taken, ReqSt.check, ReqSt.idle] using hr,
        Or.inr (Or.inr (Or.inl (by simp [ReqSt.step, ReqSt.taken, ReqSt.check, ReqSt.idle])))⟩,
        by simp [ReqSt.step, ReqSt.taken, ReqSt.check, ReqSt.remaining, ReqSt.issued, ReqSt.idle]⟩
    | true =>
      refine ⟨⟨after_aligned hc hd cur, after_lt c addr cur,
        by simpa [ReqSt.step, ReqSt.taken, ReqSt.check, ReqSt.idle] using hr, ?_⟩, ?_⟩
      · by_cases h0 : rest = 0
        · exact Or.inl (by simp [ReqSt.step, ReqSt.taken, ReqSt.check, ReqSt.idle, h0])
        · exact Or.inr (Or.inr (Or.inr (by simp [ReqSt.step, ReqSt.taken, ReqSt.check, ReqSt.idle, h0])))
      · by_cases h0 : rest = 0
        · simp [ReqSt.step, ReqSt.taken, ReqSt.check, ReqSt.remaining, ReqSt.issued, ReqSt.idle, h0, Cfg.chunks]
        · simp [ReqSt.step, ReqSt.taken, ReqSt.check, ReqSt.remaining, ReqSt.issued, ReqSt.idle, h0, Cfg.after]
  · cases af with
    | true =>
      exact ⟨⟨by simpa [ReqSt.step, ReqSt.taken, ReqSt.idle] using hd,
        by simpa [ReqSt.step, ReqSt.taken, ReqSt.idle] using ha,
        by simpa [ReqSt.step, ReqSt.taken, ReqSt.check, ReqSt.idle] using hr,
        Or.inr (Or.inr (Or.inr (by simp [ReqSt.step, ReqSt.taken, ReqSt.check, ReqSt.idle, hne])))⟩,
        by simp [ReqSt.step, ReqSt.taken, ReqSt.check, ReqSt.remaining, ReqSt.issued, ReqSt.idle]⟩
    | false =>
      refine ⟨⟨by simpa [ReqSt.step, ReqSt.taken, ReqSt.idle] using hd,
        by simpa [ReqSt.step, ReqSt.taken, ReqSt.idle] using ha,
        by simp [ReqSt.step, ReqSt.taken, ReqSt.check, ReqSt.idle, hck]; omega,
        Or.inr (Or.inr (Or.inl (by simp [ReqSt.step, ReqSt.taken, ReqSt.check, ReqSt.idle])))⟩, ?_⟩
      simp [ReqSt.step, ReqSt.taken, ReqSt.check, ReqSt.remaining, ReqSt.issued, ReqSt.idle, hck]
      rw [← chunks_cons hc hd hne]

/-- A run of the machine. -/
def ReqRun (c : Cfg) (σ : ℕ → ReqSt) (i : ℕ → ReqIn) : Prop := ∀ t, σ (t + 1) = (σ t).step c (i t)

theorem run_inv {c : Cfg} (hc : c.Ok) {σ : ℕ → ReqSt} {i : ℕ → ReqIn} (h : ReqRun c σ i)
    (h0 : σ 0 = ReqSt.init) (T : ℕ) :
    (σ T).Inv c ∧
    ((List.range T).flatMap fun t => ((σ t).issued (i t)).toList) ++ (σ T).remaining c =
      (List.range T).flatMap fun t => ((σ t).taken (i t)).toList.flatMap fun q =>
        c.issue (c.maskAddr q.1) (q.2 % 2 ^ (c.aw + 1)) := by
  induction T with
  | zero => rw [h0]; exact ⟨init_inv c, rfl⟩
  | succ T ih =>
    obtain ⟨ih1, ih2⟩ := ih
    obtain ⟨s1, s2⟩ := step_inv hc ih1 (i T)
    rw [h T]
    refine ⟨s1, ?_⟩
    rw [List.range_succ, List.flatMap_append, List.flatMap_append, List.append_assoc, ← ih2, List.append_assoc]
    simp only [List.flatMap_cons, List.flatMap_nil, List.append_nil]
    rw [s2]

theorem remaining_idle {c : Cfg} {σ : ReqSt} (h : σ.Inv c) (hi : σ.idle = true) : σ.remaining c = [] := by
  simp only [ReqSt.idle, Bool.and_eq_true, Bool.not_eq_true'] at hi
  rcases h.phase with ⟨h1, h2, h3, h4⟩ | ⟨-, h2, -⟩ | ⟨-, -, h3⟩ | ⟨-, -, h3, -⟩
  · simp [ReqSt.remaining, h1, h2, h4]
  · rw [hi.1] at h2; cases h2
  · rw [hi.2] at h3; cases h3
  · rw [hi.2] at h3; cases h3

/-- How far the machine is from being idle. -/
def ReqSt.todo (σ : ReqSt) : ℕ :=
  if σ.idle then 0 else if σ.st1 then 2 * σ.rest + 2 else if σ.start then 2 * σ.rest + 3 else 2 * σ.rest + 1

/-- A busy machine moves on when the FIFO has room and the burst is acknowledged, and otherwise waits. -/
theorem todo_step {c : Cfg} (hc : c.Ok) {σ : ReqSt} (h : σ.Inv c) (i : ReqIn) (hb : σ.idle = false) :
    (σ.step c i).todo < σ.todo ∨ ((σ.step c i).todo = σ.todo ∧ (σ.step c i).st1 = σ.st1 ∧
      (if σ.st1 then i.ack = false else i.almostFull = true)) := by
  obtain ⟨st1, start, busy, cont, addr, rest, cur⟩ := σ
  obtain ⟨ask, af, ack⟩ := i
  obtain ⟨hd, ha, hr, hph⟩ := h
  simp only at hd ha hr hph
  have hck := check4KB_eq hc hd ha hr
  have hle := next_le c addr rest
  rcases hph with ⟨rfl, rfl, rfl, rfl⟩ | ⟨rfl, rfl, rfl⟩ | ⟨rfl, rfl, rfl⟩ | ⟨rfl, rfl, rfl, rfl, hne⟩
  · simp [ReqSt.idle] at hb
  · cases af with
    | true => right; simp [ReqSt.todo, ReqSt.step, ReqSt.idle, ReqSt.check, ReqSt.taken]
    | false => left; simp [ReqSt.todo, ReqSt.step, ReqSt.idle, ReqSt.check, ReqSt.taken, hck]; omega
  · cases ack with
    | false => right; simp [ReqSt.todo, ReqSt.step, ReqSt.idle, ReqSt.check, ReqSt.taken]
    | true =>
      left
      by_cases h0 : rest = 0 <;> simp [ReqSt.todo, ReqSt.step, ReqSt.idle, ReqSt.check, ReqSt.taken, h0]
  · have := next_pos hc hd hne
    cases af with
    | true => right; simp [ReqSt.todo, ReqSt.step, ReqSt.idle, ReqSt.check, ReqSt.taken]
    | false => left; simp [ReqSt.todo, ReqSt.step, ReqSt.idle, ReqSt.check, ReqSt.taken, hck]; omega

theorem becomes_idle {c : Cfg} (hc : c.Ok) {σ : ℕ → ReqSt} {i : ℕ → ReqIn} (h : ReqRun c σ i)
    (h0 : σ 0 = ReqSt.init) (hf : ∀ t, ∃ u ≥ t, (i u).almostFull = false) (ha : ∀ t, ∃ u ≥ t, (i u).ack = true)
    (T : ℕ) : ∃ U ≥ T, (σ U).idle = true := by
  induction hm : (σ T).todo using Nat.strong_induction_on generalizing T with
  | _ m ih =>
    subst hm
    by_cases hi : (σ T).idle = true
    · exact ⟨T, le_rfl, hi⟩
    -- some later state is closer
    suffices hs : ∃ U ≥ T, (σ U).todo < (σ T).todo by
      obtain ⟨U, hU, hlt⟩ := hs
      obtain ⟨V, hV, hv⟩ := ih _ hlt U rfl
      exact ⟨V, by omega, hv⟩
    by_contra hno
    have hno' : ∀ U ≥ T, (σ T).todo ≤ (σ U).todo := fun U hU => by
      by_contra hlt; exact hno ⟨U, hU, by omega⟩
    have hst : ∀ k, (σ (T + k)).todo = (σ T).todo ∧ (σ (T + k)).st1 = (σ T).st1 ∧
        (if (σ T).st1 then (i (T + k)).ack = false else (i (T + k)).almostFull = true) := by
      have hpos : 0 < (σ T).todo := by
        unfold ReqSt.todo
        simp only [Bool.not_eq_true] at hi
        rw [hi]; split
        · contradiction
        · split
          · omega
          · split <;> omega
      have key : ∀ k, (σ (T + k)).todo = (σ T).todo → (σ (T + k)).st1 = (σ T).st1 →
          ((σ (T + k + 1)).todo = (σ T).todo ∧ (σ (T + k + 1)).st1 = (σ T).st1) ∧
          (if (σ T).st1 then (i (T + k)).ack = false else (i (T + k)).almostFull = true) := by
        intro k h1 h2
        have hid : (σ (T + k)).idle = false := by
          by_contra hh
          simp only [Bool.not_eq_false] at hh
          simp only [ReqSt.todo, hh, if_true] at h1
          have : 0 < (σ T).todo := hpos
          simp only [ReqSt.todo] at this
          omega
        rcases todo_step hc (run_inv hc h h0 (T + k)).1 (i (T + k)) hid with hlt | ⟨e1, e2, e3⟩
        · rw [← h (T + k)] at hlt
          have := hno' (T + k + 1) (by omega)
          omega
        · rw [← h (T + k)] at e1 e2
          exact ⟨⟨e1.trans h1, e2.trans h2⟩, by rw [← h2]; exact e3⟩
      intro k
      induction k with
      | zero => exact ⟨rfl, rfl, (key 0 rfl rfl).2⟩
      | succ k ihk =>
        have := (key k ihk.1 ihk.2.1).1
        exact ⟨this.1, this.2, (key (k + 1) this.1 this.2).2⟩
    by_cases hs1 : (σ T).st1 = true
    · obtain ⟨u, hu, hack⟩ := ha T
      have := (hst (u - T)).2.2
      rw [if_pos hs1, Nat.add_sub_cancel' hu, hack] at this
      cases this
    · obtain ⟨u, hu, haf⟩ := hf T
      have := (hst (u - T)).2.2
      rw [if_neg hs1, Nat.add_sub_cancel' hu, haf] at this
      cases this

end Dma
