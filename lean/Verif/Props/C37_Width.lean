import Verif.Lemmas.DmaData
import Verif.Lemmas.DmaFsm
import Verif.Props.C08_Burst
import Mathlib.Tactic.NormNum

/-!
# C37: width conversion of the DMA
-/

namespace Dma

/-! ## The RAM side of a read -/

/-- The RAM writes of a burst of `n` words requested at the edge before cycle 0, when the burst machine
    (thread/ram.py:258-301, C09) is given `wd`, `wv` and never a last flag in cycles `0..t`. -/
def ramWrites (aw addr stride n : ℕ) (s0 : Burst.WState) (wv : ℕ → Bool) (wd : ℕ → ℕ) (t : ℕ) : List (ℕ × ℕ) :=
  Burst.emitted aw (Burst.wstep aw s0 (⟨true, addr, stride, n, 0, false, false, false⟩ : Burst.WIn ℕ))
    ((List.range (t + 1)).map fun s => ⟨false, 0, 0, 0, wd s, wv s, false, false⟩)

theorem taken_nolast {α : Type} (L : ℕ) (ws : List α) :
    Burst.taken L (ws.map fun w => (w, false)) = ws.take L := by
  induction L generalizing ws with
  | zero => simp [Burst.taken]
  | succ L ih =>
    cases ws with
    | nil => simp [Burst.taken]
    | cons w ws => simp [Burst.taken, ih]

/-- The RAM writes are the first `n` words offered, in order. -/
theorem ramWrites_eq (aw addr stride n : ℕ) (hn : 0 < n) (s0 : Burst.WState) (h0 : s0.busy = false) (wv : ℕ → Bool)
    (wd : ℕ → ℕ) (t : ℕ) :
    ramWrites aw addr stride n s0 wv wd t =
      Burst.placed aw addr stride ((collect (fun t => if wv t then some (wd t) else none) (t + 1)).take n) := by
  have h := (Burst.c09_write_burst aw s0 (⟨true, addr, stride, n, 0, false, false, false⟩ : Burst.WIn ℕ)
    ((List.range (t + 1)).map fun s => ⟨false, 0, 0, 0, wd s, wv s, false, false⟩) h0 rfl hn (by simp)).1
  rw [ramWrites, h]
  dsimp only
  rw [← taken_nolast]
  congr 2
  simp only [Burst.supplied, collect]
  induction List.range (t + 1) with
  | nil => rfl
  | cons s l ih =>
    cases hv : wv s <;> simp [hv] at ih ⊢ <;> exact ih

/-! ## Read, RAM word wider than AXI word -/

/-- A run of the narrow read machine: `v t`, `d t` are `rvalid` and `rdata` in cycle `t` after state 2 was
    entered for `n` RAM words. -/
structure RNarrow.Run (pack dw n : ℕ) (v : ℕ → Bool) (d : ℕ → ℕ) (σ : ℕ → RNarrow) : Prop where
  start : ∃ w < 2 ^ (pack * dw), σ 0 = RNarrow.enter n w
  step : ∀ t, σ (t + 1) = (σ t).step pack dw (v t) (d t)
  width : ∀ t, d t < 2 ^ dw

/-- The AXI beats taken in the first `t` cycles (`rvalid` while `rready`). -/
def RNarrow.beats (v : ℕ → Bool) (d : ℕ → ℕ) (σ : ℕ → RNarrow) (t : ℕ) : List ℕ :=
  collect (fun t => if (σ t).on && v t then some (d t) else none) t

/-- The words offered to the RAM burst up to cycle `t`. -/
def RNarrow.words (σ : ℕ → RNarrow) (t : ℕ) : List ℕ :=
  collect (fun t => if (σ t).wvalid then some (σ t).wdata else none) (t + 1)

structure RNarrow.Inv (pack dw n : ℕ) (σ : RNarrow) (C W : List ℕ) : Prop where
  count : σ.count < pack
  wd : σ.wdata < 2 ^ (pack * dw)
  small : ∀ x ∈ W, x < 2 ^ (pack * dw)
  onn : σ.on = true → W.flatMap (split pack dw) ++ split σ.count dw (σ.wdata / 2 ^ (dw * (pack - σ.count))) = C ∧
    W.length + σ.size = n ∧ 0 < σ.size
  off : σ.on = false → (W.take n).flatMap (split pack dw) = C ∧ n ≤ W.length

theorem RNarrow.inv_step {pack dw n k : ℕ} (hk : pack = 2 ^ k) (hp : 2 ≤ pack) {σ : RNarrow} {C W : List ℕ}
    (h : RNarrow.Inv pack dw n σ C W) (v : Bool) (d : ℕ) (hd : d < 2 ^ dw) :
    RNarrow.Inv pack dw n (σ.step pack dw v d) (C ++ (if σ.on && v then some d else none).toList)
      (W ++ (if (σ.step pack dw v d).wvalid then some (σ.step pack dw v d).wdata else none).toList) := by
  have hm : countMod pack = pack := by rw [hk, countMod_pow]
  obtain ⟨hc, hw, hs, hon, hoff⟩ := h
  cases hO : σ.on with
  | false =>
    obtain ⟨h1, h2⟩ := hoff hO
    have e : σ.step pack dw v d = σ := by simp [RNarrow.step, hO]
    rw [e]
    refine ⟨hc, hw, ?_, ?_, fun _ => ⟨?_, by simp; omega⟩⟩
    · intro x hx
      rw [List.mem_append] at hx
      rcases hx with hx | hx
      · exact hs x hx
      · split at hx
        · simp at hx; subst hx; exact hw
        · simp at hx
    · rw [hO]; simp
    · rw [List.take_append_of_le_length h2]; simpa using h1
  | true =>
    obtain ⟨h1, h2, h3⟩ := hon hO
    cases v with
    | false =>
      have e : σ.step pack dw false d = { σ with wvalid := false } := by simp [RNarrow.step, hO]
      rw [e]
      exact ⟨hc, hw, by simpa using hs, fun _ => ⟨by simpa using h1, by simpa using h2, h3⟩,
        fun h => by simp [hO] at h⟩
    | true =>
      have hcat := cat_lt (d := d) (x := σ.wdata) (w := dw) (by omega : 0 < pack) hd hw
      have hsp := split_cat (d := d) (x := σ.wdata) (w := dw) hc hd hw
      by_cases hfull : σ.count = pack - 1
      · have e : σ.step pack dw true d = ⟨!decide (σ.size ≤ 1), 0,
            d * 2 ^ (pack * dw - dw) + σ.wdata / 2 ^ dw, true, σ.size - 1⟩ := by
          simp [RNarrow.step, hO, hfull]
        rw [e]
        have hsp' : split pack dw (d * 2 ^ (pack * dw - dw) + σ.wdata / 2 ^ dw) =
            split σ.count dw (σ.wdata / 2 ^ (dw * (pack - σ.count))) ++ [d] := by
          rw [← hsp, hfull]; simp
          rw [show pack - 1 + 1 = pack by omega]
        have hW : (W ++ [d * 2 ^ (pack * dw - dw) + σ.wdata / 2 ^ dw]).flatMap (split pack dw) = C ++ [d] := by
          rw [List.flatMap_append, ← h1, List.append_assoc]
          simp [hsp']
        refine ⟨by dsimp; omega, hcat, ?_, ?_, ?_⟩
        · intro x hx
          simp at hx
          rcases hx with hx | hx
          · exact hs x hx
          · subst hx; exact hcat
        · intro hon'
          simp at hon'
          exact ⟨by simpa using hW, by simp; omega, by dsimp; omega⟩
        · intro hoff'
          simp at hoff'
          refine ⟨?_, by simp; omega⟩
          rw [List.take_of_length_le (by simp; omega)]
          simpa using hW
      · have e : σ.step pack dw true d = ⟨true, σ.count + 1,
            d * 2 ^ (pack * dw - dw) + σ.wdata / 2 ^ dw, false, σ.size⟩ := by
          have hlt : σ.count < pack - 1 := by omega
          simp [RNarrow.step, hO, hfull, hlt, hm]
          exact Nat.mod_eq_of_lt (by omega)
        rw [e]
        refine ⟨by dsimp; omega, hcat, by simpa using hs, fun _ => ⟨?_, by simpa using h2, h3⟩, by simp⟩
        dsimp
        rw [show pack - (σ.count + 1) = pack - 1 - σ.count by omega, hsp, ← h1]
        simp

theorem RNarrow.inv {pack dw n k : ℕ} (hk : pack = 2 ^ k) (hp : 2 ≤ pack) (hn : 0 < n) {v : ℕ → Bool} {d : ℕ → ℕ}
    {σ : ℕ → RNarrow} (R : RNarrow.Run pack dw n v d σ) (t : ℕ) :
    RNarrow.Inv pack dw n (σ t) (RNarrow.beats v d σ t) (RNarrow.words σ t) := by
  induction t with
  | zero =>
    obtain ⟨w, hw, e⟩ := R.start
    have hW : RNarrow.words σ 0 = [] := by simp [RNarrow.words, collect_succ, e, RNarrow.enter]
    rw [hW, e]
    exact ⟨by simp [RNarrow.enter]; omega, hw, by simp, fun _ => ⟨by simp [RNarrow.enter, RNarrow.beats], by
      simp [RNarrow.enter], hn⟩, by simp [RNarrow.enter]⟩
  | succ t ih =>
    have := RNarrow.inv_step hk hp ih (v t) (d t) (R.width t)
    rw [← R.step t] at this
    rw [RNarrow.words, collect_succ, RNarrow.beats, collect_succ]
    exact this

/-- **C37 (read, RAM word = `pack` AXI words).** For every schedule and data of the AXI read channel: at any time
    the words offered to the RAM (the first `n`, which is all a burst of `n` takes) are, split into `pack` pieces
    least significant first, the AXI beats taken so far up to an incomplete word; the machine stops exactly when
    `n * pack` beats have been taken. -/
theorem c37_read_narrow {pack dw n k : ℕ} (hk : pack = 2 ^ k) (hp : 2 ≤ pack) (hn : 0 < n) {v : ℕ → Bool}
    {d : ℕ → ℕ} {σ : ℕ → RNarrow} (R : RNarrow.Run pack dw n v d σ) (t : ℕ) :
    (∃ rest, rest.length < pack ∧
      ((RNarrow.words σ t).take n).flatMap (split pack dw) ++ rest = RNarrow.beats v d σ t) ∧
    (∀ w ∈ RNarrow.words σ t, w < 2 ^ (pack * dw)) ∧
    (RNarrow.beats v d σ t).length ≤ n * pack ∧
    ((σ t).on = false ↔ (RNarrow.beats v d σ t).length = n * pack) := by
  have h := RNarrow.inv hk hp hn R t
  cases hO : (σ t).on with
  | false =>
    obtain ⟨h1, h2⟩ := h.off hO
    have hl : (RNarrow.beats v d σ t).length = n * pack := by
      rw [← h1, flatMap_split_length, List.length_take, Nat.min_eq_left h2]
    exact ⟨⟨[], by simp; omega, by simpa using h1⟩, h.small, hl.le, by simp [hl]⟩
  | true =>
    obtain ⟨h1, h2, h3⟩ := h.onn hO
    have hl : (RNarrow.beats v d σ t).length < n * pack := by
      rw [← h1, List.length_append, flatMap_split_length, split_length]
      have := h.count
      have := Nat.mul_le_mul_right pack (by omega : (RNarrow.words σ t).length + 1 ≤ n)
      rw [Nat.add_mul] at this
      omega
    refine ⟨⟨split (σ t).count dw ((σ t).wdata / 2 ^ (dw * (pack - (σ t).count))), by simpa using h.count, ?_⟩,
      h.small, hl.le, by simp; omega⟩
    rw [List.take_of_length_le (by omega)]
    exact h1

/-- **C37 (read, RAM word = `pack` AXI words, at the RAM).** The RAM writes of the burst are consecutive words,
    at `addr`, `addr + stride`, ..., whose pieces are the AXI beats in order; when the machine has stopped all `n`
    words have been offered and nothing of the beats is left over. -/
theorem c37_read_narrow_ram {pack dw n k : ℕ} (hk : pack = 2 ^ k) (hp : 2 ≤ pack) (hn : 0 < n) {v : ℕ → Bool}
    {d : ℕ → ℕ} {σ : ℕ → RNarrow} (R : RNarrow.Run pack dw n v d σ) (aw addr stride : ℕ) (s0 : Burst.WState)
    (h0 : s0.busy = false) (t : ℕ) :
    ∃ ws rest, ramWrites aw addr stride n s0 (fun t => (σ t).wvalid) (fun t => (σ t).wdata) t =
        Burst.placed aw addr stride ws ∧
      ws.flatMap (split pack dw) ++ rest = RNarrow.beats v d σ t ∧ rest.length < pack ∧
      (∀ w ∈ ws, w < 2 ^ (pack * dw)) ∧
      ((σ t).on = false → ws.length = n ∧ rest = []) := by
  obtain ⟨⟨rest, hr, he⟩, hs, hlen, hiff⟩ := c37_read_narrow hk hp hn R t
  refine ⟨(RNarrow.words σ t).take n, rest, ramWrites_eq aw addr stride n hn s0 h0 _ _ t, he, hr,
    fun w hw => hs w (List.mem_of_mem_take hw), fun hoff => ?_⟩
  obtain ⟨h1, h2⟩ := (RNarrow.inv hk hp hn R t).off hoff
  refine ⟨by simp [h2], ?_⟩
  rw [h1] at he
  simpa using he

/-- **C37 (disagreement).** A width ratio that is not a power of two is accepted by the code
    (thread/axim.py:940-942 only asks for a multiple), but the counter is too narrow to reach it: no word is ever
    given to the RAM, whatever arrives. -/
theorem c37_read_narrow_not_pow2 {pack dw n : ℕ} (hp : 2 ≤ pack) (hk : ¬ ∃ k, pack = 2 ^ k) {v : ℕ → Bool}
    {d : ℕ → ℕ} {σ : ℕ → RNarrow} (R : RNarrow.Run pack dw n v d σ) (t : ℕ) :
    RNarrow.words σ t = [] ∧ (σ t).on = true := by
  have hlt := countMod_lt (by omega) hk
  have key : ∀ t, (σ t).count < countMod pack ∧ (σ t).wvalid = false ∧ (σ t).on = true := by
    intro t
    induction t with
    | zero =>
      obtain ⟨w, _, e⟩ := R.start
      rw [e]
      exact ⟨Nat.two_pow_pos _, rfl, rfl⟩
    | succ t ih =>
      obtain ⟨h1, _, h3⟩ := ih
      have hne : (σ t).count ≠ pack - 1 := by omega
      rw [R.step t]
      refine ⟨?_, by simp [RNarrow.step, h3, hne], by simp [RNarrow.step, h3, hne]⟩
      simp only [RNarrow.step, h3, if_true]
      cases v t <;> simp [hne]
      · exact h1
      · split
        · exact Nat.mod_lt _ (Nat.two_pow_pos _)
        · exact h1
  refine ⟨?_, (key t).2.2⟩
  simp only [RNarrow.words, collect]
  rw [List.filterMap_eq_nil_iff]
  intro s _
  simp [(key s).2.1]

/-- Non-vacuity: four 8-bit beats with an idle cycle become two 16-bit words. -/
example :
    let v : ℕ → Bool := fun t => t ≠ 1
    let d : ℕ → ℕ := fun t => 16 * t + 1
    let σ : ℕ → RNarrow := fun t => Nat.rec (RNarrow.enter 2 0) (fun t s => s.step 2 8 (v t) (d t)) t
    RNarrow.beats v d σ 9 = [1, 33, 49, 65] ∧ (RNarrow.words σ 9).take 2 = [256 * 33 + 1, 256 * 65 + 49] ∧
      (σ 9).on = false := by decide

/-! ## Read, AXI word wider than RAM word -/

/-- A run of the wide read machine. -/
structure RWide.Run (pack rw n : ℕ) (v : ℕ → Bool) (d : ℕ → ℕ) (σ : ℕ → RWide) : Prop where
  start : ∃ w, σ 0 = RWide.enter n w
  step : ∀ t, σ (t + 1) = (σ t).step pack rw (v t) (d t)

/-- The AXI beats taken in the first `t` cycles. -/
def RWide.beats (v : ℕ → Bool) (d : ℕ → ℕ) (σ : ℕ → RWide) (t : ℕ) : List ℕ :=
  collect (fun t => if (σ t).rready && v t then some (d t) else none) t

/-- The words offered to the RAM burst up to cycle `t`. -/
def RWide.words (rw : ℕ) (σ : ℕ → RWide) (t : ℕ) : List ℕ :=
  collect (fun t => if (σ t).wvalid then some ((σ t).word rw) else none) (t + 1)

structure RWide.Inv (pack rw n : ℕ) (σ : RWide) (C W : List ℕ) : Prop where
  count : σ.count < pack
  onn : σ.on = true →
    W ++ (if σ.count = 0 then [] else split (pack - σ.count) rw (σ.wdata / 2 ^ rw)) = C.flatMap (split pack rw) ∧
    W.length + σ.size = n ∧ 0 < σ.size
  off : σ.on = false → W.take n = (C.flatMap (split pack rw)).take n ∧ n ≤ W.length ∧
    C.length = (n + pack - 1) / pack

theorem RWide.inv_step {pack rw n k : ℕ} (hk : pack = 2 ^ k) (hp : 2 ≤ pack) {σ : RWide} {C W : List ℕ}
    (h : RWide.Inv pack rw n σ C W) (v : Bool) (d : ℕ) :
    RWide.Inv pack rw n (σ.step pack rw v d) (C ++ (if σ.rready && v then some d else none).toList)
      (W ++ (if (σ.step pack rw v d).wvalid then some ((σ.step pack rw v d).word rw) else none).toList) := by
  have hm : countMod pack = pack := by rw [hk, countMod_pow]
  obtain ⟨hc, hon, hoff⟩ := h
  -- the state after a word has been put out
  have key : ∀ (x c : ℕ) (C' : List ℕ), c < pack → σ.on = true →
      W ++ x % 2 ^ rw :: split (pack - 1 - c) rw (x / 2 ^ rw) = C'.flatMap (split pack rw) →
      RWide.Inv pack rw n ⟨!decide (σ.size ≤ 1), if c = pack - 1 then 0 else c + 1, x, true, σ.size - 1⟩ C'
        (W ++ [x % 2 ^ rw]) := by
    intro x c C' hc' hO hW
    obtain ⟨_, h2, h3⟩ := hon hO
    refine ⟨by dsimp; split <;> omega, ?_, ?_⟩
    · intro hon'
      simp at hon'
      refine ⟨?_, by simp; omega, by dsimp; omega⟩
      dsimp
      rw [← hW]
      by_cases hl : c = pack - 1
      · simp [hl]
      · simp [hl, show pack - (c + 1) = pack - 1 - c by omega]
    · intro hoff'
      simp at hoff'
      have hlen := congrArg List.length hW
      simp only [List.length_append, List.length_cons, split_length, flatMap_split_length] at hlen
      refine ⟨?_, by simp; omega, ?_⟩
      · rw [← hW, show W ++ x % 2 ^ rw :: split (pack - 1 - c) rw (x / 2 ^ rw) =
          (W ++ [x % 2 ^ rw]) ++ split (pack - 1 - c) rw (x / 2 ^ rw) by simp]
        exact (List.take_append_of_le_length (by simp; omega)).symm
      · symm
        rw [Nat.div_eq_iff (by omega)]
        omega
  cases hO : σ.on with
  | false =>
    obtain ⟨h1, h2, h3⟩ := hoff hO
    have e : σ.step pack rw v d = σ := by simp [RWide.step, hO]
    rw [e]
    refine ⟨hc, ?_, fun _ => ⟨?_, by simp; omega, by simp [RWide.rready, hO, h3]⟩⟩
    · rw [hO]; simp
    · rw [List.take_append_of_le_length h2, h1]
      simp [RWide.rready, hO]
  | true =>
    obtain ⟨h1, h2, h3⟩ := hon hO
    by_cases h0 : σ.count = 0
    · cases v with
      | false =>
        have e : σ.step pack rw false d = { σ with wvalid := false } := by
          have : ¬ (0 = pack - 1) := by omega
          simp [RWide.step, hO, h0, this]
        rw [e]
        refine ⟨hc, fun _ => ⟨by simpa [h0] using h1, by simpa using h2, h3⟩, fun h => by simp [hO] at h⟩
      | true =>
        have e : σ.step pack rw true d = ⟨!decide (σ.size ≤ 1), 1, d, true, σ.size - 1⟩ := by
          have : ¬ (0 = pack - 1) := by omega
          simp [RWide.step, hO, h0, this, hm]
          exact Nat.mod_eq_of_lt (by omega)
        have := key d 0 (C ++ [d]) (by omega) hO (by
          simp only [h0, if_true, List.append_nil] at h1
          rw [List.flatMap_append, ← h1]
          have : pack = (pack - 1) + 1 := by omega
          conv_rhs => rw [this]
          simp [split_succ])
        have hne : ¬ (0 = pack - 1) := by omega
        rw [if_neg hne] at this
        rw [e]
        simpa [RWide.rready, hO, h0, RWide.word] using this
    · have e : σ.step pack rw v d = ⟨!decide (σ.size ≤ 1), if σ.count = pack - 1 then 0 else σ.count + 1,
          σ.wdata / 2 ^ rw, true, σ.size - 1⟩ := by
        have hpos : 0 < σ.count := by omega
        have hmod : (σ.count + 1) % pack = if σ.count = pack - 1 then 0 else σ.count + 1 := by
          split
          · rename_i h; rw [h, show pack - 1 + 1 = pack by omega, Nat.mod_self]
          · exact Nat.mod_eq_of_lt (by omega)
        simp only [RWide.step, hO, if_true]
        by_cases hl : σ.count = pack - 1
        · simp [hl, show ¬ (pack - 1 = 0) by omega, show 0 < pack - 1 by omega]
        · simp [hl, h0, hpos, hm]
          exact Nat.mod_eq_of_lt (by omega)
      have := key (σ.wdata / 2 ^ rw) σ.count C hc hO (by
        rw [← h1, if_neg h0, show pack - σ.count = pack - 1 - σ.count + 1 by omega, split_succ])
      rw [e]
      simpa [RWide.rready, hO, h0, RWide.word] using this

theorem RWide.inv {pack rw n k : ℕ} (hk : pack = 2 ^ k) (hp : 2 ≤ pack) (hn : 0 < n) {v : ℕ → Bool} {d : ℕ → ℕ}
    {σ : ℕ → RWide} (R : RWide.Run pack rw n v d σ) (t : ℕ) :
    RWide.Inv pack rw n (σ t) (RWide.beats v d σ t) (RWide.words rw σ t) := by
  induction t with
  | zero =>
    obtain ⟨w, e⟩ := R.start
    have hW : RWide.words rw σ 0 = [] := by simp [RWide.words, collect_succ, e, RWide.enter]
    rw [hW, e]
    exact ⟨by simp [RWide.enter]; omega, fun _ => ⟨by simp [RWide.enter, RWide.beats], by
      simp [RWide.enter], hn⟩, by simp [RWide.enter]⟩
  | succ t ih =>
    have := RWide.inv_step hk hp ih (v t) (d t)
    rw [← R.step t] at this
    rw [RWide.words, collect_succ, RWide.beats, collect_succ]
    exact this

/-- **C37 (read, AXI word = `pack` RAM words).** The words offered to the RAM (the first `n`) are at any time an
    initial part of the pieces, least significant first, of the AXI beats taken so far, and lag behind by less than
    one beat; when the machine stops they are the first `n` pieces, and exactly `⌈n / pack⌉` beats were taken. -/
theorem c37_read_wide {pack rw n k : ℕ} (hk : pack = 2 ^ k) (hp : 2 ≤ pack) (hn : 0 < n) {v : ℕ → Bool}
    {d : ℕ → ℕ} {σ : ℕ → RWide} (R : RWide.Run pack rw n v d σ) (t : ℕ) :
    (RWide.words rw σ t).take n <+: (RWide.beats v d σ t).flatMap (split pack rw) ∧
    ((σ t).on = true → (RWide.words rw σ t).length < n ∧
      (RWide.beats v d σ t).length * pack < (RWide.words rw σ t).length + pack) ∧
    ((σ t).on = false → ((RWide.words rw σ t).take n).length = n ∧
      (RWide.words rw σ t).take n = ((RWide.beats v d σ t).flatMap (split pack rw)).take n ∧
      (RWide.beats v d σ t).length = (n + pack - 1) / pack) := by
  have h := RWide.inv hk hp hn R t
  refine ⟨?_, ?_, ?_⟩
  · cases hO : (σ t).on with
    | false => rw [(h.off hO).1]; exact List.take_prefix _ _
    | true =>
      obtain ⟨h1, h2, h3⟩ := h.onn hO
      rw [← h1, List.take_of_length_le (by omega)]
      exact List.prefix_append _ _
  · intro hO
    obtain ⟨h1, h2, h3⟩ := h.onn hO
    refine ⟨by omega, ?_⟩
    rw [← flatMap_split_length pack rw, ← h1, List.length_append]
    have := h.count
    split
    · simp; omega
    · simp; omega
  · intro hO
    obtain ⟨h1, h2, h3⟩ := h.off hO
    exact ⟨by simp [h2], h1, h3⟩

/-- **C37 (read, AXI word = `pack` RAM words, progress).** In every cycle in which the machine runs and either has
    pieces left or is offered a beat, one word is put out. -/
theorem c37_read_wide_progress {pack rw n : ℕ} {v : ℕ → Bool} {d : ℕ → ℕ} {σ : ℕ → RWide}
    (R : RWide.Run pack rw n v d σ) (t : ℕ) (hon : (σ t).on = true) (hv : v t = true ∨ (σ t).rready = false) :
    (RWide.words rw σ (t + 1)).length = (RWide.words rw σ t).length + 1 := by
  have : (σ (t + 1)).wvalid = true := by
    rw [R.step t]
    simp only [RWide.step, hon, if_true]
    rcases hv with hv | hv
    · simp [hv]; omega
    · simp [RWide.rready, hon] at hv
      simp; omega
  rw [RWide.words, collect_succ, this]
  simp [RWide.words]

/-- **C37 (read, AXI word = `pack` RAM words, at the RAM).** The RAM writes of the burst are the pieces of the AXI
    beats, in order, at `addr`, `addr + stride`, ...; all `n` when the machine has stopped. -/
theorem c37_read_wide_ram {pack rw n k : ℕ} (hk : pack = 2 ^ k) (hp : 2 ≤ pack) (hn : 0 < n) {v : ℕ → Bool}
    {d : ℕ → ℕ} {σ : ℕ → RWide} (R : RWide.Run pack rw n v d σ) (aw addr stride : ℕ) (s0 : Burst.WState)
    (h0 : s0.busy = false) (t : ℕ) :
    ∃ m ≤ n, ramWrites aw addr stride n s0 (fun t => (σ t).wvalid) (fun t => (σ t).word rw) t =
        Burst.placed aw addr stride (((RWide.beats v d σ t).flatMap (split pack rw)).take m) ∧
      ((σ t).on = false → m = n ∧ n ≤ (RWide.beats v d σ t).length * pack) := by
  obtain ⟨h1, h2, h3⟩ := c37_read_wide hk hp hn R t
  refine ⟨((RWide.words rw σ t).take n).length, by simp, ?_, fun hoff => ⟨(h3 hoff).1, ?_⟩⟩
  · rw [ramWrites_eq aw addr stride n hn s0 h0, ← List.prefix_iff_eq_take.1 h1]
    rfl
  · have := h1.length_le
    rwa [(h3 hoff).1, flatMap_split_length] at this

/-- Non-vacuity: two 16-bit beats become three 8-bit words. -/
example :
    let v : ℕ → Bool := fun t => t ≠ 0
    let d : ℕ → ℕ := fun t => 256 * t + 7
    let σ : ℕ → RWide := fun t => Nat.rec (RWide.enter 3 0) (fun t s => s.step 2 8 (v t) (d t)) t
    RWide.beats v d σ 9 = [256 + 7, 768 + 7] ∧ (RWide.words 8 σ 9).take 3 = [7, 1, 7] ∧ (σ 9).on = false := by
  decide

/-! ## Read, same width -/

/-- **C37 (read, same width).** The RAM writes of the burst are the AXI beats taken, in order; the machine stops
    when `n` have been taken. -/
theorem c37_read_same {n : ℕ} (hn : 0 < n) {v : ℕ → Bool} {d : ℕ → ℕ} {σ : ℕ → RSame}
    (start : σ 0 = ⟨true, n⟩) (step : ∀ t, σ (t + 1) = (σ t).step (v t)) (aw addr stride : ℕ) (s0 : Burst.WState)
    (h0 : s0.busy = false) (t : ℕ) :
    let beats := collect (fun t => if (σ t).on && v t then some (d t) else none) (t + 1)
    ramWrites aw addr stride n s0 v d t = Burst.placed aw addr stride beats ∧
    ((σ (t + 1)).on = false ↔ beats.length = n) := by
  have key : ∀ t, let beats := collect (fun t => if (σ t).on && v t then some (d t) else none) t
      (collect (fun t => if v t then some (d t) else none) t).take n = beats ∧
      ((σ t).on = true → beats = collect (fun t => if v t then some (d t) else none) t ∧
        beats.length + (σ t).size = n ∧ 0 < (σ t).size) ∧
      ((σ t).on = false → beats.length = n) := by
    intro t
    induction t with
    | zero => simp [start, hn]
    | succ t ih =>
      obtain ⟨i1, i2, i3⟩ := ih
      rw [step t, collect_succ, collect_succ]
      dsimp only at i1 i2 i3 ⊢
      generalize collect (fun t => if (σ t).on && v t then some (d t) else none) t = A at *
      generalize collect (fun t => if v t then some (d t) else none) t = B at *
      cases hO : (σ t).on with
      | false =>
        have hl := i3 hO
        have : B.length ≥ n := by
          rw [← i1] at hl; simp at hl; omega
        refine ⟨?_, by simp [RSame.step, hO], by simpa [RSame.step, hO] using hl⟩
        rw [List.take_append_of_le_length this, i1]; simp
      | true =>
        obtain ⟨j1, j2, j3⟩ := i2 hO
        cases hv : v t with
        | false =>
          refine ⟨by simpa using i1, ?_, by simp [RSame.step, hO]⟩
          intro _
          simpa [RSame.step, hO] using ⟨j1, j2, j3⟩
        | true =>
          have hle : (B ++ [d t]).length ≤ n := by
            rw [← j1]; simp; omega
          refine ⟨?_, ?_, ?_⟩
          · simp only [if_true, Option.toList_some, Bool.and_true]
            rw [List.take_of_length_le hle, j1]
          · intro hon
            simp [RSame.step, hO] at hon
            refine ⟨by simp [j1], by simp [RSame.step, hO]; omega, by simp [RSame.step, hO]; omega⟩
          · intro hoff
            simp [RSame.step, hO] at hoff
            simp; omega
  obtain ⟨k1, k2, k3⟩ := key (t + 1)
  refine ⟨by rw [ramWrites_eq aw addr stride n hn s0 h0, k1], k3, fun hl => ?_⟩
  cases hO : (σ (t + 1)).on with
  | false => rfl
  | true => have := (k2 hO).2; omega

end Dma
