import Verif.Model.Uart
import Mathlib.Data.Nat.Basic
import Mathlib.Tactic.Ring

/-!
# C53: the UART transmits every accepted byte exactly once
-/

namespace Uart

/-- `x` are the registers of a transmitter over time from reset on, for the inputs `din`, `enable`. -/
structure TxRun (W : ℕ) (din : ℕ → ℕ) (enable : ℕ → Bool) (x : ℕ → Tx) : Prop where
  init : x 0 = Tx.init
  step : ∀ t, x (t + 1) = (x t).step W false (din t) (enable t)

/-- `r` are the registers of a receiver over time from reset on, for the line `rxd`. -/
structure RxRun (W : ℕ) (rxd : ℕ → Bool) (r : ℕ → Rx) : Prop where
  init : r 0 = Rx.init
  step : ∀ t, r (t + 1) = (r t).step W false (rxd t)

theorem toWc_lt {W n : ℕ} (h : n < W) : toWc W (n : Int) = n := by
  have h2 : n < 2 ^ wcWidth W := Nat.lt_of_lt_of_le h (Nat.le_of_lt Nat.lt_log2_self)
  rw [toWc, Int.emod_eq_of_lt (Int.natCast_nonneg _) (by exact_mod_cast h2), Int.toNat_natCast]

theorem toWc_full {W : ℕ} (h : 0 < W) : toWc W ((W : Int) - 1) = W - 1 := by
  have := toWc_lt (W := W) (n := W - 1) (by omega)
  rwa [Int.ofNat_sub (by omega)] at this

theorem toWc_half {W : ℕ} (h : 2 ≤ W) : toWc W ((W : Int) / 2 - 1) = W / 2 - 1 := by
  have := toWc_lt (W := W) (n := W / 2 - 1) (by omega)
  rw [Int.ofNat_sub (by omega)] at this
  exact_mod_cast this

/-! ## The transmitter -/

/-- The shift register after `k` bits of the byte `d`. -/
def sh (d : ℕ) : ℕ → ℕ
  | 0 => d * 2
  | k + 1 => 2 ^ 8 + sh d k / 2

/-- The bits on the line for the byte `d`: start bit 0, the bits of `d` starting with the lowest, then 1. -/
def frame (d : ℕ) : ℕ → Bool
  | 0 => false
  | k + 1 => if k < 8 then d.testBit k else true

theorem sh_bit (d : ℕ) (hd : d < 2 ^ 8) (k : ℕ) (hk : k ≤ 9) : (sh d k % 2 == 1) = frame d k := by
  have hb : ∀ j, d.testBit j = (d / 2 ^ j % 2 == 1) := by
    intro j
    rw [Nat.testBit_eq_decide_div_mod_eq]
    cases h : d / 2 ^ j % 2 == 1 <;> simp_all
  have hc : k = 0 ∨ k = 1 ∨ k = 2 ∨ k = 3 ∨ k = 4 ∨ k = 5 ∨ k = 6 ∨ k = 7 ∨ k = 8 ∨ k = 9 := by omega
  rcases hc with rfl | rfl | rfl | rfl | rfl | rfl | rfl | rfl | rfl | rfl <;> simp only [sh, frame, hb] <;>
    rw [Bool.eq_iff_iff] <;> simp <;> omega

section
variable {W : ℕ} {din : ℕ → ℕ} {enable : ℕ → Bool} {x : ℕ → Tx}

/-- The transmitter accepts the byte `din t` at the clock edge after cycle `t`. -/
def Acc (x : ℕ → Tx) (enable : ℕ → Bool) (t : ℕ) : Prop := (x t).ready = true ∧ enable t = true

/-- The registers `j` cycles after a byte was accepted, `j ≤ 10 * W`. -/
theorem tx_frame (hW : 0 < W) (hx : TxRun W din enable x) {a : ℕ} (h0 : (x a).st = 0) (he : enable a = true) :
    ∀ k i, k < 10 → i < W → x (a + 1 + k * W + i) =
      ⟨k + 1, false, if k = 0 then true else sh (din a) (k - 1) % 2 == 1, sh (din a) k, W - 1 - i⟩ := by
  have next : ∀ k, k < 10 → (∀ i, i < W → x (a + 1 + k * W + i) =
      ⟨k + 1, false, if k = 0 then true else sh (din a) (k - 1) % 2 == 1, sh (din a) k, W - 1 - i⟩) →
      x (a + 1 + (k + 1) * W) = ⟨k + 2, false, sh (din a) k % 2 == 1, sh (din a) (k + 1), W - 1⟩ := by
    intro k hk h
    have h1 := h (W - 1) (by omega)
    have h2 := hx.step (a + 1 + k * W + (W - 1))
    rw [show a + 1 + k * W + (W - 1) + 1 = a + 1 + (k + 1) * W by rw [Nat.add_mul]; omega, h1] at h2
    rw [h2]
    simp only [Tx.step]
    simp only [Bool.false_eq_true, if_false, Nat.add_eq_zero_iff, Nat.one_ne_zero, and_false,
      if_pos (show k + 1 ≤ 10 by omega), Nat.sub_self, Nat.lt_irrefl, gt_iff_lt, toWc_full hW]
    rfl
  intro k
  induction k with
  | zero =>
    intro i _ hi
    induction i with
    | zero =>
      simp only [Nat.zero_mul, Nat.add_zero]
      rw [hx.step a]
      simp [Tx.step, h0, he, toWc_full hW, sh]
    | succ i ih =>
      rw [show a + 1 + 0 * W + (i + 1) = (a + 1 + 0 * W + i) + 1 by omega, hx.step, ih (by omega)]
      simp only [Tx.step, Bool.false_eq_true, if_false]
      rw [if_neg (by omega), if_pos (by omega), if_pos (by omega)]
      simp only [Tx.mk.injEq, true_and]
      omega
  | succ k ihk =>
    intro i hk hi
    induction i with
    | zero =>
      rw [Nat.add_zero, next k (by omega) (fun i hi => ihk i (by omega) hi)]
      simp
    | succ i ih =>
      rw [← Nat.add_assoc, hx.step, ih (by omega)]
      simp only [Tx.step, Bool.false_eq_true, if_false]
      rw [if_neg (by omega), if_pos (by omega), if_pos (by omega)]
      simp only [Tx.mk.injEq, true_and]
      omega

theorem tx_stop (hW : 0 < W) (hx : TxRun W din enable x) {a : ℕ} (h0 : (x a).st = 0) (he : enable a = true) :
    x (a + 1 + 10 * W) = ⟨11, false, sh (din a) 9 % 2 == 1, sh (din a) 10, W - 1⟩ ∧
    x (a + 2 + 10 * W) = ⟨0, true, sh (din a) 9 % 2 == 1, sh (din a) 10, W - 1⟩ := by
  have h1 := tx_frame hW hx h0 he 9 (W - 1) (by omega) (by omega)
  have h2 := hx.step (a + 1 + 9 * W + (W - 1))
  rw [show a + 1 + 9 * W + (W - 1) + 1 = a + 1 + 10 * W by omega, h1] at h2
  have h3 : x (a + 1 + 10 * W) = ⟨11, false, sh (din a) 9 % 2 == 1, sh (din a) 10, W - 1⟩ := by
    rw [h2]
    simp [Tx.step, toWc_full hW, sh]
  refine ⟨h3, ?_⟩
  rw [show a + 2 + 10 * W = (a + 1 + 10 * W) + 1 by omega, hx.step, h3]
  simp [Tx.step]

/-- At any time the transmitter is idle, or in the middle of a byte accepted earlier. -/
theorem tx_cases (hW : 0 < W) (hd : ∀ t, din t < 2 ^ 8) (hx : TxRun W din enable x) (t : ℕ) :
    ((x t).st = 0 ∧ (x t).ready = true ∧ (x t).txd = true) ∨
      ∃ a, (x a).st = 0 ∧ enable a = true ∧ a < t ∧ t ≤ a + 1 + 10 * W := by
  induction t with
  | zero => left; rw [hx.init]; exact ⟨rfl, rfl, rfl⟩
  | succ t ih =>
    rcases ih with ⟨h1, h2, h3⟩ | ⟨a, h1, h2, h3, h4⟩
    · cases he : enable t with
      | true => exact .inr ⟨t, h1, he, by omega, by omega⟩
      | false =>
        left
        rw [hx.step]
        simp [Tx.step, h1, h2, he]
    · by_cases hlt : t + 1 ≤ a + 1 + 10 * W
      · exact .inr ⟨a, h1, h2, by omega, hlt⟩
      · left
        rw [show t + 1 = a + 2 + 10 * W by omega, (tx_stop hW hx h1 h2).2]
        refine ⟨rfl, rfl, ?_⟩
        show (sh (din a) 9 % 2 == 1) = true
        rw [sh_bit _ (hd a) 9 (by omega)]
        rfl

/-- Position in the frame. -/
theorem split {a t : ℕ} (hW : 0 < W) (h1 : a < t) (h2 : t < a + 1 + 10 * W) :
    ∃ k i, k < 10 ∧ i < W ∧ t = a + 1 + k * W + i := by
  refine ⟨(t - (a + 1)) / W, (t - (a + 1)) % W, ?_, Nat.mod_lt _ hW, ?_⟩
  · rw [Nat.div_lt_iff_lt_mul hW]; omega
  · have := Nat.div_add_mod (t - (a + 1)) W
    rw [Nat.mul_comm] at this
    omega

theorem tx_busy (hW : 0 < W) (hx : TxRun W din enable x) {a t : ℕ} (h0 : (x a).st = 0) (he : enable a = true)
    (h1 : a < t) (h2 : t ≤ a + 1 + 10 * W) : (x t).st ≠ 0 ∧ (x t).ready = false := by
  by_cases h : t = a + 1 + 10 * W
  · rw [h, (tx_stop hW hx h0 he).1]; simp
  · obtain ⟨k, i, hk, hi, rfl⟩ := split hW h1 (by omega)
    rw [tx_frame hW hx h0 he k i hk hi]
    simp

/-- `ready` is the idle state. -/
theorem ready_iff (hW : 0 < W) (hd : ∀ t, din t < 2 ^ 8) (hx : TxRun W din enable x) (t : ℕ) :
    (x t).ready = true ↔ (x t).st = 0 := by
  rcases tx_cases hW hd hx t with ⟨h1, h2, _⟩ | ⟨a, h1, h2, h3, h4⟩
  · simp [h1, h2]
  · have := tx_busy hW hx h1 h2 h3 h4
    simp [this]

theorem acc_iff (hW : 0 < W) (hd : ∀ t, din t < 2 ^ 8) (hx : TxRun W din enable x) (t : ℕ) :
    Acc x enable t ↔ (x t).st = 0 ∧ enable t = true := by
  rw [Acc, ready_iff hW hd hx]

theorem acc_far (hW : 0 < W) (hd : ∀ t, din t < 2 ^ 8) (hx : TxRun W din enable x) {a b : ℕ} (ha : Acc x enable a)
    (hb : Acc x enable b) (h : a < b) : a + 10 * W + 2 ≤ b := by
  rw [acc_iff hW hd hx] at ha hb
  by_contra hc
  exact (tx_busy hW hx ha.1 ha.2 h (by omega)).1 hb.1

/-- **C53, transmitter.**  A byte accepted in cycle `a` appears on the line from cycle `a + W + 1` on: bit `k` of the
    frame (start bit, 8 data bits, stop bit) for `W` cycles (the stop bit: at least `W`).  The transmitter is not ready
    for `10 * W + 1` cycles, then it is; and the line is high whenever no frame is transmitted. -/
theorem c53_tx (hW : 0 < W) (hd : ∀ t, din t < 2 ^ 8) (hx : TxRun W din enable x) :
    (∀ a, Acc x enable a →
      (∀ k i, k < 10 → i < W → (x (a + W + 1 + k * W + i)).txd = frame (din a) k) ∧
      (∀ t, a < t → t ≤ a + 1 + 10 * W → (x t).ready = false) ∧ (x (a + 2 + 10 * W)).ready = true) ∧
    (∀ t, (∀ a, Acc x enable a → t < a + W + 1 ∨ a + 10 * W + 1 ≤ t) → (x t).txd = true) ∧
    (∀ t, (∀ a, Acc x enable a → t ≤ a ∨ a + 1 + 10 * W < t) → (x t).ready = true) := by
  have idle1 : ∀ t, (∀ a, Acc x enable a → t < a + W + 1 ∨ a + 10 * W + 1 ≤ t) → (x t).txd = true := by
    intro t h
    rcases tx_cases hW hd hx t with ⟨_, _, h3⟩ | ⟨a, h1, h2, h3, h4⟩
    · exact h3
    · rcases h a ((acc_iff hW hd hx a).2 ⟨h1, h2⟩) with h5 | h5
      · obtain ⟨i, rfl⟩ : ∃ i, t = a + 1 + 0 * W + i := ⟨t - (a + 1), by omega⟩
        rw [tx_frame hW hx h1 h2 0 i (by omega) (by omega)]
        rfl
      · rw [show t = a + 1 + 10 * W by omega, (tx_stop hW hx h1 h2).1]
        show (sh (din a) 9 % 2 == 1) = true
        rw [sh_bit _ (hd a) 9 (by omega)]
        rfl
  refine ⟨?_, idle1, ?_⟩
  · intro a ha
    obtain ⟨h1, h2⟩ := (acc_iff hW hd hx a).1 ha
    refine ⟨?_, fun t h3 h4 => (tx_busy hW hx h1 h2 h3 h4).2, ?_⟩
    · intro k i hk hi
      by_cases h9 : k = 9
      · subst h9
        show _ = true
        apply idle1
        intro b hb
        rcases Nat.lt_trichotomy a b with h | h | h
        · have := acc_far hW hd hx ha hb h
          left; omega
        · subst h; right; omega
        · have := acc_far hW hd hx hb ha h
          right; omega
      · have := tx_frame hW hx h1 h2 (k + 1) i (by omega) hi
        rw [show a + 1 + (k + 1) * W + i = a + W + 1 + k * W + i by rw [Nat.add_mul]; omega] at this
        rw [this]
        show (if k + 1 = 0 then true else sh (din a) k % 2 == 1) = _
        rw [if_neg (by omega), sh_bit _ (hd a) k (by omega)]
    · rw [(tx_stop hW hx h1 h2).2]
  · intro t h
    rcases tx_cases hW hd hx t with ⟨_, h2, _⟩ | ⟨a, h1, h2, h3, h4⟩
    · exact h2
    · rcases h a ((acc_iff hW hd hx a).2 ⟨h1, h2⟩) with h5 | h5 <;> omega

end

/-! ## The receiver -/

section
variable {W : ℕ} {rxd : ℕ → Bool} {r : ℕ → Rx}

theorem shift_lt (b : Bool) {m : ℕ} (h : m < 2 ^ 9) : Rx.shift b m < 2 ^ 9 := by
  cases b <;> simp [Rx.shift] <;> omega

theorem mem_lt (hr : RxRun W rxd r) (t : ℕ) : (r t).mem < 2 ^ 9 := by
  induction t with
  | zero => rw [hr.init]; decide
  | succ t ih =>
    rw [hr.step]
    simp only [Rx.step, Bool.false_eq_true, if_false]
    split
    · exact shift_lt _ ih
    · split
      · split
        · exact ih
        · exact shift_lt _ ih
      · split <;> exact ih

theorem shift_bit (b : Bool) {m : ℕ} (h : m < 2 ^ 9) (j : ℕ) :
    (Rx.shift b m).testBit j = if j < 8 then m.testBit (j + 1) else (b && j == 8) := by
  rw [Rx.shift, Nat.mul_comm, Nat.testBit_two_pow_mul_add _ (by omega)]
  by_cases hj : j < 8
  · rw [if_pos hj, if_pos hj, Nat.testBit_succ]
  · rw [if_neg hj, if_neg hj]
    by_cases h8 : j = 8
    · subst h8; cases b <;> rfl
    · have : (j == 8) = false := by simp [h8]
      rw [this, Bool.and_false]
      apply Nat.testBit_lt_two_pow
      have : b.toNat < 2 ^ 1 := by cases b <;> decide
      exact Nat.lt_of_lt_of_le this (Nat.pow_le_pow_right (by omega) (by omega))

/-- The shift register after sampling `s 0, ..., s k`. -/
def rm (s : ℕ → Bool) (m : ℕ) : ℕ → ℕ
  | 0 => Rx.shift (s 0) m
  | k + 1 => Rx.shift (s (k + 1)) (rm s m k)

theorem rm_lt (s : ℕ → Bool) {m : ℕ} (h : m < 2 ^ 9) : ∀ k, rm s m k < 2 ^ 9
  | 0 => shift_lt _ h
  | k + 1 => shift_lt _ (rm_lt s h k)

theorem rm_bit (s : ℕ → Bool) {m : ℕ} (h : m < 2 ^ 9) : ∀ k j, j ≤ 8 → 8 ≤ k + j → (rm s m k).testBit j = s (k + j - 8)
  | 0, j, h1, h2 => by
    have : j = 8 := by omega
    subst this
    rw [rm, shift_bit _ h]
    simp
  | k + 1, j, h1, h2 => by
    rw [rm, shift_bit _ (rm_lt s h k)]
    by_cases hj : j < 8
    · rw [if_pos hj, rm_bit s h k (j + 1) (by omega) (by omega)]
      congr 1
      omega
    · rw [if_neg hj]
      have : j = 8 := by omega
      subst this
      simp

/-- The samples of the receiver that has seen the start bit in cycle `T`. -/
def sample (W : ℕ) (rxd : ℕ → Bool) (T k : ℕ) : Bool := rxd (T + W / 2 + k * W)

/-- State 1. -/
theorem rx_start (hW : 2 ≤ W) (hr : RxRun W rxd r) {T : ℕ} (h0 : (r T).st = 0) (hT : rxd T = false) :
    ∀ i, i < W / 2 → (i + 2 ≤ W / 2 ∨ rxd (T + W / 2 - 1) = false) →
      r (T + 1 + i) = ⟨1, (r T).dout, false, Rx.shift false (r T).mem, W / 2 - 1 - i⟩ := by
  intro i
  induction i with
  | zero =>
    intro _ _
    rw [Nat.add_zero, hr.step]
    simp [Rx.step, h0, hT, toWc_half hW]
  | succ i ih =>
    intro hi hc
    rw [← Nat.add_assoc, hr.step, ih (by omega) (by omega)]
    simp only [Rx.step, Bool.false_eq_true, if_false, Nat.one_ne_zero]
    rw [if_pos (by omega), if_pos (by omega), if_neg]
    · simp only [Rx.mk.injEq, true_and]
      omega
    · rintro ⟨-, h1, h2⟩
      rcases hc with hc | hc
      · omega
      · rw [show T + W / 2 - 1 = T + 1 + i by omega, h2] at hc
        cases hc

/-- The other states. -/
theorem rx_frame (hW : 2 ≤ W) (hr : RxRun W rxd r) {T : ℕ} (h0 : (r T).st = 0) (hT : rxd T = false)
    (hc : rxd (T + W / 2 - 1) = false) : ∀ k i, k < 9 → i < W → r (T + W / 2 + 1 + k * W + i) =
      ⟨k + 2, (r T).dout, false, rm (sample W rxd T) (Rx.shift false (r T).mem) k, W - 1 - i⟩ := by
  have next : ∀ k, k < 9 → (∀ i, i < W → r (T + W / 2 + 1 + k * W + i) =
      ⟨k + 2, (r T).dout, false, rm (sample W rxd T) (Rx.shift false (r T).mem) k, W - 1 - i⟩) →
      r (T + W / 2 + 1 + (k + 1) * W) =
        ⟨k + 3, (r T).dout, false, rm (sample W rxd T) (Rx.shift false (r T).mem) (k + 1), W - 1⟩ := by
    intro k hk h
    have h1 := h (W - 1) (by omega)
    have h2 := hr.step (T + W / 2 + 1 + k * W + (W - 1))
    have e1 : T + W / 2 + 1 + k * W + (W - 1) = T + W / 2 + (k + 1) * W := by rw [Nat.add_mul]; omega
    rw [h1, e1, show T + W / 2 + (k + 1) * W + 1 = T + W / 2 + 1 + (k + 1) * W by omega] at h2
    rw [h2]
    simp only [Rx.step, Bool.false_eq_true, if_false]
    rw [if_neg (by omega), if_pos (by omega), if_neg (by omega), toWc_full (by omega)]
    rfl
  intro k
  induction k with
  | zero =>
    intro i _ hi
    induction i with
    | zero =>
      have h1 := rx_start hW hr h0 hT (W / 2 - 1) (by omega) (.inr hc)
      have h2 := hr.step (T + 1 + (W / 2 - 1))
      rw [h1, show T + 1 + (W / 2 - 1) = T + W / 2 by omega] at h2
      rw [show T + W / 2 + 1 + 0 * W + 0 = T + W / 2 + 1 by omega, h2]
      simp only [Rx.step, Bool.false_eq_true, if_false, Nat.one_ne_zero]
      rw [if_pos (by omega), if_neg (by omega), toWc_full (by omega)]
      simp [rm, sample]
    | succ i ih =>
      rw [← Nat.add_assoc, hr.step, ih (by omega)]
      simp only [Rx.step, Bool.false_eq_true, if_false]
      rw [if_neg (by omega), if_pos (by omega), if_pos (by omega), if_neg (by omega)]
      simp only [Rx.mk.injEq, true_and]
      omega
  | succ k ihk =>
    intro i hk hi
    induction i with
    | zero =>
      rw [Nat.add_zero, next k (by omega) (fun i hi => ihk i (by omega) hi)]
      simp
    | succ i ih =>
      rw [← Nat.add_assoc, hr.step, ih (by omega)]
      simp only [Rx.step, Bool.false_eq_true, if_false]
      rw [if_neg (by omega), if_pos (by omega), if_pos (by omega), if_neg (by omega)]
      simp only [Rx.mk.injEq, true_and]
      omega

theorem rx_end (hW : 2 ≤ W) (hr : RxRun W rxd r) {T : ℕ} (h0 : (r T).st = 0) (hT : rxd T = false)
    (hc : rxd (T + W / 2 - 1) = false) :
    r (T + W / 2 + 1 + 9 * W) =
      ⟨11, (r T).dout, false, rm (sample W rxd T) (Rx.shift false (r T).mem) 9, W - 1⟩ ∧
    r (T + W / 2 + 2 + 9 * W) = ⟨0, rm (sample W rxd T) (Rx.shift false (r T).mem) 9 % 2 ^ 8, true,
      rm (sample W rxd T) (Rx.shift false (r T).mem) 9, W - 1⟩ := by
  have h1 := rx_frame hW hr h0 hT hc 8 (W - 1) (by omega) (by omega)
  have h2 := hr.step (T + W / 2 + 1 + 8 * W + (W - 1))
  rw [h1, show T + W / 2 + 1 + 8 * W + (W - 1) = T + W / 2 + 9 * W by omega,
    show T + W / 2 + 9 * W + 1 = T + W / 2 + 1 + 9 * W by omega] at h2
  have h3 : r (T + W / 2 + 1 + 9 * W) =
      ⟨11, (r T).dout, false, rm (sample W rxd T) (Rx.shift false (r T).mem) 9, W - 1⟩ := by
    rw [h2]
    simp only [Rx.step, Bool.false_eq_true, if_false]
    rw [if_neg (by omega), if_pos (by omega), if_neg (by omega), toWc_full (by omega)]
    rfl
  refine ⟨h3, ?_⟩
  rw [show T + W / 2 + 2 + 9 * W = (T + W / 2 + 1 + 9 * W) + 1 by omega, hr.step, h3]
  simp [Rx.step]

theorem rx_busy (hW : 2 ≤ W) (hr : RxRun W rxd r) {T : ℕ} (h0 : (r T).st = 0) (hT : rxd T = false)
    (hc : rxd (T + W / 2 - 1) = false) {t : ℕ} (h1 : T < t) (h2 : t ≤ T + W / 2 + 1 + 9 * W) :
    (r t).st ≠ 0 ∧ (r t).valid = false := by
  by_cases h3 : t < T + W / 2 + 1
  · obtain ⟨i, rfl⟩ : ∃ i, t = T + 1 + i := ⟨t - (T + 1), by omega⟩
    rw [rx_start hW hr h0 hT i (by omega) (.inr hc)]
    simp
  · by_cases h4 : t = T + W / 2 + 1 + 9 * W
    · rw [h4, (rx_end hW hr h0 hT hc).1]; simp
    · have : ∃ k i, k < 9 ∧ i < W ∧ t = T + W / 2 + 1 + k * W + i := by
        refine ⟨(t - (T + W / 2 + 1)) / W, (t - (T + W / 2 + 1)) % W, ?_, Nat.mod_lt _ (by omega), ?_⟩
        · rw [Nat.div_lt_iff_lt_mul (by omega)]; omega
        · have := Nat.div_add_mod (t - (T + W / 2 + 1)) W
          rw [Nat.mul_comm] at this
          omega
      obtain ⟨k, i, hk, hi, rfl⟩ := this
      rw [rx_frame hW hr h0 hT hc k i hk hi]
      simp

/-- **C53, receiver.**  If the idle receiver sees the line low in cycle `T` and still low in the middle of the start bit,
    it samples the 8 data bits in the middle of the following bit times and presents them, for one cycle,
    `9 * W + W / 2 + 2` cycles after `T`. -/
theorem c53_rx (hW : 2 ≤ W) (hr : RxRun W rxd r) {T : ℕ} (h0 : (r T).st = 0) (hT : rxd T = false)
    (hc : rxd (T + W / 2 - 1) = false) :
    (∀ t, T < t → t < T + 9 * W + W / 2 + 2 → (r t).valid = false) ∧
    (r (T + 9 * W + W / 2 + 2)).valid = true ∧ (r (T + 9 * W + W / 2 + 3)).valid = false ∧
    (r (T + 9 * W + W / 2 + 2)).dout < 2 ^ 8 ∧
    ∀ j < 8, (r (T + 9 * W + W / 2 + 2)).dout.testBit j = rxd (T + W / 2 + (j + 1) * W) := by
  have he := (rx_end hW hr h0 hT hc).2
  rw [show T + W / 2 + 2 + 9 * W = T + 9 * W + W / 2 + 2 by omega] at he
  refine ⟨fun t h1 h2 => (rx_busy hW hr h0 hT hc h1 (by omega)).2, by rw [he], ?_, ?_, ?_⟩
  · rw [show T + 9 * W + W / 2 + 3 = (T + 9 * W + W / 2 + 2) + 1 by omega, hr.step, he]
    simp [Rx.step]
  · rw [he]; exact Nat.mod_lt _ (by decide)
  · intro j hj
    rw [he]
    show (rm (sample W rxd T) (Rx.shift false (r T).mem) 9 % 2 ^ 8).testBit j = _
    rw [Nat.testBit_mod_two_pow, rm_bit _ (shift_lt _ (mem_lt hr T)) 9 j (by omega) (by omega)]
    simp only [hj, decide_true, Bool.true_and, sample]
    congr 3
    omega

/-- **C53, false start.**  If the line is high again in the middle of the start bit, the receiver returns to idle
    without reporting a byte. -/
theorem c53_glitch (hW : 4 ≤ W) (hr : RxRun W rxd r) {T : ℕ} (h0 : (r T).st = 0) (hT : rxd T = false)
    (hc : rxd (T + W / 2 - 1) = true) :
    (∀ t, T < t → t ≤ T + W / 2 → (r t).valid = false) ∧ (r (T + W / 2)).st = 0 := by
  have h1 := rx_start (by omega) hr h0 hT (W / 2 - 2) (by omega) (.inl (by omega))
  have h2 := hr.step (T + 1 + (W / 2 - 2))
  have h3 : r (T + W / 2) = ⟨0, (r T).dout, false, Rx.shift false (r T).mem, 0⟩ := by
    rw [show T + 1 + (W / 2 - 2) + 1 = T + W / 2 by omega, h1,
      show T + 1 + (W / 2 - 2) = T + W / 2 - 1 by omega, hc] at h2
    rw [h2]
    simp only [Rx.step, Bool.false_eq_true, if_false, Nat.one_ne_zero]
    rw [if_pos (by omega), if_pos (by omega), if_pos ⟨trivial, by omega, trivial⟩]
    simp only [Rx.mk.injEq, true_and]
    omega
  refine ⟨fun t h4 h5 => ?_, by rw [h3]⟩
  by_cases h6 : t = T + W / 2
  · rw [h6, h3]
  · obtain ⟨i, rfl⟩ : ∃ i, t = T + 1 + i := ⟨t - (T + 1), by omega⟩
    rw [rx_start (by omega) hr h0 hT i (by omega) (.inl (by omega))]

/-- **C53, clock tolerance.**  A sender with `P` cycles per bit is understood if neither the start of the last data bit
    nor its end is overtaken by the sample point. -/
theorem c53_tolerance (hW : 2 ≤ W) (hr : RxRun W rxd r) {T P d : ℕ} (hd : d < 2 ^ 8) (h0 : (r T).st = 0)
    (hl : ∀ k i, k < 9 → i < P → rxd (T + k * P + i) = frame d k)
    (h1 : W / 2 < P) (h2 : 8 * P ≤ W / 2 + 8 * W) (h3 : W / 2 + 8 * W < 9 * P) :
    (r (T + 9 * W + W / 2 + 2)).valid = true ∧ (r (T + 9 * W + W / 2 + 2)).dout = d := by
  have hT : rxd T = false := by simpa [frame] using hl 0 0 (by omega) (by omega)
  have hc : rxd (T + W / 2 - 1) = false := by
    have := hl 0 (W / 2 - 1) (by omega) (by omega)
    rwa [show T + 0 * P + (W / 2 - 1) = T + W / 2 - 1 by omega] at this
  obtain ⟨-, g2, -, g3, g4⟩ := c53_rx hW hr h0 hT hc
  refine ⟨g2, Nat.eq_of_testBit_eq fun j => ?_⟩
  by_cases hj : j < 8
  · rw [g4 j hj]
    have hlo : (j + 1) * P ≤ W / 2 + (j + 1) * W := by
      by_cases hp : P ≤ W
      · exact Nat.le_trans (Nat.mul_le_mul_left _ hp) (Nat.le_add_left _ _)
      · obtain ⟨c, rfl⟩ : ∃ c, P = W + c := ⟨P - W, by omega⟩
        rw [Nat.mul_add]
        have : (j + 1) * c ≤ 8 * c := Nat.mul_le_mul_right _ (by omega)
        omega
    have hhi : W / 2 + (j + 1) * W < (j + 2) * P := by
      by_cases hp : W ≤ P
      · have h5 : (j + 1) * W ≤ (j + 1) * P := Nat.mul_le_mul_left _ hp
        have h6 : (j + 2) * P = (j + 1) * P + P := by rw [← Nat.succ_mul]
        omega
      · obtain ⟨c, rfl⟩ : ∃ c, W = P + c := ⟨W - P, by omega⟩
        have h5 : (j + 1) * c ≤ 8 * c := Nat.mul_le_mul_right _ (by omega)
        have h6 : (j + 2) * P = (j + 1) * P + P := by rw [← Nat.succ_mul]
        rw [Nat.mul_add]
        omega
    have h6 : (j + 2) * P = (j + 1) * P + P := by rw [← Nat.succ_mul]
    have := hl (j + 1) (W / 2 + (j + 1) * W - (j + 1) * P) (by omega) (by omega)
    rw [show T + (j + 1) * P + (W / 2 + (j + 1) * W - (j + 1) * P) = T + W / 2 + (j + 1) * W by omega] at this
    rw [this]
    simp [frame, hj]
  · have e : ∀ n < 2 ^ 8, n.testBit j = false := fun n hn =>
      Nat.testBit_lt_two_pow (Nat.lt_of_lt_of_le hn (Nat.pow_le_pow_right (by omega) (by omega)))
    rw [e _ g3, e _ hd]

end

/-! ## Transmitter and receiver together -/

section
variable {W : ℕ} {din : ℕ → ℕ} {enable : ℕ → Bool} {x : ℕ → Tx} {r : ℕ → Rx}

/-- **C53.**  With the output of a transmitter connected to the input of a receiver with the same bit time `W ≥ 2`, the
    receiver reports exactly the accepted bytes, each once, `10 * W + W / 2 + 3` cycles after it was accepted. -/
theorem c53_link (hW : 2 ≤ W) (hd : ∀ t, din t < 2 ^ 8) (hx : TxRun W din enable x)
    (hr : RxRun W (fun t => (x t).txd) r) (t : ℕ) :
    ((r t).valid = true ↔ ∃ a, Acc x enable a ∧ t = a + 10 * W + W / 2 + 3) ∧
    ∀ a, Acc x enable a → t = a + 10 * W + W / 2 + 3 → (r t).dout = din a := by
  have hW0 : 0 < W := by omega
  obtain ⟨hline, hidle, -⟩ := c53_tx hW0 hd hx
  -- the receiver is idle unless a frame is being received
  have main : ∀ t, (∃ a, Acc x enable a ∧ a + W + 1 < t ∧ t ≤ a + 10 * W + W / 2 + 2) ∨
      ((r t).st = 0 ∧ (∀ a, Acc x enable a → ¬ (a + W + 1 < t ∧ t ≤ a + 10 * W + W / 2 + 2))) := by
    intro t
    induction t using Nat.strong_induction_on with
    | _ t ih =>
      by_cases hb : ∃ a, Acc x enable a ∧ a + W + 1 < t ∧ t ≤ a + 10 * W + W / 2 + 2
      · exact .inl hb
      · have hb' : ∀ a, Acc x enable a → ¬ (a + W + 1 < t ∧ t ≤ a + 10 * W + W / 2 + 2) :=
          fun a ha h => hb ⟨a, ha, h⟩
        refine .inr ⟨?_, hb'⟩
        cases t with
        | zero => rw [hr.init]; rfl
        | succ t =>
          rcases ih t (by omega) with ⟨a, ha, h1, h2⟩ | ⟨h0, hno⟩
          · have e : t + 1 = (a + W + 1) + W / 2 + 2 + 9 * W := by
              have := hb' a ha
              omega
            have hT : (r (a + W + 1)).st = 0 := by
              rcases ih (a + W + 1) (by omega) with ⟨b, hb1, h3, h4⟩ | h
              · have := acc_far hW0 hd hx hb1 ha (by omega)
                omega
              · exact h.1
            rw [e, (rx_end hW hr hT ?_ ?_).2]
            · simpa [frame] using (hline a ha).1 0 0 (by omega) (by omega)
            · have := (hline a ha).1 0 (W / 2 - 1) (by omega) (by omega)
              rwa [show a + W + 1 + 0 * W + (W / 2 - 1) = a + W + 1 + W / 2 - 1 by omega] at this
          · have hl : (x t).txd = true := by
              apply hidle
              intro a ha
              have h1 := hno a ha
              have h2 := hb' a ha
              omega
            rw [hr.step, hl]
            simp [Rx.step, h0]
  have idle : ∀ a, Acc x enable a → (r (a + W + 1)).st = 0 := by
    intro a ha
    rcases main (a + W + 1) with ⟨b, hb1, h3, h4⟩ | h
    · have := acc_far hW0 hd hx hb1 ha (by omega)
      omega
    · exact h.1
  have recv : ∀ a, Acc x enable a → (r (a + 10 * W + W / 2 + 3)).valid = true ∧
      (r (a + 10 * W + W / 2 + 3)).dout = din a := by
    intro a ha
    have := c53_tolerance (T := a + W + 1) (P := W) (d := din a) hW hr (hd a) (idle a ha)
      (fun k i hk hi => (hline a ha).1 k i (by omega) hi) (by omega) (by omega) (by omega)
    rwa [show a + W + 1 + 9 * W + W / 2 + 2 = a + 10 * W + W / 2 + 3 by omega] at this
  refine ⟨⟨fun hv => ?_, fun ⟨a, ha, e⟩ => e ▸ (recv a ha).1⟩, fun a ha e => e ▸ (recv a ha).2⟩
  have busy : ∀ a, Acc x enable a → a + W + 1 < t → t ≤ a + 10 * W + W / 2 + 2 → (r t).valid = false := by
    intro a ha h1 h2
    refine (rx_busy hW hr (idle a ha) ?_ ?_ h1 (by omega)).2
    · simpa [frame] using (hline a ha).1 0 0 (by omega) (by omega)
    · have := (hline a ha).1 0 (W / 2 - 1) (by omega) (by omega)
      rwa [show a + W + 1 + 0 * W + (W / 2 - 1) = a + W + 1 + W / 2 - 1 by omega] at this
  rcases main t with ⟨a, ha, h1, h2⟩ | ⟨h0, hno⟩
  · rw [busy a ha h1 h2] at hv
    cases hv
  · cases t with
    | zero => rw [hr.init] at hv; cases hv
    | succ t =>
      rcases main t with ⟨a, ha, h1, h2⟩ | ⟨h0', -⟩
      · refine ⟨a, ha, ?_⟩
        have := hno a ha
        omega
      · rw [hr.step] at hv
        simp [Rx.step, h0'] at hv

end

/-- `s` are the states of a thread using the transmitter `x` from reset on; `call t` is the value if the thread starts
    a `send` in cycle `t` (when it is not in the middle of one). -/
structure SendRun (W : ℕ) (call : ℕ → Option ℕ) (s : ℕ → Send) (x : ℕ → Tx) : Prop where
  init : s 0 = Send.init
  step : ∀ t, s (t + 1) = (s t).step (call t) (x t).ready
  tx : TxRun W (fun t => (s t).din) (fun t => (s t).enable) x

section
variable {W : ℕ} {call : ℕ → Option ℕ} {s : ℕ → Send} {x : ℕ → Tx} {r : ℕ → Rx}

theorem send_inv (hs : SendRun W call s x) (hW : 0 < W) (t : ℕ) : (s t).din < 2 ^ 8 ∧ (s t).ph ≤ 2 ∧
    ((s t).enable = true ↔ (s t).ph = 1) ∧ ((s t).ph ≤ 1 → (x t).ready = true ∧ (x t).st = 0) := by
  have hx := hs.tx
  have hdin : ∀ t, (s t).din < 2 ^ 8 := by
    intro t
    induction t with
    | zero => rw [hs.init]; decide
    | succ t ih =>
      rw [hs.step]
      simp only [Send.step]
      split
      · cases call t with
        | none => exact ih
        | some v => exact Nat.mod_lt _ (by decide)
      · split
        · exact ih
        · split <;> exact ih
  have hready := ready_iff hW hdin hx
  refine ⟨hdin t, ?_⟩
  induction t with
  | zero => rw [hs.init, hx.init]; decide
  | succ t ih =>
    obtain ⟨h1, h2, h3⟩ := ih
    have hph : (s t).ph = 0 ∨ (s t).ph = 1 ∨ (s t).ph = 2 := by omega
    rcases hph with h | h | h
    · have he : (s t).enable = false := by
        cases e : (s t).enable with
        | false => rfl
        | true => rw [h2.1 e] at h; cases h
      obtain ⟨g1, g2⟩ := h3 (by omega)
      have hx1 : (x (t + 1)).ready = true ∧ (x (t + 1)).st = 0 := by
        rw [hx.step]
        simp [Tx.step, g2, he, g1]
      rw [hs.step]
      simp only [Send.step, h, if_true]
      cases call t with
      | none => simp only [h, he]; simpa using hx1
      | some v => simpa using hx1
    · rw [hs.step]
      simp [Send.step, h]
    · have he : (s t).enable = false := by
        cases e : (s t).enable with
        | false => rfl
        | true => rw [h2.1 e] at h; cases h
      rw [hs.step]
      simp only [Send.step, h]
      cases hr : (x t).ready with
      | false => simp [h, he]
      | true =>
        have hst := (hready t).1 hr
        have hx1 : (x (t + 1)).ready = true ∧ (x (t + 1)).st = 0 := by
          rw [hx.step]
          simp [Tx.step, hst, he, hr]
        simpa [he] using hx1

/-- **C53, `send`.**  With a receiver of the same bit time on the line, exactly the values of the calls of `send` are
    received, each once and `10 * W + W / 2 + 4` cycles after the call; and a call ends after `10 * W + 3` cycles. -/
theorem c53_send (hW : 2 ≤ W) (hs : SendRun W call s x) (hr : RxRun W (fun t => (x t).txd) r) :
    (∀ t, (r t).valid = true ↔ ∃ c v, (s c).ph = 0 ∧ call c = some v ∧ t = c + 10 * W + W / 2 + 4) ∧
    (∀ c v, (s c).ph = 0 → call c = some v → (r (c + 10 * W + W / 2 + 4)).dout = v % 2 ^ 8) ∧
    (∀ c v, (s c).ph = 0 → call c = some v →
      (∀ t, c < t → t ≤ c + 10 * W + 3 → (s t).ph ≠ 0) ∧ (s (c + 10 * W + 4)).ph = 0) := by
  have hW0 : 0 < W := by omega
  have hdin : ∀ t, (s t).din < 2 ^ 8 := fun t => (send_inv hs hW0 t).1
  have hacc : ∀ t, Acc x (fun t => (s t).enable) t ↔ (s t).ph = 1 := by
    intro t
    obtain ⟨-, h1, h2, h3⟩ := send_inv hs hW0 t
    constructor
    · intro h
      exact h2.1 h.2
    · intro h
      exact ⟨(h3 (by omega)).1, h2.2 h⟩
  have hcall : ∀ c v, (s c).ph = 0 → call c = some v → s (c + 1) = ⟨1, v % 2 ^ 8, true⟩ := by
    intro c v h1 h2
    rw [hs.step, h2]
    simp [Send.step, h1]
  have hback : ∀ t, (s t).ph = 1 → ∃ c v, t = c + 1 ∧ (s c).ph = 0 ∧ call c = some v := by
    intro t h
    cases t with
    | zero => rw [hs.init] at h; cases h
    | succ c =>
      rw [hs.step] at h
      simp only [Send.step] at h
      split at h
      · rename_i h0
        cases hv : call c with
        | none => rw [hv] at h; simp [h0] at h
        | some v => exact ⟨c, v, rfl, h0, hv⟩
      · split at h
        · cases h
        · split at h
          · cases h
          · contradiction
  have hlink := c53_link hW hdin hs.tx hr
  refine ⟨fun t => ?_, fun c v h1 h2 => ?_, fun c v h1 h2 => ?_⟩
  · rw [(hlink t).1]
    constructor
    · rintro ⟨a, ha, e⟩
      obtain ⟨c, v, rfl, h1, h2⟩ := hback a ((hacc a).1 ha)
      exact ⟨c, v, h1, h2, by omega⟩
    · rintro ⟨c, v, h1, h2, e⟩
      exact ⟨c + 1, (hacc _).2 (by rw [hcall c v h1 h2]), by omega⟩
  · have h3 := hcall c v h1 h2
    have := (hlink (c + 10 * W + W / 2 + 4)).2 (c + 1) ((hacc _).2 (by rw [h3])) (by omega)
    rw [this, h3]
  · have h3 := hcall c v h1 h2
    have ha := (hacc (c + 1)).2 (by rw [h3])
    obtain ⟨-, g2, g3⟩ := (c53_tx hW0 hdin hs.tx).1 (c + 1) ha
    have h4 : ∀ i, i ≤ 10 * W + 1 → (s (c + 2 + i)).ph = 2 := by
      intro i
      induction i with
      | zero =>
        intro _
        rw [show c + 2 + 0 = (c + 1) + 1 by omega, hs.step, h3]
        rfl
      | succ i ih =>
        intro hi
        rw [← Nat.add_assoc, hs.step, g2 (c + 2 + i) (by omega) (by omega)]
        simp [Send.step, ih (by omega)]
    refine ⟨fun t ht1 ht2 => ?_, ?_⟩
    · by_cases h5 : t = c + 1
      · rw [h5, h3]; exact Nat.one_ne_zero
      · obtain ⟨i, rfl⟩ : ∃ i, t = c + 2 + i := ⟨t - (c + 2), by omega⟩
        rw [h4 i (by omega)]
        decide
    · have h5 := h4 (10 * W + 1) (by omega)
      rw [show c + 10 * W + 4 = (c + 2 + (10 * W + 1)) + 1 by omega, hs.step,
        show c + 2 + (10 * W + 1) = c + 1 + 2 + 10 * W by omega, g3]
      rw [show c + 2 + (10 * W + 1) = c + 1 + 2 + 10 * W by omega] at h5
      simp [Send.step, h5]

end

/-! ## Concrete runs -/

/-- The three machines together. -/
def sys (W : ℕ) (call : ℕ → Option ℕ) : ℕ → Send × Tx × Rx
  | 0 => (Send.init, Tx.init, Rx.init)
  | t + 1 =>
    let (s, x, r) := sys W call t
    (s.step (call t) x.ready, x.step W false s.din s.enable, r.step W false x.txd)

theorem sys_run (W : ℕ) (call : ℕ → Option ℕ) : SendRun W call (fun t => (sys W call t).1) (fun t => (sys W call t).2.1) ∧
    RxRun W (fun t => (sys W call t).2.1.txd) (fun t => (sys W call t).2.2) :=
  ⟨⟨rfl, fun _ => rfl, ⟨rfl, fun _ => rfl⟩⟩, ⟨rfl, fun _ => rfl⟩⟩

/-- Example (`W = 2`): the values 0x53 and 0x16A are sent one after the other; the second is received as 0x6A. -/
example : let call := fun t => if t = 1 then some 0x53 else if t = 30 then some 0x16A else none
    ((sys 2 call 26).2.2.valid = true ∧ (sys 2 call 26).2.2.dout = 0x53) ∧
    ((sys 2 call 55).2.2.valid = true ∧ (sys 2 call 55).2.2.dout = 0x6A) := by
  intro call
  obtain ⟨h1, h2⟩ := sys_run 2 call
  obtain ⟨g1, g2, -⟩ := c53_send (by decide) h1 h2
  have p1 : (sys 2 call 1).1.ph = 0 := by decide
  have p2 : (sys 2 call 30).1.ph = 0 := by decide +kernel
  exact ⟨⟨(g1 26).2 ⟨1, 0x53, p1, rfl, rfl⟩, g2 1 0x53 p1 rfl⟩,
    ⟨(g1 55).2 ⟨30, 0x16A, p2, rfl, rfl⟩, g2 30 0x16A p2 rfl⟩⟩

/-- Example for `c53_tolerance`: 16 cycles per bit understand a sender with 17. -/
example : 16 / 2 < 17 ∧ 8 * 17 ≤ 16 / 2 + 8 * 16 ∧ 16 / 2 + 8 * 16 < 9 * 17 := by decide

/-- **C53 fails for `W = 1`** (`baudrate = clockfreq`): `waitcount(int(1 / 2) - 1)` wraps to 1, and a byte 0 is received
    as 0xC0. -/
theorem c53_not_w1 : let call := fun t => if t = 0 then some 0 else none
    (sys 1 call 0).1.ph = 0 ∧ (∀ t, t ≠ 0 → call t = none) ∧
    ∃ t, (sys 1 call t).2.2.valid = true ∧ (sys 1 call t).2.2.dout = 0xC0 := by
  refine ⟨by decide, fun t h => by simp [h], 16, ?_⟩
  decide +kernel

end Uart
