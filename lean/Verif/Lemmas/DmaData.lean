import Verif.Model.DmaData
import Mathlib.Data.Nat.Digits.Defs
import Mathlib.Tactic.Ring

/-! # Splitting words into pieces, and runs of the data machines -/

namespace Dma

/-- The `n` pieces of `w` bits of a word, least significant first. -/
def split (n w x : ℕ) : List ℕ := (List.range n).map fun i => x / 2 ^ (w * i) % 2 ^ w

/-- The last flags of a burst of `n` beats. -/
def flags (n : ℕ) : List Bool := (List.range n).map fun i => decide (i + 1 = n)

@[simp] theorem split_length (n w x : ℕ) : (split n w x).length = n := by simp [split]

@[simp] theorem flags_length (n : ℕ) : (flags n).length = n := by simp [flags]

@[simp] theorem split_zero (w x : ℕ) : split 0 w x = [] := rfl

@[simp] theorem flags_zero : flags 0 = [] := rfl

@[simp] theorem flatMap_split_length (n w : ℕ) (l : List ℕ) : (l.flatMap (split n w)).length = l.length * n := by
  induction l with
  | nil => simp
  | cons x l ih => simp only [List.flatMap_cons, List.length_append, ih, split_length, List.length_cons]; ring

theorem split_succ (n w x : ℕ) : split (n + 1) w x = x % 2 ^ w :: split n w (x / 2 ^ w) := by
  rw [split, List.range_succ_eq_map]
  simp only [List.map_cons, Nat.mul_zero, Nat.pow_zero, Nat.div_one, List.map_map, split, List.cons.injEq, true_and]
  apply List.map_congr_left
  intro i _
  simp only [Function.comp, Nat.div_div_eq_div_mul, ← Nat.pow_add]
  congr 3
  exact (by ring : w * (i + 1) = w + w * i)

theorem flags_succ (n : ℕ) : flags (n + 1) = decide (n = 0) :: flags n := by
  rw [flags, List.range_succ_eq_map]
  simp [flags, eq_comm]

theorem split_snoc (n w a b : ℕ) (ha : a < 2 ^ w) (hb : b < 2 ^ (w * n)) :
    split (n + 1) w (a * 2 ^ (w * n) + b) = split n w b ++ [a] := by
  induction n generalizing b with
  | zero =>
    have : b = 0 := by simpa using hb
    subst this
    simp [split_succ, Nat.mod_eq_of_lt ha]
  | succ n ih =>
    rw [split_succ]
    have e : a * 2 ^ (w * (n + 1)) + b = b + 2 ^ w * (a * 2 ^ (w * n)) := by
      rw [show w * (n + 1) = w + w * n by ring, Nat.pow_add]; ring
    have h1 : (a * 2 ^ (w * (n + 1)) + b) % 2 ^ w = b % 2 ^ w := by rw [e, Nat.add_mul_mod_self_left]
    have h2 : (a * 2 ^ (w * (n + 1)) + b) / 2 ^ w = a * 2 ^ (w * n) + b / 2 ^ w := by
      rw [e, Nat.add_mul_div_left _ _ (Nat.two_pow_pos w)]; ring
    rw [h1, h2, ih (b / 2 ^ w), split_succ n w b]
    · rfl
    · rw [Nat.div_lt_iff_lt_mul (Nat.two_pow_pos w)]
      rwa [show w * (n + 1) = w * n + w by ring, Nat.pow_add] at hb

/-- The pieces determine the word. -/
theorem ofDigits_split (n w x : ℕ) (hx : x < 2 ^ (n * w)) : Nat.ofDigits (2 ^ w) (split n w x) = x := by
  induction n generalizing x with
  | zero =>
    have : x = 0 := by simpa using hx
    simp [this]
  | succ n ih =>
    rw [split_succ, Nat.ofDigits_cons, ih]
    · exact Nat.mod_add_div x (2 ^ w)
    · rw [Nat.div_lt_iff_lt_mul (Nat.two_pow_pos w)]
      rwa [show (n + 1) * w = n * w + w by ring, Nat.pow_add] at hx

/-- A list of words is determined by the list of their pieces. -/
theorem flatMap_split_inj {n w : ℕ} (hn : 0 < n) : ∀ {l m : List ℕ}, (∀ x ∈ l, x < 2 ^ (n * w)) →
    (∀ x ∈ m, x < 2 ^ (n * w)) → l.flatMap (split n w) = m.flatMap (split n w) → l = m
  | [], [], _, _, _ => rfl
  | [], y :: m, _, _, h => by
    have := congrArg List.length h
    simp at this; omega
  | x :: l, [], _, _, h => by
    have := congrArg List.length h
    simp at this; omega
  | x :: l, y :: m, hl, hm, h => by
    simp only [List.flatMap_cons] at h
    obtain ⟨h1, h2⟩ := List.append_inj h (by simp)
    rw [← ofDigits_split n w x (hl x (by simp)), ← ofDigits_split n w y (hm y (by simp)), h1,
      flatMap_split_inj hn (fun x hx => hl x (by simp [hx])) (fun x hx => hm x (by simp [hx])) h2]

/-- What happened in the first `t` cycles. -/
def collect {α : Type} (f : ℕ → Option α) (t : ℕ) : List α := (List.range t).filterMap f

@[simp] theorem collect_zero {α : Type} (f : ℕ → Option α) : collect f 0 = [] := rfl

theorem collect_succ {α : Type} (f : ℕ → Option α) (t : ℕ) :
    collect f (t + 1) = collect f t ++ (f t).toList := by
  simp only [collect, List.range_succ, List.filterMap_append]
  cases h : f t <;> simp [h]

theorem countMod_pow (k : ℕ) : countMod (2 ^ k) = 2 ^ k := by
  simp [countMod, Nat.log2_two_pow]

/-- A size that is not a power of two exceeds the range of the counter. -/
theorem countMod_lt {pack : ℕ} (h1 : 0 < pack) (h : ¬ ∃ k, pack = 2 ^ k) : countMod pack < pack := by
  have := Nat.log2_self_le (n := pack) (by omega)
  unfold countMod
  rcases Nat.lt_or_ge (2 ^ Nat.log2 pack) pack with h' | h'
  · exact h'
  · exact absurd ⟨Nat.log2 pack, by omega⟩ h

end Dma

namespace Dma

/-- Shifting a piece into the top of a word of `pack` pieces keeps it within its width. -/
theorem cat_lt {pack w d x : ℕ} (hp : 0 < pack) (hd : d < 2 ^ w) (hx : x < 2 ^ (pack * w)) :
    d * 2 ^ (pack * w - w) + x / 2 ^ w < 2 ^ (pack * w) := by
  obtain ⟨p, rfl⟩ : ∃ p, pack = p + 1 := ⟨pack - 1, by omega⟩
  rw [show (p + 1) * w = w + p * w by ring] at *
  have h1 : x / 2 ^ w < 2 ^ (p * w) := by
    rw [Nat.div_lt_iff_lt_mul (Nat.two_pow_pos w)]; rwa [Nat.mul_comm, ← Nat.pow_add]
  rw [Nat.add_sub_cancel_left, Nat.pow_add]
  calc d * 2 ^ (p * w) + x / 2 ^ w < d * 2 ^ (p * w) + 2 ^ (p * w) := by omega
    _ = (d + 1) * 2 ^ (p * w) := by ring
    _ ≤ 2 ^ w * 2 ^ (p * w) := Nat.mul_le_mul_right _ hd

/-- The top `c + 1` pieces after shifting a piece in. -/
theorem split_cat {pack w d x c : ℕ} (hc : c < pack) (hd : d < 2 ^ w) (hx : x < 2 ^ (pack * w)) :
    split (c + 1) w ((d * 2 ^ (pack * w - w) + x / 2 ^ w) / 2 ^ (w * (pack - 1 - c))) =
      split c w (x / 2 ^ (w * (pack - c))) ++ [d] := by
  obtain ⟨r, rfl⟩ : ∃ r, pack = c + r + 1 := ⟨pack - 1 - c, by omega⟩
  rw [show c + r + 1 - 1 - c = r by omega, show c + r + 1 - c = r + 1 by omega,
    show (c + r + 1) * w - w = w * c + w * r by
      rw [show (c + r + 1) * w = w * c + w * r + w by ring, Nat.add_sub_cancel]]
  have e : (d * 2 ^ (w * c + w * r) + x / 2 ^ w) / 2 ^ (w * r) = d * 2 ^ (w * c) + x / 2 ^ (w * (r + 1)) := by
    rw [Nat.pow_add, show d * (2 ^ (w * c) * 2 ^ (w * r)) + x / 2 ^ w
        = x / 2 ^ w + 2 ^ (w * r) * (d * 2 ^ (w * c)) by ring,
      Nat.add_mul_div_left _ _ (Nat.two_pow_pos _), Nat.div_div_eq_div_mul, ← Nat.pow_add,
      show w + w * r = w * (r + 1) by ring, Nat.add_comm]
  rw [e]
  apply split_snoc _ _ _ _ hd
  rw [Nat.div_lt_iff_lt_mul (Nat.two_pow_pos _), ← Nat.pow_add]
  rwa [show w * c + w * (r + 1) = (c + r + 1) * w by ring]

end Dma
