import Verif.Model.AxiWord
import Mathlib.Tactic.Ring
import Mathlib.Data.Nat.Bitwise

/-!
# C57: word-indexed access to the AXI memory
-/

namespace AxiWord

/-- Bit `j` of the memory, counted over all its bytes. -/
def memBit (mem : ℕ → ℕ) (j : ℕ) : Bool := (mem (j / 8)).testBit (j % 8)

theorem cat_lt (mem : ℕ → ℕ) (hm : ∀ y, mem y < 256) (a n : ℕ) : cat mem a n < 2 ^ (8 * n) := by
  induction n with
  | zero => simp [cat]
  | succ n ih =>
    have h1 : (256 : ℕ) ^ n = 2 ^ (8 * n) := by rw [Nat.pow_mul]
    have h2 : 2 ^ (8 * (n + 1)) = 2 ^ (8 * n) * 256 := by rw [Nat.mul_succ, Nat.pow_add]
    rw [cat, h1, h2]
    have := hm (a + n)
    have : mem (a + n) * 2 ^ (8 * n) ≤ 255 * 2 ^ (8 * n) := Nat.mul_le_mul_right _ (by omega)
    omega

theorem testBit_cat (mem : ℕ → ℕ) (hm : ∀ y, mem y < 256) (a n j : ℕ) :
    (cat mem a n).testBit j = (decide (j < 8 * n) && memBit mem (8 * a + j)) := by
  induction n with
  | zero => simp [cat]
  | succ n ih =>
    have h1 : (256 : ℕ) ^ n = 2 ^ (8 * n) := by rw [Nat.pow_mul]
    rw [cat, h1, Nat.add_comm, Nat.mul_comm, Nat.testBit_two_pow_mul_add _ (cat_lt mem hm a n)]
    by_cases hj : j < 8 * n
    · rw [if_pos hj, ih]
      simp [hj, show j < 8 * (n + 1) by omega]
    · rw [if_neg hj]
      by_cases hj' : j < 8 * (n + 1)
      · simp only [hj', decide_true, Bool.true_and, memBit]
        rw [show (8 * a + j) / 8 = a + n by omega, show (8 * a + j) % 8 = j - 8 * n by omega]
      · simp only [hj', decide_false, Bool.false_and]
        apply Nat.testBit_lt_two_pow
        exact Nat.lt_of_lt_of_le (hm _) (by
          rw [show (256 : ℕ) = 2 ^ 8 by rfl]
          exact Nat.pow_le_pow_right (by omega) (by omega))

theorem base_eq (idx off bits : ℕ) : 8 * addr idx off bits + shift idx bits = 8 * off + idx * bits := by
  simp only [addr, shift]; omega

/-- **C57, reading.**  Bit `j` of the result is bit `j` of the word, as long as it is in the bytes read. -/
theorem c57_read_bit (mem : ℕ → ℕ) (hm : ∀ y, mem y < 256) (idx off bits j : ℕ) (hj : j < bits) :
    (readWord mem idx off bits).testBit j =
      (decide (idx * bits % 8 + j < 8 * ((bits + 7) / 8)) && memBit mem (8 * off + idx * bits + j)) := by
  rw [readWord, Nat.testBit_mod_two_pow, Nat.testBit_shiftRight, testBit_cat mem hm, ← base_eq, ← Nat.add_assoc]
  simp only [hj, decide_true, Bool.true_and, shift, numBytes]
  rfl

/-- **C57, reading.**  The word is read if it does not extend over the bytes read, see the next theorem. -/
theorem c57_read (mem : ℕ → ℕ) (hm : ∀ y, mem y < 256) (idx off bits : ℕ)
    (hfit : idx * bits % 8 + bits ≤ 8 * ((bits + 7) / 8)) (j : ℕ) :
    (readWord mem idx off bits).testBit j = (decide (j < bits) && memBit mem (8 * off + idx * bits + j)) := by
  by_cases hj : j < bits
  · rw [c57_read_bit mem hm idx off bits j hj]
    simp [hj, show idx * bits % 8 + j < 8 * ((bits + 7) / 8) by omega]
  · rw [readWord, Nat.testBit_mod_two_pow]; simp [hj]

/-- All words fit exactly when the number of bits modulo 8 is 0, 1, 2 or 4. -/
theorem c57_fit (bits : ℕ) : (∀ idx, idx * bits % 8 + bits ≤ 8 * ((bits + 7) / 8)) ↔ (bits % 8 = 1 ∨ bits % 8 = 2 ∨ bits % 4 = 0) := by
  constructor
  · intro h
    by_contra hn
    have hcases : bits % 8 = 3 ∨ bits % 8 = 5 ∨ bits % 8 = 6 ∨ bits % 8 = 7 := by omega
    have key : ∀ idx, idx * bits % 8 = idx * (bits % 8) % 8 := fun idx => by rw [Nat.mul_mod, Nat.mul_mod idx (bits % 8)]; simp
    have h7 := h 7
    have h3 := h 3
    have h1 := h 1
    have h5 := h 5
    have h2 := h 2
    rw [key] at h7 h3 h1 h5 h2
    rcases hcases with h' | h' | h' | h' <;> rw [h'] at h7 h3 h1 h5 h2 <;> omega
  · rintro (h | h | h) idx
    · omega
    · have key : idx * bits % 8 = idx * (bits % 8) % 8 := by rw [Nat.mul_mod, Nat.mul_mod idx (bits % 8)]; simp
      rw [key, h]; omega
    · have key : idx * bits % 8 = idx * (bits % 8) % 8 := by rw [Nat.mul_mod, Nat.mul_mod idx (bits % 8)]; simp
      have : bits % 8 = 0 ∨ bits % 8 = 4 := by omega
      rcases this with h' | h' <;> rw [key, h'] <;> omega

/-- Bits 0 … of a memory of bytes determine it. -/
theorem mem_ext {m m' : ℕ → ℕ} (h : ∀ y, m y < 256) (h' : ∀ y, m' y < 256) (hb : ∀ j, memBit m j = memBit m' j) : m = m' := by
  funext y
  apply Nat.eq_of_testBit_eq
  intro j
  by_cases hj : j < 8
  · have := hb (8 * y + j)
    simp only [memBit] at this
    rwa [show (8 * y + j) / 8 = y by omega, show (8 * y + j) % 8 = j by omega] at this
  · have hp : (256 : ℕ) ≤ 2 ^ j := by
      rw [show (256 : ℕ) = 2 ^ 8 by rfl]
      exact Nat.pow_le_pow_right (by omega) (by omega)
    rw [Nat.testBit_lt_two_pow (Nat.lt_of_lt_of_le (h y) hp), Nat.testBit_lt_two_pow (Nat.lt_of_lt_of_le (h' y) hp)]

theorem testBit_raw (mem : ℕ → ℕ) (hm : ∀ y, mem y < 256) (idx off bits wdata j : ℕ) (hj : j < 8 * numBytes bits) :
    (rawData mem idx off bits wdata).testBit j =
      if shift idx bits ≤ j ∧ j < shift idx bits + bits then wdata.testBit (j - shift idx bits)
      else memBit mem (8 * addr idx off bits + j) := by
  have hmask : (2 ^ (8 * numBytes bits) - 1 - ((2 ^ bits - 1) <<< shift idx bits) % 2 ^ (8 * numBytes bits)).testBit j =
      !(decide (shift idx bits ≤ j) && decide (j - shift idx bits < bits)) := by
    have h := Nat.testBit_two_pow_sub_succ (n := 8 * numBytes bits)
      (x := ((2 ^ bits - 1) <<< shift idx bits) % 2 ^ (8 * numBytes bits)) (Nat.mod_lt _ (Nat.two_pow_pos _)) j
    rw [show 2 ^ (8 * numBytes bits) - 1 - ((2 ^ bits - 1) <<< shift idx bits) % 2 ^ (8 * numBytes bits) =
      2 ^ (8 * numBytes bits) - (((2 ^ bits - 1) <<< shift idx bits) % 2 ^ (8 * numBytes bits) + 1) by omega, h,
      Nat.testBit_mod_two_pow, Nat.testBit_shiftLeft, Nat.testBit_two_pow_sub_one]
    simp [hj]
  simp only [rawData]
  rw [Nat.testBit_or, Nat.testBit_and, hmask, testBit_cat mem hm, Nat.testBit_mod_two_pow, Nat.testBit_shiftLeft,
    Nat.testBit_mod_two_pow]
  simp only [hj, decide_true, Bool.true_and]
  by_cases h1 : shift idx bits ≤ j
  · by_cases h2 : j < shift idx bits + bits
    · simp [h1, h2, show j - shift idx bits < bits by omega]
    · simp [h1, h2, show ¬(j - shift idx bits < bits) by omega]
  · simp [h1]

/-- **C57, writing.**  Of the bits of the bytes accessed, those of the word are replaced by the data; all other bits of the
    memory are kept. -/
theorem c57_write_bit (mem : ℕ → ℕ) (hm : ∀ y, mem y < 256) (idx off bits wdata j : ℕ) :
    memBit (writeWord mem idx off bits wdata) j =
      if 8 * off + idx * bits ≤ j ∧ j < 8 * off + idx * bits + bits ∧
          j < 8 * (off + idx * bits / 8) + 8 * ((bits + 7) / 8) then
        wdata.testBit (j - (8 * off + idx * bits))
      else memBit mem j := by
  have hb := base_eq idx off bits
  have h256 : ∀ k, (256 : ℕ) ^ k = 2 ^ (8 * k) := fun k => by rw [Nat.pow_mul]
  rw [memBit]
  simp only [writeWord]
  by_cases hy : addr idx off bits ≤ j / 8 ∧ j / 8 < addr idx off bits + numBytes bits
  · rw [if_pos hy, h256, show (256 : ℕ) = 2 ^ 8 by rfl, Nat.testBit_mod_two_pow, Nat.testBit_div_two_pow,
      testBit_raw mem hm _ _ _ _ _ (by omega), ← hb]
    rw [show j % 8 + 8 * (j / 8 - addr idx off bits) = j - 8 * addr idx off bits by omega,
      show 8 * addr idx off bits + (j - 8 * addr idx off bits) = j by omega]
    simp only [show j % 8 < 8 by omega, decide_true, Bool.true_and]
    have hn : j < 8 * (off + idx * bits / 8) + 8 * ((bits + 7) / 8) := by
      simp only [addr, numBytes] at hy; omega
    by_cases hc : shift idx bits ≤ j - 8 * addr idx off bits ∧ j - 8 * addr idx off bits < shift idx bits + bits
    · rw [if_pos hc, if_pos ⟨by omega, by omega, hn⟩]
      congr 1
      omega
    · rw [if_neg hc, if_neg (by omega)]
  · rw [if_neg hy, if_neg]
    · rfl
    · simp only [addr, numBytes, shift] at hy hb ⊢
      omega

/-- **C57, writing.**  If the word does not extend over the bytes accessed, exactly its bits are replaced. -/
theorem c57_write (mem : ℕ → ℕ) (hm : ∀ y, mem y < 256) (idx off bits wdata : ℕ)
    (hfit : idx * bits % 8 + bits ≤ 8 * ((bits + 7) / 8)) (j : ℕ) :
    memBit (writeWord mem idx off bits wdata) j =
      if 8 * off + idx * bits ≤ j ∧ j < 8 * off + idx * bits + bits then wdata.testBit (j - (8 * off + idx * bits))
      else memBit mem j := by
  rw [c57_write_bit mem hm]
  have : (8 * off + idx * bits ≤ j ∧ j < 8 * off + idx * bits + bits ∧
          j < 8 * (off + idx * bits / 8) + 8 * ((bits + 7) / 8)) ↔
        (8 * off + idx * bits ≤ j ∧ j < 8 * off + idx * bits + bits) := by omega
  simp only [this]

theorem writeWord_lt (mem : ℕ → ℕ) (hm : ∀ y, mem y < 256) (idx off bits wdata y : ℕ) :
    writeWord mem idx off bits wdata y < 256 := by
  simp only [writeWord]
  split
  · exact Nat.mod_lt _ (by omega)
  · exact hm y

/-- **C57, round trip.**  A word that is written is read back, and the other words are not changed. -/
theorem c57_round (mem : ℕ → ℕ) (hm : ∀ y, mem y < 256) (idx idx' off bits wdata : ℕ)
    (hb : bits % 8 = 1 ∨ bits % 8 = 2 ∨ bits % 4 = 0) :
    readWord (writeWord mem idx off bits wdata) idx' off bits =
      if idx' = idx then wdata % 2 ^ bits else readWord mem idx' off bits := by
  have hfit := (c57_fit bits).mpr hb
  apply Nat.eq_of_testBit_eq
  intro j
  rw [c57_read _ (writeWord_lt mem hm idx off bits wdata) _ _ _ (hfit idx'), c57_write mem hm _ _ _ _ (hfit idx)]
  by_cases hj : j < bits
  · by_cases he : idx' = idx
    · subst he
      rw [if_pos rfl, if_pos ⟨by omega, by omega⟩, Nat.testBit_mod_two_pow]
      congr 2
      omega
    · rw [if_neg he, if_neg, c57_read mem hm _ _ _ (hfit idx')]
      rcases Nat.lt_or_gt_of_ne he with h | h
      · have := Nat.mul_le_mul_right bits (show idx' + 1 ≤ idx by omega)
        rw [Nat.succ_mul] at this
        omega
      · have := Nat.mul_le_mul_right bits (show idx + 1 ≤ idx' by omega)
        rw [Nat.succ_mul] at this
        omega
  · simp only [hj, decide_false, Bool.false_and]
    split
    · rw [Nat.testBit_mod_two_pow]; simp [hj]
    · rw [readWord, Nat.testBit_mod_two_pow]; simp [hj]

/-- A word of 12 bits in the middle of two bytes. -/
example : readWord (writeWord (fun _ => 255) 1 4 12 0xabc) 1 4 12 = 0xabc ∧ (12 : ℕ) % 4 = 0 ∧
    writeWord (fun _ => 255) 1 4 12 0xabc 5 = 0xcf ∧ (1 * 12 % 8 + 12 ≤ 8 * ((12 + 7) / 8)) := by decide +kernel

/-- **C57 fails for other widths**: of the second word of 7 bits only one bit is written. -/
theorem c57_not_width : ¬∀ (mem : ℕ → ℕ) (_ : ∀ y, mem y < 256) (idx off bits wdata : ℕ),
    readWord (writeWord mem idx off bits wdata) idx off bits = wdata % 2 ^ bits := by
  intro h
  have := h (fun _ => 0) (fun _ => by omega) 1 0 7 0x7f
  revert this
  decide +kernel

end AxiWord
