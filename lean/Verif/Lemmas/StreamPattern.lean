import Verif.Model.StreamPattern
import Verif.Lemmas.DmaData
import Mathlib.Data.Int.ModEq
import Mathlib.Algebra.BigOperators.Group.List.Basic
import Mathlib.Tactic.Linarith

/-! # The odometer -/

namespace Pat

/-- The offsets of nested loops: one loop `for i in range(n): ... i * s` for each pair, the first innermost. -/
def visit : List (ℕ × ℤ) → List ℤ
  | [] => [0]
  | (n, s) :: rest => (visit rest).flatMap fun o => (List.range n).map fun i : ℕ => o + (i : ℤ) * s

/-- The number of iterations. -/
def count (pat : List (ℕ × ℤ)) : ℕ := (pat.map Prod.fst).prod

/-- The `m`-th offset. -/
def offs : List (ℕ × ℤ) → ℕ → ℤ
  | [], _ => 0
  | (n, s) :: rest, m => offs rest (m / n) + ((m % n : ℕ) : ℤ) * s

@[simp] theorem count_nil : count [] = 1 := rfl

@[simp] theorem count_cons (p : ℕ × ℤ) (l : List (ℕ × ℤ)) : count (p :: l) = p.1 * count l := by simp [count]

theorem range_mul (a n : ℕ) :
    (List.range a).flatMap (fun q => (List.range n).map fun i => q * n + i) = List.range (a * n) := by
  induction a with
  | zero => simp
  | succ a ih => simp [List.range_succ, List.flatMap_append, ih, Nat.add_mul, List.range_add]

theorem visit_eq (pat : List (ℕ × ℤ)) : visit pat = (List.range (count pat)).map (offs pat) := by
  induction pat with
  | nil => rfl
  | cons p rest ih =>
    obtain ⟨n, s⟩ := p
    rw [visit, ih, count_cons, Nat.mul_comm, ← range_mul, List.map_flatMap, List.flatMap_map]
    congr 1
    funext q
    rw [List.map_map]
    apply List.map_congr_left
    intro i hi
    have hin : i < n := List.mem_range.1 hi
    simp only [Function.comp, offs]
    rw [show (q * n + i) / n = q by
        rw [Nat.add_comm, Nat.add_mul_div_right _ _ (by omega), Nat.div_eq_of_lt hin, Nat.zero_add],
      show (q * n + i) % n = i by rw [Nat.add_comm, Nat.add_mul_mod_self_right, Nat.mod_eq_of_lt hin]]

theorem visit_length (pat : List (ℕ × ℤ)) : (visit pat).length = count pat := by simp [visit_eq]

/-- Padding with `(1, 0)` does not change the offsets. -/
theorem visit_pad (pat : List (ℕ × ℤ)) (k : ℕ) : visit (pat ++ List.replicate k (1, 0)) = visit pat := by
  induction pat with
  | nil =>
    induction k with
    | zero => rfl
    | succ k ih => simp only [List.replicate_succ, List.nil_append, visit] at *; simp [ih]
  | cons p rest ih => obtain ⟨n, s⟩ := p; simp only [List.cons_append, visit, ih]

/-- Sizes that fit their registers. -/
def Ok (aw : ℕ) (pat : List (ℕ × ℤ)) : Prop := ∀ p ∈ pat, 1 ≤ p.1 ∧ p.1 < 2 ^ (aw + 1)

theorem Ok.tail {aw : ℕ} {p : ℕ × ℤ} {l : List (ℕ × ℤ)} (h : Ok aw (p :: l)) : Ok aw l :=
  fun q hq => h q (by simp [hq])

theorem Ok.count_pos {aw : ℕ} {l : List (ℕ × ℤ)} (h : Ok aw l) : 0 < count l := by
  induction l with
  | nil => simp
  | cons p l ih =>
    rw [count_cons]
    exact Nat.mul_pos (h p (by simp)).1 (ih h.tail)

/-- The dimensions after `m` steps. -/
def dimsAt (aw : ℕ) : List (ℕ × ℤ) → ℕ → List Dim
  | [], _ => []
  | (n, s) :: rest, m =>
    ⟨addr aw (((m % n : ℕ) : ℤ) * s), n, addr aw s, n - 1 - m % n⟩ :: dimsAt aw rest (m / n)

theorem dec_eq {aw n : ℕ} (h1 : 1 ≤ n) (h2 : n ≤ 2 ^ (aw + 1)) : dec aw n = n - 1 := by
  unfold dec
  rw [show n + (2 ^ (aw + 1) - 1) = (n - 1) + 2 ^ (aw + 1) by omega, Nat.add_mod_right, Nat.mod_eq_of_lt (by omega)]

theorem dimsAt_zero {aw : ℕ} {pat : List (ℕ × ℤ)} (h : Ok aw pat) : pat.map (Dim.load aw) = dimsAt aw pat 0 := by
  induction pat with
  | nil => rfl
  | cons p rest ih =>
    obtain ⟨n, s⟩ := p
    obtain ⟨h1, h2⟩ := h (n, s) (by simp)
    simp only [List.map_cons, dimsAt, ih h.tail, Dim.load, Nat.mod_eq_of_lt h2, dec_eq h1 h2.le]
    simp [addr]

theorem tick_false (aw : ℕ) (ds : List Dim) : tick aw false ds = ds := by
  induction ds with
  | nil => rfl
  | cons d ds ih => simp [tick, ih]

theorem tick_dimsAt {aw : ℕ} {pat : List (ℕ × ℤ)} (h : Ok aw pat) (m : ℕ) :
    tick aw true (dimsAt aw pat m) = dimsAt aw pat (m + 1) := by
  induction pat generalizing m with
  | nil => rfl
  | cons p rest ih =>
    obtain ⟨n, s⟩ := p
    obtain ⟨h1, h2⟩ := h (n, s) (by simp)
    dsimp at h1 h2
    have hlt : m % n < n := Nat.mod_lt _ (by omega)
    have hdm := Nat.div_add_mod m n
    by_cases hz : m % n = n - 1
    · have e1 : (m + 1) % n = 0 := by
        rw [Nat.add_mod, hz]
        rcases Nat.lt_or_ge 1 n with h | h
        · rw [Nat.mod_eq_of_lt h, show n - 1 + 1 = n by omega, Nat.mod_self]
        · have : n = 1 := by omega
          subst this; simp
      have e2 : (m + 1) / n = m / n + 1 := by
        rw [← Nat.add_div_right _ (by omega : 0 < n)]
        have : m + n = (m + 1) + (n - 1) := by omega
        rw [this]
        rw [← Nat.div_add_mod (m + 1) n, e1, Nat.add_zero, Nat.mul_add_div (by omega), Nat.mul_div_cancel_left _ (by omega),
          Nat.div_eq_of_lt (by omega : n - 1 < n)]
        rfl
      have hc : n - 1 - m % n = 0 := by omega
      simp only [dimsAt, tick, hc, beq_self_eq_true, if_true, Bool.and_self, ih h.tail, e1, e2, dec_eq h1 h2.le]
      simp [addr]
    · have hlt' : m % n + 1 < n := by omega
      have e1 : (m + 1) % n = m % n + 1 := by
        rw [Nat.add_mod, Nat.mod_eq_of_lt (by omega : 1 < n), Nat.mod_eq_of_lt hlt']
      have e2 : (m + 1) / n = m / n := by
        rw [Nat.div_eq_iff (by omega)]
        have : m / n * n = n * (m / n) := Nat.mul_comm _ _
        omega
      have hc : (n - 1 - m % n == 0) = false := by simp; omega
      simp only [dimsAt, tick, hc, if_true, Bool.and_false, Bool.false_eq_true, if_false, e1, e2, tick_false,
        dec_eq (show 1 ≤ n - 1 - m % n by omega) (show n - 1 - m % n ≤ 2 ^ (aw + 1) by omega)]
      congr 2
      · unfold addr
        rw [← Int.add_emod]
        push_cast
        congr 1
        ring

theorem fin_dimsAt {aw : ℕ} {pat : List (ℕ × ℤ)} (h : Ok aw pat) (m : ℕ) :
    fin (dimsAt aw pat m) = decide (m % count pat + 1 = count pat) := by
  induction pat generalizing m with
  | nil => simp [fin, dimsAt, Nat.mod_one]
  | cons p rest ih =>
    obtain ⟨n, s⟩ := p
    obtain ⟨h1, h2⟩ := h (n, s) (by simp)
    dsimp at h1 h2
    have hlt : m % n < n := Nat.mod_lt _ (by omega)
    have hpos := h.tail.count_pos
    have hlt2 : (m / n) % count rest < count rest := Nat.mod_lt _ hpos
    have ih' := ih h.tail (m / n)
    simp only [fin, dimsAt, List.all_cons] at ih' ⊢
    rw [ih', count_cons, Nat.mod_mul, Bool.eq_iff_iff]
    simp only [Bool.and_eq_true, beq_iff_eq, decide_eq_true_eq]
    generalize (m / n) % count rest = q at *
    generalize m % n = r at *
    generalize count rest = c at *
    constructor
    · rintro ⟨ha, hb⟩
      rw [← hb, Nat.mul_add, Nat.mul_one]
      omega
    · intro hh
      have hq : q + 1 = c := by
        by_contra hne
        have : n * (q + 2) ≤ n * c := Nat.mul_le_mul_left _ (by omega)
        rw [Nat.mul_add] at this
        omega
      rw [← hq, Nat.mul_add] at hh
      exact ⟨by omega, hq⟩

theorem total_dimsAt (aw : ℕ) (offset : ℤ) (pat : List (ℕ × ℤ)) (m : ℕ) :
    total aw (addr aw offset) (dimsAt aw pat m) = addr aw (offset + offs pat m) := by
  have key : ∀ m, ((dimsAt aw pat m).map (·.cur)).sum ≡ offs pat m [ZMOD 2 ^ aw] := by
    induction pat with
    | nil => intro m; exact Int.ModEq.rfl
    | cons p rest ih =>
      intro m
      obtain ⟨n, s⟩ := p
      simp only [dimsAt, List.map_cons, List.sum_cons, offs]
      rw [Int.add_comm]
      exact Int.ModEq.add (ih _) (Int.mod_modEq _ _)
  exact Int.ModEq.add (Int.mod_modEq _ _) (key m)

end Pat
