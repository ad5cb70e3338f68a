import Verif.Model.StreamFifo
import Verif.Props.C62_StreamRun
import Verif.Props.C01_Fifo

/-!
# Thread streams with FIFOs (for C76)
-/

namespace SFifo

open SRun (Gen SGen accepted accepted_succ)

variable {V : Type}

/-! ## The generators -/

/-- An admissible size. -/
def sizeOk (aw n : ℕ) : Prop := 1 ≤ n ∧ n < 2 ^ (aw + 1)

theorem fsrc_run {aw : ℕ} {x : ℕ → FSrc} {c : ℕ → ℕ} {start stop : ℕ → Bool}
    (hx : ∀ t, x (t + 1) = FSrc.step aw (c t) (start t) (stop t) (x t)) (h0 : (x 0).st = 0) (hs : start 0 = true)
    (hok : sizeOk aw (c 0)) (k : ℕ) (hk : k < c 0) (hn : ∀ t, 0 < t → t < 2 + k → start t = false ∧ stop t = false) :
    x (2 + k) = ⟨2, c 0, c 0 - k, true, false⟩ := by
  obtain ⟨h1, h2⟩ := hok
  induction k with
  | zero =>
    have hs1 := (hn 1 (by omega) (by omega)).1
    have e1 : x 1 = ⟨1, c 0, (x 0).count, false, false⟩ := by
      rw [hx 0]; simp [FSrc.step, h0, hs, Nat.mod_eq_of_lt h2]
    rw [show 2 + 0 = 1 + 1 by rfl, hx 1, e1]
    simp [FSrc.step, hs1]
  | succ k ih =>
    have := ih (by omega) (fun t a b => hn t a (by omega))
    have e1 : (c 0 - k == 1) = false := by simp; omega
    have e2 : Pat.dec aw (c 0 - k) = c 0 - (k + 1) := by rw [Pat.dec_eq (by omega) (by omega)]; omega
    rw [show 2 + (k + 1) = (2 + k) + 1 by omega, hx, this, FSrc.step, (hn (2 + k) (by omega) (by omega)).1,
      (hn (2 + k) (by omega) (by omega)).2]
    simp [e1, e2]

theorem fsrc_reads (aw : ℕ) : (fifoSrc aw).Reads (sizeOk aw) (fun n : ℕ => List.replicate n 0)
    (fun (x : FSrc) => x.st = 0 ∧ x.idle = true ∧ x.deq = false) where
  init := ⟨rfl, rfl, rfl⟩
  quiet := fun x h => ⟨h.2.1, h.2.2⟩
  stay := by
    intro c stop x h
    show (FSrc.step aw c false stop x).st = 0 ∧ (FSrc.step aw c false stop x).idle = true ∧
      (FSrc.step aw c false stop x).deq = false
    simp [FSrc.step, h.1, h.2.1]
  first := by
    intro (x : ℕ → FSrc) (c : ℕ → ℕ) start stop hx h0 hs
    have hx0 : x 1 = FSrc.step aw (c 0) (start 0) (stop 0) (x 0) := hx 0
    show (x 1).deq = false
    rw [hx0]
    simp [FSrc.step, h0.1]
  read := by
    intro (x : ℕ → FSrc) (c : ℕ → ℕ) start stop hx h0 hs hok k hk hn
    have hk' : k < c 0 := by
      have h : k < (List.replicate (c 0) (0 : ℤ)).length := hk
      simpa using h
    have := fsrc_run hx h0.1 hs hok k hk' hn
    show (x (2 + k)).idle = false ∧ (x (2 + k)).deq = true ∧ (0 : ℤ) = (List.replicate (c 0) (0 : ℤ))[k]'hk
    rw [this]
    refine ⟨rfl, rfl, ?_⟩
    simp
  last := by
    intro (x : ℕ → FSrc) (c : ℕ → ℕ) start stop hx h0 hs hok hn
    have hlen : (List.replicate (c 0) (0 : ℤ)).length = c 0 := by simp
    have hn' : ∀ t, 0 < t → t < 2 + c 0 → start t = false ∧ stop t = false := fun t a b => hn t a (by rw [hlen]; exact b)
    obtain ⟨n, hn1⟩ : ∃ n, c 0 = n + 1 := ⟨c 0 - 1, by have := hok.1; omega⟩
    have := fsrc_run hx h0.1 hs hok n (by omega) (fun t a b => hn' t a (by omega))
    have hx' : x (2 + n + 1) = FSrc.step aw (c (2 + n)) (start (2 + n)) (stop (2 + n)) (x (2 + n)) := hx (2 + n)
    show (x (2 + (List.replicate (c 0) (0 : ℤ)).length)).st = 0 ∧ (x (2 + (List.replicate (c 0) (0 : ℤ)).length)).idle = true ∧
      (x (2 + (List.replicate (c 0) (0 : ℤ)).length)).deq = false
    rw [hlen, hn1, show 2 + (n + 1) = 2 + n + 1 by omega, hx', this]
    have e1 : (c 0 - n == 1) = true := by simp; omega
    simp [FSrc.step, e1]

theorem fsnk_run {aw : ℕ} {y : ℕ → FSnk V} {c : ℕ → ℕ} {start stop w : ℕ → Bool} {d : ℕ → V}
    (hy : ∀ t, y (t + 1) = FSnk.step aw (c t) (start t) (stop t) (w t) (d t) (y t)) (h0 : (y 0).st = 0) (hs : start 0 = true)
    (hok : sizeOk aw (c 0)) (hl : c 1 = c 0) (k : ℕ) (hn : ∀ t, 0 < t → t < 2 + k → start t = false ∧ stop t = false) :
    (accepted (fun i => w (2 + i)) k < c 0 ∧ (y (2 + k)).st = 2 ∧
      (y (2 + k)).count = c 0 - accepted (fun i => w (2 + i)) k) ∨
    (accepted (fun i => w (2 + i)) k ≥ c 0 ∧ (y (2 + k)).st = 0) := by
  obtain ⟨h1, h2⟩ := hok
  induction k with
  | zero =>
    have e1 : (y 1).st = 1 := by rw [hy 0]; simp [FSnk.step, h0, hs]
    left
    rw [show 2 + 0 = 1 + 1 by rfl, hy 1]
    refine ⟨by simp [accepted]; omega, by simp [FSnk.step, e1], by simp [FSnk.step, e1, accepted, hl, Nat.mod_eq_of_lt h2]⟩
  | succ k ih =>
    rw [show 2 + (k + 1) = (2 + k) + 1 by omega, hy, accepted_succ]
    have hst := hn (2 + k) (by omega) (by omega)
    rcases ih (fun t a b => hn t a (by omega)) with ⟨a1, a2, a3⟩ | ⟨a1, a2⟩
    · cases hw : w (2 + k) with
      | false =>
        left
        refine ⟨by simpa using a1, by simp [FSnk.step, a2, hst.2], by simp [FSnk.step, a2, a3]⟩
      | true =>
        have hd : Pat.dec aw (y (2 + k)).count = c 0 - (accepted (fun i => w (2 + i)) k + 1) := by
          rw [a3, Pat.dec_eq (by omega) (by omega)]; omega
        by_cases hl' : accepted (fun i => w (2 + i)) k + 1 < c 0
        · left
          have e1 : ((y (2 + k)).count == 1) = false := by rw [a3]; simp; omega
          refine ⟨by simpa using hl', by simp [FSnk.step, a2, hst.2, e1], by simp [FSnk.step, a2, hd]⟩
        · right
          have e1 : ((y (2 + k)).count == 1) = true := by rw [a3]; simp; omega
          refine ⟨by simp; omega, by simp [FSnk.step, a2, e1]⟩
    · right
      refine ⟨by omega, by simp [FSnk.step, a2, hst.1]⟩

theorem fsnk_writes (aw : ℕ) (v0 : V) : (fifoSnk V aw v0).Writes True (sizeOk aw) (fun n : ℕ => List.replicate n 0)
    (fun (y : FSnk V) => y.st = 0) where
  init := ⟨rfl, rfl⟩
  stay := by
    intro c stop w d y h
    have h : FSnk.st y = 0 := h
    show (FSnk.step aw c false stop w d y).st = 0 ∧ (if (FSnk.step aw c false stop w d y).enq then _ else _) = _
    simp [FSnk.step, h]
  first := by
    intro (y : ℕ → FSnk V) (c : ℕ → ℕ) start stop w d hy h0 hs h1 h2
    have hy0 : y 1 = FSnk.step aw (c 0) (start 0) (stop 0) (w 0) (d 0) (y 0) := hy 0
    have hy1 : y 2 = FSnk.step aw (c 1) (start 1) (stop 1) (w 1) (d 1) (y 1) := hy 1
    have h0 : FSnk.st (y 0) = 0 := h0
    show (if (y 1).enq then _ else _) = _ ∧ (if (y 2).enq then _ else _) = _
    rw [hy1, hy0]
    simp [FSnk.step, h0, hs]
  write := by
    intro (y : ℕ → FSnk V) (c : ℕ → ℕ) start stop w d hy h0 hs hok hl k hn hst
    have hy' : ∀ t, y (t + 1) = FSnk.step aw (c t) (start t) (stop t) (w t) (d t) (y t) := hy
    have hl' : c 1 = c 0 := hl trivial
    show (if (y (3 + k)).enq then some ((0 : ℤ), (y (3 + k)).wdata) else none) = _ ∧ (_ → (y (3 + k)).st = 0)
    rw [show 3 + k = (2 + k) + 1 by omega, hy']
    rcases fsnk_run hy' h0 hs hok hl' k hn with ⟨a1, a2, a3⟩ | ⟨a1, a2⟩
    · refine ⟨?_, fun h => by simp [FSnk.step, a2, h]⟩
      cases hw : w (2 + k) with
      | false => simp [FSnk.step]
      | true =>
        have e : (List.replicate (c 0) (0 : ℤ))[accepted (fun i => w (2 + i)) k]? = some 0 := by
          rw [List.getElem?_replicate, if_pos a1]
        rw [e]
        simp [FSnk.step, a2]
    · have e : (List.replicate (c 0) (0 : ℤ))[accepted (fun i => w (2 + i)) k]? = none := by
        rw [List.getElem?_replicate, if_neg (by omega)]
      rw [e]
      refine ⟨?_, fun _ => by simp [FSnk.step, a2, hst]⟩
      cases hw : w (2 + k) <;> simp [FSnk.step, a2]

end SFifo
