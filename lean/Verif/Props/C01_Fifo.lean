import Verif.Model.Fifo
import Mathlib.Data.Nat.ModEq

/-!
# C01: the generated FIFO is a lossless bounded queue

Specification (independent of pointers and memory): the words accepted by enqueues, in
order, are the words delivered by dequeues followed by the words still stored; the flags
are statements about how many words are stored.
-/

namespace Fifo
variable {α : Type}

/-- Words accepted over a trace: `enq` was high in a cycle in which `full` was low. -/
def accepted (aw : Nat) (s : State α) : List (In α) → List α
  | [] => []
  | i :: is =>
    (if i.enq && !(flags aw s).full then [i.wdata] else []) ++ accepted aw (step aw s i) is

/-- Words delivered over a trace by the synchronous FIFO: `deq` was high in a cycle in which
`empty` was low, the word is the value of `rdata` in the following cycle. -/
def delivered (aw : Nat) (s : State α) : List (In α) → List α
  | [] => []
  | i :: is =>
    (if i.deq && !(flags aw s).empty then [(step aw s i).rdata] else []) ++
      delivered aw (step aw s i) is

/-- Words delivered by the asynchronous-read FIFO (`sync=False`): the value of `rdata` in the
same cycle as the accepted `deq`. -/
def deliveredAsync (aw : Nat) (s : State α) : List (In α) → List α
  | [] => []
  | i :: is =>
    (if i.deq && !(flags aw s).empty then [asyncRdata s] else []) ++
      deliveredAsync aw (step aw s i) is

/-- State after a trace of clock cycles. -/
def run (aw : Nat) (s : State α) (ins : List (In α)) : State α := ins.foldl (step aw) s

/-- What the four flags must say when `n` words are stored in a FIFO of capacity `cap`. -/
def specFlags (cap n : Nat) : Flags where
  empty := decide (n = 0)
  almostEmpty := decide (n ≤ 1)
  full := decide (n = cap)
  almostFull := decide (cap ≤ n + 1)

/-- Representation invariant: `q` is stored in `n = q.length` consecutive slots from `tail`. -/
structure Rep (aw : Nat) (s : State α) (q : List α) : Prop where
  len : q.length < 2 ^ aw
  tail_lt : s.tail < 2 ^ aw
  head_eq : s.head = (s.tail + q.length) % 2 ^ aw
  mem_eq : ∀ i (h : i < q.length), s.mem ((s.tail + i) % 2 ^ aw) = q[i]

theorem and_mask (aw n : Nat) : n &&& mask aw = n % 2 ^ aw := by
  simp [mask, Nat.and_two_pow_sub_one_eq_mod]

/-- Distinct offsets below the modulus give distinct slots. -/
theorem slot_inj {N t i j : Nat} (hi : i < N) (hj : j < N)
    (h : (t + i) % N = (t + j) % N) : i = j := by
  have h1 := Nat.ModEq.add_left_cancel' t (show (t + i) ≡ (t + j) [MOD N] from h)
  exact Nat.ModEq.eq_of_lt_of_lt h1 hi hj

theorem mod_eq_self_iff {N t i : Nat} (ht : t < N) (hi : i < N) :
    (t + i) % N = t ↔ i = 0 := by
  constructor
  · intro h
    have : (t + i) % N = (t + 0) % N := by rw [h, Nat.add_zero, Nat.mod_eq_of_lt ht]
    exact slot_inj hi (by omega) this
  · rintro rfl; rw [Nat.add_zero, Nat.mod_eq_of_lt ht]

theorem mod_eq_self_iff' {N t i : Nat} (ht : t < N) (h0 : 0 < i) (hi : i ≤ N) :
    (t + i) % N = t ↔ i = N := by
  rcases Nat.lt_or_ge i N with h | h
  · rw [mod_eq_self_iff ht h]; omega
  · have : i = N := by omega
    subst this; simp [Nat.mod_eq_of_lt ht]

theorem isEmpty_iff {aw} {s : State α} {q} (h : Rep aw s q) : isEmpty s = decide (q.length = 0) := by
  rw [isEmpty, h.head_eq, Bool.eq_iff_iff]; simp only [beq_iff_eq, decide_eq_true_eq]
  exact mod_eq_self_iff h.tail_lt h.len

theorem isFull_iff {aw} {s : State α} {q} (h : Rep aw s q) :
    isFull aw s = decide (q.length = 2 ^ aw - 1) := by
  rw [isFull, and_mask, h.head_eq, Bool.eq_iff_iff]; simp only [beq_iff_eq, decide_eq_true_eq]
  rw [Nat.mod_add_mod, Nat.add_assoc, mod_eq_self_iff' h.tail_lt (by omega) (by have := h.len; omega)]
  have := h.len; omega

theorem isAlmostEmpty_or {aw} {s : State α} {q} (h : Rep aw s q) :
    (isAlmostEmpty aw s || isEmpty s) = decide (q.length ≤ 1) := by
  rw [isEmpty_iff h, isAlmostEmpty, and_mask, h.head_eq, Bool.eq_iff_iff]
  simp only [Bool.or_eq_true, beq_iff_eq, decide_eq_true_eq]
  have hl := h.len
  rcases Nat.lt_or_ge 1 (2 ^ aw) with h1 | h1
  · constructor
    · rintro (h2 | h2)
      · have := slot_inj hl h1 h2; omega
      · omega
    · intro h2
      rcases Nat.eq_zero_or_pos q.length with h3 | h3
      · exact Or.inr h3
      · left; rw [show q.length = 1 by omega]
  · have : q.length = 0 := by omega
    simp [this]

theorem isAlmostFull_or {aw} {s : State α} {q} (h : Rep aw s q) :
    (isAlmostFull aw s || isFull aw s) = decide (2 ^ aw - 1 ≤ q.length + 1) := by
  rw [isFull_iff h, isAlmostFull, and_mask, h.head_eq, Bool.eq_iff_iff]
  simp only [Bool.or_eq_true, beq_iff_eq, decide_eq_true_eq]
  rw [Nat.mod_add_mod, Nat.add_assoc]
  have hl := h.len
  rcases Nat.lt_or_ge (2 ^ aw) (q.length + 2) with h1 | h1
  · constructor
    · intro _; omega
    · intro _; right; omega
  · rw [mod_eq_self_iff' h.tail_lt (by omega) h1]; omega

theorem flags_eq {aw} {s : State α} {q} (h : Rep aw s q) :
    flags aw s = specFlags (2 ^ aw - 1) q.length := by
  simp only [flags, specFlags, Flags.mk.injEq]
  exact ⟨isEmpty_iff h, isAlmostEmpty_or h, isFull_iff h, isAlmostFull_or h⟩

theorem rep_init (aw : Nat) (mem : Nat → α) (r0 : α) : Rep aw (init mem r0) [] where
  len := by simp [Nat.two_pow_pos]
  tail_lt := by simp [init, Nat.two_pow_pos]
  head_eq := by simp [init]
  mem_eq := by intro i h; simp at h

/-- One clock edge: what is stored afterwards, in terms of the flags before. -/
theorem rep_step {aw} {s : State α} {q} (h : Rep aw s q) (i : In α) :
    ∃ q', Rep aw (step aw s i) q' ∧
      q ++ (if i.enq && !(flags aw s).full then [i.wdata] else []) =
        (if i.deq && !(flags aw s).empty then [(step aw s i).rdata] else []) ++ q' := by
  have hN : 0 < 2 ^ aw := Nat.two_pow_pos aw
  have hfull : (flags aw s).full = isFull aw s := rfl
  have hempty : (flags aw s).empty = isEmpty s := rfl
  rw [hfull, hempty]
  have hE := isEmpty_iff h
  have hF := isFull_iff h
  have hl := h.len
  -- the queue after the enqueue part
  let s1 : State α := { s with
    mem := if i.enq && !isFull aw s then fun a => if a = s.head then i.wdata else s.mem a else s.mem
    head := if i.enq && !isFull aw s then (s.head + 1) % 2 ^ aw else s.head }
  let q1 := q ++ (if i.enq && !isFull aw s then [i.wdata] else [])
  have hlen1 : q1.length < 2 ^ aw := by
    simp only [q1]
    by_cases hc : (i.enq && !isFull aw s) = true
    · simp only [hc, if_true, List.length_append, List.length_singleton]
      simp [hF] at hc; omega
    · simp [hc, hl]
  have r1h : s1.head = (s.tail + q1.length) % 2 ^ aw := by
    simp only [s1, q1]
    by_cases hc : (i.enq && !isFull aw s) = true
    · simp only [hc, if_true, List.length_append, List.length_singleton]
      rw [h.head_eq, Nat.mod_add_mod, Nat.add_assoc]
    · simp [hc, h.head_eq]
  have r1m : ∀ k (hk : k < q1.length), s1.mem ((s.tail + k) % 2 ^ aw) = q1[k] := by
    intro k hk
    simp only [s1, q1] at hk ⊢
    by_cases hc : (i.enq && !isFull aw s) = true
    · simp only [hc, if_true, List.length_append, List.length_singleton] at hk ⊢
      rcases Nat.lt_or_ge k q.length with hk' | hk'
      · rw [List.getElem_append_left hk', if_neg, h.mem_eq k hk']
        rw [h.head_eq]; intro he
        have := slot_inj (by omega) hl he; omega
      · have : k = q.length := by omega
        subst this
        rw [if_pos h.head_eq.symm]; simp
    · simp only [hc] at hk ⊢
      simp only [Bool.false_eq_true, if_false, List.append_nil] at hk ⊢
      exact h.mem_eq k hk
  by_cases hd : (i.deq && !isEmpty s) = true
  · -- an accepted dequeue
    have hne : q ≠ [] := by
      intro h0; subst h0; simp [hE] at hd
    obtain ⟨x, xs, hq⟩ := List.exists_cons_of_ne_nil hne
    refine ⟨q1.tail, ⟨?_, ?_, ?_, ?_⟩, ?_⟩
    · simp; omega
    · simp only [step, hd, if_true]; exact Nat.mod_lt _ hN
    · have : (step aw s i).head = s1.head := rfl
      rw [this, r1h]
      simp only [step, hd, if_true, List.length_tail]
      rw [Nat.mod_add_mod]
      have : 0 < q1.length := by simp [q1, hq]
      congr 1; omega
    · intro k hk
      simp only [List.length_tail] at hk
      have : (step aw s i).mem = s1.mem := rfl
      rw [this]
      simp only [step, hd, if_true]
      rw [Nat.mod_add_mod, List.getElem_tail, Nat.add_assoc, Nat.add_comm 1 k]
      exact r1m (k + 1) (by omega)
    · simp only [hd, if_true]
      have hr : (step aw s i).rdata = x := by
        simp only [step, hd, if_true]
        have := h.mem_eq 0 (by simp [hq])
        rw [Nat.add_zero, Nat.mod_eq_of_lt h.tail_lt] at this
        rw [this]; simp [hq]
      rw [hr]
      show q1 = [x] ++ q1.tail
      simp [q1, hq]
  · refine ⟨q1, ⟨hlen1, ?_, ?_, ?_⟩, ?_⟩
    · simp only [step, hd]; exact h.tail_lt
    · have : (step aw s i).head = s1.head := rfl
      rw [this, r1h]; simp [step, hd]
    · have : (step aw s i).mem = s1.mem := rfl
      rw [this]; simp only [step, hd]; exact r1m
    · simp only [hd]; rfl

/-- **C01 (synchronous FIFO).** After any trace of inputs from reset, the accepted words are
the delivered words followed by the stored ones, and the flags report how many are stored
(capacity `2^aw - 1`). Acceptance of enqueue/dequeue is governed by these very flags. -/
theorem c01_fifo_lossless (aw : Nat) (mem : Nat → α) (r0 : α) (ins : List (In α)) :
    ∃ stored : List α,
      accepted aw (init mem r0) ins = delivered aw (init mem r0) ins ++ stored ∧
      stored.length ≤ 2 ^ aw - 1 ∧
      flags aw (run aw (init mem r0) ins) = specFlags (2 ^ aw - 1) stored.length := by
  suffices H : ∀ (ins : List (In α)) (s : State α) (q : List α), Rep aw s q →
      ∃ stored, Rep aw (run aw s ins) stored ∧
        q ++ accepted aw s ins = delivered aw s ins ++ stored by
    obtain ⟨st, hr, he⟩ := H ins _ _ (rep_init aw mem r0)
    exact ⟨st, by simpa using he, by have := hr.len; omega, flags_eq hr⟩
  intro ins
  induction ins with
  | nil => intro s q h; exact ⟨q, h, by simp [accepted, delivered]⟩
  | cons i is ih =>
    intro s q h
    obtain ⟨q', h', he⟩ := rep_step h i
    obtain ⟨st, hr, he'⟩ := ih _ _ h'
    refine ⟨st, hr, ?_⟩
    simp only [accepted, delivered]
    rw [← List.append_assoc, he, List.append_assoc, he', List.append_assoc]

/-- The word at the read port of the asynchronous FIFO is the oldest stored word. -/
theorem async_rdata_eq {aw} {s : State α} {q} (h : Rep aw s q) (hq : 0 < q.length) :
    asyncRdata s = q[0] := by
  have := h.mem_eq 0 hq
  rwa [Nat.add_zero, Nat.mod_eq_of_lt h.tail_lt] at this

/-- For an accepted dequeue the asynchronous word equals the one the synchronous FIFO shows
in the next cycle. -/
theorem async_eq_sync (aw : Nat) (s : State α) (i : In α)
    (hd : (i.deq && !(flags aw s).empty) = true) : asyncRdata s = (step aw s i).rdata := by
  have hd' : (i.deq && !isEmpty s) = true := hd
  simp [step, hd', asyncRdata]

/-- **C01 (asynchronous-read FIFO, `sync=False`).** -/
theorem c01_fifo_async_lossless (aw : Nat) (mem : Nat → α) (r0 : α) (ins : List (In α)) :
    ∃ stored : List α,
      accepted aw (init mem r0) ins = deliveredAsync aw (init mem r0) ins ++ stored ∧
      stored.length ≤ 2 ^ aw - 1 ∧
      flags aw (run aw (init mem r0) ins) = specFlags (2 ^ aw - 1) stored.length := by
  have hsame : ∀ (ins : List (In α)) (s : State α),
      deliveredAsync aw s ins = delivered aw s ins := by
    intro ins
    induction ins with
    | nil => intro s; rfl
    | cons i is ih =>
      intro s
      simp only [deliveredAsync, delivered, ih]
      by_cases hd : (i.deq && !(flags aw s).empty) = true
      · simp only [hd, if_true, async_eq_sync aw s i hd]
      · simp only [hd]; rfl
  rw [hsame]
  exact c01_fifo_lossless aw mem r0 ins

/-- Non-vacuity: a 2-bit FIFO accepting three words, refusing a fourth, delivering two. -/
example :
    let ins : List (In Nat) :=
      [⟨true, 7, false⟩, ⟨true, 8, true⟩, ⟨true, 9, false⟩, ⟨true, 10, false⟩,
       ⟨true, 11, false⟩, ⟨false, 0, true⟩]
    accepted 2 (init (fun _ => 0) 0) ins = [7, 8, 9, 10] ∧
    delivered 2 (init (fun _ => 0) 0) ins = [7, 8] := by decide

end Fifo
