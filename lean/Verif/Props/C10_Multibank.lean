import Verif.Model.Multibank
import Verif.Props.C08_Burst
import Mathlib.Tactic.Ring
import Mathlib.Tactic.Linarith

/-!
# C10: a multi-bank RAM is one flat memory
-/

namespace Multibank
variable {α : Type}

/-- **C10 (address map).** Flat addresses and (bank, local) pairs correspond one to one. -/
theorem c10_address_bijection (k aw : Nat) :
    (∀ a, a < 2 ^ (aw + k) → bankOf k a < 2 ^ k ∧ localOf k a < 2 ^ aw ∧
      localOf k a * 2 ^ k + bankOf k a = a) ∧
    (∀ b l, b < 2 ^ k → l < 2 ^ aw → bankOf k (l * 2 ^ k + b) = b ∧ localOf k (l * 2 ^ k + b) = l ∧
      l * 2 ^ k + b < 2 ^ (aw + k)) := by
  constructor
  · intro a ha
    refine ⟨Nat.mod_lt _ (Nat.two_pow_pos _), ?_, ?_⟩
    · rw [localOf, Nat.div_lt_iff_lt_mul (Nat.two_pow_pos _), ← Nat.pow_add]; exact ha
    · rw [localOf, bankOf, Nat.mul_comm]; exact Nat.div_add_mod a _
  · intro b l hb hl
    refine ⟨?_, ?_, ?_⟩
    · simp [bankOf, Nat.mod_eq_of_lt hb]
    · rw [localOf, Nat.add_comm, Nat.add_mul_div_right _ _ (Nat.two_pow_pos _),
        Nat.div_eq_of_lt hb, Nat.zero_add]
    · rw [Nat.pow_add]
      calc l * 2 ^ k + b < l * 2 ^ k + 2 ^ k := by omega
        _ = (l + 1) * 2 ^ k := by ring
        _ ≤ 2 ^ aw * 2 ^ k := Nat.mul_le_mul_right _ hl

/-- Flat view of the banks. -/
def flat (k : Nat) (s : State α) (a : Nat) : α := (s.banks (bankOf k a)).mem (localOf k a)

/-- Specification: one flat array of `2^n` words, and the word the last read asked for. -/
structure Spec (α : Type) where
  mem : Nat → α
  last : Option α

def Spec.step (n : Nat) (s : Spec α) : Op α → Spec α
  | .idle => s
  | .read a => { s with last := some (s.mem (a % 2 ^ n)) }
  | .write a w => { s with mem := fun b => if b = a % 2 ^ n then w else s.mem b }

def run (k aw : Nat) (z : α) (s : State α) (ops : List (Op α)) : State α := ops.foldl (step k aw z) s

theorem commit_one (mem : Nat → α) (x : Nat) (w : α) (a : Nat) :
    Ram.commit mem [(x, w)] a = if a = x then w else mem a := rfl

/-- How one edge changes a bank's memory. -/
theorem bank_mem (k aw : Nat) (z : α) (s : State α) (op : Op α) (i l : Nat) :
    ((step k aw z s op).banks i).mem l =
      match op with
      | .write a w => if bankOf k a = i ∧ l = localOf k a % 2 ^ aw then w else (s.banks i).mem l
      | _ => (s.banks i).mem l := by
  cases op with
  | idle => simp [step, bankPort, Ram.step, Ram.writes, Ram.PortOp.active, Ram.commit]
  | read a => simp [step, bankPort, Ram.step, Ram.writes, Ram.commit]
  | write a w =>
    by_cases h : bankOf k a = i
    · simp [step, bankPort, Ram.step, Ram.writes, Ram.PortOp.active, Ram.PortOp.index, Ram.commit, h]
    · simp [step, bankPort, Ram.step, Ram.writes, Ram.PortOp.active, Ram.commit, h]

/-- **C10 (flat behaviour).** For any bank count `2^k`, bank size `2^aw` and sequence of accesses:
the banks always hold exactly the flat array of the specification, and in the cycle after a read
`valid` is high and the data is the word the flat array held at the (wrapped) address. -/
theorem c10_flat_memory (k aw : Nat) (z : α) (s0 : State α) (hr : ∀ i, (s0.banks i).rdata.length = 1)
    (ops : List (Op α)) :
    let s := run k aw z s0 ops
    let spec := ops.foldl (Spec.step (aw + k)) ⟨flat k s0, none⟩
    (∀ a, a < 2 ^ (aw + k) → flat k s a = spec.mem a) ∧
    (∀ a, rdata k z (step k aw z s (.read a)) = spec.mem (a % 2 ^ (aw + k)) ∧
      (step k aw z s (.read a)).rvalid = true) := by
  intro s spec
  have hlen : ∀ (ops : List (Op α)) (s0 : State α), (∀ i, (s0.banks i).rdata.length = 1) →
      ∀ i, ((run k aw z s0 ops).banks i).rdata.length = 1 := by
    intro ops
    induction ops with
    | nil => intro s0 h; exact h
    | cons op ops ih =>
      intro s0 h
      apply ih (step k aw z s0 op)
      intro i; simp [step, Ram.step, h i]
  have hflat : ∀ (ops : List (Op α)) (s0 : State α) (m : Nat → α) (l : Option α),
      (∀ a, a < 2 ^ (aw + k) → flat k s0 a = m a) →
      ∀ a, a < 2 ^ (aw + k) →
        flat k (run k aw z s0 ops) a = (ops.foldl (Spec.step (aw + k)) ⟨m, l⟩).mem a := by
    intro ops
    induction ops with
    | nil => intro s0 m l h; exact h
    | cons op ops ih =>
      intro s0 m l h
      cases op with
      | idle =>
        refine ih (step k aw z s0 .idle) m l ?_
        intro a ha; rw [← h a ha, flat, bank_mem]; rfl
      | read b =>
        refine ih (step k aw z s0 (.read b)) m _ ?_
        intro a ha; rw [← h a ha, flat, bank_mem]; rfl
      | write b w =>
        refine ih (step k aw z s0 (.write b w)) _ l ?_
        intro a ha
        rw [flat, bank_mem]
        have hb := (c10_address_bijection k aw).1 (b % 2 ^ (aw + k)) (Nat.mod_lt _ (Nat.two_pow_pos _))
        have ha' := (c10_address_bijection k aw).1 a ha
        have e1 : bankOf k (b % 2 ^ (aw + k)) = bankOf k b := by
          rw [bankOf, bankOf, Nat.mod_mod_of_dvd]
          exact Nat.pow_dvd_pow 2 (by omega)
        have e2 : localOf k (b % 2 ^ (aw + k)) = localOf k b % 2 ^ aw := by
          rw [localOf, localOf, Nat.pow_add, Nat.mul_comm, Nat.mod_mul_right_div_self]
        by_cases hab : a = b % 2 ^ (aw + k)
        · subst hab; simp [e1, e2]
        · have : ¬ (bankOf k b = bankOf k a ∧ localOf k a = localOf k b % 2 ^ aw) := by
            rintro ⟨h1, h2⟩
            apply hab
            rw [← ha'.2.2, ← hb.2.2, e1, e2, h1, h2]
          simp only [this, if_false, hab]
          exact h a ha
  refine ⟨hflat ops s0 _ _ (fun _ _ => rfl), ?_⟩
  intro a
  refine ⟨?_, rfl⟩
  have hb : bankOf k a < 2 ^ k := Nat.mod_lt _ (Nat.two_pow_pos _)
  have hfind : (List.range (2 ^ k)).find? (fun i => bankOf k a == i) = some (bankOf k a) := by
    rw [List.find?_range_eq_some]
    refine ⟨by simp, List.mem_range.mpr hb, ?_⟩
    intro j hj; simp; omega
  have hl := hlen ops s0 hr (bankOf k a)
  have hbr : (step k aw z s (.read a)).bankReg = bankOf k a := rfl
  rw [rdata, hbr, hfind]
  simp only [Option.elim]
  have hm : (a % 2 ^ (aw + k)) < 2 ^ (aw + k) := Nat.mod_lt _ (Nat.two_pow_pos _)
  have hh := hflat ops s0 (flat k s0) none (fun _ _ => rfl) _ hm
  rw [show spec.mem = (ops.foldl (Spec.step (aw + k)) ⟨flat k s0, none⟩).mem from rfl, ← hh]
  have e1 : bankOf k (a % 2 ^ (aw + k)) = bankOf k a := by
    rw [bankOf, bankOf, Nat.mod_mod_of_dvd]
    exact Nat.pow_dvd_pow 2 (by omega)
  have e2 : localOf k (a % 2 ^ (aw + k)) = localOf k a % 2 ^ aw := by
    rw [localOf, localOf, Nat.pow_add, Nat.mul_comm, Nat.mod_mul_right_div_self]
  rw [flat, e1, e2]
  obtain ⟨r, hr1⟩ := List.length_eq_one_iff.mp hl
  simp [step, Ram.step, bankPort, s, hr1, Ram.nextRdata, Ram.PortOp.active, Ram.PortOp.index]

/-! ### Packed words -/

theorem cat_reverse (dw : Nat) (f : Nat → Nat) (n : Nat) :
    cat dw (((List.range n).map f).reverse) =
      ((List.range n).map fun i => f i * 2 ^ (dw * i)).sum := by
  have hfold : ∀ (ws : List Nat) (acc : Nat),
      ws.foldl (fun acc w => acc * 2 ^ dw + w) acc = acc * 2 ^ (dw * ws.length) + cat dw ws := by
    intro ws
    induction ws with
    | nil => intro acc; simp [cat]
    | cons w ws ih =>
      intro acc
      simp only [List.foldl_cons, cat, List.length_cons]
      rw [ih, ih (0 * 2 ^ dw + w), Nat.mul_succ, Nat.pow_add]; ring
  induction n with
  | zero => rfl
  | succ n ih =>
    rw [List.range_succ, List.map_append, List.reverse_append, List.map_append, List.sum_append, ← ih]
    simp only [List.map_cons, List.map_nil, List.reverse_singleton, List.singleton_append,
      List.sum_cons, List.sum_nil, Nat.add_zero]
    rw [cat, List.foldl_cons, hfold]
    simp; ring

/-- **C10 (packed layout).** A packed word is the concatenation of the words at the `2^k`
consecutive flat addresses of its row, bank 0 least significant. -/
theorem c10_packed_layout (k dw aw : Nat) (mems : Nat → Nat → Nat) (addr : Nat) :
    packedWord k dw aw mems addr =
      ((List.range (2 ^ k)).map fun i => mems i (addr / 2 ^ k % 2 ^ aw) * 2 ^ (dw * i)).sum := by
  rw [packedWord, cat_reverse]; rfl

theorem sum_digits (dw : Nat) (f : Nat → Nat) (n : Nat) (hf : ∀ i, f i < 2 ^ dw) (i : Nat) (hi : i < n) :
    (((List.range n).map fun i => f i * 2 ^ (dw * i)).sum / 2 ^ (dw * i)) % 2 ^ dw = f i := by
  have hlt : ∀ n, ((List.range n).map fun i => f i * 2 ^ (dw * i)).sum < 2 ^ (dw * n) := by
    intro n
    induction n with
    | zero => simp
    | succ n ih =>
      rw [List.range_succ, List.map_append, List.sum_append]
      simp only [List.map_cons, List.map_nil, List.sum_cons, List.sum_nil, Nat.add_zero]
      rw [Nat.mul_succ, Nat.pow_add]
      have := hf n
      calc _ < 2 ^ (dw * n) + f n * 2 ^ (dw * n) := by omega
        _ = (f n + 1) * 2 ^ (dw * n) := by ring
        _ ≤ 2 ^ dw * 2 ^ (dw * n) := Nat.mul_le_mul_right _ this
        _ = _ := by ring
  induction n with
  | zero => omega
  | succ n ih =>
    rw [List.range_succ, List.map_append, List.sum_append]
    simp only [List.map_cons, List.map_nil, List.sum_cons, List.sum_nil, Nat.add_zero]
    rcases Nat.lt_or_ge i n with h | h
    · have hd : f n * 2 ^ (dw * n) = (f n * 2 ^ (dw * (n - i - 1))) * 2 ^ dw * 2 ^ (dw * i) := by
        rw [Nat.mul_assoc, Nat.mul_assoc, ← Nat.pow_add, ← Nat.pow_add]
        congr 2
        obtain ⟨d, rfl⟩ : ∃ d, n = i + 1 + d := ⟨n - i - 1, by omega⟩
        rw [show i + 1 + d - i - 1 = d by omega]; ring
      rw [hd, Nat.add_mul_div_right _ _ (Nat.two_pow_pos _), Nat.add_mul_mod_self_right]
      exact ih h
    · have : i = n := by omega
      subst this
      rw [Nat.add_mul_div_right _ _ (Nat.two_pow_pos _), Nat.div_eq_of_lt (hlt i), Nat.zero_add,
        Nat.mod_eq_of_lt (hf i)]

theorem mod_sum (dw n x : Nat) :
    ((List.range n).map fun i => (x / 2 ^ (dw * i)) % 2 ^ dw * 2 ^ (dw * i)).sum = x % 2 ^ (dw * n) := by
  induction n with
  | zero => simp [Nat.mod_one]
  | succ n ih =>
    rw [List.range_succ, List.map_append, List.sum_append, ih]
    simp only [List.map_cons, List.map_nil, List.sum_cons, List.sum_nil, Nat.add_zero]
    rw [Nat.mul_succ, Nat.pow_add, Nat.mod_mul]
    ring

/-- **C10 (packed round trip).** Writing a packed word and reading the same row gives the word back
(truncated to the packed width), and leaves every other row alone. -/
theorem c10_packed_round_trip (k dw aw : Nat) (mems : Nat → Nat → Nat) (addr addr' w : Nat) :
    packedWord k dw aw (packedWrite k dw aw mems addr w) addr' =
      if addr' / 2 ^ k % 2 ^ aw = addr / 2 ^ k % 2 ^ aw then w % 2 ^ (dw * 2 ^ k)
      else packedWord k dw aw mems addr' := by
  rw [c10_packed_layout, c10_packed_layout]
  split
  · rename_i h
    rw [← mod_sum]
    congr 1
    apply List.map_congr_left
    intro i hi
    have hi' := List.mem_range.mp hi
    simp [packedWrite, localOf, h, hi', unpackWord]
  · rename_i h
    congr 1
    apply List.map_congr_left
    intro i hi
    simp [packedWrite, localOf, h]

/-- **C10 (packed write, per bank).** Bank `i` receives bits `dw*i ..` of the packed word. -/
theorem c10_packed_field (k dw aw : Nat) (f : Nat → Nat) (hf : ∀ i, f i < 2 ^ dw)
    (mems : Nat → Nat → Nat) (addr i : Nat) (hi : i < 2 ^ k) :
    packedWrite k dw aw mems addr (((List.range (2 ^ k)).map fun i => f i * 2 ^ (dw * i)).sum) i
      (addr / 2 ^ k % 2 ^ aw) = f i := by
  rw [packedWrite, if_pos ⟨hi, rfl⟩, unpackWord]
  exact sum_digits dw f _ hf i hi

/-- **C10 (packed burst read).** The packed burst machine is the burst machine of C08 over packed
rows (thread/ram.py:685-750 is the same FSM), so it delivers exactly the requested rows. -/
theorem c10_packed_burst (k dw aw : Nat) (mems : Nat → Nat → Nat) (s0 : Burst.RState Nat)
    (req : Burst.RIn) (ins : List Burst.RIn) (hidle : s0.busy = false) (hcond : req.cond = true)
    (hL : 0 < req.length) (hins : ∀ i ∈ ins, i.cond = false ∧ i.rquit = false) :
    Burst.beats (aw + k) (packedWord k dw aw mems) (Burst.rstep (aw + k) (packedWord k dw aw mems) s0 req) ins =
      ((List.range req.length).map fun j =>
        (packedWord k dw aw mems ((req.addr + j * req.stride) % 2 ^ (aw + k)),
          decide (j + 1 = req.length))).take (Burst.readies ins - 1) :=
  (Burst.c08_read_burst (aw + k) _ s0 req ins hidle hcond hL hins).1

/-- Non-vacuity: 4 banks of 4 words; write flat address 6, read it back; and a packed word. -/
example :
    let s0 : State Nat := ⟨fun i => ⟨fun l => 100 * i + l, [0]⟩, 0, false⟩
    rdata 2 0 (run 2 2 0 s0 [.write 6 77, .idle, .read 6]) = 77 ∧
    rdata 2 0 (run 2 2 0 s0 [.write 6 77, .read 7]) = 301 := by decide
example : packedWord 1 8 2 (fun i l => 16 * i + l) 5 = 18 * 256 + 2 := by decide

end Multibank
