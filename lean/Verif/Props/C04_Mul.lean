import Verif.Model.Mul
import Verif.Lemmas.Pipe
import Mathlib.Tactic.Ring
import Mathlib.Tactic.Linarith

/-!
# C04: the pipelined multiplier computes the exact product with fixed latency under stalls
-/

namespace Mul

/-- The integer denoted by a bit vector under a signedness. -/
def denote {w : Nat} (signed : Bool) (x : BitVec w) : Int :=
  if signed then x.toInt else (x.toNat : Int)

theorem shift_eq_push {α : Type} (x : α) (rs : List α) : shift x rs = Pipe.push id x rs := by
  induction rs generalizing x with
  | nil => rfl
  | cons r rs ih => simp [shift, Pipe.push, ih]

theorem operand_eq {w : Nat} (s : Bool) (x : BitVec w) : operand s x = denote s x := rfl

/-! ### The product fits -/

theorem natAbs_denote_signed {w : Nat} (x : BitVec w) :
    (denote true x).natAbs ≤ 2 ^ (w - 1) := by
  have h1 := BitVec.le_toInt x
  have h2 : x.toInt < 2 ^ (w - 1) := BitVec.toInt_lt
  have h3 : ((2 ^ (w - 1) : Nat) : Int) = (2 : Int) ^ (w - 1) := by push_cast; rfl
  simp only [denote, if_true]
  omega

theorem two_pow_pred_mul {w : Nat} (h : 0 < w) : 2 * 2 ^ (w - 1) = 2 ^ w := by
  obtain ⟨n, rfl⟩ : ∃ n, w = n + 1 := ⟨w - 1, by omega⟩
  simp [Nat.pow_succ, Nat.mul_comm]

/-- Absolute value of an operand is below `2^w`, and at most `2^(w-1)` when signed. -/
theorem natAbs_denote_lt {w : Nat} (s : Bool) (x : BitVec w) : (denote s x).natAbs < 2 ^ w ∨
    (w = 0 ∧ denote s x = 0) := by
  rcases Nat.eq_zero_or_pos w with h | h
  · subst h; right; refine ⟨rfl, ?_⟩
    cases s <;> simp [denote, BitVec.of_length_zero]
  · left
    cases s with
    | false => have := x.isLt; simp [denote, this]
    | true =>
      have := natAbs_denote_signed x
      have := two_pow_pred_mul h
      have : 0 < 2 ^ (w-1) := Nat.two_pow_pos _
      omega

/-- Both operands unsigned: the product is exact as an unsigned number. -/
theorem mulWire_unsigned {l r : Nat} (a : BitVec l) (b : BitVec r) :
    (mulWire false false a b).toNat = a.toNat * b.toNat := by
  simp only [mulWire, operand, Bool.false_eq_true, if_false]
  rw [← Int.natCast_mul, BitVec.ofInt_natCast, BitVec.toNat_ofNat, Nat.mod_eq_of_lt]
  rw [Nat.pow_add]
  exact Nat.mul_lt_mul'' a.isLt b.isLt

/-- At least one operand signed: the product is exact as a signed number. -/
theorem mulWire_signed {l r : Nat} (ls rs : Bool) (h : (ls || rs) = true)
    (a : BitVec l) (b : BitVec r) :
    (mulWire ls rs a b).toInt = denote ls a * denote rs b := by
  have key : ∀ {l r : Nat} (rs : Bool) (a : BitVec l) (b : BitVec r) (n : Nat), l + r = n →
      (BitVec.ofInt n (denote true a * denote rs b)).toInt = denote true a * denote rs b := by
    intro l r rs a b n hn
    subst hn
    rcases Nat.eq_zero_or_pos l with hl | hl
    · subst hl
      have : denote true a = 0 := by simp [denote, BitVec.of_length_zero]
      simp [this]
    · have hz : denote rs b = 0 ∨ 0 < r := by
        rcases natAbs_denote_lt rs b with h | h
        · rcases Nat.eq_zero_or_pos r with h' | h'
          · subst h'; left; omega
          · right; exact h'
        · left; exact h.2
      rcases hz with hz | hr
      · simp [hz]
      have hA := natAbs_denote_signed a
      have hB : (denote rs b).natAbs < 2 ^ r := by
        rcases natAbs_denote_lt rs b with h | h
        · exact h
        · omega
      have hP : (denote true a * denote rs b).natAbs < 2 ^ (l + r - 1) := by
        rw [Int.natAbs_mul, show l + r - 1 = (l - 1) + r by omega, Nat.pow_add]
        calc _ ≤ 2 ^ (l - 1) * (denote rs b).natAbs := Nat.mul_le_mul_right _ hA
          _ < _ := Nat.mul_lt_mul_of_pos_left hB (Nat.two_pow_pos _)
      have hcast : ((2 ^ (l + r - 1) : Nat) : Int) = (2 : Int) ^ (l + r - 1) := by push_cast; rfl
      apply BitVec.toInt_ofInt_eq_self (by omega) <;> omega
  cases ls with
  | true => exact key rs a b _ rfl
  | false =>
    have : rs = true := by simpa using h
    subst this
    have := key false b a (l + r) (Nat.add_comm r l)
    simp only [mulWire, operand_eq]
    rw [Int.mul_comm]; exact this

/-! ### Latency -/

/-- State after a trace. -/
def run {l r : Nat} (ls rs : Bool) (s : State l r) (ins : List (In l r)) : State l r :=
  ins.foldl (step ls rs) s

/-- The operands presented in enabled cycles, oldest first. -/
def issued {l r : Nat} (ins : List (In l r)) : List (In l r) := ins.filter (·.update)

theorem run_enabled {l r : Nat} (ls rs : Bool) (s : State l r) (ins : List (In l r)) :
    run ls rs s ins = (issued ins).foldl (fun s i =>
      { a := i.a, b := i.b, pipe := shift (mulWire ls rs s.a s.b) s.pipe }) s := by
  rw [issued, ← Pipe.foldl_gate]; rfl

/-- All products fed to the chain. -/
theorem run_pipe {l r : Nat} (ls rs : Bool) (s : State l r) (xs : List (In l r)) :
    let s' := xs.foldl (fun s i =>
      ({ a := i.a, b := i.b, pipe := shift (mulWire ls rs s.a s.b) s.pipe } : State l r)) s
    (s'.pipe = Pipe.pushAll id s.pipe
      ((mulWire ls rs s.a s.b :: xs.map fun i => mulWire ls rs i.a i.b).dropLast)) ∧
    (xs ≠ [] → ∀ x, xs.getLast? = some x → s'.a = x.a ∧ s'.b = x.b) := by
  obtain ⟨ys, rfl⟩ : ∃ ys : List (In l r), xs = ys.reverse := ⟨xs.reverse, by simp⟩
  induction ys with
  | nil => simp [Pipe.pushAll]
  | cons y ys ih =>
    simp only [List.reverse_cons, List.foldl_append, List.foldl_cons, List.foldl_nil]
    obtain ⟨ih1, ih2⟩ := ih
    refine ⟨?_, ?_⟩
    · rw [ih1, shift_eq_push]
      rcases List.eq_nil_or_concat ys.reverse with h0 | ⟨zs, z, h0⟩
      · simp [h0, Pipe.pushAll]
      · have h2 := ih2 (by simp [h0]) z (by simp [h0])
        rw [h2.1, h2.2]
        simp only [h0]
        simp only [List.concat_eq_append, List.map_append, List.map_cons, List.map_nil]
        rw [← List.cons_append, ← List.cons_append, List.dropLast_concat, ← List.cons_append,
          List.dropLast_concat]
        simp [Pipe.pushAll, List.foldl_append]
    · intro _ x hx
      simp at hx; subst hx; exact ⟨rfl, rfl⟩

theorem dropLast_products {α β : Type} (f : α → β) (y : β) (older newer : List α) (x : α)
    (hn : newer ≠ []) :
    (y :: (older ++ x :: newer).map f).dropLast =
      (y :: older.map f) ++ f x :: (newer.map f).dropLast := by
  rw [List.map_append, ← List.cons_append, List.map_cons,
    List.dropLast_append_of_ne_nil (by simp), List.dropLast_cons_of_ne_nil (by simpa using hn)]

/-- **C04 (latency and stalls).** Whatever the registers contained: if `x` was presented in
some enabled cycle and `depth - 1` more operand pairs were presented in enabled cycles since,
then the output is the product of `x`. Disabled cycles do not count and change nothing. -/
theorem c04_mul_latency {l r : Nat} (ls rs : Bool) (depth : Nat) (hd : 2 ≤ depth)
    (s : State l r) (hs : s.pipe.length = depth - 1) (ins : List (In l r))
    (older newer : List (In l r)) (x : In l r)
    (hx : issued ins = older ++ x :: newer) (hn : newer.length + 1 = depth) :
    out (run ls rs s ins) = some (mulWire ls rs x.a x.b) := by
  rw [run_enabled, hx]
  obtain ⟨h1, _⟩ := run_pipe ls rs s (older ++ x :: newer)
  have hne : newer ≠ [] := by intro h; subst h; simp at hn; omega
  rw [out, h1, dropLast_products _ _ _ _ _ hne,
    Pipe.pushAll_last id _ _ _ _ (by simp; omega), Pipe.iter_id]

/-- **C04 (exactness).** The output is the exact product: as an unsigned number when both
operands are unsigned, as a signed number otherwise. -/
theorem c04_mul_exact {l r : Nat} (ls rs : Bool) (depth : Nat) (hd : 2 ≤ depth)
    (s : State l r) (hs : s.pipe.length = depth - 1) (ins : List (In l r))
    (older newer : List (In l r)) (x : In l r)
    (hx : issued ins = older ++ x :: newer) (hn : newer.length + 1 = depth) :
    ∃ c, out (run ls rs s ins) = some c ∧
      denote (ls || rs) c = denote ls x.a * denote rs x.b := by
  refine ⟨_, c04_mul_latency ls rs depth hd s hs ins older newer x hx hn, ?_⟩
  cases hls : (ls || rs) with
  | false =>
    obtain ⟨rfl, rfl⟩ : ls = false ∧ rs = false := by simpa using hls
    simp only [denote, Bool.false_eq_true, if_false, mulWire_unsigned]
    push_cast; rfl
  | true =>
    have := mulWire_signed ls rs hls x.a x.b
    simpa [denote] using this

/-- Non-vacuity: a depth-2 signed 4x4 multiplier with a stall in the middle. -/
example : out (run (l := 4) (r := 4) true true ⟨0, 0, [0]⟩
    [⟨true, -3, 5⟩, ⟨false, 1, 1⟩, ⟨true, 2, 2⟩]) = some (-15) := by decide

/-! ### Multiply-add -/

def maddRun {wa wb wc : Nat} (as bs cs : Bool) (s : MaddState wa wb wc)
    (ins : List (MaddIn wa wb wc)) : MaddState wa wb wc := ins.foldl (maddStep as bs cs) s

def maddIssued {wa wb wc : Nat} (ins : List (MaddIn wa wb wc)) : List (MaddIn wa wb wc) :=
  ins.filter (·.update)

/-- The sum kept in the result register is `a*b + c` modulo `2 ^ retwidth`. -/
theorem maddWire_eq {wa wb wc : Nat} (as bs cs : Bool) (a : BitVec wa) (b : BitVec wb)
    (c : BitVec wc) :
    maddWire as bs cs a b c =
      BitVec.ofInt (maddWidth wa wb wc) (denote as a * denote bs b + denote cs c) := by
  simp only [maddWire, operand_eq]
  rw [BitVec.ofInt_add, BitVec.ofInt_add, BitVec.ofInt_toInt]

theorem maddRun_pipe {wa wb wc : Nat} (as bs cs : Bool) (s : MaddState wa wb wc)
    (xs : List (MaddIn wa wb wc)) :
    let s' := xs.foldl (fun s i =>
      ({ a := i.a, b := i.b, c := i.c, pipe := shift (maddWire as bs cs s.a s.b s.c) s.pipe }
        : MaddState wa wb wc)) s
    (s'.pipe = Pipe.pushAll id s.pipe
      ((maddWire as bs cs s.a s.b s.c :: xs.map fun i => maddWire as bs cs i.a i.b i.c).dropLast)) ∧
    (xs ≠ [] → ∀ x, xs.getLast? = some x → s'.a = x.a ∧ s'.b = x.b ∧ s'.c = x.c) := by
  obtain ⟨ys, rfl⟩ : ∃ ys : List (MaddIn wa wb wc), xs = ys.reverse := ⟨xs.reverse, by simp⟩
  induction ys with
  | nil => simp [Pipe.pushAll]
  | cons y ys ih =>
    simp only [List.reverse_cons, List.foldl_append, List.foldl_cons, List.foldl_nil]
    obtain ⟨ih1, ih2⟩ := ih
    refine ⟨?_, ?_⟩
    · rw [ih1, shift_eq_push]
      rcases List.eq_nil_or_concat ys.reverse with h0 | ⟨zs, z, h0⟩
      · simp [h0, Pipe.pushAll]
      · have h2 := ih2 (by simp [h0]) z (by simp [h0])
        rw [h2.1, h2.2.1, h2.2.2]
        simp only [h0]
        simp only [List.concat_eq_append, List.map_append, List.map_cons, List.map_nil]
        rw [← List.cons_append, ← List.cons_append, List.dropLast_concat, ← List.cons_append,
          List.dropLast_concat]
        simp [Pipe.pushAll, List.foldl_append]
    · intro _ x hx
      simp at hx; subst hx; exact ⟨rfl, rfl, rfl⟩

theorem madd_latency {wa wb wc : Nat} (as bs cs : Bool) (depth : Nat) (hd : 2 ≤ depth)
    (s : MaddState wa wb wc) (hs : s.pipe.length = depth - 1) (ins : List (MaddIn wa wb wc))
    (older newer : List (MaddIn wa wb wc)) (x : MaddIn wa wb wc)
    (hx : maddIssued ins = older ++ x :: newer) (hn : newer.length + 1 = depth) :
    maddOut (maddRun as bs cs s ins) =
      some (BitVec.ofInt (maddWidth wa wb wc)
        (denote as x.a * denote bs x.b + denote cs x.c)) := by
  have hrun : maddRun as bs cs s ins = (maddIssued ins).foldl (fun s i =>
      ({ a := i.a, b := i.b, c := i.c, pipe := shift (maddWire as bs cs s.a s.b s.c) s.pipe }
        : MaddState wa wb wc)) s := by
    rw [maddIssued, ← Pipe.foldl_gate]; rfl
  rw [hrun, hx]
  obtain ⟨h1, _⟩ := maddRun_pipe as bs cs s (older ++ x :: newer)
  have hne : newer ≠ [] := by intro h; subst h; simp at hn; omega
  rw [maddOut, h1, dropLast_products _ _ _ _ _ hne,
    Pipe.pushAll_last id _ _ _ _ (by simp; omega), Pipe.iter_id, maddWire_eq]

/-- **C04 (multiply-add).** The output is `a*b + c` of the operands presented `depth` enabled
cycles ago, modulo `2 ^ max (wa + wb) wc`. -/
theorem c04_madd_latency {wa wb wc : Nat} (as bs cs : Bool) (depth : Nat) (hd : 2 ≤ depth)
    (s : MaddState wa wb wc) (hs : s.pipe.length = depth - 1) (ins : List (MaddIn wa wb wc))
    (older newer : List (MaddIn wa wb wc)) (x : MaddIn wa wb wc)
    (hx : maddIssued ins = older ++ x :: newer) (hn : newer.length + 1 = depth) :
    (maddOut (maddRun as bs cs s ins)).map (fun o => (o.toNat : Int)) =
      some ((denote as x.a * denote bs x.b + denote cs x.c) % (2 ^ max (wa + wb) wc : Nat)) := by
  rw [madd_latency as bs cs depth hd s hs ins older newer x hx hn, Option.map_some,
    BitVec.toNat_ofInt, maddWidth]
  congr 1
  have : (0 : Int) < ((2 ^ max (wa + wb) wc : Nat) : Int) := by
    exact_mod_cast Nat.two_pow_pos _
  rw [Int.toNat_of_nonneg (Int.emod_nonneg _ (by omega))]

example : maddOut (maddRun (wa := 4) (wb := 4) (wc := 4) true true true ⟨0, 0, 0, [0]⟩
    [⟨true, -3, 5, 2⟩, ⟨true, 2, 2, 0⟩]) = some (-13) := by decide

/-! ### The valid chain -/

/-- Enable bits accepted by the valid chain in updated, non-reset cycles. -/
def validRun (v : List Bool) (ins : List (Bool × Bool)) : List Bool :=
  ins.foldl (fun v i => validStep false i.1 i.2 v) v

/-- **C04 (valid).** The `valid` output is the `enable` of `depth` enabled cycles ago, so it
is aligned with the product; reset clears it. -/
theorem c04_mul_valid (depth : Nat) (v : List Bool) (hv : v.length = depth)
    (ins older newer : List (Bool × Bool)) (x : Bool × Bool)
    (hx : ins.filter (·.1) = older ++ x :: newer) (hn : newer.length + 1 = depth) :
    (validRun v ins).getLast? = some x.2 := by
  have hrun : validRun v ins = (ins.filter (·.1)).foldl (fun v i => Pipe.push id i.2 v) v := by
    rw [← Pipe.foldl_gate]
    simp only [validRun, validStep, shift_eq_push]; rfl
  have h2 : (ins.filter (·.1)).foldl (fun v i => Pipe.push id i.2 v) v =
      Pipe.pushAll id v ((ins.filter (·.1)).map (·.2)) := by
    simp [Pipe.pushAll, List.foldl_map]
  rw [hrun, h2, hx, List.map_append, List.map_cons,
    Pipe.pushAll_last id _ _ _ _ (by simp; omega), Pipe.iter_id]

theorem c04_mul_valid_reset (u e : Bool) (v : List Bool) :
    ∀ b ∈ validStep true u e v, b = false := by
  simp [validStep]

example : (validRun [false, false] [(true, true), (false, false), (true, false)]).getLast? =
    some true := by decide

end Mul
