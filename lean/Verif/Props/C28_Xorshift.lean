import Verif.Model.StreamOp

/-!
# C28: the xorshift random source
-/

namespace Stream

private theorem xor_shl_inj {w : Nat} (k : Nat) (hk : 0 < k) {x y : BitVec w}
    (h : x ^^^ (x <<< k) = y ^^^ (y <<< k)) : x = y := by
  have key : ∀ n, ∀ i, i < n → x.getLsbD i = y.getLsbD i := by
    intro n
    induction n with
    | zero => intro i hi; omega
    | succ n ih =>
      intro i hi
      have hb := congrArg (fun v => v.getLsbD i) h
      simp only [BitVec.getLsbD_xor, BitVec.getLsbD_shiftLeft] at hb
      by_cases h1 : i < k
      · simpa [h1] using hb
      · rw [ih (i - k) (by omega)] at hb
        revert hb
        generalize (decide (i < w) && !decide (i < k) && y.getLsbD (i - k)) = c
        cases x.getLsbD i <;> cases y.getLsbD i <;> cases c <;> simp
  apply BitVec.eq_of_getLsbD_eq
  intro i hi
  exact key (i + 1) i (by omega)

private theorem xor_shr_inj {w : Nat} (k : Nat) (hk : 0 < k) {x y : BitVec w}
    (h : x ^^^ (x >>> k) = y ^^^ (y >>> k)) : x = y := by
  have key : ∀ n, ∀ i, w ≤ i + n → x.getLsbD i = y.getLsbD i := by
    intro n
    induction n with
    | zero => intro i hi; rw [BitVec.getLsbD_of_ge x i (by omega), BitVec.getLsbD_of_ge y i (by omega)]
    | succ n ih =>
      intro i hi
      have hb := congrArg (fun v => v.getLsbD i) h
      simp only [BitVec.getLsbD_xor, BitVec.getLsbD_ushiftRight] at hb
      rw [ih (k + i) (by omega)] at hb
      revert hb
      cases x.getLsbD i <;> cases y.getLsbD i <;> cases y.getLsbD (k + i) <;> simp
  apply BitVec.eq_of_getLsbD_eq
  intro i hi
  exact key w i (by omega)

/-- C28: two different states never have the same successor (32 bits). -/
theorem c28_injective32 (x y : BitVec 32) (h : xorshift32 x = xorshift32 y) : x = y :=
  xor_shl_inj 13 (by omega) (xor_shr_inj 17 (by omega) (xor_shl_inj 5 (by omega) h))

/-- C28: two different states never have the same successor (64 bits). -/
theorem c28_injective64 (x y : BitVec 64) (h : xorshift64 x = xorshift64 y) : x = y :=
  xor_shl_inj 13 (by omega) (xor_shr_inj 7 (by omega) (xor_shl_inj 17 (by omega) h))

private theorem surj {w : Nat} (f : BitVec w → BitVec w) (hf : ∀ x y, f x = f y → x = y)
    (y : BitVec w) : ∃ x, f x = y := by
  -- counting: an injective map on the numbers below `2 ^ w` is onto
  have pigeon : ∀ (n : Nat) (g : Nat → Nat), (∀ i, i < n → g i < n) →
      (∀ i j, i < n → j < n → g i = g j → i = j) → ∀ m, m < n → ∃ i, i < n ∧ g i = m := by
    intro n
    induction n with
    | zero => intro g _ _ m hm; omega
    | succ n ih =>
      intro g hb hi m hm
      by_cases hgn : g n = m
      · exact ⟨n, by omega, hgn⟩
      -- swap `g n` and `n` in the values
      let sw : Nat → Nat := fun v => if v = g n then n else if v = n then g n else v
      have hsw : ∀ a b, sw a = sw b → a = b := by
        intro a b hab
        simp only [sw] at hab
        split at hab <;> split at hab <;> (try split at hab) <;> (try split at hab) <;> omega
      have hgn' := hb n (by omega)
      have hb' : ∀ i, i < n → sw (g i) < n := by
        intro i hin
        have h1 := hb i (by omega)
        have h2 : g i ≠ g n := fun h => by have := hi i n (by omega) (by omega) h; omega
        simp only [sw, if_neg h2]
        split
        · omega
        · omega
      have hi' : ∀ i j, i < n → j < n → sw (g i) = sw (g j) → i = j := by
        intro i j h1 h2 h
        exact hi i j (by omega) (by omega) (hsw _ _ h)
      have hm' : sw m < n := by
        simp only [sw]
        split
        · omega
        · split <;> omega
      obtain ⟨i, hin, he⟩ := ih (fun i => sw (g i)) hb' hi' (sw m) hm'
      exact ⟨i, by omega, hsw _ _ he⟩
  obtain ⟨i, hi, he⟩ := pigeon (2 ^ w) (fun i => (f (BitVec.ofNat w i)).toNat)
    (fun i _ => (f (BitVec.ofNat w i)).isLt)
    (by
      intro i j h1 h2 h
      have := hf _ _ (BitVec.eq_of_toNat_eq h)
      have := congrArg BitVec.toNat this
      simpa [Nat.mod_eq_of_lt h1, Nat.mod_eq_of_lt h2] using this)
    y.toNat y.isLt
  exact ⟨_, BitVec.eq_of_toNat_eq he⟩

/-- C28: every state is the successor of exactly one state (32 bits). -/
theorem c28_bijective32 (y : BitVec 32) : ∃ x, xorshift32 x = y ∧ ∀ x', xorshift32 x' = y → x' = x := by
  obtain ⟨x, hx⟩ := surj xorshift32 c28_injective32 y
  exact ⟨x, hx, fun x' h => c28_injective32 _ _ (h.trans hx.symm)⟩

/-- C28: every state is the successor of exactly one state (64 bits). -/
theorem c28_bijective64 (y : BitVec 64) : ∃ x, xorshift64 x = y ∧ ∀ x', xorshift64 x' = y → x' = x := by
  obtain ⟨x, hx⟩ := surj xorshift64 c28_injective64 y
  exact ⟨x, hx, fun x' h => c28_injective64 _ _ (h.trans hx.symm)⟩

/-- C28: zero is a fixed point, so a seed of zero is stuck. -/
theorem c28_zero : xorshift32 0 = 0 ∧ xorshift64 0 = 0 := by decide

/-- `n`-fold application. -/
private def iter {α : Type} (f : α → α) : Nat → α → α
  | 0, x => x
  | n + 1, x => iter f n (f x)

private theorem iter_succ {α : Type} (f : α → α) (n : Nat) (x : α) : iter f (n + 1) x = f (iter f n x) := by
  induction n generalizing x with
  | zero => rfl
  | succ n ih => exact ih (f x)

private theorem iter_inj {α : Type} (f : α → α) (hf : ∀ x y, f x = f y → x = y) :
    ∀ (n : Nat) (x y : α), iter f n x = iter f n y → x = y
  | 0, _, _, h => h
  | n + 1, _, _, h => hf _ _ (iter_inj f hf n _ _ h)

/-- The generator after the enables `en`, one per clock edge. -/
private theorem run_eq {w : Nat} (next : BitVec w → BitVec w) (seed : BitVec w) (en : List Bool) :
    (en.foldl (RandSt.step next) (RandSt.init seed)).randval = iter next (en.count true) seed ∧
    (en.foldl (RandSt.step next) (RandSt.init seed)).data = iter next (en.count true - 1) seed := by
  have key : ∀ (en : List Bool) (s : RandSt w) (k : Nat),
      s.randval = iter next k seed → s.data = iter next (k - 1) seed →
      (en.foldl (RandSt.step next) s).randval = iter next (k + en.count true) seed ∧
      (en.foldl (RandSt.step next) s).data = iter next (k + en.count true - 1) seed := by
    intro en
    induction en with
    | nil => intro s k h1 h2; exact ⟨h1, h2⟩
    | cons e en ih =>
      intro s k h1 h2
      cases e with
      | false => simpa [RandSt.step] using ih s k h1 h2
      | true =>
        have := ih (RandSt.step next s true) (k + 1)
          (by show next s.randval = _; rw [h1, iter_succ]) (by show s.randval = _; exact h1)
        simp only [List.foldl_cons, List.count_cons_self]
        rw [show k + (en.count true + 1) = k + 1 + en.count true by omega]
        exact this
  have := key en (RandSt.init seed) 0 rfl rfl
  simpa using this

/-- C28: from a non-zero seed the output is never zero, whatever the enable schedule (32 bits). -/
theorem c28_never_zero32 (seed : BitVec 32) (h : seed ≠ 0) (en : List Bool) :
    (en.foldl (RandSt.step xorshift32) (RandSt.init seed)).data ≠ 0 := by
  rw [(run_eq xorshift32 seed en).2]
  intro h0
  apply h
  apply iter_inj _ c28_injective32 (en.count true - 1)
  rw [h0]
  generalize en.count true - 1 = n
  induction n with
  | zero => rfl
  | succ n ih => rw [iter_succ, ← ih]; exact c28_zero.1.symm

/-- C28: from a non-zero seed the output is never zero, whatever the enable schedule (64 bits). -/
theorem c28_never_zero64 (seed : BitVec 64) (h : seed ≠ 0) (en : List Bool) :
    (en.foldl (RandSt.step xorshift64) (RandSt.init seed)).data ≠ 0 := by
  rw [(run_eq xorshift64 seed en).2]
  intro h0
  apply h
  apply iter_inj _ c28_injective64 (en.count true - 1)
  rw [h0]
  generalize en.count true - 1 = n
  induction n with
  | zero => rfl
  | succ n ih => rw [iter_succ, ← ih]; exact c28_zero.2.symm

/-- C28: two generators with different seeds and the same enables always differ. -/
theorem c28_never_merge (w : Nat) (next : BitVec w → BitVec w)
    (hn : (∃ h : w = 32, next = h ▸ xorshift32) ∨ (∃ h : w = 64, next = h ▸ xorshift64))
    (a b : BitVec w) (h : a ≠ b) (en : List Bool) :
    (en.foldl (RandSt.step next) (RandSt.init a)).data ≠
      (en.foldl (RandSt.step next) (RandSt.init b)).data := by
  have hf : ∀ x y, next x = next y → x = y := by
    rcases hn with ⟨rfl, rfl⟩ | ⟨rfl, rfl⟩
    · exact c28_injective32
    · exact c28_injective64
  rw [(run_eq next a en).2, (run_eq next b en).2]
  exact fun he => h (iter_inj next hf _ _ _ he)

/-- C28: the output is the seed at the first enabled edge and the successor of the previous output
    at every later one; other edges change nothing. -/
theorem c28_outputs {w : Nat} (next : BitVec w → BitVec w) (seed : BitVec w) (en : List Bool) :
    let out := fun l => (l.foldl (RandSt.step next) (RandSt.init seed)).data
    out (en ++ [false]) = out en ∧
    out (en ++ [true]) = if true ∈ en then next (out en) else seed := by
  intro out
  have h1 : out (en ++ [false]) = out en := by simp [out, RandSt.step]
  refine ⟨h1, ?_⟩
  simp only [out]
  rw [(run_eq next seed _).2, (run_eq next seed _).2, List.count_append]
  by_cases hm : true ∈ en
  · rw [if_pos hm, ← iter_succ next]
    have := List.count_pos_iff.2 hm
    congr 1
    simp
    omega
  · rw [if_neg hm, List.count_eq_zero_of_not_mem hm]
    rfl

/-! Examples. -/

example : xorshift32 1 = 0x42021#32 := by decide
example : xorshift32 0x12345678#32 ≠ 0 := by decide
example : ([true, false, true].foldl (RandSt.step xorshift32) (RandSt.init 1)).data = 0x42021#32 := by
  decide

end Stream
