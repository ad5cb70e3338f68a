/-!
# Helper lemmas about register chains

`Pipe.push f x rs` is what one enabled clock edge does to a chain of registers in which
register 0 is loaded with `x` and register `i+1` with `f` of register `i`.
-/

namespace Pipe
variable {σ : Type}

/-- One enabled edge of a register chain (same number of registers before and after). -/
def push (f : σ → σ) (x : σ) : List σ → List σ
  | [] => []
  | r :: rs => x :: push f (f r) rs

@[simp] theorem length_push (f : σ → σ) (x : σ) (rs : List σ) :
    (push f x rs).length = rs.length := by
  induction rs generalizing x with
  | nil => rfl
  | cons r rs ih => simp [push, ih]

theorem push_zero (f : σ → σ) (x : σ) (rs : List σ) (h : 0 < rs.length) :
    (push f x rs)[0]'(by simpa using h) = x := by
  cases rs with
  | nil => simp at h
  | cons r rs => rfl

theorem push_succ (f : σ → σ) (x : σ) (rs : List σ) (i : Nat) (h : i + 1 < rs.length) :
    (push f x rs)[i + 1]'(by simpa using h) = f (rs[i]) := by
  induction rs generalizing x i with
  | nil => simp at h
  | cons r rs ih =>
    simp only [push, List.getElem_cons_succ]
    cases i with
    | zero =>
      have : 0 < rs.length := by simpa using h
      simpa using push_zero f (f r) rs this
    | succ i =>
      have : i + 1 < rs.length := by simpa using h
      simpa using ih (f r) i this

/-- Iterate a function. -/
def iter (f : σ → σ) : Nat → σ → σ
  | 0, x => x
  | n + 1, x => iter f n (f x)

theorem iter_succ' (f : σ → σ) (n : Nat) (x : σ) : iter f (n + 1) x = f (iter f n x) := by
  induction n generalizing x with
  | zero => rfl
  | succ n ih => rw [iter, ih (f x)]; rfl

/-- Chain contents after pushing `xs` (oldest first). -/
def pushAll (f : σ → σ) (rs : List σ) (xs : List σ) : List σ :=
  xs.foldl (fun rs x => push f x rs) rs

@[simp] theorem length_pushAll (f : σ → σ) (rs xs : List σ) :
    (pushAll f rs xs).length = rs.length := by
  unfold pushAll
  induction xs generalizing rs with
  | nil => rfl
  | cons x xs ih => simp [ih]

/-- Register `i` holds `f^i` of the element pushed `i+1` pushes ago. -/
theorem pushAll_get (f : σ → σ) (rs xs : List σ) (i : Nat) (hi : i < rs.length)
    (hx : i < xs.length) :
    (pushAll f rs xs)[i]'(by simpa using hi) = iter f i (xs[xs.length - 1 - i]'(by omega)) := by
  -- induct on the reversed input list
  obtain ⟨ys, rfl⟩ : ∃ ys : List σ, xs = ys.reverse := ⟨xs.reverse, by simp⟩
  induction ys generalizing i with
  | nil => simp at hx
  | cons y ys ih =>
    have hstep : pushAll f rs (y :: ys).reverse = push f y (pushAll f rs ys.reverse) := by
      simp [pushAll, List.foldl_append]
    simp only [hstep]
    cases i with
    | zero =>
      rw [push_zero f y _ (by simpa using hi)]
      simp [iter]
    | succ i =>
      rw [push_succ f y _ i (by simpa using hi)]
      have hx' : i < ys.reverse.length := by simpa using hx
      rw [ih i (by omega) hx', iter_succ']
      have e : ys.reverse[ys.reverse.length - 1 - i]'(by omega) =
          (y :: ys).reverse[(y :: ys).reverse.length - 1 - (i + 1)]'(by simp; omega) := by
        rw [List.getElem_reverse, List.getElem_reverse, List.getElem_cons]
        simp only [List.length_reverse, List.length_cons] at hx' ⊢
        have : ¬ (ys.length + 1 - 1 - (ys.length + 1 - 1 - (i + 1)) = 0) := by omega
        simp only [this, dif_neg, not_false_eq_true]
        congr 1; omega
      rw [e]

/-- Same, in the form "`x` was pushed, then `newer`". -/
theorem pushAll_split (f : σ → σ) (rs older newer : List σ) (x : σ)
    (hi : newer.length < rs.length) :
    (pushAll f rs (older ++ x :: newer))[newer.length]? = some (iter f newer.length x) := by
  rw [List.getElem?_eq_getElem (by simpa using hi),
    pushAll_get f rs _ newer.length hi (by simp; omega)]
  congr 2
  simp

/-- The last register of a chain of `n` registers. -/
theorem pushAll_last (f : σ → σ) (rs older newer : List σ) (x : σ)
    (hi : newer.length + 1 = rs.length) :
    (pushAll f rs (older ++ x :: newer)).getLast? = some (iter f newer.length x) := by
  rw [List.getLast?_eq_getElem?, length_pushAll, ← hi, Nat.add_sub_cancel]
  exact pushAll_split f rs older newer x (by omega)

theorem iter_id {α : Type} (n : Nat) (x : α) : iter id n x = x := by
  induction n with
  | zero => rfl
  | succ n ih => simpa [iter] using ih

/-- A state machine that only reacts to enabled inputs sees just the enabled ones. -/
theorem foldl_gate {S I : Type} (en : I → Bool) (f : S → I → S) (s : S) (ins : List I) :
    ins.foldl (fun s i => if en i then f s i else s) s = (ins.filter en).foldl f s := by
  induction ins generalizing s with
  | nil => rfl
  | cons i is ih =>
    by_cases h : en i = true
    · simp [h, ih]
    · simp [h, ih]

end Pipe
