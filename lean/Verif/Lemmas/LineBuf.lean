import Verif.Model.LineBuf
import Mathlib.Data.List.Basic
import Mathlib.Data.Nat.ModEq
import Mathlib.Tactic.Ring

/-!
# Lemmas about `LineBuffer`: the registers and RAMs as nested queues
-/

namespace LineBuf

open Vlog

/-- What the window and the RAMs hold, the words of a RAM in the order in which they leave. -/
structure Gh (α : Type) where
  win : List ℕ → α
  cell : ℕ → List ℕ → ℕ → α

/-- The word that leaves block `mi` of level `d` next. -/
def Gh.pop {α : Type} (g : Gh α) : ℕ → List ℕ → α
  | 0, mi => g.win mi
  | d + 1, mi => g.cell (d + 1) mi 0

/-- What enters block `mi` of level `d`, `k` levels below the level at which `v` enters. -/
def inp {α : Type} (shape : List ℕ) (v : List ℕ → α) (pop : ℕ → List ℕ → α) : ℕ → ℕ → List ℕ → α
  | 0, _, mi => v mi
  | k + 1, d, mi =>
    if mi.headD 0 + 1 = shape.getD d 0 then inp shape v pop k (d + 1) mi.tail
    else pop d ((mi.headD 0 + 1) :: mi.tail)

/-- One step of the blocks up to level `top`. -/
def Gh.step {α : Type} (shape : List ℕ) (D : ℕ → ℕ) (top : ℕ) (v : List ℕ → α) (g : Gh α) : Gh α where
  win mi := inp shape v g.pop top 0 mi
  cell d mi k := if d ≤ top then (if k + 1 < D d then g.cell d mi (k + 1) else g.pop (d - 1) (0 :: mi)) else g.cell d mi k

/-- All the words of block `mi` of level `d` in the order in which they leave. -/
def Gh.flat {α : Type} (shape : List ℕ) (D : ℕ → ℕ) (g : Gh α) : ℕ → List ℕ → List α
  | 0, mi => [g.win mi]
  | d + 1, mi => (List.range (D (d + 1))).map (g.cell (d + 1) mi) ++
      (List.range (shape.getD d 0)).flatMap fun x => g.flat shape D d (x :: mi)

/-- The number of words in a block. -/
def len (shape : List ℕ) (D : ℕ → ℕ) : ℕ → ℕ
  | 0 => 1
  | d + 1 => D (d + 1) + shape.getD d 0 * len shape D d

section
variable {α : Type} {shape : List ℕ} {D : ℕ → ℕ}

theorem flat_length (g : Gh α) (d : ℕ) (mi : List ℕ) : (g.flat shape D d mi).length = len shape D d := by
  induction d generalizing mi with
  | zero => rfl
  | succ d ih =>
    simp only [Gh.flat, len, List.length_append, List.length_map, List.length_range, List.length_flatMap]
    congr 1
    have : (fun x => (g.flat shape D d (x :: mi)).length) = fun _ => len shape D d := by
      funext x; exact ih _
    rw [this]
    simp

/-- A block starts with the word that leaves it next. -/
theorem flat_cons (g : Gh α) (d : ℕ) (mi : List ℕ) (hD : d = 0 ∨ 1 ≤ D d) :
    g.flat shape D d mi = g.pop d mi :: (g.flat shape D d mi).tail := by
  cases d with
  | zero => rfl
  | succ d =>
    obtain ⟨m, hm⟩ : ∃ m, D (d + 1) = m + 1 := ⟨D (d + 1) - 1, by omega⟩
    simp only [Gh.flat, hm, List.range_succ_eq_map, List.map_cons, List.cons_append, List.tail_cons, Gh.pop]

private theorem shift_chain (n : ℕ) (p : ℕ → α) (t : ℕ → List α) (last : α) :
    (List.range n).flatMap (fun x => t x ++ [if x + 1 = n then last else p (x + 1)]) ++ (if n = 0 then [last] else []) =
      ((List.range n).flatMap (fun x => p x :: t x)).tail ++ [last] := by
  induction n generalizing p t with
  | zero => simp
  | succ n ih =>
    rw [List.range_succ_eq_map]
    simp only [List.flatMap_cons, List.flatMap_map, if_neg (Nat.succ_ne_zero n), List.append_nil, List.cons_append,
      List.tail_cons]
    have h := ih (fun x => p (x + 1)) (fun x => t (x + 1))
    have e : (fun x => t (x + 1) ++ [if x + 1 + 1 = n + 1 then last else p (x + 1 + 1)]) =
        fun x => t (x + 1) ++ [if x + 1 = n then last else p (x + 1 + 1)] := by
      funext x; simp
    by_cases hn : n = 0
    · subst hn; simp
    · rw [if_neg hn, List.append_nil] at h
      rw [if_neg (by omega)]
      show _ ++ (List.flatMap (fun x => t (x + 1) ++ [if x + 1 + 1 = n + 1 then last else p (x + 1 + 1)]) _) = _
      rw [e, h]
      obtain ⟨m, rfl⟩ : ∃ m, n = m + 1 := ⟨n - 1, by omega⟩
      rw [List.range_succ_eq_map]
      simp

/-- A block that takes part in a step moves by one word. -/
theorem flat_step (g : Gh α) (top : ℕ) (v : List ℕ → α) (hD : ∀ d, 1 ≤ d → d < shape.length → 1 ≤ D d)
    (hn : D shape.length = 0) (hS : ∀ d, d < shape.length → 1 ≤ shape.getD d 0) (ht : top ≤ shape.length) (k d : ℕ) (mi : List ℕ) (hk : k + d = top) :
    (g.step shape D top v).flat shape D d mi = (g.flat shape D d mi).tail ++ [inp shape v g.pop k d mi] := by
  induction d generalizing k mi with
  | zero => simp [Gh.flat, Gh.step, ← hk]
  | succ d ih =>
    have hdt : d < shape.length := by omega
    have hS := hS d hdt
    have hb : ∀ x, g.flat shape D d (x :: mi) = g.pop d (x :: mi) :: (g.flat shape D d (x :: mi)).tail := fun x =>
      flat_cons g d _ (by rcases Nat.eq_zero_or_pos d with h | h
                          · exact Or.inl h
                          · exact Or.inr (hD d h hdt))
    have e1 : (List.range (shape.getD d 0)).flatMap (fun x => (g.step shape D top v).flat shape D d (x :: mi)) =
        ((List.range (shape.getD d 0)).flatMap (fun x => g.flat shape D d (x :: mi))).tail ++
          [inp shape v g.pop k (d + 1) mi] := by
      have h := shift_chain (shape.getD d 0) (fun x => g.pop d (x :: mi)) (fun x => (g.flat shape D d (x :: mi)).tail)
        (inp shape v g.pop k (d + 1) mi)
      rw [if_neg (by omega), List.append_nil] at h
      simp only [← hb] at h
      rw [← h]
      refine List.flatMap_congr fun x _ => ?_
      rw [ih (k + 1) (x :: mi) (by omega)]
      simp [inp]
    simp only [Gh.flat]
    rw [e1]
    by_cases hc : d + 1 < shape.length
    · have h1 := hD (d + 1) (by omega) hc
      obtain ⟨m, hm⟩ : ∃ m, D (d + 1) = m + 1 := ⟨D (d + 1) - 1, by omega⟩
      have e2 : (List.range (D (d + 1))).map ((g.step shape D top v).cell (d + 1) mi) =
          (List.range m).map (fun j => g.cell (d + 1) mi (j + 1)) ++ [g.pop d (0 :: mi)] := by
        rw [hm, List.range_succ, List.map_append]
        congr 1
        · refine List.map_congr_left fun j hj => ?_
          rw [List.mem_range] at hj
          simp only [Gh.step, if_pos (show d + 1 ≤ top by omega)]
          rw [if_pos (by omega)]
        · simp only [Gh.step, if_pos (show d + 1 ≤ top by omega), List.map_cons, List.map_nil]
          rw [if_neg (by omega)]
          simp
      rw [e2]
      obtain ⟨q, hq⟩ : ∃ q, shape.getD d 0 = q + 1 := ⟨shape.getD d 0 - 1, by omega⟩
      rw [hm, hq, List.range_succ_eq_map, List.range_succ_eq_map]
      simp only [List.flatMap_cons]
      conv_rhs => rw [hb 0]
      conv_lhs => rw [hb 0]
      simp [Function.comp_def]
    · have : d + 1 = shape.length := by omega
      rw [this, hn]
      simp

/-- A level above the step changes only inside. -/
theorem flat_keep (g : Gh α) (top : ℕ) (v : List ℕ → α) (d : ℕ) (mi : List ℕ) (h : top < d + 1) :
    (g.step shape D top v).flat shape D (d + 1) mi = (List.range (D (d + 1))).map (g.cell (d + 1) mi) ++
      (List.range (shape.getD d 0)).flatMap fun x => (g.step shape D top v).flat shape D d (x :: mi) := by
  simp only [Gh.flat]
  congr 1
  refine List.map_congr_left fun j _ => ?_
  simp only [Gh.step, if_neg (show ¬ d + 1 ≤ top by omega)]

private theorem flatMap_chunk (n l : ℕ) (f : ℕ → List α) (hf : ∀ x, (f x).length = l) (x : ℕ) (hx : x < n) :
    (((List.range n).flatMap f).drop (x * l)).take l = f x := by
  induction n generalizing f x with
  | zero => omega
  | succ n ih =>
    rw [List.range_succ_eq_map]
    simp only [List.flatMap_cons, List.flatMap_map]
    cases x with
    | zero => simp [List.take_append, hf]
    | succ x =>
      rw [show (x + 1) * l = (f 0).length + x * l by rw [hf]; ring, List.drop_append,
        List.drop_eq_nil_of_le (by omega), List.nil_append, Nat.add_sub_cancel_left]
      exact ih (fun x => f (x + 1)) (fun x => hf _) x (by omega)

/-- A block is a part of the block around it. -/
theorem flat_chunk (g : Gh α) (d : ℕ) (mi : List ℕ) (x : ℕ) (hx : x < shape.getD d 0) :
    ((g.flat shape D (d + 1) mi).drop (D (d + 1) + x * len shape D d)).take (len shape D d) =
      g.flat shape D d (x :: mi) := by
  simp only [Gh.flat]
  rw [List.drop_append, List.drop_eq_nil_of_le (by simp), List.nil_append]
  simp only [List.length_map, List.length_range, Nat.add_sub_cancel_left]
  exact flatMap_chunk _ _ (fun x => g.flat shape D d (x :: mi)) (fun x => flat_length _ _ _) x hx

theorem flat_cells (g : Gh α) (d : ℕ) (mi : List ℕ) :
    (g.flat shape D (d + 1) mi).take (D (d + 1)) = (List.range (D (d + 1))).map (g.cell (d + 1) mi) := by
  simp only [Gh.flat]
  rw [List.take_append_of_le_length (by simp), List.take_of_length_le (by simp)]

/-- `inp` in closed form. -/
theorem inp_eq (v : List ℕ → α) (pop : ℕ → List ℕ → α) (k d : ℕ) (mi : List ℕ) (hm : mi.length = (shape.drop d).length)
    (hk : k ≤ mi.length) :
    inp shape v pop k d mi = if k ≤ firstFalse (shape.drop d) mi then v (mi.drop k)
      else pop (d + firstFalse (shape.drop d) mi) ((incr (shape.drop d) mi).drop (firstFalse (shape.drop d) mi)) := by
  induction k generalizing d mi with
  | zero => simp [inp]
  | succ k ih =>
    cases mi with
    | nil => simp at hk
    | cons x mi =>
      have hd : d < shape.length := by simp at hm; omega
      have hg : shape.getD d 0 = shape[d] := by simp [hd]
      rw [List.drop_eq_getElem_cons hd] at hm ⊢
      simp only [inp, List.headD_cons, List.tail_cons, firstFalse, incr, hg]
      by_cases hx : x + 1 = shape[d]
      · simp only [if_pos hx]
        rw [ih (d + 1) mi (by simp at hm ⊢; omega) (by simpa using hk)]
        simp only [Nat.add_le_add_iff_right, List.drop_succ_cons]
        by_cases hc : k ≤ firstFalse (shape.drop (d + 1)) mi
        · simp [hc]
        · simp only [if_neg hc, show d + 1 + firstFalse (shape.drop (d + 1)) mi =
            d + (firstFalse (shape.drop (d + 1)) mi + 1) by omega]
      · simp [if_neg hx]

theorem firstFalse_le (ss mi : List ℕ) : firstFalse ss mi ≤ ss.length := by
  induction ss generalizing mi with
  | nil => simp [firstFalse]
  | cons s ss ih =>
    cases mi with
    | nil => simp [firstFalse]
    | cons i mi =>
      simp only [firstFalse]
      split
      · have := ih mi; simp; omega
      · simp

end

/-! ### The machine and the queues -/

/-- What an item does to the buffer. -/
inductive Op (α : Type)
  | idle
  | shift (v : α)
  | rot (r : ℕ)

/-- The conditions of an item that say what it does: at most one of them holds. -/
def Does {α : Type} (n : ℕ) (sh : ℕ) (ro : ℕ → Bool) (v : α) : Op α → Prop
  | .idle => sh = 0 ∧ ∀ r, 1 ≤ r → r < n → ro r = false
  | .shift w => sh ≠ 0 ∧ v = w ∧ ∀ r, 1 ≤ r → r < n → ro r = false
  | .rot k => sh = 0 ∧ 1 ≤ k ∧ k < n ∧ ∀ r, 1 ≤ r → r < n → ro r = decide (r = k)

/-- Whether the blocks of a level take part. -/
def Op.aff {α : Type} : Op α → ℕ → Bool
  | .idle, _ => false
  | .shift _, _ => true
  | .rot k, d => decide (d ≤ k)

/-- The effect of an item on the queues. -/
def Gh.op {α : Type} (shape : List ℕ) (D : ℕ → ℕ) (g : Gh α) : Op α → Gh α
  | .idle => g
  | .shift v => g.step shape D shape.length fun _ => v
  | .rot k => g.step shape D k (g.pop k)

section
variable {α : Type}

theorem anyRot_eq {n sh : ℕ} {ro : ℕ → Bool} {v : α} {o : Op α} (h : Does n sh ro v o) {d : ℕ} (hd : 1 ≤ d) (hdn : d ≤ n) :
    (decide (sh ≠ 0) || anyRot n ro d) = (o.aff d && (decide (d < n) || decide (sh ≠ 0))) := by
  unfold anyRot
  cases o with
  | idle =>
    obtain ⟨h1, h2⟩ := h
    simp only [h1, Op.aff, Bool.false_and]
    simp only [ne_eq, not_true_eq_false, decide_false, Bool.false_or, List.any_eq_false, List.mem_range,
      Bool.and_eq_true, decide_eq_true_eq, not_and, Bool.not_eq_true]
    intro r hr hdr
    exact h2 r (by omega) hr
  | shift w => simp [Op.aff, h.1]
  | rot k =>
    obtain ⟨h1, h2, h3, h4⟩ := h
    simp only [h1, Op.aff]
    rw [Bool.eq_iff_iff]
    simp only [ne_eq, not_true_eq_false, decide_false, Bool.false_or, Bool.or_false, List.any_eq_true, List.mem_range,
      Bool.and_eq_true, decide_eq_true_eq]
    constructor
    · rintro ⟨r, hr, hdr, hro⟩
      rw [h4 r (by omega) hr] at hro
      simp only [decide_eq_true_eq] at hro
      omega
    · rintro ⟨hk, _⟩
      exact ⟨k, h3, hk, by rw [h4 k h2 h3]; simp⟩

private theorem muxes_shift (c : Cfg) (s : St α) (idx : List ℕ) (k : ℕ) (hk : k < c.n)
    (h : ∀ r, 1 ≤ r → r < c.n → s.ro r = false) : muxes c s idx k = shiftIn c s idx := by
  induction k with
  | zero => rfl
  | succ k ih =>
    simp only [muxes]
    rw [h (k + 1) (by omega) hk, ih (by omega)]
    simp

private theorem muxes_rot (c : Cfg) (s : St α) (idx : List ℕ) (r k : ℕ) (hk : k < c.n) (hr : 1 ≤ r)
    (h : ∀ r', 1 ≤ r' → r' < c.n → s.ro r' = decide (r' = r)) :
    muxes c s idx k = if r ≤ k ∧ r ≤ firstFalse c.shape idx then s.rd r (idx.drop r) else shiftIn c s idx := by
  induction k with
  | zero => rw [if_neg (by omega)]; rfl
  | succ k ih =>
    simp only [muxes]
    rw [h (k + 1) (by omega) hk, ih (by omega)]
    by_cases hkr : k + 1 = r
    · subst hkr
      by_cases hf : k + 1 ≤ firstFalse c.shape idx
      · simp [hf]
      · simp [hf]
    · simp only [hkr, decide_false, Bool.false_eq_true, if_false, ite_self]
      by_cases hrk : r ≤ k
      · simp [hrk, show r ≤ k + 1 by omega]
      · simp [hrk, show ¬ r ≤ k + 1 by omega]

/-- The input of a register of the window. -/
theorem newdata_eq (c : Cfg) (D : ℕ → ℕ) (s : St α) (g : Gh α) (o : Op α) (ho : o ≠ .idle)
    (hd : Does c.n s.sh s.ro s.src o) (hw : ∀ idx, idx.length = c.n → s.win idx = g.win idx)
    (hr : ∀ d mi, 1 ≤ d → d < c.n → mi.length = c.n - d → o.aff d = true → s.rd d mi = g.pop d mi)
    (idx : List ℕ) (hi : idx.length = c.n) (hn : 1 ≤ c.n) : newdata c s idx = (g.op c.shape D o).win idx := by
  obtain ⟨x, rest, rfl⟩ : ∃ x rest, idx = x :: rest := by
    cases idx with
    | nil => simp at hi; omega
    | cons x rest => exact ⟨x, rest, rfl⟩
  obtain ⟨S, ss, hsh⟩ : ∃ S ss, c.shape = S :: ss := by
    cases hc : c.shape with
    | nil => simp [Cfg.n, hc] at hn
    | cons S ss => exact ⟨S, ss, rfl⟩
  have hlen : rest.length = ss.length := by simpa [Cfg.n, hsh] using hi
  have hcn : c.n = ss.length + 1 := by simp [Cfg.n, hsh]
  have hff := firstFalse_le c.shape (x :: rest)
  rw [show c.shape.length = c.n from rfl] at hff
  -- the input of a shift
  have key : ∀ (top : ℕ) (v : List ℕ → α), top ≤ c.n → (∀ d, 1 ≤ d → d < top → o.aff d = true) →
      x + 1 = S → ¬ (top ≤ firstFalse c.shape (x :: rest)) →
      shiftIn c s (x :: rest) = inp c.shape v g.pop top 0 (x :: rest) := by
    intro top v ht ha hx hf
    have h1 : firstFalse c.shape (x :: rest) = firstFalse ss rest + 1 := by simp [hsh, firstFalse, hx]
    rw [inp_eq v g.pop top 0 (x :: rest) (by simpa [Cfg.n] using hi) (by rw [hi]; exact ht)]
    simp only [List.drop_zero, Nat.zero_add]
    rw [if_neg hf]
    unfold shiftIn
    simp only
    rw [if_neg (by omega), h1]
    have e : incr c.shape (x :: rest) = 0 :: incr ss rest := by simp [hsh, incr, hx]
    rw [e]
    simp only [List.drop_succ_cons, hsh, List.tail_cons]
    have hil : (incr ss rest).length = ss.length := by
      have : ∀ (a b : List ℕ), (incr a b).length = b.length := by
        intro a
        induction a with
        | nil => intro b; simp [incr]
        | cons y a ih =>
          intro b
          cases b with
          | nil => simp [incr]
          | cons z b => simp only [incr]; split <;> simp [ih]
      rw [this, hlen]
    exact hr _ _ (by omega) (by omega) (by simp [hil]; omega) (ha _ (by omega) (by omega))
  unfold newdata
  simp only [List.headD_cons, hsh, List.tail_cons]
  by_cases hx : x + 1 = S
  · rw [if_pos hx, ← hsh]
    cases o with
    | idle => exact absurd rfl ho
    | shift v =>
      obtain ⟨-, hv, hro⟩ := hd
      rw [muxes_shift c s _ _ (by omega) hro]
      simp only [Gh.op, Gh.step]
      by_cases hf : firstFalse c.shape (x :: rest) = c.n
      · rw [inp_eq _ g.pop _ 0 (x :: rest) (by simpa [Cfg.n] using hi) (by rw [hi]; exact Nat.le_refl _)]
        simp only [List.drop_zero]
        rw [if_pos (by rw [hf]; exact Nat.le_refl _)]
        unfold shiftIn
        simp only
        rw [if_pos hf, hv]
      · exact key c.shape.length (fun _ => v) (Nat.le_refl _) (fun _ _ _ => rfl) hx
          (by intro h; exact hf (by have : c.shape.length = c.n := rfl; omega))
    | rot k =>
      obtain ⟨-, h1, h2, hro⟩ := hd
      rw [muxes_rot c s _ k _ (by omega) h1 hro]
      simp only [Gh.op, Gh.step]
      by_cases hf : k ≤ firstFalse c.shape (x :: rest)
      · rw [if_pos ⟨by omega, hf⟩, inp_eq _ g.pop _ 0 (x :: rest) (by simpa [Cfg.n] using hi) (by rw [hi]; omega)]
        simp only [List.drop_zero]
        rw [if_pos hf]
        exact hr k _ h1 h2 (by rw [List.length_drop, hi]) (by simp [Op.aff])
      · rw [if_neg (fun h => hf h.2)]
        exact key k (g.pop k) (by omega) (fun d _ hdk => by simp [Op.aff]; omega) hx hf
  · rw [if_neg hx, hw _ (by simpa using hi)]
    cases o with
    | idle => exact absurd rfl ho
    | shift v =>
      simp only [Gh.op, Gh.step]
      simp only [hsh, List.length_cons]
      simp only [inp, List.headD_cons, List.tail_cons, List.getD_cons_zero, if_neg hx, Gh.pop]
    | rot k =>
      obtain ⟨j, hj⟩ : ∃ j, k = j + 1 := ⟨k - 1, by have := hd.2.1; omega⟩
      simp only [Gh.op, Gh.step, hj]
      simp only [inp, List.headD_cons, List.tail_cons, List.getD_cons_zero, if_neg hx, Gh.pop]

/-- The registers `head` and `tail` of dimension `d` run through `σ`, whose addresses repeat after `P` steps, `D` apart. -/
structure Cyc (c : Cfg) (d D P : ℕ) (σ : ℕ → ℤ) : Prop where
  head : c.ty.wrap (c.hinit d) = σ 0
  tail : c.ty.wrap (c.tinit d) = σ D
  next : ∀ k, next c d (σ k) = σ (k + 1)
  inj : ∀ k j, addr c d (σ k) = addr c d (σ j) → k ≡ j [MOD P]
  two : 2 ≤ D
  le : D ≤ P

/-- The invariant: `o` is what the item in the next stage does, `g` the queues before it. -/
structure Inv (c : Cfg) (D : ℕ → ℕ) (σ : ℕ → ℕ → ℤ) (s : St α) (g : Gh α) (o : Op α) : Prop where
  does : Does c.n s.sh s.ro s.src o
  bit : c.rotated = false → s.sh ≤ 1 ∧ ∀ r, s.ro r = false
  win : ∀ idx, idx.length = c.n → s.win idx = g.win idx
  mem : ∀ d, 1 ≤ d → d < c.n → ∃ m, s.head d = σ d (m + if o.aff d then 1 else 0) ∧
    s.tail d = σ d (m + D d + if o.aff d then 1 else 0) ∧ (o.aff d = true → s.ptail d = σ d (m + D d)) ∧
    ∀ mi, mi.length = c.n - d → (o.aff d = true → s.rd d mi = g.pop d mi) ∧
      ∀ k, k < D d → (o.aff d = true → 1 ≤ k) → s.mem d mi (addr c d (σ d (m + k))) = g.cell d mi k

theorem wenable_eq {c : Cfg} {D : ℕ → ℕ} {σ : ℕ → ℕ → ℤ} {s : St α} {g : Gh α} {o : Op α} (h : Inv c D σ s g o) {d : ℕ}
    (hd : 1 ≤ d) (hdn : d < c.n) : wenable c s d = o.aff d := by
  have := anyRot_eq h.does hd (Nat.le_of_lt hdn)
  rw [show decide (d < c.n) = true by simpa using hdn, Bool.true_or, Bool.and_true] at this
  unfold wenable
  by_cases hr : c.rotated = true
  · rw [if_pos hr, this]
  · have hr' : c.rotated = false := by simpa using hr
    rw [if_neg hr, ← this]
    obtain ⟨h1, h2⟩ := h.bit hr'
    have e : anyRot c.n s.ro d = false := by
      unfold anyRot
      simp [h2]
    rw [e, Bool.or_false]
    rw [Bool.eq_iff_iff]
    simp only [decide_eq_true_eq]
    omega

private theorem not_same {c : Cfg} {d D P : ℕ} {σ : ℕ → ℤ} (h : Cyc c d D P σ) (m k : ℕ) (h1 : 1 ≤ k) (h2 : k < D) :
    addr c d (σ (m + k)) ≠ addr c d (σ (m + D)) := by
  intro e
  have e1 := (Nat.ModEq.add_left_cancel' m (h.inj _ _ e)).symm
  have e2 := (Nat.modEq_iff_dvd' (Nat.le_of_lt h2)).1 e1.symm
  have e3 := Nat.le_of_dvd (by omega) e2
  have := h.le
  omega

/-- A cycle in which the stages do not move. -/
theorem inv_stall {c : Cfg} {D P : ℕ → ℕ} {σ : ℕ → ℕ → ℤ} {s : St α} {g : Gh α} {o : Op α} (h : Inv c D σ s g o)
    (hc : ∀ d, 1 ≤ d → d < c.n → Cyc c d (D d) (P d) (σ d)) (i : In α) (he : i.en = false) :
    Inv c D σ (s.step c i) g o where
  does := by simpa [St.step, he] using h.does
  bit := by simpa [St.step, he] using h.bit
  win := by simpa [St.step, he] using h.win
  mem := by
    intro d hd hdn
    obtain ⟨m, h1, h2, h3, h4⟩ := h.mem d hd hdn
    refine ⟨m, by simpa [St.step, he] using h1, by simpa [St.step, he] using h2, by simpa [St.step, he] using h3, ?_⟩
    intro mi hmi
    obtain ⟨h5, h6⟩ := h4 mi hmi
    refine ⟨by simpa [St.step, he] using h5, ?_⟩
    intro k hk hk1
    simp only [St.step, wenable_eq h hd hdn]
    by_cases ha : o.aff d = true
    · rw [if_pos ha, h3 ha, Function.update_of_ne (not_same (hc d hd hdn) m k (hk1 ha) hk)]
      exact h6 k hk hk1
    · rw [if_neg ha]
      exact h6 k hk hk1

private theorem enable_eq {c : Cfg} {D : ℕ → ℕ} {σ : ℕ → ℕ → ℤ} {s : St α} {g : Gh α} {o : Op α} (h : Inv c D σ s g o)
    (hn : 1 ≤ c.n) : enable c s = true ↔ o ≠ .idle := by
  have := anyRot_eq h.does (Nat.le_refl 1) hn
  unfold enable
  rw [this]
  have hd := h.does
  cases o with
  | idle => simp [Op.aff]
  | shift v => simp [Op.aff, hd.1]
  | rot k => simp [Op.aff, hd.2.1]; left; have := hd.2.2.1; have := hd.2.1; omega

private theorem aff_pred {o : Op α} {d : ℕ} (h : o.aff d = true) : o.aff (d - 1) = true := by
  cases o with
  | idle => exact h
  | shift v => rfl
  | rot k => simp only [Op.aff, decide_eq_true_eq] at h ⊢; omega

theorem op_cell (shape : List ℕ) (D : ℕ → ℕ) (g : Gh α) (o : Op α) (d : ℕ) (hd : d < shape.length) (mi : List ℕ) (k : ℕ) :
    (g.op shape D o).cell d mi k = if o.aff d then (if k + 1 < D d then g.cell d mi (k + 1) else g.pop (d - 1) (0 :: mi))
      else g.cell d mi k := by
  cases o with
  | idle => simp [Gh.op, Op.aff]
  | shift v => simp only [Gh.op, Op.aff, Gh.step, if_pos (Nat.le_of_lt hd), if_true]
  | rot r => simp only [Gh.op, Op.aff, Gh.step, decide_eq_true_eq]

/-- A cycle in which the stages move: the item in the next stage has its effect, the item `o'` follows. -/
theorem inv_move {c : Cfg} {D P : ℕ → ℕ} {σ : ℕ → ℕ → ℤ} {s : St α} {g : Gh α} {o o' : Op α} (h : Inv c D σ s g o)
    (hc : ∀ d, 1 ≤ d → d < c.n → Cyc c d (D d) (P d) (σ d)) (hn : 1 ≤ c.n) (i : In α) (he : i.en = true)
    (hi : Does c.n i.shift (i.rots c) i.data o') (hb : c.rotated = false → i.shift ≤ 1) :
    Inv c D σ (s.step c i) (g.op c.shape D o) o' where
  does := by simpa [St.step, he] using hi
  bit := by
    intro hr
    refine ⟨by simpa [St.step, he] using hb hr, ?_⟩
    intro r
    simp [St.step, he, In.rots, hr]
  win := by
    intro idx hidx
    simp only [St.step, he, Bool.true_and]
    by_cases ho : o = .idle
    · have : ¬ (enable c s = true) := fun h' => (enable_eq h hn).1 h' ho
      rw [if_neg this, ho]
      exact h.win idx hidx
    · rw [if_pos ((enable_eq h hn).2 ho)]
      exact newdata_eq c D s g o ho h.does h.win
        (fun d mi hd hdn hmi ha => ((h.mem d hd hdn).choose_spec.2.2.2 mi hmi).1 ha) idx hidx hn
  mem := by
    intro d hd hdn
    obtain ⟨m, h1, h2, h3, h4⟩ := h.mem d hd hdn
    have hcy := hc d hd hdn
    have hht : htEnable c i d = o'.aff d := by
      have := anyRot_eq hi hd (Nat.le_of_lt hdn)
      rw [show decide (d < c.n) = true by simpa using hdn, Bool.true_or, Bool.and_true] at this
      exact this
    refine ⟨m + (if o.aff d then 1 else 0), ?_, ?_, ?_, ?_⟩
    · simp only [St.step, he, Bool.true_and, hht, h1]
      by_cases ha : o'.aff d = true
      · rw [if_pos ha, if_pos ha, hcy.next]
      · rw [if_neg ha, if_neg ha]; rfl
    · simp only [St.step, he, Bool.true_and, hht, h2]
      by_cases ha : o'.aff d = true
      · rw [if_pos ha, if_pos ha, hcy.next]
        congr 1; omega
      · rw [if_neg ha, if_neg ha]
        congr 1; omega
    · intro _
      simp only [St.step, he, if_true, h2]
      congr 1; omega
    · intro mi hmi
      obtain ⟨h5, h6⟩ := h4 mi hmi
      have hsl : d < c.shape.length := hdn
      have htwo := hcy.two
      constructor
      · intro _
        simp only [St.step, he, if_true, h1]
        have hp : (g.op c.shape D o).pop d mi = (g.op c.shape D o).cell d mi 0 := by
          obtain ⟨e, rfl⟩ : ∃ e, d = e + 1 := ⟨d - 1, by omega⟩
          rfl
        rw [hp, op_cell _ _ _ _ _ hsl]
        by_cases ha : o.aff d = true
        · rw [if_pos ha, if_pos ha, if_pos (by omega)]
          exact h6 1 (by omega) (fun _ => Nat.le_refl 1)
        · rw [if_neg ha, if_neg ha]
          exact h6 0 (by omega) (fun h' => absurd h' ha)
      · intro k hk _
        rw [op_cell _ _ _ _ _ hsl]
        simp only [St.step, wenable_eq h hd hdn]
        by_cases ha : o.aff d = true
        · rw [if_pos ha, if_pos ha, if_pos ha, h3 ha]
          by_cases hk1 : k + 1 < D d
          · rw [if_pos hk1, show m + 1 + k = m + (k + 1) by omega,
              Function.update_of_ne (not_same hcy m (k + 1) (by omega) hk1)]
            exact h6 (k + 1) hk1 (fun _ => by omega)
          · rw [if_neg hk1, show m + 1 + k = m + D d by omega, Function.update_self]
            unfold wdata
            by_cases hd1 : d = 1
            · subst hd1
              rw [if_pos rfl]
              exact h.win _ (by simp [hmi]; omega)
            · rw [if_neg hd1]
              obtain ⟨m', _, _, _, h4'⟩ := h.mem (d - 1) (by omega) (by omega)
              exact (h4' (0 :: mi) (by simp [hmi]; omega)).1 (aff_pred ha)
        · rw [if_neg ha, if_neg ha, if_neg ha]
          exact h6 k hk (fun h' => absurd h' ha)

end

end LineBuf
