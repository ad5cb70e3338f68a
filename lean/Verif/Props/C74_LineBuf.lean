import Verif.Lemmas.LineBuf
import Verif.Lemmas.Vlog
import Mathlib.Data.List.Rotate
import Mathlib.Tactic.Linarith

/-!
# C74: the window of a `LineBuffer`

The words of the buffer form one queue.  `len d` is the number of words of a block of level `d`: one register for `d = 0`, then
`shape[d]` blocks of the level below and the words of a RAM.
-/

namespace LineBuf

open Vlog

/-- How many words are kept in a RAM whose addresses repeat after `P` steps. -/
def depthOf (P : ℕ) (h t : ℤ) : ℕ := if (t - h) % P = 0 then P else ((t - h) % P).toNat

/-- The number of words kept in each RAM of dimension `d`, none beyond the last dimension. -/
def depth (c : Cfg) (d : ℕ) : ℕ := if 1 ≤ d ∧ d < c.shape.length then depthOf (c.memlen d) (c.hinit d) (c.tinit d) else 0

/-- Rotating the blocks of level `r` inside a block of level `d`. -/
def turn {α : Type} (shape : List ℕ) (D : ℕ → ℕ) (r : ℕ) : ℕ → List α → List α
  | 0, q => q
  | d + 1, q =>
    if d + 1 = r then q.tail ++ q.take 1
    else q.take (D (d + 1)) ++ (List.range (shape.getD d 0)).flatMap fun x =>
      turn shape D r d ((q.drop (D (d + 1) + x * len shape D d)).take (len shape D d))

/-- The effect of an item on the queue. -/
def line {α : Type} (shape : List ℕ) (D : ℕ → ℕ) (q : List α) : Op α → List α
  | .idle => q
  | .shift v => q.tail ++ [v]
  | .rot r => turn shape D r shape.length q

/-- The place in the queue of the first word of a block. -/
def place (shape : List ℕ) (D : ℕ → ℕ) : ℕ → List ℕ → ℕ
  | _, [] => 0
  | d, x :: mi => place shape D (d + 1) mi + D (d + 1) + x * len shape D d

/-- How many words later than the last one. -/
def ago (shape : List ℕ) (D : ℕ → ℕ) : ℕ → List ℕ → ℕ
  | _, [] => 0
  | d, x :: mi => (shape.getD d 0 - 1 - x) * len shape D d + ago shape D (d + 1) mi

/-- An index of the window. -/
def InShape (shape idx : List ℕ) : Prop := List.Forall₂ (· < ·) idx shape

/-- What the items that entered the buffer before cycle `T` do, in their order. -/
def items {α : Type} (i : ℕ → In α) (o : ℕ → Op α) (T : ℕ) : List (Op α) :=
  ((List.range T).filter fun t => (i t).en).map o

/-- Each item does what `o` says. -/
def Obeys {α : Type} (c : Cfg) (i : ℕ → In α) (o : ℕ → Op α) : Prop :=
  ∀ t, (i t).en = true → Does c.n (i t).shift ((i t).rots c) (i t).data (o t) ∧ (c.rotated = false → (i t).shift ≤ 1)

/-- The parameters for which the buffer works: `head` and `tail` are addresses below `memlen`, which fits the type of the data,
    and `tail` is not right behind `head`. -/
structure Good (c : Cfg) : Prop where
  dims : c.shape ≠ []
  pos : ∀ s ∈ c.shape, 1 ≤ s
  head : ∀ d, 1 ≤ d → d < c.shape.length → 0 ≤ c.hinit d ∧ c.hinit d < c.memlen d
  tail : ∀ d, 1 ≤ d → d < c.shape.length → 0 ≤ c.tinit d ∧ c.tinit d < c.memlen d
  fits : ∀ d, 1 ≤ d → d < c.shape.length → c.ty.InRange ((c.memlen d : ℤ) - 1)
  apart : ∀ d, 1 ≤ d → d < c.shape.length → depth c d ≠ 1

/-! ### Lemmas -/

section
variable {α : Type}

private theorem turn_flat (shape : List ℕ) (D : ℕ → ℕ) (g : Gh α) (r : ℕ)
    (hD : ∀ d, 1 ≤ d → d < shape.length → 1 ≤ D d) (hn : D shape.length = 0)
    (hS : ∀ d, d < shape.length → 1 ≤ shape.getD d 0) (hr : 1 ≤ r) (hrn : r < shape.length) (d : ℕ) (mi : List ℕ)
    (hd : r ≤ d) :
    (g.step shape D r (g.pop r)).flat shape D d mi = turn shape D r d (g.flat shape D d mi) := by
  induction d generalizing mi with
  | zero => omega
  | succ d ih =>
    by_cases he : d + 1 = r
    · rw [flat_step g r (g.pop r) hD hn hS (Nat.le_of_lt hrn) 0 (d + 1) mi (by omega)]
      simp only [turn, if_pos he, inp]
      congr 1
      rw [flat_cons g (d + 1) mi (Or.inr (hD _ (by omega) (by omega)))]
      simp [he]
    · rw [flat_keep g r (g.pop r) d mi (by omega)]
      simp only [turn, if_neg he]
      rw [flat_cells]
      congr 1
      refine List.flatMap_congr fun x hx => ?_
      rw [List.mem_range] at hx
      rw [flat_chunk g d mi x hx]
      exact ih _ (by omega)

private theorem op_flat (shape : List ℕ) (D : ℕ → ℕ) (g : Gh α) (o : Op α)
    (hD : ∀ d, 1 ≤ d → d < shape.length → 1 ≤ D d) (hn : D shape.length = 0)
    (hS : ∀ d, d < shape.length → 1 ≤ shape.getD d 0) (hr : ∀ r, o = .rot r → 1 ≤ r ∧ r < shape.length) :
    (g.op shape D o).flat shape D shape.length [] = line shape D (g.flat shape D shape.length []) o := by
  cases o with
  | idle => rfl
  | shift v =>
    simp only [Gh.op, line]
    rw [flat_step g shape.length _ hD hn hS (Nat.le_refl _) 0 shape.length [] (by omega)]
    simp [inp]
  | rot r =>
    obtain ⟨h1, h2⟩ := hr r rfl
    exact turn_flat shape D g r hD hn hS h1 h2 _ _ (Nat.le_of_lt h2)

private theorem ops_flat (shape : List ℕ) (D : ℕ → ℕ) (g : Gh α) (os : List (Op α))
    (hD : ∀ d, 1 ≤ d → d < shape.length → 1 ≤ D d) (hn : D shape.length = 0)
    (hS : ∀ d, d < shape.length → 1 ≤ shape.getD d 0) (hr : ∀ r, Op.rot r ∈ os → 1 ≤ r ∧ r < shape.length) :
    (os.foldl (Gh.op shape D) g).flat shape D shape.length [] =
      os.foldl (line shape D) (g.flat shape D shape.length []) := by
  induction os generalizing g with
  | nil => rfl
  | cons o os ih =>
    simp only [List.foldl_cons]
    rw [ih _ (fun r h => hr r (List.mem_cons_of_mem _ h)),
      op_flat shape D g o hD hn hS (fun r h => hr r (by rw [h]; exact List.mem_cons_self))]

private theorem place_flat (shape : List ℕ) (D : ℕ → ℕ) (g : Gh α) (d : ℕ) (mi : List ℕ)
    (h : InShape (shape.drop d) mi) (hd : d ≤ shape.length) :
    ((g.flat shape D shape.length []).drop (place shape D d mi)).take (len shape D d) = g.flat shape D d mi := by
  induction mi generalizing d with
  | nil =>
    have : shape.drop d = [] := by
      unfold InShape at h
      cases hs : shape.drop d with
      | nil => rfl
      | cons a b => rw [hs] at h; cases h
    have e : d = shape.length := by
      have := congrArg List.length this
      simp at this; omega
    subst e
    simp only [place, List.drop_zero]
    rw [List.take_of_length_le (by rw [flat_length])]
  | cons x mi ih =>
    have hdl : d < shape.length := by
      rcases Nat.lt_or_ge d shape.length with h' | h'
      · exact h'
      · rw [List.drop_eq_nil_of_le h'] at h; cases h
    rw [List.drop_eq_getElem_cons hdl] at h
    cases h with
    | cons h1 h2 =>
      have hx : x < shape.getD d 0 := by simpa [hdl] using h1
      have h3 := ih (d + 1) h2 hdl
      simp only [place]
      rw [← flat_chunk g d mi x hx, ← h3]
      rw [List.drop_take, List.drop_drop, List.take_take]
      congr 1
      · have hl : len shape D (d + 1) = D (d + 1) + shape.getD d 0 * len shape D d := rfl
        rw [hl]
        have : (x + 1) * len shape D d ≤ shape.getD d 0 * len shape D d := Nat.mul_le_mul_right _ hx
        have e : (x + 1) * len shape D d = x * len shape D d + len shape D d := by ring
        omega
      · congr 1
        omega

private theorem place_ago (shape : List ℕ) (D : ℕ → ℕ) (d : ℕ) (mi : List ℕ)
    (h : InShape (shape.drop d) mi) (hd : d ≤ shape.length) :
    place shape D d mi + len shape D d + ago shape D d mi = len shape D shape.length := by
  induction mi generalizing d with
  | nil =>
    have : shape.drop d = [] := by
      unfold InShape at h
      cases hs : shape.drop d with
      | nil => rfl
      | cons a b => rw [hs] at h; cases h
    have e : d = shape.length := by
      have := congrArg List.length this
      simp at this; omega
    subst e
    simp [place, ago]
  | cons x mi ih =>
    have hdl : d < shape.length := by
      rcases Nat.lt_or_ge d shape.length with h' | h'
      · exact h'
      · rw [List.drop_eq_nil_of_le h'] at h; cases h
    rw [List.drop_eq_getElem_cons hdl] at h
    cases h with
    | cons h1 h2 =>
      have hx : x < shape.getD d 0 := by simpa [hdl] using h1
      have h3 := ih (d + 1) h2 hdl
      simp only [place, ago]
      have hl : len shape D (d + 1) = D (d + 1) + shape.getD d 0 * len shape D d := rfl
      rw [hl] at h3
      obtain ⟨y, hy⟩ : ∃ y, shape.getD d 0 = x + 1 + y := ⟨shape.getD d 0 - 1 - x, by omega⟩
      rw [hy] at h3 ⊢
      rw [show x + 1 + y - 1 - x = y by omega]
      have e : (x + 1 + y) * len shape D d = x * len shape D d + len shape D d + y * len shape D d := by ring
      omega

private theorem win_flat (shape : List ℕ) (D : ℕ → ℕ) (g : Gh α) (idx : List ℕ)
    (h : InShape shape idx) : (g.flat shape D shape.length [])[place shape D 0 idx]? = some (g.win idx) := by
  have h1 := place_flat shape D g 0 idx h (Nat.zero_le _)
  simp only [Gh.flat, len] at h1
  have h2 := congrArg List.head? h1
  rw [List.head?_take, List.head?_drop] at h2
  simpa using h2

private theorem items_succ (i : ℕ → In α) (o : ℕ → Op α) (T : ℕ) :
    items i o (T + 1) = items i o T ++ (if (i T).en then [o T] else []) := by
  unfold items
  rw [List.range_succ, List.filter_append, List.map_append]
  congr 1
  by_cases h : (i T).en = true
  · simp [h]
  · simp [h]

/-- The machine follows the queues. -/
private theorem follows (z : α) (c : Cfg) (m : ℕ → List ℕ → ℕ → α) (r : ℕ → List ℕ → α) (D P : ℕ → ℕ) (σ : ℕ → ℕ → ℤ)
    (hc : ∀ d, 1 ≤ d → d < c.n → Cyc c d (D d) (P d) (σ d)) (hn : 1 ≤ c.n) :
    ∃ g : Gh α, (∀ idx, g.win idx = z) ∧ ∀ (i : ℕ → In α) (o : ℕ → Op α), Obeys c i o → ∀ T,
      Inv c D σ (run z c m r i T) ((items i o T).dropLast.foldl (Gh.op c.shape D) g) ((items i o T).getLastD .idle) := by
  refine ⟨⟨fun _ => z, fun d mi k => m d mi (addr c d (σ d k))⟩, fun _ => rfl, ?_⟩
  intro i o ho T
  induction T with
  | zero =>
    refine ⟨⟨rfl, fun _ _ _ => rfl⟩, fun _ => ⟨by simp [run, St.init], fun _ => rfl⟩, fun _ _ => rfl, ?_⟩
    intro d hd hdn
    have := hc d hd hdn
    refine ⟨0, by simpa [run, St.init, items, Op.aff] using this.head, by simpa [run, St.init, items, Op.aff] using this.tail,
      by simp [items, Op.aff], ?_⟩
    intro mi hmi
    refine ⟨by simp [items, Op.aff], ?_⟩
    intro k hk _
    simp [run, St.init, items]
  | succ T ih =>
    rw [items_succ]
    simp only [run]
    by_cases he : (i T).en = true
    · obtain ⟨h1, h2⟩ := ho T he
      have := inv_move ih hc hn (i T) he h1 h2
      rw [if_pos he, List.dropLast_concat]
      have e : (items i o T).foldl (Gh.op c.shape D) ⟨fun _ => z, fun d mi k => m d mi (addr c d (σ d k))⟩ =
          ((items i o T).dropLast.foldl (Gh.op c.shape D) ⟨fun _ => z, fun d mi k => m d mi (addr c d (σ d k))⟩).op c.shape D
            ((items i o T).getLastD .idle) := by
        generalize items i o T = l
        rcases List.eq_nil_or_concat l with h | ⟨l', a, h⟩
        · subst h; rfl
        · subst h
          simp [Gh.op]
      rw [e]
      simpa using this
    · rw [if_neg he, List.append_nil]
      exact inv_stall ih hc (i T) (by simpa using he)

private theorem rot_mem {c : Cfg} {i : ℕ → In α} {o : ℕ → Op α} (ho : Obeys c i o) (T : ℕ) (r : ℕ)
    (h : Op.rot r ∈ (items i o T).dropLast) : 1 ≤ r ∧ r < c.shape.length := by
  have h1 := List.mem_of_mem_dropLast h
  unfold items at h1
  rw [List.mem_map] at h1
  obtain ⟨t, ht, hr⟩ := h1
  rw [List.mem_filter] at ht
  have := (ho t (by simpa using ht.2)).1
  rw [hr] at this
  exact ⟨this.2.1, this.2.2.1⟩

private theorem depthOf_spec {P : ℕ} (hP : 1 ≤ P) (h t : ℤ) :
    (h + depthOf P h t) % P = t % P ∧ 1 ≤ depthOf P h t ∧ depthOf P h t ≤ P := by
  have hP0 : (P : ℤ) ≠ 0 := by omega
  have h0 := Int.emod_nonneg (t - h) hP0
  have h1 := Int.emod_lt_of_pos (t - h) (by omega : (0 : ℤ) < P)
  unfold depthOf
  split
  · rename_i hz
    refine ⟨?_, hP, Nat.le_refl _⟩
    rw [Int.add_emod_right]
    exact (Int.emod_eq_emod_iff_emod_sub_eq_zero.2 hz).symm
  · rename_i hz
    refine ⟨?_, by omega, by omega⟩
    rw [Int.toNat_of_nonneg h0, Int.add_emod, Int.emod_emod, ← Int.add_emod]
    congr 1
    omega

private theorem cyc_fits (c : Cfg) (d : ℕ) (hh : 0 ≤ c.hinit d ∧ c.hinit d < c.memlen d)
    (ht : 0 ≤ c.tinit d ∧ c.tinit d < c.memlen d) (hf : c.ty.InRange ((c.memlen d : ℤ) - 1))
    (ha : depthOf (c.memlen d) (c.hinit d) (c.tinit d) ≠ 1) :
    Cyc c d (depthOf (c.memlen d) (c.hinit d) (c.tinit d)) (c.memlen d) (fun k => (c.hinit d + k) % (c.memlen d : ℤ)) := by
  have hL : 1 ≤ c.memlen d := by omega
  have hfit : ∀ x : ℤ, 0 ≤ x → x < c.memlen d → c.ty.wrap x = x := by
    intro x h0 h1
    apply Ty.wrap_of_inRange
    unfold Ty.InRange at hf ⊢
    split at hf
    · rename_i hs; rw [if_pos hs]; omega
    · rename_i hs; rw [if_neg hs]; omega
  obtain ⟨d1, d2, d3⟩ := depthOf_spec hL (c.hinit d) (c.tinit d)
  refine ⟨?_, ?_, ?_, ?_, by omega, d3⟩
  · rw [hfit _ hh.1 hh.2]
    simp only [Nat.cast_zero, add_zero]
    exact (Int.emod_eq_of_lt hh.1 hh.2).symm
  · rw [hfit _ ht.1 ht.2, d1]
    exact (Int.emod_eq_of_lt ht.1 ht.2).symm
  · intro k
    have h0 := Int.emod_nonneg (c.hinit d + k) (by omega : (c.memlen d : ℤ) ≠ 0)
    have h1 := Int.emod_lt_of_pos (c.hinit d + k) (by omega : (0 : ℤ) < c.memlen d)
    unfold next
    have e : (c.hinit d + ((k + 1 : ℕ) : ℤ)) % (c.memlen d : ℤ) = ((c.hinit d + k) % (c.memlen d : ℤ) + 1) % (c.memlen d : ℤ) := by
      rw [Int.emod_add_emod]
      congr 1
      push_cast; ring
    rw [e]
    generalize (c.hinit d + k) % (c.memlen d : ℤ) = x at h0 h1 ⊢
    by_cases hx : x = (c.memlen d : ℤ) - 1
    · rw [if_pos hx, hfit 0 (by omega) (by omega), hx]
      simp
    · rw [if_neg hx, hfit (x + 1) (by omega) (by omega), Int.emod_eq_of_lt (by omega) (by omega)]
  · intro k j hkj
    have hle : c.memlen d ≤ 2 ^ c.aw d := Nat.le_pow_clog (by omega) _
    have hadd : ∀ x : ℤ, 0 ≤ x → x < c.memlen d → ((addr c d x : ℕ) : ℤ) = x := by
      intro x h0 h1
      unfold addr
      rw [Int.emod_eq_of_lt h0 (by push_cast at hle ⊢; exact lt_of_lt_of_le h1 (by exact_mod_cast hle)),
        Int.toNat_of_nonneg h0]
    have hb : ∀ y : ℤ, 0 ≤ y % (c.memlen d : ℤ) ∧ y % (c.memlen d : ℤ) < c.memlen d := fun y =>
      ⟨Int.emod_nonneg _ (by omega), Int.emod_lt_of_pos _ (by omega)⟩
    have h := congrArg (Nat.cast : ℕ → ℤ) hkj
    rw [hadd _ (hb _).1 (hb _).2, hadd _ (hb _).1 (hb _).2] at h
    have h' := Int.emod_eq_emod_iff_emod_sub_eq_zero.1 h
    rw [add_sub_add_left_eq_sub] at h'
    have h'' := Int.emod_eq_emod_iff_emod_sub_eq_zero.2 h'
    unfold Nat.ModEq
    exact_mod_cast h''

private theorem cyc_narrow (c : Cfg) (d : ℕ) (hf : ¬ c.ty.InRange ((c.memlen d : ℤ) - 1)) (hm : 1 ≤ c.memlen d)
    (ha : depthOf (2 ^ c.ty.width) (c.hinit d) (c.tinit d) ≠ 1) :
    Cyc c d (depthOf (2 ^ c.ty.width) (c.hinit d) (c.tinit d)) (2 ^ c.ty.width) (fun k => c.ty.wrap (c.hinit d + k)) := by
  have hp := Vlog.two_pow_pos c.ty.width
  obtain ⟨d1, d2, d3⟩ := depthOf_spec hp (c.hinit d) (c.tinit d)
  have hw : c.ty.width ≤ c.aw d := by
    have hle : c.memlen d ≤ 2 ^ c.aw d := Nat.le_pow_clog (by omega) _
    have h2 : 2 ^ c.ty.width < 2 * 2 ^ c.aw d ∧ (c.ty.signed = false → 2 ^ c.ty.width < 2 ^ c.aw d) := by
      unfold Ty.InRange at hf
      split at hf
      · rename_i hs
        refine ⟨by omega, fun h' => by rw [hs] at h'; cases h'⟩
      · refine ⟨by omega, fun _ => by omega⟩
    have h3 : 2 ^ c.ty.width < 2 ^ (c.aw d + 1) := by rw [pow_succ]; omega
    have := (Nat.pow_lt_pow_iff_right (by omega : 1 < 2)).1 h3
    omega
  refine ⟨by simp, ?_, ?_, ?_, by omega, d3⟩
  · exact (Ty.wrap_congr _ d1).symm
  · intro k
    unfold next
    rw [if_neg, Ty.wrap_add_wrap]
    · congr 1
      push_cast; ring
    · intro h
      exact hf (h ▸ Ty.wrap_inRange _ _)
  · intro k j hkj
    unfold addr at hkj
    have hq : (0 : ℤ) < ((2 ^ c.aw d : ℕ) : ℤ) := by exact_mod_cast Nat.two_pow_pos (c.aw d)
    have h := congrArg (Nat.cast : ℕ → ℤ) hkj
    rw [Int.toNat_of_nonneg (Int.emod_nonneg _ (by omega)), Int.toNat_of_nonneg (Int.emod_nonneg _ (by omega))] at h
    have hdvd : ((2 ^ c.ty.width : ℕ) : ℤ) ∣ ((2 ^ c.aw d : ℕ) : ℤ) := by
      exact_mod_cast Nat.pow_dvd_pow 2 hw
    have h1 := congrArg (· % ((2 ^ c.ty.width : ℕ) : ℤ)) h
    rw [Int.emod_emod_of_dvd _ hdvd, Int.emod_emod_of_dvd _ hdvd, Ty.wrap_emod, Ty.wrap_emod] at h1
    have h' := Int.emod_eq_emod_iff_emod_sub_eq_zero.1 h1
    rw [add_sub_add_left_eq_sub] at h'
    have h'' := Int.emod_eq_emod_iff_emod_sub_eq_zero.2 h'
    unfold Nat.ModEq
    exact_mod_cast h''

private theorem getD_pos {shape : List ℕ} (h : ∀ s ∈ shape, 1 ≤ s) (d : ℕ) (hd : d < shape.length) : 1 ≤ shape.getD d 0 := by
  have : shape.getD d 0 = shape[d] := by simp [hd]
  rw [this]
  exact h _ (List.getElem_mem hd)

private theorem inShape_length {shape idx : List ℕ} (h : InShape shape idx) : idx.length = shape.length := h.length_eq

private theorem queue_of (z : α) (c : Cfg) (m : ℕ → List ℕ → ℕ → α) (r : ℕ → List ℕ → α) (D P : ℕ → ℕ) (σ : ℕ → ℕ → ℤ)
    (hc : ∀ d, 1 ≤ d → d < c.n → Cyc c d (D d) (P d) (σ d)) (hn : c.shape ≠ []) (hpos : ∀ s ∈ c.shape, 1 ≤ s)
    (h0 : D c.shape.length = 0) :
    ∃ q : List α, q.length = len c.shape D c.shape.length ∧
      (∀ idx, InShape c.shape idx → q[place c.shape D 0 idx]? = some z) ∧
      ∀ (i : ℕ → In α) (o : ℕ → Op α), Obeys c i o → ∀ T idx, InShape c.shape idx →
        ((items i o T).dropLast.foldl (line c.shape D) q)[place c.shape D 0 idx]? = some ((run z c m r i T).win idx) := by
  have h1 : 1 ≤ c.n := List.length_pos_iff.2 hn
  obtain ⟨g, hz, hg⟩ := follows z c m r D P σ hc h1
  refine ⟨g.flat c.shape D c.shape.length [], flat_length _ _ _, fun idx h => by rw [win_flat _ _ _ _ h, hz], ?_⟩
  intro i o ho T idx hidx
  rw [← ops_flat c.shape D g _ (fun d h1 h2 => by have := (hc d h1 h2).two; omega) h0 (getD_pos hpos)
    (fun k hk => rot_mem ho T k hk), win_flat _ _ _ _ hidx]
  rw [(hg i o ho T).win idx (inShape_length hidx)]

private theorem line_shift (shape : List ℕ) (D : ℕ → ℕ) (os : List (Op α)) (q vs : List α)
    (h : os.Forall fun o => ∀ r, o ≠ .rot r)
    (hv : vs = os.filterMap fun o => match o with | .shift v => some v | _ => none) (hq : q ≠ []) :
    os.foldl (line shape D) q = (q ++ vs).drop vs.length := by
  induction os generalizing q vs with
  | nil => subst hv; simp
  | cons o os ih =>
    rw [List.forall_cons] at h
    cases o with
    | idle =>
      simp only [List.foldl_cons, line]
      exact ih q vs h.2 (by simpa using hv) hq
    | shift v =>
      simp only [List.foldl_cons, line]
      rw [ih (q.tail ++ [v]) _ h.2 rfl (by simp)]
      subst hv
      obtain ⟨a, q', rfl⟩ := List.exists_cons_of_ne_nil hq
      simp
    | rot r => exact absurd rfl (h.1 r)

private theorem shift_of (z : α) (c : Cfg) (m : ℕ → List ℕ → ℕ → α) (r : ℕ → List ℕ → α) (D P : ℕ → ℕ) (σ : ℕ → ℕ → ℤ)
    (hc : ∀ d, 1 ≤ d → d < c.n → Cyc c d (D d) (P d) (σ d)) (hn : c.shape ≠ []) (hpos : ∀ s ∈ c.shape, 1 ≤ s)
    (h0 : D c.shape.length = 0) (i : ℕ → In α) (o : ℕ → Op α) (ho : Obeys c i o) (T : ℕ) (idx : List ℕ)
    (hi : InShape c.shape idx) (hs : (items i o T).dropLast.Forall fun o => ∀ r, o ≠ .rot r) (vs : List α)
    (hv : vs = (items i o T).dropLast.filterMap fun o => match o with | .shift v => some v | _ => none)
    (ha : ago c.shape D 0 idx < vs.length) :
    (run z c m r i T).win idx = vs[vs.length - 1 - ago c.shape D 0 idx] := by
  obtain ⟨q, hl, -, h⟩ := queue_of z c m r D P σ hc hn hpos h0
  have h1 := h i o ho T idx hi
  have hpa := place_ago c.shape D 0 idx hi (Nat.zero_le _)
  simp only [len] at hpa
  rw [line_shift c.shape D _ q vs hs hv (by intro e; rw [e] at hl; simp at hl; omega)] at h1
  rw [List.getElem?_drop, List.getElem?_append_right (by omega)] at h1
  rw [show vs.length + place c.shape D 0 idx - q.length = vs.length - 1 - ago c.shape D 0 idx by omega] at h1
  rw [List.getElem?_eq_getElem (by omega)] at h1
  exact (Option.some.inj h1).symm

private theorem cyc_of_good {c : Cfg} (h : Good c) (d : ℕ) (h1 : 1 ≤ d) (h2 : d < c.n) :
    Cyc c d (depth c d) (c.memlen d) (fun k => (c.hinit d + k) % (c.memlen d : ℤ)) := by
  have e : depth c d = depthOf (c.memlen d) (c.hinit d) (c.tinit d) := if_pos ⟨h1, h2⟩
  rw [e]
  exact cyc_fits c d (h.head d h1 h2) (h.tail d h1 h2) (h.fits d h1 h2) (e ▸ h.apart d h1 h2)

/-! ### The claim -/

/-- C74: the words of the buffer are a queue.  A shift appends the word of the item and drops the oldest one; a rotation by
    dimension `r` turns every block of that level by one word; an item that does neither changes nothing, and neither does a
    stalled cycle.  When an item is two stages further than the buffer (all but the last of the items that entered have had their
    effect, itself included), each register of the window holds the word at its place. -/
theorem c74_queue (z : α) (c : Cfg) (hc : Good c) (m : ℕ → List ℕ → ℕ → α) (r : ℕ → List ℕ → α) :
    ∃ q : List α, q.length = len c.shape (depth c) c.shape.length ∧
      (∀ idx, InShape c.shape idx → q[place c.shape (depth c) 0 idx]? = some z) ∧
      ∀ (i : ℕ → In α) (o : ℕ → Op α), Obeys c i o → ∀ T idx, InShape c.shape idx →
        ((items i o T).dropLast.foldl (line c.shape (depth c)) q)[place c.shape (depth c) 0 idx]? =
          some ((run z c m r i T).win idx) :=
  queue_of z c m r (depth c) c.memlen _ (cyc_of_good hc) hc.dims hc.pos (if_neg (by omega))

/-- C74: with shifts only, each register of the window holds the word shifted in `ago` shifts before the last one. -/
theorem c74_shift (z : α) (c : Cfg) (hc : Good c) (m : ℕ → List ℕ → ℕ → α) (r : ℕ → List ℕ → α) (i : ℕ → In α)
    (o : ℕ → Op α) (ho : Obeys c i o) (T : ℕ) (idx : List ℕ) (hi : InShape c.shape idx)
    (hs : (items i o T).dropLast.Forall fun o => ∀ r, o ≠ .rot r) (vs : List α)
    (hv : vs = (items i o T).dropLast.filterMap fun o => match o with | .shift v => some v | _ => none)
    (ha : ago c.shape (depth c) 0 idx < vs.length) :
    (run z c m r i T).win idx = vs[vs.length - 1 - ago c.shape (depth c) 0 idx] :=
  shift_of z c m r (depth c) c.memlen _ (cyc_of_good hc) hc.dims hc.pos (if_neg (by omega)) i o ho T idx hi hs vs hv ha

/-- C74: for two dimensions, `width` and `height`: one line is `width` registers and the words kept in a RAM, and the window
    holds the last `width` words of each of the last `height` lines. -/
theorem c74_shift2 (z : α) (c : Cfg) (hc : Good c) (m : ℕ → List ℕ → ℕ → α) (r : ℕ → List ℕ → α) (i : ℕ → In α)
    (w h : ℕ) (hsh : c.shape = [w, h]) (hshift : ∀ t, (i t).en = true → (i t).shift = 1)
    (hrot : ∀ t k, (i t).rots c k = false) (x y : ℕ) (hx : x < w) (hy : y < h) (T : ℕ) (vs : List α)
    (hv : vs = ((List.range T).filter fun t => (i t).en).dropLast.map fun t => (i t).data) (a : ℕ)
    (ha : a = (w - 1 - x) + (h - 1 - y) * (w + depth c 1)) (hl : a < vs.length) :
    (run z c m r i T).win [x, y] = vs[vs.length - 1 - a] := by
  have hobey : Obeys c i fun t => .shift (i t).data := by
    intro t ht
    exact ⟨⟨by simp [hshift t ht], rfl, fun k _ _ => hrot t k⟩, fun _ => by simp [hshift t ht]⟩
  have hago : ago c.shape (depth c) 0 [x, y] = a := by
    rw [ha, hsh]
    have : len [w, h] (depth c) (0 + 1) = w + depth c 1 := by
      simp only [len, List.getD_cons_zero, Nat.zero_add]; omega
    simp only [ago, this, List.getD_cons_zero, List.getD_cons_succ]
    simp only [len]
    omega
  have e : vs = (items i (fun t => Op.shift (i t).data) T).dropLast.filterMap
      fun o => match o with | .shift v => some v | _ => none := by
    rw [hv]
    unfold items
    rw [← List.map_dropLast, List.filterMap_map]
    exact (List.filterMap_eq_map (f := fun t => (i t).data)).symm ▸ rfl
  have := c74_shift z c hc m r i _ hobey T [x, y] (by rw [hsh]; exact .cons hx (.cons hy .nil))
    (by
      rw [List.forall_iff_forall_mem]
      intro o ho k hk
      have h1 := List.mem_of_mem_dropLast ho
      unfold items at h1
      rw [List.mem_map] at h1
      obtain ⟨t, -, ht⟩ := h1
      rw [hk] at ht
      cases ht) vs e (by rw [hago]; exact hl)
  simpa only [hago] using this

private theorem rot_iter (shape : List ℕ) (D : ℕ → ℕ) (g : Gh α) (r k : ℕ)
    (hD : ∀ d, 1 ≤ d → d < shape.length → 1 ≤ D d) (hn : D shape.length = 0)
    (hS : ∀ d, d < shape.length → 1 ≤ shape.getD d 0) (hr : 1 ≤ r) (hrn : r < shape.length) :
    (∀ mi, ((List.replicate k (Op.rot r)).foldl (Gh.op shape D) g).flat shape D r mi = (g.flat shape D r mi).rotate k) ∧
    ∀ d mi j, r < d → ((List.replicate k (Op.rot r)).foldl (Gh.op shape D) g).cell d mi j = g.cell d mi j := by
  induction k with
  | zero => exact ⟨fun mi => by simp, fun _ _ _ _ => rfl⟩
  | succ k ih =>
    rw [List.replicate_succ', List.foldl_append]
    simp only [List.foldl_cons, List.foldl_nil]
    generalize (List.replicate k (Op.rot r)).foldl (Gh.op shape D) g = g' at ih ⊢
    obtain ⟨h1, h2⟩ := ih
    constructor
    · intro mi
      simp only [Gh.op]
      rw [flat_step g' r (g'.pop r) hD hn hS (Nat.le_of_lt hrn) 0 r mi (by omega), ← List.rotate_rotate, ← h1 mi]
      simp only [inp]
      have := flat_cons (shape := shape) (D := D) g' r mi (Or.inr (hD r hr hrn))
      generalize g'.flat shape D r mi = q at this ⊢
      rw [this]
      simp
    · intro d mi j hd
      simp only [Gh.op, Gh.step, if_neg (show ¬ d ≤ r by omega)]
      exact h2 d mi j hd

private theorem round_flat (shape : List ℕ) (D : ℕ → ℕ) (g g' : Gh α) (r : ℕ)
    (h1 : ∀ mi, g'.flat shape D r mi = g.flat shape D r mi) (h2 : ∀ d mi j, r < d → g'.cell d mi j = g.cell d mi j)
    (d : ℕ) (mi : List ℕ) (hd : r ≤ d) : g'.flat shape D d mi = g.flat shape D d mi := by
  induction d generalizing mi with
  | zero => obtain rfl : r = 0 := by omega
            exact h1 mi
  | succ d ih =>
    by_cases he : r = d + 1
    · rw [← he]; exact h1 mi
    · simp only [Gh.flat]
      congr 1
      · exact List.map_congr_left fun j _ => h2 _ _ _ (by omega)
      · exact List.flatMap_congr fun x _ => ih _ (by omega)

/-- C74: rotating a dimension by as many words as its blocks have brings the window back. -/
theorem c74_round (z : α) (c : Cfg) (hc : Good c) (m : ℕ → List ℕ → ℕ → α) (r : ℕ → List ℕ → α) (i : ℕ → In α)
    (o : ℕ → Op α) (ho : Obeys c i o) (T T' k : ℕ) (hk : 1 ≤ k) (hkn : k < c.shape.length)
    (h : (items i o T').dropLast = (items i o T).dropLast ++ List.replicate (len c.shape (depth c) k) (.rot k))
    (idx : List ℕ) (hi : InShape c.shape idx) : (run z c m r i T').win idx = (run z c m r i T).win idx := by
  have h1 : 1 ≤ c.n := List.length_pos_iff.2 hc.dims
  obtain ⟨g, -, hg⟩ := follows z c m r (depth c) c.memlen _ (cyc_of_good hc) h1
  have e1 := (hg i o ho T).win idx (inShape_length hi)
  have e2 := (hg i o ho T').win idx (inShape_length hi)
  rw [h, List.foldl_append] at e2
  rw [e1, e2]
  generalize (items i o T).dropLast.foldl (Gh.op c.shape (depth c)) g = g0
  have hD : ∀ d, 1 ≤ d → d < c.shape.length → 1 ≤ depth c d := fun d a b => by
    have := (cyc_of_good hc d a b).two
    omega
  obtain ⟨a, b⟩ := rot_iter c.shape (depth c) g0 k (len c.shape (depth c) k) hD (if_neg (by omega)) (getD_pos hc.pos) hk hkn
  have hf := round_flat c.shape (depth c) g0 _ k (fun mi => by
    rw [a mi]
    conv_lhs => rw [← flat_length g0 k mi]
    exact List.rotate_length _) b c.shape.length [] (Nat.le_of_lt hkn)
  have w1 := win_flat c.shape (depth c) g0 idx hi
  rw [← hf, win_flat c.shape (depth c) _ idx hi] at w1
  exact Option.some.inj w1

/-- The number of an index, the first component running fastest. -/
def number : List ℕ → List ℕ → ℕ
  | s :: ss, x :: idx => x + s * number ss idx
  | _, _ => 0

private theorem number_lt {shape idx : List ℕ} (h : InShape shape idx) : number shape idx < shape.prod := by
  induction h with
  | nil => simp [number]
  | @cons x s idx ss hx _ ih =>
    simp only [number, List.prod_cons]
    have : s * (number ss idx + 1) ≤ s * ss.prod := Nat.mul_le_mul_left _ ih
    rw [Nat.mul_add] at this
    omega

private theorem number_append (s1 s2 i1 i2 : List ℕ) (h : i1.length = s1.length) :
    number (s1 ++ s2) (i1 ++ i2) = number s1 i1 + s1.prod * number s2 i2 := by
  induction s1 generalizing i1 with
  | nil =>
    cases i1 with
    | nil => simp [number]
    | cons _ _ => simp at h
  | cons s s1 ih =>
    cases i1 with
    | nil => simp at h
    | cons x i1 =>
      simp only [List.cons_append, number, List.prod_cons, ih i1 (by simpa using h)]
      ring

private theorem toIndexGo_eq (ss idx l : List ℕ) (hne : ss ≠ []) (h : InShape ss idx) :
    toIndexGo ss.reverse (number ss idx) l = idx ++ l := by
  induction ss using List.reverseRecOn generalizing idx l with
  | nil => exact absurd rfl hne
  | append_singleton ss s ih =>
    obtain ⟨idx', x, rfl⟩ : ∃ idx' x, idx = idx' ++ [x] := by
      rcases List.eq_nil_or_concat idx with h' | ⟨a, b, h'⟩
      · subst h'
        have := inShape_length h
        simp at this
      · exact ⟨a, b, by simpa using h'⟩
    have hlen : idx'.length = ss.length := by simpa using inShape_length h
    have hpair : InShape ss idx' ∧ x < s := by
      unfold InShape at h ⊢
      have := (List.forall₂_iff_get.1 h)
      rw [List.forall₂_iff_get]
      refine ⟨⟨hlen, ?_⟩, ?_⟩
      · intro j h1 h2
        have h3 := this.2 j (by simp; omega) (by simp; omega)
        simpa [List.getElem_append_left h1, List.getElem_append_left h2] using h3
      · have h3 := this.2 ss.length (by simp; omega) (by simp)
        simpa [← hlen] using h3
    rw [List.reverse_append, number_append _ _ _ _ hlen]
    simp only [List.reverse_cons, List.reverse_nil, List.nil_append, List.singleton_append, number, Nat.mul_zero,
      Nat.add_zero]
    by_cases hs : ss = []
    · subst hs
      have : idx' = [] := by simpa using hlen
      subst this
      simp [toIndexGo, number]
    · obtain ⟨a, b, hab⟩ : ∃ a b, ss.reverse = a :: b := by
        cases hr : ss.reverse with
        | nil => exact absurd (List.reverse_eq_nil_iff.1 hr) hs
        | cons a b => exact ⟨a, b, rfl⟩
      have hp : (a :: b).prod = ss.prod := by rw [← hab, List.prod_reverse]
      have hlt := number_lt hpair.1
      rw [hab]
      simp only [toIndexGo]
      rw [hp, Nat.add_mul_mod_self_left, Nat.mod_eq_of_lt hlt, Nat.add_mul_div_left _ _ (by omega), Nat.div_eq_of_lt hlt,
        Nat.zero_add, ← hab, ih idx' (x :: l) hs hpair.1]
      simp

/-- C74: `get_window` with a number gives the register whose index has this number, the first component running fastest. -/
theorem c74_window (c : Cfg) (s : St α) (idx : List ℕ) (hn : c.shape ≠ []) (h : InShape c.shape idx) :
    window c s (number c.shape idx) = s.win idx := by
  unfold window toIndex
  rw [toIndexGo_eq _ _ _ hn h, List.append_nil]

/-! ### Where the code disagrees -/

/-- C74 does not hold for lines longer than the type of the data can count: `head` and `tail` have the width of the data
    (stypes.py:4665-4668), so the words kept are counted modulo `2 ^ width`. -/
theorem c74_not_width (z : α) (c : Cfg) (hn : c.shape ≠ []) (hpos : ∀ s ∈ c.shape, 1 ≤ s)
    (hm : ∀ d, 1 ≤ d → d < c.shape.length → 1 ≤ c.memlen d)
    (hf : ∀ d, 1 ≤ d → d < c.shape.length → ¬ c.ty.InRange ((c.memlen d : ℤ) - 1)) (D : ℕ → ℕ)
    (hD : ∀ d, D d = if 1 ≤ d ∧ d < c.shape.length then depthOf (2 ^ c.ty.width) (c.hinit d) (c.tinit d) else 0)
    (ha : ∀ d, D d ≠ 1) (m : ℕ → List ℕ → ℕ → α) (r : ℕ → List ℕ → α) (i : ℕ → In α)
    (o : ℕ → Op α) (ho : Obeys c i o) (T : ℕ) (idx : List ℕ) (hi : InShape c.shape idx)
    (hs : (items i o T).dropLast.Forall fun o => ∀ r, o ≠ .rot r) (vs : List α)
    (hv : vs = (items i o T).dropLast.filterMap fun o => match o with | .shift v => some v | _ => none)
    (hl : ago c.shape D 0 idx < vs.length) :
    (run z c m r i T).win idx = vs[vs.length - 1 - ago c.shape D 0 idx] := by
  refine shift_of z c m r D (fun _ => 2 ^ c.ty.width) (fun d k => c.ty.wrap (c.hinit d + k)) ?_ hn hpos
    (by rw [hD]; exact if_neg (by omega)) i o ho T idx hi hs vs hv hl
  intro d h1 h2
  have e : D d = depthOf (2 ^ c.ty.width) (c.hinit d) (c.tinit d) := by rw [hD]; exact if_pos ⟨h1, h2⟩
  rw [e]
  exact cyc_narrow c d (hf d h1 h2) (hm d h1 h2) (e ▸ ha d)

/-- C74 is not limited to items: `svalid` is not used (stypes.py:4556-4720), so the data of a cycle without an item, in which
    the wire of `shift_cond` is not zero, enter the window. -/
theorem c74_not_valid (z : α) (c : Cfg) (hc : Good c) (m : ℕ → List ℕ → ℕ → α) (r : ℕ → List ℕ → α) (i : ℕ → In α)
    (o : ℕ → Op α) (ho : Obeys c i o) (T : ℕ) (h1 : (i T).en = true) (_hv : (i T).valid = false) (h2 : (i (T + 1)).en = true)
    (h3 : o T = .shift (i T).data) : (run z c m r i (T + 2)).win (c.shape.map (· - 1)) = (i T).data := by
  have hi : InShape c.shape (c.shape.map (· - 1)) := by
    unfold InShape
    rw [List.forall₂_map_left_iff, List.forall₂_same]
    intro s hs
    have := hc.pos s hs
    omega
  have hit : (items i o (T + 2)).dropLast = items i o T ++ [.shift (i T).data] := by
    rw [items_succ, if_pos h2, List.dropLast_concat, items_succ, if_pos h1, h3]
  have hago : ∀ (d : ℕ) (mi : List ℕ), mi = (c.shape.drop d).map (· - 1) → ago c.shape (depth c) d mi = 0 := by
    intro d mi
    induction mi generalizing d with
    | nil => intro _; rfl
    | cons x mi ih =>
      intro hx
      have hd : d < c.shape.length := by
        rcases Nat.lt_or_ge d c.shape.length with h' | h'
        · exact h'
        · rw [List.drop_eq_nil_of_le h'] at hx; simp at hx
      rw [List.drop_eq_getElem_cons hd, List.map_cons] at hx
      injection hx with ha hb
      have hg : c.shape.getD d 0 = c.shape[d] := by simp [hd]
      simp only [ago, hg, ha, Nat.sub_self, Nat.zero_mul, Nat.zero_add]
      exact ih (d + 1) hb
  have hpa := place_ago c.shape (depth c) 0 _ hi (Nat.zero_le _)
  rw [hago 0 _ (by simp)] at hpa
  simp only [len] at hpa
  obtain ⟨g, -, hg⟩ := follows z c m r (depth c) c.memlen _ (cyc_of_good hc) (List.length_pos_iff.2 hc.dims)
  have e1 := (hg i o ho (T + 2)).win _ (inShape_length hi)
  rw [hit, List.foldl_append] at e1
  simp only [List.foldl_cons, List.foldl_nil] at e1
  generalize (items i o T).foldl (Gh.op c.shape (depth c)) g = g0 at e1
  have hf := op_flat c.shape (depth c) g0 (.shift (i T).data)
    (fun d a b => by have := (cyc_of_good hc d a b).two; omega) (if_neg (by omega)) (getD_pos hc.pos)
    (fun k hk => by cases hk)
  have hw := win_flat c.shape (depth c) (g0.op c.shape (depth c) (.shift (i T).data)) _ hi
  have hl := flat_length (shape := c.shape) (D := depth c) g0 c.shape.length []
  rw [hf] at hw
  simp only [line] at hw
  rw [List.getElem?_append_right (by rw [List.length_tail]; omega)] at hw
  rw [show place c.shape (depth c) 0 (c.shape.map (· - 1)) - (g0.flat c.shape (depth c) c.shape.length []).tail.length = 0 by
    rw [List.length_tail]; omega] at hw
  rw [e1]
  exact (Option.some.inj hw).symm

/-- C74 does not hold for a `shift_cond` of more than one bit without `rotate_conds`: the write enable of the RAMs is a wire of
    one bit (stypes.py:4683, types/ram.py:133), so for even values the window moves but nothing is written. -/
theorem c74_not_bits (z : α) (c : Cfg) (hr : c.rotated = false) (m : ℕ → List ℕ → ℕ → α) (r : ℕ → List ℕ → α) (i : ℕ → In α)
    (h : ∀ t, (i t).shift % 2 = 0) (T : ℕ) : (run z c m r i T).mem = m := by
  have : (run z c m r i T).mem = m ∧ (run z c m r i T).sh % 2 = 0 := by
    induction T with
    | zero => exact ⟨rfl, rfl⟩
    | succ T ih =>
      obtain ⟨h1, h2⟩ := ih
      simp only [run, St.step]
      constructor
      · funext d mi
        unfold wenable
        rw [hr, h1]
        simp [h2]
      · split
        · exact h T
        · exact h2
  exact this.1

/-- C74 does not hold for a `tail` right behind `head`: the word is read in the cycle in which it is written, so the line is
    longer by the whole RAM, but only as long as there is no stall: the write does not wait for `senable` (stypes.py:4682-4686,
    4711), and after a stall the word is there in time.  The same items give different windows. -/
theorem c74_not_next : ∃ (c : Cfg) (i j : ℕ → In ℕ) (o o' : ℕ → Op ℕ) (T T' : ℕ), c.shape = [1, 2] ∧ depth c 1 = 1 ∧
    Obeys c i o ∧ Obeys c j o' ∧ items i o T = items j o' T' ∧
    (run 0 c (fun _ _ _ => 0) (fun _ _ => 0) i T).win [0, 0] ≠ (run 0 c (fun _ _ _ => 0) (fun _ _ => 0) j T').win [0, 0] := by
  refine ⟨⟨[1, 2], fun _ => 4, fun _ => 0, fun _ => 1, ⟨8, false⟩, false⟩, fun t => { data := t + 1 },
    fun t => { data := if t < 3 then t + 1 else t, en := t != 3 }, fun t => .shift (t + 1),
    fun t => .shift (if t < 3 then t + 1 else t), 5, 6, rfl, by decide, ?_, ?_, rfl, by decide⟩
  · exact fun t _ => ⟨⟨by simp, rfl, fun _ _ _ => rfl⟩, fun _ => Nat.le_refl 1⟩
  · exact fun t _ => ⟨⟨by simp, rfl, fun _ _ _ => rfl⟩, fun _ => Nat.le_refl 1⟩

/-! ### Concrete cases -/

/-- A window of three by three words, lines of eight words (memlen 8, tail 5 behind head). -/
def ex33 : Cfg where
  shape := [3, 3]
  memlen _ := 8
  hinit _ := 0
  tinit _ := 5
  ty := ⟨8, true⟩
  rotated := true

private theorem ex33_good : Good ex33 where
  dims := by decide
  pos := by decide
  head := fun _ _ _ => by simp [ex33]
  tail := fun _ _ _ => by simp [ex33]
  fits := fun _ _ _ => by simp [ex33, Ty.InRange]
  apart := fun d h1 h2 => by
    have : d = 1 := by simp [ex33] at h2; omega
    subst this; decide

/-- Word `t` in cycle `t`, a stall in every third cycle. -/
def exIn (t : ℕ) : In ℕ := { data := t, en := t % 3 != 2 }

/-- After 40 cycles the middle of the window holds the word of nine shifts before the last one. -/
example : (run 0 ex33 (fun _ _ _ => 0) (fun _ _ => 0) exIn 40).win [1, 1] = 24 := by
  have := c74_shift2 (0 : ℕ) ex33 ex33_good (fun _ _ _ => 0) (fun _ _ => 0) exIn 3 3 rfl (fun _ _ => rfl)
    (fun t k => by simp [In.rots, ex33, exIn]) 1 1 (by omega) (by omega) 40 _ rfl 9 (by decide) (by decide)
  rw [this]
  decide

/-- Three dimensions: channels, columns and rows. -/
def ex3d : Cfg where
  shape := [2, 1, 2]
  memlen d := if d = 1 then 4 else 13
  hinit _ := 0
  tinit d := if d = 1 then 3 else 12
  ty := ⟨16, false⟩
  rotated := true

private theorem ex3d_good : Good ex3d where
  dims := by decide
  pos := by decide
  head := fun d _ _ => by by_cases h : d = 1 <;> simp [ex3d, h]
  tail := fun d _ _ => by by_cases h : d = 1 <;> simp [ex3d, h]
  fits := fun d _ _ => by by_cases h : d = 1 <;> simp [ex3d, h, Ty.InRange]
  apart := fun d h1 h2 => by
    have : d = 1 ∨ d = 2 := by simp [ex3d] at h2; omega
    rcases this with rfl | rfl <;> decide

example : len ex3d.shape (depth ex3d) 1 = 5 ∧ len ex3d.shape (depth ex3d) 2 = 17 ∧
    ago ex3d.shape (depth ex3d) 0 [0, 0, 0] = 18 := by decide

/-- Shifts and rotations in turn. -/
def exOp (t : ℕ) : Op ℕ := if t < 30 then .shift t else if t < 35 then .rot 1 else .idle

/-- The wires for `exOp`. -/
def exRot (t : ℕ) : In ℕ := { data := t, shift := if t < 30 then 2 else 0, rot := fun r => r = 1 && (30 ≤ t && t < 35) }

private theorem exRot_obeys : Obeys ex3d exRot exOp := by
  intro t _
  refine ⟨?_, fun h => by cases h⟩
  unfold exOp
  by_cases h1 : t < 30
  · simp only [if_pos h1]
    exact ⟨by simp [exRot, h1], rfl, fun r _ _ => by simp [In.rots, ex3d, exRot]; omega⟩
  · by_cases h2 : t < 35
    · simp only [if_neg h1, if_pos h2]
      refine ⟨by simp [exRot, h1], Nat.le_refl 1, by decide, fun r _ _ => ?_⟩
      simp [In.rots, ex3d, exRot, h2, show 30 ≤ t by omega]
    · simp only [if_neg h1, if_neg h2]
      exact ⟨by simp [exRot, h1], fun r _ _ => by simp [In.rots, ex3d, exRot]; omega⟩

example : ∃ q : List ℕ, ∀ idx, InShape ex3d.shape idx →
    ((items exRot exOp 33).dropLast.foldl (line ex3d.shape (depth ex3d)) q)[place ex3d.shape (depth ex3d) 0 idx]? =
      some ((run 0 ex3d (fun _ _ _ => 0) (fun _ _ => 0) exRot 33).win idx) := by
  obtain ⟨q, -, -, h⟩ := c74_queue (0 : ℕ) ex3d ex3d_good (fun _ _ _ => 0) (fun _ _ => 0)
  exact ⟨q, fun idx hi => h exRot exOp exRot_obeys 33 idx hi⟩

example : (run 0 ex3d (fun _ _ _ => 0) (fun _ _ => 0) exRot 31).win [0, 0, 0] = 11 := by
  have := c74_shift (0 : ℕ) ex3d ex3d_good (fun _ _ _ => 0) (fun _ _ => 0) exRot exOp exRot_obeys 31 [0, 0, 0]
    (.cons (by decide) (.cons (by decide) (.cons (by decide) .nil)))
    (by
      rw [List.forall_iff_forall_mem]
      have : (items exRot exOp 31).dropLast = (List.range 30).map fun t => Op.shift t := by
        unfold items
        rw [← List.map_dropLast]
        rfl
      rw [this]
      intro o ho k hk
      rw [List.mem_map] at ho
      obtain ⟨t, -, ht⟩ := ho
      rw [hk] at ht
      cases ht) (List.range 30) rfl (by decide)
  rw [this]
  decide

/-- Five rotations bring back the window after thirty shifts. -/
example : (run 0 ex3d (fun _ _ _ => 0) (fun _ _ => 0) exRot 36).win [0, 0, 0] =
    (run 0 ex3d (fun _ _ _ => 0) (fun _ _ => 0) exRot 31).win [0, 0, 0] :=
  c74_round 0 ex3d ex3d_good _ _ exRot exOp exRot_obeys 31 36 1 (by decide) (by decide) rfl [0, 0, 0]
    (.cons (by decide) (.cons (by decide) (.cons (by decide) .nil)))

example (s : St ℕ) : window ex33 s 5 = s.win [2, 1] :=
  c74_window ex33 s [2, 1] (by decide) (.cons (by decide) (.cons (by decide) .nil))

/-- Words of two bits, lines of eight: `tail` and `head` count to four. -/
def exNarrow : Cfg where
  shape := [1, 2]
  memlen _ := 8
  hinit _ := 3
  tinit _ := 1
  ty := ⟨2, false⟩
  rotated := false

/-- The other line should be seven words before, it is three. -/
example : 1 + depth exNarrow 1 = 7 ∧ (run 0 exNarrow (fun _ _ _ => 0) (fun _ _ => 0) (fun t => { data := t }) 31).win [0, 0] =
    29 - 3 := by
  constructor
  · decide
  · have := c74_not_width (0 : ℕ) exNarrow (by decide) (by decide) (fun _ _ _ => by simp [exNarrow])
      (fun _ _ _ => by simp [exNarrow, Ty.InRange])
      (fun d => if 1 ≤ d ∧ d < 2 then 2 else 0) (fun d => by simp [exNarrow]; rfl)
      (fun d => by split <;> omega) (fun _ _ _ => 0) (fun _ _ => 0) (fun t => { data := t })
      (fun t => .shift t) (fun t _ => ⟨⟨by simp, rfl, fun _ _ _ => rfl⟩, fun _ => Nat.le_refl 1⟩) 31 [0, 0]
      (.cons (by decide) (.cons (by decide) .nil))
      (by
        rw [List.forall_iff_forall_mem]
        intro o ho k hk
        have h1 := List.mem_of_mem_dropLast ho
        unfold items at h1
        rw [List.mem_map] at h1
        obtain ⟨t, -, ht⟩ := h1
        rw [hk] at ht
        cases ht) (List.range 30) rfl (by decide)
    rw [this]
    decide

/-- The words of cycle 3, in which there is no item. -/
example : (run 0 ex33 (fun _ _ _ => 0) (fun _ _ => 0) (fun t => { data := t, valid := t != 3 }) 5).win [2, 2] = 3 :=
  c74_not_valid 0 ex33 ex33_good _ _ (fun t => { data := t, valid := t != 3 }) (fun t => .shift t)
    (fun t _ => ⟨⟨by simp, rfl, fun _ _ _ => by simp [In.rots, ex33]⟩, fun h => by cases h⟩) 3 rfl rfl rfl rfl

/-- With `shift_cond` always 2, the second line of the window gets no words from the RAM. -/
example : (run 7 { exNarrow with ty := ⟨8, false⟩ } (fun _ _ _ => 0) (fun _ _ => 0)
    (fun t => { data := t + 1, shift := 2 }) 40).mem = fun _ _ _ => 0 :=
  c74_not_bits 7 _ rfl _ _ _ (fun _ => by simp) 40

end

end LineBuf
