import Verif.Props.C31_Pattern
import Mathlib.Data.Multiset.Bind
import Mathlib.Logic.Function.Basic

/-!
# C32: multi-dimensional shapes become the row-major pattern
-/

namespace Pat

/-- The position of element `f` (one index for each axis) of a C-ordered array. -/
def flat : List ℕ → (ℕ → ℕ) → ℕ
  | [], _ => 0
  | _ :: sh, f => f 0 * sh.prod + flat sh fun k => f (k + 1)

/-- The index tuples of nested loops over the given axes, the first axis innermost. -/
def loops (shape : List ℕ) : List ℕ → List (ℕ → ℕ)
  | [] => [fun _ => 0]
  | a :: rest => (loops shape rest).flatMap fun f =>
      (List.range (shape.getD a 0)).map fun i => Function.update f a i

/-- The pair of one axis. -/
def axis (shape : List ℕ) (a : ℕ) : ℕ × ℤ := (shape.getD a 0, ((shape.drop (a + 1)).prod : ℕ))

theorem foldl_mul (l : List ℕ) (k : ℕ) : l.foldl (· * ·) k = k * l.prod := by
  induction l generalizing k with
  | nil => simp
  | cons a l ih => simp [ih, Nat.mul_assoc]

theorem toPattern_eq (shape : List ℕ) (order : List ℕ) (h : ∀ a ∈ order, a < shape.length) :
    toPattern shape (order.map Int.ofNat) = some (order.map (axis shape)) := by
  unfold toPattern
  induction order with
  | nil => rfl
  | cons a l ih =>
    have ha : a < shape.length := h a (by simp)
    have ih' := ih fun b hb => h b (by simp [hb])
    rw [List.map_cons, List.mapM_cons, ih']
    have h1 : ¬ ((a : ℤ) < 0) := by omega
    have h2 : ¬ ((a : ℤ) + 1 < 0) := by omega
    have h3 : ((a : ℤ) + 1).toNat = a + 1 := by omega
    simp only [Int.ofNat_eq_natCast, if_neg h1, if_neg h2, h3, Int.toNat_natCast, foldl_mul]
    simp [ha, axis]

theorem visit_append (l : List (ℕ × ℤ)) (n : ℕ) (s : ℤ) :
    visit (l ++ [(n, s)]) = (List.range n).flatMap fun i : ℕ => (visit l).map fun o => (i : ℤ) * s + o := by
  induction l with
  | nil => simp [visit, List.map_eq_flatMap]
  | cons p l ih =>
    obtain ⟨m, t⟩ := p
    simp only [List.cons_append, visit, ih, List.flatMap_assoc, List.flatMap_map, List.map_flatMap, List.map_map]
    congr 1; funext i; congr 1; funext o; congr 1; funext j
    simp [Int.add_assoc]

theorem visit_reverse (shape : List ℕ) :
    visit ((List.range shape.length).reverse.map (axis shape)) = (List.range shape.prod).map Int.ofNat := by
  induction shape with
  | nil => rfl
  | cons n sh ih =>
    have e : (List.range (n :: sh).length).reverse.map (axis (n :: sh)) =
        (List.range sh.length).reverse.map (axis sh) ++ [(n, (sh.prod : ℤ))] := by
      rw [List.length_cons, List.range_succ_eq_map, List.reverse_cons, List.map_append]
      congr 1
      · rw [← List.map_reverse, List.map_map]
        apply List.map_congr_left
        intro a _
        simp [axis]
    rw [e, visit_append, ih, List.prod_cons, ← range_mul, List.map_flatMap]
    congr 1; funext i
    rw [List.map_map, List.map_map]
    apply List.map_congr_left
    intro a _
    simp

theorem visit_swap (p q : ℕ × ℤ) (l : List (ℕ × ℤ)) : (visit (p :: q :: l)).Perm (visit (q :: p :: l)) := by
  obtain ⟨n, s⟩ := p
  obtain ⟨m, t⟩ := q
  simp only [visit, List.flatMap_assoc]
  apply List.Perm.flatMap_left
  intro o _
  simp only [List.flatMap_map]
  rw [← Multiset.coe_eq_coe]
  simp only [← Multiset.coe_bind, ← Multiset.map_coe]
  rw [Multiset.bind_map_comm]
  congr 1; funext i; congr 1; funext j
  ring

theorem visit_perm {l l' : List (ℕ × ℤ)} (h : l.Perm l') : (visit l).Perm (visit l') := by
  induction h with
  | nil => exact List.Perm.refl _
  | cons p _ ih => exact ih.flatMap_right _
  | swap p q l => exact visit_swap _ _ _
  | trans _ _ h1 h2 => exact h1.trans h2

theorem flat_eq (shape : List ℕ) (f : ℕ → ℕ) :
    (flat shape f : ℤ) = ((List.range shape.length).map fun a => (f a : ℤ) * (axis shape a).2).sum := by
  induction shape generalizing f with
  | nil => rfl
  | cons n sh ih =>
    rw [flat, List.length_cons, List.range_succ_eq_map, List.map_cons, List.sum_cons, List.map_map]
    push_cast
    rw [ih]
    simp [axis, Function.comp_def]

theorem visit_loops (shape : List ℕ) (order : List ℕ) (hn : order.Nodup) :
    visit (order.map (axis shape)) =
      (loops shape order).map fun f => (order.map fun a => (f a : ℤ) * (axis shape a).2).sum := by
  induction order with
  | nil => rfl
  | cons a l ih =>
    have hl := List.nodup_cons.1 hn
    rw [List.map_cons]
    rcases hp : axis shape a with ⟨n, s⟩
    have hn' : shape.getD a 0 = n := by rw [← show (axis shape a).1 = n by rw [hp]]; rfl
    rw [visit, ih hl.2, loops, List.map_flatMap, List.flatMap_map, hn']
    congr 1; funext f
    rw [List.map_map]
    apply List.map_congr_left
    intro i _
    simp only [Function.comp, List.map_cons, List.sum_cons, Function.update_self, hp]
    rw [Int.add_comm]
    congr 2
    apply List.map_congr_left
    intro b hb
    have hne : b ≠ a := by rintro rfl; exact hl.1 hb
    rw [Function.update_of_ne hne]

/-- **C32.** For an order that is a permutation of the axes, the pattern visits the elements of the C-ordered array in
    the order of the nested loops over the axes (first axis of `order` innermost), each element exactly once. -/
theorem c32_order (shape order : List ℕ) (h : order.Perm (List.range shape.length)) :
    ∃ pat, toPattern shape (order.map Int.ofNat) = some pat ∧
      visit pat = (loops shape order).map (fun f => (flat shape f : ℤ)) ∧
      (visit pat).Perm ((List.range shape.prod).map Int.ofNat) := by
  refine ⟨_, toPattern_eq shape order fun a ha => List.mem_range.1 (h.subset ha), ?_, ?_⟩
  · rw [visit_loops _ _ (h.symm.nodup List.nodup_range)]
    apply List.map_congr_left
    intro f _
    rw [flat_eq]
    exact (h.map _).sum_eq
  · rw [← visit_reverse]
    exact visit_perm ((h.trans (List.reverse_perm _).symm).map _)

/-- **C32.** Without an order the elements are visited in memory order. -/
theorem c32_default (shape : List ℕ) :
    ∃ pat, toPattern shape (defaultOrder shape) = some pat ∧ visit pat = (List.range shape.prod).map Int.ofNat := by
  refine ⟨_, ?_, visit_reverse shape⟩
  rw [defaultOrder, ← List.map_reverse]
  exact toPattern_eq _ _ (by simp)

/-- **C32, with C31.** The RAM reads of a finished source with a shape and no order. -/
theorem c32_reads {aw maxLen : ℕ} {offset : ℤ} {shape : List ℕ} {pat padded : List (ℕ × ℤ)} {σ : ℕ → Src}
    {oready : ℕ → Bool} (hs : ∀ n ∈ shape, 1 ≤ n ∧ n < 2 ^ (aw + 1))
    (hp : toPattern shape (defaultOrder shape) = some pat) (hpad : pad maxLen pat = some padded)
    (R : SrcRun aw offset padded σ oready) (t : ℕ) (hdone : (σ t).st = 0) :
    reads σ oready t = (List.range shape.prod).map fun k : ℕ => (offset + k) % 2 ^ aw := by
  have hv := (c31_pad hpad).1
  have hd : toPattern shape (defaultOrder shape) = some ((List.range shape.length).reverse.map (axis shape)) := by
    rw [defaultOrder, ← List.map_reverse]
    exact toPattern_eq _ _ (by simp)
  have e : pat = (List.range shape.length).reverse.map (axis shape) := Option.some.inj (hp.symm.trans hd)
  have hok : ∀ p ∈ padded, 1 ≤ p.1 ∧ p.1 < 2 ^ (aw + 1) := by
    unfold pad at hpad
    split at hpad
    · exact absurd hpad (by simp)
    · split at hpad
      · exact absurd hpad (by simp)
      · intro p hp
        rw [← Option.some.inj hpad, List.mem_append] at hp
        rcases hp with hp | hp
        · rw [e] at hp
          obtain ⟨a, ha, rfl⟩ := List.mem_map.1 hp
          have ha' : a < shape.length := by simpa using ha
          apply hs
          simp [axis, ha']
        · rw [(List.mem_replicate.1 hp).2]
          exact ⟨le_refl _, Nat.one_lt_two_pow (by omega)⟩
  rw [((c31_source hok R t).2.2 hdone), hv, e, visit_reverse, List.map_map]
  rfl

/-- A negative axis, which Python accepts as an index of the shape, gets a wrong stride: for shape `(2, 3)` and order
    `(-1, 0)` the elements visited are 0, 6, 12, 3, 9, 15. -/
theorem c32_negative_axis :
    (toPattern [2, 3] [-1, 0]).map visit = some [0, 6, 12, 3, 9, 15] ∧
    (toPattern [2, 3] [1, 0]).map visit = some [0, 1, 2, 3, 4, 5] := by decide

example : ([1, 2, 0] : List ℕ).Perm (List.range [2, 3, 4].length) := by decide
example : (toPattern [2, 3] [0, 1]).map visit = some [0, 3, 1, 4, 2, 5] := by decide
example : pad 4 ((toPattern [2, 3] (defaultOrder [2, 3])).getD []) = some [(3, 1), (2, 3), (1, 0), (1, 0)] := by decide

end Pat
