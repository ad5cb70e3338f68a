import Verif.Model.Index
import Verif.Lemmas.VExpr

/-!
# C42: indexing and slicing of signals
-/

namespace Index

open Vlog

/-- The bits of the variable, as a number. -/
def raw (ρ : String → Int) (t : Ty) (x : String) : Nat := bits t.width (ρ x)

/-- A bound as Python reads it: omitted, or counted from the end if negative. -/
def norm (size : Nat) (default : Int) : Option Int → Int
  | none => default
  | some r => if r < 0 then size + r else r

/-- The expression has `n` bits and its bit `j` is bit `f j` of the variable. -/
def Picks (ρ : String → Int) (t : Ty) (x : String) (e : VExpr) (n : Nat) (f : Nat → Nat) : Prop :=
  e.ty = ⟨n, false⟩ ∧ ∃ v : Nat, e.value ρ = v ∧ v < 2 ^ n ∧ ∀ j < n, v.testBit j = (raw ρ t x).testBit (f j)

private theorem var_bits (ρ : String → Int) (t : Ty) (x : String) :
    bits t.width ((VExpr.var t x).eval ρ t) = raw ρ t x := by
  show bits t.width (extend t (t.wrap (ρ x)) t) = bits t.width (ρ x)
  unfold bits extend
  rw [Ty.wrap_emod, Val.read_emod ⟨t, t.wrap (ρ x)⟩]
  show ((t.wrap (ρ x)) % _).toNat = _
  rw [Ty.wrap_emod]

private theorem wrap_nat {n v : Nat} (h : v < 2 ^ n) : Ty.wrap ⟨n, false⟩ (v : Int) = v := by
  apply Ty.wrap_of_inRange
  unfold Ty.InRange
  simp only [Bool.false_eq_true, if_false]
  exact ⟨by omega, by exact_mod_cast h⟩

private theorem picks_bit (ρ : String → Int) (t : Ty) (x : String) (i : Nat) :
    Picks ρ t x (.bit (.var t x) i) 1 (fun _ => i) := by
  refine ⟨rfl, raw ρ t x / 2 ^ i % 2, ?_, Nat.mod_lt _ (by decide), ?_⟩
  · show Ty.wrap ⟨1, false⟩ ((bits t.width ((VExpr.var t x).eval ρ t) / 2 ^ i % 2 : Nat) : Int) = _
    rw [var_bits]
    exact wrap_nat (Nat.mod_lt _ (by decide))
  · intro j hj
    obtain rfl : j = 0 := by omega
    rw [Nat.testBit_zero, Nat.testBit_eq_decide_div_mod_eq, Nat.mod_mod]

private theorem picks_slice (ρ : String → Int) (t : Ty) (x : String) (m l : Nat) :
    Picks ρ t x (.slice (.var t x) m l) (m - l + 1) (fun j => l + j) := by
  refine ⟨rfl, raw ρ t x / 2 ^ l % 2 ^ (m - l + 1), ?_, Nat.mod_lt _ (two_pow_pos _), ?_⟩
  · show Ty.wrap ⟨m - l + 1, false⟩
      ((bits t.width ((VExpr.var t x).eval ρ t) / 2 ^ l % 2 ^ (m - l + 1) : Nat) : Int) = _
    rw [var_bits]
    exact wrap_nat (Nat.mod_lt _ (two_pow_pos _))
  · intro j hj
    rw [Nat.testBit_mod_two_pow, Nat.testBit_div_two_pow]
    simp [hj, Nat.add_comm]

private theorem picks_cat (ρ : String → Int) (t : Ty) (x : String) {i n : Nat} {e : VExpr} {f : Nat → Nat}
    (h : Picks ρ t x e n f) :
    Picks ρ t x (.cat (.bit (.var t x) i) e) (n + 1) (fun j => if j = n then i else f j) := by
  obtain ⟨hty, v, hv, hlt, hb⟩ := h
  obtain ⟨_, u, hu, hult, hub⟩ := picks_bit ρ t x i
  refine ⟨?_, u * 2 ^ n + v, ?_, ?_, ?_⟩
  · show Ty.mk (1 + e.ty.width) false = _
    rw [hty, Nat.add_comm]
  · show Ty.wrap ⟨1 + e.ty.width, false⟩ ((bits 1 ((VExpr.bit (.var t x) i).value ρ) * 2 ^ e.ty.width +
      bits e.ty.width (e.value ρ) : Nat) : Int) = _
    rw [hu, hv, hty]
    have h1 : bits 1 (u : Int) = u := by
      have := bits_of_nonneg (w := 1) (v := (u : Int)) (by omega) (by exact_mod_cast hult)
      exact_mod_cast this
    have h2 : bits n (v : Int) = v := by
      have := bits_of_nonneg (w := n) (v := (v : Int)) (by omega) (by exact_mod_cast hlt)
      exact_mod_cast this
    simp only []
    rw [h1, h2]
    apply wrap_nat
    have hu2 : u ≤ 1 := by omega
    rw [Nat.pow_add, Nat.pow_one]
    have := Nat.mul_le_mul_right (2 ^ n) hu2
    omega
  · have hu2 : u ≤ 1 := by omega
    have := Nat.mul_le_mul_right (2 ^ n) hu2
    rw [Nat.pow_succ]
    omega
  · intro j hj
    rw [Nat.mul_comm, Nat.testBit_two_pow_mul_add _ hlt]
    by_cases h : j = n
    · simp only []
      rw [if_neg (by omega), if_pos h, h, Nat.sub_self]
      exact hub 0 (by omega)
    · simp only []
      rw [if_pos (by omega), if_neg h]
      exact hb j (by omega)

/-- A concatenation of single bits, most significant first. -/
private theorem picks_catList (ρ : String → Int) (t : Ty) (x : String) : ∀ (l : List Nat), l ≠ [] →
    ∃ e, catList (l.map fun i => VExpr.bit (.var t x) i) = some e ∧
      Picks ρ t x e l.length (fun j => l.reverse.getD j 0)
  | [], h => absurd rfl h
  | [i], _ => ⟨_, rfl, by
      obtain ⟨h1, v, h2, h3, h4⟩ := picks_bit ρ t x i
      refine ⟨h1, v, h2, h3, ?_⟩
      intro j hj
      obtain rfl : j = 0 := by simpa using hj
      exact h4 0 (by omega)⟩
  | i :: k :: l, _ => by
    obtain ⟨e, he, hp⟩ := picks_catList ρ t x (k :: l) (by simp)
    refine ⟨.cat (.bit (.var t x) i) e, ?_, ?_⟩
    · simp only [List.map_cons, catList] at he ⊢
      rw [he]; rfl
    · obtain ⟨h1, v, h2, h3, h4⟩ := picks_cat ρ t x (i := i) hp
      refine ⟨h1, v, h2, h3, ?_⟩
      intro j hj
      rw [h4 j hj]
      congr 1
      have hl : (k :: l).reverse.length = (k :: l).length := List.length_reverse
      show (if j = (k :: l).length then i else (k :: l).reverse.getD j 0) = (i :: (k :: l)).reverse.getD j 0
      rw [List.reverse_cons (a := i)]
      rw [List.getD_eq_getElem?_getD (l := (k :: l).reverse ++ [i]), List.getElem?_append]
      by_cases h : j = (k :: l).length
      · rw [if_pos h, if_neg (by omega), hl, h, Nat.sub_self]; rfl
      · have hj' : j < (k :: l).length := by
          have : j < (k :: l).length + 1 := hj
          omega
        rw [if_neg h, if_pos (by omega), List.getD_eq_getElem?_getD]

private theorem lower_eq (size : Nat) (o : Option Int) : lower size o = norm size 0 o := by
  cases o with
  | none => rfl
  | some r => simp only [lower, norm]; split <;> omega

private theorem upper_eq (size : Nat) (o : Option Int) : upper size o = norm size size o - 1 := by
  cases o with
  | none => rfl
  | some r => simp only [upper, norm]; split <;> omega

/-- C42: `x[i]` is bit `i`, counted from the end if `i` is negative. -/
theorem c42_index (ρ : String → Int) (t : Ty) (x : String) (i : Int) (h1 : - (t.width : Int) ≤ i)
    (h2 : i < t.width) :
    ∃ e, (getIndex t.width i).expr t x = some e ∧
      Picks ρ t x e 1 (fun _ => (if i < 0 then t.width + i else i).toNat) := by
  have he : (if i < 0 then (t.width : Int) - i.natAbs else i) = if i < 0 then t.width + i else i := by
    split <;> omega
  refine ⟨_, ?_, picks_bit ρ t x _⟩
  have hr : 0 ≤ (if i < 0 then (t.width : Int) + i else i) ∧
      (if i < 0 then (t.width : Int) + i else i) < t.width := by
    split <;> omega
  unfold getIndex
  rw [he]
  exact if_pos hr

/-- C42: `x[a:b]` is bits `a` to `b - 1`, bit `a` least significant; omitted bounds are 0 and the width, negative
    ones count from the end. -/
theorem c42_slice (ρ : String → Int) (t : Ty) (x : String) (start stop : Option Int)
    (h1 : 0 ≤ norm t.width 0 start) (h2 : norm t.width 0 start < norm t.width t.width stop)
    (h3 : norm t.width t.width stop ≤ t.width) :
    ∃ e, (getSlice t.width start stop none).expr t x = some e ∧
      Picks ρ t x e (norm t.width t.width stop - norm t.width 0 start).toNat
        (fun j => (norm t.width 0 start).toNat + j) := by
  unfold getSlice
  simp only [lower_eq, upper_eq]
  generalize norm t.width 0 start = a at *
  generalize norm t.width t.width stop = b at *
  rw [if_neg (by omega)]
  have hp := picks_slice ρ t x (b - 1).toNat a.toNat
  rw [show (b - 1).toNat - a.toNat + 1 = (b - a).toNat by omega] at hp
  refine ⟨_, ?_, hp⟩
  exact if_pos (by omega)

private theorem pick_list (ρ : String → Int) (t : Ty) (x : String) (l : List Int) (hne : l ≠ [])
    (hin : ∀ p ∈ l, 0 ≤ p ∧ p < t.width) :
    ∃ e, (Item.cat l.reverse).expr t x = some e ∧
      Picks ρ t x e l.length (fun j => (l.map Int.toNat).getD j 0) := by
  have hall : l.reverse.all (fun p => 0 ≤ p && p < t.width) = true := by
    rw [List.all_eq_true]
    intro p hp
    have := hin p (by simpa using hp)
    simp [this.1, this.2]
  obtain ⟨e, he, hp⟩ := picks_catList ρ t x (l.reverse.map Int.toNat) (by simpa using hne)
  refine ⟨e, ?_, ?_⟩
  · rw [← he, List.map_map]
    exact if_pos hall
  · have hl : (l.reverse.map Int.toNat).length = l.length := by simp
    rw [hl] at hp
    have hr : (l.reverse.map Int.toNat).reverse = l.map Int.toNat := by
      rw [← List.map_reverse, List.reverse_reverse]
    rw [hr] at hp
    exact hp

/-- C42: `x[a:b:s]` with `s > 0` is the bits `a, a + s, a + 2s, ...` below `b`, the first least significant. -/
theorem c42_step (ρ : String → Int) (t : Ty) (x : String) (start stop : Option Int) (s : Int) (hs : 0 < s)
    (h1 : 0 ≤ norm t.width 0 start) (h2 : norm t.width 0 start < norm t.width t.width stop)
    (h3 : norm t.width t.width stop ≤ t.width) :
    ∃ (e : VExpr) (n : Nat), (getSlice t.width start stop (some s)).expr t x = some e ∧
      (∀ j : Nat, j < n ↔ norm t.width 0 start + j * s < norm t.width t.width stop) ∧
      Picks ρ t x e n (fun j => (norm t.width 0 start + j * s).toNat) := by
  unfold getSlice
  simp only [lower_eq, upper_eq]
  generalize norm t.width 0 start = a at *
  generalize norm t.width t.width stop = b at *
  rw [if_neg (by omega), if_neg (by omega)]
  have hr : pyRange a (b - 1 + 1) s = (List.range ((b - a + s - 1) / s).toNat).map fun i : Nat => a + i * s := by
    unfold pyRange
    rw [if_pos hs, show b - 1 + 1 - a + s - 1 = b - a + s - 1 by omega]
  rw [hr]
  generalize hn : ((b - a + s - 1) / s).toNat = n
  have hcount : ∀ j : Nat, j < n ↔ a + j * s < b := by
    intro j
    have hq : (j : Int) < (b - a + s - 1) / s ↔ (j : Int) * s < b - a := by
      rw [← Int.add_one_le_iff, Int.le_ediv_iff_mul_le hs, Int.add_mul, Int.one_mul]
      omega
    omega
  have hpos : 0 < n := (hcount 0).2 (by omega)
  obtain ⟨e, he, hp⟩ := pick_list ρ t x ((List.range n).map fun i : Nat => a + i * s)
    (by intro h; simp at h; omega)
    (by
      intro p hp
      obtain ⟨i, hi, rfl⟩ := List.mem_map.1 hp
      have := (hcount i).1 (List.mem_range.1 hi)
      have : 0 ≤ (i : Int) * s := Int.mul_nonneg (by omega) (by omega)
      omega)
  refine ⟨e, n, he, hcount, ?_⟩
  obtain ⟨g1, v, g2, g3, g4⟩ := hp
  rw [List.length_map, List.length_range] at g1 g3 g4
  refine ⟨g1, v, g2, g3, ?_⟩
  intro j hj
  rw [g4 j hj]
  congr 1
  simp [List.getD_eq_getElem?_getD, hj]

/-- C42: `x[a:b:-s]` with both bounds given and `b` not 0 is the bits `a, a - s, ...` above `b`, the first
    least significant. -/
theorem c42_step_down (ρ : String → Int) (t : Ty) (x : String) (start stop : Int) (s : Int) (hs : s < 0)
    (h1 : 1 ≤ norm t.width 0 (some stop)) (h2 : norm t.width 0 (some stop) < norm t.width 0 (some start))
    (h3 : norm t.width 0 (some start) < t.width) :
    ∃ (e : VExpr) (n : Nat), (getSlice t.width (some start) (some stop) (some s)).expr t x = some e ∧
      (∀ j : Nat, j < n ↔ norm t.width 0 (some stop) < norm t.width 0 (some start) + j * s) ∧
      Picks ρ t x e n (fun j => (norm t.width 0 (some start) + j * s).toNat) := by
  unfold getSlice
  simp only [lower_eq, upper_eq]
  have hb : norm t.width t.width (some stop) = norm t.width 0 (some stop) := rfl
  rw [hb]
  generalize norm t.width 0 (some start) = a at *
  generalize norm t.width 0 (some stop) = b at *
  rw [if_neg (by omega), if_neg (by omega)]
  have hr : pyRange a (b - 1 + 1) s =
      (List.range ((a - b - s - 1) / (-s)).toNat).map fun i : Nat => a + i * s := by
    unfold pyRange
    rw [if_neg (by omega), if_pos hs, show a - (b - 1 + 1) - s - 1 = a - b - s - 1 by omega]
  rw [hr]
  generalize hn : ((a - b - s - 1) / (-s)).toNat = n
  have hcount : ∀ j : Nat, j < n ↔ b < a + j * s := by
    intro j
    have hq : (j : Int) < (a - b - s - 1) / (-s) ↔ (j : Int) * (-s) < a - b := by
      rw [← Int.add_one_le_iff, Int.le_ediv_iff_mul_le (by omega), Int.add_mul, Int.one_mul]
      omega
    rw [Int.mul_neg] at hq
    omega
  have hpos : 0 < n := (hcount 0).2 (by omega)
  obtain ⟨e, he, hp⟩ := pick_list ρ t x ((List.range n).map fun i : Nat => a + i * s)
    (by intro h; simp at h; omega)
    (by
      intro p hp
      obtain ⟨i, hi, rfl⟩ := List.mem_map.1 hp
      have := (hcount i).1 (List.mem_range.1 hi)
      have : (i : Int) * s ≤ 0 := Int.mul_nonpos_of_nonneg_of_nonpos (by omega) (by omega)
      omega)
  refine ⟨e, n, he, hcount, ?_⟩
  obtain ⟨g1, v, g2, g3, g4⟩ := hp
  rw [List.length_map, List.length_range] at g1 g3 g4
  refine ⟨g1, v, g2, g3, ?_⟩
  intro j hj
  rw [g4 j hj]
  congr 1
  simp [List.getD_eq_getElem?_getD, hj]

/-- C42 does not hold for a negative step with an omitted or zero end: `x[::-1]` is an empty concatenation and
    `x[7:0:-1]` raises, where Python gives the bits in reverse. -/
theorem c42_reverse (t : Ty) (x : String) (h : 1 ≤ t.width) :
    (getSlice t.width none none (some (-1))).expr t x = none ∧
    getSlice 8 (some 7) (some 0) (some (-1)) = .error := by
  refine ⟨?_, by decide⟩
  unfold getSlice lower upper
  simp only []
  rw [if_neg (by omega), if_neg (by omega)]
  unfold pyRange
  rw [if_neg (by omega), if_pos (by omega)]
  have hz : ((0 - ((t.width : Int) - 1 + 1) - -1 - 1) / (- -1)).toNat = 0 := by
    rw [show (- -1 : Int) = 1 by decide, Int.ediv_one]
    omega
  rw [hz]
  simp [Item.expr, catList]

/-- C42 does not hold for an end beyond the width: Python clips it, the library prints it. -/
theorem c42_no_clip :
    getSlice 8 (some 0) (some 20) none = .slice 19 0 ∧
    (getSlice 8 (some 0) (some 20) none).expr ⟨8, false⟩ "x" = none := by decide

/-! Examples. -/

example : norm 8 0 (some (-6)) = 2 ∧ norm 8 8 none = 8 ∧ norm 8 8 (some (-1)) = 7 := by decide
example : ((getSlice 8 (some (-6)) (some (-1)) (some 2)).expr ⟨8, false⟩ "x").map (·.value fun _ => 0x94) =
    some 3 := by decide
example : ((getSlice 8 (some 6) (some 2) (some (-1))).expr ⟨8, false⟩ "x").map (·.value fun _ => 0x38) =
    some 14 := by decide
example : ((getIndex 8 (-1)).expr ⟨8, true⟩ "x").map (·.value fun _ => -5) = some 1 := by decide

end Index
