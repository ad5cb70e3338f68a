import Verif.Model.StreamOp
import Verif.Lemmas.Vlog

/-!
# C30: tree reductions
-/

namespace Stream

open Vlog

/-- Induction over the recursion of `op_tree`. -/
private theorem tree_ind {α : Type} (op : α → α → α) (d : α) (P : List α → α → Prop)
    (one : ∀ a, P [a] a)
    (app : ∀ (l1 l2 : List α) (x y : α), l1 ≠ [] → l2 ≠ [] → l1.length = (l1 ++ l2).length / 2 →
      P l1 x → P l2 y → P (l1 ++ l2) (op x y)) :
    ∀ (n : Nat) (l : List α), l.length = n → l ≠ [] → P l (opTree op d l) := by
  intro n
  induction n using Nat.strongRecOn with
  | ind n ih =>
    intro l hl hne
    match l, hl, hne with
    | [a], _, _ => rw [opTree]; exact one a
    | a :: b :: l, hl, _ =>
      rw [opTree]
      have ht : ((a :: b :: l).take ((a :: b :: l).length / 2)).length = (a :: b :: l).length / 2 := by
        simp only [List.length_take, List.length_cons]; omega
      have hd : ((a :: b :: l).drop ((a :: b :: l).length / 2)).length =
          (a :: b :: l).length - (a :: b :: l).length / 2 := by
        simp only [List.length_drop]
      have hlen : (a :: b :: l).length = l.length + 2 := rfl
      have n1 : (a :: b :: l).take ((a :: b :: l).length / 2) ≠ [] := by
        intro h; rw [h] at ht; simp only [List.length_nil] at ht; omega
      have n2 : (a :: b :: l).drop ((a :: b :: l).length / 2) ≠ [] := by
        intro h; rw [h] at hd; simp only [List.length_nil] at hd; omega
      have h := app _ _ _ _ n1 n2
        (by rw [List.take_append_drop, ht])
        (ih _ (by rw [ht, ← hl, hlen]; omega) _ rfl n1)
        (ih _ (by rw [hd, ← hl, hlen]; omega) _ rfl n2)
      rwa [List.take_append_drop] at h

/-- C30: for an associative operator `op_tree` has the value of the left fold. -/
theorem c30_fold {α : Type} (op : α → α → α) (d : α)
    (assoc : ∀ a b c, op (op a b) c = op a (op b c)) (a : α) (l : List α) :
    opTree op d (a :: l) = l.foldl op a := by
  have key : ∀ (l : List α) (a b : α), op b (l.foldl op a) = l.foldl op (op b a) := by
    intro l
    induction l with
    | nil => intro a b; rfl
    | cons c l ih => intro a b; simp only [List.foldl_cons]; rw [ih, assoc]
  have h := tree_ind op d (fun l x => ∀ a t, l = a :: t → x = t.foldl op a)
    (by intro a b t h; cases h; rfl)
    (by
      intro l1 l2 x y h1 h2 _ hx hy b t h
      obtain ⟨c, u, rfl⟩ := List.exists_cons_of_ne_nil h1
      obtain ⟨e, v, rfl⟩ := List.exists_cons_of_ne_nil h2
      simp only [List.cons_append, List.cons.injEq] at h
      obtain ⟨rfl, rfl⟩ := h
      rw [hx c u rfl, hy e v rfl, List.foldl_append, List.foldl_cons, key])
    _ (a :: l) rfl (by simp)
  exact h a l rfl

/-- C30: the tree has the least possible depth, `ceil(log2 n)` operators on the longest path. -/
theorem c30_depth (n : Nat) (hn : 0 < n) :
    ∃ d, opTree (fun x y => max x y + 1) 0 (List.replicate n 0) = d ∧
      n ≤ 2 ^ d ∧ ∀ d', n ≤ 2 ^ d' → d ≤ d' := by
  refine ⟨_, rfl, ?_⟩
  have h := tree_ind (fun x y => max x y + 1) 0
    (fun (l : List Nat) d => (∀ a ∈ l, a = 0) →
      l.length ≤ 2 ^ d ∧ ∀ d', l.length ≤ 2 ^ d' → d ≤ d')
    (by
      intro a h
      have : a = 0 := h a (by simp)
      subst this
      simp)
    (by
      intro l1 l2 x y h1 h2 hl hx hy h0
      obtain ⟨hx1, hx2⟩ := hx fun a ha => h0 a (by simp [ha])
      obtain ⟨hy1, hy2⟩ := hy fun a ha => h0 a (by simp [ha])
      have p1 : 0 < l1.length := List.length_pos_iff.2 h1
      have p2 : 0 < l2.length := List.length_pos_iff.2 h2
      rw [List.length_append] at hl ⊢
      have hxy : x ≤ y := hx2 y (by omega)
      have hmax : max x y = y := Nat.max_eq_right hxy
      rw [hmax]
      refine ⟨by rw [Nat.pow_succ]; omega, ?_⟩
      intro d' hd'
      cases d' with
      | zero => simp at hd'; omega
      | succ d' =>
        rw [Nat.pow_succ] at hd'
        have := hy2 d' (by omega)
        omega)
    _ (List.replicate n 0) rfl (by cases n <;> simp_all [List.replicate])
  have := h (by intro a ha; exact (List.mem_replicate.1 ha).2)
  rwa [List.length_replicate] at this

/-- C30: `AddTree` of operands of one type is the sum, in that type. -/
theorem c30_addTree (t : Ty) (l : List Int) (hl : l ≠ []) :
    addTree (l.map fun v => ⟨t, t.wrap v⟩) = ⟨t, t.wrap l.sum⟩ := by
  have h := tree_ind plus (int 0)
    (fun (l : List Val) x => ∀ vs : List Int, l = vs.map (fun v => ⟨t, t.wrap v⟩) →
      x = ⟨t, t.wrap vs.sum⟩)
    (by
      intro a vs h
      cases vs with
      | nil => simp at h
      | cons v vs => cases vs with
        | nil => simp at h; simp [h]
        | cons _ _ => simp at h)
    (by
      intro l1 l2 x y _ _ _ hx hy vs h
      obtain ⟨v1, v2, rfl, e1, e2⟩ := List.map_eq_append_iff.1 h.symm
      rw [hx v1 e1.symm, hy v2 e2.symm]
      have hb : binTy t t = t := by
        obtain ⟨w, s⟩ := t; simp [binTy]
      unfold plus
      simp only [hb]
      have hr : ∀ v, (⟨t, t.wrap v⟩ : Val).read t.signed = t.wrap v :=
        fun v => Val.read_self (v := ⟨t, t.wrap v⟩) (t.wrap_wrap v)
      rw [hr, hr, t.wrap_add_wrap, t.wrap_add_wrap', List.sum_append])
    _ (l.map fun v => (⟨t, t.wrap v⟩ : Val)) rfl (by simpa using hl)
  exact h l rfl

/-- C30 does not hold for operands of different widths: with a 16-bit and two 8-bit operands the
    tree adds the two 8-bit ones in 8 bits, whereas the left fold adds in 16 bits. -/
theorem c30_addTree_mixed :
    ∃ a b c : Val, a.Ok ∧ b.Ok ∧ c.Ok ∧ addTree [a, b, c] ≠ plus (plus a b) c ∧
      (addTree [a, b, c]).val ≠ a.val + b.val + c.val ∧
      (plus (plus a b) c).val = a.val + b.val + c.val := by
  refine ⟨⟨⟨16, false⟩, 0⟩, ⟨⟨8, false⟩, 200⟩, ⟨⟨8, false⟩, 100⟩, rfl, rfl, rfl, ?_⟩
  have : addTree [⟨⟨16, false⟩, 0⟩, ⟨⟨8, false⟩, 200⟩, ⟨⟨8, false⟩, 100⟩] = ⟨⟨16, false⟩, 44⟩ := by
    simp [addTree, opTree, plus, binTy, Ty.wrap, Val.read]
  rw [this]
  exact ⟨by decide, by decide, by decide⟩

private theorem cond_same {c : Bool} {a b : Val} {s : Bool} (ha : a.Ok) (hb : b.Ok)
    (sa : a.ty.signed = s) (sb : b.ty.signed = s) :
    (cond c a b).val = (if c then a else b).val ∧ (cond c a b).Ok ∧ (cond c a b).ty.signed = s := by
  have hs : (a.ty.signed && b.ty.signed) = s := by rw [sa, sb]; simp
  have ho : (a.ty.signed || b.ty.signed) = s := by rw [sa, sb]; simp
  have hval : (cond c a b).val = (if c then a else b).val := by
    unfold cond
    simp only [hs, ho]
    cases c
    · show Ty.wrap _ (b.read s) = b.val
      rw [← sb, Val.read_self hb]
      exact Ty.wrap_of_inRange _ (Ty.inRange_mono ((Val.ok_iff b).1 hb) rfl (Nat.le_max_right _ _))
    · show Ty.wrap _ (a.read s) = a.val
      rw [← sa, Val.read_self ha]
      exact Ty.wrap_of_inRange _ (Ty.inRange_mono ((Val.ok_iff a).1 ha) rfl (Nat.le_max_left _ _))
  refine ⟨hval, ?_, ho⟩
  unfold Val.Ok cond
  simp

/-- C30: `Max` of operands of one signedness (and any widths) is the greatest of them. -/
theorem c30_max (s : Bool) (l : List Val) (hl : l ≠ []) (hok : ∀ v ∈ l, v.Ok)
    (hs : ∀ v ∈ l, v.ty.signed = s) :
    ∃ m, maxTree l = some m ∧ (∃ v ∈ l, m.val = v.val) ∧ ∀ v ∈ l, v.val ≤ m.val := by
  match l, hl with
  | [a], _ => exact ⟨a, rfl, ⟨a, by simp, rfl⟩, by simp⟩
  | a :: b :: l, _ =>
    refine ⟨_, rfl, ?_⟩
    have h := tree_ind (fun x y => cond (greaterThan x y) x y) a
      (fun (l : List Val) x => (∀ v ∈ l, v.Ok) → (∀ v ∈ l, v.ty.signed = s) →
        (x.Ok ∧ x.ty.signed = s) ∧ (∃ v ∈ l, x.val = v.val) ∧ ∀ v ∈ l, v.val ≤ x.val)
      (by intro a h1 h2; exact ⟨⟨h1 a (by simp), h2 a (by simp)⟩, ⟨a, by simp, rfl⟩, by simp⟩)
      (by
        intro l1 l2 x y _ _ _ hx hy h1 h2
        obtain ⟨⟨ox, sx⟩, ⟨vx, mx, ex⟩, gx⟩ := hx (fun v hv => h1 v (by simp [hv]))
          (fun v hv => h2 v (by simp [hv]))
        obtain ⟨⟨oy, sy⟩, ⟨vy, my, ey⟩, gy⟩ := hy (fun v hv => h1 v (by simp [hv]))
          (fun v hv => h2 v (by simp [hv]))
        obtain ⟨hv, ho, hs⟩ := cond_same (c := greaterThan x y) ox oy sx sy
        refine ⟨⟨ho, hs⟩, ?_⟩
        have hgt : greaterThan x y = decide (x.val > y.val) := by
          unfold greaterThan
          have : (x.ty.signed && y.ty.signed) = s := by rw [sx, sy]; simp
          rw [this]
          conv => lhs; rw [show x.read s = x.val by rw [← sx]; exact Val.read_self ox,
            show y.read s = y.val by rw [← sy]; exact Val.read_self oy]
        rw [hv, hgt]
        by_cases hc : x.val > y.val
        · simp only [hc, decide_true, if_true]
          refine ⟨⟨vx, by simp [mx], ex⟩, ?_⟩
          intro v hv
          rcases List.mem_append.1 hv with h | h
          · exact gx v h
          · have := gy v h; omega
        · simp only [hc, decide_false]
          refine ⟨⟨vy, by simp [my], ey⟩, ?_⟩
          intro v hv
          rcases List.mem_append.1 hv with h | h
          · have := gx v h
            show v.val ≤ y.val
            omega
          · exact gy v h)
      _ (a :: b :: l) rfl (by simp)
    exact (h hok hs).2

/-- C30: `Min` of operands of one signedness (and any widths) is the least of them. -/
theorem c30_min (s : Bool) (l : List Val) (hl : l ≠ []) (hok : ∀ v ∈ l, v.Ok)
    (hs : ∀ v ∈ l, v.ty.signed = s) :
    ∃ m, minTree l = some m ∧ (∃ v ∈ l, m.val = v.val) ∧ ∀ v ∈ l, m.val ≤ v.val := by
  match l, hl with
  | [a], _ => exact ⟨a, rfl, ⟨a, by simp, rfl⟩, by simp⟩
  | a :: b :: l, _ =>
    refine ⟨_, rfl, ?_⟩
    have h := tree_ind (fun x y => cond (lessThan x y) x y) a
      (fun (l : List Val) x => (∀ v ∈ l, v.Ok) → (∀ v ∈ l, v.ty.signed = s) →
        (x.Ok ∧ x.ty.signed = s) ∧ (∃ v ∈ l, x.val = v.val) ∧ ∀ v ∈ l, x.val ≤ v.val)
      (by intro a h1 h2; exact ⟨⟨h1 a (by simp), h2 a (by simp)⟩, ⟨a, by simp, rfl⟩, by simp⟩)
      (by
        intro l1 l2 x y _ _ _ hx hy h1 h2
        obtain ⟨⟨ox, sx⟩, ⟨vx, mx, ex⟩, gx⟩ := hx (fun v hv => h1 v (by simp [hv]))
          (fun v hv => h2 v (by simp [hv]))
        obtain ⟨⟨oy, sy⟩, ⟨vy, my, ey⟩, gy⟩ := hy (fun v hv => h1 v (by simp [hv]))
          (fun v hv => h2 v (by simp [hv]))
        obtain ⟨hv, ho, hs⟩ := cond_same (c := lessThan x y) ox oy sx sy
        refine ⟨⟨ho, hs⟩, ?_⟩
        have hgt : lessThan x y = decide (x.val < y.val) := by
          unfold lessThan
          have : (x.ty.signed && y.ty.signed) = s := by rw [sx, sy]; simp
          rw [this]
          conv => lhs; rw [show x.read s = x.val by rw [← sx]; exact Val.read_self ox,
            show y.read s = y.val by rw [← sy]; exact Val.read_self oy]
        rw [hv, hgt]
        by_cases hc : x.val < y.val
        · simp only [hc, decide_true, if_true]
          refine ⟨⟨vx, by simp [mx], ex⟩, ?_⟩
          intro v hv
          rcases List.mem_append.1 hv with h | h
          · exact gx v h
          · have := gy v h; omega
        · simp only [hc, decide_false]
          refine ⟨⟨vy, by simp [my], ey⟩, ?_⟩
          intro v hv
          rcases List.mem_append.1 hv with h | h
          · have := gx v h
            show y.val ≤ v.val
            omega
          · exact gy v h)
      _ (a :: b :: l) rfl (by simp)
    exact (h hok hs).2

/-- C30 does not hold for operands of different signedness: `Max` of the signed -1 and the unsigned
    5 (8 bits each) is -1, because the comparison is unsigned. -/
theorem c30_max_mixed :
    ∃ a b : Val, a.Ok ∧ b.Ok ∧ a.val < b.val ∧ (maxTree [a, b]).map (·.val) = some a.val := by
  refine ⟨⟨⟨8, true⟩, -1⟩, ⟨⟨8, false⟩, 5⟩, by unfold Val.Ok; decide, rfl, by decide, ?_⟩
  simp [maxTree, opTree, cond, greaterThan, Ty.wrap, Val.read]

/-! Examples: the hypotheses are met by concrete operands. -/

example : addTree ([100, 27, 1].map fun v => ⟨⟨8, true⟩, (⟨8, true⟩ : Ty).wrap v⟩) =
    ⟨⟨8, true⟩, -128⟩ := by rw [c30_addTree _ _ (by simp)]; decide
example : ∀ v ∈ [(⟨⟨8, true⟩, -5⟩ : Val), ⟨⟨4, true⟩, 3⟩, ⟨⟨16, true⟩, 300⟩], v.Ok ∧ v.ty.signed = true := by
  intro v hv
  simp at hv
  rcases hv with rfl | rfl | rfl <;> exact ⟨by unfold Val.Ok; decide, rfl⟩
example : opTree (fun x y => max x y + 1) 0 (List.replicate 5 0) = 3 := by
  simp [opTree, List.replicate]

end Stream
