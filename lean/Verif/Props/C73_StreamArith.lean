import Verif.Model.StreamArith
import Verif.Lemmas.VExpr
import Verif.Props.C04_Mul
import Verif.Props.C05_Div
import Mathlib.Tactic.FieldSimp
import Mathlib.Tactic.Positivity
import Mathlib.Algebra.Order.Field.Rat
import Mathlib.Data.Rat.Floor

/-!
# C73: arithmetic of stream values with width, point and signedness
-/

namespace SArith

open Vlog Fixed

/-! ### Vocabulary -/

/-- The node holds the raw integer `v`. -/
def Carries (ρ : String → Int) (n : Nd) (v : Int) : Prop :=
  match n.src with
  | .net x => ρ x = v ∧ n.attr.ty.InRange v
  | .int _ => n = mkInt v
  | .fixed _ => n = mkFixed v n.attr.point

/-- The number a raw integer stands for. -/
def num (v : Int) (point : Nat) : ℚ := (v : ℚ) / 2 ^ point

/-- The signedness of the text printed for an operand shifted left by `d`. -/
def Printed (n : Nd) (d : Nat) : Bool :=
  match n.src with
  | .net _ => n.attr.signed
  | .int _ => true
  | .fixed v => decide (v < 0) || decide (d ≠ 0)

/-- The width of the text printed for an operand shifted left by `d`. -/
def PrintedWidth (n : Nd) (d : Nat) : Nat :=
  match n.src with
  | .net _ => n.attr.width
  | _ => if d = 0 then n.attr.width else 32

/-- A constant shifted by `d` fits a plain Verilog number; the shift amount does, too. -/
def Small (n : Nd) (d : Nat) (v : Int) : Prop :=
  d < 2 ^ 31 ∧ (match n.src with
  | .net _ => True
  | _ => (v * (2 ^ d : Nat)).natAbs < 2 ^ 31)

/-- The two operands are printed with the same signedness, or both numbers are non-negative. -/
def Compat (l r : Nd) (a b : Int) : Prop :=
  Printed l (r.attr.point - l.attr.point) = Printed r (l.attr.point - r.attr.point) ∨ (0 ≤ a ∧ 0 ≤ b)

/-! ### Lemmas -/

private theorem intWidth_inRange (v : Int) : Ty.InRange ⟨intWidth v, true⟩ (v.natAbs : Nat) ∧
    Ty.InRange ⟨intWidth v, true⟩ v ∧ 2 * v.natAbs < 2 ^ intWidth v := by
  have h : 2 * v.natAbs < 2 ^ intWidth v := by
    unfold intWidth
    by_cases h0 : v = 0
    · subst h0; simp
    · rw [if_neg h0]
      have := Nat.lt_log2_self (n := v.natAbs)
      rw [Nat.pow_succ]
      omega
  unfold Ty.InRange
  simp only [if_true]
  omega

private theorem extend_reads {t c : Ty} {v : Int} (h : t.InRange v) (hw : t.width ≤ c.width)
    (hs : c.signed = t.signed ∨ (c.signed = false ∧ 0 ≤ v)) : extend t (t.wrap v) c = c.wrap v := by
  rw [Ty.wrap_of_inRange t h]
  rcases hs with hs | ⟨hs, h0⟩
  · rw [extend_eq h hw hs]
    exact (Ty.wrap_of_inRange c (Ty.inRange_mono h hs.symm hw)).symm
  · unfold extend Val.read
    rw [hs]
    simp only [Bool.false_eq_true, if_false]
    rw [Int.emod_eq_of_lt h0]
    have := h
    unfold Ty.InRange at this
    split at this <;> omega

private theorem sizedInt_ty (v : Int) (w : Nat) (s : Bool) :
    (sizedInt v w s).ty = ⟨w, decide (v < 0) || s⟩ := by
  unfold sizedInt
  split
  · rename_i h; simp [VExpr.ty, h]
  · rename_i h; simp [VExpr.ty, h]

private theorem sizedInt_reads {ρ : String → Int} {v : Int} {s : Bool} {c : Ty}
    (hw : intWidth v ≤ c.width)
    (hs : c.signed = (decide (v < 0) || s) ∨ (c.signed = false ∧ 0 ≤ v)) :
    (sizedInt v (intWidth v) s).eval ρ c = c.wrap v := by
  obtain ⟨h1, h2, h3⟩ := intWidth_inRange v
  unfold sizedInt
  split
  · rename_i hv
    have hcs : c.signed = true := by
      rcases hs with h | h
      · simpa [hv] using h
      · omega
    have := (Means.lit (ρ := ρ) h1).neg c hw hcs
    rw [this]
    congr 1
    omega
  · rename_i hv
    have hr : Ty.InRange ⟨intWidth v, s⟩ (v.natAbs : Nat) := by
      cases s with
      | true => exact h1
      | false => unfold Ty.InRange; simp only [Bool.false_eq_true, if_false]; omega
    show extend _ _ c = _
    rw [extend_reads hr hw (by
      rcases hs with h | h
      · left; simpa [hv] using h
      · right; exact ⟨h.1, by omega⟩)]
    congr 1
    omega

theorem expr_ty {ρ : String → Int} {n : Nd} {v : Int} (h : Carries ρ n v) :
    n.expr.ty = ⟨n.attr.width, Printed n 0⟩ := by
  obtain ⟨at', src⟩ := n
  cases src with
  | net x => rfl
  | int k =>
    have hk : (⟨at', .int k⟩ : Nd) = mkInt v := h
    simp only [mkInt, Nd.mk.injEq, Src.int.injEq] at hk
    obtain ⟨rfl, rfl⟩ := hk
    simp [Nd.expr, sizedInt_ty, Printed]
  | fixed k =>
    simp [Nd.expr, sizedInt_ty, Printed]

theorem expr_reads {ρ : String → Int} {n : Nd} {v : Int} (h : Carries ρ n v) {c : Ty}
    (hw : n.attr.width ≤ c.width) (hs : c.signed = Printed n 0 ∨ (c.signed = false ∧ 0 ≤ v)) :
    n.expr.eval ρ c = c.wrap v := by
  obtain ⟨at', src⟩ := n
  cases src with
  | net x =>
    obtain ⟨hx, hr⟩ : ρ x = v ∧ at'.ty.InRange v := h
    show extend at'.ty (at'.ty.wrap (ρ x)) c = _
    rw [hx]
    exact extend_reads hr hw hs
  | int k =>
    have hk : (⟨at', .int k⟩ : Nd) = mkInt v := h
    simp only [mkInt, Nd.mk.injEq, Src.int.injEq] at hk
    obtain ⟨rfl, rfl⟩ := hk
    exact sizedInt_reads hw (by simpa [Printed] using hs)
  | fixed k =>
    have hk : (⟨at', .fixed k⟩ : Nd) = mkFixed v at'.point := h
    simp only [mkFixed, Nd.mk.injEq, Src.fixed.injEq] at hk
    obtain ⟨h1, rfl⟩ := hk
    rw [h1] at hw
    show (sizedInt k at'.width false).eval ρ c = _
    rw [h1]
    exact sizedInt_reads hw (by simpa [Printed] using hs)

/-- The text of an operand shifted left by `d`. -/
def adjE (n : Nd) (d : Nat) : VExpr := if d = 0 then n.expr else (shiftLeft (n.opnd d) d).expr

theorem adjE_ty {ρ : String → Int} {n : Nd} {v : Int} (h : Carries ρ n v) (d : Nat) :
    (adjE n d).ty = ⟨PrintedWidth n d, Printed n d⟩ := by
  unfold adjE
  by_cases hd : d = 0
  · subst hd
    rw [if_pos rfl, expr_ty h]
    congr 1
    unfold PrintedWidth; split <;> simp
  · rw [if_neg hd]
    have h0 := expr_ty h
    obtain ⟨at', src⟩ := n
    cases src with
    | net x => simpa [Nd.opnd, hd, shiftLeft, Opnd.expr, VExpr.ty, Printed, PrintedWidth] using h0
    | int k => simp [Nd.opnd, hd, shiftLeft, Opnd.expr, pyInt_ty, Printed, PrintedWidth]
    | fixed k => simp [Nd.opnd, hd, shiftLeft, Opnd.expr, pyInt_ty, Printed, PrintedWidth]

private theorem pyInt_reads {ρ : String → Int} {v : Int} (hv : v.natAbs < 2 ^ 31) {c : Ty} (hw : 32 ≤ c.width)
    (hs : c.signed = true ∨ (c.signed = false ∧ 0 ≤ v)) : (VExpr.pyInt v).eval ρ c = c.wrap v := by
  rcases hs with hs | ⟨hs, h0⟩
  · exact Means.pyInt hv c (by rw [pyInt_ty]; exact hw) (by rw [pyInt_ty]; exact hs)
  · have hr : Ty.InRange ⟨32, true⟩ (v.natAbs : Nat) := by
      unfold Ty.InRange; simp only [if_true]
      have : (2 : Nat) ^ 32 = 2 * 2 ^ 31 := by norm_num
      omega
    unfold VExpr.pyInt
    rw [if_neg (by omega)]
    show extend _ _ c = _
    rw [extend_reads hr hw (Or.inr ⟨hs, by omega⟩)]
    congr 1
    omega

theorem adjE_reads {ρ : String → Int} {n : Nd} {v : Int} (h : Carries ρ n v) {d : Nat} (hm : Small n d v)
    {c : Ty} (hw : PrintedWidth n d ≤ c.width) (hs : c.signed = Printed n d ∨ (c.signed = false ∧ 0 ≤ v)) :
    (adjE n d).eval ρ c = c.wrap (v * (2 ^ d : Nat)) := by
  unfold adjE
  by_cases hd : d = 0
  · subst hd
    rw [if_pos rfl]
    have hw' : n.attr.width ≤ c.width := by
      unfold PrintedWidth at hw; split at hw <;> simpa using hw
    rw [expr_reads h hw' hs]
    simp
  · rw [if_neg hd]
    have key := fun hw' hs' => expr_reads (c := c) h hw' hs'
    obtain ⟨at', src⟩ := n
    cases src with
    | net x =>
      have := key hw hs
      simp only [Nd.opnd, if_neg hd, shiftLeft, Opnd.expr]
      show ShOp.eval c .sll (VExpr.eval ρ _ c) _ = _
      rw [amount_pyInt hm.1, this]
      show c.wrap (c.wrap v * _) = _
      rw [Ty.wrap_mul_wrap]
    | int k =>
      have hk : (⟨at', .int k⟩ : Nd) = mkInt v := h
      simp only [mkInt, Nd.mk.injEq, Src.int.injEq] at hk
      obtain ⟨_, rfl⟩ := hk
      simp only [Nd.opnd, if_neg hd, shiftLeft, Opnd.expr]
      have hp : 0 ≤ k → 0 ≤ k * ((2 ^ d : Nat) : Int) := fun h0 => Int.mul_nonneg h0 (by positivity)
      refine pyInt_reads hm.2 (by simpa [PrintedWidth, hd] using hw) ?_
      rcases hs with hs | hs
      · left; simpa [Printed] using hs
      · right; exact ⟨hs.1, hp hs.2⟩
    | fixed k =>
      have hk : (⟨at', .fixed k⟩ : Nd) = mkFixed v at'.point := h
      simp only [mkFixed, Nd.mk.injEq, Src.fixed.injEq] at hk
      obtain ⟨_, rfl⟩ := hk
      simp only [Nd.opnd, if_neg hd, shiftLeft, Opnd.expr]
      have hp : 0 ≤ k → 0 ≤ k * ((2 ^ d : Nat) : Int) := fun h0 => Int.mul_nonneg h0 (by positivity)
      refine pyInt_reads hm.2 (by simpa [PrintedWidth, hd] using hw) ?_
      rcases hs with hs | hs
      · left; simpa [Printed, hd] using hs
      · right; exact ⟨hs.1, hp hs.2⟩

private theorem toSigned_adj {n : Nd} {d : Nat} (hd : d ≠ 0) (h : n.attr.signed = true) :
    toSigned (shiftLeft (n.opnd d) d) = shiftLeft (n.opnd d) d := by
  obtain ⟨at', src⟩ := n
  cases src with
  | net x =>
    have : at'.signed = true := h
    simp [Nd.opnd, hd, shiftLeft, toSigned, pySigned, Nd.expr, Attr.ty, this]
  | int k => simp [Nd.opnd, hd, shiftLeft, toSigned]
  | fixed k => simp [Nd.opnd, hd, shiftLeft, toSigned]

private theorem opnd_zero (n : Nd) : n.opnd 0 = .sig n.expr := by simp [Nd.opnd]

theorem aligned_eq (l r : Nd) (s : Bool) (hl : s = true → l.attr.signed = true)
    (hr : s = true → r.attr.signed = true) :
    aligned l r s = (adjE l (r.attr.point - l.attr.point), adjE r (l.attr.point - r.attr.point)) := by
  have side : ∀ (n : Nd) (d : Nat), (s = true → n.attr.signed = true) →
      (if s && decide (d ≠ 0) then toSigned (if d = 0 then n.opnd d else shiftLeft (n.opnd d) d)
        else (if d = 0 then n.opnd d else shiftLeft (n.opnd d) d)).expr = adjE n d := by
    intro n d hn
    unfold adjE
    by_cases hd : d = 0
    · subst hd; simp [opnd_zero, Opnd.expr]
    · rw [if_neg hd, if_neg hd]
      cases s with
      | false => simp
      | true => simp [hd, toSigned_adj hd (hn rfl)]
  have e1 : (if r.attr.point < l.attr.point then 0 else r.attr.point - l.attr.point) =
      r.attr.point - l.attr.point := by split <;> omega
  have e2 : (if l.attr.point < r.attr.point then 0 else l.attr.point - r.attr.point) =
      l.attr.point - r.attr.point := by split <;> omega
  unfold aligned adjust
  simp only [e1, e2]
  rw [Prod.mk.injEq]
  exact ⟨side l _ hl, side r _ hr⟩

private theorem scale (a : Int) (p m : Nat) (h : p ≤ m) : num (a * (2 ^ (m - p) : Nat)) m = num a p := by
  obtain ⟨d, rfl⟩ := Nat.exists_eq_add_of_le h
  unfold num
  rw [Nat.add_sub_cancel_left]
  push_cast
  field_simp
  ring

private theorem scale_l (a : Int) (p q : Nat) : num (a * (2 ^ (q - p) : Nat)) (max p q) = num a p := by
  have := scale a p (max p q) (by omega)
  rwa [show max p q - p = q - p by omega] at this

private theorem scale_r (b : Int) (p q : Nat) : num (b * (2 ^ (p - q) : Nat)) (max p q) = num b q := by
  have := scale b q (max p q) (by omega)
  rwa [show max p q - q = p - q by omega] at this

/-! ### Attributes -/

/-- C73: the result of `Plus`, `Minus`, `Divide`, `Mod` has the larger point, as many bits before the point as the
    operand with more of them, and is signed if both operands are. -/
theorem c73_attr (l r : Attr) :
    (binAttr l r).point = max l.point r.point ∧
    ((binAttr l r).width : Int) - (binAttr l r).point =
      max ((l.width : Int) - l.point) ((r.width : Int) - r.point) ∧
    (binAttr l r).signed = (l.signed && r.signed) := by
  refine ⟨rfl, ?_, rfl⟩
  simp only [binAttr]
  omega

theorem width_ge (l r : Attr) :
    l.width + (r.point - l.point) ≤ (binAttr l r).width ∧ r.width + (l.point - r.point) ≤ (binAttr l r).width := by
  simp only [binAttr]
  omega

/-! ### Sum and difference -/

private theorem addSub_eq {ρ : String → Int} {l r : Nd} {a b : Int} (hl : Carries ρ l a) (hr : Carries ρ r b)
    (sl : Small l (r.attr.point - l.attr.point) a) (sr : Small r (l.attr.point - r.attr.point) b)
    (hc : Compat l r a b) (op : BinOp) (f : Int → Int → Int) (hop : ∀ c : Ty, ∀ x y, op.eval c x y = c.wrap (f x y))
    (hf : ∀ c : Ty, ∀ x y, c.wrap (f (c.wrap x) (c.wrap y)) = c.wrap (f x y)) :
    addSub op ρ l r = (binAttr l.attr r.attr).ty.wrap
      (f (a * (2 ^ (r.attr.point - l.attr.point) : Nat)) (b * (2 ^ (l.attr.point - r.attr.point) : Nat))) := by
  simp only [addSub]
  rw [aligned_eq l r _ (fun h => by simp only [binAttr, Bool.and_eq_true] at h; exact h.1)
    (fun h => by simp only [binAttr, Bool.and_eq_true] at h; exact h.2)]
  simp only []
  unfold VExpr.assign
  have t1 := adjE_ty hl (r.attr.point - l.attr.point)
  have t2 := adjE_ty hr (l.attr.point - r.attr.point)
  set c : Ty := ⟨max (binAttr l.attr r.attr).ty.width
    (VExpr.bin op (adjE l (r.attr.point - l.attr.point)) (adjE r (l.attr.point - r.attr.point))).ty.width,
    (VExpr.bin op (adjE l (r.attr.point - l.attr.point)) (adjE r (l.attr.point - r.attr.point))).ty.signed⟩ with hcdef
  have cw : c.width = max (binAttr l.attr r.attr).width
      (max (PrintedWidth l (r.attr.point - l.attr.point)) (PrintedWidth r (l.attr.point - r.attr.point))) := by
    rw [hcdef]; simp only [VExpr.ty, t1, t2]; rfl
  have cs : c.signed = (Printed l (r.attr.point - l.attr.point) && Printed r (l.attr.point - r.attr.point)) := by
    rw [hcdef]; simp only [VExpr.ty, t1, t2]
  show Ty.wrap _ (op.eval c (VExpr.eval ρ _ c) (VExpr.eval ρ _ c)) = _
  have h1 := adjE_reads hl sl (c := c) (by omega) (by
    rw [cs]
    rcases hc with h | h
    · left; rw [← h, Bool.and_self]
    · cases Printed l (r.attr.point - l.attr.point) <;> cases Printed r (l.attr.point - r.attr.point) <;>
        simp [h.1])
  have h2 := adjE_reads hr sr (c := c) (by omega) (by
    rw [cs]
    rcases hc with h | h
    · left; rw [← h, Bool.and_self]
    · cases Printed l (r.attr.point - l.attr.point) <;> cases Printed r (l.attr.point - r.attr.point) <;>
        simp [h.2])
  rw [h1, h2, hop, hf]
  exact Ty.wrap_wrap_le (by rw [cw]; exact le_max_left _ _) _

/-- C73: the sum.  The raw result is that of the sum of the two numbers at the larger point, modulo the width of the
    result; if it can be held, the result stands for the sum. -/
theorem c73_plus (ρ : String → Int) (l r : Nd) (a b : Int) (hl : Carries ρ l a) (hr : Carries ρ r b)
    (sl : Small l (r.attr.point - l.attr.point) a) (sr : Small r (l.attr.point - r.attr.point) b)
    (hc : Compat l r a b) :
    ∃ z : Int, num z (binAttr l.attr r.attr).point = num a l.attr.point + num b r.attr.point ∧
      addSub .plus ρ l r = (binAttr l.attr r.attr).ty.wrap z ∧
      ((binAttr l.attr r.attr).ty.InRange z →
        num (addSub .plus ρ l r) (binAttr l.attr r.attr).point = num a l.attr.point + num b r.attr.point) := by
  have h := addSub_eq hl hr sl sr hc .plus (· + ·) (fun _ _ _ => rfl)
    (fun c x y => by rw [Ty.wrap_add_wrap, Ty.wrap_add_wrap'])
  have hz : num (a * (2 ^ (r.attr.point - l.attr.point) : Nat) + b * (2 ^ (l.attr.point - r.attr.point) : Nat))
      (binAttr l.attr r.attr).point = num a l.attr.point + num b r.attr.point := by
    show num _ (max l.attr.point r.attr.point) = _
    rw [← scale_l a l.attr.point r.attr.point, ← scale_r b l.attr.point r.attr.point]
    unfold num
    push_cast
    ring
  refine ⟨_, hz, h, fun hi => ?_⟩
  rw [h, Ty.wrap_of_inRange _ hi, hz]

/-- C73: the difference. -/
theorem c73_minus (ρ : String → Int) (l r : Nd) (a b : Int) (hl : Carries ρ l a) (hr : Carries ρ r b)
    (sl : Small l (r.attr.point - l.attr.point) a) (sr : Small r (l.attr.point - r.attr.point) b)
    (hc : Compat l r a b) :
    ∃ z : Int, num z (binAttr l.attr r.attr).point = num a l.attr.point - num b r.attr.point ∧
      addSub .minus ρ l r = (binAttr l.attr r.attr).ty.wrap z ∧
      ((binAttr l.attr r.attr).ty.InRange z →
        num (addSub .minus ρ l r) (binAttr l.attr r.attr).point = num a l.attr.point - num b r.attr.point) := by
  have h := addSub_eq hl hr sl sr hc .minus (· - ·) (fun _ _ _ => rfl)
    (fun c x y => by rw [Ty.wrap_sub_wrap])
  have hz : num (a * (2 ^ (r.attr.point - l.attr.point) : Nat) - b * (2 ^ (l.attr.point - r.attr.point) : Nat))
      (binAttr l.attr r.attr).point = num a l.attr.point - num b r.attr.point := by
    show num _ (max l.attr.point r.attr.point) = _
    rw [← scale_l a l.attr.point r.attr.point, ← scale_r b l.attr.point r.attr.point]
    unfold num
    push_cast
    ring
  refine ⟨_, hz, h, fun hi => ?_⟩
  rw [h, Ty.wrap_of_inRange _ hi, hz]

/-! ### Comparisons -/

/-- The comparison of two numbers. -/
def ratCmp (op : CmpOp) (x y : ℚ) : Bool :=
  match op with
  | .lt => decide (x < y)
  | .gt => decide (x > y)
  | .le => decide (x ≤ y)
  | .ge => decide (x ≥ y)
  | .eq => decide (x = y)
  | .ne => decide (x ≠ y)

private theorem ratCmp_num (op : CmpOp) (x y : Int) (m : Nat) : ratCmp op (num x m) (num y m) = op.eval x y := by
  have hp : (0 : ℚ) < 2 ^ m := by positivity
  unfold num
  cases op <;> simp only [ratCmp, CmpOp.eval, gt_iff_lt, ge_iff_le, ne_eq, decide_eq_decide]
  · rw [div_lt_div_iff_of_pos_right hp]; exact Int.cast_lt
  · rw [div_lt_div_iff_of_pos_right hp]; exact Int.cast_lt
  · rw [div_le_div_iff_of_pos_right hp]; exact Int.cast_le
  · rw [div_le_div_iff_of_pos_right hp]; exact Int.cast_le
  · rw [div_left_inj' hp.ne']; exact Int.cast_inj
  · rw [div_left_inj' hp.ne']; exact not_congr Int.cast_inj

private theorem compare_eq {ρ : String → Int} {l r : Nd} {a b : Int} (hl : Carries ρ l a) (hr : Carries ρ r b)
    (op : CmpOp) :
    let c : Ty := ⟨max (PrintedWidth l (r.attr.point - l.attr.point)) (PrintedWidth r (l.attr.point - r.attr.point)),
      Printed l (r.attr.point - l.attr.point) && Printed r (l.attr.point - r.attr.point)⟩
    compare op ρ l r = if op.eval ((adjE l (r.attr.point - l.attr.point)).eval ρ c)
      ((adjE r (l.attr.point - r.attr.point)).eval ρ c) then 1 else 0 := by
  intro c
  simp only [compare]
  rw [aligned_eq l r _ (fun h => by simp [cmpAttr] at h) (fun h => by simp [cmpAttr] at h)]
  simp only []
  have hj : VExpr.join (adjE l (r.attr.point - l.attr.point)) (adjE r (l.attr.point - r.attr.point)) = c := by
    unfold VExpr.join
    rw [adjE_ty hl, adjE_ty hr]
  unfold VExpr.assign
  show Ty.wrap _ (Ty.wrap _ (if op.eval (VExpr.eval ρ _ (VExpr.join _ _)) (VExpr.eval ρ _ (VExpr.join _ _)) then 1 else 0)) = _
  rw [hj]
  split <;> rfl

/-- C73: a comparison is that of the two numbers, if the operands are printed with the same signedness or both are
    non-negative, and each of them fits the wider operand after being aligned to the larger point. -/
theorem c73_compare (op : CmpOp) (ρ : String → Int) (l r : Nd) (a b : Int) (hl : Carries ρ l a) (hr : Carries ρ r b)
    (sl : Small l (r.attr.point - l.attr.point) a) (sr : Small r (l.attr.point - r.attr.point) b)
    (hc : Compat l r a b)
    (fl : Ty.InRange ⟨max (PrintedWidth l (r.attr.point - l.attr.point)) (PrintedWidth r (l.attr.point - r.attr.point)),
      Printed l (r.attr.point - l.attr.point) && Printed r (l.attr.point - r.attr.point)⟩
      (a * (2 ^ (r.attr.point - l.attr.point) : Nat)))
    (fr : Ty.InRange ⟨max (PrintedWidth l (r.attr.point - l.attr.point)) (PrintedWidth r (l.attr.point - r.attr.point)),
      Printed l (r.attr.point - l.attr.point) && Printed r (l.attr.point - r.attr.point)⟩
      (b * (2 ^ (l.attr.point - r.attr.point) : Nat))) :
    compare op ρ l r = if ratCmp op (num a l.attr.point) (num b r.attr.point) then 1 else 0 := by
  rw [compare_eq hl hr]
  rw [adjE_reads hl sl (by simp) (by
    rcases hc with h | h
    · left; rw [← h, Bool.and_self]
    · cases Printed l (r.attr.point - l.attr.point) <;> cases Printed r (l.attr.point - r.attr.point) <;>
        simp [h.1]),
    adjE_reads hr sr (by simp) (by
    rcases hc with h | h
    · left; rw [← h, Bool.and_self]
    · cases Printed l (r.attr.point - l.attr.point) <;> cases Printed r (l.attr.point - r.attr.point) <;>
        simp [h.2]),
    Ty.wrap_of_inRange _ fl, Ty.wrap_of_inRange _ fr, ← ratCmp_num op _ _ (max l.attr.point r.attr.point),
    scale_l, scale_r]

/-! ### Product -/

private theorem port_eq {ρ : String → Int} {n : Nd} {v : Int} (h : Carries ρ n v) :
    port ρ n.attr.width n.expr = BitVec.ofInt n.attr.width v := by
  unfold port VExpr.assign
  rw [expr_ty h, expr_reads h (by simp) (Or.inl rfl), Ty.wrap_wrap_le (by simp)]
  apply BitVec.eq_of_toNat_eq
  rw [BitVec.toNat_ofInt, BitVec.toNat_ofInt]
  have := Ty.wrap_emod ⟨n.attr.width, false⟩ v
  simp only at this
  rw [this]

theorem carries_inRange {ρ : String → Int} {n : Nd} {v : Int} (h : Carries ρ n v) : n.attr.ty.InRange v := by
  obtain ⟨at', src⟩ := n
  cases src with
  | net x => exact h.2
  | int k =>
    have hk : (⟨at', .int k⟩ : Nd) = mkInt v := h
    rw [hk]
    exact (intWidth_inRange v).2.1
  | fixed k =>
    have hk : (⟨at', .fixed k⟩ : Nd) = mkFixed v at'.point := h
    simp only [mkFixed, Nd.mk.injEq] at hk
    show at'.ty.InRange v
    rw [hk.1]
    exact (intWidth_inRange v).2.1

private theorem operand_ofInt {t : Ty} {v : Int} (h : t.InRange v) :
    Mul.operand t.signed (BitVec.ofInt t.width v) = v := by
  unfold Mul.operand
  unfold Ty.InRange at h
  split at h
  · rename_i hs
    rw [if_pos hs, BitVec.toInt_ofInt]
    exact Int.bmod_eq_of_le_mul_two (by omega) (by omega)
  · rename_i hs
    rw [if_neg hs, BitVec.toNat_ofInt, Int.emod_eq_of_lt h.1 h.2]
    omega

private theorem floor_num (v : Int) (p P : Nat) (h : P ≤ p) :
    ⌊num v p * 2 ^ P⌋ = v / (2 ^ (p - P) : Nat) := by
  obtain ⟨d, rfl⟩ := Nat.exists_eq_add_of_le h
  rw [Nat.add_sub_cancel_left]
  have h1 := Rat.floor_intCast_div_natCast v (2 ^ d)
  rw [← h1]
  congr 1
  unfold num
  push_cast
  field_simp
  ring

theorem wrap_toNat_ofInt (t : Ty) (z : Int) : t.wrap ((BitVec.ofInt t.width z).toNat : Int) = t.wrap z := by
  apply Ty.wrap_congr
  rw [BitVec.toNat_ofInt, Int.toNat_of_nonneg (Int.emod_nonneg _ (by
    have := two_pow_pos t.width; omega)), Int.emod_emod_of_dvd _ (Int.dvd_refl _)]

/-- C73: the product is the exact product of the two numbers, rounded down to the larger point, modulo the width of
    the result, if the operands have the same signedness, or the smaller point is not larger than the smaller width. -/
theorem c73_times (ρ : String → Int) (l r : Nd) (a b : Int) (hl : Carries ρ l a) (hr : Carries ρ r b)
    (hp : l.attr.point + r.attr.point < 2 ^ 31)
    (hs : l.attr.signed = r.attr.signed ∨ min l.attr.point r.attr.point ≤ min l.attr.width r.attr.width) :
    (timesAttr l.attr r.attr).width = max l.attr.width r.attr.width ∧
    (timesAttr l.attr r.attr).point = max l.attr.point r.attr.point ∧
    (timesAttr l.attr r.attr).signed = (l.attr.signed && r.attr.signed) ∧
    times ρ l r = (timesAttr l.attr r.attr).ty.wrap
      ⌊num a l.attr.point * num b r.attr.point * 2 ^ max l.attr.point r.attr.point⌋ := by
  have hpt : (timesAttr l.attr r.attr).point = max l.attr.point r.attr.point := by
    simp only [timesAttr]; omega
  refine ⟨rfl, hpt, rfl, ?_⟩
  have hnum : num a l.attr.point * num b r.attr.point = num (a * b) (l.attr.point + r.attr.point) := by
    unfold num; push_cast; rw [pow_add]; field_simp
  rw [hnum, floor_num _ _ _ (by omega)]
  set sh := l.attr.point + r.attr.point - max l.attr.point r.attr.point with hsh
  have hil := carries_inRange hl
  have hir := carries_inRange hr
  -- the wire of the product
  set full : Ty := ⟨l.attr.width + r.attr.width, l.attr.signed && r.attr.signed⟩ with hfull
  have hwire : full.wrap ((Mul.mulWire l.attr.signed r.attr.signed (port ρ l.attr.width l.expr)
      (port ρ r.attr.width r.expr)).toNat : Int) = full.wrap (a * b) := by
    rw [port_eq hl, port_eq hr]
    unfold Mul.mulWire
    have e1 : Mul.operand l.attr.signed (BitVec.ofInt l.attr.width a) = a := operand_ofInt (t := l.attr.ty) hil
    have e2 : Mul.operand r.attr.signed (BitVec.ofInt r.attr.width b) = b := operand_ofInt (t := r.attr.ty) hir
    rw [e1, e2]
    exact wrap_toNat_ofInt full (a * b)
  have hreg : times ρ l r = (timesAttr l.attr r.attr).ty.wrap (full.wrap (full.wrap (a * b) / (2 ^ sh : Nat))) := by
    simp only [times]
    rw [hpt, ← hsh]
    rw [show (⟨l.attr.width + r.attr.width, (timesAttr l.attr r.attr).signed⟩ : Ty) = full from rfl]
    rw [hwire]
    congr 1
    have hv : full.InRange (full.wrap (a * b)) := Ty.wrap_inRange _ _
    have hm := Means.var (ρ := fun _ => full.wrap (a * b)) (t := full) (x := "mul_odata") hv
    split
    · rename_i h0
      unfold VExpr.assign
      simp only [shiftRight, Opnd.expr]
      congr 1
      refine eval_sra hm (by omega) ⟨max full.width full.width, full.signed⟩ (Nat.le_max_left _ _) rfl
        (Ty.inRange_mono hv rfl (Nat.le_max_left _ _)) _ ?_
      show _ ∨ (_ ∧ full.signed = false)
      rw [hfull]
      by_cases h2 : (l.attr.signed && r.attr.signed) = true
      · left; exact if_pos h2
      · right; exact ⟨if_neg h2, by simpa using h2⟩
    · rename_i h0
      have : sh = 0 := by omega
      rw [this]
      unfold VExpr.assign
      have h1 := hm ⟨max full.width full.width, full.signed⟩ (Nat.le_max_left _ _) rfl
      show full.wrap (VExpr.eval _ _ ⟨max full.width full.width, full.signed⟩) = _
      rw [h1, Ty.wrap_wrap_le (Nat.le_max_left _ _)]
      simp
  rw [hreg]
  by_cases hsame : l.attr.signed = r.attr.signed
  · -- the product fits the wire
    have hfit : full.wrap (a * b) = a * b := by
      rw [← hwire]
      rw [port_eq hl, port_eq hr]
      have e1 : Mul.denote l.attr.signed (BitVec.ofInt l.attr.width a) = a := operand_ofInt (t := l.attr.ty) hil
      have e2 : Mul.denote r.attr.signed (BitVec.ofInt r.attr.width b) = b := operand_ofInt (t := r.attr.ty) hir
      cases hlS : l.attr.signed with
      | false =>
        have hrS : r.attr.signed = false := by rw [← hsame, hlS]
        rw [hlS] at e1
        rw [hrS] at e2 ⊢
        rw [Mul.mulWire_unsigned]
        simp only [Mul.denote, Bool.false_eq_true, if_false] at e1 e2
        push_cast
        rw [e1, e2]
        apply Ty.wrap_of_inRange
        rw [← e1, ← e2, hfull]
        unfold Ty.InRange
        simp only [hlS, Bool.false_and, Bool.false_eq_true, if_false]
        constructor
        · positivity
        · rw [Nat.pow_add]
          exact_mod_cast Nat.mul_lt_mul'' (BitVec.isLt _) (BitVec.isLt _)
      | true =>
        have hrS : r.attr.signed = true := by rw [← hsame, hlS]
        rw [hlS] at e1
        rw [hrS] at e2 ⊢
        have h3 := Mul.mulWire_signed true true rfl (BitVec.ofInt l.attr.width a) (BitVec.ofInt r.attr.width b)
        rw [e1, e2] at h3
        rw [hfull]
        unfold Ty.wrap
        simp only [hlS, hrS, Bool.and_self, if_true]
        rw [← h3, BitVec.toInt_eq_toNat_bmod]
    rw [hfit]
    have hr2 : full.InRange (a * b) := (Ty.wrap_eq_iff _ _).1 hfit
    rw [Ty.wrap_of_inRange _ (Ty.inRange_ediv hr2 sh)]
  · have hmin : min l.attr.point r.attr.point ≤ min l.attr.width r.attr.width := by
      rcases hs with h | h
      · exact absurd h hsame
      · exact h
    have hff : full.signed = false := by
      rw [hfull]; simp only
      cases h1 : l.attr.signed <;> cases h2 : r.attr.signed <;> simp_all
    have hwf : ∀ v : Int, full.wrap v = v % (2 ^ full.width : Nat) := by
      intro v; unfold Ty.wrap; rw [hff]; simp
    rw [Ty.wrap_wrap_le (by show max _ _ ≤ _ + _; omega)]
    apply Ty.wrap_congr
    rw [hwf]
    obtain ⟨k, hk⟩ : ∃ k, full.width = sh + ((timesAttr l.attr r.attr).ty.width + k) := by
      refine ⟨full.width - sh - (timesAttr l.attr r.attr).ty.width, ?_⟩
      show l.attr.width + r.attr.width = sh + (max l.attr.width r.attr.width +
        (l.attr.width + r.attr.width - sh - max l.attr.width r.attr.width))
      omega
    rw [hk, Int.emod_def (a * b)]
    set q := a * b / ((2 ^ (sh + ((timesAttr l.attr r.attr).ty.width + k)) : Nat) : Int)
    have e : a * b - ((2 ^ (sh + ((timesAttr l.attr r.attr).ty.width + k)) : Nat) : Int) * q =
        a * b + (2 ^ sh : Nat) * (-((2 ^ (timesAttr l.attr r.attr).ty.width : Nat) * ((2 ^ k : Nat) * q))) := by
      rw [Nat.pow_add, Nat.pow_add]; push_cast; ring
    rw [e, Int.add_mul_ediv_left _ _ (by have := two_pow_pos sh; omega)]
    rw [← Int.mul_neg, Int.add_mul_emod_self_left]

/-! ### Quotient and remainder -/

theorem divider_eq {W : Nat} (aS bS oS : Bool) (a b : BitVec W) :
    divider aS bS oS a b = Div.pass aS bS oS ⟨true, true, a, b⟩ := by
  unfold divider Div.pass
  congr 1
  generalize Div.load aS bS (⟨true, true, a, b⟩ : Div.In W) = s
  have h : ∀ k, Nat.repeat Div.next k s = Pipe.iter Div.next k s := by
    intro k
    induction k with
    | zero => rfl
    | succ k ih => rw [Pipe.iter_succ', ← ih]; rfl
  exact h W

theorem shifted_inRange {w W d : Nat} {s : Bool} {v : Int} (h : Ty.InRange ⟨w, s⟩ v) (hw : w + d ≤ W) :
    Ty.InRange ⟨W, s⟩ (v * (2 ^ d : Nat)) := by
  have hm : Ty.InRange ⟨w + d, s⟩ (v * (2 ^ d : Nat)) := by
    have hp := two_pow_pos d
    unfold Ty.InRange at *
    simp only [Nat.pow_add] at *
    push_cast at *
    have hp' : (0 : Int) < 2 ^ d := by positivity
    split at h
    · rw [if_pos ‹_›]
      constructor <;> nlinarith [h.1, h.2]
    · rw [if_neg ‹_›]
      constructor <;> nlinarith [h.1, h.2]
  exact Ty.inRange_mono hm rfl hw

/-- The wire of a divider operand holds the aligned operand. -/
private theorem divWire_eq {ρ : String → Int} {n : Nd} {v : Int} (h : Carries ρ n v) {d W : Nat} (hm : Small n d v)
    (hW : n.attr.width + d ≤ W)
    (hfit : n.attr.signed = true → d ≠ 0 → Ty.InRange ⟨PrintedWidth n d, true⟩ (v * (2 ^ d : Nat))) :
    divWire ρ W n (adjE n d) = v * (2 ^ d : Nat) := by
  have hi := carries_inRange h
  have hin : Ty.InRange ⟨W, n.attr.signed⟩ (v * (2 ^ d : Nat)) := shifted_inRange hi hW
  have hty := adjE_ty h d
  unfold divWire
  cases hs : n.attr.signed with
  | false =>
    rw [hs] at hin
    simp only [Bool.false_eq_true, if_false]
    unfold VExpr.assign
    rw [hty, adjE_reads h hm (by simp) (Or.inl rfl), Ty.wrap_wrap_le (by simp), Ty.wrap_of_inRange _ hin]
  | true =>
    rw [hs] at hin
    simp only [if_true]
    have hv : Ty.InRange ⟨PrintedWidth n d, true⟩ (v * (2 ^ d : Nat)) := by
      by_cases hd : d = 0
      · subst hd
        have : PrintedWidth n 0 = n.attr.width := by unfold PrintedWidth; split <;> simp
        rw [this]
        simp only [pow_zero, Nat.cast_one, mul_one]
        unfold Attr.ty at hi
        rwa [hs] at hi
      · exact hfit hs hd
    unfold VExpr.assign
    show Ty.wrap _ (extend ⟨(adjE n d).ty.width, true⟩ (Ty.wrap ⟨(adjE n d).ty.width, true⟩
      ((adjE n d).eval ρ (adjE n d).ty)) ⟨max W (adjE n d).ty.width, true⟩) = _
    have hw : (adjE n d).ty.width = PrintedWidth n d := by rw [hty]
    rw [hw]
    have hev := adjE_reads h hm (c := (adjE n d).ty) (by rw [hty]) (Or.inl (by rw [hty]))
    rw [hev]
    have : Ty.wrap ⟨PrintedWidth n d, true⟩ ((adjE n d).ty.wrap (v * (2 ^ d : Nat))) = v * (2 ^ d : Nat) := by
      rw [Ty.wrap_wrap_le (by rw [hty]), Ty.wrap_of_inRange _ hv]
    rw [this, extend_eq (c := ⟨max W (PrintedWidth n d), true⟩) hv (Nat.le_max_right _ _) rfl, Ty.wrap_of_inRange _ hin]

theorem toInt_ofInt_inRange {W : Nat} {v : Int} (h : Ty.InRange ⟨W, true⟩ v) :
    (BitVec.ofInt W v).toInt = v := by
  unfold Ty.InRange at h
  simp only [if_true] at h
  rw [BitVec.toInt_ofInt]
  exact Int.bmod_eq_of_le_mul_two (by omega) (by omega)

theorem toNat_ofInt_inRange {W : Nat} {v : Int} (h : Ty.InRange ⟨W, false⟩ v) :
    ((BitVec.ofInt W v).toNat : Int) = v := by
  unfold Ty.InRange at h
  simp only [Bool.false_eq_true, if_false] at h
  rw [BitVec.toNat_ofInt, Int.emod_eq_of_lt h.1 h.2]
  omega

private theorem div_eq {ρ : String → Int} {l r : Nd} {a b : Int} (hl : Carries ρ l a) (hr : Carries ρ r b)
    (sl : Small l (r.attr.point - l.attr.point) a) (sr : Small r (l.attr.point - r.attr.point) b)
    (hs : l.attr.signed = r.attr.signed) (hb : b ≠ 0) (hw : 0 < (binAttr l.attr r.attr).width)
    (fl : l.attr.signed = true → r.attr.point - l.attr.point ≠ 0 →
      Ty.InRange ⟨PrintedWidth l (r.attr.point - l.attr.point), true⟩ (a * (2 ^ (r.attr.point - l.attr.point) : Nat)))
    (fr : r.attr.signed = true → l.attr.point - r.attr.point ≠ 0 →
      Ty.InRange ⟨PrintedWidth r (l.attr.point - r.attr.point), true⟩ (b * (2 ^ (l.attr.point - r.attr.point) : Nat))) :
    let x := a * ((2 ^ (r.attr.point - l.attr.point) : Nat) : Int)
    let y := b * ((2 ^ (l.attr.point - r.attr.point) : Nat) : Int)
    divide ρ l r = (binAttr l.attr r.attr).ty.wrap (x.tdiv y) ∧
    mod ρ l r = (binAttr l.attr r.attr).ty.wrap (x.tmod y) := by
  intro x y
  obtain ⟨g1, g2⟩ := width_ge l.attr r.attr
  have hx : divWire ρ (binAttr l.attr r.attr).width l (adjE l (r.attr.point - l.attr.point)) = x :=
    divWire_eq hl sl g1 fl
  have hy : divWire ρ (binAttr l.attr r.attr).width r (adjE r (l.attr.point - r.attr.point)) = y :=
    divWire_eq hr sr g2 fr
  have hix : Ty.InRange ⟨(binAttr l.attr r.attr).width, l.attr.signed⟩ x := shifted_inRange (carries_inRange hl) g1
  have hiy : Ty.InRange ⟨(binAttr l.attr r.attr).width, r.attr.signed⟩ y := shifted_inRange (carries_inRange hr) g2
  have hy0 : y ≠ 0 := by
    have := two_pow_pos (l.attr.point - r.attr.point)
    exact mul_ne_zero hb (by omega)
  have hinst : divInst ρ l r = Div.pass l.attr.signed r.attr.signed (binAttr l.attr r.attr).signed
      ⟨true, true, BitVec.ofInt _ x, BitVec.ofInt _ y⟩ := by
    simp only [divInst]
    rw [aligned_eq l r _ (fun h => by simp only [binAttr, Bool.and_eq_true] at h; exact h.1)
      (fun h => by simp only [binAttr, Bool.and_eq_true] at h; exact h.2), divider_eq]
    simp only [hx, hy]
  unfold divide mod
  rw [hinst]
  set o := binAttr l.attr r.attr with ho
  have hos : o.signed = (l.attr.signed && r.attr.signed) := rfl
  cases hlS : l.attr.signed with
  | false =>
    have hrS : r.attr.signed = false := by rw [← hs, hlS]
    rw [hlS] at hix
    rw [hrS] at hiy
    rw [hos, hlS, hrS]
    have hb' : BitVec.ofInt o.width y ≠ 0#o.width := by
      intro h
      have := toNat_ofInt_inRange hiy
      rw [h] at this
      simp at this
      exact hy0 this.symm
    have := Div.c05_div_unsigned hw ⟨true, true, BitVec.ofInt o.width x, BitVec.ofInt o.width y⟩ hb'
    simp only [Bool.and_self]
    rw [this.1, this.2]
    have e1 := toNat_ofInt_inRange hix
    have e2 := toNat_ofInt_inRange hiy
    have p1 : 0 ≤ x := by rw [← e1]; positivity
    have p2 : 0 ≤ y := by rw [← e2]; positivity
    push_cast
    rw [e1, e2, Int.tdiv_eq_ediv_of_nonneg p1, Int.tmod_eq_emod_of_nonneg p1]
    exact ⟨rfl, rfl⟩
  | true =>
    have hrS : r.attr.signed = true := by rw [← hs, hlS]
    rw [hlS] at hix
    rw [hrS] at hiy
    rw [hos, hlS, hrS]
    have e1 := toInt_ofInt_inRange hix
    have e2 := toInt_ofInt_inRange hiy
    have hb' : BitVec.ofInt o.width y ≠ 0#o.width := by
      intro h
      rw [h] at e2
      simp at e2
      exact hy0 e2.symm
    have := Div.c05_div_signed hw ⟨true, true, BitVec.ofInt o.width x, BitVec.ofInt o.width y⟩ hb'
    simp only [Bool.and_self]
    rw [this.1, this.2]
    simp only [e1, e2]
    exact ⟨wrap_toNat_ofInt o.ty _, wrap_toNat_ofInt o.ty _⟩

/-- The quotient rounded towards zero. -/
def truncQ (q : ℚ) : Int := if 0 ≤ q then ⌊q⌋ else ⌈q⌉

theorem truncQ_div (x y : Int) : truncQ ((x : ℚ) / y) = x.tdiv y := by
  by_cases hy : y = 0
  · subst hy; simp [truncQ]
  have hnn : ∀ x y : Int, 0 ≤ x → 0 < y → truncQ ((x : ℚ) / y) = x.tdiv y := by
    intro x y hx hy
    have hq : (0 : ℚ) ≤ (x : ℚ) / y := by positivity
    unfold truncQ
    rw [if_pos hq, Int.tdiv_eq_ediv_of_nonneg hx]
    have := Rat.floor_intCast_div_natCast x y.natAbs
    rw [show ((y.natAbs : ℕ) : ℚ) = (y : ℚ) by
      have h : ((y.natAbs : ℕ) : Int) = y := by omega
      rw [← Int.cast_natCast, h]] at this
    rw [this]
    congr 1
    omega
  have hneg : ∀ q : ℚ, truncQ (-q) = - truncQ q := by
    intro q
    unfold truncQ
    rcases lt_trichotomy q 0 with h | h | h
    · rw [if_pos (by linarith), if_neg (by linarith), Int.floor_neg]
    · subst h; simp
    · rw [if_neg (by linarith), if_pos (by linarith), Int.ceil_neg]
  rcases lt_or_gt_of_ne hy with h | h
  · rcases lt_or_ge x 0 with hx | hx
    · have := hnn (-x) (-y) (by omega) (by omega)
      rw [Int.neg_tdiv, Int.tdiv_neg, neg_neg] at this
      rw [← this]; push_cast; rw [neg_div_neg_eq]
    · have := hnn x (-y) hx (by omega)
      rw [Int.tdiv_neg] at this
      have e : (x : ℚ) / (((-y : Int)) : ℚ) = -((x : ℚ) / y) := by push_cast; rw [div_neg]
      rw [e, hneg] at this
      omega
  · rcases lt_or_ge x 0 with hx | hx
    · have := hnn (-x) y (by omega) h
      rw [Int.neg_tdiv] at this
      have e : (((-x : Int)) : ℚ) / (y : ℚ) = -((x : ℚ) / y) := by push_cast; rw [neg_div]
      rw [e, hneg] at this
      omega
    · exact hnn x y hx h

theorem num_div (x y : Int) (p : Nat) : num x p / num y p = (x : ℚ) / y := by
  unfold num
  have : (2 : ℚ) ^ p ≠ 0 := by positivity
  rw [div_div_div_cancel_right₀ this]

/-- C73: the quotient of two integers (no points) of the same signedness is rounded towards zero, modulo the width of
    the result. -/
theorem c73_divide (ρ : String → Int) (l r : Nd) (a b : Int) (hl : Carries ρ l a) (hr : Carries ρ r b)
    (hpl : l.attr.point = 0) (hpr : r.attr.point = 0) (sl : Small l 0 a) (sr : Small r 0 b)
    (hs : l.attr.signed = r.attr.signed) (hb : b ≠ 0) (hw : 0 < l.attr.width) :
    divide ρ l r = (binAttr l.attr r.attr).ty.wrap (truncQ (num a l.attr.point / num b r.attr.point)) := by
  have h := (div_eq hl hr (by simpa [hpl, hpr] using sl) (by simpa [hpl, hpr] using sr) hs hb
    (by have := (width_ge l.attr r.attr).1; omega) (by simp [hpl, hpr]) (by simp [hpl, hpr])).1
  rw [h, hpl, hpr, num_div, truncQ_div]
  simp

/-- C73: the remainder.  With operands of the same signedness and point, or unsigned ones, or signed ones that fit their
    own width after being aligned, the raw result is that of `x - trunc (x / y) * y`, modulo the width. -/
theorem c73_mod (ρ : String → Int) (l r : Nd) (a b : Int) (hl : Carries ρ l a) (hr : Carries ρ r b)
    (sl : Small l (r.attr.point - l.attr.point) a) (sr : Small r (l.attr.point - r.attr.point) b)
    (hs : l.attr.signed = r.attr.signed) (hb : b ≠ 0) (hw : 0 < l.attr.width)
    (fl : l.attr.signed = true → r.attr.point - l.attr.point ≠ 0 →
      Ty.InRange ⟨PrintedWidth l (r.attr.point - l.attr.point), true⟩ (a * (2 ^ (r.attr.point - l.attr.point) : Nat)))
    (fr : r.attr.signed = true → l.attr.point - r.attr.point ≠ 0 →
      Ty.InRange ⟨PrintedWidth r (l.attr.point - r.attr.point), true⟩ (b * (2 ^ (l.attr.point - r.attr.point) : Nat))) :
    num (mod ρ l r) (binAttr l.attr r.attr).point = num a l.attr.point -
      truncQ (num a l.attr.point / num b r.attr.point) * num b r.attr.point := by
  have h := (div_eq hl hr sl sr hs hb (by have := (width_ge l.attr r.attr).1; omega) fl fr).2
  obtain ⟨g1, g2⟩ := width_ge l.attr r.attr
  have hiy : Ty.InRange ⟨(binAttr l.attr r.attr).width, r.attr.signed⟩
    (b * (2 ^ (l.attr.point - r.attr.point) : Nat)) := shifted_inRange (carries_inRange hr) g2
  have hix : Ty.InRange ⟨(binAttr l.attr r.attr).width, l.attr.signed⟩
    (a * (2 ^ (r.attr.point - l.attr.point) : Nat)) := shifted_inRange (carries_inRange hl) g1
  have hmax : (binAttr l.attr r.attr).point = max l.attr.point r.attr.point := rfl
  rw [hmax]
  rw [← scale_l a l.attr.point r.attr.point, ← scale_r b l.attr.point r.attr.point, num_div, truncQ_div]
  rw [h]
  generalize a * ((2 ^ (r.attr.point - l.attr.point) : Nat) : Int) = x at *
  generalize hyy : b * ((2 ^ (l.attr.point - r.attr.point) : Nat) : Int) = y at *
  have hy0 : y ≠ 0 := by
    rw [← hyy]
    have := two_pow_pos (l.attr.point - r.attr.point)
    exact mul_ne_zero hb (by omega)
  have hrange : (binAttr l.attr r.attr).ty.InRange (x.tmod y) := by
    have hos : (binAttr l.attr r.attr).signed = r.attr.signed := by
      show (l.attr.signed && r.attr.signed) = _; rw [hs, Bool.and_self]
    have h1 : (x.tmod y).natAbs < y.natAbs := by
      rw [Int.natAbs_tmod]; exact Nat.mod_lt _ (by omega)
    unfold Ty.InRange at hiy hix ⊢
    simp only [Attr.ty, hos]
    rw [hs] at hix
    have h2 : 0 ≤ x → 0 ≤ x.tmod y := fun h => Int.tmod_nonneg _ h
    dsimp only at hiy hix ⊢
    generalize (2 ^ (binAttr l.attr r.attr).width : Nat) = P at hiy hix ⊢
    split at hiy
    · rw [if_pos ‹_›]
      rcases abs_cases (x.tmod y) with h3 | h3 <;> rcases abs_cases y with h4 | h4 <;>
        (rw [Int.abs_eq_natAbs] at h3 h4; omega)
    · rw [if_neg ‹_›] at hix ⊢
      have := h2 hix.1
      refine ⟨this, ?_⟩
      rcases abs_cases (x.tmod y) with h3 | h3 <;> rcases abs_cases y with h4 | h4 <;>
        (rw [Int.abs_eq_natAbs] at h3 h4; omega)
  rw [Ty.wrap_of_inRange _ hrange]
  have := Int.tmod_def x y
  unfold num
  rw [this]
  push_cast
  ring

/-! ### Shifts, negation, selection, conversion -/

private theorem assign_self {ρ : String → Int} {n : Nd} {v : Int} (h : Carries ρ n v) (t : Ty) :
    n.expr.assign ρ t = t.wrap v := by
  unfold VExpr.assign
  rw [expr_ty h, expr_reads h (by simp) (Or.inl rfl), Ty.wrap_wrap_le (by simp)]

private theorem amount_eq {ρ : String → Int} {n : Nd} {v : Int} (h : Carries ρ n v) :
    bits n.expr.ty.width (n.expr.eval ρ n.expr.ty) = bits n.attr.width v := by
  rw [expr_ty h, expr_reads h (Nat.le_refl _) (Or.inl rfl)]
  unfold bits
  have := Ty.wrap_emod ⟨n.attr.width, Printed n 0⟩ v
  simp only at this ⊢
  rw [this]

/-- C73: a left shift by a constant or a variable amount `k ≥ 0` multiplies by `2 ^ k` without losing a bit. -/
theorem c73_sll (ρ : String → Int) (l r : Nd) (o : Attr) (a k : Int) (hl : Carries ρ l a) (hr : Carries ρ r k)
    (hk : 0 ≤ k) (hp : r.attr.point = 0) (ho : sllAttr l r = some o) :
    ∃ z, shift .sll ρ o l r = some z ∧ num z o.point = num a l.attr.point * 2 ^ k.toNat := by
  have hlt : k < (2 ^ r.attr.width : Nat) := by
    have := carries_inRange hr
    unfold Ty.InRange at this
    split at this <;> (simp only [Attr.ty] at this; omega)
  have hbits : bits r.attr.width k = k.toNat := by
    have := bits_of_nonneg hk hlt
    omega
  have hattr : o.point = l.attr.point ∧ o.signed = l.attr.signed ∧ l.attr.width + k.toNat ≤ o.width := by
    obtain ⟨ra, rs⟩ := r
    unfold sllAttr at ho
    cases rs with
    | net x =>
      simp only at ho
      split at ho
      · simp at ho
      · simp only [Option.some.injEq] at ho
        subst ho
        refine ⟨rfl, rfl, ?_⟩
        simp only at hlt ⊢
        omega
    | int v =>
      have hv : (⟨ra, .int v⟩ : Nd) = mkInt k := hr
      simp only [mkInt, Nd.mk.injEq, Src.int.injEq] at hv
      simp only [hv.2] at ho
      split at ho
      · simp at ho
      · simp only [Option.some.injEq] at ho
        subst ho
        exact ⟨rfl, rfl, by simp only; omega⟩
    | fixed v =>
      have hv : (⟨ra, .fixed v⟩ : Nd) = mkFixed k ra.point := hr
      simp only [mkFixed, Nd.mk.injEq, Src.fixed.injEq] at hv
      simp only [hv.2] at ho
      split at ho
      · simp at ho
      · simp only [Option.some.injEq] at ho
        subst ho
        exact ⟨rfl, rfl, by simp only; omega⟩
  obtain ⟨h1, h2, h3⟩ := hattr
  unfold shift
  rw [if_neg (by simp [hp])]
  refine ⟨_, rfl, ?_⟩
  have hin : o.ty.InRange (a * (2 ^ k.toNat : Nat)) := by
    unfold Attr.ty
    rw [h2]
    exact shifted_inRange (carries_inRange hl) h3
  have hz : (VExpr.shift .sll l.expr r.expr).assign ρ o.ty = a * (2 ^ k.toNat : Nat) := by
    unfold VExpr.assign
    show Ty.wrap _ (ShOp.eval _ .sll (l.expr.eval ρ _) (bits r.expr.ty.width (r.expr.eval ρ r.expr.ty))) = _
    rw [amount_eq hr, hbits]
    have ht : (VExpr.shift .sll l.expr r.expr).ty = ⟨l.attr.width, Printed l 0⟩ := expr_ty hl
    rw [ht, expr_reads hl (by simp) (Or.inl rfl)]
    show Ty.wrap _ (Ty.wrap _ (Ty.wrap _ a * _)) = _
    rw [Ty.wrap_mul_wrap, Ty.wrap_wrap_le (by simp), Ty.wrap_of_inRange _ hin]
  rw [hz, h1]
  unfold num
  push_cast
  ring

/-- C73: an arithmetic right shift rounds the quotient down to the point of the operand; the amount is read as an
    unsigned number. -/
theorem c73_sra (ρ : String → Int) (l r : Nd) (a k : Int) (hl : Carries ρ l a) (hr : Carries ρ r k)
    (hp : r.attr.point = 0) (hs : Printed l 0 = l.attr.signed) :
    shift .sra ρ (sraAttr l.attr) l r =
      some ⌊num a l.attr.point / 2 ^ bits r.attr.width k * 2 ^ (sraAttr l.attr).point⌋ := by
  show shift .sra ρ (sraAttr l.attr) l r =
      some ⌊num a l.attr.point / 2 ^ bits r.attr.width k * 2 ^ l.attr.point⌋
  have hi := carries_inRange hl
  unfold shift
  rw [if_neg (by simp [hp])]
  congr 1
  have hfl : ⌊num a l.attr.point / 2 ^ bits r.attr.width k * 2 ^ l.attr.point⌋ =
      a / (2 ^ bits r.attr.width k : Nat) := by
    have h1 := Rat.floor_intCast_div_natCast a (2 ^ bits r.attr.width k)
    rw [← h1]
    congr 1
    unfold num
    push_cast
    field_simp
  rw [hfl]
  unfold VExpr.assign
  show Ty.wrap _ (ShOp.eval _ .sra (l.expr.eval ρ _) (bits r.expr.ty.width (r.expr.eval ρ r.expr.ty))) = _
  rw [amount_eq hr]
  generalize bits r.attr.width k = n
  have ht : (VExpr.shift .sra l.expr r.expr).ty = l.attr.ty := by
    show l.expr.ty = _
    rw [expr_ty hl, hs]; rfl
  rw [ht]
  have hc : (⟨max (sraAttr l.attr).ty.width l.attr.ty.width, l.attr.ty.signed⟩ : Ty) = l.attr.ty := by
    simp [sraAttr, Attr.ty]
  rw [hc, expr_reads hl (Nat.le_refl _) (Or.inl hs.symm), Ty.wrap_of_inRange _ hi]
  have hsame : (sraAttr l.attr).ty = l.attr.ty := rfl
  rw [hsame]
  have hq := Ty.inRange_ediv hi n
  simp only [ShOp.eval]
  split
  · exact Ty.wrap_of_inRange _ hq
  · rename_i hsg
    have hi' := hi
    unfold Ty.InRange at hi'
    rw [if_neg hsg] at hi'
    have hb : (bits l.attr.ty.width a : Int) = a := bits_of_nonneg hi'.1 hi'.2
    push_cast
    rw [hb, Ty.wrap_wrap]
    have := Ty.wrap_of_inRange _ hq
    push_cast at this
    exact this

/-- C73: a logical right shift shifts the bits of the operand; its result is unsigned. -/
theorem c73_srl (ρ : String → Int) (l r : Nd) (a k : Int) (hl : Carries ρ l a) (hr : Carries ρ r k)
    (hp : r.attr.point = 0) :
    shift .srl ρ (srlAttr l.attr) l r =
      some (a % (2 ^ l.attr.width : Nat) / (2 ^ bits r.attr.width k : Nat)) ∧ (srlAttr l.attr).point = l.attr.point := by
  refine ⟨?_, rfl⟩
  unfold shift
  rw [if_neg (by simp [hp])]
  congr 1
  unfold VExpr.assign
  show Ty.wrap _ (ShOp.eval _ .srl (l.expr.eval ρ _) (bits r.expr.ty.width (r.expr.eval ρ r.expr.ty))) = _
  rw [amount_eq hr]
  generalize bits r.attr.width k = n
  have ht : (VExpr.shift .srl l.expr r.expr).ty = ⟨l.attr.width, Printed l 0⟩ := expr_ty hl
  rw [ht]
  have hc : max (srlAttr l.attr).ty.width l.attr.width = l.attr.width := by simp [srlAttr, Attr.ty]
  simp only [hc]
  rw [expr_reads hl (Nat.le_refl _) (Or.inl rfl)]
  simp only [ShOp.eval]
  rw [Ty.wrap_wrap_le (by simp [srlAttr, Attr.ty])]
  have hp0 := two_pow_pos l.attr.width
  have hb : (bits l.attr.width (Ty.wrap ⟨l.attr.width, Printed l 0⟩ a) : Int) = a % (2 ^ l.attr.width : Nat) := by
    unfold bits
    have := Ty.wrap_emod ⟨l.attr.width, Printed l 0⟩ a
    simp only at this
    rw [this]
    exact Int.toNat_of_nonneg (Int.emod_nonneg _ (by omega))
  have hin : (srlAttr l.attr).ty.InRange (a % (2 ^ l.attr.width : Nat) / (2 ^ n : Nat)) := by
    apply Ty.inRange_ediv
    unfold Ty.InRange
    simp only [srlAttr, Attr.ty, Bool.false_eq_true, if_false]
    exact ⟨Int.emod_nonneg _ (by omega), Int.emod_lt_of_pos _ (by omega)⟩
  have := Ty.wrap_of_inRange _ hin
  push_cast at this hb ⊢
  rw [hb]
  exact this

/-- C73: negation, modulo the width. -/
theorem c73_uminus (ρ : String → Int) (r : Nd) (a : Int) (hr : Carries ρ r a) :
    uminus ρ r = r.attr.ty.wrap (-a) := by
  unfold uminus VExpr.assign
  show Ty.wrap _ (Ty.wrap _ (- r.expr.eval ρ _)) = _
  have ht : (VExpr.neg r.expr).ty = ⟨r.attr.width, Printed r 0⟩ := expr_ty hr
  rw [ht, expr_reads hr (by simp) (Or.inl rfl), Ty.wrap_neg_wrap, Ty.wrap_wrap_le (by simp [Attr.ty])]

private theorem cond_eq {ρ : String → Int} {c t f : Nd} {k a b : Int} (hk : Carries ρ c k) (ht : Carries ρ t a)
    (hf : Carries ρ f b) (hc : Printed t 0 = Printed f 0 ∨ (0 ≤ a ∧ 0 ≤ b)) :
    cond ρ c t f = (condAttr t.attr f.attr).ty.wrap (if k ≠ 0 then a else b) := by
  unfold cond VExpr.assign
  have hct : (VExpr.cond c.expr t.expr f.expr).ty = ⟨max t.attr.width f.attr.width, Printed t 0 && Printed f 0⟩ := by
    show (⟨max t.expr.ty.width f.expr.ty.width, t.expr.ty.signed && f.expr.ty.signed⟩ : Ty) = _
    rw [expr_ty ht, expr_ty hf]
  rw [hct]
  show Ty.wrap _ (if c.expr.eval ρ c.expr.ty ≠ 0 then t.expr.eval ρ _ else f.expr.eval ρ _) = _
  have hcv : c.expr.eval ρ c.expr.ty = 0 ↔ k = 0 := by
    have h1 := expr_reads hk (c := c.expr.ty) (by rw [expr_ty hk]) (Or.inl (by rw [expr_ty hk]))
    rw [h1]
    have hi := carries_inRange hk
    have hw : c.expr.ty.width = c.attr.ty.width := by rw [expr_ty hk]; rfl
    constructor
    · intro h
      have h2 := Ty.wrap_emod c.expr.ty k
      rw [h, hw] at h2
      have h3 := c.attr.ty.wrap_congr h2
      rw [Ty.wrap_of_inRange _ hi] at h3
      rw [← h3]
      unfold Ty.wrap
      split <;> simp
    · intro h
      rw [h]
      unfold Ty.wrap
      split <;> simp
  have h1 := expr_reads ht (c := ⟨max (condAttr t.attr f.attr).ty.width (max t.attr.width f.attr.width),
    Printed t 0 && Printed f 0⟩) (by simp) (by
      rcases hc with h | h
      · left; rw [← h]; simp
      · cases Printed t 0 <;> cases Printed f 0 <;> simp [h.1])
  have h2 := expr_reads hf (c := ⟨max (condAttr t.attr f.attr).ty.width (max t.attr.width f.attr.width),
    Printed t 0 && Printed f 0⟩) (by simp) (by
      rcases hc with h | h
      · left; rw [← h]; simp
      · cases Printed t 0 <;> cases Printed f 0 <;> simp [h.2])
  rw [h1, h2]
  by_cases hk0 : k = 0
  · rw [if_neg (by simp [hcv.2 hk0]), if_neg (by simp [hk0]), Ty.wrap_wrap_le (by simp)]
  · rw [if_pos (fun h => hk0 (hcv.1 h)), if_pos hk0, Ty.wrap_wrap_le (by simp)]

/-- C73: a selection between two values of the same point and signedness gives the selected number. -/
theorem c73_cond (ρ : String → Int) (c t f : Nd) (k a b : Int) (hk : Carries ρ c k) (ht : Carries ρ t a)
    (hf : Carries ρ f b) (hp : t.attr.point = f.attr.point) (hs : t.attr.signed = f.attr.signed)
    (hc : Printed t 0 = Printed f 0 ∨ (0 ≤ a ∧ 0 ≤ b)) :
    num (cond ρ c t f) (condAttr t.attr f.attr).point =
      if k ≠ 0 then num a t.attr.point else num b f.attr.point := by
  rw [cond_eq hk ht hf hc]
  have hpt : (condAttr t.attr f.attr).point = t.attr.point := by simp [condAttr, hp]
  have hsg : (condAttr t.attr f.attr).signed = t.attr.signed := by simp [condAttr, hs]
  have hw : t.attr.width ≤ (condAttr t.attr f.attr).width ∧ f.attr.width ≤ (condAttr t.attr f.attr).width := by
    simp only [condAttr]; omega
  have h1 : (condAttr t.attr f.attr).ty.InRange a := Ty.inRange_mono (carries_inRange ht) hsg.symm hw.1
  have h2 : (condAttr t.attr f.attr).ty.InRange b :=
    Ty.inRange_mono (carries_inRange hf) (by show _ = (condAttr t.attr f.attr).signed; rw [hsg, hs]; rfl) hw.2
  rw [hpt]
  split
  · rw [Ty.wrap_of_inRange _ h1]
  · rw [Ty.wrap_of_inRange _ h2, hp]

/-- C73: `Cast` gives the number rounded down to the new point, modulo the new width. -/
theorem c73_cast (ρ : String → Int) (o : Attr) (r : Nd) (a : Int) (hr : Carries ρ r a)
    (hp : r.attr.point < 2 ^ 31) (ho : o.point < 2 ^ 31) :
    cast ρ o r = o.ty.wrap ⌊num a r.attr.point * 2 ^ o.point⌋ := by
  have hi := carries_inRange hr
  have hsrc : r.expr.assign ρ r.attr.ty = a := by rw [assign_self hr, Ty.wrap_of_inRange _ hi]
  simp only [cast]
  rw [hsrc]
  have hm := Means.var (ρ := fun _ => a) (t := r.attr.ty) (x := "src") hi
  have hleft : ∀ d, num a r.attr.point * 2 ^ (r.attr.point + d) = ((a * (2 ^ d : Nat) : Int) : ℚ) := by
    intro d
    unfold num
    rw [pow_add]
    push_cast
    field_simp
  split
  · rename_i h
    rw [floor_num _ _ _ (by omega)]
    unfold VExpr.assign
    simp only [shiftRight, Opnd.expr]
    congr 1
    refine eval_sra hm (by omega) ⟨max o.ty.width r.attr.ty.width, r.attr.ty.signed⟩ (Nat.le_max_right _ _) rfl
      (Ty.inRange_mono hi rfl (Nat.le_max_right _ _)) _ ?_
    show _ ∨ (_ ∧ r.attr.signed = false)
    cases r.attr.signed <;> simp
  · split
    · rename_i h
      have e : o.point = r.attr.point + (o.point - r.attr.point) := by omega
      rw [e, hleft, Int.floor_intCast]
      unfold VExpr.assign
      have := hm.sll (n := o.point - r.attr.point) (by omega)
        ⟨max o.ty.width r.attr.ty.width, r.attr.ty.signed⟩ (Nat.le_max_right _ _) rfl
      simp only [shiftLeft, Opnd.expr]
      rw [show r.attr.point + (o.point - r.attr.point) - r.attr.point = o.point - r.attr.point by omega]
      show Ty.wrap _ (VExpr.eval _ _ ⟨max o.ty.width r.attr.ty.width, r.attr.ty.signed⟩) = _
      rw [this, Ty.wrap_wrap_le (Nat.le_max_left _ _)]
    · have e : o.point = r.attr.point + 0 := by omega
      rw [e, hleft, Int.floor_intCast]
      unfold VExpr.assign
      have := hm ⟨max o.ty.width r.attr.ty.width, r.attr.ty.signed⟩ (Nat.le_max_right _ _) rfl
      show Ty.wrap _ (VExpr.eval _ _ ⟨max o.ty.width r.attr.ty.width, r.attr.ty.signed⟩) = _
      rw [this, Ty.wrap_wrap_le (Nat.le_max_left _ _)]
      simp

/-- C73: `ReinterpretCast` keeps the raw integer, modulo the new width. -/
theorem c73_reinterpret (ρ : String → Int) (o : Attr) (r : Nd) (a : Int) (hr : Carries ρ r a) :
    reinterpret ρ o r = o.ty.wrap a := by
  have hi := carries_inRange hr
  have hsrc : r.expr.assign ρ r.attr.ty = a := by rw [assign_self hr, Ty.wrap_of_inRange _ hi]
  simp only [reinterpret]
  rw [hsrc]
  unfold VExpr.assign
  have := Means.var (ρ := fun _ => a) (t := r.attr.ty) (x := "src") hi
    ⟨max o.ty.width r.attr.ty.width, r.attr.ty.signed⟩ (Nat.le_max_right _ _) rfl
  show Ty.wrap _ (VExpr.eval _ _ ⟨max o.ty.width r.attr.ty.width, r.attr.ty.signed⟩) = _
  rw [this, Ty.wrap_wrap_le (Nat.le_max_left _ _)]

/-! ### Disagreements -/

/-- A negative number of a signed variable in an unsigned expression. -/
private theorem neg_reads {ρ : String → Int} {at' : Attr} {x : String} {a : Int} (h : Carries ρ ⟨at', .net x⟩ a)
    (ha : a < 0) {c : Ty} (hc : c.signed = false) (hw : at'.width ≤ c.width) :
    (Nd.expr ⟨at', .net x⟩).eval ρ c = a + (2 ^ at'.width : Nat) := by
  obtain ⟨hx, hr⟩ : ρ x = a ∧ at'.ty.InRange a := h
  have hp : ((2 ^ at'.width : Nat) : Int) ≤ (2 ^ c.width : Nat) := by
    exact_mod_cast Nat.pow_le_pow_right (by omega) hw
  have hlo : -((2 ^ at'.width : Nat) : Int) ≤ 2 * a := by
    unfold Ty.InRange at hr
    split at hr
    · exact hr.1
    · omega
  have he : a % ((2 ^ at'.width : Nat) : Int) = a + (2 ^ at'.width : Nat) := by
    rw [← Int.add_emod_right, Int.emod_eq_of_lt (by omega) (by omega)]
  show extend at'.ty (at'.ty.wrap (ρ x)) c = _
  rw [hx, Ty.wrap_of_inRange _ hr]
  unfold extend Val.read
  rw [hc]
  simp only [Bool.false_eq_true, if_false]
  show c.wrap (a % ((2 ^ at'.width : Nat) : Int)) = _
  rw [he]
  apply Ty.wrap_of_inRange
  unfold Ty.InRange
  rw [hc]
  simp only [Bool.false_eq_true, if_false]
  omega

/-- C73, disagreement: a comparison of a negative number with an unsigned variable of the same point says that the
    negative number is the larger one, unless the other one is in the upper half of its range. -/
theorem c73_not_mixed (ρ : String → Int) (la ra : Attr) (x y : String) (a b : Int)
    (hl : Carries ρ ⟨la, .net x⟩ a) (hr : Carries ρ ⟨ra, .net y⟩ b) (hls : la.signed = true) (hrs : ra.signed = false)
    (hp : la.point = ra.point) (ha : a < 0) (hb : 2 * b ≤ (2 ^ la.width : Nat)) :
    compare .lt ρ ⟨la, .net x⟩ ⟨ra, .net y⟩ = 0 ∧ num a la.point < num b ra.point := by
  have hb0 : 0 ≤ b := by
    have := carries_inRange hr
    unfold Ty.InRange at this
    rw [if_neg (by simp [Attr.ty, hrs])] at this
    exact this.1
  have hlo : -((2 ^ la.width : Nat) : Int) ≤ 2 * a := by
    have := carries_inRange hl
    unfold Ty.InRange at this
    rw [if_pos (by simpa [Attr.ty] using hls)] at this
    exact this.1
  constructor
  · have h := compare_eq hl hr .lt
    simp only [hp, Nat.sub_self] at h
    rw [h]
    have e1 := neg_reads hl ha (c := ⟨max la.width ra.width, false⟩) rfl (by simp)
    have e2 := expr_reads hr (c := ⟨max la.width ra.width, false⟩) (by simp) (Or.inr ⟨rfl, hb0⟩)
    have hbr : Ty.InRange ⟨max la.width ra.width, false⟩ b :=
      Ty.inRange_mono (carries_inRange hr) (by simp [Attr.ty, hrs]) (by simp [Attr.ty])
    rw [Ty.wrap_of_inRange _ hbr] at e2
    have hc : (⟨max (PrintedWidth ⟨la, .net x⟩ 0) (PrintedWidth ⟨ra, .net y⟩ 0),
        Printed ⟨la, .net x⟩ 0 && Printed ⟨ra, .net y⟩ 0⟩ : Ty) = ⟨max la.width ra.width, false⟩ := by
      simp [PrintedWidth, Printed, hrs]
    rw [hc]
    simp only [adjE, if_true]
    rw [e1, e2]
    rw [if_neg]
    simp only [CmpOp.eval, decide_eq_true_eq]
    omega
  · unfold num
    rw [hp]
    have hp' : (0 : ℚ) < 2 ^ ra.point := by positivity
    rw [div_lt_div_iff_of_pos_right hp']
    exact_mod_cast (by omega : a < b)

/-- C73, disagreement: `FixedPoint` prints a non-negative constant without a sign, so every negative number compares as
    larger than a non-negative constant of the same point. -/
theorem c73_not_const (ρ : String → Int) (la : Attr) (x : String) (a k : Int) (hl : Carries ρ ⟨la, .net x⟩ a)
    (hls : la.signed = true) (ha : a < 0) (hk : 0 ≤ k) (hw : intWidth k ≤ la.width) :
    (mkFixed k la.point).attr.signed = true ∧
    compare .lt ρ ⟨la, .net x⟩ (mkFixed k la.point) = 0 ∧ num a la.point < num k la.point := by
  have hr : Carries ρ (mkFixed k la.point) k := rfl
  have hlo : -((2 ^ la.width : Nat) : Int) ≤ 2 * a := by
    have := carries_inRange hl
    unfold Ty.InRange at this
    rw [if_pos (by simpa [Attr.ty] using hls)] at this
    exact this.1
  have hkk : 2 * k < (2 ^ la.width : Nat) := by
    have h1 := (intWidth_inRange k).2.2
    have h2 := Nat.pow_le_pow_right (n := 2) (by omega) hw
    omega
  refine ⟨rfl, ?_, ?_⟩
  · have h := compare_eq hl hr .lt
    have hpt : (mkFixed k la.point).attr.point = la.point := rfl
    simp only [hpt, Nat.sub_self] at h
    rw [h]
    have e1 := neg_reads hl ha (c := ⟨la.width, false⟩) rfl (by simp)
    have e2 := expr_reads hr (c := ⟨la.width, false⟩) hw (Or.inr ⟨rfl, hk⟩)
    have hbr : Ty.InRange ⟨la.width, false⟩ k := by
      unfold Ty.InRange; simp only [Bool.false_eq_true, if_false]; omega
    rw [Ty.wrap_of_inRange _ hbr] at e2
    have hc : (⟨max (PrintedWidth ⟨la, .net x⟩ 0) (PrintedWidth (mkFixed k la.point) 0),
        Printed ⟨la, .net x⟩ 0 && Printed (mkFixed k la.point) 0⟩ : Ty) = ⟨la.width, false⟩ := by
      simp only [PrintedWidth, Printed, mkFixed, if_true]
      have : ¬ k < 0 := by omega
      simp [this, hw]
    rw [hc]
    simp only [adjE, if_true]
    rw [e1, e2]
    rw [if_neg]
    simp only [CmpOp.eval, decide_eq_true_eq]
    omega
  · unfold num
    have hp' : (0 : ℚ) < 2 ^ la.point := by positivity
    rw [div_lt_div_iff_of_pos_right hp']
    exact_mod_cast (by omega : a < k)

/-- C73, disagreement: the sum of a negative number and a wider unsigned variable of the same point is too large by
    `2 ^ width`. -/
theorem c73_not_mixed_plus (ρ : String → Int) (la ra : Attr) (x y : String) (a b : Int)
    (hl : Carries ρ ⟨la, .net x⟩ a) (hr : Carries ρ ⟨ra, .net y⟩ b) (hrs : ra.signed = false)
    (hp : la.point = ra.point) (ha : a < 0) (hw : la.width < ra.width) :
    addSub .plus ρ ⟨la, .net x⟩ ⟨ra, .net y⟩ = (binAttr la ra).ty.wrap (a + b + (2 ^ la.width : Nat)) ∧
    addSub .plus ρ ⟨la, .net x⟩ ⟨ra, .net y⟩ ≠ (binAttr la ra).ty.wrap (a + b) := by
  have hb0 : 0 ≤ b := by
    have := carries_inRange hr
    unfold Ty.InRange at this
    rw [if_neg (by simp [Attr.ty, hrs])] at this
    exact this.1
  have how : (binAttr la ra).width = ra.width := by simp only [binAttr]; omega
  have hos : (binAttr la ra).signed = false := by simp [binAttr, hrs]
  have h1 : addSub .plus ρ ⟨la, .net x⟩ ⟨ra, .net y⟩ = (binAttr la ra).ty.wrap (a + b + (2 ^ la.width : Nat)) := by
    simp only [addSub]
    rw [aligned_eq _ _ _ (fun h => by rw [hos] at h; cases h) (fun h => by rw [hos] at h; cases h)]
    simp only [hp, Nat.sub_self, adjE, if_true]
    unfold VExpr.assign
    have ht : (VExpr.bin .plus (Nd.expr ⟨la, .net x⟩) (Nd.expr ⟨ra, .net y⟩)).ty = ⟨ra.width, false⟩ := by
      show (⟨max la.width ra.width, la.signed && ra.signed⟩ : Ty) = _
      rw [hrs, Bool.and_false]
      congr 1
      omega
    rw [ht]
    have hc : (⟨max (binAttr la ra).ty.width ra.width, false⟩ : Ty) = ⟨ra.width, false⟩ := by
      show (⟨max (binAttr la ra).width ra.width, false⟩ : Ty) = _
      rw [how, Nat.max_self]
    show Ty.wrap _ (BinOp.eval ⟨max (binAttr la ra).ty.width ra.width, false⟩ .plus (VExpr.eval ρ _ _) (VExpr.eval ρ _ _)) = _
    rw [hc, neg_reads hl ha rfl (by simp only; omega), expr_reads hr (by simp) (Or.inr ⟨rfl, hb0⟩)]
    simp only [BinOp.eval]
    rw [Ty.wrap_add_wrap', Ty.wrap_wrap_le (by simp [Attr.ty, how])]
    congr 1
    ring
  refine ⟨h1, ?_⟩
  rw [h1]
  intro h
  have h2 := congrArg (fun z => z % ((2 ^ (binAttr la ra).ty.width : Nat) : Int)) h
  simp only [Ty.wrap_emod] at h2
  have hwd : (binAttr la ra).ty.width = ra.width := how
  rw [hwd] at h2
  have h4 : ((2 ^ ra.width : Nat) : Int) ∣ (2 ^ la.width : Nat) := by
    have := Int.dvd_of_emod_eq_zero (Int.emod_eq_emod_iff_emod_sub_eq_zero.1 h2)
    rwa [show a + b + ((2 ^ la.width : Nat) : Int) - (a + b) = (2 ^ la.width : Nat) by ring] at this
  have h5 : (2 ^ la.width : Nat) < 2 ^ ra.width := Nat.pow_lt_pow_right (by omega) hw
  have h6 : (2 ^ ra.width : Nat) ∣ 2 ^ la.width := by exact_mod_cast h4
  have := Nat.le_of_dvd (two_pow_pos la.width) h6
  omega

/-- C73, disagreement: aligning an operand of a comparison shifts it within the width of the wider operand.  If the points
    differ by that width or more, no number is greater than zero. -/
theorem c73_not_compare (ρ : String → Int) (la ra : Attr) (x y : String) (a : Int)
    (hl : Carries ρ ⟨la, .net x⟩ a) (hr : Carries ρ ⟨ra, .net y⟩ 0) (hs : la.signed = ra.signed)
    (hd : max la.width ra.width ≤ ra.point - la.point) (h31 : ra.point - la.point < 2 ^ 31) (ha : 0 < a) :
    compare .gt ρ ⟨la, .net x⟩ ⟨ra, .net y⟩ = 0 ∧ num a la.point > num 0 ra.point := by
  have hlw : la.width ≠ 0 := by
    intro h0
    have := carries_inRange hl
    unfold Ty.InRange at this
    simp only [Attr.ty, h0] at this
    split at this <;> omega
  constructor
  · rw [compare_eq hl hr]
    have e1 := adjE_reads hl (d := ra.point - la.point) ⟨h31, trivial⟩
      (c := ⟨max la.width ra.width, la.signed && ra.signed⟩) (by simp [PrintedWidth])
      (Or.inl (by simp [Printed, hs]))
    have e2 := adjE_reads hr (d := la.point - ra.point)
      ⟨by omega, trivial⟩
      (c := ⟨max la.width ra.width, la.signed && ra.signed⟩) (by simp [PrintedWidth])
      (Or.inl (by simp [Printed, hs]))
    have w0 : ∀ z : Int, ((2 ^ max la.width ra.width : Nat) : Int) ∣ z →
        Ty.wrap ⟨max la.width ra.width, la.signed && ra.signed⟩ z = 0 := by
      intro z hz
      unfold Ty.wrap
      simp only
      split
      · exact Int.bmod_eq_zero_of_dvd hz
      · exact Int.emod_eq_zero_of_dvd hz
    rw [w0 _ (Dvd.dvd.mul_left (by exact_mod_cast Nat.pow_dvd_pow 2 hd) _)] at e1
    rw [w0 _ (by simp)] at e2
    show (if CmpOp.eval .gt ((adjE _ (ra.point - la.point)).eval ρ ⟨max la.width ra.width, la.signed && ra.signed⟩)
      ((adjE _ (la.point - ra.point)).eval ρ ⟨max la.width ra.width, la.signed && ra.signed⟩) = true then (1 : Int) else 0) = 0
    rw [e1, e2]
    rfl
  · unfold num
    have : (0 : ℚ) < a := by exact_mod_cast ha
    simp only [Int.cast_zero, zero_div, gt_iff_lt]
    positivity

/-- C73, disagreement: `Cond` does not align its values.  A selected number with the smaller point comes out divided by
    a power of two. -/
theorem c73_not_cond (ρ : String → Int) (c : Nd) (ta fa : Attr) (x y : String) (k a b : Int) (hk : Carries ρ c k)
    (ht : Carries ρ ⟨ta, .net x⟩ a) (hf : Carries ρ ⟨fa, .net y⟩ b) (hs : ta.signed = fa.signed)
    (hp : ta.point < fa.point) (hk0 : k ≠ 0) (ha : a ≠ 0) :
    num (cond ρ c ⟨ta, .net x⟩ ⟨fa, .net y⟩) (condAttr ta fa).point = num a ta.point / 2 ^ (fa.point - ta.point) ∧
    num (cond ρ c ⟨ta, .net x⟩ ⟨fa, .net y⟩) (condAttr ta fa).point ≠ num a ta.point := by
  have hpt : (condAttr ta fa).point = fa.point := by simp only [condAttr]; omega
  have h1 : num (cond ρ c ⟨ta, .net x⟩ ⟨fa, .net y⟩) (condAttr ta fa).point =
      num a ta.point / 2 ^ (fa.point - ta.point) := by
    rw [cond_eq hk ht hf (Or.inl hs), if_pos hk0]
    have hin : (condAttr ta fa).ty.InRange a := by
      refine Ty.inRange_mono (carries_inRange ht) ?_ ?_
      · simp [condAttr, Attr.ty, hs]
      · simp only [condAttr, Attr.ty]; omega
    rw [Ty.wrap_of_inRange _ hin, hpt]
    unfold num
    rw [div_div, ← pow_add]
    congr 2
    omega
  refine ⟨h1, ?_⟩
  rw [h1]
  intro h
  have hq : num a ta.point ≠ 0 := by
    unfold num
    have : (a : ℚ) ≠ 0 := by exact_mod_cast ha
    positivity
  have hd : fa.point - ta.point ≠ 0 := by omega
  have h2 : (1 : ℚ) < 2 ^ (fa.point - ta.point) := one_lt_pow₀ (by norm_num) hd
  rw [div_eq_iff (by positivity)] at h
  have : (2 : ℚ) ^ (fa.point - ta.point) = 1 := by
    have := mul_left_cancel₀ hq (show num a ta.point * 2 ^ (fa.point - ta.point) = num a ta.point * 1 by rw [mul_one]; exact h.symm)
    exact this
  linarith

/-- C73, disagreement: `Divide` divides the raw integers but gives the result the point of the operands.  The quotient of
    two numbers of the same point comes out rounded to an integer and divided by `2 ^ point`. -/
theorem c73_not_divide (ρ : String → Int) (l r : Nd) (a b : Int) (hl : Carries ρ l a) (hr : Carries ρ r b)
    (hp : l.attr.point = r.attr.point) (sl : Small l 0 a) (sr : Small r 0 b)
    (hs : l.attr.signed = r.attr.signed) (hb : b ≠ 0) (hw : 0 < l.attr.width)
    (hin : (binAttr l.attr r.attr).ty.InRange (truncQ (num a l.attr.point / num b r.attr.point))) :
    num (divide ρ l r) (binAttr l.attr r.attr).point =
      truncQ (num a l.attr.point / num b r.attr.point) / 2 ^ l.attr.point := by
  have h := (div_eq hl hr (by simpa [hp] using sl) (by simpa [hp] using sr) hs hb
    (by have := (width_ge l.attr r.attr).1; omega) (by simp [hp]) (by simp [hp])).1
  have hq : num a l.attr.point / num b r.attr.point = (a : ℚ) / b := by rw [hp, num_div]
  rw [hq, truncQ_div] at hin ⊢
  rw [h]
  simp only [hp, Nat.sub_self, pow_zero, Nat.cast_one, mul_one]
  rw [Ty.wrap_of_inRange _ hin]
  have : (binAttr l.attr r.attr).point = r.attr.point := by simp only [binAttr]; omega
  rw [this]
  rfl

/-- C73, disagreement: a negative number divided by an unsigned variable of the same point gives the quotient of its
    magnitude. -/
theorem c73_not_divide_mixed (ρ : String → Int) (la ra : Attr) (x y : String) (a b : Int)
    (hl : Carries ρ ⟨la, .net x⟩ a) (hr : Carries ρ ⟨ra, .net y⟩ b) (hls : la.signed = true) (hrs : ra.signed = false)
    (hp : la.point = ra.point) (ha : a < 0) (hb : b ≠ 0) (hw : 0 < la.width) :
    divide ρ ⟨la, .net x⟩ ⟨ra, .net y⟩ = (-a) / b := by
  obtain ⟨g1, g2⟩ := width_ge la ra
  have hx := divWire_eq hl (d := 0) (W := (binAttr la ra).width) ⟨by omega, trivial⟩ (by simp only; omega) (fun _ h => absurd rfl h)
  have hy := divWire_eq hr (d := 0) (W := (binAttr la ra).width) ⟨by omega, trivial⟩ (by simp only; omega) (fun _ h => absurd rfl h)
  simp only [pow_zero, Nat.cast_one, mul_one] at hx hy
  have hix : Ty.InRange ⟨(binAttr la ra).width, true⟩ a :=
    Ty.inRange_mono (carries_inRange hl) (by simpa [Attr.ty] using hls) (by simp only [Attr.ty]; omega)
  have hiy : Ty.InRange ⟨(binAttr la ra).width, false⟩ b :=
    Ty.inRange_mono (carries_inRange hr) (by simpa [Attr.ty] using hrs) (by simp only [Attr.ty]; omega)
  have hos : (binAttr la ra).signed = false := by simp [binAttr, hrs]
  have hinst : divInst ρ ⟨la, .net x⟩ ⟨ra, .net y⟩ = Div.pass true false false
      ⟨true, true, BitVec.ofInt _ a, BitVec.ofInt _ b⟩ := by
    simp only [divInst]
    rw [aligned_eq _ _ _ (fun h => by rw [hos] at h; cases h) (fun h => by rw [hos] at h; cases h), divider_eq]
    simp only [hp, Nat.sub_self, hx, hy, hos, hls, hrs]
  have ex := toInt_ofInt_inRange hix
  have ey := toNat_ofInt_inRange hiy
  unfold divide
  rw [hinst]
  set W := (binAttr la ra).width with hW
  have hb' : Div.mag false (BitVec.ofInt W b) ≠ 0 := by
    simp only [Div.mag, Bool.false_eq_true, if_false]
    omega
  have hst := (Div.stage_divmod (show 0 < W by omega) true false ⟨true, true, BitVec.ofInt W a, BitVec.ofInt W b⟩ hb').1
  simp only [Div.mag, if_true, Bool.false_eq_true, if_false, Div.absolute_toNat, ex] at hst
  have hlt : (a.natAbs : Nat) / (BitVec.ofInt W b).toNat < 2 ^ W := by
    have h1 : a.natAbs / (BitVec.ofInt W b).toNat ≤ a.natAbs := Nat.div_le_self _ _
    unfold Ty.InRange at hix
    simp only [if_true] at hix
    omega
  have hres : (Div.pass true false false (⟨true, true, BitVec.ofInt W a, BitVec.ofInt W b⟩ : Div.In W)).rslt.toNat =
      a.natAbs / (BitVec.ofInt W b).toNat := by
    simp only [Div.pass, Div.final, Bool.false_eq_true, if_false, BitVec.toNat_setWidth, hst]
    exact Nat.mod_eq_of_lt hlt
  show (binAttr la ra).ty.wrap ((Div.pass true false false (⟨true, true, BitVec.ofInt W a, BitVec.ofInt W b⟩ : Div.In W)).rslt.toNat : Int) = _
  rw [hres]
  have hfin : ((a.natAbs / (BitVec.ofInt W b).toNat : Nat) : Int) = -a / b := by
    rw [Int.natCast_ediv, ey]
    congr 1
    omega
  have hin : (binAttr la ra).ty.InRange ((a.natAbs / (BitVec.ofInt W b).toNat : Nat) : Int) := by
    unfold Ty.InRange Attr.ty
    rw [hos]
    simp only [Bool.false_eq_true, if_false]
    constructor
    · positivity
    · exact_mod_cast hlt
  rw [Ty.wrap_of_inRange _ hin, hfin]

/-- C73: an unsigned value (without a point) divided by a positive integer constant, whose node is signed: the exact quotient, rounded
    down. -/
theorem c73_divide_unsigned_int (ρ : String → Int) (la : Attr) (x : String) (a : Int) (b : Nat) (hl : Carries ρ ⟨la, .net x⟩ a)
    (hls : la.signed = false) (hp : la.point = 0) (hb : 0 < b) (h31 : b < 2 ^ 31) :
    divide ρ ⟨la, .net x⟩ (mkInt b) = a / b := by
  obtain ⟨g1, g2⟩ := width_ge la (mkInt b).attr
  have hr : Carries ρ (mkInt b) b := rfl
  have hrs : (mkInt b).attr.signed = true := rfl
  have hrp : (mkInt b).attr.point = 0 := rfl
  have hx := divWire_eq hl (d := 0) (W := (binAttr la (mkInt b).attr).width) ⟨by omega, trivial⟩ (by simp only; omega) (fun _ h => absurd rfl h)
  have hy := divWire_eq hr (d := 0) (W := (binAttr la (mkInt b).attr).width)
    ⟨by omega, by show ((b : Int) * ((2 ^ 0 : Nat) : Int)).natAbs < 2 ^ 31; simpa using h31⟩ (by omega) (fun _ h => absurd rfl h)
  simp only [pow_zero, Nat.cast_one, mul_one] at hx hy
  have hix : Ty.InRange ⟨(binAttr la (mkInt b).attr).width, false⟩ a :=
    Ty.inRange_mono (carries_inRange hl) (by simpa [Attr.ty] using hls) (by simp only [Attr.ty]; omega)
  have hiy : Ty.InRange ⟨(binAttr la (mkInt b).attr).width, true⟩ b :=
    Ty.inRange_mono (carries_inRange hr) rfl (by simp only [Attr.ty]; omega)
  have hos : (binAttr la (mkInt b).attr).signed = false := by simp [binAttr, hls]
  have hinst : divInst ρ ⟨la, .net x⟩ (mkInt b) = Div.pass false true false
      ⟨true, true, BitVec.ofInt _ a, BitVec.ofInt _ (b : Int)⟩ := by
    simp only [divInst]
    rw [aligned_eq _ _ _ (fun h => by rw [hos] at h; cases h) (fun h => by rw [hos] at h; cases h), divider_eq]
    simp only [hp, hrp, Nat.sub_self, hx, hy, hos, hls, hrs]
  have ex := toNat_ofInt_inRange hix
  have ey := toInt_ofInt_inRange hiy
  unfold divide
  rw [hinst]
  set W := (binAttr la (mkInt b).attr).width with hW
  have hb' : Div.mag true (BitVec.ofInt W (b : Int)) ≠ 0 := by
    simp only [Div.mag, if_true, Div.absolute_toNat, ey]
    omega
  have hwpos : 0 < W := by
    have : 0 < (mkInt b).attr.width := Nat.succ_pos _
    omega
  have hst := (Div.stage_divmod hwpos false true ⟨true, true, BitVec.ofInt W a, BitVec.ofInt W (b : Int)⟩ hb').1
  simp only [Div.mag, if_true, Bool.false_eq_true, if_false, Div.absolute_toNat, ey] at hst
  have hlt : (BitVec.ofInt W a).toNat / (b : Int).natAbs < 2 ^ W :=
    Nat.lt_of_le_of_lt (Nat.div_le_self _ _) (BitVec.isLt _)
  have hres : (Div.pass false true false (⟨true, true, BitVec.ofInt W a, BitVec.ofInt W (b : Int)⟩ : Div.In W)).rslt.toNat =
      (BitVec.ofInt W a).toNat / (b : Int).natAbs := by
    simp only [Div.pass, Div.final, Bool.false_eq_true, if_false, BitVec.toNat_setWidth, hst]
    exact Nat.mod_eq_of_lt hlt
  show (binAttr la (mkInt b).attr).ty.wrap
    ((Div.pass false true false (⟨true, true, BitVec.ofInt W a, BitVec.ofInt W (b : Int)⟩ : Div.In W)).rslt.toNat : Int) = _
  rw [hres]
  have hfin : (((BitVec.ofInt W a).toNat / (b : Int).natAbs : Nat) : Int) = a / b := by
    rw [Int.natCast_ediv, ex]
    rfl
  have hin : (binAttr la (mkInt b).attr).ty.InRange (((BitVec.ofInt W a).toNat / (b : Int).natAbs : Nat) : Int) := by
    unfold Ty.InRange Attr.ty
    rw [hos]
    simp only [Bool.false_eq_true, if_false]
    constructor
    · positivity
    · exact_mod_cast hlt
  rw [Ty.wrap_of_inRange _ hin, hfin]

/-- C73, disagreement: `Divide` and `Mod` put `$signed` around the aligned operand, which is then evaluated in the width
    of that operand alone.  If the points differ by that width or more, quotient and remainder are 0. -/
theorem c73_not_mod (ρ : String → Int) (la ra : Attr) (x y : String) (a b : Int)
    (hl : Carries ρ ⟨la, .net x⟩ a) (hr : Carries ρ ⟨ra, .net y⟩ b) (hls : la.signed = true) (hrs : ra.signed = true)
    (hd : la.width ≤ ra.point - la.point) (h31 : ra.point - la.point < 2 ^ 31) (hb : b ≠ 0) (hw : 0 < la.width) :
    mod ρ ⟨la, .net x⟩ ⟨ra, .net y⟩ = 0 ∧ divide ρ ⟨la, .net x⟩ ⟨ra, .net y⟩ = 0 := by
  obtain ⟨g1, g2⟩ := width_ge la ra
  have hd0 : la.point - ra.point = 0 := by omega
  have hx : divWire ρ (binAttr la ra).width ⟨la, .net x⟩ (adjE ⟨la, .net x⟩ (ra.point - la.point)) = 0 := by
    unfold divWire
    simp only [hls, if_true]
    have hty := adjE_ty hl (ra.point - la.point)
    have hev := adjE_reads hl (d := ra.point - la.point) ⟨h31, trivial⟩ (c := (adjE ⟨la, .net x⟩ (ra.point - la.point)).ty)
      (by rw [hty]) (Or.inl (by rw [hty]))
    have hz : (adjE ⟨la, .net x⟩ (ra.point - la.point)).ty.wrap (a * (2 ^ (ra.point - la.point) : Nat)) = 0 := by
      rw [hty]
      have hdv : ((2 ^ la.width : Nat) : Int) ∣ a * (2 ^ (ra.point - la.point) : Nat) :=
        Dvd.dvd.mul_left (by exact_mod_cast Nat.pow_dvd_pow 2 hd) _
      unfold Ty.wrap
      simp only [PrintedWidth]
      split
      · exact Int.bmod_eq_zero_of_dvd hdv
      · exact Int.emod_eq_zero_of_dvd hdv
    unfold VExpr.assign
    show Ty.wrap _ (extend ⟨(adjE ⟨la, .net x⟩ (ra.point - la.point)).ty.width, true⟩ (Ty.wrap _
      ((adjE ⟨la, .net x⟩ (ra.point - la.point)).eval ρ (adjE ⟨la, .net x⟩ (ra.point - la.point)).ty)) _) = _
    rw [hev, hz]
    simp [extend, Ty.wrap, Val.read]
  have hy := divWire_eq hr (d := 0) (W := (binAttr la ra).width) ⟨by omega, trivial⟩ (by simp only; omega) (fun _ h => absurd rfl h)
  simp only [pow_zero, Nat.cast_one, mul_one] at hy
  have hiy : Ty.InRange ⟨(binAttr la ra).width, true⟩ b :=
    Ty.inRange_mono (carries_inRange hr) (by simpa [Attr.ty] using hrs) (by simp only [Attr.ty]; omega)
  have hos : (binAttr la ra).signed = true := by simp [binAttr, hrs, hls]
  have hinst : divInst ρ ⟨la, .net x⟩ ⟨ra, .net y⟩ = Div.pass true true true
      ⟨true, true, BitVec.ofInt _ 0, BitVec.ofInt _ b⟩ := by
    simp only [divInst]
    rw [aligned_eq _ _ _ (fun _ => hls) (fun _ => hrs), divider_eq]
    simp only [hd0, hx, hy, hos, hls, hrs]
  have ey := toInt_ofInt_inRange hiy
  have hb' : BitVec.ofInt (binAttr la ra).width b ≠ 0#(binAttr la ra).width := by
    intro h
    rw [h] at ey
    simp at ey
    exact hb ey.symm
  have h5 := Div.c05_div_signed (show 0 < (binAttr la ra).width by omega)
    ⟨true, true, BitVec.ofInt _ 0, BitVec.ofInt _ b⟩ hb'
  unfold mod divide
  rw [hinst]
  have hz0 : ∀ t : Ty, t.wrap 0 = 0 := by intro t; unfold Ty.wrap; split <;> simp
  constructor
  · show Ty.wrap _ ((Div.pass true true true _).mod.toNat : Int) = 0
    rw [h5.2]
    simp [hz0]
  · show Ty.wrap _ ((Div.pass true true true _).rslt.toNat : Int) = 0
    rw [h5.1]
    simp [hz0]

/-! ### Concrete cases -/

/-- Eight bits, signed, with `p` of them after the point. -/
def exS (p : Nat) (x : String) : Nd := ⟨⟨8, p, true⟩, .net x⟩
/-- Eight bits, unsigned. -/
def exU (p : Nat) (x : String) : Nd := ⟨⟨8, p, false⟩, .net x⟩
/-- `x` is -20, `y` is 6. -/
def exEnv (z : String) : Int := if z = "x" then -20 else if z = "y" then 6 else 1

private theorem exX (p : Nat) : Carries exEnv (exS p "x") (-20) := ⟨rfl, by unfold Ty.InRange; simp [exS, Attr.ty]⟩
private theorem exY (p : Nat) : Carries exEnv (exS p "y") 6 := ⟨rfl, by unfold Ty.InRange; simp [exS, Attr.ty]⟩
private theorem exUY (p : Nat) : Carries exEnv (exU p "y") 6 := ⟨rfl, by unfold Ty.InRange; simp [exU, Attr.ty]⟩

/-- -20/16 + 6/4 = 1/4 in ten bits, four of them after the point. -/
example : (binAttr (exS 4 "x").attr (exS 2 "y").attr) = ⟨10, 4, true⟩ ∧
    addSub .plus exEnv (exS 4 "x") (exS 2 "y") = 4 ∧
    ∃ z : Int, num z 4 = num (-20) 4 + num 6 2 ∧ addSub .plus exEnv (exS 4 "x") (exS 2 "y") = Ty.wrap ⟨10, true⟩ z := by
  refine ⟨by decide, by decide, ?_⟩
  obtain ⟨z, h1, h2, -⟩ := c73_plus exEnv (exS 4 "x") (exS 2 "y") (-20) 6 (exX 4) (exY 2) ⟨by decide, trivial⟩
    ⟨by decide, trivial⟩ (Or.inl rfl)
  exact ⟨z, h1, h2⟩

/-- A variable minus a constant: -20/16 - 3. -/
example : ∃ z : Int, num z 4 = num (-20) 4 - num 3 0 ∧
    addSub .minus exEnv (exS 4 "x") (mkInt 3) = Ty.wrap ⟨8, true⟩ z := by
  obtain ⟨z, h1, h2, -⟩ := c73_minus exEnv (exS 4 "x") (mkInt 3) (-20) 3 (exX 4) rfl ⟨by decide, trivial⟩
    ⟨by decide, show ((3 : Int) * ((2 ^ 4 : Nat) : Int)).natAbs < 2 ^ 31 by decide⟩ (Or.inl rfl)
  exact ⟨z, h1, h2⟩

/-- -20/16 < 6/8. -/
example : compare .lt exEnv (exS 4 "x") (exS 3 "y") =
    if ratCmp .lt (num (-20) 4) (num 6 3) then 1 else 0 :=
  c73_compare .lt exEnv _ _ _ _ (exX 4) (exY 3) ⟨by decide, trivial⟩ ⟨by decide, trivial⟩ (Or.inl rfl)
    (by unfold Ty.InRange; decide) (by unfold Ty.InRange; decide)
example : compare .lt exEnv (exS 4 "x") (exS 3 "y") = 1 := by decide

/-- -20/16 * 6/4 is -30/16 rounded down. -/
example : times exEnv (exS 4 "x") (exS 2 "y") = Ty.wrap ⟨8, true⟩ ⌊num (-20) 4 * num 6 2 * 2 ^ 4⌋ :=
  (c73_times exEnv _ _ _ _ (exX 4) (exY 2) (by decide) (Or.inl rfl)).2.2.2
example : times exEnv (exS 4 "x") (exS 2 "y") = -30 := by decide

example : divide exEnv (exS 0 "x") (exS 0 "y") = Ty.wrap ⟨8, true⟩ (truncQ (num (-20) 0 / num 6 0)) :=
  c73_divide exEnv _ _ _ _ (exX 0) (exY 0) rfl rfl ⟨by decide, trivial⟩ ⟨by decide, trivial⟩ rfl (by decide) (by decide)
example : divide exEnv (exS 0 "x") (exS 0 "y") = -3 := by decide

example : num (mod exEnv (exS 3 "x") (exS 3 "y")) 3 = num (-20) 3 - truncQ (num (-20) 3 / num 6 3) * num 6 3 :=
  c73_mod exEnv _ _ _ _ (exX 3) (exY 3) ⟨by decide, trivial⟩ ⟨by decide, trivial⟩ rfl (by decide) (by decide)
    (fun _ h => absurd rfl h) (fun _ h => absurd rfl h)
example : mod exEnv (exS 3 "x") (exS 3 "y") = -2 := by decide

example : ∃ z, shift .sll exEnv ⟨11, 3, true⟩ (exS 3 "x") (mkInt 3) = some z ∧ num z 3 = num (-20) 3 * 2 ^ 3 :=
  c73_sll exEnv _ _ ⟨11, 3, true⟩ _ 3 (exX 3) rfl (by decide) rfl (by decide)

example : shift .sra exEnv (sraAttr (exS 3 "x").attr) (exS 3 "x") (mkInt 3) =
    some ⌊num (-20) 3 / 2 ^ bits 3 3 * 2 ^ 3⌋ :=
  c73_sra exEnv _ _ _ 3 (exX 3) rfl rfl rfl
example : shift .sra exEnv (sraAttr (exS 3 "x").attr) (exS 3 "x") (mkInt 3) = some (-3) := by decide

example : shift .srl exEnv (srlAttr (exS 3 "x").attr) (exS 3 "x") (mkInt 3) = some 29 :=
  (c73_srl exEnv (exS 3 "x") (mkInt 3) (-20) 3 (exX 3) rfl rfl).1

example : uminus exEnv (exS 3 "x") = 20 := c73_uminus exEnv _ _ (exX 3)

example : num (cond exEnv (exS 0 "c") (exS 3 "x") (exS 3 "y")) 3 = num (-20) 3 :=
  (c73_cond exEnv (exS 0 "c") _ _ 1 _ _ ⟨rfl, by unfold Ty.InRange; simp [exS, Attr.ty]⟩ (exX 3) (exY 3) rfl rfl
    (Or.inl rfl)).trans (if_pos (by decide))

example : cast exEnv ⟨6, 1, true⟩ (exS 3 "x") = Ty.wrap ⟨6, true⟩ ⌊num (-20) 3 * 2 ^ 1⌋ :=
  c73_cast exEnv _ _ _ (exX 3) (by decide) (by decide)
example : cast exEnv ⟨6, 1, true⟩ (exS 3 "x") = -5 := by decide

example : reinterpret exEnv ⟨4, 2, false⟩ (exS 3 "x") = 12 := c73_reinterpret exEnv _ _ _ (exX 3)

example : compare .lt exEnv (exS 3 "x") (exU 3 "y") = 0 ∧ num (-20) 3 < num 6 3 :=
  c73_not_mixed exEnv _ _ _ _ _ _ (exX 3) (exUY 3) rfl rfl rfl (by decide) (by decide)

/-- `x < 0.5` is false for `x = -20/16`. -/
example : compare .lt exEnv (exS 4 "x") (mkFixed 8 4) = 0 ∧ num (-20) 4 < num 8 4 :=
  (c73_not_const exEnv _ _ _ 8 (exX 4) rfl (by decide) (by decide) (by decide)).2

example : addSub .plus exEnv (exS 0 "x") ⟨⟨10, 0, false⟩, .net "y"⟩ = 242 := by
  have h := (c73_not_mixed_plus exEnv ⟨8, 0, true⟩ ⟨10, 0, false⟩ "x" "y" (-20) 6 (exX 0)
    ⟨rfl, by unfold Ty.InRange; simp [Attr.ty]⟩ rfl rfl (by decide) (by decide)).1
  exact h

example : compare .gt exEnv (exS 0 "y") ⟨⟨8, 8, true⟩, .int 0⟩ = 0 := by decide
example : compare .gt (fun z => if z = "y" then 6 else 0) (exS 0 "y") (exS 8 "z") = 0 ∧ num 6 0 > num 0 8 :=
  c73_not_compare _ _ _ _ _ _ ⟨rfl, by unfold Ty.InRange; simp [Attr.ty]⟩ ⟨rfl, by unfold Ty.InRange; simp [Attr.ty]⟩
    rfl (by decide) (by decide) (by decide)

example : num (cond exEnv (exS 0 "c") (exS 3 "x") (exS 5 "y")) 5 = num (-20) 3 / 2 ^ 2 :=
  (c73_not_cond exEnv (exS 0 "c") _ _ _ _ 1 _ _ ⟨rfl, by unfold Ty.InRange; simp [exS, Attr.ty]⟩ (exX 3) (exY 5) rfl
    (by decide) (by decide) (by decide)).1

example : divide exEnv (exS 3 "x") (exS 3 "y") = -3 := by decide
example : num (divide (fun z => if z = "x" then 20 else 6) (exS 3 "x") (exS 3 "y")) 3 =
    truncQ (num 20 3 / num 6 3) / 2 ^ 3 :=
  c73_not_divide _ (exS 3 "x") (exS 3 "y") _ _ ⟨rfl, by unfold Ty.InRange; simp [exS, Attr.ty]⟩
    ⟨rfl, by unfold Ty.InRange; simp [exS, Attr.ty]⟩ rfl ⟨by decide, trivial⟩ ⟨by decide, trivial⟩ rfl (by decide)
    (by decide) (by
      show Ty.InRange ⟨8, true⟩ (truncQ (num 20 3 / num 6 3))
      rw [num_div, truncQ_div]
      unfold Ty.InRange
      decide)

example : divide exEnv (exS 0 "x") (exU 0 "y") = 3 :=
  c73_not_divide_mixed exEnv _ _ _ _ _ _ (exX 0) (exUY 0) rfl rfl rfl (by decide) (by decide) (by decide)

example : divide exEnv (exU 0 "y") (mkInt 4) = 1 :=
  c73_divide_unsigned_int exEnv _ _ _ 4 (exUY 0) rfl rfl (by decide) (by decide)

example : mod exEnv (exS 0 "x") (exS 8 "y") = 0 ∧ divide exEnv (exS 0 "x") (exS 8 "y") = 0 :=
  c73_not_mod exEnv _ _ _ _ _ _ (exX 0) (exY 8) rfl rfl (by decide) (by decide) (by decide) (by decide)

end SArith
