import Verif.Lemmas.Vlog
import Verif.Model.VExpr
import Mathlib.Tactic.Ring

/-!
# Lemmas about the evaluation of Verilog expressions
-/

namespace Vlog

theorem bits_lt (w : Nat) (v : Int) : bits w v < 2 ^ w := by
  unfold bits
  have h := Int.emod_lt_of_pos v (b := ((2 ^ w : Nat) : Int)) (by exact_mod_cast two_pow_pos w)
  have h0 := Int.emod_nonneg v (b := ((2 ^ w : Nat) : Int)) (by have := two_pow_pos w; omega)
  omega

theorem bits_of_nonneg {w : Nat} {v : Int} (h0 : 0 ≤ v) (h : v < (2 ^ w : Nat)) : (bits w v : Int) = v := by
  unfold bits
  rw [Int.emod_eq_of_lt h0 h]
  omega

theorem Ty.inRange_ediv {t : Ty} {v : Int} (h : t.InRange v) (n : Nat) : t.InRange (v / (2 ^ n : Nat)) := by
  have hp : (0 : Int) < (2 ^ n : Nat) := by exact_mod_cast two_pow_pos n
  have hp1 : (1 : Int) ≤ (2 ^ n : Nat) := hp
  unfold Ty.InRange at *
  split at h <;> rename_i hs
  · rw [if_pos hs]
    by_cases h0 : 0 ≤ v
    · have h1 := Int.ediv_nonneg h0 (Int.le_of_lt hp)
      have h2 := Int.ediv_le_self ((2 ^ n : Nat) : Int) h0
      omega
    · have h1 : v ≤ v / (2 ^ n : Nat) := by
        apply Int.le_ediv_of_mul_le hp
        have := Int.mul_le_mul_of_nonpos_left (a := v) (b := (2 ^ n : Nat)) (c := 1) (by omega) hp1
        omega
      have h2 : v / (2 ^ n : Nat) < 0 := Int.ediv_neg_of_neg_of_pos (by omega) hp
      omega
  · rw [if_neg hs]
    have h1 := Int.ediv_nonneg h.1 (Int.le_of_lt hp)
    have h2 := Int.ediv_le_self ((2 ^ n : Nat) : Int) h.1
    omega

theorem ShOp.eval_inRange {t : Ty} (op : ShOp) {a : Int} (h : t.InRange a) (n : Nat) :
    t.InRange (op.eval t a n) := by
  cases op <;> simp only [ShOp.eval]
  · exact t.wrap_inRange _
  · exact t.wrap_inRange _
  · split
    · exact Ty.inRange_ediv h n
    · exact t.wrap_inRange _

theorem BinOp.eval_inRange (t : Ty) (op : BinOp) (a b : Int) : t.InRange (op.eval t a b) := by
  cases op <;> exact t.wrap_inRange _

namespace VExpr

/-- The value of an expression in a context is a value of the type of the context. -/
theorem eval_inRange (ρ : String → Int) (e : VExpr) : ∀ c : Ty, c.InRange (e.eval ρ c) := by
  induction e with
  | lit t v => intro c; exact c.wrap_inRange _
  | var t x => intro c; exact c.wrap_inRange _
  | neg e _ => intro c; exact c.wrap_inRange _
  | not e _ => intro c; exact c.wrap_inRange _
  | lnot e _ => intro c; exact c.wrap_inRange _
  | bin op a b _ _ => intro c; exact op.eval_inRange c _ _
  | shift op a b iha _ => intro c; exact op.eval_inRange (iha c) _
  | cmp op a b _ _ => intro c; exact c.wrap_inRange _
  | land a b _ _ => intro c; exact c.wrap_inRange _
  | lor a b _ _ => intro c; exact c.wrap_inRange _
  | cond k a b _ iha ihb =>
    intro c
    simp only [eval]
    split
    · exact iha c
    · exact ihb c
  | cat a b _ _ => intro c; exact c.wrap_inRange _
  | rep n e _ => intro c; exact c.wrap_inRange _
  | bit e i _ => intro c; exact c.wrap_inRange _
  | slice e m l _ => intro c; exact c.wrap_inRange _
  | toSigned e _ => intro c; exact c.wrap_inRange _

theorem eval_wrap (ρ : String → Int) (e : VExpr) (c : Ty) : c.wrap (e.eval ρ c) = e.eval ρ c :=
  Ty.wrap_of_inRange c (eval_inRange ρ e c)

end VExpr

/-- `e` computes the integer `v`: in every context that is at least as wide and has its signedness, its value
    is `v` modulo the width of the context. -/
def Means (ρ : String → Int) (e : VExpr) (v : Int) : Prop :=
  ∀ c : Ty, e.ty.width ≤ c.width → c.signed = e.ty.signed → e.eval ρ c = c.wrap v

theorem Ty.wrap_mul_wrap (t : Ty) (a b : Int) : t.wrap (t.wrap a * b) = t.wrap (a * b) := by
  apply Ty.wrap_congr
  rw [Int.mul_emod, Ty.wrap_emod, ← Int.mul_emod]

theorem Ty.wrap_mul_wrap' (t : Ty) (a b : Int) : t.wrap (a * t.wrap b) = t.wrap (a * b) := by
  apply Ty.wrap_congr
  rw [Int.mul_emod, Ty.wrap_emod, ← Int.mul_emod]

theorem Ty.wrap_neg_wrap (t : Ty) (a : Int) : t.wrap (- t.wrap a) = t.wrap (- a) := by
  have := t.wrap_mul_wrap a (-1)
  rw [show t.wrap a * -1 = - t.wrap a by ring, show a * -1 = - a by ring] at this
  exact this

theorem Ty.wrap_sub_wrap (t : Ty) (a b : Int) : t.wrap (t.wrap a - t.wrap b) = t.wrap (a - b) := by
  rw [Int.sub_eq_add_neg, Ty.wrap_add_wrap, ← Ty.wrap_add_wrap', Ty.wrap_neg_wrap, Ty.wrap_add_wrap',
    ← Int.sub_eq_add_neg]

/-- Truncating a wider value and reading it back. -/
theorem Ty.wrap_wrap_le {t t' : Ty} (h : t.width ≤ t'.width) (v : Int) : t.wrap (t'.wrap v) = t.wrap v := by
  apply Ty.wrap_congr
  have hd : ((2 ^ t.width : Nat) : Int) ∣ (2 ^ t'.width : Nat) := by
    exact_mod_cast Nat.pow_dvd_pow 2 h
  rw [← Int.emod_emod_of_dvd _ hd, Ty.wrap_emod, Int.emod_emod_of_dvd _ hd]

theorem extend_eq {t c : Ty} {v : Int} (h : t.InRange v) (hw : t.width ≤ c.width) (hs : c.signed = t.signed) :
    extend t v c = v := by
  unfold extend
  rw [hs, Val.read_self (v := ⟨t, v⟩) ((Val.ok_iff ⟨t, v⟩).2 h)]
  exact Ty.wrap_of_inRange c (Ty.inRange_mono h hs.symm hw)

theorem Means.var {ρ : String → Int} {t : Ty} {x : String} (h : t.InRange (ρ x)) :
    Means ρ (.var t x) (ρ x) := by
  intro c hw hs
  show extend t (t.wrap (ρ x)) c = _
  rw [Ty.wrap_of_inRange t h, extend_eq h hw hs]
  exact (Ty.wrap_of_inRange c (Ty.inRange_mono h hs.symm hw)).symm

theorem Means.lit {ρ : String → Int} {t : Ty} {v : Nat} (h : t.InRange v) : Means ρ (.lit t v) v := by
  intro c hw hs
  show extend t (t.wrap v) c = _
  rw [Ty.wrap_of_inRange t h, extend_eq h hw hs]
  exact (Ty.wrap_of_inRange c (Ty.inRange_mono h hs.symm hw)).symm

theorem Means.neg {ρ : String → Int} {e : VExpr} {v : Int} (h : Means ρ e v) : Means ρ (.neg e) (-v) := by
  intro c hw hs
  show c.wrap (- e.eval ρ c) = _
  rw [h c hw hs, Ty.wrap_neg_wrap]

theorem Means.pyInt {ρ : String → Int} {v : Int} (h : v.natAbs < 2 ^ 31) : Means ρ (VExpr.pyInt v) v := by
  have hr : Ty.InRange ⟨32, true⟩ (v.natAbs : Nat) := by
    generalize v.natAbs = k at h
    unfold Ty.InRange; simp; omega
  unfold VExpr.pyInt
  split
  · have := (Means.lit (ρ := ρ) hr).neg
    rwa [show (-(v.natAbs : Int)) = v by omega] at this
  · have := Means.lit (ρ := ρ) hr
    rwa [show ((v.natAbs : Nat) : Int) = v by omega] at this

theorem pyInt_ty (v : Int) : (VExpr.pyInt v).ty = ⟨32, true⟩ := by unfold VExpr.pyInt; split <;> rfl

theorem Means.plus {ρ : String → Int} {a b : VExpr} {x y : Int} (ha : Means ρ a x) (hb : Means ρ b y)
    (hs : a.ty.signed = b.ty.signed) : Means ρ (.bin .plus a b) (x + y) := by
  intro c hw hc
  have hc' : c.signed = a.ty.signed := by rw [hc]; show (a.ty.signed && b.ty.signed) = _; rw [← hs, Bool.and_self]
  have hw' : max a.ty.width b.ty.width ≤ c.width := hw
  show c.wrap (a.eval ρ c + b.eval ρ c) = _
  rw [ha c (by omega) hc', hb c (by omega) (by rw [hc', hs]), Ty.wrap_add_wrap, Ty.wrap_add_wrap']

theorem Means.minus {ρ : String → Int} {a b : VExpr} {x y : Int} (ha : Means ρ a x) (hb : Means ρ b y)
    (hs : a.ty.signed = b.ty.signed) : Means ρ (.bin .minus a b) (x - y) := by
  intro c hw hc
  have hc' : c.signed = a.ty.signed := by rw [hc]; show (a.ty.signed && b.ty.signed) = _; rw [← hs, Bool.and_self]
  have hw' : max a.ty.width b.ty.width ≤ c.width := hw
  show c.wrap (a.eval ρ c - b.eval ρ c) = _
  rw [ha c (by omega) hc', hb c (by omega) (by rw [hc', hs]), Ty.wrap_sub_wrap]

theorem Means.times {ρ : String → Int} {a b : VExpr} {x y : Int} (ha : Means ρ a x) (hb : Means ρ b y)
    (hs : a.ty.signed = b.ty.signed) : Means ρ (.bin .times a b) (x * y) := by
  intro c hw hc
  have hc' : c.signed = a.ty.signed := by rw [hc]; show (a.ty.signed && b.ty.signed) = _; rw [← hs, Bool.and_self]
  have hw' : max a.ty.width b.ty.width ≤ c.width := hw
  show c.wrap (a.eval ρ c * b.eval ρ c) = _
  rw [ha c (by omega) hc', hb c (by omega) (by rw [hc', hs]), Ty.wrap_mul_wrap, Ty.wrap_mul_wrap']

/-- The amount of a shift by a Python integer. -/
theorem amount_pyInt {ρ : String → Int} {n : Nat} (h : n < 2 ^ 31) :
    bits (VExpr.pyInt n).ty.width ((VExpr.pyInt n).eval ρ (VExpr.pyInt n).ty) = n := by
  have hm : Means ρ (VExpr.pyInt n) n := Means.pyInt (by simpa using h)
  have := hm (VExpr.pyInt n).ty (Nat.le_refl _) rfl
  rw [this, pyInt_ty]
  have hr : Ty.InRange ⟨32, true⟩ (n : Int) := by unfold Ty.InRange; simp; omega
  rw [Ty.wrap_of_inRange _ hr]
  have := bits_of_nonneg (w := 32) (v := (n : Int)) (by omega) (by simp; omega)
  exact_mod_cast this

theorem Means.sll {ρ : String → Int} {e : VExpr} {v : Int} (h : Means ρ e v) {n : Nat} (hn : n < 2 ^ 31) :
    Means ρ (.shift .sll e (.pyInt n)) (v * (2 ^ n : Nat)) := by
  intro c hw hs
  show ShOp.eval c .sll (e.eval ρ c) _ = _
  rw [amount_pyInt hn, h c hw hs]
  show c.wrap (c.wrap v * _) = _
  rw [Ty.wrap_mul_wrap]

/-- A right shift, in a context that holds the shifted value. -/
theorem eval_sra {ρ : String → Int} {e : VExpr} {v : Int} (h : Means ρ e v) {n : Nat} (hn : n < 2 ^ 31)
    (c : Ty) (hw : e.ty.width ≤ c.width) (hs : c.signed = e.ty.signed) (hv : c.InRange v) (op : ShOp)
    (hop : op = .sra ∨ (op = .srl ∧ c.signed = false)) :
    (VExpr.shift op e (.pyInt n)).eval ρ c = v / (2 ^ n : Nat) := by
  show ShOp.eval c op (e.eval ρ c) _ = _
  rw [amount_pyInt hn, h c hw hs, Ty.wrap_of_inRange c hv]
  have key : c.signed = false → c.wrap (bits c.width v / 2 ^ n : Nat) = v / (2 ^ n : Nat) := by
    intro hf
    have hv' := hv
    unfold Ty.InRange at hv'
    rw [if_neg (by simp [hf])] at hv'
    have hb : (bits c.width v : Int) = v := bits_of_nonneg hv'.1 hv'.2
    push_cast
    rw [hb]
    have := Ty.wrap_of_inRange c (Ty.inRange_ediv hv n)
    push_cast at this
    exact this
  rcases hop with rfl | ⟨rfl, hf⟩
  · simp only [ShOp.eval]
    split
    · rfl
    · exact key (by simpa using ‹¬ c.signed = true›)
  · exact key hf

end Vlog
