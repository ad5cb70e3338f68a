import Verif.Model.Saturate
import Verif.Lemmas.VExpr

/-!
# C41: saturating arithmetic
-/

namespace Saturate

open Vlog Fixed

/-- `x` clamped to `[lo, hi]`. -/
def clamp (lo hi x : Int) : Int := if x < lo then lo else if hi < x then hi else x

/-- Bounds that leave room in the 32 bits of an unsized literal. -/
def Fits (x : Int) : Prop := -2 ^ 30 ≤ x ∧ x < 2 ^ 30

theorem clamp_spec {lo hi : Int} (h : lo ≤ hi) (x : Int) :
    lo ≤ clamp lo hi x ∧ clamp lo hi x ≤ hi ∧ (lo ≤ x → x ≤ hi → clamp lo hi x = x) := by
  unfold clamp; split
  · omega
  · split <;> omega

private theorem inRange32 {c : Ty} (hw : 32 ≤ c.width) (hs : c.signed = true) {x : Int}
    (h1 : -2 ^ 31 ≤ x) (h2 : x < 2 ^ 31) : c.InRange x := by
  have : 2 ^ 32 ≤ 2 ^ c.width := Nat.pow_le_pow_right (by omega) hw
  unfold Ty.InRange
  rw [if_pos hs]
  omega

private theorem inRange32u {c : Ty} (hw : 32 ≤ c.width) (hs : c.signed = false) {x : Int}
    (h1 : 0 ≤ x) (h2 : x < 2 ^ 32) : c.InRange x := by
  have : 2 ^ 32 ≤ 2 ^ c.width := Nat.pow_le_pow_right (by omega) hw
  unfold Ty.InRange
  rw [if_neg (by simp [hs])]
  omega

private theorem cmp_ne (ρ : String → Int) (op : CmpOp) (a b : VExpr) :
    ((VExpr.cmp op a b).eval ρ (VExpr.cmp op a b).ty ≠ 0) ↔
      op.eval (a.eval ρ (VExpr.join a b)) (b.eval ρ (VExpr.join a b)) = true := by
  simp only [VExpr.eval, VExpr.ty]
  cases op.eval (a.eval ρ (VExpr.join a b)) (b.eval ρ (VExpr.join a b)) <;> simp [Ty.wrap]

private theorem means_cond {ρ : String → Int} {k a b : VExpr} {p : Prop} [Decidable p] {x y : Int}
    (hk : (k.eval ρ k.ty ≠ 0) ↔ p) (ha : p → Means ρ a x) (hb : ¬ p → Means ρ b y)
    (hs : a.ty.signed = b.ty.signed) : Means ρ (.cond k a b) (if p then x else y) := by
  intro c hw hc
  have hw' : max a.ty.width b.ty.width ≤ c.width := hw
  have hc' : c.signed = a.ty.signed := by
    rw [hc]; show (a.ty.signed && b.ty.signed) = _; rw [← hs, Bool.and_self]
  simp only [VExpr.eval]
  by_cases h : p
  · rw [if_pos (hk.2 h), if_pos h, ha h c (by omega) hc']
  · rw [if_neg (fun hh => h (hk.1 hh)), if_neg h, hb h c (by omega) (by rw [hc', hs])]

/-- A signed comparison of two small values, one of them 32 bits wide. -/
private theorem cmp_signed {ρ : String → Int} (op : CmpOp) {a b : VExpr} {x y : Int} (ha : Means ρ a x)
    (hb : Means ρ b y) (sa : a.ty.signed = true) (sb : b.ty.signed = true)
    (hw : 32 ≤ max a.ty.width b.ty.width) (hx : -2 ^ 31 ≤ x ∧ x < 2 ^ 31) (hy : -2 ^ 31 ≤ y ∧ y < 2 ^ 31) :
    ((VExpr.cmp op a b).eval ρ (VExpr.cmp op a b).ty ≠ 0) ↔ op.eval x y = true := by
  rw [cmp_ne]
  have hj : VExpr.join a b = ⟨max a.ty.width b.ty.width, true⟩ := by
    unfold VExpr.join; rw [sa, sb]; rfl
  rw [hj, ha _ (by simp) (by rw [sa]), hb _ (by simp) (by rw [sb]),
    Ty.wrap_of_inRange _ (inRange32 hw rfl hx.1 hx.2), Ty.wrap_of_inRange _ (inRange32 hw rfl hy.1 hy.2)]

private theorem means_small {ρ : String → Int} {v : Int} (h : Fits v) : Means ρ (VExpr.pyInt v) v :=
  Means.pyInt (by unfold Fits at h; omega)

private theorem satBoth_means {ρ : String → Int} {raw k : VExpr} {x lo hi : Int} {w : Nat}
    (hr : Means ρ raw x) (sr : raw.ty.signed = true) (hx : -2 ^ 31 ≤ x ∧ x < 2 ^ 31)
    (hk : (k.eval ρ k.ty ≠ 0) ↔ x < lo) (hlo : Fits lo) (hhi : Fits hi)
    {mx : Option Int} (hmx : mx.getD (maxOf w true) = hi) :
    Means ρ (satBoth raw k w mx (some lo) true) (clamp lo hi x) ∧
    (satBoth raw k w mx (some lo) true).ty.signed = true := by
  unfold satBoth
  rw [hmx]
  have hgt := cmp_signed .gt hr (means_small hhi) sr (by rw [pyInt_ty]) (by rw [pyInt_ty]; simp only []; omega) hx
    (by unfold Fits at hhi; omega)
  have hgt' : ((VExpr.cmp .gt raw (.pyInt hi)).eval ρ (VExpr.cmp .gt raw (.pyInt hi)).ty ≠ 0) ↔ hi < x := by
    rw [hgt]; simp [CmpOp.eval]
  have hin := means_cond (p := hi < x) (a := .pyInt hi) (b := raw) hgt' (fun _ => means_small hhi) (fun _ => hr)
    (by rw [pyInt_ty, sr])
  have hs1 : (VExpr.cond (.cmp .gt raw (.pyInt hi)) (.pyInt hi) raw).ty.signed = true := by
    show ((VExpr.pyInt hi).ty.signed && raw.ty.signed) = true; rw [pyInt_ty, sr]; rfl
  refine ⟨?_, ?_⟩
  · exact means_cond (p := x < lo) (a := .pyInt lo) hk (fun _ => means_small hlo) (fun _ => hin)
      (by rw [pyInt_ty, hs1])
  · show ((VExpr.pyInt lo).ty.signed && _) = true
    rw [pyInt_ty, hs1]; rfl

private theorem addWith_means {ρ : String → Int} {l r : VExpr} {a b lo hi : Int} {w : Nat}
    (hl : Means ρ l a) (hr : Means ρ r b) (sl : l.ty.signed = true) (sr : r.ty.signed = true)
    (fa : Fits a) (fb : Fits b) (flo : Fits lo) (fhi : Fits hi) {mx mn : Option Int}
    (hmx : mx.getD (maxOf w true) = hi) (hmn : mn.getD (minOf w true) = lo) :
    Means ρ (addWith (.bin .plus l r) l r true w mx mn) (clamp lo hi (a + b)) ∧
    (addWith (.bin .plus l r) l r true w mx mn).ty.signed = true := by
  unfold addWith
  rw [hmn]
  simp only [if_true]
  unfold Fits at fa fb flo fhi
  have hm : Means ρ (.bin .plus (.neg r) (.pyInt lo)) (-b + lo) :=
    Means.plus hr.neg (means_small flo) (by show r.ty.signed = _; rw [pyInt_ty, sr])
  have hk := cmp_signed .lt hl hm sl
    (by show (r.ty.signed && _) = true; rw [sr, pyInt_ty]; rfl)
    (by show 32 ≤ max _ (max _ (VExpr.pyInt lo).ty.width); rw [pyInt_ty]; simp only []; omega)
    (by omega) (by omega)
  exact satBoth_means (Means.plus hl hr (by rw [sl, sr])) (by show (l.ty.signed && r.ty.signed) = true; rw [sl, sr]; rfl)
    (by omega) (by rw [hk]; simp [CmpOp.eval]; omega) flo fhi hmx

private theorem subWith_means {ρ : String → Int} {l r : VExpr} {a b lo hi : Int} {w : Nat}
    (hl : Means ρ l a) (hr : Means ρ r b) (sl : l.ty.signed = true) (sr : r.ty.signed = true)
    (fa : Fits a) (fb : Fits b) (flo : Fits lo) (fhi : Fits hi) {mx mn : Option Int}
    (hmx : mx.getD (maxOf w true) = hi) (hmn : mn.getD (minOf w true) = lo) :
    Means ρ (subWith (.bin .minus l r) l r true w mx mn) (clamp lo hi (a - b)) ∧
    (subWith (.bin .minus l r) l r true w mx mn).ty.signed = true := by
  unfold subWith
  rw [hmn]
  simp only [if_true]
  unfold Fits at fa fb flo fhi
  have hm : Means ρ (.bin .plus r (.pyInt lo)) (b + lo) :=
    Means.plus hr (means_small flo) (by rw [pyInt_ty, sr])
  have hk := cmp_signed .lt hl hm sl
    (by show (r.ty.signed && _) = true; rw [sr, pyInt_ty]; rfl)
    (by show 32 ≤ max _ (max _ (VExpr.pyInt lo).ty.width); rw [pyInt_ty]; simp only []; omega)
    (by omega) (by omega)
  exact satBoth_means (Means.minus hl hr (by rw [sl, sr])) (by show (l.ty.signed && r.ty.signed) = true; rw [sl, sr]; rfl)
    (by omega) (by rw [hk]; simp [CmpOp.eval]; omega) flo fhi hmx

private theorem assign_of_means {ρ : String → Int} {e : VExpr} {v : Int} (h : Means ρ e v) (t : Ty) :
    e.assign ρ t = t.wrap v := by
  unfold VExpr.assign
  rw [h ⟨max t.width e.ty.width, e.ty.signed⟩ (by simp) rfl, Ty.wrap_wrap_le (by simp)]

private theorem eval_cond (ρ : String → Int) (k a b : VExpr) (c : Ty) :
    (VExpr.cond k a b).eval ρ c = if k.eval ρ k.ty ≠ 0 then a.eval ρ c else b.eval ρ c := rfl

/-- C41: `add` of two signed values, written to a variable, is the sum clamped to `[min, max]` (by default the
    range of a signed number of `width` bits), modulo the width of the variable. -/
theorem c41_add (ρ : String → Int) (l r : VExpr) (a b : Int) (t : Ty) (w : Nat) (mx mn : Option Int)
    (hl : Means ρ l a) (hr : Means ρ r b) (sl : pySigned l = true ∧ l.ty.signed = true)
    (sr : pySigned r = true ∧ r.ty.signed = true) (fa : Fits a) (fb : Fits b)
    (flo : Fits (mn.getD (minOf w true))) (fhi : Fits (mx.getD (maxOf w true))) :
    (add l r w mx mn).assign ρ t =
      t.wrap (clamp (mn.getD (minOf w true)) (mx.getD (maxOf w true)) (a + b)) := by
  unfold add
  have : pySigned (.bin .plus l r) = true := by simp [pySigned, sl.1, sr.1]
  simp only [this]
  exact assign_of_means (addWith_means hl hr sl.2 sr.2 fa fb flo fhi rfl rfl).1 t

/-- C41: `sub` of two signed values, in the same way. -/
theorem c41_sub (ρ : String → Int) (l r : VExpr) (a b : Int) (t : Ty) (w : Nat) (mx mn : Option Int)
    (hl : Means ρ l a) (hr : Means ρ r b) (sl : pySigned l = true ∧ l.ty.signed = true)
    (sr : pySigned r = true ∧ r.ty.signed = true) (fa : Fits a) (fb : Fits b)
    (flo : Fits (mn.getD (minOf w true))) (fhi : Fits (mx.getD (maxOf w true))) :
    (sub l r w mx mn).assign ρ t =
      t.wrap (clamp (mn.getD (minOf w true)) (mx.getD (maxOf w true)) (a - b)) := by
  unfold sub
  have : pySigned (.bin .minus l r) = true := by simp [pySigned, sl.1, sr.1]
  simp only [this]
  exact assign_of_means (subWith_means hl hr sl.2 sr.2 fa fb flo fhi rfl rfl).1 t

/-! ### Unsigned operands -/

private theorem pyInt_unsigned {ρ : String → Int} {v : Int} (h0 : 0 ≤ v) (h : v < 2 ^ 31) (c : Ty)
    (hw : 32 ≤ c.width) (hs : c.signed = false) : (VExpr.pyInt v).eval ρ c = v := by
  unfold VExpr.pyInt
  rw [if_neg (by omega)]
  show extend ⟨32, true⟩ (Ty.wrap ⟨32, true⟩ (v.natAbs : Nat)) c = v
  have hn : ((v.natAbs : Nat) : Int) = v := by omega
  rw [hn, Ty.wrap_of_inRange ⟨32, true⟩ (inRange32 (c := ⟨32, true⟩) (Nat.le_refl _) rfl (by omega) h)]
  unfold extend Val.read
  rw [hs]
  simp only [Bool.false_eq_true, if_false]
  rw [Int.emod_eq_of_lt h0 (by simp; omega)]
  exact Ty.wrap_of_inRange _ (inRange32u hw hs h0 (by omega))

private theorem cmp_unsigned {ρ : String → Int} (op : CmpOp) {a b : VExpr} {x y : Int}
    (ha : ∀ c : Ty, max a.ty.width b.ty.width ≤ c.width → c.signed = false → a.eval ρ c = x)
    (hb : ∀ c : Ty, max a.ty.width b.ty.width ≤ c.width → c.signed = false → b.eval ρ c = y)
    (hu : (a.ty.signed && b.ty.signed) = false) :
    ((VExpr.cmp op a b).eval ρ (VExpr.cmp op a b).ty ≠ 0) ↔ op.eval x y = true := by
  rw [cmp_ne]
  unfold VExpr.join
  rw [hu, ha _ (Nat.le_refl _) rfl, hb _ (Nat.le_refl _) rfl]

private theorem unsigned_in {ρ : String → Int} {e : VExpr} {v : Int} (h : Means ρ e v)
    (hs : e.ty.signed = false) (h0 : 0 ≤ v) (h1 : v < 2 ^ 32) (c : Ty) (hw : e.ty.width ≤ c.width)
    (h32 : 32 ≤ c.width) (hc : c.signed = false) : e.eval ρ c = v := by
  rw [h c hw (by rw [hc, hs]), Ty.wrap_of_inRange c (inRange32u h32 hc h0 h1)]

/-- C41: `add` of two unsigned values, written to a variable, is the sum limited to `max` (by default the
    largest unsigned number of `width` bits). -/
theorem c41_add_unsigned (ρ : String → Int) (l r : VExpr) (a b : Int) (t : Ty) (w : Nat) (mx mn : Option Int)
    (hl : Means ρ l a) (hr : Means ρ r b) (sl : pySigned l = false ∧ l.ty.signed = false)
    (sr : pySigned r = false ∧ r.ty.signed = false) (fa : 0 ≤ a ∧ a < 2 ^ 31) (fb : 0 ≤ b ∧ b < 2 ^ 31)
    (fhi : 0 ≤ mx.getD (maxOf w false) ∧ mx.getD (maxOf w false) < 2 ^ 31) :
    (add l r w mx mn).assign ρ t = t.wrap (min (mx.getD (maxOf w false)) (a + b)) := by
  unfold add
  have hps : pySigned (.bin .plus l r) = false := by simp [pySigned, sl.1]
  simp only [hps, addWith, Bool.false_eq_true, if_false, satOverflow]
  generalize mx.getD (maxOf w false) = hi at *
  have hraw := Means.plus hl hr (by rw [sl.2, sr.2])
  have hrs : (VExpr.bin .plus l r).ty.signed = false := by show (l.ty.signed && _) = false; rw [sl.2]; rfl
  have hgt : ((VExpr.cmp .gt (.bin .plus l r) (.pyInt hi)).eval ρ
      (VExpr.cmp .gt (.bin .plus l r) (.pyInt hi)).ty ≠ 0) ↔ hi < a + b := by
    rw [cmp_unsigned .gt (x := a + b) (y := hi)]
    · simp [CmpOp.eval]
    · intro c hw hc
      rw [pyInt_ty] at hw
      simp only [] at hw
      exact unsigned_in hraw hrs (by omega) (by omega) c (by omega) (by omega) hc
    · intro c hw hc
      rw [pyInt_ty] at hw
      simp only [] at hw
      exact pyInt_unsigned fhi.1 fhi.2 c (by omega) hc
    · rw [hrs]; rfl
  unfold VExpr.assign
  have hty : (VExpr.cond (.cmp .gt (.bin .plus l r) (.pyInt hi)) (.pyInt hi) (.bin .plus l r)).ty =
      ⟨max 32 (VExpr.bin .plus l r).ty.width, false⟩ := by
    show Ty.mk (max (VExpr.pyInt hi).ty.width _) ((VExpr.pyInt hi).ty.signed && _) = _
    rw [pyInt_ty, hrs]; rfl
  rw [hty]
  have hw1 : ∀ x y z : Nat, x ≤ max z (max y x) := by omega
  have hw2 : ∀ x z : Nat, 32 ≤ max z (max 32 x) := by omega
  have e1 := unsigned_in hraw hrs (by omega) (by omega)
    ⟨max t.width (max 32 (VExpr.bin .plus l r).ty.width), false⟩ (hw1 _ _ _) (hw2 _ _) rfl
  have e2 := pyInt_unsigned (ρ := ρ) fhi.1 fhi.2
    ⟨max t.width (max 32 (VExpr.bin .plus l r).ty.width), false⟩ (hw2 _ _) rfl
  rw [eval_cond, e1, e2]
  by_cases h : hi < a + b
  · rw [if_pos (hgt.2 h)]; congr 1; omega
  · rw [if_neg (fun hh => h (hgt.1 hh))]; congr 1; omega

/-- C41: `sub` of two unsigned values, written to a variable, is the difference limited from below by `min`
    (by default 0). -/
theorem c41_sub_unsigned (ρ : String → Int) (l r : VExpr) (a b : Int) (t : Ty) (w : Nat) (mx mn : Option Int)
    (hl : Means ρ l a) (hr : Means ρ r b) (sl : pySigned l = false ∧ l.ty.signed = false)
    (sr : pySigned r = false ∧ r.ty.signed = false) (fa : 0 ≤ a ∧ a < 2 ^ 31) (fb : 0 ≤ b ∧ b < 2 ^ 31)
    (flo : 0 ≤ mn.getD (minOf w false) ∧ mn.getD (minOf w false) < 2 ^ 31) :
    (sub l r w mx mn).assign ρ t = t.wrap (max (mn.getD (minOf w false)) (a - b)) := by
  unfold sub
  have hps : pySigned (.bin .minus l r) = false := by simp [pySigned, sl.1]
  simp only [hps, subWith, Bool.false_eq_true, if_false, satUnderflow, Option.getD_some]
  generalize mn.getD (minOf w false) = lo at *
  have hraw := Means.minus hl hr (by rw [sl.2, sr.2])
  have hrs : (VExpr.bin .minus l r).ty.signed = false := by show (l.ty.signed && _) = false; rw [sl.2]; rfl
  have hlt : ((VExpr.cmp .lt l (.bin .plus r (.pyInt lo))).eval ρ
      (VExpr.cmp .lt l (.bin .plus r (.pyInt lo))).ty ≠ 0) ↔ a < b + lo := by
    rw [cmp_unsigned .lt (x := a) (y := b + lo)]
    · simp [CmpOp.eval]
    · intro c hw hc
      have : max l.ty.width (max r.ty.width (VExpr.pyInt lo).ty.width) ≤ c.width := hw
      rw [pyInt_ty] at this
      simp only [] at this
      exact unsigned_in hl sl.2 (by omega) (by omega) c (by omega) (by omega) hc
    · intro c hw hc
      have hw : max l.ty.width (max r.ty.width (VExpr.pyInt lo).ty.width) ≤ c.width := hw
      rw [pyInt_ty] at hw
      simp only [] at hw
      show c.wrap (r.eval ρ c + (VExpr.pyInt lo).eval ρ c) = _
      rw [unsigned_in hr sr.2 (by omega) (by omega) c (by omega) (by omega) hc,
        pyInt_unsigned flo.1 flo.2 c (by omega) hc]
      exact Ty.wrap_of_inRange c (inRange32u (by omega) hc (by omega) (by omega))
    · rw [sl.2]; rfl
  unfold VExpr.assign
  have hty : (VExpr.cond (.cmp .lt l (.bin .plus r (.pyInt lo))) (.pyInt lo) (.bin .minus l r)).ty =
      ⟨max 32 (VExpr.bin .minus l r).ty.width, false⟩ := by
    show Ty.mk (max (VExpr.pyInt lo).ty.width _) ((VExpr.pyInt lo).ty.signed && _) = _
    rw [pyInt_ty, hrs]; rfl
  rw [hty]
  have hw1 : ∀ x y z : Nat, x ≤ max z (max y x) := by omega
  have hw2 : ∀ x z : Nat, 32 ≤ max z (max 32 x) := by omega
  have e1 := hraw ⟨max t.width (max 32 (VExpr.bin .minus l r).ty.width), false⟩ (hw1 _ _ _) hrs.symm
  have e2 := pyInt_unsigned (ρ := ρ) flo.1 flo.2
    ⟨max t.width (max 32 (VExpr.bin .minus l r).ty.width), false⟩ (hw2 _ _) rfl
  rw [eval_cond, e1, e2]
  by_cases h : a < b + lo
  · rw [if_pos (hlt.2 h)]; congr 1; omega
  · rw [if_neg (fun hh => h (hlt.1 hh)), Ty.wrap_wrap_le (by simp)]; congr 1; omega

/-! ### Whole expressions -/

/-- A sum or difference of signed variables. -/
inductive Tree
  | leaf (t : Ty) (x : String)
  | plus (a b : Tree)
  | minus (a b : Tree)

/-- The expression. -/
def Tree.expr : Tree → VExpr
  | .leaf t x => .var t x
  | .plus a b => .bin .plus a.expr b.expr
  | .minus a b => .bin .minus a.expr b.expr

/-- All variables are signed and hold small values. -/
def Tree.Good (ρ : String → Int) : Tree → Prop
  | .leaf t x => t.signed = true ∧ t.InRange (ρ x) ∧ Fits (ρ x)
  | .plus a b => a.Good ρ ∧ b.Good ρ
  | .minus a b => a.Good ρ ∧ b.Good ρ

/-- Every sum and difference clamped to `[lo, hi]`, from the inside to the outside. -/
def Tree.clamped (ρ : String → Int) (lo hi : Int) : Tree → Int
  | .leaf _ x => ρ x
  | .plus a b => clamp lo hi (a.clamped ρ lo hi + b.clamped ρ lo hi)
  | .minus a b => clamp lo hi (a.clamped ρ lo hi - b.clamped ρ lo hi)

private theorem tree_signed {ρ : String → Int} : ∀ e : Tree, e.Good ρ → pySigned e.expr = true
  | .leaf t x, h => h.1
  | .plus a b, h => by simp [Tree.expr, pySigned, tree_signed a h.1, tree_signed b h.2]
  | .minus a b, h => by simp [Tree.expr, pySigned, tree_signed a h.1, tree_signed b h.2]

private theorem clamp_fits {lo hi x : Int} (h1 : Fits lo) (h2 : Fits hi) : lo ≤ hi → Fits (clamp lo hi x) := by
  intro h
  have := clamp_spec h x
  unfold Fits at *
  omega

private theorem tree_clamped_fits {ρ : String → Int} {lo hi : Int} (h1 : Fits lo) (h2 : Fits hi) (h : lo ≤ hi) :
    ∀ e : Tree, e.Good ρ → Fits (e.clamped ρ lo hi)
  | .leaf _ _, hg => hg.2.2
  | .plus _ _, _ => clamp_fits h1 h2 h
  | .minus _ _, _ => clamp_fits h1 h2 h

private theorem satOp_means {ρ : String → Int} {w : Nat} (flo : Fits (minOf w true)) (fhi : Fits (maxOf w true))
    (hle : minOf w true ≤ maxOf w true) : ∀ (e : Tree) (mn : Option Int), e.Good ρ →
    mn = none ∨ mn = some (minOf w true) →
    Means ρ (satOp e.expr w (some (maxOf w true)) mn).1 (e.clamped ρ (minOf w true) (maxOf w true)) ∧
    (satOp e.expr w (some (maxOf w true)) mn).1.ty.signed = true := by
  intro e
  induction e with
  | leaf t x =>
    intro mn h _
    exact ⟨Means.var h.2.1, h.1⟩
  | plus a b iha ihb =>
    intro mn h hmn
    have ha := iha mn h.1 hmn
    have hb := ihb mn h.2 hmn
    have hs : pySigned (.bin .plus a.expr b.expr) = true := tree_signed (.plus a b) h
    simp only [Tree.expr, satOp, hs]
    exact addWith_means ha.1 hb.1 ha.2 hb.2 (tree_clamped_fits flo fhi hle a h.1)
      (tree_clamped_fits flo fhi hle b h.2) flo fhi rfl (by rcases hmn with rfl | rfl <;> rfl)
  | minus a b iha ihb =>
    intro mn h hmn
    have ha := iha none h.1 (.inl rfl)
    have hb := ihb none h.2 (.inl rfl)
    have hs : pySigned (.bin .minus a.expr b.expr) = true := tree_signed (.minus a b) h
    simp only [Tree.expr, satOp, hs]
    exact subWith_means ha.1 hb.1 ha.2 hb.2 (tree_clamped_fits flo fhi hle a h.1)
      (tree_clamped_fits flo fhi hle b h.2) flo fhi rfl (by rcases hmn with rfl | rfl <;> rfl)

private theorem fits_of_width {w : Nat} (h1 : 1 ≤ w) (h : w ≤ 31) :
    Fits (minOf w true) ∧ Fits (maxOf w true) ∧ minOf w true ≤ maxOf w true := by
  unfold Fits minOf maxOf
  simp only [if_true]
  have h2 : (2 : Int) ^ (w - 1) ≤ 2 ^ 30 := by
    have := Nat.pow_le_pow_right (n := 2) (by omega) (show w - 1 ≤ 30 by omega)
    exact_mod_cast this
  have h3 : (1 : Int) ≤ 2 ^ (w - 1) := by
    have := two_pow_pos (w - 1)
    exact_mod_cast this
  omega

/-- C41: writing a sum or difference of signed variables to a signed variable of at most 31 bits saturates every
    operation to the range of the destination. -/
theorem c41_write (ρ : String → Int) (t : Ty) (e : Tree) (h1 : 1 ≤ t.width) (h31 : t.width ≤ 31)
    (hs : t.signed = true) (hg : e.Good ρ) :
    write ρ t e.expr = some (clamp (minOf t.width true) (maxOf t.width true)
      (e.clamped ρ (minOf t.width true) (maxOf t.width true))) := by
  obtain ⟨flo, fhi, hle⟩ := fits_of_width h1 h31
  have hm := satOp_means (ρ := ρ) flo fhi hle e (some (minOf t.width true)) hg (.inr rfl)
  have hrange : ∀ x, t.InRange (clamp (minOf t.width true) (maxOf t.width true) x) := by
    intro x
    have hc := clamp_spec hle x
    unfold minOf maxOf at hc
    simp only [if_true] at hc
    unfold Ty.InRange
    rw [if_pos hs]
    have : (2 : Int) ^ (t.width - 1) * 2 = (2 ^ t.width : Nat) := by
      have : 2 ^ (t.width - 1) * 2 = 2 ^ t.width := by rw [← Nat.pow_succ, Nat.succ_eq_add_one, Nat.sub_add_cancel h1]
      exact_mod_cast this
    unfold minOf maxOf
    simp only [if_true]
    omega
  unfold write toSaturate
  rw [hs]
  cases e with
  | leaf tx x =>
    have hk := cmp_signed .lt (Means.var hg.2.1) (means_small (ρ := ρ) flo) hg.1 (by rw [pyInt_ty])
      (by rw [pyInt_ty]; simp only []; omega) (by have := hg.2.2; unfold Fits at this; omega)
      (by unfold Fits at flo; omega)
    have := satBoth_means (w := t.width) (mx := some (maxOf t.width true)) (Means.var hg.2.1) hg.1
      (by have := hg.2.2; unfold Fits at this; omega) (lo := minOf t.width true) (by rw [hk]; simp [CmpOp.eval]) flo fhi rfl
    show Option.map _ (some (satBoth (.var tx x) (.cmp .lt (.var tx x) (.pyInt (minOf t.width true))) t.width
      (some (maxOf t.width true)) (some (minOf t.width true)) true)) = _
    rw [Option.map_some, assign_of_means this.1, Ty.wrap_of_inRange t (hrange _)]
    rfl
  | plus a b =>
    show Option.map _ (some (satOp (Tree.plus a b).expr t.width (some (maxOf t.width true))
      (some (minOf t.width true))).1) = _
    have hid : clamp (minOf t.width true) (maxOf t.width true)
        ((Tree.plus a b).clamped ρ (minOf t.width true) (maxOf t.width true)) =
        (Tree.plus a b).clamped ρ (minOf t.width true) (maxOf t.width true) := by
      have := clamp_spec hle (a.clamped ρ (minOf t.width true) (maxOf t.width true) +
        b.clamped ρ (minOf t.width true) (maxOf t.width true))
      exact (clamp_spec hle _).2.2 this.1 this.2.1
    rw [Option.map_some, assign_of_means hm.1, hid]
    exact congrArg some (Ty.wrap_of_inRange t (hrange _))
  | minus a b =>
    show Option.map _ (some (satOp (Tree.minus a b).expr t.width (some (maxOf t.width true))
      (some (minOf t.width true))).1) = _
    have hid : clamp (minOf t.width true) (maxOf t.width true)
        ((Tree.minus a b).clamped ρ (minOf t.width true) (maxOf t.width true)) =
        (Tree.minus a b).clamped ρ (minOf t.width true) (maxOf t.width true) := by
      have := clamp_spec hle (a.clamped ρ (minOf t.width true) (maxOf t.width true) -
        b.clamped ρ (minOf t.width true) (maxOf t.width true))
      exact (clamp_spec hle _).2.2 this.1 this.2.1
    rw [Option.map_some, assign_of_means hm.1, hid]
    exact congrArg some (Ty.wrap_of_inRange t (hrange _))

/-! ### Where the code does not saturate -/

/-- C41 does not hold for 32-bit operands: the bounds are compared in 32 bits, where the sum has already
    wrapped. -/
theorem c41_wide :
    let ρ : String → Int := fun x => if x = "a" then 2 ^ 31 - 1 else 1
    let v (x : String) := VExpr.var ⟨32, true⟩ x
    (add (v "a") (v "b") 32 none none).assign ρ ⟨32, true⟩ = - 2 ^ 31 := by decide

/-- C41 does not hold for an unsigned value written to a signed variable: 5 becomes -128, because the
    comparison with the lower bound is unsigned. -/
theorem c41_unsigned_to_signed :
    write (fun _ => 5) ⟨8, true⟩ (.var ⟨8, false⟩ "a") = some (-128) := by decide

/-- C41 does not hold for a negative value written to an unsigned variable: -5 becomes 251, not 0. -/
theorem c41_negative_to_unsigned :
    write (fun _ => -5) ⟨8, false⟩ (.var ⟨8, true⟩ "a") = some 251 := by decide

/-- C41 does not hold for an unsigned difference that exceeds `max`: 300 - 10 stays 290, and `min` is ignored
    by an unsigned sum. -/
theorem c41_unsigned_other_bound :
    let ρ : String → Int := fun x => if x = "a" then 300 else 10
    let v (x : String) := VExpr.var ⟨16, false⟩ x
    (sub (v "a") (v "b") 8 none none).assign ρ ⟨16, false⟩ = 290 ∧
    (add (v "b") (v "b") 8 none (some 50)).assign ρ ⟨16, false⟩ = 20 := by decide

/-- `to_saturate(signed = True)` without `min` raises an exception for a plain variable. -/
theorem c41_no_min (t : Ty) (x : String) (w : Nat) (mx : Option Int) :
    toSaturate (.var t x) w mx none true = none := rfl

/-! Examples. -/

private def ρ₀ : String → Int := fun x => if x = "a" then 100 else 90

private def t8 : Ty := ⟨8, true⟩

example : Means ρ₀ (.var t8 "a") 100 ∧ pySigned (.var t8 "a") = true ∧ Fits 100 ∧
    Fits (Option.getD none (minOf 8 true)) := by
  refine ⟨Means.var (ρ := ρ₀) (t := t8) (x := "a") (by unfold Ty.InRange; decide), rfl, ?_, ?_⟩ <;>
    unfold Fits <;> decide
example : (add (.var t8 "a") (.var t8 "b") 8 none none).assign ρ₀ t8 = 127 ∧
    (sub (.var t8 "b") (.var t8 "a") 8 none none).assign ρ₀ t8 = -10 := by decide
example : (Tree.minus (.plus (.leaf t8 "a") (.leaf t8 "b")) (.leaf t8 "b")).Good ρ₀ := by
  have ha : t8.signed = true ∧ t8.InRange (ρ₀ "a") ∧ Fits (ρ₀ "a") := by
    refine ⟨rfl, ?_, ?_⟩
    · unfold Ty.InRange; decide
    · unfold Fits; decide
  have hb : t8.signed = true ∧ t8.InRange (ρ₀ "b") ∧ Fits (ρ₀ "b") := by
    refine ⟨rfl, ?_, ?_⟩
    · unfold Ty.InRange; decide
    · unfold Fits; decide
  exact ⟨⟨ha, hb⟩, hb⟩
example : write ρ₀ t8 (Tree.minus (.plus (.leaf t8 "a") (.leaf t8 "b")) (.leaf t8 "b")).expr = some 37 := by
  decide

end Saturate
