import Verif.Lemmas.Resolver

/-!
# C44: constant resolution preserves the value of expressions

The reference is the Verilog value of the expression before and after resolution, under every valuation of the
remaining variables.  Resolution replaces sized and unsigned literals and parameters by unsized signed decimals
and computes with unbounded Python integers, so the value is kept where no intermediate result is wrapped by
its type, before or after (`Fits`), and not in general: the `c44_breaks_*` theorems are counterexamples.
-/

namespace Resolver

open Vlog VExpr

/-- The integer an expression denotes, with no widths: `/`, `%` truncate, right shifts round down; a concatenation,
    a repetition and `$signed` denote their Verilog value. -/
def exact (ρ : String → Int) : VExpr → Int
  | .lit _ v => v
  | .var _ x => ρ x
  | .neg e => - exact ρ e
  | .not e => - exact ρ e - 1
  | .lnot e => if exact ρ e = 0 then 1 else 0
  | .bin op a b => exactBin op (exact ρ a) (exact ρ b)
  | .shift op a b => exactSh op (exact ρ a) (exact ρ b)
  | .cmp op a b => if op.eval (exact ρ a) (exact ρ b) = true then 1 else 0
  | .land a b => if exact ρ a ≠ 0 ∧ exact ρ b ≠ 0 then 1 else 0
  | .lor a b => if exact ρ a ≠ 0 ∨ exact ρ b ≠ 0 then 1 else 0
  | .cond k a b => if exact ρ k ≠ 0 then exact ρ a else exact ρ b
  | .cat a b => (VExpr.cat a b).value ρ
  | .rep n e => (VExpr.rep n e).value ρ
  | .bit e i => exact ρ e / (2 ^ i : Nat) % 2
  | .slice e m l => exact ρ e / (2 ^ l : Nat) % (2 ^ (m - l + 1) : Nat)
  | .toSigned e => (VExpr.toSigned e).value ρ

/-- Every leaf is a literal or a parameter with a known value (and there is no `$signed`). -/
def Folded (d : Dict) : VExpr → Bool
  | .lit _ _ => true
  | .var _ x => (d x).isSome
  | .neg e | .not e | .lnot e | .rep _ e | .bit e _ | .slice e _ _ => Folded d e
  | .bin _ a b | .shift _ a b | .cmp _ a b | .land a b | .lor a b | .cat a b => Folded d a && Folded d b
  | .cond k a b => Folded d k && Folded d a && Folded d b
  | .toSigned _ => false

/-- No leaf is a literal or a parameter with a known value. -/
def Untouched (d : Dict) : VExpr → Bool
  | .lit _ _ => false
  | .var _ x => (d x).isNone
  | .neg e | .not e | .lnot e | .rep _ e | .bit e _ | .slice e _ _ | .toSigned e => Untouched d e
  | .bin _ a b | .shift _ a b | .cmp _ a b | .land a b | .lor a b | .cat a b => Untouched d a && Untouched d b
  | .cond k a b => Untouched d k && Untouched d a && Untouched d b

/-- The type Verilog gives the expression once constants have become unsized decimals. -/
def newTy (d : Dict) : VExpr → Ty
  | .lit _ _ => ⟨32, true⟩
  | .var t x => if (d x).isSome then ⟨32, true⟩ else t
  | .neg e => newTy d e
  | .not e => newTy d e
  | .lnot e => if Folded d e then ⟨32, true⟩ else ⟨1, false⟩
  | .bin _ a b => ⟨max (newTy d a).width (newTy d b).width, (newTy d a).signed && (newTy d b).signed⟩
  | .shift _ a _ => newTy d a
  | .cmp _ a b => if Folded d a && Folded d b then ⟨32, true⟩ else ⟨1, false⟩
  | .land a b => if Folded d a && Folded d b then ⟨32, true⟩ else ⟨1, false⟩
  | .lor a b => if Folded d a && Folded d b then ⟨32, true⟩ else ⟨1, false⟩
  | .cond _ a b => ⟨max (newTy d a).width (newTy d b).width, (newTy d a).signed && (newTy d b).signed⟩
  | .cat a b => if Folded d a && Folded d b then ⟨32, true⟩ else ⟨(newTy d a).width + (newTy d b).width, false⟩
  | .rep n e => if Folded d e then ⟨32, true⟩ else ⟨n * (newTy d e).width, false⟩
  | .bit e _ => if Folded d e then ⟨32, true⟩ else ⟨1, false⟩
  | .slice e m l => if Folded d e then ⟨32, true⟩ else ⟨m - l + 1, false⟩
  | .toSigned e => ⟨(newTy d e).width, true⟩

/-- One node is representable: in its type before resolution, in its type afterwards (a folded node is printed as a
    decimal below 2^31), and not negative where the context is unsigned. -/
def Node (d : Dict) (ρ : String → Int) (e : VExpr) (sg : Bool) : Prop :=
  e.ty.InRange (exact ρ e) ∧ (newTy d e).InRange (exact ρ e) ∧ (0 ≤ exact ρ e ∨ sg = true) ∧
    (Folded d e = true → (exact ρ e).natAbs < 2 ^ 31)

/-- No intermediate result is wrapped.  `sg` is the signedness of the context.  Concatenations, repetitions and
    `$signed` contain no constants; bit selects are within the variable; constants are not negative where Python
    rounds differently from Verilog. -/
def Fits (d : Dict) (ρ : String → Int) : VExpr → Bool → Prop
  | .lit t v, sg => Node d ρ (.lit t v) sg
  | .var t x, sg => Node d ρ (.var t x) sg
  | .neg e, sg => Node d ρ (.neg e) sg ∧ Fits d ρ e sg
  | .not e, sg => Node d ρ (.not e) sg ∧ Fits d ρ e sg
  | .lnot e, _ => Fits d ρ e e.ty.signed
  | .bin op a b, sg => Node d ρ (.bin op a b) sg ∧ Fits d ρ a sg ∧ Fits d ρ b sg ∧
      (bitwise op = true → 0 ≤ exact ρ a ∧ 0 ≤ exact ρ b) ∧
      (op = .divide ∨ op = .mod → exact ρ b ≠ 0 ∧
        (Folded d (.bin op a b) = true → 0 ≤ exact ρ a ∧ 0 ≤ exact ρ b))
  | .shift op a b, sg => Node d ρ (.shift op a b) sg ∧ Fits d ρ a sg ∧ Fits d ρ b b.ty.signed ∧ 0 ≤ exact ρ b ∧
      (op = .srl → 0 ≤ exact ρ a) ∧ (op = .sra → Folded d (.shift op a b) = true → 0 ≤ exact ρ a)
  | .cmp _ a b, _ => Fits d ρ a (join a b).signed ∧ Fits d ρ b (join a b).signed
  | .land a b, _ => Fits d ρ a a.ty.signed ∧ Fits d ρ b b.ty.signed
  | .lor a b, _ => Fits d ρ a a.ty.signed ∧ Fits d ρ b b.ty.signed
  | .cond k a b, sg => Node d ρ (.cond k a b) sg ∧ Fits d ρ k k.ty.signed ∧ Fits d ρ a sg ∧ Fits d ρ b sg
  | .cat a b, _ => Untouched d (.cat a b) = true
  | .rep n e, _ => Untouched d (.rep n e) = true
  | .bit e i, _ => ∃ t x, e = .var t x ∧ i < t.width ∧ t.InRange (ρ x)
  | .slice e m l, _ => ∃ t x, e = .var t x ∧ l ≤ m ∧ m < t.width ∧ t.InRange (ρ x) ∧
      (Folded d e = true → m - l < 31)
  | .toSigned e, sg => Untouched d (.toSigned e) = true ∧ (0 ≤ exact ρ (.toSigned e) ∨ sg = true)

/-- The valuation gives the parameters the values of the dictionary. -/
def Agree (d : Dict) (ρ : String → Int) : Prop := ∀ x v, d x = some v → ρ x = v

theorem newTy_of_folded (d : Dict) (e : VExpr) (h : Folded d e = true) : newTy d e = ⟨32, true⟩ := by
  induction e with
  | lit t v => rfl
  | var t x => simp only [Folded] at h; simp [newTy, h]
  | neg e ih => exact ih h
  | not e ih => exact ih h
  | lnot e ih => simp only [Folded] at h; simp [newTy, h]
  | bin op a b iha ihb =>
    simp only [Folded, Bool.and_eq_true] at h
    simp [newTy, iha h.1, ihb h.2]
  | shift op a b iha ihb =>
    simp only [Folded, Bool.and_eq_true] at h
    simp [newTy, iha h.1]
  | cmp op a b iha ihb => simp only [Folded] at h; simp [newTy, h]
  | land a b iha ihb => simp only [Folded] at h; simp [newTy, h]
  | lor a b iha ihb => simp only [Folded] at h; simp [newTy, h]
  | cond k a b _ iha ihb =>
    simp only [Folded, Bool.and_eq_true] at h
    simp [newTy, iha h.1.2, ihb h.2]
  | cat a b iha ihb => simp only [Folded] at h; simp [newTy, h]
  | rep n e ih => simp only [Folded] at h; simp [newTy, h]
  | bit e i ih => simp only [Folded] at h; simp [newTy, h]
  | slice e m l ih => simp only [Folded] at h; simp [newTy, h]
  | toSigned e ih => simp [Folded] at h

theorem newTy_signed (d : Dict) (e : VExpr) (h : e.ty.signed = true) : (newTy d e).signed = true := by
  induction e with
  | lit t v => rfl
  | var t x =>
    simp only [newTy]
    split
    · rfl
    · exact h
  | neg e ih => exact ih h
  | not e ih => exact ih h
  | bin op a b iha ihb =>
    simp only [VExpr.ty, Bool.and_eq_true] at h
    simp [newTy, iha h.1, ihb h.2]
  | shift op a b iha ihb => exact iha h
  | cond k a b _ iha ihb =>
    simp only [VExpr.ty, Bool.and_eq_true] at h
    simp [newTy, iha h.1, ihb h.2]
  | toSigned e ih => rfl
  | lnot | cmp | land | lor | cat | rep | bit | slice => simp [VExpr.ty] at h

theorem untouched_visit (d : Dict) (e : VExpr) (h : Untouched d e = true) :
    visit d e = some (.node e) ∧ newTy d e = e.ty ∧ Folded d e = false := by
  induction e with
  | lit t v => simp [Untouched] at h
  | var t x =>
    simp only [Untouched, Option.isNone_iff_eq_none] at h
    simp [visit, newTy, Folded, h, VExpr.ty]
  | neg e ih | not e ih | lnot e ih | rep n e ih | bit e i ih | slice e m l ih | toSigned e ih =>
    obtain ⟨h1, h2, h3⟩ := ih h
    simp [visit, newTy, Folded, VExpr.ty, h1, h2, h3, Res.expr]
  | bin op a b iha ihb | shift op a b iha ihb | cmp op a b iha ihb | land a b iha ihb | lor a b iha ihb
  | cat a b iha ihb =>
    simp only [Untouched, Bool.and_eq_true] at h
    obtain ⟨h1, h2, h3⟩ := iha h.1
    obtain ⟨k1, k2, k3⟩ := ihb h.2
    simp [visit, newTy, Folded, VExpr.ty, h1, h2, h3, k1, k2, k3, Res.expr]
  | cond k a b ihk iha ihb =>
    simp only [Untouched, Bool.and_eq_true] at h
    obtain ⟨j1, j2, j3⟩ := ihk h.1.1
    obtain ⟨h1, h2, h3⟩ := iha h.1.2
    obtain ⟨k1, k2, k3⟩ := ihb h.2
    simp [visit, newTy, Folded, VExpr.ty, j1, h1, h2, h3, k1, k2, k3, Res.expr]

theorem Sound.untouched_cat {ρ : String → Int} {a b : VExpr} {sg : Bool} :
    Sound ρ (.cat a b) ((VExpr.cat a b).value ρ) sg := by
  intro c hw hs _
  have hn : bits a.ty.width (a.eval ρ a.ty) * 2 ^ b.ty.width + bits b.ty.width (b.eval ρ b.ty)
      < 2 ^ (a.ty.width + b.ty.width) := by
    have h1 := bits_lt a.ty.width (a.eval ρ a.ty)
    have h2 := bits_lt b.ty.width (b.eval ρ b.ty)
    rw [Nat.pow_add]
    have := Nat.mul_le_mul_right (2 ^ b.ty.width) (Nat.succ_le_of_lt h1)
    rw [Nat.succ_mul] at this
    omega
  have hs' : c.signed = true → False := fun h => by simpa [VExpr.ty] using hs h
  have e1 := nat_wrap (c := c) (w := a.ty.width + b.ty.width) hw hs' hn
  have e2 := nat_wrap (c := (VExpr.cat a b).ty) (w := a.ty.width + b.ty.width) (Nat.le_refl _)
    (by simp [VExpr.ty]) hn
  exact e1.trans e2.symm

theorem repeatBits_lt (w b : Nat) (h : b < 2 ^ w) : ∀ n, repeatBits w b n < 2 ^ (n * w)
  | 0 => by simp [repeatBits]
  | n + 1 => by
    have ih := repeatBits_lt w b h n
    simp only [repeatBits]
    rw [Nat.succ_mul, Nat.pow_add]
    have := Nat.mul_le_mul_right (2 ^ w) (Nat.succ_le_of_lt ih)
    rw [Nat.succ_mul] at this
    omega

theorem Sound.untouched_rep {ρ : String → Int} {n : Nat} {e : VExpr} {sg : Bool} :
    Sound ρ (.rep n e) ((VExpr.rep n e).value ρ) sg := by
  intro c hw hs _
  have hn := repeatBits_lt e.ty.width _ (bits_lt e.ty.width (e.eval ρ e.ty)) n
  have hs' : c.signed = true → False := fun h => by simpa [VExpr.ty] using hs h
  have e1 := nat_wrap (c := c) (w := n * e.ty.width) hw hs' hn
  have e2 := nat_wrap (c := (VExpr.rep n e).ty) (w := n * e.ty.width) (Nat.le_refl _)
    (by simp [VExpr.ty]) hn
  exact e1.trans e2.symm

theorem Sound.untouched_signed {ρ : String → Int} {e : VExpr} {sg : Bool}
    (h : 0 ≤ (VExpr.toSigned e).value ρ ∨ sg = true) :
    Sound ρ (.toSigned e) ((VExpr.toSigned e).value ρ) sg := by
  have hv : (VExpr.toSigned e).value ρ = Ty.wrap ⟨e.ty.width, true⟩ (e.eval ρ e.ty) := by
    show extend ⟨e.ty.width, true⟩ (Ty.wrap ⟨e.ty.width, true⟩ (e.eval ρ e.ty)) ⟨e.ty.width, true⟩ = _
    exact extend_eq (Ty.wrap_inRange _ _) (Nat.le_refl _) rfl
  rw [hv] at h ⊢
  intro c hw hs hg
  have hr := Ty.wrap_inRange ⟨e.ty.width, true⟩ (e.eval ρ e.ty)
  have := extend_rep (c := c) (sg := sg) ⟨hr, h⟩ hw (fun _ => rfl) hg
  rw [Ty.wrap_wrap] at this
  exact this

theorem bool_node {d : Dict} {ρ : String → Int} {e : VExpr} {sg : Bool} (p : Prop) [Decidable p]
    (he : exact ρ e = if p then 1 else 0) (ht : e.ty = ⟨1, false⟩)
    (hn : newTy d e = if Folded d e then ⟨32, true⟩ else ⟨1, false⟩) : Node d ρ e sg := by
  have h01 : exact ρ e = 0 ∨ exact ρ e = 1 := by rw [he]; split <;> simp
  have h1 : Ty.InRange ⟨1, false⟩ (exact ρ e) := by
    rcases h01 with h | h <;> rw [h] <;> unfold Ty.InRange <;> decide
  refine ⟨ht ▸ h1, ?_, by omega, by omega⟩
  rw [hn]
  split
  · rcases h01 with h | h <;> rw [h] <;> unfold Ty.InRange <;> decide
  · exact h1

theorem fits_node {d : Dict} {ρ : String → Int} {e : VExpr} {sg : Bool} (h : Fits d ρ e sg) : Node d ρ e sg := by
  cases e with
  | lit t v => exact h
  | var t x => exact h
  | neg e => exact h.1
  | not e => exact h.1
  | lnot e => exact bool_node (exact ρ e = 0) rfl rfl rfl
  | bin op a b => exact h.1
  | shift op a b => exact h.1
  | cmp op a b => exact bool_node (op.eval (exact ρ a) (exact ρ b) = true) rfl rfl rfl
  | land a b => exact bool_node (exact ρ a ≠ 0 ∧ exact ρ b ≠ 0) rfl rfl rfl
  | lor a b => exact bool_node (exact ρ a ≠ 0 ∨ exact ρ b ≠ 0) rfl rfl rfl
  | cond k a b => exact h.1
  | cat a b =>
    obtain ⟨_, h2, h3⟩ := untouched_visit d _ h
    have hr : (VExpr.cat a b).ty.InRange (exact ρ (.cat a b)) := eval_inRange ρ _ _
    refine ⟨hr, h2 ▸ hr, Or.inl ?_, by simp [h3]⟩
    unfold Ty.InRange at hr
    rw [if_neg (by simp [VExpr.ty])] at hr
    exact hr.1
  | rep n e =>
    obtain ⟨_, h2, h3⟩ := untouched_visit d _ h
    have hr : (VExpr.rep n e).ty.InRange (exact ρ (.rep n e)) := eval_inRange ρ _ _
    refine ⟨hr, h2 ▸ hr, Or.inl ?_, by simp [h3]⟩
    unfold Ty.InRange at hr
    rw [if_neg (by simp [VExpr.ty])] at hr
    exact hr.1
  | bit e i =>
    refine bool_node (exact ρ (.bit e i) = 1) ?_ rfl rfl
    have : exact ρ (.bit e i) = exact ρ e / (2 ^ i : Nat) % 2 := rfl
    split <;> omega
  | slice e m l =>
    obtain ⟨t, x, rfl, hlm, hm, hr, hf⟩ := h
    have hp : (0 : Int) < (2 ^ (m - l + 1) : Nat) := by exact_mod_cast two_pow_pos _
    have he : exact ρ (.slice (.var t x) m l) = ρ x / (2 ^ l : Nat) % (2 ^ (m - l + 1) : Nat) := rfl
    have h0 := Int.emod_nonneg (ρ x / (2 ^ l : Nat)) (b := ((2 ^ (m - l + 1) : Nat) : Int)) (by omega)
    have h1 := Int.emod_lt_of_pos (ρ x / (2 ^ l : Nat)) hp
    rw [← he] at h0 h1
    have h2 : Ty.InRange ⟨m - l + 1, false⟩ (exact ρ (.slice (.var t x) m l)) := by
      unfold Ty.InRange
      exact ⟨h0, h1⟩
    have h3 : Folded d (.var t x) = true → (exact ρ (.slice (.var t x) m l)).natAbs < 2 ^ 31 := by
      intro h
      have : 2 ^ (m - l + 1) ≤ 2 ^ 31 := Nat.pow_le_pow_right (by omega) (hf h)
      omega
    refine ⟨h2, ?_, Or.inl h0, h3⟩
    simp only [newTy]
    split
    · have := h3 ‹_›
      unfold Ty.InRange
      simp only [if_true]
      omega
    · exact h2
  | toSigned e =>
    obtain ⟨hu, h0⟩ := h
    obtain ⟨_, h2, h3⟩ := untouched_visit d _ hu
    have hr : (VExpr.toSigned e).ty.InRange (exact ρ (.toSigned e)) := eval_inRange ρ _ _
    exact ⟨hr, h2 ▸ hr, h0, by simp [h3]⟩

theorem Node.rep {d : Dict} {ρ : String → Int} {e : VExpr} {sg : Bool} (h : Node d ρ e sg) :
    Rep e.ty sg (exact ρ e) := ⟨h.1, h.2.2.1⟩

theorem Node.rep' {d : Dict} {ρ : String → Int} {e : VExpr} {sg : Bool} (h : Node d ρ e sg) :
    Rep (newTy d e) sg (exact ρ e) := ⟨h.2.1, h.2.2.1⟩

theorem Node.const {d : Dict} {ρ : String → Int} {e : VExpr} {sg : Bool} (h : Node d ρ e sg)
    (hf : Folded d e = true) : Sound ρ (VExpr.pyInt (exact ρ e)) (exact ρ e) sg :=
  Sound.pyInt (h.2.2.2 hf) h.2.2.1

theorem sound_bit {ρ : String → Int} {t : Ty} {x : String} {i : Nat} {sg : Bool} (hi : i < t.width)
    (hr : t.InRange (ρ x)) : Sound ρ (.bit (.var t x) i) (ρ x / (2 ^ i : Nat) % 2) sg := by
  intro c hw hs _
  have hv : (VExpr.var t x).eval ρ t = ρ x :=
    (Sound.var (sg := t.signed) ⟨hr, by
      unfold Ty.InRange at hr
      split at hr
      · right; assumption
      · left; exact hr.1⟩).self id
  show c.wrap (bits t.width ((VExpr.var t x).eval ρ t) / 2 ^ i % 2 : Nat) = _
  rw [hv]
  have hb := bits_field (w := t.width) (l := i) (k := 1) (by omega) (ρ x)
  rw [nat_wrap (w := 1) hw (fun h => by simpa [VExpr.ty] using hs h) (by omega)]
  exact hb

theorem sound_slice {ρ : String → Int} {t : Ty} {x : String} {m l : Nat} {sg : Bool} (hl : l ≤ m) (hm : m < t.width)
    (hr : t.InRange (ρ x)) :
    Sound ρ (.slice (.var t x) m l) (ρ x / (2 ^ l : Nat) % (2 ^ (m - l + 1) : Nat)) sg := by
  intro c hw hs _
  have hv : (VExpr.var t x).eval ρ t = ρ x :=
    (Sound.var (sg := t.signed) ⟨hr, by
      unfold Ty.InRange at hr
      split at hr
      · right; assumption
      · left; exact hr.1⟩).self id
  show c.wrap (bits t.width ((VExpr.var t x).eval ρ t) / 2 ^ l % 2 ^ (m - l + 1) : Nat) = _
  rw [hv]
  have hb := bits_field (w := t.width) (l := l) (k := m - l + 1) (by omega) (ρ x)
  rw [nat_wrap (w := m - l + 1) hw (fun h => by simpa [VExpr.ty] using hs h) (Nat.mod_lt _ (two_pow_pos _))]
  exact hb

/-- The expression before resolution computes the integer it denotes. -/
theorem fits_sound {d : Dict} {ρ : String → Int} (e : VExpr) : ∀ {sg : Bool}, Fits d ρ e sg →
    Sound ρ e (exact ρ e) sg := by
  induction e with
  | lit t v => intro sg h; exact Sound.lit h.rep
  | var t x => intro sg h; exact Sound.var h.rep
  | neg e ih => intro sg h; exact (ih h.2).neg h.1.rep
  | not e ih => intro sg h; exact (ih h.2).not h.1.rep
  | lnot e ih => intro sg h; exact (ih h).lnot id
  | bin op a b iha ihb =>
    intro sg h
    exact Sound.bin op (iha h.2.1) (ihb h.2.2.1) (fits_node h.2.1).rep (fits_node h.2.2.1).rep h.2.2.2.1 h.1.rep
  | shift op a b iha ihb =>
    intro sg h
    exact Sound.shift op (iha h.2.1) (ihb h.2.2.1) id (fits_node h.2.1).rep (fits_node h.2.2.1).1 h.2.2.2.1
      h.2.2.2.2.1 h.1.rep
  | cmp op a b iha ihb => intro sg h; exact Sound.cmp op (iha h.1) (ihb h.2) id
  | land a b iha ihb => intro sg h; exact Sound.land (iha h.1) id (ihb h.2) id
  | lor a b iha ihb => intro sg h; exact Sound.lor (iha h.1) id (ihb h.2) id
  | cond k a b ihk iha ihb =>
    intro sg h
    exact Sound.cond (ihk h.2.1) id (iha h.2.2.1) (ihb h.2.2.2)
  | cat a b => intro sg _; exact Sound.untouched_cat
  | rep n e => intro sg _; exact Sound.untouched_rep
  | bit e i =>
    intro sg h
    obtain ⟨t, x, rfl, hi, hr⟩ := h
    exact sound_bit hi hr
  | slice e m l =>
    intro sg h
    obtain ⟨t, x, rfl, hl, hm, hr, _⟩ := h
    exact sound_slice hl hm hr
  | toSigned e => intro sg h; exact Sound.untouched_signed h.2

/-- What the visitor returns: a constant exactly for a folded expression, and in any case an operand that computes
    the same integer. -/
def Out (d : Dict) (ρ : String → Int) (e : VExpr) (sg : Bool) (r : Res) : Prop :=
  visit d e = some r ∧ (Folded d e = true → r = .const (exact ρ e)) ∧
    (Folded d e = false → ∃ e', r = .node e') ∧ r.expr.ty = newTy d e ∧ Sound ρ r.expr (exact ρ e) sg

theorem out_const {d : Dict} {ρ : String → Int} {e : VExpr} {sg : Bool} (hn : Node d ρ e sg)
    (hf : Folded d e = true) (hv : visit d e = some (.const (exact ρ e))) : Out d ρ e sg (.const (exact ρ e)) :=
  ⟨hv, fun _ => rfl, by simp [hf], by rw [newTy_of_folded d e hf]; exact pyInt_ty _, hn.const hf⟩

theorem out_node {d : Dict} {ρ : String → Int} {e e' : VExpr} {sg : Bool}
    (hf : Folded d e = false) (hv : visit d e = some (.node e')) (ht : e'.ty = newTy d e)
    (hs : Sound ρ e' (exact ρ e) sg) : Out d ρ e sg (.node e') :=
  ⟨hv, by simp [hf], fun _ => ⟨e', rfl⟩, ht, hs⟩

theorem out_untouched {d : Dict} {ρ : String → Int} {e : VExpr} {sg : Bool} (h : Untouched d e = true)
    (hs : Sound ρ e (exact ρ e) sg) : Out d ρ e sg (.node e) :=
  have ⟨h1, h2, h3⟩ := untouched_visit d e h
  out_node h3 h1 h2.symm hs

theorem foldBin_exact (op : BinOp) (x y : Int) (hb : bitwise op = true → 0 ≤ x ∧ 0 ≤ y)
    (hd : op = .divide ∨ op = .mod → y ≠ 0 ∧ 0 ≤ x ∧ 0 ≤ y) : foldBin op x y = some (exactBin op x y) := by
  cases op <;> simp only [foldBin, exactBin]
  case divide =>
    obtain ⟨h1, h2, h3⟩ := hd (Or.inl rfl)
    rw [if_neg h1, Int.fdiv_eq_tdiv_of_nonneg h2 h3]
  case mod =>
    obtain ⟨h1, h2, h3⟩ := hd (Or.inr rfl)
    rw [if_neg h1, Int.fmod_eq_tmod_of_nonneg h2 h3]
  all_goals
    obtain ⟨h1, h2⟩ := hb rfl
    obtain ⟨m, rfl⟩ := Int.eq_ofNat_of_zero_le h1
    obtain ⟨n, rfl⟩ := Int.eq_ofNat_of_zero_le h2
    rfl

theorem foldSh_exact (op : ShOp) (x y : Int) (hy : 0 ≤ y) (hx : op = .sra → 0 ≤ x) :
    foldSh op x y = some (exactSh op x y) := by
  cases op <;> simp only [foldSh, exactSh]
  · rw [if_neg (by omega)]
  · rw [if_neg (by omega)]
  · rw [if_neg (by omega), if_pos (hx rfl)]

theorem two_cases {d : Dict} {ρ : String → Int} {a b : VExpr} {sa sb : Bool} {ra rb : Res}
    (ha : Out d ρ a sa ra) (hb : Out d ρ b sb rb) (h : (Folded d a && Folded d b) = false) :
    (∃ e', ra = .node e') ∨ (∃ e', rb = .node e') := by
  cases hfa : Folded d a
  · exact Or.inl (ha.2.2.1 hfa)
  · right
    rw [hfa, Bool.true_and] at h
    exact hb.2.2.1 h

theorem ofBool_eq (b : Bool) : ofBool b = if b = true then 1 else 0 := rfl

theorem visit_out {d : Dict} {ρ : String → Int} (hag : Agree d ρ) (e : VExpr) : ∀ {sg : Bool}, Fits d ρ e sg →
    ∃ r, Out d ρ e sg r := by
  induction e with
  | lit t v => intro sg h; exact ⟨_, out_const h rfl rfl⟩
  | var t x =>
    intro sg h
    cases hd : d x with
    | none => exact ⟨_, out_untouched (by simp [Untouched, hd]) (Sound.var h.rep)⟩
    | some v =>
      refine ⟨_, out_const h (by simp [Folded, hd]) ?_⟩
      show (match d x with
        | some v => some (Res.const v)
        | none => some (.node (.var t x))) = some (.const (ρ x))
      rw [hag x v hd, hd]
  | neg e ih =>
    intro sg h
    obtain ⟨r, hr⟩ := ih h.2
    cases hf : Folded d e
    · obtain ⟨e', rfl⟩ := hr.2.2.1 hf
      exact ⟨.node (.neg e'), out_node hf (by simp [visit, hr.1]) hr.2.2.2.1
        (Sound.neg (e := e') hr.2.2.2.2 (by
          rw [show e'.ty = newTy d e from hr.2.2.2.1]; exact h.1.rep'))⟩
    · have := hr.2.1 hf
      subst this
      exact ⟨_, out_const h.1 hf (by simp [visit, hr.1, exact])⟩
  | not e ih =>
    intro sg h
    obtain ⟨r, hr⟩ := ih h.2
    cases hf : Folded d e
    · obtain ⟨e', rfl⟩ := hr.2.2.1 hf
      exact ⟨.node (.not e'), out_node hf (by simp [visit, hr.1]) hr.2.2.2.1
        (Sound.not (e := e') hr.2.2.2.2 (by
          rw [show e'.ty = newTy d e from hr.2.2.2.1]; exact h.1.rep'))⟩
    · have := hr.2.1 hf
      subst this
      exact ⟨_, out_const h.1 hf (by simp [visit, hr.1, exact])⟩
  | lnot e ih =>
    intro sg h
    obtain ⟨r, hr⟩ := ih h
    cases hf : Folded d e
    · obtain ⟨e', rfl⟩ := hr.2.2.1 hf
      exact ⟨.node (.lnot e'), out_node hf (by simp [visit, hr.1]) (by simp [newTy, hf, VExpr.ty])
        (Sound.lnot (e := e') hr.2.2.2.2 (by
          rw [show e'.ty = newTy d e from hr.2.2.2.1]; exact newTy_signed d e))⟩
    · have := hr.2.1 hf
      subst this
      exact ⟨_, out_const (e := .lnot e) (fits_node h) hf (by simp [visit, hr.1, exact, ofBool])⟩
  | bin op a b iha ihb =>
    intro sg h
    obtain ⟨ra, ha⟩ := iha h.2.1
    obtain ⟨rb, hb⟩ := ihb h.2.2.1
    cases hf : Folded d (.bin op a b)
    · refine ⟨.node (.bin op ra.expr rb.expr), out_node hf ?_ ?_ ?_⟩
      · rcases two_cases ha hb hf with ⟨e', rfl⟩ | ⟨e', rfl⟩
        · simp [visit, ha.1, hb.1]
        · cases ra <;> simp [visit, ha.1, hb.1]
      · simp [VExpr.ty, newTy, ha.2.2.2.1, hb.2.2.2.1]
      · refine Sound.bin op ha.2.2.2.2 hb.2.2.2.2 ?_ ?_ h.2.2.2.1 ?_
        · rw [ha.2.2.2.1]; exact (fits_node h.2.1).rep'
        · rw [hb.2.2.2.1]; exact (fits_node h.2.2.1).rep'
        · have := h.1.rep'
          simp only [VExpr.ty, ha.2.2.2.1, hb.2.2.2.1]
          exact this
    · have hf' := hf
      simp only [Folded, Bool.and_eq_true] at hf'
      have e1 := ha.2.1 hf'.1
      have e2 := hb.2.1 hf'.2
      subst e1 e2
      refine ⟨_, out_const h.1 hf ?_⟩
      have := foldBin_exact op (exact ρ a) (exact ρ b) h.2.2.2.1
        (fun ho => ⟨(h.2.2.2.2 ho).1, (h.2.2.2.2 ho).2 hf⟩)
      simp [visit, ha.1, hb.1, this, exact]
  | shift op a b iha ihb =>
    intro sg h
    obtain ⟨ra, ha⟩ := iha h.2.1
    obtain ⟨rb, hb⟩ := ihb h.2.2.1
    cases hf : Folded d (.shift op a b)
    · refine ⟨.node (.shift op ra.expr rb.expr), out_node hf ?_ ?_ ?_⟩
      · rcases two_cases ha hb hf with ⟨e', rfl⟩ | ⟨e', rfl⟩
        · simp [visit, ha.1, hb.1]
        · cases ra <;> simp [visit, ha.1, hb.1]
      · simp [VExpr.ty, newTy, ha.2.2.2.1]
      · refine Sound.shift op ha.2.2.2.2 hb.2.2.2.2 ?_ ?_ ?_ h.2.2.2.1 h.2.2.2.2.1 ?_
        · rw [hb.2.2.2.1]; exact newTy_signed d b
        · rw [ha.2.2.2.1]; exact (fits_node h.2.1).rep'
        · rw [hb.2.2.2.1]; exact (fits_node h.2.2.1).2.1
        · rw [ha.2.2.2.1]; exact h.1.rep'
    · have hf' := hf
      simp only [Folded, Bool.and_eq_true] at hf'
      have e1 := ha.2.1 hf'.1
      have e2 := hb.2.1 hf'.2
      subst e1 e2
      refine ⟨_, out_const h.1 hf ?_⟩
      have := foldSh_exact op (exact ρ a) (exact ρ b) h.2.2.2.1 (fun ho => h.2.2.2.2.2 ho hf)
      simp [visit, ha.1, hb.1, this, exact]
  | cmp op a b iha ihb =>
    intro sg h
    obtain ⟨ra, ha⟩ := iha h.1
    obtain ⟨rb, hb⟩ := ihb h.2
    cases hf : Folded d (.cmp op a b)
    · refine ⟨.node (.cmp op ra.expr rb.expr), out_node hf ?_ ?_ ?_⟩
      · rcases two_cases ha hb hf with ⟨e', rfl⟩ | ⟨e', rfl⟩
        · simp [visit, ha.1, hb.1]
        · cases ra <;> simp [visit, ha.1, hb.1]
      · simp only [Folded] at hf
        simp [VExpr.ty, newTy, hf]
      · refine Sound.cmp op ha.2.2.2.2 hb.2.2.2.2 ?_
        intro hj
        simp only [join, Bool.and_eq_true] at hj
        simp only [join, ha.2.2.2.1, hb.2.2.2.1, newTy_signed d a hj.1, newTy_signed d b hj.2, Bool.and_self]
    · have hf' := hf
      simp only [Folded, Bool.and_eq_true] at hf'
      have e1 := ha.2.1 hf'.1
      have e2 := hb.2.1 hf'.2
      subst e1 e2
      exact ⟨_, out_const (e := .cmp op a b) (fits_node h) hf (by simp [visit, ha.1, hb.1, exact, ofBool])⟩
  | land a b iha ihb =>
    intro sg h
    obtain ⟨ra, ha⟩ := iha h.1
    obtain ⟨rb, hb⟩ := ihb h.2
    cases hf : Folded d (.land a b)
    · refine ⟨.node (.land ra.expr rb.expr), out_node hf ?_ ?_ ?_⟩
      · rcases two_cases ha hb hf with ⟨e', rfl⟩ | ⟨e', rfl⟩
        · simp [visit, ha.1, hb.1]
        · cases ra <;> simp [visit, ha.1, hb.1]
      · simp only [Folded] at hf
        simp [VExpr.ty, newTy, hf]
      · refine Sound.land ha.2.2.2.2 ?_ hb.2.2.2.2 ?_
        · rw [ha.2.2.2.1]; exact newTy_signed d a
        · rw [hb.2.2.2.1]; exact newTy_signed d b
    · have hf' := hf
      simp only [Folded, Bool.and_eq_true] at hf'
      have e1 := ha.2.1 hf'.1
      have e2 := hb.2.1 hf'.2
      subst e1 e2
      exact ⟨_, out_const (e := .land a b) (fits_node h) hf (by simp [visit, ha.1, hb.1, exact, ofBool])⟩
  | lor a b iha ihb =>
    intro sg h
    obtain ⟨ra, ha⟩ := iha h.1
    obtain ⟨rb, hb⟩ := ihb h.2
    cases hf : Folded d (.lor a b)
    · refine ⟨.node (.lor ra.expr rb.expr), out_node hf ?_ ?_ ?_⟩
      · rcases two_cases ha hb hf with ⟨e', rfl⟩ | ⟨e', rfl⟩
        · simp [visit, ha.1, hb.1]
        · cases ra <;> simp [visit, ha.1, hb.1]
      · simp only [Folded] at hf
        simp [VExpr.ty, newTy, hf]
      · refine Sound.lor ha.2.2.2.2 ?_ hb.2.2.2.2 ?_
        · rw [ha.2.2.2.1]; exact newTy_signed d a
        · rw [hb.2.2.2.1]; exact newTy_signed d b
    · have hf' := hf
      simp only [Folded, Bool.and_eq_true] at hf'
      have e1 := ha.2.1 hf'.1
      have e2 := hb.2.1 hf'.2
      subst e1 e2
      exact ⟨_, out_const (e := .lor a b) (fits_node h) hf (by simp [visit, ha.1, hb.1, exact, ofBool])⟩
  | cond k a b ihk iha ihb =>
    intro sg h
    obtain ⟨rk, hk⟩ := ihk h.2.1
    obtain ⟨ra, ha⟩ := iha h.2.2.1
    obtain ⟨rb, hb⟩ := ihb h.2.2.2
    cases hf : Folded d (.cond k a b)
    · refine ⟨.node (.cond rk.expr ra.expr rb.expr), out_node hf ?_ ?_ ?_⟩
      · have : (∃ e', rk = .node e') ∨ (∃ e', ra = .node e') ∨ (∃ e', rb = .node e') := by
          simp only [Folded, Bool.and_eq_false_iff] at hf
          rcases hf with (h | h) | h
          · exact Or.inl (hk.2.2.1 h)
          · exact Or.inr (Or.inl (ha.2.2.1 h))
          · exact Or.inr (Or.inr (hb.2.2.1 h))
        rcases this with ⟨e', rfl⟩ | ⟨e', rfl⟩ | ⟨e', rfl⟩
        · simp [visit, ha.1, hb.1, hk.1]
        · cases rk <;> simp [visit, ha.1, hb.1, hk.1]
        · cases rk <;> cases ra <;> simp [visit, ha.1, hb.1, hk.1]
      · simp [VExpr.ty, newTy, ha.2.2.2.1, hb.2.2.2.1]
      · refine Sound.cond hk.2.2.2.2 ?_ ha.2.2.2.2 hb.2.2.2.2
        rw [hk.2.2.2.1]; exact newTy_signed d k
    · have hf' := hf
      simp only [Folded, Bool.and_eq_true] at hf'
      have e0 := hk.2.1 hf'.1.1
      have e1 := ha.2.1 hf'.1.2
      have e2 := hb.2.1 hf'.2
      subst e0 e1 e2
      exact ⟨_, out_const h.1 hf (by simp [visit, ha.1, hb.1, hk.1, exact])⟩
  | cat a b => intro sg h; exact ⟨_, out_untouched h Sound.untouched_cat⟩
  | rep n e => intro sg h; exact ⟨_, out_untouched h Sound.untouched_rep⟩
  | bit e i =>
    intro sg h
    have hn := fits_node h
    obtain ⟨t, x, rfl, hi, hr⟩ := h
    cases hd : d x with
    | none => exact ⟨_, out_untouched (by simp [Untouched, hd]) (sound_bit hi hr)⟩
    | some v =>
      refine ⟨_, out_const hn (by simp [Folded, hd]) ?_⟩
      simp [visit, hd, exact, hag x v hd]
  | slice e m l =>
    intro sg h
    have hn := fits_node h
    obtain ⟨t, x, rfl, hl, hm, hr, _⟩ := h
    cases hd : d x with
    | none => exact ⟨_, out_untouched (by simp [Untouched, hd]) (sound_slice hl hm hr)⟩
    | some v =>
      refine ⟨_, out_const hn (by simp [Folded, hd]) ?_⟩
      simp [visit, hd, exact, hag x v hd]
  | toSigned e => intro sg h; exact ⟨_, out_untouched h.1 (Sound.untouched_signed h.2)⟩

/-- **C44, value.**  If no intermediate result is wrapped, resolution succeeds and the resolved expression has the
    same value: as a condition, and assigned to a variable of any type. -/
theorem c44_value {d : Dict} {ρ : String → Int} (hag : Agree d ρ) (e : VExpr) (h : Fits d ρ e e.ty.signed) :
    ∃ r, visit d e = some r ∧ r.expr.value ρ = e.value ρ ∧ ∀ t, r.expr.assign ρ t = e.assign ρ t := by
  obtain ⟨r, hv, _, _, ht, hs⟩ := visit_out hag e h
  have ho := fits_sound e h
  have hg : e.ty.signed = true → r.expr.ty.signed = true := by rw [ht]; exact newTy_signed d e
  refine ⟨r, hv, ?_, ?_⟩
  · exact (hs.self hg).trans (ho.self id).symm
  · intro t
    unfold VExpr.assign
    rw [hs ⟨max t.width r.expr.ty.width, r.expr.ty.signed⟩ (Nat.le_max_right _ _) id hg,
      ho ⟨max t.width e.ty.width, e.ty.signed⟩ (Nat.le_max_right _ _) id id]

/-- **C44, folding.**  Such an expression becomes a number exactly if all its leaves are literals or known
    parameters; the number is the value of the expression. -/
theorem c44_fold {d : Dict} {ρ : String → Int} (hag : Agree d ρ) (e : VExpr) (h : Fits d ρ e e.ty.signed) :
    (Folded d e = true ↔ ∃ v, visit d e = some (.const v)) ∧
      ∀ v, visit d e = some (.const v) → v = e.value ρ := by
  obtain ⟨r, hv, hc, hn, ht, hs⟩ := visit_out hag e h
  have ho := fits_sound e h
  have key : ∀ v, visit d e = some (.const v) → Folded d e = true ∧ v = exact ρ e := by
    intro v hv'
    rw [hv] at hv'
    cases hf : Folded d e
    · obtain ⟨e', rfl⟩ := hn hf
      simp at hv'
    · rw [hc hf] at hv'
      simp at hv'
      exact ⟨rfl, hv'.symm⟩
  refine ⟨⟨fun hf => ⟨_, by rw [hv, hc hf]⟩, fun ⟨v, hv'⟩ => (key v hv').1⟩, ?_⟩
  intro v hv'
  rw [(key v hv').2]
  exact (ho.self id).symm

/-! ## Constant concatenations and repetitions -/

theorem lor_shift (m y w : Nat) (h : y < 2 ^ w) :
    Int.lor ((m : Int) * (2 ^ w : Nat)) (y : Int) = ((m * 2 ^ w + y : Nat) : Int) := by
  have h1 : ((m : Int) * (2 ^ w : Nat)) = ((m * 2 ^ w : Nat) : Int) := by push_cast; rfl
  rw [h1]
  show ((Nat.lor (m * 2 ^ w) y : Nat) : Int) = _
  congr 1
  rw [Nat.mul_comm m, Nat.two_pow_add_eq_or_of_lt h]
  rfl

theorem wrap_unsigned (w n : Nat) (h : n < 2 ^ w) : Ty.wrap ⟨w, false⟩ (n : Int) = n := by
  have := nat_wrap (c := ⟨w, false⟩) (w := w) (Nat.le_refl _) (by simp) h
  exact this

/-- **C44, concatenation of constants.**  When both operands are folded to their (non-negative) values and the
    library computes the width of the right operand as Verilog does, the concatenation is folded to its value.
    (`c44_breaks_cat_sum`: without agreement on the width it is not.) -/
theorem c44_cat {d : Dict} {ρ : String → Int} {a b : VExpr} {x y : Nat} (ha : visit d a = some (.const x))
    (hb : visit d b = some (.const y)) (hx : a.value ρ = x) (hy : b.value ρ = y) (hxr : x < 2 ^ a.ty.width)
    (hyr : y < 2 ^ b.ty.width) (hw : pyWidth b = b.ty.width) :
    visit d (.cat a b) = some (.const ((VExpr.cat a b).value ρ)) := by
  have hba : bits a.ty.width (a.eval ρ a.ty) = x := by
    have : a.eval ρ a.ty = x := hx
    rw [this, bits, Int.emod_eq_of_lt (Int.natCast_nonneg _) (by exact_mod_cast hxr), Int.toNat_natCast]
  have hbb : bits b.ty.width (b.eval ρ b.ty) = y := by
    have : b.eval ρ b.ty = y := hy
    rw [this, bits, Int.emod_eq_of_lt (Int.natCast_nonneg _) (by exact_mod_cast hyr), Int.toNat_natCast]
  have hn : x * 2 ^ b.ty.width + y < 2 ^ (a.ty.width + b.ty.width) := by
    rw [Nat.pow_add]
    have := Nat.mul_le_mul_right (2 ^ b.ty.width) (Nat.succ_le_of_lt hxr)
    rw [Nat.succ_mul] at this
    omega
  have hv : (VExpr.cat a b).value ρ = ((x * 2 ^ b.ty.width + y : Nat) : Int) := by
    show Ty.wrap ⟨a.ty.width + b.ty.width, false⟩ ((bits a.ty.width (a.eval ρ a.ty) * 2 ^ b.ty.width +
      bits b.ty.width (b.eval ρ b.ty) : Nat) : Int) = _
    rw [hba, hbb]
    exact wrap_unsigned _ _ hn
  rw [hv]
  simp only [visit, ha, hb, hw]
  show some (Res.const (Int.lor ((x : Int) * (2 ^ b.ty.width : Nat)) (y : Int))) = _
  rw [lor_shift x y _ hyr]

/-- **C44, repetition of a constant.** -/
theorem c44_repeat {d : Dict} {ρ : String → Int} {e : VExpr} {x : Nat} (n : Nat) (he : visit d e = some (.const x))
    (hx : e.value ρ = x) (hxr : x < 2 ^ e.ty.width) (hw : pyWidth e = e.ty.width) :
    visit d (.rep n e) = some (.const ((VExpr.rep n e).value ρ)) := by
  have hba : bits e.ty.width (e.eval ρ e.ty) = x := by
    have : e.eval ρ e.ty = x := hx
    rw [this, bits, Int.emod_eq_of_lt (Int.natCast_nonneg _) (by exact_mod_cast hxr), Int.toNat_natCast]
  have hf : ∀ k, foldRep x e.ty.width k = ((repeatBits e.ty.width x k : Nat) : Int) := by
    intro k
    induction k with
    | zero => rfl
    | succ k ih => rw [foldRep, ih, repeatBits, lor_shift _ _ _ hxr]
  have hv : (VExpr.rep n e).value ρ = ((repeatBits e.ty.width x n : Nat) : Int) := by
    show Ty.wrap ⟨n * e.ty.width, false⟩ ((repeatBits e.ty.width (bits e.ty.width (e.eval ρ e.ty)) n : Nat) : Int) = _
    rw [hba]
    exact wrap_unsigned _ _ (repeatBits_lt _ _ hxr n)
  rw [hv]
  simp only [visit, he, hw]
  show some (Res.const (foldRep x e.ty.width n)) = _
  rw [hf]

/-- Example: `{P, {3{2'd1}}}` with an 8-bit parameter `P = 5` is folded to `5 * 64 + 21`. -/
example : ∃ v, visit (fun _ => some 5) (.cat (.var ⟨8, false⟩ "P") (.rep 3 (.lit ⟨2, false⟩ 1))) = some (.const v) ∧
    v = 341 ∧ (VExpr.cat (.var ⟨8, false⟩ "P") (.rep 3 (.lit ⟨2, false⟩ 1))).value (fun _ => 5) = v := by
  refine ⟨_, c44_cat (x := 5) (y := 21) (ρ := fun _ => 5) rfl ?_ (by decide) (by decide) (by decide) (by decide) (by decide),
    by decide, rfl⟩
  have := c44_repeat (d := fun _ => some 5) (ρ := fun _ => 5) (e := .lit ⟨2, false⟩ 1) (x := 1) 3 rfl (by decide)
    (by decide) (by decide)
  rw [this]
  decide

/-! ## Concrete cases -/

/-- A dictionary `W = 8`. -/
def exDict : Dict := fun x => if x = "W" then some 8 else none

/-- A valuation that agrees with it. -/
def exEnv : String → Int := fun x => if x = "W" then 8 else if x = "s" then -3 else 200

theorem exAgree : Agree exDict exEnv := by
  intro x v h
  unfold exDict at h
  split at h
  · rename_i hx
    simp at h
    subst hx h
    rfl
  · simp at h

/-- `(x < (1 << W)) ? x + (W * 8'd2 - 1) : x[W-1:0]` with `x` 16 bits: the hypotheses of `c44_value` hold, and the
    resolved expression is `(x < 256) ? x + 15 : x[7:0]`. -/
def exExpr : VExpr :=
  .cond (.cmp .lt (.var ⟨16, false⟩ "x") (.shift .sll (.lit ⟨32, true⟩ 1) (.var ⟨32, true⟩ "W")))
    (.bin .plus (.var ⟨16, false⟩ "x")
      (.bin .minus (.bin .times (.var ⟨32, true⟩ "W") (.lit ⟨8, false⟩ 2)) (.lit ⟨32, true⟩ 1)))
    (.slice (.var ⟨16, false⟩ "x") 7 0)

example : Fits exDict exEnv exExpr exExpr.ty.signed := by
  unfold exExpr
  simp only [Fits, Node, Ty.InRange]
  refine ⟨by decide, ⟨by decide, ⟨by decide, by decide, by decide, by decide, by decide, by decide⟩⟩, ⟨by decide, by decide, ⟨by decide, ⟨by decide, by decide, by decide, by decide, by decide⟩, by decide, by decide, by decide⟩, by decide, by decide⟩, ⟨16, false⟩, "x", rfl, by decide⟩

example : visit exDict exExpr = some (.node (.cond (.cmp .lt (.var ⟨16, false⟩ "x") (.lit ⟨32, true⟩ 256))
    (.bin .plus (.var ⟨16, false⟩ "x") (.lit ⟨32, true⟩ 15)) (.slice (.var ⟨16, false⟩ "x") 7 0))) := by
  decide

/-- A signed case: `s + (0 - W)` with `s = -3`. -/
example : Fits exDict exEnv (.bin .plus (.var ⟨16, true⟩ "s") (.bin .minus (.lit ⟨32, true⟩ 0) (.var ⟨32, true⟩ "W"))) true := by
  simp only [Fits, Node, Ty.InRange]
  exact ⟨by decide, by decide, ⟨by decide, by decide, by decide, by decide, by decide⟩, by decide, by decide⟩

/-! ## Where the value changes -/

/-- What a counterexample consists of: resolution succeeds and the value assigned to a variable of type `t` differs. -/
def Breaks (d : Dict) (ρ : String → Int) (e : VExpr) (t : Ty) : Prop :=
  Agree d ρ ∧ ∃ r, visit d e = some r ∧ r.expr.assign ρ t ≠ e.assign ρ t

/-- **C44, negation: width of a literal.**  `(x + 8'd1) >> 1` with `x` 8 bits, assigned to 8 bits: the sum wraps at
    8 bits before and at 32 bits after resolution. -/
theorem c44_breaks_width :
    Breaks (fun _ => none) (fun _ => 255)
      (.shift .srl (.bin .plus (.var ⟨8, false⟩ "x") (.lit ⟨8, false⟩ 1)) (.lit ⟨32, true⟩ 1)) ⟨8, false⟩ :=
  ⟨by simp [Agree], _, rfl, by decide⟩

/-- **C44, negation: wide literal.**  `64'd1 << n` is 64 bits wide before and 32 bits wide after resolution:
    here the comparison with 0 changes. -/
theorem c44_breaks_wide :
    Breaks (fun _ => none) (fun _ => 40)
      (.cmp .eq (.shift .sll (.lit ⟨64, false⟩ 1) (.var ⟨8, false⟩ "n")) (.lit ⟨32, true⟩ 0)) ⟨1, false⟩ :=
  ⟨by simp [Agree], _, rfl, by decide⟩

/-- **C44, negation: signedness of a literal.**  `s < 8'd5` is an unsigned comparison before and a signed one after
    resolution. -/
theorem c44_breaks_sign :
    Breaks (fun _ => none) (fun _ => -1) (.cmp .lt (.var ⟨8, true⟩ "s") (.lit ⟨8, false⟩ 5)) ⟨1, false⟩ :=
  ⟨by simp [Agree], _, rfl, by decide⟩

/-- **C44, negation: concatenation.**  `{x, 8'd1}` becomes `{x, 1}`, where the literal is 32 bits wide. -/
theorem c44_breaks_cat :
    Breaks (fun _ => none) (fun _ => 1) (.cat (.var ⟨8, false⟩ "x") (.lit ⟨8, false⟩ 1)) ⟨16, false⟩ :=
  ⟨by simp [Agree], _, rfl, by decide⟩

/-- **C44, negation: constant concatenation.**  `{4'd1, 4'd1 + 4'd2}` is folded with width 5 for the sum. -/
theorem c44_breaks_cat_sum :
    Breaks (fun _ => none) (fun _ => 0)
      (.cat (.lit ⟨4, false⟩ 1) (.bin .plus (.lit ⟨4, false⟩ 1) (.lit ⟨4, false⟩ 2))) ⟨8, false⟩ :=
  ⟨by simp [Agree], _, rfl, by decide⟩

/-- **C44, negation: complement.**  `~8'd5 == 8'd250` holds in Verilog and is folded to false. -/
theorem c44_breaks_not :
    Breaks (fun _ => none) (fun _ => 0) (.cmp .eq (.not (.lit ⟨8, false⟩ 5)) (.lit ⟨8, false⟩ 250)) ⟨1, false⟩ :=
  ⟨by simp [Agree], _, rfl, by decide⟩

/-- **C44, negation: arithmetic shift.**  `P >>> 1` with `P = -3` is -2 in Verilog and is folded to -1. -/
theorem c44_breaks_sra :
    Breaks (fun x => if x = "P" then some (-3) else none) (fun _ => -3)
      (.shift .sra (.var ⟨32, true⟩ "P") (.lit ⟨32, true⟩ 1)) ⟨32, true⟩ := by
  refine ⟨?_, _, rfl, by decide⟩
  intro x v h
  simp only at h
  split at h <;> simp at h
  exact h

/-- **C44, negation: division.**  `P / 2` with `P = -7` is -3 in Verilog and is folded to -4. -/
theorem c44_breaks_div :
    Breaks (fun x => if x = "P" then some (-7) else none) (fun _ => -7)
      (.bin .divide (.var ⟨32, true⟩ "P") (.lit ⟨32, true⟩ 2)) ⟨32, true⟩ := by
  refine ⟨?_, _, rfl, by decide⟩
  intro x v h
  simp only at h
  split at h <;> simp at h
  exact h

/-- **C44, negation: remainder.**  `P % 2` with `P = -7` is -1 in Verilog and is folded to 1. -/
theorem c44_breaks_mod :
    Breaks (fun x => if x = "P" then some (-7) else none) (fun _ => -7)
      (.bin .mod (.var ⟨32, true⟩ "P") (.lit ⟨32, true⟩ 2)) ⟨32, true⟩ := by
  refine ⟨?_, _, rfl, by decide⟩
  intro x v h
  simp only at h
  split at h <;> simp at h
  exact h

/-- **C44, negation: `$signed`.**  `$signed(8'd255)` is -1 and becomes `$signed(255)`. -/
theorem c44_breaks_signed :
    Breaks (fun _ => none) (fun _ => 0) (.toSigned (.lit ⟨8, false⟩ 255)) ⟨32, true⟩ :=
  ⟨by simp [Agree], _, rfl, by decide⟩

/-! ## The values of the parameters -/

/-- `d'` extends `d`. -/
def Dict.Le (d d' : Dict) : Prop := ∀ x v, d x = some v → d' x = some v

theorem visit_const_mono {d d' : Dict} (h : d.Le d') (e : VExpr) : ∀ {v : Int}, visit d e = some (.const v) →
    visit d' e = some (.const v) := by
  induction e with
  | lit t w => intro v hv; exact hv
  | var t x =>
    intro v hv
    simp only [visit] at hv ⊢
    cases hd : d x with
    | none => rw [hd] at hv; simp at hv
    | some w => rw [hd] at hv; rw [h x w hd]; exact hv
  | neg e ih | not e ih | lnot e ih | rep n e ih | bit e i ih | slice e m l ih =>
    intro v hv
    rcases hr : visit d e with _ | (x | e1) <;> simp [visit, hr] at hv
    simp [visit, ih hr, hv]
  | bin op a b iha ihb | shift op a b iha ihb | cmp op a b iha ihb | land a b iha ihb | lor a b iha ihb
  | cat a b iha ihb =>
    intro v hv
    rcases hra : visit d a with _ | (x | e1) <;> rcases hrb : visit d b with _ | (y | e2) <;>
      simp [visit, hra, hrb] at hv
    simp [visit, iha hra, ihb hrb, hv]
  | cond k a b ihk iha ihb =>
    intro v hv
    rcases hrk : visit d k with _ | (z | e0) <;> rcases hra : visit d a with _ | (x | e1) <;>
      rcases hrb : visit d b with _ | (y | e2) <;> simp [visit, hrk, hra, hrb] at hv
    simp [visit, ihk hrk, iha hra, ihb hrb, hv]
  | toSigned e ih =>
    intro v hv
    rcases hr : visit d e with _ | r <;> simp [visit, hr] at hv

theorem Dict.Le.refl (d : Dict) : d.Le d := fun _ _ h => h

theorem Dict.Le.trans {a b c : Dict} (h : a.Le b) (k : b.Le c) : a.Le c := fun x v hx => k x v (h x v hx)

theorem updateIter_spec : ∀ (ps : List (String × VExpr)) {d d' : Dict} {un : List (String × VExpr)},
    updateIter d ps = some (d', un) →
    d.Le d' ∧ List.Sublist un ps ∧
    (∀ p ∈ ps, p ∈ un ∨ ∃ v, visit d' p.2 = some (.const v) ∧ (d' p.1).isSome ∧
      (d p.1 = none → (ps.map Prod.fst).Nodup → d' p.1 = some v)) ∧
    (∀ x, x ∉ ps.map Prod.fst → d' x = d x) ∧
    (∀ p ∈ un, (ps.map Prod.fst).Nodup → d' p.1 = d p.1)
  | [], d, d', un, h => by
    simp [updateIter] at h
    obtain ⟨rfl, rfl⟩ := h
    exact ⟨Dict.Le.refl _, by simp, by simp, by simp, by simp⟩
  | (x, e) :: rest, d, d', un, h => by
    rcases hr : visit d e with _ | (v | e1)
    · simp [updateIter, hr] at h
    · simp only [updateIter, hr, Option.bind_eq_bind, Option.bind_some] at h
      have ih := updateIter_spec rest h
      generalize hd1 : (if (d x).isSome = true then d else fun y => if y = x then some v else d y) = d1 at h ih
      have hle : d.Le d1 := by
        intro y w hy
        rw [← hd1]
        split
        · exact hy
        · rename_i hx
          have : y ≠ x := by
            rintro rfl
            rw [hy] at hx
            simp at hx
          simp [this, hy]
      have hx1 : (d1 x).isSome = true := by
        rw [← hd1]
        split
        · assumption
        · simp
      have hother : ∀ y, y ≠ x → d1 y = d y := by
        intro y hy
        rw [← hd1]
        split
        · rfl
        · simp [hy]
      obtain ⟨h1, h2, h3, h4, h5⟩ := ih
      refine ⟨hle.trans h1, h2.cons _, ?_, ?_, ?_⟩
      · intro p hp
        rcases List.mem_cons.1 hp with rfl | hp'
        · right
          refine ⟨v, visit_const_mono (hle.trans h1) e hr, ?_, ?_⟩
          · obtain ⟨w, hw⟩ := Option.isSome_iff_exists.1 hx1
            simp [h1 x w hw]
          · intro hn _
            apply h1
            simp only at hn
            simp [← hd1, hn]
        · rcases h3 p hp' with h | ⟨w, hw1, hw2, hw3⟩
          · exact Or.inl h
          · refine Or.inr ⟨w, hw1, hw2, ?_⟩
            intro hn hnd
            simp only [List.map_cons, List.nodup_cons] at hnd
            apply hw3 _ hnd.2
            have hne : p.1 ≠ x := by
              intro hpx
              exact hnd.1 (hpx ▸ List.mem_map_of_mem hp')
            rw [hother _ hne, hn]
      · intro y hy
        simp only [List.map_cons, List.mem_cons, not_or] at hy
        rw [h4 y hy.2, hother y hy.1]
      · intro p hp hnd
        simp only [List.map_cons, List.nodup_cons] at hnd
        have hne : p.1 ≠ x := by
          intro hpx
          exact hnd.1 (hpx ▸ List.mem_map_of_mem (h2.subset hp))
        rw [h5 p hp hnd.2, hother _ hne]
    · rcases hu : updateIter d rest with _ | ⟨d1, un1⟩
      · simp [updateIter, hr, hu] at h
      · simp [updateIter, hr, hu] at h
        obtain ⟨rfl, rfl⟩ := h
        obtain ⟨h1, h2, h3, h4, h5⟩ := updateIter_spec rest hu
        refine ⟨h1, h2.cons_cons _, ?_, ?_, ?_⟩
        · intro p hp
          rcases List.mem_cons.1 hp with rfl | hp
          · exact Or.inl List.mem_cons_self
          · rcases h3 p hp with h | ⟨w, hw1, hw2, hw3⟩
            · exact Or.inl (List.mem_cons_of_mem _ h)
            · exact Or.inr ⟨w, hw1, hw2, fun hn hnd => hw3 hn (by
                simp only [List.map_cons, List.nodup_cons] at hnd
                exact hnd.2)⟩
        · intro y hy
          simp only [List.map_cons, List.mem_cons, not_or] at hy
          exact h4 y hy.2
        · intro p hp hnd
          simp only [List.map_cons, List.nodup_cons] at hnd
          rcases List.mem_cons.1 hp with rfl | hp
          · exact h4 _ hnd.1
          · exact h5 p hp hnd.2

/-- **C44, parameters.**  When the loop ends, the values that were there (instance overrides) are unchanged, and
    every other parameter has the value its own expression folds to under the final dictionary. -/
theorem c44_params : ∀ (n : Nat) (d d' : Dict) (ps : List (String × VExpr)), update n d ps = some d' →
    (ps.map Prod.fst).Nodup →
    (∀ x v, d x = some v → d' x = some v) ∧ (∀ x, x ∉ ps.map Prod.fst → d' x = d x) ∧
    ∀ x e, (x, e) ∈ ps → d x = none → ∃ v, d' x = some v ∧ visit d' e = some (.const v)
  | n, d, d', [], h, _ => by
    have : d = d' := by cases n <;> simpa [update] using h
    subst this
    exact ⟨fun _ _ h => h, by simp, by simp⟩
  | 0, d, d', p :: ps, h, _ => by simp [update] at h
  | n + 1, d, d', p :: ps, h, hnd => by
    rcases hu : updateIter d (p :: ps) with _ | ⟨d1, un⟩
    · simp [update, hu] at h
    · simp only [update, hu, Option.bind_eq_bind, Option.bind_some] at h
      split at h
      · obtain ⟨h1, h2, h3, h4, h5⟩ := updateIter_spec _ hu
        obtain ⟨k1, k2, k3⟩ := c44_params n d1 d' un h (hnd.sublist (h2.map _))
        refine ⟨fun x v hx => k1 x v (h1 x v hx), ?_, ?_⟩
        · intro x hx
          rw [k2 x (fun hm => hx ((h2.map Prod.fst).subset hm)), h4 x hx]
        · intro x e hm hx
          rcases h3 (x, e) hm with hin | ⟨v, hv1, _, hv3⟩
          · exact k3 x e hin (by rw [h5 (x, e) hin hnd]; exact hx)
          · exact ⟨v, k1 x v (hv3 hx hnd), visit_const_mono k1 e hv1⟩
      · simp at h

/-- The names in an expression. -/
def names : VExpr → List String
  | .lit _ _ => []
  | .var _ x => [x]
  | .neg e | .not e | .lnot e | .rep _ e | .bit e _ | .slice e _ _ | .toSigned e => names e
  | .bin _ a b | .shift _ a b | .cmp _ a b | .land a b | .lor a b | .cat a b => names a ++ names b
  | .cond k a b => names k ++ names a ++ names b

/-- No `$signed`, which is never folded. -/
def noSigned : VExpr → Bool
  | .lit _ _ | .var _ _ => true
  | .neg e | .not e | .lnot e | .rep _ e | .bit e _ | .slice e _ _ => noSigned e
  | .bin _ a b | .shift _ a b | .cmp _ a b | .land a b | .lor a b | .cat a b => noSigned a && noSigned b
  | .cond k a b => noSigned k && noSigned a && noSigned b
  | .toSigned _ => false

theorem visit_known {d : Dict} (e : VExpr) : noSigned e = true → (∀ x ∈ names e, (d x).isSome) →
    visit d e = none ∨ ∃ v, visit d e = some (.const v) := by
  induction e with
  | lit t v => intro _ _; exact Or.inr ⟨v, rfl⟩
  | var t x =>
    intro _ h
    obtain ⟨v, hv⟩ := Option.isSome_iff_exists.1 (h x (by simp [names]))
    exact Or.inr ⟨v, by simp [visit, hv]⟩
  | neg e ih | not e ih | lnot e ih | rep n e ih | bit e i ih | slice e m l ih =>
    intro hs h
    rcases ih hs h with h1 | ⟨v, h1⟩
    · left; simp [visit, h1]
    · right; simp [visit, h1]
  | bin op a b iha ihb | shift op a b iha ihb =>
    intro hs h
    simp only [noSigned, Bool.and_eq_true] at hs
    simp only [names, List.mem_append] at h
    rcases iha hs.1 (fun x hx => h x (Or.inl hx)) with h1 | ⟨v, h1⟩
    · left; simp [visit, h1]
    · rcases ihb hs.2 (fun x hx => h x (Or.inr hx)) with h2 | ⟨w, h2⟩
      · left; simp [visit, h1, h2]
      · simp only [visit, h1, h2, Option.bind_eq_bind, Option.bind_some, Option.map_eq_map]
        first
          | (cases foldBin op v w <;> simp)
          | (cases foldSh op v w <;> simp)
  | cmp op a b iha ihb | land a b iha ihb | lor a b iha ihb | cat a b iha ihb =>
    intro hs h
    simp only [noSigned, Bool.and_eq_true] at hs
    simp only [names, List.mem_append] at h
    rcases iha hs.1 (fun x hx => h x (Or.inl hx)) with h1 | ⟨v, h1⟩
    · left; simp [visit, h1]
    · rcases ihb hs.2 (fun x hx => h x (Or.inr hx)) with h2 | ⟨w, h2⟩
      · left; simp [visit, h1, h2]
      · right; simp [visit, h1, h2]
  | cond k a b ihk iha ihb =>
    intro hs h
    simp only [noSigned, Bool.and_eq_true] at hs
    simp only [names, List.mem_append] at h
    rcases ihk hs.1.1 (fun x hx => h x (Or.inl (Or.inl hx))) with h0 | ⟨u, h0⟩
    · left; simp [visit, h0]
    · rcases iha hs.1.2 (fun x hx => h x (Or.inl (Or.inr hx))) with h1 | ⟨v, h1⟩
      · left; simp [visit, h0, h1]
      · rcases ihb hs.2 (fun x hx => h x (Or.inr hx)) with h2 | ⟨w, h2⟩
        · left; simp [visit, h0, h1, h2]
        · right; simp [visit, h0, h1, h2]
  | toSigned e ih => intro hs; simp [noSigned] at hs

theorem updateIter_some : ∀ (ps : List (String × VExpr)) (d : Dict),
    (∀ p ∈ ps, ∀ D, d.Le D → visit D p.2 ≠ none) → ∃ q, updateIter d ps = some q
  | [], d, _ => ⟨_, rfl⟩
  | (x, e) :: rest, d, h => by
    rcases hr : visit d e with _ | (v | e1)
    · exact absurd hr (h (x, e) List.mem_cons_self d (Dict.Le.refl d))
    · simp only [updateIter, hr, Option.bind_eq_bind, Option.bind_some]
      apply updateIter_some rest
      intro p hp D hD
      apply h p (List.mem_cons_of_mem _ hp)
      refine Dict.Le.trans ?_ hD
      intro y w hy
      split
      · exact hy
      · rename_i hx
        have : y ≠ x := by
          rintro rfl
          rw [hy] at hx
          simp at hx
        simp [this, hy]
    · obtain ⟨⟨d1, un⟩, hq⟩ := updateIter_some rest d (fun p hp => h p (List.mem_cons_of_mem _ hp))
      simp [updateIter, hr, hq]

/-- A parameter whose names are all known is resolved in the pass. -/
theorem updateIter_progress : ∀ (ps : List (String × VExpr)) {d d' : Dict} {un : List (String × VExpr)},
    updateIter d ps = some (d', un) → ∀ p ∈ ps, noSigned p.2 = true → (∀ x ∈ names p.2, (d x).isSome) →
    un.length < ps.length
  | [], _, _, _, _, p, hp, _, _ => by simp at hp
  | (x, e) :: rest, d, d', un, h, p, hp, hs, hk => by
    rcases hr : visit d e with _ | (v | e1)
    · simp [updateIter, hr] at h
    · simp only [updateIter, hr, Option.bind_eq_bind, Option.bind_some] at h
      have := (updateIter_spec rest h).2.1.length_le
      simp only [List.length_cons]
      omega
    · rcases hu : updateIter d rest with _ | ⟨d1, un1⟩
      · simp [updateIter, hr, hu] at h
      · simp [updateIter, hr, hu] at h
        obtain ⟨rfl, rfl⟩ := h
        rcases List.mem_cons.1 hp with rfl | hp
        · rcases visit_known e hs hk with h | ⟨v, h⟩
          · rw [hr] at h; simp at h
          · rw [hr] at h; simp at h
        · have := updateIter_progress rest hu p hp hs hk
          simp only [List.length_cons]
          omega

/-- **C44, parameters, completeness.**  If the parameters do not depend on each other in a circle (`rank` decreases
    from a parameter to those it mentions) and no operator raises, the loop ends without an error; `ps.length` passes
    are enough. -/
theorem c44_params_total (rank : String → Nat) : ∀ (n : Nat) (d : Dict) (ps : List (String × VExpr)),
    ps.length ≤ n → (∀ p ∈ ps, noSigned p.2 = true) →
    (∀ p ∈ ps, ∀ D, d.Le D → visit D p.2 ≠ none) →
    (∀ p ∈ ps, ∀ y ∈ names p.2, (d y).isSome ∨ (y ∈ ps.map Prod.fst ∧ rank y < rank p.1)) →
    ∃ d', update n d ps = some d'
  | n, d, [], _, _, _, _ => ⟨d, by cases n <;> rfl⟩
  | 0, d, p :: ps, hl, _, _, _ => by simp at hl
  | n + 1, d, p :: ps, hl, hs, hv, hn => by
    obtain ⟨⟨d1, un⟩, hu⟩ := updateIter_some (p :: ps) d hv
    have hmin : ∃ q ∈ p :: ps, ∀ q' ∈ p :: ps, rank q.1 ≤ rank q'.1 := by
      have : ∀ (l : List (String × VExpr)), l ≠ [] → ∃ q ∈ l, ∀ q' ∈ l, rank q.1 ≤ rank q'.1 := by
        intro l
        induction l with
        | nil => intro h; exact absurd rfl h
        | cons a l ih =>
          intro _
          by_cases hl : l = []
          · subst hl
            exact ⟨a, by simp, by simp⟩
          · obtain ⟨q, hq, hmin⟩ := ih hl
            by_cases hc : rank a.1 ≤ rank q.1
            · refine ⟨a, by simp, ?_⟩
              intro q' hq'
              rcases List.mem_cons.1 hq' with rfl | hq'
              · exact Nat.le_refl _
              · exact Nat.le_trans hc (hmin q' hq')
            · refine ⟨q, by simp [hq], ?_⟩
              intro q' hq'
              rcases List.mem_cons.1 hq' with rfl | hq'
              · omega
              · exact hmin q' hq'
      exact this _ (by simp)
    obtain ⟨q, hq, hmin⟩ := hmin
    have hknown : ∀ x ∈ names q.2, (d x).isSome := by
      intro x hx
      rcases hn q hq x hx with h | ⟨hm, hlt⟩
      · exact h
      · obtain ⟨q', hq', rfl⟩ := List.mem_map.1 hm
        exact absurd (hmin q' hq') (by omega)
    have hlt := updateIter_progress _ hu q hq (hs q hq) hknown
    obtain ⟨h1, h2, h3, h4, h5⟩ := updateIter_spec _ hu
    simp only [update, hu, Option.bind_eq_bind, Option.bind_some]
    rw [if_pos hlt]
    simp only [List.length_cons] at hl hlt
    refine c44_params_total rank n d1 un (by omega) (fun p hp => hs p (h2.subset hp))
      (fun p hp D hD => hv p (h2.subset hp) D (h1.trans hD)) ?_
    intro p' hp' y hy
    rcases hn p' (h2.subset hp') y hy with h | ⟨hm, hr⟩
    · left
      obtain ⟨v, hv⟩ := Option.isSome_iff_exists.1 h
      simp [h1 y v hv]
    · obtain ⟨q', hq', rfl⟩ := List.mem_map.1 hm
      rcases h3 q' hq' with h | ⟨v, _, hsome, _⟩
      · exact Or.inr ⟨List.mem_map_of_mem h, hr⟩
      · exact Or.inl hsome

/-- `B = A + 1`, `A = 3`, `C = A * B` in this order: two passes. -/
def exParams : List (String × VExpr) :=
  [("B", .bin .plus (.var ⟨32, true⟩ "A") (.lit ⟨32, true⟩ 1)), ("A", .lit ⟨32, true⟩ 3),
    ("C", .bin .times (.var ⟨32, true⟩ "A") (.var ⟨32, true⟩ "B"))]

example : ((update 3 (fun _ => none) exParams).map fun d => (d "A", d "B", d "C")) =
    some (some 3, some 4, some 12) := by decide

example : ∃ d', update 3 (fun _ => none) exParams = some d' := by
  refine c44_params_total (fun x => if x = "A" then 0 else if x = "B" then 1 else 2) 3 _ _ (by decide) (by decide) ?_
    (by decide)
  intro p hp D _
  simp only [exParams, List.mem_cons, List.not_mem_nil, or_false] at hp
  rcases hp with rfl | rfl | rfl <;> cases hA : D "A" <;> cases hB : D "B" <;> simp [visit, hA, hB, foldBin]

/-- An override of `A` (`inst_const_dict`) reaches the parameters that depend on it. -/
example : ((update 3 (fun x => if x = "A" then some 10 else none) exParams).map fun d => (d "A", d "B", d "C")) =
    some (some 10, some 11, some 110) := by decide

/-- A circle raises. -/
example : update 9 (fun _ => none) [("A", .var ⟨32, true⟩ "B"), ("B", .var ⟨32, true⟩ "A")] = none := by rfl

end Resolver
