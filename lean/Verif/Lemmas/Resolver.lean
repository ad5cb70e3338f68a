import Verif.Model.Resolver
import Verif.Lemmas.VExpr

/-!
# Exact evaluation of Verilog expressions

`Sound ρ e v sg`: in every context that Verilog may hand down to `e` (and that is signed if `sg`), the value of
`e` is the integer `v`, with no wrap-around.  The lemmas build such facts operator by operator, whenever the
result is representable in the type of the expression.
-/

namespace Vlog

open VExpr

theorem inRange_unsigned_of_nonneg {t : Ty} {v : Int} (h : t.InRange v) (h0 : 0 ≤ v) : v < (2 ^ t.width : Nat) := by
  unfold Ty.InRange at h
  split at h <;> omega

/-- A representable value is representable in a wider context, if it is not negative or the context is signed. -/
theorem inRange_ctx {t c : Ty} {v : Int} {sg : Bool} (h : t.InRange v) (hw : t.width ≤ c.width)
    (hs : c.signed = true → t.signed = true) (h0 : 0 ≤ v ∨ sg = true) (hg : sg = true → c.signed = true) :
    c.InRange v := by
  by_cases hc : c.signed = true
  · exact Ty.inRange_mono h (by rw [hc, hs hc]) hw
  · have h0' : 0 ≤ v := by
      rcases h0 with h0 | h0
      · exact h0
      · exact absurd (hg h0) hc
    have h1 := inRange_unsigned_of_nonneg h h0'
    have h2 : 2 ^ t.width ≤ 2 ^ c.width := Nat.pow_le_pow_right (by omega) hw
    unfold Ty.InRange
    rw [if_neg hc]
    omega

def Sound (ρ : String → Int) (e : VExpr) (v : Int) (sg : Bool) : Prop :=
  ∀ c : Ty, e.ty.width ≤ c.width → (c.signed = true → e.ty.signed = true) → (sg = true → c.signed = true) →
    e.eval ρ c = v

/-- The side condition on one node: representable in its type, and not negative unless the context is signed. -/
def Rep (t : Ty) (sg : Bool) (v : Int) : Prop := t.InRange v ∧ (0 ≤ v ∨ sg = true)

theorem Rep.ctx {t c : Ty} {v : Int} {sg : Bool} (h : Rep t sg v) (hw : t.width ≤ c.width)
    (hs : c.signed = true → t.signed = true) (hg : sg = true → c.signed = true) : c.InRange v :=
  inRange_ctx h.1 hw hs h.2 hg

theorem extend_rep {t c : Ty} {v : Int} {sg : Bool} (h : Rep t sg v) (hw : t.width ≤ c.width)
    (hs : c.signed = true → t.signed = true) (hg : sg = true → c.signed = true) :
    extend t (t.wrap v) c = v := by
  rw [Ty.wrap_of_inRange t h.1]
  unfold extend
  have hr : (⟨t, v⟩ : Val).read c.signed = v := by
    unfold Val.read
    split
    · rfl
    · rename_i hc
      have h0 : 0 ≤ v := by
        rcases h.2 with h0 | h0
        · exact h0
        · exact absurd (hg h0) hc
      exact Int.emod_eq_of_lt h0 (inRange_unsigned_of_nonneg h.1 h0)
  rw [hr]
  exact Ty.wrap_of_inRange c (h.ctx hw hs hg)

theorem Sound.self {ρ : String → Int} {e : VExpr} {v : Int} {sg : Bool} (h : Sound ρ e v sg)
    (hg : sg = true → e.ty.signed = true) : e.eval ρ e.ty = v :=
  h e.ty (Nat.le_refl _) id hg

theorem Sound.lit {ρ : String → Int} {t : Ty} {v : Nat} {sg : Bool} (h : Rep t sg v) : Sound ρ (.lit t v) v sg :=
  fun _ hw hs hg => extend_rep h hw hs hg

theorem Sound.var {ρ : String → Int} {t : Ty} {x : String} {sg : Bool} (h : Rep t sg (ρ x)) :
    Sound ρ (.var t x) (ρ x) sg :=
  fun _ hw hs hg => extend_rep h hw hs hg

theorem Sound.neg {ρ : String → Int} {e : VExpr} {v : Int} {sg : Bool} (h : Sound ρ e v sg)
    (hr : Rep e.ty sg (-v)) : Sound ρ (.neg e) (-v) sg := by
  intro c hw hs hg
  show c.wrap (- e.eval ρ c) = _
  rw [h c hw hs hg]
  exact Ty.wrap_of_inRange c (hr.ctx hw hs hg)

theorem Sound.not {ρ : String → Int} {e : VExpr} {v : Int} {sg : Bool} (h : Sound ρ e v sg)
    (hr : Rep e.ty sg (-v - 1)) : Sound ρ (.not e) (-v - 1) sg := by
  intro c hw hs hg
  show c.wrap (- e.eval ρ c - 1) = _
  rw [h c hw hs hg]
  exact Ty.wrap_of_inRange c (hr.ctx hw hs hg)

theorem bool_inRange {c : Ty} (hw : 1 ≤ c.width) (hs : c.signed = true → False) (b : Prop) [Decidable b] :
    c.wrap (if b then 1 else 0) = if b then 1 else 0 := by
  apply Ty.wrap_of_inRange
  unfold Ty.InRange
  rw [if_neg (fun h => hs h)]
  have : 2 ^ 1 ≤ 2 ^ c.width := Nat.pow_le_pow_right (by omega) hw
  split <;> omega

theorem nat_wrap {c : Ty} {w n : Nat} (hw : w ≤ c.width) (hs : c.signed = true → False) (hn : n < 2 ^ w) :
    c.wrap (n : Int) = n := by
  apply Ty.wrap_of_inRange
  unfold Ty.InRange
  rw [if_neg (fun h => hs h)]
  have : 2 ^ w ≤ 2 ^ c.width := Nat.pow_le_pow_right (by omega) hw
  omega

theorem Sound.lnot {ρ : String → Int} {e : VExpr} {v : Int} {sg sg' : Bool} (h : Sound ρ e v sg)
    (hg : sg = true → e.ty.signed = true) : Sound ρ (.lnot e) (if v = 0 then 1 else 0) sg' := by
  intro c hw hs _
  show c.wrap (if e.eval ρ e.ty = 0 then 1 else 0) = _
  rw [h.self hg]
  exact bool_inRange hw (fun h => by simpa [ty] using hs h) _

theorem Sound.land {ρ : String → Int} {a b : VExpr} {x y : Int} {sa sb sg : Bool} (ha : Sound ρ a x sa)
    (ga : sa = true → a.ty.signed = true) (hb : Sound ρ b y sb) (gb : sb = true → b.ty.signed = true) :
    Sound ρ (.land a b) (if x ≠ 0 ∧ y ≠ 0 then 1 else 0) sg := by
  intro c hw hs _
  show c.wrap (if a.eval ρ a.ty ≠ 0 ∧ b.eval ρ b.ty ≠ 0 then 1 else 0) = _
  rw [ha.self ga, hb.self gb]
  exact bool_inRange hw (fun h => by simpa [ty] using hs h) _

theorem Sound.lor {ρ : String → Int} {a b : VExpr} {x y : Int} {sa sb sg : Bool} (ha : Sound ρ a x sa)
    (ga : sa = true → a.ty.signed = true) (hb : Sound ρ b y sb) (gb : sb = true → b.ty.signed = true) :
    Sound ρ (.lor a b) (if x ≠ 0 ∨ y ≠ 0 then 1 else 0) sg := by
  intro c hw hs _
  show c.wrap (if a.eval ρ a.ty ≠ 0 ∨ b.eval ρ b.ty ≠ 0 then 1 else 0) = _
  rw [ha.self ga, hb.self gb]
  exact bool_inRange hw (fun h => by simpa [ty] using hs h) _

theorem Sound.cmp {ρ : String → Int} {a b : VExpr} {x y : Int} {s sg : Bool} (op : CmpOp) (ha : Sound ρ a x s)
    (hb : Sound ρ b y s) (hj : s = true → (join a b).signed = true) :
    Sound ρ (.cmp op a b) (if op.eval x y = true then 1 else 0) sg := by
  intro c hw hs _
  show c.wrap (if op.eval (a.eval ρ (join a b)) (b.eval ρ (join a b)) = true then 1 else 0) = _
  rw [ha (join a b) (Nat.le_max_left _ _) (by simp [join]; intro h _; exact h) hj,
    hb (join a b) (Nat.le_max_right _ _) (by simp [join]) hj]
  exact bool_inRange hw (fun h => by simpa [ty] using hs h) _

theorem Sound.cond {ρ : String → Int} {k a b : VExpr} {z x y : Int} {sk sg : Bool} (hk : Sound ρ k z sk)
    (gk : sk = true → k.ty.signed = true) (ha : Sound ρ a x sg) (hb : Sound ρ b y sg) :
    Sound ρ (.cond k a b) (if z ≠ 0 then x else y) sg := by
  intro c hw hs hg
  have hwa : a.ty.width ≤ c.width := Nat.le_trans (Nat.le_max_left _ _) hw
  have hwb : b.ty.width ≤ c.width := Nat.le_trans (Nat.le_max_right _ _) hw
  have hsab : c.signed = true → a.ty.signed = true ∧ b.ty.signed = true := by
    intro h
    simpa [ty] using hs h
  show (if k.eval ρ k.ty ≠ 0 then a.eval ρ c else b.eval ρ c) = _
  rw [hk.self gk, ha c hwa (fun h => (hsab h).1) hg, hb c hwb (fun h => (hsab h).2) hg]

/-- Integer meaning of the two-operand operators.  `/` and `%` truncate, as in Verilog. -/
def exactBin : BinOp → Int → Int → Int
  | .plus, a, b => a + b
  | .minus, a, b => a - b
  | .times, a, b => a * b
  | .divide, a, b => a.tdiv b
  | .mod, a, b => a.tmod b
  | .and, a, b => (a.toNat &&& b.toNat : Nat)
  | .or, a, b => (a.toNat ||| b.toNat : Nat)
  | .xor, a, b => (a.toNat ^^^ b.toNat : Nat)

/-- The operators whose integer meaning is used for non-negative operands only. -/
def bitwise : BinOp → Bool
  | .and | .or | .xor => true
  | _ => false

theorem bits_toNat {w : Nat} {v : Int} (h0 : 0 ≤ v) (h : v < (2 ^ w : Nat)) : bits w v = v.toNat := by
  have := bits_of_nonneg h0 h
  omega

theorem Sound.bin {ρ : String → Int} {a b : VExpr} {x y : Int} {sg : Bool} (op : BinOp) (ha : Sound ρ a x sg)
    (hb : Sound ρ b y sg) (ra : Rep a.ty sg x) (rb : Rep b.ty sg y)
    (hn : bitwise op = true → 0 ≤ x ∧ 0 ≤ y)
    (hr : Rep (VExpr.bin op a b).ty sg (exactBin op x y)) : Sound ρ (.bin op a b) (exactBin op x y) sg := by
  intro c hw hs hg
  have hwa : a.ty.width ≤ c.width := Nat.le_trans (Nat.le_max_left _ _) hw
  have hwb : b.ty.width ≤ c.width := Nat.le_trans (Nat.le_max_right _ _) hw
  have hsab : c.signed = true → a.ty.signed = true ∧ b.ty.signed = true := by
    intro h
    simpa [ty] using hs h
  have hc := hr.ctx hw hs hg
  have hca := ra.ctx hwa (fun h => (hsab h).1) hg
  have hcb := rb.ctx hwb (fun h => (hsab h).2) hg
  show op.eval c (a.eval ρ c) (b.eval ρ c) = _
  rw [ha c hwa (fun h => (hsab h).1) hg, hb c hwb (fun h => (hsab h).2) hg]
  cases op <;> simp only [exactBin] at hc ⊢
  case plus => exact Ty.wrap_of_inRange c hc
  case minus => exact Ty.wrap_of_inRange c hc
  case times => exact Ty.wrap_of_inRange c hc
  case divide => exact Ty.wrap_of_inRange c hc
  case mod => exact Ty.wrap_of_inRange c hc
  all_goals
    obtain ⟨hx, hy⟩ := hn rfl
    simp only [BinOp.eval]
    rw [bits_toNat hx (inRange_unsigned_of_nonneg hca hx), bits_toNat hy (inRange_unsigned_of_nonneg hcb hy)]
    exact Ty.wrap_of_inRange c hc

/-- Integer meaning of the shifts: right shifts round down. -/
def exactSh : ShOp → Int → Int → Int
  | .sll, a, b => a * (2 ^ b.toNat : Nat)
  | _, a, b => a / (2 ^ b.toNat : Nat)

theorem Sound.shift {ρ : String → Int} {a b : VExpr} {x y : Int} {sg sb : Bool} (op : ShOp) (ha : Sound ρ a x sg)
    (hb : Sound ρ b y sb) (gb : sb = true → b.ty.signed = true) (ra : Rep a.ty sg x) (rb : b.ty.InRange y)
    (hy : 0 ≤ y) (hx : op = .srl → 0 ≤ x) (hr : Rep a.ty sg (exactSh op x y)) :
    Sound ρ (.shift op a b) (exactSh op x y) sg := by
  intro c hw hs hg
  have hc := hr.ctx hw hs hg
  have hca := ra.ctx hw hs hg
  show op.eval c (a.eval ρ c) (bits b.ty.width (b.eval ρ b.ty)) = _
  rw [ha c hw hs hg, hb.self gb, bits_toNat hy (inRange_unsigned_of_nonneg rb hy)]
  have hsrl : 0 ≤ x → c.wrap (bits c.width x / 2 ^ y.toNat : Nat) = x / (2 ^ y.toNat : Nat) := by
    intro h0
    have hb' : (bits c.width x : Int) = x := bits_of_nonneg h0 (inRange_unsigned_of_nonneg hca h0)
    push_cast
    rw [hb']
    have := Ty.wrap_of_inRange c (Ty.inRange_ediv hca y.toNat)
    push_cast at this
    exact this
  cases op <;> simp only [exactSh] at hc ⊢
  case sll => exact Ty.wrap_of_inRange c hc
  case srl => exact hsrl (hx rfl)
  case sra =>
    simp only [ShOp.eval]
    split
    · rfl
    · rename_i hcs
      apply hsrl
      rcases ra.2 with h | h
      · exact h
      · exact absurd (hg h) hcs

theorem Sound.pyInt {ρ : String → Int} {v : Int} {sg : Bool} (h : v.natAbs < 2 ^ 31) (hv : 0 ≤ v ∨ sg = true) :
    Sound ρ (VExpr.pyInt v) v sg := by
  intro c hw hs hg
  have hr : Ty.InRange ⟨32, true⟩ v := by
    unfold Ty.InRange; simp; omega
  by_cases hc : c.signed = true
  · rw [Means.pyInt h c hw (by rw [hc, pyInt_ty])]
    rw [pyInt_ty] at hw
    exact Ty.wrap_of_inRange c (Ty.inRange_mono hr (by rw [hc]) hw)
  · have h0 : 0 ≤ v := by
      rcases hv with h0 | h0
      · exact h0
      · exact absurd (hg h0) hc
    rw [pyInt_ty] at hw
    have e : VExpr.pyInt v = .lit ⟨32, true⟩ v.natAbs := by
      unfold VExpr.pyInt
      rw [if_neg (by omega)]
    rw [e]
    have e2 : ((v.natAbs : Nat) : Int) = v := by omega
    have hrep : Rep ⟨32, true⟩ false ((v.natAbs : Nat) : Int) := by rw [e2]; exact ⟨hr, Or.inl h0⟩
    have := extend_rep (c := c) hrep hw (fun _ => rfl) (by simp)
    rw [show (VExpr.lit ⟨32, true⟩ v.natAbs).eval ρ c = extend ⟨32, true⟩ (Ty.wrap ⟨32, true⟩ ((v.natAbs : Nat) : Int)) c
      from rfl, this, e2]

/-- The low bits of a value do not depend on whether it is read as signed. -/
theorem bits_field {w l k : Nat} (h : l + k ≤ w) (v : Int) :
    ((bits w v / 2 ^ l % 2 ^ k : Nat) : Int) = v / (2 ^ l : Nat) % (2 ^ k : Nat) := by
  have hp : (0 : Int) < (2 ^ w : Nat) := by exact_mod_cast two_pow_pos w
  have hl : (0 : Int) < (2 ^ l : Nat) := by exact_mod_cast two_pow_pos l
  have hb : (bits w v : Int) = v % (2 ^ w : Nat) := by
    unfold bits
    have := Int.emod_nonneg v (b := ((2 ^ w : Nat) : Int)) (by omega)
    omega
  obtain ⟨j, rfl⟩ := Nat.exists_eq_add_of_le h
  have hv : v = v % (2 ^ (l + k + j) : Nat) + ((2 ^ (k + j) : Nat) * (v / (2 ^ (l + k + j) : Nat))) * (2 ^ l : Nat) := by
    have := Int.mul_ediv_add_emod v (2 ^ (l + k + j) : Nat)
    have e : ((2 ^ (l + k + j) : Nat) : Int) = (2 ^ (k + j) : Nat) * (2 ^ l : Nat) := by
      rw [← Int.natCast_mul, ← Nat.pow_add]; congr 2; omega
    rw [e] at this ⊢
    rw [← this]
    have h1 : ∀ p q r s : Int, p * q * r + s = s + (p * r) * q := by intros; ring
    rw [this]
    rw [h1] at this
    exact this.symm
  have h2 : v / (2 ^ l : Nat) = v % (2 ^ (l + k + j) : Nat) / (2 ^ l : Nat) + (2 ^ (k + j) : Nat) * (v / (2 ^ (l + k + j) : Nat)) := by
    conv_lhs => rw [hv]
    exact Int.add_mul_ediv_right _ _ (by omega)
  push_cast at *
  rw [hb, h2]
  have e : (2 : Int) ^ (k + j) * (v / 2 ^ (l + k + j)) = 2 ^ k * (2 ^ j * (v / 2 ^ (l + k + j))) := by
    rw [pow_add]; ring
  rw [e, Int.add_mul_emod_self_left]

end Vlog
