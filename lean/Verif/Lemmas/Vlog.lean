import Verif.Model.Vlog
import Mathlib.Tactic.Ring
import Mathlib.Tactic.Linarith

/-! Lemmas about wrapping and typed values. -/

namespace Vlog

theorem two_pow_pos (n : Nat) : 0 < 2 ^ n := Nat.pos_of_ne_zero (by simp)

theorem Ty.wrap_emod (t : Ty) (v : Int) : t.wrap v % (2 ^ t.width : Nat) = v % (2 ^ t.width : Nat) := by
  unfold Ty.wrap
  split
  · exact Int.bmod_emod
  · simp

theorem Ty.wrap_congr (t : Ty) {a b : Int} (h : a % (2 ^ t.width : Nat) = b % (2 ^ t.width : Nat)) :
    t.wrap a = t.wrap b := by
  unfold Ty.wrap
  split
  · rw [← Int.emod_bmod, h, Int.emod_bmod]
  · exact h

@[simp] theorem Ty.wrap_wrap (t : Ty) (v : Int) : t.wrap (t.wrap v) = t.wrap v :=
  t.wrap_congr (t.wrap_emod v)

theorem Ty.wrap_add_wrap (t : Ty) (a b : Int) : t.wrap (t.wrap a + b) = t.wrap (a + b) := by
  apply t.wrap_congr
  rw [Int.add_emod, t.wrap_emod, ← Int.add_emod]

theorem Ty.wrap_add_wrap' (t : Ty) (a b : Int) : t.wrap (a + t.wrap b) = t.wrap (a + b) := by
  rw [Int.add_comm, t.wrap_add_wrap, Int.add_comm]

/-- Least and greatest value of a type. -/
def Ty.InRange (t : Ty) (v : Int) : Prop :=
  if t.signed then -(2 ^ t.width : Nat) ≤ 2 * v ∧ 2 * v < (2 ^ t.width : Nat)
  else 0 ≤ v ∧ v < (2 ^ t.width : Nat)

theorem Ty.wrap_inRange (t : Ty) (v : Int) : t.InRange (t.wrap v) := by
  unfold Ty.InRange Ty.wrap
  have hp := two_pow_pos t.width
  split
  · have h1 := Int.le_bmod (x := v) (m := 2 ^ t.width) hp
    have h2 := Int.bmod_lt (x := v) (m := 2 ^ t.width) hp
    constructor <;> omega
  · exact ⟨Int.emod_nonneg _ (by omega), Int.emod_lt_of_pos _ (by omega)⟩

theorem Ty.wrap_of_inRange (t : Ty) {v : Int} (h : t.InRange v) : t.wrap v = v := by
  unfold Ty.InRange at h
  unfold Ty.wrap
  split at h
  · rename_i hs
    rw [if_pos hs]
    exact Int.bmod_eq_of_le (by omega) (by omega)
  · rename_i hs
    rw [if_neg hs]
    exact Int.emod_eq_of_lt h.1 h.2

theorem Ty.wrap_eq_iff (t : Ty) (v : Int) : t.wrap v = v ↔ t.InRange v :=
  ⟨fun h => h ▸ t.wrap_inRange v, t.wrap_of_inRange⟩

theorem Val.ok_iff (v : Val) : v.Ok ↔ v.ty.InRange v.val := v.ty.wrap_eq_iff v.val

theorem Val.read_unsigned {v : Val} (h : v.Ok) (hs : v.ty.signed = false) (ctx : Bool) :
    v.read ctx = v.val := by
  unfold Val.read
  split
  · rfl
  · rw [Val.ok_iff, Ty.InRange, hs] at h
    exact Int.emod_eq_of_lt h.1 h.2

theorem Val.read_self {v : Val} (h : v.Ok) : v.read v.ty.signed = v.val := by
  cases hs : v.ty.signed
  · exact Val.read_unsigned h hs false
  · rfl

theorem Val.read_emod (v : Val) (ctx : Bool) :
    v.read ctx % (2 ^ v.ty.width : Nat) = v.val % (2 ^ v.ty.width : Nat) := by
  unfold Val.read
  split
  · rfl
  · simp

/-- A type with the same signedness and at least the width can hold every value. -/
theorem Ty.inRange_mono {t t' : Ty} {v : Int} (h : t.InRange v) (hs : t.signed = t'.signed)
    (hw : t.width ≤ t'.width) : t'.InRange v := by
  unfold Ty.InRange at *
  rw [hs] at h
  have : 2 ^ t.width ≤ 2 ^ t'.width := Nat.pow_le_pow_right (by omega) hw
  split at h <;> rename_i h1
  · rw [if_pos h1]; omega
  · rw [if_neg h1]; omega

end Vlog
