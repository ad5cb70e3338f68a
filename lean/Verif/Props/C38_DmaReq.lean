import Verif.Model.DmaReq
import Verif.Lemmas.Resolver
import Mathlib.Tactic.Ring

/-!
# C38: request descriptors survive packing

`unpack (pack fields)` gives every field back, as stored in its wire, for every address and selector width; a
field that fits its declared width is unchanged.
-/

namespace Dma

open Vlog

/-- The unsigned reading of an expression's own value. -/
def raw (ρ : String → Int) (e : VExpr) : Nat := bits e.ty.width (e.eval ρ e.ty)

theorem raw_lt (ρ : String → Int) (e : VExpr) : raw ρ e < 2 ^ e.ty.width := bits_lt _ _

theorem bits_nat {w n : Nat} (h : n < 2 ^ w) : bits w (n : Int) = n := by
  have := bits_of_nonneg (w := w) (v := (n : Int)) (by omega) (by exact_mod_cast h)
  exact_mod_cast this

theorem join_lt {a b n m : Nat} (ha : a < 2 ^ n) (hb : b < 2 ^ m) : a * 2 ^ m + b < 2 ^ (n + m) := by
  rw [Nat.pow_add]
  have : (a + 1) * 2 ^ m ≤ 2 ^ n * 2 ^ m := Nat.mul_le_mul_right _ ha
  rw [Nat.add_mul] at this
  omega

theorem raw_var (ρ : String → Int) (w : Nat) (x : String) : raw ρ (.var ⟨w, false⟩ x) = bits w (ρ x) := by
  have hb : bits w (ρ x) < 2 ^ w := bits_lt _ _
  have hw : Ty.wrap ⟨w, false⟩ (ρ x) = (bits w (ρ x) : Int) := by
    have h0 := Int.emod_nonneg (ρ x) (b := ((2 ^ w : Nat) : Int)) (by have := two_pow_pos w; omega)
    simp only [Ty.wrap, bits]
    exact (Int.toNat_of_nonneg h0).symm
  show bits w (extend ⟨w, false⟩ (Ty.wrap ⟨w, false⟩ (ρ x)) ⟨w, false⟩) = _
  rw [extend_eq (Ty.wrap_inRange _ _) (Nat.le_refl _) rfl, hw, bits_nat hb]

theorem raw_cat (ρ : String → Int) (a b : VExpr) :
    raw ρ (.cat a b) = raw ρ a * 2 ^ b.ty.width + raw ρ b := by
  have h := join_lt (raw_lt ρ a) (raw_lt ρ b)
  show bits (a.ty.width + b.ty.width)
    (Ty.wrap ⟨a.ty.width + b.ty.width, false⟩ ((raw ρ a * 2 ^ b.ty.width + raw ρ b : Nat) : Int)) = _
  rw [nat_wrap (w := a.ty.width + b.ty.width) (Nat.le_refl _) (by simp) h, bits_nat h]

/-- The upper part of a concatenation. -/
theorem field_hi {x y w l k : Nat} (hy : y < 2 ^ w) :
    (x * 2 ^ w + y) / 2 ^ (w + l) % 2 ^ k = x / 2 ^ l % 2 ^ k := by
  rw [Nat.pow_add, ← Nat.div_div_eq_div_mul, Nat.mul_comm x, Nat.mul_add_div (two_pow_pos w),
    Nat.div_eq_of_lt hy, Nat.add_zero]

/-- The lower part of a concatenation. -/
theorem field_lo {x y w l k : Nat} (h : l + k ≤ w) :
    (x * 2 ^ w + y) / 2 ^ l % 2 ^ k = y / 2 ^ l % 2 ^ k := by
  obtain ⟨j, rfl⟩ := Nat.exists_eq_add_of_le h
  have e : x * 2 ^ (l + k + j) + y = y + 2 ^ l * (2 ^ k * (2 ^ j * x)) := by rw [Nat.pow_add, Nat.pow_add]; ring
  rw [e, Nat.add_mul_div_left _ _ (two_pow_pos l), Nat.add_mul_mod_self_left]

/-- What one slice of a packed word is. -/
theorem field_eq {ow aw w lo : Nat} (v : Nat) (hv : v < 2 ^ (packedTy ow aw).width) (hw : 0 < w)
    (h : lo + w ≤ (packedTy ow aw).width) :
    field ow aw v ⟨w, false⟩ lo (lo + w) = some ((v / 2 ^ lo % 2 ^ w : Nat) : Int) := by
  have hi : Index.getSlice (packedTy ow aw).width (some (lo : Int)) (some ((lo + w : Nat) : Int)) none =
      .slice (lo + w - 1 : Nat) lo := by
    unfold Index.getSlice Index.lower Index.upper
    simp only []
    rw [if_neg (by omega), if_neg (by omega), if_neg (by omega)]
    congr 1
    omega
  unfold field
  rw [hi]
  have he : Index.Item.expr (packedTy ow aw) "v" (.slice (lo + w - 1 : Nat) lo) =
      some (.slice (.var (packedTy ow aw) "v") ((lo + w - 1 : Nat) : Int).toNat (lo : Int).toNat) :=
    if_pos ⟨by omega, by omega, by omega⟩
  rw [he]
  simp only [Option.map_some, Option.some.injEq, Int.toNat_natCast]
  have hlt : v / 2 ^ lo % 2 ^ w < 2 ^ w := Nat.mod_lt _ (two_pow_pos w)
  have hraw : raw (fun _ => (v : Int)) (.var (packedTy ow aw) "v") = v := by
    show raw _ (.var ⟨_, false⟩ _) = _
    rw [raw_var, bits_nat]
    exact hv
  have hm : lo + w - 1 - lo + 1 = w := by omega
  show Ty.wrap _ (Ty.wrap ⟨max w (lo + w - 1 - lo + 1), false⟩
    ((raw (fun _ => (v : Int)) (.var (packedTy ow aw) "v") / 2 ^ lo % 2 ^ (lo + w - 1 - lo + 1) : Nat) : Int)) = _
  rw [hraw, hm, Nat.max_self, nat_wrap (w := w) (Nat.le_refl _) (by simp) hlt,
    nat_wrap (w := w) (Nat.le_refl _) (by simp) hlt]

/-- The packed word as a number. -/
theorem pack_eq (ρ : String → Int) (ow aw : Nat) (e : Fields VExpr) :
    let f := wires ρ ow aw e
    pack ρ ow aw e = some ((bits ow f.opSel * 2 ^ (aw + (aw + (aw + 1 + aw))) +
      (bits aw f.addr * 2 ^ (aw + (aw + 1 + aw)) + (bits aw f.stride * 2 ^ (aw + 1 + aw) +
        (bits (aw + 1) f.size * 2 ^ aw + bits aw f.blocksize))) : Nat) : Int) := by
  intro f
  have hlt : ∀ e : VExpr, raw (wireEnv f) e < 2 ^ e.ty.width := raw_lt _
  let E : VExpr := .cat (.var ⟨ow, false⟩ "op_sel") (.cat (.var ⟨aw, false⟩ "local_addr")
    (.cat (.var ⟨aw, false⟩ "local_stride") (.cat (.var ⟨aw + 1, false⟩ "local_size")
      (.var ⟨aw, false⟩ "local_blocksize"))))
  have hE : packExpr ow aw = some E := rfl
  have hw : E.ty.width = ow + (aw + (aw + (aw + 1 + aw))) := rfl
  have hwp : (packedTy ow aw).width = E.ty.width := by rw [hw]; show ow + aw * 4 + 1 = _; ring
  have hval : E.assign (wireEnv f) (packedTy ow aw) = (raw (wireEnv f) E : Int) := by
    have hs : (⟨max (packedTy ow aw).width E.ty.width, E.ty.signed⟩ : Ty) = E.ty := by
      rw [hwp, Nat.max_self]
    have he : E.eval (wireEnv f) E.ty = (raw (wireEnv f) E : Int) := by
      have h := VExpr.eval_inRange (wireEnv f) E E.ty
      have hr : 0 ≤ E.eval (wireEnv f) E.ty ∧ E.eval (wireEnv f) E.ty < (2 ^ E.ty.width : Nat) := by
        unfold Ty.InRange at h
        rw [if_neg (by simp [E, VExpr.ty])] at h
        exact h
      exact (bits_of_nonneg hr.1 hr.2).symm
    unfold VExpr.assign
    rw [hs, he]
    exact nat_wrap (w := E.ty.width) (by rw [hwp]) (by simp [packedTy]) (hlt E)
  unfold pack
  rw [hE, Option.map_some, hval]
  simp only [E, raw_cat, raw_var]
  simp [wireEnv, VExpr.ty, f]

theorem bits_wire {ρ : String → Int} {w : Nat} {e : VExpr} :
    (bits w (e.assign ρ ⟨w, false⟩) : Int) = e.assign ρ ⟨w, false⟩ := by
  have h : Ty.InRange ⟨w, false⟩ (e.assign ρ ⟨w, false⟩) := Ty.wrap_inRange _ _
  unfold Ty.InRange at h
  rw [if_neg (by simp)] at h
  exact bits_of_nonneg h.1 h.2

/-- **C38.** For all widths, argument expressions and variable values: the packed word exists, every slice is
legal, and unpacking gives back exactly what the five field wires held. -/
theorem c38_round_trip (ρ : String → Int) (ow aw : Nat) (how : 0 < ow) (haw : 0 < aw) (e : Fields VExpr) :
    (pack ρ ow aw e).bind (unpack ow aw) = some (wires ρ ow aw e) := by
  rw [pack_eq]
  simp only [Option.bind_some]
  have hf := fun w v => bits_lt w v
  have ho := hf ow (wires ρ ow aw e).opSel
  have ha := hf aw (wires ρ ow aw e).addr
  have hs := hf aw (wires ρ ow aw e).stride
  have hn := hf (aw + 1) (wires ρ ow aw e).size
  have hb := hf aw (wires ρ ow aw e).blocksize
  have h1 := join_lt hn hb
  have h2 := join_lt hs h1
  have h3 := join_lt ha h2
  have h4 := join_lt ho h3
  have eo : (bits ow (wires ρ ow aw e).opSel : Int) = (wires ρ ow aw e).opSel := bits_wire
  have ea : (bits aw (wires ρ ow aw e).addr : Int) = (wires ρ ow aw e).addr := bits_wire
  have es : (bits aw (wires ρ ow aw e).stride : Int) = (wires ρ ow aw e).stride := bits_wire
  have en : (bits (aw + 1) (wires ρ ow aw e).size : Int) = (wires ρ ow aw e).size := bits_wire
  have eb : (bits aw (wires ρ ow aw e).blocksize : Int) = (wires ρ ow aw e).blocksize := bits_wire
  generalize (wires ρ ow aw e) = f at *
  generalize bits ow f.opSel = o at *
  generalize bits aw f.addr = a at *
  generalize bits aw f.stride = s at *
  generalize bits (aw + 1) f.size = n at *
  generalize bits aw f.blocksize = b at *
  have hv : o * 2 ^ (aw + (aw + (aw + 1 + aw))) + (a * 2 ^ (aw + (aw + 1 + aw)) + (s * 2 ^ (aw + 1 + aw) +
      (n * 2 ^ aw + b))) < 2 ^ (packedTy ow aw).width := by
    have : (packedTy ow aw).width = ow + (aw + (aw + (aw + 1 + aw))) := by show ow + aw * 4 + 1 = _; ring
    rw [this]; exact h4
  have hW : (packedTy ow aw).width = ow + aw * 4 + 1 := rfl
  have p1 := field_eq (w := ow) (lo := aw * 4 + 1) _ hv how (by omega)
  have p2 := field_eq (w := aw) (lo := aw * 3 + 1) _ hv haw (by omega)
  have p3 := field_eq (w := aw) (lo := aw * 2 + 1) _ hv haw (by omega)
  have p4 := field_eq (w := aw + 1) (lo := aw) _ hv (by omega) (by omega)
  have p5 := field_eq (w := aw) (lo := 0) _ hv haw (by omega)
  have q1 : aw * 4 + 1 = (aw + (aw + (aw + 1 + aw))) + 0 := by ring
  have q2 : aw * 3 + 1 = (aw + (aw + 1 + aw)) + 0 := by ring
  have q3 : aw * 2 + 1 = (aw + 1 + aw) + 0 := by ring
  rw [q1, field_hi h3, pow_zero, Nat.div_one, Nat.mod_eq_of_lt ho, ← q1] at p1
  rw [field_lo (by omega), q2, field_hi h2, pow_zero, Nat.div_one, Nat.mod_eq_of_lt ha, ← q2] at p2
  rw [field_lo (by omega), field_lo (by omega), q3, field_hi h1, pow_zero, Nat.div_one, Nat.mod_eq_of_lt hs, ← q3] at p3
  rw [field_lo (by omega), field_lo (by omega), field_lo (by omega)] at p4
  have q4 := field_hi (x := n) (l := 0) (k := aw + 1) hb
  rw [Nat.add_zero, pow_zero, Nat.div_one, Nat.mod_eq_of_lt hn] at q4
  rw [q4, show aw + (aw + 1) = aw * 2 + 1 by ring] at p4
  rw [field_lo (by omega), field_lo (by omega), field_lo (by omega), field_lo (by omega), pow_zero, Nat.div_one,
    Nat.mod_eq_of_lt hb, Nat.zero_add] at p5
  unfold unpack
  simp only [fieldTy]
  rw [p1, p2, p3, p4]
  simp only [Option.bind_some]
  have p5' : field ow aw _ ⟨aw, false⟩ 0 aw = _ := p5
  rw [p5', eo, ea, es, en, eb]
  rfl

/-- **C38 (fields that fit).** If the argument expressions have the integer values `f` at every width (for
instance registers or literals), and each value fits its declared width, the fields come back unchanged. -/
theorem c38_unchanged (ρ : String → Int) (ow aw : Nat) (how : 0 < ow) (haw : 0 < aw) (e : Fields VExpr)
    (f : Fields Int)
    (ho : Means ρ e.opSel f.opSel ∧ 0 ≤ f.opSel ∧ f.opSel < (2 ^ ow : Nat))
    (ha : Means ρ e.addr f.addr ∧ 0 ≤ f.addr ∧ f.addr < (2 ^ aw : Nat))
    (hs : Means ρ e.stride f.stride ∧ 0 ≤ f.stride ∧ f.stride < (2 ^ aw : Nat))
    (hn : Means ρ e.size f.size ∧ 0 ≤ f.size ∧ f.size < (2 ^ (aw + 1) : Nat))
    (hb : Means ρ e.blocksize f.blocksize ∧ 0 ≤ f.blocksize ∧ f.blocksize < (2 ^ aw : Nat)) :
    (pack ρ ow aw e).bind (unpack ow aw) = some f := by
  rw [c38_round_trip ρ ow aw how haw e]
  have key : ∀ (w : Nat) (x : VExpr) (v : Int), Means ρ x v ∧ 0 ≤ v ∧ v < (2 ^ w : Nat) →
      x.assign ρ ⟨w, false⟩ = v := by
    rintro w x v ⟨h, h0, h1⟩
    unfold VExpr.assign
    rw [h ⟨max w x.ty.width, x.ty.signed⟩ (Nat.le_max_right _ _) rfl, Ty.wrap_wrap_le (Nat.le_max_left _ _)]
    apply Ty.wrap_of_inRange
    unfold Ty.InRange
    rw [if_neg (by simp)]
    exact ⟨h0, h1⟩
  unfold wires fieldTy
  simp only [key _ _ _ ho, key _ _ _ ha, key _ _ _ hs, key _ _ _ hn, key _ _ _ hb]

/-- A value that does not fit loses its upper bits; the neighbouring fields are not disturbed. -/
example : (pack (fun _ => 0) 2 3 ⟨.pyInt 6, .pyInt 5, .pyInt 12, .pyInt 9, .pyInt 7⟩).bind (unpack 2 3) =
    some ⟨2, 5, 4, 9, 7⟩ := by decide

/-- Non-vacuity of `c38_unchanged`: a register and literals. -/
example : (pack (fun _ => 6) 8 32 ⟨.pyInt 1, .var ⟨32, false⟩ "a", .pyInt 1, .pyInt 9, .pyInt 7⟩).bind (unpack 8 32) =
    some ⟨1, 6, 1, 9, 7⟩ :=
  c38_unchanged _ 8 32 (by decide) (by decide) _ ⟨1, 6, 1, 9, 7⟩
    ⟨Means.pyInt (v := 1) (by decide), by decide, by decide⟩
    ⟨Means.var (by unfold Ty.InRange; decide), by decide, by decide⟩
    ⟨Means.pyInt (v := 1) (by decide), by decide, by decide⟩ ⟨Means.pyInt (v := 9) (by decide), by decide, by decide⟩
    ⟨Means.pyInt (v := 7) (by decide), by decide, by decide⟩

end Dma
