import Verif.Lemmas.VExpr
import Verif.Model.ThreadExpr

/-! Values of the operators that the thread compiler uses. -/

namespace TEx
open Vlog

/-- Equal in the low `k` bits. -/
def Cg (k : ℕ) (a b : ℤ) : Prop := a % ((2 ^ k : ℕ) : ℤ) = b % ((2 ^ k : ℕ) : ℤ)

theorem Cg.refl (k : ℕ) (a : ℤ) : Cg k a a := rfl

theorem Cg.trans {k : ℕ} {a b c : ℤ} (h : Cg k a b) (h' : Cg k b c) : Cg k a c := Eq.trans h h'

theorem Cg.symm {k : ℕ} {a b : ℤ} (h : Cg k a b) : Cg k b a := Eq.symm h

theorem Cg.mono {k n : ℕ} {a b : ℤ} (h : Cg n a b) (hk : k ≤ n) : Cg k a b := by
  have hd : ((2 ^ k : ℕ) : ℤ) ∣ (2 ^ n : ℕ) := by exact_mod_cast Nat.pow_dvd_pow 2 hk
  unfold Cg at *
  rw [← Int.emod_emod_of_dvd _ hd, h, Int.emod_emod_of_dvd _ hd]

theorem Cg.wrap (c : Ty) {k : ℕ} (hk : k ≤ c.width) (v : ℤ) : Cg k (c.wrap v) v :=
  Cg.mono (c.wrap_emod v) hk

theorem Cg.add {k : ℕ} {a b x y : ℤ} (h1 : Cg k a x) (h2 : Cg k b y) : Cg k (a + b) (x + y) := by
  unfold Cg at *; rw [Int.add_emod, h1, h2, ← Int.add_emod]

theorem Cg.sub {k : ℕ} {a b x y : ℤ} (h1 : Cg k a x) (h2 : Cg k b y) : Cg k (a - b) (x - y) := by
  unfold Cg at *; rw [Int.sub_emod, h1, h2, ← Int.sub_emod]

theorem Cg.mul {k : ℕ} {a b x y : ℤ} (h1 : Cg k a x) (h2 : Cg k b y) : Cg k (a * b) (x * y) := by
  unfold Cg at *; rw [Int.mul_emod, h1, h2, ← Int.mul_emod]

theorem Cg.neg {k : ℕ} {a x : ℤ} (h1 : Cg k a x) : Cg k (-a) (-x) := by
  have := Cg.sub (Cg.refl k 0) h1
  simpa using this

theorem Cg.bits {k W : ℕ} (hk : k ≤ W) (v : ℤ) : Cg k (bits W v) v := by
  have h : ((Vlog.bits W v : ℕ) : ℤ) = v % (2 ^ W : ℕ) := by
    unfold Vlog.bits
    exact Int.toNat_of_nonneg (Int.emod_nonneg _ (by exact_mod_cast (two_pow_pos W).ne'))
  rw [h]
  exact Cg.mono (Int.emod_emod_of_dvd _ (Int.dvd_refl _)) hk

theorem wrap_eq_of_cg {t : Ty} {a b : ℤ} (h : Cg t.width a b) : t.wrap a = t.wrap b := t.wrap_congr h

/-! ## Bitwise operators -/

theorem testBit_bits' (k : ℕ) (x : ℤ) (i : ℕ) : (bits k x).testBit i = (decide (i < k) && Int.testBit x i) := by
  cases x with
  | ofNat n =>
    have h : bits k (Int.ofNat n) = n % 2 ^ k := by
      unfold bits
      change (((n : ℕ) : ℤ) % ((2 ^ k : ℕ) : ℤ)).toNat = _
      rw [← Int.natCast_emod, Int.toNat_natCast]
    rw [h, Nat.testBit_mod_two_pow]
    rfl
  | negSucc n =>
    have hp := two_pow_pos k
    have hlt := Nat.mod_lt n hp
    have h : bits k (Int.negSucc n) = 2 ^ k - (n % 2 ^ k + 1) := by
      unfold bits
      rw [Int.negSucc_emod _ (by exact_mod_cast hp), ← Int.natCast_emod]
      omega
    rw [h, Nat.testBit_two_pow_sub_succ hlt, Nat.testBit_mod_two_pow]
    change _ = (decide (i < k) && !n.testBit i)
    by_cases hi : i < k <;> simp [hi]

theorem bits_land (k : ℕ) (x y : ℤ) : bits k (Int.land x y) = bits k x &&& bits k y := by
  apply Nat.eq_of_testBit_eq
  intro i
  rw [Nat.testBit_and, testBit_bits', testBit_bits', testBit_bits', Int.testBit_land]
  by_cases hi : i < k <;> simp [hi]

theorem bits_lor (k : ℕ) (x y : ℤ) : bits k (Int.lor x y) = bits k x ||| bits k y := by
  apply Nat.eq_of_testBit_eq
  intro i
  rw [Nat.testBit_or, testBit_bits', testBit_bits', testBit_bits', Int.testBit_lor]
  by_cases hi : i < k <;> simp [hi]

theorem bits_xor (k : ℕ) (x y : ℤ) : bits k (Int.xor x y) = bits k x ^^^ bits k y := by
  apply Nat.eq_of_testBit_eq
  intro i
  rw [Nat.testBit_xor, testBit_bits', testBit_bits', testBit_bits', Int.testBit_lxor]
  by_cases hi : i < k <;> simp [hi]

theorem bits_cg {k : ℕ} {a b : ℤ} : bits k a = bits k b ↔ Cg k a b := by
  have h : ∀ v : ℤ, ((Vlog.bits k v : ℕ) : ℤ) = v % (2 ^ k : ℕ) := fun v => by
    unfold Vlog.bits
    exact Int.toNat_of_nonneg (Int.emod_nonneg _ (by exact_mod_cast (two_pow_pos k).ne'))
  constructor
  · intro e
    unfold Cg
    rw [← h, ← h, e]
  · intro e
    unfold Cg at e
    rw [← h, ← h] at e
    exact_mod_cast e

/-- The three operators agree in the low bits with those on integers. -/
theorem Cg.land {k W : ℕ} (hk : k ≤ W) {a b x y : ℤ} (h1 : Cg k a x) (h2 : Cg k b y) :
    Cg k ((Vlog.bits W a &&& Vlog.bits W b : ℕ) : ℤ) (Int.land x y) := by
  rw [← bits_land' W a b]
  refine (Cg.bits hk _).trans (bits_cg.1 ?_)
  rw [bits_land, bits_land, bits_cg.2 h1, bits_cg.2 h2]
where
  bits_land' (W : ℕ) (a b : ℤ) : Vlog.bits W (Int.land a b) = Vlog.bits W a &&& Vlog.bits W b := bits_land W a b

theorem Cg.lor {k W : ℕ} (hk : k ≤ W) {a b x y : ℤ} (h1 : Cg k a x) (h2 : Cg k b y) :
    Cg k ((Vlog.bits W a ||| Vlog.bits W b : ℕ) : ℤ) (Int.lor x y) := by
  rw [← bits_lor W a b]
  refine (Cg.bits hk _).trans (bits_cg.1 ?_)
  rw [bits_lor, bits_lor, bits_cg.2 h1, bits_cg.2 h2]

theorem Cg.xor {k W : ℕ} (hk : k ≤ W) {a b x y : ℤ} (h1 : Cg k a x) (h2 : Cg k b y) :
    Cg k ((Vlog.bits W a ^^^ Vlog.bits W b : ℕ) : ℤ) (Int.xor x y) := by
  rw [← bits_xor W a b]
  refine (Cg.bits hk _).trans (bits_cg.1 ?_)
  rw [bits_xor, bits_xor, bits_cg.2 h1, bits_cg.2 h2]

/-! ## Low bits in all contexts -/

variable {ρ : String → ℤ} {w : ℕ}

/-- In every context, signed or not, the low bits (not more than `w`) of `e` are those of `v`. -/
def Low (w : ℕ) (ρ : String → ℤ) (e : VExpr) (v : ℤ) : Prop :=
  ∀ c : Ty, e.ty.width ≤ c.width → ∀ k, k ≤ w → k ≤ c.width → Cg k (e.eval ρ c) v

theorem read_cg (t : Ty) (v : ℤ) (b : Bool) : Cg t.width ((⟨t, v⟩ : Val).read b) v := by
  unfold Val.read
  split
  · rfl
  · exact Int.emod_emod_of_dvd _ (Int.dvd_refl _)

theorem Low.var (x : String) : Low w ρ (.var ⟨w, true⟩ x) (ρ x) := by
  intro c _ k h1 h2
  refine (Cg.wrap c h2 _).trans ?_
  refine (Cg.mono (read_cg ⟨w, true⟩ _ _) h1).trans ?_
  exact Cg.wrap ⟨w, true⟩ h1 _

theorem Low.lit {n : ℕ} (hn : n < 2 ^ 31) : Low w ρ (.lit ⟨32, true⟩ n) n := by
  intro c _ k _ h2
  have hr : Ty.wrap ⟨32, true⟩ (n : ℤ) = n := Ty.wrap_of_inRange _ (by unfold Ty.InRange; simp; omega)
  change Cg k (extend ⟨32, true⟩ (Ty.wrap ⟨32, true⟩ (n : ℤ)) c) n
  rw [hr]
  refine (Cg.wrap c h2 _).trans ?_
  unfold Val.read
  split
  · rfl
  · change Cg k ((n : ℤ) % _) n
    rw [Int.emod_eq_of_lt (by omega) (by simp; omega)]
    rfl

theorem Low.pyInt {z : ℤ} (h : z.natAbs < 2 ^ 31) : Low w ρ (VExpr.pyInt z) z := by
  unfold VExpr.pyInt
  split
  · intro c hc k h1 h2
    refine (Cg.wrap c h2 _).trans ?_
    have := (Low.lit (ρ := ρ) (w := w) h c hc k h1 h2).neg
    rwa [show -(z.natAbs : ℤ) = z by omega] at this
  · have := Low.lit (ρ := ρ) (w := w) h
    rwa [show (z.natAbs : ℤ) = z by omega] at this

/-- A right amount of a shift. -/
theorem amount {b : VExpr} {y : ℤ} (hb : Means ρ b y) (hy : b.ty.InRange y) (h0 : 0 ≤ y) :
    bits b.ty.width (b.eval ρ b.ty) = y.toNat := by
  rw [hb b.ty (Nat.le_refl _) rfl, Ty.wrap_of_inRange _ hy]
  have h : y < (2 ^ b.ty.width : ℕ) := by
    have := two_pow_pos b.ty.width
    unfold Ty.InRange at hy
    split at hy <;> omega
  have := bits_of_nonneg h0 h
  omega

theorem self_eval {a : VExpr} {x : ℤ} (h : Means ρ a x) (hr : a.ty.InRange x) : a.eval ρ a.ty = x := by
  rw [h a.ty (Nat.le_refl _) rfl, Ty.wrap_of_inRange _ hr]

theorem bin_signed {op : BinOp} {a b : VExpr} (ha : a.ty.signed = true) (hb : b.ty.signed = true) :
    (VExpr.bin op a b).ty.signed = true := by
  change (a.ty.signed && b.ty.signed) = true
  rw [ha, hb]; rfl

/-- The operators that keep low bits. -/
theorem Low.bin {op : BinOp} {a b : VExpr} {x y : ℤ} (ha : Low w ρ a x) (hb : Low w ρ b y) {f : ℤ → ℤ → ℤ}
    (hf : (op = .plus ∧ f = (· + ·)) ∨ (op = .minus ∧ f = (· - ·)) ∨ (op = .times ∧ f = (· * ·)) ∨ (op = .and ∧ f = Int.land) ∨
      (op = .or ∧ f = Int.lor) ∨ (op = .xor ∧ f = Int.xor)) : Low w ρ (.bin op a b) (f x y) := by
  intro c hc k h1 h2
  have hc' : max a.ty.width b.ty.width ≤ c.width := hc
  have h3 := ha c (by omega) k h1 h2
  have h4 := hb c (by omega) k h1 h2
  rcases hf with ⟨rfl, rfl⟩ | ⟨rfl, rfl⟩ | ⟨rfl, rfl⟩ | ⟨rfl, rfl⟩ | ⟨rfl, rfl⟩ | ⟨rfl, rfl⟩
  · exact (Cg.wrap c h2 _).trans (h3.add h4)
  · exact (Cg.wrap c h2 _).trans (h3.sub h4)
  · exact (Cg.wrap c h2 _).trans (h3.mul h4)
  · exact (Cg.wrap c h2 _).trans (h3.land h2 h4)
  · exact (Cg.wrap c h2 _).trans (h3.lor h2 h4)
  · exact (Cg.wrap c h2 _).trans (h3.xor h2 h4)

/-- The same operators in a signed context. -/
theorem means_bin {op : BinOp} {a b : VExpr} {x y : ℤ} (ha : Means ρ a x) (hb : Means ρ b y) (sa : a.ty.signed = true)
    (sb : b.ty.signed = true) {f : ℤ → ℤ → ℤ}
    (hf : (op = .plus ∧ f = (· + ·)) ∨ (op = .minus ∧ f = (· - ·)) ∨ (op = .times ∧ f = (· * ·)) ∨ (op = .and ∧ f = Int.land) ∨
      (op = .or ∧ f = Int.lor) ∨ (op = .xor ∧ f = Int.xor)) : Means ρ (.bin op a b) (f x y) := by
  intro c hc hs
  have hc' : max a.ty.width b.ty.width ≤ c.width := hc
  rw [bin_signed sa sb] at hs
  have h3 := ha c (by omega) (hs.trans sa.symm)
  have h4 := hb c (by omega) (hs.trans sb.symm)
  change op.eval c (a.eval ρ c) (b.eval ρ c) = _
  rw [h3, h4]
  have h5 := Cg.wrap c (Nat.le_refl _) x
  have h6 := Cg.wrap c (Nat.le_refl _) y
  rcases hf with ⟨rfl, rfl⟩ | ⟨rfl, rfl⟩ | ⟨rfl, rfl⟩ | ⟨rfl, rfl⟩ | ⟨rfl, rfl⟩ | ⟨rfl, rfl⟩
  · exact wrap_eq_of_cg (h5.add h6)
  · exact wrap_eq_of_cg (h5.sub h6)
  · exact wrap_eq_of_cg (h5.mul h6)
  · exact wrap_eq_of_cg (h5.land (Nat.le_refl _) h6)
  · exact wrap_eq_of_cg (h5.lor (Nat.le_refl _) h6)
  · exact wrap_eq_of_cg (h5.xor (Nat.le_refl _) h6)

theorem mono_range {t c : Ty} {x : ℤ} (h : t.InRange x) (hw : t.width ≤ c.width) (hs : c.signed = t.signed) : c.wrap x = x :=
  Ty.wrap_of_inRange c (Ty.inRange_mono h hs.symm hw)

/-- Division truncates towards 0. -/
theorem means_div {a b : VExpr} {x y : ℤ} (ha : Means ρ a x) (hb : Means ρ b y) (sa : a.ty.signed = true)
    (sb : b.ty.signed = true) (ra : a.ty.InRange x) (rb : b.ty.InRange y) :
    Means ρ (.bin .divide a b) (x.tdiv y) ∧ Means ρ (.bin .mod a b) (x.tmod y) := by
  constructor <;>
  · intro c hc hs
    have hc' : max a.ty.width b.ty.width ≤ c.width := hc
    rw [bin_signed sa sb] at hs
    have h3 := ha c (by omega) (hs.trans sa.symm)
    have h4 := hb c (by omega) (hs.trans sb.symm)
    rw [mono_range ra (by omega) (hs.trans sa.symm)] at h3
    rw [mono_range rb (by omega) (hs.trans sb.symm)] at h4
    change BinOp.eval c _ (a.eval ρ c) (b.eval ρ c) = _
    rw [h3, h4]
    rfl

theorem means_sll {a b : VExpr} {x y : ℤ} (ha : Means ρ a x) (hb : Means ρ b y) (rb : b.ty.InRange y) (h0 : 0 ≤ y) :
    Means ρ (.shift .sll a b) (x * 2 ^ y.toNat) := by
  intro c hc hs
  change ShOp.eval c .sll (a.eval ρ c) _ = _
  rw [amount hb rb h0, ha c hc hs]
  change c.wrap (c.wrap x * _) = _
  rw [Ty.wrap_mul_wrap]
  push_cast
  rfl

theorem low_sll {a b : VExpr} {x y : ℤ} (ha : Low w ρ a x) (hb : Means ρ b y) (rb : b.ty.InRange y) (h0 : 0 ≤ y) :
    Low w ρ (.shift .sll a b) (x * 2 ^ y.toNat) := by
  intro c hc k h1 h2
  change Cg k (ShOp.eval c .sll (a.eval ρ c) _) _
  rw [amount hb rb h0]
  refine (Cg.wrap c h2 _).trans ?_
  have := (ha c hc k h1 h2).mul (Cg.refl k ((2 ^ y.toNat : ℕ) : ℤ))
  push_cast at this ⊢
  exact this

theorem means_sra {a b : VExpr} {x y : ℤ} (ha : Means ρ a x) (hb : Means ρ b y) (sa : a.ty.signed = true)
    (ra : a.ty.InRange x) (rb : b.ty.InRange y) (h0 : 0 ≤ y) : Means ρ (.shift .sra a b) (x.fdiv (2 ^ y.toNat)) := by
  intro c hc hs
  have hs' : c.signed = a.ty.signed := hs
  change ShOp.eval c .sra (a.eval ρ c) _ = _
  rw [amount hb rb h0, ha c hc hs', mono_range ra hc hs']
  have hcs : c.signed = true := hs'.trans sa
  change (if c.signed then x / ((2 ^ y.toNat : ℕ) : ℤ) else _) = _
  rw [if_pos hcs, Int.fdiv_eq_ediv_of_nonneg _ (by positivity)]
  have := mono_range (Ty.inRange_ediv ra y.toNat) hc hs'
  push_cast at this ⊢
  exact this.symm

theorem means_not {a : VExpr} {x : ℤ} (ha : Means ρ a x) : Means ρ (.not a) (-x - 1) := by
  intro c hc hs
  change c.wrap (- a.eval ρ c - 1) = _
  rw [ha c hc hs]
  exact wrap_eq_of_cg (((Cg.wrap c (Nat.le_refl _) x).neg).sub (Cg.refl _ 1))

theorem low_neg {a : VExpr} {x : ℤ} (ha : Low w ρ a x) : Low w ρ (.neg a) (-x) :=
  fun c hc k h1 h2 => (Cg.wrap c h2 _).trans (ha c hc k h1 h2).neg

theorem low_not {a : VExpr} {x : ℤ} (ha : Low w ρ a x) : Low w ρ (.not a) (-x - 1) :=
  fun c hc k h1 h2 => (Cg.wrap c h2 _).trans ((ha c hc k h1 h2).neg.sub (Cg.refl _ 1))

/-- A one-bit truth value: it has the value `z` (0 or 1) in every context. -/
structure Bit (ρ : String → ℤ) (e : VExpr) (z : ℤ) : Prop where
  bit : z = 0 ∨ z = 1
  pos : 1 ≤ e.ty.width
  all : ∀ c : Ty, e.ty.width ≤ c.width → e.eval ρ c = c.wrap z

theorem Bit.truth {e : VExpr} {z : ℤ} (h : Bit ρ e z) : e.eval ρ e.ty ≠ 0 ↔ z ≠ 0 := by
  rw [h.all e.ty (Nat.le_refl _)]
  rcases h.bit with rfl | rfl
  · simp [Ty.wrap]
  · have hp : 1 < 2 ^ e.ty.width := Nat.one_lt_two_pow (by have := h.pos; omega)
    have := e.ty.wrap_emod 1
    rw [Int.emod_eq_of_lt (a := 1) (by decide) (by exact_mod_cast hp)] at this
    constructor
    · intro _; decide
    · intro _ h0
      rw [h0] at this
      simp at this

theorem Bit.low {e : VExpr} {z : ℤ} (h : Bit ρ e z) : Low w ρ e z := by
  intro c hc k _ h2
  rw [h.all c hc]
  exact Cg.wrap c h2 z

theorem ite01 (p : Prop) [Decidable p] : (if p then (1 : ℤ) else 0) = 0 ∨ (if p then (1 : ℤ) else 0) = 1 := by
  split <;> simp

theorem bit_lnot {a : VExpr} {x : ℤ} (h : a.eval ρ a.ty ≠ 0 ↔ x ≠ 0) : Bit ρ (.lnot a) (if x = 0 then 1 else 0) := by
  refine ⟨ite01 _, Nat.le_refl _, fun c _ => ?_⟩
  change c.wrap (if a.eval ρ a.ty = 0 then 1 else 0) = _
  have : a.eval ρ a.ty = 0 ↔ x = 0 := not_iff_not.1 h
  simp only [this]

theorem bit_land (a b : VExpr) : Bit ρ (.land a b) (if a.eval ρ a.ty ≠ 0 ∧ b.eval ρ b.ty ≠ 0 then 1 else 0) :=
  ⟨ite01 _, Nat.le_refl _, fun _ _ => rfl⟩

theorem bit_lor (a b : VExpr) : Bit ρ (.lor a b) (if a.eval ρ a.ty ≠ 0 ∨ b.eval ρ b.ty ≠ 0 then 1 else 0) :=
  ⟨ite01 _, Nat.le_refl _, fun _ _ => rfl⟩

theorem bit_cmp {op : CmpOp} {a b : VExpr} {x y : ℤ} (ha : Means ρ a x) (hb : Means ρ b y) (sa : a.ty.signed = true)
    (sb : b.ty.signed = true) (ra : a.ty.InRange x) (rb : b.ty.InRange y) :
    Bit ρ (.cmp op a b) (if op.eval x y then 1 else 0) := by
  refine ⟨ite01 _, Nat.le_refl _, fun c _ => ?_⟩
  have hs : (VExpr.join a b).signed = true := by change (a.ty.signed && b.ty.signed) = true; rw [sa, sb]; rfl
  have h1 := ha (VExpr.join a b) (Nat.le_max_left ..) (hs.trans sa.symm)
  have h2 := hb (VExpr.join a b) (Nat.le_max_right ..) (hs.trans sb.symm)
  rw [mono_range ra (Nat.le_max_left ..) (hs.trans sa.symm)] at h1
  rw [mono_range rb (Nat.le_max_right ..) (hs.trans sb.symm)] at h2
  change c.wrap (if op.eval (a.eval ρ (VExpr.join a b)) (b.eval ρ (VExpr.join a b)) then 1 else 0) = _
  rw [h1, h2]

theorem bit_pyInt {z : ℤ} (h : z = 0 ∨ z = 1) : Bit ρ (VExpr.pyInt z) z := by
  refine ⟨h, by rw [pyInt_ty]; decide, fun c hc => ?_⟩
  have hl : Low c.width ρ (VExpr.pyInt z) z := Low.pyInt (by rcases h with rfl | rfl <;> decide)
  rw [← VExpr.eval_wrap]
  exact wrap_eq_of_cg (hl c hc c.width (Nat.le_refl _) (Nat.le_refl _))

end TEx
