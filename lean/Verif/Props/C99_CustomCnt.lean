import Verif.Model.CustomCnt
import Verif.Props.C85_StreamBits

/-!
# C99: `CustomCounter`

A counter whose next values are computed by a function: what the values of the returned tuple are in every cycle.
-/

namespace CCnt

open Vlog SBits

/-! ## Taking the variables apart -/

/-- Number of bits of a list of variables. -/
def total (vs : List Var) : ℕ := (vs.map fun v => v.width).sum

theorem total_cons (v : Var) (vs : List Var) : total (v :: vs) = v.width + total vs := by simp [total]

theorem total_append (a b : List Var) : total (a ++ b) = total a + total b := by simp [total]

theorem total_reverse (a : List Var) : total a.reverse = total a := by
  induction a with
  | nil => rfl
  | cons v a ih => rw [List.reverse_cons, total_append, ih, total_cons]; simp [total]; omega

theorem vals_width {vs : List Var} : ∀ {xs : List ℤ}, xs.length = vs.length →
    ((vals vs xs).map fun v => v.ty.width).sum = total vs := by
  induction vs with
  | nil => intro xs _; simp [vals, total]
  | cons v vs ih =>
    intro xs h
    cases xs with
    | nil => simp at h
    | cons x xs => simp only [vals, List.map_cons, List.sum_cons, total_cons]; rw [ih (by simpa using h)]; rfl

/-- Every register holds a value of its type. -/
def Fits : List Var → List ℤ → Prop
  | v :: vs, x :: xs => v.ty.wrap x = x ∧ Fits vs xs
  | [], [] => True
  | _, _ => False

theorem Fits.length {vs : List Var} : ∀ {xs : List ℤ}, Fits vs xs → xs.length = vs.length := by
  induction vs with
  | nil => intro xs h; cases xs with
    | nil => rfl
    | cons x xs => exact h.elim
  | cons v vs ih => intro xs h; cases xs with
    | nil => exact h.elim
    | cons x xs => simp [ih h.2]

theorem Fits.vals {vs : List Var} : ∀ {xs : List ℤ}, Fits vs xs → ∀ u ∈ vals vs xs, u.Ok := by
  induction vs with
  | nil => intro xs h u hu; simp [CCnt.vals] at hu
  | cons v vs ih => intro xs h u hu; cases xs with
    | nil => exact h.elim
    | cons x xs =>
      simp only [CCnt.vals, List.mem_cons] at hu
      rcases hu with rfl | hu
      · exact h.1
      · exact ih h.2 u hu

theorem Fits.get {vs : List Var} : ∀ {xs : List ℤ}, Fits vs xs → ∀ {i : ℕ} {v : Var} {x : ℤ}, vs[i]? = some v → xs[i]? = some x →
    v.ty.wrap x = x := by
  induction vs with
  | nil => intro xs h i v x hv; simp at hv
  | cons u vs ih => intro xs h i v x hv hx; cases xs with
    | nil => exact h.elim
    | cons y xs =>
      cases i with
      | zero => simp at hv hx; subst hv hx; exact h.1
      | succ i => simp at hv hx; exact ih h.2 hv hx

theorem fits_store {vs : List Var} : ∀ {xs : List ℤ}, xs.length = vs.length → Fits vs (store vs xs) := by
  induction vs with
  | nil => intro xs _; simp [store, Fits]
  | cons v vs ih => intro xs h; cases xs with
    | nil => simp at h
    | cons x xs => exact ⟨v.ty.wrap_wrap x, ih (by simpa using h)⟩

theorem fits_init (c : Cfg) : Fits c.vars c.init := by
  unfold Cfg.init
  induction c.vars with
  | nil => trivial
  | cons v vs ih => exact ⟨by simp [Ty.wrap], ih⟩

theorem store_get {vs : List Var} : ∀ {xs : List ℤ} {i : ℕ} {v : Var} {x : ℤ}, vs[i]? = some v → xs[i]? = some x →
    (store vs xs)[i]? = some (v.ty.wrap x) := by
  induction vs with
  | nil => intro xs i v x hv; simp at hv
  | cons u vs ih => intro xs i v x hv hx; cases xs with
    | nil => simp at hx
    | cons y xs => cases i with
      | zero => simp at hv hx; subst hv hx; simp [store]
      | succ i => simp at hv hx; simpa [store] using ih hv hx

/-- The bits of the variable `i` in the concatenation lie above those of the variables after it. -/
theorem catNat_get {vs : List Var} : ∀ {xs : List ℤ}, xs.length = vs.length → ∀ {i : ℕ} {v : Var} {x : ℤ}, vs[i]? = some v →
    xs[i]? = some x → catNat (vals vs xs) / 2 ^ total (vs.drop (i + 1)) % 2 ^ v.width = bits v.width x := by
  induction vs with
  | nil => intro xs _ i v x hv; simp at hv
  | cons u vs ih =>
    intro xs h i v x hv hx
    cases xs with
    | nil => simp at hx
    | cons y xs =>
      have hl : xs.length = vs.length := by simpa using h
      have hlt := catNat_lt (vals vs xs)
      rw [vals_width hl] at hlt
      cases i with
      | zero =>
        simp at hv hx; subst hv hx
        show (bits u.width y * 2 ^ ((vals vs xs).map fun v => v.ty.width).sum + catNat (vals vs xs)) / 2 ^ total vs % _ = _
        rw [vals_width hl, Nat.mul_comm, Nat.mul_add_div (Nat.two_pow_pos _), Nat.div_eq_of_lt hlt]
        exact Nat.mod_eq_of_lt (bits_lt _ _)
      | succ i =>
        simp at hv hx
        rw [← ih hl hv hx]
        show (bits u.width y * 2 ^ ((vals vs xs).map fun v => v.ty.width).sum + catNat (vals vs xs)) / 2 ^ total (vs.drop (i + 1)) % _ = _
        rw [vals_width hl]
        have hi : i < vs.length := by
          by_cases hc : i < vs.length
          · exact hc
          · rw [List.getElem?_eq_none (by omega)] at hv; cases hv
        have hd : vs = vs.take i ++ v :: vs.drop (i + 1) := by
          conv => lhs; rw [← List.take_append_drop i vs]
          rw [List.drop_eq_getElem_cons hi]
          have : vs[i] = v := by rw [List.getElem?_eq_getElem hi] at hv; exact Option.some.inj hv
          rw [this]
        have ht : total vs = total (vs.drop (i + 1)) + (v.width + total (vs.take i)) := by
          conv => lhs; rw [hd]
          rw [total_append, total_cons]; omega
        have hm : bits u.width y * 2 ^ total vs + catNat (vals vs xs) =
            2 ^ total (vs.drop (i + 1)) * (2 ^ v.width * (bits u.width y * 2 ^ total (vs.take i))) + catNat (vals vs xs) := by
          rw [ht, Nat.pow_add, Nat.pow_add]; ring
        rw [hm, Nat.mul_add_div (Nat.two_pow_pos _), Nat.mul_add_mod]

/-- A cast of an unsigned value of the same width. -/
theorem cast_val {w p : ℕ} (hp : p < 2 ^ 31) (s : Bool) {n : ℕ} (hn : n < 2 ^ w) :
    SArith.cast (fun _ => (n : ℤ)) ⟨w, p, s⟩ ⟨⟨w, 0, false⟩, .net "data"⟩ = (⟨w, s⟩ : Ty).wrap ((n : ℤ) * (2 ^ p : ℕ)) := by
  have hr : (⟨w, false⟩ : Ty).wrap (n : ℤ) = n :=
    Int.emod_eq_of_lt (by omega) (by exact_mod_cast hn)
  have hsrc : (VExpr.var ⟨w, false⟩ "data").assign (fun _ => (n : ℤ)) ⟨w, false⟩ = n := by
    show (⟨w, false⟩ : Ty).wrap (extend ⟨w, false⟩ ((⟨w, false⟩ : Ty).wrap (n : ℤ)) ⟨max w w, false⟩) = n
    rw [hr]
    show (⟨w, false⟩ : Ty).wrap ((⟨max w w, false⟩ : Ty).wrap ((n : ℤ) % (2 ^ w : ℕ))) = n
    rw [Nat.max_self, Ty.wrap_wrap]
    show (n : ℤ) % (2 ^ w : ℕ) % (2 ^ w : ℕ) = n
    rw [Int.emod_emod_of_dvd _ (Int.dvd_refl _)]
    exact hr
  have hread : (⟨⟨w, false⟩, (n : ℤ)⟩ : Val).read false = n := hr
  unfold SArith.cast
  show VExpr.assign (fun _ => (VExpr.var ⟨w, false⟩ "data").assign (fun _ => (n : ℤ)) ⟨w, false⟩) ⟨w, s⟩ _ = _
  rw [hsrc]
  by_cases h0 : p = 0
  · subst h0
    simp only [Nat.lt_irrefl, gt_iff_lt, if_false, pow_zero, Nat.cast_one, Int.mul_one]
    show (⟨w, s⟩ : Ty).wrap (extend ⟨w, false⟩ ((⟨w, false⟩ : Ty).wrap (n : ℤ)) ⟨max w w, false⟩) = _
    rw [hr, Nat.max_self]
    show (⟨w, s⟩ : Ty).wrap ((⟨w, false⟩ : Ty).wrap ((⟨⟨w, false⟩, (n : ℤ)⟩ : Val).read false)) = _
    rw [hread, hr]
  · rw [if_neg (by simp), if_pos (by show 0 < p; omega)]
    show (⟨w, s⟩ : Ty).wrap ((⟨max w w, false⟩ : Ty).wrap
      (extend ⟨w, false⟩ ((⟨w, false⟩ : Ty).wrap (n : ℤ)) ⟨max w w, false⟩ *
        ((2 ^ (bits (VExpr.pyInt ((p - 0 : ℕ) : ℤ)).ty.width ((VExpr.pyInt ((p - 0 : ℕ) : ℤ)).eval _ (VExpr.pyInt ((p - 0 : ℕ) : ℤ)).ty)) : ℕ) : ℤ))) = _
    rw [amount_pyInt (by omega), hr, Nat.max_self]
    show (⟨w, s⟩ : Ty).wrap ((⟨w, false⟩ : Ty).wrap ((⟨w, false⟩ : Ty).wrap ((⟨⟨w, false⟩, (n : ℤ)⟩ : Val).read false) * (2 ^ (p - 0) : ℕ))) = _
    rw [hread, hr, Nat.sub_zero]
    exact Ty.wrap_wrap_le (t := ⟨w, s⟩) (t' := ⟨w, false⟩) (Nat.le_refl _) _

theorem unpack_get (d : Val) {vs : List Var} : ∀ {i : ℕ} {v : Var} (lsb : ℕ), vs[i]? = some v →
    (unpack d vs lsb)[i]? = some (pick d v (lsb + total (vs.take i))) := by
  induction vs with
  | nil => intro i v lsb hv; simp at hv
  | cons u vs ih => intro i v lsb hv; cases i with
    | zero => simp at hv; subst hv; simp [unpack, total]
    | succ i => simp at hv; simp only [unpack, List.getElem?_cons_succ, List.take_succ_cons, total_cons]; rw [ih _ hv]; congr 2; omega

theorem unpack_length (d : Val) (vs : List Var) : ∀ lsb, (unpack d vs lsb).length = vs.length := by
  induction vs with
  | nil => intro _; rfl
  | cons v vs ih => intro lsb; simp [unpack, ih]

theorem pick_val {d : Val} (hd : d.Ok) {v : Var} (hv : 0 < v.width) (hp : v.point < 2 ^ 31) {lsb : ℕ} :
    pick d v lsb = some (v.ty.wrap (((bits d.ty.width d.val / 2 ^ lsb % 2 ^ v.width : ℕ) : ℤ) * (2 ^ v.point : ℕ))) := by
  unfold pick SBits.slice
  rw [if_neg (by omega), Option.map_some]
  have hw : lsb + v.width - 1 - lsb + 1 = v.width := by omega
  have hval : (put ⟨lsb + v.width - 1 - lsb + 1, false⟩ (.slice (leaf d) (lsb + v.width - 1) lsb)).val =
      ((bits d.ty.width d.val / 2 ^ lsb % 2 ^ v.width : ℕ) : ℤ) := by
    show Ty.wrap ⟨lsb + v.width - 1 - lsb + 1, false⟩ (Ty.wrap ⟨max (lsb + v.width - 1 - lsb + 1) (lsb + v.width - 1 - lsb + 1), false⟩
      ((bits d.ty.width ((leaf d).eval _ d.ty) / 2 ^ lsb % 2 ^ (lsb + v.width - 1 - lsb + 1) : ℕ) : ℤ)) = _
    rw [leaf_self hd, hw, Nat.max_self, Ty.wrap_wrap]
    exact Int.emod_eq_of_lt (by omega) (by exact_mod_cast Nat.mod_lt _ (Nat.two_pow_pos _))
  show some (SArith.cast (fun _ => (put _ _).val) ⟨v.width, v.point, v.signed⟩
    ⟨⟨lsb + v.width - 1 - lsb + 1, 0, false⟩, .net "data"⟩) = _
  rw [hval, hw, cast_val hp v.signed (Nat.mod_lt _ (Nat.two_pow_pos _))]
  rfl

/-- What the tuple holds, in terms of the registers. -/
theorem outs_get {c : Cfg} {s : List ℤ} (hs : Fits c.vars s) (hw : ∀ v ∈ c.vars, 0 < v.width ∧ v.point < 2 ^ 31) {i : ℕ} {v : Var} {x : ℤ}
    (hv : c.vars[i]? = some v) (hx : s[i]? = some x) : (c.outs s)[i]? = some (some (v.ty.wrap (x * (2 ^ v.point : ℕ)))) := by
  have hi : i < c.vars.length := by
    by_cases hc : i < c.vars.length
    · exact hc
    · rw [List.getElem?_eq_none (by omega)] at hv; cases hv
  unfold Cfg.outs
  have hl : (unpack (c.data s) c.vars.reverse 0).length = c.vars.length := by rw [unpack_length, List.length_reverse]
  rw [List.getElem?_reverse (by omega), hl]
  have hr : c.vars.reverse[c.vars.length - 1 - i]? = some v := by
    rw [List.getElem?_reverse (by omega)]
    rw [show c.vars.length - 1 - (c.vars.length - 1 - i) = i by omega]; exact hv
  rw [unpack_get _ _ hr, Nat.zero_add]
  have ht : total (c.vars.reverse.take (c.vars.length - 1 - i)) = total (c.vars.drop (i + 1)) := by
    rw [List.take_reverse, total_reverse]
    congr 2; omega
  have hmem := List.mem_of_getElem? hv
  have hdok : (c.data s).Ok := put_ok _ _
  rw [pick_val hdok (hw v hmem).1 (hw v hmem).2, ht]
  have hbits : bits (c.data s).ty.width (c.data s).val = catNat (vals c.vars s) := by
    have hlt := catNat_lt (vals c.vars s)
    show bits ((vals c.vars s).map fun v => v.ty.width).sum (Ty.wrap ⟨((vals c.vars s).map fun v => v.ty.width).sum, false⟩
      ((catExpr (vals c.vars s)).eval _ _)) = _
    rw [catExpr_eval hs.vals, Ty.wrap_wrap_le (by show _ ≤ max _ _; exact Nat.le_max_left _ _)]
    have h4 := cast_bits ((vals c.vars s).map fun v => v.ty.width).sum
      (Ty.wrap ⟨((vals c.vars s).map fun v => v.ty.width).sum, false⟩ (catNat (vals c.vars s) : ℕ))
    rw [Ty.wrap_emod ⟨((vals c.vars s).map fun v => v.ty.width).sum, false⟩] at h4
    rw [Int.emod_eq_of_lt (by omega) (by exact_mod_cast hlt)] at h4
    exact_mod_cast h4
  rw [hbits, catNat_get hs.length hv hx, cast_bits]
  congr 2
  apply v.ty.wrap_congr
  show (x % (2 ^ v.width : ℕ) * _) % (2 ^ v.width : ℕ) = _
  rw [Int.mul_emod, Int.emod_emod_of_dvd _ (Int.dvd_refl _), ← Int.mul_emod]
  rfl

/-! ## The registers -/

/-- A counter that the code accepts: as many expressions as variables, which have at least one bit, and points that are not huge. -/
structure Cfg.Legal (c : Cfg) : Prop where
  built : c.build = some c
  width : ∀ v ∈ c.vars, 0 < v.width ∧ v.point < 2 ^ 31

/-- There is one initial value for every variable. -/
def Cfg.Fed (c : Cfg) (inp : ℕ → In) : Prop := ∀ t, (inp t).inits.length = c.vars.length

theorem Cfg.Legal.next_length {c : Cfg} (h : c.Legal) : c.next.length = c.vars.length := by
  have := h.built
  unfold Cfg.build at this
  split at this
  · assumption
  · cases this

theorem fits_at {c : Cfg} (h : c.Legal) {inp : ℕ → In} (hf : c.Fed inp) (t : ℕ) : Fits c.vars (c.at inp t) := by
  induction t with
  | zero => exact fits_init c
  | succ t ih =>
    show Fits c.vars (c.step _ _)
    unfold Cfg.step
    split
    · apply fits_store
      have := hf t
      simp [Cfg.argData]; omega
    · split
      · apply fits_store; rw [List.length_map]; exact h.next_length
      · exact ih

/-! ## Theorems -/

/-- The `i`-th value of the returned tuple is `x` in cycle `t`. -/
def Shows (c : Cfg) (inp : ℕ → In) (t i : ℕ) (x : ℤ) : Prop := (c.outs (c.at inp t))[i]? = some (some x)

theorem shows_of {c : Cfg} (h : c.Legal) {inp : ℕ → In} (hf : c.Fed inp) {t i : ℕ} {v : Var} {x : ℤ} (hv : c.vars[i]? = some v)
    (hx : (c.at inp t)[i]? = some x) : Shows c inp t i (v.ty.wrap (x * (2 ^ v.point : ℕ))) := outs_get (fits_at h hf t) h.width hv hx

theorem shows_reg {c : Cfg} (h : c.Legal) {inp : ℕ → In} (hf : c.Fed inp) {t i : ℕ} {v : Var} {x : ℤ} (hv : c.vars[i]? = some v)
    (hp : v.point = 0) (hx : (c.at inp t)[i]? = some x) : Shows c inp t i x := by
  have := shows_of h hf hv hx
  rw [hp] at this
  simp only [pow_zero, Nat.cast_one, Int.mul_one] at this
  rwa [(fits_at h hf t).get hv hx] at this

theorem reg_of_shows {c : Cfg} (h : c.Legal) {inp : ℕ → In} (hf : c.Fed inp) {t i : ℕ} {v : Var} {x : ℤ} (hv : c.vars[i]? = some v)
    (hp : v.point = 0) (hx : Shows c inp t i x) : (c.at inp t)[i]? = some x := by
  have hi : i < (c.at inp t).length := by
    rw [(fits_at h hf t).length]
    by_cases hc : i < c.vars.length
    · exact hc
    · rw [List.getElem?_eq_none (by omega)] at hv; cases hv
  have h1 := shows_reg h hf hv hp (List.getElem?_eq_getElem hi)
  unfold Shows at h1 hx
  rw [h1] at hx
  rw [List.getElem?_eq_getElem hi]
  exact Option.some.inj hx

/-- **C99, one value for every variable**, always defined. -/
theorem c99_tuple {c : Cfg} (h : c.Legal) {inp : ℕ → In} (hf : c.Fed inp) (t : ℕ) :
    (c.outs (c.at inp t)).length = c.vars.length ∧ ∀ o ∈ c.outs (c.at inp t), o.isSome := by
  have hl : (c.outs (c.at inp t)).length = c.vars.length := by simp [Cfg.outs, unpack_length]
  refine ⟨hl, fun o ho => ?_⟩
  obtain ⟨i, hi, rfl⟩ := List.getElem_of_mem ho
  have hi' : i < (c.at inp t).length := by rw [(fits_at h hf t).length]; omega
  have := shows_of h hf (List.getElem?_eq_getElem (l := c.vars) (i := i) (by omega)) (List.getElem?_eq_getElem hi')
  unfold Shows at this
  rw [List.getElem?_eq_getElem hi] at this
  rw [Option.some.inj this]
  rfl

/-- **C99, the start.** All values are 0 first, whatever the initial values are. -/
theorem c99_start {c : Cfg} (h : c.Legal) {inp : ℕ → In} (hf : c.Fed inp) {i : ℕ} (hi : i < c.vars.length) : Shows c inp 0 i 0 := by
  have := shows_of (t := 0) h hf (List.getElem?_eq_getElem hi) (x := 0) (by simp [Cfg.at, Cfg.init, hi])
  simpa [Ty.wrap] using this

/-- **C99, reset.** After an enabled cycle with `reset` the values are the initial values of this cycle, modulo the widths. -/
theorem c99_reset {c : Cfg} (h : c.Legal) {inp : ℕ → In} (hf : c.Fed inp) {t i : ℕ} {v : Var} {x : ℤ} (hv : c.vars[i]? = some v)
    (hp : v.point = 0) (hx : (inp t).inits[i]? = some x) (hr : c.hasReset = true) (hrst : (inp t).rst ≠ 0) (hadv : (inp t).adv = true)
    (hval : c.multi = true → (inp t).valid = true) : Shows c inp (t + 1) i (v.ty.wrap x) := by
  apply shows_reg h hf hv hp
  show (c.step _ _)[i]? = _
  have he : c.enable (inp t) = true := by
    unfold Cfg.enable; cases hm : c.multi <;> simp [hadv, hval, hm]
  unfold Cfg.step
  rw [if_pos (by simp [hr, he, hrst])]
  apply store_get hv
  have hn := hf t
  have hi : i < (inp t).inits.length := by
    by_cases hc : i < (inp t).inits.length
    · exact hc
    · rw [List.getElem?_eq_none (by omega)] at hx; cases hx
  unfold Cfg.argData
  rw [← hn, List.append_assoc, List.take_left]
  exact hx

/-- **C99, the next values.** After an enabled cycle without `reset` each value is that of its expression, modulo the width, for the
    values before and the arguments, one for every variable, of this cycle. -/
theorem c99_next {c : Cfg} (h : c.Legal) {inp : ℕ → In} (hf : c.Fed inp) (hp : ∀ v ∈ c.vars, v.point = 0) {t : ℕ} {xs : List ℤ}
    (hxs : xs.length = c.vars.length) (hs : ∀ (i : ℕ) (x : ℤ), xs[i]? = some x → Shows c inp t i x)
    (ha : (inp t).args.length = c.vars.length) (hadv : (inp t).adv = true) (hval : c.multi = true → (inp t).valid = true)
    (hr : c.hasReset = false ∨ (inp t).rst = 0) {i : ℕ} {v : Var} {e : List ℤ → ℤ} (hv : c.vars[i]? = some v) (he : c.next[i]? = some e) :
    Shows c inp (t + 1) i (v.ty.wrap (e (xs ++ (inp t).args))) := by
  apply shows_reg h hf hv (hp v (List.mem_of_getElem? hv))
  show (c.step _ _)[i]? = _
  have hen : c.enable (inp t) = true := by
    unfold Cfg.enable; cases hm : c.multi <;> simp [hadv, hval, hm]
  have hreg : c.at inp t = xs := by
    apply List.ext_getElem?
    intro j
    by_cases hj : j < c.vars.length
    · have h1 : xs[j]? = some xs[j] := List.getElem?_eq_getElem (by omega)
      rw [reg_of_shows h hf (List.getElem?_eq_getElem hj) (hp _ (List.getElem_mem hj)) (hs j _ h1), h1]
    · rw [List.getElem?_eq_none (by rw [(fits_at h hf t).length]; omega), List.getElem?_eq_none (by omega)]
  have hfa : c.funcArgs (inp t) = (inp t).args := by
    unfold Cfg.funcArgs Cfg.argData
    have h1 := hf t
    rw [← h1, List.append_assoc, List.drop_left, h1, ← ha, List.take_left]
  unfold Cfg.step
  rw [if_neg (by rcases hr with hr | hr <;> simp [hr]), if_pos hen, hreg, hfa]
  apply store_get hv
  rw [List.getElem?_map, he]
  rfl

/-- **C99, stall.** In a cycle in which the stream does not advance nothing changes. -/
theorem c99_hold (c : Cfg) (inp : ℕ → In) {t : ℕ} (hadv : (inp t).adv = false) (i : ℕ) (x : ℤ) :
    Shows c inp (t + 1) i x ↔ Shows c inp t i x := by
  have : c.at inp (t + 1) = c.at inp t := by
    show c.step _ _ = _
    simp [Cfg.step, Cfg.enable, hadv]
  unfold Shows
  rw [this]

/-- **C99, iteration.** After a record with `reset`, `k` records without it and with the same arguments give the function applied
    `k` times to the initial values.  `f` is the function on lists that takes every result modulo the width of its variable. -/
theorem c99_iter {c : Cfg} (h : c.Legal) {inp : ℕ → In} (hf : c.Fed inp) (hp : ∀ v ∈ c.vars, v.point = 0) {t k : ℕ} {x₀ as : List ℤ}
    (hr : c.hasReset = true) (hrst : (inp t).rst ≠ 0) (hin : (inp t).inits = x₀)
    (hfit : ∀ (i : ℕ) (v : Var) (x : ℤ), c.vars[i]? = some v → x₀[i]? = some x → v.ty.wrap x = x)
    (hgo : ∀ j, j ≤ k → (inp (t + j)).adv = true ∧ (inp (t + j)).valid = true)
    (harg : ∀ j, 0 < j → j ≤ k → (inp (t + j)).args = as ∧ (inp (t + j)).rst = 0) (has : as.length = c.vars.length)
    {f : List ℤ → List ℤ} (hlen : ∀ xs, xs.length = c.vars.length → (f xs).length = c.vars.length)
    (hff : ∀ (xs : List ℤ) (i : ℕ) (v : Var) (e : List ℤ → ℤ), xs.length = c.vars.length → c.vars[i]? = some v → c.next[i]? = some e → (f xs)[i]? = some (v.ty.wrap (e (xs ++ as))))
    {i : ℕ} {x : ℤ} (hx : (Nat.repeat f k x₀)[i]? = some x) : Shows c inp (t + k + 1) i x := by
  have hx0 : x₀.length = c.vars.length := hin ▸ hf t
  have key : ∀ m, m ≤ k → (Nat.repeat f m x₀).length = c.vars.length ∧
      ∀ (i : ℕ) (x : ℤ), (Nat.repeat f m x₀)[i]? = some x → Shows c inp (t + m + 1) i x := by
    intro m
    induction m with
    | zero =>
      intro _
      refine ⟨hx0, fun i x hx => ?_⟩
      have hx : x₀[i]? = some x := hx
      have hi : i < c.vars.length := by
        by_cases hc : i < c.vars.length
        · exact hc
        · rw [List.getElem?_eq_none (by omega)] at hx; cases hx
      have hg := hgo 0 (Nat.zero_le _)
      have := c99_reset h hf (List.getElem?_eq_getElem hi) (hp _ (List.getElem_mem hi)) (hin ▸ hx) hr hrst hg.1 (fun _ => hg.2)
      rwa [hfit i _ x (List.getElem?_eq_getElem hi) hx] at this
    | succ m ih =>
      intro hm
      obtain ⟨hl, hs⟩ := ih (by omega)
      refine ⟨hlen _ hl, fun i x hx => ?_⟩
      have hx : (f (Nat.repeat f m x₀))[i]? = some x := hx
      have hi : i < c.vars.length := by
        by_cases hc : i < c.vars.length
        · exact hc
        · rw [List.getElem?_eq_none (by rw [hlen _ hl]; omega)] at hx; cases hx
      have hg := hgo (m + 1) hm
      have ha := harg (m + 1) (by omega) hm
      have hi' : i < c.next.length := by rw [h.next_length]; exact hi
      have := c99_next (t := t + (m + 1)) h hf hp hl hs (by rw [ha.1]; exact has) hg.1 (fun _ => hg.2) (Or.inr ha.2)
        (List.getElem?_eq_getElem hi) (List.getElem?_eq_getElem hi')
      rw [ha.1] at this
      rw [hff _ i _ _ hl (List.getElem?_eq_getElem hi) (List.getElem?_eq_getElem hi')] at hx
      cases hx
      exact this
  exact (key k (Nat.le_refl _)).2 i x hx

/-- **C99, the constructor.** It takes exactly the lists that have one entry for every initial value; the `i`-th variable has the
    `i`-th entries, or 32 bits, point 0 and a sign. -/
theorem c99_lists (n : ℕ) (ws ps : Option (List ℕ)) (ss : Option (List Bool)) :
    ((mkVars n ws ps ss).isSome ↔ (∀ l, ws = some l → l.length = n) ∧ (∀ l, ps = some l → l.length = n) ∧ ∀ l, ss = some l → l.length = n) ∧
    ∀ vs, mkVars n ws ps ss = some vs → vs.length = n ∧ ∀ (i : ℕ) (v : Var), vs[i]? = some v →
      (∀ l, ws = some l → l[i]? = some v.width) ∧ (ws = none → v.width = 32) ∧ (∀ l, ps = some l → l[i]? = some v.point) ∧
      (ps = none → v.point = 0) ∧ (∀ l, ss = some l → l[i]? = some v.signed) ∧ (ss = none → v.signed = true) := by
  have hcol : ∀ {α : Type} (d : α) (o : Option (List α)), ((column n d o).isSome ↔ ∀ l, o = some l → l.length = n) ∧
      ∀ l, column n d o = some l → l.length = n ∧ ∀ (i : ℕ) (a : α), l[i]? = some a → (∀ l', o = some l' → l'[i]? = some a) ∧ (o = none → a = d) := by
    intro α d o
    cases o with
    | none =>
      refine ⟨by simp [column], fun l hl => ?_⟩
      cases hl
      refine ⟨by simp, fun i a ha => ⟨by simp, fun _ => ?_⟩⟩
      rw [List.getElem?_replicate] at ha
      split at ha
      · cases ha; rfl
      · cases ha
    | some o =>
      by_cases h : o.length = n
      · refine ⟨by simp [column, h], fun l hl => ?_⟩
        simp only [column, h, if_true, Option.some.injEq] at hl
        subst hl
        refine ⟨h, fun i a ha => ⟨fun l' hl' => ?_, by simp⟩⟩
        cases hl'; exact ha
      · exact ⟨by simp [column, h], fun l hl => by simp [column, h] at hl⟩
  have hzip : ∀ (a b : List ℕ) (c : List Bool), a.length = b.length → a.length = c.length → (zipVars a b c).length = a.length ∧
      ∀ (i : ℕ) (v : Var), (zipVars a b c)[i]? = some v → a[i]? = some v.width ∧ b[i]? = some v.point ∧ c[i]? = some v.signed := by
    intro a
    induction a with
    | nil => intro b c _ _; simp [zipVars]
    | cons x a ih =>
      intro b c hb hc
      cases b with
      | nil => simp at hb
      | cons y b => cases c with
        | nil => simp at hc
        | cons z c =>
          obtain ⟨h1, h2⟩ := ih b c (by simpa using hb) (by simpa using hc)
          refine ⟨by simp [zipVars, h1], fun i v hv => ?_⟩
          cases i with
          | zero => simp [zipVars] at hv; subst hv; simp
          | succ i => simp [zipVars] at hv; simpa using h2 i v hv
  obtain ⟨w1, w2⟩ := hcol 32 ws
  obtain ⟨p1, p2⟩ := hcol 0 ps
  obtain ⟨s1, s2⟩ := hcol true ss
  rw [← w1, ← p1, ← s1]
  unfold mkVars
  cases hw : column n 32 ws with
  | none => simp
  | some a => cases hp : column n 0 ps with
    | none => simp
    | some b => cases hs : column n true ss with
      | none => simp
      | some c =>
        refine ⟨by simp, fun vs hvs => ?_⟩
        simp only [Option.some.injEq] at hvs
        obtain ⟨a1, a2⟩ := w2 a hw
        obtain ⟨b1, b2⟩ := p2 b hp
        obtain ⟨c1, c2⟩ := s2 c hs
        obtain ⟨z1, z2⟩ := hzip a b c (by omega) (by omega)
        subst hvs
        refine ⟨by omega, fun i v hv => ?_⟩
        obtain ⟨q1, q2, q3⟩ := z2 i v hv
        exact ⟨(a2 i _ q1).1, (a2 i _ q1).2, (b2 i _ q2).1, (b2 i _ q2).2, (c2 i _ q3).1, (c2 i _ q3).2⟩

/-! ## What it does not do -/

/-- **C99, not the initial values.** Without `reset` the initial values have no effect at all. -/
theorem c99_not_initvals {c : Cfg} (hr : c.hasReset = false) {inp inp' : ℕ → In} (hf : c.Fed inp) (hf' : c.Fed inp')
    (h : ∀ t, (inp t).adv = (inp' t).adv ∧ (inp t).valid = (inp' t).valid ∧ (inp t).args = (inp' t).args) (t i : ℕ) (x : ℤ) :
    Shows c inp t i x ↔ Shows c inp' t i x := by
  have : c.at inp t = c.at inp' t := by
    induction t with
    | zero => rfl
    | succ t ih =>
      show c.step _ _ = c.step _ _
      obtain ⟨h1, h2, h3⟩ := h t
      have e1 : c.funcArgs (inp t) = c.funcArgs (inp' t) := by
        unfold Cfg.funcArgs Cfg.argData
        rw [← hf t, List.append_assoc, List.drop_left, hf t, ← hf' t, List.append_assoc, List.drop_left, h3, hr]
        simp
      simp [Cfg.step, hr, Cfg.enable, h1, h2, e1, ih]
  unfold Shows
  rw [this]

/-- **C99, not the valid signal.** With an initiation interval of 1 the counter also counts in cycles that are not valid. -/
theorem c99_not_valid {c : Cfg} (hm : c.multi = false) {inp inp' : ℕ → In}
    (h : ∀ t, inp' t = { inp t with valid := (inp' t).valid }) (t i : ℕ) (x : ℤ) : Shows c inp t i x ↔ Shows c inp' t i x := by
  have : c.at inp t = c.at inp' t := by
    induction t with
    | zero => rfl
    | succ t ih =>
      show c.step _ _ = c.step _ _
      rw [h t, ih]
      simp [Cfg.step, hm, Cfg.enable, Cfg.funcArgs, Cfg.argData]
  unfold Shows
  rw [this]

/-- What `func` is given in general: the first of the arguments, as many as there are variables, and if there are fewer arguments the
    reset signal as one more. -/
theorem c99_args {c : Cfg} (h : c.Legal) {inp : ℕ → In} (hf : c.Fed inp) (hp : ∀ v ∈ c.vars, v.point = 0) {t : ℕ} {xs : List ℤ}
    (hxs : xs.length = c.vars.length) (hs : ∀ (i : ℕ) (x : ℤ), xs[i]? = some x → Shows c inp t i x)
    (hadv : (inp t).adv = true) (hval : c.multi = true → (inp t).valid = true)
    (hr : c.hasReset = false ∨ (inp t).rst = 0) {i : ℕ} {v : Var} {e : List ℤ → ℤ} (hv : c.vars[i]? = some v) (he : c.next[i]? = some e) :
    Shows c inp (t + 1) i (v.ty.wrap (e (xs ++ (inp t).args.take c.vars.length ++
      if c.hasReset = true ∧ (inp t).args.length < c.vars.length then [(inp t).rst] else []))) := by
  apply shows_reg h hf hv (hp v (List.mem_of_getElem? hv))
  show (c.step _ _)[i]? = _
  have hen : c.enable (inp t) = true := by
    unfold Cfg.enable; cases hm : c.multi <;> simp [hadv, hval, hm]
  have hreg : c.at inp t = xs := by
    apply List.ext_getElem?
    intro j
    by_cases hj : j < c.vars.length
    · have h1 : xs[j]? = some xs[j] := List.getElem?_eq_getElem (by omega)
      rw [reg_of_shows h hf (List.getElem?_eq_getElem hj) (hp _ (List.getElem_mem hj)) (hs j _ h1), h1]
    · rw [List.getElem?_eq_none (by rw [(fits_at h hf t).length]; omega), List.getElem?_eq_none (by omega)]
  have hfa : c.funcArgs (inp t) = (inp t).args.take c.vars.length ++
      if c.hasReset = true ∧ (inp t).args.length < c.vars.length then [(inp t).rst] else [] := by
    unfold Cfg.funcArgs Cfg.argData
    have h1 := hf t
    rw [← h1, List.append_assoc, List.drop_left, h1, List.take_append]
    congr 1
    by_cases hR : c.hasReset = true
    · by_cases hA : (inp t).args.length < c.vars.length
      · rw [if_pos hR, if_pos ⟨hR, hA⟩]
        exact List.take_of_length_le (by simp; omega)
      · rw [if_pos hR, if_neg (fun hh => hA hh.2), Nat.sub_eq_zero_of_le (by omega)]
        rfl
    · rw [if_neg hR, if_neg (fun hh => hR hh.1)]
      simp
  unfold Cfg.step
  rw [if_neg (by rcases hr with hr | hr <;> simp [hr]), if_pos hen, hreg, hfa]
  rw [List.append_assoc]
  apply store_get hv
  rw [List.getElem?_map, he]
  rfl

theorem pow_pred_coprime (w : ℕ) {p : ℕ} (hp : 0 < p) : Nat.Coprime (2 ^ w) (2 ^ p - 1) := by
  apply Nat.Coprime.pow_left
  have h1 : 2 ^ p = 2 * 2 ^ (p - 1) := by rw [← Nat.pow_succ']; congr 1; omega
  have h2 := Nat.two_pow_pos (p - 1)
  have h3 : (2 ^ p - 1) % 2 = 1 := by omega
  show Nat.gcd 2 (2 ^ p - 1) = 1
  rw [Nat.gcd_rec, h3]
  rfl

/-- The value of a variable with a point is shifted once more: what is shown is the register times `2 ^ point`. -/
theorem c99_point {c : Cfg} (h : c.Legal) {inp : ℕ → In} (hf : c.Fed inp) {t i : ℕ} {v : Var} {x : ℤ} (hv : c.vars[i]? = some v)
    (hx : (inp t).inits[i]? = some x) (hr : c.hasReset = true) (hrst : (inp t).rst ≠ 0) (hadv : (inp t).adv = true)
    (hval : c.multi = true → (inp t).valid = true) : Shows c inp (t + 1) i (v.ty.wrap (x * (2 ^ v.point : ℕ))) := by
  have hstep : (c.at inp (t + 1))[i]? = some (v.ty.wrap x) := by
    show (c.step _ _)[i]? = _
    have he : c.enable (inp t) = true := by
      unfold Cfg.enable; cases hm : c.multi <;> simp [hadv, hval, hm]
    unfold Cfg.step
    rw [if_pos (by simp [hr, he, hrst])]
    apply store_get hv
    have hn := hf t
    unfold Cfg.argData
    rw [← hn, List.append_assoc, List.take_left]
    exact hx
  have := shows_of h hf hv hstep
  rwa [v.ty.wrap_mul_wrap] at this

/-- **C99, not the point.** A variable with a point that is set to an initial value other than 0 does not show this value. -/
theorem c99_not_point {c : Cfg} (h : c.Legal) {inp : ℕ → In} (hf : c.Fed inp) {t i : ℕ} {v : Var} {x : ℤ} (hv : c.vars[i]? = some v)
    (hp : 0 < v.point) (hx : (inp t).inits[i]? = some x) (hfit : v.ty.InRange x) (h0 : x ≠ 0) (hr : c.hasReset = true)
    (hrst : (inp t).rst ≠ 0) (hadv : (inp t).adv = true) (hval : c.multi = true → (inp t).valid = true) :
    ¬ Shows c inp (t + 1) i x := by
  intro hs
  have h1 := c99_point h hf hv hx hr hrst hadv hval
  unfold Shows at hs h1
  rw [h1] at hs
  have h2 : v.ty.wrap (x * (2 ^ v.point : ℕ)) = x := Option.some.inj (Option.some.inj hs)
  have h3 : x % (2 ^ v.ty.width : ℕ) = x * (2 ^ v.point : ℕ) % (2 ^ v.ty.width : ℕ) := by
    conv => lhs; rw [← h2]
    exact v.ty.wrap_emod _
  have h4 : ((2 ^ v.ty.width : ℕ) : ℤ) ∣ x * ((2 ^ v.point - 1 : ℕ) : ℤ) := by
    have h5 := Int.dvd_of_emod_eq_zero (Int.emod_eq_emod_iff_emod_sub_eq_zero.1 h3.symm)
    have h6 : x * ((2 ^ v.point - 1 : ℕ) : ℤ) = x * (2 ^ v.point : ℕ) - x := by
      rw [Nat.cast_sub (Nat.two_pow_pos _), Nat.cast_one]; ring
    rw [h6]; exact h5
  have h7 : 2 ^ v.ty.width ∣ x.natAbs := by
    have h8 := Int.natAbs_dvd_natAbs.2 h4
    rw [Int.natAbs_mul, Int.natAbs_natCast, Int.natAbs_natCast] at h8
    exact (pow_pred_coprime _ hp).dvd_of_dvd_mul_right h8
  have h9 : x % (2 ^ v.ty.width : ℕ) = 0 := Int.emod_eq_zero_of_dvd (Int.natCast_dvd.2 h7)
  have h10 : v.ty.wrap x = v.ty.wrap 0 := v.ty.wrap_congr (by rw [h9]; simp)
  rw [(v.ty.wrap_eq_iff x).2 hfit] at h10
  apply h0
  rw [h10]
  simp [Ty.wrap]

/-! ## Examples: two nested loops, the inner variable of 8 bits, the outer one of 4, as in the test of the repository -/

/-- The next value of the inner variable: 0 after the last one. -/
def exX (l : List ℤ) : ℤ := if l.getD 0 0 = l.getD 2 0 - 1 then 0 else l.getD 0 0 + 1

/-- The next value of the outer variable. -/
def exY (l : List ℤ) : ℤ :=
  if l.getD 0 0 = l.getD 2 0 - 1 then (if l.getD 1 0 = l.getD 3 0 - 1 then 0 else l.getD 1 0 + 1) else l.getD 1 0

/-- The counter. -/
def exC : Cfg := { vars := [⟨8, 0, true⟩, ⟨4, 0, false⟩], next := [exX, exY], hasReset := true }

/-- Reset in the first record, then sizes 3 and 2. -/
def exIn (t : ℕ) : In := { inits := [1, 1], args := [3, 2], rst := if t = 0 then 1 else 0 }

theorem exLegal : exC.Legal := ⟨rfl, by decide⟩

theorem exFed : exC.Fed exIn := fun _ => rfl

example : (List.range 8).map (fun t => exC.outs (exC.at exIn t)) =
    [[some 0, some 0], [some 1, some 1], [some 2, some 1], [some 0, some 0], [some 1, some 0], [some 2, some 0], [some 0, some 1],
      [some 1, some 1]] := by decide +kernel

example : (exC.outs (exC.at exIn 3)).length = 2 := (c99_tuple exLegal exFed 3).1

example : Shows exC exIn 0 1 0 := c99_start exLegal exFed (by decide)

example : Shows exC exIn 1 0 1 := c99_reset exLegal exFed (v := ⟨8, 0, true⟩) (x := 1) rfl rfl rfl rfl (by decide) rfl (by decide)

example : Shows exC exIn 3 1 0 := by
  have := c99_next exLegal exFed (by decide) (t := 2) (xs := [2, 1]) rfl
    (fun i x hx => by
      match i, hx with
      | 0, hx => simp at hx; subst hx; unfold Shows; decide +kernel
      | 1, hx => simp at hx; subst hx; unfold Shows; decide +kernel)
    rfl rfl (by decide) (Or.inr rfl) (i := 1) (v := ⟨4, 0, false⟩) (e := exY) rfl rfl
  exact this

/-- A stall in cycle 1. -/
def exStall (t : ℕ) : In := { exIn t with adv := t != 1 }

example : Shows exC exStall 2 0 1 := (c99_hold exC exStall (t := 1) rfl 0 1).2 (by unfold Shows; decide +kernel)

/-- The function of the example on lists. -/
def exF (xs : List ℤ) : List ℤ := [(⟨8, true⟩ : Ty).wrap (exX (xs ++ [3, 2])), (⟨4, false⟩ : Ty).wrap (exY (xs ++ [3, 2]))]

example : Shows exC exIn 6 1 1 := by
  refine c99_iter (t := 0) (k := 5) (x₀ := [1, 1]) (as := [3, 2]) (f := exF) exLegal exFed (by decide) rfl (by decide) rfl ?_
    (fun _ _ => ⟨rfl, rfl⟩) (fun j hj _ => ⟨rfl, if_neg (by omega)⟩) rfl (fun _ _ => rfl) ?_ (by decide +kernel)
  · intro i v x hv hx
    match i with
    | 0 => simp [exC] at hv hx; subst hv hx; decide
    | 1 => simp [exC] at hv hx; subst hv hx; decide
    | i + 2 => simp [exC] at hv
  · intro xs i v e _ hv he
    match i with
    | 0 => simp [exC] at hv he; subst hv he; rfl
    | 1 => simp [exC] at hv he; subst hv he; rfl
    | i + 2 => simp [exC] at hv

example : mkVars 2 (some [8, 4]) none (some [true, false]) = some exC.vars := by decide

example : ¬ (mkVars 2 (some [8]) none none).isSome := fun h => by
  have := ((c99_lists 2 (some [8]) none none).1.1 h).1 [8] rfl
  simp at this

/-- The same counter without a reset. -/
def exNR : Cfg := { exC with hasReset := false }

example : Shows exNR exIn 1 0 1 ↔ Shows exNR (fun t => { exIn t with inits := [7, 7] }) 1 0 1 :=
  c99_not_initvals rfl (fun _ => rfl) (fun _ => rfl) (fun _ => ⟨rfl, rfl, rfl⟩) 1 0 1

example : Shows exC (fun t => { exIn t with valid := false }) 2 0 2 :=
  (c99_not_valid (inp := exIn) rfl (fun _ => rfl) 2 0 2).1 (by unfold Shows; decide +kernel)

/-- One argument for two variables: the function sees the reset as its fourth argument. -/
def exFew (t : ℕ) : In := { exIn t with args := [3] }

example : Shows exC exFew 2 0 2 := by
  have := c99_args exLegal (inp := exFew) (fun _ => rfl) (by decide) (t := 1) (xs := [1, 1]) rfl
    (fun i x hx => by
      match i, hx with
      | 0, hx => simp at hx; subst hx; unfold Shows; decide +kernel
      | 1, hx => simp at hx; subst hx; unfold Shows; decide +kernel)
    rfl (by decide) (Or.inr rfl) (i := 0) (v := ⟨8, 0, true⟩) (e := exX) rfl rfl
  exact this

/-- A variable with four bits after the point. -/
def exP : Cfg := { vars := [⟨16, 4, true⟩], next := [fun l => l.getD 0 0 + 16], hasReset := true }

/-- Reset to 1.5. -/
def exPIn (_ : ℕ) : In := { inits := [24], rst := 1 }

theorem exPLegal : exP.Legal := ⟨rfl, by decide⟩

example : Shows exP exPIn 1 0 384 := c99_point exPLegal (fun _ => rfl) (v := ⟨16, 4, true⟩) (x := 24) rfl rfl rfl (by decide) rfl (by decide)

example : ¬ Shows exP exPIn 1 0 24 :=
  c99_not_point exPLegal (fun _ => rfl) (v := ⟨16, 4, true⟩) (x := 24) rfl (by decide) rfl ((Ty.wrap_eq_iff _ _).1 (by decide)) (by decide) rfl (by decide) rfl (by decide)

end CCnt
