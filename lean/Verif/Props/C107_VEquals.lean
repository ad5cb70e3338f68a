import Verif.Model.VEquals

/-!
# C107: `equals` compares expressions by their structure
-/

namespace VEquals

mutual

/-- An expression without `Cond` whose `Int` have width `w`, base `b` and signedness `s`, and whose
    concatenations have `n` parts. -/
def Plain (n : Nat) (w b : Option Nat) (s : Bool) : E → Prop
  | .pyInt _ | .pyStr _ | .obj _ _ => True
  | .int _ w' b' s' => w' = w ∧ b' = b ∧ s' = s
  | .bin _ l r => Plain n w b s l ∧ Plain n w b s r
  | .un _ r => Plain n w b s r
  | .pointer v p => Plain n w b s v ∧ Plain n w b s p
  | .slice v m l => Plain n w b s v ∧ Plain n w b s m ∧ Plain n w b s l
  | .cat vs => vs.length = n ∧ PlainAll n w b s vs
  | .rep v t => Plain n w b s v ∧ Plain n w b s t
  | .cond _ _ _ => False

/-- The same of every expression of a list. -/
def PlainAll (n : Nat) (w b : Option Nat) (s : Bool) : List E → Prop
  | [] => True
  | v :: vs => Plain n w b s v ∧ PlainAll n w b s vs

end

mutual

/-- **C107 (reflexive).**  Expressions of the same structure over the same objects are equal, though
    they are different Python objects. -/
theorem c107_refl : ∀ a : E, equals a a = true
  | .pyInt _ => by simp [equals]
  | .pyStr _ => by simp [equals]
  | .obj _ _ => by simp [equals]
  | .int _ _ _ _ => by simp [equals]
  | .bin _ l r => by simp [equals, c107_refl l, c107_refl r]
  | .un _ r => by simp [equals, c107_refl r]
  | .pointer v p => by simp [equals, c107_refl v, c107_refl p]
  | .slice v m l => by simp [equals, c107_refl v, c107_refl m, c107_refl l]
  | .cat vs => by simp [equals, equalsZip_refl vs]
  | .rep v t => by simp [equals, c107_refl v, c107_refl t]
  | .cond _ _ _ => by simp [equals]

theorem equalsZip_refl : ∀ vs : List E, equalsZip vs vs = true
  | [] => by simp [equalsZip]
  | v :: vs => by simp [equalsZip, c107_refl v, equalsZip_refl vs]

end

mutual

/-- **C107 (symmetric).** -/
theorem c107_symm : ∀ a b : E, equals a b = equals b a
  | .pyInt _, b => by cases b <;> simp [equals, eq_comm]
  | .pyStr _, b => by cases b <;> simp [equals, eq_comm]
  | .obj _ _, b => by cases b <;> simp [equals, eq_comm]
  | .int _ _ _ _, b => by cases b <;> simp [equals, eq_comm]
  | .bin _ l r, b => by
    cases b with
    | bin d m s => simp [equals, c107_symm l m, c107_symm r s, eq_comm]
    | _ => simp [equals]
  | .un _ r, b => by
    cases b with
    | un d s => simp [equals, c107_symm r s, eq_comm]
    | _ => simp [equals]
  | .pointer v p, b => by
    cases b with
    | pointer w q => simp [equals, c107_symm v w, c107_symm p q]
    | _ => simp [equals]
  | .slice v m l, b => by
    cases b with
    | slice w n k => simp [equals, c107_symm v w, c107_symm m n, c107_symm l k]
    | _ => simp [equals]
  | .cat vs, b => by
    cases b with
    | cat ws => simp [equals, equalsZip_symm vs ws]
    | _ => simp [equals]
  | .rep v t, b => by
    cases b with
    | rep w u => simp [equals, c107_symm v w, c107_symm t u]
    | _ => simp [equals]
  | .cond _ _ _, b => by cases b <;> simp [equals]

theorem equalsZip_symm : ∀ vs ws : List E, equalsZip vs ws = equalsZip ws vs
  | [], ws => by cases ws <;> simp [equalsZip]
  | v :: vs, ws => by
    cases ws with
    | nil => simp [equalsZip]
    | cons w ws => simp [equalsZip, c107_symm v w, equalsZip_symm vs ws]

end

mutual

/-- **C107 (sound).**  If `equals` holds for two expressions without `Cond`, with integers of one
    width, base and signedness and with concatenations of one length, they are the same expression. -/
theorem c107_sound (n : Nat) (w b : Option Nat) (s : Bool) : ∀ x y : E, Plain n w b s x →
    Plain n w b s y → equals x y = true → x = y
  | .pyInt _, y, _, _, h => by cases y <;> simp_all [equals]
  | .pyStr _, y, _, _, h => by cases y <;> simp_all [equals]
  | .obj _ _, y, _, _, h => by cases y <;> simp_all [equals]
  | .int _ _ _ _, y, hx, hy, h => by
    cases y <;> simp_all [equals, Plain]
  | .bin _ l r, y, hx, hy, h => by
    cases y with
    | bin d m t =>
      simp only [equals, Bool.and_eq_true, decide_eq_true_eq] at h
      simp only [Plain] at hx hy
      rw [h.1.1, c107_sound n w b s l m hx.1 hy.1 h.1.2, c107_sound n w b s r t hx.2 hy.2 h.2]
    | _ => simp [equals] at h
  | .un _ r, y, hx, hy, h => by
    cases y with
    | un d t =>
      simp only [equals, Bool.and_eq_true, decide_eq_true_eq] at h
      simp only [Plain] at hx hy
      rw [h.1, c107_sound n w b s r t hx hy h.2]
    | _ => simp [equals] at h
  | .pointer v p, y, hx, hy, h => by
    cases y with
    | pointer v' p' =>
      simp only [equals, Bool.and_eq_true] at h
      simp only [Plain] at hx hy
      rw [c107_sound n w b s v v' hx.1 hy.1 h.1, c107_sound n w b s p p' hx.2 hy.2 h.2]
    | _ => simp [equals] at h
  | .slice v m l, y, hx, hy, h => by
    cases y with
    | slice v' m' l' =>
      simp only [equals, Bool.and_eq_true] at h
      simp only [Plain] at hx hy
      rw [c107_sound n w b s v v' hx.1 hy.1 h.1.1, c107_sound n w b s m m' hx.2.1 hy.2.1 h.1.2,
        c107_sound n w b s l l' hx.2.2 hy.2.2 h.2]
    | _ => simp [equals] at h
  | .cat vs, y, hx, hy, h => by
    cases y with
    | cat ws =>
      simp only [equals] at h
      simp only [Plain] at hx hy
      rw [equalsZip_sound n w b s vs ws hx.2 hy.2 (hx.1.trans hy.1.symm) h]
    | _ => simp [equals] at h
  | .rep v t, y, hx, hy, h => by
    cases y with
    | rep v' t' =>
      simp only [equals, Bool.and_eq_true] at h
      simp only [Plain] at hx hy
      rw [c107_sound n w b s v v' hx.1 hy.1 h.1, c107_sound n w b s t t' hx.2 hy.2 h.2]
    | _ => simp [equals] at h
  | .cond _ _ _, _, hx, _, _ => by simp [Plain] at hx

theorem equalsZip_sound (n : Nat) (w b : Option Nat) (s : Bool) : ∀ vs ws : List E,
    PlainAll n w b s vs → PlainAll n w b s ws → vs.length = ws.length →
    equalsZip vs ws = true → vs = ws
  | [], ws, _, _, hl, _ => by
    cases ws with
    | nil => rfl
    | cons => simp at hl
  | v :: vs, ws, hx, hy, hl, h => by
    cases ws with
    | nil => simp at hl
    | cons u us =>
      simp only [equalsZip, Bool.and_eq_true] at h
      simp only [PlainAll] at hx hy
      rw [c107_sound n w b s v u hx.1 hy.1 h.1,
        equalsZip_sound n w b s vs us hx.2 hy.2 (by simpa using hl) h.2]

end

/-- **C107 (concatenations).**  Two concatenations are equal exactly if they agree as far as the
    shorter one goes. -/
theorem c107_cat (vs ws : List E) : equals (.cat vs) (.cat ws) = true ↔
    ∀ (k : Nat) (v u : E), vs[k]? = some v → ws[k]? = some u → equals v u = true := by
  simp only [equals]
  induction vs generalizing ws with
  | nil => simp [equalsZip]
  | cons v vs ih =>
    cases ws with
    | nil => simp [equalsZip]
    | cons u us =>
      simp only [equalsZip, Bool.and_eq_true, ih]
      constructor
      · rintro ⟨h0, h⟩ k x y hx hy
        cases k with
        | zero =>
          simp only [List.getElem?_cons_zero, Option.some.injEq] at hx hy
          rw [← hx, ← hy]
          exact h0
        | succ k =>
          simp only [List.getElem?_cons_succ] at hx hy
          exact h k x y hx hy
      · intro h
        exact ⟨h 0 v u rfl rfl, fun k x y hx hy => h (k + 1) x y (by simpa using hx)
          (by simpa using hy)⟩

/-- **C107 (disagreement, `Cond`).**  Any two conditional expressions are equal. -/
theorem c107_not_cond (c t f c' t' f' : E) : equals (.cond c t f) (.cond c' t' f') = true := rfl

/-- **C107 (disagreement, `Cat`).**  A concatenation equals every longer one that begins with its
    parts, so the relation is not transitive: `{a, x}` and `{a, y}` both equal `{a}`. -/
theorem c107_not_cat (vs ws : List E) : equals (.cat vs) (.cat (vs ++ ws)) = true := by
  rw [c107_cat]
  intro k v u hv hu
  have hk : k < vs.length := by
    rcases Nat.lt_or_ge k vs.length with h | h
    · exact h
    · rw [List.getElem?_eq_none h] at hv
      exact absurd hv (by simp)
  rw [List.getElem?_append_left hk, hv] at hu
  rw [Option.some.inj hu]
  exact c107_refl u

/-- **C107 (disagreement, `Int`).**  The width, the base and the signedness of integers are not
    compared. -/
theorem c107_not_int (v : Int) (w w' b b' : Option Nat) (s s' : Bool) :
    equals (.int v w b s) (.int v w' b' s') = true := by simp [equals]

/-- A variable of the examples. -/
private def x0 (n : Nat) : E := .obj "Reg" n

-- `Cat(a + 3, b[1])`
example : Plain 2 (some 8) none true
    (.cat [.bin "Plus" (x0 0) (.int 3 (some 8) none true), .pointer (x0 1) (.pyInt 1)]) := by
  simp [Plain, PlainAll, x0]

-- `Minus` and `Plus`, two registers, an `Int` and a Python integer differ
example : equals (.bin "Plus" (x0 0) (x0 1)) (.bin "Minus" (x0 0) (x0 1)) = false ∧
    equals (x0 0) (x0 1) = false ∧ equals (.int 3 none none true) (.pyInt 3) = false ∧
    equals (.bin "Plus" (x0 0) (x0 1)) (.bin "Plus" (x0 1) (x0 0)) = false := by
  simp [equals, x0]

-- `Cond(c, a, b)` and `Cond(c, b, a)`
example : equals (.cond (x0 0) (x0 1) (x0 2)) (.cond (x0 0) (x0 2) (x0 1)) = true := rfl

-- not transitive
example : equals (.cat [x0 0, x0 1]) (.cat [x0 0]) = true ∧
    equals (.cat [x0 0]) (.cat [x0 0, x0 2]) = true ∧
    equals (.cat [x0 0, x0 1]) (.cat [x0 0, x0 2]) = false := by
  simp [equals, equalsZip, x0]

end VEquals
