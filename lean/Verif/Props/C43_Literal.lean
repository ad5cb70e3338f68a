import Verif.Model.Literal
import Verif.Lemmas.VExpr

/-!
# C43: integer literals survive printing and parsing
-/

namespace Literal

/-! ### Digits -/

private theorem digitVal_digitChar {d : Nat} (h : d < 16) : digitVal (Nat.digitChar d) = some d := by
  have : ∀ d : Fin 16, digitVal (Nat.digitChar d) = some d.val := by decide
  exact this ⟨d, h⟩

private theorem digits_append (base : Nat) (l m : List Char) (acc : Nat) :
    digits base acc (l ++ m) = (digits base acc l).bind fun a => digits base a m := by
  induction l generalizing acc with
  | nil => rfl
  | cons c l ih =>
    simp only [List.cons_append, digits]
    cases digitVal c with
    | none => rfl
    | some d =>
      simp only []
      split
      · exact ih _
      · rfl

private theorem digits_toDigits {base : Nat} (h1 : 1 < base) (h2 : base ≤ 16) (n : Nat) :
    digits base 0 (Nat.toDigits base n) = some n := by
  induction n using Nat.strongRecOn with
  | _ n ih =>
    by_cases h : n < base
    · rw [Nat.toDigits_of_lt_base h]
      simp only [digits, digitVal_digitChar (by omega : n < 16)]
      rw [if_pos h]
      simp
    · have hb : base ≤ n := by omega
      rw [Nat.toDigits_of_base_le h1 hb, digits_append, ih _ (Nat.div_lt_self (by omega) h1)]
      have hm : n % base < base := Nat.mod_lt _ (by omega)
      simp only [Option.bind_some, digits, digitVal_digitChar (by omega : n % base < 16)]
      rw [if_pos hm]
      simp only [Option.some.injEq]
      have := Nat.div_add_mod n base
      rw [Nat.mul_comm] at this
      exact this

private theorem isDigit_of_mem {base : Nat} (h1 : 1 < base) (h2 : base ≤ 16) {n : Nat} {c : Char}
    (hc : c ∈ Nat.toDigits base n) : isDigit base c = true := by
  induction n using Nat.strongRecOn with
  | _ n ih =>
    have one : ∀ d < base, c = Nat.digitChar d → isDigit base c = true := by
      rintro d hd rfl
      unfold isDigit
      rw [digitVal_digitChar (by omega)]
      simpa using hd
    by_cases h : n < base
    · rw [Nat.toDigits_of_lt_base h] at hc
      exact one n h (by simpa using hc)
    · rw [Nat.toDigits_of_base_le h1 (by omega)] at hc
      rcases List.mem_append.1 hc with hc | hc
      · exact ih _ (Nat.div_lt_self (by omega) h1) hc
      · exact one _ (Nat.mod_lt _ (by omega)) (by simpa using hc)

private theorem isDigit_mono {b b' : Nat} (h : b ≤ b') {c : Char} (hc : isDigit b c = true) :
    isDigit b' c = true := by
  unfold isDigit at *
  cases hd : digitVal c with
  | none => rw [hd] at hc; exact hc
  | some d =>
    rw [hd] at hc
    simp only [decide_eq_true_eq] at *
    omega

private theorem unsigned_toDigits {base : Nat} (h1 : 1 < base) (h2 : base ≤ 16) (n : Nat) :
    unsigned base (Nat.toDigits base n) = some n := by
  unfold unsigned
  rw [if_neg Nat.toDigits_ne_nil, digits_toDigits h1 h2]

/-- The characters of the value text: digits of the base, or `x`, `z`. -/
private def Plain (base : Nat) (l : List Char) : Prop := ∀ c ∈ l, isXZ c = true ∨ isDigit base c = true

private theorem plain_toDigits {base : Nat} (h1 : 1 < base) (h2 : base ≤ 16) (n : Nat) :
    Plain base (Nat.toDigits base n) := fun _ hc => .inr (isDigit_of_mem h1 h2 hc)

private theorem Plain.not_mem {base : Nat} {l : List Char} (h : Plain base l) {c : Char}
    (h1 : isXZ c = false) (h2 : isDigit base c = false) : c ∉ l := by
  intro hc
  rcases h c hc with h | h <;> simp_all

private theorem pyInt_of_not_minus {base : Nat} {l : List Char} (h : '-' ∉ l) :
    pyInt base l = (unsigned base l).map fun n => (n : Int) := by
  cases l with
  | nil => rfl
  | cons c l =>
    have hc : c ≠ '-' := by rintro rfl; exact h List.mem_cons_self
    unfold pyInt
    split
    · rename_i heq; cases heq; exact absurd rfl hc
    · rfl

private theorem pyInt_toDigits {base : Nat} (h1 : 1 < base) (h2 : base ≤ 16) (n : Nat) :
    pyInt base (Nat.toDigits base n) = some (n : Int) := by
  rw [pyInt_of_not_minus, unsigned_toDigits h1 h2]
  · rfl
  · refine (plain_toDigits h1 h2 n).not_mem (by decide) ?_
    simp [isDigit, show digitVal '-' = none by decide]

/-! ### Searching -/

private theorem after_none {c : Char} {l : List Char} (h : c ∉ l) : after c l = none := by
  induction l with
  | nil => rfl
  | cons x l ih =>
    unfold after
    rw [if_neg, ih (fun hc => h (List.mem_cons_of_mem _ hc))]
    rintro ⟨rfl, _⟩
    exact h List.mem_cons_self

private theorem after_append {c : Char} {p r : List Char} (hp : c ∉ p) (hr : r ≠ []) :
    after c (p ++ c :: r) = some r := by
  induction p with
  | nil => simp [after, hr]
  | cons x p ih =>
    show after c (x :: (p ++ c :: r)) = _
    unfold after
    rw [if_neg, ih (fun hc => hp (List.mem_cons_of_mem _ hc))]
    rintro ⟨rfl, _⟩
    exact hp List.mem_cons_self

private theorem quoted_false {c : Char} {l : List Char} (h : '\'' ∉ l) : quoted c l = false := by
  match l with
  | [] => rfl
  | [_] => rfl
  | [_, _] => rfl
  | q :: x :: y :: r =>
    have : q ≠ '\'' := by rintro rfl; exact h List.mem_cons_self
    simp [quoted, this]

private theorem before_none {c : Char} {l : List Char} (h : '\'' ∉ l) : before c l = none := by
  induction l with
  | nil => rfl
  | cons x l ih =>
    have hl : '\'' ∉ l := fun hc => h (List.mem_cons_of_mem _ hc)
    unfold before
    rw [ih hl, quoted_false hl]
    rfl

/-- Only one quote: the text before it, if the mark after it is the one looked for. -/
private theorem before_quote (c x : Char) (p r : List Char) (hp : '\'' ∉ p) (hx : x ≠ '\'') (hr : '\'' ∉ r) :
    before c (p ++ '\'' :: x :: r) = if x = c ∧ r ≠ [] ∧ p ≠ [] then some p else none := by
  have hxr : '\'' ∉ x :: r := by
    intro h
    rcases List.mem_cons.1 h with h | h
    · exact hx h.symm
    · exact hr h
  have hq : quoted c ('\'' :: x :: r) = decide (x = c ∧ r ≠ []) := by
    cases r with
    | nil => simp [quoted]
    | cons y r => simp [quoted]
  induction p with
  | nil =>
    simp only [List.nil_append, ne_eq, not_true, and_false, if_false]
    unfold before
    rw [before_none hxr, quoted_false hxr]
    rfl
  | cons y p ih =>
    have hp' : '\'' ∉ p := fun hc => hp (List.mem_cons_of_mem _ hc)
    show before c (y :: (p ++ '\'' :: x :: r)) = _
    unfold before
    rw [ih hp']
    cases p with
    | nil =>
      simp only [ne_eq, not_true, and_false, if_false, List.nil_append]
      simp only [hq]
      by_cases h : x = c ∧ r ≠ []
      · simp [h]
      · have h' : ¬ (x = c ∧ r ≠ [] ∧ [y] ≠ []) := fun hh => h ⟨hh.1, hh.2.1⟩
        simp only [ne_eq] at h h'
        simp only [h, decide_false, Bool.false_eq_true, if_false, h']
    | cons z p =>
      by_cases h : x = c ∧ r ≠ []
      · simp [h]
      · have hz : quoted c (z :: p ++ '\'' :: x :: r) = false := by
          have hzq : z ≠ '\'' := by rintro rfl; exact hp' List.mem_cons_self
          cases p with
          | nil => simp [quoted, hzq]
          | cons w p => cases p <;> simp [quoted, hzq]
        have h1 : ¬ (x = c ∧ r ≠ [] ∧ z :: p ≠ []) := fun hh => h ⟨hh.1, hh.2.1⟩
        have h2 : ¬ (x = c ∧ r ≠ [] ∧ y :: z :: p ≠ []) := fun hh => h ⟨hh.1, hh.2.1⟩
        rw [if_neg h1, if_neg h2, hz]
        rfl

/-! ### Printed text -/

/-- The mark of a base. -/
def baseChar : Nat → Char
  | 2 => 'b'
  | 8 => 'o'
  | 10 => 'd'
  | _ => 'h'

/-- The digits of the value are legal in the base: any natural number, or digits with at least one `x` or `z`. -/
def Legal (base : Nat) : Value → Prop
  | .num v => 0 ≤ v
  | .raw l => check base l = true ∧ ∃ c ∈ l, isXZ c = true

private theorem strip_plain {l : List Char} (h : '_' ∉ l) : strip l = l := by
  unfold strip
  rw [List.filter_eq_self]
  intro c hc
  simp only [ne_eq, decide_not, Bool.not_eq_eq_eq_not, Bool.not_true, decide_eq_false_iff_not]
  rintro rfl
  exact h hc

private theorem digits_none {base : Nat} {l : List Char} (h : ∃ c ∈ l, isXZ c = true) (acc : Nat) :
    digits base acc l = none := by
  induction l generalizing acc with
  | nil => obtain ⟨_, hc, _⟩ := h; cases hc
  | cons x l ih =>
    obtain ⟨c, hc, hx⟩ := h
    unfold digits
    rcases List.mem_cons.1 hc with rfl | hc
    · have : digitVal c = none := by
        simp only [isXZ, Bool.or_eq_true, decide_eq_true_eq] at hx
        rcases hx with ((rfl | rfl) | rfl) | rfl <;> decide
      rw [this]
    · cases digitVal x with
      | none => rfl
      | some d =>
        simp only []
        split
        · exact ih ⟨c, hc, hx⟩ _
        · rfl

private def Base (b : Nat) : Prop := b = 2 ∨ b = 8 ∨ b = 10 ∨ b = 16

private theorem Base.bounds {b : Nat} (h : Base b) : 1 < b ∧ b ≤ 16 := by
  rcases h with rfl | rfl | rfl | rfl <;> decide

private theorem legal_text {b : Nat} (hb : Base b) {v : Value} (hv : Legal b v) :
    Plain b (valueText b v) ∧ valueText b v ≠ [] ∧ branch b (valueText b v) = some (v, some b) := by
  obtain ⟨h1, h2⟩ := hb.bounds
  cases v with
  | num v =>
    have h0 : 0 ≤ v := hv
    refine ⟨plain_toDigits h1 h2 _, Nat.toDigits_ne_nil, ?_⟩
    unfold branch valueText
    simp only []
    rw [pyInt_toDigits h1 h2]
    have : ((v.natAbs : Nat) : Int) = v := by omega
    simp [this]
  | raw l =>
    obtain ⟨hc, hx⟩ := hv
    have hcs := hc
    simp only [check, Bool.and_eq_true, List.all_eq_true, Bool.or_eq_true, decide_eq_true_eq] at hc
    have hp : Plain b l := fun c hcl => hc.2 c hcl
    refine ⟨hp, by show l ≠ []; simpa using hc.1, ?_⟩
    unfold branch valueText
    simp only []
    have hm : '-' ∉ l := hp.not_mem (by decide) (by simp [isDigit, show digitVal '-' = none by decide])
    rw [pyInt_of_not_minus hm]
    unfold unsigned
    rw [if_neg (by simpa using hc.1), digits_none hx]
    simp [hcs]

private theorem width_plain {w : Int} (hw : 1 ≤ w) :
    Plain 10 (decimal w) ∧ decimal w ≠ [] ∧ pyInt 10 (decimal w) = some w := by
  unfold decimal
  rw [if_neg (by omega)]
  refine ⟨plain_toDigits (by decide) (by decide) _, Nat.toDigits_ne_nil, ?_⟩
  rw [pyInt_toDigits (by decide) (by decide)]
  have : ((w.natAbs : Nat) : Int) = w := by omega
  rw [this]

/-- What the parsers find in a text with a mark. -/
private theorem parse_marked {b : Nat} (hb : Base b) (s : Bool) (p : List Char)
    (hp : ∀ c ∈ p, c = '-' ∨ isXZ c = true ∨ isDigit 10 c = true) {v : Value} (hv : Legal b v) :
    let t := p ++ mark s (baseChar b) ++ valueText b v
    strToValue t = some (v, some b) ∧ strToSigned t = s ∧
    strToWidth t = if s = false ∧ p ≠ [] then (pyInt 10 p).map some else some none := by
  obtain ⟨hd, hne, hbr⟩ := legal_text hb hv
  generalize valueText b v = d at *
  have nd : ∀ c : Char, isXZ c = false → digitVal c = none → c ∉ d := fun c h1 h2 =>
    hd.not_mem h1 (by simp [isDigit, h2])
  have np : ∀ c : Char, isXZ c = false → (isDigit 10 c || decide (c = '-')) = false → c ∉ p := by
    intro c h1 h2 hc
    rcases hp c hc with h | h | h <;> simp_all
  -- the characters of the text
  have mem : ∀ c : Char, c ∉ p → c ∉ d → c ≠ '\'' → c ≠ 's' → c ≠ baseChar b →
      c ∉ p ++ mark s (baseChar b) ++ d := by
    intro c h1 h2 h3 h4 h5 hc
    rcases List.mem_append.1 hc with hc | hc
    · rcases List.mem_append.1 hc with hc | hc
      · exact h1 hc
      · cases s <;> simp [mark, h3, h4, h5] at hc
    · exact h2 hc
  have hund : '_' ∉ p ++ mark s (baseChar b) ++ d := by
    refine mem _ (np _ (by decide) (by decide)) (nd _ (by decide) (by decide)) (by decide) (by decide) ?_
    rcases hb with rfl | rfl | rfl | rfl <;> decide
  have haft : after (baseChar b) (p ++ mark s (baseChar b) ++ d) = some d := by
    cases s with
    | false =>
      have : p ++ mark false (baseChar b) ++ d = (p ++ ['\'']) ++ baseChar b :: d := by simp [mark]
      rw [this]
      apply after_append _ hne
      intro hc
      rcases List.mem_append.1 hc with hc | hc
      · revert hc
        apply np
        · rcases hb with rfl | rfl | rfl | rfl <;> decide
        · rcases hb with rfl | rfl | rfl | rfl <;> decide
      · revert hc
        rcases hb with rfl | rfl | rfl | rfl <;> decide
    | true =>
      have : p ++ mark true (baseChar b) ++ d = (p ++ ['\'', 's']) ++ baseChar b :: d := by simp [mark]
      rw [this]
      apply after_append _ hne
      intro hc
      rcases List.mem_append.1 hc with hc | hc
      · revert hc
        apply np
        · rcases hb with rfl | rfl | rfl | rfl <;> decide
        · rcases hb with rfl | rfl | rfl | rfl <;> decide
      · revert hc
        rcases hb with rfl | rfl | rfl | rfl <;> decide
  have dd : ∀ c : Char, isXZ c = false → isDigit b c = false → c ∉ d := fun c h1 h2 => hd.not_mem h1 h2
  refine ⟨?_, ?_, ?_⟩
  · unfold strToValue
    rw [strip_plain hund]
    rcases hb with rfl | rfl | rfl | rfl
    · rw [after_none (mem 'h' (np _ (by decide) (by decide)) (dd _ (by decide) (by decide)) (by decide) (by decide) (by decide)),
        after_none (mem 'd' (np _ (by decide) (by decide)) (dd _ (by decide) (by decide)) (by decide) (by decide) (by decide)),
        after_none (mem 'o' (np _ (by decide) (by decide)) (dd _ (by decide) (by decide)) (by decide) (by decide) (by decide))]
      simp only []
      rw [show after 'b' _ = _ from haft]
      exact hbr
    · rw [after_none (mem 'h' (np _ (by decide) (by decide)) (dd _ (by decide) (by decide)) (by decide) (by decide) (by decide)),
        after_none (mem 'd' (np _ (by decide) (by decide)) (dd _ (by decide) (by decide)) (by decide) (by decide) (by decide))]
      simp only []
      rw [show after 'o' _ = _ from haft]
      exact hbr
    · rw [after_none (mem 'h' (np _ (by decide) (by decide)) (dd _ (by decide) (by decide)) (by decide) (by decide) (by decide))]
      simp only []
      rw [show after 'd' _ = _ from haft]
      exact hbr
    · rw [show after 'h' _ = _ from haft]
      exact hbr
  · unfold strToSigned
    rw [strip_plain hund]
    cases s with
    | false =>
      rw [after_none]
      · rfl
      · intro hc
        rcases List.mem_append.1 hc with hc | hc
        · rcases List.mem_append.1 hc with hc | hc
          · exact np 's' (by decide) (by decide) hc
          · revert hc
            rcases hb with rfl | rfl | rfl | rfl <;> decide
        · exact nd 's' (by decide) (by decide) hc
    | true =>
      have : p ++ mark true (baseChar b) ++ d = (p ++ ['\'']) ++ 's' :: (baseChar b :: d) := by simp [mark]
      rw [this, after_append _ (by simp)]
      · rfl
      · intro hc
        rcases List.mem_append.1 hc with hc | hc
        · exact np 's' (by decide) (by decide) hc
        · revert hc; decide
  · unfold strToWidth
    rw [strip_plain hund]
    have hqp : '\'' ∉ p := np _ (by decide) (by decide)
    have hqd : '\'' ∉ d := nd _ (by decide) (by decide)
    have key : ∀ c, before c (p ++ mark s (baseChar b) ++ d) =
        if s = false ∧ baseChar b = c ∧ p ≠ [] ∨ s = true ∧ 's' = c ∧ p ≠ [] then some p else none := by
      intro c
      cases s with
      | false =>
        have e : p ++ mark false (baseChar b) ++ d = p ++ '\'' :: baseChar b :: d := by simp [mark]
        rw [e, before_quote c _ p d hqp (by rcases hb with rfl | rfl | rfl | rfl <;> decide) hqd]
        simp [hne]
      | true =>
        have e : p ++ mark true (baseChar b) ++ d = p ++ '\'' :: 's' :: (baseChar b :: d) := by simp [mark]
        rw [e, before_quote c _ p _ hqp (by decide)]
        · simp
        · intro hc
          rcases List.mem_cons.1 hc with hc | hc
          · revert hc; rcases hb with rfl | rfl | rfl | rfl <;> decide
          · exact hqd hc
    rw [key, key, key, key]
    cases s with
    | true =>
      simp [show ('s' = 'h') = False by decide, show ('s' = 'd') = False by decide,
        show ('s' = 'o') = False by decide, show ('s' = 'b') = False by decide]
    | false =>
      by_cases h : p = []
      · simp [h]
      · rcases hb with rfl | rfl | rfl | rfl <;> simp [baseChar, h]

private theorem parse_bare {v : Int} (hv : 0 ≤ v) :
    let t := valueText 10 (.num v)
    strToValue t = some (.num v, none) ∧ strToSigned t = false ∧ strToWidth t = some none := by
  have hp := plain_toDigits (base := 10) (by decide) (by decide) v.natAbs
  have nd : ∀ c : Char, isXZ c = false → isDigit 10 c = false → c ∉ Nat.toDigits 10 v.natAbs :=
    fun c h1 h2 => hp.not_mem h1 h2
  have hs : strip (Nat.toDigits 10 v.natAbs) = Nat.toDigits 10 v.natAbs :=
    strip_plain (nd _ (by decide) (by decide))
  have hq : '\'' ∉ Nat.toDigits 10 v.natAbs := nd _ (by decide) (by decide)
  have hn : ((v.natAbs : Nat) : Int) = v := by omega
  refine ⟨?_, ?_, ?_⟩
  · show strToValue (Nat.toDigits 10 v.natAbs) = _
    unfold strToValue
    rw [hs, after_none (nd 'h' (by decide) (by decide)), after_none (nd 'd' (by decide) (by decide)),
      after_none (nd 'o' (by decide) (by decide)), after_none (nd 'b' (by decide) (by decide)),
      pyInt_toDigits (by decide) (by decide), hn]
    rfl
  · show strToSigned (Nat.toDigits 10 v.natAbs) = _
    unfold strToSigned
    rw [hs, after_none (nd 's' (by decide) (by decide))]
    rfl
  · show strToWidth (Nat.toDigits 10 v.natAbs) = _
    unfold strToWidth
    rw [hs, before_none hq, before_none hq, before_none hq, before_none hq]

/-- The bases of Verilog, or none given. -/
def BaseOk (b : Option Nat) : Prop := b = none ∨ b = some 2 ∨ b = some 8 ∨ b = some 10 ∨ b = some 16

/-- A literal is printed without a mark. -/
def Bare (o : Lit) : Prop := o.base = none ∧ o.signed = false ∧ o.width = none

instance (o : Lit) : Decidable (Bare o) := inferInstanceAs (Decidable (_ ∧ _ ∧ _))

private theorem width_spec {o : Option Int} (h : ∀ w, o = some w → 1 ≤ w) :
    Plain 10 (widthText o) ∧ (widthText o = [] ↔ o = none) ∧
    (o ≠ none → (pyInt 10 (widthText o)).map some = some o) := by
  cases o with
  | none => exact ⟨fun _ hc => (by cases hc), by simp [widthText], by simp⟩
  | some w =>
    have hw := h w rfl
    obtain ⟨h1, h2, h3⟩ := width_plain hw
    have e : widthText (some w) = decimal w := by
      show (if w ≠ 0 then decimal w else []) = _
      rw [if_pos (by omega)]
    rw [e]
    exact ⟨h1, by simp [h2], fun _ => by rw [h3]; rfl⟩

/-- The two forms of a printed literal that is not negative. -/
private theorem print_eq {o : Lit} (hw : ∀ w, o.width = some w → 1 ≤ w) (hb : BaseOk o.base)
    (hv : ∀ v, o.value = .num v → 0 ≤ v) :
    print o = some (if Bare o then valueText 10 o.value
      else widthText o.width ++ mark o.signed (baseChar (o.base.getD 10)) ++ valueText (o.base.getD 10) o.value) := by
  have hsign : signText o.value = [] := by
    cases hval : o.value with
    | raw l => rfl
    | num v => exact if_neg (by have := hv v hval; omega)
  obtain ⟨_, hwn, _⟩ := width_spec hw
  obtain ⟨value, width, base, signed⟩ := o
  simp only at hsign hwn
  unfold print bodyText
  simp only [hsign, List.nil_append]
  rcases hb with hb | hb | hb | hb | hb <;> simp only at hb <;> subst hb
  · cases signed with
    | true => simp [Bare, mark, baseChar]
    | false =>
      by_cases h : width = none
      · subst h
        simp [Bare, widthText]
      · have h' : widthText width ≠ [] := fun hh => h (hwn.1 hh)
        simp [Bare, mark, baseChar, h, h']
  all_goals simp [Bare, baseChar]

/-- The text of a literal that is not negative has no minus sign. -/
theorem print_no_minus {o : Lit} (hw : ∀ w, o.width = some w → 1 ≤ w) (hb : BaseOk o.base)
    (hv : Legal (o.base.getD 10) o.value) {t : List Char} (h : print o = some t) : '-' ∉ t := by
  have hnn : ∀ v, o.value = .num v → 0 ≤ v := by
    intro v h
    rw [h] at hv
    exact hv
  have hB : Base (o.base.getD 10) := by
    rcases hb with h | h | h | h | h <;> rw [h] <;> simp [Base]
  have hm : ∀ b, isDigit b '-' = false := fun b => by simp [isDigit, show digitVal '-' = none by decide]
  have h1 := (legal_text hB hv).1.not_mem (by decide) (hm _)
  have h2 := (width_spec hw).1.not_mem (by decide) (hm _)
  have h3 : '-' ∉ mark o.signed (baseChar (o.base.getD 10)) := by
    rcases hB with h | h | h | h <;> rw [h] <;> cases o.signed <;> decide
  rw [print_eq hw hb hnn] at h
  cases h
  split
  · rename_i hbare
    rw [hbare.1] at h1
    exact h1
  · simp only [List.mem_append, not_or]
    exact ⟨⟨h2, h3⟩, h1⟩

/-- C43: a literal whose value is not negative is printed, and the text parses back to the same value and
    signedness, to the same base (decimal if none was given and a mark is printed), and, if it is unsigned, to
    the same width; the width of a signed literal is lost. -/
theorem c43_roundtrip (o : Lit) (hw : ∀ w, o.width = some w → 1 ≤ w) (hb : BaseOk o.base)
    (hv : Legal (o.base.getD 10) o.value) (hn : o.base = none → ∃ v, o.value = .num v) :
    ∃ t o', print o = some t ∧ ofText t none none false = some o' ∧ o'.value = o.value ∧
      o'.signed = o.signed ∧ o'.base = (if Bare o then none else some (o.base.getD 10)) ∧
      o'.width = (if o.signed then none else o.width) := by
  have hnn : ∀ v, o.value = .num v → 0 ≤ v := by
    intro v h
    rw [h] at hv
    exact hv
  refine ⟨_, ?_, print_eq hw hb hnn, ?_⟩
  · exact ⟨o.value, if o.signed then none else o.width, if Bare o then none else some (o.base.getD 10), o.signed⟩
  · refine ⟨?_, rfl, rfl, rfl, rfl⟩
    by_cases hbare : Bare o
    · rw [if_pos hbare, if_pos hbare]
      obtain ⟨h1, h2, h3⟩ := hbare
      obtain ⟨v, hval⟩ := hn h1
      obtain ⟨e1, e2, e3⟩ := parse_bare (hnn v hval)
      rw [hval, h2, h3]
      unfold ofText
      rw [e1, e2, e3]
      rfl
    · rw [if_neg hbare, if_neg hbare]
      have hB : Base (o.base.getD 10) := by
        rcases hb with h | h | h | h | h <;> rw [h] <;> simp [Base]
      obtain ⟨p1, p2, p3⟩ := width_spec hw
      obtain ⟨e1, e2, e3⟩ := parse_marked hB o.signed (widthText o.width) (fun c hc => .inr (p1 c hc)) hv
      unfold ofText
      rw [e1, e2, e3]
      have hcb : checkBase o.value (some (o.base.getD 10)) = true := by
        cases hval : o.value with
        | num v => rfl
        | raw l =>
          rw [hval] at hv
          have hb4 : (o.base.getD 10 = 16 ∨ o.base.getD 10 = 10) ∨ o.base.getD 10 = 8 ∨ o.base.getD 10 = 2 := by
            rcases hB with h | h | h | h <;> simp [h]
          simp only [checkBase, hv.1, Bool.and_true, Bool.or_eq_true, decide_eq_true_eq]
          tauto
      simp only [Option.bind_some, Option.isSome_none, Bool.false_eq_true, if_false, hcb, if_true]
      cases hs : o.signed with
      | true => simp
      | false =>
        by_cases hwd : o.width = none
        · have : widthText o.width = [] := p2.2 hwd
          rw [hwd] at this
          simp [this, hwd]
        · have : widthText o.width ≠ [] := fun h => hwd (p2.1 h)
          simp only [true_and, ne_eq, this, not_false_eq_true, if_true]
          rw [p3 hwd]
          rfl

private theorem raw_xz {b : Nat} {l : List Char} (hc : check b l = true) (hp : pyInt b l = none) :
    ∃ c ∈ l, isXZ c = true := by
  simp only [check, Bool.and_eq_true, List.all_eq_true, Bool.or_eq_true, decide_eq_true_eq] at hc
  apply Classical.byContradiction
  intro hno
  have hall : ∀ c ∈ l, isDigit b c = true := by
    intro c hcl
    rcases hc.2 c hcl with h | h
    · exact absurd ⟨c, hcl, h⟩ hno
    · exact h
  have hm : '-' ∉ l := by
    intro h
    have := hall _ h
    simp [isDigit, show digitVal '-' = none by decide] at this
  rw [pyInt_of_not_minus hm] at hp
  have hl : l ≠ [] := by simpa using hc.1
  unfold unsigned at hp
  rw [if_neg hl] at hp
  have : ∀ acc, ∃ n, digits b acc l = some n := by
    clear hp hm hno hc hl
    induction l with
    | nil => intro acc; exact ⟨acc, rfl⟩
    | cons c l ih =>
      intro acc
      have hd := hall c List.mem_cons_self
      unfold isDigit at hd
      unfold digits
      cases hdv : digitVal c with
      | none => rw [hdv] at hd; cases hd
      | some d =>
        rw [hdv] at hd
        simp only [decide_eq_true_eq] at hd
        simp only []
        rw [if_pos hd]
        exact ih (fun c hc => hall c (List.mem_cons_of_mem _ hc)) _
  obtain ⟨n, hn⟩ := this 0
  rw [hn] at hp
  cases hp

private theorem strToValue_raw {s l : List Char} {b : Option Nat} (h : strToValue s = some (.raw l, b)) :
    ∃ c ∈ l, isXZ c = true := by
  have hbr : ∀ n r, branch n r = some (.raw l, b) → ∃ c ∈ l, isXZ c = true := by
    intro n r hr
    unfold branch at hr
    cases hp : pyInt n r with
    | some v => rw [hp] at hr; cases hr
    | none =>
      rw [hp] at hr
      simp only [] at hr
      split at hr
      · rename_i hc
        cases hr
        exact raw_xz hc hp
      · cases hr
  unfold strToValue at h
  split at h
  · exact hbr _ _ h
  · split at h
    · exact hbr _ _ h
    · split at h
      · exact hbr _ _ h
      · split at h
        · exact hbr _ _ h
        · cases hp : pyInt 10 (strip s) with
          | none => rw [hp] at h; cases h
          | some v => rw [hp] at h; cases h

/-- C43: the same for every literal made from text, `x` and `z` digits included. -/
theorem c43_text (s : List Char) (width : Option Int) (base : Option Nat) (signed : Bool) (o : Lit)
    (h : ofText s width base signed = some o) (hw : ∀ w, o.width = some w → 1 ≤ w) (hb : BaseOk o.base)
    (hpos : ∀ v, o.value = .num v → 0 ≤ v) :
    ∃ t o', print o = some t ∧ ofText t none none false = some o' ∧ o'.value = o.value ∧
      o'.signed = o.signed ∧ o'.base = (if Bare o then none else some (o.base.getD 10)) ∧
      o'.width = (if o.signed then none else o.width) := by
  unfold ofText at h
  cases hv : strToValue s with
  | none => rw [hv] at h; cases h
  | some vb =>
    obtain ⟨v, b⟩ := vb
    rw [hv] at h
    simp only [Option.bind_some] at h
    by_cases hc : checkBase v (if base.isSome = true then base else b) = true
    · rw [if_pos hc] at h
      obtain ⟨w, hw', heq⟩ := Option.map_eq_some_iff.1 h
      have hval : o.value = v := by rw [← heq]
      have hbase : o.base = if base.isSome then base else b := by rw [← heq]
      rw [← hbase] at hc
      apply c43_roundtrip o hw hb
      · cases hvv : v with
        | num n => rw [hval, hvv]; exact hpos n (hval.trans hvv)
        | raw l =>
          rw [hvv] at hc hv
          rw [hval, hvv]
          cases hob : o.base with
          | none => rw [hob] at hc; cases hc
          | some n =>
            rw [hob] at hc
            simp only [checkBase, Bool.and_eq_true] at hc
            exact ⟨hc.2, strToValue_raw hv⟩
      · intro hnone
        cases hvv : v with
        | num n => exact ⟨n, hval.trans hvv⟩
        | raw l => rw [hnone, hvv] at hc; cases hc
    · rw [if_neg hc] at h
      cases h

/-- C43: printing the parsed literal gives the same text again, if it is unsigned or has no width. -/
theorem c43_stable (o : Lit) (hs : o.signed = true → o.width = none) (hw : ∀ w, o.width = some w → 1 ≤ w) (hb : BaseOk o.base)
    (hv : Legal (o.base.getD 10) o.value) (hn : o.base = none → ∃ v, o.value = .num v) :
    ∃ t o', print o = some t ∧ ofText t none none false = some o' ∧ print o' = some t := by
  obtain ⟨t, o', h1, h2, h3, h4, h5, h6⟩ := c43_roundtrip o hw hb hv hn
  refine ⟨t, o', h1, h2, ?_⟩
  have hnn : ∀ v, o.value = .num v → 0 ≤ v := by
    intro v h
    rw [h] at hv
    exact hv
  have hw' : o'.width = o.width := by
    rw [h6]
    cases hsg : o.signed with
    | false => rfl
    | true => exact (hs hsg).symm
  have hb' : BaseOk o'.base := by
    rw [h5]
    split
    · exact .inl rfl
    · rcases hb with h | h | h | h | h <;> rw [h] <;> simp [BaseOk]
  rw [← h1, print_eq hw hb hnn, print_eq (by rw [hw']; exact hw) hb' (by rw [h3]; exact hnn)]
  congr 1
  by_cases hbare : Bare o
  · have : Bare o' := ⟨by rw [h5, if_pos hbare], by rw [h4]; exact hbare.2.1, by rw [hw']; exact hbare.2.2⟩
    rw [if_pos hbare, if_pos this, h3]
  · rw [if_neg hbare] at h5
    have : ¬ Bare o' := by
      intro hh
      have := hh.1
      rw [h5] at this
      cases this
    rw [if_neg hbare, if_neg this, h3, h4, h5, hw']
    rfl

/-- C43 does not hold for negative values: the text parses, but to the absolute value, and the width is lost. -/
theorem c43_negative (v : Int) (hv : v < 0) (w : Option Int) (hw : ∀ x, w = some x → 1 ≤ x) (b : Option Nat)
    (hb : BaseOk b) (s : Bool) :
    ∃ t, print (ofInt v w b s) = some t ∧
      ofText t none none false = some ⟨.num (-v), none, some (b.getD 10), true⟩ := by
  have hB : Base (b.getD 10) := by
    rcases hb with h | h | h | h | h <;> rw [h] <;> simp [Base]
  obtain ⟨p1, _, _⟩ := width_spec hw
  have hl : Legal (b.getD 10) (.num (-v)) := by show 0 ≤ -v; omega
  have hvt : valueText (b.getD 10) (.num (-v)) = valueText (b.getD 10) (.num v) := by
    simp [valueText]
  obtain ⟨e1, e2, e3⟩ := parse_marked hB true ('-' :: widthText w)
    (fun c hc => by
      rcases List.mem_cons.1 hc with h | h
      · exact .inl h
      · exact .inr (p1 c h)) hl
  refine ⟨'-' :: widthText w ++ mark true (baseChar (b.getD 10)) ++ valueText (b.getD 10) (.num (-v)), ?_, ?_⟩
  · unfold print ofInt bodyText
    have hs : signText (.num v) = ['-'] := if_pos hv
    simp only [hs, if_neg (show ¬ v ≥ 0 by omega), hvt]
    rcases hb with hb | hb | hb | hb | hb <;> subst hb <;> simp [mark, baseChar]
  · unfold ofText
    rw [e1, e2, e3]
    rfl

/-! ### What the text means in Verilog -/

open Vlog

/-- Value of a digit. -/
def hexValue (c : Char) : Nat := "0123456789abcdef".toList.idxOf c

/-- Value of a string of digits. -/
def number (base : Nat) (l : List Char) : Nat := l.foldl (fun a c => a * base + hexValue c) 0

/-- The number syntax of Verilog (IEEE 1364-2005, 3.5.1): a decimal number alone is signed and has 32 bits; with a
    base it is signed if there is an `s` and has the given size, or 32 bits; a minus sign is an operator. -/
inductive Spells : List Char → VExpr → Prop
  | bare (ds : List Char) : ds ≠ [] → (∀ c ∈ ds, hexValue c < 10) → Spells ds (.lit ⟨32, true⟩ (number 10 ds))
  | based (size ds : List Char) (s : Bool) (c : Char) (base : Nat) :
      (c, base) ∈ [('b', 2), ('o', 8), ('d', 10), ('h', 16)] → ds ≠ [] → (∀ c ∈ ds, hexValue c < base) →
      (∀ c ∈ size, hexValue c < 10) →
      Spells (size ++ '\'' :: ((if s then ['s'] else []) ++ c :: ds))
        (.lit ⟨if size = [] then 32 else number 10 size, s⟩ (number base ds))
  | minus (t : List Char) (e : VExpr) : Spells t e → Spells ('-' :: t) (.neg e)

private theorem hexValue_digitChar {d : Nat} (h : d < 16) : hexValue (Nat.digitChar d) = d := by
  have : ∀ d : Fin 16, hexValue (Nat.digitChar d) = d.val := by decide
  exact this ⟨d, h⟩

private theorem number_toDigits {base : Nat} (h1 : 1 < base) (h2 : base ≤ 16) (n : Nat) :
    number base (Nat.toDigits base n) = n ∧ ∀ c ∈ Nat.toDigits base n, hexValue c < base := by
  induction n using Nat.strongRecOn with
  | _ n ih =>
    by_cases h : n < base
    · rw [Nat.toDigits_of_lt_base h]
      simp [number, hexValue_digitChar (by omega : n < 16), h]
    · have hm : n % base < base := Nat.mod_lt _ (by omega)
      obtain ⟨i1, i2⟩ := ih _ (Nat.div_lt_self (by omega) h1)
      rw [Nat.toDigits_of_base_le h1 (by omega)]
      constructor
      · unfold number at *
        rw [List.foldl_append, i1]
        simp only [List.foldl_cons, List.foldl_nil, hexValue_digitChar (by omega : n % base < 16)]
        have := Nat.div_add_mod n base
        rw [Nat.mul_comm] at this
        exact this
      · intro c hc
        rcases List.mem_append.1 hc with hc | hc
        · exact i2 c hc
        · rw [List.mem_singleton.1 hc, hexValue_digitChar (by omega : n % base < 16)]
          exact hm

private theorem lit_value (ρ : String → Int) (t : Ty) (n : Nat) : (VExpr.lit t n).eval ρ t = t.wrap n := by
  show extend t (t.wrap n) t = _
  exact (extend_eq (Ty.wrap_inRange t n) (Nat.le_refl _) rfl)

/-- C43: the text printed for `Int(v, width, base, signed)` is a Verilog number of the given width (32 bits if none is
    given) that is signed if asked for, if `v` is negative, or if it is a plain decimal, and its value is `v`
    modulo that width. -/
theorem c43_verilog (v : Int) (w : Option Int) (hw : ∀ x, w = some x → 1 ≤ x) (b : Option Nat) (hb : BaseOk b)
    (s : Bool) :
    ∃ t e, print (ofInt v w b s) = some t ∧ Spells t e ∧ (e.ty.width : Int) = w.getD 32 ∧
      (e.ty.signed = true ↔ s = true ∨ v < 0 ∨ (w = none ∧ b = none)) ∧
      ∀ ρ, e.value ρ = e.ty.wrap v := by
  have hB : Base (b.getD 10) := by
    rcases hb with h | h | h | h | h <;> rw [h] <;> simp [Base]
  obtain ⟨hB1, hB2⟩ := hB.bounds
  obtain ⟨nd, ndl⟩ := number_toDigits hB1 hB2 v.natAbs
  -- the width
  have hsize : (∀ c ∈ widthText w, hexValue c < 10) ∧
      ((if widthText w = [] then 32 else number 10 (widthText w) : Nat) : Int) = w.getD 32 ∧
      (widthText w = [] ↔ w = none) := by
    cases w with
    | none => simp [widthText]
    | some x =>
      have hx := hw x rfl
      have e : widthText (some x) = Nat.toDigits 10 x.natAbs := by
        show (if x ≠ 0 then decimal x else []) = _
        rw [if_pos (by omega)]
        exact if_neg (by omega)
      obtain ⟨d1, d2⟩ := number_toDigits (base := 10) (by decide) (by decide) x.natAbs
      rw [e, d1, if_neg Nat.toDigits_ne_nil]
      refine ⟨d2, ?_, ?_⟩
      · show ((x.natAbs : Nat) : Int) = x
        omega
      · simp [Nat.toDigits_ne_nil]
  obtain ⟨s1, s2, s3⟩ := hsize
  by_cases hneg : v < 0
  · have sp := Spells.minus _ _ (Spells.based (widthText w) (Nat.toDigits (b.getD 10) v.natAbs) true
      (baseChar (b.getD 10)) (b.getD 10) (by rcases hB with h | h | h | h <;> rw [h] <;> decide)
      Nat.toDigits_ne_nil ndl s1)
    refine ⟨_, _, ?_, sp, s2, ?_, ?_⟩
    · unfold print ofInt bodyText
      have hs : signText (.num v) = ['-'] := if_pos hneg
      simp only [hs, if_neg (show ¬ v ≥ 0 by omega)]
      rcases hb with hb | hb | hb | hb | hb <;> subst hb <;> simp [mark, baseChar, valueText]
    · simp [VExpr.ty, hneg]
    · intro ρ
      rw [nd]
      generalize (⟨if widthText w = [] then 32 else number 10 (widthText w), true⟩ : Ty) = ty
      show ty.wrap (- VExpr.eval ρ (.lit ty v.natAbs) ty) = ty.wrap v
      rw [lit_value, Ty.wrap_neg_wrap]
      congr 1
      omega
  · have hs : signText (.num v) = [] := if_neg hneg
    have habs : ((v.natAbs : Nat) : Int) = v := by omega
    by_cases hbare : b = none ∧ s = false ∧ w = none
    · obtain ⟨rfl, rfl, rfl⟩ := hbare
      refine ⟨_, _, ?_, Spells.bare (Nat.toDigits 10 v.natAbs) Nat.toDigits_ne_nil ndl, rfl, ?_, ?_⟩
      · unfold print ofInt bodyText
        simp [hs, widthText, valueText]
        omega
      · simp [VExpr.ty]
      · intro ρ
        have nd' : number 10 (Nat.toDigits 10 v.natAbs) = v.natAbs := nd
        rw [nd']
        unfold VExpr.value
        rw [show (VExpr.lit ⟨32, true⟩ v.natAbs).ty = ⟨32, true⟩ from rfl, lit_value, habs]
    · have sp := Spells.based (widthText w) (Nat.toDigits (b.getD 10) v.natAbs) s
        (baseChar (b.getD 10)) (b.getD 10) (by rcases hB with h | h | h | h <;> rw [h] <;> decide)
        Nat.toDigits_ne_nil ndl s1
      refine ⟨_, _, ?_, sp, s2, ?_, ?_⟩
      · unfold print ofInt bodyText
        simp only [hs, if_pos (show v ≥ 0 by omega), List.nil_append]
        rcases hb with hb | hb | hb | hb | hb <;> subst hb
        · cases s with
          | true => simp [valueText, baseChar]
          | false =>
            have : widthText w ≠ [] := fun h => hbare ⟨rfl, rfl, s3.1 h⟩
            simp [valueText, baseChar, this]
        all_goals cases s <;> simp [mark, baseChar, valueText]
      · show s = true ↔ _
        constructor
        · exact .inl
        · rintro (h | h | ⟨h1, h2⟩)
          · exact h
          · exact absurd h hneg
          · cases s with
            | true => rfl
            | false => exact absurd ⟨h2, rfl, h1⟩ hbare
      · intro ρ
        rw [nd]
        unfold VExpr.value
        rw [show (VExpr.lit ⟨if widthText w = [] then 32 else number 10 (widthText w), s⟩ v.natAbs).ty =
          ⟨if widthText w = [] then 32 else number 10 (widthText w), s⟩ from rfl, lit_value, habs]

/-! Examples. -/

example : print (ofInt 5 (some 8) none true) = some "8'sd5".toList := by decide
example : print (ofInt (-5) (some 8) (some 16) false) = some "-8'sh5".toList := by decide
example : (ofText "16'hdb_xZ".toList none none false) = some ⟨.raw "dbxZ".toList, some 16, some 16, false⟩ := by decide
example : ofText "12".toList none none false = some ⟨.num 12, none, none, false⟩ := by decide
example : Legal 16 (.raw "dbxZ".toList) := ⟨by decide, 'x', by decide, by decide⟩
example : BaseOk (some 16) := by simp [BaseOk]

end Literal
