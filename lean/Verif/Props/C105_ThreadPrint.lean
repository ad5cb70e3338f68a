import Verif.Model.ThreadPrint
import Mathlib.Tactic.FieldSimp
import Mathlib.Tactic.Linarith
import Mathlib.Algebra.Order.Field.Rat

/-!
# C105: the line shown by `print` in a thread
-/

namespace ThreadPrint

variable {conv : List Char → Char → Val → List Char}

/-- The value a `print` should show for an expression: the string, the integer, or the number
    `raw / 2 ^ point`. -/
inductive IsVal : PV → Val → Prop
  | str (s) : IsVal (.str s) (.str s)
  | int (n : Int) : IsVal (.int n) (.num n)
  | fixed (raw point : Int) (q : Rat) (h : q * 2 ^ point.toNat = raw * 2 ^ (-point).toNat) :
      IsVal (.fixed raw point) (.num q)

/-- The text made from a format and values: every directive takes the next value, `%%` is a percent
    sign, all else is copied, and no value remains. -/
inductive Fmt (conv : List Char → Char → Val → List Char) :
    List Char → List Val → List Char → Prop
  | nil : Fmt conv [] [] []
  | char (c f vs t) (hc : c ≠ '%') (h : Fmt conv f vs t) : Fmt conv (c :: f) vs (c :: t)
  | percent (f vs t) (h : Fmt conv f vs t) : Fmt conv ('%' :: '%' :: f) vs ('%' :: t)
  | dir (ds c v f vs t) (hd : ∀ d ∈ ds, isFlag d = true) (hc : isFlag c = false) (hp : c ≠ '%')
      (h : Fmt conv f vs t) : Fmt conv ('%' :: (ds ++ c :: f)) (v :: vs) (conv ds c v ++ t)

/-- The text of an expression: a string without percent signs, an integer in decimal, a fixed-point
    number as a real number. -/
inductive Item (conv : List Char → Char → Val → List Char) : PV → List Char → Prop
  | str (s) (h : '%' ∉ s) : Item conv (.str s) s
  | int (n : Int) : Item conv (.int n) (conv [] 'd' (.num n))
  | fixed (raw point : Int) (q : Rat) (hp : 0 ≤ point) (h : q * 2 ^ point.toNat = raw) :
      Item conv (.fixed raw point) (conv [] 'f' (.num q))

/-- The text of an f-string. -/
inductive FText (conv : List Char → Char → Val → List Char) : List FPart → List Char → Prop
  | nil : FText conv [] []
  | lit (s ps t) (h : '%' ∉ s) (h' : FText conv ps t) : FText conv (.lit s :: ps) (s ++ t)
  | plain (v w ps t) (h : IsVal v w) (h' : FText conv ps t) :
      FText conv (.val v none :: ps) (conv [] 'd' w ++ t)
  | spec (v w ds c ps t) (h : IsVal v w) (hd : ∀ d ∈ ds, isFlag d = true) (hc : isFlag c = false)
      (hp : c ≠ '%') (h' : FText conv ps t) :
      FText conv (.val v (some [.lit (ds ++ [c])]) :: ps) (conv ds c w ++ t)

/-- The texts of an argument of `print`; those of a tuple are the texts of its elements. -/
inductive ArgText (conv : List Char → Char → Val → List Char) : PArg → List (List Char) → Prop
  | mod (f vs ws t) (hv : List.Forall₂ IsVal vs ws) (h : Fmt conv f ws t) :
      ArgText conv (.mod f vs) [t]
  | fstr (ps t) (h : FText conv ps t) : ArgText conv (.fstr ps) [t]
  | tuple (es ts) (h : List.Forall₂ (Item conv) es ts) : ArgText conv (.tuple es) ts
  | expr (v t) (h : Item conv v t) : ArgText conv (.expr v) [t]

theorem render_flags (ds f : List Char) (vs : List Val) (acc : List Char)
    (hd : ∀ d ∈ ds, isFlag d = true) :
    render conv (some acc) (ds ++ f) vs = render conv (some (acc ++ ds)) f vs := by
  induction ds generalizing acc with
  | nil => simp
  | cons d ds ih =>
    simp only [List.cons_append, render]
    rw [if_pos (hd d (by simp)), ih _ fun x hx => hd x (by simp [hx])]
    simp

theorem Fmt.render {f : List Char} {vs : List Val} {t : List Char} (h : Fmt conv f vs t)
    (g : List Char) (ws : List Val) :
    render conv none (f ++ g) (vs ++ ws) = (render conv none g ws).map (t ++ ·) := by
  induction h with
  | nil => simp
  | char c f vs t hc h ih =>
    simp only [List.cons_append, ThreadPrint.render]
    rw [if_neg hc, ih]
    simp [Option.map_map, Function.comp_def]
  | percent f vs t h ih =>
    simp only [List.cons_append, ThreadPrint.render]
    rw [if_pos trivial, if_neg (by decide), if_pos trivial, if_pos trivial, ih]
    simp [Option.map_map, Function.comp_def]
  | dir ds c v f vs t hd hc hp h ih =>
    simp only [List.cons_append, List.append_assoc, ThreadPrint.render]
    rw [if_pos trivial, render_flags ds _ _ _ hd]
    simp only [List.nil_append, ThreadPrint.render]
    rw [if_neg (by simp [hc]), if_neg hp, ih]
    simp [Option.map_map, Function.comp_def]

theorem Fmt.line {f : List Char} {vs : List Val} {t : List Char} (h : Fmt conv f vs t) :
    ThreadPrint.render conv none f vs = some t := by
  have := h.render [] []
  simpa [ThreadPrint.render] using this

theorem Fmt.append {f g : List Char} {vs ws : List Val} {t u : List Char} (h : Fmt conv f vs t)
    (h' : Fmt conv g ws u) : Fmt conv (f ++ g) (vs ++ ws) (t ++ u) := by
  induction h with
  | nil => simpa
  | char c f vs t hc h ih => exact .char _ _ _ _ hc ih
  | percent f vs t h ih => exact .percent _ _ _ ih
  | dir ds c v f vs t hd hc hp h ih =>
    simp only [List.cons_append, List.append_assoc]
    exact .dir _ _ _ _ _ _ hd hc hp ih

theorem Fmt.text {s : List Char} (h : '%' ∉ s) : Fmt conv s [] s := by
  induction s with
  | nil => exact .nil
  | cons c s ih =>
    simp only [List.mem_cons, not_or] at h
    exact .char _ _ _ _ (Ne.symm h.1) (ih h.2)

theorem Fmt.one (ds : List Char) (c : Char) (v : Val) (hd : ∀ d ∈ ds, isFlag d = true)
    (hc : isFlag c = false) (hp : c ≠ '%') :
    Fmt conv ('%' :: (ds ++ [c])) [v] (conv ds c v) := by
  have := Fmt.dir (conv := conv) ds c v [] [] [] hd hc hp .nil
  simpa using this

theorem isVal_modVal {v : PV} {w : Val} (h : IsVal v w) : modVal v = w := by
  cases h with
  | str => rfl
  | int => rfl
  | fixed raw point q h =>
    simp only [modVal]
    by_cases hp : 0 ≤ point
    · rw [if_pos hp]
      have h0 : (-point).toNat = 0 := by omega
      rw [h0] at h
      congr 1
      field_simp
      linarith
    · rw [if_neg hp]
      have h0 : point.toNat = 0 := by omega
      rw [h0] at h
      congr 1
      linarith

theorem isVal_map {vs : List PV} {ws : List Val} (h : List.Forall₂ IsVal vs ws) :
    vs.map modVal = ws := by
  induction h with
  | nil => rfl
  | cons h _ ih => simp [isVal_modVal h, ih]

theorem fString_of {ps : List FPart} {t : List Char} (h : FText conv ps t) :
    ∃ r, fString ps = some r ∧ Fmt conv r.2 (r.1.map modVal) t := by
  induction h with
  | nil => exact ⟨_, rfl, .nil⟩
  | lit s ps t h _ ih =>
    obtain ⟨r, hr, hf⟩ := ih
    exact ⟨(r.1, s ++ r.2), by simp [fString, hr], by simpa using (Fmt.text h).append hf⟩
  | plain v w ps t h _ ih =>
    obtain ⟨r, hr, hf⟩ := ih
    refine ⟨(v :: r.1, ['%', 'd'] ++ r.2), by simp [fString, hr, specFmt], ?_⟩
    simp only [List.map_cons, isVal_modVal h]
    exact (Fmt.one (conv := conv) [] 'd' w (by simp) (by decide) (by decide)).append hf
  | spec v w ds c ps t h hd hc hp _ ih =>
    obtain ⟨r, hr, hf⟩ := ih
    refine ⟨(v :: r.1, '%' :: (ds ++ [c]) ++ r.2), by simp [fString, hr, specFmt], ?_⟩
    simp only [List.map_cons, isVal_modVal h]
    exact (Fmt.one (conv := conv) ds c w hd hc hp).append hf

/-- A list of formats with the values they take and the texts they show. -/
def Cells (conv : List Char → Char → Val → List Char)
    (l : List (List Char × List Val × List Char)) : Prop := ∀ c ∈ l, Fmt conv c.1 c.2.1 c.2.2

/-- The two lists after appending some formats. -/
def Acc.push (a : Acc) (l : List (List Char × List Val × List Char)) : Acc :=
  { vals := a.vals ++ l.flatMap fun c => c.2.1, fmt := a.fmt ++ l.flatMap fun c => [c.1, [' ']] }

theorem Acc.push_push (a : Acc) (l m) : (a.push l).push m = a.push (l ++ m) := by
  simp [Acc.push]

theorem addPlain_of {v : PV} {t : List Char} (h : Item conv v t) :
    ∃ f vs, Fmt conv f vs t ∧ ∀ a : Acc, addPlain a v = a.push [(f, vs, t)] := by
  cases h with
  | str s h => exact ⟨t, [], .text h, fun a => by simp [addPlain, Acc.push]⟩
  | int n =>
    exact ⟨_, _, .one [] 'd' (.num n) (by simp) (by decide) (by decide), fun a => by
      simp [addPlain, Acc.push]⟩
  | fixed raw point q hp h =>
    refine ⟨_, _, .one [] 'f' (.num q) (by simp) (by decide) (by decide), fun a => ?_⟩
    have hq : (raw : Rat) / 2 ^ point.toNat = q := by field_simp; linarith
    simp [addPlain, Acc.push, hp, hq]

theorem addPlains_of {es : List PV} {ts : List (List Char)} (h : List.Forall₂ (Item conv) es ts) :
    ∃ l, Cells conv l ∧ l.map (fun c => c.2.2) = ts ∧
      ∀ a : Acc, es.foldl addPlain a = a.push l := by
  induction h with
  | nil => exact ⟨[], by simp [Cells], rfl, fun a => by simp [Acc.push]⟩
  | cons h _ ih =>
    obtain ⟨f, vs, hf, ha⟩ := addPlain_of h
    obtain ⟨l, hl, ht, hb⟩ := ih
    refine ⟨(f, vs, _) :: l, ?_, by rw [List.map_cons, ht], fun a => ?_⟩
    · intro c hc
      rcases List.mem_cons.mp hc with rfl | hc
      · exact hf
      · exact hl c hc
    · rw [List.foldl_cons, ha, hb, Acc.push_push]
      rfl

theorem addArg_of {x : PArg} {ts : List (List Char)} (h : ArgText conv x ts) :
    ∃ l, Cells conv l ∧ l.map (fun c => c.2.2) = ts ∧
      ∀ a : Acc, addArg a x = some (a.push l) := by
  cases h with
  | mod f vs ws t hv h =>
    refine ⟨[(f, ws, t)], by simpa [Cells] using h, rfl, fun a => ?_⟩
    simp [addArg, addForm, Acc.push, isVal_map hv]
  | fstr ps t h =>
    obtain ⟨r, hr, hf⟩ := fString_of h
    refine ⟨[(r.2, r.1.map modVal, t)], by simpa [Cells] using hf, rfl, fun a => ?_⟩
    simp [addArg, addForm, Acc.push, hr]
  | tuple es ts h =>
    obtain ⟨l, hl, ht, ha⟩ := addPlains_of h
    exact ⟨l, hl, ht, fun a => by rw [addArg, ha]⟩
  | expr v t h =>
    obtain ⟨f, vs, hf, ha⟩ := addPlain_of h
    exact ⟨[(f, vs, t)], by simpa [Cells] using hf, rfl, fun a => by rw [addArg, ha]⟩

theorem addArgs_of {xs : List PArg} {tss : List (List (List Char))}
    (h : List.Forall₂ (ArgText conv) xs tss) :
    ∃ l, Cells conv l ∧ l.map (fun c => c.2.2) = tss.flatten ∧
      ∀ a : Acc, addArgs a xs = some (a.push l) := by
  induction h with
  | nil => exact ⟨[], by simp [Cells], rfl, fun a => by simp [addArgs, Acc.push]⟩
  | cons h _ ih =>
    obtain ⟨l, hl, ht, ha⟩ := addArg_of h
    obtain ⟨m, hm, hu, hb⟩ := ih
    refine ⟨l ++ m, ?_, by simp [ht, hu], fun a => ?_⟩
    · intro c hc
      rcases List.mem_append.mp hc with hc | hc
      · exact hl c hc
      · exact hm c hc
    · rw [addArgs, ha, Option.bind_some, hb, Acc.push_push]

theorem cells_fmt (l : List (List Char × List Val × List Char)) (h : Cells conv l) :
    Fmt conv ((l.flatMap fun c => [c.1, [' ']]).dropLast.flatten) (l.flatMap fun c => c.2.1)
      ([' '].intercalate (l.map fun c => c.2.2)) := by
  induction l with
  | nil => exact .nil
  | cons c l ih =>
    have hc := h c (by simp)
    have hl : Cells conv l := fun d hd => h d (by simp [hd])
    cases l with
    | nil => simpa [List.intercalate] using hc
    | cons d l =>
      have hs : Fmt conv [' '] [] [' '] := .text (by decide)
      have := hc.append (hs.append (ih hl))
      simpa [List.intercalate, List.dropLast] using this

/-- **C105 (line).**  The line shown is the texts of the arguments with single spaces between them:
    strings without percent signs as they are, integers in decimal, fixed-point numbers with a point
    that is not negative as real numbers, tuples as their elements, `form % values` and f-strings as
    formatted texts, whatever the other arguments are. -/
theorem c105_line (args : List PArg) (tss : List (List (List Char)))
    (h : List.Forall₂ (ArgText conv) args tss) :
    shown conv args = some (some ([' '].intercalate tss.flatten)) := by
  obtain ⟨l, hl, ht, ha⟩ := addArgs_of h
  have hf := (cells_fmt l hl).line
  rw [ht] at hf
  simp only [shown, compile, ha, Option.map_some, Acc.push, List.nil_append]
  rw [hf]

theorem specFmt_none (spec : Option (List SpecPart)) :
    specFmt spec = none ↔ ∃ l, spec = some l ∧ ∀ s, l ≠ [.lit s] := by
  unfold specFmt
  split
  · simp
  · rename_i s
    simp
  · rename_i l hl
    simp only [true_iff]
    exact ⟨l, rfl, fun s hs => hl s (by rw [hs])⟩

theorem fString_none (ps : List FPart) :
    fString ps = none ↔ ∃ v l, FPart.val v (some l) ∈ ps ∧ ∀ s, l ≠ [.lit s] := by
  induction ps with
  | nil => simp [fString]
  | cons p ps ih =>
    cases p with
    | lit s => simp [fString, ih]
    | val v spec =>
      constructor
      · intro h
        cases hs : specFmt spec with
        | none =>
          obtain ⟨l, rfl, hl⟩ := (specFmt_none spec).mp hs
          exact ⟨v, l, by simp, hl⟩
        | some d =>
          have : fString ps = none := by
            cases hr : fString ps with
            | none => rfl
            | some r => simp [fString, hs, hr] at h
          obtain ⟨w, l, hm, hl⟩ := ih.mp this
          exact ⟨w, l, by simp [hm], hl⟩
      · rintro ⟨w, l, hm, hl⟩
        rcases List.mem_cons.mp hm with hm | hm
        · cases hm
          have := (specFmt_none (some l)).mpr ⟨l, rfl, hl⟩
          simp [fString, this]
        · have := ih.mpr ⟨w, l, hm, hl⟩
          cases hs : specFmt spec <;> simp [fString, hs, this]

theorem addArgs_none (a : Acc) (xs : List PArg) :
    addArgs a xs = none ↔ ∃ ps, PArg.fstr ps ∈ xs ∧ fString ps = none := by
  induction xs generalizing a with
  | nil => simp [addArgs]
  | cons x xs ih =>
    cases x with
    | fstr ps =>
      cases h : fString ps with
      | none =>
        simp only [addArgs, addArg, h, Option.map_none, Option.bind_none, true_iff]
        exact ⟨ps, by simp, h⟩
      | some r =>
        simp only [addArgs, addArg, h, Option.map_some, Option.bind_some, ih]
        constructor
        · rintro ⟨qs, hq, hn⟩
          exact ⟨qs, by simp [hq], hn⟩
        · rintro ⟨qs, hq, hn⟩
          rcases List.mem_cons.mp hq with hq | hq
          · cases hq
            rw [h] at hn
            exact absurd hn (by simp)
          · exact ⟨qs, hq, hn⟩
    | _ => simp [addArgs, addArg, ih]

/-- **C105 (raises).**  The compiler raises exactly if a value of an f-string has a format
    specification other than one text: an empty or a nested one. -/
theorem c105_raises (args : List PArg) :
    shown conv args = none ↔ ∃ ps v l, PArg.fstr ps ∈ args ∧ FPart.val v (some l) ∈ ps ∧
      ∀ s, l ≠ [.lit s] := by
  simp only [shown, compile, Option.map_eq_none_iff, addArgs_none, fString_none]
  constructor
  · rintro ⟨ps, h, v, l, hm, hl⟩
    exact ⟨ps, v, l, h, hm, hl⟩
  · rintro ⟨ps, v, l, h, hm, hl⟩
    exact ⟨ps, h, v, l, hm, hl⟩

/-- **C105 (disagreement, negative points).**  `print(v)` of a fixed-point value with a negative
    point shows `raw * 2 ^ point`; that is the value, `raw * 2 ^ (-point)`, only for 0. -/
theorem c105_not_fixed (raw point : Int) (hp : point < 0) :
    ∃ q : Rat, q * 2 ^ (-point).toNat = raw ∧
      shown conv [.expr (.fixed raw point)] = some (some (conv [] 'f' (.num q))) ∧
      (IsVal (.fixed raw point) (.num q) ↔ raw = 0) := by
  have hq : (raw : Rat) * (1 / 2 ^ (-point).toNat) * 2 ^ (-point).toNat = raw := by field_simp
  refine ⟨_, hq, ?_, ?_⟩
  · have h0 : ¬ 0 ≤ point := by omega
    have hf := (Fmt.one (conv := conv) [] 'f' (.num ((raw : Rat) * (1 / 2 ^ (-point).toNat)))
      (by simp) (by decide) (by decide)).line
    simp only [shown, compile, addArgs, addArg, addPlain, if_neg h0, Option.bind_some,
      Option.map_some, List.nil_append]
    exact congrArg some hf
  · have h0 : point.toNat = 0 := by omega
    have h1 : (1 : Rat) < 2 ^ (-point).toNat := one_lt_pow₀ (by norm_num) (by omega)
    constructor
    · intro h
      cases h with
      | fixed _ _ _ h =>
        rw [h0, pow_zero, mul_one] at h
        have hr : (raw : Rat) * (2 ^ (-point).toNat * 2 ^ (-point).toNat - 1) = 0 := by
          have := congrArg (fun x : Rat => x * (2 : Rat) ^ (-point).toNat) h
          rw [hq] at this
          linarith
        rcases mul_eq_zero.mp hr with hr | hr
        · exact_mod_cast hr
        · nlinarith
    · rintro rfl
      exact .fixed _ _ _ (by simp)

/-- **C105 (disagreement, percent signs).**  A string with `%d` (or another directive) is not shown
    as it is: it takes the value of the next argument, for which then no value is left. -/
theorem c105_not_percent (s t ds : List Char) (c : Char) (n : Int) (hs : '%' ∉ s) (ht : '%' ∉ t)
    (hd : ∀ d ∈ ds, isFlag d = true) (hc : isFlag c = false) (hp : c ≠ '%') :
    shown conv [.expr (.str (s ++ '%' :: (ds ++ c :: t))), .expr (.int n)] = some none := by
  have h1 : Fmt conv (s ++ ('%' :: (ds ++ c :: t) ++ [' '])) [.num n]
      (s ++ (conv ds c (.num n) ++ (t ++ [' ']))) := by
    have := (Fmt.text (conv := conv) hs).append
      (Fmt.dir ds c (.num n) (t ++ [' ']) [] (t ++ [' ']) hd hc hp (.text (by simp [ht])))
    simpa using this
  have h2 := h1.render ['%', 'd'] []
  have h3 : render conv none ['%', 'd'] [] = none := by
    simp [render, show isFlag 'd' = false from by decide]
  rw [h3, Option.map_none] at h2
  simp only [shown, compile, addArgs, addArg, addPlain, Option.bind_some, Option.map_some]
  refine congrArg some ?_
  simpa using h2

/-- **C105 (disagreement, specifications without a letter).**  A value with a width only, as in
    `f"{x:5}b"`, takes the first character of the text that follows as its directive. -/
theorem c105_not_width (ds s : List Char) (c : Char) (n : Int) (hs : '%' ∉ s)
    (hd : ∀ d ∈ ds, isFlag d = true) (hc : isFlag c = false) (hp : c ≠ '%') :
    shown conv [.fstr [.val (.int n) (some [.lit ds]), .lit (c :: s)]] =
      some (some (conv ds c (.num n) ++ s)) := by
  have hf := ((Fmt.one (conv := conv) ds c (.num n) hd hc hp).append (Fmt.text hs)).line
  simp only [shown, compile, addArgs, addArg, fString, specFmt, addForm]
  refine congrArg some ?_
  simpa [modVal] using hf

/-- A way to show values, for the examples: `d` followed by the numerator. -/
private def conv0 (ds : List Char) (c : Char) : Val → List Char
  | .str s => s
  | .num q => ds ++ [c] ++ (toString q.num).toList

-- `print("x", (3, "y"), "%3d%%" % 5, f"{v:b}", w)` with a fixed-point number `w = 6 / 4`
example : List.Forall₂ (ArgText conv0)
    [.expr (.str ['x']), .tuple [.int 3, .str ['y']], .mod ['%', '3', 'd', '%', '%'] [.int 5],
      .fstr [.val (.int 7) (some [.lit ['b']])], .expr (.fixed 6 2)]
    [[['x']], [['d', '3'], ['y']], [['3', 'd', '5', '%']], [['b', '7']],
      [conv0 [] 'f' (.num (3 / 2))]] :=
  .cons (.expr _ _ (.str _ (by decide))) <|
  .cons (.tuple _ _ (.cons (.int 3) (.cons (.str _ (by decide)) .nil))) <|
  .cons (.mod _ _ [.num 5] _ (.cons (.int 5) .nil)
    (.dir ['3'] 'd' (.num 5) ['%', '%'] [] ['%'] (by decide) (by decide) (by decide)
      (.percent _ _ _ .nil))) <|
  .cons (.fstr _ _ (.spec (.int 7) (.num 7) [] 'b' [] [] (.int 7) (by decide) (by decide)
    (by decide) .nil)) <|
  .cons (.expr _ _ (.fixed 6 2 (3 / 2) (by decide) (by
    rw [show Int.toNat 2 = 2 from rfl]; norm_num))) .nil

example : shown conv0
    [.expr (.str ['x']), .tuple [.int 3, .str ['y']], .mod ['%', '3', 'd', '%', '%'] [.int 5],
      .fstr [.val (.int 7) (some [.lit ['b']])]] =
    some (some ['x', ' ', 'd', '3', ' ', 'y', ' ', '3', 'd', '5', '%', ' ', 'b', '7']) := by
  decide +kernel

-- `print(f"{x:{w}}")` raises, `print(f"{x:5}b")` shows `x` in binary
example : shown conv0 [.fstr [.val (.int 3) (some [.nested])]] = none := by decide +kernel

example : shown conv0 [.fstr [.val (.int 3) (some [.lit ['5']]), .lit ['b']]] =
    some (some ['5', 'b', '3']) := by decide +kernel

-- `print("%d", 3)`
example : shown conv0 [.expr (.str ['%', 'd']), .expr (.int 3)] = some none := by decide +kernel

-- 3 with point -1 is 6, and shown as 3/2
example : ¬ IsVal (.fixed 3 (-1)) (.num (3 / 2)) := by
  intro h
  cases h with
  | fixed _ _ _ h =>
    rw [show Int.toNat (-1) = 0 from rfl, show Int.toNat (- -1) = 1 from rfl] at h
    norm_num at h

end ThreadPrint
