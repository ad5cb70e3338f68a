import Verif.Model.ResolverStmt

/-! # Execution of statements, and lemmas on their resolution -/

namespace RSt

/-- A variable, or an element of an array. -/
abbrev Loc := String × Option ℤ

/-- The operators of Verilog, on integers (verilog/to_verilog.py:213-345). -/
def Op.eval : Op → ℤ → ℤ → ℤ
  | .add, x, y => x + y
  | .sub, x, y => x - y
  | .mul, x, y => x * y
  | .lt, x, y => if x < y then 1 else 0
  | .gt, x, y => if x > y then 1 else 0
  | .le, x, y => if x ≤ y then 1 else 0
  | .ge, x, y => if x ≥ y then 1 else 0
  | .eq, x, y => if x = y then 1 else 0
  | .ne, x, y => if x = y then 0 else 1
  | .land, x, y => if x = 0 ∨ y = 0 then 0 else 1
  | .lor, x, y => if x = 0 ∧ y = 0 then 0 else 1

/-- The operators with one operand (verilog/to_verilog.py:345-368). -/
def Un.eval : Un → ℤ → ℤ
  | .neg, x => -x
  | .lnot, x => if x = 0 then 1 else 0

/-- The value of an expression; `π` are the values of the parameters, `σ` those of the variables and elements
    (verilog/to_verilog.py:131-137, 160-166, 209-396). -/
def ev (π : String → ℤ) (σ : Loc → ℤ) : E → ℤ
  | .num v => v
  | .var x => σ (x, none)
  | .par x => π x
  | .elem a i => σ (a, some (ev π σ i))
  | .un o a => o.eval (ev π σ a)
  | .bin o a b => o.eval (ev π σ a) (ev π σ b)
  | .cond c a b => if ev π σ c ≠ 0 then ev π σ a else ev π σ b

/-- The target of an assignment; a number is none (verilog/to_verilog.py:826-836). -/
def lhs (π : String → ℤ) (σ : Loc → ℤ) : E → Option Loc
  | .var x => some (x, none)
  | .elem a i => some (a, some (ev π σ i))
  | _ => none

/-- The variables, and the nonblocking assignments that are not done yet, the first first. -/
structure St where
  σ : Loc → ℤ
  nb : List (Loc × ℤ)

/-- A blocking assignment. -/
def St.set (t : St) (l : Loc) (v : ℤ) : St := ⟨fun m => if m = l then v else t.σ m, t.nb⟩

/-- A nonblocking assignment. -/
def St.later (t : St) (l : Loc) (v : ℤ) : St := ⟨t.σ, t.nb ++ [(l, v)]⟩

/-- The variables when the block is done and the nonblocking assignments are made. -/
def St.commit (t : St) : Loc → ℤ := t.nb.foldl (fun σ p m => if m = p.1 then p.2 else σ m) t.σ

/-- `s` runs to its end from `t` and ends in `t'` (verilog/to_verilog.py:399-425 and 824-836; both assignments of a
    `For` are blocking, 415-418). -/
inductive Exec (π : String → ℤ) : S → St → St → Prop
  | skip (t : St) : Exec π .skip t t
  | seq {a b : S} {t t' t'' : St} : Exec π a t t' → Exec π b t' t'' → Exec π (.seq a b) t t''
  | blk {l e : E} {t : St} {m : Loc} : lhs π t.σ l = some m → Exec π (.asg true l e) t (t.set m (ev π t.σ e))
  | nblk {l e : E} {t : St} {m : Loc} : lhs π t.σ l = some m → Exec π (.asg false l e) t (t.later m (ev π t.σ e))
  | yes {c : E} {a b : S} {t t' : St} : ev π t.σ c ≠ 0 → Exec π a t t' → Exec π (.ite c a b) t t'
  | no {c : E} {a b : S} {t t' : St} : ev π t.σ c = 0 → Exec π b t t' → Exec π (.ite c a b) t t'
  | more {c : E} {b : S} {t t' t'' : St} : ev π t.σ c ≠ 0 → Exec π b t t' → Exec π (.whl c b) t' t'' →
      Exec π (.whl c b) t t''
  | done {c : E} {b : S} {t : St} : ev π t.σ c = 0 → Exec π (.whl c b) t t
  | loop {i j : String} {init c step : E} {b : S} {t t' : St} :
      Exec π (.whl c (.seq b (.asg true (.var j) step))) (t.set (i, none) (ev π t.σ init)) t' →
      Exec π (.loop i init c j step b) t t'

/-- Two states that differ at most in the variables `M`. -/
def Rel (M : List String) (t u : St) : Prop := t.nb = u.nb ∧ ∀ m : Loc, (∀ x ∈ M, m ≠ (x, none)) → t.σ m = u.σ m

/-- The variables of `M` read by `e` are in `K`; variables outside `K` are not in the dictionary `d`; parameters are
    not loop variables (`L`). -/
def OkE (d : Dict) (L M K : List String) : E → Prop
  | .num _ => True
  | .var x => (x ∈ M → x ∈ K) ∧ (x ∈ K ∨ d x = none)
  | .par x => x ∉ L
  | .elem _ i => OkE d L M K i
  | .un _ a => OkE d L M K a
  | .bin _ a b => OkE d L M K a ∧ OkE d L M K b
  | .cond c a b => OkE d L M K c ∧ OkE d L M K a ∧ OkE d L M K b

/-- All leaves of `e` are numbers, parameters of the dictionary, and variables of `K`. -/
def ConstE (d : Dict) (K : List String) : E → Prop
  | .num _ => True
  | .var x => x ∈ K
  | .par x => (d x).isSome
  | .elem _ _ => False
  | .un _ a => ConstE d K a
  | .bin _ a b => ConstE d K a ∧ ConstE d K b
  | .cond c a b => ConstE d K c ∧ ConstE d K a ∧ ConstE d K b

/-- The target of an assignment is an element, or a variable that is neither a loop variable nor in the dictionary. -/
def OkL (d : Dict) (L K : List String) : E → Prop
  | .var x => x ∉ L ∧ d x = none
  | .elem _ i => OkE d L L K i
  | _ => False

/-- `L` are the loop variables of `s`, `K` those of the loops around it.  A loop variable is read only inside its loop and
    assigned only by the header of its loop; start, condition and step of a loop are constants but for the
    variables of the loop and of the loops around it. -/
def Scoped (d : Dict) (L : List String) : List String → S → Prop
  | _, .skip => True
  | K, .seq a b => Scoped d L K a ∧ Scoped d L K b
  | K, .asg _ l e => OkL d L K l ∧ OkE d L L K e
  | K, .ite c a b => OkE d L L K c ∧ Scoped d L K a ∧ Scoped d L K b
  | K, .whl c b => OkE d L L K c ∧ Scoped d L K b
  | K, .loop i init c j step b => i ∈ L ∧ i ∉ K ∧ j = i ∧ (OkE d L L K init ∧ ConstE d K init) ∧
      (OkE d L L (i :: K) c ∧ ConstE d (i :: K) c) ∧ (OkE d L L (i :: K) step ∧ ConstE d (i :: K) step) ∧
      Scoped d L (i :: K) b

/-! ## Expressions -/

theorem Op.fold_eval (o : Op) (x y : ℤ) : o.fold x y = o.eval x y := by
  cases o <;> simp only [Op.fold, Op.eval, b2i] <;> (try rfl) <;> simp only [decide_eq_true_eq, gt_iff_lt, ge_iff_le, ne_eq,
    ite_not, Bool.and_eq_true, bne_iff_ne, Bool.or_eq_true]
  · by_cases hx : x = 0 <;> by_cases hy : y = 0 <;> simp [hx, hy]
  · by_cases hx : x = 0 <;> by_cases hy : y = 0 <;> simp [hx, hy]

theorem Un.fold_eval (o : Un) (x : ℤ) : o.fold x = o.eval x := by
  cases o <;> simp [Un.fold, Un.eval, b2i]

/-- The dictionary `d` inside the loops of `K`, whose variables are `κ`. -/
def Inv (d₀ : Dict) (K : List String) (κ : String → ℤ) (d : Dict) : Prop :=
  (∀ x ∈ K, d x = some (.num (κ x))) ∧ ∀ x, x ∉ K → d x = d₀ x

/-- The loop variables have the values `κ`. -/
def Has (K : List String) (κ : String → ℤ) (σ : Loc → ℤ) : Prop := ∀ x ∈ K, σ (x, none) = κ x

section
variable {π : String → ℤ} {d₀ d : Dict} {L M K : List String} {κ : String → ℤ} {fr : Bool} {σ σ₁ : Loc → ℤ}

theorem cval_ok (hd₀ : ∀ x e, d₀ x = some e → e = .num (π x)) (hKL : ∀ x ∈ K, x ∈ L) (hI : Inv d₀ K κ d)
    (hH : Has K κ σ) : ∀ (e : E) {v : ℤ}, OkE d₀ L M K e → cval fr d e = some v → ev π σ e = v
  | .num _, v, _, h => by simpa [cval, ev] using h
  | .var x, v, ho, h => by
      simp only [cval] at h
      cases fr with
      | false => simp at h
      | true =>
        rcases ho.2 with hk | hn
        · simp [hI.1 x hk] at h
          rw [ev, hH x hk, h]
        · by_cases hk : x ∈ K
          · simp [hI.1 x hk] at h
            rw [ev, hH x hk, h]
          · simp [hI.2 x hk, hn] at h
  | .par x, v, ho, h => by
      have hk : x ∉ K := fun hk => ho (hKL x hk)
      simp only [cval, hI.2 x hk] at h
      cases hx : d₀ x with
      | none => simp [hx] at h
      | some e =>
        have he := hd₀ x e hx
        subst he
        simpa [hx, ev] using h
  | .elem _ _, v, _, h => by simp [cval] at h
  | .un o a, v, ho, h => by
      simp only [cval] at h
      cases ha : cval fr d a with
      | none => simp [ha] at h
      | some x =>
        simp [ha] at h
        rw [ev, cval_ok hd₀ hKL hI hH a ho ha, ← Un.fold_eval, h]
  | .bin o a b, v, ho, h => by
      simp only [cval] at h
      cases ha : cval fr d a with
      | none => simp [ha] at h
      | some x =>
        cases hb : cval fr d b with
        | none => simp [ha, hb] at h
        | some y =>
          simp [ha, hb] at h
          rw [ev, cval_ok hd₀ hKL hI hH a ho.1 ha, cval_ok hd₀ hKL hI hH b ho.2 hb, ← Op.fold_eval, h]
  | .cond c a b, v, ho, h => by
      simp only [cval] at h
      cases hc : cval fr d c with
      | none => simp [hc] at h
      | some z =>
        cases ha : cval fr d a with
        | none => simp [hc, ha] at h
        | some x =>
          cases hb : cval fr d b with
          | none => simp [hc, ha, hb] at h
          | some y =>
            simp only [hc, ha, hb, Option.some.injEq] at h
            rw [ev, cval_ok hd₀ hKL hI hH c ho.1 hc, cval_ok hd₀ hKL hI hH a ho.2.1 ha,
              cval_ok hd₀ hKL hI hH b ho.2.2 hb, h]

theorem put_some {e : E} {v : ℤ} (h : cval fr d e = some v) : put fr d e = .num v := by simp [put, over, h]
theorem put_none {e : E} (h : cval fr d e = none) : put fr d e = node fr d e := by simp [put, over, h]

/-- The resolved expression has the value of the original one, in a state that differs in `M`. -/
theorem put_ok (hd₀ : ∀ x e, d₀ x = some e → e = .num (π x)) (hKL : ∀ x ∈ K, x ∈ L) (hI : Inv d₀ K κ d)
    (hH : Has K κ σ) (hfr : ∀ x ∈ K, fr = true) (hR : ∀ m : Loc, (∀ x ∈ M, m ≠ (x, none)) → σ m = σ₁ m) :
    ∀ e : E, OkE d₀ L M K e → ev π σ₁ (put fr d e) = ev π σ e := by
  intro e
  induction e with
  | num v => intro _; simp [put, over, cval, ev]
  | var x =>
    intro ho
    cases h : cval fr d (.var x) with
    | some v => rw [put_some h, cval_ok hd₀ hKL hI hH _ ho h]; rfl
    | none =>
      rw [put_none h]
      have hk : x ∉ K := by
        intro hk
        simp [cval, hfr x hk, hI.1 x hk] at h
      have hM : x ∉ M := fun hm => hk (ho.1 hm)
      simp only [node, ev]
      refine (hR _ ?_).symm
      rintro y hy hxy
      simp at hxy
      exact hM (hxy ▸ hy)
  | par x =>
    intro ho
    cases h : cval fr d (.par x) with
    | some v => rw [put_some h, cval_ok hd₀ hKL hI hH _ ho h]; rfl
    | none => rw [put_none h]; rfl
  | elem a i ih =>
    intro ho
    rw [put_none (by simp [cval])]
    change σ₁ (a, some (ev π σ₁ (put fr d i))) = σ (a, some (ev π σ i))
    rw [ih ho]
    refine (hR _ ?_).symm
    rintro y hy hxy
    simp at hxy
  | un o a ih =>
    intro ho
    cases h : cval fr d (.un o a) with
    | some v => rw [put_some h, cval_ok hd₀ hKL hI hH _ ho h]; rfl
    | none =>
      rw [put_none h]
      simp only [node, h, Option.isSome_none, Bool.false_eq_true, if_false]
      change o.eval (ev π σ₁ (put fr d a)) = _
      rw [ih ho]; rfl
  | bin o a b iha ihb =>
    intro ho
    cases h : cval fr d (.bin o a b) with
    | some v => rw [put_some h, cval_ok hd₀ hKL hI hH _ ho h]; rfl
    | none =>
      rw [put_none h]
      simp only [node, h, Option.isSome_none, Bool.false_eq_true, if_false]
      change o.eval (ev π σ₁ (put fr d a)) (ev π σ₁ (put fr d b)) = _
      rw [iha ho.1, ihb ho.2]; rfl
  | cond c a b ihc iha ihb =>
    intro ho
    cases h : cval fr d (.cond c a b) with
    | some v => rw [put_some h, cval_ok hd₀ hKL hI hH _ ho h]; rfl
    | none =>
      rw [put_none h]
      simp only [node, h, Option.isSome_none, Bool.false_eq_true, if_false]
      change (if ev π σ₁ (put fr d c) ≠ 0 then ev π σ₁ (put fr d a) else ev π σ₁ (put fr d b)) = _
      rw [ihc ho.1, iha ho.2.1, ihb ho.2.2]; rfl

theorem const_cval (hd₀ : ∀ x e, d₀ x = some e → e = .num (π x)) (hI : Inv d₀ K κ d) (hfr : ∀ x ∈ K, fr = true) :
    ∀ e : E, ConstE d₀ K e → ∃ v, cval fr d e = some v := by
  intro e
  induction e with
  | num v => intro _; exact ⟨v, rfl⟩
  | var x => intro h; exact ⟨κ x, by simp [cval, hfr x h, hI.1 x h]⟩
  | par x =>
    intro h
    by_cases hk : x ∈ K
    · exact ⟨κ x, by simp [cval, hI.1 x hk]⟩
    · cases hx : d₀ x with
      | none => simp [ConstE, hx] at h
      | some e =>
        have he := hd₀ x e hx
        subst he
        exact ⟨π x, by simp [cval, hI.2 x hk, hx]⟩
  | elem a i => intro h; exact h.elim
  | un o a ih => intro h; obtain ⟨x, hx⟩ := ih h; exact ⟨_, by simp only [cval, hx]; rfl⟩
  | bin o a b iha ihb =>
    intro h
    obtain ⟨x, hx⟩ := iha h.1
    obtain ⟨y, hy⟩ := ihb h.2
    exact ⟨_, by simp only [cval, hx, hy]; rfl⟩
  | cond c a b ihc iha ihb =>
    intro h
    obtain ⟨z, hz⟩ := ihc h.1
    obtain ⟨x, hx⟩ := iha h.2.1
    obtain ⟨y, hy⟩ := ihb h.2.2
    exact ⟨_, by simp only [cval, hx, hy, hz]; rfl⟩

theorem node_const : ∀ (e : E) {v : ℤ}, cval fr d e = some v → node fr d e = e
  | .num _, _, _ => rfl
  | .var _, _, _ => rfl
  | .par _, _, _ => rfl
  | .elem _ _, _, h => by simp [cval] at h
  | .un _ _, _, h => by simp only [node, h, Option.isSome_some, if_true]
  | .bin _ _ _, _, h => by simp only [node, h, Option.isSome_some, if_true]
  | .cond _ _ _, _, h => by simp only [node, h, Option.isSome_some, if_true]

theorem ret_put (hn : ∀ x e, d x = some e → ∃ v, e = .num v) : ∀ e : E, ret fr d e = put fr d e
  | .num _ => rfl
  | .var x => by
      cases fr with
      | false => simp [ret, put, over, cval, node]
      | true =>
        cases hx : d x with
        | none => simp [ret, put, over, cval, node, hx]
        | some e => obtain ⟨v, rfl⟩ := hn x e hx; simp [ret, put, over, cval, hx]
  | .par x => by
      cases hx : d x with
      | none => simp [ret, put, over, cval, node, hx]
      | some e => obtain ⟨v, rfl⟩ := hn x e hx; simp [ret, put, over, cval, hx]
  | .elem _ _ => rfl
  | .un _ _ => rfl
  | .bin _ _ _ => rfl
  | .cond _ _ _ => rfl

/-- A property of leaves that numbers have is kept by `put`. -/
theorem okE_put (d' : Dict) : ∀ e : E, OkE d₀ L M K e → OkE d₀ L M K (put fr d' e) := by
  intro e
  induction e with
  | num v => intro h; simp [put, over, cval, OkE]
  | var x =>
    intro h
    cases hc : cval fr d' (.var x) with
    | some v => rw [put_some hc]; trivial
    | none => rw [put_none hc]; exact h
  | par x =>
    intro h
    cases hc : cval fr d' (.par x) with
    | some v => rw [put_some hc]; trivial
    | none => rw [put_none hc]; exact h
  | elem a i ih => intro h; rw [put_none (by simp [cval])]; exact ih h
  | un o a ih =>
    intro h
    cases hc : cval fr d' (.un o a) with
    | some v => rw [put_some hc]; trivial
    | none => rw [put_none hc]; simp only [node, hc, Option.isSome_none, Bool.false_eq_true, if_false]; exact ih h
  | bin o a b iha ihb =>
    intro h
    cases hc : cval fr d' (.bin o a b) with
    | some v => rw [put_some hc]; trivial
    | none =>
      rw [put_none hc]; simp only [node, hc, Option.isSome_none, Bool.false_eq_true, if_false]
      exact ⟨iha h.1, ihb h.2⟩
  | cond c a b ihc iha ihb =>
    intro h
    cases hc : cval fr d' (.cond c a b) with
    | some v => rw [put_some hc]; trivial
    | none =>
      rw [put_none hc]; simp only [node, hc, Option.isSome_none, Bool.false_eq_true, if_false]
      exact ⟨ihc h.1, iha h.2.1, ihb h.2.2⟩

theorem constE_put (d' : Dict) : ∀ e : E, ConstE d₀ K e → ConstE d₀ K (put fr d' e) := by
  intro e
  induction e with
  | num v => intro h; simp [put, over, cval, ConstE]
  | var x =>
    intro h
    cases hc : cval fr d' (.var x) with
    | some v => rw [put_some hc]; trivial
    | none => rw [put_none hc]; exact h
  | par x =>
    intro h
    cases hc : cval fr d' (.par x) with
    | some v => rw [put_some hc]; trivial
    | none => rw [put_none hc]; exact h
  | elem a i ih => intro h; exact h.elim
  | un o a ih =>
    intro h
    cases hc : cval fr d' (.un o a) with
    | some v => rw [put_some hc]; trivial
    | none => rw [put_none hc]; simp only [node, hc, Option.isSome_none, Bool.false_eq_true, if_false]; exact ih h
  | bin o a b iha ihb =>
    intro h
    cases hc : cval fr d' (.bin o a b) with
    | some v => rw [put_some hc]; trivial
    | none =>
      rw [put_none hc]; simp only [node, hc, Option.isSome_none, Bool.false_eq_true, if_false]
      exact ⟨iha h.1, ihb h.2⟩
  | cond c a b ihc iha ihb =>
    intro h
    cases hc : cval fr d' (.cond c a b) with
    | some v => rw [put_some hc]; trivial
    | none =>
      rw [put_none hc]; simp only [node, hc, Option.isSome_none, Bool.false_eq_true, if_false]
      exact ⟨ihc h.1, iha h.2.1, ihb h.2.2⟩

theorem OkE.outer {i : String} (hi : d₀ i = none) : ∀ e : E, OkE d₀ L M (i :: K) e → OkE d₀ L [] K e := by
  intro e
  induction e with
  | num v => intro _; trivial
  | var x =>
    intro h
    refine ⟨by simp, ?_⟩
    rcases h.2 with h | h
    · rcases List.mem_cons.1 h with rfl | h
      · exact .inr hi
      · exact .inl h
    · exact .inr h
  | par x => exact id
  | elem a i ih => exact ih
  | un o a ih => exact ih
  | bin o a b iha ihb => exact fun h => ⟨iha h.1, ihb h.2⟩
  | cond c a b ihc iha ihb => exact fun h => ⟨ihc h.1, iha h.2.1, ihb h.2.2⟩

end

/-! ## Variables that a statement does not touch -/

/-- No blocking assignment of `s` has the target `x`. -/
def Keeps (x : String) : S → Prop
  | .skip => True
  | .seq a b => Keeps x a ∧ Keeps x b
  | .asg _ l _ => l ≠ .var x
  | .ite _ a b => Keeps x a ∧ Keeps x b
  | .whl _ b => Keeps x b
  | .loop i _ _ j _ b => i ≠ x ∧ j ≠ x ∧ Keeps x b

theorem keep {π : String → ℤ} {x : String} {s : S} {t t' : St} (h : Exec π s t t') :
    Keeps x s → t'.σ (x, none) = t.σ (x, none) := by
  induction h with
  | skip t => intro _; rfl
  | seq _ _ iha ihb => intro k; rw [ihb k.2, iha k.1]
  | @blk l e t m hl =>
    intro k
    have : (x, none) ≠ m := by
      rintro rfl
      cases l <;> simp [lhs] at hl
      exact k (by rw [hl])
    simp [St.set, this]
  | nblk hl => intro k; rfl
  | yes _ _ ih => intro k; exact ih k.1
  | no _ _ ih => intro k; exact ih k.2
  | more _ _ _ iha ihb => intro k; rw [ihb k, iha k]
  | done _ => intro _; rfl
  | @loop i j init c step b t t' _ ih =>
    intro k
    have hs : Keeps x (.whl c (.seq b (.asg true (.var j) step))) := ⟨k.2.2, fun h => k.2.1 (E.var.inj h)⟩
    rw [ih hs]
    have : (x, (none : Option ℤ)) ≠ (i, none) := by simpa using Ne.symm k.1
    simp [St.set, this]

theorem Scoped.keeps {d : Dict} {L : List String} {x : String} (hL : x ∈ L) :
    ∀ (s : S) {K : List String}, x ∈ K → Scoped d L K s → Keeps x s
  | .skip, _, _, _ => trivial
  | .seq a b, _, hx, h => ⟨Scoped.keeps hL a hx h.1, Scoped.keeps hL b hx h.2⟩
  | .asg _ l _, _, hx, h => by
      rintro rfl
      exact h.1.1 hL
  | .ite _ a b, _, hx, h => ⟨Scoped.keeps hL a hx h.2.1, Scoped.keeps hL b hx h.2.2⟩
  | .whl _ b, _, hx, h => Scoped.keeps hL b hx h.2
  | .loop i _ _ j _ b, _, hx, h => by
      obtain ⟨_, hk, rfl, _, _, _, hb⟩ := h
      have hne : j ≠ x := by rintro rfl; exact hk hx
      exact ⟨hne, hne, Scoped.keeps hL b (List.mem_cons_of_mem _ hx) hb⟩

theorem Scoped.has {π : String → ℤ} {d : Dict} {L K : List String} {κ : String → ℤ} {s : S} {t t' : St}
    (hKL : ∀ x ∈ K, x ∈ L) (hs : Scoped d L K s) (h : Exec π s t t') (hH : Has K κ t.σ) : Has K κ t'.σ := by
  intro x hx
  rw [keep h (Scoped.keeps (hKL x hx) s hx hs)]
  exact hH x hx

/-- `e` reads no variable of `M`. -/
def Blind (M : List String) : E → Prop
  | .num _ => True
  | .var x => x ∉ M
  | .par _ => True
  | .elem _ i => Blind M i
  | .un _ a => Blind M a
  | .bin _ a b => Blind M a ∧ Blind M b
  | .cond c a b => Blind M c ∧ Blind M a ∧ Blind M b

theorem Blind.ev {π : String → ℤ} {M : List String} {σ σ₁ : Loc → ℤ}
    (hR : ∀ m : Loc, (∀ x ∈ M, m ≠ (x, none)) → σ m = σ₁ m) : ∀ e : E, Blind M e → ev π σ e = RSt.ev π σ₁ e := by
  intro e
  induction e with
  | num v => intro _; rfl
  | var x =>
    intro h
    refine hR _ ?_
    rintro y hy hxy
    simp at hxy
    exact h (hxy ▸ hy)
  | par x => intro _; rfl
  | elem a i ih =>
    intro h
    simp only [RSt.ev]
    rw [ih h]
    exact hR _ (by rintro y hy hxy; simp at hxy)
  | un o a ih => intro h; simp only [RSt.ev]; rw [ih h]
  | bin o a b iha ihb => intro h; simp only [RSt.ev]; rw [iha h.1, ihb h.2]
  | cond c a b ihc iha ihb => intro h; simp only [RSt.ev]; rw [ihc h.1, iha h.2.1, ihb h.2.2]

/-- `s` reads no variable of `M` before it has assigned it. -/
def BlindS : List String → S → Prop
  | _, .skip => True
  | M, .seq a b => BlindS M a ∧ BlindS M b
  | M, .asg _ l e => Blind M e ∧ (∀ a i, l = .elem a i → Blind M i)
  | M, .ite c a b => Blind M c ∧ BlindS M a ∧ BlindS M b
  | M, .whl c b => Blind M c ∧ BlindS M b
  | M, .loop i init c _ step b => Blind M init ∧ Blind (M.filter (· ≠ i)) c ∧ Blind (M.filter (· ≠ i)) step ∧
      BlindS (M.filter (· ≠ i)) b

theorem Blind.lhs {π : String → ℤ} {M : List String} {σ σ₁ : Loc → ℤ}
    (hR : ∀ m : Loc, (∀ x ∈ M, m ≠ (x, none)) → σ m = σ₁ m) (l : E) (h : ∀ a i, l = .elem a i → Blind M i) :
    RSt.lhs π σ l = RSt.lhs π σ₁ l := by
  cases l with
  | elem a i => simp only [RSt.lhs]; rw [Blind.ev hR i (h a i rfl)]
  | _ => rfl

theorem Rel.set {M : List String} {t u : St} (h : Rel M t u) (m : Loc) (v : ℤ) : Rel M (t.set m v) (u.set m v) := by
  refine ⟨h.1, fun l hl => ?_⟩
  simp only [St.set]
  split
  · rfl
  · exact h.2 l hl

theorem Rel.later {M : List String} {t u : St} (h : Rel M t u) (m : Loc) (v : ℤ) :
    Rel M (t.later m v) (u.later m v) := ⟨by simp [St.later, h.1], h.2⟩

theorem Rel.mono {M M' : List String} {t u : St} (h : Rel M t u) (hM : ∀ x ∈ M, x ∈ M') : Rel M' t u :=
  ⟨h.1, fun m hm => h.2 m fun x hx => hm x (hM x hx)⟩

theorem Rel.setLoop {M : List String} {t u : St} (h : Rel M t u) (i : String) (v : ℤ) :
    Rel (M.filter (· ≠ i)) (t.set (i, none) v) (u.set (i, none) v) := by
  refine ⟨h.1, fun l hl => ?_⟩
  simp only [St.set]
  split
  · rfl
  · rename_i hne
    refine h.2 l fun x hx hlx => ?_
    by_cases hxi : x = i
    · exact hne (by rw [hlx, hxi])
    · exact hl x (by simp [hx, hxi]) hlx

/-- A statement that reads no variable of `M` runs alike in states that differ in `M`. -/
theorem frame {π : String → ℤ} {s : S} {t t' : St} (h : Exec π s t t') : ∀ {M : List String}, BlindS M s →
    ∀ {u : St}, Rel M t u → ∃ u', Exec π s u u' ∧ Rel M t' u' := by
  induction h with
  | skip t => intro M _ u hu; exact ⟨u, .skip u, hu⟩
  | seq _ _ iha ihb =>
    intro M hb u hu
    obtain ⟨u₁, h₁, r₁⟩ := iha hb.1 hu
    obtain ⟨u₂, h₂, r₂⟩ := ihb hb.2 r₁
    exact ⟨u₂, .seq h₁ h₂, r₂⟩
  | @blk l e t m hl =>
    intro M hb u hu
    rw [Blind.lhs hu.2 l hb.2] at hl
    exact ⟨_, .blk hl, by rw [Blind.ev hu.2 e hb.1]; exact hu.set _ _⟩
  | @nblk l e t m hl =>
    intro M hb u hu
    rw [Blind.lhs hu.2 l hb.2] at hl
    exact ⟨_, .nblk hl, by rw [Blind.ev hu.2 e hb.1]; exact hu.later _ _⟩
  | @yes c a b t t' hc _ ih =>
    intro M hb u hu
    obtain ⟨u', h', r'⟩ := ih hb.2.1 hu
    exact ⟨u', .yes (by rwa [← Blind.ev hu.2 c hb.1]) h', r'⟩
  | @no c a b t t' hc _ ih =>
    intro M hb u hu
    obtain ⟨u', h', r'⟩ := ih hb.2.2 hu
    exact ⟨u', .no (by rwa [← Blind.ev hu.2 c hb.1]) h', r'⟩
  | @more c b t t' t'' hc _ _ iha ihb =>
    intro M hb u hu
    obtain ⟨u₁, h₁, r₁⟩ := iha hb.2 hu
    obtain ⟨u₂, h₂, r₂⟩ := ihb hb r₁
    exact ⟨u₂, .more (by rwa [← Blind.ev hu.2 c hb.1]) h₁ h₂, r₂⟩
  | @done c b t hc => intro M hb u hu; exact ⟨u, .done (by rwa [← Blind.ev hu.2 c hb.1]), hu⟩
  | @loop i j init c step b t t' _ ih =>
    intro M hb u hu
    obtain ⟨h₁, h₂, h₃, h₄⟩ := hb
    have hs : BlindS (M.filter (· ≠ i)) (.whl c (.seq b (.asg true (.var j) step))) :=
      ⟨h₂, h₄, h₃, fun _ _ h => by simp at h⟩
    obtain ⟨u', h', r'⟩ := ih hs (hu.setLoop i (ev π t.σ init))
    rw [Blind.ev hu.2 init h₁] at h'
    exact ⟨u', .loop h', r'.mono fun x hx => (List.mem_filter.1 hx).1⟩

theorem OkE.blind {d : Dict} {L K M : List String} (hM : ∀ x ∈ M, x ∈ L ∧ x ∉ K) :
    ∀ e : E, OkE d L L K e → Blind M e := by
  intro e
  induction e with
  | num v => intro _; trivial
  | var x => exact fun h hx => (hM x hx).2 (h.1 (hM x hx).1)
  | par x => intro _; trivial
  | elem a i ih => exact ih
  | un o a ih => exact ih
  | bin o a b iha ihb => exact fun h => ⟨iha h.1, ihb h.2⟩
  | cond c a b ihc iha ihb => exact fun h => ⟨ihc h.1, iha h.2.1, ihb h.2.2⟩

theorem Scoped.blind {d : Dict} {L : List String} : ∀ (s : S) {K M : List String}, (∀ x ∈ M, x ∈ L ∧ x ∉ K) →
    Scoped d L K s → BlindS M s
  | .skip, _, _, _, _ => trivial
  | .seq a b, _, _, hM, h => ⟨Scoped.blind a hM h.1, Scoped.blind b hM h.2⟩
  | .asg _ l e, _, _, hM, h => by
      refine ⟨OkE.blind hM e h.2, ?_⟩
      rintro a i rfl
      exact OkE.blind hM i h.1
  | .ite c a b, _, _, hM, h => ⟨OkE.blind hM c h.1, Scoped.blind a hM h.2.1, Scoped.blind b hM h.2.2⟩
  | .whl c b, _, _, hM, h => ⟨OkE.blind hM c h.1, Scoped.blind b hM h.2⟩
  | .loop i init c j step b, K, M, hM, h => by
      obtain ⟨hi, hk, rfl, h₁, h₂, h₃, hb⟩ := h
      have hM' : ∀ x ∈ M.filter (· ≠ j), x ∈ L ∧ x ∉ j :: K := by
        intro x hx
        obtain ⟨hx, hne⟩ := List.mem_filter.1 hx
        simp only [ne_eq, decide_not, Bool.not_eq_true', decide_eq_false_iff_not] at hne
        exact ⟨(hM x hx).1, fun h => (List.mem_cons.1 h).elim hne (hM x hx).2⟩
      exact ⟨OkE.blind hM init h₁.1, OkE.blind hM' c h₂.1, OkE.blind hM' step h₃.1, Scoped.blind b hM' hb⟩

/-! ## Simulation -/

section
variable {π : String → ℤ} {d₀ : Dict} {L : List String}

theorem whl_sim {c c' : E} {b b' : S} {P : St → Prop} (hc : ∀ t u, P t → Rel L t u → ev π u.σ c' = ev π t.σ c)
    (hP : ∀ t t', Exec π b t t' → P t → P t')
    (hb : ∀ t t' u, Exec π b t t' → P t → Rel L t u → ∃ u', Exec π b' u u' ∧ Rel L t' u') {t t' : St}
    (h : Exec π (.whl c b) t t') : P t → ∀ {u : St}, Rel L t u → ∃ u', Exec π (.whl c' b') u u' ∧ Rel L t' u' := by
  obtain ⟨s, hs⟩ : ∃ s, S.whl c b = s := ⟨_, rfl⟩
  rw [hs] at h
  induction h with
  | more hv h₁ h₂ _ ih =>
    cases hs
    intro hp u hu
    obtain ⟨u₁, e₁, r₁⟩ := hb _ _ u h₁ hp hu
    obtain ⟨u₂, e₂, r₂⟩ := ih rfl (hP _ _ h₁ hp) r₁
    exact ⟨u₂, .more (by rwa [hc _ u hp hu]) e₁ e₂, r₂⟩
  | done hv =>
    cases hs
    intro hp u hu
    exact ⟨u, .done (by rwa [hc _ u hp hu]), hu⟩
  | _ => cases hs

theorem Inv.num {K : List String} {κ : String → ℤ} {d : Dict} (hd₀ : ∀ x e, d₀ x = some e → e = .num (π x))
    (hI : Inv d₀ K κ d) : ∀ x e, d x = some e → ∃ v, e = .num v := by
  intro x e h
  by_cases hk : x ∈ K
  · rw [hI.1 x hk] at h
    exact ⟨_, (Option.some.inj h).symm⟩
  · rw [hI.2 x hk] at h
    exact ⟨_, hd₀ x e h⟩

theorem Inv.push {K : List String} {κ : String → ℤ} {d : Dict} (hI : Inv d₀ K κ d) (i : String) (hi : i ∉ K) (v : ℤ) :
    Inv d₀ (i :: K) (fun x => if x = i then v else κ x) (d.set i (.num v)) := by
  constructor
  · intro x hx
    by_cases hxi : x = i
    · simp [Dict.set, hxi]
    · rcases List.mem_cons.1 hx with h | h
      · exact absurd h hxi
      · simp [Dict.set, hxi, hI.1 x h]
  · intro x hx
    have hxi : x ≠ i := fun h => hx (h ▸ List.mem_cons_self)
    simp only [Dict.set, if_neg hxi]
    exact hI.2 x fun h => hx (List.mem_cons_of_mem _ h)

theorem Inv.update {K : List String} {κ : String → ℤ} {d : Dict} (i : String) (hI : Inv d₀ (i :: K) κ d) (v : ℤ) :
    Inv d₀ (i :: K) (fun x => if x = i then v else κ x) (d.set i (.num v)) := by
  constructor
  · intro x hx
    by_cases hxi : x = i
    · simp [Dict.set, hxi]
    · simp [Dict.set, hxi, hI.1 x hx]
  · intro x hx
    have hxi : x ≠ i := fun h => hx (h ▸ List.mem_cons_self)
    simp only [Dict.set, if_neg hxi]
    exact hI.2 x hx

theorem Has.set {K : List String} {κ : String → ℤ} {t : St} {i : String} (h : ∀ x ∈ K, x ≠ i → t.σ (x, none) = κ x)
    (v : ℤ) : Has (i :: K) (fun x => if x = i then v else κ x) (t.set (i, none) v).σ := by
  intro x hx
  by_cases hxi : x = i
  · simp [St.set, hxi]
  · rcases List.mem_cons.1 hx with h' | h'
    · exact absurd h' hxi
    · simp [St.set, hxi, h x h' hxi]

/-- The statements of the iterations do what the loop does, except for the loop variable. -/
theorem unroll_sim (hd₀ : ∀ x e, d₀ x = some e → e = .num (π x)) {K : List String} {i : String} (hi : i ∈ L) (hiK : i ∉ K)
    (hKL : ∀ x ∈ K, x ∈ L) {f : Dict → Option S} {c c' k step step' : E} {b : S} {κ₀ : String → ℤ}
    (hc : OkE d₀ L L (i :: K) c') (hcc : ConstE d₀ (i :: K) c')
    (hs : OkE d₀ L L (i :: K) step') (hsc : ConstE d₀ (i :: K) step')
    (hce : ∀ σ, Has K κ₀ σ → ev π σ c' = ev π σ c) (hse : ∀ σ, Has K κ₀ σ → ev π σ step' = ev π σ step)
    (hb : Scoped d₀ L (i :: K) b)
    (hf : ∀ {κ d rb}, Inv d₀ (i :: K) κ d → f d = some rb → ∀ {t t' u}, Exec π b t t' → Has (i :: K) κ t.σ → Rel L t u →
      ∃ u', Exec π rb u u' ∧ Rel L t' u') :
    ∀ (n : Nat) {κ : String → ℤ} {d : Dict} {r : S ⊕ (E × E)}, (∀ x ∈ K, κ x = κ₀ x) → Inv d₀ (i :: K) κ d →
      unroll f i i c' k n d step' = some r → ∃ s, r = .inl s ∧
      ∀ {t t' u : St}, Exec π (.whl c (.seq b (.asg true (.var i) step))) t t' → Has (i :: K) κ t.σ → Rel L t u →
        ∃ u', Exec π s u u' ∧ Rel L t' u' := by
  have hKL' : ∀ x ∈ i :: K, x ∈ L := fun x hx => (List.mem_cons.1 hx).elim (fun h => h ▸ hi) (hKL x)
  have hHK : ∀ {κ : String → ℤ} {σ}, (∀ x ∈ K, κ x = κ₀ x) → Has (i :: K) κ σ → Has K κ₀ σ := fun hκ h x hx => by
    rw [h x (List.mem_cons_of_mem _ hx), hκ x hx]
  intro n
  induction n with
  | zero => intro κ d r _ _ h; simp [unroll] at h
  | succ n ih =>
    intro κ d r hκ hI h
    obtain ⟨v, hv⟩ := const_cval (fr := true) hd₀ hI (fun _ _ => rfl) c' hcc
    simp only [unroll, hv] at h
    have hcv : ∀ {t : St}, Has (i :: K) κ t.σ → ev π t.σ c = v := fun {t} hH => by
      rw [← hce _ (hHK hκ hH), cval_ok hd₀ hKL' hI hH c' hc hv]
    by_cases h0 : v = 0
    · rw [if_pos h0] at h
      refine ⟨.skip, (Option.some.inj h).symm, ?_⟩
      intro t t' u he hH hR
      cases he with
      | more hne _ _ => exact absurd (h0 ▸ hcv hH) hne
      | done _ => exact ⟨u, .skip u, hR⟩
    · rw [if_neg h0] at h
      cases hfd : f d with
      | none => simp [hfd] at h
      | some rb =>
        simp only [hfd, if_true] at h
        obtain ⟨w, hw⟩ := const_cval (fr := true) hd₀ hI (fun _ _ => rfl) step' hsc
        rw [ret_put (hI.num hd₀), put_some hw, node_const step' hw] at h
        cases hu : unroll f i i c' k n (d.set i (.num w)) step' with
        | none => simp [hu] at h
        | some r' =>
          have hκ' : ∀ x ∈ K, (fun x => if x = i then w else κ x) x = κ₀ x := fun x hx => by
            have : x ≠ i := fun h => hiK (h ▸ hx)
            simp [this, hκ x hx]
          obtain ⟨s, rfl, hs'⟩ := ih hκ' (hI.update i w) hu
          simp only [hu] at h
          refine ⟨.seq rb s, (Option.some.inj h).symm, ?_⟩
          intro t t' u he hH hR
          cases he with
          | done hz => exact absurd (hcv hH ▸ hz) h0
          | @more _ _ _ t₁ _ _ h₁ h₂ =>
            cases h₁ with
            | @seq _ _ _ t₂ _ hbody hstep =>
              obtain ⟨u₂, e₂, r₂⟩ := hf hI hfd hbody hH hR
              have hH₂ : Has (i :: K) κ t₂.σ := hb.has hKL' hbody hH
              cases hstep with
              | @blk _ _ _ m hm =>
                simp only [lhs, Option.some.injEq] at hm
                subst hm
                have hst : ev π t₂.σ step = w := by
                  rw [← hse _ (hHK hκ hH₂), cval_ok hd₀ hKL' hI hH₂ step' hs hw]
                rw [hst] at h₂
                have hH₃ := Has.set (t := t₂) (i := i) (fun x hx _ => hH₂ x (List.mem_cons_of_mem _ hx)) w
                have hR₃ : Rel L (t₂.set (i, none) w) u₂ := by
                  refine ⟨r₂.1, fun m hm => ?_⟩
                  simp only [St.set, if_neg (hm i hi)]
                  exact r₂.2 m hm
                obtain ⟨u₃, e₃, r₃⟩ := hs' h₂ hH₃ hR₃
                exact ⟨u₃, .seq e₂ e₃, r₃⟩

variable (n : Nat)

/-- The start of a loop is a number. -/
theorem loop_parts (hd₀ : ∀ x e, d₀ x = some e → e = .num (π x)) (hLd : ∀ x ∈ L, d₀ x = none) {K : List String}
    {κ : String → ℤ} {d : Dict} {fr : Bool} (hKL : ∀ x ∈ K, x ∈ L) (hfr : ∀ x ∈ K, fr = true) (hI : Inv d₀ K κ d)
    {i : String} {init c step : E} {b : S} (hs : Scoped d₀ L K (.loop i init c i step b))
    {r p : S} (h : visitS n (.loop i init c i step b) fr d = some (r, p)) :
    ∃ v, cval fr d init = some v ∧ ∃ q,
      unroll (fun d => (visitS n b true d).map Prod.fst) i i (put fr d c) (put fr d c) n (d.set i (.num v)) (put fr d step)
        = some q ∧
      (∀ s, q = .inl s → r = s ∧ p = .loop i (.num v) (put fr d c) i (put fr d step) b) := by
  obtain ⟨hi, hiK, _, hin, hco, hst, hb⟩ := hs
  obtain ⟨v, hv⟩ := const_cval hd₀ hI hfr init hin.2
  have hdi : d i = none := by rw [hI.2 i hiK, hLd i hi]
  have hri : ret fr d (.var i) = .var i := by
    simp only [ret, hdi]
    cases fr <;> rfl
  rw [visitS] at h
  simp only [hri, put_some hv, ret_put (hI.num hd₀) c] at h
  refine ⟨v, hv, ?_⟩
  cases hu : unroll (fun d => (visitS n b true d).map Prod.fst) i i (put fr d c) (put fr d c) n (d.set i (.num v))
    (put fr d step) with
  | none => simp [hu] at h
  | some q =>
    refine ⟨q, rfl, ?_⟩
    rintro s rfl
    simp only [hu, Option.some.injEq, Prod.mk.injEq] at h
    exact ⟨h.1.symm, h.2.symm⟩

/-- **Simulation.**  The returned statement does what the statement does, except for the loop variables. -/
theorem ret_sim (hd₀ : ∀ x e, d₀ x = some e → e = .num (π x)) (hLd : ∀ x ∈ L, d₀ x = none) :
    ∀ (s : S) {K : List String} {κ : String → ℤ} {d : Dict} {fr : Bool} {r p : S}, Scoped d₀ L K s → (∀ x ∈ K, x ∈ L) →
      (∀ x ∈ K, fr = true) → Inv d₀ K κ d → visitS n s fr d = some (r, p) → ∀ {t t' u : St}, Exec π s t t' →
      Has K κ t.σ → Rel L t u → ∃ u', Exec π r u u' ∧ Rel L t' u' := by
  intro s
  induction s with
  | skip =>
    intro K κ d fr r p _ _ _ _ h t t' u he _ hR
    simp only [visitS, Option.some.injEq, Prod.mk.injEq] at h
    cases he
    rw [← h.1]
    exact ⟨u, .skip u, hR⟩
  | seq a b iha ihb =>
    intro K κ d fr r p hs hKL hfr hI h t t' u he hH hR
    simp only [visitS] at h
    cases ha : visitS n a fr d with
    | none => simp [ha] at h
    | some ra =>
      cases hb : visitS n b fr d with
      | none => simp [ha, hb] at h
      | some rb =>
        simp only [ha, hb, Option.some.injEq, Prod.mk.injEq] at h
        rw [← h.1]
        cases he with
        | seq h₁ h₂ =>
          obtain ⟨u₁, e₁, r₁⟩ := iha hs.1 hKL hfr hI ha h₁ hH hR
          obtain ⟨u₂, e₂, r₂⟩ := ihb hs.2 hKL hfr hI hb h₂ (Scoped.has hKL hs.1 h₁ hH) r₁
          exact ⟨u₂, .seq e₁ e₂, r₂⟩
  | asg blk l e =>
    intro K κ d fr r p hs hKL hfr hI h t t' u he hH hR
    simp only [visitS, Option.some.injEq, Prod.mk.injEq] at h
    rw [← h.1]
    have hv := put_ok hd₀ hKL hI hH hfr hR.2 e hs.2
    have hl : lhs π u.σ (ret fr d l) = lhs π t.σ l := by
      cases l with
      | var x =>
        have hk : x ∉ K := fun hk => hs.1.1 (hKL x hk)
        have hdx : d x = none := by rw [hI.2 x hk]; exact hs.1.2
        simp only [ret, hdx]
        cases fr <;> rfl
      | elem a i =>
        change lhs π u.σ (.elem a (put fr d i)) = _
        simp only [lhs]
        rw [put_ok hd₀ hKL hI hH hfr hR.2 i hs.1]
      | _ => exact hs.1.elim
    cases he with
    | blk hm =>
      rw [← hl] at hm
      exact ⟨_, .blk hm, by rw [hv]; exact hR.set _ _⟩
    | nblk hm =>
      rw [← hl] at hm
      exact ⟨_, .nblk hm, by rw [hv]; exact hR.later _ _⟩
  | ite c a b iha ihb =>
    intro K κ d fr r p hs hKL hfr hI h t t' u he hH hR
    simp only [visitS] at h
    cases ha : visitS n a fr d with
    | none => simp [ha] at h
    | some ra =>
      cases hb : visitS n b fr d with
      | none => simp [ha, hb] at h
      | some rb =>
        simp only [ha, hb, Option.some.injEq, Prod.mk.injEq] at h
        rw [← h.1]
        have hv := put_ok hd₀ hKL hI hH hfr hR.2 c hs.1
        cases he with
        | yes hc h₁ =>
          obtain ⟨u₁, e₁, r₁⟩ := iha hs.2.1 hKL hfr hI ha h₁ hH hR
          exact ⟨u₁, .yes (by rwa [hv]) e₁, r₁⟩
        | no hc h₁ =>
          obtain ⟨u₁, e₁, r₁⟩ := ihb hs.2.2 hKL hfr hI hb h₁ hH hR
          exact ⟨u₁, .no (by rwa [hv]) e₁, r₁⟩
  | whl c b ihb =>
    intro K κ d fr r p hs hKL hfr hI h t t' u he hH hR
    simp only [visitS] at h
    cases hb : visitS n b fr d with
    | none => simp [hb] at h
    | some rb =>
      simp only [hb, Option.some.injEq, Prod.mk.injEq] at h
      rw [← h.1]
      exact whl_sim (P := fun t => Has K κ t.σ) (fun t u hH hR => put_ok hd₀ hKL hI hH hfr hR.2 c hs.1)
        (fun t t' h hH => Scoped.has hKL hs.2 h hH) (fun t t' u h hH hR => ihb hs.2 hKL hfr hI hb h hH hR) he hH hR
  | loop i init c j step b ihb =>
    intro K κ d fr r p hs hKL hfr hI h t t' u he hH hR
    obtain rfl : j = i := hs.2.2.1
    obtain ⟨v, hv, q, hq, hqr⟩ := loop_parts n hd₀ hLd hKL hfr hI hs h
    obtain ⟨hi, hiK, _, hin, hco, hst, hb⟩ := hs
    have hdi := hLd j hi
    have hKL' : ∀ x ∈ j :: K, x ∈ L := fun x hx => (List.mem_cons.1 hx).elim (fun h => h ▸ hi) (hKL x)
    have same : ∀ e, OkE d₀ L L (j :: K) e → ∀ σ, Has K κ σ → ev π σ (put fr d e) = ev π σ e := fun e he σ hσ =>
      put_ok (M := []) hd₀ hKL hI hσ hfr (fun _ _ => rfl) e (OkE.outer hdi e he)
    have hκ : ∀ x ∈ K, (fun x => if x = j then v else κ x) x = κ x := fun x hx => by
      have : x ≠ j := fun h => hiK (h ▸ hx)
      simp [this]
    obtain ⟨s, rfl, hsim⟩ := unroll_sim (κ₀ := κ) hd₀ hi hiK hKL (okE_put d c hco.1) (constE_put d c hco.2)
      (okE_put d step hst.1) (constE_put d step hst.2) (same c hco.1) (same step hst.1) hb
      (fun {κ d rb} hI' hf {t t' u} he hH hR => by
        cases hvb : visitS n b true d with
        | none => simp [hvb] at hf
        | some q =>
          simp only [hvb, Option.map_some, Option.some.injEq] at hf
          subst hf
          exact ihb (p := q.2) hb hKL' (fun _ _ => rfl) hI' hvb he hH hR) n hκ (hI.push j hiK v) hq
    obtain ⟨rfl, _⟩ := hqr s rfl
    cases he with
    | loop hw =>
      have hev : ev π t.σ init = v := cval_ok hd₀ hKL hI hH init hin.1 hv
      rw [hev] at hw
      refine hsim hw (Has.set (fun x hx _ => hH x hx) v) ⟨hR.1, fun m hm => ?_⟩
      simp only [St.set, if_neg (hm j hi)]
      exact hR.2 m hm

/-- The statement in place does what the statement does, except for the loop variables. -/
theorem place_sim (hd₀ : ∀ x e, d₀ x = some e → e = .num (π x)) (hLd : ∀ x ∈ L, d₀ x = none) :
    ∀ (s : S) {r p : S}, Scoped d₀ L [] s → visitS n s false d₀ = some (r, p) → ∀ {t t' u : St}, Exec π s t t' →
      Rel L t u → ∃ u', Exec π p u u' ∧ Rel L t' u' := by
  have hI : Inv d₀ [] (fun _ => 0) d₀ := ⟨by simp, fun _ _ => rfl⟩
  have hN : ∀ σ, Has [] (fun _ => 0) σ := fun σ x hx => by simp at hx
  intro s
  induction s with
  | seq a b iha ihb =>
    intro r p hs h t t' u he hR
    simp only [visitS] at h
    cases ha : visitS n a false d₀ with
    | none => simp [ha] at h
    | some ra =>
      cases hb : visitS n b false d₀ with
      | none => simp [ha, hb] at h
      | some rb =>
        simp only [ha, hb, Option.some.injEq, Prod.mk.injEq] at h
        rw [← h.2]
        cases he with
        | seq h₁ h₂ =>
          obtain ⟨u₁, e₁, r₁⟩ := iha hs.1 ha h₁ hR
          obtain ⟨u₂, e₂, r₂⟩ := ihb hs.2 hb h₂ r₁
          exact ⟨u₂, .seq e₁ e₂, r₂⟩
  | loop i init c j step b _ =>
    intro r p hs h t t' u he hR
    obtain rfl : j = i := hs.2.2.1
    obtain ⟨v, hv, q, hq, hqr⟩ := loop_parts n hd₀ hLd (by simp) (by simp) hI hs h
    obtain ⟨u', hu', hr'⟩ := frame he (Scoped.blind _ (fun x hx => ⟨hx, by simp⟩) hs) hR
    obtain ⟨hi, hiK, _, hin, hco, hst, hb⟩ := hs
    have hdi := hLd j hi
    have same : ∀ e, OkE d₀ L L [j] e → ∀ σ, ev π σ (put false d₀ e) = ev π σ e := fun e he σ =>
      put_ok (M := []) (K := []) hd₀ (by simp) hI (hN σ) (by simp) (fun _ _ => rfl) e (OkE.outer hdi e he)
    obtain ⟨s, rfl, _⟩ := unroll_sim (κ₀ := fun _ => 0) (K := []) (c := put false d₀ c) (step := put false d₀ step)
      hd₀ hi hiK (by simp) (okE_put d₀ c hco.1) (constE_put d₀ c hco.2)
      (okE_put d₀ step hst.1) (constE_put d₀ step hst.2) (fun _ _ => rfl) (fun _ _ => rfl) hb
      (fun {κ d rb} hI' hf {t t' u} he hH hR => by
        cases hvb : visitS n b true d with
        | none => simp [hvb] at hf
        | some q =>
          simp only [hvb, Option.map_some, Option.some.injEq] at hf
          subst hf
          exact ret_sim n hd₀ hLd b (p := q.2) hb (by simpa using hi) (fun _ _ => rfl) hI' hvb he hH hR)
      n (by simp) (hI.push j hiK v) hq
    obtain ⟨_, rfl⟩ := hqr s rfl
    refine ⟨u', ?_, hr'⟩
    cases hu' with
    | loop hw =>
      refine .loop ?_
      have hev : ev π u.σ init = v := cval_ok hd₀ (K := []) (by simp) hI (hN _) init hin.1 hv
      rw [hev] at hw
      have hst' : ∀ t t', Exec π (.seq b (.asg true (.var j) step)) t t' →
          Exec π (.seq b (.asg true (.var j) (put false d₀ step))) t t' := by
        intro t t' h
        cases h with
        | seq h₁ h₂ =>
          cases h₂ with
          | blk hm => rw [← same step hst.1]; exact .seq h₁ (.blk hm)
      change Exec π _ (u.set (j, none) v) u'
      obtain ⟨u'', h₁, h₂⟩ := whl_sim (L := []) (P := fun _ => True) (c' := put false d₀ c)
        (b' := .seq b (.asg true (.var j) (put false d₀ step)))
        (fun t u _ hR => by
          have : t.σ = u.σ := funext fun m => hR.2 m (by simp)
          rw [same c hco.1, this]) (fun _ _ _ _ => trivial)
        (fun t t' u h _ hR => by
          have : t = u := by
            obtain ⟨a, b⟩ := t; obtain ⟨a', b'⟩ := u
            have h1 : b = b' := hR.1
            have h2 : a = a' := funext fun m => hR.2 m (by simp)
            rw [h1, h2]
          subst this
          exact ⟨t', hst' t t' h, rfl, fun _ _ => rfl⟩) hw trivial (u := u.set (j, none) v) ⟨rfl, fun _ _ => rfl⟩
      have : u' = u'' := by
        obtain ⟨a, b⟩ := u'; obtain ⟨a', b'⟩ := u''
        have h1 : b = b' := h₂.1
        have h2 : a = a' := funext fun m => h₂.2 m (by simp)
        rw [h1, h2]
      rw [this]
      exact h₁
  | skip =>
    intro r p hs h t t' u he hR
    obtain ⟨u', h'⟩ := ret_sim n hd₀ hLd _ hs (by simp) (by simp) hI h he (hN _) hR
    simp only [visitS, Option.some.injEq, Prod.mk.injEq] at h
    rw [← h.2, h.1]; exact ⟨u', h'⟩
  | asg blk l e =>
    intro r p hs h t t' u he hR
    obtain ⟨u', h'⟩ := ret_sim n hd₀ hLd _ hs (by simp) (by simp) hI h he (hN _) hR
    simp only [visitS, Option.some.injEq, Prod.mk.injEq] at h
    rw [← h.2, h.1]; exact ⟨u', h'⟩
  | ite c a b _ _ =>
    intro r p hs h t t' u he hR
    obtain ⟨u', h'⟩ := ret_sim n hd₀ hLd _ hs (by simp) (by simp) hI h he (hN _) hR
    have : r = p := by
      simp only [visitS] at h
      split at h
      · simp only [Option.some.injEq, Prod.mk.injEq] at h
        rw [← h.1, ← h.2]
      · simp at h
    rw [← this]; exact ⟨u', h'⟩
  | whl c b _ =>
    intro r p hs h t t' u he hR
    obtain ⟨u', h'⟩ := ret_sim n hd₀ hLd _ hs (by simp) (by simp) hI h he (hN _) hR
    have : r = p := by
      simp only [visitS] at h
      split at h
      · simp only [Option.some.injEq, Prod.mk.injEq] at h
        rw [← h.1, ← h.2]
      · simp at h
    rw [← this]; exact ⟨u', h'⟩

/-! ## The other direction -/

theorem Rel.symm {M : List String} {t u : St} (h : Rel M t u) : Rel M u t := ⟨h.1.symm, fun m hm => (h.2 m hm).symm⟩

theorem whl_conv {c c' : E} {b b' : S} {P : St → Prop} (hc : ∀ t u, P t → Rel L t u → ev π u.σ c' = ev π t.σ c)
    (hP : ∀ t t', Exec π b t t' → P t → P t')
    (hb : ∀ t u u', Exec π b' u u' → P t → Rel L t u → ∃ t', Exec π b t t' ∧ Rel L t' u') {u u' : St}
    (h : Exec π (.whl c' b') u u') : ∀ {t : St}, P t → Rel L t u → ∃ t', Exec π (.whl c b) t t' ∧ Rel L t' u' := by
  obtain ⟨s, hs⟩ : ∃ s, S.whl c' b' = s := ⟨_, rfl⟩
  rw [hs] at h
  induction h with
  | more hv h₁ h₂ _ ih =>
    cases hs
    intro t hp hu
    obtain ⟨t₁, e₁, r₁⟩ := hb t _ _ h₁ hp hu
    obtain ⟨t₂, e₂, r₂⟩ := ih rfl (hP _ _ e₁ hp) r₁
    exact ⟨t₂, .more (by rwa [← hc t _ hp hu]) e₁ e₂, r₂⟩
  | done hv =>
    cases hs
    intro t hp hu
    exact ⟨t, .done (by rwa [← hc t _ hp hu]), hu⟩
  | _ => cases hs

theorem unroll_conv (hd₀ : ∀ x e, d₀ x = some e → e = .num (π x)) {K : List String} {i : String} (hi : i ∈ L) (hiK : i ∉ K)
    (hKL : ∀ x ∈ K, x ∈ L) {f : Dict → Option S} {c c' k step step' : E} {b : S} {κ₀ : String → ℤ}
    (hc : OkE d₀ L L (i :: K) c') (hcc : ConstE d₀ (i :: K) c')
    (hs : OkE d₀ L L (i :: K) step') (hsc : ConstE d₀ (i :: K) step')
    (hce : ∀ σ, Has K κ₀ σ → ev π σ c' = ev π σ c) (hse : ∀ σ, Has K κ₀ σ → ev π σ step' = ev π σ step)
    (hb : Scoped d₀ L (i :: K) b)
    (hf : ∀ {κ d rb}, Inv d₀ (i :: K) κ d → f d = some rb → ∀ {t u u'}, Exec π rb u u' → Has (i :: K) κ t.σ → Rel L t u →
      ∃ t', Exec π b t t' ∧ Rel L t' u') :
    ∀ (n : Nat) {κ : String → ℤ} {d : Dict} {r : S ⊕ (E × E)}, (∀ x ∈ K, κ x = κ₀ x) → Inv d₀ (i :: K) κ d →
      unroll f i i c' k n d step' = some r → ∃ s, r = .inl s ∧
      ∀ {t u u' : St}, Exec π s u u' → Has (i :: K) κ t.σ → Rel L t u →
        ∃ t', Exec π (.whl c (.seq b (.asg true (.var i) step))) t t' ∧ Rel L t' u' := by
  have hKL' : ∀ x ∈ i :: K, x ∈ L := fun x hx => (List.mem_cons.1 hx).elim (fun h => h ▸ hi) (hKL x)
  have hHK : ∀ {κ : String → ℤ} {σ}, (∀ x ∈ K, κ x = κ₀ x) → Has (i :: K) κ σ → Has K κ₀ σ := fun hκ h x hx => by
    rw [h x (List.mem_cons_of_mem _ hx), hκ x hx]
  intro n
  induction n with
  | zero => intro κ d r _ _ h; simp [unroll] at h
  | succ n ih =>
    intro κ d r hκ hI h
    obtain ⟨v, hv⟩ := const_cval (fr := true) hd₀ hI (fun _ _ => rfl) c' hcc
    simp only [unroll, hv] at h
    have hcv : ∀ {t : St}, Has (i :: K) κ t.σ → ev π t.σ c = v := fun {t} hH => by
      rw [← hce _ (hHK hκ hH), cval_ok hd₀ hKL' hI hH c' hc hv]
    by_cases h0 : v = 0
    · rw [if_pos h0] at h
      refine ⟨.skip, (Option.some.inj h).symm, ?_⟩
      intro t u u' he hH hR
      cases he
      exact ⟨t, .done (by rw [hcv hH, h0]), hR⟩
    · rw [if_neg h0] at h
      cases hfd : f d with
      | none => simp [hfd] at h
      | some rb =>
        simp only [hfd, if_true] at h
        obtain ⟨w, hw⟩ := const_cval (fr := true) hd₀ hI (fun _ _ => rfl) step' hsc
        rw [ret_put (hI.num hd₀), put_some hw, node_const step' hw] at h
        cases hu : unroll f i i c' k n (d.set i (.num w)) step' with
        | none => simp [hu] at h
        | some r' =>
          have hκ' : ∀ x ∈ K, (fun x => if x = i then w else κ x) x = κ₀ x := fun x hx => by
            have : x ≠ i := fun h => hiK (h ▸ hx)
            simp [this, hκ x hx]
          obtain ⟨s, rfl, hs'⟩ := ih hκ' (hI.update i w) hu
          simp only [hu] at h
          refine ⟨.seq rb s, (Option.some.inj h).symm, ?_⟩
          intro t u u' he hH hR
          cases he with
          | @seq _ _ _ u₂ _ h₁ h₂ =>
            obtain ⟨t₂, e₂, r₂⟩ := hf hI hfd h₁ hH hR
            have hH₂ : Has (i :: K) κ t₂.σ := hb.has hKL' e₂ hH
            have hst : ev π t₂.σ step = w := by
              rw [← hse _ (hHK hκ hH₂), cval_ok hd₀ hKL' hI hH₂ step' hs hw]
            have hH₃ := Has.set (t := t₂) (i := i) (fun x hx _ => hH₂ x (List.mem_cons_of_mem _ hx)) w
            have hR₃ : Rel L (t₂.set (i, none) w) u₂ := by
              refine ⟨r₂.1, fun m hm => ?_⟩
              simp only [St.set, if_neg (hm i hi)]
              exact r₂.2 m hm
            obtain ⟨t₃, e₃, r₃⟩ := hs' h₂ hH₃ hR₃
            have hstep : Exec π (.asg true (.var i) step) t₂ (t₂.set (i, none) w) := by
              rw [← hst]
              exact .blk rfl
            exact ⟨t₃, .more (by rw [hcv hH]; exact h0) (.seq e₂ hstep) e₃, r₃⟩

/-- If the returned statement runs to its end, so does the statement. -/
theorem ret_conv (hd₀ : ∀ x e, d₀ x = some e → e = .num (π x)) (hLd : ∀ x ∈ L, d₀ x = none) :
    ∀ (s : S) {K : List String} {κ : String → ℤ} {d : Dict} {fr : Bool} {r p : S}, Scoped d₀ L K s → (∀ x ∈ K, x ∈ L) →
      (∀ x ∈ K, fr = true) → Inv d₀ K κ d → visitS n s fr d = some (r, p) → ∀ {t u u' : St}, Exec π r u u' →
      Has K κ t.σ → Rel L t u → ∃ t', Exec π s t t' ∧ Rel L t' u' := by
  intro s
  induction s with
  | skip =>
    intro K κ d fr r p _ _ _ _ h t u u' he _ hR
    simp only [visitS, Option.some.injEq, Prod.mk.injEq] at h
    rw [← h.1] at he
    cases he
    exact ⟨t, .skip t, hR⟩
  | seq a b iha ihb =>
    intro K κ d fr r p hs hKL hfr hI h t u u' he hH hR
    simp only [visitS] at h
    cases ha : visitS n a fr d with
    | none => simp [ha] at h
    | some ra =>
      cases hb : visitS n b fr d with
      | none => simp [ha, hb] at h
      | some rb =>
        simp only [ha, hb, Option.some.injEq, Prod.mk.injEq] at h
        rw [← h.1] at he
        cases he with
        | seq h₁ h₂ =>
          obtain ⟨t₁, e₁, r₁⟩ := iha hs.1 hKL hfr hI ha h₁ hH hR
          obtain ⟨t₂, e₂, r₂⟩ := ihb hs.2 hKL hfr hI hb h₂ (Scoped.has hKL hs.1 e₁ hH) r₁
          exact ⟨t₂, .seq e₁ e₂, r₂⟩
  | asg blk l e =>
    intro K κ d fr r p hs hKL hfr hI h t u u' he hH hR
    simp only [visitS, Option.some.injEq, Prod.mk.injEq] at h
    rw [← h.1] at he
    have hv := put_ok hd₀ hKL hI hH hfr hR.2 e hs.2
    have hl : lhs π u.σ (ret fr d l) = lhs π t.σ l := by
      cases l with
      | var x =>
        have hk : x ∉ K := fun hk => hs.1.1 (hKL x hk)
        have hdx : d x = none := by rw [hI.2 x hk]; exact hs.1.2
        simp only [ret, hdx]
        cases fr <;> rfl
      | elem a i =>
        change lhs π u.σ (.elem a (put fr d i)) = _
        simp only [lhs]
        rw [put_ok hd₀ hKL hI hH hfr hR.2 i hs.1]
      | _ => exact hs.1.elim
    cases he with
    | blk hm =>
      rw [hl] at hm
      exact ⟨_, .blk hm, by rw [hv]; exact hR.set _ _⟩
    | nblk hm =>
      rw [hl] at hm
      exact ⟨_, .nblk hm, by rw [hv]; exact hR.later _ _⟩
  | ite c a b iha ihb =>
    intro K κ d fr r p hs hKL hfr hI h t u u' he hH hR
    simp only [visitS] at h
    cases ha : visitS n a fr d with
    | none => simp [ha] at h
    | some ra =>
      cases hb : visitS n b fr d with
      | none => simp [ha, hb] at h
      | some rb =>
        simp only [ha, hb, Option.some.injEq, Prod.mk.injEq] at h
        rw [← h.1] at he
        have hv := put_ok hd₀ hKL hI hH hfr hR.2 c hs.1
        cases he with
        | yes hc h₁ =>
          obtain ⟨t₁, e₁, r₁⟩ := iha hs.2.1 hKL hfr hI ha h₁ hH hR
          exact ⟨t₁, .yes (by rwa [← hv]) e₁, r₁⟩
        | no hc h₁ =>
          obtain ⟨t₁, e₁, r₁⟩ := ihb hs.2.2 hKL hfr hI hb h₁ hH hR
          exact ⟨t₁, .no (by rwa [← hv]) e₁, r₁⟩
  | whl c b ihb =>
    intro K κ d fr r p hs hKL hfr hI h t u u' he hH hR
    simp only [visitS] at h
    cases hb : visitS n b fr d with
    | none => simp [hb] at h
    | some rb =>
      simp only [hb, Option.some.injEq, Prod.mk.injEq] at h
      rw [← h.1] at he
      exact whl_conv (P := fun t => Has K κ t.σ) (fun t u hH hR => put_ok hd₀ hKL hI hH hfr hR.2 c hs.1)
        (fun t t' h hH => Scoped.has hKL hs.2 h hH) (fun t u u' h hH hR => ihb hs.2 hKL hfr hI hb h hH hR) he hH hR
  | loop i init c j step b ihb =>
    intro K κ d fr r p hs hKL hfr hI h t u u' he hH hR
    obtain rfl : j = i := hs.2.2.1
    obtain ⟨v, hv, q, hq, hqr⟩ := loop_parts n hd₀ hLd hKL hfr hI hs h
    obtain ⟨hi, hiK, _, hin, hco, hst, hb⟩ := hs
    have hdi := hLd j hi
    have hKL' : ∀ x ∈ j :: K, x ∈ L := fun x hx => (List.mem_cons.1 hx).elim (fun h => h ▸ hi) (hKL x)
    have same : ∀ e, OkE d₀ L L (j :: K) e → ∀ σ, Has K κ σ → ev π σ (put fr d e) = ev π σ e := fun e he σ hσ =>
      put_ok (M := []) hd₀ hKL hI hσ hfr (fun _ _ => rfl) e (OkE.outer hdi e he)
    have hκ : ∀ x ∈ K, (fun x => if x = j then v else κ x) x = κ x := fun x hx => by
      have : x ≠ j := fun h => hiK (h ▸ hx)
      simp [this]
    obtain ⟨s, rfl, hsim⟩ := unroll_conv (κ₀ := κ) hd₀ hi hiK hKL (okE_put d c hco.1) (constE_put d c hco.2)
      (okE_put d step hst.1) (constE_put d step hst.2) (same c hco.1) (same step hst.1) hb
      (fun {κ d rb} hI' hf {t u u'} he hH hR => by
        cases hvb : visitS n b true d with
        | none => simp [hvb] at hf
        | some q =>
          simp only [hvb, Option.map_some, Option.some.injEq] at hf
          subst hf
          exact ihb (p := q.2) hb hKL' (fun _ _ => rfl) hI' hvb he hH hR) n hκ (hI.push j hiK v) hq
    obtain ⟨rfl, _⟩ := hqr s rfl
    have hev : ev π t.σ init = v := cval_ok hd₀ hKL hI hH init hin.1 hv
    have hR' : Rel L (t.set (j, none) v) u := by
      refine ⟨hR.1, fun m hm => ?_⟩
      simp only [St.set, if_neg (hm j hi)]
      exact hR.2 m hm
    obtain ⟨t', e', r'⟩ := hsim he (Has.set (fun x hx _ => hH x hx) v) hR'
    exact ⟨t', .loop (by rw [hev]; exact e'), r'⟩

theorem Rel.eq {t u : St} (h : Rel [] t u) : t = u := by
  obtain ⟨a, b⟩ := t
  obtain ⟨a', b'⟩ := u
  have h1 : b = b' := h.1
  have h2 : a = a' := funext fun m => h.2 m (by simp)
  rw [h1, h2]

/-- If the statement in place runs to its end, so does the statement. -/
theorem place_conv (hd₀ : ∀ x e, d₀ x = some e → e = .num (π x)) (hLd : ∀ x ∈ L, d₀ x = none) :
    ∀ (s : S) {r p : S}, Scoped d₀ L [] s → visitS n s false d₀ = some (r, p) → ∀ {t u u' : St}, Exec π p u u' →
      Rel L t u → ∃ t', Exec π s t t' ∧ Rel L t' u' := by
  have hI : Inv d₀ [] (fun _ => 0) d₀ := ⟨by simp, fun _ _ => rfl⟩
  have hN : ∀ σ, Has [] (fun _ => 0) σ := fun σ x hx => by simp at hx
  intro s
  induction s with
  | seq a b iha ihb =>
    intro r p hs h t u u' he hR
    simp only [visitS] at h
    cases ha : visitS n a false d₀ with
    | none => simp [ha] at h
    | some ra =>
      cases hb : visitS n b false d₀ with
      | none => simp [ha, hb] at h
      | some rb =>
        simp only [ha, hb, Option.some.injEq, Prod.mk.injEq] at h
        rw [← h.2] at he
        cases he with
        | seq h₁ h₂ =>
          obtain ⟨t₁, e₁, r₁⟩ := iha hs.1 ha h₁ hR
          obtain ⟨t₂, e₂, r₂⟩ := ihb hs.2 hb h₂ r₁
          exact ⟨t₂, .seq e₁ e₂, r₂⟩
  | loop i init c j step b _ =>
    intro r p hs h t u u' he hR
    obtain rfl : j = i := hs.2.2.1
    obtain ⟨v, hv, q, hq, hqr⟩ := loop_parts n hd₀ hLd (by simp) (by simp) hI hs h
    have hbl := Scoped.blind _ (fun x hx => ⟨hx, by simp⟩) hs (M := L)
    obtain ⟨hi, hiK, _, hin, hco, hst, hb⟩ := hs
    have hdi := hLd j hi
    have same : ∀ e, OkE d₀ L L [j] e → ∀ σ, ev π σ (put false d₀ e) = ev π σ e := fun e he σ =>
      put_ok (M := []) (K := []) hd₀ (by simp) hI (hN σ) (by simp) (fun _ _ => rfl) e (OkE.outer hdi e he)
    obtain ⟨s, rfl, _⟩ := unroll_conv (κ₀ := fun _ => 0) (K := []) (c := put false d₀ c) (step := put false d₀ step)
      hd₀ hi hiK (by simp) (okE_put d₀ c hco.1) (constE_put d₀ c hco.2)
      (okE_put d₀ step hst.1) (constE_put d₀ step hst.2) (fun _ _ => rfl) (fun _ _ => rfl) hb
      (fun {κ d rb} hI' hf {t t' u} he hH hR => by
        cases hvb : visitS n b true d with
        | none => simp [hvb] at hf
        | some q =>
          simp only [hvb, Option.map_some, Option.some.injEq] at hf
          subst hf
          exact ret_conv n hd₀ hLd b (p := q.2) hb (by simpa using hi) (fun _ _ => rfl) hI' hvb he hH hR)
      n (by simp) (hI.push j hiK v) hq
    obtain ⟨_, rfl⟩ := hqr s rfl
    have horig : Exec π (.loop j init c j step b) u u' := by
      cases he with
      | loop hw =>
        refine .loop ?_
        have hev : ev π u.σ init = v := cval_ok hd₀ (K := []) (by simp) hI (hN _) init hin.1 hv
        rw [hev]
        obtain ⟨u'', h₁, h₂⟩ := whl_conv (L := []) (P := fun _ => True) (c := c)
          (b := .seq b (.asg true (.var j) step))
          (fun t u _ hR => by rw [same c hco.1, hR.eq]) (fun _ _ _ _ => trivial)
          (fun t u u' h _ hR => by
            obtain rfl := hR.eq
            refine ⟨u', ?_, rfl, fun _ _ => rfl⟩
            cases h with
            | seq h₁ h₂ =>
              cases h₂ with
              | blk hm => rw [same step hst.1]; exact .seq h₁ (.blk hm)) hw (t := u.set (j, none) v) trivial
          ⟨rfl, fun _ _ => rfl⟩
        rw [← h₂.eq]
        exact h₁
    obtain ⟨t', ht', hr'⟩ := frame horig hbl hR.symm
    exact ⟨t', ht', hr'.symm⟩
  | skip =>
    intro r p hs h t u u' he hR
    have h' := h
    simp only [visitS, Option.some.injEq, Prod.mk.injEq] at h'
    exact ret_conv n hd₀ hLd _ hs (by simp) (by simp) hI h (by rw [← h'.1, h'.2]; exact he) (hN _) hR
  | asg blk l e =>
    intro r p hs h t u u' he hR
    have h' := h
    simp only [visitS, Option.some.injEq, Prod.mk.injEq] at h'
    exact ret_conv n hd₀ hLd _ hs (by simp) (by simp) hI h (by rw [← h'.1, h'.2]; exact he) (hN _) hR
  | ite c a b _ _ =>
    intro r p hs h t u u' he hR
    have : r = p := by
      simp only [visitS] at h
      split at h
      · simp only [Option.some.injEq, Prod.mk.injEq] at h
        rw [← h.1, ← h.2]
      · simp at h
    exact ret_conv n hd₀ hLd _ hs (by simp) (by simp) hI h (this ▸ he) (hN _) hR
  | whl c b _ =>
    intro r p hs h t u u' he hR
    have : r = p := by
      simp only [visitS] at h
      split at h
      · simp only [Option.some.injEq, Prod.mk.injEq] at h
        rw [← h.1, ← h.2]
      · simp at h
    exact ret_conv n hd₀ hLd _ hs (by simp) (by simp) hI h (this ▸ he) (hN _) hR

end

end RSt
