import Verif.Lemmas.ResolverStmt

/-!
# C97: resolution of the statements of an always block

`resolve` unrolls the `For` statements of an always block.  A loop whose header is constant does what it did before,
except that its variable is no longer set; a loop whose bound or step is a variable is changed into another loop.
-/

namespace RSt

theorem foldl_agree {M : List String} : ∀ (l : List (Loc × ℤ)) {σ σ₁ : Loc → ℤ},
    (∀ m : Loc, (∀ x ∈ M, m ≠ (x, none)) → σ m = σ₁ m) → ∀ m : Loc, (∀ x ∈ M, m ≠ (x, none)) →
    l.foldl (fun σ p m => if m = p.1 then p.2 else σ m) σ m = l.foldl (fun σ p m => if m = p.1 then p.2 else σ m) σ₁ m
  | [], _, _, h, m, hm => h m hm
  | p :: l, σ, σ₁, h, m, hm => by
      simp only [List.foldl_cons]
      refine foldl_agree l (fun m hm => ?_) m hm
      split
      · rfl
      · exact h m hm

/-- **C97.**  `L` are the loop variables of the block; each is read only inside its loop and set only by the header of
    its loop, and the headers are constant but for the loop variables.  If the block runs to its end, so does the
    resolved block, and all variables and elements but the loop variables get the same values, at once and with
    the nonblocking assignments. -/
theorem c97_same {π : String → ℤ} {d : Dict} {L : List String} {n : Nat} {s p : S} {t t' : St}
    (hd : ∀ x e, d x = some e → e = .num (π x)) (hL : ∀ x ∈ L, d x = none) (hs : Scoped d L [] s)
    (h : always n d s = some p) (he : Exec π s t t') :
    ∃ u, Exec π p t u ∧ ∀ m : Loc, (∀ x ∈ L, m ≠ (x, none)) → u.σ m = t'.σ m ∧ u.commit m = t'.commit m := by
  unfold always at h
  cases hv : visitS n s false d with
  | none => simp [hv] at h
  | some q =>
    simp only [hv, Option.map_some, Option.some.injEq] at h
    obtain ⟨u, hu, hR⟩ := place_sim n hd hL s (r := q.1) (p := q.2) hs hv he (u := t) ⟨rfl, fun _ _ => rfl⟩
    refine ⟨u, h ▸ hu, fun m hm => ⟨(hR.2 m hm).symm, ?_⟩⟩
    unfold St.commit
    rw [← hR.1]
    exact (foldl_agree _ hR.2 m hm).symm

/-- **C97, no new ends.**  If the resolved block runs to its end, so does the block. -/
theorem c97_ends {π : String → ℤ} {d : Dict} {L : List String} {n : Nat} {s p : S} {t u : St}
    (hd : ∀ x e, d x = some e → e = .num (π x)) (hL : ∀ x ∈ L, d x = none) (hs : Scoped d L [] s)
    (h : always n d s = some p) (he : Exec π p t u) : ∃ t', Exec π s t t' := by
  unfold always at h
  cases hv : visitS n s false d with
  | none => simp [hv] at h
  | some q =>
    simp only [hv, Option.map_some, Option.some.injEq] at h
    obtain ⟨t', ht', _⟩ := place_conv n hd hL s (r := q.1) (p := q.2) hs hv (t := t) (u := t) (h ▸ he)
      ⟨rfl, fun _ _ => rfl⟩
    exact ⟨t', ht'⟩

/-- A statement has one result. -/
theorem c97_det {π : String → ℤ} {s : S} {t u : St} (h : Exec π s t u) : ∀ {u' : St}, Exec π s t u' → u = u' := by
  induction h with
  | skip t => intro u' h'; cases h'; rfl
  | seq _ _ iha ihb =>
    intro u' h'
    cases h' with
    | seq h₁ h₂ => have := iha h₁; subst this; exact ihb h₂
  | blk hl =>
    intro u' h'
    cases h' with
    | blk hl' => rw [hl] at hl'; rw [Option.some.inj hl']
  | nblk hl =>
    intro u' h'
    cases h' with
    | nblk hl' => rw [hl] at hl'; rw [Option.some.inj hl']
  | yes hc _ ih =>
    intro u' h'
    cases h' with
    | yes _ h₁ => exact ih h₁
    | no hc' _ => exact absurd hc' hc
  | no hc _ ih =>
    intro u' h'
    cases h' with
    | yes hc' _ => exact absurd hc hc'
    | no _ h₁ => exact ih h₁
  | more hc _ _ iha ihb =>
    intro u' h'
    cases h' with
    | more _ h₁ h₂ => have := iha h₁; subst this; exact ihb h₂
    | done hc' => exact absurd hc' hc
  | done hc =>
    intro u' h'
    cases h' with
    | more hc' _ _ => exact absurd hc hc'
    | done _ => rfl
  | loop _ ih =>
    intro u' h'
    cases h' with
    | loop h₁ => exact ih h₁

/-- The copies `g v, g (v + 1), …`, `k` of them. -/
def copies (g : ℤ → S) : ℤ → Nat → S
  | _, 0 => .skip
  | v, k + 1 => .seq (g v) (copies g (v + 1) k)

theorem unroll_count {f : Dict → Option S} {g : ℤ → S} {i : String} {hi : ℤ} {k : E} {d : Dict} : ∀ (m : Nat) (v : ℤ) (n : Nat),
    (hi - v).toNat = m → m < n →
    (∀ w, v ≤ w → w < hi → f (d.set i (.num w)) = some (g w)) →
    unroll f i i (.bin .lt (.var i) (.num hi)) k n (d.set i (.num v)) (.bin .add (.var i) (.num 1))
      = some (.inl (copies g v m))
  | 0, v, n + 1, hm, _, hf => by
      have : ¬ v < hi := by omega
      simp [unroll, cval, Dict.set, Op.fold, b2i, this, copies]
  | m + 1, v, n + 1, hm, hn, hf => by
      have hlt : v < hi := by omega
      have hset : (d.set i (.num v)).set i (.num (v + 1)) = d.set i (.num (v + 1)) := by
        funext y
        simp only [Dict.set]
        split <;> rfl
      have hc : cval true (d.set i (.num v)) (.bin .lt (.var i) (.num hi)) = some 1 := by
        simp [cval, Dict.set, Op.fold, b2i, hlt]
      have hst : cval true (d.set i (.num v)) (.bin .add (.var i) (.num 1)) = some (v + 1) := by
        simp [cval, Dict.set, Op.fold]
      have hr : ret true (d.set i (.num v)) (.bin .add (.var i) (.num 1)) = .num (v + 1) := put_some hst
      have ih := unroll_count (g := g) (f := f) (i := i) (hi := hi) (k := k) (d := d) m (v + 1) n (by omega) (by omega)
        (fun w h₁ h₂ => hf w (by omega) h₂)
      simp only [unroll, hc, hf v (by omega) hlt, hr, node_const _ hst, hset, ih, copies]
      simp

/-- **C97, copies.**  `For(i(lo), i < hi, i.inc())` inside an `If`, with the bound a parameter of value `hi`, is replaced
    by one copy of the body for each value from `lo` to `hi - 1`, each visited with that value for `i`. -/
theorem c97_copies {d : Dict} {c : E} {i w : String} {lo hi : ℤ} {b : S} {g q : ℤ → S} {n : Nat} (hw : d w = some (.num hi))
    (hn : (hi - lo).toNat < n)
    (hb : ∀ v, lo ≤ v → v < hi → visitS n b true (d.set i (.num v)) = some (g v, q v)) :
    always n d (.ite c (.loop i (.num lo) (.bin .lt (.var i) (.par w)) i (.bin .add (.var i) (.num 1)) b) .skip)
      = some (.ite (put false d c) (copies g lo (hi - lo).toNat) .skip) := by
  have h₁ : put false d (.bin .lt (.var i) (.par w)) = .bin .lt (.var i) (.num hi) := by
    simp [put, over, cval, node, hw]
  have h₂ : put false d (.bin .add (.var i) (.num 1)) = .bin .add (.var i) (.num 1) := by
    simp [put, over, cval, node]
  have h₃ : put false d (.num lo) = .num lo := rfl
  have h₄ : ret false d (.bin .lt (.var i) (.par w)) = .bin .lt (.var i) (.num hi) := h₁
  have h₅ : ret false d (.var i) = .var i := rfl
  have hu := unroll_count (f := fun d => (visitS n b true d).map Prod.fst) (g := g) (i := i) (hi := hi)
    (k := .bin .lt (.var i) (.num hi)) (d := d) (hi - lo).toNat lo n rfl hn
    (fun v h₁ h₂ => by simp [hb v h₁ h₂])
  simp only [always, visitS, h₁, h₂, h₃, h₄, h₅, hu, Option.map_some]

/-- **C97, not unrolled.**  A `For` directly in the always block stays a `For` with the same body, not resolved. -/
theorem c97_top {d : Dict} {i j : String} {init c step : E} {b p : S} {n : Nat}
    (h : always n d (.loop i init c j step b) = some p) : ∃ init' c' step', p = .loop i init' c' j step' b := by
  simp only [always, visitS, ret] at h
  simp only [Bool.false_eq_true, if_false] at h
  split at h
  · simp only [Option.map_some, Option.some.injEq] at h
    exact ⟨_, _, _, h.symm⟩
  · simp only [Option.map_some, Option.some.injEq] at h
    exact ⟨_, _, _, h.symm⟩
  · simp at h

/-! ## Loops that are changed -/

/-- A loop whose condition stays true never ends. -/
theorem whl_forever {π : String → ℤ} {c : E} {b : S} {P : St → Prop} (hc : ∀ t, P t → ev π t.σ c ≠ 0)
    (hP : ∀ t t', Exec π b t t' → P t → P t') {t t' : St} (h : Exec π (.whl c b) t t') : ¬ P t := by
  obtain ⟨s, hs⟩ : ∃ s, S.whl c b = s := ⟨_, rfl⟩
  rw [hs] at h
  induction h with
  | more _ h₁ _ _ ih => cases hs; exact fun hp => ih rfl (hP _ _ h₁ hp)
  | done hv => cases hs; exact fun hp => hc _ hp hv
  | _ => cases hs

/-- **C97, variable bound.**  In `For(i(a), i < h, i.inc())` with a variable bound `h`, the condition becomes `a < h`:
    resolution puts the start of the loop into the condition.  If `a` is below `h` and the body leaves `h` alone, the
    loop never ends. -/
theorem c97_bound {π : String → ℤ} {d : Dict} {i h : String} {a : ℤ} {b : S} (n : Nat) (hd : d h = none)
    (hih : i ≠ h) :
    always (n + 1) d (.loop i (.num a) (.bin .lt (.var i) (.var h)) i (.bin .add (.var i) (.num 1)) b)
      = some (.loop i (.num a) (.bin .lt (.num a) (.var h)) i (.bin .add (.var i) (.num 1)) b) ∧
    (Keeps h b → ∀ t : St, a < t.σ (h, none) →
      ¬ ∃ t', Exec π (.loop i (.num a) (.bin .lt (.num a) (.var h)) i (.bin .add (.var i) (.num 1)) b) t t') := by
  have hhi : h ≠ i := hih.symm
  constructor
  · simp [always, visitS, ret, put, over, cval, node, unroll, Dict.set, hd, hhi]
  · rintro hk t ht ⟨t', he⟩
    cases he with
    | loop hw =>
      refine whl_forever (P := fun t => a < t.σ (h, none)) ?_ ?_ hw ?_
      · intro t ht
        simp [ev, Op.eval, ht]
      · intro t t' hb ht
        have hk' : Keeps h (.seq b (.asg true (.var i) (.bin .add (.var i) (.num 1)))) :=
          ⟨hk, fun h => hih (E.var.inj h)⟩
        rw [keep hb hk']
        exact ht
      · simpa [St.set, hhi] using ht

/-- The loop of `c97_bound` as it was written ends, here with `m[i] <= 0` as its body. -/
theorem c97_bound_ends {π : String → ℤ} {i h m : String} {a : ℤ} (hih : i ≠ h) (t : St) :
    ∃ t', Exec π (.loop i (.num a) (.bin .lt (.var i) (.var h)) i (.bin .add (.var i) (.num 1))
      (.asg false (.elem m (.var i)) (.num 0))) t t' := by
  have hhi : h ≠ i := hih.symm
  have key : ∀ (k : Nat) (t : St), (t.σ (h, none) - t.σ (i, none)).toNat = k →
      ∃ t', Exec π (.whl (.bin .lt (.var i) (.var h)) (.seq (.asg false (.elem m (.var i)) (.num 0))
        (.asg true (.var i) (.bin .add (.var i) (.num 1))))) t t' := by
    intro k
    induction k with
    | zero =>
      intro t hk
      refine ⟨t, .done ?_⟩
      have : ¬ t.σ (i, none) < t.σ (h, none) := by omega
      simp [ev, Op.eval, this]
    | succ k ih =>
      intro t hk
      have hlt : t.σ (i, none) < t.σ (h, none) := by omega
      obtain ⟨t', ht'⟩ := ih (((t.later (m, some (t.σ (i, none))) 0).set (i, none) (t.σ (i, none) + 1))) (by
        simp only [St.later, St.set, Prod.mk.injEq, hhi, and_true, if_false, if_true]
        omega)
      exact ⟨t', .more (by simp [ev, Op.eval, hlt]) (.seq (.nblk (m := (m, some (t.σ (i, none)))) rfl) (.blk rfl)) ht'⟩
  obtain ⟨t', ht'⟩ := key _ (t.set (i, none) a) rfl
  exact ⟨t', .loop ht'⟩

/-- **C97, variable step.**  In `For(i(a), i < hi, i(i + h))` with a variable step `h` the step becomes `a + h`: the value
    of `i` in the first iteration is put into it.  If `a + h` is below `hi` the loop never ends. -/
theorem c97_step {π : String → ℤ} {d : Dict} {i h : String} {a hi : ℤ} {b g q : S} (n : Nat) (hd : d h = none) (hih : i ≠ h)
    (ha : a < hi) (hb : visitS (n + 2) b true (d.set i (.num a)) = some (g, q)) :
    always (n + 2) d (.loop i (.num a) (.bin .lt (.var i) (.num hi)) i (.bin .add (.var i) (.var h)) b)
      = some (.loop i (.num a) (.bin .lt (.var i) (.num hi)) i (.bin .add (.num a) (.var h)) b) ∧
    (Keeps h b → Keeps i b → ∀ t : St, a + t.σ (h, none) < hi →
      ¬ ∃ t', Exec π (.loop i (.num a) (.bin .lt (.var i) (.num hi)) i (.bin .add (.num a) (.var h)) b) t t') := by
  have hhi : h ≠ i := hih.symm
  constructor
  · have h₁ : put false d (.bin .lt (.var i) (.num hi)) = .bin .lt (.var i) (.num hi) := by
      simp [put, over, cval, node]
    have h₂ : ret false d (.bin .lt (.var i) (.num hi)) = .bin .lt (.var i) (.num hi) := h₁
    have h₃ : cval true (d.set i (.num a)) (.bin .lt (.var i) (.num hi)) = some 1 := by
      simp [cval, Dict.set, Op.fold, b2i, ha]
    have h₄ : put false d (.num a) = .num a := rfl
    have h₅ : ∀ x, ret false d (.var x) = .var x := fun _ => rfl
    have h₆ : put false d (.bin .add (.var i) (.var h)) = .bin .add (.var i) (.var h) := by
      simp [put, over, cval, node]
    have h₇ : node true (d.set i (.num a)) (.bin .add (.var i) (.var h)) = .bin .add (.num a) (.var h) := by
      simp [over, cval, node, Dict.set, hd, hhi]
    have h₈ : ret true (d.set i (.num a)) (.bin .add (.var i) (.var h)) = .bin .add (.num a) (.var h) := by
      change put _ _ _ = _
      rw [put_none (by simp [cval, Dict.set, hd, hhi]), h₇]
    have h₉ : cval true ((d.set i (.num a)).set i (.bin .add (.num a) (.var h))) (.bin .lt (.var i) (.num hi)) = none := by
      simp [cval, Dict.set]
    have h₀ : node true ((d.set i (.num a)).set i (.bin .add (.num a) (.var h))) (.bin .lt (.var i) (.num hi))
        = .bin .lt (.var i) (.num hi) := by
      simp [cval, Dict.set, node, over]
    simp only [always, visitS, h₁, h₂, h₄, h₅, h₆, unroll, h₃, hb, h₇, h₈, h₉, h₀, Option.map_some]
    simp
  · rintro hkh hki t ht ⟨t', he⟩
    cases he with
    | loop hw =>
      refine whl_forever (P := fun t => a + t.σ (h, none) < hi ∧ t.σ (i, none) < hi) ?_ ?_ hw ?_
      · intro t ht
        simp [ev, Op.eval, ht.2]
      · intro t t' hb ht
        cases hb with
        | @seq _ _ _ t₁ _ h₁ h₂ =>
          have e₁ := keep h₁ hkh
          cases h₂ with
          | blk hm =>
            simp only [lhs, Option.some.injEq] at hm
            subst hm
            refine ⟨?_, ?_⟩
            · simpa [St.set, hhi, e₁] using ht.1
            · simpa [St.set, ev, Op.eval, e₁] using ht.1
      · refine ⟨by simpa [St.set, hhi] using ht, ?_⟩
        simpa [St.set, ev] using ha

/-- The loop of `c97_step` as it was written ends for each positive step, here with an empty body. -/
theorem c97_step_ends {π : String → ℤ} {i h : String} {a hi : ℤ} (hih : i ≠ h) (t : St) (hp : 0 < t.σ (h, none)) :
    ∃ t', Exec π (.loop i (.num a) (.bin .lt (.var i) (.num hi)) i (.bin .add (.var i) (.var h)) .skip) t t' := by
  have hhi : h ≠ i := hih.symm
  have key : ∀ (k : Nat) (t : St), 0 < t.σ (h, none) → (hi - t.σ (i, none)).toNat ≤ k →
      ∃ t', Exec π (.whl (.bin .lt (.var i) (.num hi)) (.seq .skip (.asg true (.var i) (.bin .add (.var i) (.var h))))) t t' := by
    intro k
    induction k with
    | zero =>
      intro t _ hk
      refine ⟨t, .done ?_⟩
      have : ¬ t.σ (i, none) < hi := by omega
      simp [ev, Op.eval, this]
    | succ k ih =>
      intro t hp hk
      by_cases hlt : t.σ (i, none) < hi
      · obtain ⟨t', ht'⟩ := ih (t.set (i, none) (t.σ (i, none) + t.σ (h, none))) (by simpa [St.set, hhi] using hp) (by
          simp only [St.set, if_true]
          omega)
        exact ⟨t', .more (by simp [ev, Op.eval, hlt]) (.seq (.skip t) (.blk rfl)) ht'⟩
      · exact ⟨t, .done (by simp [ev, Op.eval, hlt])⟩
  obtain ⟨t', ht'⟩ := key _ (t.set (i, none) a) (by simpa [St.set, hhi] using hp) (Nat.le_refl _)
  exact ⟨t', .loop ht'⟩

/-- **C97, after the loop.**  An unrolled loop no longer sets its variable: `y <= i` after
    `For(i(0), i < 2, i.inc())()`, in an `If`, gives `y` the value `i` had before, where it was 2. -/
theorem c97_exit {π : String → ℤ} {d : Dict} {z i y : String} (n : Nat) (t : St) (hz : t.σ (z, none) ≠ 0) :
    ∃ p, always (n + 3) d (.ite (.var z) (.seq (.loop i (.num 0) (.bin .lt (.var i) (.num 2)) i (.bin .add (.var i) (.num 1))
        .skip) (.asg false (.var y) (.var i))) .skip) = some p ∧
      (∃ t', Exec π (.ite (.var z) (.seq (.loop i (.num 0) (.bin .lt (.var i) (.num 2)) i (.bin .add (.var i) (.num 1))
        .skip) (.asg false (.var y) (.var i))) .skip) t t' ∧ t'.nb = t.nb ++ [((y, none), 2)]) ∧
      ∃ u, Exec π p t u ∧ u.nb = t.nb ++ [((y, none), t.σ (i, none))] := by
  refine ⟨.ite (.var z) (.seq (.seq .skip (.seq .skip .skip)) (.asg false (.var y) (.var i))) .skip, ?_, ?_, ?_⟩
  · simp [always, visitS, ret, put, over, cval, node, unroll, Dict.set, Op.fold, b2i]
  · refine ⟨_, .yes hz (.seq (.loop (.more ?_ (.seq (.skip _) (.blk rfl)) (.more ?_ (.seq (.skip _) (.blk rfl)) (.done ?_))))
      (.nblk rfl)), ?_⟩ <;> simp [ev, Op.eval, St.set, St.later]
  · exact ⟨_, .yes hz (.seq (.seq (.skip _) (.seq (.skip _) (.skip _))) (.nblk rfl)), rfl⟩

/-- **C97, assigned in the body.**  An assignment to the variable of the loop in its body becomes an assignment to a
    number, which is not Verilog: the unrolled statement cannot run. -/
theorem c97_assign {π : String → ℤ} {d : Dict} {i : String} {v : ℤ} {e : E} {blk : Bool} {r p : S} (n : Nat)
    (hd : d i = some (.num v)) (h : visitS n (.asg blk (.var i) e) true d = some (r, p)) :
    r = .asg blk (.num v) (put true d e) ∧ ∀ t t', ¬ Exec π r t t' := by
  simp only [visitS, ret, hd, if_true, Option.getD_some, Option.some.injEq, Prod.mk.injEq] at h
  obtain ⟨rfl, _⟩ := h
  refine ⟨rfl, fun t t' he => ?_⟩
  cases he with
  | blk hl => simp [lhs] at hl
  | nblk hl => simp [lhs] at hl

/-- **C97, one variable for two loops.**  A loop inside a loop with the same variable raises an exception. -/
theorem c97_same_var {d : Dict} {i j : String} {v : ℤ} {init c step : E} {b : S} (n : Nat) (hd : d i = some (.num v)) :
    visitS n (.loop i init c j step b) true d = none := by
  simp [visitS, ret, hd]

/-- **C97, another destination.**  A loop that runs at least once and whose `post` sets another variable than `pre`
    raises an exception. -/
theorem c97_other_dest {d : Dict} {i j : String} {a hi : ℤ} {step : E} {b : S} (n : Nat) (hij : j ≠ i) (ha : a < hi) :
    always n d (.loop i (.num a) (.bin .lt (.var i) (.num hi)) j step b) = none := by
  cases n with
  | zero => simp [always, visitS, ret, unroll]
  | succ n =>
    have h₁ : put false d (.bin .lt (.var i) (.num hi)) = .bin .lt (.var i) (.num hi) := by
      simp [put, over, cval, node]
    have h₂ : ret false d (.bin .lt (.var i) (.num hi)) = .bin .lt (.var i) (.num hi) := h₁
    have h₃ : cval true (d.set i (.num a)) (.bin .lt (.var i) (.num hi)) = some 1 := by
      simp [cval, Dict.set, Op.fold, b2i, ha]
    have h₄ : put false d (.num a) = .num a := rfl
    have h₅ : ∀ x, ret false d (.var x) = .var x := fun _ => rfl
    simp only [always, visitS, h₁, h₂, h₄, h₅, unroll, h₃, if_neg hij]
    cases visitS (n + 1) b true (d.set i (.num a)) <;> simp

/-! ## Examples -/

/-- The dictionary of a module with `WIDTH = 3`. -/
def exD : Dict := fun x => if x = "WIDTH" then some (.num 3) else none

/-- `If(RST)(For(i(0), i < WIDTH, i.inc())(count[i](0))).Else(_sum(0, blk=True), For(i(0), i < WIDTH, i.inc())(_sum(_sum +
    count[i] + i, blk=True)), led(_sum))`. -/
def exS : S :=
  .ite (.var "RST")
    (.loop "i" (.num 0) (.bin .lt (.var "i") (.par "WIDTH")) "i" (.bin .add (.var "i") (.num 1))
      (.asg false (.elem "count" (.var "i")) (.num 0)))
    (.seq (.asg true (.var "_sum") (.num 0))
      (.seq (.loop "i" (.num 0) (.bin .lt (.var "i") (.par "WIDTH")) "i" (.bin .add (.var "i") (.num 1))
        (.asg true (.var "_sum") (.bin .add (.bin .add (.var "_sum") (.elem "count" (.var "i"))) (.var "i"))))
        (.asg false (.var "led") (.var "_sum"))))

example : Scoped exD ["i"] [] exS := by
  simp [Scoped, exS, OkE, OkL, ConstE, exD]

example : ∀ x e, exD x = some e → e = .num ((fun _ => 3) x) := by
  intro x e h
  simp only [exD] at h
  split at h
  · exact (Option.some.inj h).symm
  · simp at h

/-- The resolved block. -/
example : always 5 exD exS = some
    (.ite (.var "RST")
      (.seq (.asg false (.elem "count" (.num 0)) (.num 0)) (.seq (.asg false (.elem "count" (.num 1)) (.num 0))
        (.seq (.asg false (.elem "count" (.num 2)) (.num 0)) .skip)))
      (.seq (.asg true (.var "_sum") (.num 0))
        (.seq
          (.seq (.asg true (.var "_sum") (.bin .add (.bin .add (.var "_sum") (.elem "count" (.num 0))) (.num 0)))
            (.seq (.asg true (.var "_sum") (.bin .add (.bin .add (.var "_sum") (.elem "count" (.num 1))) (.num 1)))
              (.seq (.asg true (.var "_sum") (.bin .add (.bin .add (.var "_sum") (.elem "count" (.num 2))) (.num 2))) .skip)))
          (.asg false (.var "led") (.var "_sum"))))) := by decide +kernel

/-- The hypotheses of `c97_bound` and `c97_step`. -/
example : exD "n" = none ∧ "i" ≠ "n" ∧ Keeps "n" (.asg false (.elem "count" (.var "i")) (.num 0)) ∧
    visitS 2 (.asg false (.elem "count" (.var "i")) (.num 0)) true (exD.set "i" (.num 0)) =
      some (.asg false (.elem "count" (.num 0)) (.num 0), .asg false (.elem "count" (.num 0)) (.num 0)) := by
  refine ⟨by simp [exD], by decide, by simp [Keeps], by decide +kernel⟩

end RSt
