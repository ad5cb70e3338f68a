import Verif.Model.ThreadNames
import Verif.Lemmas.ThreadTick

/-! Scopes of the thread compiler: what visiting statements does to the frames. -/

namespace Nam
open Hdl Thr

/-- The names assigned in a list of statements. -/
def Src.assigned : Src → List String
  | .nil => []
  | .asg xs _ rest => xs ++ rest.assigned
  | .aug x _ _ rest => x :: rest.assigned
  | .ifte _ p q rest => p.assigned ++ q.assigned ++ rest.assigned
  | .while_ _ p rest => p.assigned ++ rest.assigned
  | .loop i _ _ p rest => i :: (p.assigned ++ rest.assigned)
  | .forr i _ _ _ p rest => i :: (p.assigned ++ rest.assigned)
  | .brk => []
  | .cont => []
  | .ret _ => []
  | .call x _ _ rest => x :: rest.assigned

/-- The names that are local to a function. -/
def FDef.locals (fd : FDef) : List String := fd.params ++ fd.body.assigned

/-- Blocks in a call. -/
def St (n : ℕ) (fr : Fr) (base : List Fr) : List Fr := List.replicate n plain ++ fr :: base

theorem St_succ (n : ℕ) (fr : Fr) (base : List Fr) : plain :: St n fr base = St (n + 1) fr base := rfl

theorem look_st {fr : Fr} (hc : fr.call = true) (n : ℕ) (base : List Fr) (x : String) :
    look (St n fr base) x = fr.vars.lookup x := by
  induction n with
  | zero =>
    simp only [St, List.replicate_zero, List.nil_append, look, hc, if_true]
    cases fr.vars.lookup x <;> rfl
  | succ n ih => exact ih

theorem addVar_st {fr : Fr} (hc : fr.call = true) (n : ℕ) (base : List Fr) (x : String) (r : Ref) :
    addVar (St n fr base) x r = St n { fr with vars := (x, r) :: fr.vars } base := by
  induction n with
  | zero => simp [St, addVar, hc]
  | succ n ih =>
    rw [← St_succ, ← St_succ, ← ih]
    rfl

theorem getRv_st {fr : Fr} (hc : fr.call = true) (n : ℕ) (base : List Fr) : getRv (St n fr base) = fr.rv := by
  induction n with
  | zero => simp [St, getRv, hc]
  | succ n ih => exact ih

theorem setRv_st {fr : Fr} (hc : fr.call = true) (n : ℕ) (base : List Fr) (k : ℕ) :
    setRv (St n fr base) k = St n { fr with rv := some k } base := by
  induction n with
  | zero => simp [St, setRv, hc]
  | succ n ih =>
    rw [← St_succ, ← St_succ, ← ih]
    rfl

/-- The frame of a call, whose registers are numbered from `lo`. -/
structure Inv (L : List String) (lo k : ℕ) (fr : Fr) : Prop where
  call : fr.call = true
  le : lo ≤ k
  regs : ∀ x j, fr.vars.lookup x = some (.reg j) → lo ≤ j ∧ j < k
  inj : ∀ x y j, fr.vars.lookup x = some (.reg j) → fr.vars.lookup y = some (.reg j) → x = y
  names : ∀ x r, fr.vars.lookup x = some r → x ∈ L
  rvb : ∀ j, fr.rv = some j → lo ≤ j ∧ j < k
  rvd : ∀ j, fr.rv = some j → ∀ x, fr.vars.lookup x ≠ some (.reg j)

/-- What visiting statements adds to the frame of the call. -/
structure Grow (k : ℕ) (fr : Fr) (k' : ℕ) (fr' : Fr) : Prop where
  le : k ≤ k'
  keep : ∀ x r, fr.vars.lookup x = some r → fr'.vars.lookup x = some r
  new : ∀ x j, fr.vars.lookup x = none → fr'.vars.lookup x = some (.reg j) → k ≤ j ∧ j < k'
  rv : ∀ j, fr.rv = some j → fr'.rv = some j

theorem Grow.refl (k : ℕ) (fr : Fr) : Grow k fr k fr :=
  ⟨Nat.le_refl _, fun _ _ h => h, (fun x j h h' => by rw [h] at h'; simp at h'), fun _ h => h⟩

theorem Grow.trans {k k' k'' : ℕ} {fr fr' fr'' : Fr} (h1 : Grow k fr k' fr') (h2 : Grow k' fr' k'' fr'') :
    Grow k fr k'' fr'' := by
  refine ⟨Nat.le_trans h1.le h2.le, fun x r h => h2.keep x r (h1.keep x r h), fun x j h h' => ?_,
    fun j h => h2.rv j (h1.rv j h)⟩
  have l1 := h1.le
  have l2 := h2.le
  cases hx : fr'.vars.lookup x with
  | none => have := h2.new x j hx h'; omega
  | some r =>
    have := h2.keep x r hx
    rw [h'] at this
    cases this
    have := h1.new x j h hx
    omega

theorem lookup_cons (x y : String) (r : Ref) (l : List (String × Ref)) :
    List.lookup x ((y, r) :: l) = if x = y then some r else l.lookup x := by
  rw [List.lookup_cons]
  by_cases h : x = y
  · rw [if_pos h, show (x == y) = true by simp [h]]
  · rw [if_neg h, show (x == y) = false by simp [h]]

theorem Inv.add {L : List String} {lo k k' j : ℕ} {fr : Fr} (h : Inv L lo k fr) {x : String} (hx : x ∈ L)
    (hn : fr.vars.lookup x = none) (h1 : k ≤ j) (h2 : j < k') :
    Inv L lo k' { fr with vars := (x, .reg j) :: fr.vars } ∧
      Grow k fr k' { fr with vars := (x, .reg j) :: fr.vars } := by
  have hle := h.le
  constructor
  · constructor
    · exact h.call
    · omega
    · intro y i hy
      rw [lookup_cons] at hy
      split at hy
      · cases hy; omega
      · have := h.regs y i hy; omega
    · intro y z i hy hz
      rw [lookup_cons] at hy hz
      split at hy <;> split at hz
      · simp_all
      · cases hy; have := h.regs z j hz; omega
      · cases hz; have := h.regs y j hy; omega
      · exact h.inj y z i hy hz
    · intro y r hy
      rw [lookup_cons] at hy
      split at hy
      · simp_all
      · exact h.names y r hy
    · intro i hi
      have := h.rvb i hi
      omega
    · intro i hi y hy
      rw [lookup_cons] at hy
      split at hy
      · cases hy; have := h.rvb j hi; omega
      · exact h.rvd i hi y hy
  · refine ⟨by omega, fun y r hy => ?_, fun y i hy hy' => ?_, fun i hi => hi⟩
    · rw [lookup_cons]
      split
      · next h => subst h; rw [hn] at hy; cases hy
      · exact hy
    · rw [lookup_cons] at hy'
      split at hy'
      · cases hy'; omega
      · rw [hy] at hy'; cases hy'

theorem Inv.addCst {L : List String} {lo k k' : ℕ} {fr : Fr} (h : Inv L lo k fr) {x : String} (hx : x ∈ L)
    (hn : fr.vars.lookup x = none) (h1 : k ≤ k') (z : ℤ) :
    Inv L lo k' { fr with vars := (x, .cst z) :: fr.vars } ∧
      Grow k fr k' { fr with vars := (x, .cst z) :: fr.vars } := by
  have hle := h.le
  constructor
  · constructor
    · exact h.call
    · omega
    · intro y i hy
      rw [lookup_cons] at hy
      split at hy
      · cases hy
      · have := h.regs y i hy; omega
    · intro y z i hy hz
      rw [lookup_cons] at hy hz
      split at hy
      · cases hy
      · split at hz
        · cases hz
        · exact h.inj y z i hy hz
    · intro y r hy
      rw [lookup_cons] at hy
      split at hy
      · simp_all
      · exact h.names y r hy
    · intro i hi
      have := h.rvb i hi
      omega
    · intro i hi y hy
      rw [lookup_cons] at hy
      split at hy
      · cases hy
      · exact h.rvd i hi y hy
  · refine ⟨by omega, fun y r hy => ?_, fun y i hy hy' => ?_, fun i hi => hi⟩
    · rw [lookup_cons]
      split
      · next h => subst h; rw [hn] at hy; cases hy
      · exact hy
    · rw [lookup_cons] at hy'
      split at hy'
      · cases hy'
      · rw [hy] at hy'; cases hy'

theorem store_spec {L : List String} {lo k n j : ℕ} {fr : Fr} {base : List Fr} {x : String} {s' : RS}
    (h : store ⟨k, St n fr base⟩ x = some (j, s')) (hi : Inv L lo k fr) (hx : x ∈ L) :
    ∃ k' fr', s' = ⟨k', St n fr' base⟩ ∧ Inv L lo k' fr' ∧ Grow k fr k' fr' ∧
      fr'.vars.lookup x = some (.reg j) := by
  unfold store at h
  simp only [look_st hi.call] at h
  split at h
  · next i hl =>
    cases h
    exact ⟨k, fr, rfl, hi, Grow.refl _ _, hl⟩
  · cases h
  · next hl =>
    simp only [addVar_st hi.call, Option.some.injEq, Prod.mk.injEq] at h
    obtain ⟨rfl, rfl⟩ := h
    obtain ⟨a, b⟩ := hi.add hx hl (Nat.le_refl k) (Nat.lt_succ_self k)
    exact ⟨_, _, rfl, a, b, by rw [lookup_cons, if_pos rfl]⟩

theorem storeAll_spec {L : List String} {lo : ℕ} {base : List Fr} {n : ℕ} (xs : List String) :
    ∀ {k : ℕ} {fr : Fr} {js : List ℕ} {s' : RS}, storeAll xs ⟨k, St n fr base⟩ = some (js, s') → Inv L lo k fr →
    (∀ x ∈ xs, x ∈ L) → ∃ k' fr', s' = ⟨k', St n fr' base⟩ ∧ Inv L lo k' fr' ∧ Grow k fr k' fr' ∧
      List.Forall₂ (fun x j => fr'.vars.lookup x = some (.reg j)) xs js := by
  induction xs with
  | nil =>
    intro k fr js s' h hi _
    simp only [storeAll, Option.some.injEq, Prod.mk.injEq] at h
    obtain ⟨rfl, rfl⟩ := h
    exact ⟨k, fr, rfl, hi, Grow.refl _ _, .nil⟩
  | cons x xs ih =>
    intro k fr js s' h hi hx
    simp only [storeAll, Option.bind_eq_some_iff, Option.some.injEq, Prod.mk.injEq] at h
    obtain ⟨⟨j, s1⟩, h1, ⟨js', s2⟩, h2, rfl, rfl⟩ := h
    obtain ⟨k1, fr1, rfl, i1, g1, l1⟩ := store_spec h1 hi (hx x (by simp))
    obtain ⟨k2, fr2, rfl, i2, g2, l2⟩ := ih h2 i1 fun y hy => hx y (by simp [hy])
    exact ⟨k2, fr2, rfl, i2, g1.trans g2, .cons (g2.keep _ _ l1) l2⟩

/-- A visitor of statements changes nothing but the frame of the call, which grows. -/
def Shape (inl : Src → RS → Option (Prog × RS)) : Prop :=
  ∀ src L lo n fr base k P s', inl src ⟨k, St n fr base⟩ = some (P, s') → Inv L lo k fr →
    (∀ x ∈ src.assigned, x ∈ L) → ∃ k' fr', s' = ⟨k', St n fr' base⟩ ∧ Inv L lo k' fr' ∧ Grow k fr k' fr'

theorem inv_new (L : List String) (k : ℕ) : Inv L k k ⟨true, [], none⟩ :=
  ⟨rfl, Nat.le_refl _, (fun x j h => by simp at h), (fun x y j h => by simp at h), (fun x r h => by simp at h),
    (fun j h => by simp at h), (fun j h => by simp at h)⟩

variable {outer : String → Option ℤ} {fs : String → Option FDef} {w : ℕ}

/-- The frame of the caller after a call. -/
theorem call_add {L : List String} {lo k k2 : ℕ} {fr frB : Fr} (hi : Inv L lo k fr) {L' : List String}
    (hb : Inv L' k k2 frB) {x : String} (hx : x ∈ L) (hn : fr.vars.lookup x = none) :
    Inv L lo k2 { fr with vars := (x, match frB.rv with | some j => Ref.reg j | none => .cst 0) :: fr.vars } ∧
      Grow k fr k2 { fr with vars := (x, match frB.rv with | some j => Ref.reg j | none => .cst 0) :: fr.vars } := by
  cases hr : frB.rv with
  | none => exact hi.addCst hx hn hb.le 0
  | some j =>
    have := hb.rvb j hr
    exact hi.add hx hn this.1 this.2

theorem shapeW {inl : Src → RS → Option (Prog × RS)} (hI : Shape inl) : Shape (resolveW outer fs w inl) := by
  intro src
  induction src with
  | nil =>
    intro L lo n fr base k P s' h hi _
    simp only [resolveW, Option.some.injEq, Prod.mk.injEq] at h
    obtain ⟨rfl, rfl⟩ := h
    exact ⟨k, fr, rfl, hi, Grow.refl _ _⟩
  | asg xs es rest ih =>
    intro L lo n fr base k P s' h hi ha
    simp only [resolveW] at h
    split at h
    · simp only [Option.bind_eq_some_iff, Option.some.injEq, Prod.mk.injEq] at h
      obtain ⟨es', -, ⟨js, s1⟩, h1, ⟨P', s2⟩, h2, -, rfl⟩ := h
      obtain ⟨k1, fr1, rfl, i1, g1, -⟩ := storeAll_spec xs h1 hi fun y hy => ha y (by simp [Src.assigned, hy])
      obtain ⟨k2, fr2, rfl, i2, g2⟩ := ih L lo n fr1 base k1 _ _ h2 i1 fun y hy => ha y (by simp [Src.assigned, hy])
      exact ⟨k2, fr2, rfl, i2, g1.trans g2⟩
    · cases h
  | aug x f e rest ih =>
    intro L lo n fr base k P s' h hi ha
    simp only [resolveW, Option.bind_eq_some_iff, Option.some.injEq, Prod.mk.injEq] at h
    obtain ⟨e', -, ⟨j, s1⟩, h1, ⟨P', s2⟩, h2, -, rfl⟩ := h
    obtain ⟨k1, fr1, rfl, i1, g1, -⟩ := store_spec h1 hi (ha x (by simp [Src.assigned]))
    obtain ⟨k2, fr2, rfl, i2, g2⟩ := ih L lo n fr1 base k1 _ _ h2 i1 fun y hy => ha y (by simp [Src.assigned, hy])
    exact ⟨k2, fr2, rfl, i2, g1.trans g2⟩
  | ifte c p q rest ihp ihq ihr =>
    intro L lo n fr base k P s' h hi ha
    simp only [resolveW, Option.bind_eq_some_iff, Option.some.injEq, Prod.mk.injEq] at h
    obtain ⟨c', -, ⟨P1, s1⟩, h1, ⟨P2, s2⟩, h2, ⟨P3, s3⟩, h3, -, rfl⟩ := h
    obtain ⟨k1, fr1, rfl, i1, g1⟩ := ihp L lo (n + 1) fr base k _ _ h1 hi fun y hy => ha y (by simp [Src.assigned, hy])
    obtain ⟨k2, fr2, rfl, i2, g2⟩ := ihq L lo (n + 1) fr1 base k1 _ _ h2 i1 fun y hy => ha y (by simp [Src.assigned, hy])
    obtain ⟨k3, fr3, rfl, i3, g3⟩ := ihr L lo n fr2 base k2 _ _ h3 i2 fun y hy => ha y (by simp [Src.assigned, hy])
    exact ⟨k3, fr3, rfl, i3, (g1.trans g2).trans g3⟩
  | while_ c p rest ihp ihr =>
    intro L lo n fr base k P s' h hi ha
    simp only [resolveW, Option.bind_eq_some_iff, Option.some.injEq, Prod.mk.injEq] at h
    obtain ⟨c', -, ⟨P1, s1⟩, h1, ⟨P3, s3⟩, h3, -, rfl⟩ := h
    obtain ⟨k1, fr1, rfl, i1, g1⟩ := ihp L lo (n + 1) fr base k _ _ h1 hi fun y hy => ha y (by simp [Src.assigned, hy])
    obtain ⟨k3, fr3, rfl, i3, g3⟩ := ihr L lo n fr1 base k1 _ _ h3 i1 fun y hy => ha y (by simp [Src.assigned, hy])
    exact ⟨k3, fr3, rfl, i3, g1.trans g3⟩
  | loop i e st p rest ihp ihr =>
    intro L lo n fr base k P s' h hi ha
    simp only [resolveW, Option.bind_eq_some_iff, Option.some.injEq, Prod.mk.injEq] at h
    obtain ⟨e', -, st', -, ⟨j, s0⟩, h0, ⟨P1, s1⟩, h1, ⟨P3, s3⟩, h3, -, rfl⟩ := h
    obtain ⟨k0, fr0, rfl, i0, g0, -⟩ := store_spec h0 hi (ha i (by simp [Src.assigned]))
    obtain ⟨k1, fr1, rfl, i1, g1⟩ := ihp L lo (n + 1) fr0 base k0 _ _ h1 i0 fun y hy => ha y (by simp [Src.assigned, hy])
    obtain ⟨k3, fr3, rfl, i3, g3⟩ := ihr L lo n fr1 base k1 _ _ h3 i1 fun y hy => ha y (by simp [Src.assigned, hy])
    exact ⟨k3, fr3, rfl, i3, (g0.trans g1).trans g3⟩
  | forr i b e st p rest ihp ihr =>
    intro L lo n fr base k P s' h hi ha
    simp only [resolveW, Option.bind_eq_some_iff, Option.some.injEq, Prod.mk.injEq] at h
    obtain ⟨b', -, e', -, st', -, ⟨j, s0⟩, h0, ⟨P1, s1⟩, h1, ⟨P3, s3⟩, h3, -, rfl⟩ := h
    obtain ⟨k0, fr0, rfl, i0, g0, -⟩ := store_spec h0 hi (ha i (by simp [Src.assigned]))
    obtain ⟨k1, fr1, rfl, i1, g1⟩ := ihp L lo (n + 1) fr0 base k0 _ _ h1 i0 fun y hy => ha y (by simp [Src.assigned, hy])
    obtain ⟨k3, fr3, rfl, i3, g3⟩ := ihr L lo n fr1 base k1 _ _ h3 i1 fun y hy => ha y (by simp [Src.assigned, hy])
    exact ⟨k3, fr3, rfl, i3, (g0.trans g1).trans g3⟩
  | brk =>
    intro L lo n fr base k P s' h hi _
    simp only [resolveW, Option.some.injEq, Prod.mk.injEq] at h
    obtain ⟨rfl, rfl⟩ := h
    exact ⟨k, fr, rfl, hi, Grow.refl _ _⟩
  | cont =>
    intro L lo n fr base k P s' h hi _
    simp only [resolveW, Option.some.injEq, Prod.mk.injEq] at h
    obtain ⟨rfl, rfl⟩ := h
    exact ⟨k, fr, rfl, hi, Grow.refl _ _⟩
  | ret e =>
    intro L lo n fr base k P s' h hi _
    cases e with
    | none =>
      simp only [resolveW, Option.some.injEq, Prod.mk.injEq] at h
      obtain ⟨rfl, rfl⟩ := h
      exact ⟨k, fr, rfl, hi, Grow.refl _ _⟩
    | some e =>
      simp only [resolveW, getRv_st hi.call] at h
      split at h
      · simp only [Option.bind_eq_some_iff, Option.some.injEq, Prod.mk.injEq] at h
        obtain ⟨e', -, rfl, rfl⟩ := h
        exact ⟨k, fr, rfl, hi, Grow.refl _ _⟩
      · next hr =>
        simp only [setRv_st hi.call, Option.bind_eq_some_iff, Option.some.injEq, Prod.mk.injEq] at h
        obtain ⟨e', -, rfl, rfl⟩ := h
        have hle := hi.le
        refine ⟨k + 1, _, rfl, ⟨hi.call, by omega, fun x j hj => ?_, hi.inj, hi.names, fun j hj => ?_, fun j hj x hx => ?_⟩,
          ⟨by omega, fun _ _ h => h, fun x j h h' => ?_, fun j h => ?_⟩⟩
        · have := hi.regs x j hj; omega
        · cases hj; omega
        · cases hj; have := hi.regs x k hx; omega
        · change fr.vars.lookup x = _ at h'
          rw [h] at h'; cases h'
        · rw [hr] at h; cases h
  | call x f args rest ih =>
    intro L lo n fr base k P s' h hi ha
    simp only [resolveW, Option.bind_eq_some_iff] at h
    obtain ⟨fd, hfd, h⟩ := h
    split at h
    · next hg =>
      simp only [Option.bind_eq_some_iff, Option.some.injEq, Prod.mk.injEq] at h
      obtain ⟨es', -, ⟨js, s1⟩, h1, ⟨B, s2⟩, h2, frB, h3, ⟨P', s4⟩, h4, -, rfl⟩ := h
      rw [look_st hi.call] at hg
      obtain ⟨k1, fr1, rfl, i1, g1, -⟩ := storeAll_spec (n := 0) (base := St n fr base) (L := fd.locals) (lo := k) fd.params
        h1 (inv_new _ k) fun y hy => by simp [FDef.locals, hy]
      obtain ⟨k2, fr2, rfl, i2, g2⟩ := hI fd.body fd.locals k 0 fr1 (St n fr base) k1 _ _ h2 i1
        fun y hy => by simp [FDef.locals, hy]
      obtain rfl : fr2 = frB := by simpa [St] using h3
      obtain ⟨i3, g3⟩ := call_add hi i2 (ha x (by simp [Src.assigned])) hg.2
      have ht : (St 0 fr2 (St n fr base)).tail = St n fr base := rfl
      simp only [ht, addVar_st hi.call] at h4
      obtain ⟨k4, fr4, rfl, i4, g4⟩ := ih L lo n _ base k2 _ _ h4 i3 fun y hy => ha y (by simp [Src.assigned, hy])
      exact ⟨k4, fr4, rfl, i4, g3.trans g4⟩
    · cases h

theorem shape (n : ℕ) : Shape (resolve outer fs w n) := by
  induction n with
  | zero => intro src L lo m fr base k P s' h; cases h
  | succ n ih => exact shapeW ih

end Nam
