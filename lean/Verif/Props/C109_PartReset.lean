import Verif.Model.PartReset

/-!
# C109: reset of bits, slices and concatenations
-/

namespace PartReset

/-- The parts of a target. -/
def Dst.parts : Dst → List Part
  | .one p => [p]
  | .cat ps => ps

/-- Bit `k` of register `x` lies in the part. -/
def Part.Has (p : Part) (x : String) (k : Nat) : Prop := x = p.reg.name ∧ p.lo ≤ k ∧ k < p.hi

/-- A literal of `w` bits has the low `w` bits of the number. -/
theorem getLsbD_int (w : Nat) (v : Int) (k : Nat) :
    (BitVec.ofInt w v).getLsbD k = (decide (k < w) && ibit v k) := by
  by_cases h : k < w
  · simp only [h, decide_true, Bool.true_and, ibit]
    rw [BitVec.getLsbD, BitVec.toNat_ofInt, Nat.testBit_eq_decide_div_mod_eq]
    congr 1
    have hw : (2 : Int) ^ w = 2 ^ k * (2 * 2 ^ (w - k - 1)) := by
      rw [← Int.mul_assoc, ← Int.pow_succ, ← Int.pow_add]
      congr 1; omega
    have hpos : (0 : Int) < 2 ^ k := Int.pow_pos (by decide)
    have hn : ((2 ^ w : Nat) : Int) = 2 ^ w := by simp
    have h0 : 0 ≤ v % ((2 ^ w : Nat) : Int) := Int.emod_nonneg _ (by
      rw [hn]; exact Int.ne_of_gt (Int.pow_pos (by decide)))
    have hd : v % ((2 ^ w : Nat) : Int) / 2 ^ k = v / 2 ^ k - 2 * (2 ^ (w - k - 1) * (v / 2 ^ w)) := by
      rw [hn, Int.emod_def]
      have : (2 : Int) ^ w * (v / 2 ^ w) = 2 ^ k * (2 * (2 ^ (w - k - 1) * (v / 2 ^ w))) := by
        conv => lhs; lhs; rw [hw]
        simp only [Int.mul_assoc]
      rw [this, Int.sub_eq_add_neg, ← Int.mul_neg, Int.add_mul_ediv_left _ _ (Int.ne_of_gt hpos)]
      omega
    have hc : (((v % ((2 ^ w : Nat) : Int)).toNat / 2 ^ k : Nat) : Int) =
        v % ((2 ^ w : Nat) : Int) / 2 ^ k := by
      rw [Int.natCast_ediv, Int.toNat_of_nonneg h0]
      simp
    rw [hd] at hc
    apply propext
    omega
  · rw [BitVec.getLsbD_of_ge _ _ (by omega)]
    simp [h]

theorem fold_other (l : List Stmt) (e : Bits) (x : String) (k : Nat)
    (h : ∀ s ∈ l, ¬ s.1.Has x k) : l.foldl put e x k = e x k := by
  induction l generalizing e with
  | nil => rfl
  | cons s l ih =>
    rw [List.foldl_cons, ih _ (fun t ht => h t (List.mem_cons_of_mem _ ht))]
    have := h s (by simp)
    exact if_neg this

theorem fold_same (l : List Stmt) (e : Bits) (x : String) (k : Nat) (v : Option Bool)
    (h : ∀ s ∈ l, s.1.Has x k → s.2 (k - s.1.lo) = v) (hx : ∃ s ∈ l, s.1.Has x k) :
    l.foldl put e x k = v := by
  induction l generalizing e with
  | nil => obtain ⟨s, hs, _⟩ := hx; cases hs
  | cons s l ih =>
    rw [List.foldl_cons]
    by_cases hl : ∃ t ∈ l, t.1.Has x k
    · exact ih _ (fun t ht => h t (List.mem_cons_of_mem _ ht)) hl
    · have hl' : ∀ t ∈ l, ¬ t.1.Has x k := fun t ht hh => hl ⟨t, ht, hh⟩
      rw [fold_other _ _ _ _ hl']
      obtain ⟨t, ht, hh⟩ := hx
      rcases List.mem_cons.1 ht with rfl | ht
      · have := h t (by simp) hh
        exact (if_pos hh).trans this
      · exact absurd hh (hl' t ht)

theorem mapM_mem {α β : Type} (f : α → Option β) (l : List α) (r : List β)
    (h : l.mapM f = some r) : (∀ b ∈ r, ∃ a ∈ l, f a = some b) ∧ ∀ a ∈ l, ∃ b ∈ r, f a = some b := by
  induction l generalizing r with
  | nil => simp at h; subst h; simp
  | cons a l ih =>
    rw [List.mapM_cons] at h
    cases ha : f a with
    | none => simp [ha] at h
    | some b =>
      cases hl : l.mapM f with
      | none => simp [ha, hl] at h
      | some r' =>
        simp [ha, hl] at h
        subst h
        obtain ⟨h1, h2⟩ := ih r' hl
        constructor
        · intro c hc
          rcases List.mem_cons.1 hc with rfl | hc
          · exact ⟨a, by simp, ha⟩
          · obtain ⟨a', h, h'⟩ := h1 c hc
            exact ⟨a', by simp [h], h'⟩
        · intro c hc
          rcases List.mem_cons.1 hc with rfl | hc
          · exact ⟨b, by simp, ha⟩
          · obtain ⟨a', h, h'⟩ := h2 c hc
            exact ⟨a', by simp [h], h'⟩

/-- What the statements of one target are. -/
theorem visit_mem (d : Dst) (l : List Stmt) (h : visit d = some l) :
    (∀ s ∈ l, s.1 ∈ d.parts ∧ ∃ o, rhs s.1 = some o ∧
      ((∃ f, o = some f ∧ s.2 = fun k => some (f k)) ∨
       (o = none ∧ (∃ ps, d = .cat ps) ∧ s.2 = fun _ => none))) ∧
    ∀ p ∈ d.parts, ∃ o, rhs p = some o ∧ ((∃ s ∈ l, s.1 = p) ∨ (o = none ∧ d = .one p)) := by
  cases d with
  | one p =>
    simp only [visit] at h
    cases ho : rhs p with
    | none => simp [ho] at h
    | some o =>
      cases o with
      | none => simp [ho] at h; subst h; simp [Dst.parts, ho]
      | some f => simp [ho] at h; subst h; simp [Dst.parts, ho]
  | cat ps =>
    simp only [visit] at h
    obtain ⟨h1, h2⟩ := mapM_mem _ _ _ h
    constructor
    · intro s hs
      obtain ⟨p, hp, hf⟩ := h1 s hs
      cases ho : rhs p with
      | none => simp [ho] at hf
      | some o =>
        cases o with
        | none => simp [ho] at hf; subst hf; exact ⟨hp, none, ho, .inr ⟨rfl, ⟨ps, rfl⟩, rfl⟩⟩
        | some f => simp [ho] at hf; subst hf; exact ⟨hp, some f, ho, .inl ⟨f, rfl, rfl⟩⟩
    · intro p hp
      obtain ⟨s, hs, hf⟩ := h2 p hp
      cases ho : rhs p with
      | none => simp [ho] at hf
      | some o =>
        refine ⟨o, rfl, .inl ⟨s, hs, ?_⟩⟩
        cases o <;> (simp [ho] at hf; subst hf; rfl)

theorem makeReset_mem (ds : List Dst) (l : List Stmt) (h : makeReset ds = some l) :
    (∀ s ∈ l, ∃ d ∈ ds, ∃ a, visit d = some a ∧ s ∈ a) ∧
    ∀ d ∈ ds, ∃ a, visit d = some a ∧ ∀ s ∈ a, s ∈ l := by
  induction ds generalizing l with
  | nil => simp [makeReset] at h; subst h; simp
  | cons d ds ih =>
    simp only [makeReset] at h
    cases hv : visit d with
    | none => simp [hv] at h
    | some a =>
      cases hm : makeReset ds with
      | none => simp [hv, hm] at h
      | some b =>
        simp [hv, hm] at h
        subst h
        obtain ⟨h1, h2⟩ := ih b hm
        constructor
        · intro s hs
          rcases List.mem_append.1 hs with hs | hs
          · exact ⟨d, by simp, a, hv, hs⟩
          · obtain ⟨d', hd, r⟩ := h1 s hs
            exact ⟨d', by simp [hd], r⟩
        · intro d' hd
          rcases List.mem_cons.1 hd with rfl | hd
          · exact ⟨a, hv, fun s hs => by simp [hs]⟩
          · obtain ⟨a', h, h'⟩ := h2 d' hd
            exact ⟨a', h, fun s hs => by simp [h' s hs]⟩

/-- The right side of a part is `None` exactly without an initial value. -/
theorem rhs_none (p : Part) : rhs p = some none ↔ p.reg.init = none := by
  cases p with
  | whole r => simp [rhs, Part.reg]
  | bit r k => simp only [rhs, Part.reg]; split <;> simp_all
  | slice r m l => simp only [rhs, Part.reg]; split <;> simp_all

/-- The right side of a part has the bits of the initial value, below bit 32. -/
theorem rhs_bits (p : Part) (f : Nat → Bool) (k : Nat) (h : rhs p = some (some f))
    (hk : p.lo ≤ k ∧ k < p.hi) (h32 : k < 32 ∨ ∃ r, p = .whole r) :
    ∃ i, p.reg.init = some i ∧ f (k - p.lo) = ibit i.val k := by
  cases p with
  | whole r =>
    simp only [rhs, Part.reg, Part.lo] at *
    cases hi : r.init with
    | none => simp [hi] at h
    | some i => simp [hi] at h; subst h; exact ⟨i, rfl, rfl⟩
  | bit r q =>
    have h33 : k < 32 := by
      rcases h32 with h | ⟨r, h⟩
      · exact h
      · cases h
    simp only [rhs, Part.reg, Part.lo, Part.hi] at *
    have : k = q := by omega
    subst this
    cases hi : r.init with
    | none => simp [hi] at h
    | some i =>
      cases i with
      | obj v => simp [hi] at h
      | int v =>
        simp [hi] at h
        subst h
        refine ⟨_, rfl, ?_⟩
        have hb := getLsbD_int 32 v k
        simp only [h33, decide_true, Bool.true_and] at hb
        simp [Init.val, ← hb, h33]
  | slice r m l =>
    have h33 : k < 32 := by
      rcases h32 with h | ⟨r, h⟩
      · exact h
      · cases h
    simp only [rhs, Part.reg, Part.lo, Part.hi] at *
    cases hi : r.init with
    | none => simp [hi] at h
    | some i =>
      simp [hi] at h
      subst h
      refine ⟨i, rfl, ?_⟩
      have e : l + (k - l) = k := by omega
      have a : k - l < m - l + 1 := by omega
      have b : k < max 32 (m - l + 1) := by omega
      have c : k - l < max 32 (m - l + 1) := by omega
      simp only [getLsbD_int,
        BitVec.getLsbD_ofNat, Nat.testBit_two_pow_sub_one, e, a, b, c, decide_true, Bool.true_and,
        Bool.and_true]

/-- **C109, what is reset.** Every bit of a recorded target whose register has an initial value
    takes that bit of the initial value, whichever way and however often it is recorded; for
    registers of which bits or slices are recorded: below bit 32. -/
theorem c109_reset (ds : List Dst) (e e' : Bits) (h : reset ds e = some e')
    (hreg : ∀ d ∈ ds, ∀ p ∈ d.parts, ∀ d' ∈ ds, ∀ q ∈ d'.parts,
      p.reg.name = q.reg.name → p.reg = q.reg)
    (d : Dst) (hd : d ∈ ds) (p : Part) (hp : p ∈ d.parts) (i : Init) (hi : p.reg.init = some i)
    (k : Nat) (hk : p.lo ≤ k ∧ k < p.hi)
    (h32 : k < 32 ∨ ∀ d ∈ ds, ∀ q ∈ d.parts, q.reg.name = p.reg.name → ∃ r, q = .whole r) :
    e' p.reg.name k = some (ibit i.val k) := by
  unfold reset at h
  cases hm : makeReset ds with
  | none => simp [hm] at h
  | some l =>
    simp [hm] at h
    subst h
    obtain ⟨h1, h2⟩ := makeReset_mem ds l hm
    apply fold_same
    · intro s hs hh
      obtain ⟨d', hd', a, ha, hsa⟩ := h1 s hs
      obtain ⟨hsp, o, ho, hc⟩ := (visit_mem d' a ha).1 s hsa
      have hr := hreg d hd p hp d' hd' s.1 hsp hh.1
      rcases hc with ⟨f, rfl, hf⟩ | ⟨rfl, _, _⟩
      · obtain ⟨j, hj, hb⟩ := rhs_bits s.1 f k ho hh.2
          (h32.imp id fun hw => hw d' hd' s.1 hsp hh.1.symm)
        rw [← hr, hi] at hj
        cases hj
        rw [hf]
        exact congrArg some hb
      · have := (rhs_none s.1).1 ho
        rw [← hr, hi] at this
        cases this
    · obtain ⟨a, ha, hal⟩ := h2 d hd
      obtain ⟨o, ho, hc⟩ := (visit_mem d a ha).2 p hp
      rcases hc with ⟨s, hs, rfl⟩ | ⟨rfl, _⟩
      · exact ⟨s, hal s hs, rfl, hk⟩
      · have := (rhs_none p).1 ho
        rw [hi] at this
        cases this

/-- **C109, spelled out for one slice**: bits `l` to `m` take those of the initial value `v`, given
    as a Python integer or as a `vtypes.Int`; all other bits keep their value. -/
theorem c109_slice (r : PReg) (v : Int) (hr : r.init = some (.int v) ∨ r.init = some (.obj v))
    (m l : Nat) (e e' : Bits) (h : reset [.one (.slice r m l)] e = some e') (k : Nat) :
    (l ≤ k → k ≤ m → k < 32 → e' r.name k = some (decide (v / 2 ^ k % 2 = 1))) ∧
    (k < l ∨ m < k → e' r.name k = e r.name k) := by
  constructor
  · intro h1 h2 h3
    have hk : (Part.slice r m l).lo ≤ k ∧ k < (Part.slice r m l).hi := by
      simp only [Part.lo, Part.hi]; omega
    have hreg : ∀ d ∈ [Dst.one (.slice r m l)], ∀ p ∈ d.parts,
        ∀ d' ∈ [Dst.one (.slice r m l)], ∀ q ∈ d'.parts,
        p.reg.name = q.reg.name → p.reg = q.reg := by
      simp [Dst.parts]
    rcases hr with hr | hr
    · exact c109_reset _ e e' h hreg (.one (.slice r m l)) (by simp) (.slice r m l)
        (by simp [Dst.parts]) _ hr k hk (.inl h3)
    · exact c109_reset _ e e' h hreg (.one (.slice r m l)) (by simp) (.slice r m l)
        (by simp [Dst.parts]) _ hr k hk (.inl h3)
  · intro hk
    unfold reset at h
    cases hm : makeReset [.one (.slice r m l)] with
    | none => simp [hm] at h
    | some st =>
      simp [hm] at h
      subst h
      apply fold_other
      intro s hs hh
      obtain ⟨d', hd', a, ha, hsa⟩ := (makeReset_mem _ st hm).1 s hs
      have hp := ((visit_mem d' a ha).1 s hsa).1
      simp only [List.mem_singleton] at hd'
      subst hd'
      simp only [Dst.parts, List.mem_singleton] at hp
      rw [hp] at hh
      have := hh.2
      simp only [Part.lo, Part.hi] at this
      omega

/-- **C109, what is kept.** A bit in no recorded target keeps its value at the reset, even if other
    bits of its register are reset. -/
theorem c109_kept (ds : List Dst) (e e' : Bits) (h : reset ds e = some e') (x : String) (k : Nat)
    (hx : ∀ d ∈ ds, ∀ p ∈ d.parts, x = p.reg.name → ¬ (p.lo ≤ k ∧ k < p.hi)) :
    e' x k = e x k := by
  unfold reset at h
  cases hm : makeReset ds with
  | none => simp [hm] at h
  | some l =>
    simp [hm] at h
    subst h
    apply fold_other
    intro s hs hh
    obtain ⟨d', hd', a, ha, hsa⟩ := (makeReset_mem ds l hm).1 s hs
    exact hx d' hd' s.1 ((visit_mem d' a ha).1 s hsa).1 hh.1 hh.2

/-- **C109, no initial value.** A register without initial value keeps its bits if no concatenation
    contains a part of it ... -/
theorem c109_no_init (ds : List Dst) (e e' : Bits) (h : reset ds e = some e') (x : String) (k : Nat)
    (hx : ∀ d ∈ ds, ∀ p ∈ d.parts, x = p.reg.name → p.reg.init = none ∧ d = .one p) :
    e' x k = e x k := by
  unfold reset at h
  cases hm : makeReset ds with
  | none => simp [hm] at h
  | some l =>
    simp [hm] at h
    subst h
    apply fold_other
    intro s hs hh
    obtain ⟨d', hd', a, ha, hsa⟩ := (makeReset_mem ds l hm).1 s hs
    obtain ⟨hsp, o, ho, hc⟩ := (visit_mem d' a ha).1 s hsa
    obtain ⟨hn, hone⟩ := hx d' hd' s.1 hsp hh.1
    rw [(rhs_none s.1).2 hn] at ho
    cases ho
    rcases hc with ⟨f, hf, _⟩ | ⟨_, ⟨ps, hps⟩, _⟩
    · cases hf
    · rw [hps] at hone
      cases hone

/-- ... and **loses them** (every covered bit becomes `x`) if a concatenation does. -/
theorem c109_not_kept (ds : List Dst) (e e' : Bits) (h : reset ds e = some e') (ps : List Part)
    (hd : .cat ps ∈ ds) (p : Part) (hp : p ∈ ps)
    (hn : ∀ d ∈ ds, ∀ q ∈ d.parts, p.reg.name = q.reg.name → q.reg.init = none)
    (k : Nat) (hk : p.lo ≤ k ∧ k < p.hi) : e' p.reg.name k = none := by
  unfold reset at h
  cases hm : makeReset ds with
  | none => simp [hm] at h
  | some l =>
    simp [hm] at h
    subst h
    obtain ⟨h1, h2⟩ := makeReset_mem ds l hm
    apply fold_same
    · intro s hs hh
      obtain ⟨d', hd', a, ha, hsa⟩ := h1 s hs
      obtain ⟨hsp, o, ho, hc⟩ := (visit_mem d' a ha).1 s hsa
      rw [(rhs_none s.1).2 (hn d' hd' s.1 hsp hh.1)] at ho
      cases ho
      rcases hc with ⟨f, hf, _⟩ | ⟨_, _, hf⟩
      · cases hf
      · rw [hf]
    · obtain ⟨a, ha, hal⟩ := h2 _ hd
      obtain ⟨o, ho, hc⟩ := (visit_mem _ a ha).2 p hp
      rcases hc with ⟨s, hs, rfl⟩ | ⟨_, hc⟩
      · exact ⟨s, hal s hs, rfl, hk⟩
      · cases hc

/-- **C109 fails above bit 31**: a bit target there is reset to 0, whatever the initial value. -/
theorem c109_not_high (r : PReg) (v : Int) (hr : r.init = some (.int v)) (p : Nat) (hp : 32 ≤ p)
    (e : Bits) : ∃ e', reset [.one (.bit r p)] e = some e' ∧ e' r.name p = some false := by
  refine ⟨_, by simp only [reset, makeReset, visit, rhs, hr]; rfl, ?_⟩
  have : ¬ p < 32 := by omega
  simp [put, Part.reg, Part.lo, Part.hi, getLsbD_int, this]

/-- **C109, the generator raises** exactly if some bit target, alone or in a concatenation, has a
    register whose initial value is a `vtypes.Int`. -/
theorem c109_raises (ds : List Dst) (e : Bits) :
    reset ds e = none ↔ ∃ d ∈ ds, ∃ r q v, .bit r q ∈ d.parts ∧ r.init = some (.obj v) := by
  have hrhs : ∀ p, rhs p = none ↔ ∃ r q v, p = .bit r q ∧ r.init = some (.obj v) := by
    intro p
    cases p with
    | whole r => simp [rhs]
    | bit r k => simp only [rhs]; split <;> simp_all
    | slice r m l => simp only [rhs]; split <;> simp_all
  constructor
  · intro h
    apply Classical.byContradiction
    intro hn
    have hall : ∀ d ∈ ds, ∀ p ∈ d.parts, rhs p ≠ none := by
      intro d hd p hp hr
      obtain ⟨r, q, v, rfl, hv⟩ := (hrhs p).1 hr
      exact hn ⟨d, hd, r, q, v, hp, hv⟩
    have hcat : ∀ ps : List Part, (∀ p ∈ ps, rhs p ≠ none) → visit (.cat ps) ≠ none := by
      intro ps
      induction ps with
      | nil => intro _; simp [visit]
      | cons p ps ih =>
        intro hp
        have h1 := hp p (by simp)
        have h2 := ih fun q hq => hp q (by simp [hq])
        cases ho : rhs p with
        | none => exact absurd ho h1
        | some o =>
          simp only [visit] at h2 ⊢
          rw [List.mapM_cons]
          intro hc
          simp only [ho, Option.map_some] at hc
          apply h2
          revert hc
          generalize List.mapM (m := Option) _ ps = z
          cases z <;> simp
    have hvis : ∀ d ∈ ds, visit d ≠ none := by
      intro d hd
      cases d with
      | one p => simpa [visit] using hall _ hd p (by simp [Dst.parts])
      | cat ps => exact hcat ps (hall _ hd)
    have hmk : makeReset ds ≠ none := by
      clear h hn hall
      induction ds with
      | nil => simp [makeReset]
      | cons d ds ih =>
        have h1 := hvis d (by simp)
        have h2 := ih fun d' hd' => hvis d' (by simp [hd'])
        simp only [makeReset]
        split
        · simp
        · rename_i hx
          cases hv : visit d with
          | none => exact absurd hv h1
          | some a =>
            cases hm : makeReset ds with
            | none => exact absurd hm h2
            | some b => exact absurd hm (hx a b hv)
    apply hmk
    simpa [reset] using h
  · rintro ⟨d, hd, r, q, v, hp, hv⟩
    cases hm : makeReset ds with
    | none => simp [reset, hm]
    | some l =>
      obtain ⟨a, ha, _⟩ := (makeReset_mem ds l hm).2 d hd
      obtain ⟨o, ho, _⟩ := (visit_mem d a ha).2 _ hp
      rw [(hrhs _).2 ⟨r, q, v, rfl, hv⟩] at ho
      cases ho

/-! ### Concrete cases -/

/-- An 8-bit register reset to `0xa5`, a register without initial value, a 40-bit register. -/
def exA : PReg := ⟨"a", 8, some (.int 0xa5)⟩
/-- A register without initial value. -/
def exB : PReg := ⟨"b", 4, none⟩
/-- A wide register with all bits set initially. -/
def exC : PReg := ⟨"c", 40, some (.int (-1))⟩

/-- Bit 0, bits 6 to 4: those bits of `0xa5`, the others keep their value. -/
example : ∃ e', reset [.one (.bit exA 0), .one (.slice exA 6 4)] (fun _ _ => some true) = some e' ∧
    (List.range 8).map (e' "a") =
      [some true, some true, some true, some true, some false, some true, some false, some true] :=
  ⟨_, rfl, by decide +kernel⟩

/-- `Cat(a, b)`: `a` is reset, `b` becomes `x`. -/
example : ∃ e', reset [.cat [.whole exA, .whole exB]] (fun _ _ => some false) = some e' ∧
    e' "a" 7 = some true ∧ e' "a" 6 = some false ∧ e' "b" 3 = none ∧ e' "b" 4 = some false :=
  ⟨_, rfl, by decide +kernel⟩

/-- `b` alone keeps its value. -/
example : ∃ e', reset [.one (.whole exB)] (fun _ _ => some false) = some e' ∧
    e' "b" 3 = some false := ⟨_, rfl, by decide +kernel⟩

/-- Bit 35 of a register initially all ones is reset to 0, the whole register to all ones. -/
example : ∃ e₁ e₂, reset [.one (.bit exC 35)] (fun _ _ => none) = some e₁ ∧
    reset [.one (.whole exC)] (fun _ _ => none) = some e₂ ∧
    e₁ "c" 35 = some false ∧ e₂ "c" 35 = some true := ⟨_, _, rfl, rfl, by decide +kernel⟩

/-- A `vtypes.Int` as initial value: the bit target raises, the slice does not. -/
example : reset [.one (.bit ⟨"a", 8, some (.obj 1)⟩ 0)] (fun _ _ => none) = none ∧
    (reset [.one (.slice ⟨"a", 8, some (.obj 1)⟩ 0 0)] (fun _ _ => none)).isSome := by
  constructor <;> rfl

end PartReset
