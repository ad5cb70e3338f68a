import Verif.Model.UserReset
import Verif.Props.C109_PartReset

/-!
# C110: reset statements handed to `make_always`
-/

namespace UserReset

open PartReset

theorem seqReset_eq (user : List Stmt) (ps : List Part) (e : Bits) :
    seqReset user ps e = reset (ps.map .one) (user.foldl put e) := by
  simp [seqReset, reset, List.foldl_append]

/-- **C110, Seq.** A target whose register has an initial value takes the initial value, whatever
    statements the user hands in: these have **no effect** on it. -/
theorem c110_seq_init (user : List Stmt) (ps : List Part) (e e' : Bits)
    (h : seqReset user ps e = some e')
    (hreg : ∀ p ∈ ps, ∀ q ∈ ps, p.reg.name = q.reg.name → p.reg = q.reg)
    (p : Part) (hp : p ∈ ps) (i : Init) (hi : p.reg.init = some i) (k : Nat)
    (hk : p.lo ≤ k ∧ k < p.hi)
    (h32 : k < 32 ∨ ∀ q ∈ ps, q.reg.name = p.reg.name → ∃ r, q = .whole r) :
    e' p.reg.name k = some (ibit i.val k) := by
  rw [seqReset_eq] at h
  refine c109_reset _ _ _ h ?_ (.one p) (List.mem_map_of_mem hp) p (by simp [Dst.parts]) i hi k hk ?_
  · intro d hd a ha d' hd' b hb
    obtain ⟨x, hx, rfl⟩ := List.mem_map.1 hd
    obtain ⟨y, hy, rfl⟩ := List.mem_map.1 hd'
    simp only [Dst.parts, List.mem_singleton] at ha hb
    subst ha; subst hb
    exact hreg _ hx _ hy
  · refine h32.imp id fun hw d hd q hq => ?_
    obtain ⟨x, hx, rfl⟩ := List.mem_map.1 hd
    simp only [Dst.parts, List.mem_singleton] at hq
    subst hq
    exact hw _ hx

/-- **C110, Seq.** Bits of registers without a target with initial value take what the last
    statement of the user for them says. -/
theorem c110_seq_user (us vs : List Stmt) (s : Stmt) (ps : List Part) (e e' : Bits)
    (h : seqReset (us ++ s :: vs) ps e = some e') (k : Nat) (hk : s.1.lo ≤ k ∧ k < s.1.hi)
    (hlast : ∀ t ∈ vs, t.1.reg.name ≠ s.1.reg.name)
    (hn : ∀ p ∈ ps, p.reg.name = s.1.reg.name → p.reg.init = none) :
    e' s.1.reg.name k = s.2 (k - s.1.lo) := by
  rw [seqReset_eq] at h
  rw [c109_no_init _ _ _ h]
  · rw [List.foldl_append, List.foldl_cons, fold_other]
    · exact if_pos ⟨rfl, hk⟩
    · intro t ht hh
      exact hlast t ht hh.1.symm
  · intro d hd p hp hx
    obtain ⟨x, hx', rfl⟩ := List.mem_map.1 hd
    simp only [Dst.parts, List.mem_singleton] at hp
    subst hp
    exact ⟨hn _ hx' hx.symm, rfl⟩

theorem firsts_sub (l : List Stmt) (seen : List Part) :
    ∀ s ∈ firsts l seen, s ∈ l ∧ s.1 ∉ seen := by
  induction l generalizing seen with
  | nil => simp [firsts]
  | cons a l ih =>
    intro s hs
    unfold firsts at hs
    split at hs
    · obtain ⟨h1, h2⟩ := ih _ s hs
      exact ⟨by simp [h1], h2⟩
    · rename_i ha
      rcases List.mem_cons.1 hs with rfl | hs
      · exact ⟨by simp, ha⟩
      · obtain ⟨h1, h2⟩ := ih _ s hs
        exact ⟨by simp [h1], fun h => h2 (by simp [h])⟩

/-- The first statement for a part is the only one left for it. -/
theorem firsts_first (us l : List Stmt) (s : Stmt) (seen : List Part)
    (hu : ∀ t ∈ us, t.1 ≠ s.1) (hs : s.1 ∉ seen) :
    s ∈ firsts (us ++ s :: l) seen ∧ ∀ t ∈ firsts (us ++ s :: l) seen, t.1 = s.1 → t = s := by
  induction us generalizing seen with
  | nil =>
    simp only [List.nil_append, firsts, hs, if_false]
    refine ⟨by simp, fun t ht e => ?_⟩
    rcases List.mem_cons.1 ht with rfl | ht
    · rfl
    · exact absurd (by simp [e]) (firsts_sub _ _ t ht).2
  | cons a us ih =>
    have ha := hu a (by simp)
    have hus : ∀ t ∈ us, t.1 ≠ s.1 := fun t ht => hu t (by simp [ht])
    simp only [List.cons_append, firsts]
    split
    · exact ih _ hus hs
    · obtain ⟨h1, h2⟩ := ih (a.1 :: seen) hus (by simp [hs, Ne.symm ha])
      refine ⟨by simp [h1], fun t ht e => ?_⟩
      rcases List.mem_cons.1 ht with rfl | ht
      · exact absurd e ha
      · exact h2 t ht e

/-- **C110, FSM.** The first statement the user hands in for a register, bit or slice decides, if
    no other part of this register is a target or reset by the user. -/
theorem c110_fsm_user (us vs : List Stmt) (s : Stmt) (ps : List Part) (e e' : Bits)
    (h : fsmReset (us ++ s :: vs) ps e = some e') (hfirst : ∀ t ∈ us, t.1 ≠ s.1)
    (hu : ∀ t ∈ us ++ s :: vs, t.1.reg.name = s.1.reg.name → t.1 = s.1)
    (hp : ∀ p ∈ ps, p.reg.name = s.1.reg.name → p = s.1)
    (k : Nat) (hk : s.1.lo ≤ k ∧ k < s.1.hi) :
    e' s.1.reg.name k = s.2 (k - s.1.lo) := by
  unfold fsmReset at h
  cases hm : makeReset (ps.map .one) with
  | none => simp [hm] at h
  | some l =>
    simp only [hm, Option.map_some, Option.some.injEq, List.append_assoc, List.cons_append] at h
    subst h
    obtain ⟨h1, h2⟩ := firsts_first us (vs ++ l) s [] hfirst (by simp)
    apply fold_same
    · intro t ht hh
      have : t.1 = s.1 := by
        have hmem := (firsts_sub _ _ t ht).1
        rw [← List.cons_append, ← List.append_assoc] at hmem
        rcases List.mem_append.1 hmem with hmem | hmem
        · exact hu t hmem hh.1.symm
        · obtain ⟨d, hd, a, ha, hta⟩ := (makeReset_mem _ l hm).1 t hmem
          have hpt := ((visit_mem d a ha).1 t hta).1
          obtain ⟨x, hx, rfl⟩ := List.mem_map.1 hd
          simp only [Dst.parts, List.mem_singleton] at hpt
          rw [hpt] at hh ⊢
          exact hp x hx hh.1.symm
      rw [h2 t ht this]
    · exact ⟨s, h1, rfl, hk⟩

/-- **C110: Seq and FSM disagree.** For a register with initial value and a statement of the user
    for it, `Seq` resets to the initial value and `FSM` to the value of the user. -/
theorem c110_not_same (r : PReg) (i : Init) (hr : r.init = some i) (f : Nat → Option Bool)
    (e : Bits) : ∃ a b, seqReset [(.whole r, f)] [.whole r] e = some a ∧
      fsmReset [(.whole r, f)] [.whole r] e = some b ∧
      ∀ k < r.width, a r.name k = some (ibit i.val k) ∧ b r.name k = f k := by
  refine ⟨_, _, by simp only [seqReset, List.map, makeReset, visit, rhs, hr]; rfl,
    by simp only [fsmReset, List.map, makeReset, visit, rhs, hr]; rfl, ?_⟩
  intro k hk
  simp [put, firsts, Part.reg, Part.lo, Part.hi, hk]

/-- **C110 fails for FSM with parts**: a statement of the user for a register is overwritten in the
    bit `p`, if the bit is a target of its own. -/
theorem c110_not_parts (r : PReg) (v : Int) (hr : r.init = some (.int v)) (f : Nat → Option Bool)
    (p : Nat) (hp : p < 32) (e : Bits) :
    ∃ b, fsmReset [(.whole r, f)] [.bit r p] e = some b ∧ b r.name p = some (ibit v p) := by
  refine ⟨_, by simp only [fsmReset, List.map, makeReset, visit, rhs, hr]; rfl, ?_⟩
  have hb := getLsbD_int 32 v p
  simp only [hp, decide_true, Bool.true_and] at hb
  simp [put, firsts, Part.reg, Part.lo, Part.hi, ← hb, hp]

/-! ### Concrete cases -/

/-- `a` starts with `0xa5`; the user asks for `0xff`. `Seq`: `0xa5`; `FSM`: `0xff`. -/
example : ∃ a b, seqReset [(.whole exA, fun _ => some true)] [.whole exA] (fun _ _ => none) = some a ∧
    fsmReset [(.whole exA, fun _ => some true)] [.whole exA] (fun _ _ => none) = some b ∧
    a "a" 1 = some false ∧ b "a" 1 = some true := ⟨_, _, rfl, rfl, by decide +kernel⟩

/-- `b` has no initial value: both take the value of the user. -/
example : ∃ a b, seqReset [(.whole exB, fun _ => some true)] [.whole exB, .whole exA]
      (fun _ _ => none) = some a ∧
    fsmReset [(.whole exB, fun _ => some true)] [.whole exB, .whole exA] (fun _ _ => none) = some b ∧
    a "b" 1 = some true ∧ b "b" 1 = some true ∧ a "a" 1 = some false :=
  ⟨_, _, rfl, rfl, by decide +kernel⟩

/-- Two statements of the user: `Seq` takes the last, `FSM` the first. -/
example : ∃ a b, seqReset [(.whole exB, fun _ => some true), (.whole exB, fun _ => some false)] []
      (fun _ _ => none) = some a ∧
    fsmReset [(.whole exB, fun _ => some true), (.whole exB, fun _ => some false)] []
      (fun _ _ => none) = some b ∧
    a "b" 1 = some false ∧ b "b" 1 = some true := ⟨_, _, rfl, rfl, by decide +kernel⟩

end UserReset
