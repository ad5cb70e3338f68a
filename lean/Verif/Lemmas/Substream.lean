import Verif.Model.Substream
import Verif.Model.StreamAcc
import Verif.Lemmas.SchedOps
import Mathlib.Data.List.Basic
import Mathlib.Data.List.Induction
import Mathlib.Data.List.Forall2
import Mathlib.Order.Basic
import Mathlib.Tactic.Common

/-! The meaning of a graph under resets; the records a substream receives. -/

namespace Sub

open Sch

variable {G : ℕ → Node} {N : ℕ} {en : ℕ → Bool}

/-! ### Resets -/

/-- Valid operands (`n` of them) with a nonzero operand number `p` make the operator forget what was before. -/
def Forgets (o : Op) (n p : ℕ) : Prop := ∀ (g : Hist) (r : Bool × List Int) (h : Hist), r.1 = true → r.2.length = n →
  r.2.getD p 0 ≠ 0 → o.f (g ++ r :: h) = o.f (r :: h)

/-- Input `k` is a reset of the graph: every operator is stateless or has a reset operand that is nonzero whenever the input
    is (the input itself, or for instance its disjunction with another reset). -/
def Resets (G : ℕ → Node) (N k : ℕ) : Prop := ∀ id < N, ∀ o, (G id).kind = .op o → o.Window 0 ∨
  ∃ p a, (G id).args[p]? = some a ∧ Forgets o (G id).args.length p ∧
    ∀ (g : List Rec) (r : Rec), r.1 = true → r.2 k ≠ 0 → mean G a (g ++ [r]) ≠ 0

theorem prefixes_append {α : Type*} (g h : List α) : prefixes (g ++ h) = prefixes g ++ (prefixes h).map (g ++ ·) := by
  induction h using List.reverseRecOn with
  | nil => simp [prefixes]
  | append_singleton h a ih =>
    rw [← List.append_assoc, prefixes_snoc, ih, prefixes_snoc, List.map_append]
    simp

theorem mem_prefixes {α : Type*} {h p : List α} (hp : p ∈ prefixes h) : p ≠ [] ∧ p <+: h := by
  obtain ⟨i, hi, rfl⟩ := List.mem_map.1 hp
  rw [List.mem_range] at hi
  refine ⟨?_, List.take_prefix _ _⟩
  intro h0
  have := congrArg List.length h0
  rw [List.length_take, List.length_nil] at this
  omega

theorem prefixes_cons {α : Type*} (r : α) (h : List α) : prefixes (r :: h) = [r] :: (prefixes h).map (r :: ·) := by
  have := prefixes_append [r] h
  simpa [prefixes] using this

theorem argsOf_eq {id : ℕ} {p q : List Rec} (h1 : (p.getLast?.map (·.1)).getD true = (q.getLast?.map (·.1)).getD true)
    (h2 : ∀ a ∈ (G id).args, mean G a p = mean G a q) : argsOf G id p = argsOf G id q := by
  unfold argsOf
  rw [h1, List.map_congr_left h2]

/-- The last prefix. -/
theorem prefixes_last {α β : Type*} (f : List α → β) {h : List α} (hne : h ≠ []) :
    ∃ l, (prefixes h).map f = l ++ [f h] := by
  obtain ⟨l', z, rfl⟩ : ∃ l' z, h = l' ++ [z] := ⟨_, _, (List.dropLast_append_getLast hne).symm⟩
  exact ⟨(prefixes l').map f, by rw [prefixes_snoc, List.map_append]; rfl⟩

/-- What was before a reset does not matter. -/
theorem mean_reset (F : Fresh G N) {k : ℕ} (R : Resets G N k) : ∀ id < N, ∀ (g : List Rec) (r : Rec) (h : List Rec),
    r.1 = true → r.2 k ≠ 0 → mean G id (g ++ r :: h) = mean G id (r :: h) := by
  intro id
  induction id using Nat.strongRecOn with
  | _ id ih =>
  intro hN g r h hr hk
  have hlast : ∀ h : List Rec, (g ++ r :: h).getLast? = (r :: h).getLast? := fun h =>
    List.getLast?_append_of_ne_nil _ (by simp)
  have hargs : ∀ h : List Rec, argsOf G id (g ++ r :: h) = argsOf G id (r :: h) := fun h => by
    refine argsOf_eq (by rw [hlast]) fun a ha => ?_
    have := F.args id hN a (by simp [ha])
    exact ih a this (by omega) g r h hr hk
  cases hkd : (G id).kind with
  | const v => rw [mean_const hkd, mean_const hkd]
  | input k => rw [mean_input hkd, mean_input hkd, hlast]
  | op o =>
    rw [mean_op F hN hkd, mean_op F hN hkd]
    rcases R id hN o hkd with hw | ⟨p, a, hp, hf, ha⟩
    · obtain ⟨l1, e1⟩ := prefixes_last (argsOf G id) (h := g ++ r :: h) (by simp)
      obtain ⟨l2, e2⟩ := prefixes_last (argsOf G id) (h := r :: h) (by simp)
      rw [e1, e2, hw _ _ rfl, hw _ _ rfl, hargs]
    · rw [prefixes_append, List.map_append, List.map_map]
      have : (prefixes (r :: h)).map (argsOf G id ∘ (g ++ ·)) = (prefixes (r :: h)).map (argsOf G id) := by
        rw [prefixes_cons]
        simp only [List.map_cons, List.map_map, Function.comp]
        rw [hargs]
        congr 1
        apply List.map_congr_left
        intro q _
        exact hargs q
      rw [this, prefixes_cons, List.map_cons]
      refine hf _ _ _ ?_ ?_ ?_
      · simp [argsOf, hr]
      · simp [argsOf]
      · have := ha [] r hr hk
        simp only [argsOf, List.getD_eq_getElem?_getD, List.getElem?_map, hp, Option.map_some, Option.getD_some]
        simpa using this

/-- Records that are not valid do not matter before the first other ones. -/
theorem mean_lead (F : Fresh G N) (C : CalmL G N true fun _ => 0) : ∀ id < N, ∀ (g h : List Rec), (∀ r ∈ g, r.1 = false) →
    h ≠ [] → mean G id (g ++ h) = mean G id h := by
  intro id
  induction id using Nat.strongRecOn with
  | _ id ih =>
  intro hN g h hg hne
  have hlast : ∀ h : List Rec, h ≠ [] → (g ++ h).getLast? = h.getLast? := fun h hne =>
    List.getLast?_append_of_ne_nil _ hne
  have hargs : ∀ h : List Rec, h ≠ [] → argsOf G id (g ++ h) = argsOf G id h := fun h hne => by
    refine argsOf_eq (by rw [hlast h hne]) fun a ha => ?_
    have := F.args id hN a (by simp [ha])
    exact ih a this (by omega) g h hg hne
  cases hkd : (G id).kind with
  | const v => rw [mean_const hkd, mean_const hkd]
  | input k => rw [mean_input hkd, mean_input hkd, hlast h hne]
  | op o =>
    rw [mean_op F hN hkd, mean_op F hN hkd]
    rcases C id hN o hkd with ⟨m, hw, hm, _⟩ | ⟨_, hl, _⟩
    · have : m = 0 := by simpa using hm
      subst this
      obtain ⟨l1, e1⟩ := prefixes_last (argsOf G id) (h := g ++ h) (by simp [hne])
      obtain ⟨l2, e2⟩ := prefixes_last (argsOf G id) (h := h) hne
      rw [e1, e2, hw _ _ rfl, hw _ _ rfl, hargs h hne]
    · rw [prefixes_append, List.map_append, List.map_map]
      have : (prefixes h).map (argsOf G id ∘ (g ++ ·)) = (prefixes h).map (argsOf G id) := by
        apply List.map_congr_left
        intro q hq
        exact hargs q (mem_prefixes hq).1
      rw [this]
      apply hl
      intro p hp
      obtain ⟨q, hq, rfl⟩ := List.mem_map.1 hp
      obtain ⟨hq1, hq2⟩ := mem_prefixes hq
      have hz := List.getLast?_eq_some_getLast hq1
      have : q.getLast hq1 ∈ g := hq2.subset (List.getLast_mem hq1)
      simp [argsOf, hz, hg _ this]

/-- The value depends on the inputs the graph has. -/
theorem mean_inputs (F : Fresh G N) {P : ℕ → Prop} (hP : ∀ id < N, ∀ k, (G id).kind = .input k → P k) : ∀ id < N,
    ∀ (g h : List Rec), List.Forall₂ (fun r r' : Rec => r.1 = r'.1 ∧ ∀ k, P k → r.2 k = r'.2 k) g h →
    mean G id g = mean G id h := by
  intro id
  induction id using Nat.strongRecOn with
  | _ id ih =>
  intro hN g h hgh
  have hl : ∀ g h : List Rec, List.Forall₂ (fun r r' : Rec => r.1 = r'.1 ∧ ∀ k, P k → r.2 k = r'.2 k) g h →
      (g.getLast? = none ∧ h.getLast? = none) ∨ ∃ r r', g.getLast? = some r ∧ h.getLast? = some r' ∧ r.1 = r'.1 ∧
        ∀ k, P k → r.2 k = r'.2 k := by
    intro g h hgh
    induction hgh with
    | nil => exact Or.inl ⟨rfl, rfl⟩
    | @cons a b l1 l2 hab hll ih =>
      right
      rcases ih with ⟨h1, h2⟩ | ⟨r, r', h1, h2, h3⟩
      · rw [List.getLast?_eq_none_iff] at h1 h2
        subst h1; subst h2
        exact ⟨a, b, rfl, rfl, hab⟩
      · refine ⟨r, r', ?_, ?_, h3⟩
        · rw [List.getLast?_cons, h1]; rfl
        · rw [List.getLast?_cons, h2]; rfl
  cases hkd : (G id).kind with
  | const v => rw [mean_const hkd, mean_const hkd]
  | input k =>
    rw [mean_input hkd, mean_input hkd]
    rcases hl g h hgh with ⟨h1, h2⟩ | ⟨r, r', h1, h2, _, h3⟩
    · rw [h1, h2]
    · rw [h1, h2]; exact h3 k (hP id hN k hkd)
  | op o =>
    rw [mean_op F hN hkd, mean_op F hN hkd]
    congr 1
    unfold prefixes
    rw [hgh.length_eq, List.map_map, List.map_map]
    apply List.map_congr_left
    intro i _
    have ht : List.Forall₂ (fun r r' : Rec => r.1 = r'.1 ∧ ∀ k, P k → r.2 k = r'.2 k) (g.take (i + 1)) (h.take (i + 1)) :=
      List.forall₂_take _ hgh
    refine argsOf_eq ?_ fun a ha => ?_
    · rcases hl _ _ ht with ⟨h1, h2⟩ | ⟨r, r', h1, h2, h3, _⟩
      · rw [h1, h2]
      · rw [h1, h2]; simp [h3]
    · have := F.args id hN a (by simp [ha])
      exact ih a this (by omega) _ _ ht

/-! ### Cycles of a run -/

/-- The cycles from `a` up to `b`, without `b`, in which the stream advances. -/
def seg (en : ℕ → Bool) (a b : ℕ) : List ℕ := (List.range b).filter fun t => decide (a ≤ t) && en t

theorem seg_self (a : ℕ) : seg en a a = [] := by
  unfold seg
  rw [List.filter_eq_nil_iff]
  intro t ht
  rw [List.mem_range] at ht
  simp; omega

theorem seg_succ {a b : ℕ} (h : a ≤ b) : seg en a (b + 1) = if en b then seg en a b ++ [b] else seg en a b := by
  unfold seg
  rw [List.range_succ, List.filter_append]
  cases hb : en b <;> simp [hb, h]

theorem cyc_seg {a b : ℕ} (h : a ≤ b) : cyc en b = cyc en a ++ seg en a b := by
  induction b, h using Nat.le_induction with
  | base => rw [seg_self, List.append_nil]
  | succ b h ih =>
    rw [cyc_succ, seg_succ h, ih]
    cases en b <;> simp

theorem seg_mem {a b t : ℕ} (h : t ∈ seg en a b) : a ≤ t ∧ t < b ∧ en t = true := by
  unfold seg at h
  rw [List.mem_filter, List.mem_range] at h
  simp only [Bool.and_eq_true, decide_eq_true_eq] at h
  exact ⟨h.2.1, h.1, h.2.2⟩

theorem seg_congr {en' : ℕ → Bool} {a b : ℕ} (h : ∀ t, a ≤ t → t < b → en t = en' t) : seg en a b = seg en' a b := by
  unfold seg
  apply List.filter_congr
  intro t ht
  rw [List.mem_range] at ht
  by_cases hat : a ≤ t
  · simp [hat, h t hat ht]
  · simp [hat]

/-! ### The records of the child -/

/-- The records the child receives for a history of the operator. -/
def recs (names : List ℕ) (h : Hist) : List Rec := (List.range (h.length + 1)).map fun i => (h.take i).foldl (put names) zero

theorem recs_snoc (names : List ℕ) (h : Hist) (u : Bool × List Int) :
    recs names (h ++ [u]) = recs names h ++ [(h ++ [u]).foldl (put names) zero] := by
  unfold recs
  rw [List.length_append, List.length_singleton, List.range_succ, List.map_append]
  congr 1
  · apply List.map_congr_left
    intro i hi
    rw [List.mem_range] at hi
    rw [List.take_append_of_le_length (by omega)]
  · simp only [List.map_singleton]
    rw [List.take_of_length_le (by simp)]

theorem recs_nil (names : List ℕ) : recs names [] = [zero] := rfl

theorem recs_ne (names : List ℕ) (h : Hist) : recs names h ≠ [] := by
  unfold recs; simp

/-- The states from `s` on. -/
def after (names : List ℕ) (s : Rec) (h : Hist) : List Rec := (prefixes h).map fun p => p.foldl (put names) s

theorem recs_append (names : List ℕ) (g h : Hist) :
    recs names (g ++ h) = recs names g ++ after names (g.foldl (put names) zero) h := by
  induction h using List.reverseRecOn with
  | nil => simp [after, prefixes]
  | append_singleton h a ih =>
    rw [← List.append_assoc, recs_snoc, ih, after, after, prefixes_snoc, List.map_append, List.append_assoc]
    simp [List.foldl_append]

theorem after_cons (names : List ℕ) (s : Rec) (r : Bool × List Int) (h : Hist) :
    after names s (r :: h) = put names s r :: after names (put names s r) h := by
  unfold after
  rw [prefixes_cons]
  simp [List.map_map, Function.comp_def]

theorem lookup_none {names : List ℕ} {as : List Int} {k : ℕ} (h : k ∉ names) : operand names as k = none := by
  unfold operand
  induction names generalizing as with
  | nil => rfl
  | cons n names ih =>
    rw [List.mem_cons, not_or] at h
    cases as with
    | nil => rfl
    | cons a as =>
      rw [List.zip_cons_cons, List.lookup_cons]
      have : (k == n) = false := by simpa using h.1
      rw [this]
      exact ih h.2

theorem lookup_some {names : List ℕ} {as : List Int} {k : ℕ} (h : k ∈ names) (hl : names.length ≤ as.length) :
    ∃ v, operand names as k = some v := by
  unfold operand
  induction names generalizing as with
  | nil => simp at h
  | cons n names ih =>
    cases as with
    | nil => simp at hl
    | cons a as =>
      rw [List.zip_cons_cons, List.lookup_cons]
      by_cases hk : k = n
      · exact ⟨a, by simp [hk]⟩
      · have : (k == n) = false := by simpa using hk
        rw [this]
        exact ih ((List.mem_cons.1 h).resolve_left hk) (by simpa using hl)

/-- With distinct names, the operand number `p` goes to variable `names[p]`. -/
theorem operand_get {names : List ℕ} (hn : names.Nodup) {as : List Int} {p k : ℕ} (hk : names[p]? = some k)
    (hl : names.length ≤ as.length) : operand names as k = some (as.getD p 0) := by
  unfold operand
  induction names generalizing as p with
  | nil => simp at hk
  | cons n names ih =>
    rw [List.nodup_cons] at hn
    cases as with
    | nil => simp at hl
    | cons a as =>
      rw [List.zip_cons_cons, List.lookup_cons]
      cases p with
      | zero =>
        simp only [List.getElem?_cons_zero, Option.some.injEq] at hk
        simp [hk]
      | succ p =>
        simp only [List.getElem?_cons_succ] at hk
        have hmem : k ∈ names := List.mem_of_getElem? hk
        have : (k == n) = false := by
          simp only [beq_eq_false_iff_ne, ne_eq]
          rintro rfl
          exact hn.1 hmem
        rw [this]
        simpa using ih hn.2 hk (by simpa using hl)

/-- A variable that is not written keeps its value. -/
theorem fold_keep {names : List ℕ} {k : ℕ} (hk : k ∉ names) (g : Hist) (s : Rec) : (g.foldl (put names) s).2 k = s.2 k := by
  induction g generalizing s with
  | nil => rfl
  | cons r g ih =>
    rw [List.foldl_cons, ih]
    unfold put
    cases r.1
    · rfl
    · simp [lookup_none hk]

/-- Full valid operands decide the registers. -/
theorem put_full {names : List ℕ} {r : Bool × List Int} (hr : r.1 = true) (hl : names.length ≤ r.2.length) (g : Hist) :
    put names (g.foldl (put names) zero) r = put names zero r := by
  unfold put
  rw [if_pos hr, if_pos hr]
  congr 1
  funext k
  by_cases hk : k ∈ names
  · obtain ⟨v, hv⟩ := lookup_some hk hl
    rw [hv]; rfl
  · rw [lookup_none hk]
    exact fold_keep hk g zero

theorem fold_invalid {names : List ℕ} {g : Hist} (hg : ∀ p ∈ g, p.1 = false) (s : Rec) : g.foldl (put names) s = s := by
  induction g generalizing s with
  | nil => rfl
  | cons r g ih =>
    rw [List.foldl_cons, ih (fun p hp => hg p (by simp [hp]))]
    simp [put, hg r (by simp)]

/-- An accumulator without `size` and `interval` (stream/stypes.py:3014-3148): operands `reset`, `enable`, `x`. -/
def accReset (c : Stream.AccCfg) : Op :=
  accOp c.init (fun s as => c.step s ⟨true, as.getD 1 0 != 0, as.getD 0 0 != 0, as.getD 2 0⟩) (·.data)

theorem accReset_forgets {c : Stream.AccCfg} (h1 : c.size = none) (h2 : c.interval = none) (h3 : c.hasReset = true)
    (h4 : c.pulse = false) (n : ℕ) : Forgets (accReset c) n 0 := by
  intro g r h hr _ hp
  set st : Stream.AccSt → List Int → Stream.AccSt :=
    fun s as => c.step s ⟨true, as.getD 1 0 != 0, as.getD 0 0 != 0, as.getD 2 0⟩ with hst
  set fo : Stream.AccSt → Bool × List Int → Stream.AccSt := fun s p => if p.1 then st s p.2 else s with hfo
  have keep : ∀ (g : Hist) (s : Stream.AccSt), (g.foldl fo s).count = s.count ∧ (g.foldl fo s).prevMax = s.prevMax ∧
      (g.foldl fo s).icount = s.icount := by
    intro g
    induction g with
    | nil => intro s; exact ⟨rfl, rfl, rfl⟩
    | cons p g ih =>
      intro s
      rw [List.foldl_cons]
      obtain ⟨q1, q2, q3⟩ := ih (fo s p)
      rw [q1, q2, q3]
      simp only [hfo]
      cases p.1
      · exact ⟨rfl, rfl, rfl⟩
      · simp [hst, Stream.AccCfg.step, h1, h2]
  change ((g ++ r :: h).foldl fo c.init).data = ((r :: h).foldl fo c.init).data
  rw [List.foldl_append, List.foldl_cons, List.foldl_cons]
  congr 2
  obtain ⟨q1, q2, q3⟩ := keep g c.init
  generalize g.foldl fo c.init = X at q1 q2 q3 ⊢
  have hrst : (r.2.getD 0 0 != 0) = true := by simpa using hp
  simp only [hfo, hr, if_true, hst, hrst]
  simp only [Stream.AccCfg.step, Stream.AccCfg.en2, Stream.AccCfg.value, Stream.AccCfg.curData, Stream.AccCfg.resetCond,
    h1, h2, h3, h4, q1, q2, q3]
  simp

end Sub
