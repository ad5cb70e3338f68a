import Verif.Lemmas.SchedInv
import Mathlib.Tactic.Ring

/-! The circuit of a scheduled graph computes the graph. -/

namespace Sch

variable {G : ℕ → Node} {N : ℕ} {en : ℕ → Bool}

/-! ### Cycles in which the stream advances -/

/-- These cycles before `t`, and `t`. -/
def hp (en : ℕ → Bool) (t : ℕ) : List ℕ := cyc en t ++ [t]

theorem cyc_succ (t : ℕ) : cyc en (t + 1) = if en t then cyc en t ++ [t] else cyc en t := by
  unfold cyc
  rw [List.range_succ, List.filter_append]
  cases h : en t <;> simp [h]

theorem hp_length (t : ℕ) : (hp en t).length = (cyc en t).length + 1 := by simp [hp]

theorem hp_last (t : ℕ) : (hp en t)[(cyc en t).length]? = some t := by simp [hp]

theorem hp_succ_get {t i : ℕ} (hi : i < (cyc en (t + 1)).length) : (hp en (t + 1))[i]? = (hp en t)[i]? := by
  unfold hp
  rw [List.getElem?_append_left hi]
  rw [cyc_succ] at hi ⊢
  cases h : en t
  · simp only [h] at hi ⊢
    rw [List.getElem?_append_left (by simpa using hi)]; rfl
  · rfl

theorem hp_succ_take {t i : ℕ} (hi : i < (cyc en (t + 1)).length) : (hp en (t + 1)).take (i + 1) = (hp en t).take (i + 1) := by
  apply List.ext_getElem?
  intro j
  rw [List.getElem?_take, List.getElem?_take]
  split_ifs with hj
  · exact hp_succ_get (by omega)
  · rfl

theorem hp_get : ∀ (t i : ℕ), i ≤ (cyc en t).length → ∃ t', (hp en t)[i]? = some t' ∧ hp en t' = (hp en t).take (i + 1)
  | 0, i, hi => by
    have : i = 0 := by simpa [cyc] using hi
    subst this
    exact ⟨0, by simp [hp, cyc], by simp [hp, cyc]⟩
  | t + 1, i, hi => by
    rcases Nat.lt_or_ge i (cyc en (t + 1)).length with h | h
    · have hi' : i ≤ (cyc en t).length := by
        rw [cyc_succ] at h
        cases h' : en t
        · simp [h'] at h; omega
        · simp [h'] at h; omega
      obtain ⟨t', q1, q2⟩ := hp_get t i hi'
      exact ⟨t', by rw [hp_succ_get h, q1], by rw [hp_succ_take h, q2]⟩
    · have : i = (cyc en (t + 1)).length := by omega
      subst this
      refine ⟨t + 1, hp_last (t + 1), ?_⟩
      rw [List.take_of_length_le (by rw [hp_length])]

theorem hp_cnt {t t' i : ℕ} (hi : i ≤ (cyc en t).length) (h : hp en t' = (hp en t).take (i + 1)) :
    (cyc en t').length = i := by
  have := congrArg List.length h
  rw [List.length_take, hp_length, hp_length] at this
  omega

/-! ### The meaning of a graph -/

/-- The nonempty prefixes. -/
def prefixes {α : Type*} (h : List α) : List (List α) := (List.range h.length).map fun i => h.take (i + 1)

theorem prefixes_length {α : Type*} (h : List α) : (prefixes h).length = h.length := by simp [prefixes]

theorem prefixes_get {α : Type*} (h : List α) {i : ℕ} (hi : i < h.length) : (prefixes h)[i]? = some (h.take (i + 1)) := by
  simp [prefixes, hi]

theorem prefixes_snoc {α : Type*} (h : List α) (a : α) : prefixes (h ++ [a]) = prefixes h ++ [h ++ [a]] := by
  unfold prefixes
  rw [List.length_append, List.length_singleton, List.range_succ, List.map_append]
  congr 1
  · apply List.map_congr_left
    intro i hi
    rw [List.mem_range] at hi
    rw [List.take_append_of_le_length (by omega)]
  · simp only [List.map_singleton]
    rw [List.take_of_length_le (by simp)]

/-- A record of the inputs: the valid flag and the values. -/
abbrev Rec := Bool × (ℕ → Int)

/-- The value of a node after the given inputs, one record per cycle in which the stream advances: what the operators
    compute without any latency. -/
def den (G : ℕ → Node) : ℕ → ℕ → List Rec → Int
  | 0, _, _ => 0
  | f + 1, id, h =>
    match (G id).kind with
    | .const v => v
    | .input k => (h.getLast?.map (·.2 k)).getD 0
    | .op o => o.f ((prefixes h).map fun p => ((p.getLast?.map (·.1)).getD true, (G id).args.map fun a => den G f a p))

/-- The value of node `id`. -/
def mean (G : ℕ → Node) (id : ℕ) : List Rec → Int := den G (id + 1) id

/-- The operands of a node. -/
def argsOf (G : ℕ → Node) (id : ℕ) (p : List Rec) : Bool × List Int :=
  ((p.getLast?.map (·.1)).getD true, (G id).args.map fun a => mean G a p)

theorem den_fuel (F : Fresh G N) : ∀ f id, id < f → id < N → den G f id = mean G id
  | 0, id, h, _ => absurd h (Nat.not_lt_zero _)
  | f + 1, id, h, hN => by
    funext x
    unfold mean den
    cases hk : (G id).kind with
    | const v => rfl
    | input k => rfl
    | op o =>
      simp only
      congr 1
      apply List.map_congr_left
      intro p _
      congr 1
      apply List.map_congr_left
      intro a ha
      have hlt : a < id := F.args id hN a (by simp [ha])
      rw [den_fuel F f a (by omega) (by omega), den_fuel F id a hlt (by omega)]

theorem mean_op (F : Fresh G N) {id : ℕ} (hN : id < N) {o : Op} (hk : (G id).kind = .op o) (h : List Rec) :
    mean G id h = o.f ((prefixes h).map (argsOf G id)) := by
  unfold mean den
  rw [hk]
  simp only
  congr 1
  apply List.map_congr_left
  intro p _
  unfold argsOf
  congr 1
  apply List.map_congr_left
  intro a ha
  have hlt : a < id := F.args id hN a (by simp [ha])
  rw [den_fuel F id a hlt (by omega)]

theorem mean_const {id : ℕ} {v : Int} (hk : (G id).kind = .const v) (h : List Rec) : mean G id h = v := by
  unfold mean den; rw [hk]

theorem mean_input {id k : ℕ} (hk : (G id).kind = .input k) (h : List Rec) :
    mean G id h = (h.getLast?.map (·.2 k)).getD 0 := by
  unfold mean den; rw [hk]

/-! ### Operators -/

/-- The value depends on the last `m + 1` operands only. -/
def Op.Window (o : Op) (m : ℕ) : Prop := ∀ g h : Hist, h.length = m + 1 → o.f (g ++ h) = o.f h

/-- The value depends on the valid operands only. -/
def Op.Gated (o : Op) : Prop := ∀ h : Hist, o.f h = o.f (h.filter (·.1))

/-- Operands that are not valid do not matter before the first valid ones. -/
def Op.Lead (o : Op) : Prop := ∀ g h : Hist, (∀ p ∈ g, p.1 = false) → o.f (g ++ h) = o.f h

theorem Op.Gated.lead {o : Op} (hg : o.Gated) : o.Lead := by
  intro g h hf
  rw [hg (g ++ h), hg h, List.filter_append, List.filter_eq_nil_iff.2 (fun p hp => by simp [hf p hp]), List.nil_append]

theorem delayOp_window : delayOp.Window 0 := by
  intro g h hl
  match h, hl with
  | [a], _ => simp [delayOp, lastArgs]

/-- Which operators a graph may contain: node `id` depends on at most `mem id` records before the last one, or on the valid
    ones only. -/
def Calm (G : ℕ → Node) (N : ℕ) (gated : Bool) (mem : ℕ → ℕ) : Prop :=
  ∀ id < N, ∀ o, (G id).kind = .op o →
    (∃ m, o.Window m ∧ m ≤ mem id ∧ ∀ a ∈ (G id).args, mem a + m ≤ mem id) ∨
    gated = true ∧ o.Gated ∧ ∀ a ∈ (G id).args, mem a = 0

/-- The same, where only the operands before the first valid ones are ignored. -/
def CalmL (G : ℕ → Node) (N : ℕ) (gated : Bool) (mem : ℕ → ℕ) : Prop :=
  ∀ id < N, ∀ o, (G id).kind = .op o →
    (∃ m, o.Window m ∧ m ≤ mem id ∧ ∀ a ∈ (G id).args, mem a + m ≤ mem id) ∨
    gated = true ∧ o.Lead ∧ ∀ a ∈ (G id).args, mem a = 0

theorem Calm.lead {gated : Bool} {mem : ℕ → ℕ} (C : Calm G N gated mem) : CalmL G N gated mem := fun id hN o hk =>
  (C id hN o hk).imp (fun h => h) fun ⟨h1, h2, h3⟩ => ⟨h1, h2.lead, h3⟩

/-! ### The valid flags -/

theorem valid_eq {iv : Option (ℕ → Bool)} {valid : ℕ → ℕ → Bool} (V : ValidChain en iv valid) : ∀ s t,
    valid s t = if s ≤ (cyc en t).length then
      (((hp en t)[(cyc en t).length - s]?).map fun t' => (iv.map (· t')).getD true).getD true else iv.isNone
  | 0, t => by
    rw [V.first, if_pos (Nat.zero_le _), Nat.sub_zero, hp_last]; rfl
  | s + 1, 0 => by
    rw [V.init]; simp [cyc]
  | s + 1, t + 1 => by
    rw [V.step, valid_eq V s t, valid_eq V (s + 1) t]
    cases h : en t
    · have hc : (cyc en (t + 1)).length = (cyc en t).length := by rw [cyc_succ, h]; rfl
      rw [if_neg (by simp), hc]
      by_cases hs : s + 1 ≤ (cyc en t).length
      · rw [if_pos hs, if_pos hs, hp_succ_get (by omega)]
      · rw [if_neg hs, if_neg hs]
    · have hc : (cyc en (t + 1)).length = (cyc en t).length + 1 := by rw [cyc_succ, h]; simp
      rw [if_pos rfl, hc]
      by_cases hs : s ≤ (cyc en t).length
      · rw [if_pos hs, if_pos (by omega), hp_succ_get (by omega), Nat.add_sub_add_right]
      · rw [if_neg hs, if_neg (by omega)]

/-! ### Alignment -/

/-- The record of the inputs in cycle `t`. -/
def recAt (iv : Option (ℕ → Bool)) (x : ℕ → ℕ → Int) (t : ℕ) : Rec := ((iv.map (· t)).getD true, fun k => x k t)

/-- `sig` at stage `s` is `D` of the inputs `s` advances before. -/
def Al (en : ℕ → Bool) (iv : Option (ℕ → Bool)) (x : ℕ → ℕ → Int) (mem s : ℕ) (D : List Rec → Int) (sig : ℕ → Int) : Prop :=
  ∀ t, s + mem ≤ (cyc en t).length → sig t = D (((hp en t).take ((cyc en t).length + 1 - s)).map (recAt iv x))

/-- The operator case. -/
theorem op_aligned (F : Fresh G N) {iv : Option (ℕ → Bool)} {x : ℕ → ℕ → Int} {valid : ℕ → ℕ → Bool}
    (V : ValidChain en iv valid) {mem : ℕ → ℕ} (C : CalmL G N iv.isSome mem) {id : ℕ} (hN : id < N) {o : Op}
    (hk : (G id).kind = .op o) (s : ℕ) (as : List ℕ) (org : ℕ → ℕ) (hor : as.map org = (G id).args)
    (sigs : ℕ → ℕ → Int) (hal : ∀ a ∈ as, Al en iv x (mem (org a)) s (mean G (org a)) (sigs a)) (sig : ℕ → Int)
    (hd : o.Drives en (fun t => (valid s t, as.map (sigs · t))) sig) :
    Al en iv x (mem id) (s + o.lat) (mean G id) sig := by
  intro t ht
  have hsig := hd t (by omega)
  change sig t = o.f (((hp en t).take ((cyc en t).length + 1 - o.lat)).map _) at hsig
  rw [hsig, mean_op F hN hk]
  set c := (cyc en t).length with hc
  set u : ℕ → Bool × List Int := fun t => (valid s t, as.map (sigs · t)) with hu
  set L1 := ((hp en t).take (c + 1 - o.lat)).map u with hL1
  set X := ((hp en t).take (c + 1 - (s + o.lat))).map (recAt iv x) with hX
  set T := (prefixes X).map (argsOf G id) with hT
  have hXl : X.length = c + 1 - (s + o.lat) := by
    rw [hX, List.length_map, List.length_take, hp_length]; omega
  have hTl : T.length = c + 1 - (s + o.lat) := by rw [hT, List.length_map, prefixes_length, hXl]
  have hL1l : L1.length = c + 1 - o.lat := by
    rw [hL1, List.length_map, List.length_take, hp_length]; omega
  have hmemA : ∀ a ∈ as, org a ∈ (G id).args := fun a ha => by rw [← hor]; exact List.mem_map.2 ⟨a, ha, rfl⟩
  -- the entries agree
  have entry : ∀ i, i < c + 1 - (s + o.lat) → (∀ a ∈ (G id).args, mem a ≤ i) → L1[s + i]? = T[i]? := by
    intro i hi hm
    obtain ⟨t', q1, q2⟩ := hp_get (en := en) t (s + i) (by omega)
    have hct' := hp_cnt (by omega) q2
    have e1 : L1[s + i]? = some (u t') := by
      rw [hL1, List.getElem?_map, List.getElem?_take, if_pos (by omega), q1]; rfl
    have e2 : T[i]? = some (argsOf G id (X.take (i + 1))) := by
      rw [hT, List.getElem?_map, prefixes_get _ (by omega)]; rfl
    have hXt : X.take (i + 1) = ((hp en t).take (i + 1)).map (recAt iv x) := by
      rw [hX, ← List.map_take, List.take_take, Nat.min_eq_left (by omega)]
    have hhp : (hp en t').take (i + 1) = (hp en t).take (i + 1) := by
      rw [q2, List.take_take, Nat.min_eq_left (by omega)]
    rw [e1, e2, hu, hXt]
    unfold argsOf
    simp only [Option.some.injEq, Prod.mk.injEq]
    constructor
    · rw [valid_eq V, if_pos (by omega), hct', Nat.add_sub_cancel_left]
      obtain ⟨t2, r1, r2⟩ := hp_get (en := en) t i (by omega)
      have hg : (hp en t')[i]? = some t2 := by
        rw [q2, List.getElem?_take, if_pos (by omega), r1]
      rw [hg]
      have hl : (((hp en t).take (i + 1)).map (recAt iv x)).getLast? = some (recAt iv x t2) := by
        rw [List.getLast?_eq_getElem?, List.length_map, List.length_take, hp_length,
          Nat.min_eq_left (by omega), List.getElem?_map, List.getElem?_take, if_pos (by omega)]
        rw [show i + 1 - 1 = i by omega, r1]; rfl
      rw [hl]; rfl
    · rw [← hor, List.map_map]
      apply List.map_congr_left
      intro a ha
      have := hal a ha t' (by rw [hct']; have := hm (org a) (hmemA a ha); omega)
      rw [this, hct', show s + i + 1 - s = i + 1 by omega, hhp]; rfl
  rcases C id hN o hk with ⟨m, hw, hmle, hm⟩ | ⟨hg, hgt, hm⟩
  · -- windowed
    have hn : m + 1 ≤ c + 1 - (s + o.lat) := by omega
    have split : ∀ l : Hist, m + 1 ≤ l.length → o.f l = o.f (l.drop (l.length - (m + 1))) := by
      intro l hl
      conv_lhs => rw [← List.take_append_drop (l.length - (m + 1)) l]
      exact hw _ _ (by rw [List.length_drop]; omega)
    rw [split L1 (by omega), split T (by omega)]
    congr 1
    apply List.ext_getElem?
    intro j
    rw [List.getElem?_drop, List.getElem?_drop, hL1l, hTl]
    by_cases hj : j < m + 1
    · have := entry (c + 1 - (s + o.lat) - (m + 1) + j) (by omega)
        (fun a ha => by have := hm a ha; omega)
      rw [← this]
      congr 1
      omega
    · rw [List.getElem?_eq_none (by omega), List.getElem?_eq_none (by omega)]
  · -- gated
    have hdrop : L1.drop s = T := by
      apply List.ext_getElem?
      intro j
      rw [List.getElem?_drop]
      by_cases hj : j < c + 1 - (s + o.lat)
      · exact entry j hj (fun a ha => by rw [hm a ha]; exact Nat.zero_le _)
      · rw [List.getElem?_eq_none (by omega), List.getElem?_eq_none (by omega)]
    have hpre : ∀ p ∈ L1.take s, p.1 = false := by
      intro p hp'
      obtain ⟨i, hi, hpi⟩ := List.getElem_of_mem hp'
      have hi' : i < s ∧ i < c + 1 - o.lat := by
        rw [List.length_take, hL1l] at hi; omega
      obtain ⟨t', q1, q2⟩ := hp_get (en := en) t i (by omega)
      have hct' := hp_cnt (by omega) q2
      have : (L1.take s)[i]? = some (u t') := by
        rw [List.getElem?_take, if_pos hi'.1, hL1, List.getElem?_map, List.getElem?_take, if_pos hi'.2, q1]; rfl
      rw [List.getElem?_eq_getElem hi, hpi] at this
      cases this
      simp only [hu]
      rw [valid_eq V, if_neg (by omega)]
      cases iv <;> simp_all
    conv_lhs => rw [← List.take_append_drop s L1]
    rw [hgt _ _ hpre, hdrop]

/-- Every scheduled node is aligned. -/
theorem aligned (F : Fresh G N) {h : Heap} (I : Inv G N h) {iv : Option (ℕ → Bool)} {x : ℕ → ℕ → Int}
    {valid : ℕ → ℕ → Bool} {sig : ℕ → ℕ → Int} (R : Run h en iv x valid sig) {mem : ℕ → ℕ}
    (C : CalmL G N iv.isSome mem) : ∀ o e id, id < h.next → h.origin id = o → (h.node id).end_ = some e →
      Al en iv x (mem o) e (mean G o) (sig id) := by
  intro o
  induction o using Nat.strongRecOn with
  | _ o iho =>
  intro e
  induction e using Nat.strongRecOn with
  | _ e ihe =>
  intro id hid hor hend
  by_cases hN : id < N
  · have ho : o = id := by rw [← hor, I.origin_self hN]
    subst ho
    cases hk : (G o).kind with
    | const v => rw [(I.const o hN v hk).1] at hend; cases hend
    | input k =>
      obtain ⟨q1, q2⟩ := I.input o hN k hk
      have he : e = 0 := by
        rw [q1] at hend
        rcases q2 with q2 | q2 <;> rw [q2] at hend <;> cases hend; rfl
      subst he
      intro t _
      rw [R.input o k hid (by rw [I.kind o hN, hk]) t, mean_input hk]
      rw [Nat.sub_zero, List.take_of_length_le (by rw [hp_length])]
      simp [hp, recAt]
    | op q =>
      rcases I.op o hN q hk with ⟨_, q2, _⟩ | ⟨s, q1, q2, q3⟩
      · rw [q2] at hend; cases hend
      · have he : e = s + q.lat := by rw [q2] at hend; cases hend; rfl
        subst he
        refine op_aligned F R.chain C hN hk s (h.node o).args h.origin (I.origin o hN) sig ?_ (sig o)
          (R.op o q s hid (by rw [I.kind o hN, hk]) q1)
        intro a ha
        have hal := I.argsLt o hid a ha
        have hlt : h.origin a < o := F.args o hN _ (by
          have : h.origin a ∈ (G o).args := by rw [← I.origin o hN]; exact List.mem_map.2 ⟨a, ha, rfl⟩
          simp [this])
        rcases q3.1 a ha with r | ⟨⟨v, r⟩, r'⟩
        · exact iho _ hlt s a hal rfl r
        · have haN : a < N := by
            by_contra hge
            obtain ⟨_, _, _, _, w, _⟩ := I.delay a (by omega) hal
            rw [r] at w; cases w
          intro t _
          rw [R.const a v hal r t, I.origin_self haN, mean_const (by rw [← I.kind a haN, r])]
  · obtain ⟨o', p, e', e0, q1, q2, q3, q4, q5, q6, q7, q8, _, _⟩ := I.delay id (by omega) hid
    have ho : o = o' := by rw [← hor]; unfold Heap.origin; rw [q3]; rfl
    subst ho
    have he : e = e' + 1 := by rw [q5] at hend; cases hend; rfl
    subst he
    have hp' := ihe e' (by omega) p (I.argsLt id hid p (by rw [q2]; simp)) q7 q8
    have hd := R.op id delayOp e' hid q1 q4
    intro t ht
    have := hd t (by simp [delayOp]; omega)
    rw [this]
    change (lastArgs (((hp en t).take ((cyc en t).length + 1 - 1)).map _)).headD 0 = _
    obtain ⟨t', r1, r2⟩ := hp_get (en := en) t ((cyc en t).length - 1) (by omega)
    have hct' := hp_cnt (by omega) r2
    have hlast : ((hp en t).take ((cyc en t).length + 1 - 1)).getLast? = some t' := by
      rw [List.getLast?_eq_getElem?, List.length_take, hp_length, Nat.min_eq_left (by omega), List.getElem?_take,
        if_pos (by omega)]
      exact r1
    unfold lastArgs
    rw [List.getLast?_map, hlast, q2]
    simp only [Option.map_some, Option.getD_some, List.map_cons, List.headD_cons]
    rw [hp' t' (by omega), hct', r2, List.take_take]
    congr 3
    omega

end Sch
