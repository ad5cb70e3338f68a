import Verif.Lemmas.Substream
import Verif.Props.C24_Schedule

/-!
# C79: a substream computes its child stream

`Run` (Model/Sched.lean) is the circuit of the child; `Edge` (Model/Substream.lean) is what the operator writes into it;
`parentReady` and `childReady` are the enables.
-/

namespace Sub

open Sch

variable {G : ℕ → Node} {N : ℕ} {en enc busy rest ic others : ℕ → Bool}

/-- While the parent is busy and nothing else uses the child, they advance together. -/
theorem c79_together {r b i o p c : Bool} (hp : p = parentReady r b i) (hc : c = childReady i o b p) (hb : b = true)
    (ho : o = true) : c = p := by
  subst hb ho hp hc
  cases r <;> cases i <;> rfl

/-- Whatever stalls one of them on its own stalls it, and a child that stalls also stalls its busy parent. -/
theorem c79_stalls {r b i o p c : Bool} (hp : p = parentReady r b i) (hc : c = childReady i o b p) :
    (i = false → c = false) ∧ (o = false → c = false) ∧ (r = false → p = false) ∧ (b = true → i = false → p = false) ∧
      (b = true → p = false → c = false) ∧ (b = false → r = true → p = true) := by
  subst hp hc
  cases r <;> cases i <;> cases o <;> cases b <;> decide

/-- An output of the child as an operator of the parent: one more latency than the depth `d` of the child; the value is that
    of the child's graph for the records it received. -/
def subOp (names : List ℕ) (G : ℕ → Node) (o d : ℕ) : Op := ⟨d + 1, fun h => mean G o (recs names h)⟩

theorem recs_run {iv : ℕ → Bool} {x : ℕ → ℕ → Int} {names : List ℕ} {u : ℕ → Bool × List Int}
    (h0 : (iv 0, fun k => x k 0) = zero) (hE : ∀ t, Edge names en u iv x t) : ∀ c,
    recAt (some iv) x c = ((cyc en c).map u).foldl (put names) zero ∧
    (hp en c).map (recAt (some iv) x) = recs names ((cyc en c).map u)
  | 0 => ⟨h0, by simp only [hp, cyc, List.range_zero, List.filter_nil, List.nil_append, List.map_nil, recs_nil, List.map_cons]
                 exact congrArg (fun r => [r]) h0⟩
  | c + 1 => by
    obtain ⟨i1, i2⟩ := recs_run h0 hE c
    have he : recAt (some iv) x (c + 1) = if en c then put names (recAt (some iv) x c) (u c) else recAt (some iv) x c := hE c
    cases hc : en c with
    | false =>
      rw [hc, if_neg (by simp)] at he
      have e1 : cyc en (c + 1) = cyc en c := by rw [cyc_succ, hc]; rfl
      refine ⟨by rw [he, e1, i1], ?_⟩
      rw [e1, ← i2]
      unfold hp
      rw [e1, List.map_append, List.map_append, List.map_singleton, List.map_singleton, he]
    | true =>
      rw [hc, if_pos rfl] at he
      have e1 : cyc en (c + 1) = cyc en c ++ [c] := by rw [cyc_succ, hc]; rfl
      have e2 : recAt (some iv) x (c + 1) = ((cyc en (c + 1)).map u).foldl (put names) zero := by
        rw [he, e1, List.map_append, List.foldl_append, ← i1]; rfl
      refine ⟨e2, ?_⟩
      have e3 : hp en (c + 1) = hp en c ++ [c + 1] := by unfold hp; rw [e1]
      rw [e3, List.map_append, i2, List.map_singleton, e2, e1, List.map_append, List.map_singleton, recs_snoc]

/-- **Every output of the child is an operator of the parent** in the sense of C24, with latency `pipeline_depth() + 1`, for
    every stall schedule: the child is in reset state at first, used by this operator only, and neither stream stalls while
    the parent is idle. -/
theorem c79_operator (F : Fresh G N) {outs : List ℕ} (ho : ∀ o ∈ outs, o < N) {rs : List ℕ} {h : Heap}
    (hi : implement ⟨G, N⟩ outs = some (rs, h)) {iv : ℕ → Bool} {x : ℕ → ℕ → Int} {valid : ℕ → ℕ → Bool} {sig : ℕ → ℕ → Int}
    (R : Run h enc (some iv) x valid sig) (C : CalmL G N true fun _ => 0)
    (hp' : ∀ t, en t = parentReady (rest t) (busy t) (ic t)) (hc : ∀ t, enc t = childReady (ic t) (others t) (busy t) (en t))
    (hothers : ∀ t, others t = true) (hidle : ∀ t, busy t = false → rest t = true ∧ ic t = true)
    {names : List ℕ} {u : ℕ → Bool × List Int} (h0 : (iv 0, fun k => x k 0) = zero) (hE : ∀ t, Edge names en u iv x t) :
    ∃ d, (∀ r ∈ rs, (h.node r).end_ = some d ∨ ∃ v, (h.node r).kind = .const v) ∧
      List.Forall₂ (fun o r => (subOp names G o d).Drives en u (sig r)) outs rs := by
  have hee : enc = en := by
    funext t
    cases hb : busy t with
    | true => exact c79_together (hp' t) (hc t) hb (hothers t)
    | false =>
      obtain ⟨q1, q2⟩ := hidle t hb
      rw [hc, hp', hb, q1, q2, hothers]; rfl
  subst hee
  obtain ⟨d, h1, h2⟩ := c24_values_lead F ho hi R C
  refine ⟨d, h1, h2.imp fun o r hor t ht => ?_⟩
  change d + 1 ≤ _ at ht
  change sig r t = mean G o (recs names (((hp enc t).take ((cyc enc t).length + 1 - (d + 1))).map u))
  rw [hor t (by omega)]
  obtain ⟨c, q1, q2⟩ := hp_get (en := enc) t ((cyc enc t).length - d) (by omega)
  have hcnt := hp_cnt (by omega) q2
  have e1 : (cyc enc t).length + 1 - d = (cyc enc t).length - d + 1 := by omega
  have e2 : (hp enc t).take ((cyc enc t).length + 1 - (d + 1)) = cyc enc c := by
    have : cyc enc c = (hp enc c).take (cyc enc c).length := by unfold hp; rw [List.take_left']; rfl
    rw [this, q2, hcnt, List.take_take]
    congr 1
    omega
  rw [e1, e2]
  change mean G o (((hp enc t).take _).map _) = _
  rw [← q2, (recs_run h0 hE c).2]

/-- What comes before the first valid operands does not matter. -/
theorem c79_lead (F : Fresh G N) (C : CalmL G N true fun _ => 0) (names : List ℕ) {o : ℕ} (ho : o < N) (d : ℕ) :
    (subOp names G o d).Lead := by
  intro g h hg
  change mean G o (recs names (g ++ h)) = mean G o (recs names h)
  have hz : ∀ g : Hist, (∀ p ∈ g, p.1 = false) → recs names g = List.replicate g.length zero ++ [zero] := by
    intro g hg
    rw [← List.replicate_succ', List.eq_replicate_iff]
    refine ⟨by simp [recs], fun r hr => ?_⟩
    obtain ⟨i, _, rfl⟩ := List.mem_map.1 hr
    exact fold_invalid (fun p hp => hg p (List.mem_of_mem_take hp)) _
  have e : recs names h = [zero] ++ after names zero h := recs_append names [] h
  rw [recs_append, fold_invalid hg, hz g hg, List.append_assoc, ← e]
  exact mean_lead F C o ho _ _ (fun r hr => by rw [List.eq_of_mem_replicate hr]; rfl) (recs_ne _ _)

/-- If input `k` is a reset of the child and is written with operand `p`, then operand `p` is a reset of the operator: a child
    with accumulators starts anew with the first item of a run, also when the parent itself is the child of another
    stream. -/
theorem c79_forgets (F : Fresh G N) {k : ℕ} (RS : Resets G N k) {names : List ℕ} (hn : names.Nodup) {p : ℕ}
    (hp : names[p]? = some k) {o : ℕ} (ho : o < N) (d : ℕ) : Forgets (subOp names G o d) names.length p := by
  intro g r h hr hl hne
  change mean G o (recs names (g ++ r :: h)) = mean G o (recs names (r :: h))
  have e : recs names (r :: h) = [zero] ++ after names zero (r :: h) := recs_append names [] (r :: h)
  rw [recs_append, e, after_cons, after_cons, put_full hr (by omega)]
  have h1 : (put names zero r).1 = true := by simp [put, hr]
  have h2 : (put names zero r).2 k ≠ 0 := by
    simp only [put, hr, if_true]
    rw [operand_get hn hp (by omega)]
    exact hne
  rw [mean_reset F RS o ho _ _ _ h1 h2, mean_reset F RS o ho _ _ _ h1 h2]

/-- A child of stateless operators: the value is that of the last valid operands. -/
theorem c79_stateless (F : Fresh G N) (C : Calm G N false fun _ => 0) (names : List ℕ) {o : ℕ} (ho : o < N) (d : ℕ) :
    (subOp names G o d).Gated ∧ ∀ (g : Hist) (as : List Int), names.length ≤ as.length →
      (subOp names G o d).f (g ++ [(true, as)]) = mean G o [(true, fun k => (operand names as k).getD 0)] := by
  have last : ∀ h : Hist, mean G o (recs names h) = mean G o [h.foldl (put names) zero] := by
    intro h
    have : ∃ l, recs names h = l ++ [h.foldl (put names) zero] := by
      rcases List.eq_nil_or_concat h with rfl | ⟨g, a, rfl⟩
      · exact ⟨[], rfl⟩
      · exact ⟨recs names g, by rw [List.concat_eq_append, recs_snoc]⟩
    obtain ⟨l, hl⟩ := this
    rw [hl]
    exact mean_window F C o ho _ _ rfl
  constructor
  · intro h
    change mean G o (recs names h) = mean G o (recs names (h.filter (·.1)))
    rw [last, last]
    congr 2
    generalize zero = s
    induction h generalizing s with
    | nil => rfl
    | cons p h ih =>
      rw [List.foldl_cons, List.filter_cons]
      cases hp : p.1
      · rw [if_neg (by simp)]
        have : put names s p = s := by simp [put, hp]
        rw [this]; exact ih s
      · rw [if_pos rfl, List.foldl_cons]; exact ih _
  · intro g as hl
    change mean G o (recs names (g ++ [(true, as)])) = _
    rw [last, List.foldl_append, List.foldl_cons, List.foldl_nil, put_full rfl hl]
    rfl

/-- **A run of the parent.**  Whatever the child did before (other runs, runs of other parents or of its own, any state of its
    registers): from cycle `T` on until `e` the parent is busy and nothing else uses the child.  A run of items begins in
    cycle `t0` with the reset operand set; all stages at which the parent advances from `t0` to `t1` carry valid items.
    Then `d + 1` advances later (`d` the depth of the child; stalls may come at any time) the output of the child is the
    value of its graph for exactly these items. -/
theorem c79_run (F : Fresh G N) {outs : List ℕ} (ho : ∀ o ∈ outs, o < N) {rs : List ℕ} {h : Heap}
    (hi : implement ⟨G, N⟩ outs = some (rs, h)) {iv : ℕ → Bool} {x : ℕ → ℕ → Int} {valid : ℕ → ℕ → Bool} {sig : ℕ → ℕ → Int}
    (R : Run h enc (some iv) x valid sig) (C : CalmL G N true fun _ => 0) {k : ℕ} (RS : Resets G N k) {names : List ℕ}
    (hin : ∀ id < N, ∀ k, (G id).kind = .input k → k ∈ names) {T e : ℕ}
    (hp' : ∀ t, en t = parentReady (rest t) (busy t) (ic t)) (hc : ∀ t, enc t = childReady (ic t) (others t) (busy t) (en t))
    (hb : ∀ t, T ≤ t → t < e → busy t = true ∧ others t = true) {u : ℕ → Bool × List Int}
    (hE : ∀ t, T ≤ t → t < e → Edge names en u iv x t) :
    ∃ d, (∀ r ∈ rs, (h.node r).end_ = some d ∨ ∃ v, (h.node r).kind = .const v) ∧
      List.Forall₂ (fun o r => ∀ t0 t1 w, T ≤ t0 → t0 ≤ t1 → t1 < w → w ≤ e → en t0 = true →
        (∀ t, t0 ≤ t → t ≤ t1 → en t = true → (u t).1 = true ∧ names.length ≤ (u t).2.length) →
        (∃ v, operand names (u t0).2 k = some v ∧ v ≠ 0) → (seg en (t1 + 1) w).length = d →
        sig r w = mean G o ((seg en t0 (t1 + 1)).map fun t => (true, fun k => (operand names (u t).2 k).getD 0))) outs rs := by
  obtain ⟨d, h1, h2⟩ := c24_values_lead F ho hi R C
  refine ⟨d, h1, ?_⟩
  have hor : List.Forall₂ (fun o r => o < N ∧ ∀ t, d ≤ (cyc enc t).length →
      sig r t = mean G o (((cyc enc t ++ [t]).take ((cyc enc t).length + 1 - d)).map (recAt (some iv) x))) outs rs := by
    rw [List.forall₂_iff_get] at h2 ⊢
    exact ⟨h2.1, fun i i1 i2 => ⟨ho _ (List.get_mem _ _), h2.2 i i1 i2⟩⟩
  refine hor.imp fun o r ⟨hoN, hor⟩ t0 t1 w hT ht hw hwe he0 hval hres hd => ?_
  have hee : ∀ t, T ≤ t → t < e → enc t = en t := fun t a b =>
    c79_together (hp' t) (hc t) (hb t a b).1 (hb t a b).2
  set item : ℕ → Rec := fun t => (true, fun k => (operand names (u t).2 k).getD 0) with hitem
  -- the records from `t0` on
  have inv : ∀ c, t0 ≤ c → c ≤ e → (∀ t, t0 ≤ t → t < c → en t = true → (u t).1 = true ∧ names.length ≤ (u t).2.length) →
      ∃ L, (hp enc c).map (recAt (some iv) x) = (hp enc t0).map (recAt (some iv) x) ++ L ∧
        List.Forall₂ (fun r r' : Rec => r.1 = r'.1 ∧ ∀ k, k ∈ names → r.2 k = r'.2 k) L ((seg en t0 c).map item) := by
    intro c hc0
    induction c, hc0 using Nat.le_induction with
    | base => intro _ _; exact ⟨[], by simp, by rw [seg_self]; exact .nil⟩
    | succ c hc0 ih =>
      intro hce hv
      obtain ⟨L, q1, q2⟩ := ih (by omega) (fun t a b => hv t a (by omega))
      have hed : recAt (some iv) x (c + 1) = if en c then put names (recAt (some iv) x c) (u c) else recAt (some iv) x c :=
        hE c (by omega) (by omega)
      have hec : enc c = en c := hee c (by omega) (by omega)
      rw [seg_succ hc0]
      cases hn : en c with
      | false =>
        rw [hn, if_neg (by simp)] at hed
        rw [hn] at hec
        refine ⟨L, ?_, by simpa using q2⟩
        rw [← q1]
        unfold hp
        rw [cyc_succ, hec, if_neg (by simp), List.map_append, List.map_append, List.map_singleton, List.map_singleton, hed]
      | true =>
        rw [hn, if_pos rfl] at hed
        rw [hn] at hec
        obtain ⟨v1, v2⟩ := hv c hc0 (by omega) hn
        refine ⟨L ++ [recAt (some iv) x (c + 1)], ?_, ?_⟩
        · rw [← List.append_assoc, ← q1]
          unfold hp
          rw [cyc_succ, hec, if_pos rfl, List.map_append (l₂ := [c + 1]), List.map_singleton]
        · rw [if_pos rfl, List.map_append]
          refine List.rel_append q2 (.cons ?_ .nil)
          rw [hed]
          simp only [put, v1, if_true, hitem, true_and]
          intro k hk
          obtain ⟨v, hv'⟩ := lookup_some hk v2
          rw [hv']; rfl
  -- the cycle whose inputs are at the output
  have hseg : seg enc (t1 + 1) w = seg en (t1 + 1) w := seg_congr fun t a b => hee t (by omega) (by omega)
  have hcw : cyc enc w = cyc enc (t1 + 1) ++ seg en (t1 + 1) w := by rw [cyc_seg (by omega : t1 + 1 ≤ w), hseg]
  have hlen : (cyc enc w).length = (cyc enc (t1 + 1)).length + d := by rw [hcw, List.length_append, hd]
  obtain ⟨c, r1, r2⟩ := hp_get (en := enc) w (cyc enc (t1 + 1)).length (by omega)
  have hcnt := hp_cnt (by omega) r2
  have hcmem : c ∈ seg en (t1 + 1) w ++ [w] := by
    unfold hp at r1
    rw [hcw, List.append_assoc, List.getElem?_append_right (le_refl _), Nat.sub_self] at r1
    exact List.mem_of_getElem? r1
  have hc1 : t1 + 1 ≤ c ∧ c ≤ w := by
    rcases List.mem_append.1 hcmem with q | q
    · obtain ⟨a, b, _⟩ := seg_mem q; omega
    · rw [List.mem_singleton] at q; omega
  have hnone : seg en (t1 + 1) c = [] := by
    have e1 := cyc_seg (en := enc) hc1.1
    rw [seg_congr (en' := en) (fun t a b => hee t (by omega) (by omega))] at e1
    have := congrArg List.length e1
    rw [List.length_append, hcnt] at this
    exact List.length_eq_zero_iff.1 (by omega)
  have hsame : seg en t0 c = seg en t0 (t1 + 1) := by
    have e1 := cyc_seg (en := en) (show t0 ≤ c by omega)
    have e2 := cyc_seg (en := en) (show t0 ≤ t1 + 1 by omega)
    have e3 := cyc_seg (en := en) hc1.1
    rw [hnone, List.append_nil, e1, e2] at e3
    exact List.append_cancel_left e3
  obtain ⟨L, q1, q2⟩ := inv c (by omega) (by omega) (fun t a b he => by
    by_cases ht1 : t ≤ t1
    · exact hval t a ht1 he
    · exfalso
      have : t ∈ seg en (t1 + 1) c := by
        unfold seg
        rw [List.mem_filter, List.mem_range]
        simp [he, b]; omega
      rw [hnone] at this
      simp at this)
  rw [hsame] at q2
  -- the first item resets the child
  obtain ⟨l, hl⟩ : ∃ l, seg en t0 (t1 + 1) = t0 :: l := by
    have e1 := cyc_seg (en := en) (show t0 + 1 ≤ t1 + 1 by omega)
    have e2 := cyc_seg (en := en) (show t0 ≤ t1 + 1 by omega)
    rw [e1, cyc_succ, he0, if_pos rfl, List.append_assoc] at e2
    exact ⟨_, (List.append_cancel_left e2).symm⟩
  rw [hor w (by omega), show (cyc enc w).length + 1 - d = (cyc enc (t1 + 1)).length + 1 by omega]
  change mean G o (((hp enc w).take _).map _) = _
  rw [← r2, q1, ← mean_inputs F (P := (· ∈ names)) hin o hoN _ _ q2]
  rw [hl] at q2
  cases q2 with
  | @cons a _ L' _ hab hL =>
    obtain ⟨v, hv, hv0⟩ := hres
    have hkn : k ∈ names := by
      by_contra hk
      rw [lookup_none hk] at hv; cases hv
    refine mean_reset F RS o hoN _ _ _ hab.1 ?_
    rw [hab.2 k hkn]
    simp only [hitem, hv, Option.getD_some]
    exact hv0

/-! ### The hypotheses can be met -/

/-- A sum of 32 bits with reset. -/
def exCfg : Stream.AccCfg := { ty := ⟨32, true⟩, op := fun a x => a + x, hasReset := true }

/-- The child `ReduceAdd(x)`: input 0 is `reduce_reset`, input 1 is `x`. -/
def sumG : ℕ → Node
  | 0 => { kind := .input 0 }
  | 1 => { kind := .input 1 }
  | 2 => { kind := .const 1 }
  | 3 => { kind := .op (accReset exCfg), args := [0, 2, 1] }
  | _ => { kind := .const 0 }

theorem sumG_fresh : Fresh sumG 4 := by
  refine ⟨?_, ?_, ?_, ?_, ?_, ?_⟩ <;> intro id hid <;> interval_cases id <;> simp [sumG]

theorem sumG_calm : CalmL sumG 4 true fun _ => 0 := by
  intro id hid o hk
  interval_cases id <;> simp only [sumG, Kind.op.injEq, reduceCtorEq] at hk
  subst hk
  exact Or.inr ⟨rfl, (accOp_gated _ _ _).lead, fun _ _ => rfl⟩

theorem sumG_resets : Resets sumG 4 0 := by
  intro id hid o hk
  interval_cases id <;> simp only [sumG, Kind.op.injEq, reduceCtorEq] at hk
  subst hk
  refine Or.inr ⟨0, 0, rfl, accReset_forgets rfl rfl rfl rfl _, fun g r hr h0 => ?_⟩
  rw [mean_input (k := 0) rfl]
  simpa using h0

/-- The parent stalls in cycle 6; the items 4 to 9 are at the operator in these cycles. -/
def exEn (t : ℕ) : Bool := t != 6

def exU (t : ℕ) : Bool × List Int := if 4 ≤ t ∧ t ≤ 9 then (true, [if t = 4 then 1 else 0, t]) else (false, [0, 0])

/-- The registers of the child. -/
def exReg : ℕ → Bool × (ℕ → Int)
  | 0 => zero
  | t + 1 => if exEn t then put [0, 1] (exReg t) (exU t) else exReg t

/-- The child's output in cycle 10 is the sum of the items taken in the cycles 4, 5, 7 and 8. -/
example : ∃ rs h valid sig, implement ⟨sumG, 4⟩ [3] = some (rs, h) ∧
    Run h exEn (some fun t => (exReg t).1) (fun k t => (exReg t).2 k) valid sig ∧ ∀ r ∈ rs, sig r 10 = 4 + 5 + 7 + 8 := by
  obtain ⟨rs, h, hi⟩ := c24_total sumG_fresh [3] (by simp)
  obtain ⟨_, I, _⟩ := impl_inv sumG_fresh (by simp) hi
  obtain ⟨valid, sig, R⟩ := run_exists sumG_fresh I exEn (some fun t => (exReg t).1) (fun k t => (exReg t).2 k)
  obtain ⟨d, h1, h2⟩ := c79_run (en := exEn) (rest := exEn) (busy := fun _ => true) (ic := fun _ => true)
    (others := fun _ => true) (T := 0) (e := 20) (u := exU) (names := [0, 1]) sumG_fresh (by simp) hi R sumG_calm sumG_resets
    (by
      intro id hid k hk
      interval_cases id <;> simp only [sumG, Kind.input.injEq, reduceCtorEq] at hk <;> subst hk <;> simp)
    (fun t => by cases exEn t <;> rfl) (fun t => by cases exEn t <;> rfl) (fun _ _ _ => ⟨rfl, rfl⟩) (fun t _ _ => rfl)
  have hd : (implement ⟨sumG, 4⟩ [3]).map (fun p => (p.1, (p.2.node 3).end_)) = some ([3], some 1) := by decide
  rw [hi] at hd
  simp only [Option.map_some, Option.some.injEq, Prod.mk.injEq] at hd
  have hd1 : d = 1 := by
    rcases h1 3 (by rw [hd.1]; simp) with q | ⟨v, q⟩
    · rw [hd.2] at q; cases q; rfl
    · rw [I.kind 3 (by omega)] at q; simp [sumG] at q
  subst hd1
  refine ⟨rs, h, valid, sig, hi, R, ?_⟩
  rw [hd.1] at h2 ⊢
  cases h2 with
  | cons h2 _ =>
    intro r hr
    rw [List.mem_singleton] at hr
    subst hr
    rw [h2 4 8 10 (by omega) (by omega) (by omega) (by omega) rfl
      (fun t a b _ => by interval_cases t <;> decide) ⟨1, rfl, by decide⟩ (by decide)]
    decide +kernel

/-- This child is again an operator with a reset, for a parent that is itself a child. -/
example : (subOp [0, 1] sumG 3 1).Lead ∧ Forgets (subOp [0, 1] sumG 3 1) 2 0 :=
  ⟨c79_lead sumG_fresh sumG_calm _ (by omega) _, c79_forgets sumG_fresh sumG_resets (by decide) rfl (by omega) _⟩

/-- A stateless child. -/
example : (subOp [0, 1] exG 4 4).f [(true, [10, 3]), (false, [0, 0])] = 33 := by decide +kernel

/-! ### `busy` -/

/-- The registers of `busy` in cycle `t`: `r` says in which cycles the stream advances, `src` is `source_busy`. -/
def busyAt (depth : ℕ) (r src : ℕ → Bool) : ℕ → Busy
  | 0 => Busy.init depth
  | t + 1 => (busyAt depth r src t).step (r t) (src t)

/-- How often the stream advances in the cycles from `a` to before `t`. -/
def advs (r : ℕ → Bool) (a : ℕ) : ℕ → ℕ
  | 0 => 0
  | t + 1 => advs r a t + if a ≤ t ∧ r t = true then 1 else 0

theorem advs_early (r : ℕ → Bool) {a t : ℕ} (h : t ≤ a) : advs r a t = 0 := by
  induction t with
  | zero => rfl
  | succ t ih => simp [advs, ih (by omega), show ¬ a ≤ t by omega]

/-- The delayed values of a pulse: `k` advances after it, `p` in it. -/
def pulse (D k p : ℕ) : List Bool := List.replicate k false ++ (List.replicate p true ++ List.replicate D false)

theorem pulse_len (D k p : ℕ) : D ≤ (pulse D k p).length := by simp [pulse]; omega

theorem take_push {l : List Bool} {D : ℕ} (hD : 0 < D) (h : D ≤ l.length) (x : Bool) :
    x :: (l.take D).dropLast = (x :: l).take D := by
  obtain ⟨D, rfl⟩ : ∃ d, D = d + 1 := ⟨D - 1, by omega⟩
  rw [List.take_succ_cons]
  congr 1
  rw [List.dropLast_eq_take, List.length_take, Nat.min_eq_left h, List.take_take]
  congr 1
  omega

theorem pulse_last {D : ℕ} (hD : 0 < D) (k p : ℕ) : ((pulse D k p).take D).getLastD false = decide (k < D ∧ D ≤ k + p) := by
  have hl := pulse_len D k p
  rw [List.getLastD_eq_getLast?, List.getLast?_eq_getElem?, List.length_take, Nat.min_eq_left hl, List.getElem?_take_of_lt (by omega)]
  unfold pulse
  by_cases h1 : D - 1 < k
  · rw [List.getElem?_append_left (by simpa using h1), List.getElem?_replicate_of_lt h1]
    have : decide (k < D ∧ D ≤ k + p) = false ↔ ¬ (k < D ∧ D ≤ k + p) := decide_eq_false_iff_not
    simp
    omega
  · rw [List.getElem?_append_right (by simpa using h1), List.length_replicate]
    by_cases h2 : D - 1 - k < p
    · rw [List.getElem?_append_left (by simpa using h2), List.getElem?_replicate_of_lt h2]
      simp
      omega
    · rw [List.getElem?_append_right (by simpa using h2), List.length_replicate, List.getElem?_replicate_of_lt (by omega)]
      simp
      omega

/-- The registers in cycle `t` of a pulse of `source_busy` from `s` to before `e`. -/
theorem busy_inv (depth : ℕ) {r : ℕ → Bool} {s e : ℕ} (hse : s < e) (he : r (e - 1) = true) (t : ℕ) :
    let D := depth + 2
    let b := busyAt depth r (fun t => decide (s ≤ t ∧ t < e)) t
    let p := advs r s (min t e)
    let k := advs r e t
    b.chain = (pulse D k p).take D ∧ b.prev = decide (k ≤ D ∧ D < k + p) ∧
      b.reg = decide (s < t ∧ (t ≤ e ∨ advs r e (t - 1) < D)) := by
  induction t with
  | zero =>
    simp only [busyAt, Busy.init, Nat.zero_min, advs, pulse]
    refine ⟨?_, ?_, ?_⟩ <;> simp
  | succ t ih =>
    obtain ⟨h1, h2, h3⟩ := ih
    have hsink : (busyAt depth r (fun t => decide (s ≤ t ∧ t < e)) t).sink =
        decide (advs r e t < depth + 2 ∧ depth + 2 ≤ advs r e t + advs r s (min t e)) := by
      unfold Busy.sink
      rw [h1, pulse_last (by omega)]
    simp only [busyAt, Busy.step, h1, h2, h3, hsink]
    rw [take_push (by omega) (pulse_len _ _ _)]
    by_cases hte : t < e
    · -- before the end of the pulse
      have k0 : advs r e t = 0 := advs_early r (by omega)
      have k1 : advs r e (t + 1) = 0 := advs_early r (by omega)
      have m0 : min t e = t := by omega
      have m1 : min (t + 1) e = t + 1 := by omega
      rw [k0, k1, m0, m1]
      by_cases hst : s ≤ t
      · refine ⟨?_, ?_, ?_⟩
        · cases hr : r t with
          | false => simp [advs, hr]
          | true => simp [advs, hr, hst, hte, pulse, List.replicate_succ]
        · cases hr : r t with
          | false => simp [advs, hr]
          | true =>
            simp only [advs, hr, hst, and_self, if_true]
            rw [decide_eq_decide]
            omega
        · simp [hst, hte]
          omega
      · have p0 : advs r s t = 0 := advs_early r (by omega)
        have p1 : advs r s (t + 1) = 0 := advs_early r (by omega)
        rw [p0, p1]
        refine ⟨?_, ?_, ?_⟩
        · cases hr : r t with
          | false => simp
          | true =>
            simp only [hst, false_and, decide_false, if_true]
            simp [pulse, ← List.replicate_succ]
        · cases hr : r t <;> simp
        · have h4 : ¬ s < t + 1 := by omega
          have h5 : ¬ s < t := by omega
          simp [hst, h4, h5]
    · have m0 : min t e = e := by omega
      have m1 : min (t + 1) e = e := by omega
      rw [m0, m1]
      have hp : 1 ≤ advs r s e := by
        obtain ⟨e, rfl⟩ : ∃ d, e = d + 1 := ⟨e - 1, by omega⟩
        simp only [Nat.add_sub_cancel] at he
        simp only [advs, he, and_true]
        rw [if_pos (by omega)]
        omega
      refine ⟨?_, ?_, ?_⟩
      · cases hr : r t with
        | false => simp [advs, hr]
        | true =>
          simp only [hte, and_false, decide_false, if_true, advs, hr, and_true]
          rw [if_pos (by omega)]
          simp [pulse, List.replicate_succ]
      · cases hr : r t with
        | false => simp [advs, hr]
        | true =>
          simp only [if_true, advs, hr, and_true]
          rw [if_pos (by omega), decide_eq_decide]
          omega
      · simp only [hte, and_false, decide_false, Bool.false_eq_true, if_false, Nat.add_sub_cancel]
        have hmono : t ≠ e → advs r e (t - 1) ≤ advs r e t := by
          intro hne
          obtain ⟨t, rfl⟩ : ∃ d, t = d + 1 := ⟨t - 1, by omega⟩
          simp only [Nat.add_sub_cancel, advs]
          omega
        have hz : t = e → advs r e t = 0 := fun h => advs_early r (by omega)
        have hone : t ≠ e → advs r e t ≤ advs r e (t - 1) + 1 := by
          intro hne
          obtain ⟨t, rfl⟩ : ∃ d, t = d + 1 := ⟨t - 1, by omega⟩
          simp only [Nat.add_sub_cancel, advs]
          split <;> omega
        generalize advs r e t = k at *
        generalize advs r e (t - 1) = k' at *
        generalize advs r s e = p at *
        simp only [Bool.and_eq_true, Bool.not_eq_true', decide_eq_true_eq, decide_eq_false_iff_not]
        split
        · symm
          rw [decide_eq_false_iff_not]
          omega
        · rw [decide_eq_decide]
          omega

/-- **`busy` covers a run.**  If `source_busy` is true from cycle `s` to before `e` and the stream advances in its last cycle, `busy` is true
    exactly from `s` until the cycle in which the stream has advanced `pipeline_depth() + 2` times since `e`, however it stalls. -/
theorem c79_busy (depth : ℕ) {r : ℕ → Bool} {s e : ℕ} (hse : s < e) (he : r (e - 1) = true) (t : ℕ) :
    (busyAt depth r (fun t => decide (s ≤ t ∧ t < e)) t).out (decide (s ≤ t ∧ t < e)) = true ↔
      s ≤ t ∧ (t ≤ e ∨ advs r e (t - 1) < depth + 2) := by
  obtain ⟨h1, h2, h3⟩ := busy_inv depth hse he t
  unfold Busy.out Busy.sink
  rw [h1, h3, pulse_last (by omega)]
  have hmono : e < t → advs r e (t - 1) ≤ advs r e t := by
    intro hne
    obtain ⟨t, rfl⟩ : ∃ d, t = d + 1 := ⟨t - 1, by omega⟩
    simp only [Nat.add_sub_cancel, advs]
    omega
  have hz : t ≤ s → advs r s (min t e) = 0 ∧ advs r e t = 0 := fun h => ⟨advs_early r (by omega), advs_early r (by omega)⟩
  generalize advs r e t = k at *
  generalize advs r e (t - 1) = k' at *
  generalize advs r s (min t e) = p at *
  simp only [Bool.or_eq_true, decide_eq_true_eq]
  omega

/-- Depth 3, source busy in the cycles 2 to 6, a stall in 8: busy until 12, as the stream has advanced five times before 13. -/
example : ((List.range 16).map fun t => (busyAt 3 (fun t => t != 8) (fun t => decide (2 ≤ t ∧ t < 7)) t).out (decide (2 ≤ t ∧ t < 7))) =
    (List.range 16).map fun t => decide (2 ≤ t ∧ t ≤ 13) := by decide +kernel

/-! ### What does not hold -/

/-- A child that is used twice in the same parent has one set of registers: where both operators are valid, the operands of
    the operator implemented later win, and both read the same outputs. -/
theorem c79_not_twice (names : List ℕ) (s : Bool × (ℕ → Int)) (u1 u1' u2 : Bool × List Int) (h2 : u2.1 = true)
    (hl : names.length ≤ u2.2.length) : ∀ k ∈ names,
    (put names (put names s u1) u2).2 k = (put names (put names s u1') u2).2 k := by
  intro k hk
  obtain ⟨v, hv⟩ := lookup_some hk hl
  simp [put, h2, hv]

/-- The `source_busy` of a run whose sources end in cycle 9. -/
def exSource (t : ℕ) : Bool := decide (1 ≤ t ∧ t < 10)

/-- Its items: 4, …, 10. -/
def exItem (t : ℕ) : Bool × Int := if 4 ≤ t ∧ t ≤ 10 then (true, t) else (false, 0)

/-- A substream of a substream is not stalled with the others to the end: its `oready` follows `busy` of the child, which
    follows `source_busy` of the parent without the delay of the stages before the operator.  After six stages, the last
    items are still on their way when the child says it is idle; a stall of one cycle (19, for instance by a full FIFO of a
    sink) then loses an item. -/
theorem c79_not_nested :
    Nest.outs (fun _ => true) exSource exItem 26 0 (Nest.init 6 2) =
      List.replicate 14 0 ++ [4, 5, 6, 7, 8, 9, 10, 10, 10, 10, 10, 10] ∧
    Nest.outs (fun t => t != 19) exSource exItem 27 0 (Nest.init 6 2) =
      List.replicate 14 0 ++ [4, 5, 6, 7, 8, 10, 10, 10, 10, 10, 10, 10] := by
  decide +kernel

end Sub
