import Verif.Props.C24_Schedule
import Mathlib.Data.List.Induction

/-!
# C25: the valid/ready control loses no beat

`control` is `implement_control`: with `ivalid` and `oready` the registers are enabled by `oready`, `iready` is `oready`,
`ovalid` is the last valid flag.  A beat is accepted when valid and ready are both 1.
-/

namespace Sch

variable {G : ℕ → Node} {N : ℕ} {en : ℕ → Bool}

/-! ### Lists -/

/-- The last record is valid. -/
def lastOk (p : List Rec) : Bool := (p.getLast?.map (·.1)).getD true

theorem lastOk_snoc (p : List Rec) (a : Rec) : lastOk (p ++ [a]) = a.1 := by simp [lastOk]

theorem vp_filter (h : List Rec) : ((prefixes h).filter lastOk).map (List.filter (·.1)) = prefixes (h.filter (·.1)) := by
  induction h using List.reverseRecOn with
  | nil => rfl
  | append_singleton h a ih =>
    rw [prefixes_snoc, List.filter_append, List.map_append, ih, List.filter_append, List.filter_singleton, lastOk_snoc,
      List.filter_singleton]
    cases ha : a.1
    · simp
    · simp [prefixes_snoc, List.filter_append, ha]

theorem prefixes_ne {α : Type} {h p : List α} (hp : p ∈ prefixes h) : p ≠ [] := by
  obtain ⟨i, hi, rfl⟩ := List.mem_map.1 hp
  rw [List.mem_range] at hi
  intro h0
  have := congrArg List.length h0
  rw [List.length_take, List.length_nil] at this
  omega

theorem prefixes_sub {α : Type} {h p : List α} (hp : p ∈ prefixes h) {a : α} (ha : a ∈ p) : a ∈ h := by
  obtain ⟨i, hi, rfl⟩ := List.mem_map.1 hp
  exact List.mem_of_mem_take ha

/-- For stateless operators and accumulators only the valid records matter. -/
theorem mean_filter (F : Fresh G N) (C : Calm G N true fun _ => 0) : ∀ id < N, ∀ p : List Rec, p ≠ [] → lastOk p = true →
    mean G id p = mean G id (p.filter (·.1)) := by
  intro id
  induction id using Nat.strongRecOn with
  | _ id ih =>
  intro hN p hne hp
  have hargs : ∀ q : List Rec, q ≠ [] → lastOk q = true → argsOf G id q = argsOf G id (q.filter (·.1)) := by
    intro q hq hql
    obtain ⟨q', a, rfl⟩ : ∃ q' a, q = q' ++ [a] := ⟨_, _, (List.dropLast_append_getLast hq).symm⟩
    rw [lastOk_snoc] at hql
    unfold argsOf
    congr 1
    · rw [List.filter_append]; simp [hql]
    · apply List.map_congr_left
      intro b hb
      have hlt : b < id := F.args id hN b (by simp [hb])
      exact ih b hlt (by omega) _ hq (by rw [lastOk_snoc, hql])
  obtain ⟨p', a, rfl⟩ : ∃ p' a, p = p' ++ [a] := ⟨_, _, (List.dropLast_append_getLast hne).symm⟩
  have ha : a.1 = true := by rwa [lastOk_snoc] at hp
  have hf : (p' ++ [a]).filter (·.1) = p'.filter (·.1) ++ [a] := by rw [List.filter_append]; simp [ha]
  cases hk : (G id).kind with
  | const v => rw [mean_const hk, mean_const hk]
  | input k => rw [mean_input hk, mean_input hk, hf]; simp
  | op o =>
    rcases C id hN o hk with ⟨m, hw, hmle, _⟩ | ⟨_, hg, _⟩
    · have hm0 : m = 0 := Nat.le_zero.1 hmle
      subst hm0
      have hp2 := hargs _ hne hp
      rw [mean_op F hN hk, mean_op F hN hk, hf, prefixes_snoc, prefixes_snoc, List.map_append, List.map_append,
        List.map_singleton, List.map_singleton, hw _ _ rfl, hw _ _ rfl, hp2, hf]
    · rw [mean_op F hN hk, mean_op F hN hk, hg]
      congr 1
      rw [List.filter_map, ← vp_filter, List.map_map]
      have : ((fun p : Bool × List Int => p.1) ∘ argsOf G id) = lastOk := by funext q; rfl
      rw [this]
      apply List.map_congr_left
      intro q hq
      rw [List.mem_filter] at hq
      exact hargs q (prefixes_ne hq.1) hq.2

theorem filter_map_forall₂ {α β γ : Type} {p : α → Bool} {q : β → Bool} {f : α → γ} {g : β → γ} {l : List α} {l' : List β}
    (h : List.Forall₂ (fun a b => p a = q b ∧ (p a = true → f a = g b)) l l') : (l.filter p).map f = (l'.filter q).map g := by
  induction h with
  | nil => rfl
  | @cons a b l l' hab _ ih =>
    rw [List.filter_cons, List.filter_cons, ← hab.1]
    cases hpa : p a
    · simpa using ih
    · simp only [if_true, List.map_cons]
      rw [ih, hab.2 hpa]

/-! ### Beats -/

/-- The inputs accepted before cycle `T`: the records of the cycles with `ivalid` and `iready`. -/
def accIn (iv iready : ℕ → Bool) (x : ℕ → ℕ → Int) (T : ℕ) : List Rec :=
  ((List.range T).filter fun t => iv t && iready t).map fun t => (true, fun k => x k t)

/-- The outputs accepted before cycle `T`. -/
def accOut (ovalid oready : ℕ → Bool) (sig : ℕ → Int) (T : ℕ) : List Int :=
  ((List.range T).filter fun t => ovalid t && oready t).map sig

theorem cyc_get_cnt {T j t' : ℕ} (h : (cyc en T)[j]? = some t') : hp en t' = (hp en T).take (j + 1) ∧ (cyc en t').length = j := by
  obtain ⟨hj, _⟩ := List.getElem?_eq_some_iff.1 h
  obtain ⟨t2, q1, q2⟩ := hp_get (en := en) T j (by omega)
  have : t2 = t' := by
    have : (hp en T)[j]? = some t' := by unfold hp; rw [List.getElem?_append_left hj, h]
    rw [q1] at this; cases this; rfl
  subst this
  exact ⟨q2, hp_cnt (by omega) q2⟩

/-- One output of the stream: the accepted outputs are the values of the graph on the accepted inputs, in order, one for
    one; at most `d` inputs are still in the pipeline, and all of them leave it after `d` more advances. -/
theorem c25_beats (F : Fresh G N) {outs : List ℕ} (ho : ∀ o ∈ outs, o < N) {rs : List ℕ} {h : Heap}
    (hi : implement ⟨G, N⟩ outs = some (rs, h)) {oready iv : ℕ → Bool} {x : ℕ → ℕ → Int} {valid : ℕ → ℕ → Bool}
    {sig : ℕ → ℕ → Int} (R : Run h oready (some iv) x valid sig) (C : Calm G N true fun _ => 0) :
    ∃ d, (∀ r ∈ rs, (h.node r).end_ = some d ∨ ∃ v, (h.node r).kind = .const v) ∧
      List.Forall₂ (fun o r => ∀ T, ∃ sent rest, accIn iv oready x T = sent ++ rest ∧ rest.length ≤ d ∧
        accOut (valid d) oready (sig r) T = (prefixes sent).map (mean G o) ∧
        ∀ T', (cyc oready T).length + d ≤ (cyc oready T').length →
          accOut (valid d) oready (sig r) T' =
            (prefixes (accIn iv oready x T)).map (mean G o) ++ (accOut (valid d) oready (sig r) T').drop (accIn iv oready x T).length)
        outs rs := by
  obtain ⟨d, hd, hv⟩ := c24_values F ho hi R (mem := fun _ => 0) C
  refine ⟨d, hd, ?_⟩
  have hmem : ∀ o ∈ outs, o < N := ho
  rw [List.forall₂_iff_get] at hv ⊢
  refine ⟨hv.1, fun i hi1 hi2 => ?_⟩
  have hval := hv.2 i hi1 hi2
  have hoN : outs.get ⟨i, hi1⟩ < N := hmem _ (List.get_mem _ _)
  generalize outs.get ⟨i, hi1⟩ = o at *
  generalize rs.get ⟨i, hi2⟩ = r at *
  -- the records that left the pipeline
  let X : ℕ → ℕ → List Rec := fun T n => ((cyc oready T).take n).map (recAt (some iv) x)
  have hin : ∀ T, accIn iv oready x T = (X T (cyc oready T).length).filter (·.1) := by
    intro T
    simp only [X, List.take_length]
    unfold accIn cyc
    rw [List.filter_map, List.filter_filter]
    have h1 : ((fun p : Rec => p.1) ∘ recAt (some iv) x) = iv := by funext t; rfl
    rw [h1]
    apply List.map_congr_left
    intro t ht
    rw [List.mem_filter] at ht
    have : iv t = true := by have := ht.2; simp at this; exact this.1
    simp [recAt, this]
  have hout : ∀ T, accOut (valid d) oready (sig r) T =
      (prefixes ((X T ((cyc oready T).length - d)).filter (·.1))).map (mean G o) := by
    intro T
    set E := cyc oready T with hE
    have hEl : (cyc oready T).length = E.length := by rw [hE]
    have e1 : accOut (valid d) oready (sig r) T = (E.filter (valid d)).map (sig r) := by
      unfold accOut
      rw [hE]; unfold cyc
      rw [List.filter_filter]
    have hcyc : ∀ j t', E[j]? = some t' → hp oready t' = (hp oready T).take (j + 1) ∧ (cyc oready t').length = j :=
      fun j t' q => cyc_get_cnt q
    have e2 : (E.take d).filter (valid d) = [] := by
      rw [List.filter_eq_nil_iff]
      intro t ht
      obtain ⟨j, hj, hjt⟩ := List.getElem_of_mem ht
      have hj' : j < d ∧ j < E.length := by rw [List.length_take] at hj; omega
      have hq : E[j]? = some t := by
        rw [← hjt, List.getElem_take, List.getElem?_eq_getElem hj'.2]
      rw [valid_eq R.chain, (hcyc j t hq).2, if_neg (by omega)]
      simp
    have e3 : ((E.drop d).filter (valid d)).map (sig r) =
        ((prefixes (X T (E.length - d))).filter lastOk).map (mean G o) := by
      apply filter_map_forall₂
      have hXl : (X T (E.length - d)).length = E.length - d := by
        simp only [X]; rw [List.length_map, List.length_take, ← hE]; omega
      rw [List.forall₂_iff_get]
      refine ⟨by rw [List.length_drop, prefixes_length, hXl], fun j hj1 hj2 => ?_⟩
      have hj : j < E.length - d := by rw [List.length_drop] at hj1; exact hj1
      set t' := (E.drop d).get ⟨j, hj1⟩ with ht'
      have hq : E[d + j]? = some t' := by
        rw [ht', List.get_eq_getElem, List.getElem_drop, List.getElem?_eq_getElem]
      obtain ⟨w1, w2⟩ := hcyc _ _ hq
      have hpx : (prefixes (X T (E.length - d))).get ⟨j, hj2⟩ = (X T (E.length - d)).take (j + 1) := by
        have := prefixes_get (X T (E.length - d)) (i := j) (by omega)
        rw [List.getElem?_eq_getElem hj2] at this
        simpa using this
      have hX : (X T (E.length - d)).take (j + 1) = ((hp oready T).take (j + 1)).map (recAt (some iv) x) := by
        simp only [X]
        rw [← List.map_take, List.take_take, ← hE, Nat.min_eq_left (by omega)]
        unfold hp
        rw [List.take_append_of_le_length (by omega)]
      have hhp : (hp oready t').take (j + 1) = (hp oready T).take (j + 1) := by
        rw [w1, List.take_take, Nat.min_eq_left (by omega)]
      rw [hpx, hX]
      constructor
      · rw [valid_eq R.chain, w2, if_pos (by omega), Nat.add_sub_cancel_left]
        obtain ⟨t2, r1, r2⟩ := hp_get (en := oready) T j (by omega)
        have hg : (hp oready t')[j]? = some t2 := by
          rw [w1, List.getElem?_take, if_pos (by omega), r1]
        rw [hg]
        unfold lastOk
        rw [List.getLast?_map, hp_take_last (by omega) r1]
        rfl
      · intro _
        rw [hval t' (by omega), w2]
        change mean G o (((hp oready t').take _).map _) = _
        rw [show d + j + 1 - d = j + 1 by omega, hhp]
    rw [e1]
    conv_lhs => rw [← List.take_append_drop d E]
    rw [List.filter_append, e2, List.nil_append, e3, ← vp_filter, List.map_map]
    apply List.map_congr_left
    intro p hp'
    rw [List.mem_filter] at hp'
    exact mean_filter F C o hoN p (prefixes_ne hp'.1) hp'.2
  intro T
  have hsplit : accIn iv oready x T = (X T ((cyc oready T).length - d)).filter (·.1) ++
      ((((cyc oready T).drop ((cyc oready T).length - d)).map (recAt (some iv) x)).filter (·.1)) := by
    rw [hin T]
    simp only [X, List.take_length]
    rw [← List.filter_append, ← List.map_append, List.take_append_drop]
  refine ⟨_, _, hsplit, ?_, hout T, ?_⟩
  · refine le_trans (List.length_filter_le _ _) ?_
    rw [List.length_map, List.length_drop]; omega
  · intro T' hT'
    -- the records of the cycles before `T` come first
    have hpre : ∃ l, (X T' ((cyc oready T').length - d)).filter (·.1) = accIn iv oready x T ++ l := by
      have hmono : ∃ l, cyc oready T' = cyc oready T ++ l := by
        have hle : T ≤ T' ∨ T' < T := by omega
        rcases hle with hle | hlt
        · obtain ⟨k, rfl⟩ := Nat.exists_eq_add_of_le hle
          unfold cyc
          rw [List.range_add, List.filter_append]
          exact ⟨_, rfl⟩
        · obtain ⟨k, rfl⟩ := Nat.exists_eq_add_of_le (Nat.le_of_lt hlt)
          have : cyc oready (T' + k) = cyc oready T' ++ ((List.range k).map (T' + ·)).filter oready := by
            unfold cyc
            rw [List.range_add, List.filter_append]
          have hlen : (((List.range k).map (T' + ·)).filter oready) = [] := by
            rw [this, List.length_append] at hT'
            exact List.eq_nil_of_length_eq_zero (by omega)
          rw [hlen, List.append_nil] at this
          exact ⟨[], by rw [this, List.append_nil]⟩
      obtain ⟨l, hl⟩ := hmono
      rw [hin T]
      simp only [X, List.take_length]
      have hle : (cyc oready T).length ≤ (cyc oready T').length - d := by omega
      obtain ⟨k, hk⟩ := Nat.exists_eq_add_of_le hle
      rw [hk, hl, List.take_length_add_append, List.map_append, List.filter_append]
      exact ⟨_, rfl⟩
    obtain ⟨l, hl⟩ := hpre
    rw [hout T', hl]
    have hp2 : ∀ (a b : List Rec), ∃ c, prefixes (a ++ b) = prefixes a ++ c := by
      intro a b
      induction b using List.reverseRecOn with
      | nil => exact ⟨[], by simp⟩
      | append_singleton b z ih =>
        obtain ⟨c, hc⟩ := ih
        exact ⟨c ++ [a ++ b ++ [z]], by rw [← List.append_assoc, prefixes_snoc, hc, List.append_assoc]⟩
    obtain ⟨c, hc⟩ := hp2 (accIn iv oready x T) l
    rw [hc, List.map_append, List.drop_left']
    rw [List.length_map, prefixes_length]

/-- Stateless operators: every accepted output is the value of the graph on the accepted input. -/
theorem c25_map (F : Fresh G N) {outs : List ℕ} (ho : ∀ o ∈ outs, o < N) {rs : List ℕ} {h : Heap}
    (hi : implement ⟨G, N⟩ outs = some (rs, h)) {oready iv : ℕ → Bool} {x : ℕ → ℕ → Int} {valid : ℕ → ℕ → Bool}
    {sig : ℕ → ℕ → Int} (R : Run h oready (some iv) x valid sig) (C : Calm G N false fun _ => 0) :
    ∃ d, (∀ r ∈ rs, (h.node r).end_ = some d ∨ ∃ v, (h.node r).kind = .const v) ∧
      List.Forall₂ (fun o r => ∀ T, ∃ sent rest, accIn iv oready x T = sent ++ rest ∧ rest.length ≤ d ∧
        accOut (valid d) oready (sig r) T = sent.map fun a => mean G o [a]) outs rs := by
  have C' : Calm G N true fun _ => 0 := by
    intro id hN o hk
    rcases C id hN o hk with q | ⟨q, _⟩
    · exact Or.inl q
    · cases q
  obtain ⟨d, h1, h2⟩ := c25_beats F ho hi R C'
  refine ⟨d, h1, ?_⟩
  rw [List.forall₂_iff_get] at h2 ⊢
  refine ⟨h2.1, fun i hi1 hi2 T => ?_⟩
  obtain ⟨sent, rest, q1, q2, q3, _⟩ := h2.2 i hi1 hi2 T
  refine ⟨sent, rest, q1, q2, ?_⟩
  rw [q3]
  have hoN : outs.get ⟨i, hi1⟩ < N := ho _ (List.get_mem _ _)
  generalize outs.get ⟨i, hi1⟩ = o at *
  clear q1 q3
  induction sent using List.reverseRecOn with
  | nil => rfl
  | append_singleton s a ih =>
    rw [prefixes_snoc, List.map_append, List.map_append, ih]
    simp only [List.map_cons, List.map_nil]
    rw [mean_window F C o hoN s [a] rfl]

/-- With all four signals, and whenever `ivalid` and `oready` are present, the control is the one assumed above. -/
theorem c25_control (iready ovalid : Bool) : control true iready ovalid true =
    some ⟨true, true, if ovalid then .lastValid else .absent, if iready then .oready else .absent⟩ := by
  cases iready <;> cases ovalid <;> rfl

/-- The depths and the hypotheses for the example of C24, with `ivalid` in every other cycle and `oready` in two of three. -/
example : ∃ rs h valid sig, implement ⟨exG, 6⟩ [4, 5] = some (rs, h) ∧
    Run h (fun t => t % 3 != 2) (some fun t => t % 2 == 0) (fun k t => 10 * t + k) valid sig ∧
    Calm exG 6 true fun _ => 0 := by
  obtain ⟨rs, h, hi⟩ := c24_total exG_fresh [4, 5] (by simp)
  obtain ⟨_, I, _⟩ := impl_inv exG_fresh (by simp) hi
  obtain ⟨valid, sig, R⟩ := run_exists exG_fresh I (fun t => t % 3 != 2) (some fun t => t % 2 == 0) (fun k t => 10 * t + k)
  refine ⟨rs, h, valid, sig, hi, R, fun id hN o hk => ?_⟩
  rcases exG_calm id hN o hk with q | ⟨q, _⟩
  · exact Or.inl q
  · cases q

/-- Accepted inputs and the values of the first output on them. -/
example : (accIn (fun t => t % 2 == 0) (fun t => t % 3 != 2) (fun k t => 10 * t + k) 8).map (fun r => (r.2 0, mean exG 4 [r])) =
    [(0, 1), (40, 161), (60, 241)] := by decide

/-- The accumulating graph of C24 satisfies the hypotheses when there is an `ivalid`: the sum counts accepted inputs only. -/
example : Calm accG 4 true fun _ => 0 := by
  intro id hid o hk
  interval_cases id <;> simp only [accG, Kind.op.injEq, reduceCtorEq] at hk
  · subst hk; exact Or.inl ⟨0, pureOp_window _ _, le_refl _, by simp⟩
  · subst hk; exact Or.inl ⟨0, pureOp_window _ _, le_refl _, by simp⟩
  · subst hk; exact Or.inr ⟨rfl, accOp_gated _ _ _, by simp⟩

/-! ### Incomplete control signals -/

/-- With `ivalid` and `iready` but without `oready` the construction raises. -/
theorem c25_not_iready_without_oready (ovalid : Bool) : control true true ovalid false = none := by
  cases ovalid <;> rfl

/-- With `oready` and `ovalid` but without `ivalid`, `ovalid` has no driver. -/
theorem c25_not_ovalid_without_ivalid (iready : Bool) : ∃ c, control false iready true true = some c ∧ c.ovalid = .undriven := by
  cases iready <;> exact ⟨_, rfl, rfl⟩

/-- One register. -/
def regG : ℕ → Node
  | 0 => { kind := .input 0 }
  | 1 => { kind := .op (pureOp 1 fun as => as.getD 0 0), args := [0] }
  | _ => { kind := .const 0 }

theorem regG_fresh : Fresh regG 2 := by
  refine ⟨?_, ?_, ?_, ?_, ?_, ?_⟩ <;> intro id hid <;> interval_cases id <;> simp [regG]

/-- Without `ivalid` and `oready`, `ovalid` is 1 from the first cycle: what the registers contain at reset is output as
    valid, and the accepted outputs are never the values of a prefix of the inputs. -/
theorem c25_not_without_ivalid : (∃ c, control false true true false = some c ∧ c.ovalid = .one ∧ c.iready = .one) ∧
    ∃ h valid sig, implement ⟨regG, 2⟩ [1] = some ([1], h) ∧ Run h (fun _ => true) none (fun _ t => t + 1) valid sig ∧
      Pipe 1 (fun as => as.getD 0 0) (fun _ => true) (fun t => [sig 0 t]) (sig 1) ∧
      ∀ T sent rest, 0 < T → accIn (fun _ => true) (fun _ => true) (fun _ t => t + 1) T = sent ++ rest →
        accOut (fun _ => true) (fun _ => true) (sig 1) T ≠ sent.map fun a => mean regG 1 [a] := by
  refine ⟨⟨_, rfl, rfl, rfl⟩, ?_⟩
  obtain ⟨rs, h, hi⟩ := c24_total regG_fresh [1] (by simp)
  obtain ⟨_, I, _⟩ := impl_inv regG_fresh (by simp) hi
  have hd : (implement ⟨regG, 2⟩ [1]).map (fun p => (p.1, p.2.next, (p.2.node 1).args, (p.2.node 1).start)) =
      some ([1], 2, [0], some 0) := by decide
  rw [hi] at hd
  simp only [Option.map_some, Option.some.injEq, Prod.mk.injEq] at hd
  obtain ⟨rfl, hn, a1, s1⟩ := hd
  let sig : ℕ → ℕ → Int := fun i t => if i = 0 then t + 1 else t
  have P1 : Pipe 1 (fun as => as.getD 0 0) (fun _ => true) (fun t => [sig 0 t]) (sig 1) :=
    pipe_one (by simp [sig]) (fun t => by simp [sig])
  refine ⟨h, mkValid (fun _ => true) none, sig, hi, ⟨mkValid_chain _ _, ?_, ?_, ?_⟩, P1, ?_⟩
  · intro id v hid hk t
    rw [hn] at hid
    rw [I.kind id hid] at hk
    interval_cases id <;> simp [regG] at hk
  · intro id k hid hk t
    rw [hn] at hid
    rw [I.kind id hid] at hk
    interval_cases id <;> simp [regG] at hk
    rfl
  · intro id o s hid hk hs
    rw [hn] at hid
    rw [I.kind id hid] at hk
    interval_cases id <;> simp only [regG, Kind.op.injEq, reduceCtorEq] at hk
    subst hk; rw [a1]; exact pipe_drives P1
  · intro T sent rest hT hs heq
    obtain ⟨n, rfl⟩ : ∃ n, T = n + 1 := ⟨T - 1, by omega⟩
    have hl : accOut (fun _ => true) (fun _ => true) (sig 1) (n + 1) = (List.range (n + 1)).map (sig 1) := by
      unfold accOut; simp
    have hin : accIn (fun _ => true) (fun _ => true) (fun _ t => (t : Int) + 1) (n + 1) =
        (List.range (n + 1)).map fun (t : ℕ) => ((true, fun _ => (t : Int) + 1) : Rec) := by
      unfold accIn; simp
    rw [hl] at heq
    rw [hin] at hs
    rw [List.range_succ_eq_map, List.map_cons] at heq hs
    cases sent with
    | nil => simp at heq
    | cons a sent =>
      simp only [List.cons_append, List.cons.injEq] at hs
      simp only [List.map_cons, List.cons.injEq] at heq
      have := heq.1
      rw [← hs.1] at this
      revert this
      decide

end Sch
