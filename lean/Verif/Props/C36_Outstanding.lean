import Verif.Props.C35_AxiChan
import Mathlib.Tactic.NormNum
import Mathlib.Tactic.Tauto
import Mathlib.Algebra.Order.Ring.Int

/-!
# C36: outstanding-write accounting

The AXI master keeps `outstanding_wcount`.  For every schedule of write requests, of `awready` and of responses
(no response without an accepted address still unanswered): the count is the number of accepted write addresses
minus the number of accepted responses, it never overflows, and `write_completed()` holds exactly when no request
is on offer and none is unanswered.
-/

namespace Axi

open Hdl SeqSt

/-- Number of handshakes at the edges before `n`. -/
def handshakes (valid ready : Var) (E : Nat → Env) (n : Nat) : Nat :=
  (List.range n).countP fun t => decide (E t valid ≠ 0 ∧ E t ready ≠ 0)

theorem handshakes_succ (valid ready : Var) (E : Nat → Env) (n : Nat) :
    handshakes valid ready E (n + 1) =
      handshakes valid ready E n + if E n valid ≠ 0 ∧ E n ready ≠ 0 then 1 else 0 := by
  simp [handshakes, List.range_succ, List.countP_append, List.countP_cons]

theorem truthy_ind (P : Env → Prop) [∀ env, Decidable (P env)] (env : Env) :
    (Expr.fn fun env => if P env then 1 else 0).truthy env = decide (P env) := by
  by_cases h : P env <;> simp [Expr.truthy, eval_fn, h]

/-- One edge of the counter. -/
theorem count_tick {name : String} {count : Reg} {av ar bv br : Var} {s : SeqSt}
    (hs : (SeqSt.fresh name).applyAll (outstanding count av ar bv br) = some s) (hu : count.signed = false)
    (rst : Option Expr) :
    count.name ∈ (s.always rst).targets.map Reg.name ∧
    ∀ env, isReset rst env = false → 0 ≤ env count.name → env count.name ≤ 2 ^ count.width - 1 →
      (s.always rst).tick env count.name =
        (if (env av ≠ 0 ∧ env ar ≠ 0) ∧ ¬(env bv ≠ 0 ∧ env br ≠ 0) ∧ env count.name < 2 ^ count.width - 1
          then env count.name + 1
        else if ¬(env av ≠ 0 ∧ env ar ≠ 0) ∧ (env bv ≠ 0 ∧ env br ≠ 0) ∧ 0 < env count.name
          then env count.name - 1
        else env count.name) := by
  unfold outstanding at hs
  obtain ⟨hb, hd⟩ := two_guarded' hs rfl rfl
  refine ⟨?_, fun env hr h0 hle => ?_⟩
  · refine mem_always_targets (c := (Item.chain [(_, Code.block [Code.subst count _])] none).code)
      (mem_makeCode.2 (Or.inr ⟨_, by rw [hb]; exact List.mem_cons_self .., rfl⟩)) (r := count) ?_ rfl
    simp [Item.code, chainCode, Code.targets, Code.block]
  · have hm : s.maxDelay + 1 ≤ 1 := by simp [SeqSt.maxDelay, hd]
    have h0' : s.delayedAt 0 = [] := by simp [SeqSt.delayedAt, hd]
    rw [Code.tick, Code.exec_eq_trace, trace_always, if_neg (by simp [hr]),
      SeqSt.trace_makeCode s env _ 1 hm]
    simp only [SeqSt.seg, h0', SeqSt.bodyTrace, hb]
    simp only [List.map_cons, List.map_nil, traceL_cons, traceL_nil, List.append_nil, List.nil_append,
      chain_trace, Code.trace, Expr.truthy_and, List.foldl_cons, List.foldl_nil, Expr.truthy_not, truthy_ind,
      eval_fn, if_true]
    generalize hk : (2 ^ count.width : Int) = M at *
    have hM : ((2 ^ count.width : Nat) : Int) = M := by rw [← hk]; push_cast; rfl
    by_cases h1 : env av ≠ 0 ∧ env ar ≠ 0 <;> by_cases h2 : env bv ≠ 0 ∧ env br ≠ 0
    · simp [h1, h2]
    · by_cases h3 : env count.name < M - 1
      · have : (env count.name + 1) % M = env count.name + 1 := Int.emod_eq_of_lt (by omega) (by omega)
        simp [h1, h2, h3, Reg.wrap, hu, hk, this]
      · simp [h1, h2, h3]
    · by_cases h3 : 0 < env count.name
      · have : (env count.name - 1) % M = env count.name - 1 := Int.emod_eq_of_lt (by omega) (by omega)
        simp [h1, h2, h3, Reg.wrap, hu, hk, this]
      · simp [h1, h2, h3]
    · simp [h1, h2]

/-- The count is exact when requests are only raised while it is at most `2 ^ width - 3`. -/
theorem count_exact {count : Reg} {av ar bv br : Var} {E : Nat → Env} {N : Nat} (hw : 2 ≤ count.width)
    (step : ∀ t < N, 0 ≤ E t count.name → E t count.name ≤ 2 ^ count.width - 1 → E (t + 1) count.name =
        (if (E t av ≠ 0 ∧ E t ar ≠ 0) ∧ ¬(E t bv ≠ 0 ∧ E t br ≠ 0) ∧ E t count.name < 2 ^ count.width - 1
          then E t count.name + 1
        else if ¬(E t av ≠ 0 ∧ E t ar ≠ 0) ∧ (E t bv ≠ 0 ∧ E t br ≠ 0) ∧ 0 < E t count.name
          then E t count.name - 1
        else E t count.name))
    (raise : ∀ t < N, E (t + 1) av ≠ 0 → (E t av ≠ 0 ∧ E t ar = 0) ∨ E t count.name ≤ 2 ^ count.width - 3)
    (legal : ∀ t < N, E t bv ≠ 0 ∧ E t br ≠ 0 → handshakes bv br E t < handshakes av ar E t)
    (h0 : E 0 count.name = 0) (n : Nat) (hn : n ≤ N) :
    E n count.name = handshakes av ar E n - handshakes bv br E n ∧
    0 ≤ E n count.name ∧ E n count.name ≤ 2 ^ count.width - 1 ∧
    (1 ≤ n → E n av ≠ 0 → E n count.name ≤ 2 ^ count.width - 2) := by
  have hM : (4 : Int) ≤ 2 ^ count.width := by
    calc (4 : Int) = 2 ^ 2 := by norm_num
      _ ≤ 2 ^ count.width := pow_le_pow_right₀ (by norm_num) hw
  generalize (2 ^ count.width : Int) = M at *
  induction n with
  | zero => simp [handshakes, h0]; omega
  | succ n ih =>
    obtain ⟨i1, i2, i3, i4⟩ := ih (by omega)
    have hs := step n (by omega) i2 i3
    have hr := raise n (by omega)
    have hl := legal n (by omega)
    rw [handshakes_succ, handshakes_succ]
    by_cases h1 : E n av ≠ 0 ∧ E n ar ≠ 0 <;> by_cases h2 : E n bv ≠ 0 ∧ E n br ≠ 0
    · rw [if_pos h1, if_pos h2]
      rw [if_neg (by tauto), if_neg (by tauto)] at hs
      have := hl h2
      refine ⟨by omega, by omega, by omega, fun _ hv => ?_⟩
      rcases hr hv with ⟨-, h⟩ | h
      · exact absurd h h1.2
      · omega
    · rw [if_pos h1, if_neg h2]
      have hlt : E n count.name < M - 1 := by
        rcases n with _ | n
        · omega
        · have := i4 (by omega) h1.1; omega
      rw [if_pos ⟨h1, h2, hlt⟩] at hs
      refine ⟨by push_cast; omega, by omega, by omega, fun _ hv => ?_⟩
      rcases hr hv with ⟨-, h⟩ | h
      · exact absurd h h1.2
      · omega
    · rw [if_neg h1, if_pos h2]
      have := hl h2
      rw [if_neg (by tauto), if_pos ⟨h1, h2, by omega⟩] at hs
      exact ⟨by push_cast; omega, by omega, by omega, fun _ _ => by omega⟩
    · rw [if_neg h1, if_neg h2]
      rw [if_neg (by tauto), if_neg (by tauto)] at hs
      refine ⟨by push_cast; omega, by omega, by omega, fun _ hv => ?_⟩
      rcases hr hv with ⟨hv', -⟩ | h
      · rcases n with _ | n
        · omega
        · have := i4 (by omega) hv'; omega
      · omega

/-- What C36 says of a run: exact count, no overflow, `write_completed()` right. -/
def Accounted (count : Reg) (awvalid awready bvalid bready : Var) (E : Nat → Env) (n : Nat) : Prop :=
  E n count.name = handshakes awvalid awready E n - handshakes bvalid bready E n ∧
  0 ≤ E n count.name ∧ E n count.name < 2 ^ count.width ∧
  ((!hasOutstanding count awvalid (E n)) = true ↔
    E n awvalid = 0 ∧ handshakes awvalid awready E n = handshakes bvalid bready E n)

theorem accounted {count : Reg} {av ar bv br : Var} {E : Nat → Env} {n : Nat}
    (h : E n count.name = handshakes av ar E n - handshakes bv br E n ∧
      0 ≤ E n count.name ∧ E n count.name ≤ 2 ^ count.width - 1) : Accounted count av ar bv br E n := by
  obtain ⟨h1, h2, h3⟩ := h
  refine ⟨h1, h2, by omega, ?_⟩
  simp only [hasOutstanding, Bool.not_or, Bool.and_eq_true, Bool.not_eq_true', decide_eq_false_iff_not,
    not_lt, ne_eq, not_not, gt_iff_lt]
  omega

/-- `outstanding` always builds. -/
theorem outstanding_builds (name : String) (count : Reg) (av ar bv br : Var) :
    ∃ s, (SeqSt.fresh name).applyAll (outstanding count av ar bv br) = some s := by
  obtain ⟨s, h, -⟩ := two_guarded name
    [_, _, _] [_, _, _] _ _ rfl rfl [_] [_]
  exact ⟨s, h⟩

/-- Both together, for any channel whose calls need the count to be at most `2 ^ width - 3`. -/
theorem accounted_run {α : Type} {name chName : String} {p : Port} {vals : Site → List Expr} (hp : p.Ok chName)
    {ops : α → List SeqOp} {calls : List α} (site : α → Site) (hops : ∀ a, ops a = (site a).ops p)
    (hs : ∀ a, (site a).Ok p vals) (hne : calls ≠ []) {count : Reg} (hw : 2 ≤ count.width)
    (hu : count.signed = false)
    (hgate : ∀ a env, (site a).fires env = true → env count.name ≤ 2 ^ count.width - 3) (bvalid bready : Var) :
    ∃ ch s, (SeqSt.fresh chName).applyAll (calls.flatMap ops) = some ch ∧
      (SeqSt.fresh name).applyAll (outstanding count p.valid.name p.ready bvalid bready) = some s ∧
      ∀ (rst : Option Expr) (E : Nat → Env), Run (ch.always rst) E → Run (s.always rst) E →
      E 0 p.valid.name = 0 → E 0 count.name = 0 → ∀ n, (∀ t < n, isReset rst (E t) = false) →
      (∀ t < n, E t bvalid ≠ 0 ∧ E t bready ≠ 0 →
        handshakes bvalid bready E t < handshakes p.valid.name p.ready E t) →
      Accounted count p.valid.name p.ready bvalid bready E n := by
  obtain ⟨ch, h, e⟩ := emitted chName p (calls.map site)
  obtain ⟨s, hs1⟩ := outstanding_builds name count p.valid.name p.ready bvalid bready
  have hne' : calls.map site ≠ [] := by simpa using hne
  have hs' : ∀ σ ∈ calls.map site, σ.Ok p vals := by
    intro σ hσ
    obtain ⟨a, -, rfl⟩ := List.mem_map.1 hσ
    exact hs a
  refine ⟨ch, s, ?_, hs1, fun rst E hE hE' h0 hc0 n hr hl => ?_⟩
  · rw [← h, List.flatMap_map]
    congr 1
    exact flatMap_congr' fun a _ => hops a
  · obtain ⟨ht, hstep⟩ := count_tick hs1 hu rst
    have := count_exact (av := p.valid.name) (ar := p.ready) hw
      (fun t hlt a b => (hE' t _ ht).trans (hstep (E t) (hr t hlt) a b))
      (fun t hlt hv => by
        rcases e.valid_next hp hs' hne' hE h0 t (fun u hu => hr u (by omega)) hv with h | ⟨σ, hσ, hf⟩
        · exact Or.inl h
        · obtain ⟨a, -, rfl⟩ := List.mem_map.1 hσ
          exact Or.inr (hgate a _ hf))
      hl hc0 n (Nat.le_refl n)
    exact accounted ⟨this.1, this.2.1, this.2.2.1⟩

/-- **C36**, AXI4 master. -/
theorem c36_outstanding (name chName : String) (c : AddrChan) (calls : List AddrCall) (count : Reg)
    (bvalid bready : Var) (hw : 2 ≤ count.width) (hu : count.signed = false) (hne : calls ≠ [])
    (hc : PortsOk chName c.valid [c.addr, c.len]) :
    ∃ ch s, (SeqSt.fresh chName).applyAll (calls.flatMap (writeRequest c (acceptable count))) = some ch ∧
      (SeqSt.fresh name).applyAll (outstanding count c.valid.name c.ready bvalid bready) = some s ∧
      ∀ (rst : Option Expr) (E : Nat → Env), Run (ch.always rst) E → Run (s.always rst) E →
      E 0 c.valid.name = 0 → E 0 count.name = 0 → ∀ n, (∀ t < n, isReset rst (E t) = false) →
      -- a response is only accepted for an accepted address that has none yet
      (∀ t < n, E t bvalid ≠ 0 ∧ E t bready ≠ 0 →
        handshakes bvalid bready E t < handshakes c.valid.name c.ready E t) →
      Accounted count c.valid.name c.ready bvalid bready E n := by
  refine accounted_run (p := ⟨c.valid, c.ready, [c.addr, c.len], []⟩)
    (vals := fun σ => (σ.sets.eraseIdx 2).map Prod.snd) (hc.port c.ready [] (by simp))
    (fun a => ⟨a.cond, (acceptable count).and (free c.valid c.ready),
      [(c.addr, a.addr), (c.len, a.lenMinus1), (c.valid, .int 1)], some a.isZero⟩)
    (fun a => rfl) (fun a => ⟨rfl, ?_, fun env h => free_of_fires' h⟩) hne hw hu (fun a env hf => ?_) _ _
  · exact ((List.Perm.swap _ _ _).cons _).trans (List.Perm.swap _ _ _)
  · rw [fires_eq, Bool.and_eq_true, Expr.truthy_and, Bool.and_eq_true, acceptable, truthy_ind,
      decide_eq_true_eq] at hf
    omega

/-- **C36**, AXI4-Lite master: a write is only requested when the count is zero (types/axi.py:2269-2270). -/
theorem c36_lite (name chName : String) (c : LiteChan) (calls : List LiteCall) (count : Reg)
    (bvalid bready : Var) (hw : 2 ≤ count.width) (hu : count.signed = false) (hne : calls ≠ [])
    (hc : PortsOk chName c.valid [c.pay]) :
    ∃ ch s, (SeqSt.fresh chName).applyAll
        (calls.flatMap fun a => liteWriteRequest c (liteAcceptable count) a.cond a.val) = some ch ∧
      (SeqSt.fresh name).applyAll (outstanding count c.valid.name c.ready bvalid bready) = some s ∧
      ∀ (rst : Option Expr) (E : Nat → Env), Run (ch.always rst) E → Run (s.always rst) E →
      E 0 c.valid.name = 0 → E 0 count.name = 0 → ∀ n, (∀ t < n, isReset rst (E t) = false) →
      (∀ t < n, E t bvalid ≠ 0 ∧ E t bready ≠ 0 →
        handshakes bvalid bready E t < handshakes c.valid.name c.ready E t) →
      Accounted count c.valid.name c.ready bvalid bready E n := by
  have hM : (4 : Int) ≤ 2 ^ count.width := by
    calc (4 : Int) = 2 ^ 2 := by norm_num
      _ ≤ 2 ^ count.width := pow_le_pow_right₀ (by norm_num) hw
  refine accounted_run (p := ⟨c.valid, c.ready, [c.pay], []⟩)
    (vals := fun σ => (σ.sets.eraseIdx 1).map Prod.snd) (hc.port c.ready [] (by simp))
    (fun a => ⟨a.cond, (liteAcceptable count).and (free c.valid c.ready), [(c.pay, a.val), (c.valid, .int 1)],
      none⟩)
    (fun a => rfl) (fun a => ⟨rfl, ?_, fun env h => free_of_fires' h⟩) hne hw hu (fun a env hf => ?_) _ _
  · exact List.Perm.swap _ _ _
  · rw [fires_eq, Bool.and_eq_true, Expr.truthy_and, Bool.and_eq_true, liteAcceptable, truthy_ind,
      decide_eq_true_eq] at hf
    omega

/-- A master with a 3 bit count and one call meets the hypotheses. -/
example := c36_outstanding "m" "ch" exAddr [⟨some (.var (.user "go")), .var (.user "a"), .int 4⟩]
  ⟨.user "wcount", 3, false, some 0⟩ (.user "bvalid") (.user "bready") (by decide) rfl (by simp) exAddr_ok

/-- The comment of `AxiLiteMaster.write_acceptable` says that no request is issued until the previous one is
    completed.  That is not so: at the edge at which the first address is accepted the count is still zero, and a
    second request is acknowledged although the first has no response. -/
theorem c36_lite_two_requests (name chName : String) (c : LiteChan) (a : LiteCall) (count : Reg)
    (bvalid bready : Var) (hu : count.signed = false) (ha : a.cond = none)
    (hc : PortsOk chName c.valid [c.pay]) :
    ∃ ch s, (SeqSt.fresh chName).applyAll
        (liteWriteRequest c (liteAcceptable count) a.cond a.val) = some ch ∧
      (SeqSt.fresh name).applyAll (outstanding count c.valid.name c.ready bvalid bready) = some s ∧
      ∀ (rst : Option Expr) (E : Nat → Env), Run (ch.always rst) E → Run (s.always rst) E →
      E 0 c.valid.name = 0 → E 0 count.name = 0 → (∀ t < 2, isReset rst (E t) = false) →
      (∀ t, E t bvalid = 0) → E 1 c.ready ≠ 0 →
      transfers c.valid c.ready [c.pay] E 2 ++ waiting c.valid [c.pay] (E 2) =
        [[c.pay.wrap (a.val.eval (E 0))], [c.pay.wrap (a.val.eval (E 1))]] := by
  obtain ⟨ch, h1, h2⟩ := c35_lite_write_request chName c (liteAcceptable count) [a] (by simp) hc
  obtain ⟨s, hs⟩ := outstanding_builds name count c.valid.name c.ready bvalid bready
  refine ⟨ch, s, by simpa using h1, hs, fun rst E hE hE' h0 hc0 hr hb hrd => ?_⟩
  obtain ⟨ht, hstep⟩ := count_tick hs hu rst
  have hM : (1 : Int) ≤ 2 ^ count.width := one_le_pow₀ (by norm_num)
  have hc1 : E 1 count.name = 0 := by
    rw [hE' 0 _ ht, hstep (E 0) (hr 0 (by omega)) (by omega) (by omega), hc0]
    simp [h0, hb]
  rw [(h2 rst E hE h0 2 hr).1]
  have k0 : (wants a.cond (E 0) && ((liteAcceptable count).truthy (E 0) && canTake c.valid c.ready (E 0))) = true := by
    rw [liteAcceptable, truthy_ind]; simp [ha, wants, hc0, canTake, h0]
  have k1 : (wants a.cond (E 1) && ((liteAcceptable count).truthy (E 1) && canTake c.valid c.ready (E 1))) = true := by
    rw [liteAcceptable, truthy_ind]; simp [ha, wants, hc1, canTake, hrd]
  have hr2 : List.range 2 = [0, 1] := rfl
  rw [hr2]
  simp only [List.flatMap_cons, List.flatMap_nil, List.filter_cons, k0, k1, List.filter_nil, if_true,
    List.getLast?_singleton, Option.toList, List.append_nil, List.cons_append, List.nil_append]

end Axi
