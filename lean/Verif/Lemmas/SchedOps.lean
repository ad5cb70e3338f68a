import Verif.Lemmas.SchedSem
import Verif.Props.C04_Mul

/-! The registers generated for the operators of a stream meet the contract `Op.Drives`. -/

namespace Sch

variable {en : ℕ → Bool}

theorem hp_take_all (t : ℕ) : (hp en t).take ((cyc en t).length + 1 - 0) = hp en t :=
  List.take_of_length_le (by rw [hp_length]; omega)

theorem lastArgs_map {l : List ℕ} {t : ℕ} (h : l.getLast? = some t) (u : ℕ → Bool × List Int) :
    lastArgs (l.map u) = (u t).2 := by
  unfold lastArgs; rw [List.getLast?_map, h]; rfl

theorem hp_take_last {t i t' : ℕ} (hi : i ≤ (cyc en t).length) (h : (hp en t)[i]? = some t') :
    ((hp en t).take (i + 1)).getLast? = some t' := by
  rw [List.getLast?_eq_getElem?, List.length_take, hp_length, Nat.min_eq_left (by omega), List.getElem?_take,
    if_pos (by omega)]
  exact h

/-- Stateless operators. -/
def pureOp (L : ℕ) (g : List Int → Int) : Op := ⟨L, fun h => g (lastArgs h)⟩

theorem pureOp_window (L : ℕ) (g : List Int → Int) : (pureOp L g).Window 0 := by
  intro a h hl
  match h, hl with
  | [b], _ => simp [pureOp, lastArgs]

/-- The generic `_implement`. -/
theorem pipe_drives {L : ℕ} {g : List Int → Int} {u : ℕ → Bool × List Int} {sig : ℕ → Int}
    (h : Pipe L g en (fun t => (u t).2) sig) : (pureOp L g).Drives en u sig := by
  intro t ht
  change sig t = g (lastArgs (((hp en t).take ((cyc en t).length + 1 - L)).map u))
  match L, h, ht with
  | 0, h, _ =>
    rw [hp_take_all, lastArgs_map (t := t) (by simp [hp])]
    exact h t
  | l + 1, ⟨r, r0, rz, rs, hs⟩, ht =>
    have key : ∀ i t, i + 1 ≤ (cyc en t).length → ∃ t', (hp en t)[(cyc en t).length - (i + 1)]? = some t' ∧
        r i t = g (u t').2 := by
      intro i t
      induction t generalizing i with
      | zero => intro h; simp [cyc] at h
      | succ t ih =>
        intro hi
        cases he : en t with
        | false =>
          have hc : (cyc en (t + 1)).length = (cyc en t).length := by rw [cyc_succ, he]; rfl
          obtain ⟨t', q1, q2⟩ := ih i (by omega)
          refine ⟨t', by rw [hp_succ_get (by omega), hc, q1], ?_⟩
          cases i with
          | zero => rw [rz, he]; exact q2
          | succ i => rw [rs, he]; exact q2
        | true =>
          have hc : (cyc en (t + 1)).length = (cyc en t).length + 1 := by rw [cyc_succ, he]; simp
          cases i with
          | zero =>
            refine ⟨t, ?_, by rw [rz, he]; rfl⟩
            rw [hp_succ_get (by omega), hc]
            exact hp_last t
          | succ i =>
            obtain ⟨t', q1, q2⟩ := ih i (by omega)
            refine ⟨t', ?_, by rw [rs, he]; exact q2⟩
            rw [hp_succ_get (by omega), hc, Nat.add_sub_add_right, q1]
    have ht' : l + 1 ≤ (cyc en t).length := ht
    obtain ⟨t', q1, q2⟩ := key l t ht'
    rw [hs, q2]
    rw [show (cyc en t).length + 1 - (l + 1) = (cyc en t).length - (l + 1) + 1 by omega,
      lastArgs_map (hp_take_last (by omega) q1)]

/-- `prev`: the operand at the last advance before. -/
def prevOp : Op := ⟨0, fun h => match h.reverse with
  | _ :: p :: _ => p.2.headD 0
  | _ => 0⟩

theorem prevOp_window : prevOp.Window 1 := by
  intro a h hl
  match h, hl with
  | [b, c], _ => simp [prevOp]

theorem prev_drives {u : ℕ → Bool × List Int} {sig : ℕ → Int} (h : PrevReg en (fun t => (u t).2) sig) :
    prevOp.Drives en u sig := by
  intro t _
  change sig t = prevOp.f (((hp en t).take ((cyc en t).length + 1 - 0)).map u)
  rw [hp_take_all]
  have hf : prevOp.f ((hp en t).map u) = (((cyc en t).getLast?.map fun t' => (u t').2.headD 0).getD 0) := by
    simp only [prevOp, hp, List.map_append, List.map_cons, List.map_nil, List.reverse_append, List.reverse_cons,
      List.reverse_nil, List.nil_append, List.singleton_append]
    rw [← List.map_reverse, ← List.head?_reverse]
    cases (cyc en t).reverse <;> rfl
  rw [hf]
  induction t with
  | zero => rw [h.1]; rfl
  | succ t ih =>
    rw [h.2, cyc_succ]
    cases he : en t with
    | false =>
      refine ih (Nat.zero_le _) ?_
      simp only [prevOp, hp, List.map_append, List.map_cons, List.map_nil, List.reverse_append, List.reverse_cons,
        List.reverse_nil, List.nil_append, List.singleton_append]
      rw [← List.map_reverse, ← List.head?_reverse]
      cases (cyc en t).reverse <;> rfl
    | true => simp

/-- Accumulators. -/
def accOp {S : Type} (init : S) (step : S → List Int → S) (out : S → Int) : Op :=
  ⟨1, fun h => out (h.foldl (fun s p => if p.1 then step s p.2 else s) init)⟩

theorem accOp_gated {S : Type} (init : S) (step : S → List Int → S) (out : S → Int) : (accOp init step out).Gated := by
  intro h
  change out _ = out _
  congr 1
  induction h generalizing init with
  | nil => rfl
  | cons p h ih =>
    rw [List.foldl_cons, List.filter_cons]
    cases hp : p.1
    · rw [if_neg (by simp), if_neg (by simp)]; exact ih init
    · rw [if_pos rfl, if_pos rfl, List.foldl_cons, if_pos hp]; exact ih _

theorem acc_drives {S : Type} {init : S} {step : S → List Int → S} {out : S → Int} {u : ℕ → Bool × List Int}
    {sig : ℕ → Int} (h : AccRegs init step out en u sig) : (accOp init step out).Drives en u sig := by
  obtain ⟨r, r0, rs, hs⟩ := h
  have key : ∀ t, r t = ((cyc en t).map u).foldl (fun s p => if p.1 then step s p.2 else s) init := by
    intro t
    induction t with
    | zero => rw [r0]; rfl
    | succ t ih =>
      rw [rs, cyc_succ]
      cases he : en t with
      | false => rw [if_neg (by simp), ih]; rfl
      | true =>
        rw [if_pos rfl, List.map_append, List.foldl_append, ← ih]
        simp
  intro t ht
  change sig t = out ((((hp en t).take ((cyc en t).length + 1 - 1)).map u).foldl _ init)
  rw [hs, key t]
  congr 2
  rw [Nat.add_sub_cancel]
  unfold hp
  rw [List.take_left']
  rfl

/-- The multiplier of Model/Mul.lean, `update` is `senable`; the operands are the bit patterns of the arguments, the product
    is read as `denote` does. -/
def mulOp (depth l r : ℕ) (ls rs : Bool) : Op :=
  pureOp depth fun as => Mul.denote (ls || rs) (Mul.mulWire ls rs (BitVec.ofInt l (as.getD 0 0)) (BitVec.ofInt r (as.getD 1 0)))

theorem mul_drives {l r : ℕ} (ls rs : Bool) (depth : ℕ) (hd : 2 ≤ depth) (s : Mul.State l r)
    (hs : s.pipe.length = depth - 1) (u : ℕ → Bool × List Int) (sig : ℕ → Int)
    (hsig : ∀ t c, Mul.out (Mul.run ls rs s ((List.range t).map fun i =>
      ⟨en i, BitVec.ofInt l ((u i).2.getD 0 0), BitVec.ofInt r ((u i).2.getD 1 0)⟩)) = some c →
      sig t = Mul.denote (ls || rs) c) :
    (mulOp depth l r ls rs).Drives en u sig := by
  intro t ht
  have ht' : depth ≤ (cyc en t).length := ht
  set f : ℕ → Mul.In l r := fun i => ⟨en i, BitVec.ofInt l ((u i).2.getD 0 0), BitVec.ofInt r ((u i).2.getD 1 0)⟩ with hf
  have hiss : Mul.issued ((List.range t).map f) = (cyc en t).map f := by
    unfold Mul.issued cyc
    rw [List.filter_map]; rfl
  set k := (cyc en t).length - depth with hk
  obtain ⟨t', q1, q2⟩ := hp_get (en := en) t k (by omega)
  have hq : (cyc en t)[k]? = some t' := by
    rw [← q1]; unfold hp; rw [List.getElem?_append_left (by omega)]
  have hsplit : cyc en t = (cyc en t).take k ++ t' :: (cyc en t).drop (k + 1) := by
    conv_lhs => rw [← List.take_append_drop k (cyc en t)]
    congr 1
    obtain ⟨hlt, hg⟩ := List.getElem?_eq_some_iff.1 hq
    rw [List.drop_eq_getElem_cons hlt, hg]
  have hout := Mul.c04_mul_latency ls rs depth hd s hs ((List.range t).map f) (((cyc en t).take k).map f)
    (((cyc en t).drop (k + 1)).map f) (f t')
    (by rw [hiss]; conv_lhs => rw [hsplit]
        simp) (by simp; omega)
  rw [hsig t _ hout]
  change _ = Mul.denote (ls || rs) _
  change _ = Mul.denote (ls || rs) (Mul.mulWire ls rs
    (BitVec.ofInt l ((lastArgs (((hp en t).take ((cyc en t).length + 1 - depth)).map u)).getD 0 0))
    (BitVec.ofInt r ((lastArgs (((hp en t).take ((cyc en t).length + 1 - depth)).map u)).getD 1 0)))
  rw [show (cyc en t).length + 1 - depth = k + 1 by omega, lastArgs_map (hp_take_last (by omega) q1)]

/-- A register after an operator, updated when the stream advances. -/
theorem reg_after {L : ℕ} {g : List Int → Int} {u : ℕ → Bool × List Int} {w : ℕ → Int} (h : (pureOp L g).Drives en u w)
    (k : Int → Int) {sig : ℕ → Int} (hs : ∀ t, sig (t + 1) = if en t then k (w t) else sig t) :
    (pureOp (L + 1) fun as => k (g as)).Drives en u sig := by
  intro t
  induction t with
  | zero => intro ht; simp [pureOp, cyc] at ht
  | succ t ih =>
    intro ht
    have ht' : L + 1 ≤ (cyc en (t + 1)).length := ht
    change sig (t + 1) = k (g (lastArgs (((hp en (t + 1)).take ((cyc en (t + 1)).length + 1 - (L + 1))).map u)))
    rw [hs]
    cases he : en t with
    | false =>
      have hc : (cyc en (t + 1)).length = (cyc en t).length := by rw [cyc_succ, he]; rfl
      have := ih (by change L + 1 ≤ _; omega)
      change sig t = k (g (lastArgs (((hp en t).take ((cyc en t).length + 1 - (L + 1))).map u))) at this
      rw [if_neg (by simp), this, hc]
      rw [show (cyc en t).length + 1 - (L + 1) = (cyc en t).length - (L + 1) + 1 by omega, hp_succ_take (by omega)]
    | true =>
      have hc : (cyc en (t + 1)).length = (cyc en t).length + 1 := by rw [cyc_succ, he]; simp
      have := h t (by change L ≤ _; omega)
      change w t = g (lastArgs (((hp en t).take ((cyc en t).length + 1 - L)).map u)) at this
      rw [if_pos rfl, this, hc]
      rw [show (cyc en t).length + 1 + 1 - (L + 1) = (cyc en t).length - L + 1 by omega, hp_succ_take (by omega),
        show (cyc en t).length + 1 - L = (cyc en t).length - L + 1 by omega]

/-- `Times` (stream/stypes.py:650-697): the multiplier of depth `latency - 1` and the register `mul_odata_reg`, which drops
    the additional fraction bits (`k`). -/
theorem times_drives {l r : ℕ} (ls rs : Bool) (latency : ℕ) (hd : 3 ≤ latency) (s : Mul.State l r)
    (hs : s.pipe.length = latency - 2) (u : ℕ → Bool × List Int) (w : ℕ → Int)
    (hsig : ∀ t c, Mul.out (Mul.run ls rs s ((List.range t).map fun i =>
      ⟨en i, BitVec.ofInt l ((u i).2.getD 0 0), BitVec.ofInt r ((u i).2.getD 1 0)⟩)) = some c →
      w t = Mul.denote (ls || rs) c) (k : Int → Int) {sig : ℕ → Int}
    (hreg : ∀ t, sig (t + 1) = if en t then k (w t) else sig t) :
    (pureOp latency fun as => k (Mul.denote (ls || rs) (Mul.mulWire ls rs (BitVec.ofInt l (as.getD 0 0))
      (BitVec.ofInt r (as.getD 1 0))))).Drives en u sig := by
  have := reg_after (mul_drives ls rs (latency - 1) (by omega) s (by omega) u w hsig) k hreg
  rwa [show latency - 1 + 1 = latency by omega] at this

end Sch
