import Verif.Props.C18_FsmDelay
import Verif.Props.C50_Keep

/-!
# C50 for FSMs: `FSM.Keep(m)`
-/

namespace Hdl

open FsmSt

/-- `fsm.When(i).If(*conds).Delay(d).Keep(m).LazyCond().EagerVal()(*stmts)`; the parts not asked for
    are left out. -/
def fsmKeepCalls (wh : Option Nat) (conds : List Expr) (d m : Nat) (lz eager : Bool)
    (stmts : List Code) : List FsmOp :=
  whenIf wh conds ++ ((if d = 0 then [] else [.delay d]) ++ [.keep m] ++
    (if lz then [.lazyCond true] else []) ++ (if eager then [.eagerVal true] else []) ++ [.add stmts])

namespace FsmSt

/-- The statements added by `Keep(m)`. -/
def keepLoop (s : FsmSt) (stmts : List Code) (index d : Nat) (cond : Option Expr) (lz eager : Bool)
    (m : Nat) : FsmSt :=
  (List.range m).foldl (fun s i => s.addStatement1 stmts index (d + i) cond lz eager) s

theorem keepLoop_succ (s : FsmSt) (stmts : List Code) (index d : Nat) (cond : Option Expr)
    (lz eager : Bool) (m : Nat) :
    s.keepLoop stmts index d cond lz eager (m + 1) =
      (s.keepLoop stmts index d cond lz eager m).addStatement1 stmts index (d + m) cond lz eager := by
  simp [keepLoop, List.range_succ]

theorem fsmKeepCalls_kw (s : FsmSt) (h : s.Idle) (wh : Option Nat) (conds : List Expr) (d m : Nat)
    (lz eager : Bool) (stmts : List Code) :
    ∃ s2 : FsmSt, s.applyAll (fsmKeepCalls wh conds d m lz eager stmts) =
        some (s2.keepLoop stmts (wh.getD s.cur) d (makeCond conds) lz eager m) ∧
      s2.name = s.name ∧ s2.width = s.width ∧ s2.seq = s.seq ∧ s2.code = s.code ∧
      s2.dstVar = s.dstVar ∧ s2.delayAmount = s.delayAmount ∧
      s2.tmpCount = s.tmpCount ∧ s2.cur = s.cur ∧ s2.lastIf = none := by
  obtain ⟨s1, h1, f1, f2, f3, f4, f5, f6, f7, f8, f9, f10, f11, f12, f13⟩ :=
    whenIf_spec s h wh conds ((if d = 0 then [] else [.delay d]) ++ [.keep m] ++
      (if lz then [.lazyCond true] else []) ++ (if eager then [.eagerVal true] else []) ++ [.add stmts])
  refine ⟨{ s1 with lastDelay := if d = 0 then none else some d, next := {}, lastIf := none, nextElse := false },
    ?_, f4, f5, f6, f7, f9, f10, f11, f12, rfl⟩
  unfold fsmKeepCalls
  rw [h1]
  by_cases hd : d = 0 <;> cases lz <;> cases eager <;>
    simp [FsmSt.applyAll, FsmOp.apply, FsmSt.add, FsmSt.addKw, f1, f2, f3, FsmSt.addStatement,
      keepLoop, hd, f12]

theorem fsmKeepCalls_ok {name : String} {wh : Option Nat} {conds : List Expr} {d m : Nat}
    {lz eager : Bool} {stmts : List Code}
    (hok : ∀ c ∈ stmts, ∀ r ∈ c.targets, r.name.fgenBy name = false) :
    ∀ op ∈ fsmKeepCalls wh conds d m lz eager stmts, op.Ok name := by
  intro op hop
  simp only [fsmKeepCalls, whenIf, List.mem_append, List.mem_singleton] at hop
  rcases hop with (hop | hop) | (((hop | hop) | hop) | hop) | hop
  · cases wh with
    | none => simp at hop
    | some i => simp at hop; subst hop; trivial
  · cases conds with
    | nil => simp at hop
    | cons c cs => simp at hop; subst hop; trivial
  · split at hop
    · simp at hop
    · simp at hop; subst hop; trivial
  · subst hop; trivial
  · cases lz
    · simp at hop
    · simp at hop; subst hop; trivial
  · cases eager
    · simp at hop
    · simp at hop; subst hop; trivial
  · subst hop; exact hok

theorem foldl_push (stmts : List Code) (s : FsmSt) (index : Nat) :
    (∀ env x d i, (stmts.foldl (fun s c => s.push 0 index (.plain c)) s).keyTrace d i env x =
      s.keyTrace d i env x ++ if (0, index) = (d, i) then traceL stmts env x else []) ∧
    (stmts.foldl (fun s c => s.push 0 index (.plain c)) s).cur = s.cur ∧
    (stmts.foldl (fun s c => s.push 0 index (.plain c)) s).seq = s.seq ∧
    (∀ x, (s.Drives x ∨ ∃ c ∈ stmts, ∃ r ∈ c.targets, r.name = x) →
      (stmts.foldl (fun s c => s.push 0 index (.plain c)) s).Drives x) := by
  induction stmts generalizing s with
  | nil =>
    refine ⟨fun env x d i => ?_, rfl, rfl, fun x h => ?_⟩
    · simp [traceL]
    · simpa using h
  | cons c cs ih =>
    obtain ⟨h1, h2, h3, h4⟩ := ih (s.push 0 index (.plain c))
    obtain ⟨-, -, p3, p4, -, -, -, p8, -⟩ := push_fields s 0 index (.plain c)
    simp only [List.foldl_cons]
    refine ⟨fun env x d i => ?_, h2.trans p8, h3.trans p3, fun x h => h4 x ?_⟩
    · rw [h1, keyTrace_push, traceL_cons]
      by_cases hk : (0, index) = (d, i) <;> simp [hk, Item.code]
    · rcases h with ⟨e, he, r, hr, hx⟩ | ⟨c', hc', r, hr, hx⟩
      · exact Or.inl ⟨e, by rw [p4]; exact List.mem_append_left _ he, r, hr, hx⟩
      · rcases List.mem_cons.1 hc' with rfl | hc'
        · exact Or.inl ⟨((0, index), .plain c'),
            by rw [p4]; exact List.mem_append_right _ (List.mem_singleton.2 rfl), r, hr, hx⟩
        · exact Or.inr ⟨c', hc', r, hr, hx⟩

theorem addDelayed_cur (s : FsmSt) (hi : s.Inv) (stmts : List Code) (index n : Nat) (cond : Option Expr)
    (lz eager : Bool) : (s.addDelayed stmts index n cond lz eager).cur = s.cur := by
  rw [addDelayed_eq]
  have h1 : (s.addDelayedSubsts stmts n).2.cur = s.cur := (Good.addDelayedSubsts hi stmts n).2.1
  have hi1 : (s.addDelayedSubsts stmts n).2.Inv := (Good.addDelayedSubsts hi stmts n).1.inv
  have h2 : ∀ (t : FsmSt), t.Inv → ∀ c, (t.addDelayedCond c n).2.cur = t.cur := fun t ht c =>
    (Good.addDelayedCond ht c n).2
  cases eager <;> cases lz <;> simp [(push_fields _ _ _ _).2.2.2.2.2.2.2.1, h1, h2 _ hi, h2 _ hi1]

/-- One round of `Keep`. -/
theorem addStatement1_spec {s : FsmSt} (hi : s.Inv) (stmts : List Code) (index d : Nat)
    (conds : List Expr) (lz eager : Bool)
    (hok : ∀ c ∈ stmts, ∀ r ∈ c.targets, r.name.fgenBy s.name = false)
    (hbit : lz = false → OneBit conds)
    (heager : eager = true → ∀ c ∈ stmts, ∃ r e, c = .subst r e) :
    (s.addStatement1 stmts index d (makeCond conds) lz eager).cur = s.cur ∧
    (s.addStatement1 stmts index d (makeCond conds) lz eager).seq = s.seq ∧
    d ≤ (s.addStatement1 stmts index d (makeCond conds) lz eager).delayAmount ∧
    (∀ x, (∃ c ∈ stmts, ∃ r ∈ c.targets, r.name = x) →
      (s.addStatement1 stmts index d (makeCond conds) lz eager).Drives x) ∧
    ∃ T : Env → Var → List Int,
      (∀ env x e i, x.fgenBy s.name = false →
        (s.addStatement1 stmts index d (makeCond conds) lz eager).keyTrace e i env x =
          s.keyTrace e i env x ++ (if e = d ∧ i = index then T env x else [])) ∧
      ∀ s2, Good (s.addStatement1 stmts index d (makeCond conds) lz eager) s2 →
        ∀ rst uc E, Run (s2.always rst uc) E →
        (E 0 (.state s.name)) % 2 ^ s.width = E 0 (.state s.name) → ∀ t x,
        (resetIn (some rst) E t d = true → T (E (t + d)) x = []) ∧
        (resetIn (some rst) E t d = false → E t (.state s.name) = (s.cur : Int) → T (E (t + d)) x =
          if condsHold conds (E (if lz then t + d else t)) = true
          then traceL stmts (E (if eager then t else t + d)) x else []) := by
  by_cases hd : d = 0
  · subst hd
    unfold addStatement1
    simp only [if_true, Nat.zero_le, true_and, Nat.add_zero, ite_self]
    have h0 : ∀ rst E t, resetIn rst E t 0 = false := by intro rst E t; simp [resetIn]
    simp only [h0, Bool.false_eq_true, false_implies, true_implies, true_and]
    cases hc : makeCond conds with
    | none =>
      have : conds = [] := by
        cases conds with
        | nil => rfl
        | cons c cs => simp [makeCond] at hc
      subst this
      obtain ⟨h1, h2, h3, h4⟩ := foldl_push stmts s index
      refine ⟨h2, h3, fun x hx => h4 x (Or.inr hx), fun env x => traceL stmts env x, ?_, ?_⟩
      · intro env x e i _
        simp only [h1]
        by_cases he : e = 0 ∧ i = index
        · rw [if_pos he, if_pos (by rw [he.1, he.2])]
        · rw [if_neg he, if_neg (by rintro ⟨⟩; exact he ⟨rfl, rfl⟩)]
      · intro s2 _ rst uc E _ _ t x _
        simp [condsHold]
    | some c =>
      obtain ⟨-, -, p3, p4, -, -, -, p8, -⟩ := push_fields { s with lastIf := some s.code.length }
        0 index (.chain [(c, Code.block stmts)] none)
      have htr := SeqSt.truthy_makeCond conds c hc
      refine ⟨p8, p3, ?_, fun env x => if c.truthy env = true then traceL stmts env x else [], ?_, ?_⟩
      · rintro x ⟨c', hc', r, hr, hx⟩
        refine ⟨((0, index), .chain [(c, Code.block stmts)] none),
          by rw [p4]; exact List.mem_append_right _ (List.mem_singleton.2 rfl), r, ?_, hx⟩
        simp only [Item.code, chainCode_targets, List.flatMap_cons, List.flatMap_nil,
          List.append_nil, Code.targets_block, List.mem_append, List.mem_flatMap]
        exact Or.inl ⟨c', hc', hr⟩
      · intro env x e i _
        simp only [keyTrace_push]
        have hk : ({ s with lastIf := some s.code.length } : FsmSt).keyTrace e i env x =
            s.keyTrace e i env x := rfl
        rw [hk]
        by_cases he : e = 0 ∧ i = index
        · rw [if_pos he, if_pos (by rw [he.1, he.2])]
          by_cases hg : c.truthy env = true <;>
            simp [Item.code, chainCode, Code.trace, Code.trace_block, hg]
        · rw [if_neg he, if_neg (by rintro ⟨⟩; exact he ⟨rfl, rfl⟩)]
      · intro s2 _ rst uc E _ _ t x _
        simp only [htr, condsHold]
        rfl
  · have hadd : s.addStatement1 stmts index d (makeCond conds) lz eager =
        s.addDelayed stmts index d (makeCond conds) lz eager := by simp [addStatement1, hd]
    rw [hadd]
    obtain ⟨g, stmts', hne, htg, ⟨s3, hpush⟩, hkey, hspec⟩ := addDelayed_spec hi stmts index d
      (by omega) (makeCond conds) lz eager hok
    refine ⟨addDelayed_cur s hi _ _ _ _ _ _, addDelayed_seq s _ _ _ _ _ _, ?_, ?_,
      fun env x => if g.truthy env = true then traceL stmts' env x else [], ?_, ?_⟩
    · rw [hpush, (push_fields _ _ _ _).2.2.2.2.1]; exact Nat.le_max_right _ _
    · rintro x ⟨c, hc, r, hr, hx⟩
      rw [hpush]
      refine ⟨((d, index), .plain (.ite g (Code.block stmts') .skip)),
        by rw [(push_fields _ _ _ _).2.2.2.1]; simp, ?_⟩
      have : c.targets ∈ stmts'.map Code.targets := htg ▸ List.mem_map_of_mem hc
      obtain ⟨c', hc', hce⟩ := List.mem_map.1 this
      refine ⟨r, ?_, hx⟩
      simp only [Item.code, Code.targets, Code.targets_block, List.append_nil, List.mem_flatMap]
      exact ⟨c', hc', hce ▸ hr⟩
    · intro env x e i hx
      rw [hkey env x e i hx]
      by_cases he : e = d ∧ i = index
      · rw [if_pos he, if_pos (by rw [he.1, he.2])]
      · rw [if_neg he, if_neg (by rintro ⟨⟩; exact he ⟨rfl, rfl⟩)]
    · intro s2 hgd rst uc E hE h0 t x
      obtain ⟨hg1, hg2⟩ := hspec s2 hgd rst uc E hE h0 t
      refine ⟨fun hr => by simp [hg1 hr], fun hr hst => ?_⟩
      obtain ⟨hb, hv⟩ := hg2 hr hst
      have hcond : (match makeCond conds with
          | none => true
          | some c => if lz = true then c.truthy (E (t + d)) else c.eval (E t) % 2 == 1) =
          condsHold conds (E (if lz = true then t + d else t)) := by
        cases hc : makeCond conds with
        | none =>
          cases conds with
          | nil => rfl
          | cons a l => simp [makeCond] at hc
        | some c =>
          cases lz with
          | true => simp only [if_true, condsHold]; exact SeqSt.truthy_makeCond conds c hc _
          | false =>
            simp only [Bool.false_eq_true, if_false]
            exact makeCond_low_bit conds (hbit rfl) c hc _
      have hb' : g.truthy (E (t + d)) = condsHold conds (E (if lz = true then t + d else t)) :=
        hb.trans hcond
      simp only [hb']
      by_cases hh : condsHold conds (E (if lz = true then t + d else t)) = true
      · rw [if_pos hh, if_pos hh]
        cases eager with
        | false => rw [hne rfl]; simp
        | true => rw [hv rfl (heager rfl)]; simp
      · rw [if_neg hh, if_neg hh]

/-- `m` rounds. -/
theorem keepLoop_spec {s : FsmSt} (hi : s.Inv) (stmts : List Code) (index d m : Nat)
    (conds : List Expr) (lz eager : Bool)
    (hok : ∀ c ∈ stmts, ∀ r ∈ c.targets, r.name.fgenBy s.name = false)
    (hbit : lz = false → OneBit conds)
    (heager : eager = true → ∀ c ∈ stmts, ∃ r e, c = .subst r e) :
    Good s (s.keepLoop stmts index d (makeCond conds) lz eager m) ∧
    (s.keepLoop stmts index d (makeCond conds) lz eager m).cur = s.cur ∧
    (s.keepLoop stmts index d (makeCond conds) lz eager m).seq = s.seq ∧
    (∀ e, e < d + m → d ≤ e → e ≤ (s.keepLoop stmts index d (makeCond conds) lz eager m).delayAmount) ∧
    ∃ T : Nat → Env → Var → List Int,
      (∀ env x e i, x.fgenBy s.name = false →
        (s.keepLoop stmts index d (makeCond conds) lz eager m).keyTrace e i env x =
          s.keyTrace e i env x ++ (if (d ≤ e ∧ e < d + m) ∧ i = index then T e env x else [])) ∧
      ∀ s2, Good (s.keepLoop stmts index d (makeCond conds) lz eager m) s2 →
        ∀ rst uc E, Run (s2.always rst uc) E →
        (E 0 (.state s.name)) % 2 ^ s.width = E 0 (.state s.name) →
        ∀ e, d ≤ e → e < d + m → ∀ t x,
        (resetIn (some rst) E t e = true → T e (E (t + e)) x = []) ∧
        (resetIn (some rst) E t e = false → E t (.state s.name) = (s.cur : Int) → T e (E (t + e)) x =
          if condsHold conds (E (if lz then t + e else t)) = true
          then traceL stmts (E (if eager then t else t + e)) x else []) := by
  induction m with
  | zero =>
    refine ⟨.refl hi, rfl, rfl, fun e h1 h2 => by omega, fun _ _ _ => [], ?_,
      fun _ _ _ _ _ _ _ e h1 h2 => by omega⟩
    intro env x e i _
    rw [if_neg (by omega), List.append_nil]
    rfl
  | succ m ih =>
    obtain ⟨hg, hcur, hseq, hda, T, hT1, hT2⟩ := ih
    have hok' : ∀ c ∈ stmts, ∀ r ∈ c.targets,
        r.name.fgenBy (s.keepLoop stmts index d (makeCond conds) lz eager m).name = false := by
      rw [hg.name]; exact hok
    obtain ⟨kcur, kseq, kda, -, U, hU1, hU2⟩ :=
      addStatement1_spec hg.inv stmts index (d + m) conds lz eager hok' hbit heager
    have hg2 := Good.addStatement1 hg.inv stmts index (d + m) (makeCond conds) lz eager hok'
    rw [keepLoop_succ]
    refine ⟨hg.trans hg2, kcur.trans hcur, kseq.trans hseq, ?_, fun e => if e = d + m then U else T e, ?_, ?_⟩
    · intro e h1 h2
      by_cases he : e = d + m
      · rw [he]; exact kda
      · exact Nat.le_trans (hda e (by omega) h2) hg2.delay
    · intro env x e i hx
      rw [hU1 env x e i (by rw [hg.name]; exact hx), hT1 env x e i hx]
      show _ = _ ++ (if (d ≤ e ∧ e < d + (m + 1)) ∧ i = index then
        (if e = d + m then U else T e) env x else [])
      by_cases hix : i = index
      · by_cases he : e = d + m
        · subst he; simp [hix]
        · by_cases h2 : d ≤ e ∧ e < d + m
          · have h3 : d ≤ e ∧ e < d + (m + 1) := by omega
            simp [hix, he, h2, h3]
          · have h3 : ¬ (d ≤ e ∧ e < d + (m + 1)) := by omega
            simp only [hix, he, h2, h3, and_true, if_false, List.append_nil]
      · simp [hix]
    · intro s2 hgd rst uc E hE h0 e h1 h2 t x
      by_cases he : e = d + m
      · simp only [he, if_true]
        have := hU2 s2 hgd rst uc E hE (by rw [hg.name, hg.width]; exact h0) t x
        rw [hg.name, hcur] at this
        exact this
      · simp only [he, if_false]
        exact hT2 s2 (hg2.trans hgd) rst uc E hE h0 e h1 (by omega) t x

theorem seg_last (s : FsmSt) (env : Env) (x : Var) (n : Nat) :
    ((∀ d, d < n → s.active d env x = []) → s.seg env x 0 n = []) ∧
    (∀ d, d < n → s.active d env x ≠ [] → (∀ d', d' < d → s.active d' env x = []) →
      ∀ y, (y ++ s.seg env x 0 n).getLast? = (s.active d env x).getLast?) := by
  induction n with
  | zero => exact ⟨fun _ => rfl, fun d h1 => by omega⟩
  | succ n ih =>
    constructor
    · intro h
      rw [seg, ih.1 fun d h1 => h d (by omega), h (0 + n) (by omega)]
      rfl
    · intro d h1 h3 h4 y
      rw [seg]
      by_cases hd : d = n
      · subst hd
        rw [ih.1 fun d' h1 => h4 d' h1, List.append_nil, Nat.zero_add, SeqSt.getLast?_append_ne _ h3]
      · rw [← List.append_assoc]
        exact ih.2 d (by omega) h3 h4 _

end FsmSt

/-- At edge `u - e` the FSM was in state `i` and the conditions held (with `LazyCond`: they hold at
    edge `u`), and reset was not asserted from edge `u - e` to edge `u - 1`. -/
def fsmTriggered (name : String) (rst : Expr) (E : Nat → Env) (i : Nat) (conds : List Expr) (lz : Bool)
    (u e : Nat) : Bool :=
  !resetIn (some rst) E (u - e) e && E (u - e) (.state name) == (i : Int) &&
    condsHold conds (E (if lz then u else u - e))

/-- **C50 for FSMs.**  In an FSM built by calls `pre`, then
    `fsm.If(*conds).Delay(d).Keep(m)(*stmts)` (optionally with `LazyCond`, `EagerVal`, and `When` naming
    the current state), then any calls `post`, consider a register `x` that `stmts` assigns and that no
    other call mentions.  At every clock edge `u` without reset, `x` is assigned by `stmts` exactly when
    at one of the `m` edges `u - d, ..., u - d - (m - 1)` the FSM was in the state the statement was
    added to and the conditions held, and no reset came in between; otherwise it keeps its value.  With
    `EagerVal` the values are those of the latest such edge. -/
theorem c50_fsm_keep {name : String} {w : Nat} {pre : List FsmOp} {s : FsmSt} {x : Var}
    (hpre : ∀ op ∈ pre, op.Ok name ∧ ¬ op.mentions x)
    (hs : (FsmSt.fresh name w).applyAll pre = some s) (hidle : s.Idle)
    (wh : Option Nat) (hwh : wh.getD s.cur = s.cur)
    (conds : List Expr) (d m : Nat) (hm : 0 < m) (lz eager : Bool) (stmts : List Code)
    (hok : ∀ c ∈ stmts, ∀ r ∈ c.targets, r.name.fgenBy name = false)
    (hmem : ∃ c ∈ stmts, ∃ r ∈ c.targets, r.name = x)
    (hbit : lz = false → OneBit conds)
    (heager : eager = true → ∀ c ∈ stmts, ∃ r e, c = .subst r e) :
    ∃ s', s.applyAll (fsmKeepCalls wh conds d m lz eager stmts) = some s' ∧ Reach name w s' ∧
      ∀ (post : List FsmOp) (s2 : FsmSt), (∀ op ∈ post, op.Ok name ∧ ¬ op.mentions x) →
        s'.applyAll post = some s2 →
      ∀ (rst : Expr) (uc : Bool) (E : Nat → Env), Run (s2.always rst uc) E →
        (E 0 (.state name)) % 2 ^ w = E 0 (.state name) →
      ∀ u, d + m ≤ u + 1 → rst.truthy (E u) = false →
        E (u + 1) x =
          ((List.range m).find? fun i => fsmTriggered name rst E s.cur conds lz u (d + i)).elim (E u x)
            fun i => (Code.block stmts).exec (E (if eager then u - (d + i) else u)) (E u) x := by
  have hreach0 : Reach name w s := ⟨pre, fun op h => (hpre op h).1, hs⟩
  obtain ⟨s1, h1, f4, f5, f6, f7, f9, f10, f11, f12, f13⟩ :=
    fsmKeepCalls_kw s hidle wh conds d m lz eager stmts
  have g1 : Good s s1 := .book hreach0.inv f4 f5 f6 f7 f9 f10 (by omega) (Or.inr f13)
  have hnm : s1.name = name := f4.trans hreach0.name_eq
  have hwd : s1.width = w := f5.trans hreach0.width_eq
  have hreach := hreach0.append _ (fsmKeepCalls_ok hok) h1
  refine ⟨_, h1, hreach, ?_⟩
  intro post s2 hpost hs2 rst uc E hE h0 u hu hrst
  have hx : x.fgenBy name = false := by
    obtain ⟨c, hc, r, hr, rfl⟩ := hmem
    exact hok c hc r hr
  have hx' : x.ownGen name = false := by
    simp only [Var.fgenBy, Bool.or_eq_false_iff] at hx; exact hx.1
  obtain ⟨hgk, hcur, hseq, hda, T, hT1, hT2⟩ := FsmSt.keepLoop_spec g1.inv stmts (wh.getD s.cur) d m conds lz
    eager (by rw [hnm]; exact hok) hbit heager
  have hgd : FsmSt.Good _ s2 := .applyAll hreach.inv post
    (by rw [hreach.name_eq]; exact fun op h => (hpost op h).1) hs2
  have hsame2 := applyAll_same hreach.inv post
    (by rw [hreach.name_eq]; exact fun op h => (hpost op h).1)
    (by rw [hreach.name_eq]; exact hx) (fun op h => (hpost op h).2) hs2
  have hsame0 := applyAll_same (inv_fresh name w) pre (fun op h => (hpre op h).1) hx
    (fun op h => (hpre op h).2) hs
  have hreach2 := hreach.append post (fun op h => (hpost op h).1) hs2
  -- the register is driven by the block
  have htm : x ∈ (s2.always rst uc).targets.map Reg.name := by
    obtain ⟨en, he, q, hq, hqn⟩ := hgd.drives x (by
      obtain ⟨m', rfl⟩ : ∃ m', m = m' + 1 := ⟨m - 1, by omega⟩
      obtain ⟨hgk', -⟩ := FsmSt.keepLoop_spec g1.inv stmts (wh.getD s.cur) d m' conds lz
        eager (by rw [hnm]; exact hok) hbit heager
      rw [FsmSt.keepLoop_succ]
      exact (FsmSt.addStatement1_spec hgk'.inv stmts (wh.getD s.cur) (d + m') conds lz eager
        (by rw [hgk'.name, hnm]; exact hok) hbit heager).2.2.2.1 x hmem)
    exact List.mem_map.2 ⟨q, mem_always_code hreach2.inv.bound he hq rst uc, hqn⟩
  rw [run_trace hE htm, if_neg (by simp [hrst])]
  -- its assignments in the final design
  have hkt : ∀ e i, s2.keyTrace e i (E u) x =
      if (d ≤ e ∧ e < d + m) ∧ i = s.cur then T e (E u) x else [] := by
    intro e i
    rw [hsame2.key, hT1 _ _ _ _ (by rw [hnm]; exact hx), keyTrace_congr f7, hsame0.key, hwh]
    rfl
  have hact : ∀ e, s2.active e (E u) x = if d ≤ e ∧ e < d + m then
      (if fsmTriggered name rst E s.cur conds lz u e = true then
        traceL stmts (E (if eager then u - e else u)) x else []) else [] := by
    intro e
    have hA : s2.active e (E u) x = if E u (s2.dstateReg e).name = (s.cur : Int) then
        (if d ≤ e ∧ e < d + m then T e (E u) x else []) else [] := by
      unfold active
      by_cases hn0 : 0 ≤ E u (s2.dstateReg e).name
      · rw [if_pos hn0, hkt]
        by_cases he : E u (s2.dstateReg e).name = (s.cur : Int)
        · simp [he]
        · have : ¬ (E u (s2.dstateReg e).name).toNat = s.cur := by omega
          simp [he, this]
      · rw [if_neg hn0, if_neg (by omega)]
    rw [hA]
    by_cases he : d ≤ e ∧ e < d + m
    · rw [if_pos he, if_pos he]
      have hsp := hT2 s2 hgd rst uc E hE (by rw [hnm, hwd]; exact h0) e he.1 he.2 (u - e) x
      rw [show u - e + e = u by omega, hnm, f12] at hsp
      cases hres : resetIn (some rst) E (u - e) e with
      | true => rw [hsp.1 hres]; simp [fsmTriggered, hres]
      | false =>
        have hle : e ≤ s2.delayAmount := Nat.le_trans (hda e he.2 he.1) hgd.delay
        have hdst := run_dstate_hist hreach2.inv hE
          (by rw [hreach2.name_eq, hreach2.width_eq]; exact h0) (u - e) e hle hres
        rw [hreach2.name_eq, show u - e + e = u by omega] at hdst
        rw [hdst]
        by_cases hst : E (u - e) (.state name) = (s.cur : Int)
        · rw [if_pos hst, hsp.2 hres hst]
          simp [fsmTriggered, hres, hst]
        · rw [if_neg hst, if_neg (by simp [fsmTriggered, hst])]
    · rw [if_neg he, if_neg he, ite_self]
  have htr : traceL s2.makeCase (E u) x = s2.seg (E u) x 0 (s2.delayAmount + 1) := by
    have hsq : traceL s2.seq.makeCode (E u) x = [] := by
      rw [hsame2.seq, hseq, f6, hsame0.seq]
      rfl
    rw [makeCase_trace, hsq, delayedSubsts_nil _ (fun d hd => by
        have h2 := dstateReg_own s2 (d + 1)
        rw [← hd, hreach2.name_eq, hx'] at h2
        simp at h2),
      jumpTrace_nil s2 (fun hd => by
        have h2 := dstateReg_own s2 0
        have h3 : (s2.dstateReg 0).name = s2.stateReg.name := rfl
        rw [h3, ← hd, hreach2.name_eq, hx'] at h2
        simp at h2)]
    simp
  rw [htr]
  have hsl := FsmSt.seg_last s2 (E u) x (s2.delayAmount + 1)
  cases hf : (List.range m).find? fun i => fsmTriggered name rst E s.cur conds lz u (d + i) with
  | none =>
    rw [List.find?_eq_none] at hf
    rw [hsl.1]
    · rfl
    intro e _
    rw [hact e]
    split
    · rename_i he
      have := hf (e - d) (by simp; omega)
      rw [show d + (e - d) = e by omega] at this
      rw [if_neg this]
    · rfl
  | some i =>
    rw [List.find?_range_eq_some] at hf
    obtain ⟨htg, him, hlt⟩ := hf
    simp only [List.mem_range] at him
    have hci : s2.active (d + i) (E u) x = traceL stmts (E (if eager then u - (d + i) else u)) x := by
      rw [hact, if_pos (by omega), if_pos htg]
    simp only [Option.elim]
    rw [Code.exec_eq_trace, Code.trace_block]
    by_cases hL : traceL stmts (E (if eager = true then u - (d + i) else u)) x = []
    · have hne : eager = false := by
        by_contra hcon
        have hcon : eager = true := by simpa using hcon
        obtain ⟨c, hc, r, hr, hrx⟩ := hmem
        obtain ⟨r', e', rfl⟩ := heager hcon c hc
        have : r = r' := by simpa [Code.targets] using hr
        subst this
        obtain ⟨l1, l2, rfl⟩ := List.append_of_mem hc
        rw [traceL_append, traceL_cons] at hL
        simp [Code.trace, hrx] at hL
      subst hne
      rw [hsl.1, hL]
      intro e _
      rw [hact e]
      simp only [Bool.false_eq_true, if_false] at hL ⊢
      simp [hL]
    · rw [← hci] at hL
      have hle : d + i ≤ s2.delayAmount := Nat.le_trans (hda (d + i) (by omega) (by omega)) hgd.delay
      have := hsl.2 (d + i) (by omega) hL (fun e he => by
        rw [hact e]
        split
        · rename_i hde
          have := hlt (e - d) (by omega)
          rw [show d + (e - d) = e by omega] at this
          rw [if_neg (by simpa using this)]
        · rfl) []
      rw [List.nil_append] at this
      rw [this, hci]

/-- Example: the hypotheses are met by a statement added to state 1, after `fsm.If(go).goto_next()`. -/
example : ∃ s, (FsmSt.fresh "f" 32).applyAll (whenIf none [.var (.user "go")] ++ [.gotoNext none]) =
      some s ∧ s.Idle ∧ s.cur = 1 ∧ OneBit [.var (.user "x"), .var (.user "y")] ∧
      ∀ op ∈ whenIf none [.var (.user "go")] ++ [.gotoNext none],
        op.Ok "f" ∧ ¬ op.mentions (.user "a") := by
  refine ⟨_, rfl, ⟨rfl, rfl, rfl⟩, rfl, by intro c h; simp at h, ?_⟩
  intro op hop
  simp only [whenIf, List.mem_append, List.mem_singleton, List.isEmpty_cons, Bool.false_eq_true,
    if_false, List.not_mem_nil, false_or] at hop
  rcases hop with rfl | rfl <;> exact ⟨trivial, id⟩

/-- Example: a run of `fsm.If(go).goto_next(); fsm.Keep(2)(a(a + 1)); fsm.goto(0)` that is in state 1 at
    edge 1 only: `a` is incremented at the edges 1 and 2. -/
example : ∃ s', (FsmSt.fresh "f" 32).applyAll ((whenIf none [.var (.user "go")] ++ [.gotoNext none])
      ++ (fsmKeepCalls none [] 0 2 false false
        [.subst ⟨.user "a", 8, false, none⟩ (.fn fun e => e (.user "a") + 1)] ++ [.goto 0 none none])) = some s' ∧
    let E : Nat → Env := fun t => Nat.rec
      (fun v => if v = .user "go" then 1 else 0)
      (fun _ e => Function.update ((s'.always (.int 0) true).tick e) (.user "go") 0) t
    (List.range 5).map (fun t => (E t (.state "f"), E t (.user "a"))) =
      [(0, 0), (1, 0), (0, 1), (0, 2), (0, 2)] := by
  refine ⟨_, rfl, ?_⟩
  decide +kernel

end Hdl
