import Verif.Props.C13_SeqDelay

/-!
# C50: `Seq.Keep(m)`

`seq.If(*conds).Delay(d).Keep(m)(*stmts)` adds the statements `m` times, with delays
`d, d+1, ..., d+m-1`.  The theorem says what this means for a register assigned by nothing else:
after the conditions held at some edge the statements are executed at each of the `m` clock edges
from the `d`-th on, and where several such windows overlap the latest trigger counts.
-/

namespace Hdl

/-- The calls `seq.If(*conds).Delay(d).Keep(m).LazyCond().EagerVal()(*stmts)`; calls with empty or
    default arguments (other than `Keep`) are left out. -/
def keepCalls (conds : List Expr) (d m : Nat) (lz eager : Bool) (stmts : List Code) : List SeqOp :=
  (if conds.isEmpty then [] else [.iff conds]) ++
  (if d = 0 then [] else [.delay d]) ++ [.keep m] ++
  (if lz then [.lazyCond true] else []) ++
  (if eager then [.eagerVal true] else []) ++ [.add stmts]

namespace SeqSt

/-- The statements added by `Keep(m)`. -/
def keepLoop (s : SeqSt) (stmts : List Code) (d : Nat) (cond : Option Expr) (lz eager : Bool) (m : Nat) : SeqSt :=
  (List.range m).foldl (fun s i => s.addStatement1 stmts (d + i) cond lz eager) s

theorem keepLoop_succ (s : SeqSt) (stmts : List Code) (d : Nat) (cond : Option Expr) (lz eager : Bool) (m : Nat) :
    s.keepLoop stmts d cond lz eager (m + 1) =
      (s.keepLoop stmts d cond lz eager m).addStatement1 stmts (d + m) cond lz eager := by
  simp [keepLoop, List.range_succ]

theorem keepCalls_kw (s : SeqSt) (h : s.Idle) (conds : List Expr) (d m : Nat) (lz eager : Bool)
    (stmts : List Code) :
    ∃ s1 : SeqSt, s.applyAll (keepCalls conds d m lz eager stmts) =
        some (s1.keepLoop stmts d (makeCond conds) lz eager m) ∧
      s1.name = s.name ∧ s1.delayed = s.delayed ∧ s1.body = s.body ∧ s1.dstVar = s.dstVar ∧
      s1.tmpCount = s.tmpCount ∧ s1.modTmp = s.modTmp ∧ s1.prevDict = s.prevDict ∧
      s1.lastIf = none ∧ s1.Idle := by
  obtain ⟨hn, he, hel⟩ := h
  have step : ∀ s0 : SeqSt, s0.elifCond = none → s0.nextElse = false → s0.next.keep = some m →
      ∃ s1 : SeqSt, s0.add stmts = some (s1.keepLoop stmts (s0.next.delay.getD 0) s0.next.cond
          (s0.next.lazyCond.getD false) (s0.next.eagerVal.getD false) m) ∧
        s1.name = s0.name ∧ s1.delayed = s0.delayed ∧ s1.body = s0.body ∧
        s1.dstVar = s0.dstVar ∧ s1.tmpCount = s0.tmpCount ∧ s1.modTmp = s0.modTmp ∧
        s1.prevDict = s0.prevDict ∧ s1.lastIf = none ∧ s1.Idle := by
    intro s0 h1 h2 h3
    refine ⟨{ s0 with lastDelay := s0.next.delay, next := {}, lastIf := none, nextElse := false },
      ?_, rfl, rfl, rfl, rfl, rfl, rfl, rfl, rfl, rfl, rfl, h1⟩
    simp [SeqSt.add, SeqSt.addKw, h1, h2, SeqSt.addStatement, h3, keepLoop]
  have key : ∃ s0 : SeqSt, s.applyAll (keepCalls conds d m lz eager stmts) = s0.add stmts ∧
      s0.elifCond = none ∧ s0.nextElse = false ∧
      s0.next = { cond := makeCond conds, delay := if d = 0 then none else some d,
                  keep := some m, lazyCond := if lz then some true else none,
                  eagerVal := if eager then some true else none } ∧
      s0.name = s.name ∧ s0.delayed = s.delayed ∧ s0.body = s.body ∧
        s0.dstVar = s.dstVar ∧ s0.tmpCount = s.tmpCount ∧ s0.modTmp = s.modTmp ∧
        s0.prevDict = s.prevDict := by
    have fin : ∀ s0 : SeqSt, s0.applyAll [.add stmts] = s0.add stmts := by
      intro s0
      simp only [SeqSt.applyAll, SeqOp.apply]
      cases s0.add stmts <;> rfl
    cases conds with
    | nil =>
      by_cases hd : d = 0 <;> cases lz <;> cases eager <;>
        simp only [keepCalls, List.isEmpty_nil, if_true, hd, if_false, List.nil_append,
          List.cons_append, Bool.false_eq_true, SeqSt.applyAll, SeqOp.apply, Option.bind_some] <;>
        exact ⟨_, fin _, hel, he, by simp [hn, makeCond], rfl, rfl, rfl, rfl, rfl, rfl, rfl⟩
    | cons c cs =>
      have hiff : s.iff (c :: cs) = { s with
          elifCond := none, next := { cond := makeCond (c :: cs) },
          lastCond := [cs.foldl Expr.and c] } := by
        simp [SeqSt.iff, makeCond, hn]
      by_cases hd : d = 0 <;> cases lz <;> cases eager <;>
        simp only [keepCalls, List.isEmpty_cons, if_true, hd, if_false, List.nil_append,
          List.cons_append, Bool.false_eq_true, SeqSt.applyAll, SeqOp.apply, Option.bind_some,
          hiff] <;>
        exact ⟨_, fin _, rfl, he, by simp [hn, makeCond], rfl, rfl, rfl, rfl, rfl, rfl, rfl⟩
  obtain ⟨s0, h1, h2, h3, h4, f1, f2, f3, f4, f5, f6, f7⟩ := key
  obtain ⟨s1, g0, g1, g2, g3, g4, g5, g6, g7, g8, g9⟩ := step s0 h2 h3 (by rw [h4])
  refine ⟨s1, ?_, g1.trans f1, g2.trans f2, g3.trans f3, g4.trans f4, g5.trans f5, g6.trans f6,
    g7.trans f7, g8, g9⟩
  rw [h1, g0, h4]
  by_cases hd : d = 0 <;> cases lz <;> cases eager <;> simp [hd]

theorem keepCalls_ok {name : String} {conds : List Expr} {d m : Nat} {lz eager : Bool}
    {stmts : List Code} (h : ∀ c ∈ stmts, ∀ r ∈ c.targets, r.name.genBy name = false) :
    ∀ op ∈ keepCalls conds d m lz eager stmts, op.Ok name := by
  intro op hop
  simp only [keepCalls, List.mem_append] at hop
  rcases hop with ((((hop | hop) | hop) | hop) | hop) | hop
  · split at hop
    · simp at hop
    · simp only [List.mem_singleton] at hop; subst hop; trivial
  · split at hop
    · simp at hop
    · simp only [List.mem_singleton] at hop; subst hop; trivial
  · simp only [List.mem_singleton] at hop; subst hop; trivial
  · split at hop
    · simp only [List.mem_singleton] at hop; subst hop; trivial
    · simp at hop
  · split at hop
    · simp only [List.mem_singleton] at hop; subst hop; trivial
    · simp at hop
  · simp only [List.mem_singleton] at hop; subst hop; exact h

/-- Some statement of the block assigns `x`. -/
def Drives (s : SeqSt) (x : Var) : Prop := ∃ c ∈ s.makeCode, ∃ r ∈ c.targets, r.name = x

theorem Prim.drives {ok} {s s' : SeqSt} (p : Prim ok s s') {x : Var} (h : s.Drives x) :
    s'.Drives x := by
  obtain ⟨c, hc, r, hr, hx⟩ := h
  rcases mem_makeCode.1 hc with ⟨d, hd⟩ | ⟨it, hit, rfl⟩
  · exact ⟨c, mem_makeCode.2 (Or.inl ⟨d, p.delayed_mem hd⟩), r, hr, hx⟩
  have keep : it ∈ s'.body → s'.Drives x := fun h =>
    ⟨it.code, mem_makeCode.2 (Or.inr ⟨it, h, rfl⟩), r, hr, hx⟩
  cases p with
  | book hn hd hb hv => exact keep (by rw [hb]; exact hit)
  | body it' _ => exact keep (by simp [pushBody, hit])
  | delayed d c' hd _ => exact keep (by simpa [pushDelayed] using hit)
  | reset r _ => exact keep (by simpa [addReset] using hit)
  | elif i cnd b _ =>
    obtain ⟨j, hj⟩ := List.mem_iff_getElem?.1 hit
    refine ⟨(if i = j then (match (generalizing := false) it with
        | .chain bs none => .chain (bs ++ [(cnd, b)]) none
        | it => it) else it : Item).code,
      mem_makeCode.2 (Or.inr ⟨_, List.mem_of_getElem? (i := j) ?_, rfl⟩), r, ?_, hx⟩
    · simp only [extendElif, addDst_body, List.getElem?_modify, hj]
      by_cases hij : i = j <;> simp [hij] <;> rfl
    · by_cases hij : i = j
      · simp only [hij, if_true]
        rcases it with _ | ⟨bs, _ | _⟩
        · exact hr
        · simp only [Item.code, chainCode_targets, List.flatMap_append, List.mem_append] at hr ⊢
          exact hr.imp_left Or.inl
        · exact hr
      · simpa [hij] using hr
  | els i b _ =>
    obtain ⟨j, hj⟩ := List.mem_iff_getElem?.1 hit
    refine ⟨(if i = j then (match (generalizing := false) it with
        | .chain bs none => .chain bs (some b)
        | it => it) else it : Item).code,
      mem_makeCode.2 (Or.inr ⟨_, List.mem_of_getElem? (i := j) ?_, rfl⟩), r, ?_, hx⟩
    · simp only [extendElse, addDst_body, List.getElem?_modify, hj]
      by_cases hij : i = j <;> simp [hij] <;> rfl
    · by_cases hij : i = j
      · simp only [hij, if_true]
        rcases it with _ | ⟨bs, _ | _⟩
        · exact hr
        · simp only [Item.code, chainCode_targets, List.mem_append] at hr ⊢
          rcases hr with hr | hr
          · exact Or.inl hr
          · simp at hr
        · exact hr
      · simpa [hij] using hr

theorem Grows.drives {ok} {s s' : SeqSt} (g : Grows ok s s') {x : Var} (h : s.Drives x) :
    s'.Drives x := by
  induction g with
  | refl => exact h
  | tail _ p ih => exact p.drives ih

theorem addStatement1_drives (s : SeqSt) (stmts : List Code) (d : Nat) (cond : Option Expr)
    (lz eager : Bool) {x : Var} (h : ∃ c ∈ stmts, ∃ r ∈ c.targets, r.name = x) :
    (s.addStatement1 stmts d cond lz eager).Drives x := by
  obtain ⟨c, hc, r, hr, rfl⟩ := h
  unfold addStatement1
  by_cases hd : d = 0
  · simp only [hd, if_true]
    cases cond with
    | none =>
      simp only
      have : ∀ (l : List Code) (s : SeqSt), (c ∈ l ∨ Item.plain c ∈ s.body) →
          Item.plain c ∈ (l.foldl (fun s c => s.pushBody (.plain c)) s).body := by
        intro l
        induction l with
        | nil => intro s h; simpa using h
        | cons a l ih =>
          intro s h
          refine ih _ ?_
          rcases h with h | h
          · rcases List.mem_cons.1 h with h | h
            · right; simp [pushBody, h]
            · exact Or.inl h
          · right; simp [pushBody, h]
      exact ⟨c, mem_makeCode.2 (Or.inr ⟨_, this stmts s (Or.inl hc), rfl⟩), r, hr, rfl⟩
    | some e =>
      refine ⟨_, mem_makeCode.2 (Or.inr ⟨.chain [(e, Code.block stmts)] none, ?_, rfl⟩), r, ?_, rfl⟩
      · simp [pushBody]
      · simp only [Item.code, chainCode_targets, List.flatMap_cons, List.flatMap_nil,
          List.append_nil, Code.targets_block, List.mem_append, List.mem_flatMap]
        exact Or.inl ⟨c, hc, hr⟩
  · simp only [hd, if_false]
    obtain ⟨s3, g, stmts', htg, hpush⟩ : ∃ (s3 : SeqSt) (g : Expr) (stmts' : List Code),
        stmts'.map Code.targets = stmts.map Code.targets ∧
        s.addDelayed stmts d cond lz eager = s3.pushDelayed d (.ite g (Code.block stmts') .skip) := by
      simp only [addDelayed]
      have hts : ∀ (s : SeqSt) (l : List Code), (s.addDelayedSubsts l d).1.map Code.targets =
          l.map Code.targets := by
        intro s l
        induction l generalizing s with
        | nil => rfl
        | cons c l ih =>
          show (s.addDelayedSubst c d).1.targets :: _ = _
          rw [addDelayedSubst_targets]
          exact congrArg (c.targets :: ·) (ih _)
      cases eager with
      | true => exact ⟨_, _, _, hts _ _, rfl⟩
      | false => exact ⟨_, _, _, rfl, rfl⟩
    have : c.targets ∈ stmts'.map Code.targets := htg ▸ List.mem_map_of_mem hc
    obtain ⟨c', hc', hce⟩ := List.mem_map.1 this
    refine ⟨.ite g (Code.block stmts') .skip, mem_makeCode.2 (Or.inl ⟨d, ?_⟩), r, ?_, rfl⟩
    · rw [hpush]; simp [pushDelayed]
    · simp only [Code.targets, Code.targets_block, List.append_nil, List.mem_flatMap]
      exact ⟨c', hc', hce ▸ hr⟩

/-- One round of `Keep`: what is added to which delay, and what it amounts to in every later
    design. -/
theorem addStatement1_spec {s : SeqSt} (hi : s.Inv) (stmts : List Code) (d : Nat)
    (conds : List Expr) (lz eager : Bool)
    (hok : ∀ c ∈ stmts, ∀ r ∈ c.targets, r.name.genBy s.name = false)
    (hbit : lz = false → OneBit conds)
    (heager : eager = true → ∀ c ∈ stmts, ∃ r e, c = .subst r e) :
    ∃ T : Env → Var → List Int,
      (∀ env x e, x.genBy s.name = false →
        (s.addStatement1 stmts d (makeCond conds) lz eager).cls e env x = s.cls e env x ++
          (if e = d then T env x else [])) ∧
      ∀ s2, Good (s.addStatement1 stmts d (makeCond conds) lz eager) s2 →
        ∀ rst E, Run (s2.always rst) E → ∀ t x, T (E (t + d)) x =
          if resetIn rst E t d = false ∧ condsHold conds (E (if lz then t + d else t)) = true
          then traceL stmts (E (if eager then t else t + d)) x else [] := by
  by_cases hd : d = 0
  · subst hd
    obtain ⟨g, hg, hc⟩ := addStatement1_cls hi stmts 0 conds lz hok
    have hsame : s.addStatement1 stmts 0 (makeCond conds) lz eager =
        s.addStatement1 stmts 0 (makeCond conds) lz false := by simp [addStatement1]
    refine ⟨fun env x => if g.truthy env = true then traceL stmts env x else [], ?_, ?_⟩
    · intro env x e hx
      rw [hsame, hc env x e hx]
      by_cases he : e = 0 <;> simp [he]
    · intro s2 _ rst E _ t x
      have h0 : resetIn rst E t 0 = false := by simp [resetIn]
      simp only [Nat.add_zero, ite_self, h0, true_and, hg rfl, condsHold]
  · have hadd : s.addStatement1 stmts d (makeCond conds) lz eager =
        s.addDelayed stmts d (makeCond conds) lz eager := by simp [addStatement1, hd]
    rw [hadd]
    obtain ⟨g, stmts', hne, hcls, hspec⟩ := addDelayed_spec hi stmts d (by omega) (makeCond conds) lz eager hok
    refine ⟨fun env x => if g.truthy env = true then traceL stmts' env x else [], ?_, ?_⟩
    · intro env x e hx
      rw [hcls env x e hx]
      by_cases he : e = d <;> simp [he]
    · intro s2 hgd rst E hE t x
      obtain ⟨hguard, hval⟩ := hspec s2 hgd rst E hE t
      have hcond : (match makeCond conds with
          | none => true
          | some c => if lz = true then c.truthy (E (t + d)) else c.eval (E t) % 2 == 1) =
          condsHold conds (E (if lz = true then t + d else t)) := by
        cases hc : makeCond conds with
        | none =>
          cases conds with
          | nil => rfl
          | cons a l => simp [makeCond] at hc
        | some c =>
          cases lz with
          | true => simp only [if_true, condsHold]; exact truthy_makeCond conds c hc _
          | false =>
            simp only [Bool.false_eq_true, if_false]
            exact makeCond_low_bit conds (hbit rfl) c hc _
      have hguard' : g.truthy (E (t + d)) = (!resetIn rst E t d &&
          condsHold conds (E (if lz = true then t + d else t))) :=
        hguard.trans (congrArg (fun b => !resetIn rst E t d && b) hcond)
      simp only [hguard']
      by_cases hres : resetIn rst E t d = true
      · simp [hres]
      · have hres : resetIn rst E t d = false := by simpa using hres
        by_cases hh : condsHold conds (E (if lz = true then t + d else t)) = true
        · simp only [hres, hh, Bool.not_false, Bool.and_self, if_true, and_self]
          cases eager with
          | false => rw [hne rfl]; simp
          | true => simpa using hval rfl (heager rfl) hres x
        · simp [hh]

/-- `m` rounds. -/
theorem keepLoop_spec {s : SeqSt} (hi : s.Inv) (stmts : List Code) (d m : Nat)
    (conds : List Expr) (lz eager : Bool)
    (hok : ∀ c ∈ stmts, ∀ r ∈ c.targets, r.name.genBy s.name = false)
    (hbit : lz = false → OneBit conds)
    (heager : eager = true → ∀ c ∈ stmts, ∃ r e, c = .subst r e) :
    Good s (s.keepLoop stmts d (makeCond conds) lz eager m) ∧
    ∃ T : Nat → Env → Var → List Int,
      (∀ env x e, x.genBy s.name = false →
        (s.keepLoop stmts d (makeCond conds) lz eager m).cls e env x = s.cls e env x ++
          (if d ≤ e ∧ e < d + m then T e env x else [])) ∧
      ∀ s2, Good (s.keepLoop stmts d (makeCond conds) lz eager m) s2 →
        ∀ rst E, Run (s2.always rst) E → ∀ e, d ≤ e → e < d + m → ∀ t x, T e (E (t + e)) x =
          if resetIn rst E t e = false ∧ condsHold conds (E (if lz then t + e else t)) = true
          then traceL stmts (E (if eager then t else t + e)) x else [] := by
  induction m with
  | zero =>
    refine ⟨.refl hi, fun _ _ _ => [], ?_, fun _ _ _ _ _ e h1 h2 => by omega⟩
    intro env x e _
    rw [if_neg (by omega), List.append_nil]
    rfl
  | succ m ih =>
    obtain ⟨hg, T, hT1, hT2⟩ := ih
    have hok' : ∀ c ∈ stmts, ∀ r ∈ c.targets,
        r.name.genBy (s.keepLoop stmts d (makeCond conds) lz eager m).name = false := by
      rw [hg.step.name]; exact hok
    obtain ⟨U, hU1, hU2⟩ := addStatement1_spec hg.inv stmts (d + m) conds lz eager hok' hbit heager
    have hg2 := Good.addStatement1 hg.inv stmts (d + m) (makeCond conds) lz eager hok'
    rw [keepLoop_succ]
    refine ⟨hg.trans hg2, fun e => if e = d + m then U else T e, ?_, ?_⟩
    · intro env x e hx
      rw [hU1 env x e (by rw [hg.step.name]; exact hx), hT1 env x e hx]
      show _ = _ ++ (if d ≤ e ∧ e < d + (m + 1) then (if e = d + m then U else T e) env x else [])
      by_cases he : e = d + m
      · rw [if_neg (by omega), List.append_nil, if_pos he, if_pos (by omega), if_pos he]
      · rw [if_neg he, List.append_nil, if_neg he]
        by_cases h2 : d ≤ e ∧ e < d + m
        · rw [if_pos h2, if_pos (by omega)]
        · rw [if_neg h2, if_neg (by omega)]
    · intro s2 hgd rst E hE e h1 h2 t x
      by_cases he : e = d + m
      · simp only [he, if_true]
        exact hU2 s2 hgd rst E hE t x
      · simp only [he, if_false]
        exact hT2 s2 (hg2.trans hgd) rst E hE e h1 (by omega) t x

end SeqSt

open SeqSt

/-- The conditions held at edge `u - e` (with `LazyCond`: hold at edge `u`) and reset was not
    asserted from edge `u - e` to edge `u - 1`. -/
def triggered (rst : Option Expr) (E : Nat → Env) (conds : List Expr) (lz : Bool) (u e : Nat) : Bool :=
  !resetIn rst E (u - e) e && condsHold conds (E (if lz then u else u - e))

/-- **C50.**  On any design, `seq.If(*conds).Delay(d).Keep(m)(*stmts)`, optionally with `LazyCond` and
    `EagerVal`, followed by any further calls: consider a register `x` that no other statement of the
    design assigns.  At every clock edge `u` without reset, `x` is assigned by `stmts` exactly when the
    conditions held at one of the `m` edges `u - d, u - d - 1, ..., u - d - (m - 1)` and no reset came
    in between; otherwise it keeps its value.  With `EagerVal` the values are those of the latest such
    edge. -/
theorem c50_keep {name : String} {s : SeqSt} (h : Reach name s) (hidle : s.Idle)
    (conds : List Expr) (d m : Nat) (hm : 0 < m) (lz eager : Bool) (stmts : List Code)
    (hok : ∀ c ∈ stmts, ∀ r ∈ c.targets, r.name.genBy name = false)
    (hbit : lz = false → OneBit conds)
    (heager : eager = true → ∀ c ∈ stmts, ∃ r e, c = .subst r e) :
    ∃ s', s.applyAll (keepCalls conds d m lz eager stmts) = some s' ∧ Reach name s' ∧
      ∀ (post : List SeqOp) (s2 : SeqSt), (∀ op ∈ post, op.Ok name) →
        s'.applyAll post = some s2 →
      ∀ (rst : Option Expr) (E : Nat → Env), Run (s2.always rst) E →
      ∀ x : Var, (∃ c ∈ stmts, ∃ r ∈ c.targets, r.name = x) → (∀ d env, s.cls d env x = []) →
        (∀ op ∈ post, ¬ op.mentions x) →
      ∀ u, d + m ≤ u + 1 → isReset rst (E u) = false →
        E (u + 1) x =
          ((List.range m).find? fun i => triggered rst E conds lz u (d + i)).elim (E u x) fun i =>
            (Code.block stmts).exec (E (if eager then u - (d + i) else u)) (E u) x := by
  obtain ⟨s1, h1, hnm, hd, hb, hv, ht, hmt, hp, hl, -⟩ := keepCalls_kw s hidle conds d m lz eager stmts
  have g1 : Good s s1 := .book h.inv hnm hd hb hv (Or.inr hl) (by omega) (by omega)
    (by rw [hp]; exact fun _ => id)
  have hs1 : s1.name = name := hnm.trans h.name_eq
  obtain ⟨hgk, T, hT1, hT2⟩ := keepLoop_spec g1.inv stmts d m conds lz eager
    (by rw [hs1]; exact hok) hbit heager
  have hreach := h.append _ (keepCalls_ok hok) h1
  refine ⟨_, h1, hreach, ?_⟩
  intro post s2 hpost hs2 rst E hE x hmem hx0 hmn u hu hrst
  have hx : x.genBy name = false := by
    obtain ⟨c, hc, r, hr, rfl⟩ := hmem
    exact hok c hc r hr
  have hgd : Good _ s2 := .applyAll hreach.inv post (by rw [hreach.name_eq]; exact hpost) hs2
  have hgr := applyAll_grows hreach.inv post (by rw [hreach.name_eq]; exact hpost)
    (by rw [hreach.name_eq]; exact hx) hmn hs2
  have hreach2 := hreach.append post hpost hs2
  have hc1 : ∀ d env, s1.cls d env x = [] := by
    intro d env
    rw [← hx0 d env]
    unfold cls bodyTrace
    rw [hb, delayedAt_congr hd]
  -- the statements of each delay
  have hcl : ∀ e, s2.cls e (E u) x = if d ≤ e ∧ e < d + m then
      (if triggered rst E conds lz u e = true then
        traceL stmts (E (if eager then u - e else u)) x else []) else [] := by
    intro e
    rw [hgr.cls (fun r hr => hr), hT1 (E u) x e (by rw [hs1]; exact hx), hc1, List.nil_append]
    by_cases he : d ≤ e ∧ e < d + m
    · rw [if_pos he, if_pos he]
      have := hT2 s2 hgd rst E hE e he.1 he.2 (u - e) x
      rw [show u - e + e = u by omega] at this
      rw [this]
      by_cases h1 : resetIn rst E (u - e) e = true
      · simp [triggered, h1]
      · simp [triggered, h1]
    · rw [if_neg he, if_neg he]
  -- the register is driven by the block
  have hdr : s2.Drives x := by
    refine hgd.step.grows.drives ?_
    obtain ⟨m', rfl⟩ : ∃ m', m = m' + 1 := ⟨m - 1, by omega⟩
    rw [keepLoop_succ]
    exact addStatement1_drives _ _ _ _ _ _ hmem
  have htick : E (u + 1) x = (s2.always rst).tick (E u) x := by
    obtain ⟨c, hc, r, hr, hrx⟩ := hdr
    exact hE u x (mem_always_targets hc hr hrx)
  have hpr := c12_priority hreach2 rst (E u) hrst x
  rw [htick]
  cases hf : (List.range m).find? fun i => triggered rst E conds lz u (d + i) with
  | none =>
    rw [List.find?_eq_none] at hf
    refine hpr.1 fun e => ?_
    rw [hcl e]
    split
    · rename_i he
      have := hf (e - d) (by simp; omega)
      rw [show d + (e - d) = e by omega] at this
      rw [if_neg this]
    · rfl
  | some i =>
    rw [List.find?_range_eq_some] at hf
    obtain ⟨htr, him, hlt⟩ := hf
    simp only [List.mem_range] at him
    have hci : s2.cls (d + i) (E u) x = traceL stmts (E (if eager then u - (d + i) else u)) x := by
      rw [hcl, if_pos (by omega), if_pos htr]
    simp only [Option.elim]
    rw [Code.exec_eq_trace, Code.trace_block]
    cases hL : (traceL stmts (E (if eager = true then u - (d + i) else u)) x).getLast? with
    | none =>
      rw [List.getLast?_eq_none_iff] at hL
      refine hpr.1 fun e => ?_
      have hne : eager = false := by
        by_contra hcon
        have hcon : eager = true := by simpa using hcon
        obtain ⟨c, hc, r, hr, hrx⟩ := hmem
        obtain ⟨r', e', rfl⟩ := heager hcon c hc
        have : r = r' := by simpa [Code.targets] using hr
        subst this
        obtain ⟨l1, l2, rfl⟩ := List.append_of_mem hc
        rw [traceL_append, traceL_cons] at hL
        simp [Code.trace, hrx] at hL
      subst hne
      rw [hcl e]
      simp only [Bool.false_eq_true, if_false] at hL ⊢
      simp [hL]
    | some v =>
      rw [← hci] at hL
      refine hpr.2 _ v hL fun e he => ?_
      rw [hcl e]
      split
      · rename_i hde
        have := hlt (e - d) (by omega)
        rw [show d + (e - d) = e by omega] at this
        rw [if_neg (by simpa using this)]
      · rfl

/-- Example: the hypotheses are met by a fresh manager, `Delay(1).Keep(2)` and a register. -/
example : Reach "s" (SeqSt.fresh "s") ∧ (SeqSt.fresh "s").Idle ∧
    OneBit [.var (.user "x"), .var (.user "y")] ∧
    (∀ d env, (SeqSt.fresh "s").cls d env (.user "a") = []) :=
  ⟨⟨[], by simp, rfl⟩, ⟨rfl, rfl, rfl⟩, by intro c h; simp at h, by
    intro d env
    unfold cls
    split <;> rfl⟩

/-- Example: `seq.If(x).Delay(1).Keep(2)(a(a + 1))` with `x` high at edge 1 only: `a` is incremented at
    the edges 2 and 3. -/
example : ∃ s', (SeqSt.fresh "s").applyAll (keepCalls [.var (.user "x")] 1 2 false false
      [.subst ⟨.user "a", 8, false, none⟩ (.fn fun e => e (.user "a") + 1)]) = some s' ∧
    let E : Nat → Env := fun t => Nat.rec (fun _ => 0) (fun k e => Function.update
      ((s'.always none).tick e) (.user "x") (if k = 0 then 1 else 0)) t
    (List.range 6).map (fun t => E t (.user "a")) = [0, 0, 0, 1, 2, 2] := by
  refine ⟨_, rfl, ?_⟩
  decide +kernel

end Hdl
