import Verif.Props.C77_EmitMod

/-!
# Reading what is written for a module

A module that is written, printed, parsed and read is written as the same text again.
-/

namespace Emit

/-! ### Trees after parsing -/

/-- A pair of bounds. -/
def parsedP (p : AE × AE) : AE × AE := (parsedE p.1, parsedE p.2)

/-- A variable. -/
def parsedDec (d : ADec) : ADec := ⟨d.kind, d.name, d.width.map parsedP, d.dims.map fun l => l.map parsedP, d.signed⟩

mutual

/-- An item. -/
def parsedI : AItem → AItem
  | .param loc n x w s => .param loc n (parsedE x) (w.map parsedP) s
  | .decl d => .decl (parsedDec d)
  | .assign l r => .assign (parsedE l) (parsedE r)
  | .always sens body => .always (sens.map parsedSens) (parsed body)
  | .initial body => .initial (parsed body)
  | .func n w f => .func n (w.map parsedP) (f.map parsedF)
  | .task n f => .task n (f.map parsedF)
  | .inst m n ps qs => .inst m n (ps.map fun p => (p.1, parsedE p.2)) (qs.map fun q => (q.1, q.2.map parsedE))
  | .gen l => .gen (parsedIs l)
  | .gfor pre c post s body => .gfor (parsed pre) (parsedE c) (parsed post) s (parsedIs body)
  | .gif c ts t fs f => .gif (parsedE c) ts (parsedIs t) fs (parsedIs f)

/-- The same for a list. -/
def parsedIs : List AItem → List AItem
  | [] => []
  | a :: l => parsedI a :: parsedIs l

end

/-- A port. -/
def parsedPort : APort → APort
  | .io d s => .io (parsedDec d) (s.map parsedDec)
  | .plain n => .plain n

/-- A module. -/
def parsedMod (a : AMod) : AMod := ⟨a.name, parsedIs a.params, a.ports.map parsedPort, parsedIs a.items⟩

theorem parsedIs_append (a b : List AItem) : parsedIs (a ++ b) = parsedIs a ++ parsedIs b := by
  induction a with
  | nil => rfl
  | cons x a ih => rw [List.cons_append, parsedIs, parsedIs, ih]; rfl

theorem parsed_unGen (l : List AItem) : parsedIs (unGen l) = unGen (parsedIs l) := by
  induction l with
  | nil => rfl
  | cons x l ih => cases x <;> simp only [unGen, parsedIs, parsedI, parsedIs_append, ih]

theorem parsedIs_isEmpty (l : List AItem) : (parsedIs l).isEmpty = l.isEmpty := by cases l <;> rfl

/-! ### What can be read again -/

/-- A width. -/
def fineW : VW → Prop
  | .none => True
  | .width e => fineE e
  | .bounds m l => fineE m ∧ fineE l

/-- Dimensions. -/
def fineDm : VD → Prop
  | .none => True
  | .dims l => fineEs l
  | .bounds l => ∀ p ∈ l, fineE p.1 ∧ fineE p.2

/-- A variable; only those that can be are signed. -/
def fineDecl (d : VDecl) : Prop := fineW d.width ∧ fineDm d.dims ∧ (d.kind = .real ∨ d.kind = .genvar → d.signed = false)

/-- A function or task with at most one statement. -/
def fineFn (f : Fn) : Prop :=
  (∀ d ∈ f.io, d.kind = .input ∧ fineD d) ∧ (∀ d ∈ f.var, d.kind ≠ .input ∧ fineD d) ∧ fines true f.body ∧
  (f.body = [] ∨ ∃ s, f.body = [s] ∧ ¬ s.IsTup)

/-- An edge of an `always`. -/
def fineASens : VSens → Prop
  | .pos e => fineE e
  | .neg e => fineE e
  | .all => True
  | .level e => fineE e

/-- Not the bare name of a parameter (`P`): the object of such a value is the value of that parameter (core/vtypes.py:754-755). -/
def noName (P : String → Bool) : VE → Prop
  | .var x => P x = false
  | .skip e => noName P e
  | _ => True

mutual

/-- An `if` or `for` outside of others. -/
def branchV : VS → Bool
  | .tup l => branchVs l
  | .ifs _ _ _ => true
  | .for_ _ _ _ _ => true
  | .while_ _ b => branchV b
  | .case_ _ _ l => branchVs l
  | .when _ b => branchV b
  | .wait _ b => branchV b
  | .forever l => branchVs l
  | _ => false

/-- The same for a list. -/
def branchVs : List VS → Bool
  | [] => false
  | s :: l => branchV s || branchVs l

end

mutual

/-- An item that is read again: the value of a parameter is no bare name, instances use names that exist, an `initial` block in a
    generate block has no `if` or `for`, and no generate block is in the else branch of another. -/
def fineI (lib : Lib) (P : String → Bool) (ctx : Ctx) : VItem → Prop
  | .param _ n x w _ => fineE x ∧ noName P x ∧ fineW w ∧ P n = true
  | .decl d => d.kind.io = false → fineDecl d
  | .any _ => True
  | .assign l r _ _ => fineE l ∧ fineE r
  | .always sens body => (∀ e ∈ sens, fineASens e) ∧ fines false body
  | .initial body => fines true body ∧ (ctx = .gen → branchVs body = false)
  | .func _ w f => fineW w ∧ fineFn f
  | .task _ f => fineFn f
  | .inst m _ ps qs => (∀ p ∈ ps, fineE p.2) ∧ (∀ q ∈ qs, ∀ e, q.2 = some e → fineE e) ∧
      ∀ params ports, lib m = some (params, ports) →
        (∀ p ∈ ps, ∀ n, p.1 = some n → n ∈ params) ∧ ∀ q ∈ qs, ∀ n, q.1 = some n → n ∈ ports
  | .gfor pre c post _ body => ctx ≠ .els ∧ fine true pre ∧ fineE c ∧ fine true post ∧ fineIs lib P .gen body
  | .gif c _ t _ f => ctx ≠ .els ∧ fineE c ∧ fineIs lib P .gen t ∧ fineIs lib P .els f

/-- The same for a list. -/
def fineIs (lib : Lib) (P : String → Bool) (ctx : Ctx) : List VItem → Prop
  | [] => True
  | i :: l => fineI lib P ctx i ∧ fineIs lib P ctx l

end

/-! ### Parts -/

section Parts

variable {v : Vis} (hv : v.fv = false)
include hv

theorem back_w {w : VW} {a : Option (AE × AE)} (h : emitW v w = some a) (hf : fineW w) :
    ∃ w', readW (a.map parsedP) = some w' ∧ emitW v w' = some (a.map parsedP) := by
  cases w with
  | none => cases h; exact ⟨.none, rfl, rfl⟩
  | width e =>
    obtain ⟨x, hx, rfl⟩ := Option.map_eq_some_iff.1 h
    have h1 : goodE (.int ['1']) := ⟨⟨.num 1, none, none, false⟩, by decide, by decide⟩
    have h0 : goodE (.int ['0']) := ⟨⟨.num 0, none, none, false⟩, by decide, by decide⟩
    have hg : goodE (.op .minus [parsedE x, .int ['1']]) := ⟨written_e hv e x hx hf, h1, trivial⟩
    obtain ⟨m, m1, m2⟩ := back_e hv _ hg
    obtain ⟨l, l1, l2⟩ := back_e hv _ h0
    have hp : parsedP (AE.op .minus [x, .int ['1']], AE.int ['0']) = (.op .minus [parsedE x, .int ['1']], .int ['0']) := rfl
    exact ⟨.bounds m l, by simp only [Option.map_some, hp, readW, m1, l1], by simp only [emitW, m2, l2, Option.map_some, hp]⟩
  | bounds m l =>
    rw [emitW] at h
    split at h
    · rename_i m' l' e1 e2
      cases h
      obtain ⟨x, x1, x2⟩ := back_e hv _ (written_e hv m m' e1 hf.1)
      obtain ⟨y, y1, y2⟩ := back_e hv _ (written_e hv l l' e2 hf.2)
      exact ⟨.bounds x y, by simp only [Option.map_some, parsedP, readW, x1, y1],
        by simp only [Option.map_some, parsedP, emitW, x2, y2]⟩
    · cases h

theorem back_bounds {l : List (AE × AE)} (h : ∀ p ∈ l, goodE p.1 ∧ goodE p.2) :
    ∃ l', readBounds l = some l' ∧ emitBounds v l' = some l := by
  induction l with
  | nil => exact ⟨[], rfl, rfl⟩
  | cons p l ih =>
    obtain ⟨m, n⟩ := p
    obtain ⟨l', h1, h2⟩ := ih fun p hp => h p (List.mem_cons_of_mem _ hp)
    obtain ⟨x, x1, x2⟩ := back_e hv _ (h _ List.mem_cons_self).1
    obtain ⟨y, y1, y2⟩ := back_e hv _ (h _ List.mem_cons_self).2
    exact ⟨(x, y) :: l', by simp only [readBounds, x1, y1, h1], by simp only [emitBounds, x2, y2, h2]⟩

theorem written_bounds : ∀ (l : List (VE × VE)) (a : List (AE × AE)), emitBounds v l = some a →
    (∀ p ∈ l, fineE p.1 ∧ fineE p.2) → ∀ p ∈ a.map parsedP, goodE p.1 ∧ goodE p.2
  | [], a, h, _ => by cases h; nofun
  | (m, n) :: l, a, h, hf => by
    rw [emitBounds] at h
    split at h
    · rename_i m' n' t e1 e2 e3
      cases h
      intro p hp
      rcases List.mem_cons.1 hp with rfl | hp
      · exact ⟨written_e hv m m' e1 (hf _ List.mem_cons_self).1, written_e hv n n' e2 (hf _ List.mem_cons_self).2⟩
      · exact written_bounds l t e3 (fun p hp => hf p (List.mem_cons_of_mem _ hp)) p hp
    · cases h

theorem back_dims {d : VD} {a : Option (List (AE × AE))} (h : emitDims v d = some a) (hf : fineDm d) :
    ∃ d', readDims (a.map fun l => l.map parsedP) = some d' ∧ emitDims v d' = some (a.map fun l => l.map parsedP) := by
  have key : ∀ l : List (AE × AE), (∀ p ∈ l.map parsedP, goodE p.1 ∧ goodE p.2) →
      ∃ d', readDims ((some l).map fun l => l.map parsedP) = some d' ∧
        emitDims v d' = some ((some l).map fun l => l.map parsedP) := by
    intro l hl
    obtain ⟨l', h1, h2⟩ := back_bounds hv hl
    exact ⟨.bounds l', by simp only [Option.map_some, readDims, h1], by simp only [emitDims, h2, Option.map_some]⟩
  cases d with
  | none => cases h; exact ⟨.none, rfl, rfl⟩
  | dims l =>
    obtain ⟨as, hx, rfl⟩ := Option.map_eq_some_iff.1 h
    apply key
    have hg := written_es hv l as hx hf
    clear hx h
    induction as with
    | nil => nofun
    | cons a as ih =>
      intro p hp
      rcases List.mem_cons.1 hp with rfl | hp
      · have h1 : goodE (.int ['1']) := ⟨⟨.num 1, none, none, false⟩, by decide, by decide⟩
        have h0 : goodE (.int ['0']) := ⟨⟨.num 0, none, none, false⟩, by decide, by decide⟩
        exact ⟨h0, hg.1, h1, trivial⟩
      · exact ih hg.2 p hp
  | bounds l =>
    obtain ⟨as, hx, rfl⟩ := Option.map_eq_some_iff.1 h
    exact key as (written_bounds hv l as hx hf)

theorem back_decl {d : VDecl} {a : ADec} (h : emitDecl v d = some a) (hf : fineDecl d) :
    ∃ d', readDecl (parsedDec a) = some d' ∧ emitDecl v d' = some (parsedDec a) ∧ a.kind = d.kind ∧ a.name = d.name ∧
      d'.kind = d.kind ∧ d'.name = d.name := by
  rw [emitDecl] at h
  split at h
  · rename_i w ds h1 h2
    cases h
    obtain ⟨w', w1, w2⟩ := back_w hv h1 hf.1
    obtain ⟨ds', d1, d2⟩ := back_dims hv h2 hf.2.1
    have hs : (if d.kind == .real || d.kind == .genvar then false else d.signed) = d.signed := by
      by_cases hk : d.kind = .real ∨ d.kind = .genvar
      · rw [hf.2.2 hk]
        split <;> rfl
      · rw [not_or] at hk
        simp [hk.1, hk.2]
    refine ⟨⟨d.kind, d.name, w', ds', d.signed⟩, ?_, ?_, rfl, rfl, rfl, rfl⟩
    · have hk : readDecl (parsedDec ⟨d.kind, d.name, w, ds, d.signed⟩) =
          some ⟨d.kind, d.name, w', ds', if d.kind == .real || d.kind == .genvar then false else d.signed⟩ := by
        rw [readDecl]
        simp only [parsedDec, w1, d1]
        rfl
      rw [hk, hs]
    · simp only [emitDecl, w2, d2, parsedDec]
  · cases h

theorem back_asens : ∀ (l : List VSens) (as : List ASens), emitASensL v l = some as → (∀ e ∈ l, fineASens e) →
    ∃ l', readSensL (as.map parsedSens) = some l' ∧ emitASensL v l' = some (as.map parsedSens)
  | [], as, h, _ => by cases h; exact ⟨[], rfl, rfl⟩
  | e :: l, as, h, hf => by
    rw [emitASensL] at h
    split at h
    · rename_i a as' h1 h2
      cases h
      obtain ⟨l', i1, i2⟩ := back_asens l as' h2 fun x hx => hf x (List.mem_cons_of_mem _ hx)
      have hfe := hf e List.mem_cons_self
      have : ∃ e', readSens (parsedSens a) = some e' ∧ emitASens v e' = some (parsedSens a) := by
        cases e with
        | all => cases h1; exact ⟨.all, rfl, rfl⟩
        | pos e =>
          obtain ⟨x, hx, rfl⟩ := Option.map_eq_some_iff.1 h1
          obtain ⟨y, y1, y2⟩ := back_e hv _ (written_e hv e x hx hfe)
          exact ⟨.pos y, by simp only [parsedSens, readSens, y1, Option.map_some], by simp only [emitASens, y2, Option.map_some, parsedSens]⟩
        | neg e =>
          obtain ⟨x, hx, rfl⟩ := Option.map_eq_some_iff.1 h1
          obtain ⟨y, y1, y2⟩ := back_e hv _ (written_e hv e x hx hfe)
          exact ⟨.neg y, by simp only [parsedSens, readSens, y1, Option.map_some], by simp only [emitASens, y2, Option.map_some, parsedSens]⟩
        | level e =>
          obtain ⟨x, hx, rfl⟩ := Option.map_eq_some_iff.1 h1
          obtain ⟨y, y1, y2⟩ := back_e hv _ (written_e hv e x hx hfe)
          exact ⟨.level y, by simp only [parsedSens, readSens, y1, Option.map_some], by simp only [emitASens, y2, Option.map_some, parsedSens]⟩
      obtain ⟨e', e1, e2⟩ := this
      exact ⟨e' :: l', by simp only [List.map_cons, readSensL, e1, i1], by simp only [List.map_cons, emitASensL, e2, i2]⟩
    · cases h

theorem back_params : ∀ (l : List (Option String × VE)) (as : List (Option String × AE)), emitParams v l = some as →
    (∀ p ∈ l, fineE p.2) → (as.map (·.1) = l.map (·.1)) ∧ ∃ l', readParams (as.map fun p => (p.1, parsedE p.2)) = some l' ∧
      emitParams v l' = some (as.map fun p => (p.1, parsedE p.2))
  | [], as, h, _ => by cases h; exact ⟨rfl, [], rfl, rfl⟩
  | (n, e) :: l, as, h, hf => by
    rw [emitParams] at h
    split at h
    · rename_i a as' h1 h2
      cases h
      obtain ⟨i0, l', i1, i2⟩ := back_params l as' h2 fun x hx => hf x (List.mem_cons_of_mem _ hx)
      obtain ⟨x, x1, x2⟩ := back_e hv _ (written_e hv e a h1 (hf _ List.mem_cons_self))
      exact ⟨by simp only [List.map_cons, i0], (n, x) :: l', by simp only [List.map_cons, readParams, x1, i1],
        by simp only [List.map_cons, emitParams, x2, i2]⟩
    · cases h

theorem back_conns : ∀ (l : List (Option String × Option VE)) (as : List (Option String × Option AE)), emitConns v l = some as →
    (∀ q ∈ l, ∀ e, q.2 = some e → fineE e) → (as.map (·.1) = l.map (·.1)) ∧
      ∃ l', readConns (as.map fun q => (q.1, q.2.map parsedE)) = some l' ∧
      emitConns v l' = some (as.map fun q => (q.1, q.2.map parsedE))
  | [], as, h, _ => by cases h; exact ⟨rfl, [], rfl, rfl⟩
  | (n, none) :: l, as, h, hf => by cases h
  | (n, some e) :: l, as, h, hf => by
    rw [emitConns] at h
    split at h
    · rename_i a as' h1 h2
      cases h
      obtain ⟨i0, l', i1, i2⟩ := back_conns l as' h2 fun x hx => hf x (List.mem_cons_of_mem _ hx)
      obtain ⟨x, x1, x2⟩ := back_e hv _ (written_e hv e a h1 (hf _ List.mem_cons_self e rfl))
      exact ⟨by simp only [List.map_cons, i0], (n, some x) :: l', by simp only [List.map_cons, Option.map_some, readConns, x1, i1],
        by simp only [List.map_cons, Option.map_some, emitConns, x2, i2]⟩
    · cases h

end Parts

/-- A local register of a function that has the name of an output. -/
def FItem.shadow (out : String → Bool) : FItem → Bool
  | .decl d => d.kind == .reg && out d.name
  | .stmt _ => false

theorem decls_shadow {v : Vis} (out : String → Bool) : ∀ (ds : List FDecl) (as : List FItem), emitFDecls v ds = some as →
    as.any (FItem.shadow out) = ds.any fun d => d.kind == .reg && out d.name
  | [], as, h => by cases h; rfl
  | d :: ds, as, h => by
    rw [emitFDecls] at h
    split at h
    · rename_i a as' h1 h2
      cases h
      obtain ⟨w, _, rfl⟩ := Option.map_eq_some_iff.1 h1
      rw [List.any_cons, List.any_cons, decls_shadow out ds as' h2]
      rfl
    · cases h

theorem fn_shadow {v : Vis} (out : String → Bool) {f : Fn} {items : List FItem} (h : emitFn v f = some items) :
    items.any (FItem.shadow out) = (f.io ++ f.var).any fun d => d.kind == .reg && out d.name := by
  rw [emitFn] at h
  split at h
  · rename_i io var b h1 h2 _
    cases h
    rw [List.any_append, List.any_append, List.any_append, decls_shadow out _ _ h1, decls_shadow out _ _ h2]
    simp [FItem.shadow]
  · cases h

theorem parsed_shadow (out : String → Bool) (l : List FItem) : (l.map parsedF).any (FItem.shadow out) = l.any (FItem.shadow out) := by
  rw [List.any_map]
  congr 1
  funext x
  cases x <;> rfl

theorem back_fn {v : Vis} (hv : v.fv = false) (hr : ∀ c, v.rst (parsedE c) = v.rst c) (out : String → Bool) {f : Fn}
    {items : List FItem} (h : emitFnM v out f = some items) (hf : fineFn f) :
    ∃ f', readFn (items.map parsedF) = some f' ∧ emitFnM v out f' = some (items.map parsedF) := by
  rw [emitFnM] at h
  split at h
  · cases h
  · rename_i hs
    obtain ⟨f1, f2, f3, f4⟩ := hf
    obtain ⟨ds, l, f', h1, h2, h3, h4⟩ := c64_function v hv hr f f1 f2 f3 items h
    have hl : l.length ≤ 1 := by
      rw [emitFn] at h
      split at h
      · rename_i io var b e1 e2 e3
        obtain ⟨t, ht, rfl⟩ := Option.map_eq_some_iff.1 e3
        have he := (Option.some.inj h).trans h1
        have : flatten t = l := by
          have := (List.append_inj' he rfl).2
          simpa using this
        subst this
        rcases f4 with f4 | ⟨s, f4, f5⟩
        · rw [f4] at ht
          cases ht
          exact Nat.zero_le _
        · rw [f4, emitSs] at ht
          split at ht
          · rename_i a as ha has
            cases has
            cases ht
            have hb := emit_notBlock ha f5
            rw [flatten_id]
            · exact Nat.le_refl _
            · intro b hb'
              rw [List.mem_singleton] at hb'
              exact hb b hb'.symm
          · cases ht
      · cases h
    have h5 := h4.2 hl
    refine ⟨f', h2, ?_⟩
    rw [emitFnM, if_neg, h5]
    have e1 := fn_shadow out h
    have e2 := fn_shadow out h5
    rw [parsed_shadow, e1, List.any_append, List.any_append] at e2
    have hio : (f.io.any fun d => d.kind == .reg && out d.name) = false := by
      rw [List.any_eq_false]
      intro d hd
      rw [(f1 d hd).1]
      simp
    simp only [Bool.not_eq_true] at hs ⊢
    rw [hio, hs] at e2
    have := e2.symm
    rw [Bool.false_or, Bool.or_eq_false_iff] at this
    exact this.2

/-! ### Branches -/

theorem branch_append (a b : List AS) : hasBranch.branchIn (a ++ b) = (hasBranch.branchIn a || hasBranch.branchIn b) := by
  induction a with
  | nil => rfl
  | cons x a ih => rw [List.cons_append, hasBranch.branchIn, hasBranch.branchIn, ih, Bool.or_assoc]

theorem branch_flatten (l : List AS) : hasBranch.branchIn (flatten l) = hasBranch.branchIn l := by
  induction l with
  | nil => rfl
  | cons x l ih =>
    cases x <;> simp only [flatten, hasBranch.branchIn, branch_append, ih, hasBranch]

mutual

theorem branch_s : ∀ (s : VS) (v : Vis) (a : AS), v.fv = false → emitS v s = some a → branchV s = false → hasBranch (parsed a) = false
  | .none, v, a, _, h, _ => by cases h
  | .tup l, v, a, hv, h, hb => by
    obtain ⟨t, ht, rfl⟩ := Option.map_eq_some_iff.1 h
    rw [parsed, hasBranch, parsed_flatten, branch_flatten]
    exact branch_ss l v t hv ht hb
  | .sub l r b ld rd, v, a, hv, h, hb => by
    rw [emitS, emitSub] at h
    split at h
    · cases h
      split <;> rfl
    · cases h
  | .ifs _ _ _, v, a, hv, h, hb => by cases hb
  | .for_ _ _ _ _, v, a, hv, h, hb => by cases hb
  | .while_ c b, v, a, hv, h, hb => by
    rw [emitS] at h
    split at h
    · rename_i h1
      cases h
      rw [parsed, hasBranch]
      exact branch_s b v _ hv h1 hb
    · cases h
  | .case_ x c l, v, a, hv, h, hb => by
    rw [emitS] at h
    split at h
    · rename_i h1
      cases h
      exact branch_ss l v _ hv h1 hb
    · cases h
  | .when c b, v, a, hv, h, hb => by
    rw [emitS] at h
    split at h
    · rename_i h1
      cases h
      rw [parsed, hasBranch]
      exact branch_s b v _ hv h1 hb
    · cases h
  | .single e, v, a, hv, h, hb => by
    obtain ⟨t, ht, rfl⟩ := Option.map_eq_some_iff.1 h
    rfl
  | .task f l, v, a, hv, h, hb => by
    obtain ⟨t, ht, rfl⟩ := Option.map_eq_some_iff.1 h
    rfl
  | .event l, v, a, hv, h, hb => by
    obtain ⟨t, ht, rfl⟩ := Option.map_eq_some_iff.1 h
    rfl
  | .wait c b, v, a, hv, h, hb => by
    rw [emitS] at h
    split at h
    · split at h
      · obtain ⟨t, ht, rfl⟩ := Option.map_eq_some_iff.1 h
        rw [parsed, hasBranch]
        split at ht
        · cases ht; rfl
        · exact branch_s b v _ hv ht hb
      · cases h
    · cases h
  | .forever l, v, a, hv, h, hb => by
    rw [emitS] at h
    split at h
    · rw [if_neg (by simp [hv])] at h
      obtain ⟨t, ht, rfl⟩ := Option.map_eq_some_iff.1 h
      rw [parsed, parsed, hasBranch, hasBranch, parsed_flatten, branch_flatten]
      exact branch_ss l v t hv ht hb
    · cases h
  | .delay e, v, a, hv, h, hb => by
    rw [emitS, if_neg (by simp [hv])] at h
    obtain ⟨t, ht, rfl⟩ := Option.map_eq_some_iff.1 h
    rfl

theorem branch_ss : ∀ (l : List VS) (v : Vis) (as : List AS), v.fv = false → emitSs v l = some as → branchVs l = false →
    hasBranch.branchIn (parseds as) = false
  | [], v, as, _, h, _ => by cases h; rfl
  | s :: l, v, as, hv, h, hb => by
    rw [emitSs] at h
    split at h
    · rename_i a as' h1 h2
      cases h
      rw [branchVs, Bool.or_eq_false_iff] at hb
      rw [parseds, hasBranch.branchIn, branch_s s v a hv h1 hb.1, branch_ss l v as' hv h2 hb.2]
      rfl
    · cases h

end

/-! ### Values of parameters -/

theorem parsedE_id {a : AE} {y : String} (h : parsedE a = .id y) : a = .id y := by
  cases a with
  | int t =>
    rw [parsedE.eq_def] at h
    split at h <;> first | (cases h; done) | exact h | (rename_i heq; cases heq; done)
  | id x => exact h
  | _ => simp [parsedE] at h

theorem noName_emit {v : Vis} {P : String → Bool} {y : String} : ∀ e : VE, emitE v e = some (.id y) → noName P e → P y = false
  | .var x, h, hn => by
    cases h
    exact hn
  | .skip e, h, hn => noName_emit e h hn
  | .num n, h, _ => by cases h
  | .bool b, h, _ => by cases h
  | .lit o, h, _ => by simp [emitE] at h
  | .flt s, h, _ => by cases h
  | .str s, h, _ => by cases h
  | .op o l, h, _ => by simp [emitE] at h
  | .cat l, h, _ => by simp [emitE] at h
  | .rep a t, h, _ => by
    rw [emitE] at h
    split at h <;> cases h
  | .call f l, h, _ => by simp [emitE] at h
  | .sys f l, h, _ => by
    rw [emitE] at h
    split at h
    · cases h
    · simp at h

theorem read_noName {v : Vis} {e : VE} {a : AE} {x : VE} (h : emitE v e = some a) {P : String → Bool} (hn : noName P e)
    (hx : readE (parsedE a) = some x) : ∀ y, x = .var y → P y = false := by
  intro y hy
  subst hy
  have := parsedE_id (readE_var hx)
  subst this
  exact noName_emit e h hn

/-! ### Items -/

/-- Only the names of parameters have values. -/
def EnvOk (P : String → Bool) (env : List (String × VE)) : Prop := ∀ y, P y = false → env.lookup y = none

theorem lookup_append_none {X : Type} {a b : List (String × X)} {y : String} :
    (a ++ b).lookup y = none ↔ a.lookup y = none ∧ b.lookup y = none := by
  induction a with
  | nil => simp
  | cons e a ih =>
    obtain ⟨k, x⟩ := e
    rw [List.cons_append, List.lookup, List.lookup]
    split
    · simp
    · exact ih

theorem EnvOk.append {P : String → Bool} {a b : List (String × VE)} (h1 : EnvOk P a) (h2 : EnvOk P b) : EnvOk P (a ++ b) :=
  fun y hy => lookup_append_none.2 ⟨h1 y hy, h2 y hy⟩

theorem EnvOk.left {P : String → Bool} {a b : List (String × VE)} (h : EnvOk P (a ++ b)) : EnvOk P a :=
  fun y hy => (lookup_append_none.1 (h y hy)).1

theorem EnvOk.right {P : String → Bool} {a b : List (String × VE)} (h : EnvOk P (a ++ b)) : EnvOk P b :=
  fun y hy => (lookup_append_none.1 (h y hy)).2

theorem paramValue_ok {P : String → Bool} {env : List (String × VE)} (he : EnvOk P env) {x : VE}
    (h : ∀ y, x = .var y → P y = false) : paramValue env x = x := by
  cases x with
  | var y => rw [paramValue, he y (h y rfl)]; rfl
  | _ => rfl

theorem EnvOk.nil (P : String → Bool) : EnvOk P [] := fun _ _ => rfl

theorem paramBinds_append (a b : List VItem) : paramBinds (a ++ b) = paramBinds a ++ paramBinds b := by simp [paramBinds]

theorem readItems_append {lib : Lib} {ctx : Ctx} : ∀ (l1 : List AItem) (env : List (String × VE)) (i1 : List VItem),
    readItems lib ctx env l1 = some i1 →
    ∃ env', (∀ P, EnvOk P env → EnvOk P (paramBinds i1) → EnvOk P env') ∧
      ∀ l2, readItems lib ctx env (l1 ++ l2) = (readItems lib ctx env' l2).map fun i2 => i1 ++ i2
  | [], env, i1, h => by
    cases h
    exact ⟨env, fun _ h _ => h, fun l2 => by simp⟩
  | a :: l1, env, i1, h => by
    rw [readItems] at h
    split at h
    · cases h
    · rename_i i hi
      split at h
      · cases h
      · rename_i is his
        cases h
        obtain ⟨env', h0, h'⟩ := readItems_append l1 _ is his
        refine ⟨env', fun P he hb => ?_, fun l2 => ?_⟩
        · rw [paramBinds_append] at hb
          exact h0 P (hb.left.append he) hb.right
        rw [List.cons_append, readItems, hi]
        simp only [h' l2]
        cases readItems lib ctx env' l2 <;> simp

theorem emitItems_append {v : Vis} {out : String → Bool} {l1 l2 : List VItem} {a1 a2 : List AItem}
    (h1 : emitItems v out l1 = some a1) (h2 : emitItems v out l2 = some a2) :
    emitItems v out (l1 ++ l2) = some (a1 ++ a2) := by
  induction l1 generalizing a1 with
  | nil => cases h1; exact h2
  | cons i l1 ih =>
    rw [emitItems] at h1
    rw [List.cons_append, emitItems]
    split at h1
    · rename_i hh
      rw [if_pos hh]
      exact ih h1
    · rename_i hh
      rw [if_neg hh]
      split at h1
      · rename_i a as e1 e2
        cases h1
        rw [e1, ih e2]
        simp
      · cases h1

theorem emitParamItems_append {v : Vis} {l1 l2 : List VItem} {a1 a2 : List AItem}
    (h1 : emitParamItems v l1 = some a1) (h2 : emitParamItems v l2 = some a2) :
    emitParamItems v (l1 ++ l2) = some (a1 ++ a2) := by
  induction l1 generalizing a1 with
  | nil => cases h1; exact h2
  | cons i l1 ih =>
    rw [List.cons_append]
    rw [emitParamItems.eq_def] at h1 ⊢
    split at h1 <;> simp_all
    · split at h1
      · rename_i x w as e1 e2 e3
        cases h1
        rw [e1, e2, ih e3]
        rfl
      · cases h1

/-- The kinds and names of declared variables. -/
def sigV (l : List VItem) : List (DKind × String) := (l.filterMap VItem.dec).map fun d => (d.kind, d.name)

/-- The same for a tree. -/
def sigA (l : List AItem) : List (DKind × String) := (l.filterMap AItem.dec).map fun d => (d.kind, d.name)

theorem sigV_append (a b : List VItem) : sigV (a ++ b) = sigV a ++ sigV b := by simp [sigV]

theorem sigA_append (a b : List AItem) : sigA (a ++ b) = sigA a ++ sigA b := by simp [sigA]

/-- In a generate block there are no generate statements (verilog/to_verilog.py:785-790). -/
def top (ctx : Ctx) (l : List AItem) : List AItem := if ctx = .mod then l else unGen l

theorem top_append (ctx : Ctx) (a b : List AItem) : top ctx (a ++ b) = top ctx a ++ top ctx b := by
  rw [top, top, top]
  split
  · rfl
  · exact unGen_append a b

/-- What was written (`as`; `ts` as it stands in the text) is read as `is`, which are written as it again. -/
structure Back (lib : Lib) (P : String → Bool) (v : Vis) (out : String → Bool) (ctx : Ctx) (ts as : List AItem) (is : List VItem) : Prop where
  read : ∀ env, EnvOk P env → readItems lib ctx env (parsedIs ts) = some is
  binds : EnvOk P (paramBinds is)
  items : emitItems v out is = some (parsedIs as)
  params : emitParamItems v is = some []
  io : is.filterMap VItem.ioEntry = []
  sig : sigV is = sigA as

theorem Back.append {lib : Lib} {P : String → Bool} {v : Vis} {out : String → Bool} {ctx : Ctx} {t1 t2 a1 a2 : List AItem} {i1 i2 : List VItem}
    (h1 : Back lib P v out ctx t1 a1 i1) (h2 : Back lib P v out ctx t2 a2 i2) :
    Back lib P v out ctx (t1 ++ t2) (a1 ++ a2) (i1 ++ i2) := by
  refine ⟨fun env he => ?_, ?_, ?_, ?_, ?_, ?_⟩
  · obtain ⟨env', h0, h⟩ := readItems_append (parsedIs t1) env i1 (h1.read env he)
    rw [parsedIs_append, h, h2.read env' (h0 P he h1.binds)]
    rfl
  · rw [paramBinds_append]
    exact h1.binds.append h2.binds
  · rw [parsedIs_append]
    exact emitItems_append h1.items h2.items
  · exact emitParamItems_append h1.params h2.params
  · rw [List.filterMap_append, h1.io, h2.io]
    rfl
  · rw [sigV_append, sigA_append, h1.sig, h2.sig]

theorem Back.nil (lib : Lib) (P : String → Bool) (v : Vis) (out : String → Bool) (ctx : Ctx) : Back lib P v out ctx [] [] [] :=
  ⟨fun _ _ => rfl, .nil P, rfl, rfl, rfl, rfl⟩

/-- One item. -/
theorem Back.one {lib : Lib} {P : String → Bool} {v : Vis} {out : String → Bool} {ctx : Ctx} {t a : AItem} {i : VItem}
    (h1 : ∀ env, EnvOk P env → readItem lib ctx env (parsedI t) = some [i]) (h2 : emitItem v out i = some [parsedI a]) (h3 : i.head = false)
    (h4 : i.ioEntry = none) (h5 : sigV [i] = sigA [a]) (h6 : EnvOk P (paramBinds [i]) := by exact .nil _) : Back lib P v out ctx [t] [a] [i] := by
  refine ⟨fun env he => ?_, h6, ?_, ?_, ?_, h5⟩
  · rw [parsedIs, parsedIs, readItems, h1 env he]
    rfl
  · rw [emitItems, h3, h2]
    rfl
  · cases i <;> first | rfl | (rename_i loc _ _ _ _; cases loc <;> first | rfl | cases h3)
  · rw [List.filterMap_cons, h4]
    rfl

theorem top_single {ctx : Ctx} {a : AItem} (h : ∀ l, a ≠ .gen l) : top ctx [a] = [a] := by
  rw [top]
  split
  · rfl
  · cases a <;> first | rfl | exact absurd rfl (h _)

/-- Parameters. -/
structure BackP (lib : Lib) (P : String → Bool) (v : Vis) (out : String → Bool) (ctx : Ctx) (as : List AItem) (is : List VItem) : Prop where
  read : ∀ env, EnvOk P env → readItems lib ctx env (parsedIs as) = some is
  binds : EnvOk P (paramBinds is)
  items : emitItems v out is = some []
  params : emitParamItems v is = some (parsedIs as)
  io : is.filterMap VItem.ioEntry = []
  sig : sigV is = []

theorem back_paramItem {v : Vis} (hv : v.fv = false) {lib : Lib} {P : String → Bool} {ctx : Ctx} {loc : Bool} {n : String} {x : VE} {w : VW} {s : Bool}
    {x' : AE} {w' : Option (AE × AE)} (h1 : emitE v x = some x') (h2 : emitW v w = some w') (hf : fineI lib P ctx (.param loc n x w s)) :
    ∃ y u, (∀ env, EnvOk P env → readItem lib ctx env (parsedI (.param loc n x' w' s)) = some [.param loc n y u s]) ∧
      emitE v y = some (parsedE x') ∧ emitW v u = some (w'.map parsedP) ∧ EnvOk P (paramBinds [.param loc n y u s]) := by
  obtain ⟨f1, f2, f3, f4⟩ := hf
  obtain ⟨y, y1, y2⟩ := back_e hv _ (written_e hv x x' h1 f1)
  obtain ⟨u, u1, u2⟩ := back_w hv h2 f3
  refine ⟨y, u, fun env he => ?_, y2, u2, fun z hz => ?_⟩
  · rw [parsedI, readItem, y1, u1]
    simp only [paramValue_ok he (read_noName h1 f2 y1)]
  · have : z ≠ n := by
      rintro rfl
      rw [f4] at hz
      cases hz
    simp only [paramBinds, List.filterMap_cons, List.filterMap_nil, List.lookup, show (z == n) = false by simpa using this]

theorem backP {v : Vis} (hv : v.fv = false) (lib : Lib) (P : String → Bool) (out : String → Bool) (ctx : Ctx) : ∀ (l : List VItem) (as : List AItem),
    emitParamItems v l = some as → fineIs lib P ctx l → ∃ is, BackP lib P v out ctx as is
  | [], as, h, _ => by cases h; exact ⟨[], fun _ _ => rfl, .nil P, rfl, rfl, rfl, rfl⟩
  | i :: l, as, h, hf => by
    rw [emitParamItems.eq_def] at h
    split at h
    · rename_i heq; cases heq
    · rename_i n x w s rest heq
      cases heq
      split at h
      · rename_i x' w' as' h1 h2 h3
        cases h
        obtain ⟨is, hb⟩ := backP hv lib P out ctx l as' h3 hf.2
        obtain ⟨y, u, e1, e2, e3, e4⟩ := back_paramItem hv h1 h2 hf.1
        refine ⟨.param false n y u s :: is, fun env he => ?_, ?_, ?_, ?_, ?_, ?_⟩
        · rw [parsedIs, readItems, e1 env he]
          simp only [hb.read _ (e4.append he)]
          rfl
        · exact e4.append hb.binds
        · rw [emitItems]
          exact hb.items
        · rw [emitParamItems, e2, e3, hb.params]
          rfl
        · exact hb.io
        · exact hb.sig
      · cases h
    · rename_i i' l' heq
      cases heq
      exact backP hv lib P out ctx l as h hf.2

theorem emitBody_back {v : Vis} (hv : v.fv = false) (hr : ∀ c, v.rst (parsedE c) = v.rst c) {l : List VS} {a : AS}
    (h : emitBody v l = some a) (hf : fines v.blk l) :
    ∃ l', readS (parsed a) = some (.tup l') ∧ emitBody v l' = some (parsed a) := c64_written v hv hr l hf a h

theorem emitS_back {v : Vis} (hv : v.fv = false) (hr : ∀ c, v.rst (parsedE c) = v.rst c) {s : VS} {a : AS}
    (h : emitS v s = some a) (hf : fine v.blk s) : ∃ s', readS (parsed a) = some s' ∧ emitS v s' = some (parsed a) :=
  back_s _ v hv (written_s s v a hv hr h hf)

theorem namesOk_of {lib : Lib} {m : String} {ps : List (Option String × VE)} {qs : List (Option String × Option VE)}
    {ps' : List (Option String × AE)} {qs' : List (Option String × Option AE)} (h1 : ps'.map (·.1) = ps.map (·.1))
    (h2 : qs'.map (·.1) = qs.map (·.1))
    (hn : ∀ params ports, lib m = some (params, ports) →
      (∀ p ∈ ps, ∀ n, p.1 = some n → n ∈ params) ∧ ∀ q ∈ qs, ∀ n, q.1 = some n → n ∈ ports) :
    namesOk lib m (ps'.map fun p => (p.1, parsedE p.2)) (qs'.map fun q => (q.1, q.2.map parsedE)) = true := by
  rw [namesOk]
  split
  · rfl
  · rename_i params ports hl
    obtain ⟨n1, n2⟩ := hn params ports hl
    rw [Bool.and_eq_true, List.all_eq_true, List.all_eq_true]
    constructor
    · intro p hp
      obtain ⟨p0, hp0, rfl⟩ := List.mem_map.1 hp
      have : p0.1 ∈ ps.map (·.1) := by rw [← h1]; exact List.mem_map.2 ⟨p0, hp0, rfl⟩
      obtain ⟨p1, hp1, he⟩ := List.mem_map.1 this
      cases hn0 : p0.1 with
      | none => rfl
      | some n => simpa using n1 p1 hp1 n (he.trans hn0)
    · intro p hp
      obtain ⟨p0, hp0, rfl⟩ := List.mem_map.1 hp
      have : p0.1 ∈ qs.map (·.1) := by rw [← h2]; exact List.mem_map.2 ⟨p0, hp0, rfl⟩
      obtain ⟨p1, hp1, he⟩ := List.mem_map.1 this
      cases hn0 : p0.1 with
      | none => rfl
      | some n => simpa using n2 p1 hp1 n (he.trans hn0)

section Main

variable {v : Vis} (hv : v.fv = false) (hr : ∀ c, v.rst (parsedE c) = v.rst c) (lib : Lib) (P : String → Bool) (out : String → Bool)
include hv hr

mutual

theorem back_item : ∀ (i : VItem) (ctx : Ctx) (as : List AItem), i.head = false → emitItem v out i = some as → fineI lib P ctx i →
    ∃ is, Back lib P v out ctx (top ctx as) as is
  | .param false n x w s, ctx, as, hh, h, hf => by cases hh
  | .param true n x w s, ctx, as, hh, h, hf => by
    rw [emitItem] at h
    split at h
    · rename_i x' w' h1 h2
      cases h
      obtain ⟨y, u, e1, e2, e3, e4⟩ := back_paramItem hv h1 h2 hf
      rw [top_single (by nofun)]
      exact ⟨_, .one e1 (by rw [emitItem, e2, e3]; rfl) rfl rfl rfl e4⟩
    · cases h
  | .decl d, ctx, as, hh, h, hf => by
    rw [emitItem] at h
    split at h
    · cases h
      refine ⟨[], ?_⟩
      have : top ctx [] = [] := by rw [top]; split <;> rfl
      rw [this]
      exact .nil lib P v out ctx
    · rename_i hs
      obtain ⟨a, ha, rfl⟩ := Option.map_eq_some_iff.1 h
      have hh' : d.kind.io = false := hh
      obtain ⟨d', e1, e2, e3, e4, e5, e6⟩ := back_decl hv ha (hf hh')
      rw [top_single (by nofun)]
      refine ⟨[.decl d'], .one (fun env he => by rw [parsedI, readItem, e1]; rfl) ?_ ?_ ?_ ?_⟩
      · rw [emitItem, e5, e6, if_neg hs, e2]
        rfl
      · rw [VItem.head, e5]
        exact hh'
      · rw [VItem.ioEntry, e5, hh']
        rfl
      · simp [sigV, sigA, VItem.dec, AItem.dec, e3, e4, e5, e6]
  | .any n, ctx, as, hh, h, hf => by
    cases h
    refine ⟨[], ?_⟩
    have : top ctx [] = [] := by rw [top]; split <;> rfl
    rw [this]
    exact .nil lib P v out ctx
  | .assign l r ld rd, ctx, as, hh, h, hf => by
    rw [emitItem] at h
    split at h
    · rename_i l' r' h1 h2
      cases h
      obtain ⟨x, x1, x2⟩ := back_e hv _ (written_e hv l l' h1 hf.1)
      obtain ⟨y, y1, y2⟩ := back_e hv _ (written_e hv r r' h2 hf.2)
      rw [top_single (by nofun)]
      exact ⟨_, .one (fun env he => by rw [parsedI, readItem, x1, y1]) (by rw [emitItem, x2, y2]; rfl) rfl rfl rfl⟩
    · cases h
  | .always sens body, ctx, as, hh, h, hf => by
    rw [emitItem] at h
    split at h
    · rename_i sens' b h1 h2
      cases h
      obtain ⟨s', s1, s2⟩ := back_asens hv sens sens' h1 hf.1
      obtain ⟨l', l1, l2⟩ := emitBody_back (v := { v with blk := false }) hv hr h2 hf.2
      rw [top_single (by nofun)]
      cases sens' with
      | nil =>
        refine ⟨[.always [.all] l'], .one (fun env he => ?_) ?_ rfl rfl rfl⟩
        · simp only [parsedI, readItem, List.isEmpty_nil, if_true, List.map_cons, List.map_nil, parsedSens, readSensL, readSens, l1]
          rfl
        · rw [emitItem, l2]
          rfl
      | cons e es =>
        have hne : ∀ {l : List ASens}, (e :: es).map parsedSens = l → (if l.isEmpty then [ASens.all] else l) = l := by
          rintro l rfl
          rfl
        refine ⟨[.always s' l'], .one (fun env he => ?_) ?_ rfl rfl rfl⟩
        · simp only [parsedI, readItem, List.isEmpty_cons, Bool.false_eq_true, if_false, s1, l1]
          rfl
        · rw [emitItem, l2, s2]
          rfl
    · cases h
  | .initial body, ctx, as, hh, h, hf => by
    rw [emitItem] at h
    obtain ⟨b, hb, rfl⟩ := Option.map_eq_some_iff.1 h
    obtain ⟨l', l1, l2⟩ := emitBody_back (v := { v with blk := true, ini := true }) hv hr hb hf.1
    have hn : (ctx == .gen && hasBranch (parsed b)) = false := by
      by_cases hc : ctx = .gen
      · obtain ⟨t, ht, rfl⟩ := Option.map_eq_some_iff.1 hb
        have := branch_ss body { v with blk := true, ini := true } t hv ht (hf.2 hc)
        rw [parsed, hasBranch, parsed_flatten, branch_flatten, this, Bool.and_false]
      · simp [hc]
    rw [top_single (by nofun)]
    refine ⟨[.initial l'], .one (fun env he => ?_) ?_ rfl rfl rfl⟩
    · rw [parsedI, readItem, hn, l1]
      rfl
    · rw [emitItem, l2]
      rfl
  | .func n w f, ctx, as, hh, h, hf => by
    rw [emitItem] at h
    split at h
    · rename_i w' f' h1 h2
      cases h
      obtain ⟨u, u1, u2⟩ := back_w hv h1 hf.1
      obtain ⟨g, g1, g2⟩ := back_fn hv hr out h2 hf.2
      rw [top_single (by nofun)]
      exact ⟨_, .one (fun env he => by rw [parsedI, readItem, u1, g1]) (by rw [emitItem, u2, g2]; rfl) rfl rfl rfl⟩
    · cases h
  | .task n f, ctx, as, hh, h, hf => by
    rw [emitItem] at h
    obtain ⟨f', h2, rfl⟩ := Option.map_eq_some_iff.1 h
    obtain ⟨g, g1, g2⟩ := back_fn hv hr out h2 hf
    rw [top_single (by nofun)]
    exact ⟨[.task n g], .one (fun env he => by rw [parsedI, readItem, g1]; rfl) (by rw [emitItem, g2]; rfl) rfl rfl rfl⟩
  | .inst m n ps qs, ctx, as, hh, h, hf => by
    rw [emitItem] at h
    split at h
    · rename_i ps' qs' h1 h2
      cases h
      obtain ⟨p0, x, x1, x2⟩ := back_params hv ps ps' h1 hf.1
      obtain ⟨q0, y, y1, y2⟩ := back_conns hv qs qs' h2 hf.2.1
      rw [top_single (by nofun)]
      refine ⟨[.inst m n x y], .one (fun env he => ?_) (by rw [emitItem, x2, y2]; rfl) rfl rfl rfl⟩
      rw [parsedI, readItem, x1, y1]
      simp only [namesOk_of p0 q0 hf.2.2, if_true]
    · cases h
  | .gfor pre c post scope body, ctx, as, hh, h, hf => by
    rw [emitItem] at h
    split at h
    · rename_i pre' c' post' ps b h1 h2 h3 h4 h5
      cases h
      obtain ⟨f0, f1, f2, f3, f4⟩ := hf
      obtain ⟨p, p1, p2⟩ := emitS_back (v := { v with blk := true }) hv hr h1 f1
      obtain ⟨q, q1, q2⟩ := emitS_back (v := { v with blk := true }) hv hr h3 f3
      obtain ⟨x, x1, x2⟩ := back_e hv _ (written_e hv c c' h2 f2)
      obtain ⟨is1, b1⟩ := backP hv lib P out .gen body ps h4 f4
      obtain ⟨is2, b2⟩ := back_items body .gen b h5 f4
      have hread : ∀ env, EnvOk P env → readItems lib .gen env (parsedIs (ps ++ unGen b)) = some (is1 ++ is2) := by
        intro env he
        obtain ⟨env', h0, h'⟩ := readItems_append (parsedIs ps) env is1 (b1.read env he)
        have := b2.read env' (h0 P he b1.binds)
        rw [top, if_neg (by decide)] at this
        rw [parsedIs_append, h', this]
        rfl
      have hemit : emitItem v out (.gfor p x q scope (is1 ++ is2)) =
          some [parsedI (.gen [.gfor pre' c' post' scope (ps ++ unGen b)])] := by
        rw [emitItem, p2, x2, q2, emitParamItems_append b1.params b2.params, emitItems_append b1.items b2.items]
        simp only [List.append_nil, List.nil_append, ← parsed_unGen, parsedI, parsedIs, parsedIs_append]
      refine ⟨[.gfor p x q scope (is1 ++ is2)], ?_⟩
      cases ctx with
      | els => exact absurd rfl f0
      | mod =>
        exact .one (fun env he => by rw [parsedI, readItem, parsedIs, parsedIs, parsedI, readGens, p1, x1, q1, hread env he]; rfl) hemit rfl rfl rfl
      | gen =>
        have : top .gen [.gen [.gfor pre' c' post' scope (ps ++ unGen b)]] = [.gfor pre' c' post' scope (ps ++ unGen b)] := rfl
        rw [this]
        have b0 : Back lib P v out .gen [.gfor pre' c' post' scope (ps ++ unGen b)]
            [.gen [.gfor pre' c' post' scope (ps ++ unGen b)]] [.gfor p x q scope (is1 ++ is2)] :=
          .one (fun env he => by rw [parsedI, readItem, p1, x1, q1, hread env he]; rfl) hemit rfl rfl rfl
        exact b0
    · cases h
  | .gif c ts t fs f, ctx, as, hh, h, hf => by
    rw [emitItem] at h
    split at h
    · rename_i c' pt t' pf f' h1 h2 h3 h4 h5
      cases h
      obtain ⟨f0, f1, f2, f3⟩ := hf
      obtain ⟨x, x1, x2⟩ := back_e hv _ (written_e hv c c' h1 f1)
      obtain ⟨is1, b1⟩ := backP hv lib P out .gen t pt h2 f2
      obtain ⟨is2, b2⟩ := back_items t .gen t' h3 f2
      obtain ⟨is3, b3⟩ := backP hv lib P out .els f pf h4 f3
      obtain ⟨is4, b4⟩ := back_items f .els f' h5 f3
      have hread : ∀ env, EnvOk P env → readItems lib .gen env (parsedIs (pt ++ unGen t')) = some (is1 ++ is2) := by
        intro env he
        obtain ⟨env', h0, h'⟩ := readItems_append (parsedIs pt) env is1 (b1.read env he)
        have := b2.read env' (h0 P he b1.binds)
        rw [top, if_neg (by decide)] at this
        rw [parsedIs_append, h', this]
        rfl
      have hread' : ∀ env, EnvOk P env → readItems lib .els env (parsedIs (pf ++ unGen f')) = some (is3 ++ is4) := by
        intro env he
        obtain ⟨env', h0, h'⟩ := readItems_append (parsedIs pf) env is3 (b3.read env he)
        have := b4.read env' (h0 P he b3.binds)
        rw [top, if_neg (by decide)] at this
        rw [parsedIs_append, h', this]
        rfl
      generalize hfs : (if (pf ++ unGen f').isEmpty then none else fs) = fs'
      have hemit : emitItem v out (.gif x ts (is1 ++ is2) fs' (is3 ++ is4)) =
          some [parsedI (.gen [.gif c' ts (pt ++ unGen t') fs' (pf ++ unGen f')])] := by
        have he : (if (parsedIs pf ++ parsedIs (unGen f')).isEmpty then none else fs') = fs' := by
          rw [← parsedIs_append, parsedIs_isEmpty, ← hfs]
          split <;> rfl
        rw [emitItem, x2, emitParamItems_append b1.params b2.params, emitItems_append b1.items b2.items,
          emitParamItems_append b3.params b4.params, emitItems_append b3.items b4.items]
        simp only [List.append_nil, List.nil_append, ← parsed_unGen, parsedI, parsedIs, parsedIs_append, he]
      refine ⟨[.gif x ts (is1 ++ is2) fs' (is3 ++ is4)], ?_⟩
      cases ctx with
      | els => exact absurd rfl f0
      | mod =>
        exact .one (fun env he => by rw [parsedI, readItem, parsedIs, parsedIs, parsedI, readGens, x1, hread env he, hread' env he]; rfl) hemit rfl rfl rfl
      | gen =>
        have : top .gen [.gen [.gif c' ts (pt ++ unGen t') fs' (pf ++ unGen f')]] =
          [.gif c' ts (pt ++ unGen t') fs' (pf ++ unGen f')] := rfl
        rw [this]
        exact .one (fun env he => by rw [parsedI, readItem, if_pos rfl, x1, hread env he, hread' env he]) hemit rfl rfl rfl
    · cases h

theorem back_items : ∀ (l : List VItem) (ctx : Ctx) (as : List AItem), emitItems v out l = some as → fineIs lib P ctx l →
    ∃ is, Back lib P v out ctx (top ctx as) as is
  | [], ctx, as, h, hf => by
    cases h
    refine ⟨[], ?_⟩
    have : top ctx [] = [] := by rw [top]; split <;> rfl
    rw [this]
    exact .nil lib P v out ctx
  | i :: l, ctx, as, h, hf => by
    rw [emitItems] at h
    split at h
    · exact back_items l ctx as h hf.2
    · rename_i hh
      split at h
      · rename_i a as' h1 h2
        cases h
        obtain ⟨is1, b1⟩ := back_item i ctx a (by simpa using hh) h1 hf.1
        obtain ⟨is2, b2⟩ := back_items l ctx as' h2 hf.2
        rw [top_append]
        exact ⟨is1 ++ is2, b1.append b2⟩
      · cases h

end

end Main

end Emit
