import Verif.Lemmas.EmitModW

/-!
# The modules that are read mean what the trees mean
-/

namespace Emit

/-! ### What is read without loss -/

section Safe

variable {X : Type} (S : ESem X)

/-- Bounds whose numbers reading does not change. -/
def sameP (p : AE × AE) : Prop := sameE S p.1 ∧ sameE S p.2

/-- A width. -/
def sameW (w : Option (AE × AE)) : Prop := ∀ p, w = some p → sameP S p

/-- A variable; only those that can be are signed. -/
def safeDec (d : ADec) : Prop :=
  sameW S d.width ∧ (∀ l, d.dims = some l → ∀ p ∈ l, sameP S p) ∧ (d.kind = .real ∨ d.kind = .genvar → d.signed = false)

/-- A part of a function or task, whose body is one statement or none (C64). -/
def safeF : FItem → Prop
  | .decl d => sameW S d.width
  | .stmt a => same S true a ∧ ∀ b, a = .block b → b.length ≤ 1

mutual

/-- An item that is read without loss: the value of a parameter is no bare name, functions are as above, and no `if` or `for` is in
    the else branch of a generate block or outside of one. -/
def safeI (ctx : Ctx) : AItem → Prop
  | .param _ _ x w _ => sameE S x ∧ (∀ y, x ≠ .id y) ∧ sameW S w
  | .decl d => safeDec S d
  | .assign l r => sameE S l ∧ sameE S r
  | .always sens body => sens ≠ [] ∧ (∀ e ∈ sens, sameSens S e) ∧ same S false body
  | .initial body => same S true body
  | .func _ w f => sameW S w ∧ ∀ i ∈ f, safeF S i
  | .task _ f => ∀ i ∈ f, safeF S i
  | .inst _ _ ps qs => (∀ p ∈ ps, sameE S p.2) ∧ ∀ q ∈ qs, ∀ e, q.2 = some e → sameE S e
  | .gen l => safeIs .gen l
  | .gfor pre c post _ body => ctx = .gen ∧ same S true pre ∧ sameE S c ∧ same S true post ∧ safeIs .gen body
  | .gif c _ t _ f => ctx = .gen ∧ sameE S c ∧ safeIs .gen t ∧ safeIs .els f

/-- The same for a list. -/
def safeIs (ctx : Ctx) : List AItem → Prop
  | [] => True
  | i :: l => safeI ctx i ∧ safeIs ctx l

end

end Safe

/-! ### Parts -/

section Parts

variable {X D : Type} (S : Sem X D)

theorem readW_den {w : Option (AE × AE)} {u : VW} (h : readW w = some u) (hs : sameW S.toESem w) :
    S.wV u = some (w.map S.pairA) := by
  cases w with
  | none => cases h; rfl
  | some p =>
    obtain ⟨m, l⟩ := p
    rw [readW] at h
    split at h
    · rename_i h1 h2
      cases h
      obtain ⟨s1, s2⟩ := hs _ rfl
      rw [Sem.wV, Sem.pairV, readE_den S.toESem _ _ h1 s1, readE_den S.toESem _ _ h2 s2]
      rfl
    · cases h

theorem readBounds_den : ∀ (l : List (AE × AE)) (u : List (VE × VE)), readBounds l = some u →
    (∀ p ∈ l, sameP S.toESem p) → all? S.pairV u = some (l.map S.pairA)
  | [], u, h, _ => by cases h; rfl
  | (m, l) :: t, u, h, hs => by
    rw [readBounds] at h
    split at h
    · rename_i h1 h2 h3
      cases h
      obtain ⟨s1, s2⟩ := hs _ List.mem_cons_self
      rw [all?, Sem.pairV, readE_den S.toESem _ _ h1 s1, readE_den S.toESem _ _ h2 s2,
        readBounds_den t _ h3 fun p hp => hs p (List.mem_cons_of_mem _ hp)]
      rfl
    · cases h

theorem readDecl_den {a : ADec} {d : VDecl} (h : readDecl a = some d) (hs : safeDec S.toESem a) :
    S.declV d = some (S.declA a) ∧ d.kind = a.kind ∧ d.name = a.name := by
  rw [readDecl] at h
  split at h
  · rename_i w ds h1 h2
    cases h
    have e1 := readW_den S h1 hs.1
    have e2 : S.dimsV ds = some (a.dims.map fun l => l.map S.pairA) := by
      cases hd : a.dims with
      | none => rw [hd] at h2; cases h2; rfl
      | some l =>
        rw [hd] at h2
        obtain ⟨u, hu, rfl⟩ := Option.map_eq_some_iff.1 h2
        rw [Sem.dimsV, readBounds_den S l u hu (hs.2.1 l hd)]
        rfl
    refine ⟨?_, rfl, rfl⟩
    rw [Sem.declV, e1, e2, Sem.declA]
    have : (if (a.kind == .real || a.kind == .genvar) = true then false else a.signed) = a.signed := by
      split
      · rename_i hk
        exact (hs.2.2 (by simpa using hk)).symm
      · rfl
    simp only [this]
  · cases h

theorem readParams_den : ∀ (l : List (Option String × AE)) (u : List (Option String × VE)), readParams l = some u →
    (∀ p ∈ l, sameE S.toESem p.2) → all? S.argV u = some (l.map fun p => (p.1, S.toESem.denA p.2))
  | [], u, h, _ => by cases h; rfl
  | (n, e) :: t, u, h, hs => by
    rw [readParams] at h
    split at h
    · rename_i h1 h3
      cases h
      rw [all?, Sem.argV, readE_den S.toESem _ _ h1 (hs _ List.mem_cons_self),
        readParams_den t _ h3 fun p hp => hs p (List.mem_cons_of_mem _ hp)]
      rfl
    · cases h

theorem readConns_den : ∀ (l : List (Option String × Option AE)) (u : List (Option String × Option VE)),
    readConns l = some u → (∀ q ∈ l, ∀ e, q.2 = some e → sameE S.toESem e) →
    all? S.connV u = some (l.map fun p => (p.1, p.2.map S.toESem.denA))
  | [], u, h, _ => by cases h; rfl
  | (n, none) :: t, u, h, hs => by
    obtain ⟨w, hw, rfl⟩ := Option.map_eq_some_iff.1 h
    rw [all?, Sem.connV, readConns_den t _ hw fun p hp => hs p (List.mem_cons_of_mem _ hp)]
    rfl
  | (n, some e) :: t, u, h, hs => by
    rw [readConns] at h
    split at h
    · rename_i h1 h3
      cases h
      rw [all?, Sem.connV, readConns_den t _ h3 fun p hp => hs p (List.mem_cons_of_mem _ hp)]
      simp [readE_den S.toESem _ _ h1 (hs _ List.mem_cons_self e rfl)]
    · cases h

theorem readFn_den : ∀ (l : List FItem) (f : Fn), readFn l = some f → (∀ i ∈ l, safeF S.toESem i) →
    S.fnV f = (S.fbodyA l).map fun b => (S.fdeclsA true l, S.fdeclsA false l, b)
  | [], f, h, _ => by cases h; rfl
  | .decl d :: l, f, h, hs => by
    have hd : sameW S.toESem d.width := hs _ List.mem_cons_self
    rw [readFn] at h
    split at h
    · rename_i w g h1 h2
      have ih := readFn_den l g h2 fun i hi => hs i (List.mem_cons_of_mem _ hi)
      have e1 : S.fdeclV ⟨d.kind, d.name, w, d.signed⟩ = some (d.kind, d.name, d.width.map S.pairA, d.signed) := by
        cases hw : d.width with
        | none => rw [hw] at h1; cases h1; rfl
        | some p =>
          obtain ⟨m, n⟩ := p
          rw [hw, readWidth] at h1
          split at h1
          · rename_i g1 g2
            cases h1
            obtain ⟨s1, s2⟩ := hd _ hw
            rw [Sem.fdeclV]
            simp [Sem.pairV, readE_den S.toESem _ _ g1 s1, readE_den S.toESem _ _ g2 s2, Sem.pairA]
          · cases h1
      have key : ∀ k, d.kind = k →
          (∀ f', (f' = { g with io := ⟨d.kind, d.name, w, d.signed⟩ :: g.io } ∧ k = .input ∨
            f' = { g with var := ⟨d.kind, d.name, w, d.signed⟩ :: g.var } ∧ k ≠ .input) →
          S.fnV f' = (S.fbodyA (.decl d :: l)).map fun b => (S.fdeclsA true (.decl d :: l), S.fdeclsA false (.decl d :: l), b)) := by
        intro k hk f' hf'
        rw [Sem.fbodyA, Sem.fdeclsA, Sem.fdeclsA]
        rw [Sem.fnV] at ih ⊢
        rcases hf' with ⟨rfl, hk'⟩ | ⟨rfl, hk'⟩
        · have hki : (d.kind == FKind.input) = true := by rw [hk, hk']; rfl
          simp only [all?, e1, hki]
          cases hio : all? S.fdeclV g.io <;> cases hva : all? S.fdeclV g.var <;> cases hb : S.denVs true g.body <;>
            cases hB : S.fbodyA l <;> simp only [hio, hva, hb, hB, Option.map_some, Option.map_none] at ih ⊢ <;>
            first
            | rfl
            | (cases ih; done)
            | (simp only [Option.some.injEq, Prod.mk.injEq] at ih
               simp [ih])
        · have hki : (d.kind == FKind.input) = false := by rw [hk]; simpa using hk'
          simp only [all?, e1, hki]
          cases hio : all? S.fdeclV g.io <;> cases hva : all? S.fdeclV g.var <;> cases hb : S.denVs true g.body <;>
            cases hB : S.fbodyA l <;> simp only [hio, hva, hb, hB, Option.map_some, Option.map_none] at ih ⊢ <;>
            first
            | rfl
            | (cases ih; done)
            | (simp only [Option.some.injEq, Prod.mk.injEq] at ih
               simp [ih])
      cases h
      cases hk : d.kind with
      | input => exact key _ hk _ (.inl ⟨by rw [hk], rfl⟩)
      | reg => exact key _ hk _ (.inr ⟨by rw [hk], nofun⟩)
      | integer => exact key _ hk _ (.inr ⟨by rw [hk], nofun⟩)
    · cases h
  | .stmt a :: l, f, h, hs => by
    obtain ⟨s1, s2⟩ := hs _ List.mem_cons_self
    rw [readFn] at h
    have key : ∀ (s : VS) (g : Fn) (b : List VS), readS a = some s → readFn l = some g → S.denVs true b = S.denV true s →
        S.fnV { g with body := b ++ g.body } = (S.fbodyA (.stmt a :: l)).map fun b =>
          (S.fdeclsA true (.stmt a :: l), S.fdeclsA false (.stmt a :: l), b) := by
      intro s g b h1 h2 hb
      have ih := readFn_den l g h2 fun i hi => hs i (List.mem_cons_of_mem _ hi)
      have e := readS_den S a true s h1 s1
      rw [Sem.fbodyA, Sem.fdeclsA, Sem.fdeclsA, ← e, ← hb]
      rw [Sem.fnV] at ih ⊢
      have happ : S.denVs true (b ++ g.body) = (S.denVs true b).bind fun x => (S.denVs true g.body).map fun y => S.seq x y := by
        clear ih hb e h2 h1
        induction b with
        | nil =>
          simp only [List.nil_append, Sem.denVs, Option.bind_some]
          cases S.denVs true g.body with
          | none => rfl
          | some y => simp [S.skip_seq]
        | cons x b ihb =>
          simp only [List.cons_append, Sem.denVs, ihb]
          cases S.denV true x <;> cases S.denVs true b <;> cases S.denVs true g.body <;> simp [S.assoc]
      simp only [happ]
      cases hio : all? S.fdeclV g.io <;> cases hva : all? S.fdeclV g.var <;> cases hb' : S.denVs true g.body <;>
        cases hbb : S.denVs true b <;>
        cases hB : S.fbodyA l <;>
        simp only [hio, hva, hb', hB, Option.map_some, Option.map_none, Option.bind_some, Option.bind_none] at ih ⊢ <;>
        first
        | rfl
        | (cases ih; done)
        | (simp only [Option.some.injEq, Prod.mk.injEq] at ih
           simp [ih])
    split at h
    · rename_i b g h1 h2
      cases h
      have hbl : ∃ c, a = .block c := by
        cases a <;> rw [readS] at h1
        case block c => exact ⟨c, rfl⟩
        case none => cases h1
        case task => cases h1
        case bsub => rw [readSub] at h1; split at h1 <;> cases h1
        case nbsub => rw [readSub] at h1; split at h1 <;> cases h1
        case ifs =>
          split at h1
          · obtain ⟨t, _, ht⟩ := Option.map_eq_some_iff.1 h1; cases ht
          · cases h1
        case wait =>
          split at h1
          · obtain ⟨t, _, ht⟩ := Option.map_eq_some_iff.1 h1; cases ht
          · cases h1
        case for_ => split at h1 <;> cases h1
        case while_ => split at h1 <;> cases h1
        case case_ => split at h1 <;> cases h1
        case item => split at h1 <;> cases h1
        all_goals
          obtain ⟨t, _, ht⟩ := Option.map_eq_some_iff.1 h1
          cases ht
      obtain ⟨c, rfl⟩ := hbl
      have hlen := s2 c rfl
      have hlen' : b.length = c.length := by
        rw [readS] at h1
        obtain ⟨t, ht, h1'⟩ := Option.map_eq_some_iff.1 h1
        cases h1'
        exact readSs_length c _ ht
      refine key _ g _ h1 h2 ?_
      cases b with
      | nil => rfl
      | cons x b =>
        cases b with
        | nil =>
          simp only [List.map_cons, List.map_nil, Sem.denVs, Sem.denV]
          cases S.denV true x <;> simp [S.seq_skip]
        | cons y b => simp at hlen'; omega
    · rename_i s g hnt h1 h2
      cases h
      refine key s g [s] h1 h2 ?_
      simp only [Sem.denVs]
      cases S.denV true s <;> simp [S.seq_skip]
    · cases h

theorem paramValue_id {env : List (String × VE)} {x : VE} (h : ∀ y, x ≠ .var y) : paramValue env x = x := by
  cases x <;> first | rfl | exact absurd rfl (h _)

theorem readE_var {a : AE} {y : String} (h : readE a = some (.var y)) : a = .id y := by
  cases a <;> rw [readE] at h
  case id => cases h; rfl
  case str => cases h
  case flt => cases h
  case rep => split at h <;> cases h
  all_goals
    obtain ⟨t, _, ht⟩ := Option.map_eq_some_iff.1 h
    cases ht

end Parts

/-! ### Items -/

section Items

variable {X D : Type} (S : Sem X D)

theorem itemsV_append (a b : List VItem) :
    S.itemsV (a ++ b) = (S.itemsV a).bind fun x => (S.itemsV b).map fun y => x ++ y := by
  induction a with
  | nil => simp [Sem.itemsV]
  | cons i a ih =>
    simp only [List.cons_append, Sem.itemsV, ih]
    cases S.itemV i <;> cases S.itemsV a <;> cases S.itemsV b <;> simp

theorem paramsV_append (a b : List VItem) :
    S.paramsV (a ++ b) = (S.paramsV a).bind fun x => (S.paramsV b).map fun y => x ++ y := by
  induction a with
  | nil => simp [Sem.paramsV]
  | cons i a ih =>
    cases i with
    | param loc n x w s =>
      cases loc with
      | true => exact ih
      | false =>
        simp only [List.cons_append, Sem.paramsV, ih]
        cases S.paramV false n x w s <;> cases S.paramsV a <;> cases S.paramsV b <;> simp
    | _ => exact ih

theorem oneV (i : VItem) : S.itemsV [i] = S.itemV i := by
  rw [Sem.itemsV, Sem.itemsV]
  cases S.itemV i <;> simp

theorem blockM_some (ps : List (Leaf X D)) {P : Option (List (Leaf X D))} (h : P = some ps) (I : Option (List (MItem X D))) :
    Sem.blockM P I = Sem.blockM (some ps) I := by rw [h]

mutual

theorem readItem_den (lib : Lib) : ∀ (a : AItem) (ctx : Ctx) (env : List (String × VE)) (is : List VItem),
    readItem lib ctx env a = some is → safeI S.toESem ctx a →
    S.itemsV is = S.itemA a ∧ S.paramsV is = some (S.paramsA [a])
  | .param loc n x w s, ctx, env, is, h, hs => by
    rw [readItem] at h
    split at h
    · rename_i x' w' h1 h2
      cases h
      have hv : paramValue env x' = x' := paramValue_id fun y hy => hs.2.1 y (readE_var (hy ▸ h1))
      have e : S.paramV loc n (paramValue env x') w' s = some (.param loc n (S.toESem.denA x) (w.map S.pairA) s) := by
        rw [hv, Sem.paramV, readE_den S.toESem _ _ h1 hs.1, readW_den S h2 hs.2.2]
      cases loc with
      | false => exact ⟨rfl, by rw [Sem.paramsV, e]; rfl⟩
      | true => exact ⟨by rw [oneV, Sem.itemV, e]; rfl, rfl⟩
    · cases h
  | .decl d, ctx, env, is, h, hs => by
    obtain ⟨d', hd, rfl⟩ := Option.map_eq_some_iff.1 h
    obtain ⟨e1, e2, e3⟩ := readDecl_den S hd hs
    refine ⟨?_, rfl⟩
    rw [oneV, Sem.itemV, Sem.itemA, e1, e2]
    split <;> rfl
  | .assign l r, ctx, env, is, h, hs => by
    rw [readItem] at h
    split at h
    · rename_i h1 h2
      cases h
      refine ⟨?_, rfl⟩
      rw [oneV, Sem.itemV, readE_den S.toESem _ _ h1 hs.1, readE_den S.toESem _ _ h2 hs.2]
      rfl
    · cases h
  | .always sens body, ctx, env, is, h, hs => by
    rw [readItem] at h
    split at h
    · rename_i s b h1 h2
      cases h
      refine ⟨?_, rfl⟩
      have hne : s.isEmpty = false := by
        cases sens with
        | nil => exact absurd rfl hs.1
        | cons x l =>
          rw [readSensL] at h1
          split at h1
          · cases h1; rfl
          · cases h1
      rw [oneV, Sem.itemV, Sem.itemA, hne, if_neg (by simp), readSens_den S sens s h1 hs.2.1, denVs_toTuple,
        readS_den S body false b h2 hs.2.2]
    · cases h
  | .initial body, ctx, env, is, h, hs => by
    rw [readItem] at h
    split at h
    · cases h
    · obtain ⟨b, hb, rfl⟩ := Option.map_eq_some_iff.1 h
      refine ⟨?_, rfl⟩
      rw [oneV, Sem.itemV, Sem.itemA, denVs_toTuple, readS_den S body true b hb hs]
  | .func n w f, ctx, env, is, h, hs => by
    rw [readItem] at h
    split at h
    · rename_i w' f' h1 h2
      cases h
      refine ⟨?_, rfl⟩
      rw [oneV, Sem.itemV, Sem.itemA, readW_den S h1 hs.1, readFn_den S f f' h2 hs.2]
      cases S.fbodyA f <;> rfl
    · cases h
  | .task n f, ctx, env, is, h, hs => by
    obtain ⟨f', hf, rfl⟩ := Option.map_eq_some_iff.1 h
    refine ⟨?_, rfl⟩
    rw [oneV, Sem.itemV, Sem.itemA, readFn_den S f f' hf hs]
    cases S.fbodyA f <;> rfl
  | .inst m n ps qs, ctx, env, is, h, hs => by
    rw [readItem] at h
    split at h
    · rename_i h1 h2
      split at h
      · cases h
        refine ⟨?_, rfl⟩
        rw [oneV, Sem.itemV, Sem.itemA, readParams_den S ps _ h1 hs.1, readConns_den S qs _ h2 hs.2]
      · cases h
    · cases h
  | .gen l, ctx, env, is, h, hs => by
    rw [readItem] at h
    obtain ⟨h1, h2⟩ := readGens_den lib l env is h hs
    exact ⟨by rw [h1, Sem.itemA], h2⟩
  | .gfor pre c post s body, ctx, env, is, h, hs => by
    obtain ⟨rfl, s1, s2, s3, s4⟩ := hs
    rw [readItem] at h
    split at h
    · rename_i p x q b h1 h2 h3 h4
      cases h
      obtain ⟨i1, i2⟩ := readItems_den lib body .gen env b h4 s4
      refine ⟨?_, rfl⟩
      rw [if_pos rfl, oneV, Sem.itemV, Sem.itemA, readS_den S pre true p h1 s1, readE_den S.toESem _ _ h2 s2,
        readS_den S post true q h3 s3, i1, i2]
      cases S.denA pre <;> cases S.denA post <;> cases Sem.blockM (some (S.paramsA body)) (S.itemsA body) <;> rfl
    · cases h
  | .gif c ts t fs f, ctx, env, is, h, hs => by
    obtain ⟨rfl, s2, s3, s4⟩ := hs
    rw [readItem, if_pos rfl] at h
    split at h
    · rename_i x t' f' h1 h2 h3
      cases h
      obtain ⟨i1, i2⟩ := readItems_den lib t .gen env t' h2 s3
      obtain ⟨j1, j2⟩ := readItems_den lib f .els env f' h3 s4
      refine ⟨?_, rfl⟩
      rw [oneV, Sem.itemV, Sem.itemA, readE_den S.toESem _ _ h1 s2, i1, i2, j1, j2]
      cases Sem.blockM (some (S.paramsA t)) (S.itemsA t) <;> cases Sem.blockM (some (S.paramsA f)) (S.itemsA f) <;> rfl
    · cases h

theorem readItems_den (lib : Lib) : ∀ (l : List AItem) (ctx : Ctx) (env : List (String × VE)) (is : List VItem),
    readItems lib ctx env l = some is → safeIs S.toESem ctx l →
    S.itemsV is = S.itemsA l ∧ S.paramsV is = some (S.paramsA l)
  | [], ctx, env, is, h, hs => by cases h; exact ⟨rfl, rfl⟩
  | a :: l, ctx, env, is, h, hs => by
    rw [readItems] at h
    split at h
    · cases h
    · rename_i i h1
      split at h
      · cases h
      · rename_i is' h2
        cases h
        obtain ⟨i1, i2⟩ := readItem_den lib a ctx env i h1 hs.1
        obtain ⟨j1, j2⟩ := readItems_den lib l ctx _ is' h2 hs.2
        refine ⟨?_, ?_⟩
        · rw [itemsV_append, i1, j1, Sem.itemsA]
          cases S.itemA a <;> cases S.itemsA l <;> rfl
        · rw [paramsV_append, i2, j2, show a :: l = [a] ++ l from rfl, paramsA_append]
          rfl

theorem readGens_den (lib : Lib) : ∀ (l : List AItem) (env : List (String × VE)) (is : List VItem),
    readGens lib env l = some is → safeIs S.toESem .gen l →
    S.itemsV is = S.itemsA l ∧ S.paramsV is = some []
  | [], env, is, h, hs => by cases h; exact ⟨rfl, rfl⟩
  | .gfor pre c post s body :: l, env, is, h, hs => by
    obtain ⟨⟨_, s1, s2, s3, s4⟩, hl⟩ := hs
    rw [readGens] at h
    split at h
    · rename_i p x q b l' h1 h2 h3 h4 h5
      cases h
      obtain ⟨i1, i2⟩ := readItems_den lib body .gen env b h4 s4
      obtain ⟨j1, j2⟩ := readGens_den lib l env l' h5 hl
      refine ⟨?_, j2⟩
      rw [Sem.itemsV, Sem.itemV, Sem.itemsA, Sem.itemA, readS_den S pre true p h1 s1, readE_den S.toESem _ _ h2 s2,
        readS_den S post true q h3 s3, i1, i2, j1]
      cases S.denA pre <;> cases S.denA post <;> cases Sem.blockM (some (S.paramsA body)) (S.itemsA body) <;> rfl
    · cases h
  | .gif c ts t fs f :: l, env, is, h, hs => by
    obtain ⟨⟨_, s2, s3, s4⟩, hl⟩ := hs
    rw [readGens] at h
    split at h
    · rename_i x t' f' l' h1 h2 h3 h5
      cases h
      obtain ⟨i1, i2⟩ := readItems_den lib t .gen env t' h2 s3
      obtain ⟨k1, k2⟩ := readItems_den lib f .els env f' h3 s4
      obtain ⟨j1, j2⟩ := readGens_den lib l env l' h5 hl
      refine ⟨?_, j2⟩
      rw [Sem.itemsV, Sem.itemV, Sem.itemsA, Sem.itemA, readE_den S.toESem _ _ h1 s2, i1, i2, j1, k1, k2]
      cases Sem.blockM (some (S.paramsA t)) (S.itemsA t) <;> cases Sem.blockM (some (S.paramsA f)) (S.itemsA f) <;> rfl
    · cases h
  | .param _ _ _ _ _ :: l, env, is, h, hs => by cases h
  | .decl _ :: l, env, is, h, hs => by cases h
  | .assign _ _ :: l, env, is, h, hs => by cases h
  | .always _ _ :: l, env, is, h, hs => by cases h
  | .initial _ :: l, env, is, h, hs => by cases h
  | .func _ _ _ :: l, env, is, h, hs => by cases h
  | .task _ _ :: l, env, is, h, hs => by cases h
  | .inst _ _ _ _ :: l, env, is, h, hs => by cases h
  | .gen _ :: l, env, is, h, hs => by cases h

end

end Items

end Emit
