import Verif.Lemmas.EmitMod

/-!
# The modules that are written mean what the objects mean
-/

namespace Emit

/-! ### What can be written -/

/-- A width. -/
def okW : VW → Prop
  | .none => True
  | .width e => okE e
  | .bounds m l => okE m ∧ okE l

/-- Dimensions. -/
def okD : VD → Prop
  | .none => True
  | .dims l => okEs l
  | .bounds l => ∀ p ∈ l, okE p.1 ∧ okE p.2

/-- A variable. -/
def okDecl (d : VDecl) : Prop := okW d.width ∧ okD d.dims

/-- A variable of a function. -/
def okFDecl (d : FDecl) : Prop := ∀ m l, d.width = some (m, l) → okE m ∧ okE l

/-- A function or task: inputs are inputs, and no local register has the name of an output of the module. -/
def okFn (out : String → Bool) (f : Fn) : Prop :=
  (∀ d ∈ f.io, okFDecl d ∧ d.kind = .input) ∧
  (∀ d ∈ f.var, okFDecl d ∧ d.kind ≠ .input ∧ ¬ (d.kind = .reg ∧ out d.name = true)) ∧
  oks true f.body ∧ clears true f.body

/-- No delay. -/
def noDel : Option VE → Prop
  | none => True
  | some e => e = .num 0

/-- An edge of an `always`. -/
def okASens : VSens → Prop
  | .pos e => okE e
  | .neg e => okE e
  | .all => True
  | .level e => okE e

mutual

/-- An item that can be written and is written completely: continuous assignments without delays, all ports of instances connected,
    and no register, in a generate block, with the name of an output of the module. -/
def okI (out : String → Bool) : VItem → Prop
  | .param _ _ x w _ => okE x ∧ okW w
  | .decl d => d.kind.io = false → okDecl d ∧ ¬ (d.kind = .reg ∧ out d.name = true)
  | .any _ => True
  | .assign l r ld rd => okE l ∧ okE r ∧ noDel ld ∧ noDel rd
  | .always sens body => (∀ e ∈ sens, okASens e) ∧ oks false body ∧ clears false body
  | .initial body => oks true body ∧ clears true body
  | .func _ w f => okW w ∧ okFn out f
  | .task _ f => okFn out f
  | .inst _ _ ps qs => (∀ p ∈ ps, okE p.2) ∧ ∀ q ∈ qs, ∃ e, q.2 = some e ∧ okE e
  | .gfor pre c post _ body => ok true pre ∧ clear true pre ∧ okE c ∧ ok true post ∧ clear true post ∧ okIs out body
  | .gif c _ t _ f => okE c ∧ okIs out t ∧ okIs out f

/-- The same for a list. -/
def okIs (out : String → Bool) : List VItem → Prop
  | [] => True
  | i :: l => okI out i ∧ okIs out l

end

/-! ### Parts -/

theorem denAs_map {X : Type} (S : ESem X) (l : List AE) : S.denAs l = l.map S.denA := by
  induction l with
  | nil => rfl
  | cons a l ih => rw [ESem.denAs, ih]; rfl

theorem fdeclsA_append {X D : Type} (S : Sem X D) (io : Bool) (a b : List FItem) : S.fdeclsA io (a ++ b) = S.fdeclsA io a ++ S.fdeclsA io b := by
  induction a with
  | nil => rfl
  | cons x a ih =>
    cases x with
    | decl d =>
      rw [List.cons_append, Sem.fdeclsA, Sem.fdeclsA, ih]
      split <;> rfl
    | stmt s => exact ih

section Parts

variable {X D : Type} (S : Sem X D) {v : Vis} (hv : v.fv = false)
include hv

theorem w_spec {w : VW} (h : okW w) : ∃ a, emitW v w = some a ∧ S.wV w = some (a.map S.pairA) := by
  cases w with
  | none => exact ⟨none, rfl, rfl⟩
  | width e =>
    obtain ⟨a, h1, h2⟩ := c63_expr S.toESem v hv e h
    exact ⟨some (.op .minus [a, .int ['1']], .int ['0']), by rw [emitW, h1]; rfl, by rw [Sem.wV, h2]; rfl⟩
  | bounds m l =>
    obtain ⟨a, h1, h2⟩ := c63_expr S.toESem v hv m h.1
    obtain ⟨b, h3, h4⟩ := c63_expr S.toESem v hv l h.2
    exact ⟨some (a, b), by rw [emitW, h1, h3], by rw [Sem.wV, Sem.pairV, h2, h4]; rfl⟩

theorem bounds_spec : ∀ l : List (VE × VE), (∀ p ∈ l, okE p.1 ∧ okE p.2) →
    ∃ a, emitBounds v l = some a ∧ all? S.pairV l = some (a.map S.pairA)
  | [], _ => ⟨[], rfl, rfl⟩
  | (m, l) :: t, h => by
    obtain ⟨a, h1, h2⟩ := c63_expr S.toESem v hv m (h _ List.mem_cons_self).1
    obtain ⟨b, h3, h4⟩ := c63_expr S.toESem v hv l (h _ List.mem_cons_self).2
    obtain ⟨c, h5, h6⟩ := bounds_spec t fun p hp => h p (List.mem_cons_of_mem _ hp)
    exact ⟨(a, b) :: c, by rw [emitBounds, h1, h3, h5], by rw [all?, Sem.pairV, h2, h4, h6]; rfl⟩

theorem d_spec {d : VD} (h : okD d) :
    ∃ a, emitDims v d = some a ∧ S.dimsV d = some (a.map fun l => l.map S.pairA) := by
  cases d with
  | none => exact ⟨none, rfl, rfl⟩
  | dims l =>
    obtain ⟨as, h1⟩ := emitEs_ok v l h
    have h2 := emitEs_den S.toESem hv l as h1
    refine ⟨some (as.map fun a => (.int ['0'], .op .minus [a, .int ['1']])), by rw [emitDims, h1]; rfl, ?_⟩
    rw [Sem.dimsV, h2, denAs_map S.toESem]
    simp [Sem.pairA, ESem.denA, ESem.denAs, AOp.sym]
  | bounds l =>
    obtain ⟨a, h1, h2⟩ := bounds_spec S hv l h
    exact ⟨some a, by rw [emitDims, h1]; rfl, by rw [Sem.dimsV, h2]; rfl⟩

theorem decl_spec {d : VDecl} (h : okDecl d) :
    ∃ a, emitDecl v d = some a ∧ S.declV d = some (S.declA a) ∧ a.kind = d.kind ∧ a.name = d.name := by
  obtain ⟨w, h1, h2⟩ := w_spec S hv h.1
  obtain ⟨ds, h3, h4⟩ := d_spec S hv h.2
  exact ⟨⟨d.kind, d.name, w, ds, d.signed⟩, by rw [emitDecl, h1, h3], by rw [Sem.declV, h2, h4]; rfl, rfl, rfl⟩

theorem sens_spec {e : VSens} (h : okASens e) : ∃ a, emitASens v e = some a ∧ S.sensV e = S.sensA a := by
  cases e with
  | pos e =>
    obtain ⟨a, h1, h2⟩ := c63_expr S.toESem v hv e h
    exact ⟨.pos a, by rw [emitASens, h1]; rfl, by rw [Sem.sensV, h2]; rfl⟩
  | neg e =>
    obtain ⟨a, h1, h2⟩ := c63_expr S.toESem v hv e h
    exact ⟨.neg a, by rw [emitASens, h1]; rfl, by rw [Sem.sensV, h2]; rfl⟩
  | all => exact ⟨.all, rfl, rfl⟩
  | level e =>
    obtain ⟨a, h1, h2⟩ := c63_expr S.toESem v hv e h
    exact ⟨.level a, by rw [emitASens, h1]; rfl, by rw [Sem.sensV, h2]; rfl⟩

theorem senss_spec : ∀ l : List VSens, (∀ e ∈ l, okASens e) →
    ∃ as, emitASensL v l = some as ∧ S.sensVs l = S.sensAs as ∧ as.isEmpty = l.isEmpty
  | [], _ => ⟨[], rfl, rfl, rfl⟩
  | e :: l, h => by
    obtain ⟨a, h1, h2⟩ := sens_spec S hv (h e List.mem_cons_self)
    obtain ⟨as, h3, h4, _⟩ := senss_spec l fun x hx => h x (List.mem_cons_of_mem _ hx)
    exact ⟨a :: as, by rw [emitASensL, h1, h3], by rw [Sem.sensVs, Sem.sensAs, h2, h4], rfl⟩

theorem args_spec : ∀ l : List (Option String × VE), (∀ p ∈ l, okE p.2) →
    ∃ as, emitParams v l = some as ∧ all? S.argV l = some (as.map fun p => (p.1, S.toESem.denA p.2))
  | [], _ => ⟨[], rfl, rfl⟩
  | (n, e) :: l, h => by
    obtain ⟨a, h1, h2⟩ := c63_expr S.toESem v hv e (h _ List.mem_cons_self)
    obtain ⟨as, h3, h4⟩ := args_spec l fun x hx => h x (List.mem_cons_of_mem _ hx)
    exact ⟨(n, a) :: as, by rw [emitParams, h1, h3], by rw [all?, Sem.argV, h2, h4]; rfl⟩

theorem conns_spec : ∀ l : List (Option String × Option VE), (∀ q ∈ l, ∃ e, q.2 = some e ∧ okE e) →
    ∃ as, emitConns v l = some as ∧ all? S.connV l = some (as.map fun p => (p.1, p.2.map S.toESem.denA))
  | [], _ => ⟨[], rfl, rfl⟩
  | (n, q) :: l, h => by
    obtain ⟨e, rfl, he⟩ : ∃ e, q = some e ∧ okE e := h (n, q) List.mem_cons_self
    obtain ⟨a, h1, h2⟩ := c63_expr S.toESem v hv e he
    obtain ⟨as, h3, h4⟩ := conns_spec l fun x hx => h x (List.mem_cons_of_mem _ hx)
    exact ⟨(n, some a) :: as, by rw [emitConns, h1, h3], by rw [all?, Sem.connV]; simp [h2, h4]⟩

theorem fdecl_spec {d : FDecl} (h : okFDecl d) : ∃ a, emitFDecl v d = some a ∧
    S.fdeclV d = some (a.kind, a.name, a.width.map S.pairA, a.signed) ∧ a.kind = d.kind := by
  cases hw : d.width with
  | none =>
    exact ⟨⟨d.kind, d.name, none, d.signed⟩, by rw [emitFDecl, hw]; rfl, by rw [Sem.fdeclV, hw]; rfl, rfl⟩
  | some p =>
    obtain ⟨m, l⟩ := p
    obtain ⟨a, h1, h2⟩ := c63_expr S.toESem v hv m (h m l hw).1
    obtain ⟨b, h3, h4⟩ := c63_expr S.toESem v hv l (h m l hw).2
    refine ⟨⟨d.kind, d.name, some (a, b), d.signed⟩, ?_, ?_, rfl⟩
    · rw [emitFDecl, hw, emitWidth, h1, h3]; rfl
    · rw [Sem.fdeclV, hw]
      simp [Sem.pairV, h2, h4, Sem.pairA]

theorem fdecls_spec (io : Bool) : ∀ l : List FDecl, (∀ d ∈ l, okFDecl d ∧ (d.kind == .input) = io) →
    ∃ as, emitFDecls v l = some as ∧ all? S.fdeclV l = some (S.fdeclsA io as) ∧ S.fdeclsA (!io) as = [] ∧
      (∀ rest, S.fbodyA (as ++ rest) = S.fbodyA rest)
  | [], _ => ⟨[], rfl, rfl, rfl, fun _ => rfl⟩
  | d :: l, h => by
    obtain ⟨hd, hk⟩ := h d List.mem_cons_self
    obtain ⟨a, h1, h2, h3⟩ := fdecl_spec S hv hd
    obtain ⟨as, h4, h5, h6, h7⟩ := fdecls_spec io l fun x hx => h x (List.mem_cons_of_mem _ hx)
    refine ⟨.decl a :: as, by rw [emitFDecls, h1, h4], ?_, ?_, fun rest => h7 rest⟩
    · rw [all?, h2, h5, Sem.fdeclsA, h3, hk, if_pos (by simp)]
    · rw [Sem.fdeclsA, h3, hk, if_neg (by cases io <;> simp), h6]

theorem fn_spec {out : String → Bool} {f : Fn} (h : okFn out f) :
    ∃ as, emitFnM v out f = some as ∧
      S.fnV f = (S.fbodyA as).map fun b => (S.fdeclsA true as, S.fdeclsA false as, b) := by
  obtain ⟨hio, hvar, hb, hc⟩ := h
  obtain ⟨io, i1, i2, i3, i4⟩ := fdecls_spec S hv true f.io fun d hd => ⟨(hio d hd).1, by simp [(hio d hd).2]⟩
  obtain ⟨va, v1, v2, v3, v4⟩ := fdecls_spec S hv false f.var fun d hd =>
    ⟨(hvar d hd).1, by have := (hvar d hd).2.1; simpa using this⟩
  obtain ⟨b, b1, b2⟩ := c63_emit S { v with blk := true } hv f.body hb hc
  refine ⟨io ++ va ++ [.stmt b], ?_, ?_⟩
  · rw [emitFnM, if_neg, emitFn, i1, v1, b1]
    intro ha
    obtain ⟨d, hd, hd'⟩ := List.any_eq_true.1 ha
    refine (hvar d hd).2.2 ?_
    simpa using hd'
  · have e0 : S.fbodyA (io ++ va ++ [.stmt b]) = S.denA b := by
      rw [List.append_assoc, i4, v4, Sem.fbodyA, Sem.fbodyA]
      cases S.denA b <;> simp [S.seq_skip]
    rw [e0, b2, Sem.fnV, i2, v2]
    simp only [fdeclsA_append]
    rw [show S.fdeclsA false io = [] from i3, show S.fdeclsA true va = [] from v3]
    cases S.denVs true f.body <;> simp [Sem.fdeclsA]

end Parts

/-! ### Items -/

/-- A parameter, but no localparam. -/
def AItem.isParam : AItem → Bool
  | .param false _ _ _ _ => true
  | _ => false

section Items

variable {X D : Type} (S : Sem X D)

theorem itemsA_append (a b : List AItem) :
    S.itemsA (a ++ b) = (S.itemsA a).bind fun x => (S.itemsA b).map fun y => x ++ y := by
  induction a with
  | nil => simp [Sem.itemsA]
  | cons i a ih =>
    simp only [List.cons_append, Sem.itemsA, ih]
    cases S.itemA i <;> cases S.itemsA a <;> cases S.itemsA b <;> simp

theorem itemsA_unGen (l : List AItem) : S.itemsA (unGen l) = S.itemsA l := by
  induction l with
  | nil => rfl
  | cons i l ih =>
    have hc : S.itemsA (i :: unGen l) = S.itemsA (i :: l) := by simp only [Sem.itemsA, ih]
    cases i <;> try exact hc
    rename_i b
    rw [unGen, itemsA_append, ih, Sem.itemsA, Sem.itemA]
    cases S.itemsA b <;> cases S.itemsA l <;> rfl

theorem paramsA_nil {l : List AItem} (h : ∀ a ∈ l, a.isParam = false) : S.paramsA l = [] := by
  induction l with
  | nil => rfl
  | cons a l ih =>
    have ha := h a List.mem_cons_self
    have hl := ih fun x hx => h x (List.mem_cons_of_mem _ hx)
    cases a with
    | param loc n x w s =>
      cases loc with
      | false => cases ha
      | true => exact hl
    | _ => exact hl

theorem paramsA_append (a b : List AItem) : S.paramsA (a ++ b) = S.paramsA a ++ S.paramsA b := by
  induction a with
  | nil => rfl
  | cons i a ih =>
    cases i with
    | param loc n x w s =>
      cases loc with
      | false => rw [List.cons_append, Sem.paramsA, Sem.paramsA, ih]; rfl
      | true => exact ih
    | _ => exact ih

theorem unGen_append (a b : List AItem) : unGen (a ++ b) = unGen a ++ unGen b := by
  induction a with
  | nil => rfl
  | cons i a ih => cases i <;> simp [unGen, ih]

/-- What comes out of the items of a block: no parameters, no ports and no register of an output. -/
def Clean (out : String → Bool) (as : List AItem) : Prop :=
  (∀ a ∈ unGen as, a.isParam = false) ∧
  ∀ d, AItem.decl d ∈ as → d.kind.io = false ∧ ¬ (d.kind = .reg ∧ out d.name = true)

theorem Clean.append {out : String → Bool} {a b : List AItem} (ha : Clean out a) (hb : Clean out b) :
    Clean out (a ++ b) := by
  refine ⟨fun x hx => ?_, fun d hd => ?_⟩
  · rw [unGen_append] at hx
    rcases List.mem_append.1 hx with h | h
    · exact ha.1 x h
    · exact hb.1 x h
  · rcases List.mem_append.1 hd with h | h
    · exact ha.2 d h
    · exact hb.2 d h

/-- The parameters. -/
theorem paramItems_spec {v : Vis} (hv : v.fv = false) {out : String → Bool} : ∀ l : List VItem, okIs out l →
    ∃ as, emitParamItems v l = some as ∧ S.paramsV l = some (S.paramsA as) ∧ S.itemsA as = some [] ∧
      (∀ a ∈ as, a.isParam = true) ∧ ∀ i, S.itemsA (as ++ i) = S.itemsA i
  | [], _ => ⟨[], rfl, rfl, rfl, by simp, fun _ => rfl⟩
  | i :: l, h => by
    obtain ⟨as, h1, h2, h3, h4, h5⟩ := paramItems_spec hv l h.2
    have other : (∀ n x w s, i ≠ .param false n x w s) →
        ∃ as, emitParamItems v (i :: l) = some as ∧ S.paramsV (i :: l) = some (S.paramsA as) ∧ S.itemsA as = some [] ∧
          (∀ a ∈ as, a.isParam = true) ∧ ∀ i, S.itemsA (as ++ i) = S.itemsA i := by
      intro hi
      refine ⟨as, ?_, ?_, h3, h4, h5⟩
      · rw [emitParamItems, h1]; exact hi
      · rw [Sem.paramsV, h2]; exact hi
    cases i with
    | param loc n x w s =>
      cases loc with
      | true => exact other (by intro _ _ _ _ h; cases h)
      | false =>
        obtain ⟨a, a1, a2⟩ := c63_expr S.toESem v hv x h.1.1
        obtain ⟨b, b1, b2⟩ := w_spec S hv h.1.2
        refine ⟨.param false n a b s :: as, by rw [emitParamItems, a1, b1, h1], ?_, ?_, ?_, fun i => ?_⟩
        · rw [Sem.paramsV, Sem.paramV, a2, b2, h2]; rfl
        · rw [Sem.itemsA, Sem.itemA, h3]; rfl
        · intro y hy
          rcases List.mem_cons.1 hy with rfl | hy
          · rfl
          · exact h4 y hy
        · rw [List.cons_append, Sem.itemsA, Sem.itemA, h5]
          cases S.itemsA i <;> rfl
    | _ => exact other (by intro _ _ _ _ h; cases h)

theorem delV_none {d : Option VE} (h : noDel d) : S.delV d = some none := by
  cases d with
  | none => rfl
  | some e => cases h; rfl

theorem blockM_eq {ps as : List AItem} {P : Option (List (Leaf X D))} {I : Option (List (MItem X D))}
    (h1 : P = some (S.paramsA ps)) (h2 : ∀ i, S.itemsA (ps ++ i) = S.itemsA i) (h3 : S.itemsA as = I)
    (h4 : ∀ a ∈ unGen as, a.isParam = false) :
    Sem.blockM (some (S.paramsA (ps ++ unGen as))) (S.itemsA (ps ++ unGen as)) = Sem.blockM P I := by
  rw [paramsA_append, paramsA_nil S h4, List.append_nil, h2, itemsA_unGen, h1, h3]

theorem one (S : Sem X D) (i : AItem) : S.itemsA [i] = S.itemA i := by
  rw [Sem.itemsA, Sem.itemsA]
  cases S.itemA i <;> simp

theorem clean_one {out : String → Bool} {i : AItem} (h1 : i.isParam = false) (h2 : ∀ d, i ≠ .decl d) (h3 : ∀ l, i ≠ .gen l) :
    Clean out [i] := by
  refine ⟨fun a ha => ?_, fun d hd => ?_⟩
  · have : unGen [i] = [i] := by cases i <;> first | rfl | exact absurd rfl (h3 _)
    rw [this] at ha
    rw [List.mem_singleton.1 ha]
    exact h1
  · exact absurd (List.mem_singleton.1 hd).symm (h2 d)

theorem clean_gen {out : String → Bool} {i : AItem} (h1 : i.isParam = false) : Clean out [.gen [i]] := by
  refine ⟨fun a ha => ?_, fun d hd => ?_⟩
  · rw [show unGen [.gen [i]] = [i] from rfl] at ha
    rw [List.mem_singleton.1 ha]
    exact h1
  · cases List.mem_singleton.1 hd

mutual

theorem item_spec {v : Vis} (hv : v.fv = false) {out : String → Bool} : ∀ i : VItem, okI out i → i.head = false →
    ∃ as, emitItem v out i = some as ∧ S.itemsA as = S.itemV i ∧ Clean out as
  | .param loc n x w s, h, hh => by
    cases loc with
    | false => cases hh
    | true =>
      obtain ⟨a, a1, a2⟩ := c63_expr S.toESem v hv x h.1
      obtain ⟨b, b1, b2⟩ := w_spec S hv h.2
      refine ⟨[.param true n a b s], by rw [emitItem, a1, b1], ?_, clean_one rfl nofun nofun⟩
      rw [one, Sem.itemA, Sem.itemV, Sem.paramV, a2, b2]
      rfl
  | .decl d, h, hh => by
    obtain ⟨h1, h2⟩ := h hh
    obtain ⟨a, a1, a2, a3, a4⟩ := decl_spec S hv h1
    have hh' : d.kind.io = false := hh
    refine ⟨[.decl a], ?_, ?_, fun x hx => ?_, fun x hx => ?_⟩
    · rw [emitItem, if_neg, a1]
      · rfl
      · simpa using h2
    · rw [one, Sem.itemA, Sem.itemV, a3, hh', a2]
      rfl
    · rw [List.mem_singleton.1 hx]
      rfl
    · cases List.mem_singleton.1 hx
      rw [a3, a4]
      exact ⟨hh', h2⟩
  | .any n, h, hh => ⟨[], rfl, rfl, nofun, nofun⟩
  | .assign l r ld rd, h, hh => by
    obtain ⟨a, a1, a2⟩ := c63_expr S.toESem v hv l h.1
    obtain ⟨b, b1, b2⟩ := c63_expr S.toESem v hv r h.2.1
    refine ⟨[.assign a b], by rw [emitItem, a1, b1], ?_, clean_one rfl nofun nofun⟩
    rw [one, Sem.itemA, Sem.itemV, a2, b2, delV_none S h.2.2.1, delV_none S h.2.2.2]
  | .always sens body, h, hh => by
    obtain ⟨s, s1, s2, s3⟩ := senss_spec S hv sens h.1
    obtain ⟨b, b1, b2⟩ := c63_emit S { v with blk := false } hv body h.2.1 h.2.2
    refine ⟨[.always (if s.isEmpty then [.all] else s) b], by rw [emitItem, s1, b1], ?_, clean_one rfl nofun nofun⟩
    have e : S.sensVs (if sens.isEmpty then [.all] else sens) = S.sensAs (if s.isEmpty then [.all] else s) := by
      rw [s3]
      cases sens.isEmpty with
      | true => rfl
      | false => exact s2
    rw [one, Sem.itemA, Sem.itemV, e, b2]
  | .initial body, h, hh => by
    obtain ⟨b, b1, b2⟩ := c63_emit S { v with blk := true, ini := true } hv body h.1 h.2
    refine ⟨[.initial b], by rw [emitItem, b1]; rfl, ?_, clean_one rfl nofun nofun⟩
    rw [one, Sem.itemA, Sem.itemV, b2]
  | .func n w f, h, hh => by
    obtain ⟨a, a1, a2⟩ := w_spec S hv h.1
    obtain ⟨b, b1, b2⟩ := fn_spec S hv h.2
    refine ⟨[.func n a b], by rw [emitItem, a1, b1], ?_, clean_one rfl nofun nofun⟩
    rw [one, Sem.itemA, Sem.itemV, a2, b2]
    cases S.fbodyA b <;> rfl
  | .task n f, h, hh => by
    obtain ⟨b, b1, b2⟩ := fn_spec S hv h
    refine ⟨[.task n b], by rw [emitItem, b1]; rfl, ?_, clean_one rfl nofun nofun⟩
    rw [one, Sem.itemA, Sem.itemV, b2]
    cases S.fbodyA b <;> rfl
  | .inst m n ps qs, h, hh => by
    obtain ⟨a, a1, a2⟩ := args_spec S hv ps h.1
    obtain ⟨b, b1, b2⟩ := conns_spec S hv qs h.2
    refine ⟨[.inst m n a b], by rw [emitItem, a1, b1], ?_, clean_one rfl nofun nofun⟩
    rw [one, Sem.itemA, Sem.itemV, a2, b2]
  | .gfor pre c post s body, h, hh => by
    obtain ⟨h1, h2, h3, h4, h5, h6⟩ := h
    obtain ⟨p, p1⟩ := emitS_ok pre { v with blk := true } h1
    have p2 := emitS_den S pre { v with blk := true } p hv p1 h2
    obtain ⟨q, q1⟩ := emitS_ok post { v with blk := true } h4
    have q2 := emitS_den S post { v with blk := true } q hv q1 h5
    obtain ⟨a, a1, a2⟩ := c63_expr S.toESem v hv c h3
    obtain ⟨ps, e1, e2, e3, e4, e5⟩ := paramItems_spec S hv body h6
    obtain ⟨bs, f1, f2, f3⟩ := items_spec hv body h6
    refine ⟨[.gen [.gfor p a q s (ps ++ unGen bs)]], ?_, ?_, clean_gen rfl⟩
    · rw [emitItem, p1, a1, q1, e1, f1]
    · rw [one, Sem.itemA, one, Sem.itemA, Sem.itemV, blockM_eq S e2 e5 f2 f3.1, ← p2, ← q2, a2]
      cases S.denA p <;> cases S.denA q <;> cases Sem.blockM (S.paramsV body) (S.itemsV body) <;> rfl
  | .gif c ts t fs f, h, hh => by
    obtain ⟨h1, h2, h3⟩ := h
    obtain ⟨a, a1, a2⟩ := c63_expr S.toESem v hv c h1
    obtain ⟨ps, e1, e2, e3, e4, e5⟩ := paramItems_spec S hv t h2
    obtain ⟨bs, f1, f2, f3⟩ := items_spec hv t h2
    obtain ⟨ps', e1', e2', e3', e4', e5'⟩ := paramItems_spec S hv f h3
    obtain ⟨bs', f1', f2', f3'⟩ := items_spec hv f h3
    refine ⟨[.gen [.gif a ts (ps ++ unGen bs) (if (ps' ++ unGen bs').isEmpty then none else fs) (ps' ++ unGen bs')]],
      ?_, ?_, clean_gen rfl⟩
    · rw [emitItem, a1, e1, f1, e1', f1']
    · have hN := blockM_eq S e2' e5' f2' f3'.1
      have hE : (ps' ++ unGen bs') = [] → Sem.blockM (S.paramsV f) (S.itemsV f) = some [] := by
        intro he
        rw [← hN, he]
        rfl
      rw [one, Sem.itemA, one, Sem.itemA, Sem.itemV, blockM_eq S e2 e5 f2 f3.1, hN, a2]
      cases Sem.blockM (S.paramsV t) (S.itemsV t) with
      | none => rfl
      | some T =>
        cases hF : Sem.blockM (S.paramsV f) (S.itemsV f) with
        | none => rfl
        | some F =>
          simp only [MItem.gifN]
          cases hl : ps' ++ unGen bs' with
          | nil =>
            rw [hE hl] at hF
            cases hF
            rfl
          | cons x y => rfl

theorem items_spec {v : Vis} (hv : v.fv = false) {out : String → Bool} : ∀ l : List VItem, okIs out l →
    ∃ as, emitItems v out l = some as ∧ S.itemsA as = S.itemsV l ∧ Clean out as
  | [], _ => ⟨[], rfl, rfl, nofun, nofun⟩
  | i :: l, h => by
    obtain ⟨bs, b1, b2, b3⟩ := items_spec hv l h.2
    cases hh : i.head with
    | true =>
      refine ⟨bs, by rw [emitItems, if_pos hh, b1], ?_, b3⟩
      have : S.itemV i = some [] := by
        cases i with
        | param loc n x w s =>
          cases loc with
          | false => rfl
          | true => cases hh
        | decl d =>
          rw [Sem.itemV, if_pos]
          exact hh
        | _ => cases hh
      rw [Sem.itemsV, this, b2]
      cases S.itemsV l <;> rfl
    | false =>
      obtain ⟨a, a1, a2, a3⟩ := item_spec hv i h.1 hh
      refine ⟨a ++ bs, by rw [emitItems, if_neg (by simp [hh]), a1, b1], ?_, a3.append b3⟩
      rw [itemsA_append, a2, b2, Sem.itemsV]
      cases S.itemV i <;> cases S.itemsV l <;> rfl

end

end Items

end Emit
