import Mathlib.Data.List.Nodup
import Verif.Lemmas.EmitModW
import Verif.Lemmas.EmitModR

/-!
# C77: modules are written completely and read back
-/

namespace Emit

/-! ### The table of ports -/

theorem mem_dictPut {X : Type} {k : String} {x : X} {l : List (String × X)} {e : String × X} (h : e ∈ dictPut k x l) :
    e = (k, x) ∨ e ∈ l := by
  induction l with
  | nil => exact .inl (List.mem_singleton.1 h)
  | cons y l ih =>
    obtain ⟨k', y⟩ := y
    rw [dictPut] at h
    split at h
    · rcases List.mem_cons.1 h with h | h
      · exact .inl h
      · exact .inr (List.mem_cons_of_mem _ h)
    · rcases List.mem_cons.1 h with h | h
      · exact .inr (h ▸ List.mem_cons_self)
      · rcases ih h with h | h
        · exact .inl h
        · exact .inr (List.mem_cons_of_mem _ h)

theorem keys_dictPut {X : Type} (k : String) (x : X) (l : List (String × X)) :
    (dictPut k x l).map (·.1) = if k ∈ l.map (·.1) then l.map (·.1) else l.map (·.1) ++ [k] := by
  induction l with
  | nil => rfl
  | cons y l ih =>
    obtain ⟨k', y⟩ := y
    rw [dictPut]
    by_cases hk : k = k'
    · simp [hk]
    · rw [if_neg hk, List.map_cons, ih]
      simp only [List.map_cons, List.mem_cons, hk, false_or]
      split <;> rfl

theorem nodup_dictPut {X : Type} (k : String) (x : X) {l : List (String × X)} (h : (l.map (·.1)).Nodup) :
    ((dictPut k x l).map (·.1)).Nodup := by
  rw [keys_dictPut]
  split
  · exact h
  · rename_i hk
    rw [List.nodup_append]
    refine ⟨h, by simp, fun a ha b hb => ?_⟩
    rw [List.mem_singleton.1 hb]
    rintro rfl
    exact hk ha

theorem fold_dictPut {X : Type} (es : List (String × X)) : ∀ t : List (String × X), (t.map (·.1)).Nodup →
    ((es.foldl (fun t e => dictPut e.1 e.2 t) t).map (·.1)).Nodup ∧
    ∀ e ∈ es.foldl (fun t e => dictPut e.1 e.2 t) t, e ∈ es ∨ e ∈ t := by
  induction es with
  | nil => exact fun t ht => ⟨ht, fun e he => .inr he⟩
  | cons x es ih =>
    intro t ht
    obtain ⟨h1, h2⟩ := ih _ (nodup_dictPut x.1 x.2 ht)
    refine ⟨h1, fun e he => ?_⟩
    rcases h2 e he with h | h
    · exact .inl (List.mem_cons_of_mem _ h)
    · rcases mem_dictPut h with h | h
      · exact .inl (h ▸ List.mem_cons_self)
      · exact .inr h

theorem ioTable_nodup (items : List VItem) : ((ioTable items).map (·.1)).Nodup :=
  (fold_dictPut _ [] List.nodup_nil).1

theorem ioTable_mem {items : List VItem} {k : String} {d : VDecl} (h : (k, some d) ∈ ioTable items) :
    .decl d ∈ items ∧ d.kind.io = true ∧ d.name = k := by
  rcases (fold_dictPut _ [] List.nodup_nil).2 _ h with h | h
  · obtain ⟨i, hi, he⟩ := List.mem_filterMap.1 h
    cases i with
    | decl d' =>
      rw [VItem.ioEntry] at he
      split at he
      · rename_i hio
        cases he
        exact ⟨hi, hio, rfl⟩
      · cases he
    | any n => cases he
    | _ => cases he
  · cases h

theorem lookup_of_mem {X : Type} {l : List (String × X)} {k : String} {x : X} (hn : (l.map (·.1)).Nodup)
    (h : (k, x) ∈ l) : l.lookup k = some x := by
  induction l with
  | nil => cases h
  | cons y l ih =>
    obtain ⟨k', y⟩ := y
    rw [List.map_cons, List.nodup_cons] at hn
    rcases List.mem_cons.1 h with h' | h'
    · cases h'
      simp [List.lookup]
    · have hne : k ≠ k' := by
        rintro rfl
        exact hn.1 (List.mem_map.2 ⟨_, h', rfl⟩)
      rw [List.lookup, show (k == k') = false by simpa using hne]
      exact ih hn.2 h'

theorem isOutput_of_mem {items : List VItem} {k : String} {d : VDecl} (h : (k, some d) ∈ ioTable items)
    (hd : d.kind = .output) : isOutput items k = true := by
  rw [isOutput, lookup_of_mem (ioTable_nodup items) h]
  simp [hd]

/-! ### Writing -/

/-- A module that is written completely: its items can be (`okI`), no variable is declared twice, and the register of an output has the
    width and sign of the output. -/
structure VMod.Ok (m : VMod) : Prop where
  items : okIs (isOutput m.items) (m.items.filter (VItem.notOutReg (isOutput m.items)))
  ports : ∀ d, .decl d ∈ m.items → d.kind.io = true → okDecl d
  once : ∀ n, (m.items.filterMap (VItem.varOf n)).length ≤ 1
  regs : ∀ d r, .decl d ∈ m.items → d.kind = .output → .decl r ∈ m.items → r.kind = .reg → r.name = d.name →
    r.width = d.width ∧ r.dims = d.dims ∧ r.signed = d.signed

theorem emitItems_filter (v : Vis) (out : String → Bool) (l : List VItem) :
    emitItems v out (l.filter (VItem.notOutReg out)) = emitItems v out l := by
  induction l with
  | nil => rfl
  | cons i l ih =>
    cases hi : i.notOutReg out with
    | true => rw [List.filter_cons_of_pos hi, emitItems, emitItems, ih]
    | false =>
      rw [List.filter_cons_of_neg (by simp [hi]), ih, emitItems]
      cases i with
      | decl d =>
        simp only [VItem.notOutReg, Bool.not_eq_false', Bool.and_eq_true, beq_iff_eq] at hi
        rw [if_neg (by rw [VItem.head, hi.1]; simp [DKind.io]), emitItem, if_pos (by simp [hi.1, hi.2])]
        cases emitItems v out l <;> rfl
      | _ => cases hi

theorem emitParamItems_filter (v : Vis) (out : String → Bool) (l : List VItem) :
    emitParamItems v (l.filter (VItem.notOutReg out)) = emitParamItems v l := by
  induction l with
  | nil => rfl
  | cons i l ih =>
    cases hi : i.notOutReg out with
    | true =>
      rw [List.filter_cons_of_pos hi]
      cases i with
      | param loc n x w s => cases loc <;> simp only [emitParamItems, ih]
      | _ => simp only [emitParamItems, ih]
    | false =>
      rw [List.filter_cons_of_neg (by simp [hi]), ih]
      cases i with
      | decl d => rfl
      | _ => cases hi

theorem paramsV_filter {X D : Type} (S : Sem X D) (out : String → Bool) (l : List VItem) :
    S.paramsV (l.filter (VItem.notOutReg out)) = S.paramsV l := by
  induction l with
  | nil => rfl
  | cons i l ih =>
    cases hi : i.notOutReg out with
    | true =>
      rw [List.filter_cons_of_pos hi]
      cases i with
      | param loc n x w s => cases loc <;> simp only [Sem.paramsV, ih]
      | _ => simp only [Sem.paramsV, ih]
    | false =>
      rw [List.filter_cons_of_neg (by simp [hi]), ih]
      cases i with
      | decl d => rfl
      | _ => cases hi

/-- What is known of the ports that are written. -/
theorem ports_spec {X D : Type} (S : Sem X D) {v : Vis} (hv : v.fv = false) (reg : String → Bool) :
    ∀ t : List (String × Option VDecl), (t.map (·.1)).Nodup →
      (∀ k d, (k, some d) ∈ t → okDecl d ∧ d.name = k) →
      ∃ ps, emitPorts v reg t = some ps ∧
        (∀ p ∈ ps, ∃ d, (d.name, some d) ∈ t ∧ ∃ a, emitDecl v d = some a ∧
          p = .io a (if d.kind == .output && reg d.name then some { a with kind := .reg } else none)) ∧
        (∀ d, (d.name, some d) ∈ t → ∃ a, emitDecl v d = some a ∧
          .io a (if d.kind == .output && reg d.name then some { a with kind := .reg } else none) ∈ ps) ∧
        ∀ (F : VDecl → Option (MDecl X × Option (MDecl X))) (G : APort → Option (MDecl X × Option (MDecl X))),
          (∀ d, (d.name, some d) ∈ t → ∀ a, emitDecl v d = some a →
            G (.io a (if d.kind == .output && reg d.name then some { a with kind := .reg } else none)) = F d) →
          all? G ps = all? F (t.filterMap (·.2))
  | [], _, _ => ⟨[], rfl, nofun, nofun, fun _ _ _ => rfl⟩
  | (k, none) :: t, hn, h => by
    rw [List.map_cons, List.nodup_cons] at hn
    obtain ⟨ps, h1, h2, h4, h3⟩ := ports_spec S hv reg t hn.2 fun k d hk => h k d (List.mem_cons_of_mem _ hk)
    refine ⟨ps, by rw [emitPorts, h1], fun p hp => ?_, fun d hd => ?_, fun F G hFG => ?_⟩
    · obtain ⟨d, hd, r⟩ := h2 p hp
      exact ⟨d, List.mem_cons_of_mem _ hd, r⟩
    · rcases List.mem_cons.1 hd with hd | hd
      · cases hd
      · exact h4 d hd
    · exact h3 F G fun d hd => hFG d (List.mem_cons_of_mem _ hd)
  | (k, some d) :: t, hn, h => by
    rw [List.map_cons, List.nodup_cons] at hn
    obtain ⟨ps, h1, h2, h4, h3⟩ := ports_spec S hv reg t hn.2 fun k d hk => h k d (List.mem_cons_of_mem _ hk)
    obtain ⟨hd, rfl⟩ := h k d List.mem_cons_self
    obtain ⟨a, a1, a2, a3, a4⟩ := decl_spec S hv hd
    refine ⟨.io a (if d.kind == .output && reg d.name then some { a with kind := .reg } else none) :: ps, ?_,
      fun p hp => ?_, fun e he => ?_, fun F G hFG => ?_⟩
    · rw [emitPorts, emitPort, a1, h1]; rfl
    · rcases List.mem_cons.1 hp with rfl | hp
      · exact ⟨d, List.mem_cons_self, a, a1, rfl⟩
      · obtain ⟨d', hd', r⟩ := h2 p hp
        exact ⟨d', List.mem_cons_of_mem _ hd', r⟩
    · rcases List.mem_cons.1 he with he | he
      · have : e = d := Option.some.inj (Prod.ext_iff.1 he).2
        subst this
        exact ⟨a, a1, List.mem_cons_self⟩
      · obtain ⟨b, b1, b2⟩ := h4 e he
        exact ⟨b, b1, List.mem_cons_of_mem _ b2⟩
    · rw [List.filterMap_cons, all?, all?, hFG d List.mem_cons_self a a1,
        h3 F G fun d hd => hFG d (List.mem_cons_of_mem _ hd)]

theorem mem_unGen {a : AItem} {l : List AItem} (h : a ∈ l) (hg : ∀ b, a ≠ .gen b) : a ∈ unGen l := by
  induction l with
  | nil => cases h
  | cons x l ih =>
    rcases List.mem_cons.1 h with rfl | h'
    · cases a with
      | gen b => exact absurd rfl (hg b)
      | _ => exact List.mem_cons_self
    · cases x with
      | gen b => exact List.mem_append_right _ (ih h')
      | _ => exact List.mem_cons_of_mem _ (ih h')

theorem find_of {X : Type} {p : X → Bool} {l : List X} {x : X} (h : x ∈ l) (hp : p x = true)
    (hu : ∀ y ∈ l, p y = true → y = x) : l.find? p = some x := by
  cases hf : l.find? p with
  | none => exact absurd hp (by simpa using List.find?_eq_none.1 hf x h)
  | some y => rw [hu y (List.mem_of_find?_eq_some hf) (List.find?_some hf)]

/-- C77: a module is written, and the head and items of what is written mean what was made: the parameters in their order, the ports in
    the order in which they were first named, each with its register, and every other item once, in order, the parameters of a
    generate block first. -/
theorem c77_write {X D : Type} (S : Sem X D) (v : Vis) (hv : v.fv = false) (m : VMod) (h : m.Ok) :
    ∃ a, emitMod v m = some a ∧ a.name = m.name ∧ S.modA a = S.modV m := by
  obtain ⟨ps, p1, p2, p3, p4, p5⟩ := paramItems_spec S hv _ h.items
  obtain ⟨is, i1, i2, i3⟩ := items_spec S hv _ h.items
  rw [emitParamItems_filter] at p1
  rw [paramsV_filter] at p2
  rw [emitItems_filter] at i1
  have hio : ∀ k d, (k, some d) ∈ ioTable m.items → okDecl d ∧ d.name = k := fun k d hk =>
    ⟨h.ports d (ioTable_mem hk).1 (ioTable_mem hk).2.1, (ioTable_mem hk).2.2⟩
  obtain ⟨ios, o1, o2, o4, o3⟩ := ports_spec S hv (isReg m.items) (ioTable m.items) (ioTable_nodup _) hio
  refine ⟨⟨m.name, ps, ios, is⟩, by rw [emitMod, p1, o1, i1], rfl, ?_⟩
  -- the variables of a name
  have hvar : ∀ (n : String) (r : VDecl), r ∈ m.items.filterMap (VItem.varOf n) →
      .decl r ∈ m.items ∧ r.name = n ∧ m.items.filterMap (VItem.varOf n) = [r] := by
    intro n r hr
    obtain ⟨i, hi, he⟩ := List.mem_filterMap.1 hr
    have : i = .decl r ∧ r.name = n := by
      cases i with
      | decl d =>
        rw [VItem.varOf] at he
        split at he
        · rename_i hc
          cases he
          exact ⟨rfl, by simpa using (Bool.and_eq_true_iff.1 hc).2⟩
        · cases he
      | _ => cases he
    refine ⟨this.1 ▸ hi, this.2, ?_⟩
    have hl := h.once n
    cases hL : m.items.filterMap (VItem.varOf n) with
    | nil => rw [hL] at hr; cases hr
    | cons x l =>
      rw [hL] at hl hr
      cases l with
      | cons y l => simp at hl
      | nil => rw [List.mem_singleton.1 hr]
  -- ports of what is written
  have hout : ∀ d, .decl d ∈ ps ++ is → ¬ (d.kind = .reg ∧ isOutput m.items d.name = true) := by
    intro d hd
    rcases List.mem_append.1 hd with hd | hd
    · cases p4 _ hd
    · exact (i3.2 d hd).2
  have hname : ∀ d a, emitDecl v d = some a → a.kind = d.kind ∧ a.name = d.name := by
    intro d a ha
    rw [emitDecl] at ha
    split at ha
    · cases ha; exact ⟨rfl, rfl⟩
    · cases ha
  have hA : ∀ n, Sem.outA ⟨m.name, ps, ios, is⟩ n = true → isOutput m.items n = true := by
    intro n hn
    obtain ⟨a, ha, hk⟩ := List.any_eq_true.1 hn
    obtain ⟨p, hp, he⟩ := List.mem_filterMap.1 ha
    obtain ⟨d, hd, b, hb, rfl⟩ := o2 p hp
    cases he
    obtain ⟨k1, k2⟩ := hname d _ hb
    simp only [Bool.and_eq_true, beq_iff_eq] at hk
    rw [k1, k2] at hk
    rw [← hk.2]
    exact isOutput_of_mem hd hk.1
  have hfil : (ps ++ is).filter (AItem.notOutReg (Sem.outA ⟨m.name, ps, ios, is⟩)) = ps ++ is := by
    rw [List.filter_eq_self]
    intro i hi
    cases i with
    | decl d =>
      have := hout d hi
      simp only [AItem.notOutReg, Bool.not_eq_true', Bool.and_eq_false_iff, beq_eq_false_iff_ne]
      by_cases hk : d.kind = .reg
      · right
        cases ho : Sem.outA ⟨m.name, ps, ios, is⟩ d.name with
        | false => rfl
        | true => exact absurd ⟨hk, hA _ ho⟩ this
      · exact .inl hk
    | _ => rfl
  have hports : all? (S.portA ⟨m.name, ps, ios, is⟩) ios = all? (S.portV m.items) ((ioTable m.items).filterMap (·.2)) := by
    apply o3
    intro d hd a ha
    obtain ⟨k1, k2⟩ := hname d a ha
    have hdV : S.declV d = some (S.declA a) := by
      obtain ⟨b, b1, b2, _⟩ := decl_spec S hv (hio _ d hd).1
      rw [ha] at b1
      cases b1
      exact b2
    rw [Sem.portA, Sem.ioOf, Option.map_some, Sem.portV, hdV, k1]
    cases hk : d.kind == .output with
    | false => simp
    | true =>
      have hko : d.kind = .output := by simpa using hk
      have ho := isOutput_of_mem hd hko
      simp only [if_true]
      cases hr : isReg m.items d.name with
      | false =>
        have e1 : (m.items.filterMap (VItem.varOf d.name)).find? (fun r => r.kind == .reg) = none := by
          rw [List.find?_eq_none]
          intro r hrm hreg
          rw [isReg, (hvar d.name r hrm).2.2] at hr
          simp only [List.getLast?_singleton] at hr
          rw [hr] at hreg
          cases hreg
        have e2 : Sem.regOf ⟨m.name, ps, ios, is⟩ a.name = none := by
          rw [Sem.regOf, List.find?_eq_none]
          intro x hx hc
          simp only [Bool.and_eq_true, beq_iff_eq] at hc
          rcases List.mem_append.1 hx with hx | hx
          · obtain ⟨p, hp, he⟩ := List.mem_filterMap.1 hx
            obtain ⟨d', hd', b, hb, rfl⟩ := o2 p hp
            obtain ⟨l1, l2⟩ := hname d' b hb
            simp only [APort.second?] at he
            split at he
            · rename_i hc'
              cases he
              simp only [Bool.and_eq_true] at hc'
              have hn : d'.name = d.name := by rw [← l2, ← k2]; exact hc.1
              rw [hn, hr] at hc'
              exact absurd hc'.2 (by simp)
            · cases he
          · obtain ⟨i, hi, he⟩ := List.mem_filterMap.1 hx
            cases i <;> cases he
            exact hout _ hi ⟨hc.2, by rw [hc.1, k2]; exact ho⟩
        rw [e1, e2]
        rfl
      | true =>
        obtain ⟨r, hrm, hrk⟩ : ∃ r, r ∈ m.items.filterMap (VItem.varOf d.name) ∧ r.kind = .reg := by
          rw [isReg] at hr
          split at hr
          · rename_i r hl
            exact ⟨r, List.mem_of_getLast? hl, by simpa using hr⟩
          · cases hr
        obtain ⟨hri, hrn, hrl⟩ := hvar d.name r hrm
        have e1 : (m.items.filterMap (VItem.varOf d.name)).find? (fun r => r.kind == .reg) = some r := by
          rw [hrl]
          simp [hrk]
        have e2 : Sem.regOf ⟨m.name, ps, ios, is⟩ a.name = some { a with kind := .reg } := by
          rw [Sem.regOf]
          refine find_of ?_ (by simp) ?_
          · refine List.mem_append_left _ (List.mem_filterMap.2 ?_)
            obtain ⟨b, b1, b2⟩ := o4 d hd
            rw [ha] at b1
            cases b1
            refine ⟨_, b2, ?_⟩
            rw [hko, hr]
            rfl
          · intro x hx hc
            simp only [Bool.and_eq_true, beq_iff_eq] at hc
            rcases List.mem_append.1 hx with hx | hx
            · obtain ⟨p, hp, he⟩ := List.mem_filterMap.1 hx
              obtain ⟨d', hd', b, hb, rfl⟩ := o2 p hp
              obtain ⟨l1, l2⟩ := hname d' b hb
              simp only [APort.second?] at he
              split at he
              · cases he
                have hn : d'.name = d.name := by rw [← l2, ← k2]; exact hc.1
                have : some d' = some d := by
                  have t1 := lookup_of_mem (ioTable_nodup m.items) hd'
                  have t2 := lookup_of_mem (ioTable_nodup m.items) hd
                  rw [hn, t2] at t1
                  exact (Option.some.inj t1).symm
                cases this
                rw [ha] at hb
                cases hb
                rfl
              · cases he
            · obtain ⟨i, hi, he⟩ := List.mem_filterMap.1 hx
              cases i <;> cases he
              exact absurd ⟨hc.2, by rw [hc.1, k2]; exact ho⟩ (hout _ hi)
        have e3 : S.declV r = some (S.declA { a with kind := .reg }) := by
          obtain ⟨r1, r2, r3⟩ := h.regs d r (ioTable_mem hd).1 hko hri hrk hrn
          have : r = { d with kind := .reg } := by
            obtain ⟨_, _, _, _, _⟩ := r
            obtain ⟨_, _, _, _, _⟩ := d
            simp only at *
            subst_vars
            rfl
          rw [this]
          rw [Sem.declV] at hdV ⊢
          cases hw : S.wV d.width with
          | none => rw [hw] at hdV; cases hdV
          | some w =>
            cases hds : S.dimsV d.dims with
            | none => rw [hw, hds] at hdV; cases hdV
            | some ds =>
              rw [hw, hds] at hdV
              simp only [Option.some.injEq, Sem.declA, MDecl.mk.injEq] at hdV ⊢
              exact ⟨trivial, hdV.2⟩
        rw [e1, e2]
        simp only [e3, Option.map_some]
  rw [Sem.modA, Sem.modV, hports, hfil, p5, i2, p2, paramsA_append, paramsA_nil S (l := is), List.append_nil]
  · cases all? (S.portV m.items) ((ioTable m.items).filterMap (·.2)) <;>
      cases S.itemsV (m.items.filter (VItem.notOutReg (isOutput m.items))) <;> rfl
  · intro x hx
    cases x with
    | param loc n e w s =>
      cases loc with
      | true => rfl
      | false =>
        exact i3.1 _ (mem_unGen hx nofun)
    | _ => rfl

/-! ### Reading -/

/-- The name of a port. -/
def APort.name : APort → String
  | .io d _ => d.name
  | .plain n => n

/-- A module that is read without loss: its items are (`safeI`), the names of its ports are distinct, a second declaration of a port
    makes an output a register, and exactly the ports of the old style are declared among the items. -/
structure AMod.Safe {X : Type} (S : ESem X) (a : AMod) : Prop where
  params : ∀ p ∈ a.params, ∃ loc n x w s, p = .param loc n x w s
  safeParams : safeIs S .mod a.params
  items : safeIs S .mod a.items
  ports : (a.ports.map APort.name).Nodup
  port : ∀ d s, .io d s ∈ a.ports → d.kind.io = true ∧ safeDec S d ∧
    ∀ r, s = some r → d.kind = .output ∧ r.kind = .reg ∧ r.name = d.name ∧ safeDec S r
  plain : ∀ n, .plain n ∈ a.ports → ∃ d, .decl d ∈ a.items ∧ d.kind.io = true ∧ d.name = n
  old : ∀ d, .decl d ∈ a.items → d.kind.io = true → .plain d.name ∈ a.ports
  once : (((a.items.filterMap AItem.dec).filter fun d => d.kind.io).map ADec.name).Nodup

/-- The declaration of an item object, if it is one. -/
def VItem.dec : VItem → Option VDecl
  | .decl d => some d
  | _ => none

theorem all?_map {X Y Z : Type} (f : X → Option Y) (g : Z → X) (l : List Z) : all? f (l.map g) = all? (fun z => f (g z)) l := by
  induction l with
  | nil => rfl
  | cons x l ih => simp only [List.map_cons, all?, ih]

theorem readDecl_shape {a : ADec} {d : VDecl} (h : readDecl a = some d) : d.kind = a.kind ∧ d.name = a.name := by
  rw [readDecl] at h
  split at h
  · cases h; exact ⟨rfl, rfl⟩
  · cases h

/-- What reading keeps of an item that is no block: declarations, and nothing unnamed. -/
theorem readItem_shape {X : Type} (S : ESem X) {lib : Lib} {env : List (String × VE)} {a : AItem} {is : List VItem}
    (h : readItem lib .mod env a = some is) (hs : safeI S .mod a) :
    all? readDecl (a.dec.toList) = some (is.filterMap VItem.dec) ∧ (∀ n, VItem.any n ∉ is) ∧
    ∀ out, is.filter (VItem.notOutReg out) = if a.notOutReg out then is else [] := by
  have gens : ∀ (l : List AItem) (env : List (String × VE)) (is : List VItem), readGens lib env l = some is →
      is.filterMap VItem.dec = [] ∧ (∀ n, VItem.any n ∉ is) ∧ ∀ out, is.filter (VItem.notOutReg out) = is := by
    intro l
    induction l with
    | nil => intro env is h; cases h; exact ⟨rfl, nofun, fun _ => rfl⟩
    | cons x l ih =>
      intro env is h
      have key : ∀ i l', readGens lib env l = some l' → (∀ d, i ≠ VItem.decl d) → (∀ n, i ≠ VItem.any n) → is = i :: l' →
          is.filterMap VItem.dec = [] ∧ (∀ n, VItem.any n ∉ is) ∧ ∀ out, is.filter (VItem.notOutReg out) = is := by
        rintro i l' hl hd hn rfl
        obtain ⟨i1, i2, i3⟩ := ih env l' hl
        have e : i.dec = none ∧ ∀ out, i.notOutReg out = true := by
          cases i <;> first | exact absurd rfl (hd _) | exact ⟨rfl, fun _ => rfl⟩
        refine ⟨by rw [List.filterMap_cons, e.1, i1], fun n hm => ?_, fun out => ?_⟩
        · rcases List.mem_cons.1 hm with hm | hm
          · exact hn n hm.symm
          · exact i2 n hm
        · rw [List.filter_cons_of_pos (e.2 out), i3]
      cases x with
      | gfor pre c post s body =>
        rw [readGens] at h
        split at h
        · rename_i h5
          cases h
          exact key _ _ h5 (fun _ e => by cases e) (fun _ e => by cases e) rfl
        · cases h
      | gif c ts t fs f =>
        rw [readGens] at h
        split at h
        · rename_i h5
          cases h
          exact key _ _ h5 (fun _ e => by cases e) (fun _ e => by cases e) rfl
        · cases h
      | _ => cases h
  have leaf : ∀ i, (∀ d, a ≠ .decl d) → is = [i] → (∀ d, i ≠ VItem.decl d) → (∀ n, i ≠ VItem.any n) →
      all? readDecl (a.dec.toList) = some (is.filterMap VItem.dec) ∧ (∀ n, VItem.any n ∉ is) ∧
      ∀ out, is.filter (VItem.notOutReg out) = if a.notOutReg out then is else [] := by
    rintro i ha rfl hd hn
    have e : i.dec = none ∧ ∀ out, i.notOutReg out = true := by
      cases i <;> first | exact absurd rfl (hd _) | exact ⟨rfl, fun _ => rfl⟩
    have e' : a.dec = none ∧ ∀ out, a.notOutReg out = true := by
      cases a <;> first | exact absurd rfl (ha _) | exact ⟨rfl, fun _ => rfl⟩
    refine ⟨by rw [e'.1, List.filterMap_cons, e.1]; rfl, fun n hm => hn n (List.mem_singleton.1 hm).symm, fun out => ?_⟩
    rw [e'.2, List.filter_cons_of_pos (e.2 out)]
    rfl
  cases a with
  | param loc n x w s =>
    rw [readItem] at h
    split at h
    · cases h; exact leaf _ nofun rfl nofun nofun
    · cases h
  | decl d =>
    obtain ⟨d', hd, rfl⟩ := Option.map_eq_some_iff.1 h
    obtain ⟨k1, k2⟩ := readDecl_shape hd
    refine ⟨?_, ?_, fun out => ?_⟩
    · simp [AItem.dec, all?, hd, VItem.dec]
    · intro n hm; cases List.mem_singleton.1 hm
    · have : (VItem.decl d').notOutReg out = (AItem.decl d).notOutReg out := by
        rw [VItem.notOutReg, AItem.notOutReg, k1, k2]
      cases hc : (AItem.decl d).notOutReg out with
      | true => rw [List.filter_cons_of_pos (this.trans hc)]; rfl
      | false => rw [List.filter_cons_of_neg (by rw [this, hc]; simp)]; rfl
  | assign l r =>
    rw [readItem] at h
    split at h
    · cases h; exact leaf _ nofun rfl nofun nofun
    · cases h
  | always sens body =>
    rw [readItem] at h
    split at h
    · cases h; exact leaf _ nofun rfl nofun nofun
    · cases h
  | initial body =>
    rw [readItem] at h
    split at h
    · cases h
    · obtain ⟨d', hd, rfl⟩ := Option.map_eq_some_iff.1 h
      exact leaf _ nofun rfl nofun nofun
  | func n w f =>
    rw [readItem] at h
    split at h
    · cases h; exact leaf _ nofun rfl nofun nofun
    · cases h
  | task n f =>
    obtain ⟨d', hd, rfl⟩ := Option.map_eq_some_iff.1 h
    exact leaf _ nofun rfl nofun nofun
  | inst m n ps qs =>
    rw [readItem] at h
    split at h
    · split at h
      · cases h; exact leaf _ nofun rfl nofun nofun
      · cases h
    · cases h
  | gen l =>
    rw [readItem] at h
    obtain ⟨g1, g2, g3⟩ := gens l env is h
    exact ⟨by rw [g1]; rfl, g2, fun out => by rw [g3]; rfl⟩
  | gfor pre c post s body => cases hs.1
  | gif c ts t fs f => cases hs.1

theorem readItems_shape {X : Type} (S : ESem X) {lib : Lib} : ∀ (l : List AItem) (env : List (String × VE)) (is : List VItem),
    readItems lib .mod env l = some is → safeIs S .mod l →
    all? readDecl (l.filterMap AItem.dec) = some (is.filterMap VItem.dec) ∧ (∀ n, VItem.any n ∉ is) ∧
    ∀ out, readItems lib .mod env (l.filter (AItem.notOutReg out)) = some (is.filter (VItem.notOutReg out)) ∧
      safeIs S .mod (l.filter (AItem.notOutReg out))
  | [], env, is, h, hs => by cases h; exact ⟨rfl, nofun, fun _ => ⟨rfl, trivial⟩⟩
  | a :: l, env, is, h, hs => by
    rw [readItems] at h
    split at h
    · cases h
    · rename_i i h1
      split at h
      · cases h
      · rename_i is' h2
        cases h
        obtain ⟨e1, e2, e3⟩ := readItem_shape S h1 hs.1
        obtain ⟨f1, f2, f3⟩ := readItems_shape S l _ is' h2 hs.2
        refine ⟨?_, fun n hm => ?_, fun out => ?_⟩
        · rw [List.filterMap_append, show (a :: l).filterMap AItem.dec = a.dec.toList ++ l.filterMap AItem.dec by
            rw [List.filterMap_cons]; cases a.dec <;> rfl, all?_append, e1, f1]
          rfl
        · rcases List.mem_append.1 hm with hm | hm
          · exact e2 n hm
          · exact f2 n hm
        · rw [List.filter_append, e3]
          obtain ⟨g1, g2⟩ := f3 out
          cases hc : a.notOutReg out with
          | true =>
            rw [List.filter_cons_of_pos hc, readItems, h1]
            simp only [g1, if_true]
            exact ⟨trivial, hs.1, g2⟩
          | false =>
            rw [List.filter_cons_of_neg (by simp [hc]), if_neg (by simp)]
            have hb : paramBinds i = [] := by
              cases a with
              | decl d =>
                obtain ⟨d', hd, rfl⟩ := Option.map_eq_some_iff.1 h1
                rfl
              | _ => cases hc
            rw [hb] at g1
            exact ⟨g1, g2⟩

theorem find_read {l : List ADec} {l' : List VDecl} (h : all? readDecl l = some l') (n : String) :
    (l'.find? fun d => d.name == n && d.kind == .reg) = (l.find? fun d => d.name == n && d.kind == .reg).bind readDecl := by
  induction l generalizing l' with
  | nil => cases h; rfl
  | cons a l ih =>
    rw [all?] at h
    split at h
    · rename_i d ds h1 h2
      cases h
      obtain ⟨k1, k2⟩ := readDecl_shape h1
      rw [List.find?_cons, List.find?_cons, k1, k2]
      split
      · exact h1.symm
      · exact ih h2
    · cases h

theorem find_var (l : List VItem) (n : String) :
    ((l.filterMap (VItem.varOf n)).find? fun d => d.kind == .reg) =
      (l.filterMap VItem.dec).find? fun d => d.name == n && d.kind == .reg := by
  induction l with
  | nil => rfl
  | cons i l ih =>
    cases i with
    | decl d =>
      rw [List.filterMap_cons, List.filterMap_cons]
      simp only [VItem.varOf, VItem.dec]
      rw [List.find?_cons, ← ih]
      cases hm : d.name == n && d.kind == .reg with
      | true =>
        obtain ⟨hn, hk⟩ := Bool.and_eq_true_iff.1 hm
        have hk' : d.kind = .reg := by simpa using hk
        rw [if_pos (by rw [hk', hn]; rfl)]
        simp only [List.find?_cons, hk]
      | false =>
        by_cases hc : (!d.kind.io && d.name == n) = true
        · rw [if_pos hc]
          have hk : (d.kind == .reg) = false := by
            rw [(Bool.and_eq_true_iff.1 hc).2, Bool.true_and] at hm
            exact hm
          simp only [List.find?_cons, hk]
        · rw [if_neg hc]
    | _ => exact ih

/-- Entering names that are there. -/
theorem dictPut_mem {X : Type} {k : String} (x : X) : ∀ {t : List (String × X)}, (t.map (·.1)).Nodup → k ∈ t.map (·.1) →
    dictPut k x t = t.map fun e => if e.1 = k then (e.1, x) else e
  | [], _, h => by cases h
  | (k', y) :: t, hn, h => by
    rw [List.map_cons, List.nodup_cons] at hn
    rw [dictPut, List.map_cons]
    by_cases hk : k = k'
    · subst hk
      rw [if_pos rfl, if_pos rfl]
      congr 1
      refine ((List.map_congr_left fun e he => ?_).trans (List.map_id _)).symm
      rw [if_neg]
      · rfl
      · rintro rfl
        exact hn.1 (List.mem_map.2 ⟨e, he, rfl⟩)
    · rw [if_neg hk, if_neg (Ne.symm hk), dictPut_mem x hn.2 (by
        rcases List.mem_cons.1 h with h | h
        · exact absurd h hk
        · exact h)]

theorem fold_mem {X : Type} : ∀ (es t : List (String × X)), (t.map (·.1)).Nodup → (es.map (·.1)).Nodup →
    (∀ e ∈ es, e.1 ∈ t.map (·.1)) →
    es.foldl (fun t e => dictPut e.1 e.2 t) t = t.map fun e => (e.1, (es.lookup e.1).getD e.2)
  | [], t, _, _, _ => by simp
  | (k, x) :: es, t, hn, hes, h => by
    rw [List.map_cons, List.nodup_cons] at hes
    have hk := h _ List.mem_cons_self
    rw [List.foldl_cons, dictPut_mem x hn hk]
    have hkeys : (t.map fun e => if e.1 = k then (e.1, x) else e).map (·.1) = t.map (·.1) := by
      rw [List.map_map]
      apply List.map_congr_left
      intro e he
      simp only [Function.comp]
      split <;> rfl
    rw [fold_mem es _ (by rw [hkeys]; exact hn) hes.2 (by
      intro e he
      rw [hkeys]
      exact h e (List.mem_cons_of_mem _ he)), List.map_map]
    apply List.map_congr_left
    intro e he
    simp only [Function.comp]
    by_cases hek : e.1 = k
    · rw [if_pos hek]
      have : es.lookup e.1 = none := by
        cases hl : es.lookup e.1 with
        | none => rfl
        | some y =>
          exfalso
          apply hes.1
          rw [← hek]
          clear h hes hkeys
          induction es with
          | nil => cases hl
          | cons z es ih =>
            obtain ⟨z1, z2⟩ := z
            rw [List.lookup] at hl
            split at hl
            · rename_i hb
              simp only [beq_iff_eq] at hb
              simp [hb]
            · rw [List.map_cons]
              exact List.mem_cons_of_mem _ (ih hl)
      simp only [this, Option.getD_none]
      rw [List.lookup, show (e.1 == k) = true by simpa using hek]
      rfl
    · rw [if_neg hek, List.lookup, show (e.1 == k) = false by simpa using hek]

theorem fold_new {X : Type} : ∀ (es t : List (String × X)), ((t ++ es).map (·.1)).Nodup →
    es.foldl (fun t e => dictPut e.1 e.2 t) t = t ++ es
  | [], t, _ => by simp
  | (k, x) :: es, t, h => by
    have hk : k ∉ t.map (·.1) := by
      rw [List.map_append, List.nodup_append] at h
      intro hk
      exact h.2.2 k hk k (by simp) rfl
    have hput : dictPut k x t = t ++ [(k, x)] := by
      clear h
      induction t with
      | nil => rfl
      | cons y t ih =>
        obtain ⟨k', y⟩ := y
        simp only [List.map_cons, List.mem_cons, not_or] at hk
        rw [dictPut, if_neg hk.1, ih hk.2]
        rfl
    rw [List.foldl_cons, hput, fold_new es _ (by simpa using h)]
    simp

theorem lookup_none {X : Type} {l : List (String × X)} {k : String} (h : k ∉ l.map (·.1)) : l.lookup k = none := by
  induction l with
  | nil => rfl
  | cons y l ih =>
    obtain ⟨k', y⟩ := y
    simp only [List.map_cons, List.mem_cons, not_or] at h
    rw [List.lookup, show (k == k') = false by simpa using h.1]
    exact ih h.2

theorem mem_of_lookup {X : Type} {l : List (String × X)} {k : String} {x : X} (h : l.lookup k = some x) : (k, x) ∈ l := by
  induction l with
  | nil => cases h
  | cons y l ih =>
    obtain ⟨k', y⟩ := y
    rw [List.lookup] at h
    split at h
    · rename_i hb
      simp only [beq_iff_eq] at hb
      cases h
      rw [hb]
      exact List.mem_cons_self
    · exact List.mem_cons_of_mem _ (ih h)

/-- The declarations of a port. -/
def APort.decs : APort → List ADec
  | .io d s => d :: s.toList
  | .plain _ => []

/-- What a port is entered as when it is read. -/
def APort.entry (p : APort) : String × Option VDecl :=
  (p.name, match p with | .io d _ => readDecl d | .plain _ => none)

theorem readPorts_shape {X D : Type} (S : Sem X D) (out : String → Bool) : ∀ (ps : List APort) (io : List VItem),
    readPorts ps = some io →
    (∀ d s, .io d s ∈ ps → d.kind.io = true ∧ ∀ r, s = some r → d.kind = .output ∧ r.kind = .reg ∧ r.name = d.name) →
    io.filterMap VItem.ioEntry = ps.map APort.entry ∧
    all? readDecl (ps.flatMap APort.decs) = some (io.filterMap VItem.dec) ∧
    S.paramsV io = some [] ∧
    ((∀ d s, .io d s ∈ ps → d.kind = .output → out d.name = true) → S.itemsV (io.filter (VItem.notOutReg out)) = some [])
  | [], io, h, _ => by cases h; exact ⟨rfl, rfl, rfl, fun _ => rfl⟩
  | p :: ps, io, h, hs => by
    rw [readPorts] at h
    split at h
    · rename_i i io' h1 h2
      cases h
      obtain ⟨e1, e2, e3, e4⟩ := readPorts_shape S out ps io' h2 fun d s hm => hs d s (List.mem_cons_of_mem _ hm)
      have key : i.filterMap VItem.ioEntry = [p.entry] ∧ all? readDecl p.decs = some (i.filterMap VItem.dec) ∧
          S.paramsV i = some [] ∧
          ((∀ d s, .io d s = p → d.kind = .output → out d.name = true) →
            S.itemsV (i.filter (VItem.notOutReg out)) = some []) := by
        cases p with
        | plain n => cases h1; exact ⟨rfl, rfl, rfl, fun _ => rfl⟩
        | io d s =>
          obtain ⟨hio, hr⟩ := hs d s List.mem_cons_self
          cases s with
          | none =>
            obtain ⟨d', hd, rfl⟩ := Option.map_eq_some_iff.1 h1
            obtain ⟨k1, k2⟩ := readDecl_shape hd
            refine ⟨?_, ?_, rfl, fun ho => ?_⟩
            · simp [VItem.ioEntry, k1, hio, APort.entry, APort.name, hd, k2]
            · simp [APort.decs, all?, hd, VItem.dec]
            · have hne : (VItem.decl d').notOutReg out = true := by
                rw [VItem.notOutReg, k1]
                cases hk : d.kind <;> simp [hk, DKind.io] at hio ⊢
              rw [List.filter_cons_of_pos hne, List.filter_nil, oneV, Sem.itemV, k1, hio]
              rfl
          | some r =>
            obtain ⟨r1, r2, r3⟩ := hr r rfl
            rw [readPort] at h1
            split at h1
            · rename_i d' r' hd hr'
              cases h1
              obtain ⟨k1, k2⟩ := readDecl_shape hd
              obtain ⟨l1, l2⟩ := readDecl_shape hr'
              refine ⟨?_, ?_, rfl, fun ho => ?_⟩
              · have hr0 : r'.kind.io = false := by rw [l1, r2]; rfl
                simp [VItem.ioEntry, List.filterMap_cons, k1, hio, hr0, APort.entry, APort.name, hd, k2]
              · simp [APort.decs, all?, hd, hr', VItem.dec]
              · have hne : (VItem.decl d').notOutReg out = true := by
                  rw [VItem.notOutReg, k1, r1]
                  rfl
                have hne' : (VItem.decl r').notOutReg out = false := by
                  rw [VItem.notOutReg, l1, l2, r2, r3, ho d (some r) rfl r1]
                  rfl
                rw [List.filter_cons_of_pos hne, List.filter_cons_of_neg (by rw [hne']; simp), List.filter_nil, oneV,
                  Sem.itemV, k1, hio]
                rfl
            · cases h1
      obtain ⟨f1, f2, f3, f4⟩ := key
      refine ⟨?_, ?_, ?_, fun ho => ?_⟩
      · rw [List.filterMap_append, f1, e1]
        rfl
      · rw [List.flatMap_cons, all?_append, f2, e2, List.filterMap_append]
        rfl
      · rw [paramsV_append, f3, e3]
        rfl
      · rw [List.filter_append, itemsV_append, f4 fun d s hp => ho d s (hp ▸ List.mem_cons_self),
          e4 fun d s hm => ho d s (List.mem_cons_of_mem _ hm)]
        rfl
    · cases h

theorem ioEntries_of_decs {is : List VItem} (h : ∀ n, VItem.any n ∉ is) :
    is.filterMap VItem.ioEntry = ((is.filterMap VItem.dec).filter fun d => d.kind.io).map fun d => (d.name, some d) := by
  induction is with
  | nil => rfl
  | cons i is ih =>
    have hi := ih fun n hn => h n (List.mem_cons_of_mem _ hn)
    cases i with
    | any n => exact absurd List.mem_cons_self (h n)
    | decl d =>
      rw [List.filterMap_cons, List.filterMap_cons]
      simp only [VItem.ioEntry, VItem.dec]
      by_cases hk : d.kind.io = true
      · rw [if_pos hk, List.filter_cons_of_pos (p := fun d : VDecl => d.kind.io) hk, hi]
        rfl
      · rw [if_neg hk, List.filter_cons_of_neg (p := fun d : VDecl => d.kind.io) hk, hi]
    | _ => exact hi

theorem decs_filter {l : List ADec} {l' : List VDecl} (h : all? readDecl l = some l') :
    all? readDecl (l.filter fun d => d.kind.io) = some (l'.filter fun d => d.kind.io) := by
  induction l generalizing l' with
  | nil => cases h; rfl
  | cons a l ih =>
    rw [all?] at h
    split at h
    · rename_i d ds h1 h2
      cases h
      obtain ⟨k1, k2⟩ := readDecl_shape h1
      by_cases hk : a.kind.io = true
      · rw [List.filter_cons_of_pos (p := fun d : ADec => d.kind.io) hk, List.filter_cons_of_pos (p := fun d : VDecl => d.kind.io) (by rw [k1]; exact hk), all?, h1, ih h2]
      · rw [List.filter_cons_of_neg (p := fun d : ADec => d.kind.io) hk, List.filter_cons_of_neg (p := fun d : VDecl => d.kind.io) (by rw [k1]; exact hk), ih h2]
    · cases h

theorem decs_names {l : List ADec} {l' : List VDecl} (h : all? readDecl l = some l') :
    l'.map VDecl.name = l.map ADec.name := by
  induction l generalizing l' with
  | nil => cases h; rfl
  | cons a l ih =>
    rw [all?] at h
    split at h
    · rename_i d ds h1 h2
      cases h
      rw [List.map_cons, List.map_cons, (readDecl_shape h1).2, ih h2]
    · cases h

theorem find_io {l : List ADec} {l' : List VDecl} (h : all? readDecl l = some l') (n : String) :
    ((l'.filter fun d => d.kind.io).map fun d => (d.name, some d)).lookup n =
      ((l.find? fun d => d.kind.io && d.name == n).bind readDecl).map some := by
  induction l generalizing l' with
  | nil => cases h; rfl
  | cons a l ih =>
    rw [all?] at h
    split at h
    · rename_i d ds h1 h2
      cases h
      obtain ⟨k1, k2⟩ := readDecl_shape h1
      rw [List.find?_cons]
      by_cases hk : a.kind.io = true
      · rw [List.filter_cons_of_pos (p := fun d : VDecl => d.kind.io) (by rw [k1]; exact hk), List.map_cons, List.lookup, hk, Bool.true_and, k2]
        by_cases hn : a.name = n
        · rw [show (n == a.name) = true by simpa using hn.symm, show (a.name == n) = true by simpa using hn]
          simp [h1]
        · rw [show (n == a.name) = false by simpa using Ne.symm hn, show (a.name == n) = false by simpa using hn]
          exact ih h2
      · rw [List.filter_cons_of_neg (p := fun d : VDecl => d.kind.io) (by rw [k1]; exact hk), show a.kind.io = false by simpa using hk, Bool.false_and]
        exact ih h2
    · cases h

theorem all?_mem {X Y : Type} {f : X → Option Y} : ∀ {l : List X} {l' : List Y}, all? f l = some l' → ∀ x ∈ l, ∃ y, f x = some y
  | [], _, _, _, hm => by cases hm
  | x :: l, l', h, z, hm => by
    rw [all?] at h
    split at h
    · rename_i g1 g2
      rcases List.mem_cons.1 hm with rfl | hm
      · exact ⟨_, g1⟩
      · exact all?_mem g2 _ hm
    · cases h

theorem safeIs_mem {X : Type} {S : ESem X} {c : Ctx} : ∀ {l : List AItem}, safeIs S c l → ∀ a ∈ l, safeI S c a
  | [], _, _, hm => by cases hm
  | x :: l, h, z, hm => by
    rw [safeIs] at h
    rcases List.mem_cons.1 hm with rfl | hm
    · exact h.1
    · exact safeIs_mem h.2 _ hm

theorem find_seconds {ps : List APort} (h : ∀ d s, .io d s ∈ ps → d.kind.io = true) (n : String) :
    ((ps.flatMap APort.decs).find? fun d => d.name == n && d.kind == .reg) =
      (ps.filterMap APort.second?).find? fun d => d.name == n && d.kind == .reg := by
  induction ps with
  | nil => rfl
  | cons p ps ih =>
    have ih' := ih fun d s hm => h d s (List.mem_cons_of_mem _ hm)
    cases p with
    | plain m => exact ih'
    | io d s =>
      have hio := h d s List.mem_cons_self
      have hk : (d.name == n && d.kind == .reg) = false := by
        cases hk : d.kind <;> simp [hk, DKind.io] at hio ⊢
      rw [List.flatMap_cons, APort.decs, List.cons_append, List.find?_cons, hk, List.filterMap_cons]
      cases s with
      | none => exact ih'
      | some r =>
        simp only [APort.second?, Option.toList_some, List.singleton_append, List.find?_cons, ih']

/-- C77: what a module is read as means what the module means, whether its ports are declared in its head or, in the old style, among
    its items: reading gives the same parameters, the same ports in the order of the head with the same registers, and the same items. -/
theorem c77_read {X D : Type} (S : Sem X D) (lib : Lib) (a : AMod) (m : VMod) (h : readMod lib a = some m)
    (hs : a.Safe S.toESem) : m.name = a.name ∧ S.modV m = S.modA a := by
  rw [readMod] at h
  split at h
  · rename_i ps io h1 h2
    obtain ⟨is, h3, rfl⟩ := Option.map_eq_some_iff.1 h
    refine ⟨rfl, ?_⟩
    obtain ⟨p1, p2, p3⟩ := readItems_shape S.toESem a.params _ ps h1 hs.safeParams
    obtain ⟨i1, i2, i3⟩ := readItems_shape S.toESem a.items _ is h3 hs.items
    have hpd : a.params.filterMap AItem.dec = [] := by
      rw [List.filterMap_eq_nil_iff]
      intro x hx
      obtain ⟨_, _, _, _, _, rfl⟩ := hs.params x hx
      rfl
    rw [hpd] at p1
    have hpsd : ps.filterMap VItem.dec = [] := (Option.some.inj p1).symm
    obtain ⟨q1, q2, q3, q4⟩ := readPorts_shape S (isOutput (ps ++ io ++ is)) a.ports io h2 fun d s hm =>
      ⟨(hs.port d s hm).1, fun r hr => ⟨((hs.port d s hm).2.2 r hr).1, ((hs.port d s hm).2.2 r hr).2.1,
        ((hs.port d s hm).2.2 r hr).2.2.1⟩⟩
    -- the table of ports
    have hkeys : (a.ports.map APort.entry).map (·.1) = a.ports.map APort.name := by
      rw [List.map_map]; rfl
    have htab : ioTable (ps ++ io ++ is) = a.ports.map fun p => (p.name, (Sem.ioOf a.items p).bind readDecl) := by
      rw [ioTable, List.filterMap_append, List.filterMap_append, ioEntries_of_decs p2, hpsd, q1, ioEntries_of_decs i2]
      simp only [List.filter_nil, List.map_nil, List.nil_append, List.foldl_append]
      rw [fold_new _ [] (by rw [List.nil_append, hkeys]; exact hs.ports), List.nil_append,
        fold_mem _ _ (by rw [hkeys]; exact hs.ports)]
      · rw [List.map_map]
        apply List.map_congr_left
        intro p hp
        simp only [Function.comp, APort.entry, find_io i1]
        cases p with
        | plain n =>
          obtain ⟨d, hd, hdio, rfl⟩ := hs.plain n hp
          have hmem : d ∈ (a.items.filterMap AItem.dec) := List.mem_filterMap.2 ⟨_, hd, rfl⟩
          rw [Sem.ioOf, Sem.findIo, APort.name]
          cases hf : (a.items.filterMap AItem.dec).find? fun e => e.kind.io && e.name == d.name with
          | none =>
            exact absurd (List.find?_eq_none.1 hf d hmem) (by simp [hdio])
          | some e =>
            have he : e ∈ a.items.filterMap AItem.dec := List.mem_of_find?_eq_some hf
            obtain ⟨e', he'⟩ := all?_mem i1 e he
            simp [he']
        | io d s =>
          have hnone : (a.items.filterMap AItem.dec).find? (fun e => e.kind.io && e.name == d.name) = none := by
            rw [List.find?_eq_none]
            intro e he hc
            simp only [Bool.and_eq_true, beq_iff_eq] at hc
            obtain ⟨i, hi, hie⟩ := List.mem_filterMap.1 he
            cases i <;> cases hie
            have hpl := hs.old e hi hc.1
            rw [hc.2] at hpl
            have := List.inj_on_of_nodup_map hs.ports hp hpl rfl
            cases this
          rw [APort.name, hnone]
          rfl
      · rw [List.map_map]
        show (((is.filterMap VItem.dec).filter fun d => d.kind.io).map VDecl.name).Nodup
        rw [decs_names (decs_filter i1)]
        exact hs.once
      · intro e he
        obtain ⟨d, hd, rfl⟩ := List.mem_map.1 he
        rw [hkeys]
        have : d.name ∈ (((a.items.filterMap AItem.dec).filter fun d => d.kind.io).map ADec.name) := by
          rw [← decs_names (decs_filter i1)]
          exact List.mem_map.2 ⟨d, hd, rfl⟩
        obtain ⟨e, he, hen⟩ := List.mem_map.1 this
        obtain ⟨he1, he2⟩ := List.mem_filter.1 he
        obtain ⟨i, hi, hie⟩ := List.mem_filterMap.1 he1
        cases i <;> cases hie
        exact List.mem_map.2 ⟨_, hs.old e hi he2, hen⟩
    have hdec : ∀ d ∈ a.items.filterMap AItem.dec, safeDec S.toESem d := by
      intro d hd
      obtain ⟨i, hi, hie⟩ := List.mem_filterMap.1 hd
      cases i <;> cases hie
      exact safeIs_mem hs.items _ hi
    have hio : ∀ p ∈ a.ports, ∃ d d', Sem.ioOf a.items p = some d ∧ readDecl d = some d' ∧ d.name = p.name ∧
        safeDec S.toESem d := by
      intro p hp
      cases p with
      | io d s =>
        have hm : d ∈ a.ports.flatMap APort.decs := List.mem_flatMap.2 ⟨_, hp, List.mem_cons_self⟩
        obtain ⟨d', hd'⟩ := all?_mem q2 d hm
        exact ⟨d, d', rfl, hd', rfl, (hs.port d s hp).2.1⟩
      | plain n =>
        obtain ⟨d, hd, hdio, rfl⟩ := hs.plain n hp
        have hmem : d ∈ (a.items.filterMap AItem.dec) := List.mem_filterMap.2 ⟨_, hd, rfl⟩
        cases hf : (a.items.filterMap AItem.dec).find? fun e => e.kind.io && e.name == d.name with
        | none => exact absurd (List.find?_eq_none.1 hf d hmem) (by simp [hdio])
        | some e =>
          have he : e ∈ a.items.filterMap AItem.dec := List.mem_of_find?_eq_some hf
          obtain ⟨e', he'⟩ := all?_mem i1 e he
          have hn := List.find?_some hf
          simp only [Bool.and_eq_true, beq_iff_eq] at hn
          exact ⟨e, e', hf, he', hn.2, hdec e he⟩
    have hout : ∀ n, isOutput (ps ++ io ++ is) n = Sem.outA a n := by
      intro n
      rw [isOutput, htab, Bool.eq_iff_iff]
      constructor
      · intro h
        split at h
        · rename_i d' hl
          obtain ⟨p, hp, hpe⟩ := List.mem_map.1 (mem_of_lookup hl)
          obtain ⟨d, d'', g1, g2, g3, _⟩ := hio p hp
          have e1 := (Prod.ext_iff.1 hpe).1
          have e2 := (Prod.ext_iff.1 hpe).2
          simp only [g1, Option.bind_some, g2, Option.some.injEq] at e1 e2
          rw [← e2, (readDecl_shape g2).1] at h
          rw [Sem.outA, List.any_eq_true]
          exact ⟨d, List.mem_filterMap.2 ⟨p, hp, g1⟩, by rw [h, g3, e1]; simp⟩
        · cases h
      · intro h
        rw [Sem.outA, List.any_eq_true] at h
        obtain ⟨d, hd, hk⟩ := h
        obtain ⟨p, hp, hpd⟩ := List.mem_filterMap.1 hd
        obtain ⟨d0, d', g1, g2, g3, _⟩ := hio p hp
        rw [hpd] at g1
        cases g1
        simp only [Bool.and_eq_true, beq_iff_eq] at hk
        have : (a.ports.map fun p => (p.name, (Sem.ioOf a.items p).bind readDecl)).lookup n = some (some d') := by
          apply lookup_of_mem
          · rw [List.map_map]; exact hs.ports
          · refine List.mem_map.2 ⟨p, hp, ?_⟩
            rw [hpd, ← g3, hk.2]
            simp [g2]
        rw [this]
        simp [(readDecl_shape g2).1, hk.1]
    have hreg : ∀ n, ((ps ++ io ++ is).filterMap (VItem.varOf n)).find? (fun r => r.kind == .reg) =
        (Sem.regOf a n).bind readDecl := by
      intro n
      rw [find_var, List.filterMap_append, List.filterMap_append, hpsd, List.nil_append]
      have hall : all? readDecl (a.ports.flatMap APort.decs ++ a.items.filterMap AItem.dec) =
          some (io.filterMap VItem.dec ++ is.filterMap VItem.dec) := by
        rw [all?_append, q2, i1]
        rfl
      rw [find_read hall, List.find?_append, find_seconds (fun d s hm => (hs.port d s hm).1), Sem.regOf, List.find?_append,
        List.filterMap_append, hpd, List.nil_append]
    have hregs : ∀ n r, Sem.regOf a n = some r → safeDec S.toESem r := by
      intro n r hr
      have hm := List.mem_of_find?_eq_some hr
      rcases List.mem_append.1 hm with hm | hm
      · obtain ⟨p, hp, hpr⟩ := List.mem_filterMap.1 hm
        cases p with
        | plain _ => cases hpr
        | io d s => exact ((hs.port d s hp).2.2 r hpr).2.2.2
      · rw [List.filterMap_append, hpd, List.nil_append] at hm
        exact hdec r hm
    have hregr : ∀ n r, Sem.regOf a n = some r → ∃ r', readDecl r = some r' := by
      intro n r hr
      have hm := List.mem_of_find?_eq_some hr
      rcases List.mem_append.1 hm with hm | hm
      · obtain ⟨p, hp, hpr⟩ := List.mem_filterMap.1 hm
        cases p with
        | plain _ => cases hpr
        | io d s =>
          refine all?_mem q2 r (List.mem_flatMap.2 ⟨_, hp, ?_⟩)
          cases hpr
          exact List.mem_cons_of_mem _ List.mem_cons_self
      · rw [List.filterMap_append, hpd, List.nil_append] at hm
        exact all?_mem i1 r hm
    have hports : all? (S.portV (ps ++ io ++ is)) ((ioTable (ps ++ io ++ is)).filterMap (·.2)) = all? (S.portA a) a.ports := by
      rw [htab, List.filterMap_map]
      have : ∀ l : List APort, (∀ p ∈ l, p ∈ a.ports) →
          all? (S.portV (ps ++ io ++ is))
            (l.filterMap ((fun x : String × Option VDecl => x.2) ∘ fun p => (p.name, (Sem.ioOf a.items p).bind readDecl))) =
          all? (S.portA a) l := by
        intro l
        induction l with
        | nil => intro _; rfl
        | cons p l ih =>
          intro hl
          obtain ⟨d, d', g1, g2, g3, g4⟩ := hio p (hl p List.mem_cons_self)
          have ih' := ih fun q hq => hl q (List.mem_cons_of_mem _ hq)
          have hp1 : S.portV (ps ++ io ++ is) d' = S.portA a p := by
            obtain ⟨k0, k1, k2⟩ := readDecl_den S g2 g4
            rw [Sem.portV, Sem.portA, g1, k0, k1, k2, hreg]
            by_cases hk : (d.kind == .output) = true
            · simp only [hk, if_true, Option.map_some]
              cases hr : Sem.regOf a d.name with
              | none => rfl
              | some r =>
                obtain ⟨r', hr'⟩ := hregr _ _ hr
                simp [hr', (readDecl_den S hr' (hregs _ _ hr)).1]
            · simp only [hk, Bool.false_eq_true, if_false, Option.map_some]
          have hfm : (p :: l).filterMap ((fun x : String × Option VDecl => x.2) ∘
              fun p => (p.name, (Sem.ioOf a.items p).bind readDecl)) =
              d' :: l.filterMap ((fun x : String × Option VDecl => x.2) ∘ fun p => (p.name, (Sem.ioOf a.items p).bind readDecl)) := by
            rw [List.filterMap_cons]
            simp only [Function.comp, g1, Option.bind_some, g2]
          rw [hfm, all?, all?, hp1, ih']
      exact this a.ports fun _ h => h
    have hfun : isOutput (ps ++ io ++ is) = Sem.outA a := funext hout
    have hitems : S.itemsV ((ps ++ io ++ is).filter (VItem.notOutReg (isOutput (ps ++ io ++ is)))) =
        S.itemsA ((a.params ++ a.items).filter (AItem.notOutReg (Sem.outA a))) := by
      rw [List.filter_append, List.filter_append, List.filter_append, itemsV_append, itemsV_append, itemsA_append, q4, hfun,
        (readItems_den S lib _ _ _ _ (p3 (Sem.outA a)).1 (p3 (Sem.outA a)).2).1,
        (readItems_den S lib _ _ _ _ (i3 (Sem.outA a)).1 (i3 (Sem.outA a)).2).1]
      · cases S.itemsA (a.params.filter (AItem.notOutReg (Sem.outA a))) <;>
          cases S.itemsA (a.items.filter (AItem.notOutReg (Sem.outA a))) <;> simp
      · intro d s hm hk
        rw [hout, Sem.outA, List.any_eq_true]
        exact ⟨d, List.mem_filterMap.2 ⟨_, hm, rfl⟩, by simp [hk]⟩
    have hparams : S.paramsV (ps ++ io ++ is) = some (S.paramsA (a.params ++ a.items)) := by
      rw [paramsV_append, paramsV_append, q3, (readItems_den S lib _ _ _ _ h1 hs.safeParams).2,
        (readItems_den S lib _ _ _ _ h3 hs.items).2, paramsA_append]
      simp
    rw [Sem.modV, Sem.modA]
    simp only [hparams, hports, hitems]
    cases all? (S.portA a) a.ports <;>
      cases S.itemsA ((a.params ++ a.items).filter (AItem.notOutReg (Sem.outA a))) <;> rfl
  · cases h

/-- C77: a module that is read and written again means the same, if what was read can be written. -/
theorem c77_rewrite {X D : Type} (S : Sem X D) (v : Vis) (hv : v.fv = false) (lib : Lib) (a : AMod) (m : VMod)
    (h : readMod lib a = some m) (hs : a.Safe S.toESem) (hm : m.Ok) :
    ∃ b, emitMod v m = some b ∧ b.name = a.name ∧ S.modA b = S.modA a := by
  obtain ⟨b, h1, h2, h3⟩ := c77_write S v hv m hm
  obtain ⟨h4, h5⟩ := c77_read S lib a m h hs
  exact ⟨b, h1, h2.trans h4, h3.trans h5⟩

/-! ### What goes wrong -/

/-- C77: the delays of a continuous assignment are not written. -/
theorem c77_not_delay (v : Vis) (n : String) (l r : VE) (ld rd : Option VE) :
    emitMod v ⟨n, [.assign l r ld rd]⟩ = emitMod v ⟨n, [.assign l r none none]⟩ := by
  have hg : isReg [.assign l r ld rd] = isReg [.assign l r none none] := rfl
  have ht : ioTable [.assign l r ld rd] = ioTable [.assign l r none none] := rfl
  have ho : isOutput [.assign l r ld rd] = isOutput [.assign l r none none] := rfl
  rw [emitMod, emitMod]
  simp only [hg, ht, ho]
  rfl

/-- C77: the register of an output is written with the width, dimensions and sign of the output, whatever its own are. -/
theorem c77_not_sign (v : Vis) (n x : String) (w : VW) (s : Bool) (r r' : VDecl) (hr : r.kind = .reg) (hn : r.name = x)
    (hr' : r'.kind = .reg) (hn' : r'.name = x) :
    emitMod v ⟨n, [.decl ⟨.output, x, w, .none, s⟩, .decl r]⟩ = emitMod v ⟨n, [.decl ⟨.output, x, w, .none, s⟩, .decl r']⟩ := by
  obtain ⟨k, y, w1, d1, s1⟩ := r
  obtain ⟨k', y', w2, d2, s2⟩ := r'
  simp only at hr hn hr' hn'
  subst hr hn hr' hn'
  have hg : isReg [.decl ⟨.output, y', w, .none, s⟩, .decl ⟨.reg, y', w1, d1, s1⟩] =
      isReg [.decl ⟨.output, y', w, .none, s⟩, .decl ⟨.reg, y', w2, d2, s2⟩] := by
    funext k
    by_cases hk : y' = k <;> simp [isReg, VItem.varOf, DKind.io, hk]
  rw [emitMod, emitMod, hg]
  simp [emitParamItems, emitItems, emitItem, VItem.head, DKind.io, ioTable, VItem.ioEntry, isOutput, dictPut, List.lookup]

/-- C77: a register in a generate block that is named like an output of the module is not written, so the block uses the output. -/
theorem c77_not_shadow (v : Vis) (n x : String) (pre : VS) (c : VE) (post : VS) (scope : Option String) (w : VW) (r : VDecl)
    (body : List VItem) (hr : r.kind = .reg) (hn : r.name = x) :
    emitMod v ⟨n, [.decl ⟨.output, x, w, .none, false⟩, .gfor pre c post scope (.decl r :: body)]⟩ =
      emitMod v ⟨n, [.decl ⟨.output, x, w, .none, false⟩, .gfor pre c post scope body]⟩ := by
  obtain ⟨k, y, w1, d1, s1⟩ := r
  simp only at hr hn
  subst hr hn
  have ht : ∀ b, ioTable [.decl ⟨.output, y, w, .none, false⟩, .gfor pre c post scope b] =
      [(y, some ⟨.output, y, w, .none, false⟩)] := fun _ => rfl
  have ho : ∀ b, isOutput [.decl ⟨.output, y, w, .none, false⟩, .gfor pre c post scope b] =
      isOutput [.decl ⟨.output, y, w, .none, false⟩, .gfor pre c post scope body] := fun _ => rfl
  have hg : ∀ b, isReg [.decl ⟨.output, y, w, .none, false⟩, .gfor pre c post scope b] = fun _ => false := by
    intro b
    funext k
    simp [isReg, VItem.varOf, DKind.io]
  rw [emitMod, emitMod]
  simp only [ht, hg]
  have hy : isOutput [.decl ⟨.output, y, w, .none, false⟩, .gfor pre c post scope body] y = true := by
    simp [isOutput, ht, List.lookup]
  rw [ho (.decl ⟨.reg, y, w1, d1, s1⟩ :: body)]
  generalize isOutput [.decl ⟨.output, y, w, .none, false⟩, .gfor pre c post scope body] = out at hy
  have e1 : ∀ b, emitParamItems v [.decl ⟨.output, y, w, .none, false⟩, .gfor pre c post scope b] = some [] := fun _ => rfl
  have e2 : emitItems v out (.decl ⟨.reg, y, w1, d1, s1⟩ :: body) = emitItems v out body := by
    rw [emitItems]
    simp only [VItem.head, DKind.io, Bool.false_eq_true, if_false, emitItem, hy, beq_self_eq_true, Bool.and_self, if_true]
    cases emitItems v out body <;> rfl
  have e3 : emitParamItems v (.decl ⟨.reg, y, w1, d1, s1⟩ :: body) = emitParamItems v body := rfl
  have e4 : emitItem v out (.gfor pre c post scope (.decl ⟨.reg, y, w1, d1, s1⟩ :: body)) =
      emitItem v out (.gfor pre c post scope body) := by rw [emitItem, emitItem, e2, e3]
  simp only [e1, emitItems, VItem.head, DKind.io, if_true, Bool.false_eq_true, if_false, e4]

/-- C77: a local register of a function that is named like an output of the module makes writing fail. -/
theorem c77_not_local (v : Vis) (m : VMod) (n : String) (w : VW) (f : Fn) (d : FDecl) (hm : .func n w f ∈ m.items)
    (hd : d ∈ f.var) (hk : d.kind = .reg) (ho : isOutput m.items d.name = true) : emitMod v m = none := by
  have key : ∀ l : List VItem, .func n w f ∈ l → emitItems v (isOutput m.items) l = none := by
    intro l
    induction l with
    | nil => intro h; cases h
    | cons i l ih =>
      intro h
      rw [emitItems]
      rcases List.mem_cons.1 h with rfl | h
      · have : emitFnM v (isOutput m.items) f = none := by
          rw [emitFnM, if_pos]
          rw [List.any_eq_true]
          exact ⟨d, hd, by simp [hk, ho]⟩
        simp only [VItem.head, Bool.false_eq_true, if_false, emitItem, this]
        cases emitW v w <;> rfl
      · rw [ih h]
        split
        · rfl
        · cases emitItem v (isOutput m.items) i <;> rfl
  rw [emitMod, key m.items hm]
  cases emitParamItems v m.items <;> cases emitPorts v (isReg m.items) (ioTable m.items) <;> rfl

/-- C77: an unconnected port of an instance, which can be read, cannot be written. -/
theorem c77_not_unconnected (v : Vis) (m : VMod) (k n : String) (ps : List (Option String × VE))
    (qs : List (Option String × Option VE)) (q : Option String) (hm : .inst k n ps qs ∈ m.items) (hq : (q, none) ∈ qs) :
    emitMod v m = none := by
  have hc : emitConns v qs = none := by
    clear hm
    induction qs with
    | nil => cases hq
    | cons x qs ih =>
      obtain ⟨y, _ | e⟩ := x
      · rfl
      · rcases List.mem_cons.1 hq with h | h
        · cases h
        · rw [emitConns, ih h]
          cases emitE v e <;> rfl
  have key : ∀ l : List VItem, .inst k n ps qs ∈ l → emitItems v (isOutput m.items) l = none := by
    intro l
    induction l with
    | nil => intro h; cases h
    | cons i l ih =>
      intro h
      rw [emitItems]
      rcases List.mem_cons.1 h with rfl | h
      · simp only [VItem.head, Bool.false_eq_true, if_false, emitItem, hc]
        cases emitParams v ps <;> rfl
      · rw [ih h]
        split
        · rfl
        · cases emitItem v (isOutput m.items) i <;> rfl
  rw [emitMod, key m.items hm]
  cases emitParamItems v m.items <;> cases emitPorts v (isReg m.items) (ioTable m.items) <;> rfl

/-- C77: a generate `if` that stands in the else branch of another is lost when it is read: the items of both of its branches are
    items of the else branch. -/
theorem c77_not_else (lib : Lib) (env : List (String × VE)) (c c2 : AE) (ts fs us gs : Option String) (t t2 f2 : List AItem)
    (is : List VItem) (h : readItem lib .mod env (.gen [.gif c ts t fs [.gif c2 us t2 gs f2]]) = some is) :
    ∃ c' t' t2' f2', is = [.gif c' ts t' fs (t2' ++ f2')] ∧ readE c = some c' ∧ readItems lib .gen env t = some t' ∧
      readItems lib .els env t2 = some t2' ∧ readItems lib .els (paramBinds t2' ++ env) f2 = some f2' := by
  simp only [readItem, readGens, readItems] at h
  split at h
  · rename_i c' t' f' l h1 h2 h3 h4
    cases h4
    cases h
    refine ⟨c', t', ?_⟩
    rw [if_neg (by decide)] at h3
    split at h3
    · cases h3
    · rename_i i hi
      split at hi
      · rename_i x t2' g1 g2
        obtain ⟨f2', g3, rfl⟩ := Option.map_eq_some_iff.1 hi
        cases h3
        exact ⟨t2', f2', by simp, h1, h2, g2, g3⟩
      · cases hi
  · cases h

/-- C77: so both branches of the inner `if` are in effect when the outer condition does not hold. -/
theorem c77_not_else_both {X D E : Type} (S : Sem X D) (lib : Lib) (env : List (String × VE)) (c c2 : AE)
    (ts fs us gs : Option String) (t2 f2 : List AItem) (is : List VItem)
    (h : readItem lib .mod env (.gen [.gif c ts [] fs [.gif c2 us t2 gs f2]]) = some is)
    (hc : sameE S.toESem c) (ht : safeIs S.toESem .els t2) (hf : safeIs S.toESem .els f2)
    (holds : X → E → Bool) (runs : D → X → D → E → List E) (e : E) (hh : holds (S.toESem.denA c) e = false)
    (ms : List (MItem X D)) (hms : S.itemsV is = some ms) :
    ∃ a b sc, S.itemsA t2 = some a ∧ S.itemsA f2 = some b ∧
      (∀ x ∈ MItem.elabs holds runs [sc] e a, x ∈ MItem.elabs holds runs [] e ms) ∧
      ∀ x ∈ MItem.elabs holds runs [sc] e b, x ∈ MItem.elabs holds runs [] e ms := by
  obtain ⟨c', t', t2', f2', rfl, h1, h2, h3, h4⟩ := c77_not_else lib env c c2 ts fs us gs [] t2 f2 is h
  cases h2
  have e1 := (readItems_den S lib _ _ _ _ h3 ht).1
  have e2 := (readItems_den S lib _ _ _ _ h4 hf).1
  rw [oneV, Sem.itemV, readE_den S.toESem _ _ h1 hc, itemsV_append, e1, e2] at hms
  have elab_append : ∀ (p : List (Option String)) (x y : List (MItem X D)),
      MItem.elabs holds runs p e (x ++ y) = MItem.elabs holds runs p e x ++ MItem.elabs holds runs p e y := by
    intro p x y
    induction x with
    | nil => simp [MItem.elabs]
    | cons z x ih => rw [List.cons_append, MItem.elabs, MItem.elabs, ih, List.append_assoc]
  have e3 : S.paramsV (t2' ++ f2') = some (S.paramsA t2 ++ S.paramsA f2) := by
    rw [paramsV_append, (readItems_den S lib _ _ _ _ h3 ht).2, (readItems_den S lib _ _ _ _ h4 hf).2]
    rfl
  rw [e3] at hms
  cases ha : S.itemsA t2 with
  | none => rw [ha] at hms; simp [Sem.blockM, Sem.itemsV, Sem.paramsV] at hms
  | some a =>
    cases hb : S.itemsA f2 with
    | none => rw [ha, hb] at hms; simp [Sem.blockM, Sem.itemsV, Sem.paramsV] at hms
    | some b =>
      rw [ha, hb] at hms
      simp only [Sem.blockM, Sem.itemsV, Sem.paramsV, Option.bind_some, Option.map_some, Option.some.injEq] at hms
      subst hms
      refine ⟨a, b, if ((S.paramsA t2 ++ S.paramsA f2).map MItem.leaf ++ (a ++ b)).isEmpty then none else fs, rfl, rfl, fun x hx => ?_,
        fun x hx => ?_⟩
      all_goals
        simp only [MItem.elabs, MItem.elab, MItem.gifN, hh, elab_append, Bool.false_eq_true, if_false, List.nil_append,
          List.append_nil, List.mem_append]
      · exact Or.inr (Or.inl hx)
      · exact Or.inr (Or.inr hx)

/-- C77: a generate `for` that stands in the else branch of an `if` is lost when it is read: its items are there once. -/
theorem c77_not_loop (lib : Lib) (env : List (String × VE)) (c c2 : AE) (ts fs sc : Option String) (pre post : AS)
    (t b : List AItem) (is : List VItem)
    (h : readItem lib .mod env (.gen [.gif c ts t fs [.gfor pre c2 post sc b]]) = some is) :
    ∃ c' t' b', is = [.gif c' ts t' fs b'] ∧ readE c = some c' ∧ readItems lib .gen env t = some t' ∧
      readItems lib .els env b = some b' := by
  simp only [readItem, readGens, readItems] at h
  split at h
  · rename_i c' t' f' l h1 h2 h3 h4
    cases h4
    cases h
    split at h3
    · cases h3
    · rename_i i hi
      split at hi
      · rename_i g1 g2 g3 g4
        rw [if_neg (by decide)] at hi
        cases hi
        cases h3
        exact ⟨c', t', _, by simp, h1, h2, g4⟩
      · cases hi
  · cases h

/-- C77: an `initial` block with an `if` or `for` cannot be read inside of a generate block. -/
theorem c77_not_initial (lib : Lib) (env : List (String × VE)) (pre post : AS) (c : AE) (sc : Option String) (b : AS)
    (l : List AItem) (hb : hasBranch b = true) (hl : .initial b ∈ l) :
    readItem lib .mod env (.gen [.gfor pre c post sc l]) = none := by
  have key : ∀ (l : List AItem) (env : List (String × VE)), .initial b ∈ l → readItems lib .gen env l = none := by
    intro l
    induction l with
    | nil => intro _ h; cases h
    | cons a l ih =>
      intro env h
      rw [readItems]
      rcases List.mem_cons.1 h with rfl | h
      · rw [readItem, hb]
        rfl
      · cases readItem lib .gen env a with
        | none => rfl
        | some i => simp only [ih _ h]
  simp only [readItem, readGens, key l env hl]
  cases readS pre <;> cases readE c <;> cases readS post <;> rfl

/-- C77: a localparam whose value is a parameter of the module is read as the value that the parameter has by default, so giving the
    parameter another value does not change it. -/
theorem c77_not_alias (lib : Lib) (n A B : String) (x : AE) (m : VMod)
    (h : readMod lib ⟨n, [.param false A x none false], [], [.param true B (.id A) none false]⟩ = some m) :
    ∃ e, readE x = some e ∧ m.items = [.param false A e .none false, .param true B e .none false] := by
  simp only [readMod, readItems, readItem, readW, readPorts, readE] at h
  cases hx : readE x with
  | none => rw [hx] at h; cases h
  | some e =>
    rw [hx] at h
    simp only [paramBinds, List.append_nil, List.filterMap_cons, List.filterMap_nil, paramValue, Option.map_some] at h
    cases h
    refine ⟨paramValue [] e, ?_, ?_⟩
    · cases e <;> rfl
    · cases e <;> simp [paramValue, List.lookup]

namespace Ex

/-- A module with a parameter, a registered output, a loop that generates wires and a selected instance. -/
def cnt : VMod := ⟨"cnt", [
  .param false "W" (.num 8) .none false,
  .decl ⟨.input, "CLK", .none, .none, false⟩,
  .decl ⟨.output, "q", .width (.var "W"), .none, false⟩,
  .decl ⟨.reg, "q", .width (.var "W"), .none, false⟩,
  .decl ⟨.reg, "mem", .num 8 |> .width, .dims [.num 16], true⟩,
  .decl ⟨.genvar, "i", .none, .none, false⟩,
  .always [.pos (.var "CLK")] [.sub (.var "q") (.op .plus [.var "q", .num 1]) false none none],
  .gfor (.sub (.var "i") (.num 0) true none none) (.op .lessThan [.var "i", .num 4])
    (.sub (.var "i") (.op .plus [.var "i", .num 1]) true none none) (some "loop")
    [.decl ⟨.wire, "t", .none, .none, false⟩, .assign (.var "t") (.op .pointer [.var "q", .var "i"]) none none,
      .gif (.op .eq [.var "i", .num 0]) none [.inst "leaf" "u" [(some "N", .var "W")] [(some "a", some (.var "t"))]] none []],
  .func "f" (.width (.num 8)) ⟨[⟨.input, "x", none, false⟩], [⟨.reg, "y", none, false⟩],
    [.sub (.var "f") (.var "x") true none none]⟩]⟩

theorem isOutput_cnt (n : String) : isOutput cnt.items n = (n == "q") := by
  have ht : ioTable cnt.items = [("CLK", some ⟨.input, "CLK", .none, .none, false⟩),
      ("q", some ⟨.output, "q", .width (.var "W"), .none, false⟩)] := rfl
  rw [isOutput, ht, List.lookup, List.lookup]
  by_cases h1 : n = "CLK"
  · subst h1; rfl
  · rw [show (n == "CLK") = false by simpa using h1]
    by_cases h2 : n = "q"
    · subst h2; rfl
    · rw [show (n == "q") = false by simpa using h2]
      rfl

/-- It meets the hypothesis of `c77_write`. -/
theorem cnt_ok : cnt.Ok := by
  refine ⟨?_, ?_, ?_, ?_⟩
  · have h : isOutput cnt.items = fun n => n == "q" := funext isOutput_cnt
    rw [h]
    simp [cnt, List.filter_cons, VItem.notOutReg, okIs, okI, okE, okEs, okW, okD, okDecl, oks, ok, clears, clear, okDel, clearDel, okASens, DKind.io,
      noDel, okFn, okFDecl]
  · intro d hd hk
    simp only [cnt, List.mem_cons, List.not_mem_nil, or_false, reduceCtorEq, false_or, VItem.decl.injEq] at hd
    rcases hd with rfl | rfl | rfl | rfl | rfl <;> simp [DKind.io, okDecl, okW, okD, okE, okEs] at hk ⊢
  · intro n
    simp only [cnt, List.filterMap_cons, VItem.varOf, DKind.io, List.filterMap_nil]
    by_cases h1 : n = "q"
    · subst h1; decide
    · by_cases h2 : n = "mem"
      · subst h2; decide
      · by_cases h3 : n = "i"
        · subst h3; decide
        · simp [Ne.symm h1, Ne.symm h2, Ne.symm h3]
  · intro d r hd hk hr hk' hn
    simp only [cnt, List.mem_cons, List.not_mem_nil, or_false, reduceCtorEq, false_or, VItem.decl.injEq] at hd hr
    rcases hd with rfl | rfl | rfl | rfl | rfl <;> simp at hk
    rcases hr with rfl | rfl | rfl | rfl | rfl <;> simp at hk' hn
    exact ⟨rfl, rfl, rfl⟩

/-- What is written means what the module means. -/
example : ∃ a, emitMod ⟨false, false, false, fun _ => false⟩ cnt = some a ∧ a.name = "cnt" ∧ sem.modA a = sem.modV cnt :=
  c77_write sem _ rfl cnt cnt_ok

/-- It has the parameter and the two ports in its head, the register beside the output. -/
example : (emitMod ⟨false, false, false, fun _ => false⟩ cnt).map (fun a => (a.params.length, a.ports.map APort.name,
    a.ports.map fun p => p.second?.isSome, a.items.length)) = some (1, ["CLK", "q"], [false, true], 5) := rfl

theorem same1 : sameE sem.toESem (.int ['1']) := by
  intro o t' h1 h2
  have : Literal.ofText ['1'] none none false = some ⟨.num 1, none, none, false⟩ := by decide
  rw [this] at h1
  cases h1
  have : Literal.print ⟨.num 1, none, none, false⟩ = some ['1'] := by decide
  rw [this] at h2
  cases h2
  rfl

/-- `module old(CLK, q); input CLK; output q; reg q; localparam P = 1; always @(posedge CLK) q <= q + 1;
    generate if(P) begin: b wire w; end endgenerate endmodule`. -/
def old : AMod := ⟨"old", [], [.plain "CLK", .plain "q"], [
  .decl ⟨.input, "CLK", none, none, false⟩, .decl ⟨.output, "q", none, none, false⟩, .decl ⟨.reg, "q", none, none, false⟩,
  .param true "P" (.int ['1']) none false,
  .always [.pos (.id "CLK")] (.nbsub (.id "q") (.op .plus [.id "q", .int ['1']]) none none),
  .gen [.gif (.id "P") (some "b") [.decl ⟨.wire, "w", none, none, false⟩] none []]]⟩

/-- It meets the hypotheses of `c77_read`. -/
theorem old_safe : old.Safe sem.toESem := by
  refine ⟨?_, ?_, ?_, ?_, ?_, ?_, ?_, ?_⟩
  · simp [old]
  · simp [old, safeIs]
  · have h1 := same1
    simp [old, safeIs, safeI, safeDec, sameW, sameSens, same, sameEs, sameDel, h1]
    simp [sameE, sameEs, h1]
    exact h1
  · decide
  · simp [old]
  · intro n hn
    simp only [old, List.mem_cons, APort.plain.injEq, List.not_mem_nil, or_false] at hn
    rcases hn with rfl | rfl
    · exact ⟨⟨.input, "CLK", none, none, false⟩, by simp [old], rfl, rfl⟩
    · exact ⟨⟨.output, "q", none, none, false⟩, by simp [old], rfl, rfl⟩
  · intro d hd hk
    simp only [old, List.mem_cons, List.not_mem_nil, or_false, reduceCtorEq, AItem.decl.injEq] at hd
    rcases hd with rfl | rfl | rfl <;> simp [DKind.io, old] at hk ⊢
  · decide

/-- It is read, to the same meaning: `q` is an output with a register. -/
example : ∃ m, readMod (fun _ => none) old = some m ∧ sem.modV m = sem.modA old ∧
    (sem.modA old).map (fun x => x.ports.map fun p => (p.1.kind, p.1.name, p.2.isSome)) =
      some [(.input, "CLK", false), (.output, "q", true)] := by
  have h : (readMod (fun _ => none) old).isSome = true := rfl
  obtain ⟨m, hm⟩ := Option.isSome_iff_exists.1 h
  exact ⟨m, hm, (c77_read sem _ old m hm old_safe).2, rfl⟩

/-- What `old` is read as. -/
def oldV : VMod := ⟨"old", [.any "CLK", .any "q", .decl ⟨.input, "CLK", .none, .none, false⟩,
  .decl ⟨.output, "q", .none, .none, false⟩, .decl ⟨.reg, "q", .none, .none, false⟩,
  .param true "P" (.lit ⟨.num 1, none, none, false⟩) .none false,
  .always [.pos (.var "CLK")] [.sub (.var "q") (.op .plus [.var "q", .lit ⟨.num 1, none, none, false⟩]) false none none],
  .gif (.var "P") (some "b") [.decl ⟨.wire, "w", .none, .none, false⟩] none []]⟩

/-- It meets the hypothesis of `c77_rewrite`. -/
example : readMod (fun _ => none) old = some oldV ∧ oldV.Ok := by
  refine ⟨rfl, ?_⟩
  have ho : ∀ n, isOutput oldV.items n = (n == "q") := by
    intro n
    rw [isOutput, show ioTable oldV.items =
      [("CLK", some ⟨.input, "CLK", .none, .none, false⟩), ("q", some ⟨.output, "q", .none, .none, false⟩)] from rfl,
      List.lookup, List.lookup]
    by_cases h1 : n = "CLK"
    · subst h1; rfl
    · rw [show (n == "CLK") = false by simpa using h1]
      by_cases h2 : n = "q"
      · subst h2; rfl
      · rw [show (n == "q") = false by simpa using h2]
        rfl
  have hp : ∃ t, Literal.print ⟨.num 1, none, none, false⟩ = some t := ⟨['1'], by decide⟩
  constructor
  · have h : isOutput oldV.items = fun n => n == "q" := funext ho
    rw [h]
    simp [oldV, List.filter_cons, VItem.notOutReg, okIs, okI, okE, okEs, okW, okD, okDecl, oks, ok, clears, clear, okDel, clearDel,
      okASens, DKind.io, hp]
  · intro d hd hk
    simp [oldV] at hd
    rcases hd with rfl | rfl | rfl <;> simp [okDecl, okW, okD]
  · intro n
    by_cases h1 : n = "q"
    · subst h1; decide
    · simp [oldV, VItem.varOf, List.filterMap_cons, DKind.io, Ne.symm h1]
  · intro d r hd hk hr hk' hn
    simp [oldV] at hd hr
    rcases hd with rfl | rfl | rfl <;> simp at hk
    rcases hr with rfl | rfl | rfl <;> simp at hk'
    exact ⟨rfl, rfl, rfl⟩

/-- A local register `q` of a function in a module with an output `q` (`c77_not_local`). -/
example : emitMod ⟨false, false, false, fun _ => false⟩ ⟨"m", [.decl ⟨.output, "q", .none, .none, false⟩,
    .func "f" .none ⟨[], [⟨.reg, "q", none, false⟩], []⟩]⟩ = none :=
  c77_not_local _ _ "f" .none ⟨[], [⟨.reg, "q", none, false⟩], []⟩ ⟨.reg, "q", none, false⟩ (by simp) (by simp) rfl rfl

/-- `output q; reg signed q` is written as `output reg q` (`c77_not_sign`). -/
example : emitMod ⟨false, false, false, fun _ => false⟩ ⟨"m", [.decl ⟨.output, "q", .none, .none, false⟩,
    .decl ⟨.reg, "q", .none, .none, true⟩]⟩ =
      some ⟨"m", [], [.io ⟨.output, "q", none, none, false⟩ (some ⟨.reg, "q", none, none, false⟩)], []⟩ := rfl

/-- A register `q` of a loop in a module with an output `q` is gone (`c77_not_shadow`). -/
example : (emitMod ⟨false, false, false, fun _ => false⟩ ⟨"m", [.decl ⟨.output, "q", .none, .none, false⟩,
    .gfor (.sub (.var "i") (.num 0) true none none) (.var "i") (.sub (.var "i") (.num 1) true none none) none
      [.decl ⟨.reg, "q", .none, .none, false⟩]]⟩).map (fun a => a.items) =
    some [.gen [.gfor (.bsub (.id "i") (.int ['0']) none none) (.id "i") (.bsub (.id "i") (.int ['1']) none none) none []]] := rfl

/-- A loop in an else branch (`c77_not_loop`): the wire is there once. -/
example : readItem (fun _ => none) .mod [] (.gen [.gif (.id "A") none [] none
      [.gfor (.bsub (.id "i") (.int ['0']) none none) (.id "i") (.bsub (.id "i") (.int ['1']) none none) none
        [.decl ⟨.wire, "w", none, none, false⟩]]]) =
    some [.gif (.var "A") none [] none [.decl ⟨.wire, "w", .none, .none, false⟩]] := rfl

/-- `assign #3 a = b` does not mean `assign a = b`, which is what is written (`c77_not_delay`). -/
example : sem.modV ⟨"d", [.assign (.var "a") (.var "b") none (some (.num 3))]⟩ ≠
    sem.modV ⟨"d", [.assign (.var "a") (.var "b") none none]⟩ := by
  intro h
  have h' := congrArg (fun x => x.map fun m => m.items.map fun | .leaf (.assign _ _ _ d) => d.isSome | _ => false) h
  have e1 : (fun x => x.map fun m => m.items.map fun | .leaf (.assign _ _ _ d) => d.isSome | _ => false)
      (sem.modV ⟨"d", [.assign (.var "a") (.var "b") none (some (.num 3))]⟩) = some [true] := rfl
  have e2 : (fun x => x.map fun m => m.items.map fun | .leaf (.assign _ _ _ d) => d.isSome | _ => false)
      (sem.modV ⟨"d", [.assign (.var "a") (.var "b") none none]⟩) = some [false] := rfl
  have h'' := e1.symm.trans (h'.trans e2)
  cases h''

/-- `if(A) ... else if(B) begin: x wire w1; end else begin: y wire w2; end`: both wires are there after reading. -/
example : readItem (fun _ => none) .mod [] (.gen [.gif (.id "A") none [] none
      [.gif (.id "B") (some "x") [.decl ⟨.wire, "w1", none, none, false⟩] (some "y")
        [.decl ⟨.wire, "w2", none, none, false⟩]]]) =
    some [.gif (.var "A") none [] none [.decl ⟨.wire, "w1", .none, .none, false⟩, .decl ⟨.wire, "w2", .none, .none, false⟩]] := rfl

/-- `parameter A = 1; localparam B = A;` is read as `localparam B = 1`. -/
example : ∃ m, readMod (fun _ => none) ⟨"m", [.param false "A" (.int ['1']) none false], [], [.param true "B" (.id "A") none false]⟩ =
    some m ∧ emitMod ⟨false, false, false, fun _ => false⟩ m =
      some ⟨"m", [.param false "A" (.int ['1']) none false], [], [.param true "B" (.int ['1']) none false]⟩ := ⟨_, rfl, rfl⟩

/-- `generate for(...) begin initial if(a) b = 1; end endgenerate` is not read. -/
example : hasBranch (.ifs (.id "a") (.bsub (.id "b") (.int ['1']) none none) .none) = true := rfl

/-- An instance with an unconnected port is read and cannot be written. -/
example : ∃ m, readMod (fun _ => none) ⟨"m", [], [], [.inst "k" "u" [] [(some "x", none)]]⟩ = some m ∧
    emitMod ⟨false, false, false, fun _ => false⟩ m = none := ⟨_, rfl, rfl⟩

end Ex

end Emit
