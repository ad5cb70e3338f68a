import Verif.Lemmas.EmitModF

/-!
# Ports that are read again
-/

namespace Emit

/-- The kind of a port in the table of ports. -/
def kindOf (t : List (String × Option VDecl)) (n : String) : Option DKind := (t.lookup n).bind fun d => d.map (·.kind)

theorem isOutput_kind (items : List VItem) (n : String) : isOutput items n = (kindOf (ioTable items) n == some .output) := by
  rw [isOutput, kindOf]
  cases (ioTable items).lookup n with
  | none => rfl
  | some d => cases d <;> rfl

theorem kindOf_cons (k : String) (x : Option VDecl) (t : List (String × Option VDecl)) (n : String) :
    kindOf ((k, x) :: t) n = if n = k then x.map (·.kind) else kindOf t n := by
  rw [kindOf, List.lookup]
  split
  · rename_i h
    rw [if_pos (by simpa using h)]
    rfl
  · rename_i h
    rw [if_neg (by simpa using h)]
    rfl

/-- Ports that were written as `io` are read as `is`, which make the table `t'` and are written as `io` again. -/
structure BackIO (v : Vis) (reg : String → Bool) (t : List (String × Option VDecl)) (io : List APort) (is : List VItem)
    (t' : List (String × Option VDecl)) : Prop where
  read : readPorts (io.map parsedPort) = some is
  table : is.filterMap VItem.ioEntry = t'
  keys : (t'.map (·.1)).Sublist (t.map (·.1))
  kind : ∀ n, kindOf t' n = kindOf t n
  ports : ∀ reg', (∀ n, kindOf t n = some .output → reg' n = reg n) → emitPorts v reg' t' = some (io.map parsedPort)
  params : emitParamItems v is = some []
  items : ∀ out, (∀ n, kindOf t n = some .output → out n = true) → emitItems v out is = some []
  regs : ∀ n, ∀ d ∈ is.filterMap (VItem.varOf n), d.kind = .reg
  has : ∀ n, kindOf t n = some .output → ((is.filterMap (VItem.varOf n)).isEmpty = !reg n)
  only : ∀ n, kindOf t n ≠ some .output → is.filterMap (VItem.varOf n) = []

theorem kindOf_none {t : List (String × Option VDecl)} {n : String} (h : n ∉ t.map (·.1)) : kindOf t n = none := by
  rw [kindOf, lookup_none h]
  rfl

theorem backIO {v : Vis} (hv : v.fv = false) (reg : String → Bool) : ∀ (t : List (String × Option VDecl)) (io : List APort),
    (t.map (·.1)).Nodup → (∀ k d, (k, some d) ∈ t → d.name = k ∧ d.kind.io = true ∧ fineDecl d) → emitPorts v reg t = some io →
    ∃ is t', BackIO v reg t io is t'
  | [], io, _, _, h => by
    cases h
    exact ⟨[], [], rfl, rfl, .slnil, fun _ => rfl, fun _ _ => rfl, rfl, fun _ _ => rfl, nofun, nofun, fun _ _ => rfl⟩
  | (k, none) :: t, io, hn, hf, h => by
    rw [emitPorts] at h
    rw [List.map_cons, List.nodup_cons] at hn
    obtain ⟨is, t', b⟩ := backIO hv reg t io hn.2 (fun k d hm => hf k d (List.mem_cons_of_mem _ hm)) h
    have hk : ∀ n, kindOf ((k, none) :: t) n = kindOf t n := by
      intro n
      rw [kindOf_cons]
      split
      · rename_i e
        rw [e, kindOf_none hn.1]
        rfl
      · rfl
    refine ⟨is, t', b.read, b.table, b.keys.cons _, fun n => ?_, fun reg' h' => ?_, b.params, fun out h' => ?_, b.regs, fun n h' => ?_, fun n h' => ?_⟩
    · rw [hk, b.kind]
    · exact b.ports reg' fun n hn => h' n (by rw [hk]; exact hn)
    · exact b.items out fun n hn => h' n (by rw [hk]; exact hn)
    · exact b.has n (by rw [← hk]; exact h')
    · exact b.only n (by rw [← hk]; exact h')
  | (k, some d) :: t, io, hn, hf, h => by
    rw [emitPorts] at h
    rw [List.map_cons, List.nodup_cons] at hn
    obtain ⟨hname, hio, hd⟩ := hf k d List.mem_cons_self
    split at h
    · rename_i p io' h1 h2
      cases h
      obtain ⟨is, t', b⟩ := backIO hv reg t io' hn.2 (fun k d hm => hf k d (List.mem_cons_of_mem _ hm)) h2
      rw [emitPort] at h1
      obtain ⟨a, ha, hp⟩ := Option.map_eq_some_iff.1 h1
      obtain ⟨d', e1, e2, e3, e4, e5, e6⟩ := back_decl hv ha hd
      have hname' : d'.name = k := e6.trans hname
      have hio' : d'.kind.io = true := by rw [e5]; exact hio
      have hk : ∀ n, n ≠ k → kindOf ((k, some d) :: t) n = kindOf t n := fun n hne => by rw [kindOf_cons, if_neg hne]
      have hkk : kindOf ((k, some d) :: t) k = some d.kind := by rw [kindOf_cons, if_pos rfl]; rfl
      have hne : ∀ n, kindOf t n = some .output → n ≠ k := by
        rintro n h0 rfl
        rw [kindOf_none hn.1] at h0
        cases h0
      have hkind : ∀ n, kindOf ((k, some d') :: t') n = kindOf ((k, some d) :: t) n := by
        intro n
        rw [kindOf_cons, kindOf_cons, b.kind]
        simp only [Option.map_some, e5]
      have hkeys : (((k, some d') :: t').map (·.1)).Sublist (((k, some d) :: t).map (·.1)) := b.keys.cons_cons _
      have hfresh : is.filterMap (VItem.varOf k) = [] := b.only k (by rw [kindOf_none hn.1]; nofun)
      have hent : VItem.ioEntry (.decl d') = some (k, some d') := by rw [VItem.ioEntry, if_pos hio', hname']
      have hvar : ∀ n, VItem.varOf n (.decl d') = none := by intro n; rw [VItem.varOf, hio']; rfl
      have hhead : VItem.head (.decl d') = true := hio'
      have hports : ∀ reg', (∀ n, kindOf ((k, some d) :: t) n = some .output → reg' n = reg n) →
          emitPorts v reg' ((k, some d') :: t') = some ((p :: io').map parsedPort) := by
        intro reg' h'
        have hb := b.ports reg' fun n hn' => h' n (by rw [hk n (hne n hn')]; exact hn')
        rw [emitPorts, hb, emitPort, e2, ← hp]
        have hc : (d'.kind == .output && reg' d'.name) = (d.kind == .output && reg d.name) := by
          rw [e5, hname', hname]
          cases hd' : d.kind == .output with
          | false => rfl
          | true => rw [h' k (by rw [hkk, eq_of_beq hd'])]
        simp only [Option.map_some, hc, List.map_cons, parsedPort]
        split <;> rfl
      by_cases hc : (d.kind == .output && reg d.name) = true
      · -- with its register
        rw [if_pos hc] at hp
        rw [Bool.and_eq_true, beq_iff_eq] at hc
        have hr' : emitDecl v { d with kind := .reg } = some { a with kind := .reg } := by
          rw [emitDecl] at ha ⊢
          split at ha
          · rename_i w ds q1 q2
            simp only [q1, q2]
            cases ha
            rfl
          · cases ha
        obtain ⟨r, g1, g2, g3, g4, g5, g6⟩ := back_decl hv hr' ⟨hd.1, hd.2.1, by rintro (h0 | h0) <;> cases h0⟩
        have hrn : r.name = k := g6.trans hname
        have hrk : r.kind = .reg := g5
        have hrio : r.kind.io = false := by rw [hrk]; rfl
        have hrv : ∀ n, VItem.varOf n (.decl r) = if k = n then some r else none := by
          intro n
          rw [VItem.varOf, hrio, hrn]
          by_cases e : k = n <;> simp [e]
        refine ⟨.decl d' :: .decl r :: is, (k, some d') :: t', ?_, ?_, hkeys, hkind, hports, ?_, ?_, ?_, ?_, ?_⟩
        · rw [List.map_cons, ← hp, parsedPort, Option.map_some, readPorts, readPort, e1, g1, b.read]
          rfl
        · rw [List.filterMap_cons, hent, List.filterMap_cons]
          simp only [VItem.ioEntry, hrio, b.table]
          rfl
        · exact b.params
        · intro out h'
          rw [emitItems, hhead, if_pos rfl, emitItems, VItem.head, hrio, if_neg (by simp), emitItem, if_pos, b.items]
          · rfl
          · exact fun n hn' => h' n (by rw [hk n (hne n hn')]; exact hn')
          · rw [hrk, hrn, h' k (by rw [hkk, hc.1])]
            rfl
        · intro n x hx
          rw [List.filterMap_cons, hvar, List.filterMap_cons, hrv] at hx
          by_cases e : k = n
          · simp only [e, if_true] at hx
            rcases List.mem_cons.1 hx with rfl | hx
            · exact hrk
            · exact b.regs n x hx
          · simp only [e, if_false] at hx
            exact b.regs n x hx
        · intro n h'
          rw [List.filterMap_cons, hvar, List.filterMap_cons, hrv]
          by_cases e : k = n
          · subst e
            rw [hname] at hc
            simp [hc.2]
          · simp only [e, if_false]
            exact b.has n (by rw [← hk n (Ne.symm e)]; exact h')
        · intro n h'
          have e : k ≠ n := by
            rintro rfl
            exact h' (by rw [hkk, hc.1])
          rw [List.filterMap_cons, hvar, List.filterMap_cons, hrv, if_neg e]
          exact b.only n (by rw [← hk n (Ne.symm e)]; exact h')
      · -- alone
        rw [if_neg hc] at hp
        rw [Bool.not_eq_true] at hc
        refine ⟨.decl d' :: is, (k, some d') :: t', ?_, ?_, hkeys, hkind, hports, ?_, ?_, ?_, ?_, ?_⟩
        · rw [List.map_cons, ← hp, parsedPort, Option.map_none, readPorts, readPort, e1, b.read]
          rfl
        · rw [List.filterMap_cons, hent, b.table]
        · exact b.params
        · intro out h'
          rw [emitItems, hhead, if_pos rfl]
          exact b.items out fun n hn' => h' n (by rw [hk n (hne n hn')]; exact hn')
        · intro n x hx
          rw [List.filterMap_cons, hvar] at hx
          exact b.regs n x hx
        · intro n h'
          rw [List.filterMap_cons, hvar]
          by_cases e : k = n
          · subst e
            rw [hkk] at h'
            have hr0 : reg k = false := by simpa [Option.some.inj h', hname] using hc
            simp [hfresh, hr0]
          · exact b.has n (by rw [← hk n (Ne.symm e)]; exact h')
        · intro n h'
          rw [List.filterMap_cons, hvar]
          by_cases e : k = n
          · subst e
            exact hfresh
          · exact b.only n (by rw [← hk n (Ne.symm e)]; exact h')
    · cases h

/-! ### Registers -/

/-- `is_reg` from the kinds and names of variables. -/
theorem varOf_sig (l : List VItem) (n : String) :
    (l.filterMap (VItem.varOf n)).map (·.kind) = (sigV l).filterMap fun s => if !s.1.io && s.2 == n then some s.1 else none := by
  induction l with
  | nil => rfl
  | cons i l ih =>
    cases i with
    | decl d =>
      have : sigV (.decl d :: l) = (d.kind, d.name) :: sigV l := rfl
      rw [this, List.filterMap_cons, List.filterMap_cons, VItem.varOf]
      by_cases h : (!d.kind.io && d.name == n) = true
      · simp only [h, if_true, List.map_cons, ih]
      · rw [if_neg h, if_neg h]
        exact ih
    | _ => exact ih

/-- The variables that are written among the items are those that are not registers of outputs. -/
theorem sig_emit {v : Vis} {out : String → Bool} : ∀ (l : List VItem) (as : List AItem), emitItems v out l = some as →
    sigA as = (sigV l).filter fun s => !s.1.io && !(s.1 == .reg && out s.2)
  | [], as, h => by cases h; rfl
  | i :: l, as, h => by
    rw [emitItems] at h
    split at h
    · rename_i hh
      rw [sig_emit l as h]
      cases i with
      | decl d =>
        have : sigV (.decl d :: l) = (d.kind, d.name) :: sigV l := rfl
        have hh' : d.kind.io = true := hh
        rw [this, List.filter_cons]
        simp [hh']
      | _ => rfl
    · rename_i hh
      split at h
      · rename_i a as' h1 h2
        cases h
        rw [sigA_append, sig_emit l as' h2]
        cases i with
        | decl d =>
          have e : sigV (.decl d :: l) = (d.kind, d.name) :: sigV l := rfl
          have hh' : d.kind.io = false := by simpa [VItem.head] using hh
          rw [e, List.filter_cons]
          rw [emitItem] at h1
          split at h1
          · rename_i hs
            cases h1
            simp only [hh', hs]
            rfl
          · rename_i hs
            obtain ⟨x, hx, rfl⟩ := Option.map_eq_some_iff.1 h1
            rw [Bool.not_eq_true] at hs
            simp only [hh', hs]
            rw [emitDecl] at hx
            split at hx
            · cases hx
              rfl
            · cases hx
        | any n => cases h1; rfl
        | param loc n x w s =>
          rw [emitItem] at h1
          split at h1 <;> cases h1
          rfl
        | assign l r ld rd =>
          rw [emitItem] at h1
          split at h1 <;> cases h1
          rfl
        | always sens body =>
          rw [emitItem] at h1
          split at h1 <;> cases h1
          rfl
        | initial body =>
          rw [emitItem] at h1
          obtain ⟨x, hx, rfl⟩ := Option.map_eq_some_iff.1 h1
          rfl
        | func n w f =>
          rw [emitItem] at h1
          split at h1 <;> cases h1
          rfl
        | task n f =>
          rw [emitItem] at h1
          obtain ⟨x, hx, rfl⟩ := Option.map_eq_some_iff.1 h1
          rfl
        | inst m n ps qs =>
          rw [emitItem] at h1
          split at h1 <;> cases h1
          rfl
        | gfor pre c post s body =>
          rw [emitItem] at h1
          split at h1 <;> cases h1
          rfl
        | gif c ts t fs f =>
          rw [emitItem] at h1
          split at h1 <;> cases h1
          rfl
      · cases h

theorem isReg_last (items : List VItem) (n : String) :
    isReg items n = (((items.filterMap (VItem.varOf n)).map (·.kind)).getLast? == some .reg) := by
  rw [isReg, List.getLast?_map]
  cases (items.filterMap (VItem.varOf n)).getLast? <;> rfl

/-- A module that is read again as it was written: everything in it can be, and no output has two variables of its name.  `P` are the
    names of its parameters and localparams. -/
structure VMod.Fine (lib : Lib) (P : String → Bool) (m : VMod) : Prop where
  items : fineIs lib P .mod m.items
  ports : ∀ d, .decl d ∈ m.items → d.kind.io = true → fineDecl d
  once : ∀ n, isOutput m.items n = true → (m.items.filterMap (VItem.varOf n)).length ≤ 1

theorem written_mod {v : Vis} (hv : v.fv = false) (hr : ∀ c, v.rst (parsedE c) = v.rst c) {lib : Lib} {P : String → Bool} {m : VMod}
    (hf : m.Fine lib P) {a : AMod} (h : emitMod v m = some a) :
    ∃ m', readMod lib (parsedMod a) = some m' ∧ emitMod v m' = some (parsedMod a) := by
  rw [emitMod] at h
  split at h
  · rename_i ps io items h1 h2 h3
    cases h
    obtain ⟨is1, b1⟩ := backP hv lib P (isOutput m.items) .mod m.items ps h1 hf.items
    obtain ⟨is2, t', b2⟩ := backIO hv _ _ io (ioTable_nodup m.items)
      (fun k d hm => ⟨(ioTable_mem hm).2.2, (ioTable_mem hm).2.1, hf.ports d (ioTable_mem hm).1 (ioTable_mem hm).2.1⟩) h2
    obtain ⟨is3, b3⟩ := back_items hv hr lib P (isOutput m.items) m.items .mod items h3 hf.items
    have hout : ∀ n, kindOf (ioTable m.items) n = some .output → isOutput m.items n = true := fun n hn => by
      rw [isOutput_kind, hn]; rfl
    have htab : ioTable (is1 ++ is2 ++ is3) = t' := by
      rw [ioTable, List.filterMap_append, List.filterMap_append, b1.io, b2.table, b3.io, List.append_nil, List.nil_append,
        fold_new _ [] (by rw [List.nil_append]; exact b2.keys.nodup (ioTable_nodup m.items)), List.nil_append]
    have hisO : isOutput (is1 ++ is2 ++ is3) = isOutput m.items := by
      funext n
      rw [isOutput_kind, isOutput_kind, htab, b2.kind]
    have hreg : ∀ n, kindOf (ioTable m.items) n = some .output → isReg (is1 ++ is2 ++ is3) n = isReg m.items n := by
      intro n hn
      have e1 : (is1.filterMap (VItem.varOf n)).map (·.kind) = [] := by rw [varOf_sig, b1.sig]; rfl
      have e3 : (is3.filterMap (VItem.varOf n)).map (·.kind) =
          ((m.items.filterMap (VItem.varOf n)).map (·.kind)).filter fun k => !(k == .reg) := by
        rw [varOf_sig, b3.sig, sig_emit m.items items h3, varOf_sig]
        rw [List.filterMap_filter, List.filter_filterMap]
        apply List.filterMap_congr
        rintro ⟨k, y⟩ -
        by_cases hy : y = n
        · subst hy
          simp only [hout y hn]
          cases k <;> simp [DKind.io, Option.filter]
        · have hy' : (y == n) = false := by simpa using hy
          simp only [hy', Bool.and_false, Bool.false_eq_true, if_false]
          split <;> rfl
      have ho := hf.once n (hout n hn)
      have e2 := b2.has n hn
      rw [isReg_last, List.filterMap_append, List.filterMap_append, List.map_append, List.map_append, e1, e3, List.nil_append]
      rw [isReg_last] at e2 ⊢
      have hall : ∀ k ∈ (is2.filterMap (VItem.varOf n)).map (·.kind), k = .reg := by
        intro k hk
        obtain ⟨d, hd, rfl⟩ := List.mem_map.1 hk
        exact b2.regs n d hd
      rw [← List.isEmpty_map (f := fun d : VDecl => d.kind)] at e2
      rw [← List.length_map (fun d : VDecl => d.kind)] at ho
      generalize (is2.filterMap (VItem.varOf n)).map (fun d : VDecl => d.kind) = L2 at *
      generalize (m.items.filterMap (VItem.varOf n)).map (fun d : VDecl => d.kind) = L at *
      match L, ho with
      | [], _ =>
        cases L2 with
        | nil => rfl
        | cons x l => cases e2
      | [k], _ =>
        by_cases hk : k = .reg
        · subst hk
          cases L2 with
          | nil => cases e2
          | cons x l =>
            have : (x :: l).getLast? = some .reg := by
              rw [List.getLast?_eq_getLast_of_ne_nil (by simp), hall _ (List.getLast_mem _)]
            simp [this]
        · have hk' : (k == DKind.reg) = false := by simpa using hk
          cases L2 with
          | nil => simp [hk']
          | cons x l => simp [hk'] at e2
    refine ⟨⟨m.name, is1 ++ is2 ++ is3⟩, ?_, ?_⟩
    · rw [readMod]
      simp only [parsedMod, b1.read [] (.nil P), b2.read]
      have := b3.read (paramBinds is1) b1.binds
      rw [top, if_pos rfl] at this
      rw [this]
      rfl
    · rw [emitMod]
      have p : emitParamItems v (is1 ++ is2 ++ is3) = some (parsedIs ps) := by
        have := emitParamItems_append (emitParamItems_append b1.params b2.params) b3.params
        rwa [List.append_nil, List.append_nil] at this
      have q : emitPorts v (isReg (is1 ++ is2 ++ is3)) (ioTable (is1 ++ is2 ++ is3)) = some (io.map parsedPort) := by
        rw [htab]
        exact b2.ports _ hreg
      have r : emitItems v (isOutput (is1 ++ is2 ++ is3)) (is1 ++ is2 ++ is3) = some (parsedIs items) := by
        rw [hisO]
        have := emitItems_append (emitItems_append b1.items (b2.items _ hout)) b3.items
        rwa [List.append_nil, List.nil_append] at this
      simp only [p, q, r]
      rfl
  · cases h

end Emit
