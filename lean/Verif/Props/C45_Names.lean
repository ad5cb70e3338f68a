import Verif.Model.Module

/-!
# C45, C51: generated names are distinct; a name is defined once
-/

namespace Module

/-! ### The number at the end of a generated name can be read back -/

private theorem tail_unique {p q : Char → Bool} (hpq : p = q) {c : Char} (hc : p c = false)
    {a b : List Char} {d e : List Char} (hd : ∀ x ∈ d, p x = true) (he : ∀ x ∈ e, q x = true)
    (h : a ++ c :: d = b ++ c :: e) : d = e := by
  subst hpq
  have key : ∀ (a d : List Char), (∀ x ∈ d, p x = true) →
      (a ++ c :: d).reverse.takeWhile p = d.reverse := by
    intro a d hd
    rw [List.reverse_append, List.reverse_cons, List.append_assoc, List.takeWhile_append_of_pos]
    · simp [hc]
    · intro x hx; exact hd x (List.mem_reverse.1 hx)
  have := congrArg (fun l => l.reverse.takeWhile p) h
  rw [key a d hd, key b e he] at this
  simpa using this

private theorem suffix_inj {a b : String} {i j : Nat}
    (h : a ++ "_" ++ toString i = b ++ "_" ++ toString j) : i = j := by
  have h' := congrArg String.toList h
  simp only [String.toList_append] at h'
  have ti : ∀ n : Nat, (toString n).toList = Nat.toDigits 10 n := fun n => Nat.toList_repr
  have e : ("_" : String).toList = ['_'] := rfl
  rw [ti, ti, e, List.append_assoc, List.append_assoc] at h'
  have := tail_unique (p := Char.isDigit) (q := Char.isDigit) rfl (c := '_') (by decide)
    (fun x hx => Nat.isDigit_of_mem_toDigits (by decide) (by decide) hx)
    (fun x hx => Nat.isDigit_of_mem_toDigits (by decide) (by decide) hx) h'
  rw [← Nat.ofDigitChars_toDigits (b := 10) (n := i) (by decide) (by decide), this,
    Nat.ofDigitChars_toDigits (by decide) (by decide)]

private theorem store_count (m : ModSt) (o : Obj) : (m.store o).tmpCount = m.tmpCount := by
  unfold ModSt.store ModSt.setDict
  cases o.kind.table <;> rfl

private theorem apply_count {m m' : ModSt} {op : Op} (h : op.apply m = some m') :
    m'.tmpCount = m.tmpCount + (match op with | .tmp .. => 1 | _ => 0) := by
  have hd : ∀ (m m' : ModSt) o, m.declare o = some m' → m'.tmpCount = m.tmpCount := by
    intro m m' o h
    unfold ModSt.declare at h
    split at h <;> try contradiction
    split at h <;> try contradiction
    cases h; exact store_count ..
  cases op with
  | declare o => exact hd _ _ _ h
  | outputReg o =>
    simp only [Op.apply, ModSt.outputReg] at h
    split at h <;> try contradiction
    cases h; simp [store_count]
  | tmp pre o => exact hd _ _ _ h

private theorem run_names : ∀ {ops : List Op} {m m' : ModSt} {ns : List String},
    run m ops = some (m', ns) →
    (∀ n ∈ ns, ∃ p k, n = p ++ "_" ++ toString k ∧ m.tmpCount ≤ k) ∧ ns.Nodup
  | [], m, m', ns, h => by
    simp only [run, Option.some.injEq, Prod.mk.injEq] at h
    simp [← h.2]
  | op :: ops, m, m', ns, h => by
    simp only [run, Option.bind_eq_some_iff, Option.map_eq_some_iff] at h
    obtain ⟨m1, h1, ⟨r, ns1⟩, h2, h3⟩ := h
    obtain ⟨ih1, ih2⟩ := run_names h2
    have hc := apply_count h1
    cases op with
    | tmp pre o =>
      simp only [Prod.mk.injEq] at h3 hc
      obtain ⟨-, rfl⟩ := h3
      refine ⟨?_, List.nodup_cons.2 ⟨?_, ih2⟩⟩
      · intro n hn
        rcases List.mem_cons.1 hn with rfl | hn
        · exact ⟨_, _, rfl, Nat.le_refl _⟩
        · obtain ⟨p, k, e, hk⟩ := ih1 n hn
          exact ⟨p, k, e, by omega⟩
      · intro hmem
        obtain ⟨p, k, e, hk⟩ := ih1 _ hmem
        have := suffix_inj (a := pre.getD m.tmpPrefix) (b := p) (i := m.tmpCount) (j := k) e
        omega
    | declare o =>
      simp only [Prod.mk.injEq] at h3 hc
      obtain ⟨-, rfl⟩ := h3
      exact ⟨fun n hn => by obtain ⟨p, k, e, hk⟩ := ih1 n hn; exact ⟨p, k, e, by omega⟩, ih2⟩
    | outputReg o =>
      simp only [Prod.mk.injEq] at h3 hc
      obtain ⟨-, rfl⟩ := h3
      exact ⟨fun n hn => by obtain ⟨p, k, e, hk⟩ := ih1 n hn; exact ⟨p, k, e, by omega⟩, ih2⟩

/-- C45: in any sequence of declarations, the names generated by the `Tmp...` calls are pairwise
    distinct, whatever prefixes the calls are given. -/
theorem c45_tmp_distinct {ops : List Op} {m m' : ModSt} {ns : List String}
    (h : run m ops = some (m', ns)) : ns.Nodup := (run_names h).2

/-! ### Each name is defined once -/

theorem get_set (d : Dict) (k : String) (v : Obj) (x : String) :
    (d.set k v).get x = if x = k then some v else d.get x := by
  unfold Dict.set Dict.get
  by_cases hk : d.any (fun e => e.1 = k) = true
  · rw [if_pos hk]
    induction d with
    | nil => simp at hk
    | cons e d ih =>
      by_cases hek : e.1 = k
      · by_cases hx : x = k
        · simp [hek, hx]
        · have hx' : ¬ k = x := fun h => hx h.symm
          simp only [List.map_cons, hek, if_true, List.find?_cons, hx, if_false]
          simp only [hx', decide_false]
          by_cases ha : d.any (fun e => e.1 = k) = true
          · have := ih ha; simp only [hx, if_false] at this; exact this
          · have : d.map (fun e => if e.1 = k then (k, v) else e) = d := by
              conv => rhs; rw [← List.map_id d]
              apply List.map_congr_left
              intro y hy
              have : ¬ y.1 = k := fun h => ha (List.any_eq_true.2 ⟨y, hy, by simp [h]⟩)
              simp [this]
            rw [this]
      · have ha : d.any (fun e => e.1 = k) = true := by simpa [hek] using hk
        have := ih ha
        by_cases hex : e.1 = x
        · have : ¬ x = k := fun h => hek (hex.trans h)
          simp [hex, this]
        · simpa [hek, hex] using this
  · rw [if_neg hk, List.find?_append]
    by_cases hx : x = k
    · have : d.find? (fun e => e.1 = x) = none := by
        rw [List.find?_eq_none]; intro y hy hy'
        apply hk; rw [List.any_eq_true]; exact ⟨y, hy, by rw [← hx]; exact hy'⟩
      subst hx; simp [this]
    · have hx' : ¬ k = x := fun h => hx h.symm
      simp [hx, hx']

private theorem dict_setDict (m : ModSt) (t u : Table) (d : Dict) :
    (m.setDict t d).dict u = if u = t then d else m.dict u := by
  cases t <;> cases u <;> rfl

theorem dict_store (m : ModSt) (o : Obj) (t : Table) (x : String) :
    ((m.store o).dict t).get x =
      if t = o.kind.table ∧ x = o.name then some o else (m.dict t).get x := by
  have : (m.store o).dict t = (m.setDict o.kind.table ((m.dict o.kind.table).set o.name o)).dict t := by
    unfold ModSt.store; cases t <;> rfl
  rw [this, dict_setDict]
  by_cases ht : t = o.kind.table
  · subst ht; simp only [if_true, get_set, true_and]
  · simp [ht]

theorem items_store (m : ModSt) (o : Obj) : (m.store o).items = m.items ++ [o] := by
  unfold ModSt.store ModSt.setDict; cases o.kind.table <;> rfl

/-- The tables hold, for each name, one of the items of that name and table. -/
private structure Inv (m : ModSt) : Prop where
  mem : ∀ t x o, (m.dict t).get x = some o → o ∈ m.items ∧ o.name = x ∧ o.kind.table = t
  has : ∀ o ∈ m.items, (m.dict o.kind.table).get o.name ≠ none
  ports : ∀ x, (m.items.filter fun o => o.name = x ∧ o.kind.table = .io).length ≤ 1
  vars : ∀ x, (∀ o ∈ m.items, o.name = x → o.kind.table ≠ .io) →
    (m.items.filter fun o => o.name = x).length ≤ 1

private theorem find_none {m : ModSt} (hi : Inv m) {x : String} (h : m.find x = none) :
    ∀ o ∈ m.items, o.name ≠ x := by
  intro o ho hx
  have := hi.has o ho
  apply this
  rw [hx]
  unfold ModSt.find at h
  split at h <;> try contradiction
  rename_i h1
  split at h <;> try contradiction
  rename_i h2
  split at h <;> try contradiction
  rename_i h3
  cases o.kind.table <;> assumption

private theorem find_some {m : ModSt} (hi : Inv m) {x : String} {o : Obj} (h : m.find x = some o) :
    o ∈ m.items ∧ o.name = x ∧ (o.kind.table ≠ .io → ∀ p ∈ m.items, p.name = x → p.kind.table ≠ .io) := by
  unfold ModSt.find at h
  split at h
  · rename_i o' h1
    cases h
    obtain ⟨a, b, c⟩ := hi.mem .io x o h1
    exact ⟨a, b, fun h => absurd c h⟩
  · rename_i h1
    have hp : ∀ p ∈ m.items, p.name = x → p.kind.table ≠ .io := by
      intro p hp hx ht
      have := hi.has p hp
      rw [ht, hx] at this
      exact this h1
    split at h
    · rename_i o' h2
      cases h
      obtain ⟨a, b, c⟩ := hi.mem .var x o h2
      exact ⟨a, b, fun _ => hp⟩
    · split at h
      · rename_i o' h2
        cases h
        obtain ⟨a, b, c⟩ := hi.mem .glob x o h2
        exact ⟨a, b, fun _ => hp⟩
      · obtain ⟨a, b, c⟩ := hi.mem .loc x o h
        exact ⟨a, b, fun _ => hp⟩

private theorem filter_none {l : List Obj} {x : String} (h : ∀ o ∈ l, o.name ≠ x) :
    l.filter (fun o => o.name = x) = [] := by
  rw [List.filter_eq_nil_iff]; intro o ho; simpa using h o ho

/-- Storing an object keeps the invariant if no port of the name exists, or the object is not a port
    and the existing object is. -/
private theorem Inv.store {m : ModSt} (hi : Inv m) (o : Obj)
    (h : (∀ p ∈ m.items, p.name ≠ o.name) ∨
      (o.kind.table = .io ∧ ∀ p ∈ m.items, p.name = o.name → p.kind.table ≠ .io) ∨
      (o.kind.table ≠ .io ∧ ∃ p ∈ m.items, p.name = o.name ∧ p.kind.table = .io)) :
    Inv (m.store o) := by
  constructor
  · intro t x p hp
    rw [dict_store] at hp
    rw [items_store]
    split at hp
    · rename_i hc; cases hp; exact ⟨by simp, hc.2.symm, hc.1.symm⟩
    · obtain ⟨a, b, c⟩ := hi.mem t x p hp
      exact ⟨by simp [a], b, c⟩
  · intro p hp
    rw [items_store] at hp
    rw [dict_store]
    split
    · simp
    · rename_i hc
      rcases List.mem_append.1 hp with hp | hp
      · exact hi.has p hp
      · rw [List.mem_singleton.1 hp] at hc; simp at hc
  · intro x
    rw [items_store, List.filter_append, List.length_append]
    by_cases hx : o.name = x ∧ o.kind.table = .io
    · have : m.items.filter (fun o => o.name = x ∧ o.kind.table = .io) = [] := by
        rw [List.filter_eq_nil_iff]
        intro p hp hpx
        simp only [decide_eq_true_eq] at hpx
        rcases h with h | h | h
        · exact h p hp (hpx.1.trans hx.1.symm)
        · exact h.2 p hp (hpx.1.trans hx.1.symm) hpx.2
        · exact h.1 hx.2
      rw [this]; simp [hx]
    · have : [o].filter (fun o => o.name = x ∧ o.kind.table = .io) = [] := by
        simpa using hx
      rw [this]; simpa using hi.ports x
  · intro x hx
    rw [items_store] at hx ⊢
    rw [List.filter_append, List.length_append]
    have hx' : ∀ o ∈ m.items, o.name = x → o.kind.table ≠ .io := fun p hp => hx p (by simp [hp])
    by_cases hox : o.name = x
    · have ho : o.kind.table ≠ .io := hx o (by simp) hox
      have hall : ∀ p ∈ m.items, p.name ≠ x := by
        rcases h with h | h | h
        · rw [← hox]; exact h
        · exact absurd h.1 ho
        · obtain ⟨p, hp, hpn, hpt⟩ := h.2
          exact absurd hpt (hx' p hp (hpn.trans hox))
      rw [filter_none hall]; simp [hox]
    · have : [o].filter (fun o => o.name = x) = [] := by simpa using hox
      rw [this]; simpa using hi.vars x hx'

private theorem Inv.count {m : ModSt} (hi : Inv m) (n : Nat) : Inv { m with tmpCount := n } := by
  have hd : ∀ t, ({ m with tmpCount := n } : ModSt).dict t = m.dict t := by intro t; cases t <;> rfl
  exact ⟨fun t x o h => hi.mem t x o (by rw [hd] at h; exact h),
    fun o h => by rw [hd]; exact hi.has o h, hi.ports, hi.vars⟩

private theorem Inv.declare {m m' : ModSt} (hi : Inv m) {o : Obj} (h : m.declare o = some m') :
    Inv m' := by
  unfold ModSt.declare at h
  split at h <;> try contradiction
  rename_i hc
  split at h <;> try contradiction
  cases h
  apply hi.store
  unfold ModSt.checkExisting at hc
  cases hf : m.find o.name with
  | none => exact Or.inl (find_none hi hf)
  | some p =>
    rw [hf] at hc
    obtain ⟨a, b, c⟩ := find_some hi hf
    have hc : p.kind ∈ ModSt.Kind.compatible o.kind := by simpa using hc
    refine Or.inr ?_
    by_cases ht : o.kind.table = .io
    · refine Or.inl ⟨ht, c ?_⟩
      revert hc ht
      cases o.kind <;> cases p.kind <;> simp [ModSt.Kind.compatible, Kind.table]
    · refine Or.inr ⟨ht, p, a, b, ?_⟩
      revert hc ht
      cases o.kind <;> cases p.kind <;> simp [ModSt.Kind.compatible, Kind.table]

private theorem Inv.apply {m m' : ModSt} (hi : Inv m) {op : Op} (h : op.apply m = some m') :
    Inv m' := by
  cases op with
  | declare o => exact hi.declare h
  | tmp pre o => exact (hi.count _).declare h
  | outputReg o =>
    simp only [Op.apply, ModSt.outputReg] at h
    split at h <;> try contradiction
    rename_i hc
    cases h
    have hnone : m.find o.name = none := by
      unfold ModSt.checkExisting at hc
      cases hf : m.find o.name with
      | none => rfl
      | some p => simp [hf] at hc
    have h1 := hi.store { o with kind := .output } (Or.inl (find_none hi hnone))
    refine h1.store _ (Or.inr (Or.inr ⟨by simp [Kind.table], { o with kind := .output }, ?_, rfl, rfl⟩))
    rw [items_store]; simp

private theorem Inv.run : ∀ {ops : List Op} {m m' : ModSt} {ns : List String}, Inv m →
    run m ops = some (m', ns) → Inv m'
  | [], m, m', ns, hi, h => by
    simp only [Module.run, Option.some.injEq, Prod.mk.injEq] at h
    rw [← h.1]; exact hi
  | op :: ops, m, m', ns, hi, h => by
    simp only [Module.run, Option.bind_eq_some_iff, Option.map_eq_some_iff] at h
    obtain ⟨m1, h1, ⟨r, ns1⟩, h2, h3⟩ := h
    simp only [Prod.mk.injEq] at h3
    rw [← h3.1]
    exact Inv.run (hi.apply h1) h2

private theorem Inv.fresh (p : String) : Inv { tmpPrefix := p } := by
  constructor
  · intro t x o h; cases t <;> simp [ModSt.dict, Dict.get] at h
  · intro o h; simp at h
  · simp
  · simp

/-- C51: in a module built from scratch, however the declarations are ordered, no two ports have the
    same name. -/
theorem c51_ports_unique {ops : List Op} {p : String} {m' : ModSt} {ns : List String}
    (h : run { tmpPrefix := p } ops = some (m', ns)) (x : String) :
    (m'.items.filter fun o => o.name = x ∧ (o.kind = .input ∨ o.kind = .output ∨ o.kind = .inout)).length
      ≤ 1 := by
  refine Nat.le_trans (Nat.le_of_eq ?_) (((Inv.fresh p).run h).ports x)
  congr 2
  funext o
  cases o.kind <;> simp [Kind.table]

/-- C51: a name that is not also a port is defined exactly once, and the lookup finds it. -/
theorem c51_defined_once {ops : List Op} {p : String} {m' : ModSt} {ns : List String}
    (h : run { tmpPrefix := p } ops = some (m', ns)) {o : Obj} (ho : o ∈ m'.items)
    (hp : ∀ q ∈ m'.items, q.name = o.name →
      q.kind ≠ .input ∧ q.kind ≠ .output ∧ q.kind ≠ .inout) :
    m'.items.filter (fun q => q.name = o.name) = [o] ∧ m'.find o.name = some o := by
  have hi := (Inv.fresh p).run h
  have hx : ∀ q ∈ m'.items, q.name = o.name → q.kind.table ≠ .io := by
    intro q hq hn ht
    obtain ⟨a, b, c⟩ := hp q hq hn
    cases hk : q.kind <;> simp_all [Kind.table]
  have h1 := hi.vars o.name hx
  have hone : m'.items.filter (fun q => q.name = o.name) = [o] := by
    have hm : o ∈ m'.items.filter (fun q => q.name = o.name) := by simp [ho]
    match hl : m'.items.filter (fun q => q.name = o.name) with
    | [] => rw [hl] at hm; simp at hm
    | [a] => rw [hl] at hm; cases List.mem_singleton.1 hm; exact hl
    | _ :: _ :: _ => rw [hl] at h1; simp at h1
  refine ⟨hone, ?_⟩
  cases hf : m'.find o.name with
  | none => exact absurd rfl (find_none hi hf o ho)
  | some q =>
    obtain ⟨a, b, -⟩ := find_some hi hf
    have : q ∈ m'.items.filter (fun q => q.name = o.name) := by simp [a, b]
    rw [hone] at this
    rw [List.mem_singleton.1 this]

/-- C51: a wire cannot be declared for a name that is already a register. -/
theorem c51_wire_after_reg {ops : List Op} {p : String} {m' : ModSt} {ns : List String}
    (h : run { tmpPrefix := p } ops = some (m', ns)) {o : Obj} (ho : o ∈ m'.items) (hk : o.kind = .reg)
    (hv : ∀ q ∈ m'.items, q.name = o.name → q.kind = .reg ∨ q.kind.table = .io) (w : Obj)
    (hw : w.kind = .wire) (hn : w.name = o.name) : m'.declare w = none := by
  have hi := (Inv.fresh p).run h
  unfold ModSt.declare
  split
  · rfl
  · rw [if_pos]
    refine ⟨hw, ?_⟩
    unfold ModSt.isReg
    have hhas := hi.has o ho
    rw [hk, ← hn] at hhas
    cases hg : m'.var.get w.name with
    | none => exact absurd hg hhas
    | some q =>
      obtain ⟨a, b, c⟩ := hi.mem .var w.name q hg
      rcases hv q a (b.trans hn) with hq | hq
      · simp [hq]
      · rw [c] at hq; cases hq

/-- C51 does not hold for names of ports: `Output x`, `Wire x`, `Reg x` are all accepted and leave
    both a wire and a register called `x` (`Reg` accepts a name for which an `Output` exists without
    looking at the variables, core/module.py:110). -/
theorem c51_wire_and_reg (x : String) :
    (run {} [.declare { kind := .output, name := x }, .declare { kind := .wire, name := x },
      .declare { kind := .reg, name := x }]).map (fun r => r.1.items.map fun o => (o.kind, o.name)) =
    some [(.output, x), (.wire, x), (.reg, x)] := by
  simp [run, Op.apply, ModSt.declare, ModSt.checkExisting, ModSt.find, Dict.get, ModSt.store,
    ModSt.setDict, Kind.table, ModSt.dict, Dict.set, ModSt.Kind.compatible, ModSt.isReg]

/-! Examples. -/

/-- A program with interleaved prefixes, one of which looks like a generated name. -/
private def prog : List Op :=
  [.tmp none { kind := .reg, name := "" }, .tmp (some "_tmp_0") { kind := .wire, name := "" },
   .declare { kind := .output, name := "y" }, .tmp (some "_tmp") { kind := .localparam, name := "" },
   .declare { kind := .wire, name := "y" }, .outputReg { kind := .reg, name := "z" }]

example : (run {} prog).map Prod.snd = some ["_tmp_0", "_tmp_0_1", "_tmp_2"] := by decide
example : (run {} (prog ++ [.declare { kind := .integer, name := "_tmp_0_1" }])).isNone := by decide
example : (run {} prog).map (fun r => (r.1.items.map (·.name))) =
    some ["_tmp_0", "_tmp_0_1", "y", "_tmp_2", "y", "z", "z"] := by decide

example : (run {} [.declare { kind := .output, name := "y" }, .declare { kind := .reg, name := "y" },
    .declare { kind := .wire, name := "y" }]).isNone := by decide

end Module
