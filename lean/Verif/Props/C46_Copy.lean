import Verif.Props.C45_Names

/-!
# C46: copying and connecting ports, parameters and variables
-/

namespace Module

/-- The pattern given to `re.match` for a user pattern. -/
def Filter.pat (f : Filter) (p : String) : String := if f.fullmatch then "^" ++ p ++ "$" else p

/-- The objects the user asked for: the name matches an `include` pattern (or there are none) and
    no `exclude` pattern. -/
def Selected (re : String → String → Bool) (f : Filter) (key : String) : Prop :=
  (f.incl = [] ∨ ∃ p ∈ f.incl, re (f.pat p) key = true) ∧ ¬ ∃ p ∈ f.excl, re (f.pat p) key = true

private theorem foldl_const (v : Bool) (q : String → Bool) : ∀ (l : List String) (s : Bool),
    l.foldl (fun s p => if q p then v else s) s = if l.any q then v else s
  | [], s => by simp
  | p :: l, s => by
    rw [List.foldl_cons, foldl_const v q l]
    by_cases h : q p <;> by_cases h' : l.any q <;> simp [h, h']

/-- C46: the objects that are not skipped are exactly the selected ones. -/
theorem c46_selected (re : String → String → Bool) (f : Filter) (key : String) :
    f.skip re key = false ↔ Selected re f key := by
  have e : f.skip re key = (if f.excl.any (fun p => re (f.pat p) key) then true
      else if f.incl.any (fun p => re (f.pat p) key) then false else !f.incl.isEmpty) := by
    unfold Filter.skip
    rw [← foldl_const true (fun p => re (f.pat p) key),
      ← foldl_const false (fun p => re (f.pat p) key)]
    rfl
  have h1 : f.excl.any (fun p => re (f.pat p) key) = true ↔ ∃ p ∈ f.excl, re (f.pat p) key = true :=
    List.any_eq_true
  have h2 : f.incl.any (fun p => re (f.pat p) key) = true ↔ ∃ p ∈ f.incl, re (f.pat p) key = true :=
    List.any_eq_true
  have h3 : f.incl.isEmpty = true ↔ f.incl = [] := List.isEmpty_iff
  rw [e]
  unfold Selected
  rw [← h1, ← h2, ← h3]
  cases f.excl.any (fun p => re (f.pat p) key) <;> cases f.incl.any (fun p => re (f.pat p) key) <;>
    cases f.incl.isEmpty <;> simp

private theorem name_inj (n : Naming) {x y : String} (h : n.name x = n.name y) : x = y := by
  have h' := congrArg String.toList h
  simp only [Naming.name, String.toList_append] at h'
  exact String.toList_inj.1 (List.append_cancel_left (List.append_cancel_right h'))

private theorem set_new (d : Dict) (k : String) (v : Obj) (h : k ∉ d.map Prod.fst) :
    d.set k v = d ++ [(k, v)] := by
  unfold Dict.set
  rw [if_neg]
  intro h'
  obtain ⟨e, he, hk⟩ := List.any_eq_true.1 h'
  apply h
  rw [List.mem_map]
  exact ⟨e, he, by simpa using hk⟩

/-- C46: copying from a table whose keys are the names of its objects returns one object for each
    selected entry, in the order of the table, keyed by its prefixed and postfixed name; it appends
    exactly these objects to the module.  The copy keeps signedness, its class is the one of the
    copying method, and its width and value are renamed. -/
theorem c46_copy (re : String → String → Bool) (f : Filter) (n : Naming) (mode : Mode) (m : ModSt)
    (src : Dict) (hkey : ∀ e ∈ src, e.2.name = e.1) (hnd : (src.map Prod.fst).Nodup) :
    let sel := src.filter fun e => !f.skip re e.1
    (copyAll re f n mode m src).2 = sel.map (fun e => (n.pre ++ e.1 ++ n.post,
      { kind := mode.kind e.2.kind, name := n.pre ++ e.1 ++ n.post, signed := e.2.signed,
        width := e.2.width.map (WExpr.rename n.pre n.post n.keep),
        value := e.2.value.map (WExpr.rename n.pre n.post n.keep) })) ∧
    (copyAll re f n mode m src).1.items = m.items ++ (copyAll re f n mode m src).2.map Prod.snd := by
  have key : ∀ (src : Dict) (m : ModSt) (d : Dict), (∀ e ∈ src, e.2.name = e.1) →
      (src.map Prod.fst).Nodup → (∀ e ∈ src, n.name e.1 ∉ d.map Prod.fst) →
      let r := src.foldl (copyStep re f n mode) (m, d)
      r.2 = d ++ (src.filter fun e => !f.skip re e.1).map
        (fun e => (n.name e.1, n.copyAs mode e.2)) ∧
      r.1.items = m.items ++ ((src.filter fun e => !f.skip re e.1).map
        (fun e => n.copyAs mode e.2)) := by
    intro src
    induction src with
    | nil => intro m d _ _ _; simp
    | cons e src ih =>
      intro m d hk hnd hd
      rw [List.map_cons, List.nodup_cons] at hnd
      rw [List.foldl_cons]
      by_cases hs : f.skip re e.1 = true
      · rw [show copyStep re f n mode (m, d) e = (m, d) from if_pos hs]
        simp only [hs, List.filter_cons, Bool.not_true, Bool.false_eq_true, if_false]
        exact ih m d (fun x hx => hk x (by simp [hx])) hnd.2 (fun x hx => hd x (by simp [hx]))
      · have he : e.2.name = e.1 := hk e (by simp)
        have hn : (n.copyAs mode e.2).name = n.name e.1 := by rw [← he]; rfl
        have hset : d.set (n.copyAs mode e.2).name (n.copyAs mode e.2) =
            d ++ [(n.name e.1, n.copyAs mode e.2)] := by
          rw [hn]; exact set_new _ _ _ (hd e (by simp))
        have := ih (m.store (n.copyAs mode e.2)) (d ++ [(n.name e.1, n.copyAs mode e.2)])
          (fun x hx => hk x (by simp [hx])) hnd.2 (by
            intro x hx hmem
            rw [List.map_append, List.mem_append] at hmem
            rcases hmem with hmem | hmem
            · exact hd x (by simp [hx]) hmem
            · simp only [List.map_cons, List.map_nil, List.mem_singleton] at hmem
              have hxe := name_inj n hmem
              exact hnd.1 (List.mem_map.2 ⟨x, hx, hxe⟩))
        rw [show copyStep re f n mode (m, d) e = (m.store (n.copyAs mode e.2),
          d.set (n.copyAs mode e.2).name (n.copyAs mode e.2)) from if_neg hs, hset]
        simp only [hs, List.filter_cons, Bool.not_false, if_true, List.map_cons]
        obtain ⟨h1, h2⟩ := this
        refine ⟨?_, ?_⟩
        · rw [h1]; simp
        · rw [h2, items_store]; simp
  obtain ⟨h1, h2⟩ := key src m [] hkey hnd (by simp)
  simp only [List.nil_append] at h1
  refine ⟨?_, ?_⟩
  · show (copyAll re f n mode m src).2 = _
    unfold copyAll
    rw [h1]
    apply List.map_congr_left
    intro e he
    simp only [Naming.copyAs, Naming.copy, Naming.name, hkey e (List.mem_filter.1 he).1]
  · show (copyAll re f n mode m src).1.items = _
    unfold copyAll
    rw [h2, h1, List.map_map]
    rfl

/-- C46: the renamed width (or parameter value) of a copy means the same as the original one, when
    the renamed constants have the values of the original ones. -/
theorem c46_width (n : Naming) (w : WExpr) (env env' : String → Int)
    (h : ∀ x, x ∉ n.keep → env' (n.pre ++ x ++ n.post) = env x) (hk : ∀ x ∈ n.keep, env' x = env x) :
    (w.rename n.pre n.post n.keep).eval env' = w.eval env := by
  induction w with
  | int n => rfl
  | var x =>
    by_cases hx : x ∈ n.keep
    · simp [WExpr.rename, WExpr.eval, hx, hk]
    · simp [WExpr.rename, WExpr.eval, hx, h]
  | un f a iha => simp [WExpr.rename, WExpr.eval, iha]
  | bin f a b iha ihb => simp [WExpr.rename, WExpr.eval, iha, ihb]
  | cond c t e ihc iht ihe => simp [WExpr.rename, WExpr.eval, ihc, iht, ihe]

/-! ### Connecting -/

/-- What the connecting method binds to a key. -/
private def target (n : Naming) (first second : Dict) (x : String) : Option Obj :=
  match first.get (n.name x) with
  | some o => some o
  | none => second.get (n.name x)

private theorem connect_get (re : String → String → Bool) (f : Filter) (n : Naming) (strict : Bool)
    (first second : Dict) : ∀ (targ acc r : Dict),
    connectAll re f n strict first second acc targ = some r →
    ∀ x, r.get x = if targ.any (fun e => e.1 = x) && !f.skip re x then
      (match target n first second x with
        | some o => some o
        | none => acc.get x) else acc.get x := by
  intro targ
  induction targ with
  | nil => intro acc r h x; cases h; simp
  | cons e targ ih =>
    intro acc r h x
    have hany : ¬ e.1 = x →
        List.any (e :: targ) (fun e => e.1 = x) = List.any targ (fun e => e.1 = x) := by
      intro hx; rw [List.any_cons, decide_eq_false hx, Bool.false_or]
    unfold connectAll at h
    split at h
    · rename_i hs
      rw [ih acc r h x]
      by_cases hx : e.1 = x
      · subst hx; simp [hs]
      · rw [hany hx]
    · rename_i hs
      have hs : f.skip re e.1 = false := by simpa using hs
      simp only [Option.bind_eq_some_iff] at h
      obtain ⟨o, ho, h⟩ := h
      rw [ih _ r h x]
      have hoT : o = target n first second e.1 := by
        unfold connectOne at ho; unfold target
        split at ho
        · rename_i o1 h1; cases ho; rw [h1]
        · rename_i h1
          split at ho
          · rename_i o2 h2; cases ho; rw [h1]; exact h2.symm
          · rename_i h2
            split at ho
            · contradiction
            · cases ho; rw [h1]; exact h2.symm
      by_cases hx : e.1 = x
      · subst hx
        rw [← hoT]
        cases o with
        | none => simp [hs, Dict.bind]
        | some o => simp [hs, get_set, Dict.bind]
      · have hacc : (acc.bind e.1 o).get x = acc.get x := by
          cases o with
          | none => rfl
          | some o => exact (get_set ..).trans (if_neg (fun h => hx h.symm))
        rw [hacc, hany hx]

/-- C46: `connect_ports` / `connect_params` bind exactly the selected names of the target for which
    this module has an object of the prefixed name, and bind each to that object; the first table
    (ports, parameters) is preferred to the second (variables, local parameters). -/
theorem c46_connect (re : String → String → Bool) (f : Filter) (n : Naming) (strict : Bool)
    (first second targ r : Dict)
    (h : connectAll re f n strict first second [] targ = some r) (x : String) (o : Obj) :
    r.get x = some o ↔
      (∃ e ∈ targ, e.1 = x) ∧ Selected re f x ∧
        (first.get (n.pre ++ x ++ n.post) = some o ∨
          (first.get (n.pre ++ x ++ n.post) = none ∧ second.get (n.pre ++ x ++ n.post) = some o)) := by
  rw [connect_get re f n strict first second targ [] r h x, ← c46_selected]
  have hname : n.name x = n.pre ++ x ++ n.post := rfl
  have hnil : Dict.get [] x = none := rfl
  unfold target
  rw [hname, hnil]
  have hany : (targ.any (fun e => e.1 = x) && !f.skip re x) = true ↔
      (∃ e ∈ targ, e.1 = x) ∧ f.skip re x = false := by simp
  by_cases hc : (∃ e ∈ targ, e.1 = x) ∧ f.skip re x = false
  · rw [if_pos (hany.2 hc)]
    cases h1 : first.get (n.pre ++ x ++ n.post) with
    | some o1 => simp [hc]
    | none => cases h2 : second.get (n.pre ++ x ++ n.post) <;> simp [hc]
  · rw [if_neg (fun h => hc (hany.1 h))]
    constructor
    · intro h; simp at h
    · rintro ⟨a, b, -⟩; exact absurd ⟨a, b⟩ hc

/-- C46: with `strict`, connecting fails exactly if some selected name has no object. -/
theorem c46_strict (re : String → String → Bool) (f : Filter) (n : Naming)
    (first second : Dict) : ∀ (targ acc : Dict),
    connectAll re f n true first second acc targ = none ↔
      ∃ e ∈ targ, Selected re f e.1 ∧ first.get (n.pre ++ e.1 ++ n.post) = none ∧
        second.get (n.pre ++ e.1 ++ n.post) = none
  | [], acc => by simp [connectAll]
  | e :: targ, acc => by
    unfold connectAll
    have ih := c46_strict re f n first second targ
    have hname : n.name e.1 = n.pre ++ e.1 ++ n.post := rfl
    by_cases hs : f.skip re e.1 = true
    · rw [if_pos hs, ih]
      have hns : ¬ Selected re f e.1 := by rw [← c46_selected, hs]; simp
      simp [hns]
    · have hsel : Selected re f e.1 := by rw [← c46_selected]; simpa using hs
      rw [if_neg hs]
      unfold connectOne
      rw [hname]
      cases h1 : first.get (n.pre ++ e.1 ++ n.post) with
      | some o => simp [ih, h1]
      | none =>
        cases h2 : second.get (n.pre ++ e.1 ++ n.post) with
        | some o => simp [ih, h1, h2]
        | none => simp [h1, h2, hsel]

/-- C46: after `copy_ports(src, prefix, postfix, include, exclude)`, `connect_ports(src, ...)` with
    the same arguments connects every selected port of `src` to its copy. -/
theorem c46_copy_then_connect (re : String → String → Bool) (f : Filter) (n : Naming) (m : ModSt)
    (src : Dict) (hkey : ∀ e ∈ src, e.2.name = e.1) (hnd : (src.map Prod.fst).Nodup)
    (hio : ∀ e ∈ src, e.2.kind.table = .io) (second : Dict) :
    ∃ r, connectAll re f n true (copyAll re f n .same m src).1.io second [] src = some r ∧
      ∀ e ∈ src, Selected re f e.1 → r.get e.1 = some (n.copy e.2) := by
  have key : ∀ (src : Dict) (m : ModSt) (d : Dict), (∀ e ∈ src, e.2.name = e.1) →
      (src.map Prod.fst).Nodup → (∀ e ∈ src, e.2.kind.table = .io) →
      let r := (src.foldl (copyStep re f n .same) (m, d)).1
      (∀ e ∈ src, f.skip re e.1 = false → (r.dict .io).get (n.name e.1) = some (n.copy e.2)) ∧
      ∀ x, (∀ e ∈ src, n.name e.1 ≠ x) → (r.dict .io).get x = (m.dict .io).get x := by
    intro src
    induction src with
    | nil => intro m d _ _ _; simp
    | cons e src ih =>
      intro m d hk hnd hio
      rw [List.map_cons, List.nodup_cons] at hnd
      rw [List.foldl_cons]
      by_cases hs : f.skip re e.1 = true
      · obtain ⟨a, b⟩ := ih m d (fun x hx => hk x (by simp [hx])) hnd.2
          (fun x hx => hio x (by simp [hx]))
        rw [show copyStep re f n .same (m, d) e = (m, d) from if_pos hs]
        refine ⟨?_, fun x hx => b x fun y hy => hx y (by simp [hy])⟩
        intro y hy hys
        rcases List.mem_cons.1 hy with rfl | hy
        · rw [hs] at hys; contradiction
        · exact a y hy hys
      · rw [show copyStep re f n .same (m, d) e = (m.store (n.copy e.2),
          d.set (n.copy e.2).name (n.copy e.2)) from if_neg hs]
        obtain ⟨a, b⟩ := ih (m.store (n.copy e.2)) (d.set (n.copy e.2).name (n.copy e.2))
          (fun x hx => hk x (by simp [hx])) hnd.2 (fun x hx => hio x (by simp [hx]))
        have hn : (n.copy e.2).name = n.name e.1 := by rw [← hk e (by simp)]; rfl
        have ht : (n.copy e.2).kind.table = .io := hio e (by simp)
        refine ⟨?_, ?_⟩
        · intro y hy hys
          rcases List.mem_cons.1 hy with rfl | hy
          · refine (b (n.name y.1) ?_).trans ?_
            · intro z hz hzy
              exact hnd.1 (List.mem_map.2 ⟨z, hz, name_inj n hzy⟩)
            · rw [dict_store, if_pos ⟨ht.symm, hn.symm⟩]
          · exact a y hy hys
        · intro x hx
          refine (b x fun y hy => hx y (by simp [hy])).trans ?_
          rw [dict_store, if_neg]
          rintro ⟨-, h⟩
          exact hx e (by simp) (hn.symm.trans h.symm)
  obtain ⟨hget, -⟩ := key src m [] hkey hnd hio
  have hget' : ∀ e ∈ src, f.skip re e.1 = false →
      (copyAll re f n .same m src).1.io.get (n.pre ++ e.1 ++ n.post) = some (n.copy e.2) := hget
  cases hr : connectAll re f n true (copyAll re f n .same m src).1.io second [] src with
  | none =>
    rw [c46_strict] at hr
    obtain ⟨e, he, hsel, hnone, -⟩ := hr
    rw [hget' e he ((c46_selected re f e.1).2 hsel)] at hnone
    contradiction
  | some r =>
    refine ⟨r, rfl, ?_⟩
    intro e he hsel
    rw [c46_connect re f n true _ second src r hr]
    exact ⟨⟨e, he, rfl⟩, hsel, Or.inl (hget' e he ((c46_selected re f e.1).2 hsel))⟩

/-- Copying is not checked against existing names (`add_object` stores without a test,
    core/module.py:1026-1056): copying the same port twice defines it twice. -/
theorem c46_copy_twice (x : String) :
    let src : Dict := [(x, { kind := .input, name := x })]
    let m1 := (copyAll (fun _ _ => true) {} {} .same {} src).1
    (copyAll (fun _ _ => true) {} {} .same m1 src).1.items.map (fun o => (o.kind, o.name)) =
      [(.input, x), (.input, x)] := by
  simp [copyAll, copyStep, Naming.copyAs, Filter.skip, Naming.copy, Naming.name, Mode.kind, ModSt.store, ModSt.setDict,
    Kind.table]

/-- C46: `copy_ports_as_vars` makes a register (or, with `use_wire`, a wire) for each selected input and a wire
    for each other port. -/
theorem c46_as_vars (re : String → String → Bool) (f : Filter) (n : Naming) (w : Bool) (m : ModSt)
    (src : Dict) (hkey : ∀ e ∈ src, e.2.name = e.1) (hnd : (src.map Prod.fst).Nodup) (e : String × Obj)
    (he : e ∈ src) (hs : Selected re f e.1) :
    ∃ o ∈ (copyAll re f n (.asVar w) m src).1.items, o.name = n.pre ++ e.1 ++ n.post ∧
      (e.2.kind = .input ∧ w = false → o.kind = .reg) ∧ (e.2.kind ≠ .input ∨ w = true → o.kind = .wire) := by
  obtain ⟨h1, h2⟩ := c46_copy re f n (.asVar w) m src hkey hnd
  have hsk : f.skip re e.1 = false := (c46_selected re f e.1).2 hs
  have hmem : e ∈ src.filter fun e => !f.skip re e.1 := List.mem_filter.2 ⟨he, by simp [hsk]⟩
  have hin : ({ n.copy e.2 with kind := opposite w e.2.kind, name := n.pre ++ e.1 ++ n.post } : Obj) ∈
      (copyAll re f n (.asVar w) m src).1.items := by
    rw [h2, List.mem_append, h1, List.map_map]
    exact .inr (List.mem_map.2 ⟨e, hmem, rfl⟩)
  refine ⟨_, hin, rfl, ?_, ?_⟩
  · rintro ⟨hk, rfl⟩
    show opposite false e.2.kind = .reg
    rw [hk]; rfl
  · intro hk
    show opposite w e.2.kind = .wire
    rcases hk with hk | rfl
    · cases hkk : e.2.kind <;> first | rfl | exact absurd hkk hk
    · cases e.2.kind <;> rfl

/-! Examples. -/

/-- Two data ports and a clock. -/
private def srcPorts : Dict :=
  [("CLK", { kind := .input, name := "CLK" }),
   ("din", { kind := .input, name := "din", width := some (.var "W") }),
   ("dout", { kind := .output, name := "dout", width := some (.var "W"), signed := true })]

private def prefixMatch (p key : String) : Bool := p.toList.isPrefixOf key.toList

example : (∀ e ∈ srcPorts, e.2.name = e.1) ∧ (srcPorts.map Prod.fst).Nodup ∧
    (∀ e ∈ srcPorts, e.2.kind.table = .io) := by
  simp [srcPorts, Kind.table]
example : ((copyAll prefixMatch { incl := ["d"], excl := ["do"] } { pre := "a_", post := "_b" } .same {}
    srcPorts).2.map Prod.fst) = ["a_din_b"] := by decide
example : Selected prefixMatch { incl := ["d"], excl := ["do"] } "din" := by
  rw [← c46_selected]; decide
example : (connectAll prefixMatch { excl := ["C"] } { pre := "u_" } true
    (copyAll prefixMatch { excl := ["C"] } { pre := "u_" } .same {} srcPorts).1.io [] [] srcPorts).map
      (fun r => r.map fun e => (e.1, e.2.name)) = some [("din", "u_din"), ("dout", "u_dout")] := by
  decide
example : ((WExpr.bin (· * ·) (.var "W") (.int 2)).rename "p_" "" []).eval
    (fun x => if x = "p_W" then 8 else 0) = 16 := by decide

end Module
