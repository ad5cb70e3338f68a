import Verif.Model.ArgBind
import Mathlib.Data.List.Nodup

/-!
# C82: arguments of calls in threads

In a call `f(args, key=value, ...)` of a user function from a thread, each parameter gets the argument that Python gives it: by
position, by keyword, or its default value, and `*args` the positional arguments that remain.  The arguments are evaluated before
any of the parameters is written.  Calls with too many positional arguments, with two values for a parameter or with unknown
keywords are rejected.
-/

namespace ABind

variable {O : Type}

/-! ## What Python does -/

/-- Python's rule for functions with parameters `args` and `*vararg`: no more positional arguments than parameters (unless there is
    `*vararg`), every keyword is a parameter not given by position, and the remaining parameters have default values. -/
structure Accepts (sig : Sig) (args : List (Arg O)) (kws : List (String × Arg O)) : Prop where
  pos : args.length ≤ sig.args.length ∨ sig.vararg.isSome = true
  key : ∀ x ∈ kws, x.1 ∈ sig.args.drop args.length
  all : ∀ i (h : i < sig.args.length), args.length ≤ i → i + sig.defaults.length < sig.args.length →
    ∃ x ∈ kws, x.1 = sig.args[i]

/-- The value of an argument in the state of the call, cut to the width of a register. -/
def Arg.val (dw : ℕ) (st : Store) : Arg O → PVal O
  | .num e => .int (Int.bmod (e st) (2 ^ dw))
  | .obj o => .obj o

/-- The value of an argument in the list of `*args`. -/
def Arg.val1 (dw : ℕ) (st : Store) : Arg O → ℤ ⊕ O
  | .num e => .inl (Int.bmod (e st) (2 ^ dw))
  | .obj o => .inr o

/-- The well-formed definitions (as the Python parser demands), with default values that are literals. -/
structure Sig.Plain (sig : Sig) : Prop where
  posonly : sig.posonly = []
  nodup : sig.args.Nodup
  vararg : ∀ v, sig.vararg = some v → v ∉ sig.args
  defaults : sig.defaults.length ≤ sig.args.length
  lit : ∀ d ∈ sig.defaults, ∃ z, d = .lit z

/-! ## Lemmas -/

/-- A thing to be bound. -/
abbrev Item (O : Type) := String × (Arg O ⊕ List (Arg O))

/-- Binding to a new name. -/
def bindNew (s : BSt O) : Item O → BSt O
  | (n, .inl (.obj o)) => { s with env := (n, .obj o) :: s.env }
  | (n, .inl (.num e)) => ⟨(n, .reg s.regs) :: s.env, s.regs + 1, s.binds ++ [(s.regs, e)]⟩
  | (n, .inr l) => setVar s n l

theorem find_none {env : List (String × Bnd O)} {n : String} (h : n ∉ env.map Prod.fst) : find env n = none := by
  unfold find
  have : env.find? (fun x => x.1 == n) = none := by
    rw [List.find?_eq_none]
    intro x hx
    simp only [beq_iff_eq]
    rintro rfl
    exact h (List.mem_map_of_mem hx)
  rw [this]; rfl

theorem find_cons_self (env : List (String × Bnd O)) (n : String) (b : Bnd O) : find ((n, b) :: env) n = some b := by
  simp [find]

theorem find_cons_ne (env : List (String × Bnd O)) {n m : String} (b : Bnd O) (h : m ≠ n) : find ((m, b) :: env) n = find env n := by
  simp [find, h]

theorem setArg_new {s : BSt O} {n : String} (h : n ∉ s.env.map Prod.fst) (a : Arg O) :
    setArg s n a = .ok (bindNew s (n, .inl a)) := by
  cases a with
  | obj o => rfl
  | num e => simp only [setArg, find_none h]; rfl

theorem varLefts_env (s : BSt O) (l : List (Arg O)) : (varLefts s l).1.env = s.env := by
  induction l generalizing s with
  | nil => rfl
  | cons a l ih => cases a <;> simp [varLefts, ih]

theorem bindNew_names (s : BSt O) (x : Item O) : (bindNew s x).env.map Prod.fst = x.1 :: s.env.map Prod.fst := by
  obtain ⟨n, a | l⟩ := x
  · cases a <;> rfl
  · simp [bindNew, setVar, varLefts_env]

/-- What does not change when new names are bound. -/
structure Grows (s s' : BSt O) : Prop where
  regs : s.regs ≤ s'.regs
  binds : ∃ l, s'.binds = s.binds ++ l ∧ ∀ b ∈ l, s.regs ≤ b.1

theorem Grows.refl (s : BSt O) : Grows s s := ⟨Nat.le_refl _, [], by simp, by simp⟩

theorem Grows.trans {a b c : BSt O} (h1 : Grows a b) (h2 : Grows b c) : Grows a c := by
  obtain ⟨l1, e1, n1⟩ := h1.binds
  obtain ⟨l2, e2, n2⟩ := h2.binds
  have := h1.regs
  refine ⟨Nat.le_trans h1.regs h2.regs, l1 ++ l2, by rw [e2, e1, List.append_assoc], ?_⟩
  intro x hx
  rcases List.mem_append.1 hx with h | h
  · exact n1 x h
  · have := n2 x h; omega

theorem commit_old {s s' : BSt O} (h : Grows s s') {dw : ℕ} {st : Store} {r : ℕ} (hr : r < s.regs) :
    commit dw s'.binds st r = commit dw s.binds st r := by
  obtain ⟨l, e, n⟩ := h.binds
  unfold commit
  rw [e, List.reverse_append, List.find?_append]
  have : l.reverse.find? (fun b => b.1 == r) = none := by
    rw [List.find?_eq_none]
    intro x hx
    have := n x (List.mem_reverse.1 hx)
    simp only [beq_iff_eq]; omega
  rw [this]; rfl

theorem commit_last (dw : ℕ) (l : List (ℕ × (Store → ℤ))) (r : ℕ) (e : Store → ℤ) (st : Store) :
    commit dw (l ++ [(r, e)]) st r = Int.bmod (e st) (2 ^ dw) := by
  simp [commit]

theorem varLefts_grows (s : BSt O) (l : List (Arg O)) : Grows s (varLefts s l).1 := by
  induction l generalizing s with
  | nil => exact Grows.refl s
  | cons a l ih =>
    cases a with
    | obj o => exact ih s
    | num e =>
      refine Grows.trans ?_ (ih _)
      exact ⟨Nat.le_succ _, [(s.regs, e)], rfl, by simp⟩

theorem bindNew_grows (s : BSt O) (x : Item O) : Grows s (bindNew s x) := by
  obtain ⟨n, a | l⟩ := x
  · cases a with
    | obj o => exact ⟨Nat.le_refl _, [], by simp [bindNew], by simp⟩
    | num e => exact ⟨Nat.le_succ _, [(s.regs, e)], rfl, by simp⟩
  · obtain ⟨h1, h2⟩ := varLefts_grows s l
    exact ⟨h1, h2⟩

/-- Values of the temporary registers of `*args`. -/
theorem varLefts_val (dw : ℕ) (st : Store) (s : BSt O) (l : List (Arg O)) {s' : BSt O} (h : Grows (varLefts s l).1 s') :
    (varLefts s l).2.map (Sum.map (commit dw s'.binds st) id) = l.map (Arg.val1 dw st) := by
  induction l generalizing s with
  | nil => rfl
  | cons a l ih =>
    cases a with
    | obj o =>
      simp only [varLefts, List.map_cons]
      rw [ih s h]; rfl
    | num e =>
      have hg := varLefts_grows (O := O) { s with regs := s.regs + 1, binds := s.binds ++ [(s.regs, e)] } l
      simp only [varLefts, List.map_cons]
      rw [ih _ h, List.cons.injEq]
      refine ⟨?_, rfl⟩
      show Sum.inl (commit dw s'.binds st s.regs) = _
      rw [commit_old (hg.trans h) (show s.regs < s.regs + 1 by omega), commit_last]
      rfl

/-- Binding all of a list. -/
def bindAll (s : BSt O) (l : List (Item O)) : BSt O := l.foldl bindNew s

theorem bindAll_append (s : BSt O) (l m : List (Item O)) : bindAll s (l ++ m) = bindAll (bindAll s l) m := List.foldl_append

theorem bindAll_names (s : BSt O) (l : List (Item O)) :
    (bindAll s l).env.map Prod.fst = (l.map Prod.fst).reverse ++ s.env.map Prod.fst := by
  induction l generalizing s with
  | nil => rfl
  | cons x l ih =>
    show (bindAll (bindNew s x) l).env.map Prod.fst = _
    rw [ih, bindNew_names]
    simp

theorem bindAll_grows (s : BSt O) (l : List (Item O)) : Grows s (bindAll s l) := by
  induction l generalizing s with
  | nil => exact Grows.refl s
  | cons x l ih => exact (bindNew_grows s x).trans (ih _)

theorem find_bindNew_ne (s : BSt O) (x : Item O) {n : String} (h : x.1 ≠ n) : find (bindNew s x).env n = find s.env n := by
  obtain ⟨m, a | l⟩ := x
  · cases a <;> exact find_cons_ne _ _ h
  · simp only [bindNew, setVar]
    rw [find_cons_ne _ _ h, varLefts_env]

theorem find_bindAll_ne (s : BSt O) (l : List (Item O)) {n : String} (h : n ∉ l.map Prod.fst) :
    find (bindAll s l).env n = find s.env n := by
  induction l generalizing s with
  | nil => rfl
  | cons x l ih =>
    simp only [List.map_cons, List.mem_cons, not_or] at h
    show find (bindAll (bindNew s x) l).env n = _
    rw [ih _ h.2, find_bindNew_ne s x (fun e => h.1 e.symm)]

/-- The value of an item. -/
def Item.val (dw : ℕ) (st : Store) (x : Item O) : PVal O :=
  match x.2 with
  | .inl a => a.val dw st
  | .inr l => .tup (l.map (Arg.val1 dw st))

theorem read_bindAll (outer : String → Option (Arg O)) (dw : ℕ) (st : Store) (s : BSt O) (l : List (Item O))
    (hn : (l.map Prod.fst).Nodup) {x : Item O} (hx : x ∈ l) :
    readName outer (bindAll s l).env (commit dw (bindAll s l).binds st) x.1 = .ok (x.val dw st) := by
  induction l generalizing s with
  | nil => cases hx
  | cons y l ih =>
    simp only [List.map_cons, List.nodup_cons] at hn
    rcases List.mem_cons.1 hx with rfl | hx
    · show readName outer (bindAll (bindNew s x) l).env (commit dw (bindAll (bindNew s x) l).binds st) x.1 = _
      have hg := bindAll_grows (bindNew s x) l
      unfold readName
      rw [find_bindAll_ne _ _ hn.1]
      obtain ⟨n, a | m⟩ := x
      · cases a with
        | obj o =>
          have : find (bindNew s (n, .inl (.obj o))).env n = some (.obj o) := find_cons_self _ _ _
          rw [this]; rfl
        | num e =>
          have : find (bindNew s (n, .inl (.num e))).env n = some (.reg s.regs) := find_cons_self _ _ _
          rw [this]
          simp only [Item.val, Arg.val]
          rw [commit_old hg (show s.regs < s.regs + 1 by omega)]
          show Except.ok (PVal.int (commit dw (s.binds ++ [(s.regs, e)]) st s.regs)) = _
          rw [commit_last]
      · have : find (bindNew s (n, .inr m)).env n = some (.seq (varLefts s m).2) := find_cons_self _ _ _
        rw [this]
        simp only [Item.val]
        rw [varLefts_val dw st s m (show Grows (varLefts s m).1 _ from ⟨hg.regs, hg.binds⟩)]
    · exact ih _ hn.2 hx

/-! ### The three loops -/

/-- The items of the positional arguments. -/
def posItems (ps : List String) (as : List (Arg O)) : List (Item O) := (ps.zip as).map fun x => (x.1, .inl x.2)

theorem posItems_names (ps : List String) (as : List (Arg O)) : (posItems ps as).map Prod.fst = ps.take as.length := by
  induction ps generalizing as with
  | nil => simp [posItems]
  | cons p ps ih => cases as with
    | nil => simp [posItems]
    | cons a as => simpa [posItems] using ih as

theorem bindPos_eq (va : Bool) (ps : List String) (as : List (Arg O)) (s : BSt O) (hn : ps.Nodup)
    (hs : ∀ p ∈ ps, p ∉ s.env.map Prod.fst) : bindPos va ps as s =
      if as.length ≤ ps.length ∨ va = true then .ok (bindAll s (posItems ps as), ps.take as.length, as.drop ps.length)
      else .error .tooMany := by
  induction ps generalizing as s with
  | nil =>
    cases as with
    | nil => rw [if_pos (Or.inl (by simp))]; rfl
    | cons a as =>
      cases va with
      | true => rw [if_pos (Or.inr rfl)]; rfl
      | false => rw [if_neg (by simp)]; rfl
  | cons p ps ih =>
    cases as with
    | nil => rw [if_pos (Or.inl (by simp))]; rfl
    | cons a as =>
      simp only [List.nodup_cons] at hn
      have h1 := ih as (bindNew s (p, .inl a)) hn.2 (fun q hq => by
        rw [bindNew_names]
        simp only [List.mem_cons, not_or]
        exact ⟨fun e => hn.1 (e ▸ hq), hs q (List.mem_cons_of_mem _ hq)⟩)
      rw [bindPos, setArg_new (hs p (List.mem_cons_self ..))]
      show (do let x ← bindPos va ps as (bindNew s (p, .inl a)); pure (x.1, p :: x.2.1, x.2.2)) = _
      rw [h1]
      by_cases hc : as.length ≤ ps.length ∨ va = true
      · rw [if_pos hc, if_pos (by rcases hc with h | h; exact Or.inl (by simpa using h); exact Or.inr h)]
        rfl
      · rw [if_neg hc, if_neg (by simpa using hc)]
        rfl

/-- The items of the keywords. -/
def kwItems (kws : List (String × Arg O)) : List (Item O) := kws.map fun x => (x.1, .inl x.2)

theorem kwItems_names (kws : List (String × Arg O)) : (kwItems kws).map Prod.fst = kws.map Prod.fst := by
  simp [kwItems]

theorem bindKw_ok (params : List String) (kws : List (String × Arg O)) (used : List String) (s : BSt O)
    (hn : (kws.map Prod.fst).Nodup) (hu : ∀ x ∈ kws, x.1 ∉ used) (hp : ∀ x ∈ kws, x.1 ∈ params)
    (hs : ∀ x ∈ kws, x.1 ∉ s.env.map Prod.fst) :
    bindKw params kws used s = .ok (bindAll s (kwItems kws), used ++ kws.map Prod.fst) := by
  induction kws generalizing used s with
  | nil => simp [bindKw, kwItems, bindAll]
  | cons x kws ih =>
    obtain ⟨k, a⟩ := x
    simp only [List.map_cons, List.nodup_cons] at hn
    have hk : ∀ x ∈ kws, x.1 ≠ k := fun x hx e => hn.1 (e ▸ List.mem_map_of_mem hx)
    rw [bindKw, if_neg (hu _ (List.mem_cons_self ..)), if_pos (hp _ (List.mem_cons_self ..)),
      setArg_new (hs _ (List.mem_cons_self ..))]
    show bindKw params kws (used ++ [k]) (bindNew s (k, .inl a)) = _
    rw [ih (used ++ [k]) (bindNew s (k, .inl a)) hn.2 (fun x hx => by
        simp only [List.mem_append, List.mem_singleton, not_or]
        exact ⟨hu x (List.mem_cons_of_mem _ hx), hk x hx⟩) (fun x hx => hp x (List.mem_cons_of_mem _ hx)) (fun x hx => by
        rw [bindNew_names]
        simp only [List.mem_cons, not_or]
        exact ⟨hk x hx, hs x (List.mem_cons_of_mem _ hx)⟩)]
    simp [kwItems, bindAll]

/-- A keyword that is used twice or is no parameter is rejected. -/
theorem bindKw_error (params : List String) (kws : List (String × Arg O)) (used : List String) (s : BSt O)
    (h : ∃ x ∈ kws, x.1 ∈ used ∨ x.1 ∉ params) : ∃ e, bindKw params kws used s = .error e := by
  induction kws generalizing used s with
  | nil => obtain ⟨x, hx, _⟩ := h; cases hx
  | cons y kws ih =>
    obtain ⟨k, a⟩ := y
    rw [bindKw]
    by_cases h1 : k ∈ used
    · exact ⟨_, if_pos h1⟩
    · rw [if_neg h1]
      by_cases h2 : k ∈ params
      · rw [if_pos h2]
        cases hs : setArg s k a with
        | error e => exact ⟨e, rfl⟩
        | ok s' =>
          refine ih (used ++ [k]) s' ?_
          obtain ⟨x, hx, hx'⟩ := h
          rcases List.mem_cons.1 hx with rfl | hx
          · exact absurd hx' (by rintro (h | h); exact h1 h; exact h h2)
          · refine ⟨x, hx, ?_⟩
            rcases hx' with h | h
            · exact Or.inl (List.mem_append_left _ h)
            · exact Or.inr h
      · exact ⟨_, if_neg h2⟩

/-- The items of the default values. -/
def defItems (used : List String) (l : List (String × DExpr)) : List (Item O) :=
  (l.filter fun x => x.1 ∉ used).map fun x => (x.1, .inl (.num fun _ => match x.2 with | .lit z => z | _ => 0))

theorem bindDef_eq (outer : String → Option (Arg O)) (used : List String) (l : List (String × DExpr)) (s : BSt O)
    (hn : (l.map Prod.fst).Nodup) (hl : ∀ x ∈ l, ∃ z, x.2 = .lit z)
    (hs : ∀ x ∈ l, x.1 ∉ used → x.1 ∉ s.env.map Prod.fst) :
    bindDef outer used l s = .ok (bindAll s (defItems used l)) := by
  induction l generalizing s with
  | nil => rfl
  | cons x l ih =>
    obtain ⟨n, d⟩ := x
    simp only [List.map_cons, List.nodup_cons] at hn
    have hl' : ∀ x ∈ l, ∃ z, x.2 = .lit z := fun x hx => hl x (List.mem_cons_of_mem _ hx)
    rw [bindDef]
    by_cases hu : n ∈ used
    · rw [if_pos hu, ih s hn.2 hl' fun x hx => hs x (List.mem_cons_of_mem _ hx)]
      simp [defItems, hu]
    · rw [if_neg hu]
      obtain ⟨z, hz⟩ := hl _ (List.mem_cons_self ..)
      subst hz
      show (do let s ← setArg s n (.num fun _ => z); bindDef outer used l s) = _
      rw [setArg_new (hs _ (List.mem_cons_self ..) hu)]
      show bindDef outer used l (bindNew s (n, .inl (.num fun _ => z))) = _
      rw [ih _ hn.2 hl' fun x hx hxu => by
        rw [bindNew_names]
        simp only [List.mem_cons, not_or]
        exact ⟨fun e => hn.1 (e ▸ List.mem_map_of_mem hx), hs x (List.mem_cons_of_mem _ hx) hxu⟩]
      simp [defItems, hu, bindAll]

/-- The item of `*args`. -/
def restItems (sig : Sig) (rest : List (Arg O)) : List (Item O) :=
  match rest, sig.vararg with
  | [], _ => []
  | _, none => []
  | l, some n => [(n, .inr l)]

theorem setRest_eq (sig : Sig) (s : BSt O) (rest : List (Arg O)) : setRest sig s rest = bindAll s (restItems sig rest) := by
  unfold setRest restItems
  cases rest with
  | nil => rfl
  | cons a l => cases sig.vararg <;> rfl

theorem restItems_name {sig : Sig} {rest : List (Arg O)} {x : Item O} (h : x ∈ restItems sig rest) : sig.vararg = some x.1 := by
  unfold restItems at h
  cases rest with
  | nil => cases h
  | cons a l =>
    cases hv : sig.vararg with
    | none => rw [hv] at h; cases h
    | some n =>
      rw [hv] at h
      rw [List.mem_singleton.1 h]

/-- All the items of a call, in the order in which they are bound. -/
def items (sig : Sig) (args : List (Arg O)) (kws : List (String × Arg O)) : List (Item O) :=
  posItems sig.args args ++ restItems sig (args.drop sig.args.length) ++ kwItems kws ++
    defItems (sig.args.take args.length ++ kws.map Prod.fst) sig.defaulted

theorem defaulted_names {sig : Sig} (hd : sig.defaults.length ≤ sig.args.length) :
    sig.defaulted.map Prod.fst = sig.args.drop (sig.args.length - sig.defaults.length) := by
  unfold Sig.defaulted
  rw [List.map_fst_zip]
  rw [List.length_drop]; omega

theorem take_drop_disjoint {l : List String} (h : l.Nodup) {n : ℕ} {x : String} (h1 : x ∈ l.take n) : x ∉ l.drop n := by
  have := h
  rw [← List.take_append_drop n l, List.nodup_append] at this
  intro h2
  exact this.2.2 x h1 x h2 rfl

theorem items_nodup {sig : Sig} (hp : sig.Plain) {args : List (Arg O)} {kws : List (String × Arg O)}
    (hk : (kws.map Prod.fst).Nodup) (hkey : ∀ x ∈ kws, x.1 ∈ sig.args.drop args.length) :
    ((items sig args kws).map Prod.fst).Nodup := by
  have hdn := defaulted_names hp.defaults
  have hdef : ∀ n ∈ (defItems (O := O) (sig.args.take args.length ++ kws.map Prod.fst) sig.defaulted).map Prod.fst,
      n ∈ sig.args ∧ n ∉ sig.args.take args.length ++ kws.map Prod.fst := by
    intro n h
    simp only [defItems, List.map_map, List.mem_map, List.mem_filter, Function.comp] at h
    obtain ⟨x, ⟨h1, h2⟩, rfl⟩ := h
    refine ⟨?_, by simpa using h2⟩
    have : x.1 ∈ sig.defaulted.map Prod.fst := List.mem_map_of_mem h1
    rw [hdn] at this
    exact List.mem_of_mem_drop this
  have hrest : ∀ n ∈ (restItems sig (args.drop sig.args.length)).map Prod.fst, n ∉ sig.args := by
    intro n h
    obtain ⟨x, hx, rfl⟩ := List.mem_map.1 h
    exact hp.vararg _ (restItems_name hx)
  unfold items
  rw [List.map_append, List.map_append, List.map_append, posItems_names, kwItems_names]
  rw [List.nodup_append, List.nodup_append, List.nodup_append]
  refine ⟨⟨⟨hp.nodup.sublist (List.take_sublist _ _), ?_, ?_⟩, hk, ?_⟩, ?_, ?_⟩
  · unfold restItems
    cases args.drop sig.args.length with
    | nil => exact List.nodup_nil
    | cons a l => cases sig.vararg <;> simp
  · rintro a ha b hb rfl
    exact hrest a hb (List.mem_of_mem_take ha)
  · rintro a ha b hb rfl
    obtain ⟨x, hx, rfl⟩ := List.mem_map.1 hb
    have hx' := hkey x hx
    rcases List.mem_append.1 ha with h | h
    · exact take_drop_disjoint hp.nodup h hx'
    · exact hrest _ h (List.mem_of_mem_drop hx')
  · unfold defItems
    rw [List.map_map]
    have : (Prod.fst ∘ fun x : String × DExpr => ((x.1, .inl (.num fun _ => match x.2 with | .lit z => z | _ => 0)) : Item O)) =
        Prod.fst := rfl
    rw [this]
    have : (sig.defaulted.map Prod.fst).Nodup := by
      rw [hdn]; exact hp.nodup.sublist (List.drop_sublist _ _)
    exact this.sublist (List.filter_sublist.map _)
  · rintro a ha b hb rfl
    obtain ⟨h1, h2⟩ := hdef a hb
    simp only [List.mem_append, not_or] at h2
    simp only [List.mem_append] at ha
    rcases ha with (h | h) | h
    · exact h2.1 h
    · exact hrest _ h h1
    · exact h2.2 h

theorem bindCall_eq (outer : String → Option (Arg O)) {sig : Sig} (hp : sig.Plain) {args : List (Arg O)}
    {kws : List (String × Arg O)} (hk : (kws.map Prod.fst).Nodup) (hpos : args.length ≤ sig.args.length ∨ sig.vararg.isSome = true)
    (hkey : ∀ x ∈ kws, x.1 ∈ sig.args.drop args.length) {s : BSt O} (hs : s.env = []) :
    bindCall outer sig args kws s = .ok (bindAll s (items sig args kws)) := by
  have hnd := items_nodup hp hk hkey
  have hdn := defaulted_names hp.defaults
  unfold bindCall
  rw [bindPos_eq _ _ _ _ hp.nodup (by simp [hs]), if_pos hpos]
  show (do let y ← bindKw sig.args kws (sig.args.take args.length)
                (setRest sig (bindAll s (posItems sig.args args)) (args.drop sig.args.length))
           bindDef outer y.2 sig.defaulted y.1) = _
  have hin : ∀ x ∈ kws, x.1 ∈ sig.args := fun x hx => List.mem_of_mem_drop (hkey x hx)
  have hnames : (bindAll (bindAll s (posItems sig.args args)) (restItems sig (args.drop sig.args.length))).env.map Prod.fst =
      ((restItems sig (args.drop sig.args.length)).map Prod.fst).reverse ++ (sig.args.take args.length).reverse := by
    rw [bindAll_names, bindAll_names, posItems_names, hs]
    simp
  have hrest : ∀ n ∈ (restItems sig (args.drop sig.args.length)).map Prod.fst, n ∉ sig.args := by
    intro n h
    obtain ⟨x, hx, rfl⟩ := List.mem_map.1 h
    exact hp.vararg _ (restItems_name hx)
  rw [setRest_eq, bindKw_ok _ _ _ _ hk (fun x hx h => take_drop_disjoint hp.nodup h (hkey x hx)) hin (fun x hx => by
    rw [hnames]
    simp only [List.mem_append, List.mem_reverse, not_or]
    exact ⟨fun h => hrest _ h (hin x hx), fun h => take_drop_disjoint hp.nodup h (hkey x hx)⟩)]
  show bindDef outer (sig.args.take args.length ++ kws.map Prod.fst) sig.defaulted _ = _
  rw [bindDef_eq outer _ _ _ (by rw [hdn]; exact hp.nodup.sublist (List.drop_sublist _ _)) (fun x hx => by
      exact hp.lit _ (List.of_mem_zip hx).2) (fun x hx hu => by
      rw [bindAll_names, hnames, kwItems_names]
      simp only [List.mem_append, not_or] at hu
      simp only [List.mem_append, List.mem_reverse, not_or]
      refine ⟨hu.2, fun h => hrest _ h ?_, hu.1⟩
      have : x.1 ∈ sig.defaulted.map Prod.fst := List.mem_map_of_mem hx
      rw [hdn] at this
      exact List.mem_of_mem_drop this)]
  rw [← bindAll_append, ← bindAll_append, ← bindAll_append]
  congr 2
  simp [items]

/-! ## Theorems -/

/-- **C82, by position.** If Python accepts the call, parameter `i` has the value of the argument at position `i`, evaluated before
    the call, when the body starts. -/
theorem c82_position (outer : String → Option (Arg O)) {sig : Sig} (hp : sig.Plain) {args : List (Arg O)}
    {kws : List (String × Arg O)} (hk : (kws.map Prod.fst).Nodup) (ha : Accepts sig args kws) {s : BSt O} (hs : s.env = [])
    (dw : ℕ) (st : Store) : ∃ s', bindCall outer sig args kws s = .ok s' ∧ ∀ i (h : i < sig.args.length) (h' : i < args.length),
      readName outer s'.env (commit dw s'.binds st) sig.args[i] = .ok (args[i].val dw st) := by
  refine ⟨_, bindCall_eq outer hp hk ha.pos ha.key hs, fun i h h' => ?_⟩
  refine read_bindAll outer dw st s _ (items_nodup hp hk ha.key) (x := (sig.args[i], .inl args[i])) ?_
  unfold items
  refine List.mem_append_left _ (List.mem_append_left _ (List.mem_append_left _ ?_))
  unfold posItems
  refine List.mem_map.2 ⟨(sig.args[i], args[i]), ?_, rfl⟩
  rw [List.mem_iff_getElem]
  exact ⟨i, by rw [List.length_zip]; omega, by rw [List.getElem_zip]⟩

/-- **C82, by keyword.** -/
theorem c82_keyword (outer : String → Option (Arg O)) {sig : Sig} (hp : sig.Plain) {args : List (Arg O)}
    {kws : List (String × Arg O)} (hk : (kws.map Prod.fst).Nodup) (ha : Accepts sig args kws) {s : BSt O} (hs : s.env = [])
    (dw : ℕ) (st : Store) : ∃ s', bindCall outer sig args kws s = .ok s' ∧ ∀ k a, (k, a) ∈ kws →
      readName outer s'.env (commit dw s'.binds st) k = .ok (a.val dw st) := by
  refine ⟨_, bindCall_eq outer hp hk ha.pos ha.key hs, fun k a h => ?_⟩
  refine read_bindAll outer dw st s _ (items_nodup hp hk ha.key) (x := (k, .inl a)) ?_
  unfold items
  exact List.mem_append_left _ (List.mem_append_right _ (List.mem_map.2 ⟨(k, a), h, rfl⟩))

/-- **C82, default values.** A parameter given neither by position nor by keyword has its default value. -/
theorem c82_default (outer : String → Option (Arg O)) {sig : Sig} (hp : sig.Plain) {args : List (Arg O)}
    {kws : List (String × Arg O)} (hk : (kws.map Prod.fst).Nodup) (ha : Accepts sig args kws) {s : BSt O} (hs : s.env = [])
    (dw : ℕ) (st : Store) : ∃ s', bindCall outer sig args kws s = .ok s' ∧ ∀ i (h : i < sig.args.length), args.length ≤ i →
      (∀ x ∈ kws, x.1 ≠ sig.args[i]) → ∃ z, sig.defaults[i - (sig.args.length - sig.defaults.length)]? = some (.lit z) ∧
        readName outer s'.env (commit dw s'.binds st) sig.args[i] = .ok (.int (Int.bmod z (2 ^ dw))) := by
  refine ⟨_, bindCall_eq outer hp hk ha.pos ha.key hs, fun i h h1 h2 => ?_⟩
  have hd := hp.defaults
  have hlt : sig.args.length ≤ i + sig.defaults.length := by
    rcases Nat.lt_or_ge (i + sig.defaults.length) sig.args.length with h3 | h3
    · obtain ⟨x, hx, e⟩ := ha.all i h h1 h3
      exact absurd e (h2 x hx)
    · exact h3
  have hi : i - (sig.args.length - sig.defaults.length) < sig.defaults.length := by omega
  obtain ⟨z, hz⟩ := hp.lit _ (List.getElem_mem hi)
  refine ⟨z, by rw [List.getElem?_eq_getElem hi, hz], ?_⟩
  refine read_bindAll outer dw st s _ (items_nodup hp hk ha.key) (x := (sig.args[i], .inl (.num fun _ => z))) ?_
  unfold items
  refine List.mem_append_right _ ?_
  unfold defItems
  refine List.mem_map.2 ⟨(sig.args[i], .lit z), List.mem_filter.2 ⟨?_, ?_⟩, rfl⟩
  · unfold Sig.defaulted
    rw [List.mem_iff_getElem]
    refine ⟨i - (sig.args.length - sig.defaults.length), by rw [List.length_zip, List.length_drop]; omega, ?_⟩
    rw [List.getElem_zip, hz, List.getElem_drop]
    have : sig.args.length - sig.defaults.length + (i - (sig.args.length - sig.defaults.length)) = i := by omega
    simp only [this]
  · have h3 : sig.args[i] ∉ sig.args.take args.length := fun h3 => by
      refine take_drop_disjoint hp.nodup h3 ?_
      rw [List.mem_iff_getElem]
      exact ⟨i - args.length, by rw [List.length_drop]; omega, by
        rw [List.getElem_drop]
        have : args.length + (i - args.length) = i := by omega
        simp only [this]⟩
    have h4 : sig.args[i] ∉ kws.map Prod.fst := fun h4 => by
      obtain ⟨x, hx, e⟩ := List.mem_map.1 h4
      exact h2 x hx e
    exact decide_eq_true (fun h => (List.mem_append.1 h).elim h3 h4)

/-- **C82, `*args`.** The positional arguments that remain, in their order. -/
theorem c82_rest (outer : String → Option (Arg O)) {sig : Sig} (hp : sig.Plain) {args : List (Arg O)}
    {kws : List (String × Arg O)} (hk : (kws.map Prod.fst).Nodup) (ha : Accepts sig args kws) {s : BSt O} (hs : s.env = [])
    (dw : ℕ) (st : Store) {v : String} (hv : sig.vararg = some v) (hlt : sig.args.length < args.length) :
    ∃ s', bindCall outer sig args kws s = .ok s' ∧ readName outer s'.env (commit dw s'.binds st) v =
      .ok (.tup ((args.drop sig.args.length).map (Arg.val1 dw st))) := by
  refine ⟨_, bindCall_eq outer hp hk ha.pos ha.key hs, ?_⟩
  refine read_bindAll outer dw st s _ (items_nodup hp hk ha.key) (x := (v, .inr (args.drop sig.args.length))) ?_
  unfold items
  refine List.mem_append_left _ (List.mem_append_left _ (List.mem_append_right _ ?_))
  unfold restItems
  cases h : args.drop sig.args.length with
  | nil =>
    have := congrArg List.length h
    rw [List.length_drop] at this
    simp at this; omega
  | cons a l => rw [hv]; exact List.mem_singleton.2 rfl

/-- **C82, nothing else changes.** The registers that existed before the call, in particular the variables of the caller, get what
    was assigned to them in this state before the call. -/
theorem c82_frame (outer : String → Option (Arg O)) {sig : Sig} (hp : sig.Plain) {args : List (Arg O)}
    {kws : List (String × Arg O)} (hk : (kws.map Prod.fst).Nodup) {s s' : BSt O} (hs : s.env = [])
    (h : bindCall outer sig args kws s = .ok s') (hpos : args.length ≤ sig.args.length ∨ sig.vararg.isSome = true)
    (hkey : ∀ x ∈ kws, x.1 ∈ sig.args.drop args.length) (dw : ℕ) (st : Store) {r : ℕ} (hr : r < s.regs) :
    commit dw s'.binds st r = commit dw s.binds st r := by
  rw [bindCall_eq outer hp hk hpos hkey hs] at h
  cases h
  exact commit_old (bindAll_grows s _) hr

/-- **C82, errors.** A call is rejected exactly if it has too many positional arguments, a keyword that is already given by
    position, or a keyword that is no parameter. -/
theorem c82_error (outer : String → Option (Arg O)) {sig : Sig} (hp : sig.Plain) {args : List (Arg O)}
    {kws : List (String × Arg O)} (hk : (kws.map Prod.fst).Nodup) {s : BSt O} (hs : s.env = []) :
    (∃ e, bindCall outer sig args kws s = .error e) ↔ (sig.args.length < args.length ∧ sig.vararg = none) ∨
      (∃ x ∈ kws, x.1 ∈ sig.args.take args.length) ∨ ∃ x ∈ kws, x.1 ∉ sig.args := by
  constructor
  · rintro ⟨e, h⟩
    by_cases h1 : args.length ≤ sig.args.length ∨ sig.vararg.isSome = true
    · right
      by_cases h2 : ∀ x ∈ kws, x.1 ∈ sig.args.drop args.length
      · rw [bindCall_eq outer hp hk h1 h2 hs] at h; cases h
      · simp only [not_forall] at h2
        obtain ⟨x, hx, h2⟩ := h2
        by_cases h3 : x.1 ∈ sig.args
        · left
          refine ⟨x, hx, ?_⟩
          rw [← List.take_append_drop args.length sig.args] at h3
          exact (List.mem_append.1 h3).resolve_right h2
        · exact Or.inr ⟨x, hx, h3⟩
    · left
      simp only [not_or, Nat.not_le, Bool.not_eq_true, Option.isSome_eq_false_iff, Option.isNone_iff_eq_none] at h1
      exact h1
  · intro h
    unfold bindCall
    rw [bindPos_eq _ _ _ _ hp.nodup (by simp [hs])]
    by_cases h1 : args.length ≤ sig.args.length ∨ sig.vararg.isSome = true
    · rw [if_pos h1]
      have h2 : ∃ x ∈ kws, x.1 ∈ sig.args.take args.length ∨ x.1 ∉ sig.args := by
        rcases h with ⟨h2, h3⟩ | ⟨x, hx, h2⟩ | ⟨x, hx, h2⟩
        · rcases h1 with h1 | h1
          · omega
          · rw [h3] at h1; cases h1
        · exact ⟨x, hx, Or.inl h2⟩
        · exact ⟨x, hx, Or.inr h2⟩
      obtain ⟨e, he⟩ := bindKw_error sig.args kws (sig.args.take args.length)
        (setRest sig (bindAll s (posItems sig.args args)) (args.drop sig.args.length)) h2
      refine ⟨e, ?_⟩
      show (do let y ← bindKw sig.args kws (sig.args.take args.length)
                    (setRest sig (bindAll s (posItems sig.args args)) (args.drop sig.args.length))
               bindDef outer y.2 sig.defaulted y.1) = _
      rw [he]; rfl
    · exact ⟨.tooMany, by rw [if_neg h1]; rfl⟩

/-! ## Where the code does less -/

/-- **C82, missing arguments.** A parameter that is given neither by position nor by keyword and has no default value is not
    noticed: the call is compiled, and the name stands for whatever object of that name the frame that starts the thread has. -/
theorem c82_not_missing (outer : String → Option (Arg O)) {sig : Sig} (hp : sig.Plain) {args : List (Arg O)}
    {kws : List (String × Arg O)} (hk : (kws.map Prod.fst).Nodup) {s : BSt O} (hs : s.env = [])
    (hpos : args.length ≤ sig.args.length) (hkey : ∀ x ∈ kws, x.1 ∈ sig.args.drop args.length) {i : ℕ}
    (h : i < sig.args.length) (h1 : args.length ≤ i) (h2 : ∀ x ∈ kws, x.1 ≠ sig.args[i])
    (h3 : i + sig.defaults.length < sig.args.length) :
    ∃ s', bindCall outer sig args kws s = .ok s' ∧ ∀ st, readName outer s'.env st sig.args[i] = readName outer [] st sig.args[i] := by
  refine ⟨_, bindCall_eq outer hp hk (Or.inl hpos) hkey hs, fun st => ?_⟩
  have hn : sig.args[i] ∉ (items sig args kws).map Prod.fst := by
    unfold items
    rw [List.map_append, List.map_append, List.map_append, posItems_names, kwItems_names]
    have hnp : sig.args[i] ∉ sig.args.take args.length := fun h4 => by
      refine take_drop_disjoint hp.nodup h4 ?_
      rw [List.mem_iff_getElem]
      exact ⟨i - args.length, by rw [List.length_drop]; omega, by
        rw [List.getElem_drop]
        have : args.length + (i - args.length) = i := by omega
        simp only [this]⟩
    have hnd : sig.args[i] ∉ sig.args.drop (sig.args.length - sig.defaults.length) := fun h4 => by
      refine take_drop_disjoint hp.nodup (n := sig.args.length - sig.defaults.length) ?_ h4
      rw [List.mem_iff_getElem]
      exact ⟨i, by rw [List.length_take]; omega, by rw [List.getElem_take]⟩
    simp only [List.mem_append, not_or]
    refine ⟨⟨⟨hnp, fun h4 => ?_⟩, fun h4 => ?_⟩, fun h4 => ?_⟩
    · obtain ⟨x, hx, e⟩ := List.mem_map.1 h4
      refine hp.vararg _ (restItems_name hx) ?_
      rw [e]; exact List.getElem_mem h
    · obtain ⟨x, hx, e⟩ := List.mem_map.1 h4
      exact h2 x hx e
    · simp only [defItems, List.map_map, List.mem_map, List.mem_filter, Function.comp] at h4
      obtain ⟨x, ⟨h5, _⟩, e⟩ := h4
      have : x.1 ∈ sig.defaulted.map Prod.fst := List.mem_map_of_mem h5
      rw [defaulted_names hp.defaults] at this
      exact hnd (e ▸ this)
  unfold readName
  rw [find_bindAll_ne s _ hn, hs]

/-- **C82, empty `*args`.** Without arguments that remain, the name of `*args` is not bound, where Python binds the empty tuple. -/
theorem c82_not_rest (outer : String → Option (Arg O)) {sig : Sig} (hp : sig.Plain) {args : List (Arg O)}
    {kws : List (String × Arg O)} (hk : (kws.map Prod.fst).Nodup) (ha : Accepts sig args kws) {s : BSt O} (hs : s.env = [])
    {v : String} (hv : sig.vararg = some v) (hle : args.length ≤ sig.args.length) (hout : outer v = none) :
    ∃ s', bindCall outer sig args kws s = .ok s' ∧ ∀ st, readName outer s'.env st v = .error .undefined := by
  refine ⟨_, bindCall_eq outer hp hk ha.pos ha.key hs, fun st => ?_⟩
  have hva := hp.vararg v hv
  have hn : v ∉ (items sig args kws).map Prod.fst := by
    unfold items
    rw [List.drop_eq_nil_of_le hle]
    rw [List.map_append, List.map_append, List.map_append, posItems_names, kwItems_names]
    simp only [List.mem_append, not_or]
    refine ⟨⟨⟨fun h => hva (List.mem_of_mem_take h), by simp [restItems]⟩, fun h => ?_⟩, fun h => ?_⟩
    · obtain ⟨x, hx, e⟩ := List.mem_map.1 h
      exact hva (e ▸ List.mem_of_mem_drop (ha.key x hx))
    · simp only [defItems, List.map_map, List.mem_map, List.mem_filter, Function.comp] at h
      obtain ⟨x, ⟨h5, _⟩, e⟩ := h
      have : x.1 ∈ sig.defaulted.map Prod.fst := List.mem_map_of_mem h5
      rw [defaulted_names hp.defaults] at this
      exact hva (e ▸ List.mem_of_mem_drop this)
  unfold readName
  rw [find_bindAll_ne s _ hn, hs]
  simp [find, hout]

/-- **C82, default values with names.** A default value is visited in the frame of the call, so that the name of a parameter of the
    same function is that parameter, and since its register is written in the same state, its value from before the call. For
    `def f(p, q=p)` and `f(a)` with a number `a`, `q` is what the register of `p` held. -/
theorem c82_not_default (outer : String → Option (Arg O)) {p q : String} (hpq : p ≠ q) (e : Store → ℤ) (n : ℕ) (dw : ℕ) (st : Store) :
    ∃ s', bindCall outer ⟨[], [p, q], none, [], none, [.name p]⟩ [.num e] [] ⟨[], n, []⟩ = .ok s' ∧
      readName outer s'.env (commit dw s'.binds st) q = .ok (.int (Int.bmod (st n) (2 ^ dw))) := by
  refine ⟨⟨[(q, .reg (n + 1)), (p, .reg n)], n + 2, [(n, e), (n + 1, fun st => st n)]⟩, ?_, ?_⟩
  · simp [bindCall, bindPos, setArg, find, bindKw, setRest, bindDef, Sig.defaulted, visitD, hpq, hpq.symm, Bind.bind, Except.bind,
      Pure.pure, Except.pure]
  · simp [readName, find, commit]

/-- **C82, positional-only parameters.** They are not seen: a function that has no other parameters cannot be called with
    arguments. -/
theorem c82_not_posonly (outer : String → Option (Arg O)) (po : List String) (a : Arg O) (as : List (Arg O)) (s : BSt O) :
    bindCall outer ⟨po, [], none, [], none, []⟩ (a :: as) [] s = .error .tooMany := rfl

/-- **C82, keyword-only parameters and `**kwargs`.** Every keyword that is not an ordinary parameter is rejected. -/
theorem c82_not_kwonly (outer : String → Option (Arg O)) {sig : Sig} (hp : sig.Plain) {args : List (Arg O)}
    {kws : List (String × Arg O)} (hk : (kws.map Prod.fst).Nodup) {s : BSt O} (hs : s.env = []) {k : String} {a : Arg O}
    (h : (k, a) ∈ kws) (hk' : k ∉ sig.args) : ∃ e, bindCall outer sig args kws s = .error e :=
  (c82_error outer hp hk hs).2 (Or.inr (Or.inr ⟨_, h, hk'⟩))

/-! ## Examples -/

namespace Ex

/-- `def f(a, b, c=7, *rest)`. -/
def sig : Sig := { args := ["a", "b", "c"], vararg := some "rest", defaults := [.lit 7] }

theorem plain : sig.Plain where
  posonly := rfl
  nodup := by decide
  vararg := fun v h => by cases h; decide
  defaults := by decide
  lit := fun d h => ⟨7, List.mem_singleton.1 h⟩

/-- `f(x, b=y)`, where `x` is register 0 and `y` an object. -/
def args : List (Arg String) := [.num fun st => st 0]
def kws : List (String × Arg String) := [("b", .obj "ram")]

theorem acc : Accepts sig args kws where
  pos := Or.inl (by decide)
  key := fun x h => by rw [List.mem_singleton.1 h]; decide
  all := fun i h h1 h2 => by
    have : i = 1 := by
      have e1 : args.length = 1 := rfl
      have e2 : sig.defaults.length = 1 := rfl
      have e3 : sig.args.length = 3 := rfl
      omega
    subst this
    exact ⟨_, List.mem_singleton.2 rfl, rfl⟩

/-- The registers before the call: register 0 is 300. -/
def st : Store := fun r => if r = 0 then 300 else 0

example (outer : String → Option (Arg String)) : ∃ s', bindCall outer sig args kws ⟨[], 5, []⟩ = .ok s' ∧
    readName outer s'.env (commit 8 s'.binds st) "a" = .ok (.int 44) := by
  obtain ⟨s', h1, h2⟩ := c82_position outer plain (by decide) acc (s := ⟨[], 5, []⟩) rfl 8 st
  exact ⟨s', h1, (h2 0 (by decide) (by decide)).trans (by show Except.ok (PVal.int (Int.bmod 300 256)) = _; rfl)⟩

example (outer : String → Option (Arg String)) : ∃ s', bindCall outer sig args kws ⟨[], 5, []⟩ = .ok s' ∧
    readName outer s'.env (commit 8 s'.binds st) "b" = .ok (.obj "ram") := by
  obtain ⟨s', h1, h2⟩ := c82_keyword outer plain (by decide) acc (s := ⟨[], 5, []⟩) rfl 8 st
  exact ⟨s', h1, h2 "b" _ (List.mem_singleton.2 rfl)⟩

example (outer : String → Option (Arg String)) : ∃ s', bindCall outer sig args kws ⟨[], 5, []⟩ = .ok s' ∧
    readName outer s'.env (commit 8 s'.binds st) "c" = .ok (.int 7) := by
  obtain ⟨s', h1, h2⟩ := c82_default outer plain (by decide) acc (s := ⟨[], 5, []⟩) rfl 8 st
  obtain ⟨z, h3, h4⟩ := h2 2 (by decide) (by decide) (fun x h => by rw [List.mem_singleton.1 h]; decide)
  have : z = 7 := by
    have h3' : some (DExpr.lit 7) = some (.lit z) := h3
    simp only [Option.some.injEq, DExpr.lit.injEq] at h3'
    exact h3'.symm
  subst this
  exact ⟨s', h1, h4⟩

/-- `f(1, 2, 3, 4, 5)`. -/
theorem acc5 : Accepts (O := String) sig [.num fun _ => 1, .num fun _ => 2, .num fun _ => 3, .num fun _ => 4, .num fun _ => 5] [] where
  pos := Or.inr rfl
  key := fun x h => by cases h
  all := fun i h h1 _ => by
    have e : sig.args.length = 3 := rfl
    simp at h1; omega

example (outer : String → Option (Arg String)) : ∃ s', bindCall outer sig
    [.num fun _ => 1, .num fun _ => 2, .num fun _ => 3, .num fun _ => 4, .num fun _ => 5] [] ⟨[], 5, []⟩ = .ok s' ∧
    readName outer s'.env (commit 8 s'.binds st) "rest" = .ok (.tup [.inl 4, .inl 5]) := by
  obtain ⟨s', h1, h2⟩ := c82_rest outer plain (by decide) acc5 (s := ⟨[], 5, []⟩) rfl 8 st rfl (by decide)
  exact ⟨s', h1, h2.trans rfl⟩

/-- `f(1)`: `b` is missing; the thread was started from a frame in which `b` is 99. -/
example : ∃ s', bindCall (O := String) (fun n => if n = "b" then some (.num fun _ => 99) else none) sig [.num fun _ => 1] []
    ⟨[], 5, []⟩ = .ok s' ∧ ∀ st, readName (fun n => if n = "b" then some (.num fun _ => 99) else none) s'.env st "b" =
      .ok (.int 99) := by
  obtain ⟨s', h1, h2⟩ := c82_not_missing (O := String) (fun n => if n = "b" then some (.num fun _ => 99) else none) plain
    (args := [.num fun _ => 1]) (kws := []) (s := ⟨[], 5, []⟩) (by decide) rfl (by decide) (fun x h => by cases h) (i := 1)
    (by decide) (by decide) (fun x h => by cases h) (by decide)
  exact ⟨s', h1, fun st => (h2 st).trans rfl⟩

/-- `f(1, 2)`. -/
theorem acc2 : Accepts (O := String) sig [.num fun _ => 1, .num fun _ => 2] [] where
  pos := Or.inl (by decide)
  key := fun x h => by cases h
  all := fun i h h1 h2 => by
    have e : sig.args.length = 3 := rfl
    have e2 : sig.defaults.length = 1 := rfl
    simp at h1; omega

/-- `f(1, 2)`: `rest` is not bound. -/
example : ∃ s', bindCall (O := String) (fun _ => none) sig [.num fun _ => 1, .num fun _ => 2] [] ⟨[], 5, []⟩ = .ok s' ∧
    ∀ st, readName (fun _ => none) s'.env st "rest" = .error .undefined :=
  c82_not_rest _ plain (by decide) acc2 rfl rfl (by decide) rfl

/-- The variable of the caller, register 0, keeps its value. -/
example : ∃ s', bindCall (fun _ => none) sig args kws ⟨[], 5, []⟩ = .ok s' ∧ commit 8 s'.binds st 0 = 300 := by
  obtain ⟨s', h1, _⟩ := c82_position (fun _ => none) plain (by decide) acc (s := ⟨[], 5, []⟩) rfl 8 st
  exact ⟨s', h1, (c82_frame _ plain (by decide) rfl h1 acc.pos acc.key 8 st (by decide)).trans rfl⟩

/-- `def g(p, q=p)`, `g(300)`: the register of `p` is 0 before, and so `q` is 0. -/
example : ∃ s', bindCall (O := String) (fun _ => none) ⟨[], ["p", "q"], none, [], none, [.name "p"]⟩ [.num fun _ => 300] []
    ⟨[], 5, []⟩ = .ok s' ∧ readName (fun _ => none) s'.env (commit 8 s'.binds st) "q" = .ok (.int 0) :=
  c82_not_default (O := String) (fun _ => none) (by decide) _ 5 8 st

/-- `f(1, key=2)` is rejected. -/
example : ∃ e, bindCall (O := String) (fun _ => none) sig [.num fun _ => 1] [("key", .num fun _ => 2)] ⟨[], 5, []⟩ = .error e :=
  c82_not_kwonly _ plain (by decide) rfl (List.mem_singleton.2 rfl) (by decide)

/-- `f(1, a=2)` is rejected. -/
example : ∃ e, bindCall (O := String) (fun _ => none) sig [.num fun _ => 1] [("a", .num fun _ => 2)] ⟨[], 5, []⟩ = .error e :=
  (c82_error _ plain (by decide) rfl).2 (Or.inr (Or.inl ⟨_, List.mem_singleton.2 rfl, by decide⟩))

end Ex

end ABind
