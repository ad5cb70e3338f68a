import Verif.Model.Hier
import Mathlib.Logic.Relation
import Mathlib.Tactic.ByContra

/-!
# C65: module hierarchies
-/

namespace Hier

/-! ### Dictionaries -/

section Dict

variable {α β : Type} [DecidableEq α]

theorem mem_dictSet {d : List (α × β)} {k : α} {v : β} {e : α × β} :
    e ∈ dictSet d k v ↔ e = (k, v) ∨ e ∈ d ∧ e.1 ≠ k := by
  unfold dictSet
  split
  · rename_i h
    obtain ⟨x, hx, hk⟩ := List.any_eq_true.1 h
    simp only [List.mem_map]
    constructor
    · rintro ⟨y, hy, rfl⟩
      split
      · exact .inl rfl
      · rename_i hne
        exact .inr ⟨hy, hne⟩
    · rintro (rfl | ⟨he, hne⟩)
      · exact ⟨x, hx, by rw [if_pos (by simpa using hk)]⟩
      · exact ⟨e, he, by rw [if_neg hne]⟩
  · rename_i h
    rw [List.mem_append, List.mem_singleton]
    constructor
    · rintro (he | rfl)
      · refine .inr ⟨he, fun hk => h (List.any_eq_true.2 ⟨e, he, by simpa using hk⟩)⟩
      · exact .inl rfl
    · rintro (rfl | ⟨he, _⟩)
      · exact .inr rfl
      · exact .inl he

theorem dictSet_keys {d : List (α × β)} (hd : (d.map Prod.fst).Nodup) (k : α) (v : β) :
    ((dictSet d k v).map Prod.fst).Nodup := by
  unfold dictSet
  split
  · have : (d.map fun e => if e.1 = k then (k, v) else e).map Prod.fst = d.map Prod.fst := by
      rw [List.map_map]
      apply List.map_congr_left
      intro e _
      by_cases h : e.1 = k <;> simp [h]
    rw [this]
    exact hd
  · rename_i h
    rw [List.map_append, List.nodup_append]
    refine ⟨hd, by simp, ?_⟩
    rintro a ha b hb rfl
    obtain ⟨e, he, rfl⟩ := List.mem_map.1 ha
    simp only [List.map_cons, List.map_nil, List.mem_singleton] at hb
    exact h (List.any_eq_true.2 ⟨e, he, by simpa using hb⟩)

theorem dictGet_mem {d : List (α × β)} {k : α} {v : β} (h : dictGet d k = some v) : (k, v) ∈ d := by
  obtain ⟨e, he, rfl⟩ := Option.map_eq_some_iff.1 h
  have h1 := List.mem_of_find?_eq_some he
  have h2 := List.find?_some he
  simp only [decide_eq_true_eq] at h2
  subst h2
  exact h1

theorem dictGet_none {d : List (α × β)} {k : α} (h : dictGet d k = none) (v : β) : (k, v) ∉ d := by
  intro hm
  have := List.find?_eq_none.1 (Option.map_eq_none_iff.1 h) _ hm
  simp at this

theorem dictGet_of_mem {d : List (α × β)} (hd : (d.map Prod.fst).Nodup) {k : α} {v : β} (h : (k, v) ∈ d) :
    dictGet d k = some v := by
  induction d with
  | nil => cases h
  | cons e d ih =>
    rw [List.map_cons, List.nodup_cons] at hd
    unfold dictGet
    rw [List.find?_cons]
    by_cases he : e.1 = k
    · rcases List.mem_cons.1 h with h | h
      · subst h; simp
      · exact absurd (List.mem_map.2 ⟨_, h, he.symm⟩) hd.1
    · rcases List.mem_cons.1 h with h | h
      · subst h; exact absurd rfl he
      · simp only [he, decide_false]
        exact ih hd.2 h

/-- Update of a dictionary. -/
def upd (d e : List (α × β)) : List (α × β) := e.foldl (fun d x => dictSet d x.1 x.2) d

theorem upd_keys {d : List (α × β)} (hd : (d.map Prod.fst).Nodup) (e : List (α × β)) : ((upd d e).map Prod.fst).Nodup := by
  induction e generalizing d with
  | nil => exact hd
  | cons x e ih => exact ih (dictSet_keys hd _ _)

theorem mem_upd {d e : List (α × β)} {x : α × β} (h : x ∈ upd d e) : x ∈ d ∨ x ∈ e := by
  induction e generalizing d with
  | nil => exact .inl h
  | cons y e ih =>
    rcases ih h with h | h
    · rcases mem_dictSet.1 h with h | h
      · exact .inr (by subst h; exact List.mem_cons_self)
      · exact .inl h.1
    · exact .inr (List.mem_cons_of_mem _ h)

theorem dictSet_key {d : List (α × β)} {k k' : α} {v : β} (h : ∃ x, (k', x) ∈ d) : ∃ x, (k', x) ∈ dictSet d k v := by
  obtain ⟨x, hx⟩ := h
  by_cases hk : k' = k
  · exact ⟨v, mem_dictSet.2 (.inl (by rw [hk]))⟩
  · exact ⟨x, mem_dictSet.2 (.inr ⟨hx, hk⟩)⟩

theorem upd_key {d e : List (α × β)} {k : α} (h : (∃ v, (k, v) ∈ d) ∨ ∃ v, (k, v) ∈ e) : ∃ v, (k, v) ∈ upd d e := by
  induction e generalizing d with
  | nil =>
    rcases h with h | ⟨v, h⟩
    · exact h
    · cases h
  | cons y e ih =>
    refine ih (d := dictSet d y.1 y.2) ?_
    rcases h with h | ⟨v, h⟩
    · exact .inl (dictSet_key h)
    · rcases List.mem_cons.1 h with h | h
      · subst h
        exact .inl ⟨_, mem_dictSet.2 (.inl rfl)⟩
      · exact .inr ⟨v, h⟩

end Dict

/-! ### The walk -/

/-- The objects an object leads to: its generate blocks (not their `Else`) and the values of `submodule`. -/
def Edge (h : Heap) (i j : Nat) : Prop := j ∈ (h.node i).blocks ∨ j ∈ (h.node i).modules

/-- In any number of steps. -/
abbrev Reach (h : Heap) : Nat → Nat → Prop := Relation.ReflTransGen (Edge h)

theorem collect_spec {g : Nat → Option (List (String × Nat))} :
    ∀ {l : List Nat} {d D : List (String × Nat)}, collect g l d = some D →
      ((d.map Prod.fst).Nodup → (D.map Prod.fst).Nodup) ∧
      (∀ x ∈ D, x ∈ d ∨ ∃ j ∈ l, ∃ e, g j = some e ∧ x ∈ e) ∧
      (∀ k, (∃ v, (k, v) ∈ d) → ∃ v, (k, v) ∈ D) ∧
      (∀ j ∈ l, ∃ e, g j = some e ∧ ∀ k, (∃ v, (k, v) ∈ e) → ∃ v, (k, v) ∈ D)
  | [], d, D, h => by
    cases h
    exact ⟨id, fun x hx => .inl hx, fun k hk => hk, fun j hj => by cases hj⟩
  | j :: l, d, D, h => by
    rw [collect] at h
    split at h
    · cases h
    · rename_i e he
      obtain ⟨h1, h2, h3, h4⟩ := collect_spec h
      refine ⟨fun hd => h1 (upd_keys hd e), fun x hx => ?_, fun k hk => h3 k (upd_key (.inl hk)), fun i hi => ?_⟩
      · rcases h2 x hx with hx | ⟨i, hi, e', he', hx⟩
        · rcases mem_upd hx with hx | hx
          · exact .inl hx
          · exact .inr ⟨j, List.mem_cons_self, e, he, hx⟩
        · exact .inr ⟨i, List.mem_cons_of_mem _ hi, e', he', hx⟩
      · rcases List.mem_cons.1 hi with rfl | hi
        · exact ⟨e, he, fun k hk => h3 k (upd_key (.inr hk))⟩
        · exact h4 i hi

theorem getModules_keys {h : Heap} {f i : Nat} {D : List (String × Nat)} (hD : getModules h f i = some D) :
    (D.map Prod.fst).Nodup := by
  cases f with
  | zero => cases hD
  | succ f =>
    refine (collect_spec hD).1 ?_
    split <;> simp

theorem getModules_sound {h : Heap} : ∀ {f i : Nat} {D : List (String × Nat)}, getModules h f i = some D →
    ∀ x ∈ D, Reach h i x.2 ∧ (h.node x.2).name = x.1 ∧ (h.node x.2).gen = false
  | 0, i, D, hD, x, hx => by cases hD
  | f + 1, i, D, hD, x, hx => by
    rcases (collect_spec hD).2.1 x hx with hx | ⟨j, hj, e, he, hx⟩
    · split at hx
      · cases hx
      · rename_i hg
        simp only [List.mem_singleton] at hx
        subst hx
        exact ⟨.refl, rfl, by simpa using hg⟩
    · obtain ⟨h1, h2⟩ := getModules_sound he x hx
      refine ⟨.head ?_ h1, h2⟩
      rcases List.mem_append.1 hj with hj | hj
      · exact .inl hj
      · exact .inr hj

theorem getModules_complete {h : Heap} : ∀ {f i : Nat} {D : List (String × Nat)}, getModules h f i = some D →
    ∀ j, Reach h i j → (h.node j).gen = false → ∃ v, ((h.node j).name, v) ∈ D
  | 0, i, D, hD, j, hj, hg => by cases hD
  | f + 1, i, D, hD, j, hj, hg => by
    obtain ⟨_, _, h3, h4⟩ := collect_spec hD
    rcases Relation.ReflTransGen.cases_head hj with rfl | ⟨k, hk, hj⟩
    · refine h3 _ ⟨i, ?_⟩
      simp [hg]
    · have : k ∈ (h.node i).blocks ++ (h.node i).modules := List.mem_append.2 hk
      obtain ⟨e, he, h5⟩ := h4 k this
      exact h5 _ (getModules_complete he j hj hg)

theorem firstFound_spec {g : Nat → Option (Option Nat)} : ∀ {l : List Nat} {r : Option Nat}, firstFound g l = some r →
    (∀ m, r = some m → ∃ j ∈ l, g j = some (some m)) ∧ (r = none → ∀ j ∈ l, g j = some none)
  | [], r, h => by
    cases h
    exact ⟨fun m hm => absurd hm (by simp), fun _ j hj => absurd hj (by simp)⟩
  | j :: l, r, h => by
    rw [firstFound] at h
    split at h
    · cases h
    · rename_i m hm
      cases h
      exact ⟨fun m' hm' => by cases hm'; exact ⟨j, List.mem_cons_self, hm⟩, fun hn => by cases hn⟩
    · rename_i hn
      obtain ⟨h1, h2⟩ := firstFound_spec h
      refine ⟨fun m hm => ?_, fun hr i hi => ?_⟩
      · obtain ⟨i, hi, hg⟩ := h1 m hm
        exact ⟨i, List.mem_cons_of_mem _ hi, hg⟩
      · rcases List.mem_cons.1 hi with rfl | hi
        · exact hn
        · exact h2 hr i hi

theorem findModule_some {h : Heap} {n : String} : ∀ {f i m : Nat}, findModule h f i n = some (some m) →
    ∃ q, Reach h i q ∧ (n, m) ∈ (h.node q).subs
  | 0, i, m, hm => by cases hm
  | f + 1, i, m, hm => by
    rw [findModule] at hm
    split at hm
    · rename_i m' hg
      cases hm
      exact ⟨i, .refl, dictGet_mem hg⟩
    · obtain ⟨j, hj, hg⟩ := (firstFound_spec hm).1 m rfl
      obtain ⟨q, hq, hs⟩ := findModule_some hg
      exact ⟨q, .head (List.mem_append.1 hj) hq, hs⟩

theorem findModule_none {h : Heap} {n : String} : ∀ {f i : Nat}, findModule h f i n = some none →
    ∀ q, Reach h i q → ∀ m, (n, m) ∉ (h.node q).subs
  | 0, i, hm, q, hq, m => by cases hm
  | f + 1, i, hm, q, hq, m => by
    rw [findModule] at hm
    split at hm
    · cases hm
    · rename_i hg
      rcases Relation.ReflTransGen.cases_head hq with rfl | ⟨k, hk, hq⟩
      · exact dictGet_none hg m
      · exact findModule_none ((firstFound_spec hm).2 rfl k (List.mem_append.2 hk)) q hq m

/-! ### Building -/

/-- The module is instantiated somewhere. -/
def Used (h : Heap) (m : Nat) : Prop := ∃ p nm, (nm, m) ∈ (h.node p).insts

/-- The call can be made: its objects exist.  For an instance: it is of a module; and no other module that is
    instantiated has the same name, or the module is new, one of that name is below the parent, and the name with `_`
    is not in use. -/
def Call.Ok (h : Heap) : Call → Prop
  | .module _ => True
  | .genFor p _ => p < h.size
  | .genIf p _ => p < h.size
  | .inst p _ m => p < h.size ∧ m < h.size ∧ (h.node m).gen = false ∧ p ≠ m ∧
      ((∀ u, Used h u → (h.node u).name = (h.node m).name → u = m) ∨
       ¬ Used h m ∧ (∃ u, Reach h p u ∧ u ≠ p ∧ (h.node u).gen = false ∧ (h.node u).name = (h.node m).name) ∧
       ∀ u, Used h u → (h.node u).name ≠ (h.node m).name ++ "_")
  | .hook p _ => p < h.size

/-- All calls of a sequence can be made. -/
def AllOk (fuel : Nat) : Heap → List Call → Prop
  | _, [] => True
  | h, c :: l => c.Ok h ∧ ∀ h', c.apply fuel h = some h' → AllOk fuel h' l

/-- What holds between calls. -/
structure Inv (h : Heap) : Prop where
  fresh : ∀ i, h.size ≤ i → h.node i = {}
  blocks : ∀ i j, j ∈ (h.node i).blocks → j < h.size ∧ (h.node j).gen = true
  insts : ∀ p nm m, (nm, m) ∈ (h.node p).insts → m < h.size ∧ (h.node m).gen = false ∧ Reach h p m
  subs : ∀ p k m, (k, m) ∈ (h.node p).subs → (h.node m).name = k ∧ ∃ nm, (nm, m) ∈ (h.node p).insts
  names : ∀ a b, Used h a → Used h b → (h.node a).name = (h.node b).name → a = b
  keys : ∀ i, ((h.node i).gens.map Prod.fst).Nodup
  elses : ∀ g e, (h.node g).els = some e → e < h.size ∧ (h.node e).gen = true ∧ ∀ i, e ∉ (h.node i).blocks

theorem Reach.mono {h h' : Heap} (hs : ∀ i j, Edge h i j → Edge h' i j) {i j : Nat} (hr : Reach h i j) :
    Reach h' i j := by
  induction hr with
  | refl => exact .refl
  | tail _ he ih => exact ih.tail (hs _ _ he)

@[simp] theorem set_node (h : Heap) (i : Nat) (n : Node) (j : Nat) :
    (h.set i n).node j = if j = i then n else h.node j := rfl

@[simp] theorem set_size (h : Heap) (i : Nat) (n : Node) : (h.set i n).size = h.size := rfl

@[simp] theorem new_node (h : Heap) (n : Node) (j : Nat) :
    (h.new n).node j = if j = h.size then n else h.node j := rfl

@[simp] theorem new_size (h : Heap) (n : Node) : (h.new n).size = h.size + 1 := rfl

theorem dictSet_new {α β : Type} [DecidableEq α] {d : List (α × β)} {k : α} (v : β) (hk : ∀ x, (k, x) ∉ d) :
    dictSet d k v = d ++ [(k, v)] := by
  unfold dictSet
  rw [if_neg]
  intro h
  obtain ⟨e, he, hek⟩ := List.any_eq_true.1 h
  refine hk e.2 ?_
  have : e.1 = k := by simpa using hek
  rw [← this]
  exact he

/-- What an instance changes. -/
structure Grow (h h' : Heap) (p : Nat) (nm : String) (m : Nat) (n : String) (add : Bool) : Prop where
  size : h'.size = h.size
  gen : ∀ i, (h'.node i).gen = (h.node i).gen
  gens : ∀ i, (h'.node i).gens = (h.node i).gens
  els : ∀ i, (h'.node i).els = (h.node i).els
  hooks : ∀ i, (h'.node i).hooks = (h.node i).hooks
  insts : ∀ i, (h'.node i).insts = if i = p then (h.node p).insts ++ [(nm, m)] else (h.node i).insts
  subs : ∀ i, (h'.node i).subs = if i = p ∧ add = true then (h.node p).subs ++ [(n, m)] else (h.node i).subs
  name : ∀ i, (h'.node i).name = if i = m then n else (h.node i).name
  reach : add = false → Reach h p m
  free : ∀ u, Used h u → (h.node u).name = n → u = m
  new : n ≠ (h.node m).name → ¬ Used h m

theorem last_edge {h : Heap} (hi : Inv h) {p u : Nat} (hr : Reach h p u) (hne : u ≠ p) (hg : (h.node u).gen = false) :
    ∃ q nm, Reach h p q ∧ ((h.node u).name, u) ∈ (h.node q).subs ∧ (nm, u) ∈ (h.node q).insts := by
  rcases Relation.ReflTransGen.cases_tail hr with he | ⟨q, hq, he⟩
  · exact absurd he hne
  · rcases he with he | he
    · have := (hi.blocks q u he).2
      rw [hg] at this
      cases this
    · obtain ⟨e, hs, rfl⟩ := List.mem_map.1 he
      obtain ⟨h1, nm, h2⟩ := hi.subs q e.1 e.2 hs
      exact ⟨q, nm, hq, by rw [h1]; exact hs, h2⟩

theorem inst_grow {fuel : Nat} {h h' : Heap} {p : Nat} {nm : String} {m : Nat} (hi : Inv h)
    (ho : Call.Ok h (.inst p nm m)) (ha : instanceOf fuel h p nm m = some h') :
    ∃ n add, Grow h h' p nm m n add := by
  obtain ⟨hp, hm, hgm, hpm, hc⟩ := ho
  unfold instanceOf at ha
  simp only at ha
  generalize hh1 : h.set p { h.node p with insts := (h.node p).insts ++ [(nm, m)] } = h1 at ha
  have hsub : ∀ i, (h1.node i).subs = (h.node i).subs := by
    intro i
    rw [← hh1, set_node]
    split
    · rename_i e; rw [e]
    · rfl
  have hgens : ∀ i, (h1.node i).gens = (h.node i).gens := by
    intro i
    rw [← hh1, set_node]
    split
    · rename_i e; rw [e]
    · rfl
  have hname : (h1.node m).name = (h.node m).name := by
    rw [← hh1, set_node, if_neg (Ne.symm hpm)]
  have hreach : ∀ {i j}, Reach h1 i j ↔ Reach h i j := by
    have he : ∀ i j, Edge h1 i j ↔ Edge h i j := by
      intro i j
      unfold Edge Node.blocks Node.modules
      rw [hsub, hgens]
    intro i j
    exact ⟨Reach.mono fun i j => (he i j).1, Reach.mono fun i j => (he i j).2⟩
  split at ha
  · cases ha
  · rename_i hf
    cases ha
    have hnone : ∀ q, Reach h p q → ∀ x, ((h.node m).name, x) ∉ (h.node q).subs := by
      intro q hq x
      have := findModule_none hf q (hreach.2 hq) x
      rwa [hsub, hname] at this
    have hdis : ∀ u, Used h u → (h.node u).name = (h.node m).name → u = m := by
      rcases hc with hc | ⟨_, ⟨u, hu, hup, hug, hun⟩, _⟩
      · exact hc
      · obtain ⟨q, _, hq, hs, _⟩ := last_edge hi hu hup hug
        rw [hun] at hs
        exact absurd hs (hnone q hq u)
    refine ⟨(h.node m).name, true, ?_⟩
    subst hh1
    have hk : ∀ x, ((h.node m).name, x) ∉ (h.node p).subs := hnone p .refl
    constructor
    · rfl
    · intro i; simp only [set_node]; split <;> simp_all
    · intro i; simp only [set_node]; split <;> simp_all
    · intro i; simp only [set_node]; split <;> simp_all
    · intro i; simp only [set_node]; split <;> simp_all
    · intro i; simp only [set_node]; split <;> simp_all
    · intro i
      simp only [set_node]
      by_cases hip : i = p
      · simp [hip, Ne.symm hpm, dictSet_new m hk]
      · simp [hip]
    · intro i
      simp only [set_node]
      by_cases hip : i = p
      · simp [hip, hpm]
      · simp only [hip, if_false]
        split
        · rename_i e; rw [e]
        · rfl
    · intro e; cases e
    · exact hdis
    · intro e; exact absurd rfl e
  · rename_i mod hf
    obtain ⟨q, hq, hs⟩ := findModule_some hf
    rw [hreach] at hq
    rw [hsub, hname] at hs
    obtain ⟨hmn, nm', hmi⟩ := hi.subs q _ mod hs
    have hmu : Used h mod := ⟨q, nm', hmi⟩
    cases fuel with
    | zero => cases ha
    | succ g =>
      rw [renameLoop] at ha
      split at ha
      · rename_i he
        subst he
        cases ha
        have hr : Reach h p mod := hq.tail (.inr (List.mem_map.2 ⟨_, hs, rfl⟩))
        refine ⟨(h.node mod).name, false, ?_⟩
        subst hh1
        constructor
        · rfl
        · intro i; simp only [set_node]; split <;> simp_all
        · intro i; simp only [set_node]; split <;> simp_all
        · intro i; simp only [set_node]; split <;> simp_all
        · intro i; simp only [set_node]; split <;> simp_all
        · intro i; simp only [set_node]; split <;> simp_all
        · intro i; simp only [set_node]; split <;> simp_all
        · intro i
          simp only [set_node]
          by_cases hip : i = p
          · simp [hip, hpm]
          · simp only [hip, if_false]
            split
            · rename_i e; rw [e]
            · rfl
        · intro _; exact hr
        · rcases hc with hc | ⟨hc, _⟩
          · exact hc
          · exact absurd hmu hc
        · intro e; exact absurd rfl e
      · rename_i hne
        have hc' : ¬ Used h m ∧ ∀ u, Used h u → (h.node u).name ≠ (h.node m).name ++ "_" := by
          rcases hc with hc | hc
          · exact absurd (hc mod hmu hmn) hne
          · exact ⟨hc.1, hc.2.2⟩
        have hk : ∀ x, ((h.node m).name ++ "_", x) ∉ (h.node p).subs := by
          intro x hx
          obtain ⟨e1, nm2, e2⟩ := hi.subs p _ x hx
          exact hc'.2 x ⟨p, nm2, e2⟩ e1
        simp only at ha
        generalize hh2 : (h1.set m { h1.node m with name := (h1.node m).name ++ "_" }) = h2 at ha
        generalize hh3 : (h2.set p { h2.node p with subs := dictSet (h2.node p).subs (h2.node m).name m }) = h3 at ha
        have hn2 : (h2.node m).name = (h.node m).name ++ "_" := by
          rw [← hh2, set_node, if_pos rfl]
          simp only [hname]
        have hs2 : (h2.node p).subs = (h.node p).subs := by
          rw [← hh2, set_node, if_neg hpm]
          exact hsub p
        have hn3 : (h3.node m).name = (h.node m).name ++ "_" := by
          rw [← hh3, set_node, if_neg (Ne.symm hpm)]
          exact hn2
        have hs3 : (h3.node p).subs = (h.node p).subs ++ [((h.node m).name ++ "_", m)] := by
          rw [← hh3, set_node, if_pos rfl]
          show dictSet (h2.node p).subs (h2.node m).name m = _
          rw [hn2, hs2, dictSet_new m hk]
        have hf3 : findModule h3 (g + 1) p (h3.node m).name = some (some m) := by
          rw [findModule, hs3, hn3]
          have : dictGet ((h.node p).subs ++ [((h.node m).name ++ "_", m)]) ((h.node m).name ++ "_") = some m := by
            unfold dictGet
            rw [List.find?_append]
            have : List.find? (fun e => decide (e.1 = (h.node m).name ++ "_")) (h.node p).subs = none := by
              rw [List.find?_eq_none]
              intro e he
              simp only [decide_eq_true_eq]
              intro hek
              refine hk e.2 ?_
              rw [← hek]
              exact he
            rw [this]
            simp
          rw [this]
        rw [hf3] at ha
        cases g with
        | zero => cases ha
        | succ g =>
          simp only [renameLoop, if_true] at ha
          have he3 := Option.some.inj ha
          subst he3
          refine ⟨(h.node m).name ++ "_", true, ?_⟩
          have hnode : ∀ i, h3.node i = if i = p then
              { h.node p with
                insts := (h.node p).insts ++ [(nm, m)]
                subs := (h.node p).subs ++ [((h.node m).name ++ "_", m)] }
              else if i = m then { h.node m with name := (h.node m).name ++ "_" } else h.node i := by
            intro i
            by_cases hip : i = p
            · subst hip
              rw [if_pos rfl, ← hh3, set_node, if_pos rfl, hs2, hn2, dictSet_new m hk, ← hh2, set_node, if_neg hpm,
                ← hh1, set_node, if_pos rfl]
            · rw [if_neg hip, ← hh3, set_node, if_neg hip, ← hh2, set_node]
              by_cases him : i = m
              · subst him
                rw [if_pos rfl, if_pos rfl, ← hh1, set_node, if_neg hip]
              · rw [if_neg him, if_neg him, ← hh1, set_node, if_neg hip]
          constructor
          · rw [← hh3, ← hh2, ← hh1]; rfl
          · intro i; rw [hnode]; repeat' split
            all_goals simp_all
          · intro i; rw [hnode]; repeat' split
            all_goals simp_all
          · intro i; rw [hnode]; repeat' split
            all_goals simp_all
          · intro i; rw [hnode]; repeat' split
            all_goals simp_all
          · intro i; rw [hnode]; repeat' split
            all_goals simp_all
          · intro i; rw [hnode]; repeat' split
            all_goals simp_all
          · intro i
            rw [hnode]
            by_cases hip : i = p
            · simp [hip, hpm]
            · simp only [hip, if_false]
              split <;> rfl
          · intro e; cases e
          · intro u hu hn
            exact absurd hn (hc'.2 u hu)
          · intro _; exact hc'.1

theorem inv_inst {fuel : Nat} {h h' : Heap} {p : Nat} {nm : String} {m : Nat} (hi : Inv h)
    (ho : Call.Ok h (.inst p nm m)) (ha : instanceOf fuel h p nm m = some h') : Inv h' := by
  obtain ⟨n, add, g⟩ := inst_grow hi ho ha
  obtain ⟨hp, hm, hgm, hpm, _⟩ := ho
  have hbl : ∀ i, (h'.node i).blocks = (h.node i).blocks := fun i => by unfold Node.blocks; rw [g.gens]
  have hmono : ∀ i j, Edge h i j → Edge h' i j := by
    rintro i j (he | he)
    · exact .inl (by rw [hbl]; exact he)
    · refine .inr ?_
      unfold Node.modules at he ⊢
      rw [g.subs]
      split
      · rename_i e
        rw [e.1] at he
        rw [List.map_append]
        exact List.mem_append_left _ he
      · exact he
  have hused : ∀ u, Used h' u → Used h u ∨ u = m := by
    rintro u ⟨q, nm', hq⟩
    rw [g.insts] at hq
    split at hq
    · rcases List.mem_append.1 hq with hq | hq
      · exact .inl ⟨p, nm', hq⟩
      · simp only [List.mem_singleton, Prod.mk.injEq] at hq
        exact .inr hq.2
    · exact .inl ⟨q, nm', hq⟩
  have hname : ∀ u, Used h u → (h'.node u).name = (h.node u).name := by
    intro u hu
    rw [g.name]
    split
    · rename_i e
      subst e
      by_contra hne
      exact g.new hne hu
    · rfl
  have hmm : (h'.node m).name = n := by rw [g.name, if_pos rfl]
  constructor
  · intro i hsz
    rw [g.size] at hsz
    have hip : i ≠ p := by omega
    have him : i ≠ m := by omega
    have h0 := hi.fresh i hsz
    have e1 := g.gen i
    have e2 := g.gens i
    have e3 := g.els i
    have e4 := g.hooks i
    have e5 := g.insts i
    have e6 := g.subs i
    have e7 := g.name i
    rw [if_neg hip] at e5
    rw [if_neg (by simp [hip])] at e6
    rw [if_neg him] at e7
    cases hn : h'.node i
    cases hn' : h.node i
    rw [hn, hn'] at e1 e2 e3 e4 e5 e6 e7
    simp only at e1 e2 e3 e4 e5 e6 e7
    rw [hn'] at h0
    subst e1 e2 e3 e4 e5 e6 e7
    exact h0
  · intro i j hj
    rw [hbl] at hj
    rw [g.size, g.gen]
    exact hi.blocks i j hj
  · intro q nm' x hx
    rw [g.size, g.gen]
    rw [g.insts] at hx
    have old : (nm', x) ∈ (h.node q).insts → x < h.size ∧ (h.node x).gen = false ∧ Reach h' q x := by
      intro hx
      obtain ⟨a, b, c⟩ := hi.insts q nm' x hx
      exact ⟨a, b, Reach.mono hmono c⟩
    split at hx
    · rename_i hq
      rcases List.mem_append.1 hx with hx | hx
      · exact old (by rw [hq]; exact hx)
      · simp only [List.mem_singleton, Prod.mk.injEq] at hx
        obtain ⟨_, rfl⟩ := hx
        refine ⟨hm, hgm, ?_⟩
        rw [hq]
        cases add with
        | false => exact Reach.mono hmono (g.reach rfl)
        | true =>
          refine Relation.ReflTransGen.single (.inr ?_)
          unfold Node.modules
          rw [g.subs, if_pos ⟨rfl, rfl⟩]
          simp
    · exact old hx
  · intro q k x hx
    rw [g.subs] at hx
    have old : (k, x) ∈ (h.node q).subs → (h'.node x).name = k ∧ ∃ nm', (nm', x) ∈ (h'.node q).insts := by
      intro hx
      obtain ⟨a, nm', b⟩ := hi.subs q k x hx
      refine ⟨by rw [hname x ⟨q, nm', b⟩]; exact a, nm', ?_⟩
      rw [g.insts]
      split
      · rename_i e
        rw [e] at b
        exact List.mem_append_left _ b
      · exact b
    split at hx
    · rename_i hq
      rcases List.mem_append.1 hx with hx | hx
      · exact old (by rw [hq.1]; exact hx)
      · simp only [List.mem_singleton, Prod.mk.injEq] at hx
        obtain ⟨rfl, rfl⟩ := hx
        refine ⟨hmm, nm, ?_⟩
        rw [g.insts, if_pos hq.1]
        simp
    · exact old hx
  · intro a b ua ub he
    rcases hused a ua with ha' | rfl
    · rcases hused b ub with hb' | rfl
      · rw [hname a ha', hname b hb'] at he
        exact hi.names a b ha' hb' he
      · rw [hname a ha', hmm] at he
        exact g.free a ha' he
    · rcases hused b ub with hb' | rfl
      · rw [hname b hb', hmm] at he
        exact (g.free b hb' he.symm).symm
      · rfl
  · intro i
    rw [g.gens]
    exact hi.keys i
  · intro x e he
    rw [g.els] at he
    rw [g.size, g.gen]
    obtain ⟨a, b, c⟩ := hi.elses x e he
    exact ⟨a, b, fun i => by rw [hbl]; exact c i⟩

/-- Objects are only added, and what is in them stays. -/
theorem inv_new {h : Heap} (hi : Inv h) (n : Node) (hins : n.insts = []) (hsubs : n.subs = []) (hgens : n.gens = [])
    (hels : n.els = none) : Inv (h.new n) := by
  have hmono : ∀ i j, Edge h i j → Edge (h.new n) i j := by
    intro i j he
    have : i ≠ h.size := by
      rintro rfl
      have h0 := hi.fresh h.size (Nat.le_refl _)
      rcases he with he | he
      · rw [h0] at he; cases he
      · rw [h0] at he; cases he
    unfold Edge
    rw [new_node, if_neg this]
    exact he
  have hbl : ∀ i, ((h.new n).node i).blocks = (h.node i).blocks := by
    intro i
    rw [new_node]
    split
    · rename_i e
      rw [e, hi.fresh h.size (Nat.le_refl _)]
      unfold Node.blocks
      rw [hgens]
    · rfl
  have hin : ∀ i, ((h.new n).node i).insts = (h.node i).insts := by
    intro i
    rw [new_node]
    split
    · rename_i e
      rw [e, hi.fresh h.size (Nat.le_refl _), hins]
    · rfl
  have hsu : ∀ i, ((h.new n).node i).subs = (h.node i).subs := by
    intro i
    rw [new_node]
    split
    · rename_i e
      rw [e, hi.fresh h.size (Nat.le_refl _), hsubs]
    · rfl
  have hold : ∀ i, i < h.size → (h.new n).node i = h.node i := by
    intro i hlt
    rw [new_node, if_neg (by omega)]
  have hus : ∀ u, Used (h.new n) u → Used h u ∧ u < h.size := by
    rintro u ⟨p, nm, hp⟩
    rw [hin] at hp
    exact ⟨⟨p, nm, hp⟩, (hi.insts p nm u hp).1⟩
  constructor
  · intro i hsz
    rw [new_size] at hsz
    rw [new_node, if_neg (by omega)]
    exact hi.fresh i (by omega)
  · intro i j hj
    rw [hbl] at hj
    obtain ⟨a, b⟩ := hi.blocks i j hj
    rw [hold j a, new_size]
    exact ⟨by omega, b⟩
  · intro p nm m hm
    rw [hin] at hm
    obtain ⟨a, b, c⟩ := hi.insts p nm m hm
    rw [hold m a, new_size]
    exact ⟨by omega, b, Reach.mono hmono c⟩
  · intro p k m hm
    rw [hsu] at hm
    obtain ⟨a, nm, b⟩ := hi.subs p k m hm
    rw [hold m (hi.insts p nm m b).1, hin]
    exact ⟨a, nm, b⟩
  · intro a b ua ub he
    obtain ⟨ua, la⟩ := hus a ua
    obtain ⟨ub, lb⟩ := hus b ub
    rw [hold a la, hold b lb] at he
    exact hi.names a b ua ub he
  · intro i
    rw [new_node]
    split
    · rw [hgens]; simp
    · exact hi.keys i
  · intro g e he
    rw [new_node] at he
    split at he
    · rw [hels] at he; cases he
    · obtain ⟨a, b, c⟩ := hi.elses g e he
      rw [hold e a, new_size]
      exact ⟨by omega, b, fun i => by rw [hbl]; exact c i⟩

theorem mem_addBlock {d : List (Option String × List Nat)} (hd : (d.map Prod.fst).Nodup) {scope : Option String}
    (hs : ∀ s, scope = some s → ∀ x, (some s, x) ∉ d) (t j : Nat) :
    j ∈ (addBlock d scope t).flatMap Prod.snd ↔ j ∈ d.flatMap Prod.snd ∨ j = t := by
  cases scope with
  | some s =>
    rw [addBlock, dictSet_new _ (hs s rfl)]
    simp
  | none =>
    rw [addBlock]
    simp only [List.mem_flatMap]
    constructor
    · rintro ⟨e, he, hj⟩
      rcases mem_dictSet.1 he with rfl | ⟨he, _⟩
      · rcases List.mem_append.1 hj with hj | hj
        · left
          cases hg : dictGet d none with
          | none => rw [hg] at hj; cases hj
          | some l =>
            rw [hg] at hj
            exact ⟨_, dictGet_mem hg, hj⟩
        · exact .inr (by simpa using hj)
      · exact .inl ⟨e, he, hj⟩
    · rintro (⟨e, he, hj⟩ | rfl)
      · by_cases hk : e.1 = none
        · refine ⟨_, mem_dictSet.2 (.inl rfl), List.mem_append_left _ ?_⟩
          have : dictGet d none = some e.2 := dictGet_of_mem hd (by rw [← hk]; exact he)
          rw [this]
          exact hj
        · exact ⟨e, mem_dictSet.2 (.inr ⟨he, hk⟩), hj⟩
      · exact ⟨_, mem_dictSet.2 (.inl rfl), List.mem_append_right _ (by simp)⟩

theorem addBlock_keys {d : List (Option String × List Nat)} (hd : (d.map Prod.fst).Nodup) (scope : Option String)
    (t : Nat) : ((addBlock d scope t).map Prod.fst).Nodup := by
  cases scope <;> exact dictSet_keys hd _ _

/-- A generate block that is a new object. -/
theorem inv_block {h : Heap} (hi : Inv h) {p t : Nat} (scope : Option String) (hp : p < h.size) (ht : t < h.size)
    (htg : (h.node t).gen = true) (hte : ∀ g, (h.node g).els ≠ some t)
    (hs : ∀ s, scope = some s → ∀ x, (some s, x) ∉ (h.node p).gens) :
    Inv (h.set p { h.node p with gens := addBlock (h.node p).gens scope t }) := by
  generalize hh : h.set p { h.node p with gens := addBlock (h.node p).gens scope t } = h'
  have hnode : ∀ i, h'.node i = if i = p then { h.node p with gens := addBlock (h.node p).gens scope t } else h.node i := by
    intro i; rw [← hh]; rfl
  have hsz : h'.size = h.size := by rw [← hh]; rfl
  have hbl : ∀ i j, j ∈ (h'.node i).blocks ↔ j ∈ (h.node i).blocks ∨ i = p ∧ j = t := by
    intro i j
    rw [hnode]
    split
    · rename_i e
      subst e
      have := mem_addBlock (hi.keys i) hs t j
      simpa [Node.blocks] using this
    · rename_i e
      simp [e]
  have hf : ∀ i, (h'.node i).name = (h.node i).name ∧ (h'.node i).gen = (h.node i).gen ∧
      (h'.node i).insts = (h.node i).insts ∧ (h'.node i).subs = (h.node i).subs ∧ (h'.node i).els = (h.node i).els := by
    intro i
    rw [hnode]
    split
    · rename_i e; subst e; simp
    · simp
  have hmono : ∀ i j, Edge h i j → Edge h' i j := by
    rintro i j (he | he)
    · exact .inl ((hbl i j).2 (.inl he))
    · refine .inr ?_
      unfold Node.modules
      rw [(hf i).2.2.2.1]
      exact he
  have hus : ∀ u, Used h' u → Used h u := by
    rintro u ⟨q, nm, hq⟩
    rw [(hf q).2.2.1] at hq
    exact ⟨q, nm, hq⟩
  constructor
  · intro i hi'
    rw [hsz] at hi'
    rw [hnode, if_neg (by omega)]
    exact hi.fresh i hi'
  · intro i j hj
    rw [hsz, (hf j).2.1]
    rcases (hbl i j).1 hj with hj | ⟨_, rfl⟩
    · exact hi.blocks i j hj
    · exact ⟨ht, htg⟩
  · intro q nm m hm
    rw [(hf q).2.2.1] at hm
    obtain ⟨a, b, c⟩ := hi.insts q nm m hm
    rw [hsz, (hf m).2.1]
    exact ⟨a, b, Reach.mono hmono c⟩
  · intro q k m hm
    rw [(hf q).2.2.2.1] at hm
    rw [(hf m).1, (hf q).2.2.1]
    exact hi.subs q k m hm
  · intro a b ua ub he
    rw [(hf a).1, (hf b).1] at he
    exact hi.names a b (hus a ua) (hus b ub) he
  · intro i
    rw [hnode]
    split
    · exact addBlock_keys (hi.keys p) scope t
    · exact hi.keys i
  · intro g e he
    rw [(hf g).2.2.2.2] at he
    obtain ⟨a, b, c⟩ := hi.elses g e he
    rw [hsz, (hf e).2.1]
    refine ⟨a, b, fun i hj => ?_⟩
    rcases (hbl i e).1 hj with hj | ⟨_, rfl⟩
    · exact c i hj
    · exact hte g he

/-- Hooks and `Else` blocks that are new objects change nothing that matters here. -/
theorem inv_els {h : Heap} (hi : Inv h) {t e : Nat} (ht : t < h.size) (he : e < h.size) (heg : (h.node e).gen = true)
    (heb : ∀ i, e ∉ (h.node i).blocks) : Inv (h.set t { h.node t with els := some e }) := by
  generalize hh : h.set t { h.node t with els := some e } = h'
  have hnode : ∀ i, h'.node i = if i = t then { h.node t with els := some e } else h.node i := by
    intro i; rw [← hh]; rfl
  have hsz : h'.size = h.size := by rw [← hh]; rfl
  have hf : ∀ i, (h'.node i).name = (h.node i).name ∧ (h'.node i).gen = (h.node i).gen ∧
      (h'.node i).insts = (h.node i).insts ∧ (h'.node i).subs = (h.node i).subs ∧
      (h'.node i).gens = (h.node i).gens := by
    intro i
    rw [hnode]
    split
    · rename_i e; subst e; simp
    · simp
  have hbl : ∀ i, (h'.node i).blocks = (h.node i).blocks := fun i => by unfold Node.blocks; rw [(hf i).2.2.2.2]
  have hmono : ∀ i j, Edge h i j → Edge h' i j := by
    intro i j hx
    unfold Edge Node.modules at *
    rw [hbl, (hf i).2.2.2.1]
    exact hx
  have hus : ∀ u, Used h' u → Used h u := by
    rintro u ⟨q, nm, hq⟩
    rw [(hf q).2.2.1] at hq
    exact ⟨q, nm, hq⟩
  constructor
  · intro i hi'
    rw [hsz] at hi'
    rw [hnode, if_neg (by omega)]
    exact hi.fresh i hi'
  · intro i j hj
    rw [hbl] at hj
    rw [hsz, (hf j).2.1]
    exact hi.blocks i j hj
  · intro q nm m hm
    rw [(hf q).2.2.1] at hm
    obtain ⟨a, b, c⟩ := hi.insts q nm m hm
    rw [hsz, (hf m).2.1]
    exact ⟨a, b, Reach.mono hmono c⟩
  · intro q k m hm
    rw [(hf q).2.2.2.1] at hm
    rw [(hf m).1, (hf q).2.2.1]
    exact hi.subs q k m hm
  · intro a b ua ub he
    rw [(hf a).1, (hf b).1] at he
    exact hi.names a b (hus a ua) (hus b ub) he
  · intro i
    rw [(hf i).2.2.2.2]
    exact hi.keys i
  · intro g x hx
    rw [hnode] at hx
    rw [hsz, (hf x).2.1]
    split at hx
    · simp only [Option.some.injEq] at hx
      subst hx
      exact ⟨he, heg, fun i => by rw [hbl]; exact heb i⟩
    · obtain ⟨a, b, c⟩ := hi.elses g x hx
      exact ⟨a, b, fun i => by rw [hbl]; exact c i⟩

theorem inv_hook {h : Heap} (hi : Inv h) {p : Nat} (x : Nat) (hp : p < h.size) :
    Inv (h.set p { h.node p with hooks := (h.node p).hooks ++ [x] }) := by
  generalize hh : h.set p { h.node p with hooks := (h.node p).hooks ++ [x] } = h'
  have hnode : ∀ i, h'.node i = if i = p then { h.node p with hooks := (h.node p).hooks ++ [x] } else h.node i := by
    intro i; rw [← hh]; rfl
  have hsz : h'.size = h.size := by rw [← hh]; rfl
  have hf : ∀ i, (h'.node i).name = (h.node i).name ∧ (h'.node i).gen = (h.node i).gen ∧
      (h'.node i).insts = (h.node i).insts ∧ (h'.node i).subs = (h.node i).subs ∧
      (h'.node i).gens = (h.node i).gens ∧ (h'.node i).els = (h.node i).els := by
    intro i
    rw [hnode]
    split
    · rename_i e; subst e; simp
    · simp
  have hbl : ∀ i, (h'.node i).blocks = (h.node i).blocks := fun i => by unfold Node.blocks; rw [(hf i).2.2.2.2.1]
  have hmono : ∀ i j, Edge h i j → Edge h' i j := by
    intro i j hx
    unfold Edge Node.modules at *
    rw [hbl, (hf i).2.2.2.1]
    exact hx
  have hus : ∀ u, Used h' u → Used h u := by
    rintro u ⟨q, nm, hq⟩
    rw [(hf q).2.2.1] at hq
    exact ⟨q, nm, hq⟩
  constructor
  · intro i hi'
    rw [hsz] at hi'
    rw [hnode, if_neg (by omega)]
    exact hi.fresh i hi'
  · intro i j hj
    rw [hbl] at hj
    rw [hsz, (hf j).2.1]
    exact hi.blocks i j hj
  · intro q nm m hm
    rw [(hf q).2.2.1] at hm
    obtain ⟨a, b, c⟩ := hi.insts q nm m hm
    rw [hsz, (hf m).2.1]
    exact ⟨a, b, Reach.mono hmono c⟩
  · intro q k m hm
    rw [(hf q).2.2.2.1] at hm
    rw [(hf m).1, (hf q).2.2.1]
    exact hi.subs q k m hm
  · intro a b ua ub he
    rw [(hf a).1, (hf b).1] at he
    exact hi.names a b (hus a ua) (hus b ub) he
  · intro i
    rw [(hf i).2.2.2.2.1]
    exact hi.keys i
  · intro g e he
    rw [(hf g).2.2.2.2.2] at he
    rw [hsz, (hf e).2.1]
    obtain ⟨a, b, c⟩ := hi.elses g e he
    exact ⟨a, b, fun i => by rw [hbl]; exact c i⟩

theorem scope_new {d : List (Option String × List Nat)} {scope : Option String}
    (h : ¬ (scope.isSome && (d.any fun e => e.1 = scope)) = true) :
    ∀ s, scope = some s → ∀ x, (some s, x) ∉ d := by
  rintro s rfl x hx
  exact h (by simpa using ⟨x, hx⟩)

theorem inv_apply {fuel : Nat} {h h' : Heap} {c : Call} (hi : Inv h) (ho : c.Ok h) (ha : c.apply fuel h = some h') :
    Inv h' := by
  cases c with
  | module name => cases ha; exact inv_new hi _ rfl rfl rfl rfl
  | genFor p scope =>
    rw [Call.apply] at ha
    split at ha
    · cases ha
    · rename_i hs
      cases ha
      have hp : p < h.size := ho
      have h1 := inv_new hi { name := "GenerateFor", gen := true } rfl rfl rfl rfl
      have hpn : (h.new { name := "GenerateFor", gen := true }).node p = h.node p := by
        rw [new_node, if_neg (by omega)]
      refine inv_block h1 scope (by rw [new_size]; omega) (by rw [new_size]; omega) (by simp) ?_ ?_
      · intro g hg
        have := (h1.elses g _ hg).1
        rw [new_node] at hg
        split at hg
        · cases hg
        · have := (hi.elses g _ hg).1
          omega
      · rw [hpn]
        exact scope_new hs
  | genIf p scope =>
    rw [Call.apply] at ha
    split at ha
    · cases ha
    · rename_i hs
      cases ha
      have hp : p < h.size := ho
      have h1 := inv_new hi { name := "GenerateIf", gen := true } rfl rfl rfl rfl
      have h2 := inv_new h1 { name := "GenerateIfElse", gen := true } rfl rfl rfl rfl
      have h3 := inv_els h2 (t := h.size) (e := h.size + 1) (by simp; omega) (by simp) (by simp)
        (fun i hj => by
          have hlt := (h1.blocks i (h.size + 1) (by
            rw [new_node] at hj
            split at hj
            · cases hj
            · exact hj)).1
          simp at hlt)
      have heq : ((h.new { name := "GenerateIf", gen := true }).new { name := "GenerateIfElse", gen := true }).set h.size
          { ((h.new { name := "GenerateIf", gen := true }).new
              { name := "GenerateIfElse", gen := true }).node h.size with els := some (h.size + 1) } =
          (h.new { name := "GenerateIf", gen := true, els := some (h.size + 1) }).new
            { name := "GenerateIfElse", gen := true } := by
        unfold Heap.set Heap.new
        simp only [Heap.mk.injEq, true_and]
        funext j
        by_cases hj : j = h.size
        · subst hj; simp
        · simp [hj]
      rw [heq] at h3
      have hpn : ((h.new { name := "GenerateIf", gen := true, els := some (h.size + 1) }).new
            { name := "GenerateIfElse", gen := true }).node p = h.node p := by
        rw [new_node, if_neg (by rw [new_size]; omega), new_node, if_neg (by omega)]
      refine inv_block h3 scope (by simp; omega) (by simp; omega) (by simp) ?_ ?_
      · intro g hg
        rw [new_node] at hg
        split at hg
        · cases hg
        · rw [new_node] at hg
          split at hg
          · simp at hg
          · have := (hi.elses g _ hg).1
            omega
      · rw [hpn]
        exact scope_new hs
  | inst p nm m => exact inv_inst hi ho ha
  | hook p x => cases ha; exact inv_hook hi x ho

theorem inv_run {fuel : Nat} : ∀ {l : List Call} {h h' : Heap}, Inv h → AllOk fuel h l → run fuel h l = some h' → Inv h'
  | [], h, h', hi, _, hr => by cases hr; exact hi
  | c :: l, h, h', hi, ho, hr => by
    obtain ⟨h1, ha, hr⟩ := Option.bind_eq_some_iff.1 hr
    exact inv_run (inv_apply hi ho.1 ha) (ho.2 h1 ha) hr

theorem inv_empty : Inv {} := by
  constructor
  · intro i _; rfl
  · intro i j hj; cases hj
  · intro p nm m hm; cases hm
  · intro p k m hm; cases hm
  · rintro a b ⟨_, _, hu⟩; cases hu
  · intro i; simp
  · intro g e he; cases he

/-! ### What is written -/

/-- The parts of a design: the top module, generate blocks of parts, and the modules of which parts have
    instances. -/
inductive Part (h : Heap) (top : Nat) : Nat → Prop
  | top : Part h top top
  | block {p j : Nat} : Part h top p → j ∈ (h.node p).blocks → Part h top j
  | inst {p m : Nat} {nm : String} : Part h top p → (nm, m) ∈ (h.node p).insts → Part h top m

theorem part_reach {h : Heap} (hi : Inv h) {top i : Nat} : Part h top i ↔ Reach h top i := by
  constructor
  · intro hp
    induction hp with
    | top => exact .refl
    | block _ hb ih => exact ih.tail (.inl hb)
    | inst _ hm ih => exact ih.trans (hi.insts _ _ _ hm).2.2
  · intro hr
    induction hr with
    | refl => exact .top
    | tail _ he ih =>
      rcases he with he | he
      · exact .block ih he
      · obtain ⟨e, hs, rfl⟩ := List.mem_map.1 he
        obtain ⟨_, nm, hm⟩ := hi.subs _ _ _ hs
        exact .inst ih hm

/-- C65: if every instance is of a module whose name is not the name of another instantiated module, or is renamed to a
    name that is not in use, then `to_verilog` of a module defines each name once, it defines exactly the modules that
    are parts of the design, and every instance is of the module that its module name defines. -/
theorem c65_hierarchy (fuel : Nat) (calls : List Call) (h : Heap) (ho : AllOk fuel {} calls)
    (hr : run fuel {} calls = some h) (top : Nat) (hg : (h.node top).gen = false)
    (hn : ∀ u, Used h u → (h.node u).name = (h.node top).name → u = top) (f : Nat) (D : List (String × Nat))
    (hD : getModules h f top = some D) :
    (D.map Prod.fst).Nodup ∧
    (∀ k i, (k, i) ∈ D ↔ Part h top i ∧ (h.node i).gen = false ∧ (h.node i).name = k) ∧
    ∀ p nm m, Part h top p → (nm, m) ∈ (h.node p).insts → dictGet D (h.node m).name = some m := by
  have hi := inv_run inv_empty ho hr
  have hk := getModules_keys hD
  have hu : ∀ i, Part h top i → (h.node i).gen = false → i = top ∨ Used h i := by
    intro i hp hgi
    cases hp with
    | top => exact .inl rfl
    | block _ hb =>
      have := (hi.blocks _ _ hb).2
      rw [hgi] at this
      cases this
    | inst _ hm => exact .inr ⟨_, _, hm⟩
  have huniq : ∀ a b, Part h top a → Part h top b → (h.node a).gen = false → (h.node b).gen = false →
      (h.node a).name = (h.node b).name → a = b := by
    intro a b pa pb ga gb he
    rcases hu a pa ga with rfl | ua
    · rcases hu b pb gb with rfl | ub
      · rfl
      · exact (hn b ub he.symm).symm
    · rcases hu b pb gb with rfl | ub
      · exact hn a ua he
      · exact hi.names a b ua ub he
  have hmem : ∀ k i, (k, i) ∈ D ↔ Part h top i ∧ (h.node i).gen = false ∧ (h.node i).name = k := by
    intro k i
    constructor
    · intro hx
      obtain ⟨a, b, c⟩ := getModules_sound hD _ hx
      exact ⟨(part_reach hi).2 a, c, b⟩
    · rintro ⟨a, b, rfl⟩
      obtain ⟨v, hv⟩ := getModules_complete hD i ((part_reach hi).1 a) b
      obtain ⟨a', b', c'⟩ := getModules_sound hD _ hv
      have := huniq v i ((part_reach hi).2 a') a c' b b'
      rwa [this] at hv
  refine ⟨hk, hmem, fun p nm m hp hm => ?_⟩
  exact dictGet_of_mem hk ((hmem _ _).2 ⟨.inst hp hm, (hi.insts p nm m hm).2.1, rfl⟩)

/-! ### What is not written -/

/-- C65 fails if two different modules of one name are instantiated in different places: one of the instances is then of
    another module than its name defines. -/
theorem c65_not_clash (h : Heap) (f top : Nat) (D : List (String × Nat)) (_hD : getModules h f top = some D)
    (p q a b : Nat) (x y : String) (hp : Part h top p) (hq : Part h top q) (ha : (x, a) ∈ (h.node p).insts)
    (hb : (y, b) ∈ (h.node q).insts) (hn : (h.node a).name = (h.node b).name) (hab : a ≠ b) :
    ¬ ∀ p nm m, Part h top p → (nm, m) ∈ (h.node p).insts → dictGet D (h.node m).name = some m := by
  intro hc
  have h1 := hc p x a hp ha
  have h2 := hc q y b hq hb
  rw [hn, h2] at h1
  exact hab (Option.some.inj h1).symm

/-- C65 fails for `Else`: a module whose instances are all in `Else` blocks of `GenerateIf` is not defined. -/
theorem c65_not_else (fuel : Nat) (calls : List Call) (h : Heap) (ho : AllOk fuel {} calls)
    (hr : run fuel {} calls = some h) (top : Nat) (hg : (h.node top).gen = false) (f : Nat) (D : List (String × Nat))
    (hD : getModules h f top = some D) (m : Nat) (hm : m ≠ top)
    (he : ∀ p nm, (nm, m) ∈ (h.node p).insts → ∃ g, (h.node g).els = some p) : ∀ k, (k, m) ∉ D := by
  have hi := inv_run inv_empty ho hr
  intro k hk
  obtain ⟨a, _, c⟩ := getModules_sound hD _ hk
  have hp := (part_reach hi).2 a
  cases hp with
  | top => exact hm rfl
  | block _ hb =>
    have := (hi.blocks _ _ hb).2
    simp only at c
    rw [c] at this
    cases this
  | inst hp hmi =>
    obtain ⟨g, hg'⟩ := he _ _ hmi
    obtain ⟨_, hgen, hnb⟩ := hi.elses g _ hg'
    cases hp with
    | top => rw [hg] at hgen; cases hgen
    | block _ hb => exact hnb _ hb
    | inst _ hmi' =>
      rw [(hi.insts _ _ _ hmi').2.1] at hgen
      cases hgen

/-! ### Hooks -/

/-- Reaching a module through `submodule` alone. -/
def ModReach (h : Heap) : Nat → Nat → Prop := Relation.ReflTransGen fun i j => j ∈ (h.node i).modules

theorem modReach_reach {h : Heap} {i j : Nat} (hr : ModReach h i j) : Reach h i j := by
  induction hr with
  | refl => exact .refl
  | tail _ he ih => exact ih.tail (.inr he)

theorem concat_spec {g : Nat → Option (List Nat)} : ∀ {l L : List Nat}, concat g l = some L →
    (∀ j ∈ l, ∃ e, g j = some e) ∧ ∀ x, x ∈ L ↔ ∃ j ∈ l, ∃ e, g j = some e ∧ x ∈ e
  | [], L, hL => by cases hL; simp
  | j :: l, L, hL => by
    rw [concat] at hL
    split at hL
    · rename_i a b ha hb
      cases hL
      obtain ⟨h1, h2⟩ := concat_spec hb
      refine ⟨?_, ?_⟩
      · intro i hi
        rcases List.mem_cons.1 hi with rfl | hi
        · exact ⟨a, ha⟩
        · exact h1 i hi
      · intro x
        rw [List.mem_append, h2]
        constructor
        · rintro (hx | ⟨i, hi, e, he, hx⟩)
          · exact ⟨j, by simp, a, ha, hx⟩
          · exact ⟨i, by simp [hi], e, he, hx⟩
        · rintro ⟨i, hi, e, he, hx⟩
          rcases List.mem_cons.1 hi with rfl | hi
          · rw [ha] at he
            cases he
            exact .inl hx
          · exact .inr ⟨i, hi, e, he, hx⟩
    · cases hL

theorem resolveHook_spec {h : Heap} : ∀ {f i : Nat} {L : List Nat}, resolveHook h f i = some L →
    ∀ x, x ∈ L ↔ ∃ j, ModReach h i j ∧ x ∈ (h.node j).hooks
  | 0, _, _, hL => by cases hL
  | f + 1, i, L, hL => by
    rw [resolveHook] at hL
    obtain ⟨l, hl, rfl⟩ := Option.map_eq_some_iff.1 hL
    obtain ⟨h1, h2⟩ := concat_spec hl
    intro x
    rw [List.mem_append, h2]
    constructor
    · rintro (hx | ⟨j, hj, e, he, hx⟩)
      · exact ⟨i, .refl, hx⟩
      · obtain ⟨k, hk, hx⟩ := (resolveHook_spec he x).1 hx
        exact ⟨k, .head hj hk, hx⟩
    · rintro ⟨k, hk, hx⟩
      rcases Relation.ReflTransGen.cases_head hk with rfl | ⟨j, hj, hk⟩
      · exact .inl hx
      · obtain ⟨e, he⟩ := h1 j hj
        exact .inr ⟨j, hj, e, he, (resolveHook_spec he x).2 ⟨k, hk, hx⟩⟩

theorem anyFirst_false {g : Nat → Option Bool} : ∀ {l : List Nat}, anyFirst g l = some false → ∀ j ∈ l, g j = some false
  | [], _ => by simp
  | j :: l, h => by
    rw [anyFirst] at h
    split at h
    · cases h
    · cases h
    · rename_i hj
      intro i hi
      rcases List.mem_cons.1 hi with rfl | hi
      · exact hj
      · exact anyFirst_false h i hi

theorem hasHook_false {h : Heap} : ∀ {f i : Nat}, hasHook h f i = some false → ∀ j, ModReach h i j → (h.node j).hooks = []
  | 0, _, hf => by cases hf
  | f + 1, i, hf => by
    rw [hasHook] at hf
    split at hf
    · cases hf
    · rename_i hh
      intro j hj
      rcases Relation.ReflTransGen.cases_head hj with rfl | ⟨k, hk, hj⟩
      · exact Classical.not_not.1 hh
      · exact hasHook_false (anyFirst_false hf k hk) j hj

theorem hooked_spec {h : Heap} {f top : Nat} {L : List Nat} (hL : hooked h f top = some L) (x : Nat) :
    x ∈ L ↔ ∃ j, ModReach h top j ∧ x ∈ (h.node j).hooks := by
  unfold hooked at hL
  split at hL
  · cases hL
  · rename_i hf
    cases hL
    constructor
    · intro hx; cases hx
    · rintro ⟨j, hj, hx⟩
      rw [hasHook_false hf j hj] at hx
      cases hx
  · exact resolveHook_spec hL x

/-- C65, hooks: every method that `to_verilog` calls is a hook of a part of the design; if no part has a generate
    block, all hooks of all parts are called. -/
theorem c65_hooks (fuel : Nat) (calls : List Call) (h : Heap) (ho : AllOk fuel {} calls)
    (hr : run fuel {} calls = some h) (top f : Nat) (L : List Nat) (hL : hooked h f top = some L) (x : Nat) :
    (x ∈ L → ∃ i, Part h top i ∧ x ∈ (h.node i).hooks) ∧
    ((∀ p, Part h top p → (h.node p).blocks = []) → ∀ i, Part h top i → x ∈ (h.node i).hooks → x ∈ L) := by
  have hi := inv_run inv_empty ho hr
  refine ⟨fun hx => ?_, fun hb i hp hx => ?_⟩
  · obtain ⟨j, hj, hx⟩ := (hooked_spec hL x).1 hx
    exact ⟨j, (part_reach hi).2 (modReach_reach hj), hx⟩
  · refine (hooked_spec hL x).2 ⟨i, ?_, hx⟩
    have hre := (part_reach hi).1 hp
    clear hx hp
    induction hre with
    | refl => exact .refl
    | @tail b c hrb he ih =>
      rcases he with he | he
      · rw [hb b ((part_reach hi).2 hrb)] at he
        cases he
      · exact ih.tail he

/-- C65 fails for hooks in generate blocks: a method that is only hooked to generate blocks, or to modules that have
    all their instances in generate blocks, is not called. -/
theorem c65_not_hook (fuel : Nat) (calls : List Call) (h : Heap) (ho : AllOk fuel {} calls)
    (hr : run fuel {} calls = some h) (top : Nat) (hg : (h.node top).gen = false) (f : Nat) (L : List Nat)
    (hL : hooked h f top = some L) (x : Nat)
    (hx : ∀ i, x ∈ (h.node i).hooks →
      (h.node i).gen = true ∨ i ≠ top ∧ ∀ p nm, (nm, i) ∈ (h.node p).insts → (h.node p).gen = true) : x ∉ L := by
  have hi := inv_run inv_empty ho hr
  have hng : ∀ j, ModReach h top j → (h.node j).gen = false := by
    intro j hj
    induction hj with
    | refl => exact hg
    | tail _ he _ =>
      obtain ⟨e, hs, rfl⟩ := List.mem_map.1 he
      obtain ⟨_, nm, hm⟩ := hi.subs _ _ _ hs
      exact (hi.insts _ _ _ hm).2.1
  intro hxL
  obtain ⟨j, hj, hxj⟩ := (hooked_spec hL x).1 hxL
  rcases hx j hxj with hgj | ⟨hne, hall⟩
  · rw [hng j hj] at hgj
    cases hgj
  · rcases Relation.ReflTransGen.cases_tail hj with rfl | ⟨k, hk, he⟩
    · exact hne rfl
    · obtain ⟨e, hs, rfl⟩ := List.mem_map.1 he
      obtain ⟨_, nm, hm⟩ := hi.subs _ _ _ hs
      have := hall k nm hm
      rw [hng k hk] at this
      cases this

/-! ### Examples -/

/-- The modules that have instances, as a list. -/
def usedList (h : Heap) : List Nat := (List.range h.size).flatMap fun p => (h.node p).insts.map Prod.snd

theorem used_iff {h : Heap} (hi : Inv h) (u : Nat) : Used h u ↔ u ∈ usedList h := by
  unfold usedList Used
  simp only [List.mem_flatMap, List.mem_range, List.mem_map]
  constructor
  · rintro ⟨p, nm, hp⟩
    refine ⟨p, ?_, (nm, u), hp, rfl⟩
    by_contra hlt
    rw [hi.fresh p (by omega)] at hp
    cases hp
  · rintro ⟨p, _, ⟨nm, _⟩, hp, rfl⟩
    exact ⟨p, nm, hp⟩

/-- A test for `Call.Ok`. -/
def okTest (fuel : Nat) (h : Heap) : Call → Bool
  | .module _ => true
  | .genFor p _ => p < h.size
  | .genIf p _ => p < h.size
  | .inst p _ m => p < h.size && m < h.size && !(h.node m).gen && p ≠ m &&
      ((usedList h).all (fun u => (h.node u).name ≠ (h.node m).name || u = m) ||
       (!(usedList h).contains m &&
        (match findModule h fuel p (h.node m).name with
          | some (some u) => decide (u ≠ p) && !(h.node u).gen
          | _ => false) &&
        (usedList h).all fun u => (h.node u).name ≠ (h.node m).name ++ "_"))
  | .hook p _ => p < h.size

/-- A test for `AllOk`. -/
def allTest (fuel : Nat) : Heap → List Call → Bool
  | _, [] => true
  | h, c :: l => okTest fuel h c && match c.apply fuel h with
    | none => true
    | some h' => allTest fuel h' l

theorem okTest_ok {fuel : Nat} {h : Heap} (hi : Inv h) : ∀ {c : Call}, okTest fuel h c = true → c.Ok h
  | .module _, _ => trivial
  | .genFor p _, ht => by simpa [okTest, Call.Ok] using ht
  | .genIf p _, ht => by simpa [okTest, Call.Ok] using ht
  | .hook p _, ht => by simpa [okTest, Call.Ok] using ht
  | .inst p nm m, ht => by
    simp only [okTest, Bool.and_eq_true, decide_eq_true_eq, Bool.not_eq_true', Bool.or_eq_true, List.all_eq_true] at ht
    obtain ⟨⟨⟨⟨h1, h2⟩, h3⟩, h4⟩, h5⟩ := ht
    refine ⟨h1, h2, h3, by simpa using h4, ?_⟩
    rcases h5 with h5 | ⟨⟨h5, h6⟩, h7⟩
    · refine .inl fun u hu he => ?_
      have := h5 u ((used_iff hi u).1 hu)
      rcases this with h | h
      · exact absurd he (by simpa using h)
      · exact h
    · refine .inr ⟨fun hu => ?_, ?_, fun u hu => ?_⟩
      · have := (used_iff hi m).1 hu
        simp at h5
        exact h5 this
      · split at h6
        · rename_i u hf
          simp only [Bool.and_eq_true, decide_eq_true_eq, Bool.not_eq_true'] at h6
          obtain ⟨q, hq, hs⟩ := findModule_some hf
          refine ⟨u, ?_, h6.1, h6.2, ?_⟩
          · exact hq.tail (.inr (List.mem_map.2 ⟨_, hs, rfl⟩))
          · exact (hi.subs _ _ _ hs).1
        · cases h6
      · simpa using h7 u ((used_iff hi u).1 hu)

theorem allTest_ok {fuel : Nat} : ∀ {l : List Call} {h : Heap}, Inv h → allTest fuel h l = true → AllOk fuel h l
  | [], _, _, _ => trivial
  | c :: l, h, hi, ht => by
    rw [allTest, Bool.and_eq_true] at ht
    have hc := okTest_ok hi ht.1
    refine ⟨hc, fun h' ha => ?_⟩
    have h2 := ht.2
    rw [ha] at h2
    exact allTest_ok (inv_apply hi hc ha) h2

/-- A design: `top` has two instances of `sub`, of which the second is another module and is renamed, and a generate
    block with an instance of a third. -/
def design : List Call :=
  [.module "top", .module "sub", .module "sub", .module "leaf", .genFor 0 (some "loop"), .inst 0 "a" 1, .inst 0 "b" 2,
   .inst 0 "c" 1, .inst 4 "d" 3, .hook 0 100, .hook 2 200]

example : AllOk 9 {} design := allTest_ok inv_empty (by decide)
example : ((run 9 {} design).bind fun h => getModules h 9 0) = some [("top", 0), ("leaf", 3), ("sub", 1), ("sub_", 2)] := by
  decide
example : ((run 9 {} design).bind fun h => hooked h 9 0) = some [100, 200] := by decide

/-- Two modules `sub` under different parents (`c65_not_clash`): the instance in `p` is of object 3, but the only `sub`
    that is written is object 4. -/
def clash : List Call :=
  [.module "top", .module "p", .module "q", .module "sub", .module "sub", .inst 1 "a" 3, .inst 2 "b" 4, .inst 0 "p" 1,
   .inst 0 "q" 2]

theorem c65_clash : ((run 9 {} clash).map fun h => (getModules h 9 0, (h.node 1).insts, (h.node 3).name)) =
    some (some [("top", 0), ("p", 1), ("sub", 4), ("q", 2)], [("a", 3)], "sub") := by decide

/-- The renamed module can take the place of a module of the new name. -/
def overwrite : List Call :=
  [.module "top", .module "sub_", .module "sub", .module "sub", .inst 0 "a" 1, .inst 0 "b" 2, .inst 0 "c" 3]

theorem c65_overwrite : ((run 9 {} overwrite).map fun h => (getModules h 9 0, (h.node 0).insts, (h.node 1).name)) =
    some (some [("top", 0), ("sub_", 3), ("sub", 2)], [("a", 1), ("b", 2), ("c", 3)], "sub_") := by decide

/-- A module of the name of the top module is written in its place. -/
def topClash : List Call := [.module "top", .module "top", .inst 0 "a" 1]

theorem c65_topClash : ((run 9 {} topClash).bind fun h => getModules h 9 0) = some [("top", 1)] := by decide

/-- A module with an instance in an `Else` block only (`c65_not_else`). -/
def inElse : List Call := [.module "top", .genIf 0 none, .module "sub", .inst 2 "a" 3]

example : AllOk 9 {} inElse := allTest_ok inv_empty (by decide)
theorem c65_inElse : ((run 9 {} inElse).map fun h => (getModules h 9 0, (h.node 1).els, (h.node 2).insts)) =
    some (some [("top", 0)], some 2, [("a", 3)]) := by decide

/-- A module that has its first instance in a generate block and its second beside the block: it is written, but its hook
    is not called. -/
def hookOrder (direct : Bool) : List Call :=
  [.module "top", .module "sub", .genFor 0 none, .hook 1 7, .hook 2 8] ++
    if direct then [.inst 0 "b" 1, .inst 2 "a" 1] else [.inst 2 "a" 1, .inst 0 "b" 1]

example : AllOk 9 {} (hookOrder false) := allTest_ok inv_empty (by decide)
theorem c65_hookOrder :
    ((run 9 {} (hookOrder true)).map fun h => (getModules h 9 0, hooked h 9 0)) =
      some (some [("top", 0), ("sub", 1)], some [7]) ∧
    ((run 9 {} (hookOrder false)).map fun h => (getModules h 9 0, hooked h 9 0)) =
      some (some [("top", 0), ("sub", 1)], some []) := by decide

/-- The hypotheses of `c65_hierarchy` and `c65_hooks`. -/
example : ∃ h, run 9 {} design = some h ∧ (h.node 0).gen = false ∧
    (∀ u, Used h u → (h.node u).name = (h.node 0).name → u = 0) ∧ Part h 0 3 ∧ Part h 0 2 := by
  cases hr : run 9 {} design with
  | none => exact absurd hr (by decide)
  | some h =>
    have hi := inv_run inv_empty (allTest_ok inv_empty (by decide : allTest 9 {} design = true)) hr
    have key : ((run 9 {} design).map fun h => ((h.node 0).gen, (h.node 0).insts, (h.node 4).insts)) =
        some (false, [("a", 1), ("b", 2), ("c", 1)], [("d", 3)]) := by decide
    have key' : ((run 9 {} design).map fun h => ((h.node 0).blocks,
        (usedList h).all fun u => (h.node u).name ≠ (h.node 0).name || u = 0)) = some ([4], true) := by decide
    rw [hr] at key key'
    simp only [Option.map_some, Option.some.injEq, Prod.mk.injEq, List.all_eq_true] at key key'
    obtain ⟨k1, k2, k3⟩ := key
    obtain ⟨k4, k6⟩ := key'
    refine ⟨h, rfl, k1, ?_, ?_, ?_⟩
    · intro u hu he
      have := k6 u ((used_iff hi u).1 hu)
      simp only [Bool.or_eq_true, decide_eq_true_eq, ne_eq] at this
      exact this.resolve_left fun hne => hne he
    · exact .inst (.block .top (by rw [k4]; simp : 4 ∈ (h.node 0).blocks)) (by rw [k3]; simp : ("d", 3) ∈ (h.node 4).insts)
    · exact .inst .top (by rw [k2]; simp : ("b", 2) ∈ (h.node 0).insts)

/-- The hypotheses of `c65_not_hook`, for method 8. -/
example : ∃ h, run 9 {} (hookOrder false) = some h ∧ (h.node 0).gen = false ∧ 8 ∈ (h.node 2).hooks ∧
    ∀ i, 8 ∈ (h.node i).hooks →
      (h.node i).gen = true ∨ i ≠ 0 ∧ ∀ p nm, (nm, i) ∈ (h.node p).insts → (h.node p).gen = true := by
  cases hr : run 9 {} (hookOrder false) with
  | none => exact absurd hr (by decide)
  | some h =>
    have hi := inv_run inv_empty (allTest_ok inv_empty (by decide : allTest 9 {} (hookOrder false) = true)) hr
    have key : ((run 9 {} (hookOrder false)).map fun h => ((h.node 0).gen, (h.node 2).hooks,
        (List.range h.size).all fun i => !(h.node i).hooks.contains 8 || (h.node i).gen)) =
        some (false, [8], true) := by decide
    rw [hr] at key
    simp only [Option.map_some, Option.some.injEq, Prod.mk.injEq, List.all_eq_true, List.mem_range] at key
    obtain ⟨k1, k2, k3⟩ := key
    refine ⟨h, rfl, k1, by rw [k2]; simp, fun i hx => .inl ?_⟩
    by_cases hlt : i < h.size
    · have := k3 i hlt
      simpa [hx] using this
    · rw [hi.fresh i (by omega)] at hx
      cases hx

end Hier
