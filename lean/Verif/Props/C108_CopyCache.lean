import Verif.Model.CopyCache

/-!
# C108: the streams used by `copy` and `copy_pattern`
-/

namespace CopyCache

theorem lookup_append_some {l m : List (List Char × Strm)} {n : List Char} {x : Strm}
    (h : l.lookup n = some x) : (l ++ m).lookup n = some x := by
  induction l with
  | nil => simp at h
  | cons e l ih =>
    obtain ⟨a, b⟩ := e
    simp only [List.cons_append, List.lookup_cons] at h ⊢
    split at h
    · exact h
    · exact ih h

theorem lookup_append_none {l m : List (List Char × Strm)} {n : List Char}
    (h : l.lookup n = none) : (l ++ m).lookup n = m.lookup n := by
  induction l with
  | nil => rfl
  | cons e l ih =>
    obtain ⟨a, b⟩ := e
    simp only [List.cons_append, List.lookup_cons] at h ⊢
    split at h
    · simp at h
    · exact ih h

theorem call_cases {k : Kind} {src dst : Ram} {s : St} {r : St × Strm}
    (h : call k src dst s = some r) :
    ((s.cache k).lookup (key src dst) = some r.2 ∧ r.1 = s) ∨
    ((s.cache k).lookup (key src dst) = none ∧ r.2 = ⟨src.m, key src dst⟩ ∧
      r.2 ∉ s.made ∧ r.1 = s.add k r.2) := by
  unfold call at h
  split at h
  · rename_i x hx
    cases h
    exact .inl ⟨hx, rfl⟩
  · rename_i hx
    simp only at h
    split at h
    · simp at h
    · rename_i hm
      cases h
      exact .inr ⟨hx, rfl, hm, rfl⟩

theorem cache_add (s : St) (k j : Kind) (x : Strm) :
    (s.add k x).cache j = if k = j then s.cache j ++ [(x.name, x)] else s.cache j := by
  cases k <;> cases j <;> simp [St.add, St.cache]

theorem made_add (s : St) (k : Kind) (x : Strm) : (s.add k x).made = s.made ++ [x] := by
  cases k <;> rfl

theorem call_keeps {k j : Kind} {src dst : Ram} {s : St} {r : St × Strm} {n : List Char} {x : Strm}
    (h : call k src dst s = some r) (hx : (s.cache j).lookup n = some x) :
    (r.1.cache j).lookup n = some x := by
  rcases call_cases h with ⟨_, h1⟩ | ⟨_, _, _, h1⟩
  · rw [h1]
    exact hx
  · rw [h1, cache_add]
    split
    · exact lookup_append_some hx
    · exact hx

theorem calls_keeps {cs : List (Kind × Ram × Ram)} {s : St} {r : St × List Strm}
    (h : calls cs s = some r) {j : Kind} {n : List Char} {x : Strm}
    (hx : (s.cache j).lookup n = some x) : (r.1.cache j).lookup n = some x := by
  induction cs generalizing s r with
  | nil =>
    cases h
    exact hx
  | cons c cs ih =>
    obtain ⟨k, src, dst⟩ := c
    simp only [calls, Option.bind_eq_some_iff, Option.map_eq_some_iff] at h
    obtain ⟨a, ha, b, hb, rfl⟩ := h
    exact ih (r := b) hb (call_keeps ha hx)

theorem call_cached {k : Kind} {src dst : Ram} {s : St} {r : St × Strm}
    (h : call k src dst s = some r) : (r.1.cache k).lookup (key src dst) = some r.2 := by
  rcases call_cases h with ⟨h0, h1⟩ | ⟨h0, h2, _, h1⟩
  · rw [h1, h0]
  · rw [h1, cache_add, if_pos rfl, lookup_append_none h0, h2]
    simp

/-- **C108 (shared).**  After a call, and whatever calls follow, the same function for RAMs of the same
    names uses the same stream and makes no other. -/
theorem c108_shared {k : Kind} {src dst : Ram} {s : St} {r : St × Strm}
    (h : call k src dst s = some r) {cs : List (Kind × Ram × Ram)} {q : St × List Strm}
    (hq : calls cs r.1 = some q) (src' dst' : Ram) (hs : src'.name = src.name)
    (hd : dst'.name = dst.name) : call k src' dst' q.1 = some (q.1, r.2) := by
  have h1 := calls_keeps hq (call_cached h)
  have hk : key src' dst' = key src dst := by rw [key, key, hs, hd]
  simp only [call, hk, h1]

theorem append_inj {a a' b b' : List Char} (h : '_' ∉ a) (h' : '_' ∉ a')
    (he : a ++ '_' :: b = a' ++ '_' :: b') : a = a' ∧ b = b' := by
  induction a generalizing a' with
  | nil =>
    cases a' with
    | nil => simpa using he
    | cons c a' =>
      simp only [List.nil_append, List.cons_append, List.cons.injEq] at he
      exact absurd (List.mem_cons.mpr (.inl he.1)) h'
  | cons c a ih =>
    cases a' with
    | nil =>
      simp only [List.nil_append, List.cons_append, List.cons.injEq] at he
      exact absurd (List.mem_cons.mpr (.inl he.1.symm)) h
    | cons d a' =>
      simp only [List.cons_append, List.cons.injEq] at he
      simp only [List.mem_cons, not_or] at h h'
      obtain ⟨h1, h2⟩ := ih h.2 h'.2 he.2
      exact ⟨by rw [he.1, h1], h2⟩

/-- **C108 (names).**  Different pairs of RAM names have different streams if the names of the
    sources contain no underscore. -/
theorem c108_names (src dst src' dst' : Ram) (h : '_' ∉ src.name) (h' : '_' ∉ src'.name) :
    key src dst = key src' dst' ↔ src.name = src'.name ∧ dst.name = dst'.name := by
  constructor
  · intro he
    refine append_inj h h' ?_
    simpa [key] using he
  · rintro ⟨h1, h2⟩
    rw [key, key, h1, h2]

/-- The entries of the dictionaries are named streams that exist. -/
def Good (s : St) : Prop := ∀ k n x, (s.cache k).lookup n = some x → x.name = n ∧ x ∈ s.made

theorem Good.init : Good {} := by
  intro k n x h
  cases k <;> simp [St.cache] at h

theorem Good.call {s : St} (hs : Good s) {k : Kind} {src dst : Ram} {r : St × Strm}
    (h : call k src dst s = some r) : Good r.1 := by
  rcases call_cases h with ⟨_, h1⟩ | ⟨h0, h2, _, h1⟩
  · rw [h1]
    exact hs
  · intro j n x hx
    rw [h1, made_add]
    rw [h1, cache_add] at hx
    split at hx
    · cases hl : (s.cache j).lookup n with
      | some y =>
        rw [lookup_append_some hl] at hx
        cases hx
        obtain ⟨g1, g2⟩ := hs j n _ hl
        exact ⟨g1, by simp [g2]⟩
      | none =>
        rw [lookup_append_none hl] at hx
        simp only [List.lookup_cons, List.lookup_nil] at hx
        split at hx
        · rename_i hn
          cases hx
          exact ⟨(eq_of_beq hn).symm, by simp⟩
        · simp at hx
    · obtain ⟨g1, g2⟩ := hs j n _ hx
      exact ⟨g1, by simp [g2]⟩

theorem Good.calls {s : St} (hs : Good s) {cs : List (Kind × Ram × Ram)} {r : St × List Strm}
    (h : calls cs s = some r) : Good r.1 := by
  induction cs generalizing s r with
  | nil =>
    cases h
    exact hs
  | cons c cs ih =>
    obtain ⟨k, src, dst⟩ := c
    simp only [CopyCache.calls, Option.bind_eq_some_iff, Option.map_eq_some_iff] at h
    obtain ⟨a, ha, b, hb, rfl⟩ := h
    exact ih (r := b) (hs.call ha) hb

theorem made_module {cs : List (Kind × Ram × Ram)} {s : St} {r : St × List Strm} {m : Nat}
    (h : calls cs s = some r) (hg : Good s) (hm : ∀ c ∈ cs, c.2.1.m = m)
    (hs : ∀ x ∈ s.made, x.m = m) : (∀ x ∈ r.2, x.m = m) ∧ ∀ x ∈ r.1.made, x.m = m := by
  induction cs generalizing s r with
  | nil =>
    cases h
    exact ⟨by simp, hs⟩
  | cons c cs ih =>
    obtain ⟨k, src, dst⟩ := c
    simp only [CopyCache.calls, Option.bind_eq_some_iff, Option.map_eq_some_iff] at h
    obtain ⟨a, ha, b, hb, rfl⟩ := h
    have h0 : src.m = m := hm (k, src, dst) (by simp)
    have h1 : a.2.m = m ∧ ∀ x ∈ a.1.made, x.m = m := by
      rcases call_cases ha with ⟨g0, g1⟩ | ⟨_, g2, _, g1⟩
      · rw [g1]
        exact ⟨hs _ (hg _ _ _ g0).2, hs⟩
      · rw [g1, made_add]
        refine ⟨by rw [g2]; exact h0, fun x hx => ?_⟩
        rcases List.mem_append.mp hx with hx | hx
        · exact hs x hx
        · rw [List.mem_singleton.mp hx, g2]
          exact h0
    obtain ⟨g1, g2⟩ := ih (r := b) hb (hg.call ha) (fun c hc => hm c (by simp [hc])) h1.2
    refine ⟨fun x hx => ?_, g2⟩
    rcases List.mem_cons.mp hx with rfl | hx
    · exact h1.1
    · exact g1 x hx

/-- **C108 (one module).**  If all calls of a Python process copy from RAMs of one module, all streams
    used are of this module. -/
theorem c108_module (cs : List (Kind × Ram × Ram)) (m : Nat) (hm : ∀ c ∈ cs, c.2.1.m = m)
    {r : St × List Strm} (h : calls cs {} = some r) : ∀ x ∈ r.2, x.m = m :=
  (made_module h .init hm (by simp)).1

/-- **C108 (no conflict).**  A process that uses only `copy`, or only `copy_pattern`, never raises. -/
theorem c108_one_kind (k : Kind) (cs : List (Kind × Ram × Ram)) (hk : ∀ c ∈ cs, c.1 = k) :
    (calls cs {}).isSome = true := by
  have main : ∀ (cs : List (Kind × Ram × Ram)) (s : St), (∀ c ∈ cs, c.1 = k) →
      (∀ x ∈ s.made, ∃ y, (s.cache k).lookup x.name = some y) → (calls cs s).isSome = true := by
    intro cs
    induction cs with
    | nil =>
      intros
      rfl
    | cons c cs ih =>
      intro s hk hs
      obtain ⟨j, src, dst⟩ := c
      have hj : j = k := hk (j, src, dst) (by simp)
      subst hj
      have hc : ∃ a, call j src dst s = some a := by
        unfold call
        split
        · exact ⟨_, rfl⟩
        · rename_i hl
          simp only
          split
          · rename_i hm
            obtain ⟨y, hy⟩ := hs _ hm
            simp only at hy
            rw [hl] at hy
            simp at hy
          · exact ⟨_, rfl⟩
      obtain ⟨a, ha⟩ := hc
      have h1 : ∀ x ∈ a.1.made, ∃ y, (a.1.cache j).lookup x.name = some y := by
        intro x hx
        rcases call_cases ha with ⟨_, g1⟩ | ⟨_, g2, _, g1⟩
        · rw [g1] at hx ⊢
          exact hs x hx
        · rw [g1, made_add] at hx
          rcases List.mem_append.mp hx with hx | hx
          · obtain ⟨y, hy⟩ := hs x hx
            exact ⟨y, call_keeps ha hy⟩
          · rw [List.mem_singleton.mp hx]
            refine ⟨a.2, ?_⟩
            have := call_cached ha
            rw [g2] at this ⊢
            exact this
      have h2 := ih a.1 (fun c hc => hk c (by simp [hc])) h1
      obtain ⟨b, hb⟩ := Option.isSome_iff_exists.mp h2
      simp [calls, ha, hb]
  exact main cs {} hk (by simp)

/-- **C108 (disagreement, modules).**  The dictionaries do not know modules: when the stream for two RAM
    names has been made in one module, a call for RAMs of these names in another module uses it. -/
theorem c108_not_module {k : Kind} {src dst : Ram} {s : St} {r : St × Strm}
    (h : call k src dst s = some r) (hn : (s.cache k).lookup (key src dst) = none)
    {cs : List (Kind × Ram × Ram)} {q : St × List Strm} (hq : calls cs r.1 = some q)
    (src' dst' : Ram) (hs : src'.name = src.name) (hd : dst'.name = dst.name)
    (hm : src'.m ≠ src.m) :
    ∃ x, call k src' dst' q.1 = some (q.1, x) ∧ x.m = src.m ∧ x.m ≠ src'.m := by
  refine ⟨r.2, c108_shared h hq src' dst' hs hd, ?_⟩
  rcases call_cases h with ⟨h0, _⟩ | ⟨_, h2, _, _⟩
  · rw [hn] at h0
    simp at h0
  · rw [h2]
    exact ⟨rfl, Ne.symm hm⟩

/-- **C108 (disagreement, both functions).**  `copy` and `copy_pattern` name their streams alike: after
    one of them the first call of the other for the same RAMs raises. -/
theorem c108_not_both {cs : List (Kind × Ram × Ram)} {s : St} {l : List Strm}
    (h0 : calls cs {} = some (s, l)) {k j : Kind} (_hkj : k ≠ j) (src dst : Ram)
    (h : (s.cache k).lookup (key src dst) = some ⟨src.m, key src dst⟩)
    (hj : (s.cache j).lookup (key src dst) = none) : call j src dst s = none := by
  have hg : Good s := Good.init.calls h0
  have hm := (hg k _ _ h).2
  simp only [call, hj]
  rw [if_pos hm]

/-- RAMs of the examples. -/
private def ra (m : Nat) : Ram := ⟨m, ['a']⟩
private def rb (m : Nat) : Ram := ⟨m, ['b']⟩

-- two copies in module 0 share a stream, a copy in module 1 uses it as well
example : (calls [(.copy, ra 0, rb 0), (.copy, rb 0, ra 0), (.copy, ra 0, rb 0), (.copy, ra 1, rb 1)]
    {}).map Prod.snd = some [⟨0, key (ra 0) (rb 0)⟩, ⟨0, key (rb 0) (ra 0)⟩, ⟨0, key (ra 0) (rb 0)⟩,
      ⟨0, key (ra 0) (rb 0)⟩] := by decide

-- `copy` and `copy_pattern` for the same RAMs
example : calls [(.copy, ra 0, rb 0), (.pattern, ra 0, rb 0)] {} = none ∧
    (calls [(.copy, ra 0, rb 0), (.pattern, rb 0, ra 0)] {}).isSome = true := by decide

-- RAMs `a_b` and `c`, `a` and `b_c`
example : key ⟨0, ['a', '_', 'b']⟩ ⟨0, ['c']⟩ = key ⟨0, ['a']⟩ ⟨0, ['b', '_', 'c']⟩ := by decide

end CopyCache
