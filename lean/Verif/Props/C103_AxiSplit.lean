import Verif.Model.AxiSplit
import Mathlib.Tactic.ByContra

/-!
# C103: splitting the read and the write channels of an AXI master

After `r, w = split_read_write(m, ports, prefix)` one memory port is connected to `r` and another to
`w`.  The theorems say what each of the two ports and the design see, whatever values the memory
ports and the design put on their outputs.
-/

namespace AxiSplit

/-! ## The two loops -/

/-- The driver one pass adds. -/
def drvOf (mine : String → Bool) (pfx : String) (p : Port) : List (String × Drv) :=
  if mine p.key then
    if p.kind = .reg then [(p.name, .net (pfx ++ p.name))] else [(pfx ++ p.name, .net p.name)]
  else if p.kind = .wire then [(pfx ++ p.name, .zero)] else []

theorem copyPort_eq (mine : String → Bool) (pfx : String) (m : Mod) (p : Port) :
    (copyPort mine pfx m p).map (fun r => (r.1.name, r.1.key, r.2)) =
      if pfx ++ p.name ∈ m.names then none
      else some (pfx ++ p.name, pfx ++ p.name,
        ⟨m.names ++ [pfx ++ p.name], m.drv ++ drvOf mine pfx p⟩) := by
  unfold copyPort Mod.define drvOf
  by_cases h : pfx ++ p.name ∈ m.names
  · simp [h]
  · simp only [h, if_false, Option.map_some]
    by_cases h1 : mine p.key = true
    · by_cases h2 : p.kind = .reg <;> simp [h1, h2, Mod.drive]
    · by_cases h2 : p.kind = .wire <;> simp [h1, h2, Mod.drive]

theorem copyPorts_eq (mine : String → Bool) (pfx : String) (ps : List Port) (m : Mod) :
    (∀ r m', copyPorts mine pfx ps m = some (r, m') →
      m' = ⟨m.names ++ ps.map (fun p => pfx ++ p.name), m.drv ++ ps.flatMap (drvOf mine pfx)⟩ ∧
      r.map Port.key = ps.map (fun p => pfx ++ p.name) ∧
      r.map Port.name = ps.map (fun p => pfx ++ p.name)) ∧
    ((copyPorts mine pfx ps m).isSome = true ↔
      (ps.map fun p => pfx ++ p.name).Nodup ∧ ∀ p ∈ ps, pfx ++ p.name ∉ m.names) := by
  induction ps generalizing m with
  | nil => simp [copyPorts]
  | cons p ps ih =>
    have hp := copyPort_eq mine pfx m p
    by_cases h : pfx ++ p.name ∈ m.names
    · have h0 : copyPort mine pfx m p = none := by
        rw [if_pos h] at hp
        exact Option.map_eq_none_iff.1 hp
      simp only [copyPorts, h0, Option.bind_none]
      refine ⟨by simp, ?_⟩
      simp only [Option.isSome_none, Bool.false_eq_true, false_iff]
      exact fun hh => hh.2 p List.mem_cons_self h
    · rw [if_neg h] at hp
      obtain ⟨⟨q, m1⟩, hq, he⟩ := Option.map_eq_some_iff.1 hp
      simp only [Prod.mk.injEq] at he
      obtain ⟨e1, e2, e3⟩ := he
      obtain ⟨i1, i2⟩ := ih m1
      simp only [copyPorts, hq, Option.bind_some]
      constructor
      · intro r m' hr
        obtain ⟨⟨r', m2⟩, hr', hre⟩ := Option.map_eq_some_iff.1 hr
        simp only [Prod.mk.injEq] at hre
        obtain ⟨rfl, rfl⟩ := hre
        obtain ⟨j1, j2, j3⟩ := i1 _ _ hr'
        subst e3
        subst j1
        simp [e1, e2, j2, j3]
      · rw [Option.isSome_map, i2, e3]
        simp only [List.map_cons, List.nodup_cons, List.mem_append, List.mem_map, List.mem_cons,
          List.not_mem_nil, or_false, forall_eq_or_imp]
        constructor
        · rintro ⟨h1, h2⟩
          refine ⟨⟨?_, h1⟩, h, fun q hq => fun hh => h2 q hq (.inl hh)⟩
          rintro ⟨q, hq, hqe⟩
          exact h2 q hq (.inr hqe)
        · rintro ⟨⟨h1, h2⟩, -, h4⟩
          refine ⟨h2, fun q hq => ?_⟩
          rintro (hh | hh)
          · exact h4 q hq hh
          · exact h1 ⟨q, hq, hh⟩

theorem split_eq {m m' : Mod} {ports r w : List Port} {pre rp wp : String}
    (h : split m ports pre rp wp = some (r, w, m')) :
    m'.drv = m.drv ++ ports.flatMap (drvOf (isRead pre) rp) ++ ports.flatMap (drvOf (isWrite pre) wp) ∧
    m'.names = m.names ++ ports.map (fun p => rp ++ p.name) ++ ports.map (fun p => wp ++ p.name) ∧
    r.map Port.key = ports.map (fun p => rp ++ p.name) ∧
    w.map Port.key = ports.map (fun p => wp ++ p.name) ∧
    (ports.map fun p => rp ++ p.name).Nodup ∧ (ports.map fun p => wp ++ p.name).Nodup ∧
    (∀ p ∈ ports, rp ++ p.name ∉ m.names) ∧
    (∀ p ∈ ports, wp ++ p.name ∉ m.names ∧ ∀ q ∈ ports, wp ++ p.name ≠ rp ++ q.name) := by
  unfold split at h
  obtain ⟨⟨r', m1⟩, h1, h2⟩ := Option.bind_eq_some_iff.1 h
  obtain ⟨⟨w', m2⟩, h3, h4⟩ := Option.map_eq_some_iff.1 h2
  simp only [Prod.mk.injEq] at h4
  obtain ⟨rfl, rfl, rfl⟩ := h4
  have a := copyPorts_eq (isRead pre) rp ports m
  obtain ⟨a1, a2, -⟩ := a.1 _ _ h1
  have a3 := a.2.1 (by rw [h1]; rfl)
  have b := copyPorts_eq (isWrite pre) wp ports m1
  obtain ⟨b1, b2, -⟩ := b.1 _ _ h3
  have b3 := b.2.1 (by simp only at h3; rw [h3]; rfl)
  subst a1
  simp only at b1 b3
  subst b1
  refine ⟨rfl, rfl, a2, b2, a3.1, b3.1, a3.2, fun p hp => ?_⟩
  have := b3.2 p hp
  simp only [List.mem_append, List.mem_map, not_or, not_exists, not_and] at this
  exact ⟨this.1, fun q hq he => this.2 q hq he.symm⟩

/-! ## Which channel a name belongs to -/

theorem starts_iff (s p : String) : starts s p = true ↔ ∃ t : String, s = p ++ t := by
  unfold starts
  rw [List.isPrefixOf_iff_prefix]
  constructor
  · rintro ⟨t, ht⟩
    refine ⟨String.ofList t, String.toList_inj.1 ?_⟩
    rw [String.toList_append, String.toList_ofList, ht]
  · rintro ⟨t, rfl⟩
    exact ⟨t.toList, (String.toList_append ..).symm⟩

/-- The two characters after the name of the interface. -/
theorem starts_chars {s p q : String} (h : starts s (p ++ q) = true) :
    q.toList.isPrefixOf (s.toList.drop p.toList.length) = true := by
  obtain ⟨t, rfl⟩ := (starts_iff _ _).1 h
  simp [String.toList_append, List.isPrefixOf_iff_prefix]

/-- **C103, the channels.**  No signal is taken for one of both halves; every signal of the
    interface `pre`, that is every name made of `pre`, `_` and a signal name of the channel, is
    taken for one of the right half. -/
theorem c103_channels (pre : String) :
    (∀ key, ¬ (isRead pre key = true ∧ isWrite pre key = true)) ∧
    (∀ rest, isRead pre (pre ++ "_ar" ++ rest) = true ∧ isRead pre (pre ++ "_r" ++ rest) = true ∧
      isWrite pre (pre ++ "_aw" ++ rest) = true ∧ isWrite pre (pre ++ "_w" ++ rest) = true ∧
      isWrite pre (pre ++ "_b" ++ rest) = true) := by
  constructor
  · rintro key ⟨h1, h2⟩
    simp only [isRead, isWrite, Bool.or_eq_true] at h1 h2
    have conv : ∀ q, starts key (pre ++ q) = true →
        q.toList <+: key.toList.drop pre.toList.length := fun q h =>
      List.isPrefixOf_iff_prefix.1 (starts_chars h)
    generalize key.toList.drop pre.toList.length = l at conv
    rcases h1 with h1 | h1 <;> rcases h2 with (h2 | h2) | h2 <;>
      · obtain ⟨t, ht⟩ := conv _ h1
        obtain ⟨u, hu⟩ := conv _ h2
        have hh := ht.trans hu.symm
        simp only [show "_ar".toList = ['_', 'a', 'r'] from rfl, show "_r".toList = ['_', 'r'] from rfl,
          show "_aw".toList = ['_', 'a', 'w'] from rfl, show "_w".toList = ['_', 'w'] from rfl,
          show "_b".toList = ['_', 'b'] from rfl] at hh
        simp at hh
  · intro rest
    have : ∀ q, starts (pre ++ q ++ rest) (pre ++ q) = true := fun q =>
      (starts_iff _ _).2 ⟨rest, rfl⟩
    simp [isRead, isWrite, this]

/-! ## What the two memory ports and the design see -/

theorem settled_mem {m m' : Mod} {ports r w : List Port} {pre rp wp : String}
    (h : split m ports pre rp wp = some (r, w, m')) {env : String → Int} (he : Settled m' env)
    {p : Port} (hp : p ∈ ports) :
    (∀ e ∈ drvOf (isRead pre) rp p, env e.1 = match e.2 with | .net n => env n | .zero => 0) ∧
    (∀ e ∈ drvOf (isWrite pre) wp p, env e.1 = match e.2 with | .net n => env n | .zero => 0) := by
  have hd := (split_eq h).1
  constructor <;> intro e hm <;> refine he e ?_ <;> rw [hd]
  · exact List.mem_append_left _ (List.mem_append_right _ (List.mem_flatMap.2 ⟨p, hp, hm⟩))
  · exact List.mem_append_right _ (List.mem_flatMap.2 ⟨p, hp, hm⟩)

/-- **C103, outputs of the design.**  In every state in which the drivers have settled, for every
    output of the design: one of the read channels is seen with its value by the read half and as
    0 by the write half, one of the write channels the other way round, and any other output is
    seen as 0 by both. -/
theorem c103_outputs {m m' : Mod} {ports r w : List Port} {pre rp wp : String}
    (h : split m ports pre rp wp = some (r, w, m')) {env : String → Int} (he : Settled m' env)
    {p : Port} (hp : p ∈ ports) (hk : p.kind = .wire) :
    env (rp ++ p.name) = (if isRead pre p.key then env p.name else 0) ∧
    env (wp ++ p.name) = (if isWrite pre p.key then env p.name else 0) := by
  obtain ⟨h1, h2⟩ := settled_mem h he hp
  unfold drvOf at h1 h2
  constructor
  · by_cases hr : isRead pre p.key = true <;> simpa [hr, hk] using h1
  · by_cases hr : isWrite pre p.key = true <;> simpa [hr, hk] using h2

/-- **C103, inputs of the design.**  An input of a read channel has the value the read half gives to
    it, one of a write channel the value the write half gives to it. -/
theorem c103_inputs {m m' : Mod} {ports r w : List Port} {pre rp wp : String}
    (h : split m ports pre rp wp = some (r, w, m')) {env : String → Int} (he : Settled m' env)
    {p : Port} (hp : p ∈ ports) (hk : p.kind = .reg) :
    (isRead pre p.key = true → env p.name = env (rp ++ p.name)) ∧
    (isWrite pre p.key = true → env p.name = env (wp ++ p.name)) := by
  obtain ⟨h1, h2⟩ := settled_mem h he hp
  unfold drvOf at h1 h2
  exact ⟨fun hr => by simpa [hr, hk] using h1, fun hr => by simpa [hr, hk] using h2⟩

theorem append_inj_right {a b c : String} (h : a ++ b = a ++ c) : b = c := by
  have := congrArg String.toList h
  rw [String.toList_append, String.toList_append] at this
  exact String.toList_inj.1 (List.append_cancel_left this)

theorem mem_drvOf {mine : String → Bool} {pfx : String} {p : Port} (hk : p.kind ≠ .other) (n : String) :
    n ∈ (drvOf mine pfx p).map Prod.fst ↔
      (p.kind = .reg ∧ mine p.key = true ∧ n = p.name) ∨ (p.kind = .wire ∧ n = pfx ++ p.name) := by
  unfold drvOf
  cases h : p.kind with
  | other => exact absurd h hk
  | reg => by_cases hm : mine p.key = true <;> simp [hm]
  | wire => by_cases hm : mine p.key = true <;> simp [hm]

/-- **C103, what is driven.**  With the ports of `copy_sim_ports` the function drives exactly: the
    inputs of the design of the read and write channels, and the copies of the outputs.  In
    particular it drives no output of the design and no copy of an input: these are left to the
    memory ports. -/
theorem c103_driven {m m' : Mod} {ports r w : List Port} {pre rp wp : String}
    (h : split m ports pre rp wp = some (r, w, m')) (hk : ∀ p ∈ ports, p.kind ≠ .other)
    (hm : m.drv = []) (n : String) :
    n ∈ m'.drv.map Prod.fst ↔ ∃ p ∈ ports,
      (p.kind = .reg ∧ (isRead pre p.key = true ∨ isWrite pre p.key = true) ∧ n = p.name) ∨
      (p.kind = .wire ∧ (n = rp ++ p.name ∨ n = wp ++ p.name)) := by
  rw [(split_eq h).1, hm, List.nil_append, List.map_append, List.mem_append, List.map_flatMap,
    List.map_flatMap, List.mem_flatMap, List.mem_flatMap]
  constructor
  · rintro (⟨p, hp, hn⟩ | ⟨p, hp, hn⟩)
    · rcases (mem_drvOf (hk p hp) n).1 hn with ⟨a, b, c⟩ | ⟨a, b⟩
      · exact ⟨p, hp, .inl ⟨a, .inl b, c⟩⟩
      · exact ⟨p, hp, .inr ⟨a, .inl b⟩⟩
    · rcases (mem_drvOf (hk p hp) n).1 hn with ⟨a, b, c⟩ | ⟨a, b⟩
      · exact ⟨p, hp, .inl ⟨a, .inr b, c⟩⟩
      · exact ⟨p, hp, .inr ⟨a, .inr b⟩⟩
  · rintro ⟨p, hp, ⟨a, b | b, c⟩ | ⟨a, b | b⟩⟩
    · exact .inl ⟨p, hp, (mem_drvOf (hk p hp) n).2 (.inl ⟨a, b, c⟩)⟩
    · exact .inr ⟨p, hp, (mem_drvOf (hk p hp) n).2 (.inl ⟨a, b, c⟩)⟩
    · exact .inl ⟨p, hp, (mem_drvOf (hk p hp) n).2 (.inr ⟨a, b⟩)⟩
    · exact .inr ⟨p, hp, (mem_drvOf (hk p hp) n).2 (.inr ⟨a, b⟩)⟩

theorem drvOf_keys (mine : String → Bool) (pfx : String) (p : Port) :
    (drvOf mine pfx p).map Prod.fst = [] ∨ (drvOf mine pfx p).map Prod.fst = [p.name] ∨
      (drvOf mine pfx p).map Prod.fst = [pfx ++ p.name] := by
  unfold drvOf
  split <;> split <;> simp

theorem flatMap_nodup {α β} (l : List α) (f : α → List β) (h1 : ∀ a ∈ l, (f a).Nodup)
    (h2 : l.Pairwise fun a b => ∀ x ∈ f a, x ∉ f b) : (l.flatMap f).Nodup := by
  induction l with
  | nil => simp
  | cons a l ih =>
    rw [List.flatMap_cons, List.nodup_append]
    obtain ⟨h3, h4⟩ := List.pairwise_cons.1 h2
    refine ⟨h1 a List.mem_cons_self, ih (fun b hb => h1 b (List.mem_cons_of_mem _ hb)) h4, ?_⟩
    intro x hx y hy he
    subst he
    obtain ⟨b, hb, hxb⟩ := List.mem_flatMap.1 hy
    exact h3 b hb x hx hxb

theorem half_nodup {mine : String → Bool} {pfx : String} {ports : List Port} {names : List String}
    (hn : (ports.map Port.name).Nodup) (hin : ∀ p ∈ ports, p.name ∈ names)
    (hout : ∀ p ∈ ports, pfx ++ p.name ∉ names) :
    ((ports.flatMap (drvOf mine pfx)).map Prod.fst).Nodup := by
  rw [List.map_flatMap]
  refine flatMap_nodup _ _ (fun p _ => ?_) ?_
  · rcases drvOf_keys mine pfx p with h | h | h <;> simp [h]
  · have hp := List.pairwise_map.1 hn
    refine (List.Pairwise.and_mem.1 hp).imp ?_
    rintro a b ⟨ha, hb, hne⟩ x hx hy
    have cases' : ∀ q, q ∈ ports → x ∈ (drvOf mine pfx q).map Prod.fst → x = q.name ∨ x = pfx ++ q.name := by
      intro q _ hq
      rcases drvOf_keys mine pfx q with h | h | h <;> rw [h] at hq <;> simp at hq
      · exact .inl hq
      · exact .inr hq
    rcases cases' a ha hx with e1 | e1 <;> rcases cases' b hb hy with e2 | e2
    · exact hne (e1.symm.trans e2)
    · exact hout b hb (e2 ▸ e1 ▸ hin a ha)
    · exact hout a ha (e1 ▸ e2 ▸ hin b hb)
    · exact hne (append_inj_right (e1.symm.trans e2))

theorem eq_of_nodup_names {l : List Port} (h : (l.map Port.name).Nodup) {a b : Port} (ha : a ∈ l)
    (hb : b ∈ l) (he : a.name = b.name) : a = b := by
  induction l with
  | nil => simp at ha
  | cons c l ih =>
    simp only [List.map_cons, List.nodup_cons] at h
    rcases List.mem_cons.1 ha with rfl | ha' <;> rcases List.mem_cons.1 hb with rfl | hb'
    · rfl
    · exact absurd (he ▸ List.mem_map_of_mem hb') h.1
    · exact absurd (he ▸ List.mem_map_of_mem ha') h.1
    · exact ih h.2 ha' hb'

/-- **C103, one driver.**  If the ports are distinct and belong to the module, which had no drivers
    yet, no net gets two drivers. -/
theorem c103_one_driver {m m' : Mod} {ports r w : List Port} {pre rp wp : String}
    (h : split m ports pre rp wp = some (r, w, m')) (hk : ∀ p ∈ ports, p.kind ≠ .other)
    (hm : m.drv = []) (hn : (ports.map Port.name).Nodup) (hin : ∀ p ∈ ports, p.name ∈ m.names) :
    (m'.drv.map Prod.fst).Nodup := by
  obtain ⟨hd, -, -, -, -, -, h6, h7⟩ := split_eq h
  rw [hd, hm, List.nil_append, List.map_append, List.nodup_append]
  refine ⟨half_nodup hn hin h6, half_nodup hn hin fun p hp => (h7 p hp).1, ?_⟩
  intro x hx y hy he
  subst he
  rw [List.map_flatMap, List.mem_flatMap] at hx hy
  obtain ⟨a, ha, hx⟩ := hx
  obtain ⟨b, hb, hy⟩ := hy
  rcases (mem_drvOf (hk a ha) x).1 hx with ⟨k1, r1, e1⟩ | ⟨k1, e1⟩ <;>
    rcases (mem_drvOf (hk b hb) x).1 hy with ⟨k2, r2, e2⟩ | ⟨k2, e2⟩
  · have : a = b := eq_of_nodup_names hn ha hb (e1.symm.trans e2)
    subst this
    exact (c103_channels pre).1 a.key ⟨r1, r2⟩
  · exact (h7 b hb).1 (e2 ▸ e1 ▸ hin a ha)
  · exact h6 a ha (e1 ▸ e2 ▸ hin b hb)
  · exact (h7 b hb).2 a ha (e2.symm.trans e1)

/-- **C103, errors and results.**  For distinct ports the call raises exactly if one of the new names
    is taken already or is made twice; otherwise the two dictionaries have the prefixed names of all
    ports as keys. -/
theorem c103_raises (m : Mod) (ports : List Port) (pre rp wp : String)
    (hn : (ports.map Port.name).Nodup) :
    (split m ports pre rp wp = none ↔
      ∃ p ∈ ports, rp ++ p.name ∈ m.names ∨ wp ++ p.name ∈ m.names ∨
        ∃ q ∈ ports, wp ++ p.name = rp ++ q.name) ∧
    ∀ r w m', split m ports pre rp wp = some (r, w, m') →
      r.map Port.key = ports.map (fun p => rp ++ p.name) ∧
      w.map Port.key = ports.map (fun p => wp ++ p.name) := by
  refine ⟨?_, fun r w m' h => ⟨(split_eq h).2.2.1, (split_eq h).2.2.2.1⟩⟩
  have nd : ∀ pfx : String, (ports.map fun p => pfx ++ p.name).Nodup := fun pfx => by
    have : (ports.map fun p => pfx ++ p.name) = (ports.map Port.name).map (pfx ++ ·) := by simp
    rw [this]
    refine List.pairwise_map.2 (hn.imp ?_)
    intro a b hab he
    exact hab (append_inj_right he)
  constructor
  · intro h
    by_contra hc
    have hc' : ∀ p ∈ ports, rp ++ p.name ∉ m.names ∧ wp ++ p.name ∉ m.names ∧
        ∀ q ∈ ports, wp ++ p.name ≠ rp ++ q.name := fun p hp =>
      ⟨fun hh => hc ⟨p, hp, .inl hh⟩, fun hh => hc ⟨p, hp, .inr (.inl hh)⟩,
        fun q hq hh => hc ⟨p, hp, .inr (.inr ⟨q, hq, hh⟩)⟩⟩
    have a := (copyPorts_eq (isRead pre) rp ports m).2.2 ⟨nd rp, fun p hp => (hc' p hp).1⟩
    obtain ⟨⟨r, m1⟩, h1⟩ := Option.isSome_iff_exists.1 a
    obtain ⟨e, -⟩ := (copyPorts_eq (isRead pre) rp ports m).1 _ _ h1
    have b := (copyPorts_eq (isWrite pre) wp ports m1).2.2 ⟨nd wp, fun p hp => by
      rw [e]
      simp only [List.mem_append, List.mem_map, not_or, not_exists, not_and]
      exact ⟨(hc' p hp).2.1, fun q hq hh => (hc' p hp).2.2 q hq hh.symm⟩⟩
    obtain ⟨⟨w, m2⟩, h2⟩ := Option.isSome_iff_exists.1 b
    simp [split, h1, h2] at h
  · rintro ⟨p, hp, hh⟩
    cases hs : split m ports pre rp wp with
    | none => rfl
    | some t =>
      obtain ⟨r, w, m'⟩ := t
      obtain ⟨-, -, -, -, -, -, h6, h7⟩ := split_eq hs
      rcases hh with hh | hh | ⟨q, hq, hh⟩
      · exact absurd hh (h6 p hp)
      · exact absurd hh (h7 p hp).1
      · exact absurd hh ((h7 p hp).2 q hq)

/-! ## What goes wrong -/

/-- **C103, names that begin alike.**  Every signal of another interface whose name continues that
    of the split one by `_r` is taken for a read channel, its write channels included: the write
    half never sees its outputs, and its inputs come from the read half. -/
theorem c103_not_channel {m m' : Mod} {ports r w : List Port} {pre rp wp : String}
    (h : split m ports pre rp wp = some (r, w, m')) {env : String → Int} (he : Settled m' env)
    {p : Port} (hp : p ∈ ports) (more sig : String) (hkey : p.key = pre ++ "_r" ++ more ++ "_" ++ sig) :
    (p.kind = .wire → env (wp ++ p.name) = 0 ∧ env (rp ++ p.name) = env p.name) ∧
    (p.kind = .reg → env p.name = env (rp ++ p.name)) := by
  have hr : isRead pre p.key = true := by
    rw [hkey, show pre ++ "_r" ++ more ++ "_" ++ sig = pre ++ "_r" ++ (more ++ "_" ++ sig) by
      simp [String.append_assoc]]
    exact ((c103_channels pre).2 _).2.1
  have hw : isWrite pre p.key = false := by
    have := (c103_channels pre).1 p.key
    simpa [hr] using this
  refine ⟨fun hk => ?_, fun hk => (c103_inputs h he hp hk).1 hr⟩
  have := c103_outputs h he hp hk
  simpa [hr, hw, and_comm] using this

/-- **C103, ports as wires.**  With the ports of `copy_sim_ports(use_wire=True)` no input of the
    design is driven: its copies are driven by it. -/
theorem c103_not_use_wire {m m' : Mod} {ports r w : List Port} {pre rp wp : String}
    (h : split m ports pre rp wp = some (r, w, m')) (hm : m.drv = [])
    (hin : ∀ p ∈ ports, p.name ∈ m.names)
    (hsim : ∀ p ∈ ports, ∃ i, p = simPort true i p.name) :
    ∀ p ∈ ports, p.name ∉ m'.drv.map Prod.fst := by
  intro p hp hd
  have hw : ∀ q ∈ ports, q.kind = .wire := fun q hq => by
    obtain ⟨i, hi⟩ := hsim q hq
    rw [hi]
    simp [simPort]
  obtain ⟨q, hq, ⟨hk, -⟩ | ⟨-, hh⟩⟩ :=
    (c103_driven h (fun q hq => by rw [hw q hq]; simp) hm p.name).1 hd
  · rw [hw q hq] at hk
    simp at hk
  · obtain ⟨-, -, -, -, -, -, h6, h7⟩ := split_eq h
    rcases hh with hh | hh
    · exact h6 q hq (hh ▸ hin p hp)
    · exact (h7 q hq).1 (hh ▸ hin p hp)

/-! ## Examples -/

/-- Some ports of a design with the interfaces `myaxi` and `myaxi_ram`. -/
def exPorts (useWire : Bool) : List Port :=
  [("CLK", true), ("myaxi_awvalid", false), ("myaxi_awready", true), ("myaxi_wdata", false),
    ("myaxi_bvalid", true), ("myaxi_araddr", false), ("myaxi_arready", true), ("myaxi_rdata", true),
    ("myaxi_ram_awvalid", false)].map fun p => simPort useWire p.2 p.1

/-- The drivers added for these ports. -/
example : (split ⟨(exPorts false).map Port.name, []⟩ (exPorts false) "myaxi").map (·.2.2.drv) = some
    [("r_myaxi_awvalid", .zero), ("r_myaxi_wdata", .zero),
     ("r_myaxi_araddr", .net "myaxi_araddr"), ("myaxi_arready", .net "r_myaxi_arready"),
     ("myaxi_rdata", .net "r_myaxi_rdata"), ("r_myaxi_ram_awvalid", .net "myaxi_ram_awvalid"),
     ("w_myaxi_awvalid", .net "myaxi_awvalid"), ("myaxi_awready", .net "w_myaxi_awready"),
     ("w_myaxi_wdata", .net "myaxi_wdata"), ("myaxi_bvalid", .net "w_myaxi_bvalid"),
     ("w_myaxi_araddr", .zero), ("w_myaxi_ram_awvalid", .zero)] := by decide +kernel

/-- A settled state: the design asks for address 64 and offers the data 9, the read half answers
    with 5; the write half sees no address, the read half no data. -/
example : ∃ t, split ⟨(exPorts false).map Port.name, []⟩ (exPorts false) "myaxi" = some t ∧
    ∃ env, Settled t.2.2 env ∧ env "r_myaxi_araddr" = 64 ∧ env "w_myaxi_araddr" = 0 ∧
      env "w_myaxi_wdata" = 9 ∧ env "r_myaxi_wdata" = 0 ∧ env "myaxi_rdata" = 5 := by
  refine ⟨_, rfl, fun n => if n = "myaxi_araddr" || n = "r_myaxi_araddr" then 64
    else if n = "myaxi_wdata" || n = "w_myaxi_wdata" then 9
    else if n = "myaxi_rdata" || n = "r_myaxi_rdata" then 5 else 0, ?_, by decide⟩
  unfold Settled
  decide +kernel

/-- With `use_wire=True` the address handshake of the design is not driven. -/
example : ((split ⟨(exPorts true).map Port.name, []⟩ (exPorts true) "myaxi").map fun t =>
    (t.2.2.drv.filter fun e => e.1 = "myaxi_awready" || e.2 = .net "myaxi_awready")) =
      some [("w_myaxi_awready", .net "myaxi_awready")] := by decide +kernel

/-- A second call with the same prefixes raises. -/
example : ((split ⟨(exPorts false).map Port.name, []⟩ (exPorts false) "myaxi").bind fun t =>
    split t.2.2 (exPorts false) "myaxi").isNone = true ∧
    ((exPorts false).map Port.name).Nodup := by decide +kernel

end AxiSplit
