import Verif.Model.IpXact

/-!
# C104: the IP-XACT description names the right clocks, resets and address ranges
-/

namespace IpXact

/-- The value of a key of a dictionary. -/
def dget {α} (d : List (String × α)) (k : String) : Option α :=
  (d.find? fun e => e.1 = k).map Prod.snd

/-- The keys of a dictionary. -/
def keys {α} (d : List (String × α)) : List String := d.map Prod.fst

theorem dget_append {α} (d e : List (String × α)) (k : String) :
    dget (d ++ e) k = (dget d k).or (dget e k) := by
  unfold dget
  rw [List.find?_append]
  cases d.find? fun e => e.1 = k <;> simp

theorem dget_none {α} {d : List (String × α)} {k : String} : dget d k = none ↔ k ∉ keys d := by
  unfold dget keys
  simp only [Option.map_eq_none_iff, List.find?_eq_none, decide_eq_true_eq, List.mem_map, not_exists,
    not_and]

theorem dget_mem {α} {d : List (String × α)} (h : (keys d).Nodup) {k : String} {v : α} :
    dget d k = some v ↔ (k, v) ∈ d := by
  induction d with
  | nil => simp [dget]
  | cons e d ih =>
    obtain ⟨a, b⟩ := e
    simp only [keys, List.map_cons, List.nodup_cons] at h
    by_cases he : a = k
    · subst he
      simp only [dget, List.find?_cons, decide_true, Option.map_some, Option.some.injEq, List.mem_cons,
        Prod.mk.injEq, true_and]
      constructor
      · rintro rfl; exact .inl rfl
      · rintro (hv | hm)
        · exact hv.symm
        · exact absurd (List.mem_map_of_mem (f := Prod.fst) hm) h.1
    · have : dget ((a, b) :: d) k = dget d k := by simp [dget, he]
      rw [this, ih h.2]
      simp [Ne.symm he]

/-! ## One bus -/

theorem any_key {α} (d : List (String × α)) (c : String) :
    (d.any fun e => e.1 = c) = true ↔ c ∈ keys d := by
  simp [keys]

theorem addClk_get (d : List (String × List String)) (c k : String) :
    dget (addClk d c) k = if k = c then some ((dget d c).getD []) else dget d k := by
  unfold addClk
  by_cases h : (d.any fun e => e.1 = c) = true
  · rw [if_pos h]
    by_cases hk : k = c
    · subst hk
      cases hd : dget d k with
      | none => exact absurd ((any_key d k).1 h) (dget_none.1 hd)
      | some v => simp
    · simp [hk]
  · rw [if_neg h, dget_append]
    have hn : dget d c = none := dget_none.2 fun hh => h ((any_key d c).2 hh)
    by_cases hk : k = c
    · subst hk
      simp [hn, dget]
    · simp [hk, dget, Ne.symm hk]

theorem addClk_nodup {d : List (String × List String)} (h : (keys d).Nodup) (c : String) :
    (keys (addClk d c)).Nodup := by
  unfold addClk
  by_cases hc : (d.any fun e => e.1 = c) = true
  · rwa [if_pos hc]
  · rw [if_neg hc, keys, List.map_append, List.nodup_append]
    refine ⟨h, by simp, ?_⟩
    intro x hx y hy he
    simp only [List.map_cons, List.map_nil, List.mem_singleton] at hy
    subst he hy
    exact hc ((any_key d x).2 hx)

/-- Appending to a list unless it is there. -/
def addOnce (l : List String) (r : String) : List String := if r ∈ l then l else l ++ [r]

theorem addAssoc_get (d : List (String × List String)) (c r k : String) :
    dget (addAssoc d c r) k = if k = c then (dget d c).map (addOnce · r) else dget d k := by
  unfold addAssoc dget addOnce
  induction d with
  | nil => simp
  | cons e d ih =>
    obtain ⟨a, b⟩ := e
    by_cases hak : a = k
    · subst hak
      by_cases hac : a = c
      · subst hac
        by_cases hr : r ∈ b <;> simp [hr]
      · simp [hac]
    · by_cases hac : a = c
      · subst hac
        have hka : ¬ k = a := fun hh => hak hh.symm
        by_cases hr : r ∈ b <;> simpa [hr, hak, hka] using ih
      · have ih' := ih
        by_cases hkc : k = c
        · subst hkc
          simpa [hak] using ih'
        · simpa [hak, hac, hkc] using ih'

theorem addAssoc_keys (d : List (String × List String)) (c r : String) :
    keys (addAssoc d c r) = keys d := by
  unfold keys addAssoc
  rw [List.map_map]
  refine List.map_congr_left fun e _ => ?_
  simp only [Function.comp]
  split <;> rfl

theorem addRst_get (d : List (String × String)) (r k : String) :
    dget (addRst d r) k = if k = r then some ((dget d r).getD "ACTIVE_HIGH") else dget d k := by
  unfold addRst
  by_cases h : (d.any fun e => e.1 = r) = true
  · rw [if_pos h]
    by_cases hk : k = r
    · subst hk
      cases hd : dget d k with
      | none => exact absurd ((any_key d k).1 h) (dget_none.1 hd)
      | some v => simp
    · simp [hk]
  · rw [if_neg h, dget_append]
    have hn : dget d r = none := dget_none.2 fun hh => h ((any_key d r).2 hh)
    by_cases hk : k = r
    · subst hk
      simp [hn, dget]
    · simp [hk, dget, Ne.symm hk]

theorem addRst_nodup {d : List (String × String)} (h : (keys d).Nodup) (r : String) :
    (keys (addRst d r)).Nodup := by
  unfold addRst
  by_cases hc : (d.any fun e => e.1 = r) = true
  · rwa [if_pos hc]
  · rw [if_neg hc, keys, List.map_append, List.nodup_append]
    refine ⟨h, by simp, ?_⟩
    intro x hx y hy he
    simp only [List.map_cons, List.map_nil, List.mem_singleton] at hy
    subst he hy
    exact hc ((any_key d x).2 hx)

/-! ## All buses -/

/-- The resets of the buses clocked by `c`, in the order of the buses. -/
def busResets (bs : List Bus) (c : String) : List String :=
  bs.filterMap fun b => if b.clk.port = some c then b.rst.port else none

theorem assocBus_clk (p : Ports) (b : Bus) (k : String) :
    dget (assocBus p b).clk k =
      if b.clk.port = some k then some ((busResets [b] k).foldl addOnce ((dget p.clk k).getD []))
      else dget p.clk k := by
  unfold assocBus busResets
  cases hc : b.clk.port with
  | none => simp
  | some c =>
    cases hr : b.rst.port with
    | none =>
      simp only [addClk_get]
      by_cases hk : k = c
      · subst hk; simp [hc, hr]
      · simp [hk, Ne.symm hk]
    | some r =>
      simp only [addAssoc_get, addClk_get]
      by_cases hk : k = c
      · subst hk; simp [hc, hr]
      · simp [hk, Ne.symm hk]

theorem assocBus_rst (p : Ports) (b : Bus) (k : String) :
    dget (assocBus p b).rst k =
      if b.rst.port = some k then some ((dget p.rst k).getD "ACTIVE_HIGH") else dget p.rst k := by
  unfold assocBus
  cases hr : b.rst.port with
  | none => simp
  | some r =>
    simp only [addRst_get]
    by_cases hk : k = r
    · subst hk; simp
    · simp [hk, Ne.symm hk]

theorem assocBus_nodup {p : Ports} (b : Bus) (h : (keys p.clk).Nodup ∧ (keys p.rst).Nodup) :
    (keys (assocBus p b).clk).Nodup ∧ (keys (assocBus p b).rst).Nodup := by
  unfold assocBus
  cases b.clk.port with
  | none => cases b.rst.port with
    | none => exact h
    | some r => exact ⟨h.1, addRst_nodup h.2 r⟩
  | some c => cases b.rst.port with
    | none => exact ⟨addClk_nodup h.1 c, h.2⟩
    | some r =>
      refine ⟨?_, addRst_nodup h.2 r⟩
      simp only [addAssoc_keys]
      exact addClk_nodup h.1 c

theorem assocAll_nodup {p : Ports} (bs : List Bus) (h : (keys p.clk).Nodup ∧ (keys p.rst).Nodup) :
    (keys (assocAll p bs).clk).Nodup ∧ (keys (assocAll p bs).rst).Nodup := by
  unfold assocAll
  induction bs generalizing p with
  | nil => exact h
  | cons b bs ih => exact ih (assocBus_nodup b h)

theorem busResets_cons (b : Bus) (bs : List Bus) (c : String) :
    busResets (b :: bs) c = busResets [b] c ++ busResets bs c := by
  unfold busResets
  rw [show b :: bs = [b] ++ bs from rfl, List.filterMap_append]

theorem assocAll_clk (p : Ports) (bs : List Bus) (k : String) :
    dget (assocAll p bs).clk k =
      if (∃ b ∈ bs, b.clk.port = some k) ∨ k ∈ keys p.clk then
        some ((busResets bs k).foldl addOnce ((dget p.clk k).getD []))
      else none := by
  unfold assocAll
  induction bs generalizing p with
  | nil =>
    by_cases hk : k ∈ keys p.clk
    · cases hd : dget p.clk k with
      | none => exact absurd hk (dget_none.1 hd)
      | some v => simp [hk, hd, busResets]
    · simp [hk, dget_none.2 hk]
  | cons b bs ih =>
    rw [List.foldl_cons, ih (assocBus p b), busResets_cons, List.foldl_append]
    have hk : k ∈ keys (assocBus p b).clk ↔ b.clk.port = some k ∨ k ∈ keys p.clk := by
      rw [← not_iff_not, ← dget_none, assocBus_clk, not_or, ← dget_none]
      by_cases hb : b.clk.port = some k <;> simp [hb]
    rw [assocBus_clk]
    by_cases hb : b.clk.port = some k
    · rw [if_pos hb, if_pos (.inr (hk.2 (.inl hb))), if_pos (.inl ⟨b, List.mem_cons_self, hb⟩)]
      rfl
    · have hz : busResets [b] k = [] := by simp [busResets, hb]
      rw [if_neg hb, hz]
      have : ((∃ b' ∈ bs, b'.clk.port = some k) ∨ k ∈ keys (assocBus p b).clk) ↔
          ((∃ b' ∈ b :: bs, b'.clk.port = some k) ∨ k ∈ keys p.clk) := by
        rw [hk]
        constructor
        · rintro (⟨b', h1, h2⟩ | h | h)
          · exact .inl ⟨b', List.mem_cons_of_mem _ h1, h2⟩
          · exact absurd h hb
          · exact .inr h
        · rintro (⟨b', h1, h2⟩ | h)
          · rcases List.mem_cons.1 h1 with rfl | h1
            · exact absurd h2 hb
            · exact .inl ⟨b', h1, h2⟩
          · exact .inr (.inr h)
      by_cases hh : (∃ b' ∈ bs, b'.clk.port = some k) ∨ k ∈ keys (assocBus p b).clk
      · rw [if_pos hh, if_pos (this.1 hh)]
        rfl
      · rw [if_neg hh, if_neg fun h => hh (this.2 h)]

theorem assocAll_rst (p : Ports) (bs : List Bus) (k : String) :
    dget (assocAll p bs).rst k =
      if ∃ b ∈ bs, b.rst.port = some k then some ((dget p.rst k).getD "ACTIVE_HIGH")
      else dget p.rst k := by
  unfold assocAll
  induction bs generalizing p with
  | nil => simp
  | cons b bs ih =>
    rw [List.foldl_cons, ih (assocBus p b), assocBus_rst]
    by_cases hb : b.rst.port = some k
    · simp [hb]
    · simp [hb]

theorem foldl_addOnce (l rs : List String) :
    (∀ r, r ∈ rs.foldl addOnce l ↔ r ∈ l ∨ r ∈ rs) ∧ (l.Nodup → (rs.foldl addOnce l).Nodup) ∧
      l <+: rs.foldl addOnce l := by
  induction rs generalizing l with
  | nil => simp
  | cons a rs ih =>
    obtain ⟨h1, h2, h3⟩ := ih (addOnce l a)
    rw [List.foldl_cons]
    have hm : ∀ r, r ∈ addOnce l a ↔ r ∈ l ∨ r = a := by
      intro r
      unfold addOnce
      by_cases h : a ∈ l
      · rw [if_pos h]
        exact ⟨.inl, fun hh => hh.elim id fun e => e ▸ h⟩
      · rw [if_neg h]; simp
    refine ⟨fun r => ?_, fun hn => h2 ?_, List.IsPrefix.trans ?_ h3⟩
    · rw [h1, hm, List.mem_cons, or_assoc]
    · unfold addOnce
      by_cases h : a ∈ l
      · rwa [if_pos h]
      · rw [if_neg h, List.nodup_append]
        refine ⟨hn, by simp, ?_⟩
        intro x hx y hy he
        simp only [List.mem_singleton] at hy
        subst he hy
        exact h hx
    · unfold addOnce
      by_cases h : a ∈ l
      · rw [if_pos h]; exact List.prefix_rfl
      · rw [if_neg h]; exact List.prefix_append _ _

/-! ## The property -/

/-- The dictionaries given by the user have distinct keys. -/
def Ports.Ok (p : Ports) : Prop := (keys p.clk).Nodup ∧ (keys p.rst).Nodup

/-- **C104, the clocks.**  The clocks described are, each once, those given and those inputs that
    clock some bus. -/
theorem c104_clocks {p : Ports} (h : p.Ok) (bs : List Bus) :
    ((clocks p bs).map ClockEntry.name).Nodup ∧
    ∀ c, c ∈ (clocks p bs).map ClockEntry.name ↔
      c ∈ p.clk.map Prod.fst ∨ ∃ b ∈ bs, b.clk.isVar = true ∧ b.clk.isInput = true ∧ b.clk.name = c := by
  have hk : (clocks p bs).map ClockEntry.name = keys (assocAll p bs).clk := by
    simp [clocks, keys, Function.comp_def]
  rw [hk]
  refine ⟨(assocAll_nodup bs h).1, fun c => ?_⟩
  rw [← not_iff_not, ← dget_none, assocAll_clk]
  have hp : (∃ b ∈ bs, b.clk.port = some c) ↔
      ∃ b ∈ bs, b.clk.isVar = true ∧ b.clk.isInput = true ∧ b.clk.name = c := by
    refine exists_congr fun b => and_congr_right fun _ => ?_
    simp [Sig.port, and_assoc]
  rw [← hp]
  by_cases h1 : ∃ b ∈ bs, b.clk.port = some c
  · simp [h1]
  · by_cases h2 : c ∈ keys p.clk
    · simp [h2, show c ∈ p.clk.map Prod.fst from h2]
    · simp [h1, h2, show c ∉ p.clk.map Prod.fst from h2]

/-- **C104, associated buses.**  A clock that is described names exactly the buses it clocks, in
    the order of the buses; so a bus is named by the description of its clock and by no other, and
    a bus whose clock is not an input by none. -/
theorem c104_busif {p : Ports} (bs : List Bus) (e : ClockEntry) (he : e ∈ clocks p bs) :
    (∀ n, n ∈ e.buses ↔ ∃ b ∈ bs, b.name = n ∧
      b.clk.isVar = true ∧ b.clk.isInput = true ∧ b.clk.name = e.name) ∧
    e.buses.Sublist (bs.map Bus.name) := by
  obtain ⟨d, -, rfl⟩ := List.mem_map.1 he
  refine ⟨fun n => ?_, List.filter_sublist.map _⟩
  simp only [busIf, List.mem_map, List.mem_filter, Bool.and_eq_true, decide_eq_true_eq]
  constructor
  · rintro ⟨b, ⟨h1, ⟨h2, h3⟩, h4⟩, h5⟩
    exact ⟨b, h1, h5, h2, h3, h4⟩
  · rintro ⟨b, h1, h5, h2, h3, h4⟩
    exact ⟨b, ⟨h1, ⟨h2, h3⟩, h4⟩, h5⟩

/-- **C104, every bus has its clock.**  A bus whose clock is an input is named by the description of
    that clock, which is associated with the reset of the bus if this is an input too. -/
theorem c104_bus_has_clock {p : Ports} (h : p.Ok) (bs : List Bus) (b : Bus) (hb : b ∈ bs)
    (hv : b.clk.isVar = true) (hi : b.clk.isInput = true) :
    ∃ e ∈ clocks p bs, e.name = b.clk.name ∧ b.name ∈ e.buses ∧
      ∀ r, b.rst.isVar = true → b.rst.isInput = true → b.rst.name = r → r ∈ e.resets := by
  obtain ⟨e, he, hn⟩ := List.mem_map.1 (((c104_clocks h bs).2 b.clk.name).2 (.inr ⟨b, hb, hv, hi, rfl⟩))
  refine ⟨e, he, hn, ?_, ?_⟩
  · exact ((c104_busif bs e he).1 b.name).2 ⟨b, hb, rfl, hv, hi, hn.symm⟩
  · rintro r h1 h2 rfl
    obtain ⟨d, hd, rfl⟩ := List.mem_map.1 he
    simp only at hn
    have hg := (dget_mem (assocAll_nodup bs h).1).2 hd
    rw [hn] at hg
    rw [assocAll_clk, if_pos (.inl ⟨b, hb, by simp [Sig.port, hv, hi]⟩)] at hg
    simp only [Option.some.injEq] at hg
    show b.rst.name ∈ d.2
    rw [← hg, (foldl_addOnce _ _).1]
    refine .inr (List.mem_filterMap.2 ⟨b, hb, ?_⟩)
    simp [Sig.port, hv, hi, h1, h2]

/-- **C104, associated resets.**  The resets associated with a clock are those given for it, in
    front, and those inputs that reset some bus of the clock; none twice unless given twice. -/
theorem c104_assoc_resets {p : Ports} (h : p.Ok) (bs : List Bus) (e : ClockEntry)
    (he : e ∈ clocks p bs) :
    (∀ r, r ∈ e.resets ↔ (∃ l, (e.name, l) ∈ p.clk ∧ r ∈ l) ∨
      ∃ b ∈ bs, b.clk.isVar = true ∧ b.clk.isInput = true ∧ b.clk.name = e.name ∧
        b.rst.isVar = true ∧ b.rst.isInput = true ∧ b.rst.name = r) ∧
    (∀ l, (e.name, l) ∈ p.clk → l <+: e.resets ∧ (l.Nodup → e.resets.Nodup)) := by
  obtain ⟨d, hd, rfl⟩ := List.mem_map.1 he
  have hg := (dget_mem (assocAll_nodup bs h).1).2 (show (d.1, d.2) ∈ (assocAll p bs).clk from hd)
  rw [assocAll_clk] at hg
  split at hg
  · simp only [Option.some.injEq] at hg
    obtain ⟨f1, f2, f3⟩ := foldl_addOnce ((dget p.clk d.1).getD []) (busResets bs d.1)
    rw [hg] at f1 f2 f3
    constructor
    · intro r
      show r ∈ d.2 ↔ _
      rw [f1]
      refine or_congr ?_ ?_
      · constructor
        · intro hr
          cases hl : dget p.clk d.1 with
          | none => rw [hl] at hr; simp at hr
          | some l =>
            rw [hl] at hr
            exact ⟨l, (dget_mem h.1).1 hl, hr⟩
        · rintro ⟨l, hl, hr⟩
          rw [(dget_mem h.1).2 hl]
          exact hr
      · unfold busResets
        rw [List.mem_filterMap]
        refine exists_congr fun b => and_congr_right fun _ => ?_
        simp only [Sig.port]
        by_cases h1 : b.clk.isVar = true <;> by_cases h2 : b.clk.isInput = true <;>
          by_cases h3 : b.clk.name = d.1 <;> by_cases h4 : b.rst.isVar = true <;>
          by_cases h5 : b.rst.isInput = true <;> simp [h1, h2, h3, h4, h5]
    · intro l hl
      rw [(dget_mem h.1).2 hl] at f2 f3
      exact ⟨f3, f2⟩
  · simp at hg

/-- **C104, resets.**  The resets described are, each once, those given and those inputs that reset
    some bus; a given one keeps its polarity, the others are active high. -/
theorem c104_resets {p : Ports} (h : p.Ok) (bs : List Bus) :
    ((resets p bs).map Prod.fst).Nodup ∧
    ∀ r pol, (r, pol) ∈ resets p bs ↔ (r, pol) ∈ p.rst ∨
      (r ∉ p.rst.map Prod.fst ∧ pol = "ACTIVE_HIGH" ∧
        ∃ b ∈ bs, b.rst.isVar = true ∧ b.rst.isInput = true ∧ b.rst.name = r) := by
  have hn := (assocAll_nodup bs h).2
  refine ⟨hn, fun r pol => ?_⟩
  unfold resets
  rw [← dget_mem hn, assocAll_rst, ← dget_mem h.2]
  have hp : (∃ b ∈ bs, b.rst.port = some r) ↔
      ∃ b ∈ bs, b.rst.isVar = true ∧ b.rst.isInput = true ∧ b.rst.name = r := by
    refine exists_congr fun b => and_congr_right fun _ => ?_
    simp [Sig.port, and_assoc]
  rw [← hp, show (r ∉ p.rst.map Prod.fst) ↔ dget p.rst r = none from dget_none.symm]
  by_cases h1 : ∃ b ∈ bs, b.rst.port = some r
  · rw [if_pos h1]
    cases hd : dget p.rst r with
    | none =>
      simp only [Option.getD_none, Option.some.injEq, reduceCtorEq, true_and, false_or]
      exact ⟨fun hh => ⟨hh.symm, h1⟩, fun hh => hh.1.symm⟩
    | some v => simp
  · simp [h1]

/-! ## Address ranges and ports -/

/-- **C104, address ranges.**  The range of a slave with `n` registers is a power of two, at least
    4096 and at least `n`.  Registers of `bytes` bytes each fit into it whenever they fit into 4096
    bytes. -/
theorem c104_range (n bytes : Nat) :
    (∃ k, mapRange n = 2 ^ k) ∧ 4096 ≤ mapRange n ∧ n ≤ mapRange n ∧
    (bytes * n ≤ 4096 → ∀ i < n, regAddr bytes i + bytes ≤ mapRange n) := by
  have h : max n 4096 ≤ mapRange n := Nat.le_pow_clog (by omega) _
  refine ⟨⟨_, rfl⟩, by omega, by omega, fun hb i hi => ?_⟩
  have : bytes * (i + 1) ≤ bytes * n := Nat.mul_le_mul_left _ hi
  rw [Nat.mul_add, Nat.mul_one] at this
  unfold regAddr
  omega

theorem mapRange_small {n : Nat} (h : n ≤ 4096) : mapRange n = 4096 := by
  unfold mapRange
  rw [Nat.max_eq_right h, show (4096 : Nat) = 2 ^ 12 from rfl, Nat.clog_pow _ _ (by omega)]

theorem mapRange_lt {n : Nat} (h : 4096 < n) : mapRange n < 2 * n := by
  unfold mapRange
  rw [Nat.max_eq_left (by omega)]
  have h1 : 0 < Nat.clog 2 n := Nat.clog_pos (by omega) (by omega)
  have h2 := Nat.pow_pred_clog_lt_self (b := 2) (by omega) (show 1 < n by omega)
  have h3 : 2 ^ Nat.clog 2 n = 2 * 2 ^ (Nat.clog 2 n).pred := by
    rw [← Nat.pow_succ', Nat.succ_pred_eq_of_pos h1]
  omega

/-- **C104, ranges that are too small.**  The range is computed from the number of registers, not
    from their size: with registers of 4 bytes the last one lies inside the range exactly if there
    are at most 1024 of them. -/
theorem c104_not_range (n : Nat) (hn : 0 < n) :
    regAddr 4 (n - 1) < mapRange n ↔ n ≤ 1024 := by
  unfold regAddr
  by_cases h : n ≤ 4096
  · rw [mapRange_small h]; omega
  · have := mapRange_lt (show 4096 < n by omega)
    omega

/-- **C104, ports.**  A port of width `w` is described with a vector of `w` bits down to 0, a port
    without width with none. -/
theorem c104_ports (width : Option Int) :
    (width = none ↔ portVector width = none) ∧
    ∀ w, width = some w → ∃ l r, portVector width = some (l, r) ∧ r = 0 ∧ l - r + 1 = w := by
  constructor
  · cases width <;> simp [portVector]
  · rintro w rfl
    exact ⟨w - 1, 0, rfl, rfl, by omega⟩

/-! ## Examples -/

/-- Two buses with one clock and reset, one with another reset, one clocked by an internal signal. -/
def exBuses : List Bus :=
  [⟨"maxi", ⟨"CLK", true, true⟩, ⟨"RST", true, true⟩⟩, ⟨"saxi", ⟨"CLK", true, true⟩, ⟨"RST", true, true⟩⟩,
   ⟨"sin", ⟨"CLK", true, true⟩, ⟨"RST2", true, true⟩⟩, ⟨"sout", ⟨"clk_div", true, false⟩, ⟨"RST3", true, true⟩⟩]

example : (⟨[("CLK", ["RSTX"])], [("RST", "ACTIVE_LOW")]⟩ : Ports).Ok ∧
    clocks ⟨[("CLK", ["RSTX"])], [("RST", "ACTIVE_LOW")]⟩ exBuses =
      [⟨"CLK", ["maxi", "saxi", "sin"], ["RSTX", "RST", "RST2"]⟩] ∧
    resets ⟨[("CLK", ["RSTX"])], [("RST", "ACTIVE_LOW")]⟩ exBuses =
      [("RST", "ACTIVE_LOW"), ("RST2", "ACTIVE_HIGH"), ("RST3", "ACTIVE_HIGH")] := by
  unfold Ports.Ok
  decide +kernel

example : mapRange 4 = 4096 ∧ mapRange 1025 = 4096 ∧ regAddr 4 1024 = 4096 := by
  refine ⟨mapRange_small (by omega), mapRange_small (by omega), rfl⟩

end IpXact
