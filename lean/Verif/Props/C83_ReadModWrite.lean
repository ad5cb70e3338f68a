import Verif.Model.ReadModWrite
import Mathlib.Data.List.Induction

/-!
# C83: read-modify-write of a RAM in a stream

A stream that reads, modifies and writes words of a RAM for each item (a histogram, say) leaves in the RAM what is there if the
items are processed one after the other, also if consecutive items concern the same word, and however the stream stalls.
-/

namespace Rmw

variable {α : Type}

/-! ## What a program would do -/

/-- One item by itself: all words are read, then the result is written if `when` is true. -/
def Item.exec (aw : ℕ) (m : ℕ → α) (x : Item α) : ℕ → α := fun a =>
  if x.when = true ∧ a = x.waddr % 2 ^ aw then x.op (x.raddrs.map fun r => m (r % 2 ^ aw)) else m a

/-- What is in stage `s` in the cycles in which the stream advances: an item or nothing. -/
def slots (l : List (In α)) : List (Option (Item α)) :=
  (l.filter fun i => i.en).map fun i => if i.valid then some i.item else none

/-- The conditions: of an item and the one just before it, the addresses are equal if the words are, and only an item that is
    written has the address; and if an item reads the word that the item two before writes, then it is also the word of the item
    in between. -/
structure Safe (aw : ℕ) (xs : List (Option (Item α))) : Prop where
  next : ∀ k x y, xs[k]? = some (some y) → xs[k + 1]? = some (some x) → ∀ a ∈ x.raddrs,
    (y.waddr = a → y.when = true) ∧ (y.when = true → y.waddr % 2 ^ aw = a % 2 ^ aw → y.waddr = a)
  after : ∀ k x z, xs[k]? = some (some z) → xs[k + 2]? = some (some x) → ∀ a ∈ x.raddrs, z.when = true →
    z.waddr % 2 ^ aw = a % 2 ^ aw → ∃ y, xs[k + 1]? = some (some y) ∧ y.waddr = a

/-! ## Lemmas -/

/-- The memory after the write of stage `s + 2`. -/
def mem1 (aw : ℕ) (s : St α) : ℕ → α := fun a =>
  if (s.v2 = true ∧ s.i2.when = true) ∧ a = s.i2.waddr % 2 ^ aw then s.val else s.ram.mem a

/-- The memory after both items on the way. -/
def mem2 (aw : ℕ) (s : St α) : ℕ → α := if s.v1 then s.i1.exec aw (mem1 aw s) else mem1 aw s

theorem writes_eq (aw : ℕ) (s : St α) (i : In α) : Ram.writes aw true (ports s i) =
    if s.v2 && i.en && s.i2.when then [(s.i2.waddr % 2 ^ aw, s.val)] else [] := by
  unfold Ram.writes ports
  rw [List.filter_append]
  have : (i.item.raddrs.map fun a => (⟨i.valid && i.en, false, a, s.val⟩ : Ram.PortOp α)).filter
      (fun p => p.active true && p.wenable) = [] := by
    rw [List.filter_eq_nil_iff]
    intro p hp
    obtain ⟨a, _, rfl⟩ := List.mem_map.1 hp
    simp
  rw [this]
  cases h : (s.v2 && i.en && s.i2.when) <;> simp [Ram.PortOp.active, Ram.PortOp.index]

theorem step_mem (aw : ℕ) (s : St α) (i : In α) : (step aw s i).ram.mem = if i.en then mem1 aw s else s.ram.mem := by
  show Ram.commit s.ram.mem (Ram.writes aw true (ports s i)) = _
  rw [writes_eq]
  cases i.en with
  | false => simp [Ram.commit]
  | true =>
    funext a
    cases h1 : s.v2 <;> cases h2 : s.i2.when <;> simp [Ram.commit, mem1, h1, h2]

/-- The words read when the stream advances. -/
theorem step_rdata (aw : ℕ) (s : St α) (i : In α) (h : i.item.raddrs.length < s.ram.rdata.length) (he : i.en = true)
    (hv : i.valid = true) {j : ℕ} (hj : j < i.item.raddrs.length) :
    (step aw s i).ram.rdata[j]? = some (s.ram.mem (i.item.raddrs[j] % 2 ^ aw)) := by
  show (List.zipWith (Ram.nextRdata aw true s.ram.mem) (ports s i) s.ram.rdata)[j]? = _
  rw [List.getElem?_zipWith]
  have h1 : (ports s i)[j]? = some ⟨true, false, i.item.raddrs[j], s.val⟩ := by
    unfold ports
    rw [List.getElem?_append_left (by simpa using hj), List.getElem?_map, List.getElem?_eq_getElem hj]
    simp [he, hv]
  have h2 : s.ram.rdata[j]? = some (s.ram.rdata[j]'(by omega)) := List.getElem?_eq_getElem _
  rw [h1, h2]
  rfl

theorem step_rdata_length (aw : ℕ) (s : St α) (i : In α) (h : s.ram.rdata.length = i.item.raddrs.length + 1) :
    (step aw s i).ram.rdata.length = s.ram.rdata.length := by
  show (List.zipWith (Ram.nextRdata aw true s.ram.mem) (ports s i) s.ram.rdata).length = _
  simp [ports, h]

theorem step_stall (aw : ℕ) (s : St α) (i : In α) (h : s.ram.rdata.length = i.item.raddrs.length + 1) (he : i.en = false) :
    step aw s i = s := by
  have h1 : (step aw s i).ram.mem = s.ram.mem := by rw [step_mem, he]; rfl
  have h2 : (step aw s i).ram.rdata = s.ram.rdata := by
    show List.zipWith (Ram.nextRdata aw true s.ram.mem) (ports s i) s.ram.rdata = _
    apply List.ext_getElem
    · simp [ports, h]
    · intro j hj hj'
      rw [List.getElem_zipWith]
      have : ((ports s i)[j]'(by simp [ports]; omega)).enable = false := by
        have hm : (ports s i)[j]'(by simp [ports]; omega) ∈ ports s i := List.getElem_mem _
        generalize (ports s i)[j]'(by simp [ports]; omega) = p at hm
        unfold ports at hm
        rcases List.mem_append.1 hm with hm | hm
        · obtain ⟨a, _, rfl⟩ := List.mem_map.1 hm
          simp [he]
        · rw [List.mem_singleton.1 hm]
          simp [he]
      simp [Ram.nextRdata, Ram.PortOp.active, this]
  have h3 : (step aw s i).ram = s.ram := by
    cases h4 : (step aw s i).ram
    cases h5 : s.ram
    rw [h4, h5] at h1 h2
    simp only at h1 h2
    rw [h1, h2]
  cases s
  simp only [step, he] at h3 ⊢
  simp only [h3]
  rfl

/-- What the registers of stages `s + 1` and `s + 2` hold. -/
structure Rel (s : St α) (xs : List (Option (Item α))) : Prop where
  one : ∀ k, k + 1 = xs.length → xs[k]? = some (if s.v1 then some s.i1 else none)
  one0 : xs.length < 1 → s.v1 = false
  two : ∀ k, k + 2 = xs.length → xs[k]? = some (if s.v2 then some s.i2 else none)
  two0 : xs.length < 2 → s.v2 = false

/-- The invariant: `m` is what the items so far leave in the memory. -/
structure Inv (aw n : ℕ) (s : St α) (xs : List (Option (Item α))) (m : ℕ → α) : Prop where
  rel : Rel s xs
  len : s.ram.rdata.length = n + 1
  opd : s.v1 = true → operands s = s.i1.raddrs.map fun a => mem1 aw s (a % 2 ^ aw)
  mem : mem2 aw s = m

theorem Safe.left {aw : ℕ} {xs ys : List (Option (Item α))} (h : Safe aw (xs ++ ys)) : Safe aw xs := by
  have key : ∀ {k v}, xs[k]? = some v → (xs ++ ys)[k]? = some v := fun {k v} h => by
    have hk : k < xs.length := by
      rcases Nat.lt_or_ge k xs.length with h' | h'
      · exact h'
      · rw [List.getElem?_eq_none h'] at h; cases h
    rw [List.getElem?_append_left hk, h]
  refine ⟨fun k x y h1 h2 => h.next k x y (key h1) (key h2), fun k x z h1 h2 a ha hw he => ?_⟩
  obtain ⟨y, h3, h4⟩ := h.after k x z (key h1) (key h2) a ha hw he
  refine ⟨y, ?_, h4⟩
  have hk : k + 2 < xs.length := by
    rcases Nat.lt_or_ge (k + 2) xs.length with h' | h'
    · exact h'
    · rw [List.getElem?_eq_none h'] at h2; cases h2
  rwa [List.getElem?_append_left (by omega)] at h3

theorem Inv.stepInv {aw n : ℕ} {s : St α} {xs : List (Option (Item α))} {m : ℕ → α} (hi : Inv aw n s xs m) {i : In α}
    (hn : i.item.raddrs.length = n) (he : i.en = true) (hs : Safe aw (xs ++ [if i.valid then some i.item else none])) :
    Inv aw n (step aw s i) (xs ++ [if i.valid then some i.item else none])
      (if i.valid then i.item.exec aw m else m) := by
  have e1 : (step aw s i).v1 = i.valid := by simp [step, he]
  have e2 : (step aw s i).i1 = i.item := by simp [step, he]
  have e3 : (step aw s i).v2 = s.v1 := by simp [step, he]
  have e4 : (step aw s i).i2 = s.i1 := by simp [step, he]
  have e5 : (step aw s i).val = s.i1.op (operands s) := by simp [step, he]
  have e6 : (step aw s i).ram.mem = mem1 aw s := by rw [step_mem, he]; rfl
  have hm1 : mem1 aw (step aw s i) = m := by
    rw [← hi.mem]
    funext a
    simp only [mem1, e3, e4, e5, e6, mem2]
    by_cases h1 : s.v1 = true
    · rw [hi.opd h1, h1]
      simp only [Item.exec, true_and, if_true, mem1]
    · simp [h1, mem1]
  refine ⟨⟨?_, ?_, ?_, ?_⟩, ?_, ?_, ?_⟩
  · intro k hk
    have : k = xs.length := by simpa using hk
    subst this
    simp [e1, e2]
  · simp
  · intro k hk
    have hk' : k + 1 = xs.length := by
      simp only [List.length_append, List.length_cons, List.length_nil] at hk; omega
    rw [List.getElem?_append_left (by omega), e3, e4]
    exact hi.rel.one k hk'
  · intro h
    rw [e3]
    exact hi.rel.one0 (by simp only [List.length_append, List.length_cons, List.length_nil] at h; omega)
  · rw [step_rdata_length aw s i (by rw [hi.len, hn]), hi.len]
  · intro hv
    rw [e1] at hv
    rw [hm1]
    simp only [hv, if_true] at hs
    apply List.ext_getElem?
    intro j
    rcases Nat.lt_or_ge j i.item.raddrs.length with hj | hj
    · unfold operands
      rw [e2, List.getElem?_zipWith, step_rdata aw s i (by rw [hi.len, hn]; omega) he hv hj, List.getElem?_map,
        List.getElem?_eq_getElem hj]
      simp only [Option.map_some, Option.some.injEq]
      have hmem : i.item.raddrs[j] ∈ i.item.raddrs := List.getElem_mem hj
      generalize i.item.raddrs[j] = a at hmem
      have hx : (xs ++ [some i.item])[xs.length]? = some (some i.item) := by simp
      have hnext : s.v1 = true → (s.i1.waddr = a → s.i1.when = true) ∧
          (s.i1.when = true → s.i1.waddr % 2 ^ aw = a % 2 ^ aw → s.i1.waddr = a) := by
        intro h1
        have hpos : 1 ≤ xs.length := by
          rcases Nat.lt_or_ge xs.length 1 with h | h
          · rw [hi.rel.one0 h] at h1; cases h1
          · exact h
        obtain ⟨k, hk⟩ : ∃ k, k + 1 = xs.length := ⟨xs.length - 1, by omega⟩
        have h2 := hi.rel.one k hk
        simp only [h1, if_true] at h2
        refine hs.next k i.item s.i1 ?_ (by rw [hk]; exact hx) a hmem
        rw [List.getElem?_append_left (by omega), h2]
      have hafter : s.v2 = true → s.i2.when = true → s.i2.waddr % 2 ^ aw = a % 2 ^ aw → s.v1 = true ∧ s.i1.waddr = a := by
        intro h1 h2 h3
        have hpos : 2 ≤ xs.length := by
          rcases Nat.lt_or_ge xs.length 2 with h | h
          · rw [hi.rel.two0 h] at h1; cases h1
          · exact h
        obtain ⟨k, hk⟩ : ∃ k, k + 2 = xs.length := ⟨xs.length - 2, by omega⟩
        have h4 := hi.rel.two k hk
        simp only [h1, if_true] at h4
        obtain ⟨y, h5, h6⟩ := hs.after k i.item s.i2 (by rw [List.getElem?_append_left (by omega), h4])
          (by rw [hk]; exact hx) a hmem h2 h3
        rw [List.getElem?_append_left (by omega), hi.rel.one (k + 1) (by omega)] at h5
        by_cases h7 : s.v1 = true
        · simp only [h7, if_true, Option.some.injEq] at h5
          exact ⟨h7, by rw [h5]; exact h6⟩
        · simp [h7] at h5
      show fwd (step aw s i) a _ = _
      unfold fwd
      rw [e3, e4, e5, ← hi.mem]
      by_cases h1 : s.v1 = true
      · by_cases h2 : a = s.i1.waddr
        · have hw := (hnext h1).1 h2.symm
          simp [h1, ← h2, mem2, Item.exec, hw, hi.opd h1]
        · have h3 : ¬ (s.i1.when = true ∧ a % 2 ^ aw = s.i1.waddr % 2 ^ aw) := fun h =>
            h2 ((hnext h1).2 h.1 h.2.symm).symm
          have h4 : ¬ ((s.v2 = true ∧ s.i2.when = true) ∧ a % 2 ^ aw = s.i2.waddr % 2 ^ aw) := fun h =>
            h2 (hafter h.1.1 h.1.2 h.2.symm).2.symm
          have h5 : (s.v1 && a == s.i1.waddr) = false := by simp [h2]
          rw [h5]
          simp only [mem2, h1, if_true, Item.exec]
          rw [if_neg h3]
          simp only [mem1]
          rw [if_neg h4]
          rfl
      · have h4 : ¬ ((s.v2 = true ∧ s.i2.when = true) ∧ a % 2 ^ aw = s.i2.waddr % 2 ^ aw) := fun h =>
            h1 (hafter h.1.1 h.1.2 h.2.symm).1
        simp only [mem2, h1, mem1, Bool.false_and, if_false, Bool.false_eq_true]
        rw [if_neg h4]
    · unfold operands
      rw [e2, List.getElem?_eq_none (by rw [List.length_zipWith]; omega), List.getElem?_eq_none (by simpa using hj)]
  · unfold mem2
    rw [hm1, e1, e2]

/-- The items that have entered. -/
def items (l : List (In α)) : List (Item α) := (slots l).filterMap id

theorem slots_append (l m : List (In α)) : slots (l ++ m) = slots l ++ slots m := by simp [slots]

/-- The state before the first item. -/
structure Idle (n : ℕ) (s : St α) : Prop where
  v1 : s.v1 = false
  v2 : s.v2 = false
  len : s.ram.rdata.length = n + 1

theorem run_inv (aw n : ℕ) {s : St α} (h0 : Idle n s) (l : List (In α)) (hn : ∀ i ∈ l, i.item.raddrs.length = n)
    (hs : Safe aw (slots l)) : Inv aw n (run aw s l) (slots l) ((items l).foldl (Item.exec aw) s.ram.mem) := by
  induction l using List.reverseRecOn with
  | nil =>
    refine ⟨⟨?_, fun _ => h0.v1, ?_, fun _ => h0.v2⟩, h0.len, fun h => ?_, ?_⟩
    · intro k hk; simp [slots] at hk
    · intro k hk; simp [slots] at hk
    · rw [show (run aw s []).v1 = false from h0.v1] at h; cases h
    · funext a
      simp [run, mem2, mem1, h0.v1, h0.v2, items, slots]
  | append_singleton l i ih =>
    rw [slots_append] at hs
    have ih := ih (fun j hj => hn j (List.mem_append_left _ hj)) hs.left
    have hni := hn i (List.mem_append_right _ (List.mem_singleton.2 rfl))
    have hr : run aw s (l ++ [i]) = step aw (run aw s l) i := by simp [run]
    rw [hr]
    by_cases he : i.en = true
    · have e : slots [i] = [if i.valid then some i.item else none] := by simp [slots, he]
      have := ih.stepInv hni he (by rw [e] at hs; exact hs)
      rw [slots_append, e]
      have e' : (items (l ++ [i])).foldl (Item.exec aw) s.ram.mem =
          if i.valid then i.item.exec aw ((items l).foldl (Item.exec aw) s.ram.mem) else (items l).foldl (Item.exec aw) s.ram.mem := by
        unfold items
        rw [slots_append, e, List.filterMap_append, List.foldl_append]
        cases i.valid <;> rfl
      rw [e']
      exact this
    · have he : i.en = false := by simpa using he
      have e : slots [i] = [] := by simp [slots, he]
      rw [step_stall aw _ i (by rw [ih.len, hni]) he]
      unfold items
      rw [slots_append, e, List.append_nil]
      exact ih

/-! ## Theorems -/

/-- **C83.** If the items are safe, then after two more cycles in which the stream advances without an item, the RAM holds what the
    items leave in it one after the other.  The stream may stall in any cycles, and there may be cycles without items between. -/
theorem c83_rmw (aw n : ℕ) {s : St α} (h0 : Idle n s) (l : List (In α)) (hn : ∀ i ∈ l, i.item.raddrs.length = n)
    (hs : Safe aw (slots l)) {xs : List (Option (Item α))} (hx : slots l = xs ++ [none, none]) :
    (run aw s l).ram.mem = (xs.filterMap id).foldl (Item.exec aw) s.ram.mem := by
  have h := run_inv aw n h0 l hn hs
  have h1 := h.rel.one (xs.length + 1) (by rw [hx]; simp)
  have h2 := h.rel.two xs.length (by rw [hx]; simp)
  rw [hx] at h1 h2
  have v1 : (run aw s l).v1 = false := by
    by_contra hc
    simp only [Bool.not_eq_false] at hc
    simp [hc] at h1
  have v2 : (run aw s l).v2 = false := by
    by_contra hc
    simp only [Bool.not_eq_false] at hc
    simp [hc] at h2
  have h3 := h.mem
  unfold items at h3
  rw [hx, List.filterMap_append] at h3
  simp only [List.filterMap_cons, id, List.filterMap_nil, List.append_nil] at h3
  rw [← h3]
  funext a
  simp [mem2, mem1, v1, v2]

/-- **C83, one address each.** If every item reads and writes a single word, all items are written, addresses are within the RAM,
    and no item has the address of the item two before it unless the item in between has it too, the items are safe. -/
theorem c83_safe (aw : ℕ) {xs : List (Option (Item α))} (hr : ∀ x, some x ∈ xs → x.raddrs = [x.waddr] ∧ x.when = true ∧
      x.waddr < 2 ^ aw)
    (hc : ∀ k x z, xs[k]? = some (some z) → xs[k + 2]? = some (some x) → z.waddr = x.waddr →
      ∃ y, xs[k + 1]? = some (some y) ∧ y.waddr = x.waddr) : Safe aw xs := by
  have hm : ∀ {k x}, xs[k]? = some (some x) → some x ∈ xs := fun h => List.mem_of_getElem? h
  constructor
  · intro k x y h1 h2 a ha
    obtain ⟨e1, _, l1⟩ := hr x (hm h2)
    obtain ⟨_, w2, l2⟩ := hr y (hm h1)
    rw [e1] at ha
    rw [List.mem_singleton.1 ha]
    exact ⟨fun _ => w2, fun _ h => by rwa [Nat.mod_eq_of_lt l1, Nat.mod_eq_of_lt l2] at h⟩
  · intro k x z h1 h2 a ha _ h
    obtain ⟨e1, _, l1⟩ := hr x (hm h2)
    obtain ⟨_, _, l2⟩ := hr z (hm h1)
    rw [e1] at ha
    rw [List.mem_singleton.1 ha] at h ⊢
    rw [Nat.mod_eq_of_lt l1, Nat.mod_eq_of_lt l2] at h
    exact hc k x z h1 h2 h

/-! ## Where the code does less -/

/-- An item that reads and writes one word. -/
def one (a : ℕ) (f : α → α) (d : α) (w : Bool := true) : Item α := ⟨[a], a, fun l => f (l.headD d), w⟩

/-- **C83, two items apart.** If the words of three consecutive items are `a`, another one, and `a` again, then the first update of
    `a` is lost: the third item reads the RAM in the cycle in which the first one writes it.  The same if there is a cycle
    without an item in between. -/
theorem c83_not_apart (aw : ℕ) {s : St α} (h0 : Idle 1 s) {a b : ℕ} (ha : a < 2 ^ aw) (hb : b < 2 ^ aw) (hab : a ≠ b)
    (f g h : α → α) (d : α) (v : Bool) (e e' : Item α) (he : e.raddrs.length = 1) (he' : e'.raddrs.length = 1) :
    (run aw s [⟨true, true, one a f d⟩, ⟨true, v, one b g d⟩, ⟨true, true, one a h d⟩, ⟨true, false, e⟩, ⟨true, false, e'⟩]).ram.mem a =
      h (s.ram.mem a) := by
  obtain ⟨⟨mem, rdata⟩, v1, i1, v2, i2, val⟩ := s
  obtain ⟨rfl, rfl, hl⟩ := h0
  obtain ⟨r, w, rfl⟩ : ∃ r w, rdata = [r, w] := by
    match rdata, hl with
    | [r, w], _ => exact ⟨r, w, rfl⟩
  obtain ⟨era, ewa, eop, ew⟩ := e
  obtain ⟨c, rfl⟩ : ∃ c, era = [c] := by
    match era, he with
    | [c], _ => exact ⟨c, rfl⟩
  obtain ⟨era', ewa', eop', ew'⟩ := e'
  obtain ⟨c', rfl⟩ : ∃ c', era' = [c'] := by
    match era', he' with
    | [c'], _ => exact ⟨c', rfl⟩
  have hba : b ≠ a := fun h => hab h.symm
  cases v <;>
  simp [run, step, ports, Ram.step, Ram.writes, Ram.commit, Ram.PortOp.active, Ram.PortOp.index, Ram.nextRdata, operands, fwd, one,
    Nat.mod_eq_of_lt ha, Nat.mod_eq_of_lt hb, hab, hba]

/-- **C83, `when`.** The result of an item that is not written, because `when` is false, is forwarded to the next item with the same
    address. -/
theorem c83_not_when (aw : ℕ) {s : St α} (h0 : Idle 1 s) {a : ℕ} (ha : a < 2 ^ aw) (f g : α → α) (d : α) (e e' : Item α)
    (he : e.raddrs.length = 1) (he' : e'.raddrs.length = 1) :
    (run aw s [⟨true, true, one a f d false⟩, ⟨true, true, one a g d⟩, ⟨true, false, e⟩, ⟨true, false, e'⟩]).ram.mem a =
      g (f (s.ram.mem a)) := by
  obtain ⟨⟨mem, rdata⟩, v1, i1, v2, i2, val⟩ := s
  obtain ⟨rfl, rfl, hl⟩ := h0
  obtain ⟨r, w, rfl⟩ : ∃ r w, rdata = [r, w] := by
    match rdata, hl with
    | [r, w], _ => exact ⟨r, w, rfl⟩
  obtain ⟨era, ewa, eop, ew⟩ := e
  obtain ⟨c, rfl⟩ : ∃ c, era = [c] := by
    match era, he with
    | [c], _ => exact ⟨c, rfl⟩
  obtain ⟨era', ewa', eop', ew'⟩ := e'
  obtain ⟨c', rfl⟩ : ∃ c', era' = [c'] := by
    match era', he' with
    | [c'], _ => exact ⟨c', rfl⟩
  simp [run, step, ports, Ram.step, Ram.writes, Ram.commit, Ram.PortOp.active, Ram.PortOp.index, Ram.nextRdata, operands, fwd, one,
    Nat.mod_eq_of_lt ha]

/-- **C83, addresses beyond the RAM.** The addresses are compared before they are cut to the address width: of two consecutive
    updates of the word `a`, at the addresses `a` and `a + 2 ^ aw`, the first is lost. -/
theorem c83_not_alias (aw : ℕ) {s : St α} (h0 : Idle 1 s) {a : ℕ} (ha : a < 2 ^ aw) (f g : α → α) (d : α) (e e' : Item α)
    (he : e.raddrs.length = 1) (he' : e'.raddrs.length = 1) :
    (run aw s [⟨true, true, one a f d⟩, ⟨true, true, one (a + 2 ^ aw) g d⟩, ⟨true, false, e⟩, ⟨true, false, e'⟩]).ram.mem a =
      g (s.ram.mem a) := by
  obtain ⟨⟨mem, rdata⟩, v1, i1, v2, i2, val⟩ := s
  obtain ⟨rfl, rfl, hl⟩ := h0
  obtain ⟨r, w, rfl⟩ : ∃ r w, rdata = [r, w] := by
    match rdata, hl with
    | [r, w], _ => exact ⟨r, w, rfl⟩
  obtain ⟨era, ewa, eop, ew⟩ := e
  obtain ⟨c, rfl⟩ : ∃ c, era = [c] := by
    match era, he with
    | [c], _ => exact ⟨c, rfl⟩
  obtain ⟨era', ewa', eop', ew'⟩ := e'
  obtain ⟨c', rfl⟩ : ∃ c', era' = [c'] := by
    match era', he' with
    | [c'], _ => exact ⟨c', rfl⟩
  simp [run, step, ports, Ram.step, Ram.writes, Ram.commit, Ram.PortOp.active, Ram.PortOp.index, Ram.nextRdata, operands, fwd, one,
    Nat.mod_eq_of_lt ha]

/-! ## Examples: a histogram -/

namespace Ex

/-- All counts 0. -/
def s0 : St ℕ := ⟨⟨fun _ => 0, [0, 0]⟩, false, one 0 id 0, false, one 0 id 0, 0⟩

theorem idle : Idle 1 s0 := ⟨rfl, rfl, rfl⟩

/-- An item in bin `a`, and a cycle without an item. -/
def bin (a : ℕ) : In ℕ := ⟨true, true, one a (· + 1) 0⟩
def empty : In ℕ := ⟨true, false, one 0 id 0⟩

/-- The stream is stalled. -/
def stall (a : ℕ) : In ℕ := ⟨false, true, one a (· + 1) 0⟩

/-- Bins 3, 3, 3, 5, 5, 3 with stalls. -/
def l : List (In ℕ) := [bin 3, stall 3, bin 3, bin 3, stall 5, stall 5, bin 5, bin 5, stall 3, bin 3, stall 0, empty, stall 0, empty]

/-- The items that enter. -/
def xs : List (Option (Item ℕ)) := [3, 3, 3, 5, 5, 3].map fun a => some (one a (· + 1) 0)

example : (run 4 s0 l).ram.mem 3 = 4 ∧ (run 4 s0 l).ram.mem 5 = 2 := by
  have h := c83_rmw 4 1 idle l (by decide) ?_ (xs := xs) rfl
  · rw [h]; exact ⟨rfl, rfl⟩
  · have e : slots l = xs ++ [none, none] := rfl
    rw [e]
    refine c83_safe 4 ?_ ?_
    · intro x hx
      simp only [xs, List.map_cons, List.map_nil, List.cons_append, List.nil_append, List.mem_cons, Option.some.injEq,
        reduceCtorEq, List.not_mem_nil, or_false] at hx
      rcases hx with rfl | rfl | rfl | rfl | rfl | rfl <;> exact ⟨rfl, rfl, by decide⟩
    · intro k x z h1 h2 h3
      match k, h1, h2 with
      | 0, h1, h2 => exact ⟨_, rfl, by cases h2; rfl⟩
      | 1, h1, h2 => cases h1; cases h2; exact absurd h3 (by decide)
      | 2, h1, h2 => cases h1; cases h2; exact absurd h3 (by decide)
      | 3, h1, h2 => cases h1; cases h2; exact absurd h3 (by decide)
      | 4, h1, h2 => cases h2
      | 5, h1, h2 => cases h2
      | 6, h1, h2 => cases h1
      | 7, h1, h2 => cases h1
      | k + 8, h1, h2 => cases h1

/-- Bins 3, 5, 3: only one item of bin 3 is counted. -/
example : (run 4 s0 [bin 3, bin 5, bin 3, empty, empty]).ram.mem 3 = 1 :=
  c83_not_apart 4 idle (a := 3) (b := 5) (by decide) (by decide) (by decide) (· + 1) (· + 1) (· + 1) 0 true _ _ rfl rfl

/-- An item in bin 3 that is not written, and one that is: the count is 2. -/
example : (run 4 s0 [⟨true, true, one 3 (· + 1) 0 false⟩, bin 3, empty, empty]).ram.mem 3 = 2 :=
  c83_not_when 4 idle (a := 3) (by decide) (· + 1) (· + 1) 0 _ _ rfl rfl

/-- Addresses 3 and 19 in a RAM of 16 words: the count is 1. -/
example : (run 4 s0 [bin 3, bin 19, empty, empty]).ram.mem 3 = 1 :=
  c83_not_alias 4 idle (a := 3) (by decide) (· + 1) (· + 1) 0 _ _ rfl rfl

end Ex

end Rmw
