import Verif.Model.Block
import Verif.Props.C08_Burst
import Mathlib.Tactic.Ring

/-!
# C66: block transfers of multi-bank RAMs
-/

namespace Block
variable {α : Type}

/-- The bank of word `j` of a block transfer over `n` banks with `bs` words a turn. -/
def bankAt (n bs j : Nat) : Nat := j / bs % n

/-- How many words of its bank come before word `j`. -/
def posAt (n bs j : Nat) : Nat := j / (bs * n) * bs + j % bs

/-- Word `k` is word `r` of the turn of bank `b` in round `q`. -/
structure At (n bs k q b r : Nat) : Prop where
  eq : k = (q * n + b) * bs + r
  r : r < bs
  b : b < n

/-- How many words bank `i` has had before that word. -/
def cnt (bs q b r i : Nat) : Nat := q * bs + if i < b then bs else if i = b then r else 0

theorem At.div {n bs k q b r : Nat} (h : At n bs k q b r) : bankAt n bs k = b ∧ posAt n bs k = cnt bs q b r b := by
  obtain ⟨rfl, hr, hb⟩ := h
  have hbs : 0 < bs := by omega
  have h1 : ((q * n + b) * bs + r) / bs = q * n + b := by
    rw [Nat.add_comm, Nat.add_mul_div_right _ _ hbs, Nat.div_eq_of_lt hr, Nat.zero_add]
  have h2 : ((q * n + b) * bs + r) % bs = r := by
    rw [Nat.add_comm, Nat.add_mul_mod_self_right, Nat.mod_eq_of_lt hr]
  have h3 : (q * n + b) / n = q := by
    rw [Nat.add_comm, Nat.add_mul_div_right _ _ (by omega), Nat.div_eq_of_lt hb, Nat.zero_add]
  have h4 : (q * n + b) % n = b := by
    rw [Nat.add_comm, Nat.add_mul_mod_self_right, Nat.mod_eq_of_lt hb]
  unfold bankAt posAt cnt
  rw [← Nat.div_div_eq_div_mul, h1, h2, h3, h4]
  simp

theorem At.le {n bs k q b r : Nat} (h : At n bs k q b r) : cnt bs q b r b ≤ k := by
  obtain ⟨rfl, hr, hb⟩ := h
  unfold cnt
  simp only [Nat.lt_irrefl, if_false, if_true]
  have : q * bs ≤ (q * n + b) * bs := Nat.mul_le_mul_right _ (Nat.le_trans (Nat.le_mul_of_pos_right q (by omega)) (Nat.le_add_right _ _))
  omega

/-- The next word. -/
theorem At.succ {n bs k q b r : Nat} (h : At n bs k q b r) :
    ∃ q' b' r', At n bs (k + 1) q' b' r' ∧
      (∀ i, i < n → cnt bs q' b' r' i = cnt bs q b r i + if i = b then 1 else 0) ∧
      (if r + 1 = bs then 0 else r + 1) = r' ∧
      (if r + 1 = bs then (if b + 1 = n then 1 else b + 2) else b + 1) = b' + 1 := by
  obtain ⟨rfl, hr, hb⟩ := h
  by_cases h1 : r + 1 = bs
  · by_cases h2 : b + 1 = n
    · refine ⟨q + 1, 0, 0, ⟨?_, by omega, by omega⟩, fun i hi => ?_, by simp [h1], by simp [h1, h2]⟩
      · have : (q + 1) * n = q * n + b + 1 := by rw [Nat.add_mul]; omega
        rw [Nat.add_zero, Nat.add_zero, this, Nat.add_mul _ 1, Nat.one_mul]
        omega
      · unfold cnt
        rw [Nat.add_mul, Nat.one_mul]
        split <;> split <;> (try split) <;> (try split) <;> omega
    · refine ⟨q, b + 1, 0, ⟨?_, by omega, by omega⟩, fun i hi => ?_, by simp [h1], by simp [h1, h2]⟩
      · have : q * n + (b + 1) = q * n + b + 1 := by omega
        rw [Nat.add_zero, this, Nat.add_mul _ 1, Nat.one_mul]
        omega
      · unfold cnt
        split <;> split <;> (try split) <;> (try split) <;> omega
  · refine ⟨q, b, r + 1, ⟨by omega, by omega, hb⟩, fun i hi => ?_, by simp [h1], by simp [h1]⟩
    unfold cnt
    split <;> split <;> (try split) <;> (try split) <;> omega

/-! ### Reading -/

/-- The registers after several cycles. -/
def rrun (n aw : Nat) (mem : Nat → Nat → α) (s : RState α) (ins : List RIn) : RState α := ins.foldl (rstep n aw mem) s

/-- Words handed over, with the `rlast` flag. -/
def beats (n aw : Nat) (z : α) (mem : Nat → Nat → α) (s : RState α) : List RIn → List (α × Bool)
  | [] => []
  | x :: l =>
    (if s.rvalid && x.rready then [(rdata n z s, s.rlast)] else []) ++ beats n aw z mem (rstep n aw mem s x) l

/-- The cycles in which the consumer is ready. -/
def readies (ins : List RIn) : Nat := (ins.filter (·.rready)).length

/-- The words of a block transfer, the last one marked. -/
def expected (n aw : Nat) (mem : Nat → Nat → α) (a st bs L : Nat) : List (α × Bool) :=
  (List.range L).map fun j => (mem (bankAt n bs j) ((a + posAt n bs j * st) % 2 ^ aw), decide (j + 1 = L))

/-- All is idle. -/
structure Idle (s : RState α) : Prop where
  turn : s.turn = 0
  bank : ∀ i, (s.bank i).busy = false

/-- After `k` ready cycles. -/
structure RInv (n aw : Nat) (mem : Nat → Nat → α) (a st bs L k : Nat) (s : RState α) : Prop where
  fin : L < k → Idle s ∧ s.rvalid = false
  run : k ≤ L → ∃ q b r, At n bs k q b r ∧ s.turn = b + 1 ∧ s.count = r ∧ s.blocksize = bs ∧ s.length = L - k ∧
    s.rvalid = decide (0 < k) ∧ s.rlast = decide (k = L) ∧
    (k < L → ∀ i, i < n → (s.bank i).busy = true ∧ (s.bank i).addr = (a + cnt bs q b r i * st) % 2 ^ aw ∧
      (s.bank i).stride = st % 2 ^ aw ∧ (s.bank i).length = L - cnt bs q b r i ∧
      ((s.bank i).rvalid = decide (0 < cnt bs q b r i)) ∧ (s.bank i).rlast = false)
  data : 0 < k → k ≤ L → bankAt n bs (k - 1) < n ∧ (∀ j, s.sel j = decide (j = bankAt n bs (k - 1))) ∧
    ((s.bank (bankAt n bs (k - 1))).busy = false ∨ (s.bank (bankAt n bs (k - 1))).rvalid = true) ∧
    (s.bank (bankAt n bs (k - 1))).rdata = mem (bankAt n bs (k - 1)) ((a + posAt n bs (k - 1) * st) % 2 ^ aw)

theorem addr_next {aw a c st x : Nat} : ((a + c * st) % 2 ^ aw + st % 2 ^ aw) % 2 ^ aw = (a + (c + 1) * st) % 2 ^ aw ∧
    x % 2 ^ aw % 2 ^ aw = x % 2 ^ aw := by
  refine ⟨?_, Nat.mod_mod _ _⟩
  rw [← Nat.add_mod]
  congr 1
  ring

theorem rstep_bank (n aw : Nat) (mem : Nat → Nat → α) (s : RState α) (x : RIn) (i : Nat) :
    (rstep n aw mem s x).bank i = Burst.rstep aw (mem i) (s.bank i) (s.bankIn x i) := by
  unfold rstep
  split <;> rfl

theorem rinv_step {n aw : Nat} {mem : Nat → Nat → α} {a st bs L k : Nat} (hL : 0 < L) {s : RState α}
    (h : RInv n aw mem a st bs L k s) (x : RIn) (hc : x.cond = false) (hq : x.rquit = false) :
    RInv n aw mem a st bs L (if x.rready then k + 1 else k) (rstep n aw mem s x) := by
  rcases Nat.lt_or_ge L k with hk | hk
  · obtain ⟨⟨ht, hb⟩, hv⟩ := h.fin hk
    have hlt : L < (if x.rready then k + 1 else k) := by split <;> omega
    refine ⟨fun _ => ⟨⟨by simp [rstep, ht, hc], fun i => ?_⟩, by simp [rstep, ht]⟩, fun _ => by omega, fun _ _ => by omega⟩
    simp [rstep, ht, Burst.rstep, hb, RState.bankIn, hc]
  · obtain ⟨q, b, r, hat, ht, hco, hbs, hlen, hv, hla, hbk⟩ := h.run hk
    have ht0 : s.turn ≠ 0 := by omega
    by_cases hr : x.rready = true
    · simp only [hr, if_true]
      by_cases hkL : k = L
      · subst hkL
        refine ⟨fun _ => ⟨⟨by simp [rstep, ht0, hq, hla, hv, hr, hL], fun i => ?_⟩,
          by simp [rstep, ht0, hla, hv, hr, hL]⟩, fun _ => by omega, fun _ _ => by omega⟩
        simp only [rstep, ht0, if_false]
        by_cases hb : (s.bank i).busy = true
        · simp [Burst.rstep, hb, RState.bankIn, hv, hla, hL]
        · simp [Burst.rstep, hb, RState.bankIn, hc]
      · have hkl : k < L := by omega
        have hbk := hbk hkl
        obtain ⟨q', b', r', hat', hcnt, hr', hb'⟩ := hat.succ
        obtain ⟨hba, hpo⟩ := hat.div
        have hle := hat.le
        refine ⟨fun _ => by omega, fun _ => ⟨q', b', r', hat', ?_, ?_, ?_, ?_, ?_, ?_, ?_⟩, fun _ _ => ?_⟩
        · simp only [rstep, ht0, if_false, hq, hla, hkL, decide_false, Bool.false_and, Bool.false_eq_true, hr, hco, hbs, ht]
          rw [← hb']
          simp
        · simp only [rstep, ht0, if_false, hr, hco, hbs, hlen, Bool.true_and]
          rw [← hr']
          have : 0 < L - k := by omega
          simp [this]
        · simp [rstep, ht0, hbs]
        · have : 0 < L - k := by omega
          simp [rstep, ht0, hr, hlen, this]
          omega
        · have : 0 < L - k := by omega
          simp [rstep, ht0, hr, hlen, this, hla, hkL, hq]
        · simp only [rstep, ht0, if_false, hr, hlen, hla, hkL, hq]
          by_cases h1 : k + 1 = L
          · have : L - k ≤ 1 := by omega
            simp [this, h1]
          · have : ¬ L - k ≤ 1 := by omega
            simp [this, h1]
        · intro hk1 i hi
          obtain ⟨i1, i2, i3, i4, i5, i6⟩ := hbk i hi
          rw [hcnt i hi]
          simp only [rstep, ht0, if_false]
          by_cases hib : i = b
          · subst hib
            have hl0 : 0 < L - cnt bs q i r i := by omega
            have hl1 : ¬ L - cnt bs q i r i ≤ 1 := by omega
            refine ⟨?_, ?_, ?_, ?_, ?_, ?_⟩
            · simp [Burst.rstep, i1, RState.bankIn, hq, hla, hkL, i6]
            · simp only [Burst.rstep, i1, if_true, RState.bankIn, hr, ht, i4, i2, i3]
              simp only [beq_self_eq_true, Bool.and_self, Bool.true_and, gt_iff_lt, decide_eq_true_eq, hl0, if_true]
              exact (addr_next (x := 0)).1
            · simp [Burst.rstep, i1, i3]
            · simp [Burst.rstep, i1, RState.bankIn, hr, ht, i4, hl0]
              omega
            · simp [Burst.rstep, i1, RState.bankIn, hr, ht, i4, hl0, i6, hq, hla, hkL]
            · simp [Burst.rstep, i1, RState.bankIn, hr, ht, i4, hl1, i6, hq, hla, hkL]
          · have hne : (s.turn == i + 1) = false := by
              rw [ht, beq_eq_false_iff_ne]; omega
            refine ⟨?_, ?_, ?_, ?_, ?_, ?_⟩
            · simp [Burst.rstep, i1, RState.bankIn, hq, hla, hkL, i6]
            · simp [Burst.rstep, i1, RState.bankIn, hne, hib, i2]
            · simp [Burst.rstep, i1, i3]
            · simp [Burst.rstep, i1, RState.bankIn, hne, hib, i4]
            · simp [Burst.rstep, i1, RState.bankIn, hne, hib, i5, i6, hq, hla, hkL]
            · simp [Burst.rstep, i1, RState.bankIn, hne, i6, hq, hla, hkL]
        · rw [Nat.add_sub_cancel, hba]
          obtain ⟨i1, i2, i3, i4, i5, i6⟩ := hbk b hat.b
          refine ⟨hat.b, fun j => ?_, ?_, ?_⟩
          · simp only [rstep, ht0, if_false, hr, if_true, ht]
            rw [Bool.eq_iff_iff]
            simp
          · right
            have hl0 : 0 < L - cnt bs q b r b := by omega
            simp [rstep, ht0, Burst.rstep, i1, RState.bankIn, hr, ht, i4, hl0, i6, hq, hla, hkL]
          · rw [rstep_bank]
            simp only [Burst.rstep, i1, if_true, RState.bankIn, hr, ht, beq_self_eq_true, Bool.and_self, Bool.or_true, i2]
            rw [hpo, Nat.mod_mod]
    · have hr' : x.rready = false := by simpa using hr
      simp only [hr', Bool.false_eq_true, if_false]
      refine ⟨fun _ => by omega, fun _ => ⟨q, b, r, hat, ?_, ?_, ?_, ?_, ?_, ?_, ?_⟩, fun h0 _ => ?_⟩
      · simp [rstep, ht0, hq, hr', ht]
      · simp [rstep, ht0, hr', hco]
      · simp [rstep, ht0, hbs]
      · simp [rstep, ht0, hr', hlen]
      · simp [rstep, ht0, hr', hq, hv]
      · simp [rstep, ht0, hr', hq, hla]
      · intro hkl i hi
        obtain ⟨i1, i2, i3, i4, i5, i6⟩ := hbk hkl i hi
        have hkL : k ≠ L := by omega
        simp only [rstep, ht0, if_false]
        refine ⟨?_, ?_, ?_, ?_, ?_, ?_⟩
        · simp [Burst.rstep, i1, RState.bankIn, hq, hla, hkL, i6]
        · simp [Burst.rstep, i1, RState.bankIn, hr', i2]
        · simp [Burst.rstep, i1, i3]
        · simp [Burst.rstep, i1, RState.bankIn, hr', i4]
        · simp [Burst.rstep, i1, RState.bankIn, hr', i5, i6, hq, hla, hkL]
        · simp [Burst.rstep, i1, RState.bankIn, hr', i6, hq, hla, hkL]
      · obtain ⟨d1, d2, d3, d4⟩ := h.data h0 hk
        refine ⟨d1, fun j => ?_, ?_, ?_⟩
        · simp [rstep, ht0, hr', d2]
        · simp only [rstep, ht0, if_false]
          by_cases hb : (s.bank (bankAt n bs (k - 1))).busy = true
          · have hvv := d3.resolve_left (by simp [hb])
            by_cases hkL : k = L
            · left
              subst hkL
              simp [Burst.rstep, hb, RState.bankIn, hv, hla, hL]
            · right
              have hkl : k < L := by omega
              have i6 := (hbk hkl _ d1).2.2.2.2.2
              simp [Burst.rstep, hb, RState.bankIn, hr', hvv, i6, hq, hla, hkL]
          · left
            simp [Burst.rstep, hb, RState.bankIn, hc]
        · rw [← d4]
          simp only [rstep, ht0, if_false]
          by_cases hb : (s.bank (bankAt n bs (k - 1))).busy = true
          · have hvv := d3.resolve_left (by simp [hb])
            simp [Burst.rstep, hb, RState.bankIn, hr', hvv]
          · simp [Burst.rstep, hb]

theorem rdata_sel {n : Nat} {z : α} {s : RState α} {b : Nat} (hb : b < n) (hs : ∀ j, s.sel j = decide (j = b)) :
    rdata n z s = (s.bank b).rdata := by
  unfold rdata
  have : ∀ m, (List.range m).foldl (fun a i => if s.sel i then (s.bank i).rdata else a) z =
      if b < m then (s.bank b).rdata else z := by
    intro m
    induction m with
    | zero => simp
    | succ m ih =>
      rw [List.range_succ, List.foldl_append, ih]
      simp only [List.foldl_cons, List.foldl_nil, hs]
      by_cases hbm : m = b
      · subst hbm; simp
      · by_cases hlt : b < m
        · have : b < m + 1 := by omega
          simp [hbm, hlt, this]
        · have : ¬ b < m + 1 := by omega
          simp [hbm, hlt, this]
  rw [this, if_pos hb]

/-- Words handed over by any machine that shows the `k`-th word after `k` ready cycles. -/
theorem beats_eq {n aw : Nat} {z : α} {mem : Nat → Nat → α} {a st bs L : Nat} (hL : 0 < L) :
    ∀ (ins : List RIn) (k : Nat) (s : RState α), RInv n aw mem a st bs L k s →
      (∀ x ∈ ins, x.cond = false ∧ x.rquit = false) →
      beats n aw z mem s ins = ((expected n aw mem a st bs L).take (k + readies ins - 1)).drop (k - 1) ∧
      RInv n aw mem a st bs L (k + readies ins) (rrun n aw mem s ins)
  | [], k, s, h, _ => by
    refine ⟨?_, h⟩
    simp [beats, readies]
  | x :: l, k, s, h, hi => by
    have hx := hi x (by simp)
    have h' := rinv_step hL h x hx.1 hx.2
    obtain ⟨hb, hrun⟩ := beats_eq hL l _ _ h' (fun j hj => hi j (by simp [hj]))
    have hlen : (expected n aw mem a st bs L).length = L := by simp [expected]
    have hrd : readies (x :: l) = (if x.rready then 1 else 0) + readies l := by
      by_cases hr : x.rready = true
      · simp [readies, hr]; omega
      · simp [readies, hr]
    refine ⟨?_, ?_⟩
    · rw [beats, hb, hrd]
      by_cases hr : x.rready = true
      · simp only [hr, if_true, Bool.and_true]
        rcases Nat.lt_or_ge L k with hk | hk
        · rw [(h.fin hk).2, List.drop_eq_nil_of_le (by simp [hlen]; omega), List.drop_eq_nil_of_le (by simp [hlen]; omega)]
          simp
        · obtain ⟨q, b, r, hat, ht, hco, hbs, hle, hv, hla, hbk⟩ := h.run hk
          rw [hv, hla]
          rcases Nat.eq_zero_or_pos k with h0 | h0
          · subst h0
            simp
          · simp only [h0, decide_true, if_true]
            obtain ⟨d1, d2, _, d4⟩ := h.data h0 hk
            rw [rdata_sel d1 d2, d4]
            have e1 : k + 1 - 1 = (k - 1) + 1 := by omega
            have e2 : k + 1 + readies l - 1 = k + (1 + readies l) - 1 := by omega
            rw [e1, e2]
            have hg : ((expected n aw mem a st bs L).take (k + (1 + readies l) - 1))[k - 1]? =
                some (mem (bankAt n bs (k - 1)) ((a + posAt n bs (k - 1) * st) % 2 ^ aw), decide (k - 1 + 1 = L)) := by
              rw [List.getElem?_take_of_lt (by omega)]
              have : k - 1 < L := by omega
              simp [expected, this]
            obtain ⟨hlt, hg2⟩ := List.getElem?_eq_some_iff.mp hg
            rw [List.drop_eq_getElem_cons hlt, hg2]
            have : k - 1 + 1 = k := by omega
            simp [this]
      · simp [hr]
    · rw [hrd]
      by_cases hr : x.rready = true
      · simp only [hr, if_true] at hrun ⊢
        rw [show k + (1 + readies l) = k + 1 + readies l by omega]
        exact hrun
      · simp only [hr] at hrun ⊢
        rw [show k + ((if false = true then 1 else 0) + readies l) = (if false = true then k + 1 else k) + readies l by simp]
        exact hrun

theorem rinv_start {n aw : Nat} {mem : Nat → Nat → α} {s : RState α} {x : RIn} (hn : 0 < n) (hi : Idle s)
    (hcond : x.cond = true) (hL : 0 < x.length) (hbs : 0 < x.blocksize) :
    RInv n aw mem x.addr x.stride x.blocksize x.length 0 (rstep n aw mem s x) := by
  obtain ⟨ht, hb⟩ := hi
  have c0 : ∀ i, cnt x.blocksize 0 0 0 i = 0 := by intro i; unfold cnt; simp
  refine ⟨fun _ => by omega, fun _ => ⟨0, 0, 0, ⟨by simp, hbs, hn⟩, ?_, ?_, ?_, ?_, ?_, ?_, ?_⟩, fun _ => by omega⟩
  · simp [rstep, ht, hcond, hL]
  · simp [rstep, ht]
  · simp [rstep, ht]
  · simp [rstep, ht]
  · simp [rstep, ht]
  · simp [rstep, ht]; omega
  · intro _ i _
    simp [rstep, ht, Burst.rstep, hb, RState.bankIn, hcond, hL, c0]

/-- C66: a block read of `L` words from `n` banks gives, whatever cycles the consumer is ready in, the words of the banks in
    turn, `blocksize` of each, each bank read with the stride given and the last word marked; one word is handed over in
    every ready cycle after the first, until all `L` are; then all banks are idle again. -/
theorem c66_read_block (n aw : Nat) (hn : 0 < n) (z : α) (mem : Nat → Nat → α) (s0 : RState α) (req : RIn)
    (ins : List RIn) (hidle : Idle s0) (hcond : req.cond = true) (hL : 0 < req.length) (hbs : 0 < req.blocksize)
    (hins : ∀ x ∈ ins, x.cond = false ∧ x.rquit = false) :
    beats n aw z mem (rstep n aw mem s0 req) ins =
      (expected n aw mem req.addr req.stride req.blocksize req.length).take (readies ins - 1) ∧
    (req.length < readies ins → Idle (rrun n aw mem (rstep n aw mem s0 req) ins)) ∧
    (readies ins ≤ req.length → (rrun n aw mem (rstep n aw mem s0 req) ins).turn ≠ 0) := by
  have h0 := rinv_start (aw := aw) (mem := mem) hn hidle hcond hL hbs
  obtain ⟨h1, h2⟩ := beats_eq (z := z) hL ins 0 _ h0 hins
  rw [Nat.zero_add] at h1 h2
  refine ⟨by simpa using h1, fun h => (h2.fin h).1, fun h => ?_⟩
  obtain ⟨q, b, r, _, ht, _⟩ := h2.run h
  omega

/-- With `blocksize` at least the length, a block read is a burst read (C08) of the first bank. -/
theorem c66_one_bank (n aw : Nat) (hn : 0 < n) (mem : Nat → Nat → α) (a st bs L : Nat) (hbs : L ≤ bs) :
    expected n aw mem a st bs L = Burst.expected aw (mem 0) a st L := by
  unfold expected Burst.expected
  refine List.map_congr_left fun j hj => ?_
  have hj : j < L := List.mem_range.1 hj
  have h1 : bankAt n bs j = 0 := by
    unfold bankAt
    rw [Nat.div_eq_of_lt (by omega), Nat.zero_mod]
  have h2 : posAt n bs j = j := by
    unfold posAt
    rw [Nat.div_eq_of_lt (Nat.lt_of_lt_of_le (show j < bs by omega) (Nat.le_mul_of_pos_right bs hn)),
      Nat.mod_eq_of_lt (by omega)]
    omega
  rw [h1, h2]

/-! ### Writing -/

/-- The registers after several cycles. -/
def wrun (n aw : Nat) (s : WState) (ins : List (WIn α)) : WState := ins.foldl (wstep n aw) s

/-- The RAM writes of several cycles: bank, address and word. -/
def emitted (n aw : Nat) (s : WState) : List (WIn α) → List (Nat × Nat × α)
  | [] => []
  | x :: l => wemit n s x ++ emitted n aw (wstep n aw s x) l

/-- The number of cycles in which `done` is high. -/
def dones (n aw : Nat) (s : WState) : List (WIn α) → Nat
  | [] => 0
  | x :: l => (if (wstep n aw s x).done then 1 else 0) + dones n aw (wstep n aw s x) l

/-- The words supplied. -/
def supplied (ins : List (WIn α)) : List (α × Bool) := (ins.filter (·.wvalid)).map fun x => (x.wdata, x.wlast)

/-- Where word `j` belongs. -/
def place (n aw a st bs : Nat) (p : α × Nat) : Nat × Nat × α :=
  (bankAt n bs p.2, (a + posAt n bs p.2 * st) % 2 ^ aw, p.1)

/-- All is idle. -/
structure WIdle (s : WState) : Prop where
  turn : s.turn = 0
  bank : ∀ i, (s.bank i).busy = false

/-- After `k` words. -/
structure WInv (n aw a st bs L k : Nat) (s : WState) : Prop where
  lt : k < L
  run : ∃ q b r, At n bs k q b r ∧ s.turn = b + 1 ∧ s.count = r ∧ s.blocksize = bs ∧ s.length = L - k ∧ s.done = false ∧
    ∀ i, i < n → (s.bank i).busy = true ∧ (s.bank i).addr = (a + cnt bs q b r i * st) % 2 ^ aw ∧
      (s.bank i).stride = st % 2 ^ aw ∧ (s.bank i).length = L - cnt bs q b r i

theorem wstep_bank (n aw : Nat) (s : WState) (x : WIn α) (i : Nat) :
    (wstep n aw s x).bank i = Burst.wstep aw (s.bank i) (s.bankIn x i) := by
  unfold wstep
  split <;> rfl

theorem wemit_none {n : Nat} {s : WState} {x : WIn α} (h : ∀ i, i < n → ((s.bank i).busy && (x.wvalid && s.turn == i + 1)) = false) :
    wemit n s x = [] := by
  unfold wemit
  rw [List.flatMap_eq_nil_iff]
  intro i hi
  have := h i (List.mem_range.1 hi)
  simp only [Burst.wemit, WState.bankIn, this]
  rfl

theorem wemit_one {n : Nat} {s : WState} {x : WIn α} {b : Nat} (hb : b < n) (ht : s.turn = b + 1) (hv : x.wvalid = true)
    (hbu : (s.bank b).busy = true) : wemit n s x = [(b, (s.bank b).addr, x.wdata)] := by
  unfold wemit
  have : ∀ m, (List.range m).flatMap (fun i => (Burst.wemit (s.bank i) (s.bankIn x i)).toList.map fun w => (i, w.1, w.2)) =
      if b < m then [(b, (s.bank b).addr, x.wdata)] else [] := by
    intro m
    induction m with
    | zero => simp
    | succ m ih =>
      rw [List.range_succ, List.flatMap_append, ih]
      by_cases hbm : m = b
      · subst hbm
        simp [Burst.wemit, WState.bankIn, hbu, hv, ht]
      · have hne : ¬ s.turn = m + 1 := by omega
        by_cases hlt : b < m
        · have : b < m + 1 := by omega
          simp [Burst.wemit, WState.bankIn, hne, hlt, this]
        · have : ¬ b < m + 1 := by omega
          simp [Burst.wemit, WState.bankIn, hne, hlt, this]
  rw [this, if_pos hb]

theorem widle_step {n aw : Nat} {s : WState} (h : WIdle s) (x : WIn α) (hc : x.cond = false) :
    WIdle (wstep n aw s x) ∧ (wstep n aw s x).done = false := by
  refine ⟨⟨by simp [wstep, h.turn, hc], fun i => ?_⟩, by simp [wstep, h.turn]⟩
  rw [wstep_bank]
  simp [Burst.wstep, h.bank, WState.bankIn, hc]

theorem widle_run {n aw : Nat} : ∀ {ins : List (WIn α)} {s : WState}, WIdle s → (∀ x ∈ ins, x.cond = false) →
    emitted n aw s ins = [] ∧ dones n aw s ins = 0 ∧ WIdle (wrun n aw s ins)
  | [], _, h, _ => ⟨rfl, rfl, h⟩
  | x :: l, s, h, hi => by
    obtain ⟨h', hd⟩ := widle_step (n := n) (aw := aw) h x (hi x (by simp))
    obtain ⟨e1, e2, e3⟩ := widle_run (n := n) (aw := aw) h' (fun y (hy : y ∈ l) => hi y (by simp [hy]))
    refine ⟨?_, ?_, e3⟩
    · rw [emitted, e1, wemit_none (fun i _ => by simp [h.bank])]
      rfl
    · rw [dones, e2, hd]
      rfl

theorem winv_end {n aw a st bs L k : Nat} {s : WState} (h : WInv n aw a st bs L k s) {x : WIn α} (hc : x.cond = false)
    (hv : x.wvalid = true) (he : x.wlast = true ∨ k + 1 = L) :
    WIdle (wstep n aw s x) ∧ (wstep n aw s x).done = true := by
  obtain ⟨hlt, q, b, r, hat, ht, hco, hbs, hlen, hd, hbk⟩ := h
  have ht0 : s.turn ≠ 0 := by omega
  have hle : k + 1 = L → s.length ≤ 1 := by omega
  refine ⟨⟨?_, fun i => ?_⟩, ?_⟩
  · rcases he with he | he
    · simp [wstep, ht0, hv, he]
    · simp [wstep, ht0, hv, hle he]
  · rw [wstep_bank]
    by_cases hb : (s.bank i).busy = true
    · rcases he with he | he
      · simp [Burst.wstep, hb, WState.bankIn, hv, he]
      · simp [Burst.wstep, hb, WState.bankIn, hv, hle he]
    · simp [Burst.wstep, hb, WState.bankIn, hc]
  · rcases he with he | he
    · simp [wstep, ht0, hv, he]
    · simp [wstep, ht0, hv, hle he]

theorem winv_next {n aw a st bs L k : Nat} {s : WState} (h : WInv n aw a st bs L k s) {x : WIn α}
    (hq : x.wquit = false) (hv : x.wvalid = true) (hl : x.wlast = false) (hk : k + 1 ≠ L) :
    WInv n aw a st bs L (k + 1) (wstep n aw s x) := by
  obtain ⟨hlt, q, b, r, hat, ht, hco, hbs, hlen, hd, hbk⟩ := h
  have ht0 : s.turn ≠ 0 := by omega
  have hle : ¬ s.length ≤ 1 := by omega
  obtain ⟨q', b', r', hat', hcnt, hr', hb'⟩ := hat.succ
  have hcl := hat.le
  refine ⟨by omega, q', b', r', hat', ?_, ?_, ?_, ?_, ?_, ?_⟩
  · simp only [wstep, ht0, if_false, hq, hv, hl, hle, hco, hbs, ht]
    rw [← hb']
    simp
  · simp only [wstep, ht0, if_false, hv, hco, hbs]
    rw [← hr']
    simp
  · simp [wstep, ht0, hbs]
  · simp only [wstep, ht0, if_false, hv, if_true, hlen]
    omega
  · simp [wstep, ht0, hv, hl, hle]
  · intro i hi
    obtain ⟨i1, i2, i3, i4⟩ := hbk i hi
    rw [hcnt i hi, wstep_bank]
    by_cases hib : i = b
    · subst hib
      have hl1 : ¬ L - cnt bs q i r i ≤ 1 := by omega
      refine ⟨?_, ?_, ?_, ?_⟩
      · simp [Burst.wstep, i1, WState.bankIn, hq, hv, hl, hle, i4, hl1]
      · simp only [Burst.wstep, i1, if_true, WState.bankIn, hv, ht, beq_self_eq_true, Bool.and_self, i2, i3]
        exact (addr_next (x := 0)).1
      · simp [Burst.wstep, i1, i3]
      · simp [Burst.wstep, i1, WState.bankIn, hv, ht, i4]
        omega
    · have hne : (s.turn == i + 1) = false := by rw [ht, beq_eq_false_iff_ne]; omega
      refine ⟨?_, ?_, ?_, ?_⟩
      · simp [Burst.wstep, i1, WState.bankIn, hq, hv, hl, hle, hne]
      · simp [Burst.wstep, i1, WState.bankIn, hne, hib, i2]
      · simp [Burst.wstep, i1, i3]
      · simp [Burst.wstep, i1, WState.bankIn, hne, hib, i4]

theorem winv_wait {n aw a st bs L k : Nat} {s : WState} (h : WInv n aw a st bs L k s) {x : WIn α}
    (hq : x.wquit = false) (hv : x.wvalid = false) : WInv n aw a st bs L k (wstep n aw s x) := by
  obtain ⟨hlt, q, b, r, hat, ht, hco, hbs, hlen, hd, hbk⟩ := h
  have ht0 : s.turn ≠ 0 := by omega
  refine ⟨hlt, q, b, r, hat, ?_, ?_, ?_, ?_, ?_, ?_⟩
  · simp [wstep, ht0, hq, hv, ht]
  · simp [wstep, ht0, hv, hco]
  · simp [wstep, ht0, hbs]
  · simp [wstep, ht0, hv, hlen]
  · simp [wstep, ht0, hv, hd]
  · intro i hi
    obtain ⟨i1, i2, i3, i4⟩ := hbk i hi
    rw [wstep_bank]
    refine ⟨?_, ?_, ?_, ?_⟩
    · simp [Burst.wstep, i1, WState.bankIn, hq, hv]
    · simp [Burst.wstep, i1, WState.bankIn, hv, i2]
    · simp [Burst.wstep, i1, i3]
    · simp [Burst.wstep, i1, WState.bankIn, hv, i4]

theorem winv_emit {n aw a st bs L k : Nat} {s : WState} (h : WInv n aw a st bs L k s) {x : WIn α} (hv : x.wvalid = true) :
    wemit n s x = [place n aw a st bs (x.wdata, k)] := by
  obtain ⟨hlt, q, b, r, hat, ht, hco, hbs, hlen, hd, hbk⟩ := h
  obtain ⟨i1, i2, _⟩ := hbk b hat.b
  obtain ⟨h1, h2⟩ := hat.div
  rw [wemit_one hat.b ht hv i1, i2]
  unfold place
  simp only [h1, h2]

theorem wrun_eq {n aw a st bs L : Nat} : ∀ (ins : List (WIn α)) (k : Nat) (s : WState), WInv n aw a st bs L k s →
    (∀ x ∈ ins, x.cond = false ∧ x.wquit = false) →
    emitted n aw s ins = ((Burst.taken (L - k) (supplied ins)).zipIdx k).map (place n aw a st bs) ∧
    dones n aw s ins = (if Burst.over (L - k) (supplied ins) then 1 else 0) ∧
    if Burst.over (L - k) (supplied ins) then WIdle (wrun n aw s ins)
    else WInv n aw a st bs L (k + (supplied ins).length) (wrun n aw s ins)
  | [], k, s, h, _ => by
    obtain ⟨m, hm⟩ : ∃ m, L - k = m + 1 := ⟨L - k - 1, by have := h.lt; omega⟩
    rw [hm]
    exact ⟨rfl, rfl, h⟩
  | x :: l, k, s, h, hi => by
    have hx := hi x (by simp)
    have hl : ∀ y ∈ l, y.cond = false ∧ y.wquit = false := fun y hy => hi y (by simp [hy])
    obtain ⟨m, hm⟩ : ∃ m, L - k = m + 1 := ⟨L - k - 1, by have := h.lt; omega⟩
    have hrun : wrun n aw s (x :: l) = wrun n aw (wstep n aw s x) l := rfl
    by_cases hv : x.wvalid = true
    · have hsup : supplied (x :: l) = (x.wdata, x.wlast) :: supplied l := by simp [supplied, hv]
      rw [hsup, hm, emitted, dones, hrun, winv_emit h hv]
      by_cases he : x.wlast = true ∨ k + 1 = L
      · obtain ⟨h1, h2⟩ := winv_end h hx.1 hv he
        obtain ⟨e1, e2, e3⟩ := widle_run (n := n) (aw := aw) h1 (fun y hy => (hl y hy).1)
        have hover : Burst.over (m + 1) ((x.wdata, x.wlast) :: supplied l) = true := by
          rcases he with he | he
          · simp [Burst.over, he]
          · have : m = 0 := by omega
            subst this
            simp [Burst.over]
        have htk : Burst.taken (m + 1) ((x.wdata, x.wlast) :: supplied l) = [x.wdata] := by
          rcases he with he | he
          · simp [Burst.taken, he]
          · have : m = 0 := by omega
            subst this
            simp [Burst.taken]
        rw [e1, e2, h2, hover, htk]
        refine ⟨by simp, rfl, ?_⟩
        simpa using e3
      · have hla : x.wlast = false := by
          cases hxl : x.wlast
          · rfl
          · exact absurd (Or.inl hxl) he
        have hk1 : k + 1 ≠ L := fun e => he (.inr e)
        have h' := winv_next h hx.2 hv hla hk1
        obtain ⟨e1, e2, e3⟩ := wrun_eq l (k + 1) _ h' hl
        have hm' : L - (k + 1) = m := by omega
        rw [hm'] at e1 e2 e3
        have hd : (wstep n aw s x).done = false := by
          obtain ⟨_, _, _, _, _, _, _, _, _, hd, _⟩ := h'
          exact hd
        have hover : Burst.over (m + 1) ((x.wdata, x.wlast) :: supplied l) = Burst.over m (supplied l) := by
          simp [Burst.over, hla]
        have htk : Burst.taken (m + 1) ((x.wdata, x.wlast) :: supplied l) = x.wdata :: Burst.taken m (supplied l) := by
          simp [Burst.taken, hla]
        rw [e1, e2, hd, hover, htk]
        refine ⟨by simp [List.zipIdx_cons], by simp, ?_⟩
        have : k + ((x.wdata, x.wlast) :: supplied l).length = k + 1 + (supplied l).length := by simp; omega
        rw [this]
        exact e3
    · have hv' : x.wvalid = false := by simpa using hv
      have hsup : supplied (x :: l) = supplied l := by simp [supplied, hv']
      have h' := winv_wait h hx.2 hv'
      obtain ⟨e1, e2, e3⟩ := wrun_eq l k _ h' hl
      have hd : (wstep n aw s x).done = false := by
        obtain ⟨_, _, _, _, _, _, _, _, _, hd, _⟩ := h'
        exact hd
      rw [hsup, emitted, dones, hrun, wemit_none (fun i _ => by simp [hv']), hd]
      refine ⟨by simpa using e1, by simpa using e2, e3⟩

theorem winv_start {n aw : Nat} {s : WState} {x : WIn α} (hn : 0 < n) (hi : WIdle s) (hcond : x.cond = true)
    (hL : 0 < x.length) (hbs : 0 < x.blocksize) :
    WInv n aw x.addr x.stride x.blocksize x.length 0 (wstep n aw s x) := by
  obtain ⟨ht, hb⟩ := hi
  have c0 : ∀ i, cnt x.blocksize 0 0 0 i = 0 := by intro i; unfold cnt; simp
  refine ⟨hL, 0, 0, 0, ⟨by simp, hbs, hn⟩, ?_, ?_, ?_, ?_, ?_, ?_⟩
  · simp [wstep, ht, hcond, hL]
  · simp [wstep, ht]
  · simp [wstep, ht]
  · simp [wstep, ht]
  · simp [wstep, ht]
  · intro i _
    simp [wstep, ht, Burst.wstep, hb, WState.bankIn, hcond, hL, c0]

/-- C66: a block write of at most `L` words stores, whatever cycles the words are valid in, each word in the bank whose
    turn it is, `blocksize` words a turn and each bank with the stride given, and nothing else; `done` is high for one
    cycle once the last word is stored, and then all banks are idle again. -/
theorem c66_write_block (n aw : Nat) (hn : 0 < n) (s0 : WState) (req : WIn α) (ins : List (WIn α)) (hidle : WIdle s0)
    (hcond : req.cond = true) (hL : 0 < req.length) (hbs : 0 < req.blocksize)
    (hins : ∀ x ∈ ins, x.cond = false ∧ x.wquit = false) :
    emitted n aw (wstep n aw s0 req) ins =
      (Burst.taken req.length (supplied ins)).zipIdx.map (place n aw req.addr req.stride req.blocksize) ∧
    dones n aw (wstep n aw s0 req) ins = (if Burst.over req.length (supplied ins) then 1 else 0) ∧
    (Burst.over req.length (supplied ins) = true → WIdle (wrun n aw (wstep n aw s0 req) ins)) := by
  obtain ⟨e1, e2, e3⟩ := wrun_eq ins 0 _ (winv_start (aw := aw) hn hidle hcond hL hbs) hins
  rw [Nat.sub_zero] at e1 e2 e3
  refine ⟨e1, e2, fun h => ?_⟩
  rw [h] at e3
  exact e3

/-- C66 fails for `wready`: during a block write, it is low in the turns of the first bank, though the words that are
    valid then are stored. -/
theorem c66_not_wready (n aw : Nat) (hn : 0 < n) (s0 : WState) (req : WIn α) (ins : List (WIn α)) (hidle : WIdle s0)
    (hcond : req.cond = true) (hL : 0 < req.length) (hbs : 0 < req.blocksize)
    (hins : ∀ x ∈ ins, x.cond = false ∧ x.wquit = false) (hover : Burst.over req.length (supplied ins) = false) :
    wready n (wrun n aw (wstep n aw s0 req) ins) =
      decide (bankAt n req.blocksize (supplied ins).length ≠ 0) := by
  obtain ⟨_, _, e3⟩ := wrun_eq ins 0 _ (winv_start (aw := aw) hn hidle hcond hL hbs) hins
  rw [Nat.sub_zero, hover, Nat.zero_add] at e3
  obtain ⟨_, q, b, r, hat, ht, _⟩ := e3
  rw [hat.div.1]
  unfold wready
  rw [ht, Bool.eq_iff_iff, List.any_eq_true]
  simp only [List.mem_range, beq_iff_eq, decide_eq_true_eq]
  have := hat.b
  constructor
  · rintro ⟨i, _, h⟩
    omega
  · intro h
    exact ⟨b - 1, by omega, by omega⟩

/-! ### Broadcast -/

/-- The RAM writes of several cycles. -/
def bemitted (n aw : Nat) (s : BState) : List (Burst.WIn α) → List (Nat × Nat × α)
  | [] => []
  | x :: l => bemit n s x ++ bemitted n aw (bstep aw s x) l

theorem bemitted_bank {n aw : Nat} {i : Nat} (hi : i < n) : ∀ (ins : List (Burst.WIn α)) (s : BState),
    ((bemitted n aw s ins).filter fun w => w.1 == i).map (fun w => w.2) = Burst.emitted aw (s i) ins
  | [], s => rfl
  | x :: l, s => by
    rw [bemitted, List.filter_append, List.map_append, bemitted_bank hi l, Burst.emitted]
    congr 1
    unfold bemit
    have : ∀ m, (((List.range m).flatMap fun j => (Burst.wemit (s j) x).toList.map fun w => (j, w.1, w.2)).filter
        fun w => w.1 == i).map (fun w => w.2) = if i < m then (Burst.wemit (s i) x).toList else [] := by
      intro m
      induction m with
      | zero => simp
      | succ m ih =>
        rw [List.range_succ, List.flatMap_append, List.filter_append, List.map_append, ih]
        by_cases him : m = i
        · subst him
          cases h : Burst.wemit (s m) x <;> simp [h]
        · have hne : (m == i) = false := by rw [beq_eq_false_iff_ne]; exact him
          have hz : (List.filter (fun w => w.1 == i) (List.map (fun w => (m, w.1, w.2)) (Burst.wemit (s m) x).toList)) = [] := by
            cases h : Burst.wemit (s m) x <;> simp [him]
          by_cases hlt : i < m
          · have : i < m + 1 := by omega
            simp [hlt, this]
            intro a b hm
            omega
          · have : ¬ i < m + 1 := by omega
            simp [hlt, this]
            intro a b hm
            omega
    rw [this, if_pos hi]

/-- C66: a broadcast stores the words it takes in every bank, at the same addresses. -/
theorem c66_bcast (n aw : Nat) (s0 : BState) (req : Burst.WIn α) (ins : List (Burst.WIn α))
    (hidle : ∀ i, i < n → (s0 i).busy = false) (hcond : req.cond = true) (hL : 0 < req.length)
    (hins : ∀ x ∈ ins, x.cond = false ∧ x.wquit = false) (i : Nat) (hi : i < n) :
    ((bemitted n aw (bstep aw s0 req) ins).filter fun w => w.1 == i).map (fun w => w.2) =
      Burst.placed aw req.addr req.stride (Burst.taken req.length (Burst.supplied ins)) := by
  rw [bemitted_bank hi]
  exact (Burst.c09_write_burst aw (s0 i) req ins (hidle i hi) hcond hL hins).1

/-! ### Packed transfers -/

theorem le_shift (n : Nat) : n ≤ 2 ^ shift n := by
  unfold shift
  split
  · omega
  · have := (Nat.log2_lt (n := n - 1) (k := Nat.log2 (n - 1) + 1) (by omega)).1 (by omega)
    omega

theorem shift_pow (k : Nat) : shift (2 ^ k) = k := by
  unfold shift
  cases k with
  | zero => simp
  | succ k =>
    have h2 : 2 ^ (k + 1) = 2 * 2 ^ k := by rw [Nat.pow_succ, Nat.mul_comm]
    have hp : 0 < 2 ^ k := Nat.two_pow_pos k
    rw [if_neg (by omega)]
    have h1 : Nat.log2 (2 ^ (k + 1) - 1) < k + 1 := (Nat.log2_lt (by omega)).2 (by omega)
    have h3 : ¬ Nat.log2 (2 ^ (k + 1) - 1) < k := by
      rw [Nat.log2_lt (by omega)]
      omega
    omega

/-- C66, packed DMA with `2^k` banks: as many packed words as are needed for the transfer and no more, at consecutive
    addresses of the banks. -/
theorem c66_packed (k size a j : Nat) :
    size ≤ 2 ^ k * packedSize (2 ^ k) size ∧ 2 ^ k * packedSize (2 ^ k) size < size + 2 ^ k ∧
    packedAddr (2 ^ k) a j = a / 2 ^ k + j := by
  have hp : 0 < 2 ^ k := Nat.two_pow_pos k
  have hd := Nat.div_add_mod size (2 ^ k)
  have hm := Nat.mod_lt size hp
  refine ⟨?_, ?_, ?_⟩
  · unfold packedSize
    rw [shift_pow]
    split
    · rw [Nat.mul_add]; omega
    · omega
  · unfold packedSize
    rw [shift_pow]
    split
    · rw [Nat.mul_add]; omega
    · omega
  · unfold packedAddr
    rw [shift_pow, Nat.add_mul_div_right _ _ hp]

/-- C66 fails for packed DMA with a number of banks that is not a power of 2: some transfers are cut short, and the first
    two packed words have the same address. -/
theorem c66_not_packed (n : Nat) (hn : 0 < n) (hp : ∀ k, n ≠ 2 ^ k) :
    (∃ size, n * packedSize n size < size) ∧ packedAddr n 0 1 = packedAddr n 0 0 := by
  have hlt : n < 2 ^ shift n := Nat.lt_of_le_of_ne (le_shift n) (hp _)
  refine ⟨⟨n * 2 ^ shift n, ?_⟩, ?_⟩
  · unfold packedSize
    rw [Nat.mul_mod_left, if_neg (by omega), Nat.mul_div_cancel _ (Nat.two_pow_pos _)]
    exact Nat.mul_lt_mul_of_pos_left hlt hn
  · unfold packedAddr
    simp [Nat.div_eq_of_lt hlt]

example : ∀ k, 3 ≠ 2 ^ k := by
  intro k
  match k with
  | 0 => decide
  | 1 => decide
  | k + 2 => have := Nat.two_pow_pos k; rw [Nat.pow_succ, Nat.pow_succ]; omega

/-! ### Examples -/

/-- Nothing is running. -/
def ridle (r0 : α) : RState α := ⟨fun _ => Burst.rinit r0, fun _ => false, 0, 0, 0, 0, false, false⟩

/-- Nothing is running. -/
def widle : WState := ⟨fun _ => Burst.winit, 0, 0, 0, 0, false⟩

example : Idle (ridle 0) := ⟨rfl, fun _ => rfl⟩
example : WIdle widle := ⟨rfl, fun _ => rfl⟩

/-- Seven words of three banks, two a turn, with a stalling consumer. -/
example :
    let req : RIn := ⟨true, 1, 2, 7, 2, false, false⟩
    let r (b : Bool) : RIn := ⟨false, 0, 0, 0, 0, b, false⟩
    beats 3 4 0 (fun i a => 100 * i + a) (rstep 3 4 (fun i a => 100 * i + a) (ridle 0) req)
      [r false, r true, r true, r false, r true, r true, r false, r true, r true, r true, r false, r true] =
      [(1, false), (3, false), (101, false), (103, false), (201, false), (203, false), (5, true)] := by decide

/-- Five words into two banks, two a turn; `wready` is low for the first two words. -/
example :
    let req : WIn Nat := ⟨true, 1, 2, 5, 2, 0, false, false, false⟩
    let w (d : Nat) : WIn Nat := ⟨false, 0, 0, 0, 0, d, true, false, false⟩
    let s := wstep 2 4 widle req
    emitted 2 4 s [w 7, w 8, w 9, w 10, w 11, w 12] = [(0, 1, 7), (0, 3, 8), (1, 1, 9), (1, 3, 10), (0, 5, 11)] ∧
    wready 2 s = false ∧ wready 2 (wrun 2 4 s [w 7, w 8]) = true := by decide

end Block
