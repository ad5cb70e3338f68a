import Verif.Model.StreamFifoOp
import Verif.Props.C01_Fifo
import Mathlib.Data.List.Induction

/-!
# C84: FIFOs and RAMs read and written inside of a stream

In a stream with `read_fifo` and `write_fifo`, every item that reads gets the next word of the FIFO, and the FIFO that is written gets
the results of the items that write, in order, none lost and none twice, whenever the FIFOs are empty or full and however the stream is stalled.
`read_RAM` gives each item that reads the word at its address.
-/

namespace FOp

variable {X A B : Type}

/-! ## What a program would do -/

/-- One item by itself: it takes a word if it reads, otherwise it sees the last word read; it puts the result out if it writes.
    The state is the words that are there, the last word, and what has been put out. -/
def Item.exec (f : X → A → B) (p : List A × A × List B) (i : Item X) : Option (List A × A × List B) :=
  match i.rd, p.1 with
  | true, [] => none
  | true, w :: ws => some (ws, w, p.2.2 ++ if i.wr then [f i.x w] else [])
  | false, ws => some (ws, p.2.1, p.2.2 ++ if i.wr then [f i.x p.2.1] else [])

/-- All items in turn. -/
def prog (f : X → A → B) (items : List (Item X)) (p : List A × A × List B) : Option (List A × A × List B) :=
  items.foldlM (Item.exec f) p

/-! ## What happens in a run -/

variable (c : Cfg X A B)

/-- The items that enter the operator, in a run. -/
def entered (s : St X A B) : List (In X A) → List (Item X)
  | [] => []
  | i :: l => (if s.go c i && i.valid then [i.item] else []) ++ entered (s.step c i) l

/-- The words put into the FIFO that is read. -/
def wordsIn (s : St X A B) : List (In X A) → List A
  | [] => []
  | i :: l => (if i.enq && !(Fifo.flags c.awR s.rf).full then [i.wdata] else []) ++ wordsIn (s.step c i) l

/-- The words put into the FIFO that is written. -/
def wordsOut (s : St X A B) : List (In X A) → List B
  | [] => []
  | i :: l => (if (s.win c i).enq && !(Fifo.flags c.awW s.wf).full then [(s.win c i).wdata] else []) ++ wordsOut (s.step c i) l

/-- The results on the way, the oldest first. -/
def pend (l : List (Bool × Bool × B)) : List B := l.reverse.filterMap fun x => if x.1 && x.2.1 then some x.2.2 else none

/-- The state before the first item: empty FIFOs, nothing in the stages. -/
structure Start (s : St X A B) : Prop where
  sync : c.sync = true
  rf : Fifo.Rep c.awR s.rf []
  wf : Fifo.Rep c.awW s.wf []
  v1 : s.v1 = false
  chain : s.chain.length = c.d
  empty : ∀ x ∈ s.chain, x.1 = false

/-! ## Lemmas -/

theorem exec_more {f : X → A → B} {q q' : List A} {r r' : A} {o o' : List B} {i : Item X}
    (h : i.exec f (q, r, o) = some (q', r', o')) (ws : List A) : i.exec f (q ++ ws, r, o) = some (q' ++ ws, r', o') := by
  unfold Item.exec at h ⊢
  cases hr : i.rd with
  | false =>
    simp only [hr] at h ⊢
    cases h
    rfl
  | true =>
    cases q with
    | nil => simp [hr] at h
    | cons w q =>
      simp only [hr] at h
      cases h
      simp

theorem prog_more {f : X → A → B} {q q' : List A} {r r' : A} {o o' : List B} {l : List (Item X)}
    (h : prog f l (q, r, o) = some (q', r', o')) (ws : List A) : prog f l (q ++ ws, r, o) = some (q' ++ ws, r', o') := by
  induction l generalizing q r o with
  | nil =>
    simp only [prog, List.foldlM_nil] at h ⊢
    cases h
    rfl
  | cons i l ih =>
    simp only [prog, List.foldlM_cons] at h ⊢
    cases he : i.exec f (q, r, o) with
    | none => rw [he] at h; cases h
    | some p =>
      obtain ⟨q1, r1, o1⟩ := p
      rw [he] at h
      rw [exec_more he ws]
      exact ih h

theorem go_split {s : St X A B} {i : In X A} (h : s.go c i = true) :
    s.wstall c = false ∧ s.rstall c i = false ∧ i.rest = true := by
  unfold St.go at h
  cases h1 : s.wstall c <;> cases h2 : s.rstall c i <;> cases h3 : i.rest <;> simp_all

/-- The invariant along a run: `es` are the items so far, `ws` the words put in, `os` the words put out. -/
structure Inv (s : St X A B) (r0 : A) (es : List (Item X)) (ws : List A) (os : List B) : Prop where
  sync : c.sync = true
  len : s.chain.length = c.d
  prog : ∃ q, Fifo.Rep c.awR s.rf q ∧ prog c.f es (ws, r0, []) = some (q, s.rf.rdata, os ++ pend (s.first c :: s.chain))
  wf : ∃ q, Fifo.Rep c.awW s.wf q

theorem pend_cons (x : Bool × Bool × B) (l : List (Bool × Bool × B)) :
    pend (x :: l) = pend l ++ if x.1 && x.2.1 then [x.2.2] else [] := by
  unfold pend
  rw [List.reverse_cons, List.filterMap_append]
  congr 1
  obtain ⟨v, w, b⟩ := x
  cases v <;> cases w <;> rfl

theorem pend_last (l : List (Bool × Bool × B)) (x : Bool × Bool × B) :
    pend (l ++ [x]) = (if x.1 && x.2.1 then [x.2.2] else []) ++ pend l := by
  unfold pend
  rw [List.reverse_append, List.reverse_singleton, List.singleton_append, List.filterMap_cons]
  cases (x.1 && x.2.1) <;> simp

theorem pend_split (x : Bool × Bool × B) (l : List (Bool × Bool × B)) : pend (x :: l) =
    (if (l.getLastD x).1 && (l.getLastD x).2.1 then [(l.getLastD x).2.2] else []) ++ pend (x :: l).dropLast := by
  have h : (x :: l).dropLast ++ [l.getLastD x] = x :: l := by
    have h1 := List.dropLast_concat_getLast (l := x :: l) (by simp)
    rwa [List.getLast_eq_getLastD] at h1
  conv => lhs; rw [← h]
  rw [pend_last]

theorem step_inv {s : St X A B} {r0 : A} {es : List (Item X)} {ws : List A} {os : List B} (h : Inv c s r0 es ws os) (i : In X A) :
    Inv c (s.step c i) r0 (es ++ if s.go c i && i.valid then [i.item] else [])
      (ws ++ if i.enq && !(Fifo.flags c.awR s.rf).full then [i.wdata] else [])
      (os ++ if (s.win c i).enq && !(Fifo.flags c.awW s.wf).full then [(s.win c i).wdata] else []) := by
  obtain ⟨q, hq, hp⟩ := h.prog
  obtain ⟨qw, hqw⟩ := h.wf
  obtain ⟨q', hq', he⟩ := Fifo.rep_step hq (s.rin c i)
  obtain ⟨qw', hqw', _⟩ := Fifo.rep_step hqw (s.win c i)
  refine ⟨h.sync, ?_, ⟨q', hq', ?_⟩, ⟨qw', hqw'⟩⟩
  · show (if s.go c i then (s.first c :: s.chain).dropLast else s.chain).length = _
    split
    · simp [h.len]
    · exact h.len
  · have hin : (s.rin c i).enq = i.enq := rfl
    have hwd : (s.rin c i).wdata = i.wdata := rfl
    rw [hin, hwd] at he
    generalize hnew : (if i.enq && !(Fifo.flags c.awR s.rf).full then [i.wdata] else []) = new at he ⊢
    have hp' := prog_more hp new
    rw [he] at hp'
    have hrd : (s.step c i).rf = Fifo.step c.awR s.rf (s.rin c i) := rfl
    by_cases hgo : s.go c i = true
    · obtain ⟨hw, hr, _⟩ := go_split c hgo
      have hc : (s.step c i).chain = (s.first c :: s.chain).dropLast := by simp [St.step, hgo]
      have hf : (s.step c i).first c = (i.valid, i.item.wr, c.f i.item.x (s.step c i).rf.rdata) := by simp [St.first, St.rword, h.sync, St.step, hgo]
      have hout : (if (s.win c i).enq && !(Fifo.flags c.awW s.wf).full then [(s.win c i).wdata] else []) =
          if (s.last c).1 && (s.last c).2.1 then [(s.last c).2.2] else [] := by
        have h1 : (s.win c i).enq = ((s.last c).1 && (s.last c).2.1 && s.wready c) := by simp [St.win, hgo]
        have h2 : (s.win c i).wdata = (s.last c).2.2 := rfl
        rw [h1, h2]
        cases hl : ((s.last c).1 && (s.last c).2.1) with
        | false => simp
        | true =>
          simp only [Bool.and_eq_true] at hl
          have h3 : s.wready c = true := by
            unfold St.wstall at hw
            rw [hl.1, hl.2] at hw
            simpa using hw
          have h4 : (Fifo.flags c.awW s.wf).full = false := by
            have : (Fifo.flags c.awW s.wf).almostFull = false := by simpa [St.wready] using h3
            simp only [Fifo.flags, Bool.or_eq_false_iff] at this ⊢
            exact this.2
          simp [h3, h4]
      rw [hout, pend_cons, hc, hf]
      have hps := pend_split (s.first c) s.chain
      rw [show s.chain.getLastD (s.first c) = s.last c from rfl] at hps
      rw [hps] at hp'
      cases hv : i.valid with
      | false =>
        have hd : ((s.rin c i).deq && !(Fifo.flags c.awR s.rf).empty) = false := by simp [St.rin, hv]
        rw [hd] at hp' he
        have hsame : (s.step c i).rf.rdata = s.rf.rdata := by
          rw [hrd]
          have hd' : ((s.rin c i).deq && !Fifo.isEmpty s.rf) = false := hd
          simp [Fifo.step, hd']
        simp only [hgo, Bool.and_false, Bool.false_eq_true, if_false, List.append_nil, List.nil_append, Bool.false_and,
          List.append_assoc] at hp' ⊢
        rw [hsame]
        exact hp'
      | true =>
        simp only [hgo, Bool.and_self, if_true, Bool.true_and]
        show List.foldlM (Item.exec c.f) _ (es ++ [i.item]) = _
        rw [List.foldlM_append]
        show (prog c.f es (ws ++ new, r0, []) >>= fun p => List.foldlM (Item.exec c.f) p [i.item]) = _
        rw [hp']
        show (i.item.exec c.f _ >>= pure) = _
        rw [bind_pure]
        unfold Item.exec
        cases hird : i.item.rd with
        | false =>
          have hd : ((s.rin c i).deq && !(Fifo.flags c.awR s.rf).empty) = false := by simp [St.rin, hird]
          have hsame : (s.step c i).rf.rdata = s.rf.rdata := by
            rw [hrd]
            have hd' : ((s.rin c i).deq && !Fifo.isEmpty s.rf) = false := hd
            simp [Fifo.step, hd']
          rw [hd]
          simp only [Bool.false_eq_true, if_false, List.nil_append, hsame, List.append_assoc]
        | true =>
          have h3 : s.rready c = true := by
            unfold St.rstall at hr
            rw [hv, hird] at hr
            simpa using hr
          have h4 : (Fifo.flags c.awR s.rf).empty = false := by simpa [St.rready] using h3
          have hd : ((s.rin c i).deq && !(Fifo.flags c.awR s.rf).empty) = true := by simp [St.rin, hird, hgo, hv, h3, h4]
          rw [hd]
          simp only [if_true, List.singleton_append, List.append_assoc]
          rw [hrd]
    · have hgo : s.go c i = false := by simpa using hgo
      have hd : ((s.rin c i).deq && !(Fifo.flags c.awR s.rf).empty) = false := by simp [St.rin, hgo]
      have hsame : (s.step c i).rf.rdata = s.rf.rdata := by
        rw [hrd]
        have hd' : ((s.rin c i).deq && !Fifo.isEmpty s.rf) = false := hd
        simp [Fifo.step, hd']
      have hc : (s.step c i).chain = s.chain := by simp [St.step, hgo]
      have hf : (s.step c i).first c = s.first c := by simp [St.first, St.rword, h.sync, St.step, hgo]; rw [← hrd, hsame]
      have hout : (s.win c i).enq = false := by simp [St.win, hgo]
      rw [hd] at hp'
      simp only [hgo, hout, Bool.false_and, Bool.false_eq_true, if_false, List.append_nil, List.nil_append, hc, hf, hsame] at hp' ⊢
      exact hp'

theorem run_inv {s : St X A B} {r0 : A} {es : List (Item X)} {ws : List A} {os : List B} (h : Inv c s r0 es ws os)
    (l : List (In X A)) :
    Inv c (s.run c l) r0 (es ++ entered c s l) (ws ++ wordsIn c s l) (os ++ wordsOut c s l) := by
  induction l generalizing s es ws os with
  | nil => simpa [entered, wordsIn, wordsOut, St.run] using h
  | cons i l ih =>
    have := ih (step_inv c h i)
    simp only [entered, wordsIn, wordsOut, ← List.append_assoc]
    exact this

theorem pend_empty {l : List (Bool × Bool × B)} (h : ∀ x ∈ l, x.1 = false) : pend l = [] := by
  unfold pend
  rw [List.filterMap_eq_nil_iff]
  intro x hx
  simp [h x (List.mem_reverse.1 hx)]

theorem start_inv {s : St X A B} (h : Start c s) : Inv c s s.rf.rdata [] [] [] := by
  refine ⟨h.sync, h.chain, ⟨[], h.rf, ?_⟩, ⟨[], h.wf⟩⟩
  have : pend (s.first c :: s.chain) = [] := by
    refine pend_empty fun x hx => ?_
    rcases List.mem_cons.1 hx with rfl | hx
    · exact h.v1
    · exact h.empty x hx
  rw [this]
  rfl

/-! ## Theorems -/

/-- **C84, FIFOs.** In any run, the words put out followed by the results on the way are those of the items that have entered, one
    after the other on the words that were put in; the words that remain are in the FIFO. -/
theorem c84_fifo {s : St X A B} (h : Start c s) (l : List (In X A)) :
    ∃ q, Fifo.Rep c.awR (s.run c l).rf q ∧ prog c.f (entered c s l) (wordsIn c s l, s.rf.rdata, []) =
      some (q, (s.run c l).rf.rdata, wordsOut c s l ++ pend ((s.run c l).first c :: (s.run c l).chain)) := by
  have := (run_inv c (start_inv c h) l).prog
  simpa using this

/-- **C84, results.** When no item is on the way, the words put out are the results of all items that have entered. -/
theorem c84_out {s : St X A B} (h : Start c s) (l : List (In X A)) (h1 : (s.run c l).v1 = false)
    (hc : ∀ x ∈ (s.run c l).chain, x.1 = false) :
    ∃ q r, prog c.f (entered c s l) (wordsIn c s l, s.rf.rdata, []) = some (q, r, wordsOut c s l) := by
  obtain ⟨q, _, hq⟩ := c84_fifo c h l
  have hn : pend ((s.run c l).first c :: (s.run c l).chain) = [] := by
    refine pend_empty fun x hx => ?_
    rcases List.mem_cons.1 hx with rfl | hx
    · exact h1
    · exact hc x hx
  rw [hn, List.append_nil] at hq
  exact ⟨q, _, hq⟩

/-- **C84, every item reads and writes.** Then the words put out are those put in, with the function applied to the item and the
    word: the first item has the first word and so on. -/
theorem c84_map {s : St X A B} (h : Start c s) (l : List (In X A)) (h1 : (s.run c l).v1 = false)
    (hc : ∀ x ∈ (s.run c l).chain, x.1 = false) (hall : ∀ i ∈ entered c s l, i.rd = true ∧ i.wr = true) :
    wordsOut c s l = List.zipWith (fun i w => c.f i.x w) (entered c s l) (wordsIn c s l) ∧
      (entered c s l).length ≤ (wordsIn c s l).length := by
  obtain ⟨q, r, hq⟩ := c84_out c h l h1 hc
  suffices H : ∀ (es : List (Item X)) (ws : List A) (r0 : A) (os : List B) (q : List A) (r : A) (o : List B),
      (∀ i ∈ es, i.rd = true ∧ i.wr = true) → prog c.f es (ws, r0, os) = some (q, r, o) →
      o = os ++ List.zipWith (fun i w => c.f i.x w) es ws ∧ es.length ≤ ws.length by
    simpa using H _ _ _ _ _ _ _ hall hq
  intro es
  induction es with
  | nil =>
    intro ws r0 os q r o _ he
    simp only [prog, List.foldlM_nil] at he
    cases he
    simp
  | cons i es ih =>
    intro ws r0 os q r o ha he
    obtain ⟨hr, hw⟩ := ha i (List.mem_cons_self ..)
    simp only [prog, List.foldlM_cons, Item.exec, hr] at he
    cases ws with
    | nil => cases he
    | cons w ws =>
      simp only [hw, if_true] at he
      obtain ⟨h2, h3⟩ := ih _ _ _ _ _ _ (fun j hj => ha j (List.mem_cons_of_mem _ hj)) he
      refine ⟨by rw [h2]; simp, by simpa using h3⟩

theorem go_iff {s : St X A B} {r0 : A} {es : List (Item X)} {ws : List A} {os : List B} (h : Inv c s r0 es ws os) (i : In X A)
    (hr : i.rest = true) : s.go c i = false ↔
      (∃ q, Fifo.Rep c.awR s.rf q ∧ q = [] ∧ i.valid = true ∧ i.item.rd = true) ∨
      ∃ q, Fifo.Rep c.awW s.wf q ∧ 2 ^ c.awW - 1 ≤ q.length + 1 ∧ (s.last c).1 = true ∧ (s.last c).2.1 = true := by
  obtain ⟨q, hq, _⟩ := h.prog
  obtain ⟨qw, hqw⟩ := h.wf
  have he : ∀ q, Fifo.Rep c.awR s.rf q → (s.rready c = false ↔ q = []) := fun q hq => by
    simp [St.rready, Fifo.flags_eq hq, Fifo.specFlags]
  have hf : ∀ q, Fifo.Rep c.awW s.wf q → (s.wready c = false ↔ 2 ^ c.awW - 1 ≤ q.length + 1) := fun q hq => by
    simp [St.wready, Fifo.flags_eq hq, Fifo.specFlags]
  have hs : s.go c i = false ↔ s.wstall c = true ∨ s.rstall c i = true := by
    unfold St.go
    rw [hr]
    cases s.wstall c <;> cases s.rstall c i <;> simp
  rw [hs, or_comm]
  refine or_congr ?_ ?_
  · simp only [St.rstall, Bool.and_eq_true, Bool.not_eq_true']
    constructor
    · rintro ⟨⟨h1, h2⟩, h3⟩
      exact ⟨q, hq, (he q hq).1 h1, h2, h3⟩
    · rintro ⟨q', hq', h1, h2, h3⟩
      exact ⟨⟨(he q' hq').2 h1, h2⟩, h3⟩
  · simp only [St.wstall, Bool.and_eq_true, Bool.not_eq_true']
    constructor
    · rintro ⟨⟨h1, h2⟩, h3⟩
      exact ⟨qw, hqw, (hf qw hqw).1 h1, h2, h3⟩
    · rintro ⟨q', hq', h1, h2, h3⟩
      exact ⟨⟨(hf q' hq').2 h1, h2⟩, h3⟩

/-- **C84, no needless stall.** After any run, the stream advances if everything else lets it, unless an item wants to read an empty
    FIFO or to write one that has no more than one free place. -/
theorem c84_go {s : St X A B} (h : Start c s) (l : List (In X A)) (i : In X A) (hr : i.rest = true) : (s.run c l).go c i = false ↔
      (∃ q, Fifo.Rep c.awR (s.run c l).rf q ∧ q = [] ∧ i.valid = true ∧ i.item.rd = true) ∨
      ∃ q, Fifo.Rep c.awW (s.run c l).wf q ∧ 2 ^ c.awW - 1 ≤ q.length + 1 ∧ ((s.run c l).last c).1 = true ∧
        ((s.run c l).last c).2.1 = true :=
  go_iff c (run_inv c (start_inv c h) l) i hr

/-! ## Where the code does less -/

/-- **C84, a FIFO without `sync`.** Its output is the word at the tail, which has moved on when the item is in the next stage: an item that
    reads while the FIFO has the words `a`, `b`, … gets `b`, though `a` is taken out. -/
theorem c84_not_async {s : St X A B} (hs : c.sync = false) {a b : A} {q : List A} (h : Fifo.Rep c.awR s.rf (a :: b :: q)) (i : In X A)
    (hg : s.go c i = true) (hv : i.valid = true) (hr : i.item.rd = true) :
    (s.step c i).first c = (true, i.item.wr, c.f i.item.x b) ∧
      ∃ q', Fifo.Rep c.awR (s.step c i).rf q' ∧ (b :: q) <+: q' := by
  obtain ⟨q', hq', he⟩ := Fifo.rep_step h (s.rin c i)
  have h4 : (Fifo.flags c.awR s.rf).empty = false := by simp [Fifo.flags_eq h, Fifo.specFlags]
  have hd : ((s.rin c i).deq && !(Fifo.flags c.awR s.rf).empty) = true := by simp [St.rin, St.rready, hr, hg, hv, h4]
  rw [hd, if_pos rfl, List.singleton_append, List.cons_append, List.cons_append] at he
  obtain ⟨_, he⟩ := List.cons_eq_cons.1 he
  refine ⟨?_, q', hq', ⟨_, he⟩⟩
  subst he
  have hm := hq'.mem_eq 0 (by simp)
  rw [Nat.add_zero, Nat.mod_eq_of_lt hq'.tail_lt] at hm
  have hw : (s.step c i).rword c = b := by
    simp only [St.rword, hs, Bool.false_eq_true, if_false]
    exact hm
  have h1 : (s.step c i).v1 = true := by simp [St.step, hg, hv]
  have h2 : (s.step c i).i1 = i.item := by simp [St.step, hg]
  simp only [St.first, hw, h1, h2]

namespace Ex84

/-- FIFOs of three words; the item is added to the word; one stage in between. -/
def cfg : Cfg ℕ ℕ ℕ := ⟨2, 2, 1, true, fun x w => x + w⟩

def s0 : St ℕ ℕ ℕ := ⟨Fifo.init (fun _ => 0) 0, false, ⟨0, true, true⟩, [(false, false, 0)], Fifo.init (fun _ => 0) 0⟩

/-- Two items come before there are words; the third does not read. -/
def l : List (In ℕ ℕ) :=
  [⟨true, true, ⟨1, true, true⟩, false, 0, false⟩, ⟨true, true, ⟨1, true, true⟩, true, 10, false⟩,
   ⟨true, true, ⟨1, true, true⟩, true, 20, false⟩, ⟨false, true, ⟨2, true, true⟩, false, 0, false⟩,
   ⟨true, true, ⟨2, true, true⟩, false, 0, false⟩, ⟨true, true, ⟨3, false, true⟩, false, 0, false⟩,
   ⟨true, false, ⟨0, true, true⟩, false, 0, true⟩, ⟨true, false, ⟨0, true, true⟩, false, 0, false⟩,
   ⟨true, false, ⟨0, true, true⟩, false, 0, false⟩, ⟨true, false, ⟨0, true, true⟩, false, 0, false⟩]

theorem start : Start cfg s0 := ⟨rfl, Fifo.rep_init _ _ _, Fifo.rep_init _ _ _, rfl, rfl, by decide⟩

example : entered cfg s0 l = [⟨1, true, true⟩, ⟨2, true, true⟩, ⟨3, false, true⟩] ∧ wordsIn cfg s0 l = [10, 20] ∧
    wordsOut cfg s0 l = [11, 22, 23] := by decide +kernel

example : ∃ q r, prog cfg.f (entered cfg s0 l) (wordsIn cfg s0 l, 0, []) = some (q, r, wordsOut cfg s0 l) :=
  c84_out cfg start l (by decide +kernel) (by decide +kernel)

example : wordsOut cfg s0 (l.take 5 ++ l.drop 6) =
    List.zipWith (fun i w => i.x + w) (entered cfg s0 (l.take 5 ++ l.drop 6)) (wordsIn cfg s0 (l.take 5 ++ l.drop 6)) :=
  (c84_map cfg start _ (by decide +kernel) (by decide +kernel) (by decide +kernel)).1

/-- The first item has to wait. -/
example : (s0.run cfg []).go cfg ⟨true, true, ⟨1, true, true⟩, false, 0, false⟩ = false :=
  (c84_go cfg start [] _ rfl).2 (Or.inl ⟨[], Fifo.rep_init _ _ _, rfl, rfl, rfl⟩)

/-- Without `sync`, the item gets 20 though 10 is the first word. -/
def cfgA : Cfg ℕ ℕ ℕ := ⟨2, 2, 1, false, fun x w => x + w⟩

def sA : St ℕ ℕ ℕ := ⟨⟨fun a => 10 * (a + 1), 2, 0, 0⟩, false, ⟨0, true, true⟩, [(false, false, 0)], Fifo.init (fun _ => 0) 0⟩

theorem repA : Fifo.Rep 2 sA.rf [10, 20] := ⟨by decide, by decide, by decide, by decide⟩

example : (sA.step cfgA ⟨true, true, ⟨1, true, true⟩, false, 0, false⟩).first cfgA = (true, true, 21) :=
  (c84_not_async cfgA rfl repA _ (by decide +kernel) rfl rfl).1

end Ex84

end FOp

namespace ROp

variable {A : Type}

/-- The word that an item sees: its own if it reads, otherwise the last one read. -/
def seen (r : A) (xs : List (In A)) : A := xs.foldl (fun r i => if i.valid && i.when then i.word else r) r

/-- The cycles in which the stream advances. -/
def adv (l : List (In A)) : List (In A) := l.filter fun i => i.en

theorem adv_append (l m : List (In A)) : adv (l ++ m) = adv l ++ adv m := by simp [adv]

theorem seen_append (r : A) (l m : List (In A)) : seen r (l ++ m) = seen (seen r l) m := by simp [seen]

theorem run_append (hw : Bool) (s : St A) (l m : List (In A)) : s.run hw (l ++ m) = (s.run hw l).run hw m := by simp [St.run]

/-- The invariant: the RAM's register is what the last item sees, data register `j` what the item `j + 1` places before sees. -/
theorem run_inv (hw : Bool) (s : St A) (h2 : ¬ (s.data.length = 1 ∧ hw = true)) (l : List (In A)) :
    (s.run hw l).data.length = s.data.length ∧ (s.run hw l).rdata = seen s.rdata (adv l) ∧
      ∀ j (h : j < (s.run hw l).data.length), j + 1 ≤ (adv l).length →
        (s.run hw l).data[j] = seen s.rdata ((adv l).take ((adv l).length - (j + 1))) := by
  induction l using List.reverseRecOn with
  | nil => exact ⟨rfl, rfl, fun j _ hj => by simp [adv] at hj⟩
  | append_singleton l i ih =>
    obtain ⟨i1, i2, i3⟩ := ih
    rw [run_append, adv_append]
    generalize s.run hw l = t at i1 i2 i3
    have hn : ¬ (t.data.length = 1 ∧ hw = true) := by rw [i1]; exact h2
    have hd : (t.step hw i).data = if i.en then (t.rdata :: t.data).dropLast else t.data := by
      simp only [St.step]; rw [if_neg hn]
    show (t.step hw i).data.length = _ ∧ (t.step hw i).rdata = _ ∧ ∀ j (h : j < (t.step hw i).data.length), _ →
      (t.step hw i).data[j] = _
    cases he : i.en with
    | false =>
      have e : adv [i] = [] := by simp [adv, he]
      have hd' : (t.step hw i).data = t.data := by rw [hd, he]; rfl
      rw [e, List.append_nil]
      refine ⟨by rw [hd', i1], by simp [St.step, he, i2], ?_⟩
      intro j h hj
      simp only [hd']
      exact i3 j (by rw [hd'] at h; exact h) hj
    | true =>
      have e : adv [i] = [i] := by simp [adv, he]
      have hd' : (t.step hw i).data = (t.rdata :: t.data).dropLast := by rw [hd, he]; rfl
      rw [e]
      refine ⟨by rw [hd']; simp [i1], ?_, ?_⟩
      · rw [seen_append, ← i2]
        simp [St.step, seen, he]
      · intro j h hj
        simp only [hd']
        have hj' : j < t.data.length := by rw [hd'] at h; simpa using h
        rw [List.getElem_dropLast]
        cases j with
        | zero => simp [i2]
        | succ j =>
          have hl : j + 1 ≤ (adv l).length := by simpa using hj
          rw [List.getElem_cons_succ, i3 j (by omega) hl]
          congr 1
          simp only [List.length_append, List.length_cons, List.length_nil]
          rw [List.take_append_of_le_length (by omega)]
          congr 1
          omega

/-- **C84, RAM.** With any latency `n + 1`, except latency 2 with a `when`, the output is the word that the item which entered `n`
    advances before the last one sees; the stream may stall in any cycles. -/
theorem c84_ram (hw : Bool) (s : St A) (h2 : ¬ (s.data.length = 1 ∧ hw = true)) (l : List (In A))
    (hl : s.data.length ≤ (adv l).length) :
    (s.run hw l).out = seen s.rdata ((adv l).take ((adv l).length - s.data.length)) := by
  obtain ⟨h3, h4, h5⟩ := run_inv hw s h2 l
  unfold St.out
  rcases Nat.eq_zero_or_pos s.data.length with h0 | h0
  · have : (s.run hw l).data = [] := List.length_eq_zero_iff.1 (by rw [h3, h0])
    rw [this, h0, List.getLastD_nil, h4]
    simp
  · have hne : (s.run hw l).data ≠ [] := fun h => by rw [h] at h3; simp at h3; omega
    rw [List.getLastD_eq_getLast?, List.getLast?_eq_some_getLast hne, Option.getD_some, List.getLast_eq_getElem,
      h5 _ _ (by omega)]
    congr 2
    omega

/-- **C84, latency 2 with `when`, no stalls.** Then the same holds. -/
theorem c84_ram2 (s : St A) (h1 : s.data = [s.rdata]) (l : List (In A)) (hen : ∀ i ∈ l, i.en = true) :
    (s.run true l).out = seen s.rdata (l.take (l.length - 1)) := by
  suffices H : (s.run true l).data = [seen s.rdata (l.take (l.length - 1))] ∧ (s.run true l).rdata = seen s.rdata l ∧
      ((s.run true l).pw = false → seen s.rdata l = seen s.rdata (l.take (l.length - 1))) by
    unfold St.out
    rw [H.1]; rfl
  induction l using List.reverseRecOn with
  | nil => exact ⟨h1, rfl, fun _ => rfl⟩
  | append_singleton l i ih =>
    obtain ⟨i1, i2, i3⟩ := ih fun j hj => hen j (List.mem_append_left _ hj)
    have he := hen i (List.mem_append_right _ (List.mem_singleton.2 rfl))
    rw [run_append]
    generalize s.run true l = t at i1 i2 i3
    show (t.step true i).data = _ ∧ (t.step true i).rdata = _ ∧ ((t.step true i).pw = false → _)
    have ht : (l ++ [i]).take ((l ++ [i]).length - 1) = l := by simp
    rw [ht]
    refine ⟨?_, ?_, ?_⟩
    · have : (t.step true i).data = if i.en && t.pw then [t.rdata] else t.data := by
        simp only [St.step]; rw [if_pos ⟨by rw [i1]; rfl, trivial⟩]
      rw [this, he]
      cases hpw : t.pw with
      | true => simp [i2]
      | false => simp [i1, i3 hpw]
    · rw [seen_append, ← i2]
      simp [St.step, seen, he]
    · intro h
      have h' : i.when = false := h
      rw [seen_append]
      simp [seen, h']

/-! ## Where the code does less -/

/-- **C84, latency 2 with `when` and a stall.** The delayed `when` does not wait for the stream.  An item reads the word `w`; the stream is
    stalled for one cycle, in which the next item, which does not read, waits in the stage of the operator; then it advances. The
    output for the first item is the old content of the data register. -/
theorem c84_not_ram2 (s : St A) {o : A} (h1 : s.data = [o]) (hp : s.pw = false) (w u : A) :
    (s.run true [⟨true, true, true, w⟩, ⟨false, true, false, u⟩, ⟨true, true, false, u⟩]).out = o := by
  simp [St.run, St.step, St.out, h1, hp]

/-! ## Examples -/

namespace Ex84

/-- Latency 3; items that read 10, 20, nothing, and 40, with stalls. -/
def s : St ℕ := ⟨0, [0, 0], false⟩

example : (s.run true [⟨true, true, true, 10⟩, ⟨false, true, true, 20⟩, ⟨true, true, true, 20⟩, ⟨true, true, false, 30⟩,
    ⟨false, true, true, 40⟩, ⟨true, true, true, 40⟩]).out = 20 :=
  (c84_ram true s (by decide) _ (by decide)).trans rfl

/-- Latency 2 with a stall: 7 is what was in the register, though the item has read 10. -/
example : ((⟨0, [7], false⟩ : St ℕ).run true [⟨true, true, true, 10⟩, ⟨false, true, false, 0⟩, ⟨true, true, false, 0⟩]).out = 7 :=
  c84_not_ram2 _ rfl rfl 10 0

/-- Latency 2 without a stall. -/
example : ((⟨7, [7], false⟩ : St ℕ).run true [⟨true, true, true, 10⟩, ⟨true, true, false, 0⟩]).out = 10 :=
  (c84_ram2 ⟨7, [7], false⟩ rfl _ (by decide)).trans rfl

end Ex84

end ROp
