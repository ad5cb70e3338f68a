import Verif.Lemmas.AxiSerial
import Mathlib.Data.List.Perm.Basic

/-!
# C98: the serial AXI memory
-/

namespace AxiSerial
open AxiMem

/-- `x` are the registers of a memory with `n` ports over time from reset on, for the inputs `inp t p` of port `p`; in
    cycle `t` the ports write in the order `ord t`.  The masters keep addresses and data valid and stable until they are
    accepted, and make no write request while they refuse a response. -/
structure SRun {B : Type} (c : Cfg) (u : B) (d0 : ℕ → B) (mem0 : ℕ → B) (n : ℕ) (inp : ℕ → ℕ → In B)
    (ord : ℕ → List ℕ) (x : ℕ → Sys B) : Prop where
  init : x 0 = ⟨fun _ => P.init d0, mem0⟩
  step : ∀ t, x (t + 1) = (x t).step c u (ord t) (inp t)
  order : ∀ t, (ord t).Perm (List.range n)
  awhold : ∀ t p, p < n → (inp t p).awvalid = true → ((x t).port p).awready = false →
    (inp (t + 1) p).awvalid = true ∧ (inp (t + 1) p).awaddr = (inp t p).awaddr ∧ (inp (t + 1) p).awcnt = (inp t p).awcnt
  arhold : ∀ t p, p < n → (inp t p).arvalid = true → ((x t).port p).arready = false →
    (inp (t + 1) p).arvalid = true ∧ (inp (t + 1) p).araddr = (inp t p).araddr ∧ (inp (t + 1) p).arcnt = (inp t p).arcnt
  whold : ∀ t p, p < n → (inp t p).wvalid = true → ((x t).port p).wready = false →
    (inp (t + 1) p).wvalid = true ∧ (inp (t + 1) p).word = (inp t p).word
  awok : ∀ t p, p < n → (inp t p).awvalid = true →
    (inp t p).awaddr < 2 ^ c.aw ∧ 1 ≤ (inp t p).awcnt ∧ (inp t p).awcnt < 2 ^ (c.aw + 1)
  arok : ∀ t p, p < n → (inp t p).arvalid = true →
    (inp t p).araddr < 2 ^ c.aw ∧ 1 ≤ (inp t p).arcnt ∧ (inp t p).arcnt < 2 ^ (c.aw + 1)
  resp : ∀ t p, p < n → ((x t).port p).bvalid = true → (inp t p).awvalid = true → (inp t p).bready = true

/-- The inputs of port `p`. -/
def pin {B : Type} (inp : ℕ → ℕ → In B) (p t : ℕ) : In B := inp t p

/-- The registers of port `p`. -/
def pst {B : Type} (x : ℕ → Sys B) (p t : ℕ) : P B := (x t).port p

/-- The place of the next word of port `p`: the words of a port go to the places of its requests in order. -/
def place {B : Type} (c : Cfg) (inp : ℕ → ℕ → In B) (x : ℕ → Sys B) (p t : ℕ) : Option Beat :=
  (slots c (pin inp p) (pst x p) t)[(words (pin inp p) (pst x p) t).length]?

/-- The word `w` at address `a` replaces byte `y`. -/
def Covers {B : Type} (c : Cfg) (y a : ℕ) (w : Word B) : Prop := a ≤ y ∧ y < a + c.nb ∧ y < c.size ∧ w.strb (y - a) = true

/-- The memory in which every word is written when it is transferred, and nothing else happens. -/
def ideal {B : Type} (c : Cfg) (mem0 : ℕ → B) (inp : ℕ → ℕ → In B) (ord : ℕ → List ℕ) (x : ℕ → Sys B) : ℕ → ℕ → B
  | 0 => mem0
  | t + 1 => (ord t).foldl (fun m p =>
      if (inp t p).wvalid && ((x t).port p).wready then
        match place c inp x p t with
        | some b => putWord c.nb c.size m b.addr (inp t p).word
        | none => m
      else m) (ideal c mem0 inp ord x t)

section
variable {B : Type} {c : Cfg} {u : B} {d0 : ℕ → B} {mem0 : ℕ → B} {n : ℕ} {inp : ℕ → ℕ → In B}
  {ord : ℕ → List ℕ} {x : ℕ → Sys B}

theorem port_run (hx : SRun c u d0 mem0 n inp ord x) {p : ℕ} (hp : p < n) :
    PRun c u d0 (fun t => (x t).mem) (pin inp p) (pst x p) where
  init := by show (x 0).port p = _; rw [hx.init]
  step t := by show (x (t + 1)).port p = _; rw [hx.step t]; rfl
  awhold t := hx.awhold t p hp
  arhold t := hx.arhold t p hp
  whold t := hx.whold t p hp
  awok t := hx.awok t p hp
  arok t := hx.arok t p hp
  resp t := hx.resp t p hp

/-! ## The memory -/

/-- A port writes byte `y` in cycle `t`. -/
def Stores (c : Cfg) (inp : ℕ → ℕ → In B) (x : ℕ → Sys B) (t y p : ℕ) (v : B) : Prop :=
  ((x t).port p).ph = .wdat ∧ (inp t p).wvalid = true ∧ Covers c y ((x t).port p).waddr (inp t p).word ∧
    v = (inp t p).word.byte (y - ((x t).port p).waddr)

theorem putWord_covers {a y : ℕ} {w : Word B} {m : ℕ → B} (h : Covers c y a w) :
    putWord c.nb c.size m a w y = w.byte (y - a) := by
  exact if_pos h

theorem putWord_not {a y : ℕ} {w : Word B} {m : ℕ → B} (h : ¬Covers c y a w) :
    putWord c.nb c.size m a w y = m y := by
  exact if_neg h

/-- One write of one port. -/
def put1 (c : Cfg) (inp : ℕ → ℕ → In B) (x : ℕ → Sys B) (t : ℕ) (m : ℕ → B) (p : ℕ) : ℕ → B :=
  match ((x t).port p).store (inp t p) with
  | some (a, w) => storeWord c.nb c.size m a w
  | none => m

theorem put1_hit {t y p : ℕ} {v : B} (m : ℕ → B) (h : Stores c inp x t y p v) : put1 c inp x t m p y = v := by
  obtain ⟨h1, h2, h3, h4⟩ := h
  simp only [put1, P.store, h1, h2, and_self, if_true]
  rw [storeWord_eq, putWord_covers h3, h4]

theorem put1_miss {t y p : ℕ} (m : ℕ → B) (h : ∀ v, ¬Stores c inp x t y p v) : put1 c inp x t m p y = m y := by
  by_cases hs : ((x t).port p).ph = .wdat ∧ (inp t p).wvalid = true
  · simp only [put1, P.store, hs, and_self, if_true]
    rw [storeWord_eq, putWord_not]
    exact fun hc => h _ ⟨hs.1, hs.2, hc, rfl⟩
  · simp only [put1, P.store, hs, if_false]

/-- One transfer at one port. -/
def give1 (c : Cfg) (inp : ℕ → ℕ → In B) (x : ℕ → Sys B) (t : ℕ) (m : ℕ → B) (p : ℕ) : ℕ → B :=
  if (inp t p).wvalid && ((x t).port p).wready then
    match place c inp x p t with
    | some b => putWord c.nb c.size m b.addr (inp t p).word
    | none => m
  else m

theorem give1_hit (hx : SRun c u d0 mem0 n inp ord x) {t y p : ℕ} (hp : p < n) {v : B} (m : ℕ → B)
    (h : Stores c inp x t y p v) (hr : ((x t).port p).wready = true) : give1 c inp x t m p y = v := by
  obtain ⟨h1, h2, h3, h4⟩ := h
  obtain ⟨b, hb, ha⟩ := slot_at (port_run hx hp) h1
  have ha : b.addr = ((x t).port p).waddr := ha
  have hb : place c inp x p t = some b := hb
  simp only [give1, h2, hr, hb, Bool.and_self, if_true]
  rw [ha, putWord_covers h3, h4]

theorem give1_miss (hx : SRun c u d0 mem0 n inp ord x) {t y p : ℕ} (hp : p < n) (m : ℕ → B)
    (h : ((x t).port p).wready = false ∨ ∀ v, ¬Stores c inp x t y p v) : give1 c inp x t m p y = m y := by
  unfold give1
  split
  · rename_i hc
    simp only [Bool.and_eq_true] at hc
    have hph := wready_ph (port_run hx hp) (t := t) hc.2
    obtain ⟨b, hb, ha⟩ := slot_at (port_run hx hp) hph
    have ha : b.addr = ((x t).port p).waddr := ha
    have hb : place c inp x p t = some b := hb
    rcases h with h | h
    · rw [hc.2] at h; cases h
    · simp only [hb]
      rw [putWord_not]
      intro hq
      rw [ha] at hq
      exact h _ ⟨hph, hc.1, hq, rfl⟩
  · rfl

/-- A word offered and not taken in cycle `t` has left the value `v` in byte `y`. -/
def Pend (c : Cfg) (n : ℕ) (inp : ℕ → ℕ → In B) (x : ℕ → Sys B) (t y : ℕ) (v : B) : Prop :=
  ∃ p, p < n ∧ Stores c inp x t y p v ∧ ((x t).port p).wready = false

theorem fold_inv (hx : SRun c u d0 mem0 n inp ord x) (t y : ℕ) : ∀ (l : List ℕ) (m m' : ℕ → B), (∀ p ∈ l, p < n) →
    (m y = m' y ∨ Pend c n inp x t y (m y) ∨ ∃ p ∈ l, ∃ v, Stores c inp x t y p v) →
    (l.foldl (put1 c inp x t) m y = l.foldl (give1 c inp x t) m' y ∨
      Pend c n inp x t y (l.foldl (put1 c inp x t) m y)) := by
  intro l
  induction l with
  | nil =>
    intro m m' _ h
    rcases h with h | h | ⟨p, hp, -⟩
    · exact .inl h
    · exact .inr h
    · cases hp
  | cons p l ih =>
    intro m m' hl h
    rw [List.foldl_cons, List.foldl_cons]
    refine ih _ _ (fun q hq => hl q (List.mem_cons_of_mem _ hq)) ?_
    have hp := hl p List.mem_cons_self
    by_cases hs : ∃ v, Stores c inp x t y p v
    · obtain ⟨v, hv⟩ := hs
      rw [put1_hit m hv]
      cases hr : ((x t).port p).wready
      · exact .inr (.inl ⟨p, hp, hv, hr⟩)
      · exact .inl (give1_hit hx hp m' hv hr).symm
    · have hs : ∀ v, ¬Stores c inp x t y p v := fun v h => hs ⟨v, h⟩
      rw [put1_miss m hs, give1_miss hx hp m' (.inr hs)]
      rcases h with h | h | ⟨q, hq, v, hv⟩
      · exact .inl h
      · exact .inr (.inl h)
      · rcases List.mem_cons.mp hq with rfl | hq
        · exact absurd hv (hs v)
        · exact .inr (.inr ⟨q, hq, v, hv⟩)

theorem step_mem (hx : SRun c u d0 mem0 n inp ord x) (t : ℕ) :
    (x (t + 1)).mem = (ord t).foldl (put1 c inp x t) (x t).mem := by rw [hx.step t]; rfl

theorem mem_inv (hx : SRun c u d0 mem0 n inp ord x) (t y : ℕ) :
    (x t).mem y = ideal c mem0 inp ord x t y ∨ ∃ s, t = s + 1 ∧ Pend c n inp x s y ((x t).mem y) := by
  induction t with
  | zero => rw [hx.init]; exact .inl rfl
  | succ t ih =>
    have hl : ∀ p ∈ ord t, p < n := fun p hp => List.mem_range.mp ((hx.order t).subset hp)
    have := fold_inv hx t y (ord t) (x t).mem (ideal c mem0 inp ord x t) hl ?_
    · rw [← step_mem hx t] at this
      rcases this with h | h
      · exact .inl h
      · exact .inr ⟨t, rfl, h⟩
    · rcases ih with h | ⟨s, rfl, p, hp, ⟨k1, k2, k3, k4⟩, hr⟩
      · exact .inl h
      · obtain ⟨e1, e2, e3, e4⟩ := held (port_run hx hp) k1 k2 hr
        refine .inr (.inr ⟨p, (hx.order _).mem_iff.mpr (List.mem_range.mpr hp), _, e1, e2, ?_, rfl⟩)
        have e3 : (inp (s + 1) p).word = (inp s p).word := e3
        have e4 : ((x (s + 1)).port p).waddr = ((x s).port p).waddr := e4
        rw [e3, e4]; exact k3

/-- **C98, the memory** holds the words transferred, each at the place given by the requests of its port: a byte
    differs from that only if a port offered in the previous cycle a word for this byte that was not taken; then the
    byte may already have the value in this word. -/
theorem c98_memory (hx : SRun c u d0 mem0 n inp ord x) (t y : ℕ) :
    (x t).mem y = ideal c mem0 inp ord x t y ∨
    ∃ s p b, t = s + 1 ∧ p < n ∧ (inp s p).wvalid = true ∧ ((x s).port p).wready = false ∧
      place c inp x p s = some b ∧ Covers c y b.addr (inp s p).word ∧
      (x t).mem y = (inp s p).word.byte (y - b.addr) := by
  rcases mem_inv hx t y with h | ⟨s, rfl, p, hp, ⟨k1, k2, k3, k4⟩, hr⟩
  · exact .inl h
  · obtain ⟨b, hb, ha⟩ := slot_at (port_run hx hp) k1
    have ha : b.addr = ((x s).port p).waddr := ha
    exact .inr ⟨s, p, b, rfl, hp, k2, hr, hb, by rw [ha]; exact k3, by rw [ha]; exact k4⟩

/-- **C98, the memory when all offered words are taken.** -/
theorem c98_settled (hx : SRun c u d0 mem0 n inp ord x) (t : ℕ)
    (h : ∀ p, p < n → (inp t p).wvalid = true → ((x t).port p).wready = true) :
    (x (t + 1)).mem = ideal c mem0 inp ord x (t + 1) := by
  funext y
  rcases c98_memory hx (t + 1) y with h' | ⟨s, p, b, e, hp, hv, hr, -⟩
  · exact h'
  · have : t = s := by omega
    subst this
    rw [h p hp hv] at hr; cases hr

theorem stores_place (hx : SRun c u d0 mem0 n inp ord x) {t y p : ℕ} (hp : p < n) {v : B} (h : Stores c inp x t y p v) :
    (inp t p).wvalid = true ∧ ∃ b, place c inp x p t = some b ∧ Covers c y b.addr (inp t p).word := by
  obtain ⟨h1, h2, h3, h4⟩ := h
  obtain ⟨b, hb, ha⟩ := slot_at (port_run hx hp) h1
  have ha : b.addr = ((x t).port p).waddr := ha
  exact ⟨h2, b, hb, by rw [ha]; exact h3⟩

/-- **C98, a byte stays as it was written** until a word for it is offered at some port: the value that a transfer of port
    `p` in cycle `s` brings is in the memory in all cycles up to `e`. -/
theorem c98_kept (hx : SRun c u d0 mem0 n inp ord x) {s e p y : ℕ} (hp : p < n) {b : Beat}
    (hv : (inp s p).wvalid = true) (hr : ((x s).port p).wready = true) (hb : place c inp x p s = some b)
    (hc : Covers c y b.addr (inp s p).word)
    (hno : ∀ t q b', s ≤ t → t < e → q < n → (t = s → q ≠ p) → (inp t q).wvalid = true → place c inp x q t = some b' →
      ¬Covers c y b'.addr (inp t q).word) :
    ∀ t, s < t → t ≤ e → (x t).mem y = (inp s p).word.byte (y - b.addr) := by
  have hph := wready_ph (port_run hx hp) (t := s) hr
  obtain ⟨b', hb', ha⟩ := slot_at (port_run hx hp) hph
  have hb' : place c inp x p s = some b' := hb'
  have ha : b'.addr = ((x s).port p).waddr := ha
  have : b' = b := by rw [hb] at hb'; exact (Option.some.inj hb').symm
  subst this
  have hst : Stores c inp x s y p ((inp s p).word.byte (y - b'.addr)) := by
    rw [ha] at hc ⊢
    exact ⟨hph, hv, hc, rfl⟩
  have key : ∀ d, s + 1 + d ≤ e → (x (s + 1 + d)).mem y = (inp s p).word.byte (y - b'.addr) := by
    intro d
    induction d with
    | zero =>
      intro hd
      show (x (s + 1)).mem y = _
      rw [step_mem hx s]
      have : ∀ (l : List ℕ) (m : ℕ → B), (∀ q ∈ l, q < n) → (m y = (inp s p).word.byte (y - b'.addr) ∨ p ∈ l) →
          l.foldl (put1 c inp x s) m y = (inp s p).word.byte (y - b'.addr) := by
        intro l
        induction l with
        | nil =>
          intro m _ h
          rcases h with h | h
          · exact h
          · cases h
        | cons q l ih =>
          intro m hl h
          rw [List.foldl_cons]
          refine ih _ (fun r hr => hl r (List.mem_cons_of_mem _ hr)) ?_
          by_cases hq : q = p
          · subst hq; exact .inl (put1_hit m hst)
          · rcases h with h | h
            · left
              rw [put1_miss m, h]
              intro v hv'
              obtain ⟨g1, b2, g2, g3⟩ := stores_place hx (hl q List.mem_cons_self) hv'
              exact hno s q b2 (Nat.le_refl _) (by omega) (hl q List.mem_cons_self) (fun _ => hq) g1 g2 g3
            · rcases List.mem_cons.mp h with h | h
              · exact absurd h.symm hq
              · exact .inr h
      exact this _ _ (fun q hq => List.mem_range.mp ((hx.order s).subset hq))
        (.inr ((hx.order s).mem_iff.mpr (List.mem_range.mpr hp)))
    | succ d ih =>
      intro hd
      rw [show s + 1 + (d + 1) = (s + 1 + d) + 1 by omega, step_mem hx]
      have : ∀ (l : List ℕ) (m : ℕ → B), (∀ q ∈ l, q < n) → l.foldl (put1 c inp x (s + 1 + d)) m y = m y := by
        intro l
        induction l with
        | nil => intro m _; rfl
        | cons q l ih' =>
          intro m hl
          rw [List.foldl_cons, ih' _ (fun r hr => hl r (List.mem_cons_of_mem _ hr)), put1_miss]
          intro v hv'
          obtain ⟨g1, b2, g2, g3⟩ := stores_place hx (hl q List.mem_cons_self) hv'
          exact hno _ q b2 (by omega) (by omega) (hl q List.mem_cons_self) (fun h => by omega) g1 g2 g3
      rw [this _ _ (fun q hq => List.mem_range.mp ((hx.order _).subset hq))]
      exact ih (by omega)
  intro t h1 h2
  have := key (t - (s + 1)) (by omega)
  rwa [show s + 1 + (t - (s + 1)) = t by omega] at this

/-! ## The ports -/

/-- **C98, writes.**  At every port: a word is transferred only for a place of a request transferred before; while a
    request is not complete an offered word is taken within `write_delay + max keep_sleep 1 + 1` cycles; a request made
    while nothing is outstanding and no read is asked for is accepted within 3 cycles; a response is raised after a word
    marked as last and stays until it is taken. -/
theorem c98_write (hx : SRun c u d0 mem0 n inp ord x) {p : ℕ} (hp : p < n) :
    (∀ t, (inp t p).wvalid = true → ((x t).port p).wready = true → ∃ b, place c inp x p t = some b) ∧
    (∀ t, (words (pin inp p) (pst x p) t).length ≤ (slots c (pin inp p) (pst x p) t).length) ∧
    (c.interval ≠ 1 → ∀ t, (words (pin inp p) (pst x p) t).length < (slots c (pin inp p) (pst x p) t).length →
      (inp t p).wvalid = true → ∃ k, k ≤ c.wdelay + max c.keep 1 + 1 ∧
        (inp (t + k) p).wvalid = true ∧ ((x (t + k)).port p).wready = true) ∧
    (∀ t, (gotten (pin inp p) (pst x p) t).length = (wanted c (pin inp p) (pst x p) t).length →
      (words (pin inp p) (pst x p) t).length = (slots c (pin inp p) (pst x p) t).length →
      (∀ k, k ≤ 1 → (inp (t + k) p).arvalid = false) → (inp t p).awvalid = true →
      ∃ k, k ≤ 3 ∧ (inp (t + k) p).awvalid = true ∧ ((x (t + k)).port p).awready = true) ∧
    (∀ t, ((x (t + 1)).port p).bvalid = true ↔
      (((inp t p).wvalid = true ∧ ((x t).port p).wready = true ∧ (inp t p).word.last = true) ∨
        (((x t).port p).bvalid = true ∧ (inp t p).bready = false))) := by
  have hr := port_run hx hp
  refine ⟨fun t _ h => ?_, fun t => ?_, fun hi t h hv => write_within hr hi h hv, fun t h1 h2 h3 h4 => ?_, fun t => ?_⟩
  · obtain ⟨b, hb, -⟩ := slot_at hr (wready_ph hr (t := t) h)
    exact ⟨b, hb⟩
  · obtain ⟨dn, rem, hs, hl, -⟩ := (winv hr t).1
    rw [hs, ← hl]; simp
  · exact write_accept hr h1 h2 h3 h4
  · have : ((x (t + 1)).port p).bvalid = if ((inp t p).wvalid && ((x t).port p).wready) && (inp t p).word.last then true
        else if ((x t).port p).bvalid && (inp t p).bready then false else ((x t).port p).bvalid := by
      rw [hx.step t]; rfl
    rw [this]
    cases (inp t p).wvalid <;> cases ((x t).port p).wready <;> cases (inp t p).word.last <;>
      cases ((x t).port p).bvalid <;> cases (inp t p).bready <;> simp

/-- **C98, reads.**  The beats transferred at a port are, in order, the beats of the requests accepted there: consecutive
    word addresses, `rlast` on the last beat, the data is what the memory holds at a time between the request and the
    transfer; an offered beat stays until it is taken; while beats are outstanding one is offered within
    `read_delay + max keep_sleep 1 + 1` cycles; a request made while nothing is outstanding and no write is asked for is
    accepted within 3 cycles. -/
theorem c98_read (hx : SRun c u d0 mem0 n inp ord x) {p : ℕ} (hp : p < n) :
    (∀ t, ∃ dn rest, wanted c (pin inp p) (pst x p) t = dn ++ rest ∧
      List.Forall₂ (fun g b => g.2.1 = b.last ∧ Fetched c u (fun t => (x t).mem) g.1 b g.2.2)
        (gotten (pin inp p) (pst x p) t) dn ∧
      (((x t).port p).rvalid = true → ∃ b rest', rest = b :: rest' ∧ ((x t).port p).rlast = b.last ∧
        Fetched c u (fun t => (x t).mem) ((x t).port p).rdata b t)) ∧
    (∀ t, ((x t).port p).rvalid = true → (inp t p).rready = false → ((x (t + 1)).port p).rvalid = true ∧
      ((x (t + 1)).port p).rlast = ((x t).port p).rlast ∧ ((x (t + 1)).port p).rdata = ((x t).port p).rdata) ∧
    (c.interval ≠ 1 → ∀ t, (gotten (pin inp p) (pst x p) t).length < (wanted c (pin inp p) (pst x p) t).length →
      ∃ k, k ≤ c.rdelay + max c.keep 1 + 1 ∧ ((x (t + k)).port p).rvalid = true) ∧
    (∀ t, (gotten (pin inp p) (pst x p) t).length = (wanted c (pin inp p) (pst x p) t).length →
      (words (pin inp p) (pst x p) t).length = (slots c (pin inp p) (pst x p) t).length →
      (inp t p).awvalid = false → (inp t p).arvalid = true →
      ∃ k, k ≤ 3 ∧ (inp (t + k) p).arvalid = true ∧ ((x (t + k)).port p).arready = true) := by
  have hr := port_run hx hp
  refine ⟨fun t => ?_, fun t hv hn => ?_, fun hi t h => read_within hr hi h, fun t h1 h2 h3 h4 => read_accept hr h1 h2 h3 h4⟩
  · obtain ⟨dn, cur, rem, hw, hg, hm⟩ := rinv hr t
    refine ⟨dn, cur.toList ++ rem, by rw [hw]; simp, hg, fun hv => ?_⟩
    have hv : (pst x p t).rvalid = true := hv
    cases hm with
    | off _ hv' => rw [hv] at hv'; cases hv'
    | ask _ hv' => rw [hv] at hv'; cases hv'
    | wait _ hv' => rw [hv] at hv'; cases hv'
    | offer _ _ _ _ hl _ _ _ hg => exact ⟨_, _, rfl, hl, hg⟩
  · obtain ⟨dn, cur, rem, -, -, hm⟩ := rinv hr t
    have hv : (pst x p t).rvalid = true := hv
    have hn' : (pin inp p t).rready = false := hn
    have hph : (pst x p t).ph = .rd 0 := by
      cases hm with
      | off _ hv' => rw [hv] at hv'; cases hv'
      | ask _ hv' => rw [hv] at hv'; cases hv'
      | wait _ hv' => rw [hv] at hv'; cases hv'
      | offer h => exact h
    change (pst x p (t + 1)).rvalid = true ∧ (pst x p (t + 1)).rlast = (pst x p t).rlast ∧
      (pst x p (t + 1)).rdata = (pst x p t).rdata
    rw [hr.step t]
    simp only [P.step, hph, hv, hn', P.ack]
    simp

end

/-! ## What goes wrong -/

/-- **Reads win over writes**: as long as a read is asked for in every cycle no write request is accepted. -/
theorem c98_starved {B : Type} {c : Cfg} {u : B} {d0 : ℕ → B} {mem0 : ℕ → B} {inp : ℕ → ℕ → In B}
    {ord : ℕ → List ℕ} {x : ℕ → Sys B} (h0 : x 0 = ⟨fun _ => P.init d0, mem0⟩)
    (hs : ∀ t, x (t + 1) = (x t).step c u (ord t) (inp t)) {p : ℕ} (ha : ∀ t, (inp t p).arvalid = true) (t : ℕ) :
    ((x t).port p).awready = false := by
  have key : ∀ t, ((x t).port p).awready = false ∧
      (((x t).port p).ph = .idle ∨ ((x t).port p).ph = .ra ∨ ∃ k, ((x t).port p).ph = .rd k) := by
    intro t
    induction t with
    | zero => rw [h0]; exact ⟨rfl, .inl rfl⟩
    | succ t ih =>
      obtain ⟨i1, i2⟩ := ih
      have f1 : ((x (t + 1)).port p).ph = ((x t).port p).nextPh c (inp t p) := by rw [hs t]; rfl
      have f2 : ((x (t + 1)).port p).awready =
          if ((x t).port p).ph = .wa ∧ (inp t p).awvalid = true ∧ ((x t).port p).bvalid = false then true
          else if ((x t).port p).prevW then false else ((x t).port p).awready := by rw [hs t]; rfl
      constructor
      · rw [f2, i1]
        rcases i2 with h | h | ⟨k, h⟩ <;> simp [h]
      · rw [f1, P.nextPh]
        rcases i2 with h | h | ⟨k, h⟩
        · simp [h, ha]
        · simp [h, ha]
        · rw [h]
          cases k with
          | zero => dsimp only; split <;> simp
          | succ k => simp
  exact (key t).1

/-- A run given by its inputs, with the ports in order. -/
def serRun {B : Type} (c : Cfg) (u : B) (d0 mem0 : ℕ → B) (n : ℕ) (inp : ℕ → ℕ → In B) : ℕ → Sys B
  | 0 => ⟨fun _ => P.init d0, mem0⟩
  | t + 1 => (serRun c u d0 mem0 n inp t).step c u (List.range n) (inp t)

/-- One byte per word, no delays, no sleep. -/
def badCfg : Cfg := ⟨1, 8, 64, 0, 0, 0, 0, 0, 0⟩

/-- The master writes one word at address 8; while it refuses the response (until cycle 5) it makes a second request, for
    address 32.  It offers data for the second request in the cycles of `data`. -/
def badIn (data : ℕ → Bool) (t _ : ℕ) : In ℕ :=
  ⟨decide (t ≤ 2 ∨ 4 ≤ t), if t ≤ 2 then 8 else 32, 1, decide (t = 3) || data t,
   ⟨fun _ => if t ≤ 3 then 5 else 7, fun _ => true, true⟩, decide (6 ≤ t), false, 0, 1, true, []⟩

/-- **C98 fails if a request is made while a response is refused: the request is never accepted**, although the response
    is taken afterwards; the master keeps the request valid and offers the data once the address is accepted. -/
theorem c98_not_refused : let x := serRun badCfg 0 (fun _ => 0) (fun _ => 0) 1 (badIn fun _ => false)
    (∀ t, 6 ≤ t → (badIn (fun _ => false) t 0).bready = true) ∧
    ∀ t, 4 ≤ t → (badIn (fun _ => false) t 0).awvalid = true ∧ ((x t).port 0).awready = false := by
  intro x
  refine ⟨fun t h => by simp [badIn, h], fun t h => ⟨by simp [badIn]; omega, ?_⟩⟩
  have h4 : ((x 4).port 0).awready = false ∧ ((x 5).port 0).awready = false ∧ ((x 6).port 0).awready = false := by
    decide +kernel
  by_cases h7 : t < 7
  · have : t = 4 ∨ t = 5 ∨ t = 6 := by omega
    rcases this with rfl | rfl | rfl
    · exact h4.1
    · exact h4.2.1
    · exact h4.2.2
  · have key : ∀ d, ((x (7 + d)).port 0).ph = .wdat ∧ ((x (7 + d)).port 0).awready = false := by
      intro d
      induction d with
      | zero => decide +kernel
      | succ d ih =>
        have hv : (badIn (fun _ => false) (7 + d) 0).wvalid = false := by simp [badIn]; omega
        have e : x (7 + (d + 1)) = (x (7 + d)).step badCfg 0 (List.range 1) (badIn (fun _ => false) (7 + d)) := rfl
        rw [e]
        simp only [Sys.step, P.step, P.nextPh, P.fin, P.acc, ih.1, ih.2, hv]
        simp
    have := (key (t - 7)).2
    rwa [show 7 + (t - 7) = t by omega] at this

/-- **C98 fails if a request is made while a response is refused and its data comes together with it: the word goes to
    the wrong address**, that behind the previous request. -/
theorem c98_not_refused_data : let x := serRun badCfg 0 (fun _ => 0) (fun _ => 0) 1 (badIn fun t => decide (4 ≤ t ∧ t ≤ 7))
    ((x 7).port 0).wready = true ∧ (x 8).mem 9 = 7 ∧ (x 8).mem 32 = 0 ∧ (x 8).mem 8 = 5 := by
  decide +kernel

/-! ## A concrete run -/

/-- Port 0 writes two words at address 8; port 1 reads them after that. -/
def ex98In (t p : ℕ) : In ℕ :=
  if p = 0 then ⟨decide (t ≤ 2), 8, 2, decide (t ≤ 5), if t ≤ 4 then exWord 10 false else exWord 20 true, true, false, 0, 1,
    false, []⟩
  else ⟨false, 0, 1, false, exWord 0 false, true, decide (20 ≤ t ∧ t ≤ 22), 8, 2, decide (t % 2 = 0), []⟩

def ex98 : ℕ → Sys ℕ := serRun exCfg 0 (fun _ => 0) (fun _ => 0) 2 ex98In

example : (ex98 12).mem 8 = 10 ∧ (ex98 12).mem 12 = 20 ∧ (ex98 12).mem 15 = 23 ∧
    wanted exCfg (pin ex98In 1) (pst ex98 1) 30 = [⟨8, false, 22⟩, ⟨12, true, 22⟩] ∧
    (gotten (pin ex98In 1) (pst ex98 1) 40).map (fun g => (g.1 0, g.2.1)) = [(10, false), (20, true)] := by
  decide +kernel

theorem ex98_aw : ∀ t, t ≤ 2 → (((ex98 t).port 0).awready = true ↔ t = 2) := by decide +kernel
theorem ex98_w : ∀ t, t ≤ 5 → (((ex98 t).port 0).wready = true ↔ 4 ≤ t) := by decide +kernel
theorem ex98_ar : ∀ t, t ≤ 22 → (((ex98 t).port 1).arready = true ↔ t = 22) := by decide +kernel

/-- The hypotheses of the theorems hold for this run. -/
theorem ex98Run : SRun exCfg 0 (fun _ => 0) (fun _ => 0) 2 ex98In (fun _ => List.range 2) ex98 where
  init := rfl
  step _ := rfl
  order _ := .refl _
  awhold t p hp h1 h2 := by
    simp only [ex98In] at h1 ⊢
    split at h1
    · rename_i h
      subst h
      simp only [decide_eq_true_eq] at h1
      have h := ex98_aw t h1
      rw [h2] at h
      have : t ≠ 2 := by rintro rfl; simp at h
      simp only [if_true, decide_eq_true_eq]
      exact ⟨by omega, trivial, trivial⟩
    · cases h1
  arhold t p hp h1 h2 := by
    simp only [ex98In] at h1 ⊢
    split at h1
    · cases h1
    · rename_i hp0
      have : p = 1 := by omega
      subst this
      simp only [decide_eq_true_eq] at h1
      have h := ex98_ar t h1.2
      rw [h2] at h
      have : t ≠ 22 := by rintro rfl; simp at h
      rw [if_neg hp0, if_neg hp0]
      simp only [decide_eq_true_eq]
      exact ⟨by omega, trivial, trivial⟩
  whold t p hp h1 h2 := by
    simp only [ex98In] at h1 ⊢
    split at h1
    · rename_i h
      subst h
      simp only [decide_eq_true_eq] at h1
      have h := ex98_w t h1
      rw [h2] at h
      have : ¬4 ≤ t := by intro h'; simp [h'] at h
      simp only [if_true, decide_eq_true_eq]
      exact ⟨by omega, by rw [if_pos (by omega), if_pos (by omega)]⟩
    · cases h1
  awok t p _ h := by simp only [ex98In] at h ⊢; split <;> simp [exCfg]
  arok t p _ h := by simp only [ex98In] at h ⊢; split <;> simp [exCfg]
  resp t p _ _ _ := by simp only [ex98In]; split <;> rfl

/-- The first word of port 0 is transferred in cycle 4 for its first place, where it replaces byte 9. -/
example : (ex98In 4 0).wvalid = true ∧ ((ex98 4).port 0).wready = true ∧
    (place exCfg ex98In ex98 0 4).map Beat.addr = some 8 ∧ Covers exCfg 9 8 (ex98In 4 0).word :=
  ⟨rfl, by decide +kernel, by decide +kernel, by simp [Covers, exCfg, ex98In, exWord]⟩

/-- The hypothesis of `c98_settled` holds in cycle 5. -/
example : ∀ p, p < 2 → (ex98In 5 p).wvalid = true → ((ex98 5).port p).wready = true := by decide +kernel

end AxiSerial
