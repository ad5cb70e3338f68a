import Verif.Model.AxiMem
import Verif.Props.C01_Fifo
import Mathlib.Data.List.Forall2

/-!
# C56: the AXI memory

For every behaviour of a bus master that keeps an address valid until it is accepted.
-/

namespace AxiMem

/-- `x` are the registers of the memory over time from reset on, for the inputs `inp`.  The master keeps an address valid
    until it is accepted; counts are `awlen + 1`, `arlen + 1`. -/
structure MRun {B : Type} (c : Cfg) (u : B) (w0 : Word B) (mem0 : ℕ → B) (inp : ℕ → In B) (x : ℕ → St B) : Prop where
  init : x 0 = St.init w0 mem0
  step : ∀ t, x (t + 1) = (x t).step c u (inp t)
  awhold : ∀ t, (inp t).awvalid = true → (x t).awready = false → (inp (t + 1)).awvalid = true
  arhold : ∀ t, (inp t).arvalid = true → (x t).arready = false → (inp (t + 1)).arvalid = true
  awaddr : ∀ t, (inp t).awaddr < 2 ^ c.aw ∧ 1 ≤ (inp t).awcnt
  araddr : ∀ t, (inp t).araddr < 2 ^ c.aw ∧ 1 ≤ (inp t).arcnt

section
variable {B : Type} {c : Cfg} {u : B} {w0 : Word B} {mem0 : ℕ → B} {inp : ℕ → In B} {x : ℕ → St B}

/-! ## FIFOs -/

theorem fifo_rep {α : Type} {k : ℕ} {q : Fifo.State α} {l : List α} (h : Fifo.Rep k q l) (e : Bool) (y : α) (d : Bool) :
    Fifo.Rep k (fifoStep k q e y d)
      ((if d && !l.isEmpty then l.tail else l) ++ if e && !almostFull k q then [y] else []) := by
  have hfl := Fifo.flags_eq h
  obtain ⟨q', hr, hq⟩ := Fifo.rep_step h ⟨e && !almostFull k q, y, d && !empty q⟩
  have hE : empty q = l.isEmpty := by
    rw [empty, Fifo.isEmpty_iff h]
    cases l <;> simp
  have hfull : ((e && !almostFull k q) && !(Fifo.flags k q).full) = (e && !almostFull k q) := by
    cases e
    · rfl
    · simp only [Bool.true_and, almostFull, hfl, Fifo.specFlags]
      have := h.len
      rw [Bool.eq_iff_iff]
      simp
      omega
  have hem : ((d && !empty q) && !(Fifo.flags k q).empty) = (d && !l.isEmpty) := by
    have : (Fifo.flags k q).empty = l.isEmpty := hE
    rw [this, hE]
    cases d <;> cases l.isEmpty <;> rfl
  simp only [hfull, hem] at hq
  have : q' = (if d && !l.isEmpty then l.tail else l) ++ if e && !almostFull k q then [y] else [] := by
    cases hd : (d && !l.isEmpty)
    · rw [hd] at hq
      simpa using hq.symm
    · rw [hd] at hq
      have hne : l ≠ [] := by
        intro e; subst e; simp at hd
      obtain ⟨a, l', rfl⟩ := List.exists_cons_of_ne_nil hne
      simp only [if_true, List.cons_append, List.nil_append, List.cons.injEq] at hq
      simpa using hq.2.symm
  rw [← this]
  exact hr

theorem fifo_empty {α : Type} {k : ℕ} {q : Fifo.State α} {l : List α} (h : Fifo.Rep k q l) : empty q = l.isEmpty := by
  rw [empty, Fifo.isEmpty_iff h]
  cases l <;> simp

theorem fifo_head {α : Type} {k : ℕ} {q : Fifo.State α} {a : α} {l : List α} (h : Fifo.Rep k q (a :: l)) :
    Fifo.asyncRdata q = a := by
  have := h.mem_eq 0 (by simp)
  rw [Nat.add_zero, Nat.mod_eq_of_lt h.tail_lt] at this
  exact this

theorem fifo_almostFull {α : Type} {k : ℕ} {q : Fifo.State α} {l : List α} (h : Fifo.Rep k q l) :
    almostFull k q = decide (2 ^ k - 1 ≤ l.length + 1) := by
  rw [almostFull, Fifo.flags_eq h]; rfl

/-! ## Writes -/

/-- A write address is transferred in cycle `t`. -/
def AW (inp : ℕ → In B) (x : ℕ → St B) (t : ℕ) : Bool := (inp t).awvalid && (x t).awready
/-- Write data is transferred in cycle `t`. -/
def WD (c : Cfg) (inp : ℕ → In B) (x : ℕ → St B) (t : ℕ) : Bool := (inp t).wvalid && (x t).wready c
/-- A read address is transferred in cycle `t`. -/
def AR (inp : ℕ → In B) (x : ℕ → St B) (t : ℕ) : Bool := (inp t).arvalid && (x t).arready
/-- A beat of read data is transferred in cycle `t`. -/
def RD (inp : ℕ → In B) (x : ℕ → St B) (t : ℕ) : Bool := (x t).rvalid && (inp t).rready

/-- The write requests (address, number of words) transferred before cycle `t`. -/
def awL (inp : ℕ → In B) (x : ℕ → St B) : ℕ → List (ℕ × ℕ)
  | 0 => []
  | t + 1 => awL inp x t ++ if AW inp x t then [((inp t).awaddr, (inp t).awcnt)] else []

/-- The words of write data transferred before cycle `t`. -/
def wL (c : Cfg) (inp : ℕ → In B) (x : ℕ → St B) : ℕ → List (Word B)
  | 0 => []
  | t + 1 => wL c inp x t ++ if WD c inp x t then [(inp t).word] else []

/-- What a memory does with write requests and words: the requests are served in order, each one takes words until its
    count is reached or a word is marked as last, the words go to consecutive word addresses.
    `Served nb aw R W L cur b`: the requests `R` and words `W` have led to the writes `L` (address, word); `cur` is the
    next address and remaining count of the request being served, `b` the number of requests completed. -/
inductive Served (nb aw : ℕ) : List (ℕ × ℕ) → List (Word B) → List (ℕ × Word B) → Option (ℕ × ℕ) → ℕ → Prop
  | nil : Served nb aw [] [] [] none 0
  | req {R W L b} (a n : ℕ) : Served nb aw R W L none b → Served nb aw (R ++ [(a, n)]) W L (some (a, n)) b
  | word {R W L b} (a n : ℕ) (w : Word B) : Served nb aw R W L (some (a, n)) b → n ≠ 1 → w.last = false →
      Served nb aw R (W ++ [w]) (L ++ [(a, w)]) (some ((a + nb) % 2 ^ aw, n - 1)) b
  | fin {R W L b} (a n : ℕ) (w : Word B) : Served nb aw R W L (some (a, n)) b → n = 1 ∨ w.last = true →
      Served nb aw R (W ++ [w]) (L ++ [(a, w)]) none (b + 1)

/-- Requests served, words used, writes done, request being served, requests completed. -/
structure Gh (B : Type) where
  R : List (ℕ × ℕ)
  W : List (Word B)
  L : List (ℕ × Word B)
  cur : Option (ℕ × ℕ)
  b : ℕ

/-- A word is written in cycle `t`. -/
def wr (c : Cfg) (x : ℕ → St B) (t : ℕ) : Bool := (x t).dst == 1 && !empty (x t).wdat && (x t).awake c

/-- It is the last one of its request. -/
def fin (c : Cfg) (x : ℕ → St B) (t : ℕ) : Bool :=
  wr c x t && ((x t).wcount == 1 || (Fifo.asyncRdata (x t).wdat).last)

/-- The progress of the write side over time. -/
def gh (c : Cfg) (x : ℕ → St B) : ℕ → Gh B
  | 0 => ⟨[], [], [], none, 0⟩
  | t + 1 =>
    let g := gh c x t
    if (x t).dst = 0 then
      (if empty (x t).wreq then g
       else { g with R := g.R ++ [Fifo.asyncRdata (x t).wreq], cur := some (Fifo.asyncRdata (x t).wreq) })
    else if wr c x t then
      ⟨g.R, g.W ++ [Fifo.asyncRdata (x t).wdat], g.L ++ [((x t).waddr, Fifo.asyncRdata (x t).wdat)],
       if fin c x t then none else some (((x t).waddr + c.nb) % 2 ^ c.aw, (x t).wcount - 1),
       if fin c x t then g.b + 1 else g.b⟩
    else g

/-- The invariant of the write side. -/
structure WInv (c : Cfg) (inp : ℕ → In B) (x : ℕ → St B) (t : ℕ) (q1 : List (ℕ × ℕ)) (q2 : List (Word B)) : Prop where
  e1 : awL inp x t = (gh c x t).R ++ q1
  r1 : Fifo.Rep c.reqAw (x t).wreq q1
  e2 : wL c inp x t = (gh c x t).W ++ q2
  r2 : Fifo.Rep c.datAw (x t).wdat q2
  served : Served c.nb c.aw (gh c x t).R (gh c x t).W (gh c x t).L (gh c x t).cur (gh c x t).b
  dst : ((x t).dst = 0 ∧ (gh c x t).cur = none) ∨
    ((x t).dst = 1 ∧ (gh c x t).cur = some ((x t).waddr, (x t).wcount) ∧ (x t).bvalid = false)
  wst : (x t).wst ≤ c.wdelay + 1
  aw0 : (x t).wst ≠ 0 → (inp t).awvalid = true
  awr : (x t).awready = true → (x t).wst = c.wdelay + 1 ∧ almostFull c.reqAw (x t).wreq = false

theorem winv (hx : MRun c u w0 mem0 inp x) (t : ℕ) : ∃ q1 q2, WInv c inp x t q1 q2 := by
  induction t with
  | zero =>
    have h0 := hx.init
    refine ⟨[], [], rfl, ?_, rfl, ?_, .nil, .inl ⟨?_, rfl⟩, ?_, ?_, ?_⟩ <;> rw [h0]
    · exact Fifo.rep_init _ _ _
    · exact Fifo.rep_init _ _ _
    · rfl
    · exact Nat.zero_le _
    · intro h; exact absurd rfl h
    · intro h; simp [St.init] at h
  | succ t ih =>
    obtain ⟨q1, q2, e1, r1, e2, r2, served, dst, wst, aw0, awr⟩ := ih
    have hst := hx.step t
    have hem1 := fifo_empty r1
    have hem2 := fifo_empty r2
    -- the requests
    have haw : ((x t).wst == c.wdelay + 1 && ((inp t).awvalid && (x t).awready)) = AW inp x t := by
      cases h : (x t).awready
      · simp [AW, h]
      · simp [AW, h, (awr h).1]
    have haw' : (AW inp x t && !almostFull c.reqAw (x t).wreq) = AW inp x t := by
      cases h : (x t).awready
      · simp [AW, h]
      · simp [(awr h).2]
    have hwd : ((inp t).wvalid && (x t).wready c && !almostFull c.datAw (x t).wdat) = WD c inp x t := by
      simp only [WD, St.wready]
      cases (inp t).wvalid <;> cases almostFull c.datAw (x t).wdat <;> rfl
    have f1 := fifo_rep r1 ((x t).wst == c.wdelay + 1 && ((inp t).awvalid && (x t).awready))
      ((inp t).awaddr, (inp t).awcnt) ((x t).dst == 0 && !empty (x t).wreq)
    have f2 := fifo_rep r2 ((inp t).wvalid && (x t).wready c) (inp t).word
      ((x t).dst == 1 && (x t).awake c && !empty (x t).wdat)
    rw [haw, haw', hem1] at f1
    rw [hwd, hem2] at f2
    have g1 : (x (t + 1)).wreq = fifoStep c.reqAw (x t).wreq ((x t).wst == c.wdelay + 1 && ((inp t).awvalid && (x t).awready))
      ((inp t).awaddr, (inp t).awcnt) ((x t).dst == 0 && !empty (x t).wreq) := by rw [hst]; rfl
    have g2 : (x (t + 1)).wdat = fifoStep c.datAw (x t).wdat ((inp t).wvalid && (x t).wready c) (inp t).word
      ((x t).dst == 1 && (x t).awake c && !empty (x t).wdat) := by rw [hst]; rfl
    rw [haw, hem1] at g1
    rw [hem2] at g2
    rw [← g1] at f1
    rw [← g2] at f2
    -- the address FSM
    have s1 : (x (t + 1)).wst ≤ c.wdelay + 1 := by
      rw [hst]; simp only [St.step]
      split
      · split <;> omega
      · split
        · omega
        · split
          · split <;> omega
          · exact wst
    have s2 : (x (t + 1)).wst ≠ 0 → (inp (t + 1)).awvalid = true := by
      intro h
      rcases Nat.eq_zero_or_pos (x t).wst with h0 | h0
      · have hv : (inp t).awvalid = true := by
          cases hv : (inp t).awvalid
          · exfalso; apply h; rw [hst]; simp [St.step, h0, hv]
          · rfl
        have hr : (x t).awready = false := by
          cases hr : (x t).awready
          · rfl
          · have := (awr hr).1; omega
        exact hx.awhold t hv hr
      · have hv := aw0 (by omega)
        cases hr : (x t).awready
        · exact hx.awhold t hv hr
        · exfalso; apply h; rw [hst]
          simp [St.step, (awr hr).1, hv, hr]
    have s3 : (x (t + 1)).awready = true →
        (x (t + 1)).wst = c.wdelay + 1 ∧ almostFull c.reqAw (x (t + 1)).wreq = false := by
      intro h
      have hE : (x t).wst = c.wdelay + 1 := by
        by_contra hne
        have hr : (x t).awready = false := by
          cases hr : (x t).awready
          · rfl
          · exact absurd (awr hr).1 hne
        rw [hst] at h
        simp [St.step, hne, hr] at h
      have hv := aw0 (by omega)
      have hr : (x t).awready = false := by
        cases hr : (x t).awready
        · rfl
        · rw [hst] at h
          simp [St.step, hE, hv, hr] at h
      have hnf : almostFull c.reqAw (x t).wreq = false := by
        cases hn : almostFull c.reqAw (x t).wreq
        · rfl
        · rw [hst] at h
          simp [St.step, hE, hv, hr, hn] at h
      refine ⟨by rw [hst]; simp [St.step, hE, hv, hr], ?_⟩
      have hno : AW inp x t = false := by simp [AW, hr]
      rw [fifo_almostFull f1, hno]
      rw [fifo_almostFull r1] at hnf
      simp only [decide_eq_false_iff_not, Bool.false_and, Bool.false_eq_true, if_false, List.append_nil] at hnf ⊢
      split <;> simp <;> omega
    -- the data FSM
    rcases dst with ⟨hd, hcur⟩ | ⟨hd, hcur, hbv⟩
    · have d2 : ((x t).dst == 1 && (x t).awake c && !q2.isEmpty) = false := by simp [hd]
      rw [d2] at f2
      simp only [hd, BEq.rfl, Bool.true_and, Bool.and_self] at f1
      cases q1 with
      | nil =>
        have hg : gh c x (t + 1) = gh c x t := by
          simp only [gh]; rw [if_pos hd, hem1]; rfl
        refine ⟨_, _, ?_, f1, ?_, f2, by rw [hg]; exact served, .inl ⟨?_, by rw [hg]; exact hcur⟩, s1, s2, s3⟩
        · rw [awL, e1, hg]; simp
        · rw [wL, e2, hg]; simp
        · rw [hst]; simp [St.step, hd, hem1]
      | cons r q1 =>
        have hh := fifo_head r1
        have hg : gh c x (t + 1) = { gh c x t with R := (gh c x t).R ++ [r], cur := some r } := by
          simp only [gh]; rw [if_pos hd, hem1, hh]; rfl
        refine ⟨_, _, ?_, f1, ?_, f2, ?_, .inr ⟨?_, ?_, ?_⟩, s1, s2, s3⟩
        · rw [awL, e1, hg]; simp
        · rw [wL, e2, hg]; simp
        · rw [hg]; rw [hcur] at served
          exact Served.req r.1 r.2 served
        · rw [hst]; simp [St.step, hd, hem1]
        · rw [hg, hst]; simp [St.step, hd, hem1, hh]
        · rw [hst]; simp [St.step, hd]
    · have d1 : ((x t).dst == 0 && !q1.isEmpty) = false := by simp [hd]
      rw [d1] at f1
      have hd0 : ¬(x t).dst = 0 := by omega
      cases hwr : wr c x t
      · have d2 : ((x t).dst == 1 && (x t).awake c && !q2.isEmpty) = false := by
          rw [wr, hem2] at hwr
          rw [← hwr]; cases ((x t).dst == 1) <;> cases (x t).awake c <;> cases q2.isEmpty <;> rfl
        have hg : gh c x (t + 1) = gh c x t := by
          simp only [gh]; rw [if_neg hd0, hwr]; rfl
        have hwr' : ((x t).dst == 1 && !empty (x t).wdat && (x t).awake c) = false := hwr
        rw [d2] at f2
        refine ⟨_, _, ?_, f1, ?_, f2, by rw [hg]; exact served, .inr ⟨?_, ?_, ?_⟩, s1, s2, s3⟩
        · rw [awL, e1, hg]; simp
        · rw [wL, e2, hg]; simp
        · rw [hst]; simp only [St.step, hwr']; simp [hd]
        · rw [hg, hst]; simp only [St.step, hwr']; simp [hd, hcur]
        · rw [hst]; simp only [St.step, hwr']; simp [hd, hbv]
      · have hne : q2 ≠ [] := by
          rintro rfl; simp [wr, hem2] at hwr
        obtain ⟨w, q2', rfl⟩ := List.exists_cons_of_ne_nil hne
        have hh := fifo_head r2
        have hwr' : ((x t).dst == 1 && !empty (x t).wdat && (x t).awake c) = true := hwr
        have d2 : ((x t).dst == 1 && (x t).awake c && !(w :: q2').isEmpty) = true := by
          rw [wr, hem2] at hwr
          rw [← hwr]; cases ((x t).dst == 1) <;> cases (x t).awake c <;> rfl
        rw [d2] at f2
        have hf : fin c x t = ((x t).wcount == 1 || w.last) := by rw [fin, hwr, hh]; rfl
        rw [hcur] at served
        cases hfin : ((x t).wcount == 1 || w.last)
        · have hg : gh c x (t + 1) = ⟨(gh c x t).R, (gh c x t).W ++ [w], (gh c x t).L ++ [((x t).waddr, w)],
              some (((x t).waddr + c.nb) % 2 ^ c.aw, (x t).wcount - 1), (gh c x t).b⟩ := by
            simp only [gh]; rw [if_neg hd0, hwr, hf, hfin, hh]; rfl
          simp only [Bool.or_eq_false_iff, beq_eq_false_iff_ne] at hfin
          refine ⟨_, _, ?_, f1, ?_, f2, ?_, .inr ⟨?_, ?_, ?_⟩, s1, s2, s3⟩
          · rw [awL, e1, hg]; simp
          · rw [wL, e2, hg]; simp
          · rw [hg]
            exact Served.word _ _ w served hfin.1 hfin.2
          · rw [hst]; simp only [St.step, hwr', hh]; simp [hd, hfin]
          · rw [hg, hst]; simp only [St.step, hwr', hh]; simp [hd]
          · rw [hst]; simp only [St.step, hwr', hh]; simp [hd, hfin, hbv]
        · have hg : gh c x (t + 1) = ⟨(gh c x t).R, (gh c x t).W ++ [w], (gh c x t).L ++ [((x t).waddr, w)],
              none, (gh c x t).b + 1⟩ := by
            simp only [gh]; rw [if_neg hd0, hwr, hf, hfin, hh]; rfl
          refine ⟨_, _, ?_, f1, ?_, f2, ?_, .inl ⟨?_, ?_⟩, s1, s2, s3⟩
          · rw [awL, e1, hg]; simp
          · rw [wL, e2, hg]; simp
          · rw [hg]
            refine Served.fin _ _ w served ?_
            simpa using hfin
          · rw [hst]; simp only [St.step, hwr', hh, hfin]; simp [hd]
          · rw [hg]

/-! ## Reads -/

/-- An expected beat of read data: address, last beat of the burst, cycle of the address transfer. -/
structure Beat where
  addr : ℕ
  last : Bool
  time : ℕ
  deriving DecidableEq

/-- The `n` beats of a burst at address `a`, wrapping at `2 ^ aw`. -/
def beatsFrom (c : Cfg) (a n time : ℕ) : List Beat :=
  (List.range n).map fun k => ⟨(a + k * c.nb) % 2 ^ c.aw, decide (k + 1 = n), time⟩

/-- The beats of all read requests accepted before cycle `t`. -/
def expect (c : Cfg) (inp : ℕ → In B) (x : ℕ → St B) : ℕ → List Beat
  | 0 => []
  | t + 1 => expect c inp x t ++ if AR inp x t then beatsFrom c (inp t).araddr (inp t).arcnt t else []

/-- The beats transferred before cycle `t`: data, `rlast`, cycle. -/
def got (inp : ℕ → In B) (x : ℕ → St B) : ℕ → List ((ℕ → B) × Bool × ℕ)
  | 0 => []
  | t + 1 => got inp x t ++ if RD inp x t then [((x t).rdata, (x t).rlast, t)] else []

/-- `d` are the bytes in memory at the address of the beat, at one time after its request and before `t`. -/
def Good (c : Cfg) (u : B) (x : ℕ → St B) (d : ℕ → B) (b : Beat) (t : ℕ) : Prop :=
  ∃ s, b.time < s ∧ s < t ∧ ∀ k, d k = if b.addr + k < c.size then (x s).mem (b.addr + k) else u

/-- The beats of the request being served that are still to be put on the bus. -/
inductive Mode (c : Cfg) (x : ℕ → St B) (t : ℕ) : List Beat → Prop
  | idle (h1 : (x t).rst = 0) (h2 : (x t).rvalid = false) : Mode c x t []
  | delay {s : ℕ} (h1 : 1 ≤ (x t).rst) (h1' : (x t).rst ≤ c.rdelay) (h2 : (x t).rvalid = false)
      (h3 : 1 ≤ (x t).rcount) (h4 : (x t).raddr < 2 ^ c.aw) (h5 : s < t) (h6 : (x t).rlast = false) :
      Mode c x t (beatsFrom c (x t).raddr (x t).rcount s)
  | read {s : ℕ} (h1 : (x t).rst = c.rdelay + 1) (h2 : (x t).rvalid = true → (x t).prevR = true)
      (h3 : (x t).rcount = 0 → (x t).rvalid = true) (h4 : (x t).raddr < 2 ^ c.aw) (h5 : s < t)
      (h6 : (x t).rvalid = false → (x t).rlast = false) :
      Mode c x t (beatsFrom c (x t).raddr (x t).rcount s)

/-- The invariant of the read side: `dn` have been transferred, `cur` is offered, `rem` remain of the request being
    served, `qs` are the requests waiting. -/
structure RInv (c : Cfg) (u : B) (inp : ℕ → In B) (x : ℕ → St B) (t : ℕ) (dn : List Beat) (cur : Option Beat)
    (rem : List Beat) (qs : List (ℕ × ℕ × ℕ)) : Prop where
  exp : expect c inp x t = dn ++ cur.toList ++ rem ++ qs.flatMap fun q => beatsFrom c q.1 q.2.1 q.2.2
  rep : Fifo.Rep c.reqAw (x t).rreq (qs.map fun q => (q.1, q.2.1))
  queue : ∀ q ∈ qs, q.1 < 2 ^ c.aw ∧ 1 ≤ q.2.1 ∧ q.2.2 < t
  got : List.Forall₂ (fun g b => g.2.1 = b.last ∧ Good c u x g.1 b g.2.2) (got inp x t) dn
  valid : (x t).rvalid = cur.isSome
  good : ∀ b, cur = some b → (x t).rlast = b.last ∧ Good c u x (x t).rdata b t
  mode : Mode c x t rem
  idle : (x t).rst = 0 → (x t).rlast = false
  ast : (x t).ast ≤ 1
  ar0 : (x t).ast ≠ 0 → (inp t).arvalid = true
  arr : (x t).arready = true → (x t).ast = 1 ∧ almostFull c.reqAw (x t).rreq = false

theorem beatsFrom_succ (c : Cfg) (a n time : ℕ) (ha : a < 2 ^ c.aw) :
    beatsFrom c a (n + 1) time = ⟨a, decide (n = 0), time⟩ :: beatsFrom c ((a + c.nb) % 2 ^ c.aw) n time := by
  simp only [beatsFrom, List.range_succ_eq_map, List.map_cons, List.map_map, Nat.zero_mul, Nat.add_zero,
    Nat.mod_eq_of_lt ha]
  congr 1
  · simp [eq_comm]
  · apply List.map_congr_left
    intro k _
    simp only [Function.comp, Beat.mk.injEq, and_true]
    refine ⟨?_, by simp⟩
    rw [Nat.mod_add_mod]
    congr 1
    rw [Nat.succ_mul]
    omega

theorem Good.succ {d : ℕ → B} {b : Beat} {t : ℕ} (h : Good c u x d b t) : Good c u x d b (t + 1) := by
  obtain ⟨s, h1, h2, h3⟩ := h
  exact ⟨s, h1, by omega, h3⟩

/-- A beat is put on the bus in cycle `t`. -/
def Push (c : Cfg) (inp : ℕ → In B) (x : ℕ → St B) (t : ℕ) : Bool :=
  (x t).rst == c.rdelay + 1 && (x t).awakeR c && decide ((x t).rcount > 0) && ((inp t).rready || !(x t).rvalid)

/-- The next values of the registers of the read side. -/
theorem rstep (hx : MRun c u w0 mem0 inp x) (t : ℕ) :
    (x (t + 1)).rst = (if (x t).rst = 0 then (if !empty (x t).rreq then 1 else 0)
      else if (x t).rst ≤ c.rdelay then (x t).rst + 1
      else if (x t).rst == c.rdelay + 1 then (if (x t).rvalid && (inp t).rready && (x t).rcount == 0 then 0 else (x t).rst)
      else (x t).rst) ∧
    (x (t + 1)).prevR = ((x t).rst == c.rdelay + 1) ∧
    (x (t + 1)).raddr = (if (x t).rst = 0 then (if !empty (x t).rreq then (Fifo.asyncRdata (x t).rreq).1 else (x t).raddr)
      else if Push c inp x t then ((x t).raddr + c.nb) % 2 ^ c.aw else (x t).raddr) ∧
    (x (t + 1)).rcount = (if (x t).rst = 0 then (if !empty (x t).rreq then (Fifo.asyncRdata (x t).rreq).2 else (x t).rcount)
      else if Push c inp x t then (x t).rcount - 1 else (x t).rcount) ∧
    (x (t + 1)).rvalid = (if (x t).rst == c.rdelay + 1 && ((x t).rvalid && !(inp t).rready) then (x t).rvalid
      else if Push c inp x t then true else if (x t).prevR then false else (x t).rvalid) ∧
    (x (t + 1)).rlast = (if (x t).rst == c.rdelay + 1 && ((x t).rvalid && !(inp t).rready) then (x t).rlast
      else if Push c inp x t && (x t).rcount == 1 then true else if (x t).prevR then false else (x t).rlast) ∧
    (x (t + 1)).rdata = (if (x t).rst == c.rdelay + 1 && ((inp t).rready || !(x t).rvalid) then
      fun k => rdByte u c.size (x t).mem ((x t).raddr + k) else (x t).rdata) := by
  rw [hx.step t]
  exact ⟨rfl, rfl, rfl, rfl, rfl, rfl, rfl⟩

theorem rinv (hx : MRun c u w0 mem0 inp x) (t : ℕ) : ∃ dn cur rem qs, RInv c u inp x t dn cur rem qs := by
  induction t with
  | zero =>
    have h0 := hx.init
    refine ⟨[], none, [], [], rfl, ?_, by simp, .nil, ?_, by simp, .idle ?_ ?_, ?_, ?_, ?_, ?_⟩ <;> rw [h0]
    · exact Fifo.rep_init _ _ _
    · rfl
    · rfl
    · rfl
    · intro _; rfl
    · exact Nat.zero_le _
    · intro h; exact absurd rfl h
    · intro h; simp [St.init] at h
  | succ t ih =>
    obtain ⟨dn, cur, rem, qs, hexp, hrep, hqs, hgot, hval, hgood, hmode, hidle, hast, har0, harr⟩ := ih
    obtain ⟨f1, f2, f3, f4, f5, f6, f7⟩ := rstep hx t
    have hst := hx.step t
    have hem := fifo_empty hrep
    have hem' : empty (x t).rreq = qs.isEmpty := by rw [hem]; cases qs <;> rfl
    have haw : ((x t).ast == 1 && ((inp t).arvalid && (x t).arready)) = AR inp x t := by
      cases h : (x t).arready
      · simp [AR, h]
      · simp [AR, h, (harr h).1]
    have haw' : (AR inp x t && !almostFull c.reqAw (x t).rreq) = AR inp x t := by
      cases h : (x t).arready
      · simp [AR, h]
      · simp [(harr h).2]
    have q1 := fifo_rep hrep ((x t).ast == 1 && ((inp t).arvalid && (x t).arready))
      ((inp t).araddr, (inp t).arcnt) ((x t).rst == 0 && !empty (x t).rreq)
    have g1 : (x (t + 1)).rreq = fifoStep c.reqAw (x t).rreq ((x t).ast == 1 && ((inp t).arvalid && (x t).arready))
      ((inp t).araddr, (inp t).arcnt) ((x t).rst == 0 && !empty (x t).rreq) := by rw [hst]; rfl
    rw [← g1, haw, haw', hem', ← hem, hem'] at q1
    -- the queue after this cycle
    have q2 : Fifo.Rep c.reqAw (x (t + 1)).rreq
        ((((if (x t).rst == 0 && !qs.isEmpty then qs.tail else qs)) ++
          if AR inp x t then [((inp t).araddr, (inp t).arcnt, t)] else []).map fun q => (q.1, q.2.1)) := by
      have : ((((if (x t).rst == 0 && !qs.isEmpty then qs.tail else qs)) ++
          if AR inp x t then [((inp t).araddr, (inp t).arcnt, t)] else []).map fun q => (q.1, q.2.1)) =
          (if (x t).rst == 0 && !qs.isEmpty && !qs.isEmpty then (qs.map fun q => (q.1, q.2.1)).tail else
            qs.map fun q => (q.1, q.2.1)) ++ if AR inp x t then [((inp t).araddr, (inp t).arcnt)] else [] := by
        rw [Bool.and_assoc, Bool.and_self, List.map_append]
        congr 1
        · split <;> simp [List.map_tail]
        · split <;> rfl
      rw [this]; exact q1
    have q3 : ∀ q ∈ (if (x t).rst == 0 && !qs.isEmpty then qs.tail else qs) ++
          (if AR inp x t then [((inp t).araddr, (inp t).arcnt, t)] else []),
        q.1 < 2 ^ c.aw ∧ 1 ≤ q.2.1 ∧ q.2.2 < t + 1 := by
      intro q hq
      rcases List.mem_append.mp hq with hq | hq
      · have hq : q ∈ qs := by
          split at hq
          · exact List.mem_of_mem_tail hq
          · exact hq
        obtain ⟨h1, h2, h3⟩ := hqs q hq
        exact ⟨h1, h2, by omega⟩
      · split at hq
        · simp only [List.mem_singleton] at hq
          subst hq
          exact ⟨(hx.araddr t).1, (hx.araddr t).2, Nat.lt_succ_self t⟩
        · simp at hq
    have q4 : ((if AR inp x t then [((inp t).araddr, (inp t).arcnt, t)] else []).flatMap
        fun q => beatsFrom c q.1 q.2.1 q.2.2) = if AR inp x t then beatsFrom c (inp t).araddr (inp t).arcnt t else [] := by
      split <;> simp
    -- the address FSM
    have s1 : (x (t + 1)).ast ≤ 1 := by
      rw [hst]; simp only [St.step]
      split
      · split <;> omega
      · split
        · split <;> omega
        · exact hast
    have s2 : (x (t + 1)).ast ≠ 0 → (inp (t + 1)).arvalid = true := by
      intro h
      rcases Nat.eq_zero_or_pos (x t).ast with h0 | h0
      · have hv : (inp t).arvalid = true := by
          cases hv : (inp t).arvalid
          · exfalso; apply h; rw [hst]; simp [St.step, h0, hv]
          · rfl
        have hr : (x t).arready = false := by
          cases hr : (x t).arready
          · rfl
          · have := (harr hr).1; omega
        exact hx.arhold t hv hr
      · have hv := har0 (by omega)
        cases hr : (x t).arready
        · exact hx.arhold t hv hr
        · exfalso; apply h; rw [hst]
          simp [St.step, (harr hr).1, hv, hr]
    have s3 : (x (t + 1)).arready = true →
        (x (t + 1)).ast = 1 ∧ almostFull c.reqAw (x (t + 1)).rreq = false := by
      intro h
      have hE : (x t).ast = 1 := by
        by_contra hne
        have hr : (x t).arready = false := by
          cases hr : (x t).arready
          · rfl
          · exact absurd (harr hr).1 hne
        rw [hst] at h
        simp [St.step, hne, hr] at h
      have hv := har0 (by omega)
      have hr : (x t).arready = false := by
        cases hr : (x t).arready
        · rfl
        · rw [hst] at h
          simp [St.step, hE, hv, hr] at h
      have hnf : almostFull c.reqAw (x t).rreq = false := by
        cases hn : almostFull c.reqAw (x t).rreq
        · rfl
        · rw [hst] at h
          simp [St.step, hE, hv, hr, hn] at h
      refine ⟨by rw [hst]; simp [St.step, hE, hv, hr], ?_⟩
      have hno : AR inp x t = false := by simp [AR, hr]
      rw [fifo_almostFull q2, hno]
      rw [fifo_almostFull hrep] at hnf
      simp only [decide_eq_false_iff_not, List.length_map, Bool.false_eq_true, if_false, List.append_nil] at hnf ⊢
      split <;> simp <;> omega
    cases hmode with
    | idle h1 h2 =>
      have hcur : cur = none := by rw [h2] at hval; cases cur with | none => rfl | some _ => cases hval
      subst hcur
      have hS : ((x t).rst == c.rdelay + 1) = false := by simp [h1]
      have hP : Push c inp x t = false := by simp [Push, hS]
      rw [if_pos h1, hem'] at f1 f3 f4
      rw [hS, hP, h2] at f5
      rw [hS, hP, hidle h1] at f6
      have hv' : (x (t + 1)).rvalid = false := by rw [f5]; simp
      have hl' : (x (t + 1)).rlast = false := by rw [f6]; simp
      have hgot' : got inp x (t + 1) = got inp x t := by simp [got, RD, h2]
      cases qs with
      | nil =>
        refine ⟨dn, none, [], _, ?_, q2, q3, ?_, hv', by simp, .idle f1 hv', fun _ => hl', s1, s2, s3⟩
        · rw [expect, hexp, List.flatMap_append, q4]; simp
        · rw [hgot']; exact hgot
      | cons q qs =>
        have hh : Fifo.asyncRdata (x t).rreq = (q.1, q.2.1) := fifo_head hrep
        rw [hh] at f3 f4
        obtain ⟨k1, k2, k3⟩ := hqs q (by simp)
        refine ⟨dn, none, beatsFrom c (x (t + 1)).raddr (x (t + 1)).rcount q.2.2, _, ?_, q2, q3, ?_, hv', by simp, ?_,
          fun _ => hl', s1, s2, s3⟩
        · rw [expect, hexp, List.flatMap_append, q4, f3, f4]; simp [h1]
        · rw [hgot']; exact hgot
        · have e3 : (x (t + 1)).raddr = q.1 := f3
          have e4 : (x (t + 1)).rcount = q.2.1 := f4
          have e1 : (x (t + 1)).rst = 1 := f1
          rcases Nat.eq_zero_or_pos c.rdelay with hz | hz
          · refine .read (by omega) ?_ ?_ (by rw [e3]; exact k1) (by omega) (fun _ => hl')
            · intro h; rw [hv'] at h; cases h
            · intro h; omega
          · exact .delay (by omega) (by omega) hv' (by omega) (by rw [e3]; exact k1) (by omega) hl'
    | delay h1 h1' h2 h3 h4 h5 h6 =>
      rename_i s
      have hcur : cur = none := by rw [h2] at hval; cases cur with | none => rfl | some _ => cases hval
      subst hcur
      have hS : ((x t).rst == c.rdelay + 1) = false := by
        rw [beq_eq_false_iff_ne]; omega
      have hP : Push c inp x t = false := by simp [Push, hS]
      have hne : ¬(x t).rst = 0 := by omega
      have hne' : ((x t).rst == 0) = false := by simpa using hne
      rw [if_neg hne] at f1 f3 f4
      rw [if_pos h1'] at f1
      rw [hP] at f3 f4
      rw [hS, hP, h2] at f5
      rw [hS, hP, h6] at f6
      have e3 : (x (t + 1)).raddr = (x t).raddr := f3
      have e4 : (x (t + 1)).rcount = (x t).rcount := f4
      have hv' : (x (t + 1)).rvalid = false := by rw [f5]; simp
      have hl' : (x (t + 1)).rlast = false := by rw [f6]; simp
      have hgot' : got inp x (t + 1) = got inp x t := by simp [got, RD, h2]
      refine ⟨dn, none, beatsFrom c (x (t + 1)).raddr (x (t + 1)).rcount s, _, ?_, q2, q3, ?_, hv', by simp, ?_,
        fun _ => hl', s1, s2, s3⟩
      · rw [expect, hexp, List.flatMap_append, q4, e3, e4, hne']; simp
      · rw [hgot']; exact hgot
      · rcases Nat.lt_or_ge (x t).rst c.rdelay with hz | hz
        · exact .delay (by omega) (by omega) hv' (by omega) (by rw [e3]; exact h4) (by omega) hl'
        · refine .read (by omega) ?_ ?_ (by rw [e3]; exact h4) (by omega) (fun _ => hl')
          · intro h; rw [hv'] at h; cases h
          · intro h; omega
    | read h1 h2 h3 h4 h5 h6 =>
      rename_i s
      have hS : ((x t).rst == c.rdelay + 1) = true := by simp [h1]
      have hne : ¬(x t).rst = 0 := by omega
      have hne' : ((x t).rst == 0) = false := by simpa using hne
      have hnd : ¬(x t).rst ≤ c.rdelay := by omega
      rw [if_neg hne] at f1 f3 f4
      rw [if_neg hnd, if_pos hS] at f1
      rw [hS, Bool.true_and] at f5 f6 f7
      rw [hS] at f2
      rw [hne'] at q2 q3
      rw [Bool.false_and, if_neg (by simp)] at q2 q3
      -- the beat offered is kept
      by_cases hkeep : (x t).rvalid = true ∧ (inp t).rready = false
      · obtain ⟨hv, hr⟩ := hkeep
        have hP : Push c inp x t = false := by simp [Push, hv, hr]
        rw [hv, hr] at f1 f5 f6 f7
        rw [hP] at f3 f4
        have e3 : (x (t + 1)).raddr = (x t).raddr := f3
        have e4 : (x (t + 1)).rcount = (x t).rcount := f4
        have e5 : (x (t + 1)).rvalid = true := f5
        have e6 : (x (t + 1)).rlast = (x t).rlast := f6
        have e7 : (x (t + 1)).rdata = (x t).rdata := f7
        have hgot' : got inp x (t + 1) = got inp x t := by simp [got, RD, hr]
        refine ⟨dn, cur, beatsFrom c (x (t + 1)).raddr (x (t + 1)).rcount s, _, ?_, q2, q3, ?_, ?_, ?_, ?_,
          ?_, s1, s2, s3⟩
        · rw [expect, hexp, List.flatMap_append, q4, e3, e4]; simp
        · rw [hgot']; exact hgot
        · rw [e5, ← hval, hv]
        · intro b hb
          obtain ⟨k1, k2⟩ := hgood b hb
          rw [e6, e7]
          exact ⟨k1, k2.succ⟩
        · refine .read (by rw [f1]; simpa using h1) (fun _ => f2) (fun _ => e5) (by rw [e3]; exact h4) (by omega) ?_
          intro h; rw [e5] at h; cases h
        · intro h; rw [f1] at h; simp at h; omega
      · -- it is transferred, or there is none
        have hack : ((inp t).rready || !(x t).rvalid) = true := by
          cases hv : (x t).rvalid
          · simp
          · cases hr : (inp t).rready
            · exact absurd ⟨hv, hr⟩ hkeep
            · rfl
        have hnk : ((x t).rvalid && !(inp t).rready) = false := by
          revert hack; cases (x t).rvalid <;> cases (inp t).rready <;> simp
        have hgot' : List.Forall₂ (fun g b => g.2.1 = b.last ∧ Good c u x g.1 b g.2.2) (got inp x (t + 1))
            (dn ++ cur.toList) := by
          cases cur with
          | none =>
            simp only [Option.isSome_none] at hval
            simpa [got, RD, hval] using hgot
          | some b =>
            simp only [Option.isSome_some] at hval
            have hr : (inp t).rready = true := by simpa [hval] using hack
            rw [got]
            simp only [RD, hval, hr, Bool.and_self, if_true]
            exact List.rel_append hgot (by simpa using hgood b rfl)
        rw [hnk] at f5 f6
        rw [hack] at f7
        have e7 : (x (t + 1)).rdata = fun k => rdByte u c.size (x t).mem ((x t).raddr + k) := f7
        cases hP : Push c inp x t
        · -- no new beat
          rw [hP] at f3 f4 f5 f6
          have e3 : (x (t + 1)).raddr = (x t).raddr := f3
          have e4 : (x (t + 1)).rcount = (x t).rcount := f4
          have e5 : (x (t + 1)).rvalid = false := by
            rw [f5]
            cases hv : (x t).rvalid
            · simp
            · simp [h2 hv]
          have e6 : (x (t + 1)).rlast = false := by
            rw [f6]
            cases hv : (x t).rvalid
            · simp [h6 hv]
            · simp [h2 hv]
          cases hfin : ((x t).rvalid && (inp t).rready && (x t).rcount == 0)
          · rw [hfin] at f1
            have e1 : (x (t + 1)).rst = c.rdelay + 1 := by rw [f1]; simpa using h1
            have hcnt : (x t).rcount ≠ 0 := by
              intro h0
              have hv := h3 h0
              have hr : (inp t).rready = true := by simpa [hv] using hack
              simp [hv, hr, h0] at hfin
            refine ⟨dn ++ cur.toList, none, beatsFrom c (x (t + 1)).raddr (x (t + 1)).rcount s, _, ?_, q2, q3, hgot', e5,
              by simp, ?_, fun _ => e6, s1, s2, s3⟩
            · rw [expect, hexp, List.flatMap_append, q4, e3, e4]; simp
            · refine .read e1 (fun _ => f2) (fun h => ?_) (by rw [e3]; exact h4) (by omega) (fun _ => e6)
              omega
          · rw [hfin] at f1
            simp only [Bool.and_eq_true, beq_iff_eq] at hfin
            refine ⟨dn ++ cur.toList, none, [], _, ?_, q2, q3, hgot', e5,
              by simp, .idle f1 e5, fun _ => e6, s1, s2, s3⟩
            rw [expect, hexp, List.flatMap_append, q4, hfin.2]; simp [beatsFrom]
        · -- a new beat
          have hcnt : (x t).rcount ≠ 0 := by
            simp only [Push, Bool.and_eq_true, decide_eq_true_eq] at hP
            omega
          obtain ⟨n, hn⟩ := Nat.exists_eq_succ_of_ne_zero hcnt
          rw [hP] at f3 f4 f5 f6
          have e3 : (x (t + 1)).raddr = ((x t).raddr + c.nb) % 2 ^ c.aw := f3
          have e4 : (x (t + 1)).rcount = n := by rw [f4, hn]; rfl
          have e5 : (x (t + 1)).rvalid = true := f5
          have e6 : (x (t + 1)).rlast = decide (n = 0) := by
            rw [f6, hn]
            by_cases hz : n = 0
            · simp [hz]
            · have : (n.succ == 1) = false := by simpa using hz
              simp only [this, Bool.and_false, Bool.false_eq_true, if_false, hz, decide_false]
              cases hv : (x t).rvalid
              · simp [h6 hv]
              · simp [h2 hv]
          have hfin : ((x t).rvalid && (inp t).rready && (x t).rcount == 0) = false := by simp [hcnt]
          rw [hfin] at f1
          refine ⟨dn ++ cur.toList, some ⟨(x t).raddr, decide (n = 0), s⟩,
            beatsFrom c (x (t + 1)).raddr (x (t + 1)).rcount s, _, ?_, q2, q3, hgot', e5, ?_, ?_, ?_, s1, s2, s3⟩
          · rw [expect, hexp, List.flatMap_append, q4, e3, e4, hn, beatsFrom_succ c _ _ _ h4]; simp
          · intro b hb
            simp only [Option.some.injEq] at hb
            subst hb
            refine ⟨e6, t, h5, Nat.lt_succ_self t, ?_⟩
            intro k
            rw [e7]; rfl
          · refine .read (by rw [f1]; simpa using h1) (fun _ => f2) (fun _ => e5) ?_ (by omega) ?_
            · rw [e3]; exact Nat.mod_lt _ (Nat.two_pow_pos _)
            · intro h; rw [e5] at h; cases h
          · intro h; rw [f1] at h; simp at h; omega

/-! ## Sleep -/

theorem sleep_inv (hx : MRun c u w0 mem0 inp x) (t : ℕ) :
    (x t).sleep ≤ c.interval - 1 ∧ ((x t).keepc = 0 ∨ (x t).keepc < c.keep) := by
  induction t with
  | zero => rw [hx.init]; exact ⟨Nat.zero_le _, .inl rfl⟩
  | succ t ih =>
    rw [hx.step t]
    simp only [St.step]
    constructor
    · split
      · exact ih.1
      · split
        · omega
        · split <;> omega
    · split
      · exact ih.2
      · split
        · split <;> omega
        · exact ih.2

theorem awakeR_eq (hx : MRun c u w0 mem0 inp x) (t : ℕ) : (x t).awakeR c = (x t).awake c := by
  have h := (sleep_inv hx t).1
  simp only [St.awakeR, St.awake]
  congr 1
  rw [Bool.eq_iff_iff]
  simp
  omega

/-- Within `max keep 1` cycles the memory is not asleep, unless the interval is 1. -/
theorem awake_within (hx : MRun c u w0 mem0 inp x) (hi : c.interval ≠ 1) (t : ℕ) :
    ∃ k, k ≤ max c.keep 1 ∧ (x (t + k)).awake c = true := by
  by_cases h0 : c.interval = 0
  · exact ⟨0, Nat.zero_le _, by simp [St.awake, h0]⟩
  by_cases hs : (x t).sleep = c.interval - 1
  · rcases Nat.eq_zero_or_pos c.keep with hk | hk
    · refine ⟨1, by omega, ?_⟩
      have : (x (t + 1)).sleep = 0 := by
        rw [hx.step t]; simp [St.step, h0, hs, hk]
      simp only [St.awake, this, Bool.or_eq_true, bne_iff_ne]
      right; omega
    · have key : ∀ d t, (x t).sleep = c.interval - 1 → (x t).keepc + d = c.keep - 1 →
          (x (t + d + 1)).sleep = 0 := by
        intro d
        induction d with
        | zero =>
          intro t hs hk
          rw [hx.step (t + 0)]
          simp only [St.step, Nat.add_zero]
          rw [if_neg h0, if_pos ⟨hs, .inr (by omega)⟩]
        | succ d ih =>
          intro t hs hk
          have e1 : (x (t + 1)).sleep = c.interval - 1 := by
            rw [hx.step t]
            simp only [St.step]
            rw [if_neg h0, if_neg (by omega), if_neg (by omega), hs]
          have e2 : (x (t + 1)).keepc = (x t).keepc + 1 := by
            rw [hx.step t]
            simp only [St.step]
            rw [if_neg (by omega), if_pos hs, if_neg (by omega)]
          have := ih (t + 1) e1 (by omega)
          rw [show t + (d + 1) + 1 = t + 1 + d + 1 by omega]
          exact this
      have hkc := (sleep_inv hx t).2
      have := key (c.keep - 1 - (x t).keepc) t hs (by omega)
      refine ⟨c.keep - 1 - (x t).keepc + 1, by omega, ?_⟩
      rw [← Nat.add_assoc]
      simp only [St.awake, this, Bool.or_eq_true, bne_iff_ne]
      right; omega
  · exact ⟨0, Nat.zero_le _, by simp [St.awake, hs]⟩

/-! ## The theorems -/

/-- Writing the selected bytes of a word at address `a` of a memory of `size` bytes. -/
def putWord (nb size : ℕ) (m : ℕ → B) (a : ℕ) (w : Word B) : ℕ → B := fun y =>
  if a ≤ y ∧ y < a + nb ∧ y < size ∧ w.strb (y - a) = true then w.byte (y - a) else m y

theorem storeWord_eq (nb size : ℕ) (m : ℕ → B) (a : ℕ) (w : Word B) : storeWord nb size m a w = putWord nb size m a w := by
  have key : ∀ n, (List.range n).foldl (fun m i => if w.strb i then wrByte size m (a + i) (w.byte i) else m) m =
      putWord n size m a w := by
    intro n
    induction n with
    | zero => funext y; simp [putWord]; omega
    | succ n ih =>
      rw [List.range_succ, List.foldl_append, ih]
      funext y
      simp only [List.foldl_cons, List.foldl_nil]
      by_cases hy : y = a + n
      · subst hy
        cases hs : w.strb n
        · simp [putWord, hs]
        · simp [putWord, wrByte, hs]
      · have hiff : (a ≤ y ∧ y < a + (n + 1) ∧ y < size ∧ w.strb (y - a) = true) ↔
            (a ≤ y ∧ y < a + n ∧ y < size ∧ w.strb (y - a) = true) := by
          constructor
          · rintro ⟨h1, h2, h3⟩; exact ⟨h1, by omega, h3⟩
          · rintro ⟨h1, h2, h3⟩; exact ⟨h1, by omega, h3⟩
        have : putWord (n + 1) size m a w y = putWord n size m a w y := by
          simp only [putWord, hiff]
        rw [this]
        split
        · simp [wrByte, hy]
        · rfl
  exact key nb

theorem gh_L (hx : MRun c u w0 mem0 inp x) (t : ℕ) :
    (gh c x (t + 1)).L = (gh c x t).L ++ if wr c x t then [((x t).waddr, Fifo.asyncRdata (x t).wdat)] else [] := by
  obtain ⟨q1, q2, hw⟩ := winv hx t
  simp only [gh]
  rcases hw.dst with ⟨hd, -⟩ | ⟨hd, -⟩
  · have : wr c x t = false := by simp [wr, hd]
    rw [if_pos hd, this]
    split <;> simp
  · rw [if_neg (by omega)]
    split <;> simp

theorem gh_b (hx : MRun c u w0 mem0 inp x) (t : ℕ) :
    (gh c x (t + 1)).b = (gh c x t).b + (if (x (t + 1)).bvalid then 1 else 0) := by
  obtain ⟨q1, q2, hw⟩ := winv hx t
  have hst := hx.step t
  simp only [gh]
  rcases hw.dst with ⟨hd, -⟩ | ⟨hd, -, hb⟩
  · have : (x (t + 1)).bvalid = false := by rw [hst]; simp [St.step, hd]
    rw [if_pos hd, this]
    split <;> simp
  · have hd0 : ¬(x t).dst = 0 := by omega
    have hbv : (x (t + 1)).bvalid = fin c x t := by
      rw [hst]
      simp only [St.step]
      rw [if_neg hd0]
      have : (((x t).dst == 1 && !empty (x t).wdat && (x t).awake c) &&
        ((x t).wcount == 1 || (Fifo.asyncRdata (x t).wdat).last)) = fin c x t := rfl
      rw [this, hb]
      cases fin c x t <;> rfl
    rw [if_neg hd0, hbv]
    cases hwr : wr c x t
    · simp [fin, hwr]
    · simp only [if_true]
      split <;> simp

theorem write_step (hx : MRun c u w0 mem0 inp x) (hi : c.interval ≠ 1) (d : ℕ) : ∀ t, (x t).dst = 1 →
    (gh c x t).W ≠ wL c inp x t → (x (t + d)).awake c = true → ∃ k, k ≤ d + 1 ∧ (gh c x (t + k)).L ≠ (gh c x t).L := by
  induction d with
  | zero =>
    intro t h1 h2 h3
    obtain ⟨q1, q2, hw⟩ := winv hx t
    have hq : q2 ≠ [] := by
      rintro rfl; apply h2; rw [hw.e2, List.append_nil]
    have hwr : wr c x t = true := by
      rw [wr, fifo_empty hw.r2, show (x t).awake c = true from h3, h1]
      cases q2 <;> simp_all
    refine ⟨1, by omega, ?_⟩
    rw [gh_L hx, hwr]; simp
  | succ d ih =>
    intro t h1 h2 h3
    obtain ⟨q1, q2, hw⟩ := winv hx t
    have hq : q2 ≠ [] := by
      rintro rfl; apply h2; rw [hw.e2, List.append_nil]
    cases hwr : wr c x t
    · have hg : gh c x (t + 1) = gh c x t := by
        simp only [gh]; rw [if_neg (by omega), hwr]; rfl
      have hd : (x (t + 1)).dst = 1 := by
        have hwr' : ((x t).dst == 1 && !empty (x t).wdat && (x t).awake c) = false := hwr
        rw [hx.step t]; simp only [St.step, hwr']; simp [h1]
      obtain ⟨k, hk, hl⟩ := ih (t + 1) hd (by
        rw [hg, wL, hw.e2]
        intro h
        have := congrArg List.length h
        simp only [List.length_append] at this
        have : 0 < q2.length := List.length_pos_iff.mpr hq
        omega) (by rwa [show t + 1 + d = t + (d + 1) by omega])
      refine ⟨k + 1, by omega, ?_⟩
      rw [show t + (k + 1) = t + 1 + k by omega, ← hg]
      exact hl
    · refine ⟨1, by omega, ?_⟩
      rw [gh_L hx, hwr]; simp

/-- With a request and a word waiting, a write is done within `max keep_sleep 1 + 2` cycles. -/
theorem write_within (hx : MRun c u w0 mem0 inp x) (hi : c.interval ≠ 1) (t : ℕ)
    (h1 : (gh c x t).cur ≠ none ∨ (gh c x t).R ≠ awL inp x t) (h2 : (gh c x t).W ≠ wL c inp x t) :
    ∃ k, k ≤ max c.keep 1 + 2 ∧ (gh c x (t + k)).L ≠ (gh c x t).L := by
  obtain ⟨q1, q2, hw⟩ := winv hx t
  rcases hw.dst with ⟨hd, hcur⟩ | ⟨hd, hcur, -⟩
  · have hq : q1 ≠ [] := by
      rintro rfl
      rcases h1 with h1 | h1
      · exact h1 hcur
      · apply h1; rw [hw.e1, List.append_nil]
    have he : empty (x t).wreq = false := by rw [fifo_empty hw.r1]; cases q1 <;> simp_all
    have hd' : (x (t + 1)).dst = 1 := by rw [hx.step t]; simp [St.step, hd, he]
    have hg : (gh c x (t + 1)).W = (gh c x t).W ∧ (gh c x (t + 1)).L = (gh c x t).L := by
      simp only [gh]; rw [if_pos hd, he]; exact ⟨rfl, rfl⟩
    obtain ⟨d, hd1, hd2⟩ := awake_within hx hi (t + 1)
    obtain ⟨k, hk, hl⟩ := write_step hx hi d (t + 1) hd' (by
      rw [hg.1, wL, hw.e2]
      intro h
      have := congrArg List.length h
      simp only [List.length_append] at this
      have : 0 < q2.length := by
        apply List.length_pos_iff.mpr
        rintro rfl; apply h2; rw [hw.e2, List.append_nil]
      omega) hd2
    refine ⟨k + 1, by omega, ?_⟩
    show (gh c x (t + (k + 1))).L ≠ (gh c x t).L
    rw [show t + (k + 1) = t + 1 + k by omega, ← hg.2]
    exact hl
  · obtain ⟨d, hd1, hd2⟩ := awake_within hx hi t
    obtain ⟨k, hk, hl⟩ := write_step hx hi d t hd h2 hd2
    exact ⟨k, by omega, hl⟩

/-- A request is accepted within `write_delay + 3` cycles, if the queue has room. -/
theorem accept_within (hx : MRun c u w0 mem0 inp x) (t : ℕ) (hv : (inp t).awvalid = true)
    (hroom : ∀ s, t ≤ s → s ≤ t + c.wdelay + 1 → (awL inp x s).length + 2 < (gh c x s).R.length + 2 ^ c.reqAw) :
    ∃ k, k ≤ c.wdelay + 2 ∧ AW inp x (t + k) = true := by
  have hnf : ∀ s, t ≤ s → s ≤ t + c.wdelay + 1 → almostFull c.reqAw (x s).wreq = false := by
    intro s h1 h2
    obtain ⟨q1, q2, hw⟩ := winv hx s
    have : (awL inp x s).length + 2 < (gh c x s).R.length + 2 ^ c.reqAw := hroom s h1 h2
    rw [hw.e1, List.length_append] at this
    rw [fifo_almostFull hw.r1]
    simp only [decide_eq_false_iff_not]
    omega
  -- from the last state, two cycles
  have fin2 : ∀ s, t ≤ s → s ≤ t + c.wdelay + 1 → (x s).wst = c.wdelay + 1 →
      ∃ k, k ≤ 1 ∧ AW inp x (s + k) = true := by
    intro s h1 h2 h3
    obtain ⟨q1, q2, hw⟩ := winv hx s
    have hv := hw.aw0 (by omega)
    cases hr : (x s).awready
    · refine ⟨1, le_refl _, ?_⟩
      have hr' : (x (s + 1)).awready = true := by
        rw [hx.step s]; simp [St.step, h3, hr, hnf s h1 h2]
      rw [AW, hr', hx.awhold s hv hr]; rfl
    · exact ⟨0, by omega, by rw [Nat.add_zero, AW, hv, hr]; rfl⟩
  have climb : ∀ d s, t ≤ s → s + d ≤ t + c.wdelay + 1 → (x s).wst ≠ 0 → (x s).wst + d = c.wdelay + 1 →
      ∃ k, k ≤ d + 1 ∧ AW inp x (s + k) = true := by
    intro d
    induction d with
    | zero => intro s h1 h2 h3 h4; obtain ⟨k, hk, h⟩ := fin2 s h1 h2 h4; exact ⟨k, by omega, h⟩
    | succ d ih =>
      intro s h1 h2 h3 h4
      have e : (x (s + 1)).wst = (x s).wst + 1 := by
        rw [hx.step s]
        simp only [St.step]
        rw [if_neg h3, if_pos (by omega)]
      obtain ⟨k, hk, h⟩ := ih (s + 1) (by omega) (by omega) (by omega) (by omega)
      exact ⟨k + 1, by omega, by rwa [show s + (k + 1) = s + 1 + k by omega]⟩
  obtain ⟨q1, q2, hw⟩ := winv hx t
  by_cases h0 : (x t).wst = 0
  · have e : (x (t + 1)).wst = 1 := by
      rw [hx.step t]; simp [St.step, h0, hv]
    obtain ⟨k, hk, h⟩ := climb c.wdelay (t + 1) (by omega) (by omega) (by omega) (by omega)
    exact ⟨k + 1, by omega, by rwa [show t + (k + 1) = t + 1 + k by omega]⟩
  · have := hw.wst
    obtain ⟨k, hk, h⟩ := climb (c.wdelay + 1 - (x t).wst) t (by omega) (by omega) h0 (by omega)
    exact ⟨k, by omega, h⟩

/-- **C56, writes.**  At every time, `R` of the accepted requests and `W` of the transferred words (both in order) have led
    to the writes `L`, each request taking words until its count or a last word; each write changes the selected bytes of the
    memory and nothing else does, except the `write` intrinsic; the response is raised once per completed request; with a
    request and a word waiting, a write is done within `max keep_sleep 1 + 2` cycles; a request is accepted within
    `write_delay + 3` cycles, if the queue has room. -/
theorem c56_write (hx : MRun c u w0 mem0 inp x) : ∃ (R : ℕ → List (ℕ × ℕ)) (W : ℕ → List (Word B))
    (L : ℕ → List (ℕ × Word B)) (cur : ℕ → Option (ℕ × ℕ)) (b : ℕ → ℕ),
    (∀ t, R t <+: awL inp x t ∧ W t <+: wL c inp x t ∧ Served c.nb c.aw (R t) (W t) (L t) (cur t) (b t)) ∧
    (∀ t, L t <+: L (t + 1) ∧ (x (t + 1)).mem =
      (inp t).ops.foldl (fun m o => fun y => if y = o.1 ∧ o.1 < c.size then o.2 else m y)
        (((L (t + 1)).drop (L t).length).foldl (fun m p => putWord c.nb c.size m p.1 p.2) (x t).mem)) ∧
    (∀ t, b (t + 1) = b t + if (x (t + 1)).bvalid then 1 else 0) ∧
    (c.interval ≠ 1 → ∀ t, (cur t ≠ none ∨ R t ≠ awL inp x t) → W t ≠ wL c inp x t →
      ∃ k, k ≤ max c.keep 1 + 2 ∧ L (t + k) ≠ L t) ∧
    (∀ t, (inp t).awvalid = true →
      (∀ s, t ≤ s → s ≤ t + c.wdelay + 1 → (awL inp x s).length + 2 < (R s).length + 2 ^ c.reqAw) →
      ∃ k, k ≤ c.wdelay + 2 ∧ AW inp x (t + k) = true) := by
  refine ⟨fun t => (gh c x t).R, fun t => (gh c x t).W, fun t => (gh c x t).L, fun t => (gh c x t).cur,
    fun t => (gh c x t).b, ?_, ?_, gh_b hx, ?_, ?_⟩
  · intro t
    obtain ⟨q1, q2, hw⟩ := winv hx t
    exact ⟨⟨q1, hw.e1.symm⟩, ⟨q2, hw.e2.symm⟩, hw.served⟩
  · intro t
    refine ⟨⟨_, (gh_L hx t).symm⟩, ?_⟩
    simp only [gh_L hx t, List.drop_left]
    have : (x (t + 1)).mem = (inp t).ops.foldl (fun m o => wrByte c.size m o.1 o.2)
        (if wr c x t then storeWord c.nb c.size (x t).mem (x t).waddr (Fifo.asyncRdata (x t).wdat) else (x t).mem) := by
      rw [hx.step t]; rfl
    rw [this, storeWord_eq]
    cases wr c x t <;> rfl
  · exact write_within hx
  · exact accept_within hx

/-- **C56, contents.**  If no `write` intrinsic is used the memory holds its initial contents with the writes of the served
    words applied in order. -/
theorem c56_contents (hx : MRun c u w0 mem0 inp x) (hops : ∀ t, (inp t).ops = []) (t : ℕ) :
    ∃ R W L cur b, R <+: awL inp x t ∧ W <+: wL c inp x t ∧ Served c.nb c.aw R W L cur b ∧
      (x t).mem = L.foldl (fun m p => putWord c.nb c.size m p.1 p.2) mem0 := by
  obtain ⟨R, W, L, cur, b, h1, h2, -⟩ := c56_write hx
  refine ⟨R t, W t, L t, cur t, b t, (h1 t).1, (h1 t).2.1, (h1 t).2.2, ?_⟩
  induction t with
  | zero =>
    have hR : R 0 = [] := List.prefix_nil.mp (h1 0).1
    have hW : W 0 = [] := List.prefix_nil.mp (h1 0).2.1
    have hs := (h1 0).2.2
    rw [hR, hW] at hs
    have : ∀ {R : List (ℕ × ℕ)} {W : List (Word B)} {L cur b}, Served c.nb c.aw R W L cur b → W = [] → L = [] := by
      intro R W L cur b h
      induction h with
      | nil => intro _; rfl
      | req a n _ ih => exact ih
      | word a n w _ _ _ _ => intro h; simp at h
      | fin a n w _ _ _ => intro h; simp at h
    rw [this hs rfl, hx.init]; rfl
  | succ t ih =>
    obtain ⟨⟨l, hl⟩, hm⟩ := h2 t
    rw [hm, hops t, ← hl, List.drop_left, List.foldl_append, ← ih]
    rfl

/-- **C56, reads.**  The beats transferred are, in order, the beats of the accepted requests: consecutive word addresses,
    `rlast` on the last beat, the data is what the memory holds at these addresses at a time between the request and the
    transfer; the beat on the bus is the next one. -/
theorem c56_read (hx : MRun c u w0 mem0 inp x) (t : ℕ) : ∃ dn rest, expect c inp x t = dn ++ rest ∧
    List.Forall₂ (fun g b => g.2.1 = b.last ∧ Good c u x g.1 b g.2.2) (got inp x t) dn ∧
    ((x t).rvalid = true → ∃ b rest', rest = b :: rest' ∧ (x t).rlast = b.last ∧ Good c u x (x t).rdata b t) := by
  obtain ⟨dn, cur, rem, qs, h⟩ := rinv hx t
  refine ⟨dn, cur.toList ++ rem ++ qs.flatMap fun q => beatsFrom c q.1 q.2.1 q.2.2, ?_, h.got, ?_⟩
  · rw [h.exp]; simp
  · intro hv
    rw [h.valid] at hv
    cases cur with
    | none => cases hv
    | some b =>
      obtain ⟨k1, k2⟩ := h.good b rfl
      exact ⟨b, rem ++ qs.flatMap fun q => beatsFrom c q.1 q.2.1 q.2.2, by simp, k1, k2⟩

/-- **C56, read data is stable** until it is taken. -/
theorem c56_read_stable (hx : MRun c u w0 mem0 inp x) (t : ℕ) (hv : (x t).rvalid = true) (hr : (inp t).rready = false) :
    (x (t + 1)).rvalid = true ∧ (x (t + 1)).rlast = (x t).rlast ∧ (x (t + 1)).rdata = (x t).rdata := by
  obtain ⟨dn, cur, rem, qs, h⟩ := rinv hx t
  obtain ⟨-, -, -, -, f5, f6, f7⟩ := rstep hx t
  have hS : ((x t).rst == c.rdelay + 1) = true := by
    cases h.mode with
    | idle _ h2 => rw [hv] at h2; cases h2
    | delay _ _ h2 => rw [hv] at h2; cases h2
    | read h1 => simp [h1]
  rw [f5, f6, f7, hS, hv, hr]
  exact ⟨rfl, rfl, rfl⟩

theorem read_push (hx : MRun c u w0 mem0 inp x) (d : ℕ) : ∀ t, (x t).rst = c.rdelay + 1 → (x (t + d)).awake c = true →
    ∃ k, k ≤ d + 1 ∧ (x (t + k)).rvalid = true := by
  induction d with
  | zero =>
    intro t h1 h2
    obtain ⟨dn, cur, rem, qs, h⟩ := rinv hx t
    obtain ⟨-, -, -, -, f5, -, -⟩ := rstep hx t
    cases hv : (x t).rvalid
    · refine ⟨1, by omega, ?_⟩
      have hcnt : (x t).rcount ≠ 0 := by
        cases h.mode with
        | idle h1' => omega
        | delay _ h1' => omega
        | read _ _ h3 => intro h0; rw [h3 h0] at hv; cases hv
      have hP : Push c inp x t = true := by
        have : 0 < (x t).rcount := by omega
        rw [Push, awakeR_eq hx, show (x t).awake c = true from h2, h1, hv]
        simp [this]
      rw [f5, hv, hP]; simp
    · exact ⟨0, by omega, hv⟩
  | succ d ih =>
    intro t h1 h2
    obtain ⟨f1, -, -, -, f5, -, -⟩ := rstep hx t
    cases hv : (x t).rvalid
    · have e1 : (x (t + 1)).rst = c.rdelay + 1 := by
        rw [f1, if_neg (by omega), if_neg (by omega), hv, h1]; simp
      obtain ⟨k, hk, hl⟩ := ih (t + 1) e1 (by rwa [show t + 1 + d = t + (d + 1) by omega])
      exact ⟨k + 1, by omega, by rwa [show t + (k + 1) = t + 1 + k by omega]⟩
    · exact ⟨0, by omega, hv⟩

/-- **C56, read progress.**  While beats are outstanding, one is offered within `read_delay + max keep_sleep 1 + 2` cycles;
    a request is accepted within three cycles if less than `2 ^ req_fifo_addrwidth - 2` beats are outstanding. -/
theorem c56_read_progress (hx : MRun c u w0 mem0 inp x) :
    (c.interval ≠ 1 → ∀ t, (got inp x t).length < (expect c inp x t).length →
      ∃ k, k ≤ c.rdelay + max c.keep 1 + 2 ∧ (x (t + k)).rvalid = true) ∧
    (∀ t, (inp t).arvalid = true →
      (∀ s, t ≤ s → s ≤ t + 1 → (expect c inp x s).length + 2 < (got inp x s).length + 2 ^ c.reqAw) →
      ∃ k, k ≤ 2 ∧ AR inp x (t + k) = true) := by
  constructor
  · intro hi t hlen
    have climb : ∀ d s, (x s).rst ≠ 0 → (x s).rst + d = c.rdelay + 1 →
        ∃ k, k ≤ d + max c.keep 1 + 1 ∧ (x (s + k)).rvalid = true := by
      intro d
      induction d with
      | zero =>
        intro s h1 h2
        obtain ⟨e, he1, he2⟩ := awake_within hx hi s
        obtain ⟨k, hk, h⟩ := read_push hx e s h2 he2
        exact ⟨k, by omega, h⟩
      | succ d ih =>
        intro s h1 h2
        have e : (x (s + 1)).rst = (x s).rst + 1 := by
          obtain ⟨f1, -⟩ := rstep hx s
          rw [f1, if_neg h1, if_pos (by omega)]
        obtain ⟨k, hk, h⟩ := ih (s + 1) (by omega) (by omega)
        exact ⟨k + 1, by omega, by rwa [show s + (k + 1) = s + 1 + k by omega]⟩
    obtain ⟨dn, cur, rem, qs, h⟩ := rinv hx t
    obtain ⟨f1, -⟩ := rstep hx t
    cases h.mode with
    | idle h1 h2 =>
      have hq : qs ≠ [] := by
        rintro rfl
        have hc : cur = none := by
          have := h.valid
          rw [h2] at this
          cases cur with | none => rfl | some _ => cases this
        subst hc
        have e := h.exp
        simp only [Option.toList_none, List.append_nil, List.flatMap_nil] at e
        rw [e, h.got.length_eq] at hlen
        omega
      have he : empty (x t).rreq = false := by rw [fifo_empty h.rep]; cases qs <;> simp_all
      have e1 : (x (t + 1)).rst = 1 := by rw [f1, if_pos h1, he]; rfl
      obtain ⟨k, hk, h⟩ := climb c.rdelay (t + 1) (by omega) (by omega)
      exact ⟨k + 1, by omega, by rwa [show t + (k + 1) = t + 1 + k by omega]⟩
    | delay h1 h1' h2 =>
      obtain ⟨k, hk, h⟩ := climb (c.rdelay + 1 - (x t).rst) t (by omega) (by omega)
      exact ⟨k, by omega, h⟩
    | read h1 =>
      obtain ⟨k, hk, h⟩ := climb 0 t (by omega) (by omega)
      exact ⟨k, by omega, h⟩
  · intro t hv hroom
    have hnf : ∀ s, t ≤ s → s ≤ t + 1 → almostFull c.reqAw (x s).rreq = false := by
      intro s h1 h2
      obtain ⟨dn, cur, rem, qs, h⟩ := rinv hx s
      have hr := hroom s h1 h2
      have hl : qs.length ≤ (qs.flatMap fun q => beatsFrom c q.1 q.2.1 q.2.2).length := by
        have hall : ∀ q ∈ qs, 1 ≤ q.2.1 := fun q hq => (h.queue q hq).2.1
        clear hr h
        induction qs with
        | nil => simp
        | cons q qs ih =>
          have h1 := hall q (by simp)
          have h2 := ih fun r hr => hall r (List.mem_cons_of_mem _ hr)
          simp only [List.flatMap_cons, List.length_append, List.length_cons, beatsFrom, List.length_map,
            List.length_range] at h2 ⊢
          omega
      rw [h.exp, h.got.length_eq] at hr
      simp only [List.length_append] at hr
      rw [fifo_almostFull h.rep]
      simp only [decide_eq_false_iff_not, List.length_map]
      omega
    have fin2 : ∀ s, t ≤ s → s ≤ t + 1 → (x s).ast = 1 → ∃ k, k ≤ 1 ∧ AR inp x (s + k) = true := by
      intro s h1 h2 h3
      obtain ⟨dn, cur, rem, qs, h⟩ := rinv hx s
      have hv := h.ar0 (by omega)
      cases hr : (x s).arready
      · refine ⟨1, le_refl _, ?_⟩
        have hr' : (x (s + 1)).arready = true := by
          rw [hx.step s]; simp [St.step, h3, hr, hnf s h1 h2]
        rw [AR, hr', hx.arhold s hv hr]; rfl
      · exact ⟨0, by omega, by rw [Nat.add_zero, AR, hv, hr]; rfl⟩
    obtain ⟨dn, cur, rem, qs, h⟩ := rinv hx t
    by_cases h0 : (x t).ast = 0
    · have e : (x (t + 1)).ast = 1 := by
        rw [hx.step t]; simp [St.step, h0, hv]
      obtain ⟨k, hk, h⟩ := fin2 (t + 1) (by omega) (by omega) e
      exact ⟨k + 1, by omega, by rwa [show t + (k + 1) = t + 1 + k by omega]⟩
    · have := h.ast
      obtain ⟨k, hk, h⟩ := fin2 t (by omega) (by omega) (by omega)
      exact ⟨k, by omega, h⟩

/-! ## Disagreements -/

/-- With `sleep_interval = 1` the memory never writes a word and never offers read data. -/
theorem c56_not_interval1 (hx : MRun c u w0 mem0 inp x) (hi : c.interval = 1) (hops : ∀ t, (inp t).ops = []) (t : ℕ) :
    (x t).mem = mem0 ∧ (x t).rvalid = false := by
  have hs : ∀ t, (x t).sleep = 0 := fun t => by have := (sleep_inv hx t).1; omega
  induction t with
  | zero => rw [hx.init]; exact ⟨rfl, rfl⟩
  | succ t ih =>
    have ha : (x t).awake c = false := by simp [St.awake, hi, hs]
    have ha' : (x t).awakeR c = false := by rw [awakeR_eq hx, ha]
    rw [hx.step t]
    simp only [St.step, ha, ha', Bool.and_false, Bool.false_and, hops t, List.foldl_nil, ih.2]
    exact ⟨ih.1, by simp⟩

/-- With `req_fifo_addrwidth = 1` no request is ever accepted. -/
theorem c56_not_small_fifo (hx : MRun c u w0 mem0 inp x) (hi : c.reqAw ≤ 1) (t : ℕ) :
    AW inp x t = false ∧ AR inp x t = false := by
  have hp : 2 ^ c.reqAw ≤ 2 := by
    rcases Nat.le_one_iff_eq_zero_or_eq_one.mp hi with h | h <;> rw [h] <;> decide
  obtain ⟨q1, q2, hw⟩ := winv hx t
  obtain ⟨dn, cur, rem, qs, h⟩ := rinv hx t
  constructor
  · cases hr : (x t).awready
    · simp [AW, hr]
    · have := (hw.awr hr).2
      rw [fifo_almostFull hw.r1] at this
      simp only [decide_eq_false_iff_not] at this
      omega
  · cases hr : (x t).arready
    · simp [AR, hr]
    · have := (h.arr hr).2
      rw [fifo_almostFull h.rep] at this
      simp only [decide_eq_false_iff_not] at this
      omega

end

/-! ## A concrete run -/

/-- A run given by its inputs. -/
def memRun {B : Type} (c : Cfg) (u : B) (w0 : Word B) (mem0 : ℕ → B) (inp : ℕ → In B) : ℕ → St B
  | 0 => St.init w0 mem0
  | t + 1 => (memRun c u w0 mem0 inp t).step c u (inp t)

/-- 4 bytes per word, 32 bit addresses, 1024 bytes, write delay 1, read delay 0, sleep for one cycle out of 4. -/
def exCfg : Cfg := ⟨4, 32, 1024, 3, 3, 1, 0, 4, 1⟩

/-- A word with the bytes `v, v + 1, v + 2, v + 3`, all selected. -/
def exWord (v : ℕ) (last : Bool) : Word ℕ := ⟨fun k => v + k, fun _ => true, last⟩

/-- The master writes two words at address 8 and reads two words there after that, accepting no response. -/
def exIn (t : ℕ) : In ℕ :=
  ⟨decide (t ≤ 3), 8, 2, decide (t ≤ 1), if t = 0 then exWord 10 false else exWord 20 true, false,
   decide (20 ≤ t ∧ t ≤ 22), 8, 2, decide (t % 2 = 0), []⟩

def exRun : ℕ → St ℕ := memRun exCfg 0 (exWord 0 false) (fun _ => 0) exIn

theorem exRun_aw : ∀ t, t ≤ 3 → ((exRun t).awready = true ↔ t = 3) := by decide +kernel
theorem exRun_ar : ∀ t, t ≤ 22 → ((exRun t).arready = true ↔ t = 22) := by decide +kernel

theorem exMRun : MRun exCfg 0 (exWord 0 false) (fun _ => 0) exIn exRun where
  init := rfl
  step _ := rfl
  awhold t h1 h2 := by
    simp only [exIn, decide_eq_true_eq] at h1 ⊢
    have h := exRun_aw t h1
    rw [h2] at h
    by_contra h3
    have : t = 3 := by omega
    simp [this] at h
  arhold t h1 h2 := by
    simp only [exIn, decide_eq_true_eq] at h1 ⊢
    have h := exRun_ar t h1.2
    rw [h2] at h
    by_contra h3
    have : t = 22 := by omega
    simp [this] at h
  awaddr _ := by simp [exIn, exCfg]
  araddr _ := by simp [exIn, exCfg]

/-- The run meets the hypotheses, and does something: two words written, two read. -/
example : awL exIn exRun 10 = [(8, 2)] ∧ (wL exCfg exIn exRun 10).length = 2 ∧ (exRun 12).mem 8 = 10 ∧
    (exRun 12).mem 15 = 23 ∧ expect exCfg exIn exRun 30 = [⟨8, false, 22⟩, ⟨12, true, 22⟩] ∧
    (got exIn exRun 40).map (fun g => (g.1 0, g.2.1)) = [(10, false), (20, true)] := by
  decide +kernel

example : exCfg.interval ≠ 1 ∧ (exIn 0).awvalid = true ∧ (exIn 20).arvalid = true ∧
    ((exRun 25).rvalid = true ∧ (exIn 25).rready = false) := by decide +kernel

/-- The master of the run that never accepts a response. -/
theorem c56_not_bready : ∃ (c : Cfg) (inp : ℕ → In ℕ) (x : ℕ → St ℕ) (t : ℕ),
    MRun c 0 (exWord 0 false) (fun _ => 0) inp x ∧ (x t).bvalid = true ∧ (∀ s, (inp s).bready = false) ∧
    (x (t + 1)).bvalid = false := by
  refine ⟨exCfg, exIn, exRun, 7, exMRun, by decide +kernel, fun _ => rfl, by decide +kernel⟩

end AxiMem
