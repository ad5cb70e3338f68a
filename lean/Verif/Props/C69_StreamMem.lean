import Verif.Model.StreamMem
import Verif.Props.C34_Bursts
import Verif.Props.C68_StreamOut

/-! # C69: memory read and written through AXI streams -/

namespace StreamMem

open StreamOut (Out Job beats total out_step beats_pop beats_start total_append total_map)
open StreamIn (traj dec dec_pos dec_lt)
open Dma (ReqSt ReqIn Cfg collect collect_succ)

/-! ## Memory to stream -/

section rd
variable (w : ℕ) (i : ℕ → RdIn)

/-- The machine at cycle `t` after reset. -/
def rdAt (t : ℕ) : Rd := traj (Rd.step w) Rd.init i t

/-- The beats of the stream taken by its consumer. -/
def rdWire (t : ℕ) : List (ℕ × Bool) := collect (fun t => (rdAt w i t).out.beat (i t).tready) t

/-- The words taken from the read data channel. -/
def rdWords (t : ℕ) : List ℕ :=
  collect (fun t => if (rdAt w i t).rready (i t) && (i t).rvalid then some (i t).rdata else none) t

/-- The sizes taken from the request FIFO. -/
def rdReqs (t : ℕ) : List ℕ := collect (fun t => (rdAt w i t).deq (i t)) t

variable {w i}

structure RdInv (w : ℕ) (σ : Rd) (W : List (ℕ × Bool)) (J : List Job) (P : List ℕ) : Prop where
  eq : W ++ σ.out.held = beats J P
  off : σ.on = false → σ.size = 0 ∧ P.length = total J
  run : σ.on = true → ∃ J0 n, J = J0 ++ [.dma n] ∧ total J0 ≤ P.length ∧ P.length + σ.size = total J ∧
    0 < σ.size ∧ σ.size < 2 ^ w

theorem rd_step {σ : Rd} {W : List (ℕ × Bool)} {J : List Job} {P : List ℕ} (h : RdInv w σ W J P) (j : RdIn)
    (hw : ∀ n, j.fifo = some n → 0 < n ∧ n < 2 ^ w) :
    RdInv w (σ.step w j) (W ++ (σ.out.beat j.tready).toList) (J ++ ((σ.deq j).map Job.dma).toList)
      (P ++ (if σ.rready j && j.rvalid then some j.rdata else none).toList) := by
  obtain ⟨he, hoff, hrun⟩ := h
  have ho : ∀ b, W ++ (σ.out.beat j.tready).toList ++ (σ.out.step j.tready b).held =
      W ++ σ.out.held ++ (if σ.out.ready j.tready then b.toList else []) := by
    intro b; rw [List.append_assoc, out_step, List.append_assoc]; split <;> rfl
  cases hO : σ.on with
  | false =>
    obtain ⟨hz, hP⟩ := hoff hO
    have hr : σ.rready j = false := by simp [Rd.rready, hz]
    have hd : σ.deq j = j.fifo := by simp [Rd.deq, hO]
    have e : σ.step w j = ⟨j.fifo.isSome, j.fifo.getD σ.size, σ.out.step j.tready none⟩ := by
      simp [Rd.step, hO, Rd.wcond, hr]
    rw [e, hr, hd]
    simp only [Bool.false_and, Bool.false_eq_true, if_false, Option.toList_none, List.append_nil]
    cases hq : j.fifo with
    | none =>
      refine ⟨by dsimp; rw [ho, he]; simp, fun _ => ⟨hz, by simpa using hP⟩, fun h => by (cases h)⟩
    | some n =>
      obtain ⟨hn0, hn1⟩ := hw n hq
      refine ⟨?_, fun h => by (cases h), fun _ => ⟨J, n, rfl, by omega, ?_, hn0, hn1⟩⟩
      · dsimp; rw [ho, he, beats_start hP]; simp
      · simp [total_append, total, hP]
  | true =>
    obtain ⟨J0, n, rfl, h1, h2, h3, h4⟩ := hrun hO
    have hd : σ.deq j = none := by simp [Rd.deq, hO]
    rw [hd]
    simp only [Option.map_none, Option.toList_none, List.append_nil]
    rw [total_append] at h2
    simp only [total, Nat.add_zero] at h2
    have hrr : σ.rready j = σ.out.ready j.tready := by simp [Rd.rready]; omega
    cases hgo : (σ.rready j && j.rvalid) with
    | false =>
      have hw' : σ.wcond j = false := by rw [Rd.wcond, Bool.and_comm]; exact hgo
      have e : σ.step w j = ⟨true, σ.size, σ.out.step j.tready none⟩ := by simp [Rd.step, hO, hw']
      rw [e]
      refine ⟨by dsimp; rw [ho, he]; simp, fun h => by (cases h), fun _ => ⟨J0, n, rfl, by simpa using h1, ?_, h3, h4⟩⟩
      rw [total_append]; simpa [total] using h2
    | true =>
      have hw' : σ.wcond j = true := by rw [Rd.wcond, Bool.and_comm]; exact hgo
      have hrdy : σ.out.ready j.tready = true := by
        rw [← hrr]; simp only [Bool.and_eq_true] at hgo; exact hgo.1
      have e : σ.step w j = ⟨!decide (σ.size ≤ 1), σ.size - 1,
          σ.out.step j.tready (some (j.rdata, decide (σ.size ≤ 1)))⟩ := by
        simp [Rd.step, hO, hw', dec_pos h3 h4]
      rw [e]
      have hlast : decide (σ.size ≤ 1) = decide (P.length + 1 = total J0 + n) := by
        rw [decide_eq_decide]; omega
      refine ⟨?_, ?_, ?_⟩
      · dsimp
        rw [ho, he, hrdy, hlast, beats_pop h1 (by omega)]; rfl
      · intro h
        have : σ.size ≤ 1 := by simpa using h
        rw [total_append]
        simp [total]; omega
      · intro h
        have : ¬ σ.size ≤ 1 := by simpa using h
        refine ⟨J0, n, rfl, by simp; omega, ?_, by dsimp; omega, by dsimp; omega⟩
        rw [total_append]
        simp [total]; omega

theorem rd_inv (t : ℕ) (hw : ∀ u < t, ∀ n, (i u).fifo = some n → 0 < n ∧ n < 2 ^ w) :
    RdInv w (rdAt w i t) (rdWire w i t) ((rdReqs w i t).map Job.dma) (rdWords w i t) := by
  induction t with
  | zero => exact ⟨rfl, fun _ => ⟨rfl, rfl⟩, fun h => by (cases h)⟩
  | succ t ih =>
    have := rd_step (ih fun u hu => hw u (by omega)) (i t) (hw t (by omega))
    rw [rdWire, rdReqs, rdWords, collect_succ, collect_succ, collect_succ, List.map_append, StreamOut.toList_map]
    exact this

/-- **C69 (memory to stream).** For any sequence of transfers of at least one word, any read data channel and any
consumer: the beats taken by the consumer of the stream and the one in the output registers are the words taken from
the read data channel, once and in order, with exactly the last word of each transfer marked; no more words are taken
than asked for, and the machine is idle exactly when all have been taken. -/
theorem c69_read (t : ℕ) (hw : ∀ u < t, ∀ n, (i u).fifo = some n → 0 < n ∧ n < 2 ^ w) :
    rdWire w i t ++ (rdAt w i t).out.held = beats ((rdReqs w i t).map Job.dma) (rdWords w i t) ∧
    (rdWords w i t).length ≤ (rdReqs w i t).sum ∧
    ((rdAt w i t).on = false ↔ (rdWords w i t).length = (rdReqs w i t).sum) := by
  have h := rd_inv t hw
  have hs : total ((rdReqs w i t).map Job.dma) = (rdReqs w i t).sum := by
    have := total_map id (rdReqs w i t)
    simpa using this
  refine ⟨h.eq, ?_, ?_⟩
  · cases hO : (rdAt w i t).on with
    | false => rw [← hs]; exact Nat.le_of_eq (h.off hO).2
    | true =>
      obtain ⟨J0, n, -, -, h3, h4, -⟩ := h.run hO
      omega
  · constructor
    · intro hO; rw [← hs]; exact (h.off hO).2
    · intro hl
      cases hO : (rdAt w i t).on with
      | false => rfl
      | true =>
        obtain ⟨J0, n, -, -, h3, h4, -⟩ := h.run hO
        omega

/-- A transfer does not stop: whenever the memory offers a word and the stream can take one, the word is taken. -/
theorem c69_read_progress (t : ℕ) (hw : ∀ u < t, ∀ n, (i u).fifo = some n → 0 < n ∧ n < 2 ^ w)
    (hO : (rdAt w i t).on = true) (hv : (i t).rvalid = true) (hr : (rdAt w i t).out.ready (i t).tready = true) :
    rdWords w i (t + 1) = rdWords w i t ++ [(i t).rdata] := by
  obtain ⟨J0, n, -, -, -, h4, -⟩ := (rd_inv t hw).run hO
  have : (rdAt w i t).rready (i t) = true := by simp [Rd.rready, hr]; omega
  rw [rdWords, collect_succ, this, hv]
  rfl

end rd

/-- **C69 (disagreement, size 0).** A transfer of size 0 from memory never ends, and no word is taken any more. -/
theorem c69_not_zero_read {w : ℕ} {σ : Rd} {j : RdIn} (hO : σ.on = false) (hq : j.fifo = some 0)
    (i : ℕ → RdIn) (t : ℕ) :
    let τ := traj (Rd.step w) (σ.step w j) i t
    τ.on = true ∧ τ.deq (i t) = none ∧ τ.rready (i t) = false := by
  have key : (traj (Rd.step w) (σ.step w j) i t).on = true ∧ (traj (Rd.step w) (σ.step w j) i t).size = 0 := by
    induction t with
    | zero => simp [traj, Rd.step, hO, hq]
    | succ t ih =>
      show ((traj (Rd.step w) (σ.step w j) i t).step w (i t)).on = true ∧
        ((traj (Rd.step w) (σ.step w j) i t).step w (i t)).size = 0
      generalize traj (Rd.step w) (σ.step w j) i t = τ at ih ⊢
      simp [Rd.step, Rd.wcond, Rd.rready, ih.1, ih.2]
  simp [Rd.deq, Rd.rready, key.1, key.2]

/-! ## Stream to memory -/

section wr
variable (w : ℕ) (i : ℕ → WrIn)

/-- The machine at cycle `t` after reset. -/
def wrAt (t : ℕ) : Wr := traj (Wr.step w) Wr.init i t

/-- The beats of the write data channel. -/
def wrWire (t : ℕ) : List (ℕ × Bool) := collect (fun t => (wrAt w i t).out.beat (i t).wready) t

/-- The words taken from the stream. -/
def wrWords (t : ℕ) : List ℕ :=
  collect (fun t => if (wrAt w i t).rready (i t) && (i t).tvalid then some (i t).tdata else none) t

/-- What has been taken from the request FIFO: sizes of transfers on the left, lengths of bursts on the right. -/
def wrDeq (t : ℕ) : List (ℕ ⊕ ℕ) :=
  collect (fun t => (((wrAt w i t).begin (i t)).map Sum.inl).or (((wrAt w i t).burst (i t)).map Sum.inr)) t

/-- The lengths of the bursts begun. -/
def wrBursts (t : ℕ) : List ℕ := collect (fun t => (wrAt w i t).burst (i t)) t

/-- The sizes of the transfers begun. -/
def wrSizes (t : ℕ) : List ℕ := collect (fun t => (wrAt w i t).begin (i t)) t

variable {w i}

/-- A transfer in the request FIFO: the number of words, and the bursts it is split into. -/
def Good (w : ℕ) (q : ℕ × List ℕ) : Prop := 0 < q.1 ∧ q.1 < 2 ^ w ∧ q.2.sum = q.1 ∧ ∀ b ∈ q.2, 0 < b

/-- What the request FIFO receives for transfers: the size, and the lengths of the bursts. -/
def flat (l : List (ℕ × List ℕ)) : List (ℕ ⊕ ℕ) := l.flatMap fun q => Sum.inl q.1 :: q.2.map Sum.inr

/-- The number in an entry of the request FIFO, which does not say what it is. -/
def val : ℕ ⊕ ℕ → ℕ := Sum.elim id id

structure WrInv (w : ℕ) (all : List (ℕ ⊕ ℕ)) (σ : Wr) (W : List (ℕ × Bool)) (P : List ℕ) (D : List (ℕ ⊕ ℕ))
    (B N : List ℕ) : Prop where
  eq : W ++ σ.out.held = beats (B.map Job.dma) P
  sum : P.length + σ.size = B.sum
  cur : 0 < σ.size → ∃ B0 n, B = B0 ++ [n] ∧ B0.sum ≤ P.length
  cnt : P.length + (if σ.on then σ.count else 0) = N.sum
  pos : σ.on = true → 0 < σ.count
  off : σ.on = false → σ.size = 0 ∧ ∃ l, D ++ flat l = all ∧ ∀ q ∈ l, Good w q
  run : σ.on = true → ∃ (bs : List ℕ) (l : List (ℕ × List ℕ)), D ++ (bs.map Sum.inr ++ flat l) = all ∧ (∀ q ∈ l, Good w q) ∧ (∀ b ∈ bs, 0 < b) ∧
    σ.size + bs.sum = σ.count ∧ 0 < σ.count ∧ σ.count < 2 ^ w

theorem job_sum (B : List ℕ) : total (B.map Job.dma) = B.sum := by
  have := total_map id B
  simpa using this

theorem wr_step {all D : List (ℕ ⊕ ℕ)} {σ : Wr} {W : List (ℕ × Bool)} {P B N : List ℕ} (h : WrInv w all σ W P D B N) (j : WrIn)
    (hp : (D ++ (((σ.begin j).map Sum.inl).or ((σ.burst j).map Sum.inr)).toList).map val <+: all.map val) :
    WrInv w all (σ.step w j) (W ++ (σ.out.beat j.wready).toList)
      (P ++ (if σ.rready j && j.tvalid then some j.tdata else none).toList)
      (D ++ (((σ.begin j).map Sum.inl).or ((σ.burst j).map Sum.inr)).toList) (B ++ (σ.burst j).toList) (N ++ (σ.begin j).toList) := by
  obtain ⟨he, hsum, hcur, hcnt, -, hoff, hrun⟩ := h
  have ho : ∀ b, W ++ (σ.out.beat j.wready).toList ++ (σ.out.step j.wready b).held =
      W ++ σ.out.held ++ (if σ.out.ready j.wready then b.toList else []) := by
    intro b; rw [List.append_assoc, out_step, List.append_assoc]; split <;> rfl
  cases hO : σ.on with
  | false =>
    obtain ⟨hz, l, hl, hg⟩ := hoff hO
    have hr : σ.rready j = false := by simp [Wr.rready, hz]
    have hb : σ.begin j = j.fifo := by simp [Wr.begin, hO]
    have hu : σ.burst j = none := by simp [Wr.burst, hO]
    have e : σ.step w j = ⟨j.fifo.isSome, j.fifo.getD σ.count, 0, σ.out.step j.wready none⟩ := by
      simp [Wr.step, hO, Wr.wcond, hr, hz]
    rw [hb, hu] at hp ⊢
    simp only [hO, Bool.false_eq_true, if_false, Nat.add_zero] at hcnt
    rw [e, hr]
    simp only [Bool.false_and, Bool.false_eq_true, if_false, Option.toList_none, List.append_nil, Option.map_none, Option.or_none] at hp ⊢
    have heq : W ++ (σ.out.beat j.wready).toList ++ (σ.out.step j.wready none).held = beats (B.map Job.dma) P := by
      rw [ho, he]; simp
    cases hq : j.fifo with
    | none =>
      refine ⟨heq, by dsimp; omega, fun h => by (cases h), by simpa using hcnt, fun h => by (cases h), fun _ => ⟨rfl, l, by simpa using hl, hg⟩, fun h => by (cases h)⟩
    | some n =>
      rw [hq] at hp
      obtain ⟨m, hm⟩ := hp
      rw [← hl, List.map_append, List.map_append, List.append_assoc] at hm
      have hm := List.append_cancel_left hm
      simp only [Option.map_some, Option.toList_some, List.map_cons, List.map_nil, List.singleton_append] at hm
      cases l with
      | nil => simp [flat] at hm
      | cons q l =>
        have hq' := hg q (by simp)
        simp only [flat, List.flatMap_cons, List.cons_append, List.map_cons, List.cons.injEq] at hm
        obtain ⟨rfl, hm⟩ : n = q.1 ∧ _ := hm
        refine ⟨heq, by dsimp; omega, fun h => by (cases h), ?_, fun _ => hq'.1, fun h => by (cases h),
          fun _ => ⟨q.2, l, ?_,
          fun x hx => hg x (by simp [hx]), hq'.2.2.2, ?_, hq'.1, hq'.2.1⟩⟩
        · simp [hcnt]
        · rw [← hl]; simp [flat]
        · simpa using hq'.2.2.1
  | true =>
    obtain ⟨bs, l, hl, hg, hbs, h1, h2, h3⟩ := hrun hO
    have hb : σ.begin j = none := by simp [Wr.begin, hO]
    rw [hb] at hp ⊢
    simp only [Option.map_none, Option.none_or, Option.toList_none, List.append_nil] at hp ⊢
    simp only [hO, if_true] at hcnt
    rcases Nat.eq_zero_or_pos σ.size with hz | hz
    · have hr : σ.rready j = false := by simp [Wr.rready, hz]
      have hu : σ.burst j = j.fifo := by simp [Wr.burst, hO, hz]
      have e : σ.step w j = ⟨true, σ.count, j.fifo.getD 0, σ.out.step j.wready none⟩ := by
        simp [Wr.step, hO, Wr.wcond, hr, hz, hu]
      rw [hu] at hp ⊢
      rw [e, hr]
      simp only [Bool.false_and, Bool.false_eq_true, if_false, Option.toList_none, List.append_nil]
      have heq : W ++ (σ.out.beat j.wready).toList ++ (σ.out.step j.wready none).held = beats (B.map Job.dma) P := by
        rw [ho, he]; simp
      cases hq : j.fifo with
      | none =>
        refine ⟨by simpa using heq, by simp; omega, fun h => by (cases h), by simpa using hcnt, fun _ => h2, fun h => by (cases h),
          fun _ => ⟨bs, l, by simpa using hl, hg, hbs, by dsimp; omega, h2, h3⟩⟩
      | some n =>
        rw [hq] at hp
        obtain ⟨m, hm⟩ := hp
        rw [← hl, List.map_append, List.map_append, List.append_assoc] at hm
        have hm := List.append_cancel_left hm
        simp only [Option.map_some, Option.toList_some, List.map_cons, List.map_nil, List.singleton_append] at hm
        cases bs with
        | nil => simp at h1; omega
        | cons b bs =>
          simp only [List.map_cons, List.cons_append, List.cons.injEq] at hm
          obtain ⟨rfl, hm⟩ : n = b ∧ _ := hm
          refine ⟨?_, by simp; omega, fun _ => ⟨B, n, rfl, by omega⟩, by simpa using hcnt,
            fun _ => h2, fun h => by (cases h), fun _ => ⟨bs, l, ?_, hg,
            fun x hx => hbs x (by simp [hx]), ?_, h2, h3⟩⟩
          · rw [heq]
            simp only [Option.toList_some, List.map_append, List.map_cons, List.map_nil]
            rw [beats_start (by rw [job_sum]; omega)]
          · rw [← hl]; simp
          · simp at h1 ⊢; omega
    · have hu : σ.burst j = none := by simp [Wr.burst]; omega
      rw [hu]
      simp only [Option.map_none, Option.toList_none, List.append_nil]
      have hrr : σ.rready j = σ.out.ready j.wready := by simp [Wr.rready]; omega
      have hszw : σ.size < 2 ^ w := by omega
      cases hgo : (σ.rready j && j.tvalid) with
      | false =>
        have hw' : σ.wcond j = false := by rw [Wr.wcond, Bool.and_comm]; exact hgo
        have e : σ.step w j = ⟨true, σ.count, σ.size, σ.out.step j.wready none⟩ := by simp [Wr.step, hO, hw', hu]
        rw [e]
        refine ⟨by dsimp; rw [ho, he]; simp, by simpa using hsum, fun h => by simpa using hcur h, by simpa using hcnt, fun _ => h2, fun h => by (cases h),
          fun _ => ⟨bs, l, hl, hg, hbs, h1, h2, h3⟩⟩
      | true =>
        have hw' : σ.wcond j = true := by rw [Wr.wcond, Bool.and_comm]; exact hgo
        have hrdy : σ.out.ready j.wready = true := by
          rw [← hrr]; simp only [Bool.and_eq_true] at hgo; exact hgo.1
        have e : σ.step w j = ⟨!decide (σ.count = 1), σ.count - 1, σ.size - 1,
            σ.out.step j.wready (some (j.tdata, decide (σ.size ≤ 1)))⟩ := by
          simp [Wr.step, hO, hw', dec_pos hz hszw, dec_pos h2 h3, beq_eq_decide]
        -- the burst in progress is the last one taken
        obtain ⟨B0, n, rfl, hB0⟩ := hcur hz
        have hsum' : P.length + σ.size = B0.sum + n := by simpa using hsum
        have hlast : decide (σ.size ≤ 1) = decide (P.length + 1 = total (B0.map Job.dma) + n) := by
          rw [decide_eq_decide, job_sum]; omega
        rw [e]
        refine ⟨?_, by simp; omega, fun _ => ⟨B0, n, rfl, by simp; omega⟩, ?_, fun h => ?_, ?_, ?_⟩
        · dsimp
          rw [ho, he, hrdy, hlast]
          simp only [List.map_append, List.map_cons, List.map_nil]
          rw [beats_pop (by rw [job_sum]; omega) (by rw [job_sum]; omega)]
          rfl
        · by_cases hc1 : σ.count = 1 <;> simp [hc1] <;> omega
        · have hc1 : ¬ σ.count = 1 := by simpa using h
          dsimp; omega
        · intro h
          have hc1 : σ.count = 1 := by simpa using h
          have hbs0 : bs = [] := by
            cases bs with
            | nil => rfl
            | cons b bs =>
              have := hbs b (by simp)
              simp at h1; omega
          subst hbs0
          refine ⟨by dsimp; omega, l, by simpa using hl, hg⟩
        · intro h
          have hc1 : ¬ σ.count = 1 := by simpa using h
          exact ⟨bs, l, hl, hg, hbs, by dsimp; omega, by dsimp; omega, by dsimp; omega⟩

theorem wr_inv {l : List (ℕ × List ℕ)} (hg : ∀ q ∈ l, Good w q) (T : ℕ)
    (hp : (wrDeq w i T).map val <+: (flat l).map val) :
    WrInv w (flat l) (wrAt w i T) (wrWire w i T) (wrWords w i T) (wrDeq w i T) (wrBursts w i T) (wrSizes w i T) := by
  induction T with
  | zero =>
    exact ⟨rfl, rfl, fun h => by (cases h), rfl, fun h => by (cases h), fun _ => ⟨rfl, l, rfl, hg⟩, fun h => by (cases h)⟩
  | succ t ih =>
    have hp' := hp
    rw [wrDeq, collect_succ] at hp'
    have ih := ih (List.IsPrefix.trans ⟨_, (List.map_append ..).symm⟩ hp')
    have := wr_step ih (i t) hp'
    rw [wrWire, wrWords, wrDeq, wrBursts, wrSizes, collect_succ, collect_succ, collect_succ, collect_succ, collect_succ]
    exact this

/-- The bursts and the sizes are what was taken from the FIFO. -/
theorem deq_sides (t : ℕ) : wrBursts w i t = (wrDeq w i t).filterMap Sum.getRight? ∧
    wrSizes w i t = (wrDeq w i t).filterMap Sum.getLeft? := by
  induction t with
  | zero => exact ⟨rfl, rfl⟩
  | succ t ih =>
    rw [wrBursts, wrSizes, wrDeq, collect_succ, collect_succ, collect_succ, List.filterMap_append, List.filterMap_append]
    have hx : ((wrAt w i t).burst (i t)).toList = ((((wrAt w i t).begin (i t)).map Sum.inl).or
        (((wrAt w i t).burst (i t)).map Sum.inr)).toList.filterMap Sum.getRight? ∧
        ((wrAt w i t).begin (i t)).toList = ((((wrAt w i t).begin (i t)).map Sum.inl).or
        (((wrAt w i t).burst (i t)).map Sum.inr)).toList.filterMap Sum.getLeft? := by
      unfold Wr.begin Wr.burst
      cases hO : (wrAt w i t).on <;> cases hf : (i t).fifo <;> by_cases hz : (wrAt w i t).size = 0 <;> simp [hz]
    exact ⟨congrArg₂ (· ++ ·) ih.1 hx.1, congrArg₂ (· ++ ·) ih.2 hx.2⟩

/-- **C69 (stream to memory).** If the entries of the request FIFO are, for one transfer after the other, its size and
the lengths of its bursts, then for any stream and any memory: the beats put on the write data channel and the one in
the output registers are the words taken from the stream, once and in order, with exactly the last word of each burst
marked; no more words are taken than asked for; the machine is idle exactly when all have been taken. -/
theorem c69_write {l : List (ℕ × List ℕ)} (hg : ∀ q ∈ l, Good w q) (T : ℕ)
    (hp : (wrDeq w i T).map val <+: (flat l).map val) :
    wrWire w i T ++ (wrAt w i T).out.held = beats ((wrBursts w i T).map Job.dma) (wrWords w i T) ∧
    (wrWords w i T).length ≤ (wrSizes w i T).sum ∧
    ((wrAt w i T).on = false ↔ (wrWords w i T).length = (wrSizes w i T).sum) ∧
    wrDeq w i T <+: flat l := by
  have h := wr_inv hg T hp
  have hc := h.cnt
  refine ⟨h.eq, by omega, ?_, ?_⟩
  · cases hO : (wrAt w i T).on with
    | false => rw [hO] at hc; simpa using hc
    | true =>
      have := h.pos hO
      rw [hO] at hc
      simp only [if_true] at hc
      simp only [Bool.true_eq_false, false_iff]
      omega
  · cases hO : (wrAt w i T).on with
    | false =>
      obtain ⟨-, m, hm, -⟩ := h.off hO
      exact ⟨_, hm⟩
    | true =>
      obtain ⟨bs, m, hm, -⟩ := h.run hO
      exact ⟨_, hm⟩

/-- A transfer does not stop: in a burst, whenever the stream offers a word and the channel can take one, the word is
taken; between two bursts the next one is begun as soon as it is in the FIFO. -/
theorem c69_write_progress (T : ℕ) (hO : (wrAt w i T).on = true) :
    (0 < (wrAt w i T).size → (i T).tvalid = true → (wrAt w i T).out.ready (i T).wready = true →
      wrWords w i (T + 1) = wrWords w i T ++ [(i T).tdata]) ∧
    ((wrAt w i T).size = 0 → wrBursts w i (T + 1) = wrBursts w i T ++ (i T).fifo.toList) := by
  constructor
  · intro hs hv hr
    have : (wrAt w i T).rready (i T) = true := by simp [Wr.rready, hr]; omega
    rw [wrWords, collect_succ, this, hv]
    rfl
  · intro hs
    have : (wrAt w i T).burst (i T) = (i T).fifo := by simp [Wr.burst, hO, hs]
    rw [wrBursts, collect_succ, this]
    rfl

end wr

/-- **C69 (disagreement, size 0).** A transfer of size 0 to memory, for which the request machine enters the size 0 and
one burst of length 0, takes the entries of the next transfer for its own: the size `n` of the next transfer becomes the
length of a burst, and the machine stays busy. -/
theorem c69_not_zero_write {w : ℕ} {σ : Wr} (hO : σ.on = false) (n : ℕ) (j0 j1 j2 : WrIn) (h0 : j0.fifo = some 0)
    (h1 : j1.fifo = some 0) (h2 : j2.fifo = some n) :
    let τ := (σ.step w j0).step w j1
    τ.on = true ∧ τ.begin j2 = none ∧ τ.burst j2 = some n ∧ (τ.step w j2).on = true ∧ (τ.step w j2).size = n := by
  have e : ∃ o, σ.step w j0 = ⟨true, 0, 0, o⟩ := by simp [Wr.step, hO, h0]
  obtain ⟨o, e⟩ := e
  rw [e]
  simp [Wr.begin, Wr.step, Wr.burst, Wr.wcond, Wr.rready, h1, h2]

/-! ## What the request machine puts into the FIFO -/

section supply
variable {c : Cfg}

/-- The entries made for the write FIFO: sizes on the left, burst lengths on the right. -/
def enqKind (σ : ReqSt) (i : ReqIn) : Option (ℕ ⊕ ℕ) :=
  (wrEnq σ i).map fun n => if σ.st1 then Sum.inr n else Sum.inl n

/-- The entries still to be made. -/
def remEnq (c : Cfg) (σ : ReqSt) : List (ℕ ⊕ ℕ) :=
  (if !σ.st1 && σ.start then [Sum.inl σ.rest] else []) ++ (σ.remaining c).map fun q => Sum.inr q.2

/-- The entries of a transfer. -/
def entries (c : Cfg) (q : ℕ × ℕ) : ℕ × List ℕ :=
  (q.2 % 2 ^ (c.aw + 1), (c.issue (c.maskAddr q.1) (q.2 % 2 ^ (c.aw + 1))).map Prod.snd)

theorem flat_one (q : ℕ × List ℕ) : flat [q] = Sum.inl q.1 :: q.2.map Sum.inr := by simp [flat]

theorem enq_step (hc : c.Ok) {σ : ReqSt} (hi : σ.Inv c) (i : ReqIn) :
    (enqKind σ i).toList ++ remEnq c (σ.step c i) =
      remEnq c σ ++ flat ((σ.taken i).toList.map (entries c)) := by
  obtain ⟨hi', hs⟩ := Dma.step_inv hc hi i
  have hs := congrArg (List.map fun q : ℕ × ℕ => (Sum.inr q.2 : ℕ ⊕ ℕ)) hs
  rw [List.map_append, List.map_append] at hs
  unfold remEnq
  rcases hi.phase with ⟨h1, h2, h3, h4⟩ | ⟨h1, h2, h4⟩ | ⟨h1, h2, h3⟩ | ⟨h1, h2, h3, h4, h5⟩
  · have hiss : σ.issued i = none := by simp [ReqSt.issued, h1]
    have hrem : σ.remaining c = [] := by simp [ReqSt.remaining, h1, h2, h4]
    have hen : enqKind σ i = none := by simp [enqKind, wrEnq, h1, h2]
    have htk : σ.taken i = i.ask := by simp [ReqSt.taken, ReqSt.idle, h2, h3]
    have hst : (σ.step c i).st1 = false := by simp [ReqSt.step, ReqSt.check, h1, h2, h4]
    have hsa : (σ.step c i).start = i.ask.isSome := by simp [ReqSt.step, htk, h2]
    rw [hiss, hrem, htk] at hs
    rw [hen, hrem, htk, hst, hsa, h1, h2]
    simp only [Option.toList_none, List.map_nil, List.nil_append] at hs ⊢
    rw [hs]
    cases hq : i.ask with
    | none => simp [flat]
    | some q =>
      have hre : (σ.step c i).rest = q.2 % 2 ^ (c.aw + 1) := by
        simp [ReqSt.step, ReqSt.check, h1, h2, h4, htk, hq]
      simp [flat, entries, hre]
  · have hiss : σ.issued i = none := by simp [ReqSt.issued, h1]
    have htk : σ.taken i = none := by simp [ReqSt.taken, ReqSt.idle, h2]
    rw [hiss, htk] at hs
    simp only [Option.toList_none, List.map_nil, List.nil_append, List.flatMap_nil, List.append_nil] at hs
    rw [hs, htk, h1, h2]
    cases ha : i.almostFull with
    | true =>
      have hst : (σ.step c i).st1 = false := by simp [ReqSt.step, ReqSt.check, h1, ha]
      have hsa : (σ.step c i).start = true := by simp [ReqSt.step, h2, ha]
      have hre : (σ.step c i).rest = σ.rest := by simp [ReqSt.step, ReqSt.check, ha, htk]
      simp [enqKind, wrEnq, h1, ha, hst, hsa, hre, flat]
    | false =>
      have hsa : (σ.step c i).start = false := by simp [ReqSt.step, htk, ha]
      simp [enqKind, wrEnq, h1, h2, ha, hsa, flat]
  · have htk : σ.taken i = none := by simp [ReqSt.taken, ReqSt.idle, h3]
    have hsa : (σ.step c i).start = false := by simp [ReqSt.step, htk, h2]
    have hen : (enqKind σ i).toList = (σ.issued i).toList.map fun q : ℕ × ℕ => (Sum.inr q.2 : ℕ ⊕ ℕ) := by
      cases ha : i.ack <;> simp [enqKind, wrEnq, ReqSt.issued, h1, ha]
    rw [htk] at hs
    rw [hen, htk, hsa, h1]
    simp only [Option.toList_none, List.map_nil, List.flatMap_nil, List.append_nil, Bool.and_false, Bool.not_true,
      Bool.false_and, Bool.false_eq_true, if_false, List.nil_append] at hs ⊢
    rw [hs]
    simp [flat]
  · have hiss : σ.issued i = none := by simp [ReqSt.issued, h1]
    have htk : σ.taken i = none := by simp [ReqSt.taken, ReqSt.idle, h3]
    have hsa : (σ.step c i).start = false := by simp [ReqSt.step, htk, h2]
    have hen : enqKind σ i = none := by simp [enqKind, wrEnq, h1, h2]
    rw [hiss, htk] at hs
    rw [hen, htk, hsa, h1, h2]
    simp only [Option.toList_none, List.map_nil, List.flatMap_nil, List.append_nil, Bool.and_false,
      Bool.false_eq_true, if_false, List.nil_append] at hs ⊢
    rw [hs]
    simp [flat]

variable {σ : ℕ → ReqSt} {i : ℕ → ReqIn}

theorem flat_append (a b : List (ℕ × List ℕ)) : flat (a ++ b) = flat a ++ flat b := by simp [flat]

/-- What has been put into the FIFO and what is still to come is, transfer after transfer, the size and the bursts. -/
theorem enq_run (hc : c.Ok) (h : Dma.ReqRun c σ i) (h0 : σ 0 = ReqSt.init) (T : ℕ) :
    collect (fun t => enqKind (σ t) (i t)) T ++ remEnq c (σ T) =
      flat ((collect (fun t => (σ t).taken (i t)) T).map (entries c)) := by
  induction T with
  | zero => rw [h0]; rfl
  | succ T ih =>
    have hi := (Dma.run_inv hc h h0 T).1
    rw [collect_succ, collect_succ, List.map_append, flat_append, ← ih, h T, List.append_assoc, enq_step hc hi,
      List.append_assoc]

/-- The right entries are the lengths of the bursts requested on the address channel. -/
theorem enq_issued (hc : c.Ok) (h : Dma.ReqRun c σ i) (h0 : σ 0 = ReqSt.init) (T : ℕ) :
    (collect (fun t => enqKind (σ t) (i t)) T).filterMap Sum.getRight? =
      (collect (fun t => (σ t).issued (i t)) T).map Prod.snd := by
  induction T with
  | zero => rfl
  | succ T ih =>
    rw [collect_succ, collect_succ, List.map_append, List.filterMap_append, ih]
    congr 1
    have hi := (Dma.run_inv hc h h0 T).1
    unfold enqKind wrEnq ReqSt.issued
    cases h1 : (σ T).st1 <;> cases h2 : (σ T).start <;> cases (i T).almostFull <;> cases (i T).ack <;> simp [Sum.getRight?]

theorem entries_good (hc : c.Ok) {q : ℕ × ℕ} (h1 : 1 ≤ q.2) (h2 : q.2 < 2 ^ (c.aw + 1)) :
    Good (c.aw + 1) (entries c q) ∧ (entries c q).1 = q.2 := by
  have hm : q.2 % 2 ^ (c.aw + 1) = q.2 := Nat.mod_eq_of_lt h2
  have hp := Dma.chunks_partition hc q.2 (c.maskAddr q.1) (Dma.maskAddr_aligned hc _) (Dma.maskAddr_lt c _)
  refine ⟨⟨?_, ?_, ?_, ?_⟩, hm⟩
  · show 0 < q.2 % _; omega
  · show q.2 % _ < _; omega
  all_goals simp only [entries, hm, Cfg.issue, if_neg (show ¬ q.2 = 0 by omega)]
  · exact hp.cover
  · intro b hb
    obtain ⟨x, hx, rfl⟩ := List.mem_map.1 hb
    exact (hp.beats x hx).1

theorem enq_val (T : ℕ) :
    (collect (fun t => enqKind (σ t) (i t)) T).map val = collect (fun t => wrEnq (σ t) (i t)) T := by
  induction T with
  | zero => rfl
  | succ T ih =>
    rw [collect_succ, collect_succ, List.map_append, ih]
    congr 1
    unfold enqKind
    cases (wrEnq (σ T) (i T)) <;> cases (σ T).st1 <;> rfl

theorem enq_left (T : ℕ) :
    (collect (fun t => enqKind (σ t) (i t)) T).filterMap Sum.getLeft? = collect (fun t => rdEnq (σ t) (i t)) T := by
  induction T with
  | zero => rfl
  | succ T ih =>
    rw [collect_succ, collect_succ, List.filterMap_append, ih]
    congr 1
    unfold enqKind wrEnq rdEnq
    cases (σ T).st1 <;> cases (σ T).start <;> cases (i T).almostFull <;> cases (i T).ack <;> simp [Sum.getLeft?]

theorem flat_left (l : List (ℕ × List ℕ)) : (flat l).filterMap Sum.getLeft? = l.map Prod.fst := by
  induction l with
  | nil => rfl
  | cons q l ih =>
    have hr : ∀ b : List ℕ, (b.map (Sum.inr (α := ℕ))).filterMap Sum.getLeft? = [] := by
      intro b; induction b with
      | nil => rfl
      | cons x b ih => simpa using ih
    rw [show flat (q :: l) = Sum.inl q.1 :: (q.2.map Sum.inr ++ flat l) by simp [flat]]
    simp [List.filterMap_append, ih, hr]

/-- The transfers asked for are of at least one word and fit the size register. -/
def AskOk (c : Cfg) (i : ℕ → ReqIn) : Prop := ∀ t a n, (i t).ask = some (a, n) → 1 ≤ n ∧ n < 2 ^ (c.aw + 1)

theorem taken_ok (ha : AskOk c i) (T : ℕ) : ∀ q ∈ collect (fun t => (σ t).taken (i t)) T, 1 ≤ q.2 ∧ q.2 < 2 ^ (c.aw + 1) := by
  induction T with
  | zero => intro q hq; cases hq
  | succ T ih =>
    intro q hq
    rw [collect_succ, List.mem_append] at hq
    rcases hq with hq | hq
    · exact ih q hq
    · have : (σ T).taken (i T) = some q := by simpa using hq
      unfold ReqSt.taken at this
      split at this
      · exact ha T q.1 q.2 this
      · cases this

theorem entries_sizes (hc : c.Ok) (ha : AskOk c i) (T : ℕ) :
    ((collect (fun t => (σ t).taken (i t)) T).map (entries c)).map Prod.fst =
      (collect (fun t => (σ t).taken (i t)) T).map Prod.snd := by
  rw [List.map_map]
  refine List.map_congr_left fun q hq => ?_
  obtain ⟨h1, h2⟩ := taken_ok ha T q hq
  exact (entries_good hc h1 h2).2

/-- What is put into the read FIFO. -/
theorem rd_enqs (hc : c.Ok) (h : Dma.ReqRun c σ i) (h0 : σ 0 = ReqSt.init) (ha : AskOk c i) (T : ℕ) :
    collect (fun t => rdEnq (σ t) (i t)) T <+: (collect (fun t => (σ t).taken (i t)) T).map Prod.snd := by
  rw [← entries_sizes hc ha, ← flat_left, ← enq_run hc h h0 T, List.filterMap_append, enq_left]
  exact ⟨_, rfl⟩

end supply

/-! ## From the call to the channel -/

/-- **C69 (`dma_read` of a stream).** The calls go through the request machine of C34 and the request FIFO, which gives
what was put into it in order (C02). For any schedule: the consumer of the stream is given the words of the read data
channel, once and in order, one packet for each call, as long as the call asked for. -/
theorem c69_dma_read (c : Cfg) (hs : c.s ≤ 12) (hs' : c.s ≤ c.aw) {σ : ℕ → ReqSt} {q : ℕ → ReqIn} {i : ℕ → RdIn}
    (h : Dma.ReqRun c σ q) (h0 : σ 0 = ReqSt.init) (ha : AskOk c q) (T : ℕ)
    (hfifo : ∀ t < T, rdReqs (c.aw + 1) i t ++ (i t).fifo.toList <+: collect (fun t => rdEnq (σ t) (q t)) t) :
    ∃ calls, calls <+: (collect (fun t => (σ t).taken (q t)) T).map Prod.snd ∧
    rdWire (c.aw + 1) i T ++ (rdAt (c.aw + 1) i T).out.held = beats (calls.map Job.dma) (rdWords (c.aw + 1) i T) ∧
    (rdWords (c.aw + 1) i T).length ≤ calls.sum ∧
    ((rdAt (c.aw + 1) i T).on = false → (rdWords (c.aw + 1) i T).length = calls.sum) := by
  have hc : c.Ok := ⟨hs, hs'⟩
  have hw : ∀ t < T, ∀ n, (i t).fifo = some n → 0 < n ∧ n < 2 ^ (c.aw + 1) := by
    intro t ht n hn
    have hp := (hfifo t ht).trans (rd_enqs hc h h0 ha t)
    have hm : n ∈ (collect (fun t => (σ t).taken (q t)) t).map Prod.snd := hp.subset (by simp [hn])
    obtain ⟨x, hx, rfl⟩ := List.mem_map.1 hm
    exact taken_ok ha t x hx
  obtain ⟨r1, r2, r3⟩ := c69_read T hw
  refine ⟨_, List.IsPrefix.trans ?_ (rd_enqs hc h h0 ha T), r1, r2, r3.1⟩
  cases T with
  | zero => exact List.nil_prefix
  | succ T =>
    rw [rdReqs, collect_succ, collect_succ]
    refine List.IsPrefix.trans ?_ ((hfifo T (by omega)).trans ⟨_, rfl⟩)
    unfold Rd.deq
    split
    · simp only [Option.toList_none, List.append_nil]
      exact ⟨_, rfl⟩
    · exact List.prefix_refl _

/-- **C69 (`dma_write` of a stream).** The calls go through the request machine of C34 and the request FIFO. For any
schedule: the write data channel is given the words of the stream, once and in order; the bursts are those requested on
the address channel, in order and never before them; the words are those of the calls, one after the other. -/
theorem c69_dma_write (c : Cfg) (hs : c.s ≤ 12) (hs' : c.s ≤ c.aw) {σ : ℕ → ReqSt} {q : ℕ → ReqIn} {i : ℕ → WrIn}
    (h : Dma.ReqRun c σ q) (h0 : σ 0 = ReqSt.init) (ha : AskOk c q) (T : ℕ)
    (hfifo : (wrDeq (c.aw + 1) i T).map val <+: collect (fun t => wrEnq (σ t) (q t)) T) :
    ∃ calls, calls <+: (collect (fun t => (σ t).taken (q t)) T).map Prod.snd ∧
    ∃ lens, lens <+: (collect (fun t => (σ t).issued (q t)) T).map Prod.snd ∧
    wrWire (c.aw + 1) i T ++ (wrAt (c.aw + 1) i T).out.held = beats (lens.map Job.dma) (wrWords (c.aw + 1) i T) ∧
    (wrWords (c.aw + 1) i T).length ≤ calls.sum ∧
    ((wrAt (c.aw + 1) i T).on = false → (wrWords (c.aw + 1) i T).length = calls.sum ∧ lens.sum = calls.sum) := by
  have hc : c.Ok := ⟨hs, hs'⟩
  have hrun := enq_run hc h h0 T
  have hp : collect (fun t => enqKind (σ t) (q t)) T <+:
      flat ((collect (fun t => (σ t).taken (q t)) T).map (entries c)) := ⟨_, hrun⟩
  have hg : ∀ x ∈ (collect (fun t => (σ t).taken (q t)) T).map (entries c), Good (c.aw + 1) x := by
    intro x hx
    obtain ⟨y, hy, rfl⟩ := List.mem_map.1 hx
    obtain ⟨h1, h2⟩ := taken_ok ha T y hy
    exact (entries_good hc h1 h2).1
  rw [← enq_val] at hfifo
  have hf := hfifo.trans (hp.map val)
  obtain ⟨r1, r2, r3, r4⟩ := c69_write hg T hf
  have hlen : (wrDeq (c.aw + 1) i T).length ≤ (collect (fun t => enqKind (σ t) (q t)) T).length := by
    simpa using hfifo.length_le
  have hd := List.prefix_of_prefix_length_le r4 hp hlen
  obtain ⟨d1, d2⟩ := deq_sides (w := c.aw + 1) (i := i) T
  refine ⟨wrSizes (c.aw + 1) i T, ?_, wrBursts (c.aw + 1) i T, ?_, r1, r2, fun hO => ⟨r3.1 hO, ?_⟩⟩
  · rw [← entries_sizes hc ha, ← flat_left, d2]
    exact r4.filterMap _
  · rw [← enq_issued hc h h0, d1]
    exact hd.filterMap _
  · have hi := wr_inv hg T hf
    have h1 := hi.sum
    have h2 := (hi.off hO).1
    rw [← r3.1 hO]; omega

/-! ## The hypotheses are met -/

/-- A transfer of 3 words, then one of 1 word, with pauses of the memory and of the consumer. -/
example :
    let i : ℕ → RdIn := fun t => ⟨if t = 1 then some 3 else if t = 7 then some 1 else none, t != 3, 10 + t, t != 5⟩
    (∀ u < 10, ∀ n, (i u).fifo = some n → 0 < n ∧ n < 2 ^ 9) ∧ rdReqs 9 i 10 = [3, 1] ∧
    rdWords 9 i 10 = [12, 14, 16, 18] ∧ rdWire 9 i 10 = [(12, false), (14, false), (16, true), (18, true)] := by
  refine ⟨?_, by decide, by decide, by decide⟩
  intro u _ n hn
  dsimp only at hn
  split at hn
  · cases hn; decide
  · split at hn
    · cases hn; decide
    · cases hn

/-- Three words from address 4 with bursts of at most 2 words: the request machine, the FIFO and the data machine. -/
def reqDemo (t : ℕ) : ReqIn := ⟨if t = 0 then some (4, 3) else none, false, true⟩

/-- The request machine of the demonstration. -/
def reqRun (t : ℕ) : ReqSt := traj (fun σ i => ReqSt.step ⟨8, 2, 1⟩ σ i) ReqSt.init reqDemo t

example : Dma.ReqRun ⟨8, 2, 1⟩ reqRun reqDemo ∧ reqRun 0 = ReqSt.init ∧ AskOk ⟨8, 2, 1⟩ reqDemo := by
  refine ⟨fun t => rfl, rfl, ?_⟩
  intro t a n h
  unfold reqDemo at h
  dsimp only at h
  split at h
  · cases h; decide
  · cases h

/-- The stream offers a word in every cycle; the memory is not ready once. -/
def wrDemo (t : ℕ) : WrIn := ⟨if t = 2 then some 3 else if t = 3 then some 2 else if t = 7 then some 1 else none, true,
  20 + t, t != 5⟩

example : collect (fun t => wrEnq (reqRun t) (reqDemo t)) 9 = [3, 2, 1] ∧ wrDeq 9 wrDemo 9 = [.inl 3, .inr 2, .inr 1] ∧
    (∀ t < 9, (wrDeq 9 wrDemo t).map val <+: collect (fun t => wrEnq (reqRun t) (reqDemo t)) t) ∧
    wrWords 9 wrDemo 9 = [24, 26, 28] ∧ (wrAt 9 wrDemo 9).on = false ∧
    wrWire 9 wrDemo 9 ++ (wrAt 9 wrDemo 9).out.held = [(24, false), (26, true), (28, true)] ∧
    (collect (fun t => (reqRun t).issued (reqDemo t)) 9) = [(4, 2), (12, 1)] := by decide

/-- The data machine reading for the same call. -/
def rdDemo (t : ℕ) : RdIn := ⟨if t = 2 then some 3 else none, true, 30 + t, t != 5⟩

example : (∀ t < 8, rdReqs 9 rdDemo t ++ (rdDemo t).fifo.toList <+: collect (fun t => rdEnq (reqRun t) (reqDemo t)) t) ∧
    rdWire 9 rdDemo 8 = [(33, false), (34, false), (36, true)] := by decide

end StreamMem
