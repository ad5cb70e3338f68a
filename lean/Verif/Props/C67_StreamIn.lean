import Verif.Model.StreamIn
import Verif.Lemmas.DmaData
import Verif.Props.C02_ThreadFifo

/-! # C67: AXI stream input into FIFOs delivers every beat once, in order, to the right FIFO -/

namespace StreamIn
open Dma (split collect collect_succ collect_zero)

/-- The states of a machine driven by the inputs `i`. -/
def traj {S I : Type} (step : S → I → S) (s : S) (i : ℕ → I) : ℕ → S
  | 0 => s
  | t + 1 => step (traj step s i t) (i t)

theorem dec_pos {w s : ℕ} (h0 : 0 < s) (h : s < 2 ^ w) : dec w s = s - 1 := by
  unfold dec
  rw [show s + (2 ^ w - 1) = (s - 1) + 2 ^ w by omega, Nat.add_mod_right, Nat.mod_eq_of_lt (by omega)]

theorem dec_lt (w s : ℕ) : dec w s < 2 ^ w := Nat.mod_lt _ (Nat.two_pow_pos w)

/-! ## Same width -/

section same
variable (w : ℕ) (ops : List ℕ) (i : ℕ → SIn)

/-- The machine at cycle `t` after reset. -/
def sameAt (t : ℕ) : Same := traj (Same.step w ops) Same.init i t

/-- The beats taken from the stream (`tvalid` and `tready`) in the first `t` cycles. -/
def sameTaken (t : ℕ) : List ℕ :=
  collect (fun t => if (sameAt w ops i t).tready ops (i t) && (i t).tvalid then some (i t).tdata else none) t

/-- The words stored in the FIFO of operation `op` in the first `t` cycles. -/
def sameStored (op t : ℕ) : List ℕ :=
  collect (fun t => if (sameAt w ops i t).enq (i t) op && !(i t).af op then some (i t).tdata else none) t

/-- The requests (operation, size) taken from the request FIFO in the first `t` cycles. -/
def sameReqs (t : ℕ) : List (ℕ × ℕ) := collect (fun t => (sameAt w ops i t).start ops (i t)) t

/-- The beats taken, each with the operation in progress. -/
def sameLog (t : ℕ) : List (ℕ × ℕ) :=
  collect (fun t => if (sameAt w ops i t).tready ops (i t) && (i t).tvalid then
    some ((sameAt w ops i t).sel, (i t).tdata) else none) t

/-- The FIFO each requested word is for. -/
def targets (rs : List (ℕ × ℕ)) : List ℕ := rs.flatMap fun r => List.replicate (max 1 r.2) r.1

variable {w ops i}

theorem sameLog_taken (t : ℕ) : (sameLog w ops i t).map Prod.snd = sameTaken w ops i t := by
  induction t with
  | zero => rfl
  | succ t ih =>
    rw [sameLog, sameTaken, collect_succ, collect_succ, List.map_append]
    rw [sameLog, sameTaken] at ih
    rw [ih]
    congr 1
    split <;> rfl

theorem sameLog_stored {op : ℕ} (hop : op ∈ ops) (t : ℕ) :
    sameStored w ops i op t = ((sameLog w ops i t).filter fun p => p.1 == op).map Prod.snd := by
  induction t with
  | zero => rfl
  | succ t ih =>
    rw [sameLog, sameStored, collect_succ, collect_succ, List.filter_append, List.map_append]
    rw [sameLog, sameStored] at ih
    rw [ih]
    congr 1
    generalize sameAt w ops i t = σ
    generalize i t = j
    by_cases hs : σ.sel = op
    · subst hs
      have e : σ.tready ops j = (σ.on && !j.af σ.sel) := by
        rw [Bool.eq_iff_iff, Same.tready, List.any_eq_true]
        constructor
        · rintro ⟨x, _, hx⟩
          simp only [Bool.and_eq_true, beq_iff_eq] at hx
          obtain ⟨hx, rfl⟩ := hx
          simpa using hx
        · intro h
          exact ⟨σ.sel, hop, by simpa using h⟩
      rw [e]
      simp only [Same.enq, beq_self_eq_true, Bool.and_true]
      cases σ.on <;> cases j.tvalid <;> cases j.af σ.sel <;> simp
    · have e : σ.enq j op = false := by simp [Same.enq, hs]
      rw [e]
      split
      · simp_all
      · simp [hs]

/-- What is still to come of the transfer in progress. -/
def Same.rem (σ : Same) : ℕ := if σ.on then max 1 σ.size else 0

structure SameInv (w : ℕ) (ops : List ℕ) (σ : Same) (L R : List (ℕ × ℕ)) : Prop where
  sel : σ.on = true → σ.sel ∈ ops
  size : σ.on = true → σ.size < 2 ^ w
  eq : L.map Prod.fst ++ List.replicate σ.rem σ.sel = targets R

/-- The selected FIFO is not held up while another FIFO of the interface could accept a word. -/
def Fair (w : ℕ) (ops : List ℕ) (i : ℕ → SIn) : Prop :=
  ∀ t, (sameAt w ops i t).on = true → (i t).af (sameAt w ops i t).sel = true → ∀ op ∈ ops, (i t).af op = true

theorem same_inv (hw : ∀ t r, (i t).req = some r → r.2 < 2 ^ w) (hf : Fair w ops i) (t : ℕ) :
    SameInv w ops (sameAt w ops i t) (sameLog w ops i t) (sameReqs w ops i t) := by
  induction t with
  | zero => exact ⟨by simp [sameAt, traj, Same.init], by simp [sameAt, traj, Same.init], rfl⟩
  | succ t ih =>
    have hs : sameAt w ops i (t + 1) = (sameAt w ops i t).step w ops (i t) := rfl
    have hf := hf t
    have hw := hw t
    rw [sameLog, sameReqs, collect_succ, collect_succ, hs]
    rw [sameLog, sameReqs] at ih
    revert ih hf hw
    generalize collect _ t = L
    generalize collect _ t = R
    generalize sameAt w ops i t = σ
    generalize i t = j
    intro ih hf hw
    obtain ⟨h1, h2, h3⟩ := ih
    cases hO : σ.on with
    | false =>
      have htr : σ.tready ops j = false := by simp [Same.tready, hO]
      have h3' : L.map Prod.fst = targets R := by simpa [Same.rem, hO] using h3
      cases hst : σ.start ops j with
      | none =>
        have e : σ.step w ops j = σ := by simp [Same.step, hO, hst]
        rw [e, htr]
        exact ⟨h1, h2, by simpa using h3⟩
      | some r =>
        have e : σ.step w ops j = ⟨true, r.1, r.2⟩ := by simp [Same.step, hO, hst]
        have hst' : j.req = some r ∧ r.1 ∈ ops := by
          simp only [Same.start, hO, Bool.false_eq_true, if_false, Option.filter_eq_some_iff] at hst
          exact ⟨hst.1, by simpa using hst.2⟩
        rw [e, htr]
        refine ⟨fun _ => hst'.2, fun _ => hw r hst'.1, ?_⟩
        simp [Same.rem, targets, h3']
    | true =>
      have hsel := h1 hO
      have hsz := h2 hO
      have hst : σ.start ops j = none := by simp [Same.start, hO]
      have e1 : σ.tready ops j = !j.af σ.sel := by
        rw [Bool.eq_iff_iff, Same.tready, List.any_eq_true]
        constructor
        · rintro ⟨x, _, hx⟩
          simp only [Bool.and_eq_true, beq_iff_eq] at hx
          obtain ⟨hx, rfl⟩ := hx
          simpa using hx.2
        · intro h
          exact ⟨σ.sel, hsel, by simpa [hO] using h⟩
      have e2 : (ops.any fun op => j.tvalid && !j.af op) = (j.tvalid && !j.af σ.sel) := by
        rw [Bool.eq_iff_iff, List.any_eq_true]
        constructor
        · rintro ⟨x, hx, h⟩
          simp only [Bool.and_eq_true, Bool.not_eq_true'] at h ⊢
          refine ⟨h.1, ?_⟩
          cases ha : j.af σ.sel with
          | false => rfl
          | true => exact absurd (hf hO ha x hx) (by simp [h.2])
        · intro h
          exact ⟨σ.sel, hsel, h⟩
      rw [hst, e1]
      simp only [Option.toList_none, List.append_nil]
      cases hg : (j.tvalid && !j.af σ.sel) with
      | false =>
        have e : σ.step w ops j = σ := by
          simp only [Same.step, hO, if_true, e2, hg]
          cases σ; simp_all
        rw [e, Bool.and_comm, hg]
        exact ⟨h1, h2, by simpa using h3⟩
      | true =>
        have e : σ.step w ops j = ⟨!decide (σ.size ≤ 1), σ.sel, dec w σ.size⟩ := by
          simp only [Same.step, hO, if_true, e2, hg]; simp
        rw [e, Bool.and_comm, hg]
        refine ⟨fun _ => hsel, fun _ => dec_lt _ _, ?_⟩
        rw [← h3]
        simp only [if_true, Option.toList_some, List.map_append, List.map_cons, List.map_nil, List.append_assoc,
          List.append_cancel_left_eq]
        by_cases hz : σ.size ≤ 1
        · simp [Same.rem, hO, hz]
        · simp only [Same.rem, hO, hz, decide_false, Bool.not_false, if_true, dec_pos (by omega : 0 < σ.size) hsz]
          rw [show max 1 σ.size = max 1 (σ.size - 1) + 1 by omega, List.replicate_succ]
          rfl

theorem zip_prefix {α β : Type} : ∀ (L : List (α × β)) (r : List α), (L.map Prod.fst ++ r).zip (L.map Prod.snd) = L
  | [], r => by simp
  | p :: L, r => by simp [zip_prefix L r]

/-- **C67 (same width).** `dma_read(fifo, size)` requests of any sizes, for any number of FIFOs of the stream width,
any stream and any behaviour of the readers, as long as the FIFO in use is not almost full while another FIFO of
the interface is not: the requests claim the beats of the stream in order, `size` of them each (one if the size is
0); every FIFO has received exactly its beats taken so far, in order; the interface is idle exactly when all
beats of the requests have been taken. -/
theorem c67_same (hw : ∀ t r, (i t).req = some r → r.2 < 2 ^ w) (hf : Fair w ops i) (t : ℕ) :
    (sameTaken w ops i t).length ≤ (targets (sameReqs w ops i t)).length ∧
    (∀ op ∈ ops, sameStored w ops i op t =
      (((targets (sameReqs w ops i t)).zip (sameTaken w ops i t)).filter fun p => p.1 == op).map Prod.snd) ∧
    ((sameAt w ops i t).on = false ↔ (sameTaken w ops i t).length = (targets (sameReqs w ops i t)).length) := by
  have h := same_inv hw hf t
  have hl := congrArg List.length h.eq
  simp only [List.length_append, List.length_map, List.length_replicate] at hl
  have ht : (sameTaken w ops i t).length = (sameLog w ops i t).length := by rw [← sameLog_taken]; simp
  refine ⟨by omega, fun op hop => ?_, ?_⟩
  · rw [sameLog_stored hop, ← h.eq, ← sameLog_taken, zip_prefix]
  · rw [ht, ← hl]
    cases hO : (sameAt w ops i t).on <;> simp [Same.rem, hO]

/-- With one FIFO on the interface the condition of `c67_same` holds. -/
theorem c67_one (op : ℕ) (hw : ∀ t r, (i t).req = some r → r.2 < 2 ^ w) (t : ℕ) :
    (sameTaken w [op] i t).length ≤ (targets (sameReqs w [op] i t)).length ∧
    sameStored w [op] i op t = sameTaken w [op] i t ∧
    ((sameAt w [op] i t).on = false ↔ (sameTaken w [op] i t).length = (targets (sameReqs w [op] i t)).length) := by
  have hs : ∀ t, (sameAt w [op] i t).on = true → (sameAt w [op] i t).sel = op := by
    intro t
    induction t with
    | zero => simp [sameAt, traj, Same.init]
    | succ t ih =>
      show ((sameAt w [op] i t).step w [op] (i t)).on = true → ((sameAt w [op] i t).step w [op] (i t)).sel = op
      intro h
      cases hO : (sameAt w [op] i t).on with
      | true =>
        have := ih hO
        simpa [Same.step, hO] using this
      | false =>
        cases hst : (sameAt w [op] i t).start [op] (i t) with
        | none => simp [Same.step, hO, hst] at h
        | some r =>
          simp only [Same.start, hO, Bool.false_eq_true, if_false, Option.filter_eq_some_iff] at hst
          have hr : r.1 = op := by simpa using hst.2
          have hst' : (sameAt w [op] i t).start [op] (i t) = some r := by
            simp only [Same.start, hO, Bool.false_eq_true, if_false, Option.filter_eq_some_iff]
            exact hst
          simp [Same.step, hO, hst', hr]
  have hf : Fair w [op] i := by
    intro t hO ha op' hop'
    rw [List.mem_singleton] at hop'
    rw [hop', ← hs t hO]
    exact ha
  obtain ⟨h1, h2, h3⟩ := c67_same hw hf t
  refine ⟨h1, ?_, h3⟩
  have hm : ∀ p ∈ sameLog w [op] i t, p.1 = op := by
    intro p hp
    simp only [sameLog, collect, List.mem_filterMap] at hp
    obtain ⟨s, _, hs'⟩ := hp
    split at hs'
    · rename_i hc
      rw [← Option.some.inj hs']
      apply hs
      simp only [Same.tready, List.any_cons, List.any_nil, Bool.or_false, Bool.and_eq_true] at hc
      exact hc.1.1.1
    · simp at hs'
  rw [sameLog_stored (by simp), List.filter_eq_self.2 (fun p hp => by simp [hm p hp]), sameLog_taken]

/-- **C67 (disagreement, several FIFOs).** While the FIFO of the transfer in progress is almost full and another
FIFO of the interface is not, the size is counted down by beats that are offered but not taken: from any point at
which `n` beats remain, `n` such cycles end the transfer, without a beat being taken or stored. -/
theorem c67_not_two {σ : Same} (hO : σ.on = true) (hn : 0 < σ.size) (hw : σ.size < 2 ^ w) {op : ℕ} (hop : op ∈ ops)
    {j : ℕ → SIn} (hv : ∀ t < σ.size, (j t).tvalid = true) (ha : ∀ t < σ.size, (j t).af σ.sel = true)
    (hb : ∀ t < σ.size, (j t).af op = false) :
    (traj (Same.step w ops) σ j σ.size).on = false ∧
    ∀ t < σ.size, (traj (Same.step w ops) σ j t).tready ops (j t) = false ∧
      ∀ op, (traj (Same.step w ops) σ j t).enq (j t) op = false := by
  have key : ∀ t < σ.size, traj (Same.step w ops) σ j t = { σ with size := σ.size - t } := by
    intro t ht
    induction t with
    | zero => cases σ; rfl
    | succ t ih =>
      have h1 := ih (by omega)
      show Same.step w ops (traj (Same.step w ops) σ j t) (j t) = _
      rw [h1]
      have hg : (ops.any fun op => (j t).tvalid && !(j t).af op) = true := by
        rw [List.any_eq_true]
        exact ⟨op, hop, by simp [hv t (by omega), hb t (by omega)]⟩
      have hz : ¬ σ.size - t ≤ 1 := by omega
      simp only [Same.step, hO, if_true, hg, hz, decide_false, dec_pos (by omega : 0 < σ.size - t) (by omega : σ.size - t < 2 ^ w)]
      simp only [Bool.true_and, Bool.not_false, Same.mk.injEq, true_and]
      omega
  constructor
  · obtain ⟨m, hm⟩ : ∃ m, σ.size = m + 1 := ⟨σ.size - 1, by omega⟩
    have h1 := key m (by omega)
    rw [hm]
    show (Same.step w ops (traj (Same.step w ops) σ j m) (j m)).on = false
    rw [h1]
    have hg : (ops.any fun op => (j m).tvalid && !(j m).af op) = true := by
      rw [List.any_eq_true]
      exact ⟨op, hop, by simp [hv m (by omega), hb m (by omega)]⟩
    have hz : σ.size - m ≤ 1 := by omega
    simp only [Same.step, hO, if_true, hg, hz, decide_true]
    rfl
  · intro t ht
    rw [key t ht]
    refine ⟨?_, fun op' => ?_⟩
    · rw [Bool.eq_false_iff]
      intro h
      rw [Same.tready, List.any_eq_true] at h
      obtain ⟨x, _, hx⟩ := h
      simp only [Bool.and_eq_true, beq_iff_eq] at hx
      obtain ⟨hx, rfl⟩ := hx
      simp [ha t ht] at hx
    · by_cases h : σ.sel = op'
      · subst h; simp [Same.enq, ha t ht]
      · simp [Same.enq, h]

end same

/-- Non-vacuity of `c67_same`: two FIFOs, three requests (one of size 0), an idle cycle of the stream, and both
FIFOs almost full in one cycle. -/
example :
    let i : ℕ → SIn := fun t =>
      ⟨[(1, 2), (1, 2), (1, 2), (1, 2), (2, 1), (2, 1), (1, 0), (1, 0)][t]?, t ≠ 2, 10 + t, fun _ => t == 3⟩
    sameReqs 4 [1, 2] i 9 = [(1, 2), (2, 1), (1, 0)] ∧ sameTaken 4 [1, 2] i 9 = [11, 14, 16, 18] ∧
    sameStored 4 [1, 2] i 1 9 = [11, 14, 18] ∧ sameStored 4 [1, 2] i 2 9 = [16] ∧
    (sameAt 4 [1, 2] i 9).on = false := by decide

example :
    let i : ℕ → SIn := fun t =>
      ⟨[(1, 2), (1, 2), (1, 2), (1, 2), (2, 1), (2, 1), (1, 0), (1, 0)][t]?, t ≠ 2, 10 + t, fun _ => t == 3⟩
    Fair 4 [1, 2] i := by
  intro i t _ h op _
  exact h

/-- Non-vacuity of `c67_not_two`: three beats remain for FIFO 1, which is almost full; FIFO 2 is not. -/
example : (traj (Same.step 4 [1, 2]) ⟨true, 1, 3⟩ (fun _ => ⟨none, true, 7, fun op => op == 1⟩) 3).on = false := by
  decide

/-! ## FIFO word wider than the stream word -/

section narrow
variable (w pack dw : ℕ) (i : ℕ → FIn)

/-- The machine at cycle `t` after reset. -/
def narrowAt (t : ℕ) : Narrow := traj (Narrow.step w pack dw) Narrow.init i t

/-- The beats taken from the stream in the first `t` cycles. -/
def narrowTaken (t : ℕ) : List ℕ :=
  collect (fun t => if (narrowAt w pack dw i t).tready (i t) && (i t).tvalid then some (i t).tdata else none) t

/-- The words stored in the FIFO in the first `t` cycles. -/
def narrowStored (t : ℕ) : List ℕ := collect (fun t => (narrowAt w pack dw i t).enq (i t)) t

/-- The sizes of the requests taken in the first `t` cycles. -/
def narrowReqs (t : ℕ) : List ℕ := collect (fun t => (narrowAt w pack dw i t).start (i t)) t

/-- The number of words the requests ask for (one for a request of size 0). -/
def wanted (rs : List ℕ) : ℕ := (rs.map (max 1)).sum

variable {w pack dw i}

def Narrow.rem (pack : ℕ) (σ : Narrow) : ℕ := if σ.on then max 1 σ.size * pack - σ.count else 0

structure NarrowInv (w pack dw : ℕ) (σ : Narrow) (A C R : List ℕ) : Prop where
  count : σ.count < pack
  off : σ.on = false → σ.count = 0
  size : σ.on = true → σ.size < 2 ^ w
  wd : σ.wdata < 2 ^ (pack * dw)
  small : ∀ x ∈ A, x < 2 ^ (pack * dw)
  valid : σ.wvalid = true → σ.count = 0
  eq : (A ++ if σ.wvalid then [σ.wdata] else []).flatMap (split pack dw) ++
    split σ.count dw (σ.wdata / 2 ^ (dw * (pack - σ.count))) = C
  tot : C.length + σ.rem pack = wanted R * pack

theorem wanted_append (R : List ℕ) (n : ℕ) : wanted (R ++ [n]) = wanted R + max 1 n := by simp [wanted]

theorem narrow_step {k : ℕ} (hk : pack = 2 ^ k) (hp : 2 ≤ pack) {σ : Narrow} {A C R : List ℕ}
    (h : NarrowInv w pack dw σ A C R) (j : FIn) (hd : j.tdata < 2 ^ dw) (hw : ∀ n, j.req = some n → n < 2 ^ w)
    (ha : σ.wvalid = true → σ.on = false → j.af = false) :
    NarrowInv w pack dw (σ.step w pack dw j) (A ++ (σ.enq j).toList)
      (C ++ (if σ.tready j && j.tvalid then some j.tdata else none).toList) (R ++ (σ.start j).toList) := by
  have hm : Dma.countMod pack = pack := by rw [hk, Dma.countMod_pow]
  obtain ⟨hc, hoff, hsz, hwd, hs, hv, he, ht⟩ := h
  cases hO : σ.on with
  | false =>
    have hc0 := hoff hO
    have hen : σ.enq j = if σ.wvalid then some σ.wdata else none := by
      cases hV : σ.wvalid with
      | false => simp [Narrow.enq, hV]
      | true => simp [Narrow.enq, hV, ha hV hO]
    have e : σ.step w pack dw j = ⟨j.req.isSome, 0, σ.wdata, false, j.req.getD σ.size⟩ := by
      simp [Narrow.step, hO]
    have hst : σ.start j = j.req := by simp [Narrow.start, hO]
    have htr : σ.tready j = false := by simp [Narrow.tready, hO]
    rw [e, hen, hst, htr]
    have hA : A ++ (if σ.wvalid then some σ.wdata else none).toList = A ++ if σ.wvalid then [σ.wdata] else [] := by
      cases σ.wvalid <;> rfl
    rw [hA]
    refine ⟨by dsimp; omega, fun _ => rfl, ?_, hwd, ?_, fun _ => rfl, ?_, ?_⟩
    · intro h
      obtain ⟨n, hn⟩ := Option.isSome_iff_exists.1 h
      simpa [hn] using hw n hn
    · intro x hx
      rw [List.mem_append] at hx
      rcases hx with hx | hx
      · exact hs x hx
      · cases hV : σ.wvalid <;> simp [hV] at hx
        subst hx; exact hwd
    · rw [hc0] at he
      simpa using he
    · have ht' : C.length = wanted R * pack := by simpa [Narrow.rem, hO] using ht
      cases hn : j.req with
      | none => simp [Narrow.rem, ht']
      | some n => simp [Narrow.rem, ht', wanted_append, Nat.add_mul]
  | true =>
    have hst : σ.start j = none := by simp [Narrow.start, hO]
    have hsz' := hsz hO
    rw [hst]
    simp only [Option.toList_none, List.append_nil]
    cases hA : j.af with
    | true =>
      have e : σ.step w pack dw j = σ := by
        simp only [Narrow.step, hO, hA, if_true]
        cases σ; simp_all
      have hen : σ.enq j = none := by simp [Narrow.enq, hA]
      have htr : σ.tready j = false := by simp [Narrow.tready, hA]
      rw [e, hen, htr]
      exact ⟨hc, hoff, hsz, hwd, by simpa using hs, hv, by simpa using he, by simpa using ht⟩
    | false =>
      have hen : σ.enq j = if σ.wvalid then some σ.wdata else none := by simp [Narrow.enq, hA]
      have htr : σ.tready j = true := by simp [Narrow.tready, hA, hO]
      rw [hen, htr]
      have hAp : A ++ (if σ.wvalid then some σ.wdata else none).toList = A ++ if σ.wvalid then [σ.wdata] else [] := by
        cases σ.wvalid <;> rfl
      rw [hAp]
      have hs' : ∀ x ∈ (A ++ if σ.wvalid then [σ.wdata] else []), x < 2 ^ (pack * dw) := by
        intro x hx
        rw [List.mem_append] at hx
        rcases hx with hx | hx
        · exact hs x hx
        · cases hV : σ.wvalid <;> simp [hV] at hx
          subst hx; exact hwd
      revert he hs'
      generalize (A ++ if σ.wvalid then [σ.wdata] else []) = B
      intro he hs'
      cases hT : j.tvalid with
      | false =>
        have e : σ.step w pack dw j = { σ with wvalid := false } := by
          simp only [Narrow.step, hO, hA, hT, if_true]
          cases σ; simp_all
        rw [e]
        refine ⟨hc, hoff, hsz, hwd, hs', by simp, by simpa using he, ?_⟩
        simpa [Narrow.rem] using ht
      | true =>
        have hcat := Dma.cat_lt (d := j.tdata) (x := σ.wdata) (w := dw) (by omega : 0 < pack) hd hwd
        have hsp := Dma.split_cat (d := j.tdata) (x := σ.wdata) (w := dw) hc hd hwd
        by_cases hfull : σ.count = pack - 1
        · have e : σ.step w pack dw j = ⟨!decide (σ.size ≤ 1), 0,
              j.tdata * 2 ^ (pack * dw - dw) + σ.wdata / 2 ^ dw, true, dec w σ.size⟩ := by
            simp [Narrow.step, hO, hA, hT, hfull]
          rw [e]
          refine ⟨by dsimp; omega, fun _ => rfl, fun _ => dec_lt _ _, hcat, hs', fun _ => rfl, ?_, ?_⟩
          · have hsp' : split pack dw (j.tdata * 2 ^ (pack * dw - dw) + σ.wdata / 2 ^ dw) =
                split σ.count dw (σ.wdata / 2 ^ (dw * (pack - σ.count))) ++ [j.tdata] := by
              rw [← hsp, hfull]; simp
              rw [show pack - 1 + 1 = pack by omega]
            rw [← he]
            simp [hsp']
          · simp only [Bool.and_self, if_true, Option.toList_some, List.length_append, List.length_singleton]
            rw [← ht]
            by_cases hz : σ.size ≤ 1
            · simp only [Narrow.rem, hO, hz, decide_true, Bool.not_true, if_true, Bool.false_eq_true, if_false]
              rw [show max 1 σ.size = 1 by omega]; omega
            · simp only [Narrow.rem, hO, hz, decide_false, Bool.not_false, if_true,
                dec_pos (by omega : 0 < σ.size) hsz']
              rw [show max 1 σ.size = max 1 (σ.size - 1) + 1 by omega, Nat.add_mul]
              omega
        · have e : σ.step w pack dw j = ⟨true, σ.count + 1,
              j.tdata * 2 ^ (pack * dw - dw) + σ.wdata / 2 ^ dw, false, σ.size⟩ := by
            have hlt : σ.count < pack - 1 := by omega
            simp [Narrow.step, hO, hA, hT, hfull, hlt, hm]
            exact Nat.mod_eq_of_lt (by omega)
          rw [e]
          refine ⟨by dsimp; omega, by simp, fun _ => hsz', hcat, hs', by simp, ?_, ?_⟩
          · dsimp
            rw [show pack - (σ.count + 1) = pack - 1 - σ.count by omega, hsp, ← he]
            simp
          · simp only [Bool.and_self, if_true, Option.toList_some, List.length_append, List.length_singleton]
            rw [← ht]
            simp only [Narrow.rem, hO, if_true]
            have : pack ≤ max 1 σ.size * pack := Nat.le_mul_of_pos_left _ (by omega)
            omega

/-- The FIFO does not become almost full in a cycle in which the machine offers it no word: the machine is the only
writer of the FIFO. -/
def OnlyWriter (w pack dw : ℕ) (i : ℕ → FIn) : Prop :=
  ∀ t, (i t).af = false → (narrowAt w pack dw i t).wvalid = false → (i (t + 1)).af = false

theorem narrow_inv {k : ℕ} (hk : pack = 2 ^ k) (hp : 2 ≤ pack) (hd : ∀ t, (i t).tdata < 2 ^ dw)
    (hw : ∀ t n, (i t).req = some n → n < 2 ^ w) (ho : OnlyWriter w pack dw i) (t : ℕ) :
    NarrowInv w pack dw (narrowAt w pack dw i t) (narrowStored w pack dw i t) (narrowTaken w pack dw i t)
      (narrowReqs w pack dw i t) ∧
    ((narrowAt w pack dw i t).wvalid = true → (narrowAt w pack dw i t).on = false → (i t).af = false) := by
  induction t with
  | zero =>
    refine ⟨⟨?_, fun _ => rfl, fun h => ?_, Nat.two_pow_pos _, ?_, ?_, rfl, ?_⟩, ?_⟩
    · show 0 < pack
      omega
    · cases h
    · intro x hx; cases hx
    · intro h; rfl
    · show 0 + 0 = 0 * pack
      simp
    · intro h; cases h
  | succ t ih =>
    have hs : narrowAt w pack dw i (t + 1) = (narrowAt w pack dw i t).step w pack dw (i t) := rfl
    refine ⟨?_, ?_⟩
    · have := narrow_step hk hp ih.1 (i t) (hd t) (hw t) ih.2
      rw [hs, narrowStored, narrowTaken, narrowReqs, collect_succ, collect_succ, collect_succ]
      exact this
    · rw [hs]
      intro h1 h2
      apply ho t
      · cases hO : (narrowAt w pack dw i t).on with
        | false => simp [Narrow.step, hO] at h1
        | true =>
          cases hA : (i t).af with
          | false => rfl
          | true => simp [Narrow.step, hO, hA] at h2
      · cases hO : (narrowAt w pack dw i t).on with
        | false => simp [Narrow.step, hO] at h1
        | true =>
          cases hV : (narrowAt w pack dw i t).wvalid with
          | false => rfl
          | true =>
            have h0 := ih.1.valid hV
            have : ¬ 0 = pack - 1 := by omega
            simp [Narrow.step, hO, h0, this] at h2

/-- **C67 (FIFO word = `pack` stream words).** For any requests, any stream and any reader of the FIFO, if the
interface is the only writer: the words stored, and then possibly one word not yet stored, are the beats taken so
far packed `pack` at a time, least significant first, up to an incomplete word; each request takes
`size * pack` beats (`pack` if the size is 0), and the interface is idle exactly when all have been taken; then
the last word is stored in the next cycle at the latest. -/
theorem c67_narrow {k : ℕ} (hk : pack = 2 ^ k) (hp : 2 ≤ pack) (hd : ∀ t, (i t).tdata < 2 ^ dw)
    (hw : ∀ t n, (i t).req = some n → n < 2 ^ w) (ho : OnlyWriter w pack dw i) (t : ℕ) :
    ∃ pend rest, pend.length ≤ 1 ∧ rest.length < pack ∧
      (narrowStored w pack dw i t ++ pend).flatMap (split pack dw) ++ rest = narrowTaken w pack dw i t ∧
      (∀ x ∈ narrowStored w pack dw i t ++ pend, x < 2 ^ (pack * dw)) ∧
      (narrowTaken w pack dw i t).length ≤ wanted (narrowReqs w pack dw i t) * pack ∧
      ((narrowAt w pack dw i t).on = false ↔
        (narrowTaken w pack dw i t).length = wanted (narrowReqs w pack dw i t) * pack) ∧
      ((narrowAt w pack dw i t).on = false →
        rest = [] ∧ narrowStored w pack dw i (t + 1) = narrowStored w pack dw i t ++ pend) := by
  obtain ⟨h, ha⟩ := narrow_inv hk hp hd hw ho t
  have ht := h.tot
  refine ⟨if (narrowAt w pack dw i t).wvalid then [(narrowAt w pack dw i t).wdata] else [],
    split (narrowAt w pack dw i t).count dw ((narrowAt w pack dw i t).wdata /
      2 ^ (dw * (pack - (narrowAt w pack dw i t).count))), ?_, by simpa using h.count, h.eq, ?_, by omega, ?_, ?_⟩
  · split <;> simp
  · intro x hx
    rw [List.mem_append] at hx
    rcases hx with hx | hx
    · exact h.small x hx
    · split at hx
      · simp at hx; subst hx; exact h.wd
      · simp at hx
  · rw [← ht]
    cases hO : (narrowAt w pack dw i t).on with
    | false => simp [Narrow.rem, hO]
    | true =>
      have : pack ≤ max 1 (narrowAt w pack dw i t).size * pack := Nat.le_mul_of_pos_left _ (by omega)
      have := h.count
      simp [Narrow.rem, hO]; omega
  · intro hO
    refine ⟨by rw [h.off hO]; simp, ?_⟩
    rw [narrowStored, collect_succ]
    congr 1
    cases hV : (narrowAt w pack dw i t).wvalid with
    | false => simp [Narrow.enq, hV]
    | true => simp [Narrow.enq, hV, ha hV hO]

end narrow

/-- Non-vacuity of `c67_narrow`: two requests, an idle cycle of the stream, and the FIFO almost full in the cycle
in which a word is offered; the word waits. -/
example :
    let i : ℕ → FIn := fun t => ⟨[2, 2, 2, 2, 2, 2, 1, 1][t]?, t ≠ 2, 16 * t + 1, t == 4⟩
    narrowReqs 4 2 8 i 12 = [2, 1] ∧ narrowTaken 4 2 8 i 12 = [17, 49, 81, 97, 129, 145] ∧
    narrowStored 4 2 8 i 12 = [49 * 256 + 17, 97 * 256 + 81, 145 * 256 + 129] ∧
    (narrowAt 4 2 8 i 12).on = false := by decide

/-! ### With the thread FIFO -/

/-- The thread FIFO written by a machine that offers `word t` when `valid t`, and read by `d`; `sys t` is the FIFO
at cycle `t` after reset. -/
structure Attached (aw : ℕ) (valid : ℕ → Bool) (word : ℕ → ℕ) (d : ℕ → Bool) (sys : ℕ → ThreadFifo.Sys ℕ) : Prop where
  start : ∃ mem r0, sys 0 = ThreadFifo.init mem r0
  step : ∀ t, sys (t + 1) = ThreadFifo.step aw (sys t) ⟨valid t, word t, d t⟩

/-- The words the reader of the FIFO has been given in the first `t` cycles. -/
def given (aw : ℕ) (d : ℕ → Bool) (sys : ℕ → ThreadFifo.Sys ℕ) (t : ℕ) : List ℕ :=
  collect (fun t => if d t && ThreadFifo.rready aw (sys t) then some (sys (t + 1)).fifo.rdata else none) t

/-- The words the FIFO has accepted. -/
def acceptedWords (aw : ℕ) (valid : ℕ → Bool) (word : ℕ → ℕ) (sys : ℕ → ThreadFifo.Sys ℕ) (t : ℕ) : List ℕ :=
  collect (fun t => if valid t && ThreadFifo.wready aw (sys t) then some (word t) else none) t

theorem Attached.good {aw : ℕ} {valid : ℕ → Bool} {word : ℕ → ℕ} {d : ℕ → Bool} {sys : ℕ → ThreadFifo.Sys ℕ}
    (A : Attached aw valid word d sys) (t : ℕ) :
    ∃ q, ThreadFifo.Good aw (sys t) q ∧ acceptedWords aw valid word sys t = given aw d sys t ++ q := by
  induction t with
  | zero =>
    obtain ⟨mem, r0, e⟩ := A.start
    exact ⟨[], by rw [e]; exact ThreadFifo.good_init aw mem r0, rfl⟩
  | succ t ih =>
    obtain ⟨q, h, he⟩ := ih
    obtain ⟨q', h', he'⟩ := ThreadFifo.good_step h ⟨valid t, word t, d t⟩
    rw [← A.step t] at h' he'
    refine ⟨q', h', ?_⟩
    rw [acceptedWords, given, collect_succ, collect_succ]
    rw [acceptedWords, given] at he
    rw [he, List.append_assoc, List.append_assoc]
    congr 1
    have e1 : ∀ (c : Bool) (x : ℕ), (if c then some x else none).toList = if c then [x] else [] := by
      intro c x; cases c <;> rfl
    rw [e1, e1]
    exact he'

theorem wready_length {aw : ℕ} {s : ThreadFifo.Sys ℕ} {q : List ℕ} (h : ThreadFifo.Good aw s q) :
    ThreadFifo.wready aw s = decide (q.length + 2 < 2 ^ aw) := by
  have hf := Fifo.flags_eq h.1
  have hl := h.1.len
  have hp : 0 < 2 ^ aw := Nat.two_pow_pos aw
  simp only [ThreadFifo.wready, hf, Fifo.specFlags]
  by_cases h1 : q.length + 2 < 2 ^ aw
  · have : ¬ (2 ^ aw - 1 ≤ q.length + 1) := by omega
    simp [h1, this]
  · have : 2 ^ aw - 1 ≤ q.length + 1 := by omega
    simp [h1, this]

/-- **C67 (FIFO word = `pack` stream words, through the FIFO).** The interface attached to a thread FIFO of any
depth with any reader: `c67_narrow` applies, and the words stored are those the reader has been given followed by
those still in the FIFO. -/
theorem c67_narrow_fifo {w pack dw aw : ℕ} {i : ℕ → FIn} {d : ℕ → Bool} {sys : ℕ → ThreadFifo.Sys ℕ}
    (A : Attached aw (fun t => (narrowAt w pack dw i t).wvalid) (fun t => (narrowAt w pack dw i t).wdata) d sys)
    (ha : ∀ t, (i t).af = !ThreadFifo.wready aw (sys t)) :
    OnlyWriter w pack dw i ∧
    ∀ t, ∃ q, narrowStored w pack dw i t = given aw d sys t ++ q ∧ (sys t).count = q.length := by
  refine ⟨fun t h1 h2 => ?_, fun t => ?_⟩
  · obtain ⟨q, h, _⟩ := A.good t
    obtain ⟨q', h', he⟩ := ThreadFifo.good_step h ⟨(narrowAt w pack dw i t).wvalid, (narrowAt w pack dw i t).wdata, d t⟩
    rw [← A.step t] at h' he
    have hl := congrArg List.length he
    rw [ha] at h1 ⊢
    rw [wready_length h] at h1
    rw [wready_length h']
    simp only [h2, Bool.false_and, Bool.false_eq_true, if_false, List.append_nil, List.length_append] at hl
    have : q.length + 2 < 2 ^ aw := by simpa using h1
    simp only [Bool.not_eq_false', decide_eq_true_eq]
    omega
  · obtain ⟨q, h, he⟩ := A.good t
    refine ⟨q, ?_, h.2⟩
    rw [← he]
    simp only [narrowStored, acceptedWords, Narrow.enq, ha, Bool.not_not]

/-- A stream word width ratio that is not a power of two is accepted, but no word is ever stored and the transfer
never ends. -/
theorem c67_narrow_not_pow2 {w pack dw : ℕ} (hp : 2 ≤ pack) (hk : ¬ ∃ k, pack = 2 ^ k) {i : ℕ → FIn} {s : ℕ}
    (hs : (narrowAt w pack dw i s).on = true) (t : ℕ) :
    narrowStored w pack dw i t = [] ∧ (s ≤ t → (narrowAt w pack dw i t).on = true) := by
  have hlt := Dma.countMod_lt (by omega) hk
  have hstep : ∀ σ : Narrow, ∀ j : FIn, σ.count < Dma.countMod pack → σ.wvalid = false →
      (σ.step w pack dw j).count < Dma.countMod pack ∧ (σ.step w pack dw j).wvalid = false ∧
      (σ.on = true → (σ.step w pack dw j).on = true) := by
    intro σ j h1 h2
    have hne : σ.count ≠ pack - 1 := by omega
    have hpos : 0 < Dma.countMod pack := Nat.two_pow_pos _
    cases hO : σ.on with
    | false => simp [Narrow.step, hO, hpos]
    | true =>
      refine ⟨?_, by simp [Narrow.step, hO, hne, h2], by simp [Narrow.step, hO, hne]⟩
      simp only [Narrow.step, hO, if_true]
      have hb : (σ.count == pack - 1) = false := by simpa using hne
      simp only [hb, Bool.and_false, Bool.false_eq_true, if_false]
      split
      · exact Nat.mod_lt _ hpos
      · exact h1
  have key : ∀ t, (narrowAt w pack dw i t).count < Dma.countMod pack ∧ (narrowAt w pack dw i t).wvalid = false := by
    intro t
    induction t with
    | zero => exact ⟨Nat.two_pow_pos _, rfl⟩
    | succ t ih => exact ⟨(hstep _ (i t) ih.1 ih.2).1, (hstep _ (i t) ih.1 ih.2).2.1⟩
  refine ⟨?_, fun hle => ?_⟩
  · simp only [narrowStored, collect, List.filterMap_eq_nil_iff]
    intro x _
    simp [Narrow.enq, (key x).2]
  · induction t with
    | zero =>
      obtain rfl : s = 0 := by omega
      exact hs
    | succ t ih =>
      rcases Nat.lt_or_ge t s with h | h
      · obtain rfl : s = t + 1 := by omega
        exact hs
      · exact (hstep _ (i t) (key t).1 (key t).2).2.2 (ih h)

/-! ## Stream word wider than the FIFO word -/

section wide
variable (w pack rw : ℕ) (i : ℕ → FIn)

/-- The machine at cycle `t` after reset. -/
def wideAt (t : ℕ) : Wide := traj (Wide.step w pack rw) Wide.init i t

/-- The beats taken from the stream in the first `t` cycles. -/
def wideTaken (t : ℕ) : List ℕ :=
  collect (fun t => if (wideAt w pack rw i t).tready (i t) && (i t).tvalid then some (i t).tdata else none) t

/-- The words stored in the FIFO in the first `t` cycles. -/
def wideStored (t : ℕ) : List ℕ := collect (fun t => (wideAt w pack rw i t).enq rw (i t)) t

/-- The sizes of the requests taken in the first `t` cycles. -/
def wideReqs (t : ℕ) : List ℕ := collect (fun t => (wideAt w pack rw i t).start (i t)) t

variable {w pack rw i}

def Wide.rem (pack : ℕ) (σ : Wide) : ℕ :=
  if σ.on then σ.size - (if σ.count = 0 then 0 else pack - σ.count) else 0

structure WideInv (w pack rw : ℕ) (σ : Wide) (A C : List ℕ) : Prop where
  count : σ.count < pack
  off : σ.on = false → σ.count = 0
  valid : 0 < σ.count → σ.wvalid = true
  eq : A ++ ((if σ.wvalid then [σ.word rw] else []) ++
    if σ.count = 0 then [] else split (pack - σ.count) rw (σ.wdata / 2 ^ rw)) = C.flatMap (split pack rw)

/-- The word that leaves the output register at this edge, stored or not. -/
def Wide.left (rw : ℕ) (σ : Wide) (j : FIn) : Option ℕ :=
  if σ.wvalid && (!j.af || !σ.on) then some (σ.word rw) else none

theorem wide_step {k : ℕ} (hk : pack = 2 ^ k) (hp : 2 ≤ pack) {σ : Wide} {A C : List ℕ} (h : WideInv w pack rw σ A C)
    (j : FIn) :
    WideInv w pack rw (σ.step w pack rw j) (A ++ (σ.left rw j).toList)
      (C ++ (if σ.tready j && j.tvalid then some j.tdata else none).toList) := by
  have hm : Dma.countMod pack = pack := by rw [hk, Dma.countMod_pow]
  obtain ⟨hc, hoff, hv, he⟩ := h
  have hopt : ∀ (c : Bool) (x : ℕ), (if c then some x else none).toList = if c then [x] else [] := by
    intro c x; cases c <;> rfl
  cases hO : σ.on with
  | false =>
    have hc0 := hoff hO
    have e : σ.step w pack rw j = ⟨j.req.isSome, 0, σ.wdata, false, j.req.getD σ.size⟩ := by
      simp [Wide.step, hO]
    have htr : σ.tready j = false := by simp [Wide.tready, hO]
    have hl : σ.left rw j = if σ.wvalid then some (σ.word rw) else none := by simp [Wide.left, hO]
    rw [e, htr, hl, hopt]
    refine ⟨by dsimp; omega, fun _ => rfl, by simp, ?_⟩
    simpa [hc0] using he
  | true =>
    cases hA : j.af with
    | true =>
      have e : σ.step w pack rw j = σ := by
        simp only [Wide.step, hO, hA, if_true]
        cases σ; simp_all
      have htr : σ.tready j = false := by simp [Wide.tready, hA]
      have hl : σ.left rw j = none := by simp [Wide.left, hA, hO]
      rw [e, htr, hl]
      exact ⟨hc, hoff, hv, by simpa using he⟩
    | false =>
      have hl : σ.left rw j = if σ.wvalid then some (σ.word rw) else none := by simp [Wide.left, hA]
      rw [hl, hopt]
      by_cases hc0 : σ.count = 0
      · have htr : σ.tready j = true := by simp [Wide.tready, hA, hO, hc0]
        have hne : ¬ 0 = pack - 1 := by omega
        have he' : A ++ (if σ.wvalid then [σ.word rw] else []) = C.flatMap (split pack rw) := by
          simpa [hc0] using he
        rw [htr, he']
        cases hT : j.tvalid with
        | false =>
          have e : σ.step w pack rw j = { σ with wvalid := false } := by
            simp only [Wide.step, hO, hA, hT, hc0, if_true]
            cases σ; simp_all
          rw [e]
          exact ⟨hc, hoff, by simp [hc0], by simp [hc0]⟩
        | true =>
          have e : σ.step w pack rw j = ⟨true, 1, j.tdata, true, dec w σ.size⟩ := by
            simp only [Wide.step, hO, hA, hT, hc0, if_true, hm]
            simp [hne, Nat.mod_eq_of_lt (by omega : 1 < pack)]
          rw [e]
          refine ⟨by dsimp; omega, by simp, fun _ => rfl, ?_⟩
          simp only [if_true, Bool.and_self, Option.toList_some, List.flatMap_append, List.flatMap_cons,
            List.flatMap_nil, List.append_nil, Wide.word]
          obtain ⟨p, rfl⟩ : ∃ p, pack = p + 1 := ⟨pack - 1, by omega⟩
          rw [Dma.split_succ]
          simp
      · have htr : σ.tready j = false := by simp [Wide.tready, hc0]
        have hV := hv (by omega)
        rw [htr, hV]
        obtain ⟨r, hr⟩ : ∃ r, pack - σ.count = r + 1 := ⟨pack - σ.count - 1, by omega⟩
        have hsplit : split (pack - σ.count) rw (σ.wdata / 2 ^ rw) =
            σ.wdata / 2 ^ rw % 2 ^ rw :: split (pack - σ.count - 1) rw (σ.wdata / 2 ^ rw / 2 ^ rw) := by
          rw [hr, Dma.split_succ]; simp
        rw [hV, if_neg hc0, hsplit] at he
        have hc0' : (σ.count == 0) = false := by simpa using hc0
        have hcp : decide (σ.count > 0) = true := by simpa using (by omega : 0 < σ.count)
        by_cases hlast : σ.count = pack - 1
        · have e : σ.step w pack rw j = ⟨!decide (σ.size ≤ 1), 0, σ.wdata / 2 ^ rw, true, dec w σ.size⟩ := by
            have hl' : (σ.count == pack - 1) = true := by simpa using hlast
            simp only [Wide.step, hO, hA, hc0', hcp, hl', if_true]
            simp
          rw [e]
          refine ⟨by dsimp; omega, fun _ => rfl, fun _ => rfl, ?_⟩
          rw [show pack - σ.count - 1 = 0 by omega] at he
          simpa [Wide.word] using he
        · have e : σ.step w pack rw j = ⟨true, σ.count + 1, σ.wdata / 2 ^ rw, true, dec w σ.size⟩ := by
            have hl' : (σ.count == pack - 1) = false := by simpa using hlast
            simp only [Wide.step, hO, hA, hc0', hcp, hl', if_true, hm]
            simp [Nat.mod_eq_of_lt (by omega : σ.count + 1 < pack)]
          rw [e]
          refine ⟨by dsimp; omega, by simp, fun _ => rfl, ?_⟩
          rw [show pack - σ.count - 1 = pack - (σ.count + 1) by omega] at he
          simpa [Wide.word] using he

/-- The words that have left the output register. -/
def wideLeft (w pack rw : ℕ) (i : ℕ → FIn) (t : ℕ) : List ℕ := collect (fun t => (wideAt w pack rw i t).left rw (i t)) t

theorem wide_inv {k : ℕ} (hk : pack = 2 ^ k) (hp : 2 ≤ pack) (t : ℕ) :
    WideInv w pack rw (wideAt w pack rw i t) (wideLeft w pack rw i t) (wideTaken w pack rw i t) := by
  induction t with
  | zero => exact ⟨by show 0 < pack; omega, fun _ => rfl, fun h => absurd h (Nat.lt_irrefl 0), rfl⟩
  | succ t ih =>
    have hs : wideAt w pack rw i (t + 1) = (wideAt w pack rw i t).step w pack rw (i t) := rfl
    have := wide_step (w := w) hk hp ih (i t)
    rw [hs, wideLeft, wideTaken, collect_succ, collect_succ]
    exact this

/-- The count of the words to come, for requests that are positive multiples of `pack`. -/
structure WideSize (w pack : ℕ) (σ : Wide) (C R : List ℕ) : Prop where
  size : σ.on = true → 0 < σ.size ∧ σ.size < 2 ^ w ∧ pack ∣ σ.size + σ.count
  tot : C.length * pack + σ.rem pack = R.sum

theorem wide_size {k : ℕ} (hk : pack = 2 ^ k) (hp : 2 ≤ pack)
    (hw : ∀ t n, (i t).req = some n → n < 2 ^ w ∧ 0 < n ∧ pack ∣ n) (t : ℕ) :
    WideSize w pack (wideAt w pack rw i t) (wideTaken w pack rw i t) (wideReqs w pack rw i t) := by
  have hm : Dma.countMod pack = pack := by rw [hk, Dma.countMod_pow]
  induction t with
  | zero => exact ⟨fun h => by (cases h), by simp [wideTaken, wideReqs, wideAt, traj, Wide.init, Wide.rem]⟩
  | succ t ih =>
    have hs : wideAt w pack rw i (t + 1) = (wideAt w pack rw i t).step w pack rw (i t) := rfl
    have hI := wide_inv (w := w) (rw := rw) (i := i) hk hp t
    have hw := hw t
    rw [hs, wideTaken, wideReqs, collect_succ, collect_succ]
    rw [wideTaken] at hI
    rw [wideTaken, wideReqs] at ih
    revert ih hI hw
    generalize wideLeft w pack rw i t = A
    generalize collect _ t = C
    generalize collect _ t = R
    generalize wideAt w pack rw i t = σ
    generalize i t = j
    intro ih hI hw
    obtain ⟨hc, hoff, hv, -⟩ := hI
    obtain ⟨hz, ht⟩ := ih
    cases hO : σ.on with
    | false =>
      have e : σ.step w pack rw j = ⟨j.req.isSome, 0, σ.wdata, false, j.req.getD σ.size⟩ := by
        simp [Wide.step, hO]
      have htr : σ.tready j = false := by simp [Wide.tready, hO]
      have hst : σ.start j = j.req := by simp [Wide.start, hO]
      have ht' : C.length * pack = R.sum := by simpa [Wide.rem, hO] using ht
      rw [e, htr, hst]
      cases hn : j.req with
      | none => exact ⟨by simp, by simp [Wide.rem, ht']⟩
      | some n =>
        obtain ⟨h1, h2, h3⟩ := hw n hn
        exact ⟨fun _ => ⟨by simpa using h2, by simpa using h1, by simpa using h3⟩, by simp [Wide.rem, ht']⟩
    | true =>
      obtain ⟨h1, h2, h3⟩ := hz hO
      have hst : σ.start j = none := by simp [Wide.start, hO]
      rw [hst]
      simp only [Option.toList_none, List.append_nil]
      cases hA : j.af with
      | true =>
        have e : σ.step w pack rw j = σ := by
          simp only [Wide.step, hO, hA, if_true]
          cases σ; simp_all
        have htr : σ.tready j = false := by simp [Wide.tready, hA]
        rw [e, htr]
        exact ⟨hz, by simpa using ht⟩
      | false =>
        have hdec : dec w σ.size = σ.size - 1 := dec_pos h1 h2
        obtain ⟨q, hq⟩ := h3
        by_cases hc0 : σ.count = 0
        · have htr : σ.tready j = true := by simp [Wide.tready, hA, hO, hc0]
          have hne : ¬ 0 = pack - 1 := by omega
          rw [htr]
          cases hT : j.tvalid with
          | false =>
            have e : σ.step w pack rw j = { σ with wvalid := false } := by
              simp only [Wide.step, hO, hA, hT, hc0, if_true]
              cases σ; simp_all
            rw [e]
            exact ⟨fun _ => ⟨h1, h2, q, hq⟩, by simpa [Wide.rem] using ht⟩
          | true =>
            have e : σ.step w pack rw j = ⟨true, 1, j.tdata, true, σ.size - 1⟩ := by
              simp only [Wide.step, hO, hA, hT, hc0, if_true, hm, hdec]
              simp [hne, Nat.mod_eq_of_lt (by omega : 1 < pack)]
            rw [e]
            have hge : pack ≤ σ.size := by
              have hq0 : q ≠ 0 := by rintro rfl; omega
              have := Nat.le_mul_of_pos_right pack (by omega : 0 < q)
              omega
            refine ⟨fun _ => ⟨by dsimp; omega, by dsimp; omega, q, by dsimp; omega⟩, ?_⟩
            rw [← ht]
            simp only [Wide.rem, hO, hc0, if_true, Bool.and_self, Option.toList_some, List.length_append,
              List.length_singleton, Nat.add_mul]
            simp
            omega
        · have htr : σ.tready j = false := by simp [Wide.tready, hc0]
          rw [htr]
          have hc0' : (σ.count == 0) = false := by simpa using hc0
          have hcp : decide (σ.count > 0) = true := by simpa using (by omega : 0 < σ.count)
          have hge : pack ≤ σ.size + σ.count := by
            have hq0 : q ≠ 0 := by rintro rfl; omega
            have := Nat.le_mul_of_pos_right pack (by omega : 0 < q)
            omega
          by_cases hlast : σ.count = pack - 1
          · have e : σ.step w pack rw j = ⟨!decide (σ.size ≤ 1), 0, σ.wdata / 2 ^ rw, true, σ.size - 1⟩ := by
              have hl' : (σ.count == pack - 1) = true := by simpa using hlast
              simp only [Wide.step, hO, hA, hc0', hcp, hl', if_true, hdec]
              simp
            rw [e]
            refine ⟨?_, ?_⟩
            · intro h
              have hn1 : ¬ σ.size ≤ 1 := by simpa using h
              refine ⟨by dsimp; omega, by dsimp; omega, q - 1, ?_⟩
              dsimp
              have : pack * q = pack * (q - 1) + pack := by
                rw [← Nat.mul_succ, Nat.succ_eq_add_one, Nat.sub_add_cancel]
                rcases Nat.eq_zero_or_pos q with h0 | h0
                · subst h0; omega
                · exact h0
              omega
            · rw [← ht]
              simp only [Wide.rem, hO, if_true, if_neg hc0]
              by_cases hz1 : σ.size ≤ 1
              · simp [hz1]; omega
              · simp [hz1]; omega
          · have e : σ.step w pack rw j = ⟨true, σ.count + 1, σ.wdata / 2 ^ rw, true, σ.size - 1⟩ := by
              have hl' : (σ.count == pack - 1) = false := by simpa using hlast
              simp only [Wide.step, hO, hA, hc0', hcp, hl', if_true, hm, hdec]
              simp [Nat.mod_eq_of_lt (by omega : σ.count + 1 < pack)]
            rw [e]
            refine ⟨fun _ => ⟨by dsimp; omega, by dsimp; omega, q, by dsimp; omega⟩, ?_⟩
            rw [← ht]
            simp only [Wide.rem, hO, if_true, if_neg hc0]
            simp
            omega

/-- **C67 (stream word = `pack` FIFO words).** For requests whose sizes are positive multiples of `pack`, any
stream and any behaviour of the FIFO, provided that the FIFO is never almost full in the cycle after a transfer
has ended: the words stored, and then at most `pack` words not yet stored, are the beats taken so far cut into
`pack` words each, least significant first; each request takes `size / pack` beats; when the interface is idle all
have been taken and the last word is stored in the next cycle at the latest; once all are stored it is idle. -/
theorem c67_wide {k : ℕ} (hk : pack = 2 ^ k) (hp : 2 ≤ pack)
    (hw : ∀ t n, (i t).req = some n → n < 2 ^ w ∧ 0 < n ∧ pack ∣ n)
    (ha : ∀ t, (wideAt w pack rw i t).on = false → (wideAt w pack rw i t).wvalid = true → (i t).af = false) (t : ℕ) :
    ∃ pend, pend.length ≤ pack ∧
      wideStored w pack rw i t ++ pend = (wideTaken w pack rw i t).flatMap (split pack rw) ∧
      (wideTaken w pack rw i t).length * pack ≤ (wideReqs w pack rw i t).sum ∧
      ((wideAt w pack rw i t).on = false →
        (wideTaken w pack rw i t).length * pack = (wideReqs w pack rw i t).sum ∧
        wideStored w pack rw i (t + 1) = wideStored w pack rw i t ++ pend) ∧
      ((wideStored w pack rw i t).length = (wideReqs w pack rw i t).sum → (wideAt w pack rw i t).on = false) := by
  have hS : ∀ t, wideStored w pack rw i t = wideLeft w pack rw i t := by
    intro t
    simp only [wideStored, wideLeft]
    congr 1
    funext t
    simp only [Wide.enq, Wide.left]
    cases hO : (wideAt w pack rw i t).on with
    | true => simp
    | false =>
      cases hV : (wideAt w pack rw i t).wvalid with
      | false => simp
      | true => simp [ha t hO hV]
  have hI := wide_inv (w := w) (rw := rw) (i := i) hk hp t
  have hZ := wide_size (w := w) (rw := rw) (i := i) hk hp hw t
  have ht := hZ.tot
  have hc := hI.count
  refine ⟨_, ?_, by rw [hS]; exact hI.eq, ?_, ?_, ?_⟩
  · have := hI.valid
    split <;> split <;> simp <;> omega
  · omega
  · intro hO
    refine ⟨by simpa [Wide.rem, hO] using ht, ?_⟩
    rw [hI.off hO, wideStored, collect_succ]
    simp only [if_true, List.append_nil]
    congr 1
    cases hV : (wideAt w pack rw i t).wvalid with
    | false => simp [Wide.enq, hV]
    | true => simp [Wide.enq, hV, ha t hO hV]
  · intro hl
    rw [hS] at hl
    have hlen := congrArg List.length hI.eq
    simp only [List.length_append, Dma.flatMap_split_length] at hlen
    by_contra hO
    have hO : (wideAt w pack rw i t).on = true := by simpa using hO
    obtain ⟨h1, h2, h3⟩ := hZ.size hO
    simp only [Wide.rem, hO, if_true] at ht
    by_cases hc0 : (wideAt w pack rw i t).count = 0
    · simp only [hc0, if_true] at ht
      omega
    · have hge : pack ≤ (wideAt w pack rw i t).size + (wideAt w pack rw i t).count := Nat.le_of_dvd (by omega) h3
      have hV := hI.valid (by omega)
      rw [if_neg hc0, hV] at hlen
      rw [if_neg hc0] at ht
      simp at hlen
      omega

/-- **C67 (wide, through the FIFO).** Attached to a thread FIFO, the words stored are those the reader has been
given followed by those still in the FIFO. -/
theorem c67_wide_fifo {aw : ℕ} {d : ℕ → Bool} {sys : ℕ → ThreadFifo.Sys ℕ}
    (A : Attached aw (fun t => (wideAt w pack rw i t).wvalid) (fun t => (wideAt w pack rw i t).word rw) d sys)
    (ha : ∀ t, (i t).af = !ThreadFifo.wready aw (sys t)) (t : ℕ) :
    ∃ q, wideStored w pack rw i t = given aw d sys t ++ q ∧ (sys t).count = q.length ∧
      ((i t).af = false ↔ q.length + 2 < 2 ^ aw) := by
  obtain ⟨q, h, he⟩ := A.good t
  refine ⟨q, ?_, h.2, ?_⟩
  · rw [← he]
    simp only [wideStored, acceptedWords, Wide.enq, ha, Bool.not_not]
  · rw [ha, wready_length h]
    simp

/-- **C67 (disagreement, last word lost).** A beat is cut into two words while the FIFO, of any depth, holds
`2 ^ aw - 3` words and is not read: the transfer ends, the first word is in the FIFO, the second is gone. -/
theorem c67_not_wide_full {aw : ℕ} (haw : 2 ≤ aw) (hw : 2 ≤ w) {s : ThreadFifo.Sys ℕ} {q : List ℕ}
    (hg : ThreadFifo.Good aw s q) (hq : q.length + 3 = 2 ^ aw) (d d1 d2 wd : ℕ) :
    ∃ (σ : ℕ → Wide) (sys : ℕ → ThreadFifo.Sys ℕ) (j : ℕ → FIn),
      σ 0 = ⟨true, 0, wd, false, 2⟩ ∧ sys 0 = s ∧
      (∀ t, σ (t + 1) = (σ t).step w 2 rw (j t)) ∧
      (∀ t, sys (t + 1) = ThreadFifo.step aw (sys t) ⟨(σ t).wvalid, (σ t).word rw, false⟩) ∧
      (∀ t, (j t).af = !ThreadFifo.wready aw (sys t)) ∧
      (∀ t, (j t).tvalid = true ∧ (j t).tdata = [d, d1, d2].getD t 0 ∧ (j t).req = none) ∧
      (σ 0).tready (j 0) = true ∧ (σ 2).on = false ∧
      ∀ t, 2 ≤ t → ThreadFifo.Good aw (sys t) (q ++ [d % 2 ^ rw]) ∧ (2 < t → (σ t).wvalid = false) := by
  let jn : ℕ → ThreadFifo.Sys ℕ → FIn := fun t s => ⟨none, true, [d, d1, d2].getD t 0, !ThreadFifo.wready aw s⟩
  let st : ℕ → Wide × ThreadFifo.Sys ℕ := fun t => Nat.rec (⟨true, 0, wd, false, 2⟩, s) (fun t p =>
    (p.1.step w 2 rw (jn t p.2), ThreadFifo.step aw p.2 ⟨p.1.wvalid, p.1.word rw, false⟩)) t
  have hst : ∀ t, st (t + 1) = ((st t).1.step w 2 rw (jn t (st t).2),
    ThreadFifo.step aw (st t).2 ⟨(st t).1.wvalid, (st t).1.word rw, false⟩) := fun t => rfl
  have hm : Dma.countMod 2 = 2 := by decide
  have h4 : 4 ≤ 2 ^ w := by
    have := Nat.pow_le_pow_right (by omega : 0 < 2) hw
    simpa using this
  have hr0 : ThreadFifo.wready aw s = true := by rw [wready_length hg]; simp; omega
  -- the first cycle takes the beat
  have g1 : ThreadFifo.Good aw (st 1).2 q := by
    obtain ⟨q', h', he⟩ := ThreadFifo.good_step hg ⟨false, wd % 2 ^ rw, false⟩
    have : q' = q := by simpa using he.symm
    rw [this] at h'
    exact h'
  have s1 : (st 1).1 = ⟨true, 1, d, true, 1⟩ := by
    show Wide.step w 2 rw ⟨true, 0, wd, false, 2⟩ (jn 0 s) = _
    simp [Wide.step, jn, hr0, hm, dec_pos (by omega : 0 < 2) (by omega : 2 < 2 ^ w)]
  have hr1 : ThreadFifo.wready aw (st 1).2 = true := by rw [wready_length g1]; simp; omega
  have s2 : (st 2).1 = ⟨false, 0, d / 2 ^ rw, true, 0⟩ := by
    rw [show st 2 = _ from hst 1, s1]
    simp [Wide.step, jn, hr1, dec_pos (by omega : 0 < 1) (by omega : 1 < 2 ^ w)]
  have g2 : ThreadFifo.Good aw (st 2).2 (q ++ [d % 2 ^ rw]) := by
    obtain ⟨q', h', he⟩ := ThreadFifo.good_step g1 ⟨true, d % 2 ^ rw, false⟩
    have : q' = q ++ [d % 2 ^ rw] := by simpa [hr1] using he.symm
    rw [this] at h'
    rw [show st 2 = _ from hst 1, s1]
    exact h'
  have rest : ∀ t, ThreadFifo.Good aw (st (t + 2)).2 (q ++ [d % 2 ^ rw]) ∧ (st (t + 2)).1.on = false ∧
      (0 < t → (st (t + 2)).1.wvalid = false) := by
    intro t
    induction t with
    | zero => exact ⟨g2, by show (st 2).1.on = false; rw [s2], by simp⟩
    | succ t ih =>
      obtain ⟨h1, h2, _⟩ := ih
      have hr : ThreadFifo.wready aw (st (t + 2)).2 = false := by
        rw [wready_length h1]; simp; omega
      have e : (st (t + 3)) = _ := hst (t + 2)
      rw [show t + 1 + 2 = t + 3 by omega, e]
      refine ⟨?_, by simp [Wide.step, h2, jn], fun _ => by simp [Wide.step, h2]⟩
      obtain ⟨q', h', he⟩ := ThreadFifo.good_step h1 ⟨(st (t + 2)).1.wvalid, (st (t + 2)).1.word rw, false⟩
      have : q' = q ++ [d % 2 ^ rw] := by simpa [hr] using he.symm
      rw [this] at h'
      exact h'
  refine ⟨fun t => (st t).1, fun t => (st t).2, fun t => jn t (st t).2, rfl, rfl, fun t => rfl,
    fun t => rfl, fun t => rfl, fun t => ⟨rfl, rfl, rfl⟩, ?_, by show (st 2).1.on = false; rw [s2], fun t ht => ?_⟩
  · show Wide.tready ⟨true, 0, wd, false, 2⟩ (jn 0 s) = true
    simp [Wide.tready, jn, hr0]
  · obtain ⟨u, rfl⟩ : ∃ u, t = u + 2 := ⟨t - 2, by omega⟩
    exact ⟨(rest u).1, fun h => (rest u).2.2 (by omega)⟩

/-- **C67 (disagreement, other sizes).** A request of `n` words into a FIFO narrower than the stream, where neither
`n` nor `n + 1` is a positive multiple of `pack`, does not end until the size register has wrapped around: the
machine goes on taking beats until `2 ^ w` words, nearly, have been cut. -/
theorem c67_not_wide_size {k n wd : ℕ} (hk : pack = 2 ^ k) (hp : 2 ≤ pack) (hn : n < 2 ^ w)
    (h0 : ∀ r, 0 < r → n ≠ r * pack ∧ n + 1 ≠ r * pack) {j : ℕ → FIn} (t : ℕ) :
    let σ := traj (Wide.step w pack rw) ⟨true, 0, wd, false, n⟩ j
    let C := collect (fun t => if (σ t).tready (j t) && (j t).tvalid then some (j t).tdata else none) t
    (σ t).on = true ∨ 2 ^ w ≤ C.length * pack + 1 := by
  intro σ C
  have hm : Dma.countMod pack = pack := by rw [hk, Dma.countMod_pow]
  have hpow : 0 < 2 ^ w := Nat.two_pow_pos w
  have key : ∀ t, let L := (collect (fun t => if (σ t).tready (j t) && (j t).tvalid then some (j t).tdata else none)
      t).length
      2 ^ w ≤ L * pack + 1 ∨ ((σ t).on = true ∧ (σ t).count < pack ∧ ∃ p,
        (p + (if (σ t).count = 0 then 0 else pack - (σ t).count) = L * pack) ∧
        (σ t).size = (n + 2 ^ w - p) % 2 ^ w) := by
    intro t
    induction t with
    | zero =>
      right
      refine ⟨rfl, by show 0 < pack; omega, 0, by simp [σ, traj], ?_⟩
      show n = _
      rw [Nat.sub_zero, Nat.add_mod_right, Nat.mod_eq_of_lt hn]
    | succ t ih =>
      have hs : σ (t + 1) = (σ t).step w pack rw (j t) := rfl
      dsimp only at ih ⊢
      rw [collect_succ, hs]
      revert ih
      generalize collect _ t = C
      generalize σ t = τ
      generalize j t = x
      intro ih
      rcases ih with ih | ⟨hO, hc, p, hp1, hp2⟩
      · left
        have := Nat.mul_le_mul_right pack
          (by simp : C.length ≤ (C ++ (if τ.tready x && x.tvalid then some x.tdata else none).toList).length)
        omega
      · rcases Nat.lt_or_ge (C.length * pack + 1) (2 ^ w) with hlt | hge
        swap
        · left
          have := Nat.mul_le_mul_right pack
            (by simp : C.length ≤ (C ++ (if τ.tready x && x.tvalid then some x.tdata else none).toList).length)
          omega
        cases hA : x.af with
        | true =>
          right
          have e : τ.step w pack rw x = τ := by
            simp only [Wide.step, hO, hA, if_true]
            cases τ; simp_all
          have htr : τ.tready x = false := by simp [Wide.tready, hA]
          rw [e, htr]
          exact ⟨hO, hc, p, by simpa using hp1, hp2⟩
        | false =>
          have hdec : ∀ p, p + 1 < 2 ^ w → dec w ((n + 2 ^ w - p) % 2 ^ w) = (n + 2 ^ w - (p + 1)) % 2 ^ w := by
            intro p hp
            unfold dec
            rw [Nat.mod_add_mod, show n + 2 ^ w - p + (2 ^ w - 1) = n + 2 ^ w - (p + 1) + 2 ^ w by omega,
              Nat.add_mod_right]
          by_cases hc0 : τ.count = 0
          · have htr : τ.tready x = true := by simp [Wide.tready, hA, hO, hc0]
            have hne : ¬ 0 = pack - 1 := by omega
            rw [htr]
            right
            cases hT : x.tvalid with
            | false =>
              have e : τ.step w pack rw x = { τ with wvalid := false } := by
                simp only [Wide.step, hO, hA, hT, hc0, if_true]
                cases τ; simp_all
              rw [e]
              exact ⟨hO, hc, p, by simpa using hp1, hp2⟩
            | true =>
              have e : τ.step w pack rw x = ⟨true, 1, x.tdata, true, dec w τ.size⟩ := by
                simp only [Wide.step, hO, hA, hT, hc0, if_true, hm]
                simp [hne, Nat.mod_eq_of_lt (by omega : 1 < pack)]
              rw [e]
              rw [if_pos hc0] at hp1
              refine ⟨rfl, by dsimp; omega, p + 1, ?_, ?_⟩
              · simp [Nat.add_mul]; omega
              · dsimp
                rw [hp2, hdec p (by omega)]
          · have htr : τ.tready x = false := by simp [Wide.tready, hc0]
            rw [htr]
            rw [if_neg hc0] at hp1
            have hc0' : (τ.count == 0) = false := by simpa using hc0
            have hcp : decide (τ.count > 0) = true := by simpa using (by omega : 0 < τ.count)
            right
            by_cases hlast : τ.count = pack - 1
            · have hz : ¬ τ.size ≤ 1 := by
                rw [hp2]
                have hC : 0 < C.length := by
                  rcases Nat.eq_zero_or_pos C.length with h | h
                  · rw [h] at hp1; omega
                  · exact h
                obtain ⟨ha, hb⟩ := h0 C.length hC
                rcases Nat.lt_or_ge n p with hlt' | hge'
                · rw [Nat.mod_eq_of_lt (by omega)]; omega
                · rw [show n + 2 ^ w - p = n - p + 2 ^ w by omega, Nat.add_mod_right, Nat.mod_eq_of_lt (by omega)]
                  omega
              have e : τ.step w pack rw x = ⟨true, 0, τ.wdata / 2 ^ rw, true, dec w τ.size⟩ := by
                have hl' : (τ.count == pack - 1) = true := by simpa using hlast
                simp only [Wide.step, hO, hA, hc0', hcp, hl', if_true, hz]
                simp
              rw [e]
              refine ⟨rfl, by dsimp; omega, p + 1, by simp; omega, ?_⟩
              dsimp
              rw [hp2, hdec p (by omega)]
            · have e : τ.step w pack rw x = ⟨true, τ.count + 1, τ.wdata / 2 ^ rw, true, dec w τ.size⟩ := by
                have hl' : (τ.count == pack - 1) = false := by simpa using hlast
                simp only [Wide.step, hO, hA, hc0', hcp, hl', if_true, hm]
                simp [Nat.mod_eq_of_lt (by omega : τ.count + 1 < pack)]
              rw [e]
              refine ⟨rfl, by dsimp; omega, p + 1, by simp; omega, ?_⟩
              dsimp
              rw [hp2, hdec p (by omega)]
  rcases key t with h | ⟨h, -⟩
  · exact Or.inr h
  · exact Or.inl h

end wide

/-- Non-vacuity of `c67_wide`: two requests, stalls of the FIFO and of the stream. -/
example :
    let i : ℕ → FIn := fun t => ⟨[2, 2, 2, 2, 4, 4, 4][t]?, t ≠ 5, 256 * t + 7, t == 2⟩
    wideReqs 4 2 8 i 14 = [2, 4] ∧ wideTaken 4 2 8 i 14 = [256 + 7, 256 * 6 + 7, 256 * 8 + 7] ∧
    wideStored 4 2 8 i 14 = [7, 1, 7, 6, 7, 8] ∧ (wideAt 4 2 8 i 14).on = false := by decide

/-- Non-vacuity of `c67_not_wide_size`: one word asked for, four words per beat. -/
example : (∀ r, 0 < r → 1 ≠ r * 4 ∧ 1 + 1 ≠ r * 4) ∧
    (traj (Wide.step 5 4 8) ⟨true, 0, 0, false, 1⟩ (fun _ => ⟨none, true, 5, false⟩) 30).on = true := by
  refine ⟨fun r hr => ⟨by omega, by omega⟩, by decide⟩

/-- Non-vacuity of `c67_not_wide_full`: a FIFO of depth 4 holding one word. -/
example : ∃ (s : ThreadFifo.Sys ℕ) (q : List ℕ), ThreadFifo.Good 2 s q ∧ q.length + 3 = 2 ^ 2 := by
  obtain ⟨q, h, he⟩ := ThreadFifo.good_step (ThreadFifo.good_init 2 (fun _ => 0) 0) ⟨true, 5, false⟩
  refine ⟨_, q, h, ?_⟩
  have hl := congrArg List.length he
  have hr : ThreadFifo.wready 2 (ThreadFifo.init (fun _ => 0) 0) = true := by decide
  simp [hr] at hl
  omega

end StreamIn
