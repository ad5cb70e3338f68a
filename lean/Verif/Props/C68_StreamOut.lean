import Verif.Model.StreamOut
import Verif.Props.C67_StreamIn
import Verif.Props.C37_WidthWrite

/-! # C68: AXI stream output sends the words of its transfers once, in order, with the last word marked -/

namespace StreamOut
open Dma (split collect collect_succ collect_zero)
open StreamIn (traj dec dec_pos dec_lt)

/-! ## The output registers -/

/-- The beat waiting in the output registers. -/
def Out.held (o : Out) : List (ℕ × Bool) := if o.valid then [(o.data, o.last)] else []

theorem Out.held_length (o : Out) : o.held.length ≤ 1 := by
  unfold Out.held; split <;> simp

theorem out_step (o : Out) (r : Bool) (s : Option (ℕ × Bool)) :
    (o.beat r).toList ++ (o.step r s).held = o.held ++ (if o.ready r then s else none).toList := by
  obtain ⟨v, d, l⟩ := o
  cases v <;> cases r <;> cases s <;> simp [Out.beat, Out.step, Out.held, Out.ready]

/-! ## What is to be sent -/

/-- The things asked of the interface: transfers of `n` words, and `write(value, last)`. -/
inductive Job where
  | dma (n : ℕ)
  | write (v : ℕ × Bool)
  deriving DecidableEq

/-- The number of words the transfers need from the FIFO. -/
def total : List Job → ℕ
  | [] => 0
  | .dma n :: J => n + total J
  | .write _ :: J => total J

/-- The beats the jobs ask for when the FIFO has supplied the words `P`: a transfer of `n` words is the next `n`
words, the last of them marked. -/
def beats : List Job → List ℕ → List (ℕ × Bool)
  | [], _ => []
  | .dma n :: J, P => P.zip (Dma.flags n) ++ beats J (P.drop n)
  | .write v :: J, P => v :: beats J P

theorem total_append (J K : List Job) : total (J ++ K) = total J + total K := by
  induction J with
  | nil => simp [total]
  | cons j J ih => cases j <;> simp [total, ih]; omega

theorem beats_append (J K : List Job) (P : List ℕ) : beats (J ++ K) P = beats J P ++ beats K (P.drop (total J)) := by
  induction J generalizing P with
  | nil => simp [beats, total]
  | cons j J ih => cases j <;> simp [beats, total, ih]

theorem zip_le {α β : Type} : ∀ (P : List α) (F : List β) (x : List α), F.length ≤ P.length → (P ++ x).zip F = P.zip F
  | [], [], x, _ => by simp
  | _ :: P, [], x, _ => by simp
  | a :: P, f :: F, x, h => by simp [zip_le P F x (by simpa using h)]

theorem beats_enough (J : List Job) (P x : List ℕ) (h : total J ≤ P.length) : beats J (P ++ x) = beats J P := by
  induction J generalizing P with
  | nil => rfl
  | cons j J ih =>
    cases j with
    | dma n =>
      simp only [total] at h
      simp only [beats]
      rw [zip_le _ _ _ (by simp; omega), List.drop_append_of_le_length (by omega), ih _ (by simp; omega)]
    | write v => simp only [beats]; rw [ih _ h]

theorem zip_flags_snoc : ∀ (D : List ℕ) (n x : ℕ), D.length < n →
    (D ++ [x]).zip (Dma.flags n) = D.zip (Dma.flags n) ++ [(x, decide (D.length + 1 = n))]
  | [], n, x, h => by
    obtain ⟨m, rfl⟩ : ∃ m, n = m + 1 := ⟨n - 1, by simp at h; omega⟩
    simp [Dma.flags_succ, eq_comm]
  | a :: D, n, x, h => by
    obtain ⟨m, rfl⟩ : ∃ m, n = m + 1 := ⟨n - 1, by simp at h; omega⟩
    have := zip_flags_snoc D m x (by simpa using h)
    simp [Dma.flags_succ, this]

theorem beats_pop {J : List Job} {n x : ℕ} {P : List ℕ} (h : total J ≤ P.length) (h' : P.length < total J + n) :
    beats (J ++ [.dma n]) (P ++ [x]) =
      beats (J ++ [.dma n]) P ++ [(x, decide (P.length + 1 = total J + n))] := by
  rw [beats_append, beats_append, beats_enough _ _ _ h, List.drop_append_of_le_length h]
  simp only [beats, List.append_nil, List.append_assoc]
  rw [zip_flags_snoc _ _ _ (by simp; omega)]
  simp only [List.length_drop]
  congr 4
  simp only [decide_eq_decide]
  omega

theorem beats_start {J : List Job} {n : ℕ} {P : List ℕ} (h : P.length = total J) :
    beats (J ++ [.dma n]) P = beats J P := by
  rw [beats_append, List.drop_of_length_le (by omega)]
  simp [beats]

theorem beats_write {J : List Job} {v : ℕ × Bool} (P : List ℕ) :
    beats (J ++ [.write v]) P = beats J P ++ [v] := by
  rw [beats_append]
  simp [beats]

/-! ## Same width -/

theorem foldl_id {α β : Type} {f : β → α → β} : ∀ {l : List α} {b : β}, (∀ b, ∀ a ∈ l, f b a = b) → l.foldl f b = b
  | [], _, _ => rfl
  | a :: l, b, h => by
    rw [List.foldl_cons, h b a (by simp)]
    exact foldl_id (fun b a ha => h b a (by simp [ha]))

section same
variable (w first : ℕ) (rest : List ℕ) (i : ℕ → SIn)

/-- The machine at cycle `t` after reset. -/
def sameAt (t : ℕ) : Same := traj (Same.step true w (first :: rest)) Same.init i t

/-- The beats taken by the consumer in the first `t` cycles. -/
def sameWire (t : ℕ) : List (ℕ × Bool) := collect (fun t => (sameAt w first rest i t).out.beat (i t).tready) t

/-- The condition under which the FIFO of the first operation is read. -/
def sameDeq (t : ℕ) : Bool := (sameAt w first rest i t).deq (first :: rest) (i t) first

/-- The words taken from the FIFO of the first operation, where `word t` is the word at its head in cycle `t`. -/
def samePopped (word : ℕ → ℕ) (t : ℕ) : List ℕ :=
  collect (fun t => if sameDeq w first rest i t then some (word t) else none) t

/-- What happens to the interface in cycle `t`: a request is taken, or a `write` gives its word to the output
registers. -/
def Same.job (first : ℕ) (rest : List ℕ) (σ : Same) (j : SIn) : Option Job :=
  match σ.disp (first :: rest) j first with
  | some n => some (.dma n)
  | none => if σ.wr && σ.out.ready j.tready then some (.write (j.write.getD (0, false))) else none

/-- The jobs of the first `t` cycles. -/
def sameJobs (t : ℕ) : List Job := collect (fun t => (sameAt w first rest i t).job first rest (i t)) t

/-- The FIFO read port: the word at the head is in `rdata` in the cycle after it is taken and stays there until the
next is taken. -/
def Reads (deq : ℕ → Bool) (rdata word : ℕ → ℕ) : Prop :=
  ∀ t, rdata (t + 1) = if deq t then word t else rdata t

variable {w first rest i}

/-- Control part of the invariant. -/
structure SameCtl (first : ℕ) (σ : Same) : Prop where
  st : σ.state = 0 ∧ σ.busy = σ.wr ∧ σ.rvalid first = false ∧ σ.rep first = false ∨
    σ.state = 1 ∧ σ.busy = true ∧ σ.sel = first ∧ σ.wr = false
  others : ∀ op, op ≠ first → σ.rvalid op = false ∧ σ.rep op = false

theorem base_first : base (first :: rest) first = 0 := by simp [base]

theorem base_other {op : ℕ} (h : op ≠ first) : base (first :: rest) op = 1 := by simp [base, Ne.symm h]

theorem SameCtl.deq_other {σ : Same} (h : SameCtl first σ) (j : SIn) {op : ℕ} (ho : op ≠ first) :
    σ.deq (first :: rest) j op = false := by
  have : σ.here (first :: rest) op = false := by
    rw [Same.here, base_other ho]
    rcases h.st with h | h <;> simp [h.1]
  simp [Same.deq, this]

theorem SameCtl.disp_other {σ : Same} (h : SameCtl first σ) (j : SIn) {op : ℕ} (ho : op ≠ first) :
    σ.disp (first :: rest) j op = none := by
  rw [Same.disp, base_other ho]
  rcases h.st with h | h <;> simp [h.1, h.2.1]

theorem SameCtl.cur_other {σ : Same} (h : SameCtl first σ) (j : SIn) {op : ℕ} (ho : op ≠ first) :
    σ.cur true (first :: rest) j op = false := by
  simp [Same.cur, Same.valid, h.others op ho]

theorem SameCtl.wcond_other {σ : Same} (h : SameCtl first σ) (j : SIn) {op : ℕ} (ho : op ≠ first) :
    σ.wcond true (first :: rest) j op = false := by
  simp [Same.wcond, h.cur_other j ho]

theorem SameCtl.fin_other {σ : Same} (h : SameCtl first σ) (j : SIn) {op : ℕ} (ho : op ≠ first) :
    σ.fin true (first :: rest) j op = false := by
  simp [Same.fin, h.wcond_other j ho]

theorem SameCtl.send {σ : Same} (h : SameCtl first σ) (hf : first ∉ rest) (j : SIn) :
    σ.send true (first :: rest) j = if σ.wcond true (first :: rest) j first then some (j.rdata first, σ.rlast first)
      else if σ.wr then some (j.write.getD (0, false)) else none := by
  rw [Same.send, List.foldl_cons, foldl_id]
  intro b a ha
  rw [h.wcond_other j (by rintro rfl; exact hf ha)]
  rfl

theorem SameCtl.next {σ : Same} (h : SameCtl first σ) (hf : first ∉ rest) (j : SIn) :
    σ.next true (first :: rest) j = if σ.fin true (first :: rest) j first then 0
      else if (σ.disp (first :: rest) j first).isSome then 1 else σ.state := by
  rw [Same.next, List.foldl_cons, foldl_id]
  · simp only [base_first]
  · intro b a ha
    have ho : a ≠ first := by rintro rfl; exact hf ha
    simp [h.fin_other j ho, h.disp_other j ho]

theorem any_first {p : ℕ → Bool} (hp : ∀ op, op ≠ first → p op = false) (hf : first ∉ rest) :
    (first :: rest).any p = p first := by
  rw [List.any_cons]
  have : rest.any p = false := by
    rw [List.any_eq_false]
    intro x hx
    simp [hp x (by rintro rfl; exact hf hx)]
  simp [this]

theorem find_first {p : ℕ → Option (ℕ × ℕ)} (hp : ∀ op, op ≠ first → p op = none) (hf : first ∉ rest) :
    (first :: rest).findSome? p = p first := by
  rw [List.findSome?_cons]
  cases h : p first with
  | some x => rfl
  | none =>
    rw [List.findSome?_eq_none_iff]
    intro x hx
    exact hp x (by rintro rfl; exact hf hx)

theorem SameCtl.step {σ : Same} (h : SameCtl first σ) (hf : first ∉ rest) (j : SIn) :
    σ.step true w (first :: rest) j =
      { state := if σ.fin true (first :: rest) j first then 0
          else if (σ.disp (first :: rest) j first).isSome then 1 else σ.state
        busy := if (σ.disp (first :: rest) j first).isSome || (!σ.wr && j.write.isSome && σ.idle j) then true
          else if (σ.wr && σ.out.ready j.tready) || σ.fin true (first :: rest) j first then false else σ.busy
        sel := if (σ.disp (first :: rest) j first).isSome then first else σ.sel
        size := if σ.deq (first :: rest) j first then dec w σ.size
          else (σ.disp (first :: rest) j first).getD σ.size
        rlast := (σ.step true w (first :: rest) j).rlast
        rvalid := fun op => σ.deq (first :: rest) j op
        rep := fun op => σ.cur true (first :: rest) j op && !σ.out.ready j.tready
        wr := if σ.wr then !(σ.out.ready j.tready) else j.write.isSome && σ.idle j
        out := σ.out.step j.tready (if σ.wcond true (first :: rest) j first then some (j.rdata first, σ.rlast first)
          else if σ.wr then some (j.write.getD (0, false)) else none) } := by
  simp only [Same.step, h.send hf, h.next hf]
  rw [any_first (fun op ho => h.fin_other j ho) hf, any_first (fun op ho => h.deq_other j ho) hf,
    find_first (fun op ho => by rw [h.disp_other j ho]; rfl) hf]
  cases hd : σ.disp (first :: rest) j first <;> cases hw : σ.wr <;> simp

/-- A word has been taken from the FIFO and not yet been given to the output registers. -/
def Same.pend (first : ℕ) (σ : Same) : Bool := σ.rvalid first || σ.rep first

structure SameInv (w first : ℕ) (σ : Same) (W : List (ℕ × Bool)) (J : List Job) (P : List ℕ) (rd : ℕ) : Prop where
  ctl : SameCtl first σ
  eq : W ++ σ.out.held ++ (if σ.pend first then [(rd, σ.rlast first)] else []) = beats J P
  idle : σ.state = 0 → P.length = total J
  run : σ.state = 1 → ∃ J0 n, J = J0 ++ [.dma n] ∧ total J0 ≤ P.length ∧ P.length + σ.size = total J ∧
    σ.size < 2 ^ w ∧ (σ.pend first = true → σ.rlast first = decide (σ.size = 0)) ∧ (σ.pend first = false → 0 < σ.size)

theorem same_step (hf : first ∉ rest) {σ : Same} {W : List (ℕ × Bool)} {J : List Job} {P : List ℕ} {rd : ℕ}
    (h : SameInv w first σ W J P rd) (j : SIn) (hrd : j.rdata first = rd)
    (hw : ∀ n, j.req = some (first, n) → 0 < n ∧ n < 2 ^ w) (word : ℕ) :
    SameInv w first (σ.step true w (first :: rest) j) (W ++ (σ.out.beat j.tready).toList)
      (J ++ (σ.job first rest j).toList)
      (P ++ (if σ.deq (first :: rest) j first then some word else none).toList)
      (if σ.deq (first :: rest) j first then word else rd) := by
  obtain ⟨hc, he, hi, hr⟩ := h
  have hoth : ∀ op, op ≠ first → (σ.step true w (first :: rest) j).rvalid op = false ∧
      (σ.step true w (first :: rest) j).rep op = false := by
    intro op ho
    rw [hc.step hf]
    simp [hc.deq_other j ho, hc.cur_other j ho]
  have hst := hc.step (w := w) hf j
  rcases hc.st with ⟨h0, hb, hv, hp⟩ | ⟨h1, hb, hsel, hwr⟩
  · have hpend : σ.pend first = false := by simp [Same.pend, hv, hp]
    have hd : σ.deq (first :: rest) j first = false := by simp [Same.deq, Same.here, base_first, h0]
    have hwc : σ.wcond true (first :: rest) j first = false := by simp [Same.wcond, Same.cur, Same.valid, hv, hp]
    have hfin : σ.fin true (first :: rest) j first = false := by simp [Same.fin, hwc]
    have hcur : σ.cur true (first :: rest) j first = false := by simp [Same.cur, Same.valid, hv, hp]
    have hP := hi h0
    simp only [hpend, Bool.false_eq_true, if_false, List.append_nil] at he
    rw [hd]
    simp only [Bool.false_eq_true, if_false, Option.toList_none, List.append_nil]
    simp only [hd, hwc, hfin, hcur, Bool.false_eq_true, if_false, Bool.or_false, Bool.false_and] at hst
    have hpend' : (σ.step true w (first :: rest) j).pend first = false := by
      rw [hst]; simp [Same.pend, hd, hcur]
    cases hdisp : σ.disp (first :: rest) j first with
    | some n =>
      have hbusy : σ.busy = false ∧ j.req = some (first, n) := by
        simp only [Same.disp, base_first, h0] at hdisp
        cases hbb : σ.busy with
        | true => simp [hbb] at hdisp
        | false =>
          simp only [hbb, beq_self_eq_true, Bool.not_false, Bool.and_self, if_true, Option.map_eq_some_iff,
            Option.filter_eq_some_iff, beq_iff_eq] at hdisp
          obtain ⟨r, ⟨hr1, hr2⟩, hr3⟩ := hdisp
          rw [hr1, ← hr2, ← hr3]
          exact ⟨rfl, rfl⟩
      have hwr : σ.wr = false := by rw [← hb]; exact hbusy.1
      have hidle : σ.idle j = false := by simp [Same.idle, hbusy.2]
      have hjob : σ.job first rest j = some (.dma n) := by simp [Same.job, hdisp]
      simp only [hdisp, hwr, hidle, Option.isSome_some, Bool.true_or, if_true, Option.getD_some, Bool.and_false,
        Bool.false_eq_true, if_false] at hst
      obtain ⟨hn0, hn1⟩ := hw n hbusy.2
      rw [hjob]
      refine ⟨⟨Or.inr ?_, hoth⟩, ?_, ?_, ?_⟩
      · rw [hst]; exact ⟨rfl, rfl, rfl, rfl⟩
      · rw [hpend', Option.toList_some, beats_start hP, ← he]
        have := out_step σ.out j.tready none
        rw [hst]
        simpa using this
      · rw [hst]; intro h; cases h
      · intro _
        refine ⟨J, n, rfl, by omega, ?_, ?_, ?_, ?_⟩
        · rw [hst, Option.toList_some, total_append]; simp [total, hP]
        · rw [hst]; exact hn1
        · rw [hpend']; intro h; cases h
        · rw [hst]; intro _; exact hn0
    | none =>
      simp only [hdisp, Option.isSome_none, Bool.false_or, Option.getD_none, Bool.false_eq_true, if_false] at hst
      cases hwr : σ.wr with
      | true =>
        rw [hwr] at hb
        have hidle : σ.idle j = false := by simp [Same.idle, hb]
        simp only [hwr, hidle, Bool.not_true, Bool.false_and, Bool.false_eq_true, if_false, Bool.true_and, if_true, hb] at hst
        have hjob : σ.job first rest j =
            if σ.out.ready j.tready then some (.write (j.write.getD (0, false))) else none := by
          simp [Same.job, hdisp, hwr]
        have ho := out_step σ.out j.tready (some (j.write.getD (0, false)))
        rw [hjob]
        refine ⟨⟨Or.inl ?_, hoth⟩, ?_, ?_, ?_⟩
        · rw [hst]
          cases σ.out.ready j.tready <;> simp [h0, hd, hcur]
        · rw [hpend']
          have e : (σ.step true w (first :: rest) j).out = σ.out.step j.tready (some (j.write.getD (0, false))) := by
            rw [hst]
          rw [e, List.append_assoc, List.append_assoc]
          simp only [Bool.false_eq_true, if_false, List.append_nil]
          rw [ho, ← List.append_assoc, he]
          cases σ.out.ready j.tready
          · simp
          · simp only [if_true, Option.toList_some]
            rw [beats_write]
        · intro _
          cases σ.out.ready j.tready
          · simpa using hP
          · simp only [if_true, Option.toList_some]
            rw [total_append]
            simpa [total] using hP
        · rw [hst]; intro h; simp [h0] at h
      | false =>
        have hjob : σ.job first rest j = none := by simp [Same.job, hdisp, hwr]
        simp only [hwr, Bool.not_false, Bool.true_and, Bool.false_and, Bool.false_eq_true, if_false] at hst
        rw [hjob]
        have ho := out_step σ.out j.tready none
        refine ⟨⟨Or.inl ?_, hoth⟩, ?_, ?_, ?_⟩
        · rw [hst]
          rw [hb, hwr]
          refine ⟨h0, ?_, hd, by simp [hcur]⟩
          cases (j.write.isSome && σ.idle j) <;> rfl
        · rw [hpend']
          have e : (σ.step true w (first :: rest) j).out = σ.out.step j.tready none := by rw [hst]
          rw [e, List.append_assoc, List.append_assoc]
          simp only [Bool.false_eq_true, if_false, List.append_nil, Option.toList_none]
          rw [ho, ← List.append_assoc, he]
          cases σ.out.ready j.tready <;> simp
        · intro _; simpa using hP
        · rw [hst]; intro h; simp [h0] at h
  · obtain ⟨J0, n, rfl, hP0, hP, hsz, hl, hnp⟩ := hr h1
    have hdisp : σ.disp (first :: rest) j first = none := by simp [Same.disp, base_first, h1]
    have hidle : σ.idle j = false := by simp [Same.idle, hb]
    have hjob : σ.job first rest j = none := by simp [Same.job, hdisp, hwr]
    have hcur : σ.cur true (first :: rest) j first = σ.pend first := rfl
    have hwc : σ.wcond true (first :: rest) j first = (σ.pend first && σ.out.ready j.tready) := by
      simp [Same.wcond, hcur, hsel]
    have hfin : σ.fin true (first :: rest) j first = (σ.pend first && σ.out.ready j.tready && σ.rlast first) := by
      simp [Same.fin, hwc, Same.here, base_first, h1]
    have hde : σ.deq (first :: rest) j first = (!j.empty first && decide (σ.size > 0) && σ.out.ready j.tready) := by
      simp [Same.deq, Same.here, base_first, h1, hsel]
    have hrl : (σ.step true w (first :: rest) j).rlast first =
        if σ.deq (first :: rest) j first then decide (σ.size ≤ 1) else σ.rlast first := by
      simp [Same.step, base_first, h1]
    have hpe : (σ.step true w (first :: rest) j).pend first =
        (σ.deq (first :: rest) j first || (σ.pend first && !σ.out.ready j.tready)) := by
      rw [hst]; simp [Same.pend, hcur]
    rw [hjob]
    simp only [Option.toList_none, List.append_nil]
    rw [total_append] at hP
    simp only [total] at hP
    simp only [hdisp, hwr, hidle, hb, Option.isSome_none, Bool.false_or, Bool.false_eq_true, if_false, Bool.and_false,
      Bool.false_and, Option.getD_none] at hst
    have ho := out_step σ.out j.tready (if σ.wcond true (first :: rest) j first then
      some (j.rdata first, σ.rlast first) else none)
    have eo : (σ.step true w (first :: rest) j).out = σ.out.step j.tready (if σ.wcond true (first :: rest) j first then
      some (j.rdata first, σ.rlast first) else none) := by rw [hst]
    have es : (σ.step true w (first :: rest) j).state = if σ.fin true (first :: rest) j first then 0 else 1 := by
      rw [hst]; simp only [h1]
    have ez : (σ.step true w (first :: rest) j).size =
        if σ.deq (first :: rest) j first then dec w σ.size else σ.size := by rw [hst]
    have ebusy : (σ.step true w (first :: rest) j).busy = !σ.fin true (first :: rest) j first := by
      rw [hst]; cases σ.fin true (first :: rest) j first <;> rfl
    have esel : (σ.step true w (first :: rest) j).sel = first := by rw [hst]; exact hsel
    have ewr : (σ.step true w (first :: rest) j).wr = false := by rw [hst]
    have erv : (σ.step true w (first :: rest) j).rvalid first = σ.deq (first :: rest) j first := by rw [hst]
    have erp : (σ.step true w (first :: rest) j).rep first = (σ.pend first && !σ.out.ready j.tready) := by
      rw [hst]; simp only [hcur]
    clear hst
    generalize σ.step true w (first :: rest) j = τ at *
    rw [hwc] at eo ho
    rw [hfin] at es ebusy
    cases hrdy : σ.out.ready j.tready with
    | false =>
      rw [hrdy] at hde ho eo es ebusy erp hpe
      simp only [Bool.and_false, Bool.false_eq_true, if_false, Bool.false_and, Bool.not_false, Bool.and_true,
        Option.toList_none, List.append_nil] at hde ho eo es ebusy erp hpe
      rw [hde] at hrl ez erv hpe ⊢
      simp only [Bool.false_eq_true, if_false, Bool.false_or] at hrl ez hpe ⊢
      refine ⟨⟨Or.inr ⟨es, ebusy, esel, ewr⟩, hoth⟩, ?_, ?_, ?_⟩
      · simp only [Option.toList_none, List.append_nil]
        rw [hpe, hrl, eo, List.append_assoc W, ho, ← he]
      · rw [es]; intro h; cases h
      · intro _
        refine ⟨J0, n, rfl, by simpa using hP0, ?_, by rw [ez]; exact hsz, ?_, ?_⟩
        · rw [ez, total_append]; simpa [total] using hP
        · rw [hpe, hrl, ez]; exact hl
        · rw [hpe, ez]; exact hnp
    | true =>
      rw [hrdy] at hde ho eo es ebusy erp hpe
      simp only [Bool.and_true, if_true, Bool.not_true, Bool.and_false, Bool.or_false] at hde ho eo es ebusy erp hpe
      have key : W ++ (σ.out.beat j.tready).toList ++ τ.out.held = beats (J0 ++ [.dma n]) P := by
        rw [eo, List.append_assoc, ho, ← he]
        cases σ.pend first <;> simp [hrd]
      cases hd : σ.deq (first :: rest) j first with
      | true =>
        have hpos : 0 < σ.size := by
          rw [hd] at hde
          have := hde.symm
          simp only [Bool.and_eq_true, decide_eq_true_eq] at this
          exact this.2
        have hnl : (σ.pend first && σ.rlast first) = false := by
          cases hp : σ.pend first with
          | false => rfl
          | true =>
            rw [hl hp]
            simp; omega
        rw [hd] at hrl ez erv hpe
        rw [hnl] at es ebusy
        simp only [if_true, Bool.false_eq_true, if_false, Bool.not_false] at hrl ez es ebusy ⊢
        rw [dec_pos hpos hsz] at ez
        refine ⟨⟨Or.inr ⟨es, ebusy, esel, ewr⟩, hoth⟩, ?_, ?_, ?_⟩
        · rw [hpe, key]
          simp only [if_true, Option.toList_some]
          rw [beats_pop hP0 (by omega), hrl]
          have : decide (σ.size ≤ 1) = decide (P.length + 1 = total J0 + n) := by
            rw [decide_eq_decide]; omega
          rw [this]
        · rw [es]; intro h; cases h
        · intro _
          refine ⟨J0, n, rfl, by simp; omega, ?_, by rw [ez]; omega, ?_, ?_⟩
          · rw [ez, total_append]; simp [total]; omega
          · intro _
            rw [hrl, ez]
            simp only [decide_eq_decide]
            omega
          · rw [hpe]; intro h; cases h
      | false =>
        rw [hd] at hrl ez erv hpe
        simp only [Bool.false_eq_true, if_false, Option.toList_none, List.append_nil] at hrl ez ⊢
        cases hfl : (σ.pend first && σ.rlast first) with
        | true =>
          rw [hfl] at es ebusy
          simp only [if_true, Bool.not_true] at es ebusy
          rw [Bool.and_eq_true] at hfl
          have hz : σ.size = 0 := by
            have := hl hfl.1
            rw [hfl.2] at this
            simpa using this.symm
          refine ⟨⟨Or.inl ⟨es, by rw [ebusy, ewr], erv, erp⟩, hoth⟩, ?_, ?_, ?_⟩
          · rw [hpe, key]; simp
          · intro _
            rw [total_append]; simp [total]; omega
          · rw [es]; intro h; cases h
        | false =>
          rw [hfl] at es ebusy
          simp only [Bool.false_eq_true, if_false, Bool.not_false] at es ebusy
          refine ⟨⟨Or.inr ⟨es, ebusy, esel, ewr⟩, hoth⟩, ?_, ?_, ?_⟩
          · rw [hpe, key]; simp
          · rw [es]; intro h; cases h
          · intro _
            refine ⟨J0, n, rfl, hP0, ?_, by rw [ez]; exact hsz, ?_, ?_⟩
            · rw [ez, total_append]; simpa [total] using hP
            · rw [hpe]; intro h; cases h
            · intro _
              rw [ez]
              cases hp : σ.pend first with
              | false => exact hnp hp
              | true =>
                have := hl hp
                rw [hp, this] at hfl
                simp at hfl
                omega

/-- The head of the request FIFO has, for the first operation, a size that fits the register and is not 0. -/
def Sizes (w first : ℕ) (i : ℕ → SIn) : Prop := ∀ t n, (i t).req = some (first, n) → 0 < n ∧ n < 2 ^ w

theorem same_inv (hf : first ∉ rest) (hw : Sizes w first i) {word : ℕ → ℕ}
    (hr : Reads (sameDeq w first rest i) (fun t => (i t).rdata first) word) (t : ℕ) :
    SameInv w first (sameAt w first rest i t) (sameWire w first rest i t) (sameJobs w first rest i t)
      (samePopped w first rest i word t) ((i t).rdata first) := by
  induction t with
  | zero =>
    refine ⟨⟨Or.inl ⟨rfl, rfl, rfl, rfl⟩, fun _ _ => ⟨rfl, rfl⟩⟩, rfl, fun _ => rfl, fun h => ?_⟩
    cases h
  | succ t ih =>
    have := same_step (rest := rest) hf ih (i t) rfl (fun n hn => hw t n hn) (word t)
    rw [sameWire, sameJobs, samePopped, collect_succ, collect_succ, collect_succ,
      show (i (t + 1)).rdata first = _ from hr t]
    exact this

/-- **C68 (FIFO as wide as the stream).** For any sequence of transfers from the FIFO and of `write` calls, any
contents and timing of the FIFO and any consumer: the beats taken by the consumer, then at most two more that are
under way, are exactly the beats asked for: the words of the FIFO in order, `size` of them for each transfer with
the last one marked, and the words written in between; never more words are taken from the FIFO than asked for, and when the
interface is idle all have been taken and given to the output registers. -/
theorem c68_same (hf : first ∉ rest) (hw : Sizes w first i) {word : ℕ → ℕ}
    (hr : Reads (sameDeq w first rest i) (fun t => (i t).rdata first) word) (t : ℕ) :
    ∃ way, sameWire w first rest i t ++ way = beats (sameJobs w first rest i t) (samePopped w first rest i word t) ∧
      way.length ≤ 2 ∧
      (samePopped w first rest i word t).length ≤ total (sameJobs w first rest i t) ∧
      ((sameAt w first rest i t).state = 0 → way = (sameAt w first rest i t).out.held ∧
        (samePopped w first rest i word t).length = total (sameJobs w first rest i t)) := by
  have h := same_inv hf hw hr t
  refine ⟨_, by rw [← h.eq, List.append_assoc], ?_, ?_, ?_⟩
  · have := (sameAt w first rest i t).out.held_length
    rw [List.length_append]
    split <;> simp <;> omega
  · rcases h.ctl.st with h0 | h1
    · exact Nat.le_of_eq (h.idle h0.1)
    · obtain ⟨_, _, _, _, h3, _⟩ := h.run h1.1
      omega
  · intro h0
    refine ⟨?_, h.idle h0⟩
    rcases h.ctl.st with h1 | h1
    · simp [Same.pend, h1.2.2.1, h1.2.2.2]
    · rw [h1.1] at h0; cases h0

/-- A transfer does not stop: when the output registers accept a word and the FIFO is not empty, either a word is
taken from the FIFO, or all have been taken and this cycle ends the transfer. -/
theorem c68_same_progress (hf : first ∉ rest) (hw : Sizes w first i) {word : ℕ → ℕ}
    (hr : Reads (sameDeq w first rest i) (fun t => (i t).rdata first) word) (t : ℕ)
    (h1 : (sameAt w first rest i t).state = 1) (hrdy : (sameAt w first rest i t).out.ready (i t).tready = true)
    (he : (i t).empty first = false) :
    (samePopped w first rest i word (t + 1)).length = (samePopped w first rest i word t).length + 1 ∨
    (samePopped w first rest i word t).length = total (sameJobs w first rest i t) ∧
      (sameAt w first rest i (t + 1)).state = 0 := by
  have h := same_inv hf hw hr t
  obtain ⟨J0, n, h2, h3, h4, h5, h6, h7⟩ := h.run h1
  have hsel : (sameAt w first rest i t).sel = first := by
    rcases h.ctl.st with h0 | h0
    · rw [h0.1] at h1; cases h1
    · exact h0.2.2.1
  by_cases hz : (sameAt w first rest i t).size = 0
  · right
    refine ⟨by omega, ?_⟩
    have hp : (sameAt w first rest i t).pend first = true := by
      cases hp : (sameAt w first rest i t).pend first with
      | true => rfl
      | false => have := h7 hp; omega
    show ((sameAt w first rest i t).step true w (first :: rest) (i t)).state = 0
    rw [h.ctl.step hf]
    have hcur : (sameAt w first rest i t).cur true (first :: rest) (i t) first = true := hp
    have : (sameAt w first rest i t).fin true (first :: rest) (i t) first = true := by
      simp [Same.fin, Same.wcond, hcur, Same.here, base_first, h1, hsel, hrdy, h6 hp, hz]
    simp [this]
  · left
    have : sameDeq w first rest i t = true := by
      simp [sameDeq, Same.deq, Same.here, base_first, h1, he, hsel, hrdy]
      omega
    rw [samePopped, collect_succ, this]
    simp [samePopped]

/-- **C68 (disagreement, several FIFOs).** Requests for any FIFO but the first one used with the interface are never
taken.  When one is at the head of the request FIFO from cycle `s` on (it stays there) and no `write` is in progress,
nothing is started any more, neither transfers from the first FIFO nor `write`s, and nothing is ever read from the
other FIFO. -/
theorem c68_not_two (hf : first ∉ rest) (hw : Sizes w first i) {word : ℕ → ℕ}
    (hr : Reads (sameDeq w first rest i) (fun t => (i t).rdata first) word) {op n s : ℕ} (ho : op ≠ first)
    (hq : ∀ t ≥ s, (i t).req = some (op, n)) (hwr : (sameAt w first rest i s).wr = false) (t : ℕ) (ht : s ≤ t) :
    sameJobs w first rest i t = sameJobs w first rest i s ∧
    (sameAt w first rest i t).deq (first :: rest) (i t) op = false := by
  refine ⟨?_, (same_inv hf hw hr t).ctl.deq_other (i t) ho⟩
  have key : ∀ t ≥ s, (sameAt w first rest i t).wr = false ∧
      (sameAt w first rest i t).disp (first :: rest) (i t) first = none := by
    intro t ht
    have hd : (sameAt w first rest i t).disp (first :: rest) (i t) first = none := by
      simp [Same.disp, hq t ht, ho]
    refine ⟨?_, hd⟩
    induction t, ht using Nat.le_induction with
    | base => exact hwr
    | succ t ht ih =>
      have hd' : (sameAt w first rest i t).disp (first :: rest) (i t) first = none := by
        simp [Same.disp, hq t ht, ho]
      show ((sameAt w first rest i t).step true w (first :: rest) (i t)).wr = false
      rw [(same_inv hf hw hr t).ctl.step hf]
      simp [ih hd', Same.idle, hq t ht]
  induction t, ht using Nat.le_induction with
  | base => rfl
  | succ t ht ih =>
    rw [sameJobs, collect_succ]
    have : (sameAt w first rest i t).job first rest (i t) = none := by
      simp [Same.job, (key t ht).1, (key t ht).2]
    rw [this]
    simpa [sameJobs] using ih

end same

/-- **C68 (disagreement, size 0).** A request of size 0 is taken and never ends: nothing is read, nothing is sent and
no other request is taken. -/
theorem c68_not_zero {w first : ℕ} {σ : Same} {j : SIn} (h0 : σ.state = 0) (hb : σ.busy = false) (hwr : σ.wr = false)
    (hv : σ.rvalid first = false) (hp : σ.rep first = false) (hq : j.req = some (first, 0)) (i : ℕ → SIn) (t : ℕ) :
    let τ := traj (Same.step true w [first]) (σ.step true w [first] j) i t
    τ.state = 1 ∧ τ.busy = true ∧ τ.deq [first] (i t) first = false ∧ τ.send true [first] (i t) = none ∧
      τ.disp [first] (i t) first = none := by
  have hb0 : base [first] first = 0 := base_first
  have key : ∀ t, (traj (Same.step true w [first]) (σ.step true w [first] j) i t).state = 1 ∧
      (traj (Same.step true w [first]) (σ.step true w [first] j) i t).busy = true ∧
      (traj (Same.step true w [first]) (σ.step true w [first] j) i t).size = 0 ∧
      (traj (Same.step true w [first]) (σ.step true w [first] j) i t).wr = false ∧
      (traj (Same.step true w [first]) (σ.step true w [first] j) i t).rvalid first = false ∧
      (traj (Same.step true w [first]) (σ.step true w [first] j) i t).rep first = false := by
    intro t
    induction t with
    | zero =>
      simp [traj, Same.step, Same.next, Same.disp, Same.fin, Same.wcond, Same.cur, Same.valid, Same.deq, Same.here,
        Same.idle, hb0, h0, hb, hwr, hv, hp, hq, Option.filter]
    | succ t ih =>
      show (Same.step true w [first] (traj (Same.step true w [first]) (σ.step true w [first] j) i t) (i t)).state = 1 ∧
        (Same.step true w [first] (traj (Same.step true w [first]) (σ.step true w [first] j) i t) (i t)).busy = true ∧
        (Same.step true w [first] (traj (Same.step true w [first]) (σ.step true w [first] j) i t) (i t)).size = 0 ∧
        (Same.step true w [first] (traj (Same.step true w [first]) (σ.step true w [first] j) i t) (i t)).wr = false ∧
        (Same.step true w [first] (traj (Same.step true w [first]) (σ.step true w [first] j) i t) (i t)).rvalid first
          = false ∧
        (Same.step true w [first] (traj (Same.step true w [first]) (σ.step true w [first] j) i t) (i t)).rep first
          = false
      revert ih
      generalize traj (Same.step true w [first]) (σ.step true w [first] j) i t = τ
      generalize i t = x
      rintro ⟨h1, h2, h3, h4, h5, h6⟩
      simp [Same.step, Same.next, Same.disp, Same.fin, Same.wcond, Same.cur, Same.valid, Same.deq, Same.here,
        Same.idle, hb0, h1, h2, h3, h4, h5, h6]
  obtain ⟨h1, h2, h3, h4, h5, h6⟩ := key t
  simp [Same.send, Same.disp, Same.wcond, Same.cur, Same.valid, Same.deq, h1, h2, h3, h4, h5, h6]

/-- **C68 (disagreement, FIFO with `sync=False`).** Such a FIFO is accepted; all beats of a transfer are sent without
a last mark, and the transfer never ends. -/
theorem c68_not_async {w first : ℕ} {σ : Same} {j : SIn} (h0 : σ.state = 0) (hb : σ.busy = false) (hwr : σ.wr = false)
    {n : ℕ} (hn : 0 < n) (hnw : n < 2 ^ w) (hp : σ.rep first = false) (hq : j.req = some (first, n)) (i : ℕ → SIn)
    (t : ℕ) :
    let τ := traj (Same.step false w [first]) (σ.step false w [first] j) i t
    τ.state = 1 ∧ τ.busy = true ∧ τ.disp [first] (i t) first = none ∧
      ∀ b, τ.send false [first] (i t) = some b → b.2 = false := by
  have hb0 : base [first] first = 0 := base_first
  have key : ∀ t, ∀ τ, τ = traj (Same.step false w [first]) (σ.step false w [first] j) i t →
      τ.state = 1 ∧ τ.busy = true ∧ τ.wr = false ∧ τ.rep first = false ∧ τ.size < 2 ^ w ∧
      (0 < τ.size → τ.rlast first = false) := by
    intro t
    induction t with
    | zero =>
      rintro τ rfl
      simp [traj, Same.step, Same.next, Same.disp, Same.fin, Same.wcond, Same.cur, Same.valid, Same.deq, Same.here,
        Same.idle, hb0, h0, hb, hwr, hp, hq, hnw, Option.filter]
    | succ t ih =>
      have ih := ih _ rfl
      intro τ' hτ'
      have hτ : τ' = Same.step false w [first] (traj (Same.step false w [first]) (σ.step false w [first] j) i t) (i t) :=
        hτ'
      clear hτ'
      revert ih hτ
      generalize traj (Same.step false w [first]) (σ.step false w [first] j) i t = τ
      generalize i t = x
      rintro ⟨h1, h2, h3, h4, h5, h6⟩ hτ
      have hfin : τ.fin false [first] x first = false := by
        cases hd : τ.deq [first] x first with
        | false => simp [Same.fin, Same.wcond, Same.cur, Same.valid, hd, h4]
        | true =>
          have : 0 < τ.size := by
            simp only [Same.deq, Bool.and_eq_true, decide_eq_true_eq] at hd
            exact hd.1.2
          simp [Same.fin, h6 this]
      have hdisp : τ.disp [first] x first = none := by simp [Same.disp, h2]
      subst hτ
      refine ⟨?_, ?_, ?_, ?_, ?_, ?_⟩
      · simp [Same.step, Same.next, hfin, hdisp, h1]
      · simp [Same.step, hfin, hdisp, h2, h3, Same.idle]
      · simp [Same.step, h3, Same.idle, h2]
      · simp only [Same.step, Same.cur, Same.valid, h4, Bool.or_false]
        cases hrd : τ.out.ready x.tready with
        | true => simp
        | false => simp [Same.deq, hrd]
      · simp only [Same.step, hdisp, List.any_cons, List.any_nil, Bool.or_false]
        split
        · exact dec_lt _ _
        · simpa [hdisp] using h5
      · simp only [Same.step, hdisp, List.any_cons, List.any_nil, Bool.or_false, hb0, h1]
        cases hd : τ.deq [first] x first with
        | false => simpa [hdisp] using h6
        | true =>
          have : 0 < τ.size := by
            simp only [Same.deq, Bool.and_eq_true, decide_eq_true_eq] at hd
            exact hd.1.2
          simp only [if_true, dec_pos this h5]
          simp
  obtain ⟨h1, h2, h3, h4, h5, h6⟩ := key t _ rfl
  refine ⟨h1, h2, by simp [Same.disp, h2], fun b hbb => ?_⟩
  simp only [Same.send, List.foldl_cons, List.foldl_nil, h3, Bool.false_eq_true, if_false] at hbb
  split at hbb
  · rename_i hc
    rw [← Option.some.inj hbb]
    apply h6
    simp only [Same.wcond, Same.cur, Same.valid, h4, Bool.or_false, Bool.and_eq_true, Bool.false_eq_true, if_false,
      Same.deq, decide_eq_true_eq] at hc
    exact hc.1.2.1.2
  · cases hbb

/-! ### With the thread FIFO -/

theorem fifo_reads {aw : ℕ} {valid : ℕ → Bool} {word : ℕ → ℕ} {d : ℕ → Bool} {sys : ℕ → ThreadFifo.Sys ℕ}
    (A : StreamIn.Attached aw valid word d sys) (hd : ∀ t, d t = true → ThreadFifo.rready aw (sys t) = true) :
    Reads d (fun t => (sys t).fifo.rdata) (fun t => (sys (t + 1)).fifo.rdata) ∧
    ∀ t, ∃ q, StreamIn.acceptedWords aw valid word sys t =
        collect (fun t => if d t then some (sys (t + 1)).fifo.rdata else none) t ++ q ∧ (sys t).count = q.length := by
  refine ⟨fun t => ?_, fun t => ?_⟩
  · cases h : d t with
    | true => simp
    | false => simp [A.step t, ThreadFifo.step, ThreadFifo.rawStep, ThreadFifo.wires, Fifo.step, h]
  · obtain ⟨q, hg, he⟩ := A.good t
    refine ⟨q, ?_, hg.2⟩
    rw [he, StreamIn.given]
    congr 1
    simp only [collect]
    congr 1
    funext t
    cases h : d t with
    | false => simp
    | true => simp [hd t h]

/-- **C68 (through the FIFO).** The interface attached to a thread FIFO of any depth that others write: `c68_same`
applies, and the words written to the FIFO are those taken for the stream followed by those still in the FIFO. -/
theorem c68_same_fifo {w first aw : ℕ} {rest : List ℕ} {i : ℕ → SIn} {valid : ℕ → Bool} {word : ℕ → ℕ}
    {sys : ℕ → ThreadFifo.Sys ℕ}
    (A : StreamIn.Attached aw valid word (sameDeq w first rest i) sys)
    (he : ∀ t, (i t).empty first = !ThreadFifo.rready aw (sys t)) (hr : ∀ t, (i t).rdata first = (sys t).fifo.rdata) :
    Reads (sameDeq w first rest i) (fun t => (i t).rdata first) (fun t => (sys (t + 1)).fifo.rdata) ∧
    ∀ t, ∃ q, StreamIn.acceptedWords aw valid word sys t =
      samePopped w first rest i (fun t => (sys (t + 1)).fifo.rdata) t ++ q ∧ (sys t).count = q.length := by
  have := fifo_reads A (fun t h => by
    simp only [sameDeq, Same.deq, he, Bool.not_not, Bool.and_eq_true] at h
    exact h.1.1.1.2)
  simp only [hr]
  exact this

/-! ## `write_fence` -/

/-- **C68 (`write_fence`).** When `write_fence(value, last)` returns, for any consumer and whatever beat was waiting
before, the consumer has taken that beat and then the value, and the output registers are empty; it does not return
before. -/
theorem c68_write_fence (v : ℕ × Bool) (o : Out) (r : ℕ → Bool) (t : ℕ) :
    let σ := fun t => traj (Fence.step v) ⟨0, o⟩ r t
    let wire := collect (fun t => (σ t).out.beat (r t)) t
    ((σ t).pc = 3 → wire = o.held ++ [v] ∧ (σ t).out.valid = false) ∧
    (wire = o.held ++ [v] → (σ t).pc = 3) := by
  intro σ wire
  have key : ∀ t, ((σ t).pc ≤ 1 ∧ collect (fun t => (σ t).out.beat (r t)) t ++ (σ t).out.held = o.held) ∨
      ((σ t).pc = 2 ∧ (σ t).out.valid = true ∧
        collect (fun t => (σ t).out.beat (r t)) t ++ (σ t).out.held = o.held ++ [v]) ∨
      ((σ t).pc = 3 ∧ (σ t).out.valid = false ∧ collect (fun t => (σ t).out.beat (r t)) t = o.held ++ [v]) := by
    intro t
    induction t with
    | zero => left; exact ⟨Nat.zero_le 1, rfl⟩
    | succ t ih =>
      have e : σ (t + 1) = Fence.step v (σ t) (r t) := rfl
      rw [collect_succ, e]
      revert ih
      generalize collect (fun t => (σ t).out.beat (r t)) t = W
      generalize σ t = τ
      generalize r t = x
      intro ih
      have ho := fun s => out_step τ.out x s
      rcases ih with ⟨h1, h2⟩ | ⟨h1, h2, h3⟩ | ⟨h1, h2, h3⟩
      · rcases Nat.le_one_iff_eq_zero_or_eq_one.1 h1 with h | h
        · left
          have := ho none
          refine ⟨by simp [Fence.step, h], ?_⟩
          simp only [Fence.step, h]
          simp at this
          simp [← h2, this]
        · cases hr : τ.out.ready x with
          | false =>
            left
            have := ho (some v)
            refine ⟨by simp [Fence.step, h, hr], ?_⟩
            simp only [Fence.step, h]
            simp [hr] at this
            simp [← h2, this]
          | true =>
            right; left
            have := ho (some v)
            refine ⟨by simp [Fence.step, h, hr], by simp [Fence.step, h, Out.step, hr], ?_⟩
            simp only [Fence.step, h]
            simp [hr] at this
            rw [← h2]
            simp [this]
      · cases x with
        | false =>
          right; left
          refine ⟨by simp [Fence.step, h1, h2], by simp [Fence.step, h1, h2, Out.step], ?_⟩
          have := ho none
          simp only [Fence.step, h1]
          simp at this
          simp [← h3, this]
        | true =>
          right; right
          refine ⟨by simp [Fence.step, h1, h2], by simp [Fence.step, h1, Out.step], ?_⟩
          rw [← h3]
          simp [Out.beat, Out.held, h2]
      · right; right
        refine ⟨by simp [Fence.step, h1], by simp [Fence.step, h1, h2, Out.step], ?_⟩
        rw [← h3]
        simp [Out.beat, h2]
  rcases key t with ⟨h1, h2⟩ | ⟨h1, h2, h3⟩ | ⟨h1, h2, h3⟩
  · refine ⟨fun h => by omega, fun h => ?_⟩
    have := congrArg List.length h2
    have h' := congrArg List.length h
    simp at this h'
    simp only [wire] at h'
    omega
  · refine ⟨fun h => by omega, fun h => ?_⟩
    have := congrArg List.length h3
    have h' := congrArg List.length h
    simp [Out.held, h2] at this h'
    simp only [wire] at h'
    omega
  · exact ⟨fun _ => ⟨h3, h2⟩, fun _ => h1⟩

/-! ## FIFO word wider than the stream word -/

section narrow
variable (w pack dw : ℕ) (i : ℕ → FIn)

/-- The machine at cycle `t` after reset. -/
def narrowAt (t : ℕ) : Narrow := traj (Narrow.step w pack dw) Narrow.init i t

/-- The beats taken by the consumer in the first `t` cycles. -/
def narrowWire (t : ℕ) : List (ℕ × Bool) := collect (fun t => (narrowAt w pack dw i t).out.beat (i t).tready) t

/-- The condition under which the FIFO is read. -/
def narrowDeq (t : ℕ) : Bool := (narrowAt w pack dw i t).deq pack (i t)

/-- The words taken from the FIFO, where `word t` is the word at its head in cycle `t`. -/
def narrowPopped (word : ℕ → ℕ) (t : ℕ) : List ℕ :=
  collect (fun t => if narrowDeq w pack dw i t then some (word t) else none) t

/-- The sizes of the requests taken in the first `t` cycles. -/
def narrowReqs (t : ℕ) : List ℕ := collect (fun t => (narrowAt w pack dw i t).start (i t)) t

variable {w pack dw i}

/-- The pieces of the words taken that have not been given to the output registers. -/
def Narrow.rest (pack dw : ℕ) (σ : Narrow) (rd : ℕ) : List ℕ :=
  if σ.count = 0 then (if σ.cur then split pack dw rd else []) else split (pack - σ.count) dw σ.wdata

structure NarrowInv (w pack dw : ℕ) (σ : Narrow) (W : List (ℕ × Bool)) (J : List Job) (P : List ℕ) (rd : ℕ)
    (S : List ℕ) : Prop where
  count : σ.count < pack
  off : σ.on = false → σ.count = 0 ∧ σ.cur = false ∧ S.length = total J
  pc : σ.cur = true → σ.count = 0
  eq : W ++ σ.out.held = beats J S
  pieces : S ++ σ.rest pack dw rd = P.flatMap (split pack dw)
  run : σ.on = true → ∃ J0 m, J = J0 ++ [.dma m] ∧ total J0 ≤ S.length ∧
    S.length + (σ.rest pack dw rd).length + σ.size * pack = total J ∧ σ.size < 2 ^ w ∧
    (σ.count = 0 → σ.cur = false → 0 < σ.size) ∧ (σ.cur = true → σ.rlast = decide (σ.size = 0)) ∧
    (0 < σ.count → σ.wlast = decide (σ.size = 0))

theorem narrow_step {k : ℕ} (hk : pack = 2 ^ k) (hp : 2 ≤ pack) {σ : Narrow} {W : List (ℕ × Bool)} {J : List Job}
    {P S : List ℕ} {rd : ℕ} (h : NarrowInv w pack dw σ W J P rd S) (j : FIn) (hrd : j.rdata = rd)
    (hw : ∀ n, j.req = some n → 0 < n ∧ n < 2 ^ w) (word : ℕ) :
    ∃ S', NarrowInv w pack dw (σ.step w pack dw j) (W ++ (σ.out.beat j.tready).toList)
      (J ++ ((σ.start j).map fun n => Job.dma (n * pack)).toList)
      (P ++ (if σ.deq pack j then some word else none).toList) (if σ.deq pack j then word else rd) S' := by
  have hm : Dma.countMod pack = pack := by rw [hk, Dma.countMod_pow]
  obtain ⟨hc, hoff, hpc, he, hpi, hr⟩ := h
  have hp1 : ¬ 0 = pack - 1 := by omega
  cases hO : σ.on with
  | false =>
    obtain ⟨hc0, hcur, hS⟩ := hoff hO
    have hd : σ.deq pack j = false := by simp [Narrow.deq, hO]
    have hgo : σ.wcond j = false := by simp [Narrow.wcond, hO]
    have hsend : σ.send pack dw j = none := by simp [Narrow.send, hgo]
    have hst : σ.start j = j.req := by simp [Narrow.start, hO]
    have e : σ.step w pack dw j = ⟨j.req.isSome, 0, false, σ.wdata, σ.wlast, j.req.getD σ.size, false, false,
        σ.out.step j.tready none⟩ := by
      simp [Narrow.step, hO, hd, hgo, hsend, hcur]
    have ho := out_step σ.out j.tready none
    have ho' : W ++ (σ.out.beat j.tready).toList ++ (σ.out.step j.tready none).held = W ++ σ.out.held := by
      rw [List.append_assoc, ho]; simp
    rw [e, hd, hst]
    have hrest : σ.rest pack dw rd = [] := by simp [Narrow.rest, hc0, hcur]
    rw [hrest, List.append_nil] at hpi
    refine ⟨S, ?_⟩
    cases hq : j.req with
    | none =>
      refine ⟨by dsimp; omega, fun _ => ⟨rfl, rfl, by simpa using hS⟩, fun _ => rfl, ?_, ?_, ?_⟩
      · dsimp; rw [ho', he]; simp
      · simp [Narrow.rest, Narrow.cur, hpi]
      · intro h; cases h
    | some n =>
      obtain ⟨hn0, hn1⟩ := hw n hq
      refine ⟨by dsimp; omega, fun h => by (cases h), fun _ => rfl, ?_, ?_, ?_⟩
      · dsimp; rw [ho', he, beats_start hS]
      · simp [Narrow.rest, Narrow.cur, hpi]
      · intro _
        refine ⟨J, n * pack, rfl, by omega, ?_, hn1, fun _ _ => hn0, fun h => by (cases h), fun h => by (cases h)⟩
        simp [Narrow.rest, Narrow.cur, total_append, total, hS]
  | true =>
    obtain ⟨J0, m, rfl, h1, h2, h3, h4, h5, h6⟩ := hr hO
    have hst : σ.start j = none := by simp [Narrow.start, hO]
    rw [hst]
    simp only [Option.map_none, Option.toList_none, List.append_nil]
    rw [total_append] at h2
    simp only [total, Nat.add_zero] at h2
    cases hrdy : σ.out.ready j.tready with
    | false =>
      have hd : σ.deq pack j = false := by simp [Narrow.deq, hrdy]
      have hgo : σ.wcond j = false := by simp [Narrow.wcond, hrdy]
      have hsend : σ.send pack dw j = none := by simp [Narrow.send, hgo]
      have e : σ.step w pack dw j = ⟨true, σ.count, σ.rlast, σ.wdata, σ.wlast, σ.size, false, σ.cur,
          σ.out.step j.tready none⟩ := by
        simp [Narrow.step, hO, hd, hgo, hsend, hrdy]
      have ho := out_step σ.out j.tready none
      have ho' : W ++ (σ.out.beat j.tready).toList ++ (σ.out.step j.tready none).held = W ++ σ.out.held := by
        rw [List.append_assoc, ho]; simp
      rw [e, hd]
      refine ⟨S, hc, fun h => by (cases h), ?_, ?_, ?_, ?_⟩
      · simpa [Narrow.cur] using hpc
      · dsimp; rw [ho', he]
      · simpa [Narrow.rest, Narrow.cur] using hpi
      · intro _
        refine ⟨J0, m, rfl, h1, ?_, h3, ?_, ?_, h6⟩
        · rw [total_append]; simpa [Narrow.rest, Narrow.cur, total] using h2
        · simpa [Narrow.cur] using h4
        · simpa [Narrow.cur] using h5
    | true =>
      have ho : ∀ b, W ++ (σ.out.beat j.tready).toList ++ (σ.out.step j.tready b).held = W ++ σ.out.held ++ b.toList := by
        intro b
        rw [List.append_assoc, out_step, hrdy, List.append_assoc]; rfl
      by_cases hc0 : σ.count = 0
      · cases hcur : σ.cur with
        | false =>
          have hgo : σ.wcond j = false := by simp [Narrow.wcond, hcur, hc0]
          have hsend : σ.send pack dw j = none := by simp [Narrow.send, hgo]
          have hpos := h4 hc0 hcur
          have hrest : σ.rest pack dw rd = [] := by simp [Narrow.rest, hc0, hcur]
          rw [hrest] at hpi h2
          simp only [List.append_nil, List.length_nil, Nat.add_zero] at hpi h2
          have e : σ.step w pack dw j = ⟨true, 0, if σ.deq pack j then decide (σ.size ≤ 1) else σ.rlast, σ.wdata, σ.wlast,
              if σ.deq pack j then dec w σ.size else σ.size, σ.deq pack j, false, σ.out.step j.tready none⟩ := by
            simp [Narrow.step, hO, hgo, hsend, hcur, hc0]
          rw [e]
          refine ⟨S, by dsimp; omega, fun h => by (cases h), fun _ => rfl, ?_, ?_, ?_⟩
          · dsimp; rw [ho, he]; simp
          · cases hd : σ.deq pack j <;> simp [Narrow.rest, Narrow.cur, hpi]
          · intro _
            cases hd : σ.deq pack j with
            | true =>
              refine ⟨J0, m, rfl, h1, ?_, by simpa using dec_lt _ _, ?_, ?_, fun h => by (cases h)⟩
              · rw [total_append]
                simp only [if_true, dec_pos hpos h3, Narrow.rest, Narrow.cur, Bool.or_false, Dma.split_length, total]
                have hmul : σ.size * pack = (σ.size - 1) * pack + pack := by
                  rw [← Nat.succ_mul]; congr 1; omega
                omega
              · intro _ h; simp [Narrow.cur] at h
              · intro _
                simp only [if_true, dec_pos hpos h3, decide_eq_decide]
                omega
            | false =>
              refine ⟨J0, m, rfl, h1, ?_, by simpa using h3, fun _ _ => by simpa using hpos, ?_, fun h => by (cases h)⟩
              · rw [total_append]
                simpa [Narrow.rest, Narrow.cur, total] using h2
              · intro h; simp [Narrow.cur] at h
        | true =>
          have hgo : σ.wcond j = true := by simp [Narrow.wcond, hcur, hrdy, hO]
          have hd : σ.deq pack j = false := by simp [Narrow.deq, hcur]
          have hfb : (σ.count == pack - 1) = false := by simp [hc0]; omega
          have hsend : σ.send pack dw j = some (rd % 2 ^ dw, false) := by simp [Narrow.send, hgo, hc0, hrd, hp1]
          have e : σ.step w pack dw j = ⟨true, 1, σ.rlast, rd / 2 ^ dw, σ.rlast, σ.size, false, false,
              σ.out.step j.tready (some (rd % 2 ^ dw, false))⟩ := by
            simp only [Narrow.step, hO, hgo, hsend, hcur, hd, hrdy, hfb, hm]
            simp [hc0, hrd]
            exact Nat.mod_eq_of_lt (by omega)
          obtain ⟨q, hq⟩ : ∃ q, pack = q + 1 := ⟨pack - 1, by omega⟩
          have hrest : σ.rest pack dw rd = rd % 2 ^ dw :: split (pack - 1) dw (rd / 2 ^ dw) := by
            simp only [Narrow.rest, hc0, hcur, if_true]
            rw [show split pack dw rd = split (q + 1) dw rd by rw [hq], Dma.split_succ, hq]; rfl
          rw [hrest] at hpi h2
          simp only [List.length_cons, Dma.split_length] at h2
          rw [e, hd]
          refine ⟨S ++ [rd % 2 ^ dw], by dsimp; omega, fun h => by (cases h), fun h => by (simp [Narrow.cur] at h), ?_, ?_, ?_⟩
          · dsimp
            rw [ho, he, beats_pop h1 (by omega)]
            have : ¬ S.length + 1 = total J0 + m := by omega
            simp [this]
          · simpa [Narrow.rest] using hpi
          · intro _
            refine ⟨J0, m, rfl, by simp; omega, ?_, h3, fun h => by (simp at h), fun h => by (simp [Narrow.cur] at h), fun _ => h5 hcur⟩
            rw [total_append]
            simp [Narrow.rest, total]; omega
      · have hcur : σ.cur = false := by
          cases hcur : σ.cur with
          | false => rfl
          | true => exact absurd (hpc hcur) hc0
        have hgo : σ.wcond j = true := by simp [Narrow.wcond, hrdy, hO]; left; omega
        obtain ⟨q, hq⟩ : ∃ q, pack - σ.count = q + 1 := ⟨pack - σ.count - 1, by omega⟩
        have hrest : σ.rest pack dw rd = σ.wdata % 2 ^ dw :: split q dw (σ.wdata / 2 ^ dw) := by
          simp only [Narrow.rest, hc0, if_false, hq, Dma.split_succ]
        rw [hrest] at hpi h2
        simp only [List.length_cons, Dma.split_length] at h2
        have hwl := h6 (by omega)
        by_cases hfull : σ.count = pack - 1
        · have hfb : (σ.count == pack - 1) = true := by simp [hfull]
          have hq0 : q = 0 := by omega
          subst hq0
          simp only [Dma.split_zero] at hpi
          have hsend : σ.send pack dw j = some (σ.wdata % 2 ^ dw, decide (σ.size = 0)) := by
            simp only [Narrow.send, hgo, hfb, if_true, hc0, if_false]
            congr 2
            simp [Bool.beq_eq_decide_eq]
          have e : σ.step w pack dw j = ⟨!decide (σ.size = 0), 0, if σ.deq pack j then decide (σ.size ≤ 1) else σ.rlast,
              σ.wdata / 2 ^ dw, σ.wlast, if σ.deq pack j then dec w σ.size else σ.size, σ.deq pack j, false,
              σ.out.step j.tready (some (σ.wdata % 2 ^ dw, decide (σ.size = 0)))⟩ := by
            simp only [Narrow.step, hO, hgo, hsend, hcur, hfb, hwl]
            simp [hc0]
          have hbeats : W ++ σ.out.held ++ [(σ.wdata % 2 ^ dw, decide (σ.size = 0))] =
              beats (J0 ++ [.dma m]) (S ++ [σ.wdata % 2 ^ dw]) := by
            rw [he, beats_pop h1 (by omega)]
            have : decide (σ.size = 0) = decide (S.length + 1 = total J0 + m) := by
              rw [decide_eq_decide]
              rcases Nat.eq_zero_or_pos σ.size with hz | hz
              · rw [hz] at h2 ⊢; omega
              · have : 2 ≤ σ.size * pack := Nat.le_trans hp (Nat.le_mul_of_pos_left _ hz)
                omega
            rw [this]
          rw [e]
          refine ⟨S ++ [σ.wdata % 2 ^ dw], by dsimp; omega, ?_, fun _ => rfl, ?_, ?_, ?_⟩
          · intro h
            have hz : σ.size = 0 := by simpa using h
            have hd : σ.deq pack j = false := by simp [Narrow.deq, hz]
            refine ⟨rfl, by simp [Narrow.cur, hd], ?_⟩
            rw [hz] at h2
            rw [total_append]
            simp [total]; omega
          · dsimp; rw [ho]; exact hbeats
          · cases hd : σ.deq pack j <;> simp [Narrow.rest, Narrow.cur, ← hpi]
          · intro h
            have hpos : 0 < σ.size := by
              have : ¬ σ.size = 0 := by simpa using h
              omega
            cases hd : σ.deq pack j with
            | true =>
              refine ⟨J0, m, rfl, by simp; omega, ?_, by simpa using dec_lt _ _, ?_, ?_, fun h => by (cases h)⟩
              · rw [total_append]
                simp only [if_true, dec_pos hpos h3, Narrow.rest, Narrow.cur, Bool.or_false, Dma.split_length, total,
                  List.length_append, List.length_singleton]
                have hmul : σ.size * pack = (σ.size - 1) * pack + pack := by
                  rw [← Nat.succ_mul]; congr 1; omega
                omega
              · intro _ h; simp [Narrow.cur] at h
              · intro _
                simp only [if_true, dec_pos hpos h3, decide_eq_decide]
                omega
            | false =>
              refine ⟨J0, m, rfl, by simp; omega, ?_, by simpa using h3, fun _ _ => by simpa using hpos, ?_, fun h => by (cases h)⟩
              · rw [total_append]
                simp [Narrow.rest, Narrow.cur, total]; omega
              · intro h; simp [Narrow.cur] at h
        · have hfb : (σ.count == pack - 1) = false := by simp [hfull]
          have hd : σ.deq pack j = false := by simp [Narrow.deq, hfull, hc0]
          have hsend : σ.send pack dw j = some (σ.wdata % 2 ^ dw, false) := by
            simp only [Narrow.send, hgo, hfb, if_true, hc0, if_false, Bool.and_false]
          have e : σ.step w pack dw j = ⟨true, σ.count + 1, σ.rlast, σ.wdata / 2 ^ dw, σ.wlast, σ.size, false, false,
              σ.out.step j.tready (some (σ.wdata % 2 ^ dw, false))⟩ := by
            simp only [Narrow.step, hO, hgo, hsend, hcur, hd, hfb, hm]
            simp [hc0]
            exact Nat.mod_eq_of_lt (by omega)
          have hq' : pack - (σ.count + 1) = q := by omega
          rw [e, hd]
          refine ⟨S ++ [σ.wdata % 2 ^ dw], by dsimp; omega, fun h => by (cases h), fun h => by (simp [Narrow.cur] at h), ?_, ?_, ?_⟩
          · dsimp
            rw [ho, he, beats_pop h1 (by omega)]
            have : ¬ S.length + 1 = total J0 + m := by omega
            simp [this]
          · simpa [Narrow.rest, hq'] using hpi
          · intro _
            refine ⟨J0, m, rfl, by simp; omega, ?_, h3, fun h => by (simp at h), fun h => by (simp [Narrow.cur] at h), fun _ => hwl⟩
            rw [total_append]
            simp [Narrow.rest, total, hq']; omega

theorem toList_map {α β : Type} (f : α → β) (o : Option α) : o.toList.map f = (o.map f).toList := by
  cases o <;> rfl

theorem narrow_inv {k : ℕ} (hk : pack = 2 ^ k) (hp : 2 ≤ pack) (hw : ∀ t n, (i t).req = some n → 0 < n ∧ n < 2 ^ w)
    {word : ℕ → ℕ} (hr : Reads (narrowDeq w pack dw i) (fun t => (i t).rdata) word) (t : ℕ) :
    ∃ S, NarrowInv w pack dw (narrowAt w pack dw i t) (narrowWire w pack dw i t)
      ((narrowReqs w pack dw i t).map fun n => Job.dma (n * pack)) (narrowPopped w pack dw i word t) (i t).rdata S := by
  induction t with
  | zero =>
    refine ⟨[], by show 0 < pack; omega, fun _ => ⟨rfl, rfl, rfl⟩, fun _ => rfl, rfl, rfl, fun h => ?_⟩
    cases h
  | succ t ih =>
    obtain ⟨S, ih⟩ := ih
    obtain ⟨S', h⟩ := narrow_step hk hp ih (i t) rfl (fun n hn => hw t n hn) (word t)
    refine ⟨S', ?_⟩
    rw [narrowWire, narrowReqs, narrowPopped, collect_succ, collect_succ, collect_succ, List.map_append,
      show (i (t + 1)).rdata = _ from hr t]
    rw [toList_map]
    exact h

theorem total_map (f : ℕ → ℕ) (l : List ℕ) : total (l.map fun n => Job.dma (f n)) = (l.map f).sum := by
  induction l with
  | nil => rfl
  | cons a l ih => simp [total, ih]

/-- **C68 (FIFO wider than the stream).** For any sequence of transfers of at least one word, any contents and timing
of the FIFO and any consumer: the beats taken by the consumer and the one in the output registers are the pieces of
the words taken from the FIFO, in order and lowest first, as far as they have been sent, with exactly the last piece
of each transfer marked.  At most `pack` pieces are outstanding, and none when the machine is idle; then exactly as
many words have been taken from the FIFO as asked for. -/
theorem c68_narrow {k : ℕ} (hk : pack = 2 ^ k) (hp : 2 ≤ pack) (hw : ∀ t n, (i t).req = some n → 0 < n ∧ n < 2 ^ w)
    {word : ℕ → ℕ} (hr : Reads (narrowDeq w pack dw i) (fun t => (i t).rdata) word) (t : ℕ) :
    ∃ sent rest, sent ++ rest = (narrowPopped w pack dw i word t).flatMap (split pack dw) ∧ rest.length ≤ pack ∧
      narrowWire w pack dw i t ++ (narrowAt w pack dw i t).out.held =
        beats ((narrowReqs w pack dw i t).map fun n => Job.dma (n * pack)) sent ∧
      (narrowPopped w pack dw i word t).length ≤ (narrowReqs w pack dw i t).sum ∧
      ((narrowAt w pack dw i t).on = false →
        rest = [] ∧ (narrowPopped w pack dw i word t).length = (narrowReqs w pack dw i t).sum) := by
  obtain ⟨S, h⟩ := narrow_inv hk hp hw hr t
  have hl := congrArg List.length h.pieces
  rw [List.length_append, Dma.flatMap_split_length] at hl
  have hsum : total ((narrowReqs w pack dw i t).map fun n => Job.dma (n * pack)) =
      (narrowReqs w pack dw i t).sum * pack := by
    rw [total_map]
    generalize narrowReqs w pack dw i t = l
    induction l with
    | nil => simp
    | cons a l ih => simp only [List.map_cons, List.sum_cons, ih, Nat.add_mul]
  refine ⟨S, _, h.pieces, ?_, h.eq, ?_, ?_⟩
  · unfold Narrow.rest
    split
    · split <;> simp
    · simp
  · refine Nat.le_of_mul_le_mul_right ?_ (show 0 < pack by omega)
    rw [← hsum, ← hl]
    cases hO : (narrowAt w pack dw i t).on with
    | false =>
      obtain ⟨h1, h2, h3⟩ := h.off hO
      simp [Narrow.rest, h1, h2, h3]
    | true =>
      obtain ⟨J0, m, h1, _, h2, _⟩ := h.run hO
      omega
  · intro hO
    obtain ⟨h1, h2, h3⟩ := h.off hO
    have hz : (narrowAt w pack dw i t).rest pack dw (i t).rdata = [] := by simp [Narrow.rest, h1, h2]
    refine ⟨hz, ?_⟩
    rw [hz, h3, hsum] at hl
    exact (Nat.eq_of_mul_eq_mul_right (by omega) hl).symm

/-- A transfer does not stop: whenever the output registers accept a word and the FIFO is not empty, a word is taken
from the FIFO or a piece is sent. -/
theorem c68_narrow_progress {k : ℕ} (hk : pack = 2 ^ k) (hp : 2 ≤ pack)
    (hw : ∀ t n, (i t).req = some n → 0 < n ∧ n < 2 ^ w)
    {word : ℕ → ℕ} (hr : Reads (narrowDeq w pack dw i) (fun t => (i t).rdata) word) (t : ℕ)
    (hO : (narrowAt w pack dw i t).on = true) (hrdy : (narrowAt w pack dw i t).out.ready (i t).tready = true)
    (he : (i t).empty = false) :
    (narrowPopped w pack dw i word (t + 1)).length = (narrowPopped w pack dw i word t).length + 1 ∨
    (narrowWire w pack dw i (t + 1) ++ (narrowAt w pack dw i (t + 1)).out.held).length =
      (narrowWire w pack dw i t ++ (narrowAt w pack dw i t).out.held).length + 1 := by
  obtain ⟨S, h⟩ := narrow_inv hk hp hw hr t
  obtain ⟨J0, m, -, -, -, -, h4, -⟩ := h.run hO
  cases hgo : (narrowAt w pack dw i t).wcond (i t) with
  | true =>
    right
    rw [narrowWire, collect_succ]
    show (narrowWire w pack dw i t ++ _ ++ ((narrowAt w pack dw i t).step w pack dw (i t)).out.held).length = _
    rw [show ((narrowAt w pack dw i t).step w pack dw (i t)).out =
      (narrowAt w pack dw i t).out.step (i t).tready ((narrowAt w pack dw i t).send pack dw (i t)) from rfl,
      List.append_assoc, out_step, hrdy]
    simp [Narrow.send, hgo]
    omega
  | false =>
    left
    have hcnt : (narrowAt w pack dw i t).count = 0 ∧ (narrowAt w pack dw i t).cur = false := by
      simpa [Narrow.wcond, hO, hrdy] using hgo
    have hpos := h4 hcnt.1 hcnt.2
    have hd : narrowDeq w pack dw i t = true := by
      simp [narrowDeq, Narrow.deq, hO, hrdy, he, hcnt.1, hcnt.2]
      omega
    rw [narrowPopped, collect_succ, hd]
    simp [narrowPopped]

end narrow

/-! ## Stream word wider than the FIFO word -/

section wide
variable (w pack rw : ℕ) (i : ℕ → FIn)

/-- The machine at cycle `t` after reset. -/
def wideAt (t : ℕ) : Wide := traj (Wide.step w pack rw) Wide.init i t

/-- The beats taken by the consumer in the first `t` cycles. -/
def wideWire (t : ℕ) : List (ℕ × Bool) := collect (fun t => (wideAt w pack rw i t).out.beat (i t).tready) t

/-- The condition under which the FIFO is read. -/
def wideDeq (t : ℕ) : Bool := (wideAt w pack rw i t).deq (i t)

/-- The words taken from the FIFO, where `word t` is the word at its head in cycle `t`. -/
def widePopped (word : ℕ → ℕ) (t : ℕ) : List ℕ :=
  collect (fun t => if wideDeq w pack rw i t then some (word t) else none) t

/-- The sizes of the requests taken in the first `t` cycles. -/
def wideReqs (t : ℕ) : List ℕ := collect (fun t => (wideAt w pack rw i t).start (i t)) t

variable {w pack rw i}

/-- The words taken that are not in a beat given to the output registers. -/
def Wide.part (pack rw : ℕ) (σ : Wide) (rd : ℕ) : List ℕ :=
  split σ.count rw (σ.wdata / 2 ^ (rw * (pack - σ.count))) ++ (if σ.cur then [rd] else [])

/-- The number of stream words of a transfer of `n` FIFO words. -/
def up (pack n : ℕ) : ℕ := (n + pack - 1) / pack

structure WideInv (w pack rw : ℕ) (σ : Wide) (W : List (ℕ × Bool)) (J : List Job) (P : List ℕ) (rd : ℕ)
    (S : List ℕ) : Prop where
  count : σ.count < pack
  wd : σ.wdata < 2 ^ (pack * rw)
  bnd : ∀ x ∈ S, x < 2 ^ (pack * rw)
  rdb : σ.cur = true → rd < 2 ^ rw
  empty : 0 < σ.count → σ.out.valid = false
  off : σ.on = false → σ.count = 0 ∧ σ.cur = false ∧ S.length = total J
  eq : W ++ σ.out.held = beats J S
  words : S.flatMap (split pack rw) ++ σ.part pack rw rd = P
  run : σ.on = true → ∃ J0 m, J = J0 ++ [.dma m] ∧ total J0 ≤ S.length ∧
    P.length + σ.size = total J * pack ∧ σ.size < 2 ^ w ∧
    (σ.cur = false → 0 < σ.size) ∧ (σ.cur = true → σ.rlast = decide (σ.size = 0))

theorem round_eq {w k n : ℕ} (hn : up (2 ^ k) n * 2 ^ k < 2 ^ w) : Wide.round w (2 ^ k) n = up (2 ^ k) n * 2 ^ k := by
  have hp := Nat.two_pow_pos k
  have : n / 2 ^ k + (if n % 2 ^ k > 0 then 1 else 0) = up (2 ^ k) n := by
    unfold up
    have h1 := Nat.div_add_mod n (2 ^ k)
    have h2 := Nat.mod_lt n hp
    generalize 2 ^ k = p at *
    split
    · rw [show n + p - 1 = p * (n / p) + (n % p + p - 1) by omega, Nat.mul_add_div hp,
        show n % p + p - 1 = 1 * p + (n % p - 1) by omega, Nat.mul_comm 1 p, Nat.mul_add_div hp,
        Nat.div_eq_of_lt (show n % p - 1 < p by omega)]
    · rw [show n + p - 1 = p * (n / p) + (p - 1) by omega, Nat.mul_add_div hp,
        Nat.div_eq_of_lt (show p - 1 < p by omega)]
  rw [Wide.round, Dma.countMod_pow, this, Nat.mod_eq_of_lt hn]

theorem wide_step {k : ℕ} (hk : pack = 2 ^ k) (hp : 2 ≤ pack) {σ : Wide} {W : List (ℕ × Bool)} {J : List Job}
    {P S : List ℕ} {rd : ℕ} (h : WideInv w pack rw σ W J P rd S) (j : FIn) (hrd : j.rdata = rd)
    (hw : ∀ n, j.req = some n → 0 < n ∧ up pack n * pack < 2 ^ w) (word : ℕ) (hwd : word < 2 ^ rw) :
    ∃ S', WideInv w pack rw (σ.step w pack rw j) (W ++ (σ.out.beat j.tready).toList)
      (J ++ ((σ.start j).map fun n => Job.dma (up pack n)).toList)
      (P ++ (if σ.deq j then some word else none).toList) (if σ.deq j then word else rd) S' := by
  have hm : Dma.countMod pack = pack := by rw [hk, Dma.countMod_pow]
  obtain ⟨hc, hwb, hb, hrb, hem, hoff, he, hpi, hr⟩ := h
  have hp1 : ¬ 0 = pack - 1 := by omega
  cases hO : σ.on with
  | false =>
    obtain ⟨hc0, hcur, hS⟩ := hoff hO
    have hd : σ.deq j = false := by simp [Wide.deq, hO]
    have hsend : σ.send pack rw j = none := by simp [Wide.send, hO]
    have hst : σ.start j = j.req := by simp [Wide.start, hO]
    have e : σ.step w pack rw j = ⟨j.req.isSome, 0, false, σ.wdata, (j.req.map (Wide.round w pack)).getD σ.size,
        false, false, σ.out.step j.tready none⟩ := by
      simp [Wide.step, hO, hd, hsend, hcur]
    have ho' : W ++ (σ.out.beat j.tready).toList ++ (σ.out.step j.tready none).held = W ++ σ.out.held := by
      rw [List.append_assoc, out_step]; simp
    rw [e, hd, hst]
    have hpart : σ.part pack rw rd = [] := by simp [Wide.part, hc0, hcur]
    rw [hpart, List.append_nil] at hpi
    refine ⟨S, ?_⟩
    cases hq : j.req with
    | none =>
      refine ⟨by dsimp; omega, hwb, hb, fun h => by (cases h), fun h => by (cases h), fun _ => ⟨rfl, rfl, by simpa using hS⟩, ?_, ?_, ?_⟩
      · dsimp; rw [ho', he]; simp
      · simp [Wide.part, Wide.cur, hpi]
      · intro h; cases h
    | some n =>
      obtain ⟨hn0, hn1⟩ := hw n hq
      have hup : 0 < up pack n := by
        unfold up
        exact Nat.div_pos (by omega) (by omega)
      have hround : Wide.round w pack n = up pack n * pack := by
        subst hk; exact round_eq hn1
      refine ⟨by dsimp; omega, hwb, hb, fun h => by (cases h), fun h => by (cases h), fun h => by (cases h), ?_, ?_, ?_⟩
      · dsimp; rw [ho', he, beats_start hS]
      · simp [Wide.part, Wide.cur, hpi]
      · intro _
        refine ⟨J, up pack n, rfl, by omega, ?_, ?_, fun _ => ?_, fun h => by (cases h)⟩
        · have hl := congrArg List.length hpi
          rw [Dma.flatMap_split_length] at hl
          simp [hround, total_append, total, Nat.add_mul, ← hl, hS]
        · simpa [hround] using hn1
        · simp only [Option.map_some, Option.getD_some, hround]
          exact Nat.mul_pos hup (by omega)
  | true =>
    obtain ⟨J0, m, rfl, h1, h2, h3, h4, h5⟩ := hr hO
    have hst : σ.start j = none := by simp [Wide.start, hO]
    rw [hst]
    simp only [Option.map_none, Option.toList_none, List.append_nil]
    have hl := congrArg List.length hpi
    rw [List.length_append, Dma.flatMap_split_length] at hl
    have hsz : ∀ b : Bool, b = true → 0 < σ.size →
        (P ++ [word]).length + dec w σ.size = total (J0 ++ [Job.dma m]) * pack := by
      intro _ _ hpos
      rw [← h2, dec_pos hpos h3, List.length_append, List.length_singleton]; omega
    cases hrdy : σ.ready j with
    | false =>
      have hd : σ.deq j = false := by simp [Wide.deq, hrdy]
      have hsend : σ.send pack rw j = none := by simp [Wide.send, hrdy]
      have e : σ.step w pack rw j = ⟨true, σ.count, σ.rlast, σ.wdata, σ.size, false, σ.cur,
          σ.out.step j.tready none⟩ := by
        simp [Wide.step, hO, hd, hsend, hrdy]
      have ho' : W ++ (σ.out.beat j.tready).toList ++ (σ.out.step j.tready none).held = W ++ σ.out.held := by
        rw [List.append_assoc, out_step]; simp
      rw [e, hd]
      refine ⟨S, hc, hwb, hb, ?_, ?_, fun h => by (cases h), ?_, ?_, ?_⟩
      · simpa [Wide.cur] using hrb
      · intro h; simp [Out.step, hem h]
      · dsimp; rw [ho', he]
      · simpa [Wide.part, Wide.cur] using hpi
      · intro _
        exact ⟨J0, m, rfl, h1, by simpa using h2, h3, by simpa [Wide.cur] using h4, by simpa [Wide.cur] using h5⟩
    | true =>
      have hemn : ∀ c, 0 < c → (σ.out.step j.tready none).valid = false := by
        intro _ _
        rcases Nat.eq_zero_or_pos σ.count with hz | hz
        · have : j.tready = true ∨ σ.out.valid = false := by simpa [Wide.ready, hz] using hrdy
          rcases this with h | h <;> simp [Out.step, h]
        · simp [Out.step, hem hz]
      have ho : W ++ (σ.out.beat j.tready).toList ++ (σ.out.step j.tready none).held = W ++ σ.out.held := by
        rw [List.append_assoc, out_step]; simp
      have hrun : ∀ b : Bool, b = σ.deq j → 0 < σ.size →
          (P ++ (if b then some word else none).toList).length + (if b then dec w σ.size else σ.size) =
            total (J0 ++ [Job.dma m]) * pack ∧ (if b then dec w σ.size else σ.size) < 2 ^ w ∧
          (b = false → 0 < (if b then dec w σ.size else σ.size)) ∧
          (b = true → (if b then decide (σ.size ≤ 1) else σ.rlast) =
            decide ((if b then dec w σ.size else σ.size) = 0)) := by
        intro b _ hpos
        cases b with
        | false => exact ⟨by simpa using h2, h3, fun _ => hpos, fun h => by (cases h)⟩
        | true =>
          refine ⟨hsz true rfl hpos, dec_lt _ _, fun h => by (cases h), fun _ => ?_⟩
          simp only [if_true, dec_pos hpos h3, decide_eq_decide]
          omega
      cases hcur : σ.cur with
      | false =>
        have hpos := h4 hcur
        have hsend : σ.send pack rw j = none := by simp [Wide.send, hcur]
        have e : σ.step w pack rw j = ⟨true, σ.count, if σ.deq j then decide (σ.size ≤ 1) else σ.rlast, σ.wdata,
            if σ.deq j then dec w σ.size else σ.size, σ.deq j, false, σ.out.step j.tready none⟩ := by
          simp [Wide.step, hO, hsend, hcur]
        obtain ⟨r1, r2, r3, r4⟩ := hrun _ rfl hpos
        rw [e]
        refine ⟨S, hc, hwb, hb, ?_, hemn _, fun h => by (cases h), ?_, ?_, fun _ => ⟨J0, m, rfl, h1, r1, r2, ?_, ?_⟩⟩
        · intro h
          simp only [Wide.cur, Bool.or_false] at h
          simpa [h] using hwd
        · dsimp; rw [ho, he]
        · rw [← hpi]
          cases hd : σ.deq j <;> simp [Wide.part, Wide.cur] <;> simpa [Wide.cur] using hcur
        · simpa [Wide.cur] using r3
        · simpa [Wide.cur] using r4
      | true =>
        have hrdlt := hrb hcur
        have hcat := Dma.cat_lt (d := rd) (x := σ.wdata) (w := rw) (by omega : 0 < pack) hrdlt hwb
        have hsp := Dma.split_cat (d := rd) (x := σ.wdata) (w := rw) hc hrdlt hwb
        have hpart : σ.part pack rw rd = split (σ.count + 1) rw
            ((rd * 2 ^ (pack * rw - rw) + σ.wdata / 2 ^ rw) / 2 ^ (rw * (pack - 1 - σ.count))) := by
          rw [hsp]; simp [Wide.part, hcur]
        rw [hpart] at hpi hl
        rw [Dma.split_length] at hl
        by_cases hfull : σ.count = pack - 1
        · have hfb : (σ.count == pack - 1) = true := by simp [hfull]
          have hv : σ.out.valid = false := hem (by omega)
          have hor : σ.out.ready j.tready = true := by simp [Out.ready, hv]
          have hsend : σ.send pack rw j = some (rd * 2 ^ (pack * rw - rw) + σ.wdata / 2 ^ rw, σ.rlast) := by
            simp [Wide.send, hO, hfb, hcur, hrdy, Wide.cat, hrd]
          have e : σ.step w pack rw j = ⟨!σ.rlast, 0, if σ.deq j then decide (σ.size ≤ 1) else σ.rlast,
              rd * 2 ^ (pack * rw - rw) + σ.wdata / 2 ^ rw, if σ.deq j then dec w σ.size else σ.size, σ.deq j, false,
              σ.out.step j.tready (some (rd * 2 ^ (pack * rw - rw) + σ.wdata / 2 ^ rw, σ.rlast))⟩ := by
            simp only [Wide.step, hO, hsend, hcur, hrdy, hfb, Wide.cat, hrd]
            simp
          rw [show pack - 1 - σ.count = 0 by omega, Nat.mul_zero, Nat.pow_zero, Nat.div_one,
            show σ.count + 1 = pack by omega] at hpi
          generalize rd * 2 ^ (pack * rw - rw) + σ.wdata / 2 ^ rw = c at *
          have hrl := h5 hcur
          have hSl : (S.length + 1) * pack + σ.size = (total J0 + m) * pack := by
            rw [total_append] at h2
            simp only [total, Nat.add_zero] at h2
            rw [← h2, ← hl, Nat.succ_mul]
            omega
          have hlt : S.length < total J0 + m := by
            have : (S.length + 1) * pack ≤ (total J0 + m) * pack := by omega
            have := Nat.le_of_mul_le_mul_right this (by omega)
            omega
          have hiff : S.length + 1 = total J0 + m ↔ σ.size = 0 := by
            constructor
            · intro h; rw [h] at hSl; omega
            · intro h; rw [h, Nat.add_zero] at hSl; exact Nat.eq_of_mul_eq_mul_right (by omega) hSl
          rw [e]
          refine ⟨S ++ [c], by dsimp; omega, hcat, ?_, ?_, fun h => by (cases h), ?_, ?_, ?_, ?_⟩
          · intro x hx
            rcases List.mem_append.1 hx with hx | hx
            · exact hb x hx
            · rw [List.mem_singleton.1 hx]; exact hcat
          · intro h
            simp only [Wide.cur, Bool.or_false] at h
            simpa [h] using hwd
          · intro h
            have hz : σ.size = 0 := by simpa [hrl] using h
            refine ⟨rfl, by simp [Wide.cur, Wide.deq, hz], ?_⟩
            rw [total_append]
            simpa [total] using hiff.2 hz
          · dsimp
            rw [List.append_assoc, out_step, hor, if_pos rfl, ← List.append_assoc, he, beats_pop h1 hlt, hrl]
            simp [hiff]
          · cases hd : σ.deq j <;> simp [Wide.part, Wide.cur, ← hpi]
          · intro h
            have hpos : 0 < σ.size := by
              have : ¬ σ.size = 0 := by simpa [hrl] using h
              omega
            obtain ⟨r1, r2, r3, r4⟩ := hrun _ rfl hpos
            exact ⟨J0, m, rfl, by simp; omega, r1, r2, by simpa [Wide.cur] using r3, by simpa [Wide.cur] using r4⟩
        · have hfb : (σ.count == pack - 1) = false := by simp [hfull]
          have hsend : σ.send pack rw j = none := by simp [Wide.send, hfb]
          have hpos : 0 < σ.size := by
            rcases Nat.eq_zero_or_pos σ.size with hz | hz
            · exfalso
              rw [hz, Nat.add_zero, ← hl] at h2
              have := congrArg (· % pack) h2
              simp only [Nat.mul_mod_left] at this
              rw [Nat.add_comm, Nat.add_mul_mod_self_right, Nat.mod_eq_of_lt (by omega)] at this
              omega
            · exact hz
          have e : σ.step w pack rw j = ⟨true, σ.count + 1, if σ.deq j then decide (σ.size ≤ 1) else σ.rlast,
              rd * 2 ^ (pack * rw - rw) + σ.wdata / 2 ^ rw, if σ.deq j then dec w σ.size else σ.size, σ.deq j, false,
              σ.out.step j.tready none⟩ := by
            simp only [Wide.step, hO, hsend, hcur, hrdy, hfb, hm, Wide.cat, hrd]
            simp
            exact Nat.mod_eq_of_lt (by omega)
          obtain ⟨r1, r2, r3, r4⟩ := hrun _ rfl hpos
          rw [e]
          refine ⟨S, by dsimp; omega, hcat, hb, ?_, hemn _, fun h => by (cases h), ?_, ?_,
            fun _ => ⟨J0, m, rfl, h1, r1, r2, ?_, ?_⟩⟩
          · intro h
            simp only [Wide.cur, Bool.or_false] at h
            simpa [h] using hwd
          · dsimp; rw [ho, he]
          · rw [show pack - 1 - σ.count = pack - (σ.count + 1) by omega] at hpi
            rw [← hpi]
            cases hd : σ.deq j <;> simp [Wide.part, Wide.cur]
          · simpa [Wide.cur] using r3
          · simpa [Wide.cur] using r4

theorem wide_inv {k : ℕ} (hk : pack = 2 ^ k) (hp : 2 ≤ pack)
    (hw : ∀ t n, (i t).req = some n → 0 < n ∧ up pack n * pack < 2 ^ w) {word : ℕ → ℕ} (hwd : ∀ t, word t < 2 ^ rw)
    (hr : Reads (wideDeq w pack rw i) (fun t => (i t).rdata) word) (t : ℕ) :
    ∃ S, WideInv w pack rw (wideAt w pack rw i t) (wideWire w pack rw i t)
      ((wideReqs w pack rw i t).map fun n => Job.dma (up pack n)) (widePopped w pack rw i word t) (i t).rdata S := by
  induction t with
  | zero =>
    refine ⟨[], by show 0 < pack; omega, Nat.two_pow_pos _, fun x h => by (cases h), fun h => by (cases h),
      fun h => by (cases h), fun _ => ⟨rfl, rfl, rfl⟩, rfl, rfl, fun h => ?_⟩
    cases h
  | succ t ih =>
    obtain ⟨S, ih⟩ := ih
    obtain ⟨S', h⟩ := wide_step hk hp ih (i t) rfl (fun n hn => hw t n hn) (word t) (hwd t)
    refine ⟨S', ?_⟩
    rw [wideWire, wideReqs, widePopped, collect_succ, collect_succ, collect_succ, List.map_append,
      show (i (t + 1)).rdata = _ from hr t]
    rw [toList_map]
    exact h

/-- **C68 (stream wider than the FIFO).** For any sequence of transfers, any contents and timing of the FIFO and any
consumer: the beats taken by the consumer and the one in the output registers are packed from the words taken from the
FIFO in order, lowest first; each transfer of `n` words makes `⌈n / pack⌉` beats, of which exactly the last is marked.
Fewer words than one beat plus one are outstanding, and none when the machine is idle; then all beats asked for have been
sent. -/
theorem c68_wide {k : ℕ} (hk : pack = 2 ^ k) (hp : 2 ≤ pack)
    (hw : ∀ t n, (i t).req = some n → 0 < n ∧ up pack n * pack < 2 ^ w) {word : ℕ → ℕ} (hwd : ∀ t, word t < 2 ^ rw)
    (hr : Reads (wideDeq w pack rw i) (fun t => (i t).rdata) word) (t : ℕ) :
    ∃ S part, (∀ x ∈ S, x < 2 ^ (pack * rw)) ∧
      S.flatMap (split pack rw) ++ part = widePopped w pack rw i word t ∧ part.length ≤ pack ∧
      wideWire w pack rw i t ++ (wideAt w pack rw i t).out.held =
        beats ((wideReqs w pack rw i t).map fun n => Job.dma (up pack n)) S ∧
      (widePopped w pack rw i word t).length ≤ ((wideReqs w pack rw i t).map (up pack)).sum * pack ∧
      ((wideAt w pack rw i t).on = false →
        part = [] ∧ S.length = ((wideReqs w pack rw i t).map (up pack)).sum) := by
  obtain ⟨S, h⟩ := wide_inv hk hp hw hwd hr t
  have hl := congrArg List.length h.words
  rw [List.length_append, Dma.flatMap_split_length] at hl
  have hsum := total_map (up pack) (wideReqs w pack rw i t)
  refine ⟨S, _, h.bnd, h.words, ?_, h.eq, ?_, ?_⟩
  · have := h.count
    simp only [Wide.part, List.length_append, Dma.split_length]
    split <;> simp <;> omega
  · rw [← hsum]
    cases hO : (wideAt w pack rw i t).on with
    | false =>
      obtain ⟨h1, h2, h3⟩ := h.off hO
      rw [← hl, h3]
      simp [Wide.part, h1, h2]
    | true =>
      obtain ⟨J0, m, h1, _, h2, _⟩ := h.run hO
      omega
  · intro hO
    obtain ⟨h1, h2, h3⟩ := h.off hO
    exact ⟨by simp [Wide.part, h1, h2], by rw [h3, hsum]⟩

/-- A transfer does not stop: whenever the machine can go on and the FIFO is not empty, a word is taken from the FIFO,
or all have been taken and this cycle ends the transfer. -/
theorem c68_wide_progress {k : ℕ} (hk : pack = 2 ^ k) (hp : 2 ≤ pack)
    (hw : ∀ t n, (i t).req = some n → 0 < n ∧ up pack n * pack < 2 ^ w) {word : ℕ → ℕ} (hwd : ∀ t, word t < 2 ^ rw)
    (hr : Reads (wideDeq w pack rw i) (fun t => (i t).rdata) word) (t : ℕ)
    (hO : (wideAt w pack rw i t).on = true) (hrdy : (i t).tready = true) (he : (i t).empty = false) :
    (widePopped w pack rw i word (t + 1)).length = (widePopped w pack rw i word t).length + 1 ∨
    (widePopped w pack rw i word t).length = ((wideReqs w pack rw i t).map (up pack)).sum * pack ∧
      (wideAt w pack rw i (t + 1)).on = false := by
  obtain ⟨S, h⟩ := wide_inv hk hp hw hwd hr t
  obtain ⟨J0, m, h1, h2, h3, h4, h5, h6⟩ := h.run hO
  rw [total_map (up pack)] at h3
  have hrd : (wideAt w pack rw i t).ready (i t) = true := by simp [Wide.ready, hrdy]
  by_cases hz : (wideAt w pack rw i t).size = 0
  · right
    have hcur : (wideAt w pack rw i t).cur = true := by
      cases hcur : (wideAt w pack rw i t).cur with
      | true => rfl
      | false => have := h5 hcur; omega
    refine ⟨by omega, ?_⟩
    have hl := congrArg List.length h.words
    rw [List.length_append, Dma.flatMap_split_length] at hl
    simp only [Wide.part, hcur, if_true, List.length_append, Dma.split_length, List.length_singleton] at hl
    have hc := h.count
    have hfull : (wideAt w pack rw i t).count = pack - 1 := by
      rw [hz, Nat.add_zero, ← hl] at h3
      have := congrArg (· % pack) h3
      simp only [Nat.mul_mod_left] at this
      rw [Nat.add_comm, Nat.add_mul_mod_self_right] at this
      have hlt : ¬ (wideAt w pack rw i t).count + 1 < pack := by
        intro hlt
        rw [Nat.mod_eq_of_lt hlt] at this
        omega
      omega
    show ((wideAt w pack rw i t).step w pack rw (i t)).on = false
    simp [Wide.step, hO, hcur, hrd, hfull, h6 hcur, hz]
  · left
    have : wideDeq w pack rw i t = true := by
      simp [wideDeq, Wide.deq, hO, he, hrd]
      omega
    rw [widePopped, collect_succ, this]
    simp [widePopped]

/-- **C68 (disagreement, sizes that do not fill the last beat).** A transfer of a number of words that is not a
multiple of the packing factor takes more words from the FIFO than asked for: when the machine is idle again, the
words taken are more than the sum of the sizes. -/
theorem c68_not_size {k : ℕ} (hk : pack = 2 ^ k) (hp : 2 ≤ pack)
    (hw : ∀ t n, (i t).req = some n → 0 < n ∧ up pack n * pack < 2 ^ w) {word : ℕ → ℕ} (hwd : ∀ t, word t < 2 ^ rw)
    (hr : Reads (wideDeq w pack rw i) (fun t => (i t).rdata) word) (t : ℕ)
    (hO : (wideAt w pack rw i t).on = false) {n : ℕ} (hn : n ∈ wideReqs w pack rw i t) (hd : ¬ pack ∣ n) :
    (wideReqs w pack rw i t).sum < (widePopped w pack rw i word t).length := by
  obtain ⟨S, part, -, h1, -, -, -, h2⟩ := c68_wide hk hp hw hwd hr t
  obtain ⟨rfl, h3⟩ := h2 hO
  rw [← h1, List.append_nil, Dma.flatMap_split_length, h3]
  have hge : ∀ n, n ≤ up pack n * pack ∧ (¬ pack ∣ n → n < up pack n * pack) := by
    intro n
    have h1 := Nat.div_add_mod (n + pack - 1) pack
    have h2 := Nat.mod_lt (n + pack - 1) (show pack > 0 by omega)
    rw [Nat.mul_comm] at h1
    have hle : n ≤ up pack n * pack := by unfold up; omega
    refine ⟨hle, fun hd => Nat.lt_of_le_of_ne hle fun h => hd ⟨up pack n, by rw [Nat.mul_comm]; exact h⟩⟩
  have hs : ∀ l : List ℕ, l.sum ≤ (l.map (up pack)).sum * pack ∧ (n ∈ l → l.sum < (l.map (up pack)).sum * pack) := by
    intro l
    induction l with
    | nil => simp
    | cons a l ih =>
      have ha := (hge a).1
      simp only [List.map_cons, List.sum_cons, Nat.add_mul, List.mem_cons]
      refine ⟨by omega, ?_⟩
      rintro (rfl | hn)
      · have := (hge n).2 hd
        omega
      · have := ih.2 hn
        omega
  exact (hs _).2 hn

end wide

/-! ## From RAMs of the same width -/

theorem ram_step_two {w op : ℕ} {σ : Ram} (h2 : σ.state = 2) (hs : σ.sel = op) (i : RIn) :
    let fin := i.rvalid op && σ.out.ready i.tready && i.rlast op
    (σ.step w [op] i).state = (if fin then 0 else 2) ∧ (σ.step w [op] i).busy = (if fin then false else σ.busy) ∧
    (σ.step w [op] i).sel = op ∧
    (σ.step w [op] i).out = σ.out.step i.tready
      (if i.rvalid op && σ.out.ready i.tready then some (i.rdata op, i.rlast op) else none) := by
  simp [Ram.step, Ram.next, Ram.disp, Ram.here, Ram.wcond, base, h2, hs]

/-- **C68 (`dma_write` from a RAM, start).** A request found when the interface is idle starts the read burst of the
RAM in the next cycle, for exactly one cycle, with the size requested. -/
theorem c68_ram_start {w op n : ℕ} {σ : Ram} {i j k : RIn} (h0 : σ.state = 0) (hb : σ.busy = false)
    (hq : i.req = some (op, n)) (hj : j.rvalid op = false) :
    let σ1 := σ.step w [op] i
    let σ2 := σ1.step w [op] j
    (σ.burst [op] op = false) ∧ (σ1.burst [op] op = true) ∧ σ1.size = n ∧ (σ2.burst [op] op = false) ∧
    σ2.state = 2 ∧ σ2.busy = true ∧ σ2.sel = op ∧ ((σ2.step w [op] k).burst [op] op = false) := by
  simp [Ram.step, Ram.next, Ram.disp, Ram.here, Ram.wcond, Ram.burst, base, h0, hb, hq, hj, Option.filter]
  intro h
  split at h <;> split at h <;> exact absurd h (by decide)

/-- **C68 (`dma_write` from a RAM).** With one RAM, for every contents, start address, stride and size `L > 0` and
every consumer, whatever beat `o` was waiting before: while the transfer runs, the beats taken by the consumer and the
one in the output registers are that beat and then the words of the burst in order, with exactly the `L`-th marked; the
interface is idle as soon as all have been given to the output registers and not before. -/
theorem c68_ram {w op aw L addr stride : ℕ} {mem : ℕ → ℕ} (hL : 0 < L) {σ : ℕ → Ram} {i : ℕ → RIn}
    {s : ℕ → Burst.RState ℕ}
    (h0 : (σ 0).state = 2 ∧ (σ 0).busy = true ∧ (σ 0).sel = op) (hstep : ∀ t, σ (t + 1) = (σ t).step w [op] (i t))
    (hi : ∀ t, (i t).rvalid op = (s t).rvalid ∧ (i t).rlast op = (s t).rlast ∧ (i t).rdata op = (s t).rdata)
    (R : Dma.RamRun aw mem addr stride L s fun t => (σ t).out.ready (i t).tready) (t : ℕ)
    (hrun : ∀ u < t, (σ u).state = 2) :
    ∃ m ≤ L, collect (fun t => (σ t).out.beat (i t).tready) t ++ (σ t).out.held =
      (σ 0).out.held ++ (Burst.expected aw mem addr stride L).take m ∧
      (m < L → (σ t).state = 2 ∧ (σ t).busy = true) ∧ (m = L → (σ t).state = 0 ∧ (σ t).busy = false) := by
  have key : ∀ t, (∀ u < t, (σ u).state = 2) →
      (σ t).sel = op ∧
      collect (fun t => (σ t).out.beat (i t).tready) t ++ (σ t).out.held =
        (σ 0).out.held ++ Dma.ramTaken s (fun t => (σ t).out.ready (i t).tready) t ∧
      ((Dma.ramTaken s (fun t => (σ t).out.ready (i t).tready) t).length < L → (σ t).state = 2 ∧ (σ t).busy = true) ∧
      ((Dma.ramTaken s (fun t => (σ t).out.ready (i t).tready) t).length = L → (σ t).state = 0 ∧ (σ t).busy = false) := by
    intro t
    induction t with
    | zero =>
      intro _
      refine ⟨h0.2.2, by simp [Dma.ramTaken], fun _ => ⟨h0.1, h0.2.1⟩, fun h => ?_⟩
      simp [Dma.ramTaken] at h; omega
    | succ t ih =>
      intro hrun
      obtain ⟨i1, i2, i3, i4⟩ := ih fun u hu => hrun u (by omega)
      have h2 := hrun t (by omega)
      have hnext := R.next hL t
      have hle := (R.facts hL t).1.length_le
      obtain ⟨e1, e2, e3, e4⟩ := ram_step_two (w := w) h2 i1 (i t)
      rw [hstep t, collect_succ, Dma.ramTaken, collect_succ]
      change _ ∧ _ = _ ++ (Dma.ramTaken s (fun t => (σ t).out.ready (i t).tready) t ++ _) ∧
        ((Dma.ramTaken s (fun t => (σ t).out.ready (i t).tready) t ++ _).length < L → _) ∧
        ((Dma.ramTaken s (fun t => (σ t).out.ready (i t).tready) t ++ _).length = L → _)
      generalize Dma.ramTaken s (fun t => (σ t).out.ready (i t).tready) t = C at *
      have hlt : C.length < L := by
        simp [Burst.expected] at hle
        rcases Nat.lt_or_ge C.length L with h | h
        · exact h
        · have := (i4 (by omega)).1
          omega
      have hb := (i3 hlt).2
      rw [(hi t).1, (hi t).2.1] at e1 e2
      rw [(hi t).1, (hi t).2.1, (hi t).2.2] at e4
      refine ⟨e3, ?_, ?_, ?_⟩
      · rw [e4, List.append_assoc, out_step, ← List.append_assoc, i2, List.append_assoc]
        cases (s t).rvalid <;> cases (σ t).out.ready (i t).tready <;> simp
      all_goals
        rw [e1, e2]
        cases hv : (s t).rvalid with
        | false => simp [hb]; try omega
        | true =>
          cases hr : (σ t).out.ready (i t).tready with
          | false => simp [hb]; try omega
          | true =>
            obtain ⟨n1, n2, -⟩ := hnext hv hr
            by_cases hl : C.length + 1 = L <;> simp [n2, hl, hb]
            try omega
  obtain ⟨-, k2, k3, k4⟩ := key t hrun
  have hpre := (R.facts hL t).1
  have hle := hpre.length_le
  simp [Burst.expected] at hle
  refine ⟨_, hle, ?_, k3, k4⟩
  rw [k2, List.prefix_iff_eq_take.1 hpre]
  simp [hle, Burst.expected]

/-- **C68 (disagreement, size 0 from a RAM).** A transfer of size 0 never ends: the RAM burst does not start, and the
interface stays busy. -/
theorem c68_not_zero_ram {w op aw addr stride : ℕ} {mem : ℕ → ℕ} {σ : ℕ → Ram} {i : ℕ → RIn}
    {s : ℕ → Burst.RState ℕ} {s0 : Burst.RState ℕ} {r : Bool}
    (h0 : (σ 0).state = 2 ∧ (σ 0).busy = true ∧ (σ 0).sel = op) (hstep : ∀ t, σ (t + 1) = (σ t).step w [op] (i t))
    (hi : ∀ t, (i t).rvalid op = (s t).rvalid)
    (hidle : s0.busy = false) (hs0 : s 0 = Burst.rstep aw mem s0 ⟨true, addr, stride, 0, r, false⟩)
    (hs : ∀ t, s (t + 1) = Burst.rstep aw mem (s t) ⟨(σ (t + 1)).burst [op] op, addr, stride, (σ (t + 1)).size,
      (σ t).out.ready (i t).tready, false⟩) (t : ℕ) :
    (σ t).state = 2 ∧ (σ t).busy = true ∧ (s t).rvalid = false := by
  have key : ∀ t, ((σ t).state = 2 ∧ (σ t).busy = true ∧ (σ t).sel = op) ∧ (s t).rvalid = false ∧ (s t).busy = false := by
    intro t
    induction t with
    | zero => exact ⟨h0, by simp [hs0, Burst.rstep, hidle], by simp [hs0, Burst.rstep, hidle]⟩
    | succ t ih =>
      obtain ⟨⟨i1, i2, i3⟩, i4, i5⟩ := ih
      obtain ⟨e1, e2, e3, -⟩ := ram_step_two (w := w) i1 i3 (i t)
      rw [← hstep t, hi t, i4] at e1 e2
      rw [← hstep t] at e3
      have e1' : (σ (t + 1)).state = 2 := by simpa using e1
      refine ⟨⟨e1', by simpa [i2] using e2, e3⟩, ?_, ?_⟩
      · simp [hs t, Burst.rstep, i5]
      · simp [hs t, Burst.rstep, i5, Ram.burst, base, e1']
  exact ⟨(key t).1.1, (key t).1.2.1, (key t).2.1⟩

theorem foldl_last {α β : Type} {f : β → α → β} {c : β} : ∀ {l : List α} {b : β}, l ≠ [] → (∀ b, ∀ a ∈ l, f b a = c) →
    l.foldl f b = c
  | [], _, h, _ => absurd rfl h
  | [a], b, _, h => h b a (by simp)
  | a :: a' :: l, b, _, h => by
    rw [List.foldl_cons]
    exact foldl_last (by simp) fun b x hx => h b x (List.mem_cons_of_mem _ hx)

/-- **C68 (disagreement, several RAMs).** When `dma_write` is used with more than one RAM (or port, or method), the
interface takes one request for the first and then none any more: whatever the RAMs and the consumer do, it stays busy
for ever after.  (The burst of the first RAM, started in cycle 1, has no word yet in cycle 2.) -/
theorem c68_not_two_rams {w first : ℕ} {rest : List ℕ} (hr : rest ≠ []) (hf : first ∉ rest) {σ : ℕ → Ram} {i : ℕ → RIn}
    (h0 : (σ 0).state = 0) (hb : (σ 0).busy = false) (hstep : ∀ t, σ (t + 1) = (σ t).step w (first :: rest) (i t))
    {n : ℕ} (hq : (i 0).req = some (first, n)) (hv : (i 2).rvalid first = false) (t : ℕ) :
    (σ (t + 1)).busy = true ∧ ∀ op ∈ first :: rest, (σ (t + 1)).disp (first :: rest) (i (t + 1)) op = none := by
  have hne : ∀ op ∈ rest, op ≠ first := fun op h e => hf (e ▸ h)
  have hbo : ∀ op ∈ rest, base (first :: rest) op = 1 := fun op h => base_other (hne op h)
  have taken : ∀ t, (σ t).busy = true → ∀ op, (σ t).disp (first :: rest) (i t) op = none := by
    intro t h op; simp [Ram.disp, h]
  have stay : ∀ t, (σ t).busy = true → (σ t).sel = first →
      ((σ t).here (first :: rest) first && (σ t).wcond (i t) first) = false →
      (σ (t + 1)).busy = true ∧ (σ (t + 1)).sel = first := by
    intro t hb hs hw
    have ht := taken t hb
    have hn : (first :: rest).findSome? (fun op => ((σ t).disp (first :: rest) (i t) op).map fun n => (op, n)) = none := by
      simp [ht, List.findSome?_eq_none_iff]
    have ha : ((first :: rest).any fun op => (σ t).here (first :: rest) op && (σ t).wcond (i t) op && (i t).rlast op) =
        false := by
      rw [List.any_eq_false]
      intro op hop
      rcases List.mem_cons.1 hop with rfl | h
      · simp [hw]
      · simp [Ram.wcond, hs, Ne.symm (hne op h)]
    rw [hstep t]
    simp only [Ram.step, hn, ha, hb]
    exact ⟨rfl, hs⟩
  have e1 : (σ 1).state = 1 ∧ (σ 1).busy = true ∧ (σ 1).sel = first := by
    rw [hstep 0]
    have hd : (σ 0).disp (first :: rest) (i 0) first = some n := by simp [Ram.disp, base_first, h0, hb, hq, Option.filter]
    refine ⟨?_, ?_, ?_⟩
    · simp only [Ram.step, Ram.next, List.foldl_cons]
      rw [foldl_id]
      · simp [hd, base_first, Ram.here, h0]
      · intro s op hop
        simp [Ram.disp, hbo op hop, Ram.here, h0]
    · simp [Ram.step, hd]
    · simp [Ram.step, hd]
  have e2 : (σ 2).state = 2 ∧ (σ 2).busy = true ∧ (σ 2).sel = first := by
    refine ⟨?_, stay 1 e1.2.1 e1.2.2 (by simp [Ram.here, base_first, e1.1])⟩
    rw [show σ 2 = _ from hstep 1]
    simp only [Ram.step, Ram.next, List.foldl_cons, taken 1 e1.2.1]
    rw [foldl_id]
    · simp [base_first, Ram.here, e1.1]
    · intro s op hop
      simp [hbo op hop, Ram.here, e1.1]
  have e3 : ∀ t, (σ (t + 3)).state = 3 ∧ (σ (t + 3)).busy = true ∧ (σ (t + 3)).sel = first := by
    intro t
    induction t with
    | zero =>
      refine ⟨?_, stay 2 e2.2.1 e2.2.2 (by simp [Ram.wcond, hv])⟩
      rw [show σ (0 + 3) = _ from hstep 2]
      simp only [Ram.step, Ram.next, List.foldl_cons, taken 2 e2.2.1]
      refine foldl_last hr fun s op hop => ?_
      simp [hbo op hop, Ram.here, e2.1]
    | succ t ih =>
      refine ⟨?_, stay (t + 3) ih.2.1 ih.2.2 (by simp [Ram.here, base_first, ih.1])⟩
      rw [show σ (t + 1 + 3) = _ from hstep (t + 3)]
      simp only [Ram.step, Ram.next, List.foldl_cons, taken (t + 3) ih.2.1]
      rw [foldl_id]
      · simp [base_first, Ram.here, ih.1]
      · intro s op hop
        simp [hbo op hop, Ram.here, ih.1, Ram.wcond, ih.2.2, Ne.symm (hne op hop)]
  have hbusy : (σ (t + 1)).busy = true := by
    match t with
    | 0 => exact e1.2.1
    | 1 => exact e2.2.1
    | t + 2 => exact (e3 t).2.1
  exact ⟨hbusy, fun op _ => taken _ hbusy op⟩

/-! ## Non-vacuity -/

/-- A machine with a FIFO that always has a next word `word t` to give. -/
def closed {S I : Type} (step : S → I → S) (deq : S → I → Bool) (σ : S) (mk : ℕ → ℕ → I) (word : ℕ → ℕ) : ℕ → S × ℕ
  | 0 => (σ, 0)
  | t + 1 =>
    let p := closed step deq σ mk word t
    (step p.1 (mk t p.2), if deq p.1 (mk t p.2) then word t else p.2)

theorem closed_traj {S I : Type} (step : S → I → S) (deq : S → I → Bool) (σ : S) (mk : ℕ → ℕ → I) (word : ℕ → ℕ) (t : ℕ) :
    traj step σ (fun t => mk t (closed step deq σ mk word t).2) t = (closed step deq σ mk word t).1 := by
  induction t with
  | zero => rfl
  | succ t ih => show step (traj step σ _ t) _ = _; rw [ih]; rfl

/-- Non-vacuity of `c68_same` and `c68_same_progress`: FIFO 1, used first, and FIFO 2; transfers of 2 words and 1 word
from FIFO 1 with a `write` of 99 in between. -/
example :
    let mk : ℕ → ℕ → SIn := fun t r =>
      ⟨if t < 2 then some (1, 2) else if 9 ≤ t then some (1, 1) else none, fun _ => t == 3, fun _ => r, t ≠ 4,
        if 5 ≤ t ∧ t < 7 then some (99, true) else none⟩
    let word := fun t => 10 + t
    let deq := fun (σ : Same) j => σ.deq [1, 2] j 1
    let i := fun t => mk t (closed (Same.step true 4 [1, 2]) deq Same.init mk word t).2
    Sizes 4 1 i ∧ Reads (sameDeq 4 1 [2] i) (fun t => (i t).rdata 1) word ∧
    sameJobs 4 1 [2] i 12 = [.dma 2, .write (99, true), .dma 1] ∧ samePopped 4 1 [2] i word 12 = [11, 12, 20] ∧
    sameWire 4 1 [2] i 13 = [(11, false), (12, true), (99, true), (20, true)] := by
  intro mk word deq i
  refine ⟨?_, ?_, by decide, by decide, by decide⟩
  · intro t n h
    simp only [i, mk] at h
    split at h
    · cases h; decide
    · split at h
      · cases h; decide
      · cases h
  · intro t
    show (closed (Same.step true 4 [1, 2]) deq Same.init mk word (t + 1)).2 = _
    simp only [sameDeq, sameAt, i, closed_traj]
    rfl

/-- Non-vacuity of `c68_not_two`: a request for FIFO 2 is at the head from the start. -/
example :
    let i : ℕ → SIn := fun _ => ⟨some (2, 3), fun _ => false, fun _ => 7, true, some (99, false)⟩
    1 ∉ [2] ∧ Sizes 4 1 i ∧ Reads (sameDeq 4 1 [2] i) (fun t => (i t).rdata 1) (fun _ => 7) ∧
    (∀ t ≥ 0, (i t).req = some (2, 3)) ∧ (sameAt 4 1 [2] i 0).wr = false := by
  refine ⟨by decide, fun t n h => ?_, fun t => ?_, fun _ _ => rfl, rfl⟩
  · simp at h
  · show 7 = if _ then 7 else 7
    split <;> rfl

/-- Non-vacuity of `c68_not_zero` and `c68_not_async`: the state after reset. -/
example : Same.init.state = 0 ∧ Same.init.busy = false ∧ Same.init.wr = false ∧ Same.init.rvalid 1 = false ∧
    Same.init.rep 1 = false ∧ 0 < 2 ∧ 2 < 2 ^ 4 ∧
    collect (fun t => (traj (Same.step false 4 [1]) Same.init
      (fun _ => ⟨some (1, 2), fun _ => false, fun _ => 7, true, none⟩) t).out.beat true) 9 =
      [(7, false), (7, false)] := by decide

/-- Non-vacuity of `c68_same_fifo`: any request and consumer, any words written. -/
example (valid : ℕ → Bool) (word : ℕ → ℕ) (req : ℕ → Option (ℕ × ℕ)) (tready : ℕ → Bool) :
    ∃ (i : ℕ → SIn) (sys : ℕ → ThreadFifo.Sys ℕ), StreamIn.Attached 3 valid word (sameDeq 4 1 [2] i) sys ∧
      (∀ t, (i t).empty 1 = !ThreadFifo.rready 3 (sys t)) ∧ (∀ t, (i t).rdata 1 = (sys t).fifo.rdata) ∧
      (∀ t, (i t).req = req t) := by
  let inp : ℕ → ThreadFifo.Sys ℕ → SIn := fun t s =>
    ⟨req t, fun _ => !ThreadFifo.rready 3 s, fun _ => s.fifo.rdata, tready t, none⟩
  let sys2 : ℕ → Same × ThreadFifo.Sys ℕ := fun t => Nat.rec (Same.init, ThreadFifo.init (fun _ => 0) 0)
    (fun t p => (p.1.step true 4 [1, 2] (inp t p.2),
      ThreadFifo.step 3 p.2 ⟨valid t, word t, p.1.deq [1, 2] (inp t p.2) 1⟩)) t
  have e : ∀ t, sameAt 4 1 [2] (fun t => inp t (sys2 t).2) t = (sys2 t).1 := by
    intro t
    induction t with
    | zero => rfl
    | succ t ih =>
      show Same.step true 4 [1, 2] (sameAt 4 1 [2] _ t) _ = _
      rw [ih]
  refine ⟨fun t => inp t (sys2 t).2, fun t => (sys2 t).2, ⟨⟨_, _, rfl⟩, fun t => ?_⟩, fun _ => rfl, fun _ => rfl,
    fun _ => rfl⟩
  rw [sameDeq, e]

/-- Non-vacuity of `c68_write_fence`: a beat is waiting, and the consumer is slow. -/
example : (traj (Fence.step (5, true)) ⟨0, ⟨true, 3, false⟩⟩ (fun t => t % 3 == 2) 6).pc = 3 := by decide

/-- Non-vacuity of `c68_narrow` and `c68_narrow_progress`: FIFO words of 16 bits on a stream of 8 bits; transfers of
2 words and 1 word. -/
example :
    let mk : ℕ → ℕ → FIn := fun t r => ⟨if t < 2 then some 2 else some 1, t == 3, r, t ≠ 4⟩
    let word := fun t => 256 * t + 7
    let i := fun t => mk t (closed (Narrow.step 4 2 8) (Narrow.deq 2) Narrow.init mk word t).2
    (∀ t n, (i t).req = some n → 0 < n ∧ n < 2 ^ 4) ∧
    Reads (narrowDeq 4 2 8 i) (fun t => (i t).rdata) word ∧ narrowReqs 4 2 8 i 11 = [2, 1] ∧
    narrowPopped 4 2 8 i word 11 = [256 + 7, 256 * 5 + 7, 256 * 9 + 7] ∧
    narrowWire 4 2 8 i 13 = [(7, false), (1, false), (7, false), (5, true), (7, false), (9, true)] := by
  intro mk word i
  refine ⟨?_, ?_, by decide, by decide, by decide⟩
  · intro t n h
    simp only [i, mk] at h
    split at h <;> cases h <;> decide
  · intro t
    show (closed (Narrow.step 4 2 8) (Narrow.deq 2) Narrow.init mk word (t + 1)).2 = _
    simp only [narrowDeq, narrowAt, i, closed_traj]
    rfl

/-- Non-vacuity of `c68_wide`, `c68_wide_progress` and `c68_not_size`: FIFO words of 8 bits on a stream of 16 bits;
transfers of 4 words and 1 word, of which the second takes 2 words. -/
example :
    let mk : ℕ → ℕ → FIn := fun t r => ⟨if t < 2 then some 4 else some 1, t == 3, r, t ≠ 5⟩
    let word := fun t => t % 200 + 10
    let i := fun t => mk t (closed (Wide.step 4 2 8) Wide.deq Wide.init mk word t).2
    (∀ t n, (i t).req = some n → 0 < n ∧ up 2 n * 2 < 2 ^ 4) ∧ (∀ t, word t < 2 ^ 8) ∧
    Reads (wideDeq 4 2 8 i) (fun t => (i t).rdata) word ∧ wideReqs 4 2 8 i 11 = [4, 1] ∧
    widePopped 4 2 8 i word 11 = [11, 12, 14, 15, 18, 19] ∧ (wideAt 4 2 8 i 11).on = false ∧ ¬ 2 ∣ 1 ∧
    wideWire 4 2 8 i 13 = [(12 * 256 + 11, false), (15 * 256 + 14, true), (19 * 256 + 18, true)] := by
  intro mk word i
  refine ⟨?_, ?_, ?_, by decide, by decide, by decide, by decide, by decide⟩
  · intro t n h
    simp only [i, mk] at h
    split at h <;> cases h <;> decide
  · intro t
    have := Nat.mod_lt t (show 200 > 0 by decide)
    show t % 200 + 10 < 256
    omega
  · intro t
    show (closed (Wide.step 4 2 8) Wide.deq Wide.init mk word (t + 1)).2 = _
    simp only [wideDeq, wideAt, i, closed_traj]
    rfl

/-- Non-vacuity of `c68_ram`: a burst of 3 words with stride 2, a slow consumer, and a beat waiting before. -/
example : ∃ (σ : ℕ → Ram) (i : ℕ → RIn) (s : ℕ → Burst.RState ℕ),
    ((σ 0).state = 2 ∧ (σ 0).busy = true ∧ (σ 0).sel = 1) ∧ (∀ t, σ (t + 1) = (σ t).step 4 [1] (i t)) ∧
    (∀ t, (i t).rvalid 1 = (s t).rvalid ∧ (i t).rlast 1 = (s t).rlast ∧ (i t).rdata 1 = (s t).rdata) ∧
    Dma.RamRun 4 (fun a => 100 + a) 3 2 3 s (fun t => (σ t).out.ready (i t).tready) ∧
    (∀ u < 6, (σ u).state = 2) ∧ (σ 6).state = 0 ∧
    collect (fun t => (σ t).out.beat (i t).tready) 10 = [(9, true), (103, false), (105, false), (107, true)] := by
  let inp : ℕ → Burst.RState ℕ → RIn := fun t s =>
    ⟨none, fun _ => s.rvalid, fun _ => s.rlast, fun _ => s.rdata, t % 2 == 1⟩
  let sys : ℕ → Ram × Burst.RState ℕ := fun t => Nat.rec
    (⟨2, true, 1, 3, ⟨true, 9, true⟩⟩, Burst.rstep 4 (fun a => 100 + a) (Burst.rinit 0) ⟨true, 3, 2, 3, false, false⟩)
    (fun t p => (p.1.step 4 [1] (inp t p.2),
      Burst.rstep 4 (fun a => 100 + a) p.2 ⟨false, 0, 0, 0, p.1.out.ready (t % 2 == 1), false⟩)) t
  exact ⟨fun t => (sys t).1, fun t => inp t (sys t).2, fun t => (sys t).2, ⟨rfl, rfl, rfl⟩, fun _ => rfl,
    fun _ => ⟨rfl, rfl, rfl⟩, ⟨⟨Burst.rinit 0, false, rfl, rfl⟩, fun _ => rfl⟩, by decide, by decide, by decide⟩

/-- Non-vacuity of `c68_ram_start`: the state after reset. -/
example : Ram.init.state = 0 ∧ Ram.init.busy = false := by decide

/-- Non-vacuity of `c68_not_zero_ram`. -/
example : ∃ (σ : ℕ → Ram) (i : ℕ → RIn) (s : ℕ → Burst.RState ℕ),
    ((σ 0).state = 2 ∧ (σ 0).busy = true ∧ (σ 0).sel = 1) ∧ (∀ t, σ (t + 1) = (σ t).step 4 [1] (i t)) ∧
    (∀ t, (i t).rvalid 1 = (s t).rvalid) ∧
    s 0 = Burst.rstep 4 (fun a => 100 + a) (Burst.rinit 0) ⟨true, 3, 1, 0, false, false⟩ ∧
    (∀ t, s (t + 1) = Burst.rstep 4 (fun a => 100 + a) (s t) ⟨(σ (t + 1)).burst [1] 1, 3, 1, (σ (t + 1)).size,
      (σ t).out.ready (i t).tready, false⟩) := by
  let inp : ℕ → Burst.RState ℕ → RIn := fun _ s =>
    ⟨some (1, 2), fun _ => s.rvalid, fun _ => s.rlast, fun _ => s.rdata, true⟩
  let sys : ℕ → Ram × Burst.RState ℕ := fun t => Nat.rec
    (⟨2, true, 1, 0, Out.init⟩, Burst.rstep 4 (fun a => 100 + a) (Burst.rinit 0) ⟨true, 3, 1, 0, false, false⟩)
    (fun t p => (p.1.step 4 [1] (inp t p.2), Burst.rstep 4 (fun a => 100 + a) p.2
      ⟨(p.1.step 4 [1] (inp t p.2)).burst [1] 1, 3, 1, (p.1.step 4 [1] (inp t p.2)).size, p.1.out.ready true, false⟩)) t
  exact ⟨fun t => (sys t).1, fun t => inp t (sys t).2, fun t => (sys t).2, ⟨rfl, rfl, rfl⟩, fun _ => rfl,
    fun _ => rfl, rfl, fun _ => rfl⟩

/-- Non-vacuity of `c68_not_two_rams`: the first RAM gives its words in cycles 3 and 4; they are sent, and the
interface is still busy in cycle 9. -/
example :
    let i : ℕ → RIn := fun t => ⟨some (1, 2), fun op => op == 1 && (t == 3 || t == 4), fun _ => t == 4, fun _ => 40 + t, true⟩
    let σ := traj (Ram.step 4 [1, 2]) Ram.init i
    (σ 0).state = 0 ∧ (σ 0).busy = false ∧ (i 0).req = some (1, 2) ∧ (i 2).rvalid 1 = false ∧ (σ 9).busy = true ∧
    collect (fun t => (σ t).out.beat true) 10 = [(43, false), (44, true)] := by decide

end StreamOut
