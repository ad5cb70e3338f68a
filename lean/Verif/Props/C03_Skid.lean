import Verif.Model.Skid
import Mathlib.Tactic.Ring

/-!
# C03: skid buffers transfer every beat once and in order
-/

namespace Skid
variable {α : Type}

/-- Beats taken from the producer: valid and ready in the same cycle. -/
def accepted (ss : List (State α)) : List (In α) → List α
  | [] => []
  | i :: is =>
    (if i.sValid && chainReady ss i.mReady then [i.sData] else []) ++ accepted (chainStep ss i) is

/-- Beats handed to the consumer: valid and ready in the same cycle. -/
def delivered (ss : List (State α)) : List (In α) → List α
  | [] => []
  | i :: is =>
    (if (chainOut ss (i.sData, i.sValid)).2 && i.mReady then
      [(chainOut ss (i.sData, i.sValid)).1] else []) ++ delivered (chainStep ss i) is

def run (ss : List (State α)) (ins : List (In α)) : List (State α) := ins.foldl chainStep ss

/-- Beats inside one buffer, oldest first. -/
def held (s : State α) : List α :=
  (if s.mValid then [s.mData] else []) ++ (if s.tmpValid then [s.tmpData] else [])

/-- Beats inside a chain, oldest first. -/
def heldAll : List (State α) → List α
  | [] => []
  | s :: ss => heldAll ss ++ held s

/-- Invariant: the spill register is only used while the main register is. -/
def Ok (s : State α) : Prop := s.tmpValid = true → s.mValid = true

theorem ok_step (s : State α) (i : In α) (h : Ok s) : Ok (step s i) := by
  obtain ⟨md, mv, td, tv⟩ := s
  obtain ⟨sd, sv, mr⟩ := i
  cases mv <;> cases tv <;> cases sv <;> cases mr <;> simp_all [Ok, step, nextValid]

theorem held_step (s : State α) (i : In α) (h : Ok s) :
    held s ++ (if i.sValid && sReady s then [i.sData] else []) =
      (if s.mValid && i.mReady then [s.mData] else []) ++ held (step s i) := by
  obtain ⟨md, mv, td, tv⟩ := s
  obtain ⟨sd, sv, mr⟩ := i
  cases mv <;> cases tv <;> cases sv <;> cases mr <;>
    simp_all [Ok, step, nextValid, nextData, held, sReady]

/-- All buffers of a chain satisfy the invariant. -/
def OkAll (ss : List (State α)) : Prop := ∀ s ∈ ss, Ok s

theorem okAll_step (ss : List (State α)) (i : In α) (h : OkAll ss) : OkAll (chainStep ss i) := by
  induction ss generalizing i with
  | nil => exact h
  | cons s ss ih =>
    intro t ht
    rcases List.mem_cons.mp ht with rfl | ht
    · exact ok_step _ _ (h s (by simp))
    · exact ih _ (fun u hu => h u (by simp [hu])) t ht

theorem heldAll_step (ss : List (State α)) (i : In α) (h : OkAll ss) :
    heldAll ss ++ (if i.sValid && chainReady ss i.mReady then [i.sData] else []) =
      (if (chainOut ss (i.sData, i.sValid)).2 && i.mReady then
        [(chainOut ss (i.sData, i.sValid)).1] else []) ++ heldAll (chainStep ss i) := by
  induction ss generalizing i with
  | nil => simp [heldAll, chainReady, chainOut, chainStep]
  | cons s ss ih =>
    have h1 := held_step s ⟨i.sData, i.sValid, chainReady ss i.mReady⟩ (h s (by simp))
    have h2 := ih ⟨s.mData, s.mValid, i.mReady⟩ (fun u hu => h u (by simp [hu]))
    have e : chainReady (s :: ss) i.mReady = sReady s := rfl
    rw [e]
    simp only [heldAll, chainOut, chainStep] at h2 ⊢
    rw [List.append_assoc]
    simp only at h1 h2
    rw [h1, ← List.append_assoc, h2, List.append_assoc]
    rfl

/-- **C03 (order, no loss, no duplication).** For a chain of any length, after any trace from
reset, the accepted beats are the delivered beats followed by at most two beats per buffer. -/
theorem c03_skid_lossless (z : α) (n : Nat) (ins : List (In α)) :
    ∃ stored : List α,
      accepted (List.replicate n (init z)) ins =
        delivered (List.replicate n (init z)) ins ++ stored ∧ stored.length ≤ 2 * n := by
  suffices H : ∀ (ins : List (In α)) (ss : List (State α)), OkAll ss → ss.length = n →
      ∃ stored, heldAll ss ++ accepted ss ins = delivered ss ins ++ stored ∧
        stored.length ≤ 2 * n by
    obtain ⟨st, h1, h2⟩ := H ins (List.replicate n (init z))
      (fun s hs => by rw [List.eq_of_mem_replicate hs]; simp [Ok, init]) (by simp)
    refine ⟨st, ?_, h2⟩
    have : heldAll (List.replicate n (init z)) = [] := by
      clear h1 h2 H
      induction n with
      | zero => rfl
      | succ n ih => rw [List.replicate_succ, heldAll, ih]; simp [held, init]
    simpa [this] using h1
  intro ins
  induction ins with
  | nil =>
    intro ss _ hl
    refine ⟨heldAll ss, by simp [accepted, delivered], ?_⟩
    subst hl
    induction ss with
    | nil => simp [heldAll]
    | cons s ss ih =>
      have := ih (fun u hu => by rename_i h; exact h u (by simp [hu]))
      have hh : (held s).length ≤ 2 := by
        unfold held; split <;> split <;> simp
      simp only [heldAll, List.length_append, List.length_cons]; omega
  | cons i is ih =>
    intro ss h hl
    have hlen : (chainStep ss i).length = n := by
      rw [← hl]; clear h hl ih
      induction ss generalizing i with
      | nil => rfl
      | cons s ss ihs => simp [chainStep, ihs]
    obtain ⟨st, he, hb⟩ := ih _ (okAll_step ss i h) hlen
    refine ⟨st, ?_, hb⟩
    simp only [accepted, delivered]
    rw [← List.append_assoc, heldAll_step ss i h, List.append_assoc, he, List.append_assoc]

/-- **C03 (stability).** A stalled output beat of a non-empty chain is presented again,
unchanged, in the next cycle, whatever the producer does. -/
theorem c03_skid_stable (ss : List (State α)) (hne : ss ≠ []) (i : In α) (dv : α × Bool)
    (hv : (chainOut ss dv).2 = true) (hr : i.mReady = false) (dv' : α × Bool) :
    chainOut (chainStep ss i) dv' = chainOut ss dv := by
  have key : ∀ (ss : List (State α)) (s : State α) (i : In α) (dv dv' : α × Bool),
      (chainOut (s :: ss) dv).2 = true → i.mReady = false →
      chainOut (chainStep (s :: ss) i) dv' = chainOut (s :: ss) dv := by
    intro ss
    induction ss with
    | nil =>
      intro s i dv dv' hv hr
      simp only [chainOut, chainStep, chainReady] at hv ⊢
      simp [step, hv, hr]
      split <;> exact ⟨rfl, by simp [hv]⟩
    | cons t ts ih =>
      intro s i dv dv' hv hr
      have := ih t ⟨s.mData, s.mValid, i.mReady⟩ (s.mData, s.mValid)
        ((step s ⟨i.sData, i.sValid, chainReady (t :: ts) i.mReady⟩).mData,
          (step s ⟨i.sData, i.sValid, chainReady (t :: ts) i.mReady⟩).mValid) hv hr
      simpa [chainOut, chainStep] using this
  cases ss with
  | nil => exact absurd rfl hne
  | cons s ss => exact key ss s i dv dv' hv hr

/-- **C03 (registered ready).** The ready of a non-empty chain does not depend on the
consumer's ready of the same cycle. -/
theorem c03_skid_ready_registered (ss : List (State α)) (hne : ss ≠ []) (r r' : Bool) :
    chainReady ss r = chainReady ss r' := by
  cases ss with
  | nil => exact absurd rfl hne
  | cons s ss => rfl

/-- **C03 (throughput).** From reset, a consumer that is always ready never causes the
producer to be stalled. -/
theorem c03_skid_full_throughput (z : α) (n : Nat) (ins : List (In α))
    (h : ∀ i ∈ ins, i.mReady = true) :
    chainReady (run (List.replicate n (init z)) ins) true = true := by
  suffices H : ∀ (ins : List (In α)) (ss : List (State α)), (∀ i ∈ ins, i.mReady = true) →
      (∀ s ∈ ss, s.tmpValid = false) → ∀ s ∈ run ss ins, s.tmpValid = false by
    have h2 := H ins (List.replicate n (init z)) h
      (fun s hs => by rw [List.eq_of_mem_replicate hs]; rfl)
    cases hrun : run (List.replicate n (init z)) ins with
    | nil => rfl
    | cons s ss => simp [chainReady, sReady, h2 s (by simp [hrun])]
  intro ins
  induction ins with
  | nil => intro ss _ h; exact h
  | cons i is ih =>
    intro ss hr ht
    refine ih (chainStep ss i) (fun j hj => hr j (by simp [hj])) ?_
    have hi := hr i (by simp)
    clear ih hr
    induction ss generalizing i with
    | nil => simp [chainStep]
    | cons s ss ihs =>
      have hrd : chainReady ss i.mReady = true := by
        cases ss with
        | nil => exact hi
        | cons t ts => simp [chainReady, sReady, ht t (by simp)]
      intro t htm
      rcases List.mem_cons.mp htm with rfl | htm
      · have := ht s (by simp)
        simp only [step, this, hrd]
        split <;> simp_all
      · exact ihs ⟨s.mData, s.mValid, i.mReady⟩ (fun u hu => ht u (by simp [hu])) hi t htm

/-! ### Payload packing -/

theorem pack_lt (fs : List (Nat × Nat)) (h : ∀ f ∈ fs, f.2 < 2 ^ f.1) :
    pack fs < 2 ^ (fs.map Prod.fst).sum := by
  induction fs with
  | nil => simp [pack]
  | cons f fs ih =>
    obtain ⟨w, v⟩ := f
    have h1 : v < 2 ^ w := h (w, v) (by simp)
    have h2 := ih (fun g hg => h g (by simp [hg]))
    simp only [pack, List.map_cons, List.sum_cons, Nat.pow_add]
    calc v * 2 ^ (fs.map Prod.fst).sum + pack fs
        < v * 2 ^ (fs.map Prod.fst).sum + 2 ^ (fs.map Prod.fst).sum := by omega
      _ = (v + 1) * 2 ^ (fs.map Prod.fst).sum := by ring
      _ ≤ 2 ^ w * 2 ^ (fs.map Prod.fst).sum := Nat.mul_le_mul_right _ h1

theorem unpack_add (ws : List Nat) (d k : Nat) :
    unpack ws (k * 2 ^ ws.sum + d) = unpack ws d := by
  induction ws generalizing d k with
  | nil => rfl
  | cons w ws ih =>
    simp only [unpack, List.sum_cons]
    have hs : k * 2 ^ (w + ws.sum) = (k * 2 ^ w) * 2 ^ ws.sum := by rw [Nat.pow_add]; ring
    have e : (if w = 0 ∧ ws.sum = 0 then True else w + ws.sum - 1 + 1 - w = ws.sum) := by
      split
      · trivial
      · omega
    congr 1
    · by_cases h0 : w = 0 ∧ ws.sum = 0
      · obtain ⟨rfl, h0⟩ := h0
        simp [h0]; omega
      · simp only [h0, if_false] at e
        rw [e, show w + ws.sum - 1 + 1 - ws.sum = w by omega, hs]
        rw [Nat.add_comm, Nat.add_mul_div_right _ _ (Nat.two_pow_pos _), Nat.add_mul_mod_self_right]
    · rw [hs]; exact ih d _

/-- **C03 (payload).** Unpacking the packed payload gives back every field, for any list of
field widths (at least one bit each). -/
theorem c03_skid_payload (fs : List (Nat × Nat)) (h : ∀ f ∈ fs, 0 < f.1 ∧ f.2 < 2 ^ f.1) :
    unpack (fs.map Prod.fst) (pack fs) = fs.map Prod.snd := by
  induction fs with
  | nil => rfl
  | cons f fs ih =>
    obtain ⟨w, v⟩ := f
    have h1 := h (w, v) (by simp)
    have h2 := pack_lt fs (fun g hg => (h g (by simp [hg])).2)
    simp only [pack, unpack, List.map_cons, List.sum_cons]
    have h1' : 0 < w := h1.1
    have e1 : w + (fs.map Prod.fst).sum - 1 + 1 - w = (fs.map Prod.fst).sum := by omega
    have e2 : w + (fs.map Prod.fst).sum - 1 + 1 - (fs.map Prod.fst).sum = w := by omega
    rw [e1, e2]
    congr 1
    · rw [Nat.add_comm, Nat.add_mul_div_right _ _ (Nat.two_pow_pos _), Nat.div_eq_of_lt h2,
        Nat.zero_add, Nat.mod_eq_of_lt h1.2]
    · rw [unpack_add]; exact ih (fun g hg => h g (by simp [hg]))

/-- Non-vacuity: two buffers, a stalling consumer; and a three-field payload. -/
example :
    let ins : List (In Nat) :=
      [⟨1, true, false⟩, ⟨2, true, false⟩, ⟨3, true, false⟩, ⟨4, true, false⟩, ⟨5, true, false⟩,
       ⟨5, true, true⟩, ⟨5, true, true⟩, ⟨6, true, true⟩]
    accepted (List.replicate 2 (init 0)) ins = [1, 2, 3, 4, 6] ∧
    delivered (List.replicate 2 (init 0)) ins = [1, 2, 3] := by decide
example : unpack [1, 4, 8] (pack [(1, 1), (4, 9), (8, 200)]) = [1, 9, 200] := by decide
example : (List.replicate 2 (init 0)) ≠ ([] : List (State Nat)) := by decide

end Skid
