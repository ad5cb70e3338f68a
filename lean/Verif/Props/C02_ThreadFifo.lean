import Verif.Model.ThreadFifo
import Verif.Props.C01_Fifo

/-!
# C02: occupancy counter and flow control of the thread FIFO
-/

namespace ThreadFifo
open Fifo (State In flags Rep accepted delivered)
variable {α : Type}

def rawRun (aw : Nat) (s : Sys α) (ins : List (In α)) : Sys α := ins.foldl (rawStep aw) s

/-- The FIFO inputs produced by a trace of `enq_rtl`/`deq_rtl` requests. -/
def trace (aw : Nat) (s : Sys α) : List (Req α) → List (In α)
  | [] => []
  | r :: rs => wires aw s r :: trace aw (step aw s r) rs

def run (aw : Nat) (s : Sys α) (rs : List (Req α)) : Sys α := rs.foldl (step aw) s

/-- Number of words a queue of capacity `2^aw-1` holds: defined from the observable
acceptance and delivery of words only. -/
def occupancy (aw : Nat) (s : State α) (ins : List (In α)) : Nat :=
  (accepted aw s ins).length - (delivered aw s ins).length

theorem fifo_rawRun (aw : Nat) (s : Sys α) (ins : List (In α)) :
    (rawRun aw s ins).fifo = Fifo.run aw s.fifo ins := by
  unfold rawRun Fifo.run
  induction ins generalizing s with
  | nil => rfl
  | cons i is ih => simp [ih, rawStep]

theorem count_step {aw : Nat} {s : Sys α} {q : List α} (h : Rep aw s.fifo q)
    (hc : s.count = q.length) (i : In α) :
    ∃ q', Rep aw (rawStep aw s i).fifo q' ∧ (rawStep aw s i).count = q'.length ∧
      q ++ (if i.enq && !(flags aw s.fifo).full then [i.wdata] else []) =
        (if i.deq && !(flags aw s.fifo).empty then [(rawStep aw s i).fifo.rdata] else []) ++ q' := by
  obtain ⟨q', h', he⟩ := Fifo.rep_step h i
  refine ⟨q', h', ?_, he⟩
  have hl := congrArg List.length he
  have h1 := h.len
  have h2 := h'.len
  have hp : 2 ^ (aw + 1) = 2 * 2 ^ aw := by rw [Nat.pow_succ]; omega
  simp only [rawStep, countStep]
  by_cases e : (i.enq && !(flags aw s.fifo).full) = true <;>
    by_cases d : (i.deq && !(flags aw s.fifo).empty) = true <;>
    simp only [e, d, if_true, if_false, Bool.and_self, Bool.and_false, Bool.false_and,
      Bool.true_and, Bool.false_eq_true, List.length_append, List.length_singleton,
      List.length_nil, Bool.and_true] at hl ⊢
  · omega
  · rw [Nat.mod_eq_of_lt (by omega)]; omega
  · rw [hc, show q.length + (2 ^ (aw + 1) - 1) = (q.length - 1) + 2 ^ (aw + 1) by omega,
      Nat.add_mod_right, Nat.mod_eq_of_lt (by omega)]; omega
  · omega

/-- **C02 (counter).** For any address width and any raw enqueue/dequeue signals from reset,
`count` is the number of accepted minus delivered words, never exceeds the capacity, and
`space` is the number of words that can still be stored. -/
theorem c02_count (aw : Nat) (mem : Nat → α) (r0 : α) (ins : List (In α)) :
    let s := rawRun aw (init mem r0) ins
    (accepted aw (Fifo.init mem r0) ins).length =
      (delivered aw (Fifo.init mem r0) ins).length + s.count ∧
    s.count + space aw s = 2 ^ aw - 1 := by
  suffices H : ∀ (ins : List (In α)) (s : Sys α) (q : List α), Rep aw s.fifo q →
      s.count = q.length → ∃ q', Rep aw (rawRun aw s ins).fifo q' ∧
        (rawRun aw s ins).count = q'.length ∧
        q.length + (accepted aw s.fifo ins).length =
          (delivered aw s.fifo ins).length + q'.length by
    obtain ⟨q', h1, h2, h3⟩ := H ins (init mem r0) [] (Fifo.rep_init aw mem r0) rfl
    refine ⟨?_, ?_⟩
    · have : (init mem r0).fifo = Fifo.init mem r0 := rfl
      rw [this] at h3; simp only [List.length_nil] at h3; omega
    · have := h1.len
      simp only [space]; omega
  intro ins
  induction ins with
  | nil => intro s q h hc; exact ⟨q, h, hc, by simp [accepted, delivered]⟩
  | cons i is ih =>
    intro s q h hc
    obtain ⟨q1, h1, hc1, he⟩ := count_step h hc i
    obtain ⟨q', h', hc', he'⟩ := ih _ _ h1 hc1
    refine ⟨q', h', hc', ?_⟩
    have e : (rawStep aw s i).fifo = Fifo.step aw s.fifo i := rfl
    have hl := congrArg List.length he
    simp only [List.length_append] at hl
    rw [e] at he' hl
    simp only [accepted, delivered, List.length_append]
    omega

/-- A reachable FIFO system: what it stores, and the counter. -/
def Good (aw : Nat) (s : Sys α) (q : List α) : Prop := Rep aw s.fifo q ∧ s.count = q.length

theorem good_init (aw : Nat) (mem : Nat → α) (r0 : α) : Good aw (init mem r0) [] :=
  ⟨Fifo.rep_init aw mem r0, rfl⟩

/-- One edge through `enq_rtl`/`deq_rtl`: a word is stored exactly when its `cond` was high
while `ready` was; a word leaves exactly when `dcond` was high while `ready` was. -/
theorem good_step {aw : Nat} {s : Sys α} {q : List α} (h : Good aw s q) (r : Req α) :
    ∃ q', Good aw (step aw s r) q' ∧
      q ++ (if r.cond && wready aw s then [r.wdata] else []) =
        (if r.dcond && rready aw s then [(step aw s r).fifo.rdata] else []) ++ q' := by
  obtain ⟨q', h1, h2, he⟩ := count_step h.1 h.2 (wires aw s r)
  refine ⟨q', ⟨h1, h2⟩, ?_⟩
  have hf := Fifo.flags_eq h.1
  have e1 : ((wires aw s r).enq && !(flags aw s.fifo).full) = (r.cond && wready aw s) := by
    simp only [wires, wready, hf, Fifo.specFlags]
    by_cases hc : q.length = 2 ^ aw - 1
    · simp [hc]
    · simp [hc]
  have e2 : ((wires aw s r).deq && !(flags aw s.fifo).empty) = (r.dcond && rready aw s) := by
    simp only [wires, rready]
    cases r.dcond <;> cases (flags aw s.fifo).empty <;> rfl
  rw [e1, e2] at he
  exact he

/-- Words taken by `enq_rtl`: presented (`cond`) in a cycle in which `ready` was high. -/
def enqueued (aw : Nat) (s : Sys α) : List (Req α) → List α
  | [] => []
  | r :: rs => (if r.cond && wready aw s then [r.wdata] else []) ++ enqueued aw (step aw s r) rs

/-- Words returned by `deq_rtl`: requested (`dcond`) in a cycle in which `ready` was high, the
value being `rdata` of the following cycle, in which the returned `valid` is high. -/
def dequeued (aw : Nat) (s : Sys α) : List (Req α) → List α
  | [] => []
  | r :: rs =>
    (if (step aw s r).rvalid then [(step aw s r).fifo.rdata] else []) ++
      dequeued aw (step aw s r) rs

theorem good_run {aw : Nat} (rs : List (Req α)) {s : Sys α} {q : List α} (h : Good aw s q) :
    ∃ q', Good aw (run aw s rs) q' ∧ q ++ enqueued aw s rs = dequeued aw s rs ++ q' := by
  induction rs generalizing s q with
  | nil => exact ⟨q, h, by simp [enqueued, dequeued]⟩
  | cons r rs ih =>
    obtain ⟨q1, h1, he⟩ := good_step h r
    obtain ⟨q', h', he'⟩ := ih h1
    refine ⟨q', h', ?_⟩
    have e : (step aw s r).rvalid = (r.dcond && rready aw s) := by
      simp only [step, rawStep, wires]
      cases r.dcond <;> cases rready aw s <;> rfl
    simp only [enqueued, dequeued, e]
    rw [← List.append_assoc, he, List.append_assoc, he', List.append_assoc]

/-- **C02 (flow control).** Every word presented through `enq_rtl` while its `ready` was high is
stored, and comes out of `deq_rtl` (data qualified by the returned `valid`) exactly once and in
order; the number still inside is `count`. -/
theorem c02_flow_control (aw : Nat) (mem : Nat → α) (r0 : α) (rs : List (Req α)) :
    ∃ stored : List α,
      enqueued aw (init mem r0) rs = dequeued aw (init mem r0) rs ++ stored ∧
      stored.length = (run aw (init mem r0) rs).count := by
  obtain ⟨q', h, he⟩ := good_run rs (good_init aw mem r0)
  exact ⟨q', by simpa using he, h.2.symm⟩

/-- **C02 (readiness).** `enq_rtl` is ready exactly while at least two more words would fit and
`deq_rtl` exactly while a word is stored; in particular with address width 2 or more an empty
FIFO is ready. -/
theorem c02_ready (aw : Nat) (mem : Nat → α) (r0 : α) (rs : List (Req α)) :
    let s := run aw (init mem r0) rs
    wready aw s = decide (2 ≤ space aw s) ∧ rready aw s = decide (0 < s.count) := by
  intro s
  obtain ⟨q', h, _⟩ := good_run rs (good_init aw mem r0)
  have hf := Fifo.flags_eq h.1
  have hc : s.count = q'.length := h.2
  have hl := h.1.len
  simp only [wready, rready, space, hc]
  have hf' : flags aw s.fifo = Fifo.specFlags (2 ^ aw - 1) q'.length := hf
  simp only [hf', Fifo.specFlags]
  constructor
  · by_cases h1 : 2 ^ aw - 1 ≤ q'.length + 1
    · have : ¬ (2 ≤ 2 ^ aw - 1 - q'.length) := by omega
      simp [h1, this]
    · have : 2 ≤ 2 ^ aw - 1 - q'.length := by omega
      simp [h1, this]
  · by_cases h1 : q'.length = 0
    · simp [h1]
    · have : 0 < q'.length := by omega
      simp [h1, this]

/-- **C02 (`has_space`).** If `has_space(num)` holds then the next `num` words presented in
consecutive cycles are all taken, whatever the reader does. -/
theorem c02_has_space (aw : Nat) (mem : Nat → α) (r0 : α) (rs : List (Req α)) (ws : List (Req α))
    (hw : ∀ r ∈ ws, r.cond = true) (hs : hasSpace aw (run aw (init mem r0) rs) ws.length = true) :
    enqueued aw (run aw (init mem r0) rs) ws = ws.map (·.wdata) := by
  obtain ⟨q, h, hx⟩ := good_run rs (good_init aw mem r0)
  clear hx
  revert h hs
  generalize run aw (init mem r0) rs = s
  intro hs h
  have hlt : ws = [] ∨ q.length + ws.length < 2 ^ aw - 1 := by
    simp only [hasSpace] at hs
    cases ws with
    | nil => exact Or.inl rfl
    | cons w ws => right; simpa [h.2] using hs
  clear hs
  induction ws generalizing s q with
  | nil => rfl
  | cons w ws ih =>
    have hlt' : q.length + (ws.length + 1) < 2 ^ aw - 1 := by simpa using hlt
    have hr : wready aw s = true := by
      simp only [wready, Fifo.flags_eq h.1, Fifo.specFlags]
      have : ¬ (2 ^ aw - 1 ≤ q.length + 1) := by omega
      simp [this]
    obtain ⟨q1, h1, he⟩ := good_step h w
    have hl := congrArg List.length he
    have hwc := hw w (by simp)
    simp only [hwc, hr, Bool.and_self, if_true, List.length_append, List.length_singleton] at hl
    simp only [enqueued, hwc, hr, Bool.and_self, if_true, List.map_cons, List.singleton_append]
    congr 1
    exact ih (fun r hr' => hw r (by simp [hr'])) q1 _ h1 (Or.inr (by omega))

/-! ### The intrinsics

`enqReqs`/`deqReqs` list the `enq_rtl`/`deq_rtl` requests issued while a thread executes an
intrinsic, so that `enqueued`/`dequeued` (above) say which words moved. -/

/-- State after a trace of environment inputs. -/
def opRun {E : Type} (stepf : Op α → E → Op α) (o : Op α) (es : List E) : Op α :=
  es.foldl stepf o

/-- Requests issued while an enqueueing intrinsic runs; the environment supplies `dcond`. -/
def enqReqs (stepf : Op α → Bool → Op α) (w : α) (o : Op α) : List Bool → List (Req α)
  | [] => []
  | d :: ds => ⟨o.pc == 0, w, d⟩ :: enqReqs stepf w (stepf o d) ds

/-- Requests issued while a dequeueing intrinsic runs; the environment supplies `cond`, `wdata`. -/
def deqReqs (stepf : Op α → Bool × α → Op α) (o : Op α) : List (Bool × α) → List (Req α)
  | [] => []
  | e :: es => ⟨e.1, e.2, o.pc == 0⟩ :: deqReqs stepf (stepf o e) es

/-- **C02 (`enq`).** Under any behaviour of the reader: while the thread is still in the state of
`enq w` nothing has been stored on its behalf; once it has left, the word `w` has been stored
exactly once. -/
theorem c02_enq_once (aw : Nat) (s : Sys α) (w g : α) (f : Bool) (ds : List Bool) :
    let o := opRun (enqStep aw w) ⟨s, 0, g, f⟩ ds
    let reqs := enqReqs (enqStep aw w) w ⟨s, 0, g, f⟩ ds
    o.sys = run aw s reqs ∧ enqueued aw s reqs = if o.pc = 0 then [] else [w] := by
  suffices H : ∀ (ds : List Bool) (o : Op α), o.pc = 0 ∨ o.pc = 1 →
      (opRun (enqStep aw w) o ds).sys = run aw o.sys (enqReqs (enqStep aw w) w o ds) ∧
      enqueued aw o.sys (enqReqs (enqStep aw w) w o ds) =
        (if o.pc = 0 ∧ (opRun (enqStep aw w) o ds).pc ≠ 0 then [w] else []) ∧
      (o.pc = 1 → (opRun (enqStep aw w) o ds).pc = 1) by
    obtain ⟨h1, h2, _⟩ := H ds ⟨s, 0, g, f⟩ (Or.inl rfl)
    refine ⟨h1, ?_⟩
    show enqueued aw s _ = _
    rw [show enqueued aw s (enqReqs (enqStep aw w) w ⟨s, 0, g, f⟩ ds) = _ from h2]
    by_cases hp : (opRun (enqStep aw w) ⟨s, 0, g, f⟩ ds).pc = 0 <;> simp [hp]
  intro ds
  induction ds with
  | nil => intro o hp; exact ⟨rfl, by rcases hp with hp | hp <;> simp [enqReqs, enqueued, opRun, hp], id⟩
  | cons d ds ih =>
    intro o hp
    have hpc : (enqStep aw w o d).pc = 0 ∨ (enqStep aw w o d).pc = 1 := by
      simp only [enqStep]; split
      · exact Or.inr rfl
      · exact hp
    obtain ⟨h1, h2, h3⟩ := ih (enqStep aw w o d) hpc
    have e : opRun (enqStep aw w) o (d :: ds) = opRun (enqStep aw w) (enqStep aw w o d) ds := rfl
    rw [e]
    refine ⟨h1, ?_, fun hp' => h3 (by simp [enqStep, hp'])⟩
    have e2 : step aw o.sys ⟨o.pc == 0, w, d⟩ = (enqStep aw w o d).sys := rfl
    simp only [enqReqs, enqueued]
    rw [e2, h2]
    rcases hp with hp | hp
    · by_cases hr : wready aw o.sys = true
      · have hp1 : (enqStep aw w o d).pc = 1 := by simp [enqStep, hp, hr]
        simp [hp, hr, hp1, h3 hp1]
      · have hp1 : (enqStep aw w o d).pc = 0 := by simp [enqStep, hp, hr]
        simp [hp, hr, hp1]
    · have hp1 : (enqStep aw w o d).pc = 1 := by simp [enqStep, hp]
      simp [hp, hp1]

/-- **C02 (`try_enq`).** Two cycles after starting, the returned flag says whether the word was
stored; it was not stored more than once. -/
theorem c02_try_enq (aw : Nat) (s : Sys α) (w g : α) (f : Bool) (d0 d1 : Bool) :
    let o := opRun (tryEnqStep aw w) ⟨s, 0, g, f⟩ [d0, d1]
    let reqs := enqReqs (tryEnqStep aw w) w ⟨s, 0, g, f⟩ [d0, d1]
    o.pc = 2 ∧ o.sys = run aw s reqs ∧ enqueued aw s reqs = if o.flag then [w] else [] := by
  refine ⟨rfl, rfl, ?_⟩
  show (if (true && wready aw s) = true then [w] else []) ++ ([] ++ []) =
    if wready aw s = true then [w] else []
  simp

/-- **C02 (`deq`).** Under any behaviour of the writer: while the thread waits in the first state
nothing has been taken; once it has finished (`pc = 2`), exactly one word was taken and it is the
value returned. In the intermediate state the data is on `rdata` and valid, so the thread leaves
that state in the next cycle. -/
theorem c02_deq_once (aw : Nat) (s : Sys α) (g : α) (f : Bool) (es : List (Bool × α)) :
    let o := opRun (deqStep aw) ⟨s, 0, g, f⟩ es
    let reqs := deqReqs (deqStep aw) ⟨s, 0, g, f⟩ es
    o.sys = run aw s reqs ∧
    dequeued aw s reqs =
      (if o.pc = 0 then [] else if o.pc = 1 then [o.sys.fifo.rdata] else [o.reg]) ∧
    (o.pc = 1 → o.sys.rvalid = true) := by
  suffices H : ∀ (es : List (Bool × α)) (o : Op α), o.pc ≤ 2 →
      (o.pc = 1 → o.sys.rvalid = true) →
      (opRun (deqStep aw) o es).sys = run aw o.sys (deqReqs (deqStep aw) o es) ∧
      (if o.pc = 0 then [] else if o.pc = 1 then [o.sys.fifo.rdata] else [o.reg]) ++
          dequeued aw o.sys (deqReqs (deqStep aw) o es) =
        (if (opRun (deqStep aw) o es).pc = 0 then [] else
          if (opRun (deqStep aw) o es).pc = 1 then [(opRun (deqStep aw) o es).sys.fifo.rdata]
          else [(opRun (deqStep aw) o es).reg]) ∧
      ((opRun (deqStep aw) o es).pc = 1 → (opRun (deqStep aw) o es).sys.rvalid = true) by
    obtain ⟨h1, h2, h3⟩ := H es ⟨s, 0, g, f⟩ (by simp) (by simp)
    exact ⟨h1, by simpa using h2, h3⟩
  intro es
  induction es with
  | nil => intro o _ hv; exact ⟨rfl, by simp [opRun, deqReqs, dequeued]; rfl, hv⟩
  | cons e es ih =>
    intro o hle hv
    have hrv : (deqStep aw o e).sys.rvalid = (o.pc == 0 && rready aw o.sys) := by
      simp only [deqStep, step, rawStep, wires]
      cases o.pc == 0 <;> cases rready aw o.sys <;> rfl
    have hle1 : (deqStep aw o e).pc ≤ 2 := by
      simp only [deqStep]; split
      · omega
      · split <;> omega
    have hcase : o.pc = 0 ∨ o.pc = 1 ∨ o.pc = 2 := by omega
    have hv1 : (deqStep aw o e).pc = 1 → (deqStep aw o e).sys.rvalid = true := by
      intro hp
      rw [hrv]
      rcases hcase with h0 | h0 | h0
      · by_cases hr : rready aw o.sys = true
        · simp [h0, hr]
        · simp [deqStep, h0, hr] at hp
      · simp [deqStep, h0, hv h0] at hp
      · simp [deqStep, h0] at hp
    obtain ⟨h1, h2, h3⟩ := ih (deqStep aw o e) hle1 hv1
    have e1 : opRun (deqStep aw) o (e :: es) = opRun (deqStep aw) (deqStep aw o e) es := rfl
    have e2 : step aw o.sys ⟨e.1, e.2, o.pc == 0⟩ = (deqStep aw o e).sys := rfl
    rw [e1]
    refine ⟨h1, ?_, h3⟩
    simp only [deqReqs, dequeued]
    rw [e2, ← h2, hrv]
    rcases hcase with h0 | h0 | h0
    · by_cases hr : rready aw o.sys = true
      · have hp : (deqStep aw o e).pc = 1 := by simp [deqStep, h0, hr]
        simp [h0, hr, hp]
      · have hp : (deqStep aw o e).pc = 0 := by simp [deqStep, h0, hr]
        simp [h0, hr, hp]
    · have hp : (deqStep aw o e).pc = 2 := by simp [deqStep, h0, hv h0]
      have hg : (deqStep aw o e).reg = o.sys.fifo.rdata := by simp [deqStep, h0, hv h0]
      simp [h0, hp, hg]
    · have hp : (deqStep aw o e).pc = 2 := by simp [deqStep, h0]
      have hg : (deqStep aw o e).reg = o.reg := by simp [deqStep, h0]
      simp [h0, hp, hg]

/-- **C02 (`try_deq`).** Two cycles after starting, the flag says whether a word was taken, and if
so it is the returned value. -/
theorem c02_try_deq (aw : Nat) (s : Sys α) (g : α) (f : Bool) (e0 e1 : Bool × α) :
    let o := opRun (tryDeqStep aw) ⟨s, 0, g, f⟩ [e0, e1]
    let reqs := deqReqs (tryDeqStep aw) ⟨s, 0, g, f⟩ [e0, e1]
    o.pc = 2 ∧ o.sys = run aw s reqs ∧ dequeued aw s reqs = if o.flag then [o.reg] else [] := by
  refine ⟨rfl, rfl, ?_⟩
  show (if (true && rready aw s && rready aw s) = true then
      [(step aw s ⟨e0.1, e0.2, true⟩).fifo.rdata] else []) ++ ([] ++ []) =
    if (true && rready aw s && rready aw s) = true then
      [(step aw s ⟨e0.1, e0.2, true⟩).fifo.rdata] else []
  simp

/-- Non-vacuity: three words through a 2-bit FIFO, with a reader in the last cycles. -/
example :
    let rs : List (Req Nat) := [⟨true, 5, false⟩, ⟨true, 6, false⟩, ⟨true, 7, true⟩, ⟨true, 8, true⟩]
    enqueued 2 (init (fun _ => 0) 0) rs = [5, 6, 8] ∧ dequeued 2 (init (fun _ => 0) 0) rs = [5, 6] ∧
    (run 2 (init (fun _ => 0) 0) rs).count = 1 := by decide
example : hasSpace 3 (run 3 (init (fun _ => 0) 0) [⟨true, 1, false⟩] : Sys Nat) 5 = true := by decide

/-- Disagreement: with address width 1 the ready of `enq_rtl` is never high, so `enq` on such a
FIFO never completes. -/
theorem c02_width_one_never_ready (mem : Nat → α) (r0 : α) (rs : List (Req α)) :
    wready 1 (run 1 (init mem r0) rs) = false := by
  have := (c02_ready 1 mem r0 rs).1
  rw [this]
  simp [space]; omega

end ThreadFifo
