import Verif.Model.AxiPull

/-!
# C106: an AXI slave reports every request once
-/

namespace AxiPull

variable (n : Nat) (kind : Nat → Kind) (i : Nat → In)

/-- A write address is transferred on the bus in cycle `t`. -/
def WriteAt (t : Nat) : Prop :=
  (i t).awvalid = true ∧ awready n kind (run n kind i t) (i t) = true

/-- A read address is transferred on the bus in cycle `t`. -/
def ReadAt (t : Nat) : Prop :=
  (i t).arvalid = true ∧ arready n kind (run n kind i t) (i t) = true

theorem awready_iff (s : St) (x : In) : awready n kind s x = true ↔
    ∃ k < n, kind k ≠ .read ∧ x.cond k = true ∧ (s.call k).wv = false ∧
      (kind k = .both → (s.call k).rv = false) ∧ s.bvalid = false ∧ s.prevAw = true := by
  simp only [awready, List.any_eq_true, List.mem_range]
  constructor
  · rintro ⟨k, hk, h⟩
    refine ⟨k, hk, ?_⟩
    cases hkk : kind k <;> simp_all [writeVal]
  · rintro ⟨k, hk, h⟩
    refine ⟨k, hk, ?_⟩
    cases hkk : kind k <;> simp_all [writeVal]

theorem arready_iff (s : St) (x : In) : arready n kind s x = true ↔
    ∃ k < n, kind k ≠ .write ∧ x.cond k = true ∧ (s.call k).rv = false ∧
      (kind k = .both → (s.call k).wv = false ∧ s.prevAw = false) ∧ s.prevAr = true := by
  simp only [arready, List.any_eq_true, List.mem_range]
  constructor
  · rintro ⟨k, hk, h⟩
    refine ⟨k, hk, ?_⟩
    cases hkk : kind k <;> simp_all [readVal]
  · rintro ⟨k, hk, h⟩
    refine ⟨k, hk, ?_⟩
    cases hkk : kind k <;> simp_all [readVal]

/-- The acknowledgement of the write channel is the transfer: the slave is not ready while a
    response is pending. -/
theorem wack_iff (t : Nat) : (awready n kind (run n kind i t) (i t) && (i t).awvalid &&
    !(run n kind i t).bvalid) = true ↔ WriteAt n kind i t := by
  simp only [WriteAt, Bool.and_eq_true, Bool.not_eq_true']
  constructor
  · rintro ⟨⟨h1, h2⟩, _⟩
    exact ⟨h2, h1⟩
  · rintro ⟨h2, h1⟩
    obtain ⟨k, _, _, _, _, _, hb, _⟩ := (awready_iff n kind _ _).mp h1
    exact ⟨⟨h1, h2⟩, hb⟩

theorem rack_iff (t : Nat) : (arready n kind (run n kind i t) (i t) && (i t).arvalid) = true ↔
    ReadAt n kind i t := by
  simp only [ReadAt, Bool.and_eq_true]
  exact and_comm

/-- **C106 (writes).**  A call of `pull_write_request` or `pull_request` reports a write exactly in
    the cycle after a transfer of a write address, with its address and its number of beats,
    whatever the other calls on the slave are. -/
theorem c106_write (k t : Nat) (hk : kind k ≠ .read) :
    ((((run n kind i (t + 1)).call k).wv = true) ↔ WriteAt n kind i t) ∧
    (WriteAt n kind i t → ((run n kind i (t + 1)).call k).addr = (i t).awaddr ∧
      ((i t).awlen < 256 → ((run n kind i (t + 1)).call k).length = (i t).awlen + 1)) := by
  simp only [run, step]
  by_cases h : WriteAt n kind i t
  · rw [(wack_iff n kind i t).mpr h]
    refine ⟨?_, fun _ => ⟨?_, fun hl => ?_⟩⟩
    · cases hkk : kind k <;> simp_all [nextCall]
    · cases hkk : kind k <;> simp_all [nextCall]
    · have : ((i t).awlen + 1) % 2 ^ 9 = (i t).awlen + 1 := Nat.mod_eq_of_lt (by omega)
      cases hkk : kind k <;> simp_all [nextCall]
  · have h' := Bool.eq_false_iff.mpr (fun h' => h ((wack_iff n kind i t).mp h'))
    rw [h']
    refine ⟨?_, fun h' => absurd h' h⟩
    cases hkk : kind k with
    | write => simp [nextCall, h]
    | read => exact absurd hkk hk
    | both =>
      simp only [nextCall, h, iff_false, Bool.false_eq_true, if_false]
      split <;> simp

/-- **C106 (reads).**  A call of `pull_read_request` reports a read exactly in the cycle after a
    transfer of a read address, with its address and its number of beats; a call of `pull_request`
    does so unless a write address is transferred in the same cycle. -/
theorem c106_read (k t : Nat) (hk : kind k ≠ .write) :
    ((((run n kind i (t + 1)).call k).rv = true) ↔
      ReadAt n kind i t ∧ (kind k = .both → ¬ WriteAt n kind i t)) ∧
    (ReadAt n kind i t → (kind k = .both → ¬ WriteAt n kind i t) →
      ((run n kind i (t + 1)).call k).addr = (i t).araddr ∧
      ((i t).arlen < 256 → ((run n kind i (t + 1)).call k).length = (i t).arlen + 1)) := by
  simp only [run, step]
  have hlen : (i t).arlen < 256 → ((i t).arlen + 1) % 2 ^ 9 = (i t).arlen + 1 := fun hl =>
    Nat.mod_eq_of_lt (by omega)
  have hw := wack_iff n kind i t
  have hr := rack_iff n kind i t
  revert hw hr
  generalize (awready n kind (run n kind i t) (i t) && (i t).awvalid &&
    !(run n kind i t).bvalid) = w
  generalize (arready n kind (run n kind i t) (i t) && (i t).arvalid) = r
  intro hw hr
  rw [← hw, ← hr]
  cases hkk : kind k with
  | write => exact absurd hkk hk
  | read =>
    cases r
    · simp [nextCall]
    · refine ⟨by simp [nextCall], fun _ _ => ⟨by simp [nextCall], fun hl => ?_⟩⟩
      simpa [nextCall] using hlen hl
  | both =>
    cases w
    · cases r
      · simp [nextCall]
      · refine ⟨by simp [nextCall], fun _ _ => ⟨by simp [nextCall], fun hl => ?_⟩⟩
        simpa [nextCall] using hlen hl
    · simp [nextCall]

/-- **C106 (reset).**  No request is reported at first, and none of the wrong kind ever. -/
theorem c106_quiet (k t : Nat) :
    ((run n kind i 0).call k).wv = false ∧ ((run n kind i 0).call k).rv = false ∧
    (kind k = .read → ((run n kind i t).call k).wv = false) ∧
    (kind k = .write → ((run n kind i t).call k).rv = false) ∧
    ¬ (((run n kind i t).call k).wv = true ∧ ((run n kind i t).call k).rv = true) := by
  refine ⟨rfl, rfl, ?_⟩
  cases t with
  | zero => simp [run, init]
  | succ t =>
    simp only [run, step]
    cases hkk : kind k <;> simp only [nextCall] <;> (repeat' split) <;> simp

/-- **C106 (kept).**  The address and the length reported stay until the next transfer. -/
theorem c106_kept (k t : Nat) (hw : ¬ WriteAt n kind i t) (hr : ¬ ReadAt n kind i t) :
    ((run n kind i (t + 1)).call k).addr = ((run n kind i t).call k).addr ∧
    ((run n kind i (t + 1)).call k).length = ((run n kind i t).call k).length := by
  have hw' := Bool.eq_false_iff.mpr (fun h' => hw ((wack_iff n kind i t).mp h'))
  have hr' := Bool.eq_false_iff.mpr (fun h' => hr ((rack_iff n kind i t).mp h'))
  simp only [run, step, hw', hr']
  cases hkk : kind k <;> simp [nextCall]

/-- **C106 (pace).**  An address is transferred only if it was offered in the cycle before as well,
    a write address only while no response is pending; no channel transfers two addresses in
    consecutive cycles. -/
theorem c106_pace (t : Nat) :
    ¬ WriteAt n kind i 0 ∧ ¬ ReadAt n kind i 0 ∧
    (WriteAt n kind i t → (run n kind i t).bvalid = false) ∧
    (WriteAt n kind i (t + 1) → (i t).awvalid = true ∧ ¬ WriteAt n kind i t) ∧
    (ReadAt n kind i (t + 1) → (i t).arvalid = true ∧ ¬ ReadAt n kind i t) := by
  refine ⟨?_, ?_, ?_, ?_, ?_⟩
  · rintro ⟨_, h⟩
    obtain ⟨_, _, _, _, _, _, _, h⟩ := (awready_iff n kind _ _).mp h
    exact absurd h (by simp [run, init])
  · rintro ⟨_, h⟩
    obtain ⟨_, _, _, _, _, _, h⟩ := (arready_iff n kind _ _).mp h
    exact absurd h (by simp [run, init])
  · rintro ⟨_, h⟩
    obtain ⟨_, _, _, _, _, _, h, _⟩ := (awready_iff n kind _ _).mp h
    exact h
  · rintro ⟨_, h⟩
    obtain ⟨k, _, hk, _, hv, _, _, hp⟩ := (awready_iff n kind _ _).mp h
    refine ⟨by simpa [run, step] using hp, fun hw => ?_⟩
    rw [((c106_write n kind i k t hk).1).mpr hw] at hv
    exact absurd hv (by simp)
  · rintro ⟨_, h⟩
    obtain ⟨k, _, hk, _, hv, hb, hp⟩ := (arready_iff n kind _ _).mp h
    refine ⟨by simpa [run, step] using hp, fun hr => ?_⟩
    by_cases hc : kind k = .both → ¬ WriteAt n kind i t
    · rw [((c106_read n kind i k t hk).1).mpr ⟨hr, hc⟩] at hv
      exact absurd hv (by simp)
    · have hkb : kind k = .both := Classical.byContradiction fun h => hc fun h' => absurd h' h
      have hw : WriteAt n kind i t := Classical.byContradiction fun h => hc fun _ => h
      have := (hb hkb).1
      rw [((c106_write n kind i k t (by rw [hkb]; decide)).1).mpr hw] at this
      exact absurd this (by simp)

/-- **C106 (exclusive).**  If all calls are of `pull_request`, a write and a read address are never
    transferred in the same cycle, so every read is reported. -/
theorem c106_exclusive (h : ∀ k < n, kind k = .both) (t : Nat) :
    ¬ (WriteAt n kind i t ∧ ReadAt n kind i t) := by
  rintro ⟨⟨_, hw⟩, ⟨_, hr⟩⟩
  obtain ⟨_, _, _, _, _, _, _, hp⟩ := (awready_iff n kind _ _).mp hw
  obtain ⟨k, hk, _, _, _, hb, _⟩ := (arready_iff n kind _ _).mp hr
  rw [(hb (h k hk)).2] at hp
  exact absurd hp (by simp)

/-- **C106 (progress).**  A write address offered for three cycles is transferred in the second or the
    third if in the third the call waits for it and no response is pending; a read address offered
    for two cycles is transferred in one of them if the call waits in the second, for `pull_request`
    if no write address was offered in the first. -/
theorem c106_progress (k t : Nat) (hk : k < n) (hc' : (i (t + 2)).cond k = true) (h : kind k = .both → ∀ k < n, kind k = .both) :
    (kind k ≠ .read → (i t).awvalid = true → (i (t + 1)).awvalid = true →
      (i (t + 2)).awvalid = true → (run n kind i (t + 2)).bvalid = false →
      WriteAt n kind i (t + 1) ∨ WriteAt n kind i (t + 2)) ∧
    (kind k ≠ .write → (i (t + 1)).arvalid = true → (i (t + 2)).arvalid = true →
      (kind k = .both → (i (t + 1)).awvalid = false) →
      ReadAt n kind i (t + 1) ∨ ReadAt n kind i (t + 2)) := by
  constructor
  · intro hkr h0 h1 h2 hb2
    by_cases hw : WriteAt n kind i (t + 1)
    · exact .inl hw
    · refine .inr ⟨h2, (awready_iff n kind _ _).mpr ⟨k, hk, hkr, hc', ?_, ?_, hb2, ?_⟩⟩
      · exact Bool.eq_false_iff.mpr fun h' => hw ((c106_write n kind i k (t + 1) hkr).1.mp h')
      · intro hkb
        refine Bool.eq_false_iff.mpr fun h' => ?_
        have hr := ((c106_read n kind i k (t + 1) (by rw [hkb]; decide)).1.mp h').1
        obtain ⟨_, hr⟩ := hr
        obtain ⟨j, hj, _, _, _, hb, _⟩ := (arready_iff n kind _ _).mp hr
        have := (hb (h hkb j hj)).2
        simp [run, step, h0] at this
      · simpa [run, step] using h1
  · intro hkw h1 h2 hn
    by_cases hr : ReadAt n kind i (t + 1)
    · exact .inl hr
    · refine .inr ⟨h2, (arready_iff n kind _ _).mpr ⟨k, hk, hkw, hc', ?_, ?_, ?_⟩⟩
      · exact Bool.eq_false_iff.mpr fun h' => hr ((c106_read n kind i k (t + 1) hkw).1.mp h').1
      · intro hkb
        refine ⟨Bool.eq_false_iff.mpr fun h' => ?_, by simpa [run, step] using (hn hkb)⟩
        have hw := (c106_write n kind i k (t + 1) (by rw [hkb]; decide)).1.mp h'
        have := (hn hkb)
        rw [hw.1] at this
        exact absurd this (by simp)
      · simpa [run, step] using h1

/-- **C106 (response).**  A response is pending exactly from the cycle after the last write data
    until the cycle in which it is taken. -/
theorem c106_response (t : Nat) : (run n kind i 0).bvalid = false ∧
    ((run n kind i (t + 1)).bvalid = true ↔
      ((i t).wvalid = true ∧ (i t).wready = true ∧ (i t).wlast = true) ∨
      ((run n kind i t).bvalid = true ∧ (i t).bready = false)) := by
  refine ⟨rfl, ?_⟩
  simp only [run, step]
  cases (i t).wvalid <;> cases (i t).wready <;> cases (i t).wlast <;>
    cases (run n kind i t).bvalid <;> cases (i t).bready <;> simp

/-- **C106 (identifiers).**  From the cycle after a transfer until the next transfer on the channel
    the identifier of the response, or of the read data, is that of the transfer. -/
theorem c106_ids (t d : Nat) :
    (WriteAt n kind i t → (∀ e, t < e → e ≤ t + d → ¬ WriteAt n kind i e) →
      (run n kind i (t + d + 1)).bid = (i t).awid) ∧
    (ReadAt n kind i t → (∀ e, t < e → e ≤ t + d → ¬ ReadAt n kind i e) →
      (run n kind i (t + d + 1)).rid = (i t).arid) := by
  have hb : ∀ e, ((i e).awvalid && awready n kind (run n kind i e) (i e) &&
      !(run n kind i e).bvalid) = true ↔ WriteAt n kind i e := by
    intro e
    rw [← wack_iff]
    simp only [Bool.and_eq_true]
    constructor
    · rintro ⟨⟨a, b⟩, c⟩
      exact ⟨⟨b, a⟩, c⟩
    · rintro ⟨⟨a, b⟩, c⟩
      exact ⟨⟨b, a⟩, c⟩
  have hr : ∀ e, ((i e).arvalid && arready n kind (run n kind i e) (i e)) = true ↔
      ReadAt n kind i e := by
    intro e
    simp only [ReadAt, Bool.and_eq_true]
  constructor
  · intro h hn
    induction d with
    | zero => simp only [run, step]; rw [if_pos ((hb t).mpr h)]
    | succ d ih =>
      have h0 := hn (t + (d + 1)) (by omega) (by omega)
      rw [show run n kind i (t + (d + 1) + 1) =
        step n kind (run n kind i (t + (d + 1))) (i (t + (d + 1))) from rfl]
      simp only [step]
      rw [if_neg fun h' => h0 ((hb _).mp h')]
      exact ih fun e h1 h2 => hn e h1 (by omega)
  · intro h hn
    induction d with
    | zero => simp only [run, step]; rw [if_pos ((hr t).mpr h)]
    | succ d ih =>
      have h0 := hn (t + (d + 1)) (by omega) (by omega)
      rw [show run n kind i (t + (d + 1) + 1) =
        step n kind (run n kind i (t + (d + 1))) (i (t + (d + 1))) from rfl]
      simp only [step]
      rw [if_neg fun h' => h0 ((hr _).mp h')]
      exact ih fun e h1 h2 => hn e h1 (by omega)

/-- **C106 (disagreement, fairness).**  If all calls are of `pull_request`, no read address is
    transferred in the cycle after a write address was offered: as long as the master offers write
    addresses, reads wait, even if no write address is accepted. -/
theorem c106_not_fair (h : ∀ k < n, kind k = .both) (t : Nat) (hw : (i t).awvalid = true) :
    ¬ ReadAt n kind i (t + 1) := by
  rintro ⟨_, hr⟩
  obtain ⟨k, hk, _, _, _, hb, _⟩ := (arready_iff n kind _ _).mp hr
  have := (hb (h k hk)).2
  simp [run, step, hw] at this

/-- **C106 (disagreement, several calls).**  A write accepted for one call is reported by every other
    call for writes, though its own condition does not hold. -/
theorem c106_not_private (j k t : Nat) (hj : kind j ≠ .read) (hk : kind k ≠ .read)
    (h : ((run n kind i (t + 1)).call j).wv = true) (_hc : (i t).cond k = false) :
    ((run n kind i (t + 1)).call k).wv = true :=
  (c106_write n kind i k t hk).1.mpr ((c106_write n kind i j t hj).1.mp h)

/-- **C106 (disagreement, mixed calls).**  A call of `pull_request` does not report a read whose
    address is transferred together with a write address, which `pull_read_request` on the same
    slave allows. -/
theorem c106_not_mixed (k t : Nat) (hk : kind k = .both) (hw : WriteAt n kind i t)
    (_hr : ReadAt n kind i t) : ((run n kind i (t + 1)).call k).rv = false :=
  Bool.eq_false_iff.mpr fun h =>
    ((c106_read n kind i k t (by rw [hk]; decide)).1.mp h).2 hk hw

/-- Inputs for the examples: a write address 64 with 4 beats offered in cycles 1 and 2, a read
    address from cycle 1; only the first call waits. -/
private def i0 (t : Nat) : In :=
  ⟨t == 1 || t == 2, 64, 3, 5, decide (1 ≤ t), 128, 0, 6, false, false, false, true, fun k => k == 0⟩

-- one call of `pull_request`: the write in cycle 2, the read in cycle 4
example : (awready 1 (fun _ => .both) (run 1 (fun _ => .both) i0 2) (i0 2) = true ∧
    (run 1 (fun _ => .both) i0 3).call 0 = ⟨64, 4, true, false⟩ ∧
    (run 1 (fun _ => .both) i0 5).call 0 = ⟨128, 1, false, true⟩ ∧
    (run 1 (fun _ => .both) i0 5).bid = 5) := by decide

-- two calls of `pull_write_request`: the second, which does not wait, reports the write as well
example : ((i0 2).cond 1 = false ∧ (run 2 (fun _ => .write) i0 3).call 0 = ⟨64, 4, true, false⟩ ∧
    (run 2 (fun _ => .write) i0 3).call 1 = ⟨64, 4, true, false⟩) := by decide

-- `pull_read_request` and `pull_request`: both addresses in cycle 2, the read is lost for the second
example : WriteAt 2 (fun k => if k = 0 then .both else .read)
      (fun t => { i0 t with cond := fun _ => true }) 2 ∧
    ReadAt 2 (fun k => if k = 0 then .both else .read)
      (fun t => { i0 t with cond := fun _ => true }) 2 := by
  unfold WriteAt ReadAt
  decide

-- no read in cycles 2 and 3, though its address is offered
example : (i0 1).awvalid = true ∧ (i0 2).arvalid = true ∧
    arready 1 (fun _ => .both) (run 1 (fun _ => .both) i0 2) (i0 2) = false := by decide

end AxiPull
