import Verif.Model.AxiReg

/-!
# C54: the AXI4-Lite register slave

For every behaviour of the bus master and of the threads.  The phases of the bus are defined by the transfers (valid and
ready in the same cycle) alone.
-/

namespace AxiReg

/-- `x` are the registers of the slave over time from reset on, for the inputs `inp`. -/
structure LiteRun {D : Type} [DecidableEq D] (p : Par) (u z : D) (inp : ℕ → In D) (x : ℕ → Lite D) : Prop where
  init : x 0 = Lite.init z
  step : ∀ t, x (t + 1) = (x t).step p u (inp t)

section
variable {D : Type} [DecidableEq D] {p : Par} {u z : D} {inp : ℕ → In D} {x : ℕ → Lite D}

/-- A write address is transferred in cycle `t`. -/
def AW (inp : ℕ → In D) (x : ℕ → Lite D) (t : ℕ) : Bool := (inp t).awvalid && (x t).awready
/-- Write data is transferred in cycle `t`. -/
def WD (inp : ℕ → In D) (x : ℕ → Lite D) (t : ℕ) : Bool := (inp t).wvalid && (x t).wready
/-- A write response is transferred in cycle `t`. -/
def BR (inp : ℕ → In D) (x : ℕ → Lite D) (t : ℕ) : Bool := (inp t).bready && (x t).bvalid
/-- A read address is transferred in cycle `t`. -/
def AR (inp : ℕ → In D) (x : ℕ → Lite D) (t : ℕ) : Bool := (inp t).arvalid && (x t).arready
/-- Read data is transferred in cycle `t`. -/
def RD (inp : ℕ → In D) (x : ℕ → Lite D) (t : ℕ) : Bool := (inp t).rready && (x t).rvalid

/-- What the transfers so far leave outstanding; `since` is the cycle of the address transfer. -/
inductive Phase
  | idle
  | wantW (addr since : ℕ)
  | wantB
  | wantR (addr since : ℕ)
  deriving DecidableEq

/-- The phase at the beginning of cycle `t`. -/
def phase (inp : ℕ → In D) (x : ℕ → Lite D) : ℕ → Phase
  | 0 => .idle
  | t + 1 =>
    match phase inp x t with
    | .idle => if AW inp x t then .wantW (inp t).awaddr t else if AR inp x t then .wantR (inp t).araddr t else .idle
    | .wantW a s => if WD inp x t then .wantB else .wantW a s
    | .wantB => if BR inp x t then .idle else .wantB
    | .wantR a s => if RD inp x t then .idle else .wantR a s

/-- The state of the slave in each phase. -/
def PInv (p : Par) (u : D) (x : ℕ → Lite D) (t : ℕ) : Phase → Prop
  | .idle => (x t).st = 0 ∧ (x t).writevalid = false ∧ (x t).readvalid = false ∧ (x t).bvalid = false ∧
      (x t).rvalid = false
  | .wantW a s => s < t ∧ (x t).bvalid = false ∧ (x t).rvalid = false ∧ (x t).readvalid = false ∧
      (t = s + 1 → (x t).st = 0 ∧ (x t).writevalid = true ∧ (x t).addr = a) ∧
      (s + 2 ≤ t → (x t).st = 3 ∧ (x t).writevalid = false ∧ (x t).maskaddr = p.idx a)
  | .wantB => (x t).st = 4 ∧ (x t).writevalid = false ∧ (x t).readvalid = false ∧ (x t).bvalid = true ∧
      (x t).rvalid = false
  | .wantR a s => s < t ∧ (x t).bvalid = false ∧ (x t).writevalid = false ∧
      (t = s + 1 → (x t).st = 0 ∧ (x t).readvalid = true ∧ (x t).addr = a ∧ (x t).rvalid = false) ∧
      (t = s + 2 → (x t).st = 1 ∧ (x t).readvalid = false ∧ (x t).maskaddr = p.idx a ∧ (x t).rvalid = false) ∧
      (s + 3 ≤ t → (x t).st = 2 ∧ (x t).readvalid = false ∧ (x t).rvalid = true ∧
        (x t).rdata = (x (s + 2)).file.rd p u (p.idx a))

theorem pinv (hx : LiteRun p u z inp x) (t : ℕ) : PInv p u x t (phase inp x t) := by
  induction t with
  | zero => simp [phase, PInv, hx.init, Lite.init]
  | succ t ih =>
    rw [phase]
    cases hp : phase inp x t with
    | idle =>
      rw [hp] at ih
      obtain ⟨h1, h2, h3, h4, h5⟩ := ih
      have ea : AW inp x t = ((x t).awready && (inp t).awvalid) := Bool.and_comm _ _
      have er : AR inp x t = ((x t).arready && (inp t).arvalid) := Bool.and_comm _ _
      have hst := hx.step t
      simp only [Lite.step, ← ea, ← er, h4] at hst
      cases ha : AW inp x t
      · cases hr : AR inp x t
        · simp [PInv, hst, ha, hr, h1, h2, h3, h4, h5, Lite.wready]
        · simp [PInv, hst, ha, hr, h1, h2, h3, h4, h5, Lite.wready]
      · simp [PInv, hst, ha, h1, h2, h3, h4, h5, Lite.wready]
    | wantW a s =>
      rw [hp] at ih
      obtain ⟨h1, h2, h3, h4, h5, h6⟩ := ih
      rcases Nat.lt_or_ge (s + 1) t with hs | hs
      · obtain ⟨g1, g2, g3⟩ := h6 hs
        cases hw : WD inp x t
        · simp [PInv, hx.step t, Lite.step, Lite.wready, WD, g1] at hw ⊢
          simp [hw, g1, g2, g3, h2, h3, h4, Lite.awready, Lite.arready]
          omega
        · simp [PInv, hx.step t, Lite.step, Lite.wready, WD, g1] at hw ⊢
          simp [hw, g1, g2, h3, h4, Lite.awready, Lite.arready]
      · obtain ⟨g1, g2, g3⟩ := h5 (by omega)
        have hw : WD inp x t = false := by simp [WD, Lite.wready, g1]
        simp [hw, PInv, hx.step t, Lite.step, Lite.wready, g1, g2, g3, h2, h3, h4, Lite.awready, Lite.arready]
        omega
    | wantB =>
      rw [hp] at ih
      obtain ⟨h1, h2, h3, h4, h5⟩ := ih
      cases hb : BR inp x t
      · simp [BR, h4] at hb
        simp [PInv, hx.step t, Lite.step, Lite.wready, Lite.awready, Lite.arready, h1, h2, h3, h4, h5, hb]
      · simp [BR, h4] at hb
        simp [PInv, hx.step t, Lite.step, Lite.wready, Lite.awready, Lite.arready, h1, h2, h3, h4, h5, hb]
    | wantR a s =>
      rw [hp] at ih
      obtain ⟨h1, h2, h3, h4, h5, h6⟩ := ih
      rcases Nat.lt_or_ge (s + 2) t with hs | hs
      · obtain ⟨g1, g2, g3, g4⟩ := h6 hs
        cases hr : RD inp x t
        · simp [RD, g3] at hr
          simp [PInv, hx.step t, Lite.step, Lite.wready, Lite.awready, Lite.arready, g1, g2, g3, g4, h2, h3, hr]
          omega
        · simp [RD, g3] at hr
          simp [PInv, hx.step t, Lite.step, Lite.wready, Lite.awready, Lite.arready, g1, g2, g3, h2, h3, hr]
      · rcases Nat.lt_or_ge (s + 1) t with hs' | hs'
        · have ht : t = s + 2 := by omega
          subst ht
          obtain ⟨g1, g2, g3, g4⟩ := h5 rfl
          have hr : RD inp x (s + 2) = false := by simp [RD, g4]
          simp [hr, PInv, hx.step (s + 2), Lite.step, Lite.wready, Lite.awready, Lite.arready, g1, g2, g3, g4, h2, h3]
          omega
        · have ht : t = s + 1 := by omega
          subst ht
          obtain ⟨g1, g2, g3, g4⟩ := h4 rfl
          have hr : RD inp x (s + 1) = false := by simp [RD, g4]
          simp [hr, PInv, hx.step (s + 1), Lite.step, Lite.wready, Lite.awready, Lite.arready, g1, g2, g3, g4, h2, h3]
          omega

/-- **C54, order.**  Transactions do not overlap: an address is accepted only when nothing is outstanding, write data
    only between the address and the response, a response is offered exactly after the data until it is taken, read
    data only after a read address. -/
theorem c54_order (hx : LiteRun p u z inp x) (t : ℕ) :
    (AW inp x t = true → phase inp x t = .idle ∧ AR inp x t = false) ∧
    (AR inp x t = true → phase inp x t = .idle) ∧
    (WD inp x t = true → ∃ a s, phase inp x t = .wantW a s) ∧
    ((x t).bvalid = true ↔ phase inp x t = .wantB) ∧
    ((x t).rvalid = true → ∃ a s, phase inp x t = .wantR a s) := by
  have h := pinv hx t
  cases hp : phase inp x t with
  | idle =>
    rw [hp] at h
    obtain ⟨h1, h2, h3, h4, h5⟩ := h
    simp only [AW, AR, WD, Lite.awready, Lite.arready, Lite.wready, h1, h2, h3, h4, h5]
    cases (x t).prevAw <;> simp
  | wantB =>
    rw [hp] at h
    obtain ⟨h1, h2, h3, h4, h5⟩ := h
    simp [AW, AR, WD, Lite.awready, Lite.arready, Lite.wready, h1, h4, h5]
  | wantW a s =>
    rw [hp] at h
    obtain ⟨h1, h2, h3, h4, h5, h6⟩ := h
    rcases Nat.lt_or_ge (s + 1) t with hs | hs
    · obtain ⟨g1, g2, g3⟩ := h6 hs
      simp [AW, AR, Lite.awready, Lite.arready, g1, h2, h3]
    · obtain ⟨g1, g2, g3⟩ := h5 (by omega)
      simp [AW, AR, Lite.awready, Lite.arready, g2, h2, h3]
  | wantR a s =>
    rw [hp] at h
    obtain ⟨h1, h2, h3, h4, h5, h6⟩ := h
    rcases Nat.lt_or_ge (s + 2) t with hs | hs
    · obtain ⟨g1, g2, g3, -⟩ := h6 hs
      simp [AW, AR, WD, Lite.awready, Lite.arready, Lite.wready, g1, h2]
    · rcases Nat.lt_or_ge (s + 1) t with hs' | hs'
      · obtain ⟨g1, g2, g3, -⟩ := h5 (by omega)
        simp [AW, AR, WD, Lite.awready, Lite.arready, Lite.wready, g1, h2]
      · obtain ⟨g1, g2, g3, -⟩ := h4 (by omega)
        simp [AW, AR, WD, Lite.awready, Lite.arready, Lite.wready, g1, g2, h2]

/-- **C54, writes do not wait.**  From the second cycle after the write address the slave is ready for the data. -/
theorem c54_write_ready (hx : LiteRun p u z inp x) {t a s : ℕ} (h : phase inp x t = .wantW a s) :
    (x t).wready = decide (s + 2 ≤ t) := by
  have hi := pinv hx t
  rw [h] at hi
  obtain ⟨h1, h2, h3, h4, h5, h6⟩ := hi
  rcases Nat.lt_or_ge (s + 1) t with hs | hs
  · simp [Lite.wready, (h6 hs).1]; omega
  · simp [Lite.wready, (h5 (by omega)).1]; omega

/-- **C54, read data.**  From the third cycle after the read address the slave offers the value that the addressed
    register had two cycles after the address transfer, and keeps it until it is taken. -/
theorem c54_read_data (hx : LiteRun p u z inp x) {t a s : ℕ} (h : phase inp x t = .wantR a s) :
    (x t).rvalid = decide (s + 3 ≤ t) ∧
    (s + 3 ≤ t → p.idx a < p.len → (x t).rdata = (x (s + 2)).file.reg (p.idx a)) := by
  have hi := pinv hx t
  rw [h] at hi
  obtain ⟨h1, h2, h3, h4, h5, h6⟩ := hi
  rcases Nat.lt_or_ge (s + 2) t with hs | hs
  · obtain ⟨g1, g2, g3, g4⟩ := h6 hs
    refine ⟨by simp [g3]; omega, fun _ hlt => ?_⟩
    rw [g4, File.rd, if_pos hlt]
  · refine ⟨?_, fun h => by omega⟩
    rcases Nat.lt_or_ge (s + 1) t with hs' | hs'
    · simp [(h5 (by omega)).2.2.2]; omega
    · simp [(h4 (by omega)).2.2.2]; omega

/-- **C54, addresses are accepted.**  When nothing is outstanding, a write address held for two cycles is accepted in
    one of them, unless a read address is accepted in the first; a read address held for two cycles is accepted if no
    write address is offered in the first. -/
theorem c54_accept (hx : LiteRun p u z inp x) {t : ℕ} (h : phase inp x t = .idle) :
    ((inp t).awvalid = true → (inp (t + 1)).awvalid = true →
      AW inp x t = true ∨ AR inp x t = true ∨ AW inp x (t + 1) = true) ∧
    ((inp t).arvalid = true → (inp (t + 1)).arvalid = true → (inp t).awvalid = false →
      AR inp x t = true ∨ AR inp x (t + 1) = true) := by
  constructor
  · intro h1 h2
    cases ha : AW inp x t
    · cases hr : AR inp x t
      · have hi : phase inp x (t + 1) = .idle := by rw [phase, h]; simp [ha, hr]
        have := pinv hx (t + 1)
        rw [hi] at this
        obtain ⟨g1, g2, g3, g4, g5⟩ := this
        have hprev : (x (t + 1)).prevAw = true := by rw [hx.step t]; exact h1
        right; right
        simp [AW, Lite.awready, h2, g1, g2, g3, g4, hprev]
      · simp
    · simp
  · intro h1 h2 h3
    have ha : AW inp x t = false := by simp [AW, h3]
    cases hr : AR inp x t
    · have hi : phase inp x (t + 1) = .idle := by rw [phase, h]; simp [ha, hr]
      have := pinv hx (t + 1)
      rw [hi] at this
      obtain ⟨g1, g2, g3, g4, g5⟩ := this
      have hprev : (x (t + 1)).prevAr = true := by rw [hx.step t]; exact h1
      have hprev' : (x (t + 1)).prevAw = false := by rw [hx.step t]; exact h3
      right
      simp [AR, Lite.arready, h2, g1, g2, g3, hprev, hprev']
    · simp

/-- **Disagreement.**  A master that offers a write address in every cycle keeps every read address waiting for ever. -/
theorem c54_not_fair (hx : LiteRun p u z inp x) (h : ∀ t, (inp t).awvalid = true) (t : ℕ) : AR inp x t = false := by
  cases t with
  | zero => simp [AR, Lite.arready, hx.init, Lite.init]
  | succ t =>
    have : (x (t + 1)).prevAw = true := by rw [hx.step t]; exact h t
    simp [AR, Lite.arready, this]

/-! ## The registers -/

/-- The thread operation is on register `i`. -/
def ThOp.on : ThOp D → ℕ → Prop
  | .write j _, i => j = i
  | .writeFlag j _ _, i => j = i
  | .waitFlag j _ _ _, i => j = i

theorem apply_other (old f : File D) (op : ThOp D) (i : ℕ) (h : ¬op.on i) :
    (op.apply old f).reg i = f.reg i ∧ (op.apply old f).flag i = f.flag i ∧ (op.apply old f).rval i = f.rval i := by
  cases op with
  | write j v =>
    have : i ≠ j := fun e => h e.symm
    simp [ThOp.apply, Function.update_of_ne this]
  | writeFlag j v r =>
    have : i ≠ j := fun e => h e.symm
    simp [ThOp.apply, Function.update_of_ne this]
  | waitFlag j v r pol =>
    have : i ≠ j := fun e => h e.symm
    simp only [ThOp.apply]
    split <;> simp [Function.update_of_ne this]

theorem applyOps_other (old f : File D) (ops : List (ThOp D)) (i : ℕ) (h : ∀ op ∈ ops, ¬op.on i) :
    (applyOps old f ops).reg i = f.reg i ∧ (applyOps old f ops).flag i = f.flag i ∧
      (applyOps old f ops).rval i = f.rval i := by
  induction ops generalizing f with
  | nil => exact ⟨rfl, rfl, rfl⟩
  | cons op ops ih =>
    have h1 := ih (op.apply old f) fun o ho => h o (by simp [ho])
    have h2 := apply_other old f op i (h op (by simp))
    exact ⟨h1.1.trans h2.1, h1.2.1.trans h2.2.1, h1.2.2.trans h2.2.2⟩

/-- The slave takes the value of register `i` for a read in cycle `t` (two cycles after the address). -/
def Samples (p : Par) (inp : ℕ → In D) (x : ℕ → Lite D) (t i : ℕ) : Prop :=
  ∃ a s, phase inp x t = .wantR a s ∧ t = s + 2 ∧ p.idx a = i

/-- Write data for register `i` is transferred in cycle `t`. -/
def Stores (p : Par) (inp : ℕ → In D) (x : ℕ → Lite D) (t i : ℕ) : Prop :=
  WD inp x t = true ∧ ∃ a s, phase inp x t = .wantW a s ∧ p.idx a = i

/-- The signals the register file depends on, in terms of the phases. -/
theorem file_step (hx : LiteRun p u z inp x) (t : ℕ) :
    ∃ m rb wb, (x (t + 1)).file = applyOps (x t).file (busFile p (x t).file m rb wb) (inp t).ops ∧
      (∀ i, Samples p inp x t i ↔ rb = true ∧ m = i) ∧
      (∀ i, Stores p inp x t i ↔ wb = some (inp t).wdata ∧ m = i) ∧ (rb = true → wb = none) ∧
      (wb = none ∨ wb = some (inp t).wdata) := by
  have hi := pinv hx t
  refine ⟨(x t).maskaddr, _, _, by rw [hx.step t]; rfl, ?_, ?_, ?_, ?_⟩
  · intro i
    cases hp : phase inp x t with
    | idle => rw [hp] at hi; simp [Samples, hp, hi.1]
    | wantB => rw [hp] at hi; simp [Samples, hp, hi.1]
    | wantW a s =>
      rw [hp] at hi
      obtain ⟨h1, h2, h3, h4, h5, h6⟩ := hi
      rcases Nat.lt_or_ge (s + 1) t with hs | hs
      · simp [Samples, hp, (h6 hs).1]
      · simp [Samples, hp, (h5 (by omega)).1]
    | wantR a s =>
      rw [hp] at hi
      obtain ⟨h1, h2, h3, h4, h5, h6⟩ := hi
      rcases Nat.lt_or_ge (s + 2) t with hs | hs
      · simp [Samples, hp, (h6 hs).1]
        omega
      · rcases Nat.lt_or_ge (s + 1) t with hs' | hs'
        · have ht : t = s + 2 := by omega
          simp only [Samples, hp, (h5 ht).1, (h5 ht).2.2.1, (h5 ht).2.2.2]
          constructor
          · rintro ⟨b, c, hq, -, rfl⟩
            simp only [Phase.wantR.injEq] at hq
            simp [hq.1]
          · intro hq
            exact ⟨a, s, rfl, ht, hq.2⟩
        · simp [Samples, hp, (h4 (by omega)).1]
          omega
  · intro i
    cases hp : phase inp x t with
    | idle => rw [hp] at hi; simp [Stores, hp, hi.1, WD, Lite.wready]
    | wantB => rw [hp] at hi; simp [Stores, hp, hi.1, WD, Lite.wready]
    | wantR a s =>
      have : (x t).st ≠ 3 := by
        rw [hp] at hi
        obtain ⟨h1, h2, h3, h4, h5, h6⟩ := hi
        rcases Nat.lt_or_ge (s + 2) t with hs | hs
        · rw [(h6 hs).1]; omega
        · rcases Nat.lt_or_ge (s + 1) t with hs' | hs'
          · rw [(h5 (by omega)).1]; omega
          · rw [(h4 (by omega)).1]; omega
      simp [Stores, hp, WD, Lite.wready, this]
    | wantW a s =>
      rw [hp] at hi
      obtain ⟨h1, h2, h3, h4, h5, h6⟩ := hi
      rcases Nat.lt_or_ge (s + 1) t with hs | hs
      · simp [Stores, hp, WD, Lite.wready, h6 hs]
      · simp [Stores, hp, WD, Lite.wready, (h5 (by omega)).1]
  · intro h
    simp only [Bool.and_eq_true, beq_iff_eq] at h
    simp [h.1]
  · split <;> simp

/-- **C54, the registers.**  Register `i`, which no thread operation touches in cycle `t`: write data for it replaces
    it; when it is read with its flag set, it gets its reset value and the flag is cleared; otherwise it stays.  The
    flag and the reset value change in no other way. -/
theorem c54_register (hx : LiteRun p u z inp x) (t i : ℕ) (hi : i < p.len) (hops : ∀ op ∈ (inp t).ops, ¬op.on i) :
    (Stores p inp x t i → (x (t + 1)).file.reg i = (inp t).wdata) ∧
    (Samples p inp x t i → (x t).file.flag i = true →
      (x (t + 1)).file.reg i = (x t).file.rval i ∧ (x (t + 1)).file.flag i = false) ∧
    (¬Stores p inp x t i → (¬Samples p inp x t i ∨ (x t).file.flag i = false) →
      (x (t + 1)).file.reg i = (x t).file.reg i) ∧
    ((¬Samples p inp x t i ∨ (x t).file.flag i = false) → (x (t + 1)).file.flag i = (x t).file.flag i) ∧
    (x (t + 1)).file.rval i = (x t).file.rval i := by
  obtain ⟨m, rb, wb, hf, hs, hw, hn, hv⟩ := file_step hx t
  obtain ⟨e1, e2, e3⟩ := applyOps_other (x t).file (busFile p (x t).file m rb wb) (inp t).ops i hops
  rw [hf, e1, e2, e3, hs, hw]
  by_cases hm : m = i
  · subst hm
    rcases hv with rfl | rfl
    · cases rb <;> cases hfl : (x t).file.flag m <;> simp [busFile, hi, hfl]
    · have : rb = false := by
        cases rb
        · rfl
        · exact absurd (hn rfl) (by simp)
      subst this
      simp [busFile, hi]
  · have hm' : i ≠ m := fun e => hm e.symm
    have hb : (busFile p (x t).file m rb wb).reg i = (x t).file.reg i ∧
        (busFile p (x t).file m rb wb).flag i = (x t).file.flag i ∧
        (busFile p (x t).file m rb wb).rval i = (x t).file.rval i := by
      unfold busFile
      cases wb <;> dsimp only
      · split <;> simp [Function.update_of_ne hm']
      · split <;> split <;> simp [Function.update_of_ne hm']
    simp [hm, hb]

/-- **C54, `write` and `write_flag`.**  A thread write wins over whatever the bus does in the same cycle. -/
theorem c54_thread (hx : LiteRun p u z inp x) (t i : ℕ) (pre post : List (ThOp D)) (hpost : ∀ op ∈ post, ¬op.on i) :
    (∀ v, (inp t).ops = pre ++ .write i v :: post →
      (x (t + 1)).file.reg i = v ∧ (x (t + 1)).file.flag i = false) ∧
    (∀ v r, (inp t).ops = pre ++ .writeFlag i v r :: post →
      (x (t + 1)).file.reg i = v ∧ (x (t + 1)).file.flag i = true ∧ (x (t + 1)).file.rval i = r) := by
  obtain ⟨m, rb, wb, hf, -⟩ := file_step hx t
  have key : ∀ op, (inp t).ops = pre ++ op :: post → ∃ g, (x (t + 1)).file.reg i = (op.apply (x t).file g).reg i ∧
      (x (t + 1)).file.flag i = (op.apply (x t).file g).flag i ∧
      (x (t + 1)).file.rval i = (op.apply (x t).file g).rval i := by
    intro op ho
    refine ⟨pre.foldl (ThOp.apply (x t).file) (busFile p (x t).file m rb wb), ?_⟩
    rw [hf, ho, applyOps, List.foldl_append, List.foldl_cons]
    exact applyOps_other _ _ post i hpost
  constructor
  · intro v ho
    obtain ⟨g, h1, h2, -⟩ := key _ ho
    exact ⟨h1.trans (by simp [ThOp.apply]), h2.trans (by simp [ThOp.apply])⟩
  · intro v r ho
    obtain ⟨g, h1, h2, h3⟩ := key _ ho
    exact ⟨h1.trans (by simp [ThOp.apply]), h2.trans (by simp [ThOp.apply]), h3.trans (by simp [ThOp.apply])⟩

/-- The word transferred last for each register, 0 before the first. -/
def busMem (p : Par) (z : D) (inp : ℕ → In D) (x : ℕ → Lite D) : ℕ → ℕ → D
  | 0, _ => z
  | t + 1, i =>
    match phase inp x t with
    | .wantW a _ => if WD inp x t = true ∧ p.idx a = i then (inp t).wdata else busMem p z inp x t i
    | _ => busMem p z inp x t i

theorem busMem_reg (hx : LiteRun p u z inp x) (i : ℕ) (hi : i < p.len) (hops : ∀ t, ∀ op ∈ (inp t).ops, ¬op.on i)
    (t : ℕ) : (x t).file.reg i = busMem p z inp x t i ∧ (x t).file.flag i = false := by
  induction t with
  | zero => simp [hx.init, Lite.init, File.init, busMem]
  | succ t ih =>
    obtain ⟨h1, -, h3, h4, -⟩ := c54_register hx t i hi (hops t)
    refine ⟨?_, (h4 (.inr ih.2)).trans ih.2⟩
    by_cases hs : Stores p inp x t i
    · obtain ⟨hw, a, s, hp, hia⟩ := hs
      rw [h1 ⟨hw, a, s, hp, hia⟩, busMem, hp]
      simp [hw, hia]
    · rw [h3 hs (.inr ih.2), busMem, ih.1]
      cases hp : phase inp x t with
      | wantW a s =>
        simp only
        rw [if_neg fun h => hs ⟨h.1, a, s, hp, h.2⟩]
      | idle => rfl
      | wantB => rfl
      | wantR a s => rfl

/-- **C54, reads see the last write.**  For a register no thread operates on, the word transferred by a read is the one
    transferred last by a write to an address of the same register, 0 if there was none. -/
theorem c54_coherent (hx : LiteRun p u z inp x) {t a s : ℕ} (hr : RD inp x t = true)
    (hp : phase inp x t = .wantR a s) (hi : p.idx a < p.len)
    (hops : ∀ t, ∀ op ∈ (inp t).ops, ¬op.on (p.idx a)) : (x t).rdata = busMem p z inp x t (p.idx a) := by
  obtain ⟨hv, hd⟩ := c54_read_data hx hp
  have hs : s + 3 ≤ t := by
    simp only [RD, Bool.and_eq_true] at hr
    rw [hr.2] at hv
    simpa using hv.symm
  rw [hd hs hi, (busMem_reg hx _ hi hops (s + 2)).1]
  -- no write data is transferred while a read is outstanding
  have back : ∀ k, s < t - k → phase inp x (t - k) = .wantR a s := by
    intro k
    induction k with
    | zero => intro _; exact hp
    | succ k ih =>
      intro hk
      have h1 := ih (by omega)
      rw [show t - k = (t - (k + 1)) + 1 by omega, phase] at h1
      have hinv := pinv hx (t - (k + 1))
      cases hq : phase inp x (t - (k + 1)) with
      | idle => rw [hq] at h1; simp at h1; split at h1 <;> (try split at h1) <;> simp at h1 <;> omega
      | wantB => rw [hq] at h1; simp at h1; split at h1 <;> simp at h1
      | wantW b c => rw [hq] at h1; simp at h1; split at h1 <;> simp at h1
      | wantR b c => rw [hq] at h1; simp only at h1; split at h1 <;> simp_all
  have keep : ∀ j, j ≤ t - (s + 2) → busMem p z inp x (s + 2 + j) (p.idx a) = busMem p z inp x (s + 2) (p.idx a) := by
    intro j
    induction j with
    | zero => intro _; rfl
    | succ j ih =>
      intro hj
      have hq := back (t - (s + 2 + j)) (by omega)
      rw [show t - (t - (s + 2 + j)) = s + 2 + j by omega] at hq
      rw [← ih (by omega), show s + 2 + (j + 1) = (s + 2 + j) + 1 by omega, busMem, hq]
  rw [← keep (t - (s + 2)) (Nat.le_refl _), show s + 2 + (t - (s + 2)) = t by omega]

/-- **C54, addresses.**  Byte `b` of register `i` is at the address `i * (datawidth / 8) + b`, for a data width of
    `8 * 2 ^ k` bits and any number of registers. -/
theorem c54_map (length k i b : ℕ) (hi : i < length) (hb : b < 2 ^ k) :
    (Par.of length (8 * 2 ^ k)).idx (i * 2 ^ k + b) = i := by
  have h1 : 8 * 2 ^ k / 8 = 2 ^ k := by omega
  have h2 : (2 : ℕ) ^ Nat.clog 2 (2 ^ k) = 2 ^ k := by rw [Nat.clog_pow 2 k (by omega)]
  have h3 : length ≤ 2 ^ Nat.clog 2 length := Nat.le_pow_clog (by omega) length
  simp only [Par.of, Par.idx, h1, h2]
  have h4 : (i * 2 ^ k + b) / 2 ^ k = i := by
    rw [Nat.add_comm, Nat.add_mul_div_right _ _ (Nat.two_pow_pos k), Nat.div_eq_of_lt hb, Nat.zero_add]
  rw [h4, Nat.mod_eq_of_lt (by omega)]

/-- The slave run on the inputs `inp`. -/
def liteRun (p : Par) (u z : D) (inp : ℕ → In D) : ℕ → Lite D
  | 0 => Lite.init z
  | t + 1 => (liteRun p u z inp t).step p u (inp t)

theorem liteRun_run (p : Par) (u z : D) (inp : ℕ → In D) : LiteRun p u z inp (liteRun p u z inp) := ⟨rfl, fun _ => rfl⟩

end

section Witness

private def par : Par := Par.of 4 32
private def quiet : In ℕ := ⟨false, 0, false, 0, 0, true, false, 0, true, []⟩

/-- Cycles 0, 1: write address 4; cycle 3: data 7; cycle 5, 6: read address 4; thread operations `ops` in cycle 2. -/
private def wr (strb : ℕ) (ops : List (ThOp ℕ)) (t : ℕ) : In ℕ :=
  if t ≤ 1 then { quiet with awvalid := true, awaddr := 4 }
  else if t = 2 then { quiet with ops := ops }
  else if t = 3 then { quiet with wvalid := true, wdata := 7, wstrb := strb }
  else if t = 5 ∨ t = 6 then { quiet with arvalid := true, araddr := 4 }
  else quiet

/-- The hypotheses of `c54_coherent` and of the theorems above are met: the read data 7 is transferred in cycle 9. -/
example : let x := liteRun par 99 0 (wr 15 [])
    RD (wr 15 []) x 9 = true ∧ phase (wr 15 []) x 9 = .wantR 4 6 ∧ par.idx 4 = 1 ∧ (x 9).rdata = 7 ∧
      busMem par 0 (wr 15 []) x 9 1 = 7 ∧ phase (wr 15 []) x 3 = .wantW 4 1 ∧ phase (wr 15 []) x 4 = .wantB ∧
      phase (wr 15 []) x 5 = .idle ∧ AR (wr 15 []) x 6 = true := by decide +kernel

/-- A register written with `write_flag` is read once and then has its reset value (`c54_register`, second part). -/
example : let x := liteRun par 99 0 (wr 15 [.writeFlag 0 5 3, .writeFlag 1 5 3])
    (x 4).file.reg 0 = 5 ∧ (x 4).file.flag 0 = true ∧ (x 9).rdata = 7 ∧ (x 9).file.reg 1 = 3 := by decide +kernel

/-- **Disagreement.**  The write strobe is ignored: with `wstrb = 0`, which selects no byte, the register is written. -/
theorem c54_not_strobe : let x := liteRun par 99 0 (wr 0 [])
    WD (wr 0 []) x 3 = true ∧ (wr 0 [] 3).wstrb = 0 ∧ (x 3).file.reg 1 = 0 ∧ (x 4).file.reg 1 = 7 := by decide +kernel

/-- Two writes to address 4, of 1 (cycle 3) and of 5 (cycle 8); a thread executes `wait_flag(1, 1, 0)` in cycle 8. -/
private def lost (t : ℕ) : In ℕ :=
  if t ≤ 1 ∨ t = 5 ∨ t = 6 then { quiet with awvalid := true, awaddr := 4 }
  else if t = 3 then { quiet with wvalid := true, wdata := 1, wstrb := 15 }
  else if t = 8 then { quiet with wvalid := true, wdata := 5, wstrb := 15, ops := [.waitFlag 1 1 0 true] }
  else quiet

/-- **Disagreement.**  `wait_flag` writes its reset value even if the bus writes the register in the same cycle: the
    word 5, transferred and acknowledged on the bus, is never seen by the thread, which waited for the word 1. -/
theorem c54_not_wait_flag : let x := liteRun par 99 0 lost
    WD lost x 8 = true ∧ BR lost x 9 = true ∧ (x 8).file.reg 1 = 1 ∧ (x 9).file.reg 1 = 0 := by decide +kernel

end Witness

end AxiReg
