import Verif.Props.C37_Width

/-!
# C37: width conversion of the DMA, write direction
-/

namespace Dma

/-! ## The RAM side of a write -/

/-- The words of a RAM burst. -/
def ramWords (aw : ℕ) (mem : ℕ → ℕ) (addr stride L : ℕ) : List ℕ :=
  (List.range L).map fun j => mem ((addr + j * stride) % 2 ^ aw)

/-- A RAM burst read (thread/ram.py:196-246, C08) of `L` words requested at the edge before cycle 0, with
    `rready t` in cycle `t`. -/
structure RamRun (aw : ℕ) (mem : ℕ → ℕ) (addr stride L : ℕ) (s : ℕ → Burst.RState ℕ) (rready : ℕ → Bool) : Prop where
  start : ∃ s0 r, s0.busy = false ∧ s 0 = Burst.rstep aw mem s0 ⟨true, addr, stride, L, r, false⟩
  step : ∀ t, s (t + 1) = Burst.rstep aw mem (s t) ⟨false, 0, 0, 0, rready t, false⟩

/-- The words, with last flag, taken from the RAM burst in the first `t` cycles. -/
def ramTaken (s : ℕ → Burst.RState ℕ) (rready : ℕ → Bool) (t : ℕ) : List (ℕ × Bool) :=
  collect (fun t => if (s t).rvalid && rready t then some ((s t).rdata, (s t).rlast) else none) t

theorem beats_append {α : Type} (aw : ℕ) (mem : ℕ → α) (s : Burst.RState α) (l m : List Burst.RIn) :
    Burst.beats aw mem s (l ++ m) = Burst.beats aw mem s l ++ Burst.beats aw mem (Burst.rrun aw mem s l) m := by
  induction l generalizing s with
  | nil => rfl
  | cons i l ih =>
    simp only [List.cons_append, Burst.beats, ih, List.append_assoc]
    rfl

theorem rstep_rvalid {α : Type} (aw : ℕ) (mem : ℕ → α) (s : Burst.RState α) (i : Burst.RIn)
    (h : (Burst.rstep aw mem s i).busy = false) : (Burst.rstep aw mem s i).rvalid = false := by
  unfold Burst.rstep at h ⊢
  cases hb : s.busy
  · simp
  · simp only [hb, if_true] at h ⊢
    cases hq : i.rquit
    · simp [hq] at h ⊢
      simp [h]
    · simp

theorem RamRun.facts {aw : ℕ} {mem : ℕ → ℕ} {addr stride L : ℕ} {s : ℕ → Burst.RState ℕ} {rready : ℕ → Bool}
    (hL : 0 < L) (R : RamRun aw mem addr stride L s rready) (t : ℕ) :
    ramTaken s rready t <+: Burst.expected aw mem addr stride L ∧
    ((ramTaken s rready t).length = L → (s t).rvalid = false) := by
  obtain ⟨s0, r, hidle, e0⟩ := R.start
  have link : ∀ t, Burst.beats aw mem (s 0) ((List.range t).map fun t => ⟨false, 0, 0, 0, rready t, false⟩) =
      ramTaken s rready t ∧
      Burst.rrun aw mem (s 0) ((List.range t).map fun t => ⟨false, 0, 0, 0, rready t, false⟩) = s t := by
    intro t
    induction t with
    | zero => exact ⟨rfl, rfl⟩
    | succ t ih =>
      rw [List.range_succ, List.map_append, beats_append, ih.1, ih.2]
      constructor
      · simp only [List.map_cons, List.map_nil, Burst.beats, List.append_nil]
        conv_rhs => rw [ramTaken, collect_succ]
        change _ = ramTaken s rready t ++ _
        congr 1
        split <;> simp
      · simp only [Burst.rrun, List.foldl_append] at ih ⊢
        rw [ih.2, R.step t]
        rfl
  obtain ⟨l1, l2⟩ := link t
  have h := Burst.c08_read_burst aw mem s0 ⟨true, addr, stride, L, r, false⟩
    ((List.range t).map fun t => ⟨false, 0, 0, 0, rready t, false⟩) hidle rfl hL (by simp)
  rw [← e0, l1, l2] at h
  obtain ⟨h1, h2⟩ := h
  refine ⟨by rw [h1]; exact List.take_prefix _ _, fun hl => ?_⟩
  have hb : (s t).busy = false := by
    rw [h2]
    rw [h1] at hl
    simp [Burst.expected] at hl
    simp; omega
  cases t with
  | zero => rw [e0] at hb ⊢; exact rstep_rvalid _ _ _ _ hb
  | succ t => rw [R.step t] at hb ⊢; exact rstep_rvalid _ _ _ _ hb

/-- The next word taken is the next word of the burst, and is marked last exactly if it is the last. -/
theorem RamRun.next {aw : ℕ} {mem : ℕ → ℕ} {addr stride L : ℕ} {s : ℕ → Burst.RState ℕ} {rready : ℕ → Bool}
    (hL : 0 < L) (R : RamRun aw mem addr stride L s rready) (t : ℕ)
    (hv : (s t).rvalid = true) (hr : rready t = true) :
    (ramTaken s rready t).length < L ∧ (s t).rlast = decide ((ramTaken s rready t).length + 1 = L) ∧
    ∃ a, (s t).rdata = mem a := by
  have h := (R.facts hL (t + 1)).1
  rw [ramTaken, collect_succ] at h
  simp only [hv, hr, Bool.and_self, if_true, Option.toList_some] at h
  change ramTaken s rready t ++ _ <+: _ at h
  generalize ramTaken s rready t = C at h ⊢
  have hlt : C.length < L := by
    have := h.length_le
    simp [Burst.expected] at this
    omega
  obtain ⟨m, h⟩ := h
  have := Burst.expected_drop aw mem addr stride L C.length hlt
  rw [← h] at this
  simp at this
  exact ⟨hlt, this.2, _, this.1⟩

theorem taken_words {aw : ℕ} {mem : ℕ → ℕ} {addr stride L : ℕ} {C : List (ℕ × Bool)}
    (h : C <+: Burst.expected aw mem addr stride L) : C.map Prod.fst <+: ramWords aw mem addr stride L := by
  have := h.map Prod.fst
  simpa [Burst.expected, ramWords, Function.comp_def] using this

/-! ## Same width -/

/-- The machine, the RAM burst and the write data channel together: `wready t` and the head `fifo t` of the
    request FIFO are arbitrary. -/
structure WSame.Run (aw : ℕ) (mem : ℕ → ℕ) (addr stride L : ℕ) (wready : ℕ → Bool) (fifo : ℕ → Option ℕ)
    (s : ℕ → Burst.RState ℕ) (σ : ℕ → WSame) (i : ℕ → WrIn) : Prop where
  inp : ∀ t, i t = ⟨(s t).rvalid, (s t).rdata, (s t).rlast, wready t, fifo t⟩
  ram : RamRun aw mem addr stride L s (fun t => (σ t).rready (i t))
  start : ∃ wv, σ 0 = ⟨true, 0, wv⟩
  step : ∀ t, σ (t + 1) = (σ t).step (i t)

/-- The beats sent (data and last flag) in the first `t` cycles. -/
def WSame.beats (σ : ℕ → WSame) (i : ℕ → WrIn) (t : ℕ) : List (ℕ × Bool) := collect (fun t => (σ t).sent (i t)) t

/-- The burst lengths taken from the request FIFO in the first `t` cycles. -/
def WSame.bursts (σ : ℕ → WSame) (i : ℕ → WrIn) (t : ℕ) : List ℕ :=
  collect (fun t => if (σ t).on && (σ t).size == 0 then (i t).fifo else none) t

structure WSame.Inv (L : ℕ) (σ : WSame) (C S : List (ℕ × Bool)) (B : List ℕ) : Prop where
  onn : σ.on = decide (C.length < L)
  len : C.length ≤ L
  data : S.map Prod.fst = C.map Prod.fst
  size : C.length + σ.size = B.sum
  last : S.map Prod.snd ++ flags σ.size = B.flatMap flags

theorem WSame.inv {aw : ℕ} {mem : ℕ → ℕ} {addr stride L : ℕ} (hL : 0 < L) {wready : ℕ → Bool} {fifo : ℕ → Option ℕ}
    {s : ℕ → Burst.RState ℕ} {σ : ℕ → WSame} {i : ℕ → WrIn}
    (R : WSame.Run aw mem addr stride L wready fifo s σ i) (hsum : ∀ t, (WSame.bursts σ i t).sum ≤ L) (t : ℕ) :
    WSame.Inv L (σ t) (ramTaken s (fun t => (σ t).rready (i t)) t) (WSame.beats σ i t) (WSame.bursts σ i t) := by
  induction t with
  | zero =>
    obtain ⟨wv, e⟩ := R.start
    rw [e]
    exact ⟨by simp [ramTaken, hL], by simp [ramTaken], by simp [ramTaken, WSame.beats],
      by simp [ramTaken, WSame.bursts], by simp [WSame.beats, WSame.bursts]⟩
  | succ t ih =>
    obtain ⟨i1, i2, i3, i4, i5⟩ := ih
    have hs := hsum t
    have hi := R.inp t
    rw [R.step t]
    rw [ramTaken, collect_succ, WSame.beats, collect_succ, WSame.bursts, collect_succ]
    change WSame.Inv _ _ (ramTaken s (fun t => (σ t).rready (i t)) t ++ _) (WSame.beats σ i t ++ _)
      (WSame.bursts σ i t ++ _)
    have hnext := R.ram.next hL t
    have hq := (R.ram.facts hL t).2
    generalize ramTaken s (fun t => (σ t).rready (i t)) t = C at *
    generalize WSame.beats σ i t = S at *
    generalize WSame.bursts σ i t = B at *
    have hv : (i t).rvalid = (s t).rvalid := by rw [hi]
    by_cases hgo : (s t).rvalid = true ∧ (σ t).rready (i t) = true
    · obtain ⟨hg1, hg2⟩ := hgo
      obtain ⟨n1, n2, -⟩ := hnext hg1 hg2
      have hpos : 0 < (σ t).size := by simp [WSame.rready] at hg2; exact hg2.2
      have hon : (σ t).on = true := by rw [i1]; simpa using n1
      have hlast : (i t).rlast = decide (C.length + 1 = L) := by rw [hi]; exact n2
      have hd : (i t).rdata = (s t).rdata := by rw [hi]
      have hsz : ((σ t).size == 0) = false := by simp; omega
      simp only [hg1, hg2, Bool.and_self, if_true, Option.toList_some, WSame.sent, hv, hsz, Bool.and_false,
        Bool.false_eq_true, if_false, Option.toList_none, List.append_nil, WSame.step, hon, Bool.true_and]
      obtain ⟨m, hm⟩ : ∃ m, (σ t).size = m + 1 := ⟨(σ t).size - 1, by omega⟩
      constructor
      · dsimp only
        rw [hlast, Bool.eq_iff_iff]
        simp; omega
      · simp; omega
      · simp [i3, hd]
      · simp [hm] at i4 ⊢; omega
      · rw [hm, flags_succ] at i5
        have e : ((i t).rlast || (σ t).size == 1) = decide (m = 0) := by
          rw [hlast, hm, Bool.eq_iff_iff]; simp; omega
        rw [← i5, e]
        simp [hm]
    · have e1 : ((s t).rvalid && (σ t).rready (i t)) = false := by
        cases h1 : (s t).rvalid <;> cases h2 : (σ t).rready (i t) <;> simp [h1, h2] at hgo ⊢
      simp only [e1, Bool.false_eq_true, if_false, Option.toList_none, List.append_nil, WSame.sent, hv, WSame.step,
        Bool.false_and, Bool.and_false, Bool.not_false, Bool.and_true]
      cases hl : ((σ t).on && (σ t).size == 0) with
      | false => simpa using ⟨i1, i2, i3, i4, i5⟩
      | true =>
        have hz : (σ t).size = 0 := by simp at hl; exact hl.2
        rw [hz] at i4 i5
        cases hf : (i t).fifo with
        | none => exact ⟨i1, i2, i3, by simpa [hz] using i4, by simpa [hz] using i5⟩
        | some m =>
          exact ⟨i1, i2, i3, by simp at i4 ⊢; omega, by simp at i5 ⊢; exact i5⟩

/-- **C37 (write, same width).** For every RAM contents, every schedule of `wready` and of the request FIFO: the
    beats sent carry the RAM words in order, the last flags mark exactly the end of each requested burst, and the
    machine stops exactly when all `L` words have been sent. The lengths in the request FIFO add up to at most `L`
    (C34). -/
theorem c37_write_same {aw : ℕ} {mem : ℕ → ℕ} {addr stride L : ℕ} (hL : 0 < L) {wready : ℕ → Bool}
    {fifo : ℕ → Option ℕ} {s : ℕ → Burst.RState ℕ} {σ : ℕ → WSame} {i : ℕ → WrIn}
    (R : WSame.Run aw mem addr stride L wready fifo s σ i) (hsum : ∀ t, (WSame.bursts σ i t).sum ≤ L) (t : ℕ) :
    (WSame.beats σ i t).map Prod.fst <+: ramWords aw mem addr stride L ∧
    (WSame.beats σ i t).map Prod.snd ++ flags (σ t).size = (WSame.bursts σ i t).flatMap flags ∧
    ((σ t).on = false ↔ (WSame.beats σ i t).length = L) := by
  have h := WSame.inv hL R hsum t
  have hC := taken_words (R.ram.facts hL t).1
  refine ⟨by rw [h.data]; exact hC, h.last, ?_⟩
  have hl := congrArg List.length h.data
  simp at hl
  rw [h.onn, hl]
  have := h.len
  simp; omega

/-! ## RAM word wider than AXI word -/

/-- The machine, the RAM burst and the write data channel together. -/
structure WNarrow.Run (pack dw aw : ℕ) (mem : ℕ → ℕ) (addr stride L : ℕ) (wready : ℕ → Bool) (fifo : ℕ → Option ℕ)
    (s : ℕ → Burst.RState ℕ) (σ : ℕ → WNarrow) (i : ℕ → WrIn) : Prop where
  inp : ∀ t, i t = ⟨(s t).rvalid, (s t).rdata, (s t).rlast, wready t, fifo t⟩
  ram : RamRun aw mem addr stride L s (fun t => (σ t).rready (i t))
  start : ∃ wd wl wv, σ 0 = ⟨true, 0, wd, wl, 0, wv⟩
  step : ∀ t, σ (t + 1) = (σ t).step pack dw (i t)

/-- The beats sent (data and last flag) in the first `t` cycles. -/
def WNarrow.beats (dw : ℕ) (σ : ℕ → WNarrow) (i : ℕ → WrIn) (t : ℕ) : List (ℕ × Bool) :=
  collect (fun t => (σ t).sent dw (i t)) t

/-- The burst lengths taken from the request FIFO in the first `t` cycles. -/
def WNarrow.bursts (σ : ℕ → WNarrow) (i : ℕ → WrIn) (t : ℕ) : List ℕ :=
  collect (fun t => if (σ t).on && (σ t).size == 0 then (i t).fifo else none) t

structure WNarrow.Inv (pack dw L : ℕ) (σ : WNarrow) (C S : List (ℕ × Bool)) (B : List ℕ) : Prop where
  count : σ.count < pack
  len : C.length ≤ L
  data : S.map Prod.fst ++ (if σ.count = 0 then [] else split (pack - σ.count) dw σ.wdata) =
    (C.map Prod.fst).flatMap (split pack dw)
  last : S.map Prod.snd ++ flags σ.size = B.flatMap flags
  wl : 0 < σ.count → σ.wlast = decide (C.length = L)
  onn : σ.on = !(σ.count == 0 && C.length == L)

theorem WNarrow.inv {pack dw aw k : ℕ} (hk : pack = 2 ^ k) (hp : 2 ≤ pack) {mem : ℕ → ℕ} {addr stride L : ℕ}
    (hL : 0 < L) {wready : ℕ → Bool} {fifo : ℕ → Option ℕ} {s : ℕ → Burst.RState ℕ} {σ : ℕ → WNarrow} {i : ℕ → WrIn}
    (R : WNarrow.Run pack dw aw mem addr stride L wready fifo s σ i) (t : ℕ) :
    WNarrow.Inv pack dw L (σ t) (ramTaken s (fun t => (σ t).rready (i t)) t) (WNarrow.beats dw σ i t)
      (WNarrow.bursts σ i t) := by
  have hmod : countMod pack = pack := by rw [hk, countMod_pow]
  induction t with
  | zero =>
    obtain ⟨wd, wl, wv, e⟩ := R.start
    rw [e]
    exact ⟨by dsimp; omega, by simp [ramTaken], by simp [ramTaken, WNarrow.beats],
      by simp [WNarrow.beats, WNarrow.bursts], by simp, by simp [ramTaken]; omega⟩
  | succ t ih =>
    obtain ⟨i1, i2, i3, i4, i5, i6⟩ := ih
    have hi := R.inp t
    rw [R.step t]
    rw [ramTaken, collect_succ, WNarrow.beats, collect_succ, WNarrow.bursts, collect_succ]
    change WNarrow.Inv _ _ _ _ (ramTaken s (fun t => (σ t).rready (i t)) t ++ _) (WNarrow.beats dw σ i t ++ _)
      (WNarrow.bursts σ i t ++ _)
    have hnext := R.ram.next hL t
    have hq := (R.ram.facts hL t).2
    generalize ramTaken s (fun t => (σ t).rready (i t)) t = C at *
    generalize WNarrow.beats dw σ i t = S at *
    generalize WNarrow.bursts σ i t = B at *
    have hv : (i t).rvalid = (s t).rvalid := by rw [hi]
    have hd : (i t).rdata = (s t).rdata := by rw [hi]
    have hl : (i t).rlast = (s t).rlast := by rw [hi]
    generalize σ t = q at *
    generalize i t = j at *
    generalize s t = r at *
    -- no word taken, no beat sent
    have quiet : (r.rvalid && q.rready j) = false → q.wcond j = false →
        WNarrow.Inv pack dw L (q.step pack dw j)
          (C ++ (if (r.rvalid && q.rready j) = true then some (r.rdata, r.rlast) else none).toList)
          (S ++ (q.sent dw j).toList) (B ++ (if (q.on && q.size == 0) = true then j.fifo else none).toList) := by
      intro e1 e2
      simp only [e1, Bool.false_eq_true, if_false, Option.toList_none, List.append_nil, WNarrow.sent, WNarrow.step, e2,
        Bool.false_and, Bool.not_false, Bool.and_true]
      cases hz : (q.on && q.size == 0) with
      | false => exact ⟨i1, i2, i3, by simpa using i4, i5, i6⟩
      | true =>
        have hz' : q.size = 0 := by simp at hz; exact hz.2
        rw [hz'] at i4
        cases hf : j.fifo with
        | none => exact ⟨i1, i2, i3, by simpa [hz'] using i4, i5, i6⟩
        | some m => exact ⟨i1, i2, i3, by simp at i4 ⊢; exact i4, i5, i6⟩
    cases hon : q.on with
    | false =>
      rw [hon] at i6
      have h0 : q.count = 0 ∧ C.length = L := by simpa using i6.symm
      have e1 : r.rvalid = false := hq h0.2
      rw [← hon]
      exact quiet (by simp [e1]) (by simp [WNarrow.wcond, hon])
    | true =>
      by_cases hgo : q.wcond j = true
      · have hgo' := hgo
        simp [WNarrow.wcond, hon] at hgo'
        obtain ⟨⟨hfree, hpos⟩, hcv⟩ := hgo'
        obtain ⟨m, hm⟩ : ∃ m, q.size = m + 1 := ⟨q.size - 1, by omega⟩
        have hsz : (q.size == 0) = false := by simp; omega
        have hlast : (S.map Prod.snd ++ [q.size == 1]) ++ flags (q.size - 1) = B.flatMap flags := by
          rw [hm, flags_succ] at i4
          rw [← i4, hm]
          simp only [List.append_assoc, List.cons_append, List.nil_append, Nat.add_sub_cancel]
          congr 2
          rw [Bool.eq_iff_iff]; simp
        by_cases h0 : q.count = 0
        · have hrv : r.rvalid = true := by
            rcases hcv with h | h
            · omega
            · rw [← hv]; exact h
          have hrr : q.rready j = true := by simp [WNarrow.rready, h0, hpos]; exact hfree
          obtain ⟨n1, n2, -⟩ := hnext hrv hrr
          have hne : ¬ (0 = pack - 1) := by omega
          have e : q.step pack dw j = ⟨true, 1, r.rdata / 2 ^ dw, r.rlast, q.size - 1,
              nextValid q.wv j.wready true⟩ := by
            simp [WNarrow.step, hgo, h0, hon, hne, hd, hl, hmod]
            exact Nat.mod_eq_of_lt (by omega)
          rw [e]
          simp only [hrv, hrr, Bool.and_self, if_true, Option.toList_some, WNarrow.sent, hgo, h0, hsz, Bool.and_false,
            Bool.false_eq_true, if_false, Option.toList_none, List.append_nil]
          refine ⟨by dsimp; omega, by simp; omega, ?_, by simpa using hlast, ?_, by simp⟩
          · simp only [h0, if_true, List.append_nil] at i3
            simp only [List.map_append, i3, List.flatMap_append, List.map_cons, List.map_nil, hd]
            have hpk := split_succ (pack - 1) dw r.rdata
            rw [show pack - 1 + 1 = pack by omega] at hpk
            simp [hpk]
          · intro _
            simp [n2]
        · have hrr : q.rready j = false := by simp [WNarrow.rready, h0]
          have hwl := i5 (by omega)
          have hsplit : q.wdata % 2 ^ dw :: split (pack - 1 - q.count) dw (q.wdata / 2 ^ dw) =
              split (pack - q.count) dw q.wdata := by
            rw [← split_succ]; congr 1; omega
          rw [if_neg h0, ← hsplit] at i3
          simp only [hrr, Bool.and_false, Bool.false_eq_true, if_false, Option.toList_none, List.append_nil,
            WNarrow.sent, hgo, if_true, h0, hsz, Option.toList_some]
          by_cases hf : q.count = pack - 1
          · have e : q.step pack dw j = ⟨!q.wlast, 0, q.wdata / 2 ^ dw, q.wlast, q.size - 1,
                nextValid q.wv j.wready true⟩ := by
              have h0' : ¬ (pack - 1 = 0) := by omega
              simp [WNarrow.step, hgo, hf, hon, h0']
            rw [e]
            refine ⟨by dsimp; omega, i2, ?_, by simpa using hlast, by simp, by simp [hwl]; rfl⟩
            rw [← i3, hf]
            simp
          · have e : q.step pack dw j = ⟨true, q.count + 1, q.wdata / 2 ^ dw, q.wlast, q.size - 1,
                nextValid q.wv j.wready true⟩ := by
              simp [WNarrow.step, hgo, hf, hon, h0, hmod]
              exact Nat.mod_eq_of_lt (by omega)
            rw [e]
            refine ⟨by dsimp; omega, i2, ?_, by simpa using hlast, fun _ => hwl, by simp⟩
            rw [← i3]
            simp [show pack - (q.count + 1) = pack - 1 - q.count by omega]
      · have hgo' : q.wcond j = false := by simpa using hgo
        have := quiet ?_ hgo'
        · simpa only [hon] using this
        by_contra hc
        simp at hc
        apply hgo
        have hrr := hc.2
        simp [WNarrow.rready] at hrr
        simp [WNarrow.wcond, hon, hv, hc.1, hrr.2]
        exact hrr.1.1

/-- **C37 (write, RAM word = `pack` AXI words).** For every RAM contents, every schedule of `wready` and of the
    request FIFO: the data of the beats sent are the pieces, least significant first, of the RAM words in order; the
    last flags mark exactly the end of each requested burst; the machine stops exactly when all `L * pack` beats have
    been sent. -/
theorem c37_write_narrow {pack dw aw k : ℕ} (hk : pack = 2 ^ k) (hp : 2 ≤ pack) {mem : ℕ → ℕ} {addr stride L : ℕ}
    (hL : 0 < L) {wready : ℕ → Bool} {fifo : ℕ → Option ℕ} {s : ℕ → Burst.RState ℕ} {σ : ℕ → WNarrow} {i : ℕ → WrIn}
    (R : WNarrow.Run pack dw aw mem addr stride L wready fifo s σ i) (t : ℕ) :
    (WNarrow.beats dw σ i t).map Prod.fst <+: (ramWords aw mem addr stride L).flatMap (split pack dw) ∧
    (WNarrow.beats dw σ i t).map Prod.snd ++ flags (σ t).size = (WNarrow.bursts σ i t).flatMap flags ∧
    ((σ t).on = false ↔ (WNarrow.beats dw σ i t).length = L * pack) := by
  have h := WNarrow.inv hk hp hL R t
  have hC := taken_words (R.ram.facts hL t).1
  refine ⟨?_, h.last, ?_⟩
  · have hpre : ((ramTaken s (fun t => (σ t).rready (i t)) t).map Prod.fst).flatMap (split pack dw) <+:
        (ramWords aw mem addr stride L).flatMap (split pack dw) := by
      obtain ⟨m, e⟩ := hC
      rw [← e, List.flatMap_append]
      exact List.prefix_append _ _
    rw [← h.data] at hpre
    exact (List.prefix_append _ _).trans hpre
  · have hl := congrArg List.length h.data
    have h1 := h.len
    have h2 := h.count
    rw [h.onn]
    simp only [List.length_append, flatMap_split_length, List.length_map] at hl
    by_cases h0 : (σ t).count = 0
    · simp only [h0, if_true, List.length_nil, Nat.add_zero] at hl
      rw [hl]
      simp [h0]
      omega
    · simp only [h0, if_false, split_length] at hl
      simp [h0]
      have := Nat.mul_le_mul_right pack h1
      omega

/-! ## AXI word wider than RAM word -/

/-- The machine, the RAM burst and the write data channel together. -/
structure WWide.Run (pack rw aw : ℕ) (mem : ℕ → ℕ) (addr stride L : ℕ) (wready : ℕ → Bool) (fifo : ℕ → Option ℕ)
    (s : ℕ → Burst.RState ℕ) (σ : ℕ → WWide) (i : ℕ → WrIn) : Prop where
  inp : ∀ t, i t = ⟨(s t).rvalid, (s t).rdata, (s t).rlast, wready t, fifo t⟩
  ram : RamRun aw mem addr stride L s (fun t => (σ t).rready (i t))
  start : ∃ wd wv, wd < 2 ^ (pack * rw) ∧ σ 0 = ⟨true, 0, wd, 0, wv⟩
  step : ∀ t, σ (t + 1) = (σ t).step pack rw (i t)

/-- The beats accepted by the write data channel in the first `t` cycles. -/
def WWide.beats (pack rw : ℕ) (σ : ℕ → WWide) (i : ℕ → WrIn) (t : ℕ) : List (ℕ × Bool) :=
  collect (fun t => (σ t).sent pack rw (i t)) t

/-- The burst lengths (AXI words) taken from the request FIFO in the first `t` cycles. -/
def WWide.bursts (σ : ℕ → WWide) (i : ℕ → WrIn) (t : ℕ) : List ℕ :=
  collect (fun t => if (σ t).on && (σ t).size == 0 then (i t).fifo else none) t

structure WWide.Inv (pack rw L : ℕ) (σ : WWide) (C S : List (ℕ × Bool)) (B : List ℕ) : Prop where
  count : σ.count < pack
  wd : σ.wdata < 2 ^ (pack * rw)
  wv : 0 < σ.count → σ.wv = false
  len : C.length ≤ L
  small : ∀ b ∈ S, b.1 < 2 ^ (pack * rw)
  data : (S.map Prod.fst).flatMap (split pack rw) ++ split σ.count rw (σ.wdata / 2 ^ (rw * (pack - σ.count))) =
    C.map Prod.fst
  size : C.length + σ.size = B.sum * pack
  last : S.map Prod.snd ++ flags ((σ.size + σ.count) / pack) = B.flatMap flags
  onn : σ.on = decide (C.length < L)

theorem WWide.inv {pack rw aw k : ℕ} (hk : pack = 2 ^ k) (hp : 2 ≤ pack) {mem : ℕ → ℕ} {addr stride L : ℕ}
    (hL : 0 < L) (hmul : pack ∣ L) (hmem : ∀ a, mem a < 2 ^ rw) {wready : ℕ → Bool} {fifo : ℕ → Option ℕ}
    {s : ℕ → Burst.RState ℕ} {σ : ℕ → WWide} {i : ℕ → WrIn}
    (R : WWide.Run pack rw aw mem addr stride L wready fifo s σ i)
    (hsum : ∀ t, (WWide.bursts σ i t).sum * pack ≤ L) (t : ℕ) :
    WWide.Inv pack rw L (σ t) (ramTaken s (fun t => (σ t).rready (i t)) t) (WWide.beats pack rw σ i t)
      (WWide.bursts σ i t) := by
  have hmod : countMod pack = pack := by rw [hk, countMod_pow]
  obtain ⟨K, rfl⟩ := hmul
  induction t with
  | zero =>
    obtain ⟨wd, wv, hw, e⟩ := R.start
    rw [e]
    exact ⟨by dsimp; omega, hw, by simp, by simp [ramTaken], by simp [WWide.beats], by simp [ramTaken, WWide.beats],
      by simp [ramTaken, WWide.bursts], by simp [WWide.beats, WWide.bursts], by simpa [ramTaken] using hL⟩
  | succ t ih =>
    obtain ⟨i1, i2, i3, i4, i5, i6, i7, i8, i9⟩ := ih
    have hs := hsum t
    have hi := R.inp t
    rw [R.step t]
    rw [ramTaken, collect_succ, WWide.beats, collect_succ, WWide.bursts, collect_succ]
    change WWide.Inv _ _ _ _ (ramTaken s (fun t => (σ t).rready (i t)) t ++ _) (WWide.beats pack rw σ i t ++ _)
      (WWide.bursts σ i t ++ _)
    have hnext := R.ram.next hL t
    generalize ramTaken s (fun t => (σ t).rready (i t)) t = C at *
    generalize WWide.beats pack rw σ i t = S at *
    generalize WWide.bursts σ i t = B at *
    have hv : (i t).rvalid = (s t).rvalid := by rw [hi]
    have hd : (i t).rdata = (s t).rdata := by rw [hi]
    have hl : (i t).rlast = (s t).rlast := by rw [hi]
    generalize σ t = q at *
    generalize i t = j at *
    generalize s t = r at *
    have hlen := congrArg List.length i6
    simp only [List.length_append, flatMap_split_length, List.length_map, split_length] at hlen
    by_cases hgo : r.rvalid = true ∧ q.rready j = true
    · obtain ⟨hrv, hrr⟩ := hgo
      obtain ⟨n1, n2, a, n3⟩ := hnext hrv hrr
      have hon : q.on = true := by rw [i9]; simpa using n1
      have hfp := hrr
      simp [WWide.rready] at hfp
      obtain ⟨hfree, hpos⟩ := hfp
      have hsz : (q.size == 0) = false := by simp; omega
      have hdlt : r.rdata < 2 ^ rw := n3 ▸ hmem a
      have hcat := cat_lt (d := r.rdata) (x := q.wdata) (w := rw) (by omega : 0 < pack) hdlt i2
      have hsp := split_cat (d := r.rdata) (x := q.wdata) (w := rw) i1 hdlt i2
      simp only [hrv, hrr, Bool.and_self, if_true, Option.toList_some, hsz, Bool.and_false,
        Bool.false_eq_true, if_false, Option.toList_none, List.append_nil]
      by_cases hf : q.count = pack - 1
      · have hwv := i3 (by omega)
        have hw : q.wcond pack j = true := by simp [WWide.wcond, hon, hf, hv, hrv, hrr]
        have hlast : j.rlast = decide (C.length + 1 = pack * K) := by rw [hl, n2]
        have e : q.step pack rw j = ⟨!j.rlast, 0, r.rdata * 2 ^ (pack * rw - rw) + q.wdata / 2 ^ rw, q.size - 1,
            nextValid q.wv j.wready true⟩ := by
          simp [WWide.step, hw, hon, hv, hrv, hrr, hf, WWide.cat, hd]
        have e2 : q.sent pack rw j = some (r.rdata * 2 ^ (pack * rw - rw) + q.wdata / 2 ^ rw,
            j.rlast || q.size == 1) := by
          simp [WWide.sent, hw, hwv, WWide.cat, hd]
        rw [e, e2, Option.toList_some]
        -- the remaining size is a multiple of `pack`
        have hsize : q.size = (B.sum - S.length - 1) * pack + 1 := by
          have h1 : q.size + pack - 1 = (B.sum - S.length) * pack := by
            rw [Nat.sub_mul]; omega
          have h2 : 1 ≤ B.sum - S.length := by
            rcases Nat.eq_zero_or_pos (B.sum - S.length) with h | h
            · rw [h] at h1; omega
            · exact h
          obtain ⟨x, hx⟩ : ∃ x, B.sum - S.length = x + 1 := ⟨B.sum - S.length - 1, by omega⟩
          rw [hx] at h1 ⊢
          rw [Nat.add_mul] at h1
          simp
          omega
        generalize B.sum - S.length - 1 = x at hsize
        have hdiv : (q.size + q.count) / pack = x + 1 := by
          rw [hsize, hf, show x * pack + 1 + (pack - 1) = (x + 1) * pack by rw [Nat.add_mul]; omega]
          exact Nat.mul_div_cancel _ (by omega)
        have hflag : (j.rlast || q.size == 1) = decide (x = 0) := by
          rw [hlast, Bool.eq_iff_iff]
          have hx1 : q.size = 1 ↔ x = 0 := by
            rw [hsize]
            constructor
            · intro h
              have : x * pack = 0 := by omega
              rcases Nat.mul_eq_zero.1 this with h | h
              · exact h
              · omega
            · intro h; simp [h]
          simp [hx1]
          intro h
          apply hx1.1
          omega
        have hS : ((S ++ [(r.rdata * 2 ^ (pack * rw - rw) + q.wdata / 2 ^ rw, j.rlast || q.size == 1)]).map
            Prod.fst).flatMap (split pack rw) = (C ++ [(r.rdata, r.rlast)]).map Prod.fst := by
          rw [hf] at hsp i6
          simp [show pack - 1 + 1 = pack by omega] at hsp
          simp only [List.map_append, List.flatMap_append, ← i6, List.map_cons, List.map_nil, List.flatMap_cons,
            List.flatMap_nil, List.append_nil, hsp, List.append_assoc]
        refine ⟨by dsimp; omega, hcat, by simp, by simp; omega, ?_, by simpa using hS, ?_, ?_, ?_⟩
        · intro b hb
          rw [List.mem_append] at hb
          rcases hb with hb | hb
          · exact i5 b hb
          · simp at hb; rw [hb]; exact hcat
        · simp; omega
        · rw [hdiv, flags_succ] at i8
          rw [← i8, hflag]
          simp [hsize, Nat.mul_div_cancel _ (by omega : 0 < pack)]
        · dsimp only
          rw [hlast, Bool.eq_iff_iff]
          simp; omega
      · have hw : q.wcond pack j = false := by simp [WWide.wcond, hf]
        have hnl : r.rlast = false := by
          rw [n2]
          simp
          intro h
          apply hf
          have : (S.length * pack + q.count + 1) % pack = 0 := by
            rw [hlen, h]; simp
          rw [Nat.add_assoc, Nat.mul_add_mod_self_right] at this
          by_contra hne
          rw [Nat.mod_eq_of_lt (by omega)] at this
          omega
        have e : q.step pack rw j = ⟨true, q.count + 1, r.rdata * 2 ^ (pack * rw - rw) + q.wdata / 2 ^ rw, q.size - 1,
            nextValid q.wv j.wready false⟩ := by
          simp [WWide.step, hw, hon, hv, hrv, hrr, hf, WWide.cat, hd, hmod]
          exact Nat.mod_eq_of_lt (by omega)
        have e2 : q.sent pack rw j = none := by simp [WWide.sent, hw]
        rw [e, e2]
        simp only [Option.toList_none, List.append_nil]
        refine ⟨by dsimp; omega, hcat, ?_, by simp; omega, i5, ?_, by simp; omega, ?_, ?_⟩
        · intro _
          by_cases h0 : q.count = 0
          · simp [h0] at hfree
            simp [nextValid]
            rcases hfree with h | h
            · exact fun _ => h
            · simp [h]
          · simp [nextValid, i3 (by omega)]
        · simp only [List.map_append, ← i6, List.append_assoc]
          rw [show pack - (q.count + 1) = pack - 1 - q.count by omega, hsp]
          simp
        · rw [← i8]
          dsimp only
          congr 3
          omega
        · have : C.length + 1 ≠ pack * K := by
            rw [n2] at hnl; simpa using hnl
          simp; omega
    · have e1 : (r.rvalid && q.rready j) = false := by
        cases h1 : r.rvalid <;> cases h2 : q.rready j <;> simp [h1, h2] at hgo ⊢
      have hw : q.wcond pack j = false := by
        simp [WWide.wcond, hv]
        intro _ _ h
        simpa [h] using e1
      have e2 : q.sent pack rw j = none := by simp [WWide.sent, hw]
      have e3 : (q.on && r.rvalid && q.rready j) = false := by rw [Bool.and_assoc, e1]; simp
      have hwv' : 0 < q.count → nextValid q.wv j.wready false = false := by
        intro h; simp [nextValid, i3 h]
      simp only [e1, e2, Bool.false_eq_true, if_false, Option.toList_none, List.append_nil, WWide.step, hv, e3, hw,
        Bool.false_and, Bool.not_false, Bool.and_true]
      cases hz : (q.on && q.size == 0) with
      | false => exact ⟨i1, i2, hwv', i4, i5, i6, by simpa using i7, by simpa using i8, i9⟩
      | true =>
        have hz' : q.size = 0 := by simp at hz; exact hz.2
        have hc0 : q.count = 0 := by
          rw [hz'] at i7
          have : (S.length * pack + q.count) % pack = 0 := by rw [hlen]; simp at i7; rw [i7]; simp
          rwa [Nat.mul_add_mod_self_right, Nat.mod_eq_of_lt i1] at this
        cases hf : j.fifo with
        | none => exact ⟨i1, i2, hwv', i4, i5, i6, by simpa using i7, by simpa using i8, i9⟩
        | some m =>
          refine ⟨i1, i2, hwv', i4, i5, i6, ?_, ?_, i9⟩
          · simp [hz'] at i7
            simp [hmod, i7, Nat.add_mul]
          · simp [hz', hc0] at i8
            simp [hmod, hc0, Nat.mul_div_cancel _ (by omega : 0 < pack), i8]

/-- **C37 (write, AXI word = `pack` RAM words).** For every RAM contents, every schedule of `wready` and of the
    request FIFO: the beats accepted by the write data channel, split into `pack` pieces least significant first,
    are the RAM words in order (up to fewer than `pack` words waiting for the next beat); the last flags mark exactly
    the end of each requested burst; the machine stops exactly when all `L` words have been sent. `L` is a multiple
    of `pack` (thread/axim.py:1508-1511 rounds it up) and the lengths in the request FIFO add up to at most
    `L / pack` (C34). -/
theorem c37_write_wide {pack rw aw k : ℕ} (hk : pack = 2 ^ k) (hp : 2 ≤ pack) {mem : ℕ → ℕ} {addr stride L : ℕ}
    (hL : 0 < L) (hmul : pack ∣ L) (hmem : ∀ a, mem a < 2 ^ rw) {wready : ℕ → Bool} {fifo : ℕ → Option ℕ}
    {s : ℕ → Burst.RState ℕ} {σ : ℕ → WWide} {i : ℕ → WrIn}
    (R : WWide.Run pack rw aw mem addr stride L wready fifo s σ i)
    (hsum : ∀ t, (WWide.bursts σ i t).sum * pack ≤ L) (t : ℕ) :
    (∃ rest, rest.length < pack ∧
      ((WWide.beats pack rw σ i t).map Prod.fst).flatMap (split pack rw) ++ rest =
        (ramWords aw mem addr stride L).take ((WWide.beats pack rw σ i t).length * pack + rest.length)) ∧
    (∀ b ∈ WWide.beats pack rw σ i t, b.1 < 2 ^ (pack * rw)) ∧
    (WWide.beats pack rw σ i t).map Prod.snd ++ flags (((σ t).size + (σ t).count) / pack) =
      (WWide.bursts σ i t).flatMap flags ∧
    ((σ t).on = false ↔ (WWide.beats pack rw σ i t).length * pack = L) := by
  have h := WWide.inv hk hp hL hmul hmem R hsum t
  have hC := taken_words (R.ram.facts hL t).1
  have hlen := congrArg List.length h.data
  simp only [List.length_append, flatMap_split_length, List.length_map, split_length] at hlen
  refine ⟨⟨split (σ t).count rw ((σ t).wdata / 2 ^ (rw * (pack - (σ t).count))), by simpa using h.count, ?_⟩,
    h.small, h.last, ?_⟩
  · rw [h.data, List.prefix_iff_eq_take.1 hC]
    simp [hlen]
  · rw [h.onn]
    have h1 := h.len
    have h2 := h.count
    obtain ⟨K, rfl⟩ := hmul
    simp
    constructor
    · intro h3
      have : ((WWide.beats pack rw σ i t).length * pack + (σ t).count) % pack = 0 := by
        rw [hlen, Nat.le_antisymm h1 h3]; simp
      rw [Nat.mul_add_mod_self_right, Nat.mod_eq_of_lt h2] at this
      omega
    · omega

/-! ## Round trip -/

/-- **C37 (round trip, RAM word = `pack` AXI words).** If the beats read are the beats written, the RAM words
    written by a finished read DMA are those read by the finished write DMA. -/
theorem c37_round_trip_narrow {pack dw aw k : ℕ} (hk : pack = 2 ^ k) (hp : 2 ≤ pack) {mem : ℕ → ℕ}
    (hmem : ∀ a, mem a < 2 ^ (pack * dw)) {addr stride L : ℕ} (hL : 0 < L) {wready : ℕ → Bool}
    {fifo : ℕ → Option ℕ} {s : ℕ → Burst.RState ℕ} {σ : ℕ → WNarrow} {i : ℕ → WrIn}
    (W : WNarrow.Run pack dw aw mem addr stride L wready fifo s σ i) {v : ℕ → Bool} {d : ℕ → ℕ} {ρ : ℕ → RNarrow}
    (R : RNarrow.Run pack dw L v d ρ) {t u : ℕ} (ht : (σ t).on = false) (hu : (ρ u).on = false)
    (heq : RNarrow.beats v d ρ u = (WNarrow.beats dw σ i t).map Prod.fst) (aw' addr' stride' : ℕ)
    (s0 : Burst.WState) (h0 : s0.busy = false) :
    ramWrites aw' addr' stride' L s0 (fun t => (ρ t).wvalid) (fun t => (ρ t).wdata) u =
      Burst.placed aw' addr' stride' (ramWords aw mem addr stride L) := by
  obtain ⟨ws, rest, h1, h2, h3, h4, h5⟩ := c37_read_narrow_ram hk hp hL R aw' addr' stride' s0 h0 u
  obtain ⟨h6, h7⟩ := h5 hu
  obtain ⟨w1, -, w3⟩ := c37_write_narrow hk hp hL W t
  have hlen := w3.1 ht
  have hfull : (WNarrow.beats dw σ i t).map Prod.fst = (ramWords aw mem addr stride L).flatMap (split pack dw) := by
    apply w1.eq_of_length
    rw [flatMap_split_length, List.length_map, hlen]
    simp [ramWords]
  rw [h1]
  congr 1
  apply flatMap_split_inj (n := pack) (w := dw) (by omega) h4
  · intro x hx
    simp only [ramWords, List.mem_map] at hx
    obtain ⟨j, _, rfl⟩ := hx
    exact hmem _
  · rw [h7, List.append_nil] at h2
    rw [h2, heq, hfull]

/-- **C37 (round trip, AXI word = `pack` RAM words).** -/
theorem c37_round_trip_wide {pack rw aw k : ℕ} (hk : pack = 2 ^ k) (hp : 2 ≤ pack) {mem : ℕ → ℕ}
    (hmem : ∀ a, mem a < 2 ^ rw) {addr stride L : ℕ} (hL : 0 < L) (hmul : pack ∣ L) {wready : ℕ → Bool}
    {fifo : ℕ → Option ℕ} {s : ℕ → Burst.RState ℕ} {σ : ℕ → WWide} {i : ℕ → WrIn}
    (W : WWide.Run pack rw aw mem addr stride L wready fifo s σ i)
    (hsum : ∀ t, (WWide.bursts σ i t).sum * pack ≤ L) {v : ℕ → Bool} {d : ℕ → ℕ} {ρ : ℕ → RWide} {n : ℕ} (hn : 0 < n)
    (R : RWide.Run pack rw n v d ρ) {t u : ℕ} (ht : (σ t).on = false) (hu : (ρ u).on = false)
    (heq : RWide.beats v d ρ u = (WWide.beats pack rw σ i t).map Prod.fst) (aw' addr' stride' : ℕ)
    (s0 : Burst.WState) (h0 : s0.busy = false) :
    ramWrites aw' addr' stride' n s0 (fun t => (ρ t).wvalid) (fun t => (ρ t).word rw) u =
      Burst.placed aw' addr' stride' ((ramWords aw mem addr stride L).take n) := by
  obtain ⟨m, _, h1, h2⟩ := c37_read_wide_ram hk hp hn R aw' addr' stride' s0 h0 u
  obtain ⟨rfl, _⟩ := h2 hu
  obtain ⟨⟨rest, w1, w2⟩, -, -, w3⟩ := c37_write_wide hk hp hL hmul hmem W hsum t
  have hlen := w3.1 ht
  rw [h1, heq]
  congr 2
  have hl := congrArg List.length w2
  simp [ramWords, hlen] at hl
  rw [List.flatMap_map] at *
  have hrest : rest = [] := by
    have := congrArg List.length w2
    rw [hlen, List.take_of_length_le (by simp [ramWords])] at this
    have e := flatMap_split_length pack rw ((WWide.beats pack rw σ i t).map Prod.fst)
    rw [List.flatMap_map] at e
    rw [List.length_append, e] at this
    simp [ramWords, hlen] at this
    exact this
  rw [hrest, List.append_nil, hlen, List.take_of_length_le (by simp [ramWords])] at w2
  exact w2

/-- Non-vacuity: the three write machines with a RAM of 16-bit (8-bit) words, a slow channel and two bursts. -/
example :
    let rd (t : ℕ) : Bool := t % 3 ≠ 1
    let ff (t : ℕ) : Option ℕ := if t = 0 ∨ t = 12 then some 2 else none
    let mem : ℕ → ℕ := fun a => 257 * a + 1
    let go (t : ℕ) : Burst.RState ℕ × WNarrow := Nat.rec
      (Burst.rstep 4 mem (Burst.rinit 0) ⟨true, 3, 1, 2, false, false⟩, ⟨true, 0, 0, false, 0, false⟩)
      (fun t p => let i : WrIn := ⟨p.1.rvalid, p.1.rdata, p.1.rlast, rd t, ff t⟩
        (Burst.rstep 4 mem p.1 ⟨false, 0, 0, 0, p.2.rready i, false⟩, p.2.step 2 8 i)) t
    let i (t : ℕ) : WrIn := ⟨(go t).1.rvalid, (go t).1.rdata, (go t).1.rlast, rd t, ff t⟩
    WNarrow.beats 8 (fun t => (go t).2) i 20 = [(4, false), (3, true), (5, false), (4, true)] ∧
      (go 20).2.on = false := by decide +kernel

example :
    let rd (t : ℕ) : Bool := t % 3 ≠ 1
    let ff (t : ℕ) : Option ℕ := if t = 0 ∨ t = 12 then some 1 else none
    let mem : ℕ → ℕ := fun a => a + 1
    let go (t : ℕ) : Burst.RState ℕ × WWide := Nat.rec
      (Burst.rstep 4 mem (Burst.rinit 0) ⟨true, 3, 1, 4, false, false⟩, ⟨true, 0, 0, 0, false⟩)
      (fun t p => let i : WrIn := ⟨p.1.rvalid, p.1.rdata, p.1.rlast, rd t, ff t⟩
        (Burst.rstep 4 mem p.1 ⟨false, 0, 0, 0, p.2.rready i, false⟩, p.2.step 2 8 i)) t
    let i (t : ℕ) : WrIn := ⟨(go t).1.rvalid, (go t).1.rdata, (go t).1.rlast, rd t, ff t⟩
    WWide.beats 2 8 (fun t => (go t).2) i 25 = [(5 * 256 + 4, true), (7 * 256 + 6, true)] ∧
      (go 25).2.on = false := by decide +kernel

example :
    let rd (t : ℕ) : Bool := t % 3 ≠ 1
    let ff (t : ℕ) : Option ℕ := if t = 0 then some 2 else if t = 12 then some 1 else none
    let mem : ℕ → ℕ := fun a => a + 1
    let go (t : ℕ) : Burst.RState ℕ × WSame := Nat.rec
      (Burst.rstep 4 mem (Burst.rinit 0) ⟨true, 3, 1, 3, false, false⟩, ⟨true, 0, false⟩)
      (fun t p => let i : WrIn := ⟨p.1.rvalid, p.1.rdata, p.1.rlast, rd t, ff t⟩
        (Burst.rstep 4 mem p.1 ⟨false, 0, 0, 0, p.2.rready i, false⟩, p.2.step i)) t
    let i (t : ℕ) : WrIn := ⟨(go t).1.rvalid, (go t).1.rdata, (go t).1.rlast, rd t, ff t⟩
    WSame.beats (fun t => (go t).2) i 25 = [(4, false), (5, true), (6, true)] ∧ (go 25).2.on = false := by
  decide +kernel

end Dma
