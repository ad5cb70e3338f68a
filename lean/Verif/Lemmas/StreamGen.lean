import Verif.Lemmas.StreamRun

/-!
# The address generators of thread streams keep their contracts (for C62)
-/

namespace SRun

variable {V : Type}

/-- The addresses of `set_source` and `set_sink`. -/
def lin (aw : ℕ) (c : ℤ × ℕ × ℤ) : List ℤ := (List.range c.2.1).map fun k : ℕ => (c.1 + (k : ℤ) * c.2.2) % 2 ^ aw

/-- Sizes that fit their register. -/
def linOk (aw : ℕ) (c : ℤ × ℕ × ℤ) : Prop := 1 ≤ c.2.1 ∧ c.2.1 < 2 ^ (aw + 1)

theorem accepted_succ (w : ℕ → Bool) (k : ℕ) : accepted w (k + 1) = accepted w k + if w k then 1 else 0 := by
  unfold accepted
  rw [List.range_succ, List.filter_append, List.length_append]
  cases h : w k <;> simp [h]

/-! ## `set_source` -/

theorem normal_run {aw : ℕ} {x : ℕ → NSrc} {c : ℕ → ℤ × ℕ × ℤ} {start stop : ℕ → Bool}
    (hx : ∀ t, x (t + 1) = NSrc.step aw (c t) (start t) (stop t) (x t)) (h0 : (x 0).st = 0) (hs : start 0 = true)
    (hok : linOk aw (c 0)) (k : ℕ) (hk : k < (c 0).2.1) (hn : ∀ t, 0 < t → t < 2 + k → start t = false ∧ stop t = false) :
    x (2 + k) = ⟨2, Pat.addr aw (c 0).1, (c 0).2.1, Pat.addr aw (c 0).2.2, Pat.addr aw ((c 0).1 + k * (c 0).2.2), true,
      (c 0).2.1 - k, false⟩ := by
  obtain ⟨h1, h2⟩ := hok
  induction k with
  | zero =>
    have e1 : x 1 = { x 0 with st := 1, renable := false, offset := Pat.addr aw (c 0).1, size := (c 0).2.1 % 2 ^ (aw + 1),
                               stride := Pat.addr aw (c 0).2.2 } := by
      rw [hx 0, NSrc.step, if_pos h0, if_pos hs]
    rw [show 2 + 0 = 1 + 1 by rfl, hx 1, NSrc.step, if_neg (by simp [e1]), if_pos (by simp [e1]), e1]
    simp [Nat.mod_eq_of_lt h2]
  | succ k ih =>
    have := ih (by omega) (fun t a b => hn t a (by omega))
    rw [show 2 + (k + 1) = (2 + k) + 1 by omega, hx, this, NSrc.step, (hn (2 + k) (by omega) (by omega)).2]
    have e1 : ((c 0).2.1 - k == 1) = false := by simp; omega
    have e2 : Pat.dec aw ((c 0).2.1 - k) = (c 0).2.1 - (k + 1) := by rw [Pat.dec_eq (by omega) (by omega)]; omega
    have e3 : Pat.addr aw (Pat.addr aw ((c 0).1 + k * (c 0).2.2) + Pat.addr aw (c 0).2.2) =
        Pat.addr aw ((c 0).1 + ((k + 1 : ℕ) : ℤ) * (c 0).2.2) := by
      unfold Pat.addr
      rw [← Int.add_emod]
      push_cast
      congr 1
      ring
    simp [e1, e2, e3]

theorem normal_reads (aw : ℕ) : (normalSrc aw).Reads (linOk aw) (lin aw)
    (fun (x : NSrc) => x.st = 0 ∧ x.idle = true ∧ x.renable = false) where
  init := ⟨rfl, rfl, rfl⟩
  quiet := fun x h => ⟨h.2.1, h.2.2⟩
  stay := by
    intro c stop x h
    show (NSrc.step aw c false stop x).st = 0 ∧ (NSrc.step aw c false stop x).idle = true ∧
      (NSrc.step aw c false stop x).renable = false
    simp [NSrc.step, h.1, h.2.1]
  first := by
    intro x c start stop hx h0 hs
    have hx0 : x 1 = NSrc.step aw (c 0) (start 0) (stop 0) (x 0) := hx 0
    show (x 1).renable = false
    rw [hx0]
    simp [NSrc.step, h0.1, hs]
  read := by
    intro x c start stop hx h0 hs hok k hk hn
    have hk' : k < (c 0).2.1 := by simpa [lin] using hk
    have := normal_run hx h0.1 hs hok k hk' hn
    show (x (2 + k)).idle = false ∧ (x (2 + k)).renable = true ∧ (x (2 + k)).raddr = _
    rw [this]
    refine ⟨rfl, rfl, ?_⟩
    simp [lin, Pat.addr]
  last := by
    intro x c start stop hx h0 hs hok hn
    have hlen : (lin aw (c 0)).length = (c 0).2.1 := by simp [lin]
    rw [hlen] at hn ⊢
    obtain ⟨n, hn1⟩ : ∃ n, (c 0).2.1 = n + 1 := ⟨(c 0).2.1 - 1, by have := hok.1; omega⟩
    have := normal_run hx h0.1 hs hok n (by omega) (fun t a b => hn t a (by omega))
    have hx' : x (2 + n + 1) = NSrc.step aw (c (2 + n)) (start (2 + n)) (stop (2 + n)) (x (2 + n)) := hx (2 + n)
    show (x (2 + (c 0).2.1)).st = 0 ∧ (x (2 + (c 0).2.1)).idle = true ∧ (x (2 + (c 0).2.1)).renable = false
    rw [hn1, show 2 + (n + 1) = 2 + n + 1 by omega, hx', this]
    have e1 : ((c 0).2.1 - n == 1) = true := by simp; omega
    simp [NSrc.step, e1]

/-! ## `set_source_pattern` -/

theorem pattern_run {aw : ℕ} {x : ℕ → Pat.Src} {c : ℕ → ℤ × List (ℕ × ℤ)} {start stop : ℕ → Bool}
    (hx : ∀ t, x (t + 1) = Pat.Src.step aw (c t).1 (c t).2 (x t) ⟨start t, true, stop t⟩) (h0 : (x 0).st = 0)
    (hs : start 0 = true) (hok : Pat.Ok aw (c 0).2) (k : ℕ) (hk : k < Pat.count (c 0).2)
    (hn : ∀ t, 0 < t → t < 2 + k → start t = false ∧ stop t = false) :
    x (2 + k) = ⟨if k + 1 = Pat.count (c 0).2 then 2 else 1, Pat.addr aw (c 0).1, Pat.dimsAt aw (c 0).2 (k + 1),
      Pat.addr aw ((c 0).1 + Pat.offs (c 0).2 k), true, false⟩ := by
  induction k with
  | zero =>
    have e1 : x 1 = { x 0 with st := 1, offset := Pat.addr aw (c 0).1, dims := (c 0).2.map (Pat.Dim.load aw) } := by
      rw [hx 0, Pat.Src.step]
      simp [h0, hs]
    rw [show 2 + 0 = 1 + 1 by rfl, hx 1, e1, Pat.dimsAt_zero hok]
    simp only [Pat.Src.step, (hn 1 (by omega) (by omega)).2, Pat.fin_dimsAt hok, Pat.tick_dimsAt hok, Pat.total_dimsAt,
      Nat.mod_eq_of_lt hk]
    simp
  | succ k ih =>
    have := ih (by omega) (fun t a b => hn t a (by omega))
    rw [show 2 + (k + 1) = (2 + k) + 1 by omega, hx, this]
    simp only [Pat.Src.step, (hn (2 + k) (by omega) (by omega)).2, Pat.fin_dimsAt hok, Pat.tick_dimsAt hok,
      Pat.total_dimsAt, Nat.mod_eq_of_lt hk, if_neg (by omega : ¬ (k + 1 = Pat.count (c 0).2))]
    simp

theorem pattern_reads (aw : ℕ) : (patternSrc aw).Reads (fun c => Pat.Ok aw c.2) (fun c => Pat.addresses aw c.1 c.2)
    (fun (x : Pat.Src) => x.st = 0 ∧ x.idle = true ∧ x.renable = false) where
  init := ⟨rfl, rfl, rfl⟩
  quiet := fun x h => ⟨h.2.1, h.2.2⟩
  stay := by
    intro c stop x h
    show (Pat.Src.step aw c.1 c.2 x ⟨false, true, stop⟩).st = 0 ∧ (Pat.Src.step aw c.1 c.2 x ⟨false, true, stop⟩).idle = true ∧
      (Pat.Src.step aw c.1 c.2 x ⟨false, true, stop⟩).renable = false
    simp [Pat.Src.step, h.1, h.2.1, h.2.2]
  first := by
    intro x c start stop hx h0 hs
    have hx0 : x 1 = Pat.Src.step aw (c 0).1 (c 0).2 (x 0) ⟨start 0, true, stop 0⟩ := hx 0
    show (x 1).renable = false
    rw [hx0]
    simp [Pat.Src.step, h0.1, hs, h0.2.2]
  read := by
    intro x c start stop hx h0 hs hok k hk hn
    have hk' : k < Pat.count (c 0).2 := by rwa [Pat.addresses_length] at hk
    have := pattern_run hx h0.1 hs hok k hk' hn
    show (x (2 + k)).idle = false ∧ (x (2 + k)).renable = true ∧ (x (2 + k)).raddr = _
    rw [this]
    refine ⟨rfl, rfl, ?_⟩
    have h1 := Pat.addresses_get aw (c 0).1 (c 0).2 hk'
    rw [List.getElem?_eq_getElem hk, Option.some.injEq] at h1
    exact h1.symm
  last := by
    intro x c start stop hx h0 hs hok hn
    rw [Pat.addresses_length] at hn ⊢
    obtain ⟨n, hn1⟩ : ∃ n, Pat.count (c 0).2 = n + 1 := ⟨Pat.count (c 0).2 - 1, by have := Pat.Ok.count_pos hok; omega⟩
    have := pattern_run hx h0.1 hs hok n (by omega) (fun t a b => hn t a (by omega))
    have hx' : x (2 + n + 1) = Pat.Src.step aw (c (2 + n)).1 (c (2 + n)).2 (x (2 + n)) ⟨start (2 + n), true, stop (2 + n)⟩ :=
      hx (2 + n)
    show (x (2 + Pat.count (c 0).2)).st = 0 ∧ (x (2 + Pat.count (c 0).2)).idle = true ∧
      (x (2 + Pat.count (c 0).2)).renable = false
    rw [hn1, show 2 + (n + 1) = 2 + n + 1 by omega, hx', this]
    simp [Pat.Src.step, hn1]

/-! ## `set_sink` -/

theorem normal_srun {aw : ℕ} {y : ℕ → NSink V} {c : ℕ → ℤ × ℕ × ℤ} {start stop w : ℕ → Bool} {d : ℕ → V}
    (hy : ∀ t, y (t + 1) = NSink.step aw (c t) (start t) (stop t) (w t) (d t) (y t)) (h0 : (y 0).st = 0) (hs : start 0 = true)
    (hok : linOk aw (c 0)) (k : ℕ) (hn : ∀ t, 0 < t → t < 2 + k → start t = false ∧ stop t = false) :
    (accepted (fun i => w (2 + i)) k < (c 0).2.1 ∧ (y (2 + k)).st = 2 ∧ (y (2 + k)).stride = Pat.addr aw (c 0).2.2 ∧
      (y (2 + k)).count = (c 0).2.1 - accepted (fun i => w (2 + i)) k ∧
      (y (2 + k)).waddr = Pat.addr aw ((c 0).1 + (accepted (fun i => w (2 + i)) k - 1) * (c 0).2.2)) ∨
    (accepted (fun i => w (2 + i)) k ≥ (c 0).2.1 ∧ (y (2 + k)).st = 0) := by
  obtain ⟨h1, h2⟩ := hok
  induction k with
  | zero =>
    have e1 : y 1 = { y 0 with st := 1, wenable := false, offset := Pat.addr aw (c 0).1, size := (c 0).2.1 % 2 ^ (aw + 1),
                               stride := Pat.addr aw (c 0).2.2 } := by
      rw [hy 0, NSink.step, if_pos h0, if_pos hs]
    left
    rw [show 2 + 0 = 1 + 1 by rfl, hy 1, NSink.step, if_neg (by simp [e1]), if_pos (by simp [e1]), e1]
    refine ⟨by simp [accepted]; omega, rfl, rfl, by simp [accepted, Nat.mod_eq_of_lt h2], ?_⟩
    simp only [Pat.addr, accepted]
    simp
    ring_nf
  | succ k ih =>
    rw [show 2 + (k + 1) = (2 + k) + 1 by omega, hy, accepted_succ]
    have hst := (hn (2 + k) (by omega) (by omega))
    rcases ih (fun t a b => hn t a (by omega)) with ⟨a1, a2, a3, a4, a5⟩ | ⟨a1, a2⟩
    · cases hw : w (2 + k) with
      | false =>
        left
        simp only [NSink.step, a2, hst.2]
        refine ⟨by simpa using a1, by simp, by simpa using a3, by simpa using a4, by simpa using a5⟩
      | true =>
        have hd : Pat.dec aw (y (2 + k)).count = (c 0).2.1 - (accepted (fun i => w (2 + i)) k + 1) := by
          rw [a4, Pat.dec_eq (by omega) (by omega)]; omega
        by_cases hl : accepted (fun i => w (2 + i)) k + 1 < (c 0).2.1
        · left
          have e1 : ((y (2 + k)).count == 1) = false := by rw [a4]; simp; omega
          simp only [NSink.step, a2, hst.2, e1, hd]
          refine ⟨by simpa using hl, by simp, by simpa using a3, by simp, ?_⟩
          simp only [if_neg (by omega : ¬ (2 = 0)), if_neg (by omega : ¬ (2 = 1)), a5, a3, if_true, Pat.addr]
          rw [← Int.add_emod]
          push_cast
          congr 1
          ring
        · right
          have e1 : ((y (2 + k)).count == 1) = true := by rw [a4]; simp; omega
          simp only [NSink.step, a2, hst.2, e1]
          refine ⟨by simp; omega, by simp⟩
    · right
      simp only [NSink.step, a2, hst.1]
      refine ⟨by omega, by simpa using a2⟩

theorem normal_writes (aw : ℕ) (v0 : V) : (normalSink V aw v0).Writes False (linOk aw) (lin aw)
    (fun (y : NSink V) => y.st = 0) where
  init := ⟨rfl, rfl⟩
  stay := by
    intro c stop w d y h
    have h : NSink.st y = 0 := h
    show (NSink.step aw c false stop w d y).st = 0 ∧ (if (NSink.step aw c false stop w d y).wenable then _ else _) = _
    simp [NSink.step, h]
  first := by
    intro y c start stop w d hy h0 hs h1 h2
    have hy0 : y 1 = NSink.step aw (c 0) (start 0) (stop 0) (w 0) (d 0) (y 0) := hy 0
    have hy1 : y 2 = NSink.step aw (c 1) (start 1) (stop 1) (w 1) (d 1) (y 1) := hy 1
    have h0 : NSink.st (y 0) = 0 := h0
    show (if (y 1).wenable then _ else _) = _ ∧ (if (y 2).wenable then _ else _) = _
    rw [hy1, hy0]
    simp [NSink.step, h0, hs]
  write := by
    intro y c start stop w d hy h0 hs hok _ k hn hst
    have hy' : ∀ t, y (t + 1) = NSink.step aw (c t) (start t) (stop t) (w t) (d t) (y t) := hy
    show (if (y (3 + k)).wenable then some ((y (3 + k)).waddr, (y (3 + k)).wdata) else none) = _ ∧ (_ → (y (3 + k)).st = 0)
    rw [show 3 + k = (2 + k) + 1 by omega, hy']
    rcases normal_srun hy' h0 hs hok k hn with ⟨a1, a2, a3, a4, a5⟩ | ⟨a1, a2⟩
    · refine ⟨?_, fun h => by simp [NSink.step, a2, h]⟩
      cases hw : w (2 + k) with
      | false => simp [NSink.step, a2]
      | true =>
        have e : (lin aw (c 0))[accepted (fun i => w (2 + i)) k]? =
            some (((c 0).1 + accepted (fun i => w (2 + i)) k * (c 0).2.2) % 2 ^ aw) := by
          simp [lin, a1]
        rw [e]
        simp only [NSink.step, a2]
        simp [a5, a3, Pat.addr]
        congr 1
        ring
    · have e : (lin aw (c 0))[accepted (fun i => w (2 + i)) k]? = none := by
        simp [lin]; exact a1
      rw [e]
      refine ⟨?_, fun _ => by simp [NSink.step, a2, hst]⟩
      cases hw : w (2 + k) <;> simp [NSink.step, a2, hst]

/-! ## `set_sink_pattern` -/

theorem dimsAt_length (aw : ℕ) (pat : List (ℕ × ℤ)) (m : ℕ) : (Pat.dimsAt aw pat m).length = pat.length := by
  induction pat generalizing m with
  | nil => rfl
  | cons p rest ih => obtain ⟨n, s⟩ := p; simp [Pat.dimsAt, ih]

theorem pattern_srun {aw : ℕ} {y : ℕ → Pat.Sink V} {c : ℕ → ℤ × List (ℕ × ℤ)} {start stop w : ℕ → Bool} {d : ℕ → V}
    (hy : ∀ t, y (t + 1) = Pat.Sink.step aw (c t).1 (c t).2 (y t) ⟨⟨start t, true, stop t⟩, w t, d t⟩)
    (h0 : (y 0).st = 0) (hl : (y 0).dims.length = (c 0).2.length) (hs : start 0 = true)
    (hok : Pat.Ok aw (c 0).2) (k : ℕ) (hn : ∀ t, 0 < t → t < 2 + k → start t = false ∧ stop t = false) :
    (accepted (fun i => w (2 + i)) k < Pat.count (c 0).2 ∧ (y (2 + k)).st = 2 ∧ (y (2 + k)).offset = Pat.addr aw (c 0).1 ∧
      (y (2 + k)).dims = Pat.dimsAt aw (c 0).2 (accepted (fun i => w (2 + i)) k)) ∨
    (accepted (fun i => w (2 + i)) k ≥ Pat.count (c 0).2 ∧ (y (2 + k)).st = 0 ∧
      (y (2 + k)).dims.length = (c 0).2.length) := by
  induction k with
  | zero =>
    have e1 : y 1 = { y 0 with st := 1, offset := Pat.addr aw (c 0).1, wenable := false,
                               dims := List.zipWith (Pat.Dim.loadBufs aw) (c 0).2 (y 0).dims } := by
      rw [hy 0, Pat.Sink.step]
      simp [h0, hs]
    left
    rw [show 2 + 0 = 1 + 1 by rfl, hy 1, e1]
    refine ⟨by simpa [accepted] using hok.count_pos, rfl, rfl, ?_⟩
    simp only [Pat.Sink.step]
    simp [accepted, Pat.load_dims hok _ hl]
  | succ k ih =>
    rw [show 2 + (k + 1) = (2 + k) + 1 by omega, hy, accepted_succ]
    have hst := (hn (2 + k) (by omega) (by omega))
    rcases ih (fun t a b => hn t a (by omega)) with ⟨a1, a2, a3, a4⟩ | ⟨a1, a2, a3⟩
    · cases hw : w (2 + k) with
      | false =>
        left
        simp only [Pat.Sink.step, a2, hst.2]
        refine ⟨by simpa using a1, by simp, by simpa using a3, by simpa using a4⟩
      | true =>
        by_cases hl : accepted (fun i => w (2 + i)) k + 1 < Pat.count (c 0).2
        · left
          simp only [Pat.Sink.step, a2, a4, hst.2, Pat.fin_dimsAt hok, Pat.tick_dimsAt hok, Nat.mod_eq_of_lt a1]
          refine ⟨by simpa using hl, by simp; omega, by simpa using a3, by simp⟩
        · right
          simp only [Pat.Sink.step, a2, a4, hst.2, Pat.fin_dimsAt hok, Pat.tick_dimsAt hok, Nat.mod_eq_of_lt a1]
          refine ⟨by simp; omega, by simp; omega, by simp [dimsAt_length]⟩
    · right
      simp only [Pat.Sink.step, a2, hst.1]
      refine ⟨by omega, by simpa using a2, by simpa using a3⟩

theorem pattern_writes (aw maxLen : ℕ) (v0 : V) :
    (patternSink V aw maxLen v0).Writes False (fun c => Pat.Ok aw c.2 ∧ c.2.length = maxLen) (fun c => Pat.addresses aw c.1 c.2)
      (fun (y : Pat.Sink V) => y.st = 0 ∧ y.dims.length = maxLen) where
  init := ⟨⟨rfl, by simp [patternSink]⟩, rfl⟩
  stay := by
    intro c stop w d y h
    have h : Pat.Sink.st y = 0 ∧ (Pat.Sink.dims y).length = maxLen := h
    show ((Pat.Sink.step aw c.1 c.2 y ⟨⟨false, true, stop⟩, w, d⟩).st = 0 ∧
      (Pat.Sink.step aw c.1 c.2 y ⟨⟨false, true, stop⟩, w, d⟩).dims.length = maxLen) ∧
      (if (Pat.Sink.step aw c.1 c.2 y ⟨⟨false, true, stop⟩, w, d⟩).wenable then _ else _) = _
    simp [Pat.Sink.step, h.1, h.2]
  first := by
    intro y c start stop w d hy h0 hs h1 h2
    have hy0 : y 1 = Pat.Sink.step aw (c 0).1 (c 0).2 (y 0) ⟨⟨start 0, true, stop 0⟩, w 0, d 0⟩ := hy 0
    have hy1 : y 2 = Pat.Sink.step aw (c 1).1 (c 1).2 (y 1) ⟨⟨start 1, true, stop 1⟩, w 1, d 1⟩ := hy 1
    have h0 : Pat.Sink.st (y 0) = 0 := h0.1
    show (if (y 1).wenable then _ else _) = _ ∧ (if (y 2).wenable then _ else _) = _
    rw [hy1, hy0]
    simp [Pat.Sink.step, h0, hs]
  write := by
    intro y c start stop w d hy h0 hs hok _ k hn hst
    have hy' : ∀ t, y (t + 1) = Pat.Sink.step aw (c t).1 (c t).2 (y t) ⟨⟨start t, true, stop t⟩, w t, d t⟩ := hy
    show (if (y (3 + k)).wenable then some ((y (3 + k)).waddr, (y (3 + k)).wdata) else none) = _ ∧
      (_ → (y (3 + k)).st = 0 ∧ (y (3 + k)).dims.length = maxLen)
    rw [show 3 + k = (2 + k) + 1 by omega, hy']
    rcases pattern_srun hy' h0.1 (h0.2.trans hok.2.symm) hs hok.1 k hn with ⟨a1, a2, a3, a4⟩ | ⟨a1, a2, a3⟩
    · refine ⟨?_, fun h => ?_⟩
      · cases hw : w (2 + k) with
        | false => simp [Pat.Sink.step, a2]
        | true =>
          rw [Pat.addresses_get aw (c 0).1 (c 0).2 a1]
          simp only [Pat.Sink.step, a2, a3, a4, Pat.total_dimsAt]
          simp
      · refine ⟨by simp [Pat.Sink.step, a2, h], ?_⟩
        simp only [Pat.Sink.step, a2, a4, Pat.tick_dimsAt hok.1]
        cases w (2 + k) <;> simp [dimsAt_length, hok.2]
    · have e : (Pat.addresses aw (c 0).1 (c 0).2)[accepted (fun i => w (2 + i)) k]? = none := by
        rw [List.getElem?_eq_none_iff, Pat.addresses_length]; exact a1
      rw [e]
      refine ⟨?_, fun _ => by simp [Pat.Sink.step, a2, hst, a3, hok.2]⟩
      cases hw : w (2 + k) <;> simp [Pat.Sink.step, a2, hst]

end SRun
