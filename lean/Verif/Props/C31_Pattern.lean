import Verif.Lemmas.StreamPattern

/-!
# C31: pattern sources and sinks visit the nested-loop addresses in order
-/

namespace Pat
open Dma (collect collect_zero collect_succ)

/-- The addresses of a nested loop. -/
def addresses (aw : ℕ) (offset : ℤ) (pat : List (ℕ × ℤ)) : List ℤ := (visit pat).map fun o => (offset + o) % 2 ^ aw

theorem addresses_length (aw : ℕ) (offset : ℤ) (pat : List (ℕ × ℤ)) :
    (addresses aw offset pat).length = count pat := by simp [addresses, visit_length]

theorem addresses_get (aw : ℕ) (offset : ℤ) (pat : List (ℕ × ℤ)) {m : ℕ} (h : m < count pat) :
    (addresses aw offset pat)[m]? = some (addr aw (offset + offs pat m)) := by
  simp [addresses, visit_eq, h, addr]

theorem take_succ_addresses (aw : ℕ) (offset : ℤ) (pat : List (ℕ × ℤ)) {m : ℕ} (h : m < count pat) :
    (addresses aw offset pat).take (m + 1) =
      (addresses aw offset pat).take m ++ [addr aw (offset + offs pat m)] := by
  rw [List.take_add_one, addresses_get aw offset pat h, Option.toList_some]

/-- A run of a source started at the edge before cycle 0 and not stopped. -/
structure SrcRun (aw : ℕ) (offset : ℤ) (pat : List (ℕ × ℤ)) (σ : ℕ → Src) (oready : ℕ → Bool) : Prop where
  start : ∃ s0 : Src, s0.st = 0 ∧ s0.renable = false ∧ σ 0 = Src.step aw offset pat s0 ⟨true, true, false⟩
  step : ∀ t, σ (t + 1) = Src.step aw offset pat (σ t) ⟨false, oready t, false⟩

/-- The RAM reads of the first `t` cycles. -/
def reads (σ : ℕ → Src) (oready : ℕ → Bool) (t : ℕ) : List ℤ :=
  collect (fun t => (σ t).read ⟨false, oready t, false⟩) t

/-- The number of cycles among the first `t` in which the stream is not stalled. -/
def readies (oready : ℕ → Bool) (t : ℕ) : ℕ := ((List.range t).filter oready).length

theorem readies_succ (oready : ℕ → Bool) (t : ℕ) :
    readies oready (t + 1) = readies oready t + if oready t then 1 else 0 := by
  simp only [readies, List.range_succ, List.filter_append, List.length_append]
  cases h : oready t <;> simp [h]

theorem SrcRun.inv {aw : ℕ} {offset : ℤ} {pat : List (ℕ × ℤ)} {σ : ℕ → Src} {oready : ℕ → Bool} (hok : Ok aw pat)
    (R : SrcRun aw offset pat σ oready) (t : ℕ) :
    (readies oready t ≤ count pat ∧ (σ t).st = (if readies oready t = count pat then 2 else 1) ∧
      (σ t).offset = addr aw offset ∧ (σ t).dims = dimsAt aw pat (readies oready t) ∧
      reads σ oready t ++ (if (σ t).renable then [(σ t).raddr] else []) =
        (addresses aw offset pat).take (readies oready t)) ∨
    (count pat < readies oready t ∧ (σ t).st = 0 ∧ (σ t).renable = false ∧
      reads σ oready t = addresses aw offset pat) := by
  have hpos := hok.count_pos
  induction t with
  | zero =>
    left
    obtain ⟨s0, h0, h1, e⟩ := R.start
    rw [e]
    have hr : readies oready 0 = 0 := rfl
    rw [hr]
    simp [Src.step, h0, h1, reads, dimsAt_zero hok, hpos.ne]
  | succ t ih =>
    rw [R.step, readies_succ]
    have hreads : reads σ oready (t + 1) = reads σ oready t ++ ((σ t).read ⟨false, oready t, false⟩).toList :=
      collect_succ _ _
    rw [hreads]
    generalize reads σ oready t = rs at *
    generalize readies oready t = m at *
    generalize σ t = s at *
    cases ho : oready t
    · simpa [Src.step, Src.read] using ih
    · rcases ih with ⟨hle, hst, hoff, hd, hr⟩ | ⟨hgt, hst, hre, hr⟩
      · rcases Nat.lt_or_ge m (count pat) with hlt | hge
        · left
          rw [if_neg (by omega)] at hst
          refine ⟨by simp; omega, ?_, ?_, ?_, ?_⟩
          · simp only [Src.step, hst, hd, fin_dimsAt hok, Nat.mod_eq_of_lt hlt]
            simp
          · simp [Src.step, hst, hoff]
          · simp [Src.step, hst, hd, tick_dimsAt hok]
          · simp only [if_true]
            rw [take_succ_addresses _ _ _ hlt, ← hr]
            simp only [Src.step, Src.read, hst, hoff, hd, total_dimsAt]
            cases s.renable <;> simp
        · right
          have hm : m = count pat := by omega
          rw [if_pos hm] at hst
          refine ⟨by simp; omega, ?_, ?_, ?_⟩
          · simp [Src.step, hst]
          · simp [Src.step, hst]
          · rw [List.take_of_length_le (by rw [addresses_length]; omega)] at hr
            rw [← hr]
            simp only [Src.read]
            cases s.renable <;> simp
      · right
        refine ⟨by simp; omega, ?_, ?_, ?_⟩ <;> simp [Src.step, Src.read, hst, hre, hr]

/-- **C31, source.** Whatever the stalls, the RAM reads so far are a prefix of the addresses of the nested loop, one
    per unstalled cycle (with one cycle of latency), and the machine is idle again exactly after the last one. -/
theorem c31_source {aw : ℕ} {offset : ℤ} {pat : List (ℕ × ℤ)} {σ : ℕ → Src} {oready : ℕ → Bool}
    (hok : ∀ p ∈ pat, 1 ≤ p.1 ∧ p.1 < 2 ^ (aw + 1)) (R : SrcRun aw offset pat σ oready) (t : ℕ) :
    reads σ oready t = ((visit pat).map fun o => (offset + o) % 2 ^ aw).take (readies oready t - 1) ∧
    ((σ t).st = 0 ↔ (visit pat).length < readies oready t) ∧
    ((σ t).st = 0 → reads σ oready t = (visit pat).map fun o => (offset + o) % 2 ^ aw) := by
  change reads σ oready t = (addresses aw offset pat).take _ ∧ _ ∧ (_ → _ = addresses aw offset pat)
  rw [visit_length]
  have key : ∀ t, (readies oready t = 0 ∧ (σ t).renable = false) ∨ (0 < readies oready t ∧
      ((σ t).st ≠ 0 → (σ t).renable = true)) := by
    intro t
    induction t with
    | zero =>
      left
      obtain ⟨s0, h0, h1, e⟩ := R.start
      exact ⟨rfl, by rw [e]; simp [Src.step, h0, h1]⟩
    | succ t ih =>
      have hinv := R.inv hok t
      rw [R.step, readies_succ]
      cases ho : oready t
      · simpa [Src.step] using ih
      · right
        refine ⟨by simp, ?_⟩
        rcases hinv with ⟨_, hst, _⟩ | ⟨_, hst, _⟩
        · split at hst <;> simp [Src.step, hst]
        · simp [Src.step, hst]
  have hk := key t
  rcases R.inv hok t with ⟨hle, hst, _, _, hr⟩ | ⟨hgt, hst, hre, hr⟩
  · have h0 : (σ t).st ≠ 0 := by rw [hst]; split <;> simp
    refine ⟨?_, ⟨fun h => absurd h h0, fun h => by omega⟩, fun h => absurd h h0⟩
    rcases hk with ⟨hz, hf⟩ | ⟨hp, htr⟩
    · rw [hz] at hr ⊢
      simpa [hf] using hr
    · rw [htr h0] at hr
      obtain ⟨m, hm⟩ : ∃ m, readies oready t = m + 1 := ⟨_, (Nat.succ_pred_eq_of_pos hp).symm⟩
      rw [hm] at hr hle ⊢
      rw [take_succ_addresses _ _ _ (by omega : m < count pat)] at hr
      exact (List.append_inj' hr rfl).1
  · refine ⟨?_, ⟨fun _ => hgt, fun _ => hst⟩, fun _ => hr⟩
    rw [hr, List.take_of_length_le (by rw [addresses_length]; omega)]

/-- **C31.** Padding to the number of registers keeps the addresses. -/
theorem c31_pad {maxLen : ℕ} {pattern padded : List (ℕ × ℤ)} (h : pad maxLen pattern = some padded) :
    visit padded = visit pattern ∧ padded.length = maxLen := by
  unfold pad at h
  split at h
  · exact absurd h (by simp)
  · split at h
    · exact absurd h (by simp)
    · have h' := Option.some.inj h
      subst h'
      refine ⟨visit_pad _ _, ?_⟩
      simp
      omega

/-! ## Sink -/

/-- A run of a sink started at the edge before cycle 0 and not stopped. -/
structure SinkRun {α : Type} (aw : ℕ) (offset : ℤ) (pat : List (ℕ × ℤ)) (σ : ℕ → Sink α) (oready when' : ℕ → Bool)
    (rdata : ℕ → α) : Prop where
  start : ∃ (s0 : Sink α) (w : Bool) (d : α), s0.st = 0 ∧ s0.dims.length = pat.length ∧
    σ 0 = Sink.step aw offset pat s0 ⟨⟨true, true, false⟩, w, d⟩
  step : ∀ t, σ (t + 1) = Sink.step aw offset pat (σ t) ⟨⟨false, oready t, false⟩, when' t, rdata t⟩

/-- The words of the stream output accepted by the running sink in the first `t` cycles. -/
def words {α : Type} (σ : ℕ → Sink α) (oready when' : ℕ → Bool) (rdata : ℕ → α) (t : ℕ) : List α :=
  collect (fun t => if (σ t).st = 2 ∧ oready t = true ∧ when' t = true then some (rdata t) else none) t

/-- The RAM writes of the first `t` cycles. -/
def writes {α : Type} (σ : ℕ → Sink α) (oready when' : ℕ → Bool) (rdata : ℕ → α) (t : ℕ) : List (ℤ × α) :=
  collect (fun t => (σ t).write ⟨⟨false, oready t, false⟩, when' t, rdata t⟩) t

theorem load_dims {aw : ℕ} {pat : List (ℕ × ℤ)} (hok : Ok aw pat) (ds : List Dim) (h : ds.length = pat.length) :
    (List.zipWith (Dim.loadBufs aw) pat ds).map (Dim.loadCount aw) = dimsAt aw pat 0 := by
  rw [← dimsAt_zero hok]
  induction pat generalizing ds with
  | nil => simp
  | cons p pat ih =>
    cases ds with
    | nil => simp at h
    | cons d ds =>
      simp only [List.zipWith_cons_cons, List.map_cons]
      rw [ih hok.tail ds (by simpa using h)]
      rfl

theorem zip_take_succ {α β : Type} (l : List α) (ws : List β) (w : β) {a : α} (h : l[ws.length]? = some a) :
    l.zip (ws ++ [w]) = l.zip ws ++ [(a, w)] := by
  induction ws generalizing l with
  | nil =>
    cases l with
    | nil => simp at h
    | cons x l => simp at h; simp [h]
  | cons y ws ih =>
    cases l with
    | nil => simp at h
    | cons x l => simp at h ⊢; exact ih l h

/-- **C31, sink.** Whatever the stalls and the `when` condition, the `k`-th accepted word is written to the `k`-th
    address of the nested loop, and the machine stops exactly after as many words as the loop has iterations. -/
theorem c31_sink {α : Type} {aw : ℕ} {offset : ℤ} {pat : List (ℕ × ℤ)} {σ : ℕ → Sink α} {oready when' : ℕ → Bool}
    {rdata : ℕ → α} (hok : ∀ p ∈ pat, 1 ≤ p.1 ∧ p.1 < 2 ^ (aw + 1))
    (R : SinkRun aw offset pat σ oready when' rdata) (t : ℕ) :
    writes σ oready when' rdata t ++ (if (σ t).wenable then [((σ t).waddr, (σ t).wdata)] else []) =
      ((visit pat).map fun o => (offset + o) % 2 ^ aw).zip (words σ oready when' rdata t) ∧
    (words σ oready when' rdata t).length ≤ (visit pat).length ∧
    ((σ t).st = 0 ↔ (words σ oready when' rdata t).length = (visit pat).length) := by
  change _ = (addresses aw offset pat).zip _ ∧ _
  rw [visit_length]
  have hok' : Ok aw pat := hok
  have hpos := hok'.count_pos
  suffices h : (writes σ oready when' rdata t ++ (if (σ t).wenable then [((σ t).waddr, (σ t).wdata)] else []) =
      (addresses aw offset pat).zip (words σ oready when' rdata t)) ∧ (σ t).offset = addr aw offset ∧
      (((σ t).st = 1 ∧ words σ oready when' rdata t = [] ∧
          (σ t).dims.map (Dim.loadCount aw) = dimsAt aw pat 0) ∨
        ((σ t).st = 2 ∧ (words σ oready when' rdata t).length < count pat ∧
          (σ t).dims = dimsAt aw pat (words σ oready when' rdata t).length) ∨
        ((σ t).st = 0 ∧ (words σ oready when' rdata t).length = count pat)) by
    obtain ⟨h1, -, h2⟩ := h
    refine ⟨h1, ?_, ?_⟩
    · rcases h2 with ⟨_, h, _⟩ | ⟨_, h, _⟩ | ⟨_, h⟩
      · simp [h]
      · omega
      · omega
    · rcases h2 with ⟨e, h, _⟩ | ⟨e, h, _⟩ | ⟨e, h⟩
      · simp [e, h]; omega
      · simp [e]; omega
      · simp [e, h]
  induction t with
  | zero =>
    obtain ⟨s0, w, d, h0, hl, e⟩ := R.start
    have e' : σ 0 = { s0 with st := 1, offset := addr aw offset, wenable := false
                              dims := List.zipWith (Dim.loadBufs aw) pat s0.dims } := by
      rw [e]; simp [Sink.step, h0]
    refine ⟨?_, ?_, Or.inl ⟨?_, rfl, ?_⟩⟩
    · rw [e']; simp [writes, words]
    · rw [e']
    · rw [e']
    · rw [e']; exact load_dims hok' _ hl
  | succ t ih =>
    have hw : words σ oready when' rdata (t + 1) = words σ oready when' rdata t ++
      (if (σ t).st = 2 ∧ oready t = true ∧ when' t = true then some (rdata t) else none).toList := collect_succ _ _
    have hwr : writes σ oready when' rdata (t + 1) = writes σ oready when' rdata t ++
      ((σ t).write ⟨⟨false, oready t, false⟩, when' t, rdata t⟩).toList := collect_succ _ _
    rw [hw, hwr, R.step]
    generalize words σ oready when' rdata t = ws at *
    generalize writes σ oready when' rdata t = wr at *
    generalize σ t = s at *
    obtain ⟨hz, hoff, hs⟩ := ih
    cases ho : oready t
    · refine ⟨?_, ?_, ?_⟩
      · simpa [Sink.step, Sink.write] using hz
      · simpa [Sink.step] using hoff
      · simpa [Sink.step] using hs
    · have hflush : (wr ++ (s.write ⟨⟨false, true, false⟩, when' t, rdata t⟩).toList) =
          (addresses aw offset pat).zip ws := by
        rw [← hz]
        simp only [Sink.write]
        cases s.wenable <;> simp
      rw [hflush]
      rcases hs with ⟨hst, hws, hd⟩ | ⟨hst, hlt, hd⟩ | ⟨hst, hl⟩
      · subst hws
        refine ⟨?_, ?_, Or.inr (Or.inl ⟨?_, ?_, ?_⟩)⟩ <;> simp [Sink.step, hst, hoff, hd, hpos]
      · cases hwh : when' t
        · refine ⟨?_, ?_, Or.inr (Or.inl ⟨?_, ?_, ?_⟩)⟩ <;> simp [Sink.step, hst, hoff, hd, hlt]
        · have hadd := addresses_get aw offset pat hlt
          have htot : total aw s.offset s.dims = addr aw (offset + offs pat ws.length) := by
            rw [hoff, hd, total_dimsAt]
          have hfin : fin s.dims = decide (ws.length + 1 = count pat) := by
            rw [hd, fin_dimsAt hok', Nat.mod_eq_of_lt hlt]
          refine ⟨?_, ?_, ?_⟩
          · simp only [hst, and_self, if_true, Option.toList_some]
            rw [zip_take_succ _ _ _ hadd]
            simp [Sink.step, hst, htot]
          · simp [Sink.step, hst, hoff]
          · simp only [hst, and_self, if_true, Option.toList_some, List.length_append, List.length_singleton]
            by_cases hl : ws.length + 1 = count pat
            · refine Or.inr (Or.inr ⟨?_, hl⟩)
              simp [Sink.step, hst, hfin, hl]
            · refine Or.inr (Or.inl ⟨?_, by omega, ?_⟩)
              · simp [Sink.step, hst, hfin, hl]
              · simp [Sink.step, hst, hd, tick_dimsAt hok']
      · refine ⟨?_, ?_, Or.inr (Or.inr ⟨?_, ?_⟩)⟩ <;> simp [Sink.step, hst, hoff, hl]

/-- The hypotheses of `c31_source` hold for a two-dimensional pattern. -/
example : (∀ p ∈ [((2 : ℕ), (1 : ℤ)), (3, 10), (1, 0)], 1 ≤ p.1 ∧ p.1 < 2 ^ (8 + 1)) ∧
    ∃ σ, SrcRun 8 100 [(2, 1), (3, 10), (1, 0)] σ (fun t => t % 3 ≠ 1) := by
  refine ⟨by decide, ⟨fun t => Nat.rec (Src.step 8 100 [(2, 1), (3, 10), (1, 0)] ⟨0, 0, [], 0, false, true⟩ ⟨true, true, false⟩)
    (fun t s => Src.step 8 100 [(2, 1), (3, 10), (1, 0)] s ⟨false, decide (t % 3 ≠ 1), false⟩) t, ⟨⟨_, rfl, rfl, rfl⟩, fun _ => rfl⟩⟩⟩

/-- The same for `c31_sink`. -/
example : ∃ σ, SinkRun 8 100 [(2, 1), (3, -10)] σ (fun t => t % 3 ≠ 1) (fun t => t % 2 = 0) (fun t => t) := by
  refine ⟨fun t => Nat.rec (Sink.step 8 100 [(2, 1), (3, -10)] ⟨0, 0, [⟨0, 0, 0, 0⟩, ⟨0, 0, 0, 0⟩], 0, 0, false⟩
    ⟨⟨true, true, false⟩, false, 0⟩)
    (fun t s => Sink.step 8 100 [(2, 1), (3, -10)] s ⟨⟨false, decide (t % 3 ≠ 1), false⟩, decide (t % 2 = 0), t⟩) t,
    ⟨⟨_, _, _, rfl, rfl, rfl⟩, fun _ => rfl⟩⟩

example : ((visit [(2, 1), (3, -10)]).map fun o => (100 + o) % 2 ^ 8) = [100, 101, 90, 91, 80, 81] := by decide

end Pat
