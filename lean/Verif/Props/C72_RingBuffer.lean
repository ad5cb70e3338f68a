import Verif.Model.RingBuf
import Mathlib.Tactic.Ring
import Mathlib.Tactic.Positivity
import Mathlib.Algebra.Order.Ring.Int

/-!
# C72: `RingBuffer` and `Scratchpad`

`buf.read(-d)` is to give, for each item, the word that was written `d` items before.  The statements name the item by the
cycle `t` in which it is in the stage of the buffer, and follow it to the cycle `u` in which it is in the stage of the read.
-/

namespace RingBuf

variable {α : Type}

/-! ## The items of a run -/

/-- The number of cycles before `t` in which the pipeline moves. -/
def moves (en : ℕ → Bool) : ℕ → ℕ
  | 0 => 0
  | t + 1 => moves en t + (if en t then 1 else 0)

/-- What is in a stage in cycle `t` is `n` stages further in cycle `u`, and leaves the stages in these cycles. -/
structure Reaches (en : ℕ → Bool) (n t u : ℕ) : Prop where
  lt : t < u
  from_ : en t = true
  to_ : en u = true
  dist : moves en u = moves en t + n

/-- The words written before cycle `t`, the first one first. -/
def written (i : ℕ → In α) : ℕ → List α
  | 0 => []
  | t + 1 => if (i t).en && (i t).valid && (i t).wen then written i t ++ [(i t).data] else written i t

/-- The offset of the read is `-d`: as `length - d`, or as a negative number when the length is a power of two and the offset
    is not narrower than the addresses. -/
def Back (c : Cfg) (d off : ℕ) : Prop :=
  off = (c.length - d) % c.length ∨ (c.length = 2 ^ c.aw ∧ c.aw ≤ c.ow ∧ off = asBits c.ow (-d))

/-- A buffer with addresses for all its words. -/
structure Fit (c : Cfg) : Prop where
  pos : 0 < c.length
  le : c.length ≤ 2 ^ c.aw
  diff : 0 < c.diff
  small : c.length ≤ 2 ^ 31

/-! ## Movement -/

theorem moves_mono (en : ℕ → Bool) {t u : ℕ} (h : t ≤ u) : moves en t ≤ moves en u := by
  induction u, h using Nat.le_induction with
  | base => exact Nat.le_refl _
  | succ u _ ih => simp only [moves]; omega

theorem moves_lt (en : ℕ → Bool) {t u : ℕ} (h : t < u) (he : en t = true) : moves en t < moves en u := by
  have := moves_mono en (show t + 1 ≤ u from h)
  simp only [moves, he, if_true] at this
  omega

theorem moves_find (en : ℕ → Bool) {k u : ℕ} (h : k < moves en u) : ∃ r, r < u ∧ en r = true ∧ moves en r = k := by
  induction u with
  | zero => simp [moves] at h
  | succ u ih =>
    simp only [moves] at h
    by_cases hk : k < moves en u
    · obtain ⟨r, h1, h2, h3⟩ := ih hk
      exact ⟨r, by omega, h2, h3⟩
    · cases he : en u
      · simp [he] at h; omega
      · simp only [he, if_true] at h
        exact ⟨u, by omega, he, by omega⟩

/-- Shift registers that move with the pipeline. -/
theorem chain_val {en valid : ℕ → Bool} {vs : ℕ → ℕ → Bool}
    (hs : ∀ u, vs (u + 1) = if en u then shift (valid u) (vs u) else vs u) (u : ℕ) :
    ∀ t < u, en t = true → ∀ j, moves en u = moves en t + (j + 1) → vs u j = valid t := by
  induction u with
  | zero => intro t ht; omega
  | succ u ih =>
    intro t ht he j hj
    rw [hs]
    simp only [moves] at hj
    cases hu : en u
    · have : t ≠ u := by rintro rfl; rw [he] at hu; cases hu
      simp only [hu, Bool.false_eq_true, if_false, Nat.add_zero] at hj ⊢
      exact ih t (by omega) he j hj
    · simp only [hu, if_true] at hj ⊢
      by_cases htu : t = u
      · subst htu
        obtain rfl : j = 0 := by omega
        rfl
      · have := moves_lt en (show t < u by omega) he
        obtain ⟨k, rfl⟩ : ∃ k, j = k + 1 := ⟨j - 1, by omega⟩
        exact ih t (by omega) he k (by omega)

theorem chain_none {en valid : ℕ → Bool} {vs : ℕ → ℕ → Bool} (h0 : vs 0 = fun _ => false)
    (hs : ∀ u, vs (u + 1) = if en u then shift (valid u) (vs u) else vs u) (u : ℕ) :
    ∀ j, moves en u ≤ j → vs u j = false := by
  induction u with
  | zero => intro j _; rw [h0]
  | succ u ih =>
    intro j hj
    rw [hs]
    simp only [moves] at hj
    cases hu : en u
    · simp only [hu, Bool.false_eq_true, if_false, Nat.add_zero] at hj ⊢
      exact ih j hj
    · simp only [hu, if_true] at hj ⊢
      obtain ⟨k, rfl⟩ : ∃ k, j = k + 1 := ⟨j - 1, by omega⟩
      exact ih k (by omega)

/-! ## Writes -/

section
variable {c : Cfg} {i : ℕ → In α} {m : ℕ → α} {r : α}

theorem run_vs (u : ℕ) : (run c i m r (u + 1)).vs =
    if (i u).en then shift (i u).valid (run c i m r u).vs else (run c i m r u).vs := rfl

theorem run_waddr (hf : Fit c) (t : ℕ) : (run c i m r t).waddr = (written i t).length % c.length := by
  have hp := hf.pos
  have hl := hf.le
  induction t with
  | zero => simp [run, St.init, written]
  | succ t ih =>
    simp only [run, St.step, written]
    split
    · rw [ih, List.length_append, List.length_singleton]
      have hlt := Nat.mod_lt (written i t).length hp
      rw [Nat.add_mod]
      split
      · rename_i h
        rw [h]
        by_cases h1 : c.length = 1
        · simp [h1]
        · rw [Nat.mod_eq_of_lt (show 1 < c.length by omega), show c.length - 1 + 1 = c.length by omega]
          simp
      · rw [Nat.mod_eq_of_lt (show 1 < c.length by omega), Nat.mod_eq_of_lt (by omega),
          Nat.mod_eq_of_lt (a := (written i t).length % c.length + 1) (by omega)]
    · exact ih

theorem mod_ne {a b L : ℕ} (h1 : a < b) (h2 : b < a + L) : a % L ≠ b % L := by
  intro h
  obtain ⟨e, rfl⟩ : ∃ e, b = a + e := ⟨b - a, by omega⟩
  have : (a + 0) % L = (a + e) % L := by simpa using h
  have : e % L = 0 := by
    have h3 : (a + 0) ≡ (a + e) [MOD L] := this
    have := Nat.ModEq.add_left_cancel' a h3
    exact this.symm
  rw [Nat.mod_eq_of_lt (by omega)] at this
  omega

theorem run_mem (hf : Fit c) (t : ℕ) : ∀ k (hk : k < (written i t).length), (written i t).length ≤ k + c.length →
    (run c i m r t).mem (k % c.length) = (written i t)[k] := by
  induction t with
  | zero => intro k hk; simp [written] at hk
  | succ t ih =>
    intro k hk hle
    by_cases hw : ((i t).en && (i t).valid && (i t).wen) = true
    · have e : written i (t + 1) = written i t ++ [(i t).data] := by simp only [written]; rw [if_pos hw]
      have em : (run c i m r (t + 1)).mem = Function.update (run c i m r t).mem (run c i m r t).waddr (i t).data := by
        simp only [run, St.step]; rw [if_pos hw]
      rw [em, run_waddr hf]
      simp only [e] at hk hle ⊢
      simp only [List.length_append, List.length_singleton] at hk hle
      by_cases hkl : k = (written i t).length
      · subst hkl
        simp
      · have hlt : k < (written i t).length := by omega
        rw [Function.update_of_ne (mod_ne hlt (by omega)), ih k hlt (by omega), List.getElem_append_left hlt]
    · have e : written i (t + 1) = written i t := by simp only [written]; rw [if_neg hw]
      have em : (run c i m r (t + 1)).mem = (run c i m r t).mem := by
        simp only [run, St.step]; rw [if_neg hw]
      rw [em]
      simp only [e] at hk hle ⊢
      exact ih k hk hle

theorem written_prefix {t u : ℕ} (h : t ≤ u) : ∃ l, written i u = written i t ++ l ∧
    l.length + moves (fun t => (i t).en) t ≤ moves (fun t => (i t).en) u := by
  induction u, h using Nat.le_induction with
  | base => exact ⟨[], by simp, by simp⟩
  | succ u _ ih =>
    obtain ⟨l, h1, h2⟩ := ih
    simp only [written, moves]
    split
    · rename_i hw
      refine ⟨l ++ [(i u).data], by rw [h1]; simp, ?_⟩
      simp only [Bool.and_eq_true] at hw
      simp only [hw.1.1, if_true, List.length_append, List.length_singleton]
      omega
    · exact ⟨l, h1, by omega⟩

theorem waddr_still {t u : ℕ} (h : t ≤ u) (hm : moves (fun t => (i t).en) u = moves (fun t => (i t).en) t) :
    (run c i m r u).waddr = (run c i m r t).waddr := by
  induction u, h using Nat.le_induction with
  | base => rfl
  | succ u htu ih =>
    have h1 := moves_mono (fun t => (i t).en) htu
    simp only [moves] at hm
    cases he : (i u).en
    · simp only [he, Bool.false_eq_true, if_false, Nat.add_zero] at hm
      simp only [run, St.step, he, Bool.false_and, Bool.false_eq_true, if_false]
      exact ih hm
    · simp only [he, if_true] at hm
      omega

/-! ## The base of the address -/

/-- With the read in the stage after the buffer the register of `Prev` holds the address of the item. -/
theorem prev_one (hd : c.diff = 1) (u : ℕ) :
    (∀ t < u, (i t).en = true → moves (fun t => (i t).en) u = moves (fun t => (i t).en) t + 1 →
      (run c i m r u).prev 0 = (run c i m r t).waddr) ∧
    (moves (fun t => (i t).en) u = 0 → (run c i m r u).prev 0 = (run c i m r u).waddr) := by
  induction u with
  | zero => exact ⟨fun t ht => by omega, fun _ => rfl⟩
  | succ u ih =>
    obtain ⟨ih1, ih2⟩ := ih
    cases he : (i u).en
    · have e1 : (run c i m r (u + 1)).prev = (run c i m r u).prev := by simp [run, St.step, he]
      have e2 : (run c i m r (u + 1)).waddr = (run c i m r u).waddr := by simp [run, St.step, he]
      rw [e1, e2]
      simp only [moves, he, Bool.false_eq_true, if_false, Nat.add_zero]
      refine ⟨fun t ht het hm => ih1 t ?_ het hm, ih2⟩
      have : t ≠ u := by rintro rfl; rw [he] at het; cases het
      omega
    · refine ⟨fun t ht het hm => ?_, fun h => by simp [moves, he] at h⟩
      simp only [moves, he, if_true, Nat.add_right_cancel_iff] at hm
      have htu : t = u := by
        by_contra hne
        have := moves_lt (fun t => (i t).en) (show t < u by omega) het
        omega
      subst htu
      simp only [run, St.step, he, Bool.true_and, St.ov, hd, Nat.sub_self]
      cases hv : (run c i m r t).vs 0
      · simp only [Bool.false_eq_true, if_false]
        by_cases h0 : moves (fun t => (i t).en) t = 0
        · exact ih2 h0
        · obtain ⟨q, hq1, hq2, hq3⟩ := moves_find (fun t => (i t).en) (k := moves (fun t => (i t).en) t - 1) (u := t) (by omega)
          rw [ih1 q hq1 hq2 (by omega)]
          have hval := chain_val (en := fun t => (i t).en) (valid := fun t => (i t).valid)
            (vs := fun t => (run c i m r t).vs) (fun u => run_vs u) t q hq1 hq2 0 (by omega)
          simp only [hv] at hval
          rw [waddr_still (show q + 1 ≤ t from hq1)]
          · simp [run, St.step, ← hval]
          · simp only [moves, hq2, if_true]; omega
      · rfl

/-- The registers of `Prev` while the stage of the read holds items. -/
theorem prev_gapless (u : ℕ) : ∀ t < u, (i t).en = true → ∀ j, moves (fun t => (i t).en) u = moves (fun t => (i t).en) t + (j + 1) →
    (∀ s, t ≤ s → s < u → (i s).en = true → (run c i m r s).ov c = true) →
    (run c i m r u).prev j = (run c i m r t).waddr := by
  induction u with
  | zero => intro t ht; omega
  | succ u ih =>
    intro t ht he j hj hov
    simp only [moves] at hj
    cases hu : (i u).en
    · have : t ≠ u := by rintro rfl; rw [he] at hu; cases hu
      simp only [hu, Bool.false_eq_true, if_false, Nat.add_zero] at hj
      have := ih t (by omega) he j hj (fun s h1 h2 h3 => hov s h1 (by omega) h3)
      rw [← this]
      simp [run, St.step, hu]
    · simp only [hu, if_true] at hj
      have ho := hov u (by omega) (by omega) hu
      have e : (run c i m r (u + 1)).prev = push (run c i m r u).waddr (run c i m r u).prev := by
        simp [run, St.step, hu, ho]
      rw [e]
      by_cases htu : t = u
      · subst htu
        obtain rfl : j = 0 := by omega
        rfl
      · have := moves_lt (fun t => (i t).en) (show t < u by omega) he
        obtain ⟨k, rfl⟩ : ∃ k, j = k + 1 := ⟨j - 1, by omega⟩
        exact ih t (by omega) he k (by omega) (fun s h1 h2 h3 => hov s h1 (by omega) h3)

/-! ## Addresses -/

theorem cw_ge (c : Cfg) : 32 ≤ c.cw ∧ c.aw ≤ c.cw ∧ c.ow ≤ c.cw := by
  unfold Cfg.cw; omega

theorem raddr_pos (hf : Fit c) {base off : ℕ} (hb : base < c.length) (ho : off < c.length) :
    raddr c base off = (base + off) % c.length := by
  have h32 := Nat.pow_le_pow_right (show 0 < 2 by omega) (cw_ge c).1
  have hl := hf.le
  have hs := hf.small
  have : (2 : ℕ) ^ 32 = 4294967296 := by norm_num
  have : (2 : ℕ) ^ 31 = 2147483648 := by norm_num
  unfold raddr
  simp only
  rw [Nat.mod_eq_of_lt (show base + off < 2 ^ c.cw by omega)]
  split
  · rename_i h
    rw [show base + off + 2 ^ c.cw - c.length = (base + off - c.length) + 2 ^ c.cw by omega, Nat.add_mod_right,
      Nat.mod_eq_of_lt (show base + off - c.length < 2 ^ c.cw by omega),
      Nat.mod_eq_of_lt (show base + off - c.length < 2 ^ c.aw by omega), Nat.mod_eq_sub_mod h,
      Nat.mod_eq_of_lt (show base + off - c.length < c.length by omega)]
  · rename_i h
    rw [Nat.mod_eq_of_lt (show base + off < c.length by omega), Nat.mod_eq_of_lt (show base + off < 2 ^ c.aw by omega)]

/-- When the length is a power of two the address is the sum, modulo the length. -/
theorem raddr_pow (hl : c.length = 2 ^ c.aw) (base off : ℕ) : raddr c base off = (base + off) % 2 ^ c.aw := by
  have hd : 2 ^ c.aw ∣ 2 ^ c.cw := Nat.pow_dvd_pow 2 (cw_ge c).2.1
  have hpos : 0 < 2 ^ c.aw := Nat.pos_of_ne_zero (by positivity)
  unfold raddr
  simp only
  split
  · rename_i h
    rw [Nat.mod_mod_of_dvd _ hd, hl]
    have hle : 2 ^ c.aw ≤ 2 ^ c.cw := Nat.pow_le_pow_right (by omega) (cw_ge c).2.1
    obtain ⟨k, hk⟩ := hd
    rw [hl] at h
    have e : (base + off) % 2 ^ c.cw + 2 ^ c.cw - 2 ^ c.aw = (base + off) % 2 ^ c.cw + 2 ^ c.aw * (k - 1) := by
      have : 2 ^ c.aw * (k - 1) = 2 ^ c.cw - 2 ^ c.aw := by rw [Nat.mul_sub, ← hk, Nat.mul_one]
      omega
    rw [e, Nat.add_mul_mod_self_left, Nat.mod_mod_of_dvd _ ⟨k, hk⟩]
  · rw [Nat.mod_mod_of_dvd _ hd]

theorem asBits_mod (w : ℕ) (z : ℤ) : ((asBits w z : ℕ) : ℤ) = z % 2 ^ w := by
  unfold asBits
  exact Int.toNat_of_nonneg (Int.emod_nonneg _ (by positivity))

/-- An offset of `-d` leads to the slot of the word `d` before. -/
theorem raddr_back (hf : Fit c) {n d off : ℕ} (h : Back c d off) (hd : d ≤ n) (hdl : d < c.length) :
    raddr c (n % c.length) off = (n - d) % c.length := by
  have hp := hf.pos
  rcases h with h | ⟨h1, h2, h3⟩
  · rw [raddr_pos hf (Nat.mod_lt _ hp) (by rw [h]; exact Nat.mod_lt _ hp), h]
    rw [← Nat.add_mod]
    obtain ⟨e, rfl⟩ : ∃ e, n = e + d := ⟨n - d, by omega⟩
    rw [show e + d + (c.length - d) = e + c.length by omega, Nat.add_mod_right]
    simp
  · rw [raddr_pow h1, h1]
    apply Int.ofNat_inj.1
    push_cast
    rw [h3, asBits_mod, Int.emod_add_emod, Nat.cast_sub hd]
    have : (2 : ℤ) ^ c.aw ∣ 2 ^ c.ow := pow_dvd_pow 2 h2
    rw [Int.add_emod, Int.emod_emod_of_dvd _ this, ← Int.add_emod]
    rfl

/-! ## The theorems -/

/-- The address for the item, given that the base is right. -/
theorem read_of_base (hf : Fit c) {t u d : ℕ} (hr : Reaches (fun t => (i t).en) c.diff t u) (hv : (i t).valid = true)
    (hren : (i u).ren = true) (hb : Back c d (i u).off) (hd : d ≤ (written i t).length) (hdl : d + c.diff ≤ c.length)
    (hown : d = 0 → (i t).wen = true) (hbase : (run c i m r u).prev (c.diff - 1) = (run c i m r t).waddr) :
    (written i (t + 1))[(written i t).length - d]? = some (run c i m r (u + 1)).rdata := by
  have hdiff := hf.diff
  have hov : (run c i m r u).ov c = true := by
    have := chain_val (en := fun t => (i t).en) (valid := fun t => (i t).valid)
      (vs := fun t => (run c i m r t).vs) (fun u => run_vs u) u t hr.lt hr.from_ (c.diff - 1) (by rw [hr.dist]; omega)
    simpa [St.ov, hv] using this
  have e : (run c i m r (u + 1)).rdata = (run c i m r u).mem (raddr c ((run c i m r u).prev (c.diff - 1)) (i u).off) := by
    have := hr.to_
    simp [run, St.step, this, hov, hren]
  rw [e, hbase, run_waddr hf, raddr_back hf hb hd (by omega)]
  obtain ⟨l1, hl1, -⟩ := written_prefix (i := i) (show t ≤ t + 1 by omega)
  obtain ⟨l2, hl2, -⟩ := written_prefix (i := i) (show t + 1 ≤ u from hr.lt)
  obtain ⟨l3, hl3, hlen⟩ := written_prefix (i := i) (show t ≤ u from Nat.le_of_lt hr.lt)
  have hk : (written i t).length - d < (written i (t + 1)).length := by
    by_cases h0 : d = 0
    · have h1 := hown h0
      have h2 := hr.from_
      simp [written, h1, h2, hv, h0]
    · rw [hl1, List.length_append]; omega
  have hk2 : (written i t).length - d < (written i u).length := by
    rw [hl2, List.length_append]; omega
  rw [run_mem hf u _ hk2 (by
    rw [hl3, List.length_append]
    have := hr.dist
    omega)]
  rw [List.getElem?_eq_getElem hk]
  congr 1
  simp only [hl2]
  rw [List.getElem_append_left hk]

/-- **C72 (read in the next stage).** When the read is in the stage after the buffer, `read(-d)` gives for each item the word
    that was written `d` words before, whatever gaps and stalls there are. -/
theorem c72_read (hf : Fit c) (hone : c.diff = 1) {t u d : ℕ} (hr : Reaches (fun t => (i t).en) 1 t u)
    (hv : (i t).valid = true) (hren : (i u).ren = true) (hb : Back c d (i u).off) (hd : d ≤ (written i t).length)
    (hdl : d < c.length) (hown : d = 0 → (i t).wen = true) :
    (written i (t + 1))[(written i t).length - d]? = some (run c i m r (u + 1)).rdata := by
  refine read_of_base hf (by rw [hone]; exact hr) hv hren hb hd (by omega) hown ?_
  rw [hone]
  exact (prev_one hone u).1 t hr.lt hr.from_ hr.dist

/-- **C72 (read in a later stage).** When the read is `diff` stages after the buffer, the same holds for the items that come
    after `diff` items without a gap, if the word is not among the oldest `diff` ones. -/
theorem c72_late (hf : Fit c) {t u d : ℕ} (hr : Reaches (fun t => (i t).en) c.diff t u) (hv : (i t).valid = true)
    (hren : (i u).ren = true) (hb : Back c d (i u).off) (hd : d ≤ (written i t).length) (hdl : d + c.diff ≤ c.length)
    (hown : d = 0 → (i t).wen = true) (hn : c.diff ≤ moves (fun t => (i t).en) t)
    (hg : ∀ s < t, (i s).en = true → moves (fun t => (i t).en) t ≤ moves (fun t => (i t).en) s + c.diff → (i s).valid = true) :
    (written i (t + 1))[(written i t).length - d]? = some (run c i m r (u + 1)).rdata := by
  have hdiff := hf.diff
  refine read_of_base hf hr hv hren hb hd hdl hown ?_
  refine prev_gapless u t hr.lt hr.from_ _ (by rw [hr.dist]; omega) ?_
  intro s hts hsu hes
  have hmono := moves_mono (fun t => (i t).en) hts
  have hms := moves_lt (fun t => (i t).en) hsu hes
  have hdist := hr.dist
  obtain ⟨q, hq1, hq2, hq3⟩ := moves_find (fun t => (i t).en) (k := moves (fun t => (i t).en) s - c.diff) (u := t) (by omega)
  have hval := chain_val (en := fun t => (i t).en) (valid := fun t => (i t).valid)
    (vs := fun t => (run c i m r t).vs) (fun u => run_vs u) s q (by omega) hq2 (c.diff - 1) (by omega)
  have := hg q hq1 hq2 (by omega)
  simpa [St.ov, this] using hval

/-- A read that is not enabled, a stage without an item, or a stall keeps the word read before. -/
theorem c72_keep {u : ℕ} (h : (i u).en = false ∨ (i u).ren = false ∨ (run c i m r u).ov c = false) :
    (run c i m r (u + 1)).rdata = (run c i m r u).rdata := by
  rcases h with h | h | h <;> simp [run, St.step, h]

/-- **C72 (disagreement, late reads).** When the read is two or more stages after the buffer, the second item of a stream reads
    at the position of the first: `read(0)` gives the first word, not its own. -/
theorem c72_not_late (hf : Fit c) (h2 : 2 ≤ c.diff) (hlen : c.diff < c.length) {s t u : ℕ} {v : α}
    (hst : s < t) (hes : (i s).en = true) (honly : ∀ q < t, (i q).en = true → (i q).valid = true → q = s)
    (hw : written i t = [v]) (hr : Reaches (fun t => (i t).en) c.diff t u) (hv : (i t).valid = true)
    (hren : (i u).ren = true) (hoff : (i u).off = 0) : (run c i m r (u + 1)).rdata = v := by
  have hdiff := hf.diff
  have hov : (run c i m r u).ov c = true := by
    have := chain_val (en := fun t => (i t).en) (valid := fun t => (i t).valid)
      (vs := fun t => (run c i m r t).vs) (fun u => run_vs u) u t hr.lt hr.from_ (c.diff - 1) (by rw [hr.dist]; omega)
    simpa [St.ov, hv] using this
  have e : (run c i m r (u + 1)).rdata = (run c i m r u).mem (raddr c ((run c i m r u).prev (c.diff - 1)) (i u).off) := by
    have := hr.to_
    simp [run, St.step, this, hov, hren]
  -- the only item that has passed the stage of the read is the first one
  have hpass : ∀ x < u, (i x).en = true → (run c i m r x).ov c = true →
      moves (fun t => (i t).en) x = moves (fun t => (i t).en) s + c.diff := by
    intro x hx hex hox
    by_cases hlt : moves (fun t => (i t).en) x < c.diff
    · have := chain_none (en := fun t => (i t).en) (valid := fun t => (i t).valid)
        (vs := fun t => (run c i m r t).vs) rfl (fun u => run_vs u) x (c.diff - 1) (by omega)
      simp only [St.ov] at hox
      rw [hox] at this
      cases this
    · obtain ⟨q, hq1, hq2, hq3⟩ := moves_find (fun t => (i t).en) (k := moves (fun t => (i t).en) x - c.diff) (u := x) (by omega)
      have hval := chain_val (en := fun t => (i t).en) (valid := fun t => (i t).valid)
        (vs := fun t => (run c i m r t).vs) (fun u => run_vs u) x q hq1 hq2 (c.diff - 1) (by omega)
      simp only [St.ov] at hox
      simp only [hox] at hval
      have hxu := moves_lt (fun t => (i t).en) hx hex
      have hdist := hr.dist
      have hqt : q < t := by
        by_contra hne
        have := moves_mono (fun t => (i t).en) (show t ≤ q by omega)
        omega
      have := honly q hqt hq2 hval.symm
      subst this
      omega
  have hprev : ∀ x ≤ u, (∀ j, (run c i m r x).prev (j + 1) = 0) ∧
      (moves (fun t => (i t).en) x ≤ moves (fun t => (i t).en) s + c.diff → (run c i m r x).prev 0 = 0) := by
    intro x
    induction x with
    | zero => intro _; exact ⟨fun _ => rfl, fun _ => rfl⟩
    | succ x ih =>
      intro hx
      obtain ⟨ih1, ih2⟩ := ih (by omega)
      by_cases hp : (i x).en = true ∧ (run c i m r x).ov c = true
      · have e2 : (run c i m r (x + 1)).prev = push (run c i m r x).waddr (run c i m r x).prev := by
          simp [run, St.step, hp.1, hp.2]
        have hm := hpass x (by omega) hp.1 hp.2
        rw [e2]
        refine ⟨fun j => ?_, fun h => ?_⟩
        · cases j with
          | zero => exact ih2 (by omega)
          | succ j => exact ih1 j
        · simp only [moves, hp.1, if_true] at h; omega
      · have e2 : (run c i m r (x + 1)).prev = (run c i m r x).prev := by
          simp only [run, St.step]
          rw [if_neg (by simpa using hp)]
        rw [e2]
        refine ⟨ih1, fun h => ih2 ?_⟩
        simp only [moves] at h
        omega
  obtain ⟨k, hk⟩ : ∃ k, c.diff - 1 = k + 1 := ⟨c.diff - 2, by omega⟩
  rw [e, hk, (hprev u (Nat.le_refl u)).1 k, hoff, raddr_pos hf hf.pos hf.pos, Nat.add_zero]
  obtain ⟨l, hl, hlen'⟩ := written_prefix (i := i) (show t ≤ u from Nat.le_of_lt hr.lt)
  have hdist := hr.dist
  rw [run_mem hf u 0 (by rw [hl, hw]; simp) (by rw [hl, hw]; simp only [List.length_append, List.length_singleton]; omega)]
  simp [hl, hw]

/-- **C72 (disagreement, negative offsets).** When the length is not a power of two, a negative offset that leads below address
    zero misses the word: `length` is subtracted where it should be added. -/
theorem c72_not_length (h1 : 2 ^ c.aw < 2 * c.length) (h2 : c.length < 2 ^ c.aw) (how : 32 ≤ c.ow) (hao : c.aw < c.ow)
    {base d : ℕ} (hb : base < d) (hd : d ≤ c.length) :
    raddr c base (asBits c.ow (-d)) ≠ base + c.length - d := by
  have hcw : c.cw = c.ow := by unfold Cfg.cw; omega
  have hlt : 2 ^ c.aw < 2 ^ c.ow := Nat.pow_lt_pow_right (by omega) hao
  have hdbl : 2 * 2 ^ c.aw ≤ 2 ^ c.ow := by
    have := Nat.pow_le_pow_right (show 0 < 2 by omega) (show c.aw + 1 ≤ c.ow from hao)
    rw [Nat.pow_succ] at this
    omega
  have e : asBits c.ow (-d) = 2 ^ c.ow - d := by
    apply Int.ofNat_inj.1
    rw [asBits_mod, Nat.cast_sub (by omega)]
    push_cast
    have hpos : (0 : ℤ) < 2 ^ c.ow := by positivity
    have hdlt : (d : ℤ) < 2 ^ c.ow := by
      have : d < 2 ^ c.ow := by omega
      exact_mod_cast this
    rw [show (-(d : ℤ)) = (2 ^ c.ow - d) + 2 ^ c.ow * (-1) by ring, Int.add_mul_emod_self_left]
    exact Int.emod_eq_of_lt (by omega) (by omega)
  intro h
  unfold raddr at h
  simp only [e, hcw] at h
  rw [Nat.mod_eq_of_lt (show base + (2 ^ c.ow - d) < 2 ^ c.ow by omega), if_pos (by omega)] at h
  rw [show base + (2 ^ c.ow - d) + 2 ^ c.ow - c.length = (base + 2 ^ c.ow - d - c.length) + 2 ^ c.ow by omega,
    Nat.add_mod_right, Nat.mod_eq_of_lt (show base + 2 ^ c.ow - d - c.length < 2 ^ c.ow by omega)] at h
  -- the two differ by twice the length, modulo the size of the RAM
  obtain ⟨k, hk⟩ : (2 ^ c.aw : ℕ) ∣ 2 ^ c.ow := Nat.pow_dvd_pow 2 (by omega)
  have hpos : 0 < 2 ^ c.aw := Nat.pos_of_ne_zero (by positivity)
  have h3 : (base + 2 ^ c.ow - d - c.length) % 2 ^ c.aw = (base + c.length - d) % 2 ^ c.aw := by
    rw [h, Nat.mod_eq_of_lt (by omega)]
  have h4 : (base + 2 ^ c.ow - d - c.length + 2 * c.length) % 2 ^ c.aw = (base + c.length - d) % 2 ^ c.aw := by
    rw [show base + 2 ^ c.ow - d - c.length + 2 * c.length = (base + c.length - d) + 2 ^ c.aw * k by omega,
      Nat.add_mul_mod_self_left]
  have h5 : (2 * c.length) % 2 ^ c.aw = 0 := by
    have : (base + 2 ^ c.ow - d - c.length) + 2 * c.length ≡ (base + 2 ^ c.ow - d - c.length) + 0 [MOD 2 ^ c.aw] := by
      unfold Nat.ModEq
      rw [h4, Nat.add_zero, h3]
    exact Nat.ModEq.add_left_cancel' _ this
  rw [Nat.mod_eq_sub_mod (by omega), Nat.mod_eq_of_lt (by omega)] at h5
  omega

/-- **C72 (disagreement, narrow offsets).** A negative offset that is narrower than the addresses is extended with zeros, and
    leads forwards. -/
theorem c72_not_narrow {base d : ℕ} (hd : 0 < d) (hdo : d ≤ 2 ^ c.ow) (hl : c.length ≤ 2 ^ c.aw)
    (hb : base + 2 ^ c.ow - d < c.length) : raddr c base (asBits c.ow (-d)) = base + 2 ^ c.ow - d := by
  have e : asBits c.ow (-d) = 2 ^ c.ow - d := by
    apply Int.ofNat_inj.1
    rw [asBits_mod, Nat.cast_sub hdo]
    push_cast
    have hdlt : (d : ℤ) ≤ 2 ^ c.ow := by exact_mod_cast hdo
    rw [show (-(d : ℤ)) = (2 ^ c.ow - d) + 2 ^ c.ow * (-1) by ring, Int.add_mul_emod_self_left]
    exact Int.emod_eq_of_lt (by omega) (by omega)
  have hle : 2 ^ c.aw ≤ 2 ^ c.cw := Nat.pow_le_pow_right (by omega) (cw_ge c).2.1
  unfold raddr
  simp only [e]
  rw [show base + (2 ^ c.ow - d) = base + 2 ^ c.ow - d by omega,
    Nat.mod_eq_of_lt (show base + 2 ^ c.ow - d < 2 ^ c.cw by omega), if_neg (by omega),
    Nat.mod_eq_of_lt (show base + 2 ^ c.ow - d < 2 ^ c.aw by omega)]

end

/-- **C72 (disagreement, the buffer as a value).** An operator that takes the buffer itself as its operand computes with the
    word that is in the stage of the buffer one movement later, the next item's. -/
theorem c72_not_value {β : Type} (f : α → β) {i : ℕ → In α} {r : β} {t u : ℕ} (hr : Reaches (fun t => (i t).en) 1 t u) :
    useBuf f i r (u + 1) = f (i u).data := by
  have := hr.to_
  simp [useBuf, this, sig]

theorem asSigned_bits {w : ℕ} (hw : 0 < w) {z : ℤ} (h1 : -2 ^ (w - 1) ≤ z) (h2 : z < 2 ^ (w - 1)) : asSigned w (asBits w z) = z := by
  have e : (2 : ℤ) ^ w = 2 * 2 ^ (w - 1) := by
    obtain ⟨k, rfl⟩ : ∃ k, w = k + 1 := ⟨w - 1, by omega⟩
    simp [pow_succ, mul_comm]
  have hm := asBits_mod w z
  unfold asSigned
  by_cases hz : 0 ≤ z
  · rw [Int.emod_eq_of_lt hz (by omega)] at hm
    rw [if_neg, hm]
    intro h
    have : (2 : ℤ) ^ w ≤ 2 * (asBits w z : ℤ) := by exact_mod_cast h
    omega
  · have : z % 2 ^ w = z + 2 ^ w := by
      rw [← Int.add_mul_emod_self_left z (2 ^ w) 1, Int.mul_one]
      exact Int.emod_eq_of_lt (by omega) (by omega)
    rw [this] at hm
    rw [if_pos, hm]
    · omega
    · have : (2 : ℤ) ^ w ≤ 2 * (asBits w z : ℤ) := by omega
      exact_mod_cast this

/-- **C72 (value of the words).** When the offset is not wider than the words, a signed word is read as it was written. -/
theorem c72_sign {dw ow : ℕ} (hw : 0 < dw) (ho : ow ≤ dw) {z : ℤ} (h1 : -2 ^ (dw - 1) ≤ z) (h2 : z < 2 ^ (dw - 1)) :
    outValue dw ow (asBits dw z) = z := by
  unfold outValue
  rw [Nat.max_eq_left ho]
  exact asSigned_bits hw h1 h2

/-- **C72 (disagreement, sign).** When the offset is wider than the words, a negative word `z` is read as `z + 2 ^ dw`. -/
theorem c72_not_sign {dw ow : ℕ} (ho : dw < ow) {z : ℤ} (h1 : -2 ^ dw ≤ z) (h2 : z < 0) :
    outValue dw ow (asBits dw z) = z + 2 ^ dw := by
  have hm := asBits_mod dw z
  have : z % 2 ^ dw = z + 2 ^ dw := by
    rw [← Int.add_mul_emod_self_left z (2 ^ dw) 1, Int.mul_one]
    exact Int.emod_eq_of_lt (by omega) (by omega)
  rw [this] at hm
  unfold outValue asSigned
  rw [Nat.max_eq_right (by omega), if_neg, hm]
  intro h
  have h3 : (2 : ℤ) ^ ow ≤ 2 * (asBits dw z : ℤ) := by exact_mod_cast h
  have h4 : (2 : ℤ) ^ (dw + 1) ≤ 2 ^ ow := pow_le_pow_right₀ (by norm_num) ho
  rw [pow_succ] at h4
  omega

/-! ## Scratchpad -/

/-- The last word written to the address `a` before cycle `t`, if any. -/
def lastWrite (aw : ℕ) (i : ℕ → PadIn α) (a : ℕ) : ℕ → Option α
  | 0 => none
  | t + 1 => if (i t).en = true ∧ (i t).valid = true ∧ (i t).wen = true ∧ (i t).waddr % 2 ^ aw = a % 2 ^ aw then some (i t).data
      else lastWrite aw i a t

section
variable {aw diff : ℕ} {i : ℕ → PadIn α} {m : ℕ → α} {r : α}

theorem pad_mem (a t : ℕ) : (padRun aw diff i m r t).mem (a % 2 ^ aw) = (lastWrite aw i a t).getD (m (a % 2 ^ aw)) := by
  induction t with
  | zero => rfl
  | succ t ih =>
    simp only [padRun, Pad.step, lastWrite]
    by_cases hw : ((i t).en && (i t).valid && (i t).wen) = true
    · rw [if_pos hw]
      simp only [Bool.and_eq_true] at hw
      by_cases ha : (i t).waddr % 2 ^ aw = a % 2 ^ aw
      · rw [if_pos ⟨hw.1.1, hw.1.2, hw.2, ha⟩, ha]
        simp
      · rw [if_neg (fun h => ha h.2.2.2), Function.update_of_ne (fun h => ha h.symm)]
        exact ih
    · rw [if_neg hw, if_neg]
      · exact ih
      · rintro ⟨h1, h2, h3, -⟩
        exact hw (by simp [h1, h2, h3])

/-- **C72 (scratchpad).** A read gives the last word written to its address before the cycle in which the item is in the stage
    of the read, or the word that the RAM holds from the start. -/
theorem c72_pad (hd : 0 < diff) {t u : ℕ} (hr : Reaches (fun t => (i t).en) diff t u) (hv : (i t).valid = true)
    (hren : (i u).ren = true) :
    (padRun aw diff i m r (u + 1)).rdata = (lastWrite aw i (i u).raddr u).getD (m ((i u).raddr % 2 ^ aw)) := by
  have hov := chain_val (en := fun t => (i t).en) (valid := fun t => (i t).valid)
    (vs := fun t => (padRun aw diff i m r t).vs) (fun _ => rfl) u t hr.lt hr.from_ (diff - 1) (by rw [hr.dist]; omega)
  simp only [hv] at hov
  have := hr.to_
  rw [← pad_mem (diff := diff) (r := r)]
  simp [padRun, Pad.step, this, hov, hren]

/-- **C72 (scratchpad, no read).** A read that is not enabled, a stage without a valid item, or a stall keeps the word read
    before. -/
theorem c72_pad_keep (hd : 0 < diff) {u : ℕ} (h : (i u).en = false ∨ (i u).ren = false ∨
    ∃ t, Reaches (fun t => (i t).en) diff t u ∧ (i t).valid = false) :
    (padRun aw diff i m r (u + 1)).rdata = (padRun aw diff i m r u).rdata := by
  rcases h with h | h | ⟨t, hr, hv⟩
  · simp [padRun, Pad.step, h]
  · simp [padRun, Pad.step, h]
  · have hov := chain_val (en := fun t => (i t).en) (valid := fun t => (i t).valid)
      (vs := fun t => (padRun aw diff i m r t).vs) (fun _ => rfl) u t hr.lt hr.from_ (diff - 1) (by rw [hr.dist]; omega)
    simp only [hv] at hov
    simp [padRun, Pad.step, hov]

theorem lastWrite_still (a : ℕ) {t u : ℕ} (h : t ≤ u) (hm : moves (fun t => (i t).en) u = moves (fun t => (i t).en) t) :
    lastWrite aw i a u = lastWrite aw i a t := by
  induction u, h using Nat.le_induction with
  | base => rfl
  | succ u htu ih =>
    have h1 := moves_mono (fun t => (i t).en) htu
    simp only [moves] at hm
    cases he : (i u).en
    · simp only [he, Bool.false_eq_true, if_false, Nat.add_zero] at hm
      simp only [lastWrite, he, Bool.false_eq_true, false_and, if_false]
      exact ih hm
    · simp only [he, if_true] at hm
      omega

/-- **C72 (scratchpad, next stage).** When the read is in the stage after the scratchpad, an item reads what the items up to
    itself have written. -/
theorem c72_pad_next {t u : ℕ} (hr : Reaches (fun t => (i t).en) 1 t u) (hv : (i t).valid = true) (hren : (i u).ren = true) :
    (padRun aw 1 i m r (u + 1)).rdata = (lastWrite aw i (i u).raddr (t + 1)).getD (m ((i u).raddr % 2 ^ aw)) := by
  rw [c72_pad (by omega) hr hv hren, lastWrite_still (t := t + 1) _ hr.lt]
  have := hr.dist
  have h2 := hr.from_
  simp only [moves, h2, if_true]
  exact this

/-- **C72 (disagreement, late reads of a scratchpad).** When the read is later, an item reads what a following item has
    written. -/
theorem c72_not_pad {t s u : ℕ} (hts : Reaches (fun t => (i t).en) (diff - 1) t s) (hr : Reaches (fun t => (i t).en) diff t u)
    (h2 : 2 ≤ diff) (hv : (i t).valid = true) (hvs : (i s).valid = true) (hws : (i s).wen = true) (hren : (i u).ren = true)
    (ha : (i s).waddr % 2 ^ aw = (i u).raddr % 2 ^ aw) :
    t < s ∧ (padRun aw diff i m r (u + 1)).rdata = (i s).data := by
  have h3 := hts.to_
  have hd1 := hts.dist
  have hd2 := hr.dist
  have hsu : s < u := by
    by_contra hne
    have := moves_mono (fun t => (i t).en) (show u ≤ s by omega)
    omega
  refine ⟨hts.lt, ?_⟩
  rw [c72_pad (by omega) hr hv hren, lastWrite_still (t := s + 1) _ hsu]
  · simp [lastWrite, h3, hvs, hws, ha]
  · simp only [moves, h3, if_true]
    omega

end

/-! ## Examples -/

/-- Words 10, 11, 12, ...; the pipeline stands still in cycle 2, and there is no item in cycle 4. -/
def exIn (off : ℕ) (t : ℕ) : In ℕ where
  en := t != 2
  valid := t != 4
  data := 10 + t
  off := off

theorem exReach (off : ℕ) : Reaches (fun t => (exIn off t).en) 1 5 6 := ⟨by omega, rfl, rfl, rfl⟩

/-- A buffer of three words: the word two before, as the offset 1. -/
example : (written (exIn 1) 6)[(written (exIn 1) 5).length - 2]? =
    some (run ⟨3, 2, 32, 1⟩ (exIn 1) (fun _ => 0) 0 7).rdata :=
  c72_read ⟨by decide, by decide, by decide, by decide⟩ rfl (exReach 1) rfl rfl (Or.inl rfl) (by decide) (by decide) (by simp)

example : written (exIn 1) 6 = [10, 11, 13, 15] ∧ (run ⟨3, 2, 32, 1⟩ (exIn 1) (fun _ => 0) 0 7).rdata = 11 := ⟨rfl, rfl⟩

/-- A buffer of four words: the word two before, as the offset -2. -/
example : (written (exIn (asBits 32 (-2))) 6)[(written (exIn (asBits 32 (-2))) 5).length - 2]? =
    some (run ⟨4, 2, 32, 1⟩ (exIn (asBits 32 (-2))) (fun _ => 0) 0 7).rdata :=
  c72_read ⟨by decide, by decide, by decide, by decide⟩ rfl (exReach _) rfl rfl (Or.inr ⟨rfl, by decide, rfl⟩) (by decide)
    (by decide) (by simp)

/-- Words 10, 11, 12, ... without gaps. -/
def exFlow (off : ℕ) (t : ℕ) : In ℕ where
  en := true
  valid := true
  data := 10 + t
  off := off

/-- The read is two stages after a buffer of eight words: the third item and the following ones read well. -/
example : (written (exFlow 6) 4)[(written (exFlow 6) 3).length - 2]? =
    some (run ⟨8, 3, 32, 2⟩ (exFlow 6) (fun _ => 0) 0 6).rdata :=
  c72_late ⟨by decide, by decide, by decide, by decide⟩ ⟨by omega, rfl, rfl, rfl⟩ rfl rfl (Or.inl rfl) (by decide) (by decide)
    (by simp) (by decide) (fun _ _ _ _ => rfl)

/-- The second one reads the word of the first. -/
example : (run ⟨8, 3, 32, 2⟩ (exFlow 0) (fun _ => 0) 0 4).rdata = 10 :=
  c72_not_late (s := 0) (t := 1) (u := 3) ⟨by decide, by decide, by decide, by decide⟩ (by decide) (by decide) (by decide) rfl
    (fun q hq _ _ => by omega) rfl ⟨by omega, rfl, rfl, rfl⟩ rfl rfl rfl

/-- The first eight reads of offset zero. -/
example : (List.range 8).map (fun t => (run ⟨8, 3, 32, 2⟩ (exFlow 0) (fun _ => 0) 0 (t + 3)).rdata) =
    [10, 10, 12, 13, 14, 15, 16, 17] := by rfl

/-- With a gap in cycle 5, the second item after it (cycle 7) reads the word of the first. -/
def exGap (t : ℕ) : In ℕ where
  en := true
  valid := t != 5
  data := 10 + t

example : (List.range 10).map (fun t => (run ⟨16, 4, 32, 2⟩ exGap (fun _ => 0) 0 (t + 3)).rdata) =
    [10, 10, 12, 13, 14, 14, 16, 16, 18, 19] := by rfl

/-- Three words, offset -2, at address 1: address 0 instead of 2. -/
example : raddr ⟨3, 2, 32, 1⟩ 1 (asBits 32 (-2)) ≠ 1 + 3 - 2 :=
  c72_not_length (c := ⟨3, 2, 32, 1⟩) (by decide) (by decide) (by decide) (by decide) (by decide) (by decide)

example : raddr ⟨3, 2, 32, 1⟩ 1 (asBits 32 (-2)) = 0 := by rfl

/-- A buffer of 128 words with an offset of four bits: -3 leads 13 words forwards. -/
example : raddr ⟨128, 7, 4, 1⟩ 5 (asBits 4 (-((3 : ℕ) : ℤ))) = 18 :=
  c72_not_narrow (c := ⟨128, 7, 4, 1⟩) (base := 5) (d := 3) (by decide) (by decide) (by decide) (by decide)

example : useBuf (fun x : ℕ => x + 1) (exFlow 0) 0 4 = 14 := c72_not_value _ (t := 2) (u := 3) ⟨by omega, rfl, rfl, rfl⟩

example : outValue 32 32 (asBits 32 (-5)) = -5 := c72_sign (by decide) (by decide) (by decide) (by decide)
example : outValue 8 32 (asBits 8 (-5)) = 251 := c72_not_sign (by decide) (by decide) (by decide)

/-- The item of cycle `t` writes `10 + t` to the address `t % 2`; all read the address 0. -/
def exPad (t : ℕ) : PadIn ℕ where
  en := t != 2
  valid := true
  waddr := t % 2
  data := 10 + t

example : (padRun 2 1 exPad (fun _ => 0) 0 5).rdata = 10 :=
  c72_pad_next (t := 3) (u := 4) ⟨by omega, rfl, rfl, rfl⟩ rfl rfl

example : (padRun 2 2 exPad (fun _ => 0) 0 6).rdata = 14 :=
  c72_pad (t := 3) (u := 5) (by omega) ⟨by omega, rfl, rfl, rfl⟩ rfl rfl

example : (padRun 2 1 (fun t => { exPad t with valid := t != 3 }) (fun _ => 0) 0 5).rdata =
    (padRun 2 1 (fun t => { exPad t with valid := t != 3 }) (fun _ => 0) 0 4).rdata :=
  c72_pad_keep (by omega) (Or.inr (Or.inr ⟨3, ⟨by omega, rfl, rfl, rfl⟩, rfl⟩))

example : 3 < 4 ∧ (padRun 2 2 exPad (fun _ => 0) 0 6).rdata = 14 :=
  c72_not_pad (t := 3) (s := 4) (u := 5) (diff := 2) ⟨by omega, rfl, rfl, rfl⟩ ⟨by omega, rfl, rfl, rfl⟩ (by omega) rfl rfl rfl rfl
    rfl

end RingBuf
