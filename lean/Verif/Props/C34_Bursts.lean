import Verif.Lemmas.DmaFsm
import Verif.Props.C35_AxiChan

/-!
# C34: DMA requests partition the transfer and respect the AXI limits

A DMA of `n ≥ 1` AXI words is issued as bursts that are contiguous, cover exactly the `n` words in order, have
between 1 and `max_burstlen` beats, and never cross a 4 KB boundary; the request loop terminates.  A DMA read of
size 0 does issue a burst, of 256 beats.
-/

namespace Dma

open Hdl

/-- `l` (byte address, number of beats) is a legal way to transfer `n` words of `2 ^ s` bytes starting at byte
    address `a`; addresses are `aw` bits. -/
structure Partition (c : Cfg) (a n : ℕ) (l : List (ℕ × ℕ)) : Prop where
  /-- exactly `n` words -/
  cover : (l.map Prod.snd).sum = n
  /-- each burst starts where the previous one ended -/
  contiguous : ∀ k (h : k < l.length), l[k].1 = (a + ((l.take k).map Prod.snd).sum * 2 ^ c.s) % 2 ^ c.aw
  /-- 1 to `max_burstlen` beats -/
  beats : ∀ q ∈ l, 1 ≤ q.2 ∧ q.2 ≤ 2 ^ c.b
  /-- no burst leaves its 4 KB page -/
  page : ∀ q ∈ l, q.1 % 4096 + q.2 * 2 ^ c.s ≤ 4096

theorem after_mod (c : Cfg) (a k m : ℕ) :
    (c.after a k + m * 2 ^ c.s) % 2 ^ c.aw = (a + (k + m) * 2 ^ c.s) % 2 ^ c.aw := by
  unfold Cfg.after
  rw [Nat.mod_add_mod, Nat.add_assoc, ← Nat.add_mul]

theorem chunks_partition {c : Cfg} (hc : c.Ok) (n a : ℕ) (h : 2 ^ c.s ∣ a) (ha : a < 2 ^ c.aw) :
    Partition c a n (c.chunks n a n) := by
  induction n using Nat.strong_induction_on generalizing a with
  | _ n ih =>
    by_cases hn : n = 0
    · subst hn
      exact ⟨rfl, by simp [Cfg.chunks], by simp [Cfg.chunks], by simp [Cfg.chunks]⟩
    · rw [chunks_cons hc h hn]
      have h1 := next_pos hc h hn
      have h2 := next_le c a n
      obtain ⟨i1, i2, i3, i4⟩ := ih (n - c.next a n) (by omega) _ (after_aligned hc h _) (after_lt c a _)
      refine ⟨?_, ?_, ?_, ?_⟩
      · rw [List.map_cons, List.sum_cons, i1]
        omega
      · intro k hk
        cases k with
        | zero => simp [Nat.mod_eq_of_lt ha]
        | succ k =>
          simp only [List.getElem_cons_succ, List.take_succ_cons, List.map_cons, List.sum_cons]
          rw [i2, after_mod]
      · intro q hq
        rcases List.mem_cons.1 hq with rfl | hq
        · refine ⟨h1, ?_⟩
          show c.next a n ≤ c.maxBurst
          unfold Cfg.next; omega
        · exact i3 q hq
      · intro q hq
        rcases List.mem_cons.1 hq with rfl | hq
        · obtain ⟨q, r, hq, hr, -, hB⟩ := Dma.page hc h
          show a % boundary + c.next a n * 2 ^ c.s ≤ boundary
          rw [hq, ← Nat.add_mul, ← hB]
          apply Nat.mul_le_mul_right
          unfold Cfg.next; omega
        · exact i4 q hq

/-- The bursts requested at the edges before `T`. -/
def bursts (σ : ℕ → ReqSt) (i : ℕ → ReqIn) (T : ℕ) : List (ℕ × ℕ) :=
  (List.range T).flatMap fun t => ((σ t).issued (i t)).toList

/-- The transfers (address, number of words) taken at the edges before `T`. -/
def transfersTaken (σ : ℕ → ReqSt) (i : ℕ → ReqIn) (T : ℕ) : List (ℕ × ℕ) :=
  (List.range T).flatMap fun t => ((σ t).taken (i t)).toList

theorem forall₂_map {α β : Type} {R : α → β → Prop} {f : α → β} {l : List α} (h : ∀ a ∈ l, R a (f a)) :
    List.Forall₂ R l (l.map f) := by
  induction l with
  | nil => exact .nil
  | cons a l ih => exact .cons (h a (by simp)) (ih fun b hb => h b (by simp [hb]))

/-- **C34**: for every schedule of DMA calls, of the request FIFO and of acknowledgements, the bursts are those of
    partitions of the transfers taken, one after the other; when the machine is idle all of them are out. -/
theorem c34_bursts (c : Cfg) (hs : c.s ≤ 12) (hs' : c.s ≤ c.aw) (σ : ℕ → ReqSt) (i : ℕ → ReqIn)
    (h : ReqRun c σ i) (h0 : σ 0 = ReqSt.init)
    (hask : ∀ t a n, (i t).ask = some (a, n) → 1 ≤ n ∧ n < 2 ^ (c.aw + 1)) (T : ℕ) :
    ∃ parts : List (List (ℕ × ℕ)),
      List.Forall₂ (fun q l => Partition c ((q.1 - q.1 % 2 ^ c.s) % 2 ^ c.aw) q.2 l) (transfersTaken σ i T) parts ∧
      bursts σ i T <+: parts.flatten ∧ ((σ T).idle = true → bursts σ i T = parts.flatten) := by
  have hc : c.Ok := ⟨hs, hs'⟩
  obtain ⟨hi, he⟩ := run_inv hc h h0 T
  refine ⟨(transfersTaken σ i T).map fun q => c.chunks q.2 (c.maskAddr q.1) q.2, ?_, ?_, ?_⟩
  · refine forall₂_map fun q _ => ?_
    rw [← maskAddr_eq]
    exact chunks_partition hc _ _ (maskAddr_aligned hc _) (maskAddr_lt c _)
  all_goals
    have hr : ((List.range T).flatMap fun t => ((σ t).taken (i t)).toList.flatMap fun q =>
        c.issue (c.maskAddr q.1) (q.2 % 2 ^ (c.aw + 1))) =
        ((transfersTaken σ i T).map fun q => c.chunks q.2 (c.maskAddr q.1) q.2).flatten := by
      rw [transfersTaken, ← List.flatMap_def, List.flatMap_assoc]
      refine Axi.flatMap_congr' fun t _ => Axi.flatMap_congr' fun q hq => ?_
      have hq' : (σ t).taken (i t) = some q := by simpa using hq
      have : (i t).ask = some q := by
        unfold ReqSt.taken at hq'
        split at hq'
        · exact hq'
        · cases hq'
      obtain ⟨h1, h2⟩ := hask t q.1 q.2 this
      rw [Nat.mod_eq_of_lt h2, Cfg.issue, if_neg (by omega)]
  · exact ⟨_, he.trans hr⟩
  · intro hid
    rw [← hr, ← he, remaining_idle hi hid, List.append_nil]
    rfl

/-- **C34**, termination: if the request FIFO is again and again not almost full and bursts are again and again
    acknowledged, the machine always becomes idle. -/
theorem c34_terminates (c : Cfg) (hs : c.s ≤ 12) (hs' : c.s ≤ c.aw) (σ : ℕ → ReqSt) (i : ℕ → ReqIn)
    (h : ReqRun c σ i) (h0 : σ 0 = ReqSt.init)
    (hf : ∀ t, ∃ u ≥ t, (i u).almostFull = false) (ha : ∀ t, ∃ u ≥ t, (i u).ack = true) (T : ℕ) :
    ∃ U ≥ T, (σ U).idle = true :=
  becomes_idle ⟨hs, hs'⟩ h h0 hf ha T

/-- A transfer of 0 words at address `a` is not ignored: one burst request of length 0 is made. -/
theorem c34_zero (c : Cfg) (hs : c.s ≤ 12) (hs' : c.s ≤ c.aw) (σ : ℕ → ReqSt) (i : ℕ → ReqIn)
    (h : ReqRun c σ i) (h0 : σ 0 = ReqSt.init) (T a : ℕ) (hask : transfersTaken σ i T = [(a, 0)])
    (hid : (σ T).idle = true) : bursts σ i T = [((a - a % 2 ^ c.s) % 2 ^ c.aw, 0)] := by
  have hc : c.Ok := ⟨hs, hs'⟩
  obtain ⟨hi, he⟩ := run_inv hc h h0 T
  rw [remaining_idle hi hid, List.append_nil] at he
  rw [bursts, he, ← List.flatMap_assoc]
  show (transfersTaken σ i T).flatMap _ = _
  rw [hask]
  simp [Cfg.issue, maskAddr_eq]

/-! ## On the bus -/

/-- The signals through which the request machine uses the address channel. -/
structure Link (c : Cfg) (st1 addr cur : Var) (σ : ℕ → ReqSt) (E : ℕ → Env) : Prop where
  st1 : ∀ t, E t st1 = if (σ t).st1 then 1 else 0
  addr : ∀ t, E t addr = ((σ t).addr : Int)
  cur : ∀ t, E t cur = ((σ t).cur : Int)

/-- **C34** on the read address channel: what is transferred (or waiting) on AR are the bursts, with
    `araddr` the address and `arlen` the number of beats minus one. -/
theorem c34_read_bus (c : Cfg) (ch : Axi.AddrChan) (name : String) (st1 addr cur : Var)
    (hch : Axi.PortsOk name ch.valid [ch.addr, ch.len]) :
    ∃ s, (SeqSt.fresh name).applyAll (Axi.readRequest ch ⟨some (.var st1), .var addr, .var cur⟩) = some s ∧
      ∀ (rst : Option Expr) (E : ℕ → Env) (σ : ℕ → ReqSt) (i : ℕ → ReqIn), Run (s.always rst) E →
      ReqRun c σ i → Link c st1 addr cur σ E → (∀ t, (i t).ack = Axi.canTake ch.valid ch.ready (E t)) →
      E 0 ch.valid.name = 0 → ∀ n, (∀ t < n, isReset rst (E t) = false) →
      Axi.transfers ch.valid ch.ready [ch.addr, ch.len] E n ++ Axi.waiting ch.valid [ch.addr, ch.len] (E n) =
        (bursts σ i n).map fun q => [ch.addr.wrap q.1, ch.len.wrap ((q.2 : Int) - 1)] := by
  obtain ⟨s, h1, h2⟩ := Axi.c35_read_request name ch [⟨some (.var st1), .var addr, .var cur⟩] (by simp) hch
  refine ⟨s, by simpa using h1, fun rst E σ i hE hσ hl hack h0 n hr => ?_⟩
  rw [(h2 rst E hE h0 n hr).1, bursts, List.map_flatMap]
  refine Axi.flatMap_congr' fun t _ => ?_
  have hw : Axi.wants (some (.var st1)) (E t) = (σ t).st1 := by
    simp only [Axi.wants, Option.all, Expr.truthy, Expr.var, Axi.eval_fn, hl.st1 t]
    cases (σ t).st1 <;> rfl
  unfold ReqSt.issued
  simp only [List.filter_cons, List.filter_nil, hw, ← hack t]
  cases ((σ t).st1 && (i t).ack) with
  | false => rfl
  | true =>
    simp [Axi.AddrCall.beat, Expr.var, Axi.eval_fn, hl.addr t, hl.cur t]

/-- **C34** on the write address channel; a burst of length 0 is not sent. -/
theorem c34_write_bus (c : Cfg) (ch : Axi.AddrChan) (name : String) (go acceptable : Expr) (addr cur : Var)
    (hch : Axi.PortsOk name ch.valid [ch.addr, ch.len]) :
    ∃ s, (SeqSt.fresh name).applyAll (Axi.writeRequest ch acceptable ⟨some go, .var addr, .var cur⟩) = some s ∧
      ∀ (rst : Option Expr) (E : ℕ → Env) (σ : ℕ → ReqSt) (i : ℕ → ReqIn) (st1 : Var), Run (s.always rst) E →
      ReqRun c σ i → Link c st1 addr cur σ E →
      -- `req_cond` and `enq_cond` (thread/axim.py:1252-1268)
      (∀ t, go.truthy (E t) = ((σ t).st1 && !(i t).almostFull && acceptable.truthy (E t))) →
      (∀ t, (i t).ack = (!(i t).almostFull && Axi.canTake ch.valid ch.ready (E t) && acceptable.truthy (E t))) →
      E 0 ch.valid.name = 0 → ∀ n, (∀ t < n, isReset rst (E t) = false) →
      Axi.transfers ch.valid ch.ready [ch.addr, ch.len] E n ++ Axi.waiting ch.valid [ch.addr, ch.len] (E n) =
        ((bursts σ i n).filter fun q => q.2 != 0).map fun q => [ch.addr.wrap q.1, ch.len.wrap ((q.2 : Int) - 1)] := by
  obtain ⟨s, h1, h2⟩ := Axi.c35_write_request name ch acceptable [⟨some go, .var addr, .var cur⟩] (by simp) hch
  refine ⟨s, by simpa using h1, fun rst E σ i st1 hE hσ hl hgo hack h0 n hr => ?_⟩
  rw [(h2 rst E hE h0 n hr).1, bursts, List.filter_flatMap, List.map_flatMap]
  refine Axi.flatMap_congr' fun t _ => ?_
  have hw : (Axi.wants (some go) (E t) && (acceptable.truthy (E t) && Axi.canTake ch.valid ch.ready (E t))) =
      ((σ t).st1 && (i t).ack) := by
    rw [hack t]
    show (go.truthy (E t) && _) = _
    rw [hgo t]
    cases (σ t).st1 <;> cases (i t).almostFull <;> cases acceptable.truthy (E t) <;>
      cases Axi.canTake ch.valid ch.ready (E t) <;> rfl
  unfold ReqSt.issued
  simp only [List.filter_cons, List.filter_nil, hw]
  cases ((σ t).st1 && (i t).ack) with
  | false => rfl
  | true =>
    by_cases hz : (σ t).cur = 0 <;>
      simp [Axi.AddrCall.beat, Expr.var, Axi.eval_fn, hl.addr t, hl.cur t, hz]

/-- A DMA read of size 0 is a 256-beat burst on the bus: one address is sent, with `arlen` (8 bits) 255. -/
theorem c34_zero_read (c : Cfg) (hs : c.s ≤ 12) (hs' : c.s ≤ c.aw) (ch : Axi.AddrChan) (name : String)
    (st1 addr cur : Var) (hch : Axi.PortsOk name ch.valid [ch.addr, ch.len]) (hw : ch.len.width = 8)
    (hu : ch.len.signed = false) :
    ∃ s, (SeqSt.fresh name).applyAll (Axi.readRequest ch ⟨some (.var st1), .var addr, .var cur⟩) = some s ∧
      ∀ (rst : Option Expr) (E : ℕ → Env) (σ : ℕ → ReqSt) (i : ℕ → ReqIn), Run (s.always rst) E →
      ReqRun c σ i → σ 0 = ReqSt.init → Link c st1 addr cur σ E →
      (∀ t, (i t).ack = Axi.canTake ch.valid ch.ready (E t)) →
      E 0 ch.valid.name = 0 → ∀ n a, (∀ t < n, isReset rst (E t) = false) →
      transfersTaken σ i n = [(a, 0)] → (σ n).idle = true →
      Axi.transfers ch.valid ch.ready [ch.addr, ch.len] E n ++ Axi.waiting ch.valid [ch.addr, ch.len] (E n) =
        [[ch.addr.wrap (((a - a % 2 ^ c.s) % 2 ^ c.aw : ℕ) : Int), 255]] := by
  obtain ⟨s, h1, h2⟩ := c34_read_bus c ch name st1 addr cur hch
  refine ⟨s, h1, fun rst E σ i hE hσ h0 hl hack hv n a hr ht hid => ?_⟩
  rw [h2 rst E σ i hE hσ hl hack hv n hr, c34_zero c hs hs' σ i hσ h0 n a ht hid]
  simp [Reg.wrap, hw, hu]

/-! ## The number of AXI words -/

/-- A RAM word of `pack` AXI words: exactly `n * pack` words. -/
theorem c34_narrow_size (pack n : ℕ) (hp : 1 ≤ pack) : narrowSize pack n = n * pack := by
  unfold narrowSize
  split
  · rename_i h
    have h2 : 2 ^ Nat.log2 pack = pack := by
      by_contra hne
      have hlo : 2 ^ Nat.log2 pack ≤ pack := Nat.log2_self_le (by omega)
      have hhi : pack < 2 ^ (Nat.log2 pack + 1) := Nat.lt_log2_self
      have hlt : 2 ^ Nat.log2 pack ≤ pack - 1 := by omega
      have hb1 : pack.testBit (Nat.log2 pack) = true := Nat.testBit_log2 (by omega)
      have hb2 : (pack - 1).testBit (Nat.log2 pack) = true := by
        rw [Nat.testBit_eq_decide_div_mod_eq]
        have : (pack - 1) / 2 ^ Nat.log2 pack = 1 := by
          apply Nat.div_eq_of_lt_le
          · omega
          · rw [pow_succ] at hhi; omega
        rw [this]; rfl
      have : (pack &&& (pack - 1)).testBit (Nat.log2 pack) = true := by
        rw [Nat.testBit_and, hb1, hb2]; rfl
      rw [h] at this
      simp at this
    rw [Nat.shiftLeft_eq, h2]
  · rfl

/-- An AXI word of `2 ^ k` RAM words: the least number of AXI words that hold `n` RAM words. -/
theorem c34_wide_size (k n : ℕ) :
    n ≤ wideSize (2 ^ k) n * 2 ^ k ∧ ∀ m, n ≤ m * 2 ^ k → wideSize (2 ^ k) n ≤ m := by
  have hk : Nat.log2 (2 ^ k) = k := Nat.log2_two_pow
  have hp : 0 < 2 ^ k := by positivity
  unfold wideSize
  simp only [hk, Nat.shiftRight_eq_div_pow, Nat.and_two_pow_sub_one_eq_mod]
  have hdm := Nat.div_add_mod n (2 ^ k)
  have hlt := Nat.mod_lt n hp
  generalize n / 2 ^ k = q at *
  generalize n % 2 ^ k = r at *
  generalize 2 ^ k = M at *
  by_cases h : r > 0
  · rw [if_pos h]
    refine ⟨by rw [Nat.add_mul, Nat.mul_comm q]; omega, fun m hm => ?_⟩
    by_contra hlt'
    have : m ≤ q := by omega
    have := Nat.mul_le_mul_right M this
    rw [Nat.mul_comm q] at this
    omega
  · rw [if_neg h]
    refine ⟨by rw [Nat.add_zero, Nat.mul_comm q]; omega, fun m hm => ?_⟩
    rw [Nat.add_zero]
    have : M * q ≤ M * m := by rw [Nat.mul_comm M m]; omega
    exact Nat.le_of_mul_le_mul_left this hp

/-! ## A concrete transfer -/

/-- 32 bit words, 256 beats, 32 bit addresses: 600 words from 0xF80 need four bursts. -/
example : Partition ⟨32, 2, 8⟩ 0xF80 600 [(0xF80, 32), (0x1000, 256), (0x1400, 256), (0x1800, 56)] :=
  ⟨by decide, by decide, by decide, by decide⟩

/-- A run that asks for one transfer at the first edge meets the hypotheses. -/
example : ∃ σ i, ReqRun ⟨32, 2, 8⟩ σ i ∧ σ 0 = ReqSt.init ∧
    (∀ t a n, (i t).ask = some (a, n) → 1 ≤ n ∧ n < 2 ^ (32 + 1)) ∧ (i 0).ask = some (0xF82, 600) := by
  let i : ℕ → ReqIn := fun t => ⟨if t = 0 then some (0xF82, 600) else none, false, true⟩
  let σ : ℕ → ReqSt := fun t => Nat.rec ReqSt.init (fun t s => s.step ⟨32, 2, 8⟩ (i t)) t
  refine ⟨σ, i, fun t => rfl, rfl, fun t a n h => ?_, rfl⟩
  have : (if t = 0 then some (0xF82, 600) else none) = some (a, n) := h
  split at this
  · cases this; decide
  · cases this

end Dma
