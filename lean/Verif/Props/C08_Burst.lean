import Verif.Model.Ram
import Mathlib.Tactic.Ring

/-!
# C08, C09: RAM burst reads and writes
-/

namespace Burst
variable {α : Type}

/-! ## Burst read -/

def rrun (aw : Nat) (mem : Nat → α) (s : RState α) (ins : List RIn) : RState α :=
  ins.foldl (rstep aw mem) s

/-- Beats handed over: `rvalid` and `rready` in the same cycle, with the `rlast` flag. -/
def beats (aw : Nat) (mem : Nat → α) (s : RState α) : List RIn → List (α × Bool)
  | [] => []
  | i :: is =>
    (if s.rvalid && i.rready then [(s.rdata, s.rlast)] else []) ++ beats aw mem (rstep aw mem s i) is

/-- The requested words with the last one marked. -/
def expected (aw : Nat) (mem : Nat → α) (a s L : Nat) : List (α × Bool) :=
  (List.range L).map fun j => (mem ((a + j * s) % 2 ^ aw), decide (j + 1 = L))

/-- Number of cycles in which the consumer was ready. -/
def readies (ins : List RIn) : Nat := (ins.filter (·.rready)).length

/-- State of a burst of `L` words after `n` ready cycles. -/
structure RInv (aw : Nat) (mem : Nat → α) (a st L n : Nat) (s : RState α) : Prop where
  done : L < n → s.busy = false ∧ s.rvalid = false
  busy : n ≤ L → s.busy = true
  addr : n ≤ L → s.addr = (a + n * st) % 2 ^ aw
  stride : n ≤ L → s.stride = st % 2 ^ aw
  length : n ≤ L → s.length = L - n
  rvalid : n ≤ L → s.rvalid = decide (0 < n)
  rlast : n ≤ L → s.rlast = decide (n = L)
  rdata : 0 < n → n ≤ L → s.rdata = mem ((a + (n - 1) * st) % 2 ^ aw)

theorem rinv_step {aw : Nat} {mem : Nat → α} {a st L n : Nat} (hL : 0 < L) {s : RState α}
    (h : RInv aw mem a st L n s) (i : RIn) (hc : i.cond = false) (hq : i.rquit = false) :
    RInv aw mem a st L (if i.rready then n + 1 else n) (rstep aw mem s i) := by
  rcases Nat.lt_or_ge L n with hn | hn
  · obtain ⟨hb, hv⟩ := h.done hn
    have hb' : (rstep aw mem s i).busy = false := by simp [rstep, hb, hc]
    have hv' : (rstep aw mem s i).rvalid = false := by simp [rstep, hb]
    have : L < (if i.rready then n + 1 else n) := by split <;> omega
    constructor <;> intro h1 <;> first | exact ⟨hb', hv'⟩ | omega
  · have hb := h.busy hn
    have ha := h.addr hn
    have hs := h.stride hn
    have hl := h.length hn
    have hv := h.rvalid hn
    have hla := h.rlast hn
    have hd := h.rdata
    by_cases hr : i.rready = true
    · simp only [hr, if_true]
      by_cases hfin : n = L
      · have hb' : (rstep aw mem s i).busy = false := by
          simp [rstep, hb, hr, hq, hla, hv, hfin, hL]
        have hv' : (rstep aw mem s i).rvalid = false := by
          simp [rstep, hb, hr, hq, hla, hv, hfin, hL]
        constructor <;> intro h1 <;> first | exact ⟨hb', hv'⟩ | omega
      · have hlen : 0 < s.length := by omega
        constructor
        · omega
        · intro _; simp [rstep, hb, hr, hq, hla, hv, hfin]
        · intro _
          simp only [rstep, hb, hr, if_true, Bool.true_and]
          have : decide (s.length > 0) = true := by simp; omega
          simp only [this, if_true]
          rw [ha, hs, ← Nat.add_mod]; congr 1; ring
        · intro _; simp [rstep, hb, hs]
        · intro _
          simp only [rstep, hb, hr, if_true, Bool.true_and]
          have : decide (s.length > 0) = true := by simp; omega
          simp only [this, if_true]; omega
        · intro _
          simp only [rstep, hb, hr, if_true, Bool.true_and, hq, hla]
          have : decide (s.length > 0) = true := by simp; omega
          simp [this, hfin]
        · intro _
          simp only [rstep, hb, hr, if_true, Bool.true_and, hq, hla]
          by_cases hlast : n + 1 = L
          · have : s.length ≤ 1 := by omega
            simp [this, hlast, hfin]
          · have : ¬ s.length ≤ 1 := by omega
            simp [this, hlast, hfin]
        · intro _ _
          simp only [rstep, hb, hr, if_true, Bool.or_true, ha, Nat.add_sub_cancel]
          rw [Nat.mod_mod]
    · simp only [hr]
      have hr' : i.rready = false := by simpa using hr
      constructor
      · simp; omega
      · intro _; simp [rstep, hb, hr', hq]
      · intro _; simp [rstep, hb, hr', ha]
      · intro _; simp [rstep, hb, hr', hs]
      · intro _; simp [rstep, hb, hr', hl]
      · intro _; simp [rstep, hb, hr', hv, hq]
      · intro _; simp [rstep, hb, hr', hla, hq]
      · intro h0 _
        have h0' : 0 < n := by simpa using h0
        simp only [rstep, hb, hr', if_true, Bool.or_false, hv]
        simp [h0', hd h0' hn]

theorem expected_drop (aw : Nat) (mem : Nat → α) (a st L k : Nat) (hk : k < L) :
    (expected aw mem a st L)[k]? = some (mem ((a + k * st) % 2 ^ aw), decide (k + 1 = L)) := by
  simp [expected, hk]

/-- **C08.** After a burst read of `L ≥ 1` words has been accepted (`cond` in an idle cycle), for
every ready schedule, the beats handed over are exactly the first words of the requested sequence,
in order and with `rlast` on the last one only; every ready cycle after the first hands over one
word until all `L` are through. (No new request, no `rquit` meanwhile.) -/
theorem c08_read_burst (aw : Nat) (mem : Nat → α) (s0 : RState α) (req : RIn) (ins : List RIn)
    (hidle : s0.busy = false) (hcond : req.cond = true) (hL : 0 < req.length)
    (hins : ∀ i ∈ ins, i.cond = false ∧ i.rquit = false) :
    beats aw mem (rstep aw mem s0 req) ins =
        (expected aw mem req.addr req.stride req.length).take (readies ins - 1) ∧
    (rrun aw mem (rstep aw mem s0 req) ins).busy = decide (readies ins ≤ req.length) := by
  have h0 : RInv aw mem req.addr req.stride req.length 0 (rstep aw mem s0 req) := by
    constructor <;> intros <;> simp_all [rstep]
    omega
  generalize rstep aw mem s0 req = s at h0
  suffices H : ∀ (ins : List RIn) (n : Nat) (s : RState α),
      RInv aw mem req.addr req.stride req.length n s →
      (∀ i ∈ ins, i.cond = false ∧ i.rquit = false) →
      beats aw mem s ins =
        ((expected aw mem req.addr req.stride req.length).take (n + readies ins - 1)).drop (n - 1) ∧
      (rrun aw mem s ins).busy = decide (n + readies ins ≤ req.length) by
    have := H ins 0 s h0 hins
    simpa using this
  clear h0 hins
  intro ins
  induction ins with
  | nil =>
    intro n s h _
    constructor
    · simp [beats, readies]
    · simp only [rrun, List.foldl_nil, readies, List.filter_nil, List.length_nil, Nat.add_zero]
      rcases Nat.lt_or_ge req.length n with hn | hn
      · rw [(h.done hn).1]; symm; exact decide_eq_false (by omega)
      · simp [h.busy hn, hn]
  | cons i is ih =>
    intro n s h hi
    have hi1 := hi i (by simp)
    have h' := rinv_step hL h i hi1.1 hi1.2
    obtain ⟨hb, hbusy⟩ := ih _ _ h' (fun j hj => hi j (by simp [hj]))
    have hrd : readies (i :: is) = (if i.rready then 1 else 0) + readies is := by
      by_cases hr : i.rready = true
      · simp [readies, hr]; omega
      · simp [readies, hr]
    constructor
    · simp only [beats, hb, hrd]
      by_cases hr : i.rready = true
      · simp only [hr, if_true, Bool.and_true]
        rcases Nat.lt_or_ge req.length n with hn | hn
        · -- already finished
          have hlen : (expected aw mem req.addr req.stride req.length).length = req.length := by
            simp [expected]
          rw [(h.done hn).2]
          rw [List.drop_eq_nil_of_le (by simp [hlen]; omega)]
          rw [List.drop_eq_nil_of_le (by simp [hlen]; omega)]
          simp
        · rw [h.rvalid hn]
          rcases Nat.eq_zero_or_pos n with h0 | h0
          · subst h0; simp; 
          · simp only [h0, decide_true, if_true]
            have hx := h.rdata h0 hn
            rw [hx, h.rlast hn]
            have hg := expected_drop aw mem req.addr req.stride req.length (n - 1) (by omega)
            have e1 : n + 1 - 1 = (n - 1) + 1 := by omega
            have e2 : n + 1 + readies is - 1 = n + (1 + readies is) - 1 := by omega
            rw [e1, e2]
            have hg' : ((expected aw mem req.addr req.stride req.length).take
                (n + (1 + readies is) - 1))[n - 1]? =
                some (mem ((req.addr + (n - 1) * req.stride) % 2 ^ aw), decide (n - 1 + 1 = req.length)) := by
              rw [List.getElem?_take_of_lt (by omega), hg]
            obtain ⟨hlt, hg2⟩ := List.getElem?_eq_some_iff.mp hg'
            rw [List.drop_eq_getElem_cons hlt, hg2]
            have : n - 1 + 1 = n := by omega
            simp [this]
      · simp [hr]
    · have e : rrun aw mem s (i :: is) = rrun aw mem (rstep aw mem s i) is := rfl
      rw [e, hbusy, hrd]
      by_cases hr : i.rready = true
      · simp only [hr, if_true]; congr 1; simp only [eq_iff_iff]; omega
      · simp [hr]

/-- **C08 (completion).** With `L + 1` ready cycles the whole burst has been handed over and the
machine is idle again. -/
theorem c08_read_burst_complete (aw : Nat) (mem : Nat → α) (s0 : RState α) (req : RIn)
    (ins : List RIn) (hidle : s0.busy = false) (hcond : req.cond = true) (hL : 0 < req.length)
    (hins : ∀ i ∈ ins, i.cond = false ∧ i.rquit = false) (hr : req.length + 1 ≤ readies ins) :
    beats aw mem (rstep aw mem s0 req) ins = expected aw mem req.addr req.stride req.length ∧
    (rrun aw mem (rstep aw mem s0 req) ins).busy = false := by
  obtain ⟨h1, h2⟩ := c08_read_burst aw mem s0 req ins hidle hcond hL hins
  refine ⟨?_, by rw [h2]; simp; omega⟩
  rw [h1, List.take_of_length_le]
  simp [expected]; omega

/-- A request of length 0 is ignored. -/
theorem c08_read_burst_zero (aw : Nat) (mem : Nat → α) (s0 : RState α) (req : RIn)
    (hidle : s0.busy = false) (hL : req.length = 0) :
    (rstep aw mem s0 req).busy = false ∧ (rstep aw mem s0 req).rvalid = false := by
  simp [rstep, hidle, hL]

/-- `rquit` stops a burst: the next cycle is idle and shows no valid word. -/
theorem c08_read_burst_quit (aw : Nat) (mem : Nat → α) (s : RState α) (i : RIn)
    (hb : s.busy = true) (hq : i.rquit = true) :
    (rstep aw mem s i).busy = false ∧ (rstep aw mem s i).rvalid = false := by
  simp [rstep, hb, hq]

/-- Non-vacuity: three words with stride 2 and a stalling consumer. -/
example :
    let req : RIn := ⟨true, 1, 2, 3, false, false⟩
    let r (b : Bool) : RIn := ⟨false, 0, 0, 0, b, false⟩
    beats 4 (fun a => 10 * a) (rstep 4 (fun a => 10 * a) (rinit 0) req)
      [r false, r true, r false, r true, r true, r false, r true] =
      [(10, false), (30, false), (50, true)] := by decide

/-! ## Burst write -/

def wrun (aw : Nat) (s : WState) (ins : List (WIn α)) : WState := ins.foldl (wstep aw) s

/-- RAM writes issued over a trace. -/
def emitted (aw : Nat) (s : WState) : List (WIn α) → List (Nat × α)
  | [] => []
  | i :: is => (wemit s i).toList ++ emitted aw (wstep aw s i) is

/-- Cycles (after the edge) in which `done` is high. -/
def dones (aw : Nat) (s : WState) : List (WIn α) → Nat
  | [] => 0
  | i :: is => (if (wstep aw s i).done then 1 else 0) + dones aw (wstep aw s i) is

/-- The words a burst of at most `L` words takes from the supply: valid words in order, at most
`L`, nothing after a word marked last. -/
def taken : Nat → List (α × Bool) → List α
  | 0, _ => []
  | _, [] => []
  | L + 1, (w, last) :: ws => w :: (if last then [] else taken L ws)

/-- The words supplied (valid) over a trace. -/
def supplied (ins : List (WIn α)) : List (α × Bool) :=
  (ins.filter (·.wvalid)).map fun i => (i.wdata, i.wlast)

/-- Words with their addresses. -/
def placed (aw a st : Nat) (ws : List α) : List (Nat × α) :=
  ws.zipIdx.map fun (w, j) => ((a + j * st) % 2 ^ aw, w)

/-- Whether the burst is over: `L` words were taken or one marked last was. -/
def over : Nat → List (α × Bool) → Bool
  | 0, _ => true
  | _, [] => false
  | L + 1, (_, last) :: ws => last || over L ws

theorem emitted_idle (aw : Nat) (s : WState) (ins : List (WIn α)) (hb : s.busy = false)
    (hins : ∀ i ∈ ins, i.cond = false) :
    emitted aw s ins = [] ∧ dones aw s ins = 0 ∧ (wrun aw s ins).busy = false := by
  induction ins generalizing s with
  | nil => exact ⟨rfl, rfl, hb⟩
  | cons i is ih =>
    have hb' : (wstep aw s i).busy = false := by simp [wstep, hb, hins i (by simp)]
    obtain ⟨h1, h2, h3⟩ := ih (wstep aw s i) hb' (fun j hj => hins j (by simp [hj]))
    refine ⟨?_, ?_, h3⟩
    · simp [emitted, wemit, hb, h1]
    · have : (wstep aw s i).done = false := by simp [wstep, hb]
      simp [dones, h2, this]

theorem zipIdx_placed (aw a st : Nat) (ws : List α) (k : Nat) :
    (ws.zipIdx (k + 1)).map (fun (w, j) => ((a + j * st) % 2 ^ aw, w)) =
      (ws.zipIdx k).map (fun (w, j) => ((a + st + j * st) % 2 ^ aw, w)) := by
  induction ws generalizing k with
  | nil => rfl
  | cons w ws ih =>
    simp only [List.zipIdx_cons, List.map_cons]
    rw [ih (k + 1)]
    congr 2
    congr 1; ring

theorem placed_mod (aw a st : Nat) (ws : List α) :
    placed aw ((a % 2 ^ aw + st % 2 ^ aw) % 2 ^ aw) (st % 2 ^ aw) ws = placed aw (a + st) st ws := by
  unfold placed
  apply List.map_congr_left
  rintro ⟨w, j⟩ _
  simp only [Prod.mk.injEq, and_true]
  simp [Nat.add_mod, Nat.mul_mod]

/-- **C09.** After a burst write of `L ≥ 1` words has been accepted, for every data, valid and last
schedule: the RAM writes are exactly the taken words, the `i`-th at `a + i*s`; `done` is high for
exactly one cycle once the burst is over and for none before; and the machine accepts data
(`wready`) exactly until then. (No new request, no `wquit` meanwhile.) -/
theorem c09_write_burst (aw : Nat) (s0 : WState) (req : WIn α) (ins : List (WIn α))
    (hidle : s0.busy = false) (hcond : req.cond = true) (hL : 0 < req.length)
    (hins : ∀ i ∈ ins, i.cond = false ∧ i.wquit = false) :
    emitted aw (wstep aw s0 req) ins =
      placed aw req.addr req.stride (taken req.length (supplied ins)) ∧
    dones aw (wstep aw s0 req) ins = (if over req.length (supplied ins) then 1 else 0) ∧
    wready (wrun aw (wstep aw s0 req) ins) = !over req.length (supplied ins) := by
  obtain ⟨L, hLL⟩ : ∃ L, req.length = L + 1 := ⟨req.length - 1, by omega⟩
  have hs : (wstep aw s0 req) = ⟨true, req.addr % 2 ^ aw, req.stride % 2 ^ aw, L + 1, false⟩ := by
    simp [wstep, hidle, hcond, hLL]
  rw [hs, hLL]
  suffices H : ∀ (ins : List (WIn α)) (L a st : Nat),
      (∀ i ∈ ins, i.cond = false ∧ i.wquit = false) →
      emitted aw ⟨true, a % 2 ^ aw, st % 2 ^ aw, L + 1, false⟩ ins =
        placed aw a st (taken (L + 1) (supplied ins)) ∧
      dones aw ⟨true, a % 2 ^ aw, st % 2 ^ aw, L + 1, false⟩ ins =
        (if over (L + 1) (supplied ins) then 1 else 0) ∧
      (wrun aw ⟨true, a % 2 ^ aw, st % 2 ^ aw, L + 1, false⟩ ins).busy =
        !over (L + 1) (supplied ins) from H ins L _ _ hins
  clear hs hLL hL hins
  intro ins
  induction ins with
  | nil => intro L a st _; exact ⟨rfl, rfl, rfl⟩
  | cons i is ih =>
    intro L a st hi
    have hi1 := hi i (by simp)
    have hi2 : ∀ j ∈ is, j.cond = false ∧ j.wquit = false := fun j hj => hi j (by simp [hj])
    by_cases hv : i.wvalid = true
    · have hsup : supplied (i :: is) = (i.wdata, i.wlast) :: supplied is := by
        simp [supplied, hv]
      rw [hsup]
      by_cases hend : i.wlast = true ∨ L = 0
      · -- the burst ends with this word
        have hst : wstep aw ⟨true, a % 2 ^ aw, st % 2 ^ aw, L + 1, false⟩ i =
            ⟨false, (a % 2 ^ aw + st % 2 ^ aw) % 2 ^ aw, st % 2 ^ aw, L, true⟩ := by
          rcases hend with h | h <;> simp [wstep, hv, hi1.2, h]
        obtain ⟨h1, h2, h3⟩ := emitted_idle aw
          ⟨false, (a % 2 ^ aw + st % 2 ^ aw) % 2 ^ aw, st % 2 ^ aw, L, true⟩ is rfl
          (fun j hj => (hi2 j hj).1)
        have hover : over (L + 1) ((i.wdata, i.wlast) :: supplied is) = true := by
          rcases hend with h | h <;> simp [over, h]
        have htaken : taken (L + 1) ((i.wdata, i.wlast) :: supplied is) = [i.wdata] := by
          rcases hend with h | h <;> simp [taken, h]
        refine ⟨?_, ?_, ?_⟩
        · rw [emitted, hst, h1, htaken]; simp [wemit, hv, placed]
        · rw [dones, hst, h2, hover]; simp
        · have : wrun aw ⟨true, a % 2 ^ aw, st % 2 ^ aw, L + 1, false⟩ (i :: is) =
            wrun aw (wstep aw ⟨true, a % 2 ^ aw, st % 2 ^ aw, L + 1, false⟩ i) is := rfl
          rw [this, hst, h3, hover]; rfl
      · have hnl : i.wlast = false := by
          cases hl : i.wlast
          · rfl
          · exact absurd (Or.inl hl) hend
        obtain ⟨L', rfl⟩ : ∃ L', L = L' + 1 := ⟨L - 1, by omega⟩
        have hst : wstep aw ⟨true, a % 2 ^ aw, st % 2 ^ aw, L' + 1 + 1, false⟩ i =
            ⟨true, (a % 2 ^ aw + st % 2 ^ aw) % 2 ^ aw % 2 ^ aw, st % 2 ^ aw % 2 ^ aw, L' + 1, false⟩ := by
          simp [wstep, hv, hi1.2, hnl]
        obtain ⟨h1, h2, h3⟩ := ih L' ((a % 2 ^ aw + st % 2 ^ aw) % 2 ^ aw) (st % 2 ^ aw) hi2
        refine ⟨?_, ?_, ?_⟩
        · simp only [emitted, hst, h1, wemit, hv, taken, hnl]
          rw [placed_mod]
          simp [placed]
          have := zipIdx_placed aw a st (taken (L' + 1) (supplied is)) 0
          simpa using this.symm
        · simp only [dones, hst, h2, over, hnl]; simp
        · have e : wrun aw ⟨true, a % 2 ^ aw, st % 2 ^ aw, L' + 1 + 1, false⟩ (i :: is) =
            wrun aw (wstep aw ⟨true, a % 2 ^ aw, st % 2 ^ aw, L' + 1 + 1, false⟩ i) is := rfl
          rw [e, hst, h3]; simp [over, hnl]
    · have hv' : i.wvalid = false := by simpa using hv
      have hsup : supplied (i :: is) = supplied is := by simp [supplied, hv']
      have hst : wstep aw ⟨true, a % 2 ^ aw, st % 2 ^ aw, L + 1, false⟩ i =
          ⟨true, a % 2 ^ aw, st % 2 ^ aw, L + 1, false⟩ := by simp [wstep, hv', hi1.2]
      obtain ⟨h1, h2, h3⟩ := ih L a st hi2
      rw [hsup]
      refine ⟨?_, ?_, ?_⟩
      · simp [emitted, wemit, hv', hst, h1]
      · simp [dones, hst, h2]
      · have e : wrun aw ⟨true, a % 2 ^ aw, st % 2 ^ aw, L + 1, false⟩ (i :: is) =
          wrun aw (wstep aw ⟨true, a % 2 ^ aw, st % 2 ^ aw, L + 1, false⟩ i) is := rfl
        rw [e, hst, h3]

/-- **C09 (plain case).** If the supply marks no earlier word as last and at least `L` words are
supplied, exactly the first `L` are written. -/
theorem c09_taken_all (L : Nat) (ws : List (α × Bool)) (hlen : L ≤ ws.length)
    (hlast : ∀ p ∈ ws.take (L - 1), p.2 = false) :
    taken L ws = (ws.take L).map Prod.fst ∧ over L ws = true := by
  induction L generalizing ws with
  | zero => simp [taken, over]
  | succ L ih =>
    cases ws with
    | nil => simp at hlen
    | cons p ws =>
      obtain ⟨w, l⟩ := p
      rcases Nat.eq_zero_or_pos L with h0 | h0
      · subst h0
        cases l <;> simp [taken, over]
      · obtain ⟨K, rfl⟩ : ∃ K, L = K + 1 := ⟨L - 1, by omega⟩
        have hl : l = false := hlast (w, l) (by simp)
        subst hl
        have := ih ws (by simpa using hlen) (fun p hp => hlast p (by simp at hp ⊢; exact Or.inr hp))
        simp [taken, over, this]

/-- `wquit` stops a burst. -/
theorem c09_write_burst_quit (aw : Nat) (s : WState) (i : WIn α)
    (hb : s.busy = true) (hq : i.wquit = true) : (wstep aw s i).busy = false := by
  simp [wstep, hb, hq]

/-- Non-vacuity: two words with stride 3 and an idle cycle in between. -/
example :
    let req : WIn Nat := ⟨true, 2, 3, 2, 0, false, false, false⟩
    let w (v : Bool) (d : Nat) : WIn Nat := ⟨false, 0, 0, 0, d, v, false, false⟩
    let ins := [w true 11, w false 0, w true 12, w true 13]
    emitted 3 (wstep 3 winit req) ins = [(2, 11), (5, 12)] ∧
    dones 3 (wstep 3 winit req) ins = 1 := by decide

end Burst
