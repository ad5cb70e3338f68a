import Verif.Model.Rom
import Verif.Lemmas.SchedOps
import Mathlib.Tactic.Linarith
import Mathlib.Data.List.Induction
import Mathlib.Data.List.GetD

/-! C87: read-only memories and look-up tables return the entry of the address; `Predicate` and `Reg` keep the last value
    selected. -/

namespace Rom
open Vlog Sch

theorem caseVal_some {values : List ℤ} {dw i : ℕ} {v old : ℤ} (h : values[i]? = some v) :
    caseVal values dw i old = v % 2 ^ dw := by
  unfold caseVal
  have hf : values.zipIdx.find? (fun p => decide ((p.2 : ℤ) = (i : ℤ))) = some (v, i) := by
    rw [List.find?_eq_some_iff_getElem]
    obtain ⟨hl, he⟩ := List.getElem?_eq_some_iff.1 h
    refine ⟨by simp, i, by simpa using hl, by simp [he], fun j hj => ?_⟩
    simp only [List.getElem_zipIdx, Bool.not_eq_true', decide_eq_false_iff_not]
    omega
  rw [hf]

theorem caseVal_none {values : List ℤ} {dw : ℕ} {a old : ℤ} (h : (values.length : ℤ) ≤ a) :
    caseVal values dw a old = old := by
  unfold caseVal
  have hf : values.zipIdx.find? (fun p => decide ((p.2 : ℤ) = a)) = none := by
    rw [List.find?_eq_none]
    intro p hp
    have := List.snd_lt_of_mem_zipIdx hp
    simp only [decide_eq_true_eq]
    omega
  rw [hf]

theorem size_le_vecBits (w : ℕ) : w ≤ vecBits w := by unfold vecBits; split <;> omega

theorem cut_small {size : ℕ} {a : ℤ} (h0 : 0 ≤ a) (h : a < 2 ^ size) : cutAddr size a = a := by
  unfold cutAddr
  refine Int.emod_eq_of_lt h0 (lt_of_lt_of_le h ?_)
  exact_mod_cast Nat.pow_le_pow_right (by omega) (size_le_vecBits size)

theorem cut_rom {values : List ℤ} {i : ℕ} (h : i < values.length) : cutAddr (romSize values) i = i := by
  refine cut_small (by omega) ?_
  have := Nat.le_pow_clog (b := 2) (by omega) values.length
  have h2 : i < 2 ^ romSize values := lt_of_lt_of_le h this
  exact_mod_cast h2

/-- A clocked ROM: the output is the entry of the last address read; not enabled, or with an address outside the table
    (which the address wire may hold), it keeps its value. -/
theorem c87_read (values : List ℤ) (dw : ℕ) (en : Option (ℕ → Bool)) (a : ℕ → ℤ) (x : ℤ) {t T i : ℕ} {v : ℤ}
    (hT : t < T) (he : ∀ e, en = some e → e t = true) (ha : a t = i) (hv : values[i]? = some v)
    (hk : ∀ u, t < u → u < T → (∃ e, en = some e ∧ e u = false) ∨
      (values.length : ℤ) ≤ a u % 2 ^ vecBits (romSize values)) :
    syncOut values dw en a x T = v % 2 ^ dw := by
  obtain ⟨hl, _⟩ := List.getElem?_eq_some_iff.1 hv
  induction T with
  | zero => omega
  | succ T ih =>
    rw [syncOut, syncNext]
    by_cases htT : t = T
    · subst htT
      have hen : (en.map (· t)).getD true = true := by
        cases en with
        | none => rfl
        | some e => exact he e rfl
      rw [hen, if_pos rfl, ha, cut_rom hl, caseVal_some hv]
    · have ih' := ih (by omega) fun u h1 h2 => hk u h1 (by omega)
      rcases hk T (by omega) (by omega) with ⟨e, he1, he2⟩ | ho
      · rw [he1] at ih' ⊢
        simp only [Option.map_some, Option.getD_some, he2]
        exact ih'
      · split
        · rw [cutAddr, caseVal_none ho, ih']
        · exact ih'

theorem bitLen_lt (v : ℤ) : v.natAbs < 2 ^ bitLen v := by
  unfold bitLen
  split
  · next h => subst h; simp
  · exact Nat.lt_pow_succ_log_self (by omega) _

theorem dataWidth_ge {values : List ℤ} {v : ℤ} (h : v ∈ values) : intWidth v ≤ dataWidth values := by
  have mono : ∀ (l : List ℤ) (d : ℕ), d ≤ l.foldl (fun d v => if d < intWidth v then intWidth v else d) d := by
    intro l
    induction l with
    | nil => intro d; simp
    | cons b l ih =>
      intro d
      rw [List.foldl_cons]
      refine le_trans ?_ (ih _)
      split <;> omega
  unfold dataWidth
  generalize 1 = d
  induction values generalizing d with
  | nil => simp at h
  | cons b l ih =>
    rw [List.foldl_cons]
    rcases List.mem_cons.1 h with rfl | h
    · refine le_trans ?_ (mono l _)
      split <;> omega
    · exact ih h _

/-- The width chosen when none is given keeps every entry: read as a signed number the output is the entry, and if the
    entry is not negative also as an unsigned one. -/
theorem c87_exact (values : List ℤ) {v : ℤ} (h : v ∈ values) :
    Int.bmod (v % 2 ^ dataWidth values) (2 ^ dataWidth values) = v ∧
      (0 ≤ v → v % 2 ^ dataWidth values = v) := by
  have hw := dataWidth_ge h
  have hb := bitLen_lt v
  obtain ⟨k, hk⟩ : ∃ k, dataWidth values = k + 1 ∧ bitLen v ≤ k := ⟨dataWidth values - 1, by unfold intWidth at hw; omega⟩
  obtain ⟨hk, hle⟩ := hk
  rw [hk]
  have hp : v.natAbs < 2 ^ k := lt_of_lt_of_le hb (Nat.pow_le_pow_right (by omega) hle)
  have h2 : (2 : ℕ) ^ (k + 1) = 2 * 2 ^ k := by rw [pow_succ]; omega
  constructor
  · have : (2 : ℤ) ^ (k + 1) = ((2 ^ (k + 1) : ℕ) : ℤ) := by push_cast; rfl
    rw [this, Int.emod_bmod, h2]
    generalize 2 ^ k = m at *
    exact Int.bmod_eq_of_le (by omega) (by omega)
  · intro h0
    have : (2 : ℤ) ^ (k + 1) = ((2 ^ (k + 1) : ℕ) : ℤ) := by push_cast; rfl
    rw [this, h2]
    generalize 2 ^ k = m at *
    exact Int.emod_eq_of_lt h0 (by omega)

/-- An unclocked ROM: the entry of the address. -/
theorem c87_async (values : List ℤ) (dw : ℕ) (a : ℕ → ℤ) (x : ℤ) {t i : ℕ} {v : ℤ} (ha : a t = i)
    (hv : values[i]? = some v) : asyncOut values dw a x t = v % 2 ^ dw := by
  obtain ⟨hl, _⟩ := List.getElem?_eq_some_iff.1 hv
  cases t <;> rw [asyncOut, ha, cut_rom hl, caseVal_some hv]

/-- An unclocked ROM is not combinational if its address can lie outside the table: it then gives the entry read before. -/
theorem c87_not_async (values : List ℤ) (dw : ℕ) (a : ℕ → ℤ) (x : ℤ) {t i : ℕ} {v : ℤ} (ha : a t = i)
    (hv : values[i]? = some v) (ho : (values.length : ℤ) ≤ a (t + 1))
    (hs : a (t + 1) < 2 ^ vecBits (romSize values)) :
    asyncOut values dw a x (t + 1) = v % 2 ^ dw := by
  rw [asyncOut, c87_async values dw a x ha hv, caseVal_none]
  unfold cutAddr
  rw [Int.emod_eq_of_lt (by omega) hs]
  exact ho

/-! ## Look-up tables -/

/-- The entry a look-up table gives. -/
def lutGet (patterns : List ℤ) (ty : Ty) (a : ℤ) : ℤ :=
  ty.wrap (patterns.getD (a % 2 ^ Nat.log 2 patterns.length).toNat 0)

theorem wrap_emod (ty : Ty) (v : ℤ) : ty.wrap (v % 2 ^ ty.width) = ty.wrap v := by
  have : (2 : ℤ) ^ ty.width = ((2 ^ ty.width : ℕ) : ℤ) := by push_cast; rfl
  unfold Ty.wrap
  rw [this]
  split
  · rw [Int.emod_bmod]
  · rw [Int.emod_emod_of_dvd _ (dvd_refl _)]

theorem lut_idx {patterns : List ℤ} (h : 2 ≤ patterns.length) (a : ℤ) :
    (a % 2 ^ Nat.log 2 patterns.length).toNat < patterns.length ∧
      cutAddr (lutSize patterns) a = ((a % 2 ^ Nat.log 2 patterns.length).toNat : ℤ) := by
  have h1 : 1 ≤ Nat.log 2 patterns.length := (Nat.le_log_iff_pow_le (by omega) (by omega)).2 (by simpa using h)
  have h2 : 2 ^ Nat.log 2 patterns.length ≤ patterns.length := Nat.pow_log_le_self 2 (by omega)
  have h3 : (2 : ℤ) ^ Nat.log 2 patterns.length = ((2 ^ Nat.log 2 patterns.length : ℕ) : ℤ) := by push_cast; rfl
  have hp : 0 < 2 ^ Nat.log 2 patterns.length := Nat.pow_pos (by omega)
  have hv : vecBits (lutSize patterns) = Nat.log 2 patterns.length := by
    unfold vecBits lutSize
    rw [if_neg (by omega)]
  unfold cutAddr
  rw [hv, h3]
  generalize 2 ^ Nat.log 2 patterns.length = m at *
  have e1 := Int.emod_nonneg a (b := (m : ℤ)) (by omega)
  have e2 := Int.emod_lt_of_pos a (b := (m : ℤ)) (by omega)
  omega

/-- The registers of a look-up table of two or more entries are an operator of latency 1, whatever the stalls: the entry
    of the address taken modulo the largest power of two that is at most the number of entries. -/
theorem c87_lut (patterns : List ℤ) (ty : Ty) (hl : 2 ≤ patterns.length) {en : ℕ → Bool} {u : ℕ → Bool × List ℤ}
    {sig : ℕ → ℤ} (h : LutRegs patterns ty en u sig) :
    (pureOp 1 fun as => lutGet patterns ty (as.headD 0)).Drives en u sig := by
  obtain ⟨r, hr, hs⟩ := h
  have key : ∀ t, 1 ≤ (cyc en t).length →
      ty.wrap (r t) = lutGet patterns ty ((lastArgs ((cyc en t).map u)).headD 0) := by
    intro t
    induction t with
    | zero => intro h; simp [cyc] at h
    | succ t ih =>
      intro h
      rw [hr, syncNext, cyc_succ]
      rw [cyc_succ] at h
      cases he : en t with
      | false =>
        rw [he] at h
        simpa using ih (by simpa using h)
      | true =>
        obtain ⟨q1, q2⟩ := lut_idx hl ((u t).2.headD 0)
        rw [Option.getD_some, if_pos rfl, if_pos rfl, q2, caseVal_some (List.getElem?_eq_getElem q1), wrap_emod,
          lastArgs_map (t := t) (by simp), lutGet, List.getD_eq_getElem _ _ q1]
  intro t ht
  change sig t = lutGet patterns ty ((lastArgs (((hp en t).take ((cyc en t).length + 1 - 1)).map u)).headD 0)
  rw [hs, key t ht, Nat.add_sub_cancel]
  unfold hp
  rw [List.take_left' rfl]

/-- With a number of entries that is a power of two every address of the table gives its entry. -/
theorem c87_lut_pow (patterns : List ℤ) (ty : Ty) {k i : ℕ} (hk : patterns.length = 2 ^ k) {v : ℤ}
    (hv : patterns[i]? = some v) : lutGet patterns ty i = ty.wrap v := by
  obtain ⟨hl, he⟩ := List.getElem?_eq_some_iff.1 hv
  unfold lutGet
  rw [hk, Nat.log_pow (by omega)]
  have h3 : (2 : ℤ) ^ k = ((2 ^ k : ℕ) : ℤ) := by push_cast; rfl
  rw [h3, Int.emod_eq_of_lt (by omega) (by omega), Int.toNat_natCast, List.getD_eq_getElem _ _ hl, he]

/-- With any other number of entries those from the largest power of two on are never read: their addresses give entries
    from the beginning of the table. -/
theorem c87_not_lut (patterns : List ℤ) (ty : Ty) {i : ℕ} (h1 : 2 ^ Nat.log 2 patterns.length ≤ i)
    (h2 : i < patterns.length) :
    lutGet patterns ty i = ty.wrap (patterns.getD (i - 2 ^ Nat.log 2 patterns.length) 0) := by
  unfold lutGet
  have h3 : (2 : ℤ) ^ Nat.log 2 patterns.length = ((2 ^ Nat.log 2 patterns.length : ℕ) : ℤ) := by push_cast; rfl
  have h4 : patterns.length < 2 ^ (Nat.log 2 patterns.length + 1) := Nat.lt_pow_succ_log_self (by omega) _
  rw [pow_succ] at h4
  rw [h3]
  generalize 2 ^ Nat.log 2 patterns.length = m at *
  have : ((i : ℤ) % (m : ℤ)).toNat = i - m := by
    rw [← Int.natCast_emod, Int.toNat_natCast, Nat.mod_eq_sub_mod h1, Nat.mod_eq_of_lt (by omega)]
  rw [this]

/-! ## Selected values -/

/-- An item without a `when` is selected, and one whose `when` is not 0. -/
def selected : List ℤ → Bool
  | [_, w] => w != 0
  | _ => true

theorem whenOf_eq (as : List ℤ) : whenOf as = selected as := by
  unfold whenOf selected
  split
  · rfl
  · rename_i h
    have : as.length ≠ 2 := by
      intro e
      match as, e with
      | [x, w], _ => exact h x w rfl
    simp [this]

/-- The last item that is valid and selected. -/
def lastSel (h : Hist) : Option ℤ :=
  ((h.filter fun p => p.1 && selected p.2).getLast?).map fun p => p.2.headD 0

/-- `Predicate` as an operator. -/
def predOp (ty : Ty) : Op := ⟨1, fun h => ((lastSel h).map ty.wrap).getD 0⟩

theorem pred_fold (ty : Ty) (h : Hist) (s : ℤ) :
    h.foldl (fun s p => if p.1 then (if selected p.2 then ty.wrap (p.2.headD 0) else s) else s) s =
      ((lastSel h).map ty.wrap).getD s := by
  induction h using List.reverseRecOn with
  | nil => rfl
  | append_singleton h p ih =>
    rw [List.foldl_append, ih]
    unfold lastSel
    rw [List.filter_append]
    cases h1 : p.1 <;> cases h2 : selected p.2 <;> simp [h1, h2]

/-- The register of a `Predicate`, whatever the stalls, is an operator of latency 1: the data of the last valid item for
    which `when` holds, 0 if there was none. -/
theorem c87_pred (ty : Ty) {en : ℕ → Bool} {u : ℕ → Bool × List ℤ} {sig : ℕ → ℤ} (h : PredRegs ty en u sig) :
    (predOp ty).Drives en u sig := by
  have e : predOp ty = accOp 0 (fun s as => if selected as then ty.wrap (as.headD 0) else s) id := by
    unfold predOp accOp
    congr 1
    funext h
    exact (pred_fold ty h 0).symm
  rw [e]
  apply acc_drives
  obtain ⟨r, r0, rs, hs⟩ := h
  refine ⟨r, r0, fun t => ?_, hs⟩
  rw [rs, whenOf_eq]
  cases h1 : (u t).1 <;> cases h2 : en t <;> cases h3 : selected (u t).2 <;> simp [h3]

/-- What is written into a `Reg` in cycle `t`, in order. -/
def writesAt (en : ℕ → Bool) (u : ℕ → Bool × List ℤ) (wr : ℕ → Option ℤ) (t : ℕ) : List ℤ :=
  (if en t && (u t).1 && selected (u t).2 then [(u t).2.headD 0] else []) ++ (wr t).toList

/-- A `Reg` holds the last value written to it, by the stream or by a thread; a thread has the last word in a cycle. -/
theorem c87_reg (ty : Ty) {en : ℕ → Bool} {u : ℕ → Bool × List ℤ} {wr : ℕ → Option ℤ} {sig : ℕ → ℤ}
    (h : RegRegs ty en u wr sig) (T : ℕ) :
    sig T = ((((List.range T).flatMap (writesAt en u wr)).getLast?).map ty.wrap).getD 0 := by
  obtain ⟨r, r0, rs, hs⟩ := h
  rw [hs]
  induction T with
  | zero => simp [r0]
  | succ T ih =>
    rw [rs, ih, List.range_succ, List.flatMap_append, List.flatMap_singleton, whenOf_eq]
    unfold writesAt
    cases wr T <;> cases en T <;> cases (u T).1 <;> cases selected (u T).2 <;> simp

/-! ## Examples -/

namespace Ex87

def rom : List ℤ := [5, -3, 12]

example : romSize rom = 2 ∧ dataWidth rom = 5 := by decide +kernel
example : syncOut rom 5 (some fun t => decide (t ≠ 1)) (fun t => if t = 2 then 3 else 1) 0 3 = (-3) % 2 ^ 5 :=
  c87_read rom 5 _ _ _ (t := 0) (i := 1) (by omega) (by rintro e ⟨⟩; rfl) rfl rfl (by
    intro u h1 h2
    obtain rfl | rfl : u = 1 ∨ u = 2 := by omega
    · exact Or.inl ⟨_, rfl, rfl⟩
    · exact Or.inr (by decide +kernel))
example : Int.bmod ((-3) % 2 ^ dataWidth rom) (2 ^ dataWidth rom) = -3 := (c87_exact rom (by decide)).1
example : asyncOut rom 5 (fun t => if t = 0 then 1 else 3) 0 1 = 29 :=
  c87_not_async rom 5 _ _ (t := 0) (i := 1) rfl rfl (by decide) (by decide +kernel)
example : asyncOut rom 5 (fun t => if t = 0 then 2 else 3) 0 1 = 12 :=
  c87_not_async rom 5 _ _ (t := 0) (i := 2) rfl rfl (by decide) (by decide +kernel)
example : asyncOut rom 5 (fun _ => 2) 0 0 = 12 := c87_async rom 5 _ 0 (i := 2) rfl rfl

/-- A table of four entries under stalls, and of three. -/
def tab : List ℤ := [10, -20, 30, -40]

def tabEn (t : ℕ) : Bool := t % 3 != 1
def tabIn (t : ℕ) : Bool × List ℤ := (false, [(t : ℤ)])
def tabR (ps : List ℤ) : ℕ → ℤ
  | 0 => 77
  | t + 1 => syncNext ps 32 (lutSize ps) (some (tabEn t)) ((tabIn t).2.headD 0) (tabR ps t)

theorem tab_regs (ps : List ℤ) : LutRegs ps ⟨32, true⟩ tabEn tabIn (fun t => Ty.wrap ⟨32, true⟩ (tabR ps t)) :=
  ⟨tabR ps, fun _ => rfl, fun _ => rfl⟩

example : Ty.wrap ⟨32, true⟩ (tabR tab 4) = -40 := by
  refine (c87_lut tab ⟨32, true⟩ (by decide) (tab_regs tab) 4 (by decide)).trans ?_
  decide +kernel
example : lutGet tab ⟨32, true⟩ (3 : ℕ) = -40 := (c87_lut_pow tab ⟨32, true⟩ (k := 2) (i := 3) (v := -40) rfl rfl).trans (by decide +kernel)
example : lutGet rom ⟨32, true⟩ (2 : ℕ) = 5 := c87_not_lut rom ⟨32, true⟩ (by decide +kernel) (by decide)

/-- A selected value under stalls, and a thread writing over it. -/
def selIn (t : ℕ) : Bool × List ℤ := (t != 2, [(t : ℤ) + 1, if t = 4 then 0 else 1])
def selEn (t : ℕ) : Bool := t != 3
def selR : ℕ → ℤ
  | 0 => 0
  | t + 1 => if (selIn t).1 && selEn t && whenOf (selIn t).2 then Ty.wrap ⟨8, true⟩ ((selIn t).2.headD 0) else selR t
def selW (t : ℕ) : Option ℤ := if t = 1 then some (-9) else none
def selS : ℕ → ℤ
  | 0 => 0
  | t + 1 => match selW t with
    | some v => Ty.wrap ⟨8, true⟩ v
    | none => if (selIn t).1 && selEn t && whenOf (selIn t).2 then Ty.wrap ⟨8, true⟩ ((selIn t).2.headD 0) else selS t

example : selR 5 = 2 := by
  rw [c87_pred ⟨8, true⟩ ⟨selR, rfl, fun _ => rfl, fun _ => rfl⟩ 5 (by decide)]
  decide +kernel
example : selS 5 = -9 := by
  rw [c87_reg ⟨8, true⟩ (en := selEn) (u := selIn) (wr := selW) ⟨selS, rfl, fun t => by rw [selS]; rfl, fun _ => rfl⟩ 5]
  decide +kernel

end Ex87
end Rom
