import Verif.Model.DfArith
import Verif.Props.C73_StreamArith

/-!
# C93: quotient and remainder of dataflow values
-/

namespace DfArith

open Vlog SArith

/-! ### The pipeline -/

/-- All clock edges. -/
def run {W : Nat} (c : Cfg) (s : St W) (ins : List (In W)) : St W := ins.foldl (step c) s

/-- The inputs at the edges at which the operator moves on. -/
def taken {W : Nat} (c : Cfg) : St W → List (In W) → List (In W)
  | _, [] => []
  | s, i :: is => if i.ready = true ∨ s.valid = false then i :: taken c (step c s i) is else taken c (step c s i) is

/-- An edge at which the operator moves on. -/
private def go {W : Nat} (c : Cfg) (s : St W) (i : In W) : St W :=
  { ldata := i.lval
    rdata := i.rval
    absL := absReg c.lsigned s.ldata
    absR := absReg c.rsigned s.rdata
    div := Div.step true true true s.div ⟨true, i.allReady && i.allValid, s.absL, s.absR⟩
    signs := chain (signOf s.ldata s.rdata) s.signs
    odata := outReg c.signed (s.signs.getLast?.getD false) c.shift (c.pick s.div.out)
    valids := chain s.div.out.valid s.valids }

private theorem run_taken {W : Nat} (c : Cfg) (s : St W) (ins : List (In W)) :
    run c s ins = (taken c s ins).foldl (go c) s := by
  unfold run
  induction ins generalizing s with
  | nil => rfl
  | cons i is ih =>
    rw [List.foldl_cons, ih]
    by_cases h : i.ready = true ∨ s.valid = false
    · have hs : step c s i = go c s i := by
        unfold step accept
        rw [if_pos (by rcases h with h | h <;> simp [h])]
        rfl
      rw [taken, if_pos h, List.foldl_cons, hs]
    · have hs : step c s i = s := by
        unfold step accept
        rw [if_neg (by simp only [not_or, Bool.not_eq_true, Bool.not_eq_false] at h; simp [h.1, h.2])]
      rw [taken, if_neg h, hs]

private theorem chain_eq (x : Bool) (rs : List Bool) : chain x rs = Pipe.push id x rs := by
  induction rs generalizing x with
  | nil => rfl
  | cons r rs ih => simp [chain, Pipe.push, ih]

private theorem push_zero? {σ : Type} (f : σ → σ) (x : σ) (rs : List σ) (h : 0 < rs.length) :
    (Pipe.push f x rs)[0]? = some x := by
  rw [List.getElem?_eq_getElem (by simpa using h), Pipe.push_zero f x rs h]

private theorem push_succ? {σ : Type} (f : σ → σ) (x y : σ) (rs : List σ) (i : Nat) (h : i + 1 < rs.length)
    (hy : rs[i]? = some y) : (Pipe.push f x rs)[i + 1]? = some (f y) := by
  rw [List.getElem?_eq_getElem (by simpa using h), Pipe.push_succ f x rs i h]
  rw [List.getElem?_eq_getElem (by omega)] at hy
  rw [Option.some.inj hy]

/-- The registers a state of the operator must have. -/
def Shape {W : Nat} (s : St W) : Prop :=
  s.div.stages.length = W + 1 ∧ s.signs.length = W + 3 ∧ s.valids.length = 3

theorem init_shape (W : Nat) : Shape (init W) := by simp [Shape, init]

private theorem go_shape {W : Nat} (c : Cfg) {s : St W} (h : Shape s) (i : In W) : Shape (go c s i) := by
  unfold Shape at *
  simp [go, Div.step, Div.shift_eq_push, chain_eq, h]

section trace

variable {W : Nat} (c : Cfg) (s : St W) (xs : List (In W))

private def at' (n : Nat) : St W := (xs.take n).foldl (go c) s

private theorem at_succ {n : Nat} (h : n < xs.length) : at' c s xs (n + 1) = go c (at' c s xs n) xs[n] := by
  unfold at'
  rw [List.take_succ_eq_append_getElem h, List.foldl_append]
  rfl

private theorem at_shape (h : Shape s) (n : Nat) : Shape (at' c s xs n) := by
  unfold at'
  generalize xs.take n = ys
  induction ys generalizing s with
  | nil => exact h
  | cons y ys ih => exact ih (go c s y) (go_shape c h y)

private theorem at_ldata {n : Nat} (h : n < xs.length) :
    (at' c s xs (n + 1)).ldata = xs[n].lval ∧ (at' c s xs (n + 1)).rdata = xs[n].rval := by
  rw [at_succ c s xs h]; exact ⟨rfl, rfl⟩

private theorem at_abs {n : Nat} (h : n + 1 < xs.length) :
    (at' c s xs (n + 2)).absL = absReg c.lsigned xs[n].lval ∧
    (at' c s xs (n + 2)).absR = absReg c.rsigned xs[n].rval := by
  rw [at_succ c s xs h]
  obtain ⟨h1, h2⟩ := at_ldata c s xs (n := n) (by omega)
  simp only [go, h1, h2, and_self]

private theorem at_signs (hs : Shape s) {n k : Nat} (h : n + k < xs.length) (hk : k < W + 3) :
    (at' c s xs (n + k + 1)).signs[k]? = some (signOf (at' c s xs n).ldata (at' c s xs n).rdata) := by
  induction k with
  | zero =>
    rw [at_succ c s xs (by omega)]
    have hl := (at_shape c s xs hs n).2.1
    simp only [go, chain_eq]
    exact push_zero? _ _ _ (by rw [hl]; omega)
  | succ k ih =>
    rw [at_succ c s xs (by omega)]
    have hl := (at_shape c s xs hs (n + (k + 1))).2.1
    simp only [go, chain_eq]
    exact push_succ? id _ _ _ k (by omega) (ih (by omega) (by omega))

private theorem at_stage (hs : Shape s) {n k : Nat} (h : n + k < xs.length) (hk : k < W + 1) :
    (at' c s xs (n + k + 1)).div.stages[k]? = some (Pipe.iter Div.next k (Div.load true true
      ⟨true, xs[n].allReady && xs[n].allValid, (at' c s xs n).absL, (at' c s xs n).absR⟩)) := by
  induction k with
  | zero =>
    rw [at_succ c s xs (by omega)]
    have hl := (at_shape c s xs hs n).1
    simp only [go, Div.step, if_true, Div.shift_eq_push]
    exact push_zero? _ _ _ (by rw [hl]; omega)
  | succ k ih =>
    rw [at_succ c s xs (by omega)]
    have hl := (at_shape c s xs hs (n + (k + 1))).1
    simp only [go, Div.step, if_true, Div.shift_eq_push]
    rw [Pipe.iter_succ']
    exact push_succ? Div.next _ _ _ k (by omega) (ih (by omega) (by omega))

private theorem at_out (hs : Shape s) {n : Nat} (h : n + (W + 1) < xs.length) :
    (at' c s xs (n + W + 2)).div.out = Div.pass true true true
      ⟨true, xs[n].allReady && xs[n].allValid, (at' c s xs n).absL, (at' c s xs n).absR⟩ := by
  rw [show n + W + 2 = (n + W + 1) + 1 by omega, at_succ c s xs (by omega)]
  have hl := (at_shape c s xs hs (n + W + 1)).1
  have := at_stage c s xs hs (n := n) (k := W) (by omega) (by omega)
  simp only [go, Div.step, if_true]
  rw [List.getLast?_eq_getElem?, hl, Nat.add_sub_cancel, this]
  rfl

private theorem at_valids (hs : Shape s) {n k : Nat} (h : n + k < xs.length) (hk : k < 3) :
    (at' c s xs (n + k + 1)).valids[k]? = some (at' c s xs n).div.out.valid := by
  induction k with
  | zero =>
    rw [at_succ c s xs (by omega)]
    have hl := (at_shape c s xs hs n).2.2
    simp only [go, chain_eq]
    exact push_zero? _ _ _ (by rw [hl]; omega)
  | succ k ih =>
    rw [at_succ c s xs (by omega)]
    have hl := (at_shape c s xs hs (n + (k + 1))).2.2
    simp only [go, chain_eq]
    exact push_succ? id _ _ _ k (by omega) (ih (by omega) (by omega))

end trace

/-- C93: whatever the registers hold, and whenever the consumers are ready: the pair of operands present at an edge at
    which the operator moves on is at the output after `width + 4` more such edges (latency `width + 5`), and the output
    is valid if and only if the operands were. -/
theorem c93_latency {W : Nat} (c : Cfg) (s : St W) (hs : Shape s) (ins older newer : List (In W)) (x : In W)
    (hx : taken c s ins = older ++ x :: newer) (hn : newer.length = W + 4) :
    (run c s ins).odata = through c x.lval x.rval ∧ (run c s ins).valid = (x.allReady && x.allValid) := by
  rw [run_taken, hx]
  set xs := older ++ x :: newer with hxs
  have hlen : xs.length = older.length + W + 5 := by simp [hxs, hn]; omega
  have hfin : xs.foldl (go c) s = at' c s xs (older.length + W + 5) := by
    unfold at'; rw [← hlen, List.take_length]
  have hget : xs[older.length]'(by omega) = x := by simp [hxs]
  obtain ⟨m, hm⟩ : ∃ m, m = older.length := ⟨_, rfl⟩
  simp only [← hm] at hlen hfin hget
  constructor
  · rw [hfin, show m + W + 5 = (m + W + 4) + 1 by omega, at_succ c s xs (by omega)]
    have hsig := at_signs c s xs hs (n := m + 1) (k := W + 2) (by omega) (by omega)
    have hl := (at_shape c s xs hs (m + W + 4)).2.1
    have hout := at_out c s xs hs (n := m + 2) (by omega)
    obtain ⟨h1, h2⟩ := at_ldata c s xs (n := m) (by omega)
    obtain ⟨h3, h4⟩ := at_abs c s xs (n := m) (by omega)
    rw [hget] at h1 h2 h3 h4
    rw [h1, h2, show m + 1 + (W + 2) + 1 = m + W + 4 by omega] at hsig
    rw [h3, h4, show m + 2 + W + 2 = m + W + 4 by omega] at hout
    simp only [go]
    rw [List.getLast?_eq_getElem?, hl, show W + 3 - 1 = W + 2 by omega, hsig, hout]
    unfold through
    rw [divider_eq]
    have hpick : ∀ e : Bool, c.pick (Div.pass true true true
        (⟨true, e, absReg c.lsigned x.lval, absReg c.rsigned x.rval⟩ : Div.In W)) =
        c.pick (Div.pass true true true ⟨true, true, absReg c.lsigned x.lval, absReg c.rsigned x.rval⟩) := by
      intro e
      have key : ∀ (k : Nat) (u v : Div.Stage W), u.aPos = v.aPos → u.bPos = v.bPos → u.dividend = v.dividend →
          u.divisor = v.divisor → u.rslt = v.rslt →
          (Pipe.iter Div.next k u).aPos = (Pipe.iter Div.next k v).aPos ∧
          (Pipe.iter Div.next k u).bPos = (Pipe.iter Div.next k v).bPos ∧
          (Pipe.iter Div.next k u).dividend = (Pipe.iter Div.next k v).dividend ∧
          (Pipe.iter Div.next k u).rslt = (Pipe.iter Div.next k v).rslt := by
        intro k
        induction k with
        | zero => intro u v a1 a2 a3 a4 a5; exact ⟨a1, a2, a3, a5⟩
        | succ k ih =>
          intro u v a1 a2 a3 a4 a5
          have hs' : Div.subValue u = Div.subValue v := by unfold Div.subValue; rw [a3, a4]
          have hl' : Div.isLarge u = Div.isLarge v := by unfold Div.isLarge; rw [hs']
          refine ih (Div.next u) (Div.next v) a1 a2 ?_ ?_ ?_
          · show (if Div.isLarge u = true then Div.subValue u else u.dividend) =
              (if Div.isLarge v = true then Div.subValue v else v.dividend)
            rw [hs', hl', a3]
          · show u.divisor >>> 1 = v.divisor >>> 1
            rw [a4]
          · show (u.rslt.concat (Div.isLarge u)).setWidth (2 * W) = (v.rslt.concat (Div.isLarge v)).setWidth (2 * W)
            rw [hl', a5]
      have := key W (Div.load true true ⟨true, e, absReg c.lsigned x.lval, absReg c.rsigned x.rval⟩)
        (Div.load true true ⟨true, true, absReg c.lsigned x.lval, absReg c.rsigned x.rval⟩) rfl rfl rfl rfl rfl
      obtain ⟨k1, k2, k3, k4⟩ := this
      simp only [Cfg.pick, Div.pass, Div.final, k1, k2, k3, k4]
    rw [hpick]
    rfl
  · rw [hfin]
    have hv := at_valids c s xs hs (n := m + W + 2) (k := 2) (by omega) (by omega)
    have hl := (at_shape c s xs hs (m + W + 5)).2.2
    have hout := at_out c s xs hs (n := m) (by omega)
    rw [show m + W + 2 + 2 + 1 = m + W + 5 by omega] at hv
    unfold St.valid
    rw [List.getLast?_eq_getElem?, hl, show 3 - 1 = 2 by omega, hv, hout]
    simp only [Option.getD_some, Div.pass, Div.final]
    rw [(Div.iter_ctrl W _).1, hget]
    rfl

/-! ### The value of one pair of operands -/

private theorem compl_neg {W : Nat} (x : BitVec W) : ~~~x + 1#W = -x := by rw [BitVec.neg_eq_not_add]

private theorem ofInt_shl {W : Nat} (q : Int) (sh : Nat) :
    BitVec.ofInt W q <<< sh = BitVec.ofInt W (q * (2 ^ sh : Nat)) := by
  rw [BitVec.shiftLeft_eq_mul_twoPow, BitVec.ofInt_mul]
  congr 1
  apply BitVec.eq_of_toNat_eq
  rw [BitVec.toNat_twoPow, BitVec.toNat_ofInt]
  omega

private theorem outReg_ofInt {W : Nat} (c : Cfg) (sg : Bool) (q : Int) :
    outReg c.signed sg c.shift (BitVec.ofInt W q) =
      BitVec.ofInt W ((if c.signed = true ∧ sg = true then -q else q) * (2 ^ c.shift : Nat)) := by
  have hy : (if c.shift > 0 then BitVec.ofInt W q <<< c.shift else BitVec.ofInt W q) =
      BitVec.ofInt W (q * (2 ^ c.shift : Nat)) := by
    split
    · exact ofInt_shl q c.shift
    · rw [show c.shift = 0 by omega]; simp
  unfold outReg
  simp only [hy, compl_neg]
  cases c.signed <;> cases sg <;> simp [← BitVec.ofInt_neg]

/-- The result for given contents of the two operand registers. -/
private theorem through_eq {W : Nat} (hW : 0 < W) (c : Cfg) (a b : BitVec W) (hb : absReg c.rsigned b ≠ 0#W) :
    through c a b = BitVec.ofInt W
      ((if c.signed = true ∧ signOf a b = true then
          -(if c.isMod then (absReg c.lsigned a).toInt.tmod (absReg c.rsigned b).toInt
            else (absReg c.lsigned a).toInt.tdiv (absReg c.rsigned b).toInt)
        else (if c.isMod then (absReg c.lsigned a).toInt.tmod (absReg c.rsigned b).toInt
            else (absReg c.lsigned a).toInt.tdiv (absReg c.rsigned b).toInt)) * (2 ^ c.shift : Nat)) := by
  unfold through
  rw [divider_eq]
  have h := Div.c05_div_signed hW ⟨true, true, absReg c.lsigned a, absReg c.rsigned b⟩ hb
  have hp : c.pick (Div.pass true true true ⟨true, true, absReg c.lsigned a, absReg c.rsigned b⟩) =
      BitVec.ofInt W (if c.isMod then (absReg c.lsigned a).toInt.tmod (absReg c.rsigned b).toInt
            else (absReg c.lsigned a).toInt.tdiv (absReg c.rsigned b).toInt) := by
    unfold Cfg.pick
    cases c.isMod
    · simpa using h.1
    · simpa using h.2
  rw [hp, outReg_ofInt]

private theorem signOf_eq {W : Nat} (a b : BitVec W) :
    signOf a b = (decide (a.toInt < 0) != decide (b.toInt < 0)) := by
  unfold signOf
  rw [BitVec.msb_eq_toInt, BitVec.msb_eq_toInt]
  by_cases h1 : a.toInt < 0 <;> by_cases h2 : b.toInt < 0 <;> simp [h1, h2]

private theorem absReg_nonneg {W : Nat} (s : Bool) (x : BitVec W) (h : 0 ≤ x.toInt) : absReg s x = x := by
  unfold absReg
  have : x.msb = false := by rw [BitVec.msb_eq_toInt]; simpa using h
  simp [this]

private theorem absReg_toInt {W : Nat} (x : BitVec W) :
    (absReg true x).toInt = if x.toInt * 2 = -(2 ^ W : Nat) then x.toInt else (x.toInt.natAbs : Int) := by
  have h := Div.absolute_toNat x
  have e : absReg true x = Div.absolute x := by
    unfold absReg Div.absolute Div.complement2
    cases x.msb <;> simp
  have hlo := BitVec.le_two_mul_toInt (x := x)
  have hhi := BitVec.two_mul_toInt_lt (x := x)
  rw [e, BitVec.toInt_eq_toNat_cond, h]
  have hc : (2 : Int) ^ W = ((2 ^ W : Nat) : Int) := by push_cast; rfl
  rw [hc] at hlo hhi
  generalize (2 ^ W : Nat) = P at *
  split <;> split <;> omega

private theorem absReg_ne {W : Nat} (s : Bool) (x : BitVec W) (h : x ≠ 0#W) : absReg s x ≠ 0#W := by
  unfold absReg
  split
  · split
    · exact h
    · rw [compl_neg]; intro h'; apply h
      have := congrArg (fun z => -z) h'
      simpa using this
  · exact h

/-- The operands as they are compared with each other: the left one has its point moved to that of the right one if it
    is smaller. -/
def scaled (l r : Attr) (a : Int) : Int := a * (2 ^ (r.point - l.point) : Nat)

/-- The condition on constants: the literals are plain Verilog numbers. -/
def Plain (l r : Nd) (a b : Int) : Prop := Small l (r.attr.point - l.attr.point) a ∧ Small r 0 b

private theorem assign_reads {ρ : String → Int} {n : Nd} {v : Int} (h : Carries ρ n v) {d : Nat} (hm : Small n d v)
    {W : Nat} (hW : n.attr.width + d ≤ W) : (adjE n d).assign ρ ⟨W, n.attr.signed⟩ = v * (2 ^ d : Nat) := by
  have hin : Ty.InRange ⟨W, n.attr.signed⟩ (v * (2 ^ d : Nat)) := shifted_inRange (carries_inRange h) hW
  unfold VExpr.assign
  rw [adjE_ty h d]
  rw [adjE_reads h hm (by simp) (Or.inl rfl), Ty.wrap_wrap_le (by simp), Ty.wrap_of_inRange _ hin]

private theorem operands_eq {ρ : String → Int} {l r : Nd} {a b : Int} (hl : Carries ρ l a) (hr : Carries ρ r b)
    (hp : Plain l r a b) : operands ρ l r = (scaled l.attr r.attr a, b) := by
  obtain ⟨g1, g2⟩ := width_ge l.attr r.attr
  have h1 := assign_reads hl hp.1 g1
  have h2 := assign_reads hr hp.2 (W := (binAttr l.attr r.attr).width) (by omega)
  simp only [operands]
  split
  · rename_i hle
    rw [aligned_eq l r _ (fun h => by simp only [binAttr, Bool.and_eq_true] at h; exact h.1)
      (fun h => by simp only [binAttr, Bool.and_eq_true] at h; exact h.2)]
    rw [show l.attr.point - r.attr.point = 0 by omega]
    simp only [h1, h2, scaled]
    simp
  · rename_i hle
    have e : r.attr.point - l.attr.point = 0 := by omega
    rw [e] at h1
    have e1 : adjE l 0 = l.expr := by simp [adjE]
    have e2 : adjE r 0 = r.expr := by simp [adjE]
    rw [e1] at h1
    rw [e2] at h2
    simp only [h1, h2, scaled, e]
    simp

private theorem shiftSize_eq (l r : Attr) : shiftSize l r = r.point := by
  simp only [shiftSize]
  split <;> omega

private theorem scaled_inRange {ρ : String → Int} {l : Nd} {a : Int} (hl : Carries ρ l a) (r : Attr) :
    Ty.InRange ⟨(binAttr l.attr r).width, l.attr.signed⟩ (scaled l.attr r a) :=
  shifted_inRange (carries_inRange hl) (width_ge l.attr r).1

private theorem right_inRange {ρ : String → Int} {r : Nd} {b : Int} (hr : Carries ρ r b) (l : Attr) :
    Ty.InRange ⟨(binAttr l r.attr).width, r.attr.signed⟩ b := by
  have := shifted_inRange (W := (binAttr l r.attr).width) (d := 0) (carries_inRange hr)
    (by have := (width_ge l r.attr).2; omega)
  simpa [Attr.ty] using this

private theorem quotient_eq (l r : Attr) (a b : Int) :
    truncQ (num a l.point / num b r.point * 2 ^ (l.point - r.point)) = (scaled l r a).tdiv b := by
  rw [← truncQ_div]
  congr 1
  unfold num scaled
  have h0 : (2 : ℚ) ^ l.point ≠ 0 := by positivity
  have h1 : (2 : ℚ) ^ r.point ≠ 0 := by positivity
  by_cases hb : b = 0
  · subst hb; simp
  have hb' : (b : ℚ) ≠ 0 := by exact_mod_cast hb
  have key : (2 : ℚ) ^ r.point * 2 ^ (l.point - r.point) = 2 ^ (r.point - l.point) * 2 ^ l.point := by
    rw [← pow_add, ← pow_add]; congr 1; omega
  push_cast
  field_simp
  have := congrArg (fun z => (a : ℚ) * z) key
  rw [mul_assoc, this]; ring

private theorem wrap_read (o : Attr) (z : Int) :
    o.ty.wrap ((BitVec.ofInt o.width z).toNat : Int) = o.ty.wrap z := wrap_toNat_ofInt o.ty z

/-- The most negative number of the width. -/
def Least (w : Nat) (v : Int) : Prop := v * 2 = -(2 ^ w : Nat)

private theorem width_pos {w : Nat} {s : Bool} {v : Int} (h : Ty.InRange ⟨w, s⟩ v) (hv : v ≠ 0) : 0 < w := by
  rcases Nat.eq_zero_or_pos w with h0 | h0
  · subst h0
    unfold Ty.InRange at h
    simp only [Nat.pow_zero] at h
    split at h <;> omega
  · exact h0

private theorem tdiv_signs (x y : Int) : (if (decide (x < 0) != decide (y < 0)) = true then
    -((x.natAbs : Int).tdiv (y.natAbs : Int)) else (x.natAbs : Int).tdiv (y.natAbs : Int)) = x.tdiv y := by
  rcases lt_or_ge x 0 with hx | hx <;> rcases lt_or_ge y 0 with hy | hy
  · have e1 : (x.natAbs : Int) = -x := by omega
    have e2 : (y.natAbs : Int) = -y := by omega
    simp [hx, hy, e1, e2, Int.neg_tdiv, Int.tdiv_neg]
  · have e1 : (x.natAbs : Int) = -x := by omega
    have e2 : (y.natAbs : Int) = y := by omega
    have : ¬ y < 0 := by omega
    simp [hx, this, e1, e2, Int.neg_tdiv]
  · have e1 : (x.natAbs : Int) = x := by omega
    have e2 : (y.natAbs : Int) = -y := by omega
    have : ¬ x < 0 := by omega
    simp [hy, this, e1, e2, Int.tdiv_neg]
  · have e1 : (x.natAbs : Int) = x := by omega
    have e2 : (y.natAbs : Int) = y := by omega
    have h1 : ¬ x < 0 := by omega
    have h2 : ¬ y < 0 := by omega
    simp [h1, h2, e1, e2]

private theorem ofInt_ne_zero {W : Nat} {b : Int} (h : (BitVec.ofInt W b).toInt = b) (hb : b ≠ 0) :
    BitVec.ofInt W b ≠ 0#W := by
  intro h'
  rw [h'] at h
  simp at h
  exact hb h.symm

/-- C93: the quotient of two signed values has as many bits after the point as the dividend has more than the divisor
    (none if it has not), rounded towards zero, modulo the width of the result.  The dividend, with its point moved to
    that of the divisor, must not be the most negative number of the width, unless the divisor is it, too. -/
theorem c93_divide_signed (ρ : String → Int) (l r : Nd) (a b : Int) (hl : Carries ρ l a) (hr : Carries ρ r b)
    (hp : Plain l r a b) (sl : l.attr.signed = true) (sr : r.attr.signed = true) (hb : b ≠ 0)
    (hm : Least (binAttr l.attr r.attr).width (scaled l.attr r.attr a) → Least (binAttr l.attr r.attr).width b) :
    divide ρ l r = (binAttr l.attr r.attr).ty.wrap
      (truncQ (num a l.attr.point / num b r.attr.point * 2 ^ (l.attr.point - r.attr.point)) *
        (2 ^ r.attr.point : Nat)) := by
  rw [quotient_eq]
  have ha' := scaled_inRange hl r.attr
  have hb' := right_inRange hr l.attr
  rw [sl] at ha'
  rw [sr] at hb'
  have e1 := toInt_ofInt_inRange ha'
  have e2 := toInt_ofInt_inRange hb'
  have hW := width_pos hb' hb
  simp only [divide, value, operands_eq hl hr hp]
  generalize hx : scaled l.attr r.attr a = x at *
  generalize ho : binAttr l.attr r.attr = o at *
  have hos : o.signed = true := by rw [← ho]; simp [binAttr, sl, sr]
  rw [through_eq hW _ _ _ (absReg_ne _ _ (ofInt_ne_zero e2 hb)), wrap_read]
  simp only [cfg, ho, hos, sl, sr, shiftSize_eq, signOf_eq, absReg_toInt, e1, e2, true_and, Bool.false_eq_true, if_false]
  congr 2
  unfold Least at hm
  unfold Ty.InRange at ha' hb'
  simp only [if_true] at ha' hb'
  by_cases hxm : x * 2 = -(2 ^ o.width : Nat)
  · have hbm := hm hxm
    have : x = b := by omega
    subst this
    rw [if_pos hxm]; simp
  · rw [if_neg hxm]
    by_cases hbm : b * 2 = -(2 ^ o.width : Nat)
    · rw [if_pos hbm]
      have hlt : x.natAbs < b.natAbs := by omega
      have z1 : (x.natAbs : Int).tdiv b = 0 := by
        rw [← Int.natAbs_eq_zero, Int.natAbs_tdiv, Int.natAbs_natCast]
        exact Nat.div_eq_of_lt hlt
      have z2 : x.tdiv b = 0 := by
        rw [← Int.natAbs_eq_zero, Int.natAbs_tdiv]
        exact Nat.div_eq_of_lt hlt
      simp only [z1, z2, neg_zero, ite_self]
    · rw [if_neg hbm]
      exact tdiv_signs x b

/-- C93: the same for operands of any signedness that are not negative and need one bit less than the result has. -/
theorem c93_divide_nonneg (ρ : String → Int) (l r : Nd) (a b : Int) (hl : Carries ρ l a) (hr : Carries ρ r b)
    (hp : Plain l r a b) (ha0 : 0 ≤ a) (hb : 0 < b)
    (ha1 : scaled l.attr r.attr a * 2 < (2 ^ (binAttr l.attr r.attr).width : Nat))
    (hb1 : b * 2 < (2 ^ (binAttr l.attr r.attr).width : Nat)) :
    divide ρ l r = (binAttr l.attr r.attr).ty.wrap
      (truncQ (num a l.attr.point / num b r.attr.point * 2 ^ (l.attr.point - r.attr.point)) *
        (2 ^ r.attr.point : Nat)) := by
  rw [quotient_eq]
  have hx0 : 0 ≤ scaled l.attr r.attr a := by unfold scaled; positivity
  have ir : ∀ v : Int, 0 ≤ v → v * 2 < (2 ^ (binAttr l.attr r.attr).width : Nat) →
      Ty.InRange ⟨(binAttr l.attr r.attr).width, true⟩ v := by
    intro v h0 h1; unfold Ty.InRange; simp only [if_true]; omega
  have e1 := toInt_ofInt_inRange (ir _ hx0 ha1)
  have e2 := toInt_ofInt_inRange (ir b (by omega) hb1)
  have hW := width_pos (ir b (by omega) hb1) (by omega)
  simp only [divide, value, operands_eq hl hr hp]
  rw [through_eq hW _ _ _ (absReg_ne _ _ (ofInt_ne_zero e2 (by omega))), wrap_read]
  rw [absReg_nonneg _ _ (by rw [e1]; exact hx0), absReg_nonneg _ _ (by rw [e2]; omega), signOf_eq, e1, e2]
  have h1 : ¬ scaled l.attr r.attr a < 0 := by omega
  have h2 : ¬ b < 0 := by omega
  simp [h1, h2, cfg, shiftSize_eq]

/-- C93 (negative): a negative signed dividend over an unsigned divisor gives the quotient of its absolute value: the
    result is unsigned, and the sign is dropped. -/
theorem c93_not_mixed (ρ : String → Int) (l r : Nd) (a b : Int) (hl : Carries ρ l a) (hr : Carries ρ r b)
    (hp : Plain l r a b) (sl : l.attr.signed = true) (sr : r.attr.signed = false) (ha : a < 0) (hb : 0 < b)
    (hm : ¬ Least (binAttr l.attr r.attr).width (scaled l.attr r.attr a))
    (hb1 : b * 2 < (2 ^ (binAttr l.attr r.attr).width : Nat)) :
    divide ρ l r = (binAttr l.attr r.attr).ty.wrap
      (-truncQ (num a l.attr.point / num b r.attr.point * 2 ^ (l.attr.point - r.attr.point)) *
        (2 ^ r.attr.point : Nat)) := by
  rw [quotient_eq]
  have ha' := scaled_inRange hl r.attr
  rw [sl] at ha'
  have e1 := toInt_ofInt_inRange ha'
  have hb' : Ty.InRange ⟨(binAttr l.attr r.attr).width, true⟩ b := by
    unfold Ty.InRange; simp only [if_true]; omega
  have e2 := toInt_ofInt_inRange hb'
  have hW := width_pos hb' (by omega)
  have hx : scaled l.attr r.attr a ≤ 0 := by
    unfold scaled; exact Int.mul_nonpos_of_nonpos_of_nonneg (by omega) (by positivity)
  simp only [divide, value, operands_eq hl hr hp]
  rw [through_eq hW _ _ _ (absReg_ne _ _ (ofInt_ne_zero e2 (by omega))), wrap_read]
  have hos : (binAttr l.attr r.attr).signed = false := by simp [binAttr, sr]
  unfold Least at hm
  simp only [cfg, sr, absReg_nonneg false (BitVec.ofInt (binAttr l.attr r.attr).width b) (by rw [e2]; omega)]
  simp only [hos, sl, shiftSize_eq, absReg_toInt, e1, e2, Bool.false_eq_true, if_false, false_and, if_neg hm]
  rw [show ((scaled l.attr r.attr a).natAbs : Int) = -scaled l.attr r.attr a by omega, Int.neg_tdiv]

/-- C93 (negative): with the most negative dividend and another divisor the quotient has the wrong sign. -/
theorem c93_not_min (ρ : String → Int) (l r : Nd) (a b : Int) (hl : Carries ρ l a) (hr : Carries ρ r b)
    (hp : Plain l r a b) (sl : l.attr.signed = true) (sr : r.attr.signed = true) (hb : b ≠ 0)
    (hm : Least (binAttr l.attr r.attr).width (scaled l.attr r.attr a))
    (hm' : ¬ Least (binAttr l.attr r.attr).width b) :
    divide ρ l r = (binAttr l.attr r.attr).ty.wrap
      (-truncQ (num a l.attr.point / num b r.attr.point * 2 ^ (l.attr.point - r.attr.point)) *
        (2 ^ r.attr.point : Nat)) := by
  rw [quotient_eq]
  have ha' := scaled_inRange hl r.attr
  have hb' := right_inRange hr l.attr
  rw [sl] at ha'
  rw [sr] at hb'
  have e1 := toInt_ofInt_inRange ha'
  have e2 := toInt_ofInt_inRange hb'
  have hW := width_pos hb' hb
  simp only [divide, value, operands_eq hl hr hp]
  generalize hx : scaled l.attr r.attr a = x at *
  generalize ho : binAttr l.attr r.attr = o at *
  have hos : o.signed = true := by rw [← ho]; simp [binAttr, sl, sr]
  rw [through_eq hW _ _ _ (absReg_ne _ _ (ofInt_ne_zero e2 hb)), wrap_read]
  simp only [cfg, ho, hos, sl, sr, shiftSize_eq, signOf_eq, absReg_toInt, e1, e2, true_and, Bool.false_eq_true, if_false]
  congr 2
  unfold Least at hm hm'
  rw [if_pos hm, if_neg hm']
  have hp2 : 0 < (2 ^ o.width : Nat) := Nat.two_pow_pos _
  have hx0 : x < 0 := by omega
  rcases lt_or_ge b 0 with h | h
  · have e : (b.natAbs : Int) = -b := by omega
    simp [hx0, h, e, Int.tdiv_neg]
  · have e : (b.natAbs : Int) = b := by omega
    have h' : ¬ b < 0 := by omega
    simp [hx0, h', e]

/-- C93 (negative): unsigned integers with the top bit set are divided as if they were negative; the quotient by any
    number from 2 on without the top bit is wrong. -/
theorem c93_not_unsigned (ρ : String → Int) (l r : Nd) (a b : Int) (hl : Carries ρ l a) (hr : Carries ρ r b)
    (hp : Plain l r a b) (sl : l.attr.signed = false) (sr : r.attr.signed = false)
    (pl : l.attr.point = 0) (pr : r.attr.point = 0)
    (ha : (2 ^ (binAttr l.attr r.attr).width : Nat) ≤ a * 2) (hb : 2 ≤ b)
    (hb1 : b * 2 < (2 ^ (binAttr l.attr r.attr).width : Nat)) : divide ρ l r ≠ a / b := by
  have ha' := scaled_inRange hl r.attr
  have hb' := right_inRange hr l.attr
  have hsa : scaled l.attr r.attr a = a := by simp [scaled, pl, pr]
  rw [sl, hsa] at ha'
  have hW := width_pos hb' (by omega)
  simp only [divide, value, operands_eq hl hr hp, hsa]
  have hos : (binAttr l.attr r.attr).signed = false := by simp [binAttr, sl]
  generalize ho : binAttr l.attr r.attr = o at *
  have e2 : (BitVec.ofInt o.width b).toInt = b := by
    apply toInt_ofInt_inRange; unfold Ty.InRange; simp only [if_true]; omega
  unfold Ty.InRange at ha'
  simp only [Bool.false_eq_true, if_false] at ha'
  have e1 : (BitVec.ofInt o.width a).toInt = a - (2 ^ o.width : Nat) := by
    rw [BitVec.toInt_ofInt]
    have : a = (a - (2 ^ o.width : Nat)) + (2 ^ o.width : Nat) := by omega
    rw [this, Int.add_bmod_right]
    rw [Int.bmod_eq_of_le_mul_two (by omega) (by omega)]; omega
  rw [through_eq hW _ _ _ (absReg_ne _ _ (ofInt_ne_zero e2 (by omega))), wrap_read]
  simp only [cfg, ho, hos, sl, sr, shiftSize_eq, absReg, e1, e2, Bool.false_eq_true, if_false, false_and, pr,
    Nat.pow_zero, Nat.cast_one, Int.mul_one]
  intro h
  generalize hP : (2 ^ o.width : Nat) = P at *
  have hneg : (a - P).tdiv b = -((P - a) / b) := by
    have : a - (P : Int) = -(P - a) := by omega
    rw [this, Int.neg_tdiv, Int.tdiv_eq_ediv_of_nonneg (by omega)]
  rw [hneg] at h
  have hmod := Ty.wrap_emod ⟨o.width, o.signed⟩ (-((P - a) / b))
  simp only [hP] at hmod
  have h' : (⟨o.width, o.signed⟩ : Ty).wrap (-((P - a) / b)) = a / b := h
  rw [h'] at hmod
  -- both sides between 0 and P
  have q0 : 0 ≤ (P - a) / b := Int.ediv_nonneg (by omega) (by omega)
  have q1 : (P - a) / b * b ≤ P - a := Int.ediv_mul_le _ (by omega)
  have q2 : (P - a) / b * 2 ≤ (P - a) / b * b := Int.mul_le_mul_of_nonneg_left hb q0
  have p0 : 1 ≤ a / b := by rw [Int.le_ediv_iff_mul_le (by omega)]; omega
  have p1 : a / b * b ≤ a := Int.ediv_mul_le _ (by omega)
  have p2 : a / b * 2 ≤ a / b * b := Int.mul_le_mul_of_nonneg_left hb (by omega)
  rw [Int.emod_eq_of_lt (by omega) (by omega)] at hmod
  generalize (P - a) / b = q at *
  rcases Int.lt_or_eq_of_le q0 with hq | hq
  · have : (-q) % (P : Int) = P - q := by
      have e : -q = (P - q) + P * (-1) := by omega
      rw [e, Int.add_mul_emod_self_left, Int.emod_eq_of_lt (by omega) (by omega)]
    omega
  · subst hq
    simp at hmod
    omega

/-- C93: the remainder of two signed values, the dividend not the most negative number.  The raw result is that of the
    absolute values, negative if one operand is and the other is not, shifted left by the point of the divisor. -/
theorem c93_mod_signed (ρ : String → Int) (l r : Nd) (a b : Int) (hl : Carries ρ l a) (hr : Carries ρ r b)
    (hp : Plain l r a b) (sl : l.attr.signed = true) (sr : r.attr.signed = true) (hb : b ≠ 0)
    (hm : ¬ Least (binAttr l.attr r.attr).width (scaled l.attr r.attr a)) :
    mod ρ l r = (binAttr l.attr r.attr).ty.wrap
      ((if a < 0 ↔ b < 0 then (((scaled l.attr r.attr a).natAbs % b.natAbs : Nat) : Int)
        else -(((scaled l.attr r.attr a).natAbs % b.natAbs : Nat) : Int)) * (2 ^ r.attr.point : Nat)) := by
  have hsgn : scaled l.attr r.attr a < 0 ↔ a < 0 := by
    unfold scaled
    have := two_pow_pos (r.attr.point - l.attr.point)
    constructor
    · intro h; by_contra hc
      have : 0 ≤ a * ((2 ^ (r.attr.point - l.attr.point) : Nat) : Int) := Int.mul_nonneg (by omega) (by omega)
      omega
    · intro h; exact Int.mul_neg_of_neg_of_pos h (by omega)
  have ha' := scaled_inRange hl r.attr
  have hb' := right_inRange hr l.attr
  rw [sl] at ha'
  rw [sr] at hb'
  have e1 := toInt_ofInt_inRange ha'
  have e2 := toInt_ofInt_inRange hb'
  have hW := width_pos hb' hb
  simp only [mod, value, operands_eq hl hr hp]
  generalize hx : scaled l.attr r.attr a = x at *
  generalize ho : binAttr l.attr r.attr = o at *
  have hos : o.signed = true := by rw [← ho]; simp [binAttr, sl, sr]
  rw [through_eq hW _ _ _ (absReg_ne _ _ (ofInt_ne_zero e2 hb)), wrap_read]
  simp only [cfg, ho, hos, sl, sr, shiftSize_eq, signOf_eq, absReg_toInt, e1, e2, true_and, if_true]
  congr 2
  unfold Least at hm
  unfold Ty.InRange at ha' hb'
  simp only [if_true] at ha' hb'
  rw [if_neg hm]
  have hr' : (x.natAbs : Int).tmod (if b * 2 = -((2 ^ o.width : Nat) : Int) then b else (b.natAbs : Int)) =
      ((x.natAbs % b.natAbs : Nat) : Int) := by
    split
    · rename_i hbm
      have hlt : x.natAbs < b.natAbs := by omega
      have eb : b = -(b.natAbs : Int) := by omega
      rw [eb, Int.tmod_neg, Int.natAbs_neg, Int.natAbs_natCast]
      rfl
    · rfl
  rw [hr']
  by_cases h1 : x < 0 <;> by_cases h2 : b < 0
  · simp [h1, h2, hsgn.1 h1]
  · simp [h1, h2, hsgn.1 h1]
  · simp [h1, h2, mt hsgn.2 h1]
  · simp [h1, h2, mt hsgn.2 h1]

/-- C93: the remainder of operands without points that are not negative and need one bit less than the result has. -/
theorem c93_mod_nonneg (ρ : String → Int) (l r : Nd) (a b : Int) (hl : Carries ρ l a) (hr : Carries ρ r b)
    (hp : Plain l r a b) (ha0 : 0 ≤ a) (hb : 0 < b)
    (ha1 : scaled l.attr r.attr a * 2 < (2 ^ (binAttr l.attr r.attr).width : Nat))
    (hb1 : b * 2 < (2 ^ (binAttr l.attr r.attr).width : Nat)) :
    mod ρ l r = (binAttr l.attr r.attr).ty.wrap (scaled l.attr r.attr a % b * (2 ^ r.attr.point : Nat)) := by
  have hx0 : 0 ≤ scaled l.attr r.attr a := by unfold scaled; positivity
  have ir : ∀ v : Int, 0 ≤ v → v * 2 < (2 ^ (binAttr l.attr r.attr).width : Nat) →
      Ty.InRange ⟨(binAttr l.attr r.attr).width, true⟩ v := by
    intro v h0 h1; unfold Ty.InRange; simp only [if_true]; omega
  have e1 := toInt_ofInt_inRange (ir _ hx0 ha1)
  have e2 := toInt_ofInt_inRange (ir b (by omega) hb1)
  have hW := width_pos (ir b (by omega) hb1) (by omega)
  simp only [mod, value, operands_eq hl hr hp]
  rw [through_eq hW _ _ _ (absReg_ne _ _ (ofInt_ne_zero e2 (by omega))), wrap_read]
  rw [absReg_nonneg _ _ (by rw [e1]; exact hx0), absReg_nonneg _ _ (by rw [e2]; omega), signOf_eq, e1, e2,
    Int.tmod_eq_emod_of_nonneg hx0]
  have h1 : ¬ scaled l.attr r.attr a < 0 := by omega
  have h2 : ¬ b < 0 := by omega
  simp [h1, h2, cfg, shiftSize_eq]

private theorem mod_integers (ρ : String → Int) (l r : Nd) (a b : Int) (hl : Carries ρ l a) (hr : Carries ρ r b)
    (hp : Plain l r a b) (sl : l.attr.signed = true) (sr : r.attr.signed = true)
    (pl : l.attr.point = 0) (pr : r.attr.point = 0) (hb : b ≠ 0)
    (hm : ¬ Least (binAttr l.attr r.attr).width a) :
    mod ρ l r = if a < 0 ↔ b < 0 then ((a.natAbs % b.natAbs : Nat) : Int) else -((a.natAbs % b.natAbs : Nat) : Int) := by
  have hs : scaled l.attr r.attr a = a := by simp [scaled, pl, pr]
  have ha' := scaled_inRange hl r.attr
  rw [hs, sl] at ha'
  have h := c93_mod_signed ρ l r a b hl hr hp sl sr hb (by rw [hs]; exact hm)
  rw [h, hs, pr]
  simp only [Nat.pow_zero, Nat.cast_one, Int.mul_one]
  apply Ty.wrap_of_inRange
  have hos : (binAttr l.attr r.attr).signed = true := by simp [binAttr, sl, sr]
  unfold Least at hm
  unfold Ty.InRange at ha' ⊢
  simp only [Attr.ty, hos, if_true] at ha' ⊢
  have := Nat.mod_le a.natAbs b.natAbs
  split <;> omega

/-- C93: for signed integers the remainder has the sign of the dividend, as in Verilog, if the divisor is positive. -/
theorem c93_mod_trunc (ρ : String → Int) (l r : Nd) (a b : Int) (hl : Carries ρ l a) (hr : Carries ρ r b)
    (hp : Plain l r a b) (sl : l.attr.signed = true) (sr : r.attr.signed = true)
    (pl : l.attr.point = 0) (pr : r.attr.point = 0) (hb : 0 < b)
    (hm : ¬ Least (binAttr l.attr r.attr).width a) : mod ρ l r = a.tmod b := by
  rw [mod_integers ρ l r a b hl hr hp sl sr pl pr (by omega) hm]
  have h2 : ¬ b < 0 := by omega
  have h3 : (b.natAbs : Int) = b := by omega
  rcases lt_or_ge a 0 with h | h
  · have h4 : (a.natAbs : Int) = -a := by omega
    rw [if_neg (by simp [h, h2])]
    push_cast
    rw [← Int.natCast_natAbs, ← Int.natCast_natAbs, h3, h4, ← Int.tmod_eq_emod_of_nonneg (by omega), Int.neg_tmod,
      neg_neg]
  · have h4 : (a.natAbs : Int) = a := by omega
    have h5 : ¬ a < 0 := by omega
    rw [if_pos (by simp [h2, h5])]
    push_cast
    rw [← Int.natCast_natAbs, ← Int.natCast_natAbs, h3, h4, Int.tmod_eq_emod_of_nonneg h]

/-- C93 (negative): with a negative divisor that does not divide the dividend the remainder has the wrong sign for
    Verilog; if the dividend is negative, too, also for Python. -/
theorem c93_not_mod_sign (ρ : String → Int) (l r : Nd) (a b : Int) (hl : Carries ρ l a) (hr : Carries ρ r b)
    (hp : Plain l r a b) (sl : l.attr.signed = true) (sr : r.attr.signed = true)
    (pl : l.attr.point = 0) (pr : r.attr.point = 0) (hb : b < 0) (hd : ¬ b ∣ a)
    (hm : ¬ Least (binAttr l.attr r.attr).width a) :
    mod ρ l r = -(a.tmod b) ∧ mod ρ l r ≠ a.tmod b ∧ (a < 0 → mod ρ l r ≠ a.fmod b) := by
  have hne : a.tmod b ≠ 0 := fun h => hd (Int.dvd_of_tmod_eq_zero h)
  have h1 : mod ρ l r = -(a.tmod b) := by
    rw [mod_integers ρ l r a b hl hr hp sl sr pl pr (by omega) hm]
    have h3 : (b.natAbs : Int) = -b := by omega
    rcases lt_or_ge a 0 with h | h
    · have h4 : (a.natAbs : Int) = -a := by omega
      rw [if_pos (by simp [h, hb])]
      push_cast
      rw [← Int.natCast_natAbs, ← Int.natCast_natAbs, h3, h4, ← Int.tmod_eq_emod_of_nonneg (by omega), Int.neg_tmod,
        Int.tmod_neg]
    · have h4 : (a.natAbs : Int) = a := by omega
      have h5 : ¬ a < 0 := by omega
      rw [if_neg (by simp [hb, h5])]
      push_cast
      rw [← Int.natCast_natAbs, ← Int.natCast_natAbs, h3, h4, ← Int.tmod_eq_emod_of_nonneg (by omega), Int.tmod_neg]
  refine ⟨h1, by omega, fun ha => ?_⟩
  have e : a.fmod b = a.tmod b := by
    obtain ⟨m, rfl⟩ := Int.eq_negSucc_of_lt_zero ha
    obtain ⟨n, rfl⟩ := Int.eq_negSucc_of_lt_zero hb
    rfl
  omega

/-- C93 (negative): with points the remainder is shifted left by the point once more: for operands with the same point
    that are not negative it is `2 ^ point` times the right number, if it fits. -/
theorem c93_not_mod_point (ρ : String → Int) (l r : Nd) (a b : Int) (hl : Carries ρ l a) (hr : Carries ρ r b)
    (hp : Plain l r a b) (ha0 : 0 ≤ a) (hb : 0 < b) (hpt : l.attr.point = r.attr.point)
    (ha1 : a * 2 < (2 ^ (binAttr l.attr r.attr).width : Nat))
    (hb1 : b * 2 < (2 ^ (binAttr l.attr r.attr).width : Nat))
    (hfit : (binAttr l.attr r.attr).ty.InRange (a % b * (2 ^ r.attr.point : Nat))) :
    num (mod ρ l r) (binAttr l.attr r.attr).point =
      2 ^ r.attr.point * (num a l.attr.point -
        truncQ (num a l.attr.point / num b r.attr.point) * num b r.attr.point) := by
  have hs : scaled l.attr r.attr a = a := by simp [scaled, hpt]
  rw [c93_mod_nonneg ρ l r a b hl hr hp ha0 hb (by rw [hs]; exact ha1) hb1, hs, Ty.wrap_of_inRange _ hfit]
  have hpo : (binAttr l.attr r.attr).point = r.attr.point := by simp [binAttr, hpt]
  rw [hpo, hpt, num_div, truncQ_div, Int.tdiv_eq_ediv_of_nonneg ha0]
  have := Int.emod_def a b
  unfold num
  rw [this]
  push_cast
  ring

/-! ### Cases -/

/-- 8-bit nets. -/
private def net8 (x : String) (p : Nat) (s : Bool) : Nd := ⟨⟨8, p, s⟩, .net x⟩

/-- `a` in the net `x`, `b` in the net `y`. -/
private def env2 (a b : Int) : String → Int := fun n => if n = "x" then a else b

/-- `-7.5 / 2` with three bits after the point in the dividend is `-3.75`: all three are kept. -/
example : divide (env2 (-60) 2) (net8 "x" 3 true) (net8 "y" 0 true) = -30 := by decide +kernel

/-- With one bit in the divisor, one less is kept, and the result is shifted to three: `-7.5 / 2.0 = -3.75`. -/
example : divide (env2 (-60) 4) (net8 "x" 3 true) (net8 "y" 1 true) = -30 := by decide +kernel

/-- With equal points nothing is kept: `7.5 / 2.0 = 3.0`. -/
example : divide (env2 60 16) (net8 "x" 3 true) (net8 "y" 3 true) = 24 := by decide +kernel

/-- The hypotheses of `c93_divide_signed` are met. -/
example : Carries (env2 (-60) 4) (net8 "x" 3 true) (-60) ∧ Carries (env2 (-60) 4) (net8 "y" 1 true) 4 ∧
    Plain (net8 "x" 3 true) (net8 "y" 1 true) (-60) 4 ∧
    (Least (binAttr (net8 "x" 3 true).attr (net8 "y" 1 true).attr).width
      (scaled (net8 "x" 3 true).attr (net8 "y" 1 true).attr (-60)) →
      Least (binAttr (net8 "x" 3 true).attr (net8 "y" 1 true).attr).width 4) := by
  refine ⟨⟨by decide, by unfold Ty.InRange; decide +kernel⟩, ⟨by decide, by unfold Ty.InRange; decide +kernel⟩,
    ⟨⟨by decide, trivial⟩, ⟨by decide, trivial⟩⟩, ?_⟩
  unfold Least; decide +kernel

/-- `-128 / 2 = 64` (`c93_not_min`). -/
example : divide (env2 (-128) 2) (net8 "x" 0 true) (net8 "y" 0 true) = 64 := by decide +kernel

/-- `-7 / 2 = 3` for a signed and an unsigned byte (`c93_not_mixed`). -/
example : divide (env2 (-7) 2) (net8 "x" 0 true) (net8 "y" 0 false) = 3 ∧
    Carries (env2 (-7) 2) (net8 "x" 0 true) (-7) ∧ Carries (env2 (-7) 2) (net8 "y" 0 false) 2 ∧
    Plain (net8 "x" 0 true) (net8 "y" 0 false) (-7) 2 := by
  refine ⟨by decide +kernel, ⟨by decide, by unfold Ty.InRange; decide +kernel⟩,
    ⟨by decide, by unfold Ty.InRange; decide +kernel⟩, ⟨⟨by decide, trivial⟩, ⟨by decide, trivial⟩⟩⟩

/-- `255 / 2 = 0`, `200 / 3 = 238` for unsigned bytes (`c93_not_unsigned`). -/
example : divide (env2 255 2) (net8 "x" 0 false) (net8 "y" 0 false) = 0 ∧
    divide (env2 200 3) (net8 "x" 0 false) (net8 "y" 0 false) = 238 := by decide +kernel

/-- `7 mod -3 = -1`, `-7 mod -3 = 1`, `-7 mod 3 = -1` (`c93_not_mod_sign`, `c93_mod_trunc`). -/
example : mod (env2 7 (-3)) (net8 "x" 0 true) (net8 "y" 0 true) = -1 ∧
    mod (env2 (-7) (-3)) (net8 "x" 0 true) (net8 "y" 0 true) = 1 ∧
    mod (env2 (-7) 3) (net8 "x" 0 true) (net8 "y" 0 true) = -1 := by decide +kernel

/-- `7.5 mod 2.0` with two bits after the point (30 and 8) is `6.0` instead of `1.5` (`c93_not_mod_point`). -/
example : mod (env2 30 8) (net8 "x" 2 true) (net8 "y" 2 true) = 24 := by decide +kernel

/-- A run of a 2-bit divider: the pair comes out after seven edges at which the operator moves on; one edge at which
    the consumer is not ready and a result is waiting does not count. -/
example : let i : In 2 := ⟨1#2, 1#2, true, true, true⟩
    let s := run ⟨true, true, true, 0, false⟩ (init 2) (⟨2#2, 1#2, true, true, true⟩ :: List.replicate 6 i)
    s.odata = through ⟨true, true, true, 0, false⟩ 2#2 1#2 ∧ s.valid = true ∧
    (taken ⟨true, true, true, 0, false⟩ s [⟨0#2, 0#2, true, true, false⟩]).length = 0 ∧ Shape (init 2) := by
  refine ⟨by decide +kernel, by decide +kernel, by decide +kernel, init_shape 2⟩

end DfArith
