import Verif.Props.C54_AxiLite
import Mathlib.Data.List.Forall2

/-!
# C55: the AXI4 register slave with bursts

For every behaviour of the bus master.  The expected beats are computed from the accepted read addresses, the addresses of
the written words from the accepted write addresses.
-/

namespace AxiReg

/-- `x` are the registers of the slave over time from reset on, for the inputs `inp`; `arlen` has 8 bits. -/
structure FullRun {D : Type} [DecidableEq D] (p : Par) (u z : D) (inp : ℕ → BIn D) (x : ℕ → Full D) : Prop where
  init : x 0 = Full.init z
  step : ∀ t, x (t + 1) = (x t).step p u (inp t)
  arlen : ∀ t, (inp t).arlen < 2 ^ 8

/-- The number of beats with which the slave answers a read request of `l` beats. -/
def beatCount (l : ℕ) : ℕ := if l ≤ 1 then 1 else l + 1

/-- An expected beat of read data: register number, last beat of the burst, cycle of the address transfer. -/
structure Beat where
  num : ℕ
  last : Bool
  time : ℕ
  deriving DecidableEq

/-- `n` beats from register `m` on, wrapping at `2 ^ mw`. -/
def beatsFrom (p : Par) (m n time : ℕ) : List Beat :=
  (List.range n).map fun k => ⟨(m + k) % 2 ^ p.mw, decide (k + 1 = n), time⟩

section
variable {D : Type} [DecidableEq D] {p : Par} {u z : D} {inp : ℕ → BIn D} {x : ℕ → Full D}

/-- A write address is transferred in cycle `t`. -/
def FAW (inp : ℕ → BIn D) (x : ℕ → Full D) (t : ℕ) : Bool := (x t).awready && (inp t).awvalid
/-- Write data is transferred in cycle `t`. -/
def FWD (inp : ℕ → BIn D) (x : ℕ → Full D) (t : ℕ) : Bool := (x t).wready && (inp t).wvalid
/-- A write response is transferred in cycle `t`. -/
def FBR (inp : ℕ → BIn D) (x : ℕ → Full D) (t : ℕ) : Bool := (x t).bvalid && (inp t).bready
/-- A read address is transferred in cycle `t`. -/
def FAR (inp : ℕ → BIn D) (x : ℕ → Full D) (t : ℕ) : Bool := (x t).arready && (inp t).arvalid
/-- A beat of read data is transferred in cycle `t`. -/
def FRD (inp : ℕ → BIn D) (x : ℕ → Full D) (t : ℕ) : Bool := (x t).rvalid && (inp t).rready

/-- The beats of all read requests accepted before cycle `t`. -/
def expect (p : Par) (inp : ℕ → BIn D) (x : ℕ → Full D) : ℕ → List Beat
  | 0 => []
  | t + 1 => expect p inp x t ++
      if FAR inp x t then beatsFrom p (p.idx (inp t).araddr) (beatCount ((inp t).arlen + 1)) t else []

/-- The beats transferred before cycle `t`: data, `rlast`, cycle. -/
def got (inp : ℕ → BIn D) (x : ℕ → Full D) : ℕ → List (D × Bool × ℕ)
  | 0 => []
  | t + 1 => got inp x t ++ if FRD inp x t then [((x t).rdata, (x t).rlast, t)] else []

/-- The write burst open at the beginning of cycle `t`: address, number of words transferred, cycle of the address. -/
def wopen (inp : ℕ → BIn D) (x : ℕ → Full D) : ℕ → Option (ℕ × ℕ × ℕ)
  | 0 => none
  | t + 1 =>
    if FAW inp x t then some ((inp t).awaddr, 0, t)
    else if FWD inp x t then (if (inp t).wlast then none else (wopen inp x t).map fun w => (w.1, w.2.1 + 1, w.2.2))
    else wopen inp x t

/-- No write data is transferred from cycle `a` to before cycle `b`. -/
def NoWrite (inp : ℕ → BIn D) (x : ℕ → Full D) (a b : ℕ) : Prop := ∀ r, a ≤ r → r < b → FWD inp x r = false

/-- `d` is the value of the register of the beat at a time after its request and before `t`, no write coming between the
    request and that time. -/
def Good (p : Par) (u : D) (inp : ℕ → BIn D) (x : ℕ → Full D) (d : D) (b : Beat) (t : ℕ) : Prop :=
  ∃ s, b.time < s ∧ s < t ∧ d = (x s).file.rd p u b.num ∧ NoWrite inp x b.time s

/-- The beats that are still to be put on the bus, and the open write burst. -/
inductive Mode (p : Par) (inp : ℕ → BIn D) (x : ℕ → Full D) (t : ℕ) : List Beat → Option (ℕ × ℕ × ℕ) → Prop
  | idle (h1 : (x t).st = 0) (h2 : (x t).readvalid = false) (h3 : (x t).writevalid = false) : Mode p inp x t [] none
  | wreq {a s : ℕ} (h1 : (x t).st = 0) (h2 : (x t).readvalid = false) (h3 : (x t).writevalid = true)
      (h4 : (x t).addr = a) (h5 : t = s + 1) (h6 : (x t).bvalid = false) : Mode p inp x t [] (some (a, 0, s))
  | rreq {s : ℕ} (h1 : (x t).st = 0) (h2 : (x t).readvalid = true) (h3 : (x t).writevalid = false)
      (h4 : t = s + 1) (h5 : 1 ≤ (x t).length) (h6 : (x t).length ≤ 256) (h7 : NoWrite inp x s t) :
      Mode p inp x t (beatsFrom p (p.idx (x t).addr) (beatCount (x t).length) s) none
  | read {s : ℕ} (h1 : (x t).st = 1) (h2 : (x t).readvalid = false) (h3 : (x t).writevalid = false)
      (h4 : s < t) (h5 : (x t).maskaddr < 2 ^ p.mw)
      (h6 : (x t).rlastR = false → 1 ≤ (x t).rcount ∧ (x t).rcount ≤ 256) (h7 : NoWrite inp x s t) :
      Mode p inp x t (beatsFrom p (x t).maskaddr (if (x t).rlastR then 1 else (x t).rcount + 1) s) none
  | write {a k s : ℕ} (h1 : (x t).st = 2) (h2 : (x t).readvalid = false) (h3 : (x t).writevalid = false)
      (h4 : (x t).maskaddr = (p.idx a + k) % 2 ^ p.mw) (h5 : s + 2 ≤ t) (h6 : (x t).bvalid = false) :
      Mode p inp x t [] (some (a, k, s))

/-- The invariant: `dn` have been transferred, `cur` is offered. -/
structure FInv (p : Par) (u : D) (inp : ℕ → BIn D) (x : ℕ → Full D) (t : ℕ) (dn : List Beat) (cur : Option Beat)
    (rem : List Beat) : Prop where
  exp : expect p inp x t = dn ++ cur.toList ++ rem
  got : List.Forall₂ (fun g b => g.2.1 = b.last ∧ Good p u inp x g.1 b g.2.2) (got inp x t) dn
  valid : (x t).rvalid = cur.isSome
  good : ∀ b, cur = some b → (x t).rlast = b.last ∧ Good p u inp x (x t).rdata b t
  mode : Mode p inp x t rem (wopen inp x t)

theorem idx_lt (p : Par) (a : ℕ) : p.idx a < 2 ^ p.mw := Nat.mod_lt _ (Nat.two_pow_pos _)

theorem beatsFrom_succ (p : Par) (m n time : ℕ) (hm : m < 2 ^ p.mw) :
    beatsFrom p m (n + 1) time = ⟨m, decide (n = 0), time⟩ :: beatsFrom p ((m + 1) % 2 ^ p.mw) n time := by
  simp only [beatsFrom, List.range_succ_eq_map, List.map_cons, List.map_map, Nat.add_zero, Nat.mod_eq_of_lt hm]
  congr 1
  · simp [eq_comm]
  · apply List.map_congr_left
    intro k _
    simp only [Function.comp, Beat.mk.injEq, and_true]
    refine ⟨?_, by simp⟩
    rw [Nat.mod_add_mod]
    congr 1
    omega

theorem NoWrite.succ {a b : ℕ} (h : NoWrite inp x a b) (hb : FWD inp x b = false) : NoWrite inp x a (b + 1) := by
  intro r h1 h2
  rcases Nat.lt_or_ge r b with h3 | h3
  · exact h r h1 h3
  · rwa [show r = b by omega]

theorem Good.succ {d : D} {b : Beat} {t : ℕ} (h : Good p u inp x d b t) : Good p u inp x d b (t + 1) := by
  obtain ⟨s, h1, h2, h3, h4⟩ := h
  exact ⟨s, h1, by omega, h3, h4⟩

/-- A beat is put on the bus in cycle `t`. -/
def FPush (inp : ℕ → BIn D) (x : ℕ → Full D) (t : ℕ) : Bool := (x t).st == 1 && ((inp t).rready || !(x t).rvalid)

/-- The next values of the registers in terms of the transfers. -/
theorem fstep (hx : FullRun p u z inp x) (t : ℕ) :
    (x (t + 1)).st = (if (x t).st = 0 then (if (x t).writevalid then 2 else if (x t).readvalid then 1 else 0)
      else if (x t).st = 1 then (if FPush inp x t && (x t).rlastR then 0 else 1)
      else if (x t).st = 2 then (if FWD inp x t && (inp t).wlast then 0 else 2) else (x t).st) ∧
    (x (t + 1)).maskaddr = (if (x t).st = 0 then (if (x t).readvalid || (x t).writevalid then p.idx (x t).addr else
      (x t).maskaddr) else if FPush inp x t || FWD inp x t then ((x t).maskaddr + 1) % 2 ^ p.mw else (x t).maskaddr) ∧
    (x (t + 1)).addr = (if FAW inp x t then (inp t).awaddr else if FAR inp x t then (inp t).araddr else (x t).addr) ∧
    (x (t + 1)).length =
      (if FAW inp x t then (inp t).awlen + 1 else if FAR inp x t then (inp t).arlen + 1 else (x t).length) ∧
    (x (t + 1)).rcount = (if (x t).st = 0 ∧ (x t).readvalid = true then (x t).length
      else if FPush inp x t then ((x t).rcount + 2 ^ 9 - 1) % 2 ^ 9 else (x t).rcount) ∧
    (x (t + 1)).rlastR = (if (x t).st = 0 ∧ (x t).readvalid = true then decide ((x t).length ≤ 1)
      else if FPush inp x t then decide ((x t).rcount ≤ 1) else (x t).rlastR) ∧
    (x (t + 1)).writevalid = FAW inp x t ∧ (x (t + 1)).readvalid = (!FAW inp x t && FAR inp x t) ∧
    (x (t + 1)).bvalid = (if FWD inp x t && (inp t).wlast then true else if FBR inp x t then false else (x t).bvalid) ∧
    (x (t + 1)).rvalid = (FPush inp x t || ((x t).rvalid && !(inp t).rready)) ∧
    (x (t + 1)).rlast = (if FPush inp x t then (x t).rlastR else if (x t).rvalid && !(inp t).rready then (x t).rlast
      else false) ∧
    (x (t + 1)).rdata = (if FPush inp x t then (x t).file.rd p u (x t).maskaddr else (x t).rdata) ∧
    (x (t + 1)).file = applyOps (x t).file (busFile p (x t).file (x t).maskaddr (FPush inp x t)
      (if FWD inp x t then some (inp t).wdata else none)) (inp t).ops := by
  have ha : ((x t).awready && (inp t).awvalid && !(x t).bvalid) = FAW inp x t := by
    simp only [FAW, Full.awready]
    cases (x t).bvalid <;> simp
  have hp : (x t).st = 1 → FPush inp x t = ((inp t).rready || !(x t).rvalid) := by
    intro h; simp [FPush, h]
  have hw : (x t).st = 2 → FWD inp x t = (inp t).wvalid := by
    intro h; simp [FWD, Full.wready, h]
  have hw' : ((inp t).wvalid && (x t).wready) = FWD inp x t := by rw [FWD, Bool.and_comm]
  rw [hx.step t]
  simp only [Full.step, ha, hw']
  refine ⟨?_, rfl, rfl, rfl, rfl, rfl, trivial, rfl, rfl, rfl, rfl, rfl, rfl⟩
  split
  · rfl
  · split
    · rename_i h; rw [hp h]
    · split
      · rename_i h; rw [hw h]
      · rfl

/-- The beat offered after cycle `t` when none is put on the bus in that cycle. -/
theorem cur_keep (hx : FullRun p u z inp x) {t : ℕ} {dn : List Beat} {cur : Option Beat}
    (hnb : FPush inp x t = false)
    (hg : List.Forall₂ (fun g b => g.2.1 = b.last ∧ Good p u inp x g.1 b g.2.2) (got inp x t) dn)
    (hc : (x t).rvalid = cur.isSome)
    (hgood : ∀ b, cur = some b → (x t).rlast = b.last ∧ Good p u inp x (x t).rdata b t) :
    ∃ dn' cur', dn' ++ cur'.toList = dn ++ cur.toList ∧
      List.Forall₂ (fun g b => g.2.1 = b.last ∧ Good p u inp x g.1 b g.2.2) (got inp x (t + 1)) dn' ∧
      (x (t + 1)).rvalid = cur'.isSome ∧
      ∀ b, cur' = some b → (x (t + 1)).rlast = b.last ∧ Good p u inp x (x (t + 1)).rdata b (t + 1) := by
  obtain ⟨-, -, -, -, -, -, -, -, -, f1, f2, f3, -⟩ := fstep hx t
  cases cur with
  | none =>
    simp only [Option.isSome_none] at hc
    refine ⟨dn, none, rfl, ?_, ?_, by simp⟩
    · simpa [got, FRD, hc] using hg
    · rw [f1, hnb, hc]; rfl
  | some b =>
    simp only [Option.isSome_some] at hc
    obtain ⟨g1, g2⟩ := hgood b rfl
    cases hr : (inp t).rready
    · refine ⟨dn, some b, rfl, ?_, ?_, ?_⟩
      · simpa [got, FRD, hr] using hg
      · rw [f1, hc, hr]; simp
      · intro b' hb'
        simp only [Option.some.injEq] at hb'
        subst hb'
        rw [f2, f3, hnb, hc, hr]
        exact ⟨g1, g2.succ⟩
    · refine ⟨dn ++ [b], none, by simp, ?_, ?_, by simp⟩
      · rw [got]
        simp only [FRD, hc, hr, Bool.and_self, if_true]
        exact List.rel_append hg (by simpa using ⟨g1, g2⟩)
      · rw [f1, hnb, hr]; simp

/-- The beat put on the bus in cycle `t`. -/
theorem cur_push (hx : FullRun p u z inp x) {t : ℕ} {dn : List Beat} {cur : Option Beat} {b : Beat}
    (hb : FPush inp x t = true)
    (hg : List.Forall₂ (fun g b => g.2.1 = b.last ∧ Good p u inp x g.1 b g.2.2) (got inp x t) dn)
    (hc : (x t).rvalid = cur.isSome)
    (hgood : ∀ b, cur = some b → (x t).rlast = b.last ∧ Good p u inp x (x t).rdata b t)
    (hl : (x t).rlastR = b.last) (hm : (x t).maskaddr = b.num) (ht : b.time < t) (hn : NoWrite inp x b.time t) :
    ∃ dn', dn' = dn ++ cur.toList ∧
      List.Forall₂ (fun g b => g.2.1 = b.last ∧ Good p u inp x g.1 b g.2.2) (got inp x (t + 1)) dn' ∧
      (x (t + 1)).rvalid = (some b).isSome ∧
      ∀ b', some b = some b' → (x (t + 1)).rlast = b'.last ∧ Good p u inp x (x (t + 1)).rdata b' (t + 1) := by
  obtain ⟨-, -, -, -, -, -, -, -, -, f1, f2, f3, -⟩ := fstep hx t
  refine ⟨_, rfl, ?_, ?_, ?_⟩
  · cases cur with
    | none =>
      simp only [Option.isSome_none] at hc
      simpa [got, FRD, hc] using hg
    | some c =>
      simp only [Option.isSome_some] at hc
      obtain ⟨g1, g2⟩ := hgood c rfl
      have hr : (inp t).rready = true := by simp [FPush, hc] at hb; exact hb.2
      rw [got]
      simp only [FRD, hc, hr, Bool.and_self, if_true]
      exact List.rel_append hg (by simpa using ⟨g1, g2⟩)
  · rw [f1, hb]; simp
  · intro b' hb'
    simp only [Option.some.injEq] at hb'
    subst hb'
    rw [f2, f3, hb]
    exact ⟨hl, t, ht, by omega, by rw [hm]; rfl, hn⟩

theorem finv (hx : FullRun p u z inp x) (t : ℕ) : ∃ dn cur rem, FInv p u inp x t dn cur rem := by
  induction t with
  | zero =>
    refine ⟨[], none, [], rfl, .nil, by simp [hx.init, Full.init], by simp, ?_⟩
    exact .idle (by simp [hx.init, Full.init]) (by simp [hx.init, Full.init]) (by simp [hx.init, Full.init])
  | succ t ih =>
    obtain ⟨dn, cur, rem, hexp, hgot, hcur, hgood, hmode⟩ := ih
    obtain ⟨f1, f2, f3, f4, f5, f6, f7, f8, f9, -, -, -, -⟩ := fstep hx t
    cases hw : wopen inp x t with
    | none =>
      rw [hw] at hmode
      cases hmode with
      | idle h1 h2 h3 =>
        obtain ⟨dn', cur', e1, e2, e3, e4⟩ := cur_keep hx (by simp [FPush, h1]) hgot hcur hgood
        have hwd : FWD inp x t = false := by simp [FWD, Full.wready, h1]
        rw [if_pos h1, h3, h2] at f1
        cases ha : FAW inp x t
        · have hwa : wopen inp x (t + 1) = none := by simp [wopen, ha, hwd, hw]
          rw [ha] at f3 f4 f7 f8
          cases hr : FAR inp x t
          · rw [hr] at f8
            refine ⟨dn', cur', [], ?_, e2, e3, e4, ?_⟩
            · simp [expect, hr, hexp, e1]
            · rw [hwa]
              exact .idle f1 f8 f7
          · rw [hr] at f3 f4 f8
            refine ⟨dn', cur', beatsFrom p (p.idx (x (t + 1)).addr) (beatCount (x (t + 1)).length) t, ?_, e2, e3, e4, ?_⟩
            · simp [expect, hr, hexp, e1, f3, f4]
            · rw [hwa]
              refine .rreq f1 f8 f7 rfl (by rw [f4]; exact Nat.le_add_left 1 _) ?_ ?_
              · have := hx.arlen t
                rw [f4]; simp; omega
              · intro r h1 h2
                rwa [show r = t by omega]
        · have hr : FAR inp x t = false := by
            simp only [FAW, FAR, Full.awready, Full.arready, Bool.and_eq_true] at ha ⊢
            simp [ha.1.2.2]
          rw [ha] at f3 f7 f8
          refine ⟨dn', cur', [], ?_, e2, e3, e4, ?_⟩
          · simp [expect, hr, hexp, e1]
          · have hb : (x t).bvalid = false := by
              simp only [FAW, Full.awready, Bool.and_eq_true, Bool.not_eq_true'] at ha
              exact ha.1.2.1.2
            rw [wopen, ha]
            refine .wreq f1 f8 f7 f3 rfl ?_
            rw [f9, hwd, hb]; simp
      | rreq h1 h2 h3 h4 h5 h6 h7 =>
        rename_i s
        obtain ⟨dn', cur', e1, e2, e3, e4⟩ := cur_keep hx (by simp [FPush, h1]) hgot hcur hgood
        have hwd : FWD inp x t = false := by simp [FWD, Full.wready, h1]
        have ha : FAW inp x t = false := by simp [FAW, Full.awready, h2]
        have hr : FAR inp x t = false := by simp [FAR, Full.arready, h2]
        rw [if_pos h1, h3, h2] at f1
        rw [if_pos h1, h2] at f2
        rw [if_pos ⟨h1, h2⟩] at f5 f6
        rw [ha] at f7 f8
        rw [hr] at f8
        refine ⟨dn', cur',
          beatsFrom p (x (t + 1)).maskaddr (if (x (t + 1)).rlastR then 1 else (x (t + 1)).rcount + 1) s, ?_, e2, e3, e4, ?_⟩
        · rw [expect, hr, hexp, e1, f2, f5, f6]
          simp [beatCount]
        · simp only [wopen, ha, hwd, hw]
          refine .read f1 f8 f7 (by omega) ?_ ?_ (h7.succ hwd)
          · rw [f2]; exact idx_lt p _
          · intro _; rw [f5]; exact ⟨h5, h6⟩
      | read h1 h2 h3 h4 h5 h6 h7 =>
        rename_i s
        have hwd : FWD inp x t = false := by simp [FWD, Full.wready, h1]
        have ha : FAW inp x t = false := by simp [FAW, Full.awready, h1]
        have hr : FAR inp x t = false := by simp [FAR, Full.arready, h1]
        have hne : ¬(x t).st = 0 := by omega
        rw [if_neg hne, if_pos h1] at f1
        rw [if_neg hne, hwd, Bool.or_false] at f2
        rw [if_neg fun h => hne h.1] at f5 f6
        rw [ha] at f7 f8
        rw [hr] at f8
        have hwa : wopen inp x (t + 1) = none := by simp [wopen, ha, hwd, hw]
        cases hpu : FPush inp x t
        · obtain ⟨dn', cur', e1, e2, e3, e4⟩ := cur_keep hx hpu hgot hcur hgood
          rw [hpu] at f1 f2 f5 f6
          refine ⟨dn', cur',
            beatsFrom p (x (t + 1)).maskaddr (if (x (t + 1)).rlastR then 1 else (x (t + 1)).rcount + 1) s, ?_, e2, e3, e4, ?_⟩
          · rw [expect, hr, hexp, e1, f2, f5, f6]
            simp
          · rw [hwa]
            refine .read f1 f8 f7 (by omega) (by rw [f2]; exact h5) ?_ (h7.succ hwd)
            rw [f5, f6]; exact h6
        · rw [hpu] at f1 f2 f5 f6
          obtain ⟨dn', e1, e2, e3, e4⟩ := cur_push (b := ⟨(x t).maskaddr, (x t).rlastR, s⟩) hx hpu hgot hcur hgood rfl rfl
            h4 h7
          cases hl : (x t).rlastR
          · rw [hl] at f1
            obtain ⟨h6a, h6b⟩ := h6 hl
            refine ⟨dn', some ⟨(x t).maskaddr, (x t).rlastR, s⟩,
              beatsFrom p (x (t + 1)).maskaddr (if (x (t + 1)).rlastR then 1 else (x (t + 1)).rcount + 1) s, ?_, e2, e3,
              e4, ?_⟩
            · rw [expect, hr, hexp, hl, e1, f2, f5, f6]
              simp only [if_true, Bool.false_eq_true, if_false, List.append_nil]
              rw [beatsFrom_succ p _ _ _ h5]
              have : (x t).rcount = if decide ((x t).rcount ≤ 1) = true then 1
                  else ((x t).rcount + 2 ^ 9 - 1) % 2 ^ 9 + 1 := by
                split
                · rename_i h; simp at h; omega
                · omega
              rw [← this]
              have h0 : decide ((x t).rcount = 0) = false := by simp; omega
              simp [h0]
            · rw [hwa]
              refine .read f1 f8 f7 (by omega) ?_ ?_ (h7.succ hwd)
              · rw [f2]; exact Nat.mod_lt _ (Nat.two_pow_pos _)
              · rw [f5, f6]
                intro h
                simp only [if_true, decide_eq_false_iff_not] at h ⊢
                omega
          · rw [hl] at f1
            refine ⟨dn', some ⟨(x t).maskaddr, (x t).rlastR, s⟩, [], ?_, e2, e3, e4, ?_⟩
            · rw [expect, hr, hexp, hl, e1]
              simp only [if_true, Bool.false_eq_true, if_false, List.append_nil]
              rw [beatsFrom_succ p _ 0 _ h5]
              simp [beatsFrom]
            · rw [hwa]
              exact .idle f1 f8 f7
    | some w =>
      rw [hw] at hmode
      cases hmode with
      | wreq h1 h2 h3 h4 h5 h6 =>
        rename_i a s
        obtain ⟨dn', cur', e1, e2, e3, e4⟩ := cur_keep hx (by simp [FPush, h1]) hgot hcur hgood
        have hwd : FWD inp x t = false := by simp [FWD, Full.wready, h1]
        have ha : FAW inp x t = false := by simp [FAW, Full.awready, h3]
        have hr : FAR inp x t = false := by simp [FAR, Full.arready, h3]
        rw [if_pos h1, h3] at f1
        rw [if_pos h1, h2, h3] at f2
        rw [ha] at f7 f8
        rw [hr] at f8
        refine ⟨dn', cur', [], ?_, e2, e3, e4, ?_⟩
        · rw [expect, hr, hexp, e1]; simp
        · simp only [wopen, ha, hwd, hw, Bool.false_eq_true, if_false]
          refine .write f1 f8 f7 ?_ (by omega) ?_
          · rw [f2, Nat.add_zero, Nat.mod_eq_of_lt (idx_lt p a)]; simp [h4]
          · rw [f9, hwd, h6]; simp
      | write h1 h2 h3 h4 h5 h6 =>
        rename_i a k s
        obtain ⟨dn', cur', e1, e2, e3, e4⟩ := cur_keep hx (by simp [FPush, h1]) hgot hcur hgood
        have ha : FAW inp x t = false := by simp [FAW, Full.awready, h1]
        have hr : FAR inp x t = false := by simp [FAR, Full.arready, h1]
        have hpu : FPush inp x t = false := by simp [FPush, h1]
        rw [if_neg (by omega), if_neg (by omega), if_pos h1] at f1
        rw [if_neg (by omega), hpu, Bool.false_or] at f2
        rw [ha] at f7 f8
        rw [hr] at f8
        refine ⟨dn', cur', [], ?_, e2, e3, e4, ?_⟩
        · rw [expect, hr, hexp, e1]; simp
        · cases hwd : FWD inp x t
          · simp only [wopen, ha, hwd, hw, Bool.false_eq_true, if_false]
            rw [hwd] at f1 f2 f9
            refine .write f1 f8 f7 (by rw [f2]; exact h4) (by omega) ?_
            rw [f9, h6]; simp
          · rw [hwd] at f1 f2 f9
            cases hwl : (inp t).wlast
            · simp only [wopen, ha, hwd, hw, hwl, Bool.false_eq_true, if_false, if_true, Option.map_some]
              rw [hwl] at f1 f9
              refine .write f1 f8 f7 ?_ (by omega) ?_
              · rw [f2, h4]; simp only [if_true]
                rw [Nat.mod_add_mod, Nat.add_assoc]
              · rw [f9, h6]; simp
            · simp only [wopen, ha, hwd, hwl, Bool.false_eq_true, if_false, if_true]
              rw [hwl] at f1
              exact .idle f1 f8 f7

/-- **C55, read data.**  The beats transferred are, in order, those of the accepted read requests: register
    `idx(araddr) + k` for the `k`-th beat of a request, `rlast` exactly with the last beat of a request, and the value
    the register had at some time after the request and before the transfer, no write coming in between. -/
theorem c55_read (hx : FullRun p u z inp x) (t : ℕ) :
    ∃ dn, dn <+: expect p inp x t ∧
      List.Forall₂ (fun (g : D × Bool × ℕ) b => g.2.1 = b.last ∧ ∃ s, b.time < s ∧ s < g.2.2 ∧
        (b.num < p.len → g.1 = (x s).file.reg b.num) ∧ ∀ r, b.time ≤ r → r < s → FWD inp x r = false)
        (got inp x t) dn := by
  obtain ⟨dn, cur, rem, h⟩ := finv hx t
  refine ⟨dn, ⟨cur.toList ++ rem, by rw [h.exp, List.append_assoc]⟩, h.got.imp ?_⟩
  rintro g b ⟨h1, s, h2, h3, h4, h5⟩
  exact ⟨h1, s, h2, h3, fun hb => by rw [h4, File.rd, if_pos hb], h5⟩

/-- **C55, offered beats stay.**  A beat that is offered and not taken is offered unchanged in the next cycle. -/
theorem c55_read_stable (hx : FullRun p u z inp x) (t : ℕ) (hv : (x t).rvalid = true) (hr : (inp t).rready = false) :
    (x (t + 1)).rvalid = true ∧ (x (t + 1)).rdata = (x t).rdata ∧ (x (t + 1)).rlast = (x t).rlast := by
  obtain ⟨-, -, -, -, -, -, -, -, -, f1, f2, f3, -⟩ := fstep hx t
  have hp : FPush inp x t = false := by simp [FPush, hv, hr]
  rw [f1, f2, f3, hp, hv, hr]
  simp

/-- **C55, reads are answered.**  As long as a beat of an accepted request has not been transferred, one is offered
    after at most two cycles. -/
theorem c55_read_progress (hx : FullRun p u z inp x) (t : ℕ)
    (h : (got inp x t).length < (expect p inp x t).length) :
    (x t).rvalid = true ∨ (x (t + 1)).rvalid = true ∨ (x (t + 2)).rvalid = true := by
  obtain ⟨dn, cur, rem, hi⟩ := finv hx t
  cases cur with
  | some b => left; rw [hi.valid]; rfl
  | none =>
    have hv : (x t).rvalid = false := by rw [hi.valid]; rfl
    have hne : rem ≠ [] := by
      intro e
      rw [hi.exp, e, hi.got.length_eq] at h
      simp at h
    have push : ∀ t, (x t).st = 1 → (x t).rvalid = false → (x (t + 1)).rvalid = true := by
      intro t h1 h2
      obtain ⟨-, -, -, -, -, -, -, -, -, f1, -⟩ := fstep hx t
      rw [f1]
      simp [FPush, h1, h2]
    have hm := hi.mode
    generalize wopen inp x t = w at hm
    cases hm with
    | idle => exact absurd rfl hne
    | wreq => exact absurd rfl hne
    | write => exact absurd rfl hne
    | read h1 => right; left; exact push t h1 hv
    | rreq h1 h2 h3 =>
      right; right
      obtain ⟨f1, -, -, -, -, -, -, -, -, f2, -⟩ := fstep hx t
      refine push (t + 1) (by rw [f1, h1, h2, h3]; simp) ?_
      rw [f2, hv]
      simp [FPush, h1]

/-- **C55, writes.**  Write data is transferred only within an open burst, from the second cycle after the address on
    without waiting; the response is offered after the last word until it is taken, and no response is lost; a write
    address is accepted only when no burst is open, no response is outstanding and no read address is accepted; a
    read address is accepted only when no write burst is open and at most one beat of the earlier reads is outstanding. -/
theorem c55_write (hx : FullRun p u z inp x) (t : ℕ) :
    (FWD inp x t = true → ∃ w, wopen inp x t = some w) ∧
    (∀ a k s, wopen inp x t = some (a, k, s) → (x t).bvalid = false ∧ ((x t).wready = true ↔ s + 2 ≤ t)) ∧
    ((x (t + 1)).bvalid = true ↔
      (FWD inp x t = true ∧ (inp t).wlast = true) ∨ ((x t).bvalid = true ∧ (inp t).bready = false)) ∧
    (FAW inp x t = true → wopen inp x t = none ∧ (x t).bvalid = false ∧ FAR inp x t = false) ∧
    (FAR inp x t = true → wopen inp x t = none ∧ (expect p inp x t).length ≤ (got inp x t).length + 1) := by
  obtain ⟨dn, cur, rem, hi⟩ := finv hx t
  obtain ⟨-, -, -, -, -, -, -, -, f9, -⟩ := fstep hx t
  have hlen : rem = [] → (expect p inp x t).length ≤ (got inp x t).length + 1 := by
    intro e
    rw [hi.exp, e, hi.got.length_eq]
    cases cur <;> simp
  have hb : (x (t + 1)).bvalid = true ↔
      (FWD inp x t = true ∧ (inp t).wlast = true) ∨ ((x t).bvalid = true ∧ (inp t).bready = false) := by
    rw [f9]
    cases FWD inp x t <;> cases (inp t).wlast <;> cases hbv : (x t).bvalid <;> cases hbr : (inp t).bready <;>
      simp [FBR, hbv, hbr]
  have hm := hi.mode
  have haw : FAW inp x t = true → (x t).bvalid = false ∧ FAR inp x t = false := by
    intro ha
    simp only [FAW, FAR, Full.awready, Full.arready, Bool.and_eq_true, Bool.not_eq_true'] at ha ⊢
    exact ⟨ha.1.2.1.2, by simp [ha.1.2.2]⟩
  generalize hw : wopen inp x t = w at hm
  cases hm with
  | idle h1 h2 h3 =>
    refine ⟨by simp [FWD, Full.wready, h1], by simp, hb, fun ha => ⟨rfl, haw ha⟩, fun _ => ⟨rfl, hlen rfl⟩⟩
  | wreq h1 h2 h3 h4 h5 h6 =>
    refine ⟨fun _ => ⟨_, rfl⟩, ?_, hb, by simp [FAW, Full.awready, h3], by simp [FAR, Full.arready, h3]⟩
    rintro a k s h
    simp only [Option.some.injEq, Prod.mk.injEq] at h
    exact ⟨h6, by simp [Full.wready, h1]; omega⟩
  | rreq h1 h2 h3 h4 h5 h6 =>
    refine ⟨by simp [FWD, Full.wready, h1], by simp, hb, by simp [FAW, Full.awready, h2], by simp [FAR, Full.arready, h2]⟩
  | read h1 h2 h3 h4 h5 h6 =>
    refine ⟨by simp [FWD, Full.wready, h1], by simp, hb, by simp [FAW, Full.awready, h1], by simp [FAR, Full.arready, h1]⟩
  | write h1 h2 h3 h4 h5 h6 =>
    refine ⟨fun _ => ⟨_, rfl⟩, ?_, hb, by simp [FAW, Full.awready, h1], by simp [FAR, Full.arready, h1]⟩
    rintro a k s h
    simp only [Option.some.injEq, Prod.mk.injEq] at h
    exact ⟨h6, by simp [Full.wready, h1]; omega⟩

/-- Write data for register `i` is transferred in cycle `t`: word `k` of a burst at address `a` goes to register
    `idx(a) + k`, wrapping. -/
def FStores (p : Par) (inp : ℕ → BIn D) (x : ℕ → Full D) (t i : ℕ) : Prop :=
  FWD inp x t = true ∧ ∃ a k s, wopen inp x t = some (a, k, s) ∧ (p.idx a + k) % 2 ^ p.mw = i

/-- A beat of register `i` is put on the bus in cycle `t`: a beat is offered in the next cycle that was not offered
    before, and it is one of register `i`. -/
def FSamples (p : Par) (inp : ℕ → BIn D) (x : ℕ → Full D) (t i : ℕ) : Prop :=
  (x (t + 1)).rvalid = true ∧ ((x t).rvalid = true → (inp t).rready = true) ∧
    ∃ b, (expect p inp x t)[(got inp x (t + 1)).length]? = some b ∧ b.num = i

/-- The signals the register file depends on, in terms of the transfers. -/
theorem ffile_step (hx : FullRun p u z inp x) (t : ℕ) :
    (∀ i, FSamples p inp x t i ↔ FPush inp x t = true ∧ (x t).maskaddr = i) ∧
    (∀ i, FStores p inp x t i ↔ FWD inp x t = true ∧ (x t).maskaddr = i) ∧
    (FPush inp x t = true → FWD inp x t = false) := by
  obtain ⟨dn, cur, rem, hi⟩ := finv hx t
  obtain ⟨-, -, -, -, -, -, -, -, -, f1, -⟩ := fstep hx t
  have hfresh : ((x (t + 1)).rvalid = true ∧ ((x t).rvalid = true → (inp t).rready = true)) ↔ FPush inp x t = true := by
    rw [f1]
    constructor
    · rintro ⟨h1, h2⟩
      cases hv : (x t).rvalid
      · simpa [hv] using h1
      · simpa [hv, h2 hv] using h1
    · intro h
      refine ⟨by simp [h], fun hv => ?_⟩
      simp [FPush, hv] at h
      exact h.2
  have hlen : ((x t).rvalid = true → (inp t).rready = true) →
      (got inp x (t + 1)).length = (dn ++ cur.toList).length := by
    intro h
    rw [got, List.length_append, List.length_append, hi.got.length_eq]
    cases cur with
    | none =>
      have hv : (x t).rvalid = false := by rw [hi.valid]; rfl
      simp [FRD, hv]
    | some b =>
      have hv : (x t).rvalid = true := by rw [hi.valid]; rfl
      simp [FRD, hv, h hv]
  have hm := hi.mode
  refine ⟨fun i => ?_, fun i => ?_, fun h => ?_⟩
  · rw [FSamples, ← and_assoc, hfresh]
    constructor
    · rintro ⟨h1, b, hb, rfl⟩
      refine ⟨h1, ?_⟩
      rw [hlen (hfresh.2 h1).2, hi.exp, List.getElem?_append_right (Nat.le_refl _), Nat.sub_self] at hb
      generalize wopen inp x t = w at hm
      have hst : (x t).st = 1 := by simp [FPush] at h1; exact h1.1
      cases hm with
      | idle h1 => omega
      | wreq h1 => omega
      | rreq h1 => omega
      | write h1 => omega
      | read h1 h2 h3 h4 h5 h6 =>
        rw [show (if (x t).rlastR = true then 1 else (x t).rcount + 1) =
          (if (x t).rlastR = true then 0 else (x t).rcount) + 1 by split <;> rfl, beatsFrom_succ p _ _ _ h5] at hb
        simp at hb
        rw [← hb]
    · rintro ⟨h1, rfl⟩
      refine ⟨h1, ?_⟩
      generalize wopen inp x t = w at hm
      have hst : (x t).st = 1 := by simp [FPush] at h1; exact h1.1
      cases hm with
      | idle h1 => omega
      | wreq h1 => omega
      | rreq h1 => omega
      | write h1 => omega
      | @read s g1 h2 h3 h4 h5 h6 =>
        rw [hlen (hfresh.2 h1).2, hi.exp, List.getElem?_append_right (Nat.le_refl _), Nat.sub_self,
          show (if (x t).rlastR = true then 1 else (x t).rcount + 1) =
          (if (x t).rlastR = true then 0 else (x t).rcount) + 1 by split <;> rfl, beatsFrom_succ p _ _ _ h5]
        exact ⟨_, rfl, rfl⟩
  · rw [FStores]
    apply and_congr_right
    intro h
    have hst : (x t).st = 2 := by simp [FWD, Full.wready] at h; exact h.1
    generalize wopen inp x t = w at hm
    cases hm with
    | idle h1 => omega
    | wreq h1 => omega
    | rreq h1 => omega
    | read h1 => omega
    | @write a k s h1 h2 h3 h4 =>
      rw [h4]
      constructor
      · rintro ⟨a', k', s', e, rfl⟩
        simp only [Option.some.injEq, Prod.mk.injEq] at e
        rw [e.1, e.2.1]
      · rintro rfl
        exact ⟨a, k, s, rfl, rfl⟩
  · simp only [FPush, Bool.and_eq_true, beq_iff_eq] at h
    simp [FWD, Full.wready, h.1]

/-- **C55, the registers.**  As `c54_register`, for the words of write bursts and the beats of read bursts. -/
theorem c55_register (hx : FullRun p u z inp x) (t i : ℕ) (hi : i < p.len) (hops : ∀ op ∈ (inp t).ops, ¬op.on i) :
    (FStores p inp x t i → (x (t + 1)).file.reg i = (inp t).wdata) ∧
    (FSamples p inp x t i → (x t).file.flag i = true →
      (x (t + 1)).file.reg i = (x t).file.rval i ∧ (x (t + 1)).file.flag i = false) ∧
    (¬FStores p inp x t i → (¬FSamples p inp x t i ∨ (x t).file.flag i = false) →
      (x (t + 1)).file.reg i = (x t).file.reg i) ∧
    ((¬FSamples p inp x t i ∨ (x t).file.flag i = false) → (x (t + 1)).file.flag i = (x t).file.flag i) ∧
    (x (t + 1)).file.rval i = (x t).file.rval i := by
  obtain ⟨hs, hw, hn⟩ := ffile_step hx t
  obtain ⟨-, -, -, -, -, -, -, -, -, -, -, -, hf⟩ := fstep hx t
  obtain ⟨e1, e2, e3⟩ := applyOps_other (x t).file (busFile p (x t).file (x t).maskaddr (FPush inp x t)
    (if FWD inp x t then some (inp t).wdata else none)) (inp t).ops i hops
  rw [hf, e1, e2, e3, hs, hw]
  generalize (x t).maskaddr = m
  by_cases hm : m = i
  · subst hm
    cases hwd : FWD inp x t
    · cases FPush inp x t <;> cases hfl : (x t).file.flag m <;> simp [busFile, hi, hfl]
    · have : FPush inp x t = false := by
        cases h : FPush inp x t
        · rfl
        · rw [hn h] at hwd; simp at hwd
      simp [busFile, hi, this]
  · have hm' : i ≠ m := fun e => hm e.symm
    have hb : ∀ rb wb, (busFile p (x t).file m rb wb).reg i = (x t).file.reg i ∧
        (busFile p (x t).file m rb wb).flag i = (x t).file.flag i ∧
        (busFile p (x t).file m rb wb).rval i = (x t).file.rval i := by
      intro rb wb
      unfold busFile
      cases wb <;> dsimp only
      · split <;> simp [Function.update_of_ne hm']
      · split <;> split <;> simp [Function.update_of_ne hm']
    simp [hm, hb]

open Classical in
/-- The word transferred last for each register, 0 before the first. -/
noncomputable def fbusMem (p : Par) (z : D) (inp : ℕ → BIn D) (x : ℕ → Full D) : ℕ → ℕ → D
  | 0, _ => z
  | t + 1, i => if FStores p inp x t i then (inp t).wdata else fbusMem p z inp x t i

theorem fbusMem_reg (hx : FullRun p u z inp x) (i : ℕ) (hi : i < p.len) (hops : ∀ t, ∀ op ∈ (inp t).ops, ¬op.on i)
    (t : ℕ) : (x t).file.reg i = fbusMem p z inp x t i ∧ (x t).file.flag i = false := by
  induction t with
  | zero => simp [hx.init, Full.init, File.init, fbusMem]
  | succ t ih =>
    obtain ⟨h1, -, h3, h4, -⟩ := c55_register hx t i hi (hops t)
    refine ⟨?_, (h4 (.inr ih.2)).trans ih.2⟩
    rw [fbusMem]
    split
    · rename_i h; exact h1 h
    · rename_i h; rw [h3 h (.inr ih.2), ih.1]

/-- **C55, reads see the last write.**  For a register no thread operates on, a beat of a read is the word transferred
    last before the read request by a write burst that covers the register, 0 if there was none. -/
theorem c55_coherent (hx : FullRun p u z inp x) (t k : ℕ) (g : D × Bool × ℕ) (b : Beat)
    (hg : (got inp x t)[k]? = some g) (hb : (expect p inp x t)[k]? = some b) (hlen : b.num < p.len)
    (hops : ∀ t, ∀ op ∈ (inp t).ops, ¬op.on b.num) : g.1 = fbusMem p z inp x b.time b.num := by
  obtain ⟨dn, ⟨tl, hpre⟩, hall⟩ := c55_read hx t
  have hk : k < (got inp x t).length := (List.getElem?_eq_some_iff.1 hg).1
  have hk' : k < dn.length := by rw [← hall.length_eq]; exact hk
  have hgk : (got inp x t)[k] = g := (List.getElem?_eq_some_iff.1 hg).2
  have hbk : dn[k] = b := by
    rw [← hpre, List.getElem?_append_left hk'] at hb
    exact (List.getElem?_eq_some_iff.1 hb).2
  have hr := hall.get hk hk'
  simp only [List.get_eq_getElem, hgk, hbk] at hr
  obtain ⟨-, s, h1, h2, h3, h4⟩ := hr
  rw [h3 hlen, (fbusMem_reg hx _ hlen hops s).1]
  have keep : ∀ j, b.time + j ≤ s → fbusMem p z inp x (b.time + j) b.num = fbusMem p z inp x b.time b.num := by
    intro j
    induction j with
    | zero => intro _; rfl
    | succ j ih =>
      intro hj
      rw [← Nat.add_assoc, fbusMem, if_neg, ih (by omega)]
      intro h
      have := h4 (b.time + j) (by omega) (by omega)
      rw [h.1] at this
      exact absurd this (by simp)
  have := keep (s - b.time) (by omega)
  rwa [show b.time + (s - b.time) = s by omega] at this

/-- The slave run on the inputs `inp`. -/
def fullRun (p : Par) (u z : D) (inp : ℕ → BIn D) : ℕ → Full D
  | 0 => Full.init z
  | t + 1 => (fullRun p u z inp t).step p u (inp t)

theorem expect_prefix (p : Par) (inp : ℕ → BIn D) (x : ℕ → Full D) (t j : ℕ) :
    expect p inp x t <+: expect p inp x (t + j) := by
  induction j with
  | zero => exact List.prefix_refl _
  | succ j ih =>
    rw [← Nat.add_assoc, expect]
    exact ih.trans (List.prefix_append _ _)

/-- **Disagreement.**  The beat with which a read request of `arlen + 1` beats should end has `rlast` exactly when
    `arlen = 0`: longer requests are answered with one beat more than requested. -/
theorem c55_not_length (hx : FullRun p u z inp x) (t T : ℕ) (hr : FAR inp x t = true) (g : D × Bool × ℕ)
    (hg : (got inp x T)[(expect p inp x t).length + (inp t).arlen]? = some g) :
    g.2.1 = decide ((inp t).arlen = 0) := by
  have gpre : ∀ j, got inp x T <+: got inp x (T + j) := by
    intro j
    induction j with
    | zero => exact List.prefix_refl _
    | succ j ih =>
      rw [← Nat.add_assoc, got]
      exact ih.trans (List.prefix_append _ _)
  obtain ⟨dn, ⟨tl, hpre⟩, hall⟩ := c55_read hx (T + (t + 1))
  have hg' : (got inp x (T + (t + 1)))[(expect p inp x t).length + (inp t).arlen]? = some g := by
    obtain ⟨tl, h⟩ := gpre (t + 1)
    rw [← h, List.getElem?_append_left (List.getElem?_eq_some_iff.1 hg).1]
    exact hg
  have hk := (List.getElem?_eq_some_iff.1 hg').1
  have hk' : (expect p inp x t).length + (inp t).arlen < dn.length := by rw [← hall.length_eq]; exact hk
  have hrel := hall.get hk hk'
  have hb : (expect p inp x (T + (t + 1)))[(expect p inp x t).length + (inp t).arlen]? =
      some ⟨(p.idx (inp t).araddr + (inp t).arlen) % 2 ^ p.mw,
        decide ((inp t).arlen + 1 = beatCount ((inp t).arlen + 1)), t⟩ := by
    obtain ⟨tl, h⟩ := expect_prefix p inp x (t + 1) T
    rw [show T + (t + 1) = t + 1 + T by omega, ← h, expect, hr, if_pos rfl, List.append_assoc,
      List.getElem?_append_right (Nat.le_add_right _ _), Nat.add_sub_cancel_left]
    have hlt : (inp t).arlen < beatCount ((inp t).arlen + 1) := by unfold beatCount; split <;> omega
    rw [List.getElem?_append_left (by simp [beatsFrom, hlt])]
    simp [beatsFrom, hlt]
  rw [← hpre, List.getElem?_append_left hk'] at hb
  simp only [List.get_eq_getElem, (List.getElem?_eq_some_iff.1 hg').2, (List.getElem?_eq_some_iff.1 hb).2] at hrel
  rw [hrel.1]
  unfold beatCount
  split <;> simp <;> omega

end

section Witness

private def fpar : Par := Par.of 4 32
private def fquiet : BIn ℕ := ⟨⟨false, 0, false, 0, 0, true, false, 0, true, []⟩, 0, false, 0, 0⟩

/-- Cycles 0, 1: write address 4; 3, 4: data 7, 8; 6, 7: read address 4, two beats. -/
private def burst (t : ℕ) : BIn ℕ :=
  if t ≤ 1 then { fquiet with awvalid := true, awaddr := 4, awlen := 1 }
  else if t = 3 then { fquiet with wvalid := true, wdata := 7, wstrb := 15 }
  else if t = 4 then { fquiet with wvalid := true, wdata := 8, wstrb := 15, wlast := true }
  else if t = 6 ∨ t = 7 then { fquiet with arvalid := true, araddr := 4, arlen := 1 }
  else fquiet

private theorem burst_run : FullRun fpar 99 0 burst (fullRun fpar 99 0 burst) := by
  refine ⟨rfl, fun _ => rfl, fun t => ?_⟩
  unfold burst
  split
  · decide
  · split
    · decide
    · split
      · decide
      · split <;> decide

/-- The run: both words are written, the response comes in cycle 5, and the request for two beats is answered by
    three: 7, 8 and the contents of the next register, with `rlast` only on the third. -/
theorem c55_not_length_run : let x := fullRun fpar 99 0 burst
    FullRun fpar 99 0 burst x ∧ FBR burst x 5 = true ∧ FAR burst x 7 = true ∧ (burst 7).arlen = 1 ∧
    got burst x 20 = [(7, false, 10), (8, false, 11), (0, true, 12)] ∧
    expect fpar burst x 20 = [⟨1, false, 7⟩, ⟨2, false, 7⟩, ⟨3, true, 7⟩] := by
  refine ⟨burst_run, ?_⟩
  decide +kernel

/-- Two single-beat read requests with different identifiers; the master takes no data. -/
private def ids (t : ℕ) : BIn ℕ :=
  if t ≤ 1 then { fquiet with arvalid := true, araddr := 4, arid := 1, rready := false }
  else if t = 5 ∨ t = 6 then { fquiet with arvalid := true, araddr := 8, arid := 2, rready := false }
  else { fquiet with rready := false }

/-- **Disagreement.**  `rid` follows the last accepted request: the identifier of a beat that is offered and not taken
    changes when the next request is accepted. -/
theorem c55_not_rid : let x := fullRun fpar 99 0 ids
    (∀ t, 4 ≤ t → t ≤ 8 → (x t).rvalid = true ∧ (ids t).rready = false) ∧ (x 6).rid = 1 ∧ (x 7).rid = 2 ∧
    got ids x 8 = [] := by
  refine ⟨?_, ?_⟩
  · intro t h1 h2
    have : t = 4 ∨ t = 5 ∨ t = 6 ∨ t = 7 ∨ t = 8 := by omega
    rcases this with rfl | rfl | rfl | rfl | rfl <;> decide +kernel
  · decide +kernel

end Witness

end AxiReg
