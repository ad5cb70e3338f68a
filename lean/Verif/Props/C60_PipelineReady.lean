import Verif.Props.C58_Dataflow
import Verif.Props.C59_Pipeline
import Verif.Lemmas.DataflowTab

/-!
# C60: pipelines with `valid` and `ready`
-/

namespace Pipe

open Dataflow (Src Net Run Node)

variable {V : Type} {v0 : V}

theorem toNet_get (vars : List (PVar V)) (j : ℕ) : (toNet v0 vars)[j]? = (vars[j]?).map fun v => match v.kind with
    | .reg f srcs => ⟨v.init, fun s args => f (pick v0 srcs args) s, id, srcs.map (srcOf vars vars.length), 0⟩
    | _ => ⟨v.init, fun s _ => s, id, [], 0⟩ := by
  simp only [toNet, List.getElem?_map]
  rfl

theorem toNet_reg {vars : List (PVar V)} {j : ℕ} {v : PVar V} {f : (ℕ → V) → V → V} {srcs : List ℕ} (hj : vars[j]? = some v)
    (hk : v.kind = .reg f srcs) : (toNet v0 vars)[j]? =
      some ⟨v.init, fun s args => f (pick v0 srcs args) s, id, srcs.map (srcOf vars vars.length), 0⟩ := by
  rw [toNet_get, hj, Option.map_some, hk]

/-- An entry with operands is a register. -/
theorem toNet_op {vars : List (PVar V)} {j : ℕ} {nd : Node V V} (hj : (toNet v0 vars)[j]? = some nd) (hne : nd.ins ≠ []) :
    ∃ v f srcs, vars[j]? = some v ∧ v.kind = .reg f srcs ∧ nd.ins = srcs.map (srcOf vars vars.length) ∧ nd.lat = 0 := by
  rw [toNet_get] at hj
  cases hv : vars[j]? with
  | none => rw [hv] at hj; cases hj
  | some v =>
    rw [hv, Option.map_some, Option.some.injEq] at hj
    subst hj
    cases hk : v.kind with
    | reg f srcs => exact ⟨v, f, srcs, rfl, hk, rfl, rfl⟩
    | input => rw [hk] at hne; exact absurd rfl hne
    | prev p root => rw [hk] at hne; exact absurd rfl hne

/-- The source of a variable: the input or register whose valid it has. -/
theorem srcOf_root {vars : List (PVar V)} (hw : Wf v0 vars) : ∀ (n k : ℕ), k < n → k < vars.length →
    rootOf vars k ≤ k ∧ stg vars (rootOf vars k) = stg vars k ∧
    (((srcOf vars n k).1 = .var (rootOf vars k) ∧ stg vars k = some 0) ∨
     ((srcOf vars n k).1 = .op (rootOf vars k) ∧ ∃ v f srcs, vars[rootOf vars k]? = some v ∧ v.kind = .reg f srcs)) := by
  intro n
  induction n with
  | zero => intro k hk; omega
  | succ n ih =>
    intro k hk hl
    have hg := List.getElem?_eq_getElem hl
    have hkd : kindAt vars k = some (vars[k]).kind := by simp [kindAt, hg]
    have h := hw k _ hg
    unfold VarOk at h
    cases hkk : (vars[k]).kind with
    | input =>
      rw [hkk] at h hkd
      have e : rootOf vars k = k := by simp [rootOf, hkd]
      rw [e]
      exact ⟨Nat.le_refl _, rfl, .inl ⟨by simp [srcOf, hkd], by simpa [stg, hg] using h⟩⟩
    | reg f srcs =>
      rw [hkk] at hkd
      have e : rootOf vars k = k := by simp [rootOf, hkd]
      rw [e]
      exact ⟨Nat.le_refl _, rfl, .inr ⟨by simp [srcOf, hkd], _, f, srcs, hg, hkk⟩⟩
    | prev p root =>
      rw [hkk] at h hkd
      have e : rootOf vars k = root := by simp [rootOf, hkd]
      obtain ⟨h1, h2, h3, h4, _, _, _, h8, _, _⟩ := h
      obtain ⟨i1, i2, i3⟩ := ih p (by omega) (by omega)
      rw [h8] at i1 i2 i3
      have hs : stg vars k = (vars[k]).stage := by simp [stg, hg]
      rw [e]
      refine ⟨by omega, by rw [h4, hs], ?_⟩
      have e2 : (srcOf vars (n + 1) k).1 = (srcOf vars n p).1 := by simp [srcOf, hkd]
      rw [e2, hs, ← h3]
      exact i3

theorem toNet_ordered {vars : List (PVar V)} (hw : Wf v0 vars) : Dataflow.Ordered (toNet v0 vars) := by
  intro j nd hj a ha k hk
  obtain ⟨v, f, srcs, hv, hkd, hins, _⟩ := toNet_op hj (List.ne_nil_of_mem ha)
  rw [hins] at ha
  obtain ⟨s, hs, rfl⟩ := List.mem_map.1 ha
  have hjl : j < vars.length := (List.getElem?_eq_some_iff.1 hv).1
  have h := hw j v hv
  unfold VarOk at h
  rw [hkd] at h
  have hsj := h.2.1 s hs
  obtain ⟨i1, _, i3⟩ := srcOf_root hw vars.length s (by omega) (by omega)
  rcases i3 with ⟨e, _⟩ | ⟨e, _⟩
  · rw [e] at hk; cases hk
  · rw [e] at hk; cases hk; omega

/-- The inputs all of whose values are there. -/
def total (vs : ℕ → ℕ → V) (t : ℕ) : PIn V := ⟨fun i => vs i t, fun _ => true⟩

theorem lookup_zip_map (srcs : List ℕ) (g : ℕ → V) (s : ℕ) (hs : s ∈ srcs) : (srcs.zip (srcs.map g)).lookup s = some (g s) := by
  induction srcs with
  | nil => cases hs
  | cons a l ih =>
    simp only [List.map_cons, List.zip_cons_cons, List.lookup_cons]
    by_cases h : s = a
    · subst h; simp
    · rw [List.mem_cons] at hs
      have hb : (s == a) = false := by simpa using h
      rw [hb]
      exact ih (hs.resolve_left h)

/-- With all values there, the streams of the network are those of the handshake. -/
theorem den_toNet {vars : List (PVar V)} (hw : Wf v0 vars) (vs : ℕ → ℕ → V) : ∀ k < vars.length, ∀ n, k < n → ∀ f, k < f → ∀ t,
    dget (dens v0 (total vs) vars) k t = some (if (srcOf vars n k).2 ≤ t then
      Dataflow.den (toNet v0 vars) v0 vs f (srcOf vars n k).1 (t - (srcOf vars n k).2) else v0) := by
  intro k
  induction k using Nat.strongRecOn with
  | _ k ih =>
  intro hl n hn f hf t
  obtain ⟨n, rfl⟩ : ∃ m, n = m + 1 := ⟨n - 1, by omega⟩
  obtain ⟨f, rfl⟩ : ∃ m, f = m + 1 := ⟨f - 1, by omega⟩
  have hg := List.getElem?_eq_getElem hl
  have hkd : kindAt vars k = some (vars[k]).kind := by simp [kindAt, hg]
  have hlow : ∀ s < k, dget (dens v0 (total vs) (vars.take k)) s = dget (dens v0 (total vs) vars) s := by
    intro s hs
    exact (dens_ext v0 (total vs) (List.take_prefix k vars) s (by simp; omega)).symm
  have h := hw k _ hg
  unfold VarOk at h
  cases hkk : (vars[k]).kind with
  | input =>
    rw [hkk] at hkd
    have e : srcOf vars (n + 1) k = (.var k, 0) := by simp [srcOf, hkd]
    rw [e, getElem?_dens (total vs) vars k _ hg]
    have hlen : (dens v0 (total vs) (vars.take k)).length = k := by rw [dens_length]; simp; omega
    simp only [denOf, hkk, hlen, portDen, total, Bool.or_true, if_true, Nat.zero_le, Nat.sub_zero]
    rfl
  | prev p root =>
    rw [hkk] at hkd h
    obtain ⟨h1, h2, _, _, _, _, _, _, _, h10⟩ := h
    have e : srcOf vars (n + 1) k = ((srcOf vars n p).1, (srcOf vars n p).2 + 1) := by simp [srcOf, hkd]
    rw [e, getElem?_dens (total vs) vars k _ hg]
    simp only [denOf, hkk]
    have hroot : ∀ t, (dget (dens v0 (total vs) (vars.take k)) root t).isSome = true := by
      intro t
      rw [hlow root h2, ih root h2 (by omega) (root + 1) (by omega) (root + 1) (by omega)]
      rfl
    simp only [hroot, if_true]
    cases t with
    | zero => simp [stt, h10]
    | succ t =>
      simp only [stt, if_true]
      rw [hlow p h1, ih p h1 (by omega) n (by omega) (f + 1) (by omega), Option.getD_some]
      congr 1
      by_cases hle : (srcOf vars n p).2 ≤ t
      · rw [if_pos hle, if_pos (by omega), Nat.add_sub_add_right]
      · rw [if_neg hle, if_neg (by omega)]
  | reg F srcs =>
    rw [hkk] at hkd h
    obtain ⟨_, hlt, _, hloc, _, _⟩ := h
    have e : srcOf vars (n + 1) k = (.op k, 0) := by simp [srcOf, hkd]
    rw [e, getElem?_dens (total vs) vars k _ hg]
    simp only [denOf, hkk, Nat.zero_le, if_true, Nat.sub_zero]
    have hall : ∀ t, (srcs.all fun s => (dget (dens v0 (total vs) (vars.take k)) s t).isSome) = true := by
      intro t
      rw [List.all_eq_true]
      intro s hs
      rw [hlow s (hlt s hs), ih s (hlt s hs) (by have := hlt s hs; omega) (s + 1) (by omega) (s + 1) (by omega)]
      rfl
    simp only [hall, if_true]
    simp only [Dataflow.den, toNet_reg hg hkk, id]
    congr 1
    -- the operands
    have hargs : ∀ t, ((srcs.map (srcOf vars vars.length)).map fun a =>
        if a.2 ≤ t then Dataflow.den (toNet v0 vars) v0 vs f a.1 (t - a.2) else v0) =
        srcs.map fun s => (dget (dens v0 (total vs) (vars.take k)) s t).getD v0 := by
      intro t
      rw [List.map_map]
      refine List.map_congr_left fun s hs => ?_
      have hsk := hlt s hs
      rw [hlow s hsk, ih s hsk (by omega) vars.length (by omega) f (by omega), Option.getD_some]
      rfl
    have hF : ∀ t a, F (pick v0 srcs (srcs.map fun s => (dget (dens v0 (total vs) (vars.take k)) s t).getD v0)) a =
        F (fun s => (dget (dens v0 (total vs) (vars.take k)) s t).getD v0) a := by
      intro t a
      refine congrFun (hloc _ _ fun s hs => ?_) a
      rw [pick, lookup_zip_map srcs _ s hs, Option.getD_some]
    have hst : ∀ t, Node.stateAt ⟨(vars[k]).init, fun s args => F (pick v0 srcs args) s, id, srcs.map (srcOf vars vars.length), 0⟩
        (fun t => (srcs.map (srcOf vars vars.length)).map fun a =>
          if a.2 ≤ t then Dataflow.den (toNet v0 vars) v0 vs f a.1 (t - a.2) else v0) t =
        stt F (vars[k]).init (fun _ => true) (fun t s => (dget (dens v0 (total vs) (vars.take k)) s t).getD v0) t := by
      intro t
      induction t with
      | zero => rfl
      | succ t iht =>
        simp only [Node.stateAt, stt, if_true]
        rw [iht, hargs, hF]
    rw [hst, hargs, hF]

/-- The stage of a source. -/
def lev (vars : List (PVar V)) : Src → ℕ
  | .var _ => 0
  | .op j => (stg vars j).getD 0

/-- No register before the last stage `D` is left without a register behind it. -/
def NoOrphan (vars : List (PVar V)) (D : ℕ) : Prop :=
  ∀ (j : ℕ) (v : PVar V) (f : (ℕ → V) → V → V) (srcs : List ℕ), vars[j]? = some v → v.kind = .reg f srcs →
    ∃ n, v.stage = some n ∧ n ≤ D ∧
      (n < D → ∃ (s : ℕ) (w : PVar V) (g : (ℕ → V) → V → V) (srcs' : List ℕ), vars[s]? = some w ∧ w.kind = .reg g srcs' ∧
        ∃ x ∈ srcs', rootOf vars x = j)

theorem toNet_balanced {vars : List (PVar V)} (hw : Wf v0 vars) {D : ℕ} (hD : NoOrphan vars D) :
    Run.Balanced1 (toNet v0 vars) (lev vars) D := by
  have hsrc : ∀ (j : ℕ) (v : PVar V) f srcs, vars[j]? = some v → v.kind = .reg f srcs → ∀ s ∈ srcs, s < j ∧ j < vars.length ∧
      ∃ n, v.stage = some (n + 1) ∧ stg vars s = some n := by
    intro j v f srcs hv hk s hs
    have h := hw j v hv
    unfold VarOk at h
    rw [hk] at h
    obtain ⟨_, h2, ⟨n, hn, h3⟩, _⟩ := h
    exact ⟨h2 s hs, (List.getElem?_eq_some_iff.1 hv).1, n, hn, h3 s hs⟩
  refine ⟨fun _ => rfl, ?_, ?_, ?_, ?_⟩
  · rintro j nd ⟨hj, hne⟩
    obtain ⟨v, f, srcs, hv, hkd, hins, hlat⟩ := toNet_op hj hne
    refine ⟨hlat, fun a ha => ?_⟩
    rw [hins] at ha
    obtain ⟨s, hs, rfl⟩ := List.mem_map.1 ha
    obtain ⟨h1, h2, n, h3, h4⟩ := hsrc j v f srcs hv hkd s hs
    obtain ⟨_, i2, i3⟩ := srcOf_root hw vars.length s (by omega) (by omega)
    have hlev : lev vars (.op j) = n + 1 := by simp [lev, stg, hv, h3]
    rw [hlev]
    rcases i3 with ⟨e, e0⟩ | ⟨e, _⟩
    · rw [e]
      rw [h4, Option.some.injEq] at e0
      simp [lev, e0]
    · rw [e]
      simp [lev, i2, h4]
  · rintro j nd hj hne s ⟨nd', hs, a, ha, e⟩
    obtain ⟨v, f, srcs, hv, hkd, hins, _⟩ := toNet_op hs (List.ne_nil_of_mem ha)
    rw [hins] at ha
    obtain ⟨x, hx, rfl⟩ := List.mem_map.1 ha
    obtain ⟨h1, h2, _⟩ := hsrc s v f srcs hv hkd x hx
    obtain ⟨_, _, i3⟩ := srcOf_root hw vars.length x (by omega) (by omega)
    rcases i3 with ⟨e', _⟩ | ⟨e', w, g, ss, hw1, hw2⟩
    · rw [e'] at e; cases e
    · rw [e'] at e
      cases e
      rw [toNet_reg hw1 hw2, Option.some.injEq] at hj
      subst hj
      have h := hw _ _ hw1
      unfold VarOk at h
      rw [hw2] at h
      exact h.1 (by simpa using hne)
  · rintro j nd ⟨hj, hne⟩ hl
    obtain ⟨v, f, srcs, hv, hkd, _⟩ := toNet_op hj hne
    obtain ⟨n, hn, _, hu⟩ := hD j v f srcs hv hkd
    obtain ⟨s, w, g, ss, hs, hk', x, hx, hr⟩ := hu (by simpa [lev, stg, hv, hn] using hl)
    obtain ⟨h1, h2, _⟩ := hsrc s w g ss hs hk' x hx
    obtain ⟨_, i2, i3⟩ := srcOf_root hw vars.length x (by omega) (by omega)
    refine ⟨s, _, toNet_reg hs hk', _, List.mem_map.2 ⟨x, hx, rfl⟩, ?_⟩
    rcases i3 with ⟨e', e0⟩ | ⟨e', _⟩
    · -- an input has stage 0, a register has not
      exfalso
      rw [hr, e0] at i2
      have h := hw j v hv
      unfold VarOk at h
      rw [hkd] at h
      obtain ⟨_, _, ⟨m, hm, _⟩, _⟩ := h
      simp [stg, hv, hm] at i2
    · rw [e', hr]
  · rintro j nd ⟨hj, hne⟩
    obtain ⟨v, f, srcs, hv, hkd, _⟩ := toNet_op hj hne
    obtain ⟨n, hn, hle, _⟩ := hD j v f srcs hv hkd
    simpa [lev, stg, hv, hn] using hle

/-! ## Registers left over -/

/-- A register has a variable with root `j` among its operands. -/
def Sink (vars : List (PVar V)) (j : ℕ) : Prop :=
  ∃ (s : ℕ) (w : PVar V) (g : (ℕ → V) → V → V) (srcs : List ℕ), vars[s]? = some w ∧ w.kind = .reg g srcs ∧
    ∃ x ∈ srcs, x < vars.length ∧ rootOf vars x = j

theorem Sink.mono {vars vars' : List (PVar V)} (h : vars <+: vars') {j : ℕ} (hs : Sink vars j) : Sink vars' j := by
  obtain ⟨s, w, g, srcs, hw, hk, x, hx, hl, hr⟩ := hs
  have hsl : s < vars.length := (List.getElem?_eq_some_iff.1 hw).1
  refine ⟨s, w, g, srcs, ?_, hk, x, hx, Nat.lt_of_lt_of_le hl h.length_le, by rw [rootOf_ext h hl, hr]⟩
  obtain ⟨ws, rfl⟩ := h
  rw [List.getElem?_append_left hsl]
  exact hw

/-- After a register was added, its operands have one behind them. -/
theorem Sink.addReg (b : B V) (r : Res V) (f : V → V → V) (init : V) {k : ℕ} (hk : k ∈ r.srcs) (hl : k < b.vars.length) :
    Sink (b.addReg r f init).2.vars (rootOf (b.addReg r f init).2.vars k) := by
  refine ⟨b.vars.length, _, _, _, List.getElem?_concat_length .., rfl, k, hk, ?_, rfl⟩
  simp [B.addReg, B.add]
  omega

theorem rootOf_addReg (b : B V) (r : Res V) (f : V → V → V) (init : V) :
    rootOf (b.addReg r f init).2.vars b.vars.length = b.vars.length := by
  have : kindAt (b.addReg r f init).2.vars b.vars.length = some (.reg (fun env a => f a (r.ev env)) r.srcs) := by
    simp [kindAt, B.addReg, B.add]
  simp [rootOf, this]

theorem addReg_prefix (b : B V) (r : Res V) (f : V → V → V) (init : V) : b.vars <+: (b.addReg r f init).2.vars :=
  List.prefix_append _ _

theorem addStage_vars (b : B V) (r : Res V) (g : V → V) :
    (b.addStage v0 r g).2.vars = (b.addReg r (fun _ d => g d) v0).2.vars := rfl

/-- Registers that were added, and the variables `ks`, have one behind them or are among `ks'`. -/
structure Left (vars vars' : List (PVar V)) (ks ks' : List ℕ) : Prop where
  pre : vars <+: vars'
  lt : ∀ k ∈ ks', k < vars'.length
  new : ∀ j < vars'.length, vars.length ≤ j → rootOf vars' j = j ∧ (Sink vars' j ∨ j ∈ ks')
  old : ∀ k ∈ ks, Sink vars' (rootOf vars' k) ∨ k ∈ ks'

theorem Left.refl (vars : List (PVar V)) (ks : List ℕ) (h : ∀ k ∈ ks, k < vars.length) : Left vars vars ks ks :=
  ⟨List.prefix_rfl, h, fun j h1 h2 => by omega, fun _ hk => .inr hk⟩

theorem outDelay_left (g : V → V) (n : ℕ) : ∀ (k : ℕ) (b : B V), k < b.vars.length →
    Left b.vars (outDelay v0 g n k b).2.vars [k] [(outDelay v0 g n k b).1] := by
  induction n with
  | zero => intro k b hk; exact .refl _ _ (by simpa [outDelay] using hk)
  | succ n ih =>
    intro k b hk
    have hp := addReg_prefix b ⟨b.stage k, fun env => env k, [k]⟩ (fun _ d => g d) v0
    have hL := ih b.vars.length (b.addStage v0 ⟨b.stage k, fun env => env k, [k]⟩ g).2 (by
      rw [addStage_vars]; simp [B.addReg, B.add])
    have hlen : (b.addStage v0 ⟨b.stage k, fun env => env k, [k]⟩ g).2.vars.length = b.vars.length + 1 := by
      rw [addStage_vars]; simp [B.addReg, B.add]
    refine ⟨hp.trans hL.pre, hL.lt, fun j hj hle => ?_, fun k0 hk0 => ?_⟩
    · by_cases hj' : b.vars.length + 1 ≤ j
      · exact hL.new j hj (by rw [hlen]; exact hj')
      · obtain rfl : j = b.vars.length := by omega
        have hr := rootOf_addReg b ⟨b.stage k, fun env => env k, [k]⟩ (fun _ d => g d) v0
        have hr' : rootOf (outDelay v0 g n b.vars.length (b.addStage v0 ⟨b.stage k, fun env => env k, [k]⟩ g).2).2.vars
            b.vars.length = b.vars.length := by
          rw [rootOf_ext hL.pre (by omega)]; exact hr
        refine ⟨hr', ?_⟩
        rcases hL.old b.vars.length (by simp) with h | h
        · rw [hr'] at h; exact .inl h
        · exact .inr h
    · rw [List.mem_singleton] at hk0
      subst hk0
      left
      have := Sink.addReg b ⟨b.stage k0, fun env => env k0, [k0]⟩ (fun _ d => g d) v0 (k := k0) (by simp) hk
      have h2 := this.mono hL.pre
      have h3 := rootOf_ext hL.pre (k := k0) (by
        show k0 < (b.addReg _ _ _).2.vars.length
        exact Nat.lt_of_lt_of_le hk hp.length_le)
      show Sink _ (rootOf (outDelay v0 g n b.vars.length (b.addStage v0 ⟨b.stage k0, fun env => env k0, [k0]⟩ g).2).2.vars k0)
      rw [h3]
      exact h2

theorem delays_eq (g : V → V) (n : ℕ) : ∀ (k : ℕ) (b : B V),
    delays v0 g n (visitVar k) b = (visitVar (outDelay v0 g n k b).1, (outDelay v0 g n k b).2) := by
  induction n with
  | zero => intro k b; rfl
  | succ n ih => intro k b; exact ih _ _

theorem chain_left (g : V → V) (n k : ℕ) (b : B V) (hk : k < b.vars.length) :
    ∃ k', (delays v0 g n (visitVar k) b).1 = visitVar k' ∧ Left b.vars (delays v0 g n (visitVar k) b).2.vars [k] [k'] := by
  rw [delays_eq]
  exact ⟨_, rfl, outDelay_left g n k b hk⟩

/-- The visit of an operand that is a variable or a constant. -/
def atom : ℕ ⊕ V → Visit V
  | .inl k => visitVar k
  | .inr v => fun b => (⟨none, fun _ => v, []⟩, b)

/-- The variables among operands. -/
def atomVars (l : List (ℕ ⊕ V)) : List ℕ := l.filterMap fun a => match a with | .inl k => some k | .inr _ => none

theorem runAll_atoms (l : List (ℕ ⊕ V)) (b : B V) :
    (runAll (l.map atom) b).2 = b ∧ (runAll (l.map atom) b).1 = l.map (fun a => (atom a b).1) ∧
    (runAll (l.map atom) b).1.flatMap (·.srcs) = atomVars l := by
  induction l with
  | nil => exact ⟨rfl, rfl, rfl⟩
  | cons a l ih =>
    obtain ⟨h1, h2, h3⟩ := ih
    cases a with
    | inl k =>
      simp only [List.map_cons, runAll, atom, visitVar, List.flatMap_cons]
      rw [h1, h3, h2]
      exact ⟨rfl, rfl, rfl⟩
    | inr v =>
      simp only [List.map_cons, runAll, atom, List.flatMap_cons]
      rw [h1, h3, h2]
      exact ⟨rfl, rfl, rfl⟩

/-- One operand of `align`. -/
def adj (v0 : V) (m : ℕ) (st : Option ℕ) (v : Visit V) (b : B V) : Visit V × B V :=
  match st with
  | none => (v, b)
  | some s => delays v0 id (m - s) v b

theorem align_cons (m : ℕ) (r : Res V) (v : Visit V) (l : List (Res V × Visit V)) (b : B V) : align v0 m ((r, v) :: l) b =
    ((adj v0 m r.stage v b).1 :: (align v0 m l (adj v0 m r.stage v b).2).1, (align v0 m l (adj v0 m r.stage v b).2).2) := by
  simp only [align, adj]
  cases r.stage <;> rfl

theorem align_left (m : ℕ) (b0 : B V) (l : List (ℕ ⊕ V)) : ∀ b : B V, b0.vars <+: b.vars → (∀ k ∈ atomVars l, k < b.vars.length) →
    ∃ l', (align v0 m (l.map fun a => ((atom a b0).1, atom a)) b).1 = l'.map atom ∧
      Left b.vars (align v0 m (l.map fun a => ((atom a b0).1, atom a)) b).2.vars (atomVars l) (atomVars l') := by
  induction l with
  | nil => intro b _ _; exact ⟨[], rfl, .refl _ _ (by simp [atomVars])⟩
  | cons a l ih =>
    intro b hp hlt
    have hstep : ∃ a', (adj v0 m (atom a b0).1.stage (atom a) b).1 = atom a' ∧
        Left b.vars (adj v0 m (atom a b0).1.stage (atom a) b).2.vars (atomVars [a]) (atomVars [a']) := by
      cases a with
      | inr v => exact ⟨.inr v, rfl, .refl _ _ (by simp [atomVars])⟩
      | inl k =>
        have hk : k < b.vars.length := hlt k (by simp [atomVars])
        have hs : (atom (.inl k : ℕ ⊕ V) b0).1.stage = b0.stage k := rfl
        rw [hs]
        cases b0.stage k with
        | none => exact ⟨.inl k, rfl, Left.refl b.vars [k] (by simpa using hk)⟩
        | some s =>
          obtain ⟨k', e, hL⟩ := chain_left (v0 := v0) id (m - s) k b hk
          exact ⟨.inl k', e, hL⟩
    obtain ⟨a', e, hL⟩ := hstep
    rw [List.map_cons, align_cons]
    generalize hx : adj v0 m (atom a b0).1.stage (atom a) b = x at e hL ⊢
    have hlt' : ∀ k ∈ atomVars l, k < x.2.vars.length := fun k hk =>
      Nat.lt_of_lt_of_le (hlt k (by
        obtain ⟨c, hc, hc'⟩ := List.mem_filterMap.1 hk
        exact List.mem_filterMap.2 ⟨c, List.mem_cons_of_mem _ hc, hc'⟩)) hL.pre.length_le
    obtain ⟨l', e', hL'⟩ := ih x.2 (hp.trans hL.pre) hlt'
    have hsplit : ∀ (c : ℕ ⊕ V) (l : List (ℕ ⊕ V)), atomVars (c :: l) = atomVars [c] ++ atomVars l := by
      intro c l
      cases c <;> rfl
    refine ⟨a' :: l', by rw [e, e']; rfl, hL.pre.trans hL'.pre, ?_, ?_, ?_⟩
    · intro k hk
      rw [hsplit, List.mem_append] at hk
      rcases hk with hk | hk
      · exact Nat.lt_of_lt_of_le (hL.lt k hk) hL'.pre.length_le
      · exact hL'.lt k hk
    · intro j hj hle
      by_cases hj' : x.2.vars.length ≤ j
      · obtain ⟨h1, h2⟩ := hL'.new j hj hj'
        exact ⟨h1, h2.imp id fun h => by rw [hsplit, List.mem_append]; exact .inr h⟩
      · obtain ⟨h1, h2⟩ := hL.new j (by omega) hle
        refine ⟨by rw [rootOf_ext hL'.pre (by omega)]; exact h1, ?_⟩
        rcases h2 with h2 | h2
        · exact .inl (h2.mono hL'.pre)
        · right; rw [hsplit, List.mem_append]; exact .inl h2
    · intro k hk
      rw [hsplit, List.mem_append] at hk
      rcases hk with hk | hk
      · have hkl : k < x.2.vars.length := Nat.lt_of_lt_of_le (hlt k (by rw [hsplit, List.mem_append]; exact .inl hk)) hL.pre.length_le
        rcases hL.old k hk with h | h
        · left
          rw [rootOf_ext hL'.pre hkl]
          exact h.mono hL'.pre
        · right; rw [hsplit, List.mem_append]; exact .inl h
      · rcases hL'.old k hk with h | h
        · exact .inl h
        · right; rw [hsplit, List.mem_append]; exact .inr h

/-- An expression without nesting: the operands are variables and constants. -/
def PExpr.Flat : PExpr V → Prop
  | .var _ => True
  | .const _ => True
  | .un _ _ => False
  | .op _ _ args => ∀ i, (∃ k, args i = .var k) ∨ ∃ v, args i = .const v

theorem visit_left (us : ℕ → ℕ) (e : PExpr V) (hf : e.Flat) (b : B V) (hlt : ∀ k ∈ e.fv, us k < b.vars.length) :
    Left b.vars (visit v0 us e b).2.vars (e.fv.map us) (visit v0 us e b).1.srcs := by
  cases e with
  | var k => exact .refl _ _ (by simpa [PExpr.fv] using hlt)
  | const v => exact .refl _ _ (by simp [PExpr.fv])
  | un f e => exact absurd hf id
  | op n f args =>
    -- the operands as a list
    have hat : ∀ i, ∃ a : ℕ ⊕ V, visit v0 us (args i) = atom a ∧ atomVars [a] = (args i).fv.map us := by
      intro i
      rcases hf i with ⟨k, h⟩ | ⟨v, h⟩
      · exact ⟨.inl (us k), by rw [h]; rfl, by rw [h]; rfl⟩
      · exact ⟨.inr v, by rw [h]; rfl, by rw [h]; rfl⟩
    choose at_ h1 h2 using hat
    have hvs : (List.ofFn fun i => visit v0 us (args i)) = (List.ofFn at_).map atom := by
      rw [List.map_ofFn]
      exact congrArg List.ofFn (funext h1)
    have hfv : atomVars (List.ofFn at_) = (PExpr.op n f args).fv.map us := by
      simp only [PExpr.fv, List.map_flatten, List.map_ofFn]
      have : atomVars (List.ofFn at_) = ((List.ofFn at_).map fun a => atomVars [a]).flatten := by
        generalize List.ofFn at_ = l
        induction l with
        | nil => rfl
        | cons c l ih =>
          rw [List.map_cons, List.flatten_cons, ← ih]
          cases c <;> rfl
      rw [this, List.map_ofFn]
      exact congrArg (fun l => (List.ofFn l).flatten) (funext h2)
    obtain ⟨r1, r2, r3⟩ := runAll_atoms (List.ofFn at_) b
    have hlt' : ∀ k ∈ atomVars (List.ofFn at_), k < b.vars.length := by
      rw [hfv]
      intro k hk
      obtain ⟨x, hx, rfl⟩ := List.mem_map.1 hk
      exact hlt x hx
    simp only [visit, pack, hvs]
    rw [← hfv]
    cases hm : maxStage (runAll ((List.ofFn at_).map atom) b).1 with
    | none =>
      simp only [combine, r1, r3]
      exact .refl _ _ hlt'
    | some m =>
      simp only [r1]
      have hzip : (runAll ((List.ofFn at_).map atom) b).1.zip ((List.ofFn at_).map atom) =
          (List.ofFn at_).map fun a => ((atom a b).1, atom a) := by
        rw [r2]
        generalize List.ofFn at_ = l
        induction l with
        | nil => rfl
        | cons c l ih => simp only [List.map_cons, List.zip_cons_cons, ih]
      rw [hzip]
      obtain ⟨l', e', hL⟩ := align_left (v0 := v0) m b (List.ofFn at_) b List.prefix_rfl hlt'
      rw [e']
      obtain ⟨q1, _, q3⟩ := runAll_atoms l' (align v0 m ((List.ofFn at_).map fun a => ((atom a b).1, atom a)) b).2
      simp only [combine, q1, q3]
      exact hL

/-- No expression of the call is nested. -/
def Cmd.Flat : Cmd V → Prop
  | .stage e => e.Flat
  | .acc _ _ e => e.Flat
  | _ => True

/-- The variables a call computes with. -/
def Cmd.uses : Cmd V → List ℕ
  | .stage e => e.fv
  | .acc _ _ e => e.fv
  | _ => []

/-- The variable whose tokens a call's result has: for `prev` that of its operand, otherwise its own. -/
def Cmd.root (rs : List ℕ) : Cmd V → ℕ
  | .prev v _ => rs.getD v 0
  | _ => rs.length

/-- These variables for a program. -/
def rootAll : List ℕ → List (Cmd V) → List ℕ
  | rs, [] => rs
  | rs, c :: cs => rootAll (rs ++ [c.root rs]) cs

/-- Every register has one behind it or is a variable of the user; variables computed with have one behind them. -/
structure Inv2 (us : List ℕ) (vars : List (PVar V)) (used rs : List ℕ) : Prop where
  reg : ∀ j f srcs, kindAt vars j = some (.reg f srcs) → Sink vars j ∨ ∃ i < us.length, rootOf vars (look us i) = j
  used : ∀ i ∈ used, i < us.length ∧ Sink vars (rootOf vars (look us i))
  len : rs.length = us.length
  root : ∀ i < us.length, rs.getD i 0 < us.length ∧ rootOf vars (look us i) = rootOf vars (look us (rs.getD i 0))

theorem kindAt_ext {vars vars' : List (PVar V)} (h : vars <+: vars') {k : ℕ} (hk : k < vars.length) :
    kindAt vars' k = kindAt vars k := by
  obtain ⟨ws, rfl⟩ := h
  simp [kindAt, List.getElem?_append_left hk]

/-- A step that adds variables: the registers among them have one behind them or are the new variable of the user. -/
theorem Inv2.extend {us : List ℕ} {vars vars' : List (PVar V)} {used rs : List ℕ} (h : Inv2 us vars used rs) (hlt : ∀ i < us.length, look us i < vars.length)
    (hp : vars <+: vars') {k : ℕ} (hk : k < vars'.length)
    (hnew : ∀ j < vars'.length, vars.length ≤ j → ∀ f srcs, kindAt vars' j = some (.reg f srcs) →
      Sink vars' j ∨ rootOf vars' k = j)
    (us' : List ℕ) (hus : ∀ i ∈ us', i < us.length ∧ Sink vars' (rootOf vars' (look us i))) {rt : ℕ}
    (hrt : (rt = us.length) ∨ (rt < us.length ∧ rootOf vars' k = rootOf vars' (look us rt))) :
    Inv2 (us ++ [k]) vars' (used ++ us') (rs ++ [rt]) where
  reg j f srcs hj := by
    have hjl : j < vars'.length := by
      refine Nat.lt_of_not_le fun hge => ?_
      rw [kindAt, List.getElem?_eq_none hge] at hj
      cases hj
    by_cases hold : j < vars.length
    · have hj' : kindAt vars j = some (.reg f srcs) := by rw [← hj, kindAt_ext hp hold]
      rcases h.reg j f srcs hj' with h1 | ⟨i, hi, h1⟩
      · exact .inl (h1.mono hp)
      · exact .inr ⟨i, by simp; omega, by rw [look_snoc_lt hi, rootOf_ext hp (hlt i hi), h1]⟩
    · rcases hnew j hjl (by omega) f srcs hj with h1 | h1
      · exact .inl h1
      · exact .inr ⟨us.length, by simp, by rw [look_snoc_eq, h1]⟩
  used i hi := by
    rw [List.mem_append] at hi
    rcases hi with hi | hi
    · obtain ⟨h1, h2⟩ := h.used i hi
      refine ⟨by simp; omega, ?_⟩
      rw [look_snoc_lt h1, rootOf_ext hp (hlt i h1)]
      exact h2.mono hp
    · obtain ⟨h1, h2⟩ := hus i hi
      refine ⟨by simp; omega, ?_⟩
      rw [look_snoc_lt h1]
      exact h2
  len := by simp [h.len]
  root i hi := by
    rw [List.length_append, List.length_singleton] at hi
    by_cases hold : i < us.length
    · obtain ⟨h1, h2⟩ := h.root i hold
      rw [getD_snoc_lt (by rw [h.len]; exact hold), look_snoc_lt hold, look_snoc_lt h1, rootOf_ext hp (hlt _ hold),
        rootOf_ext hp (hlt _ h1)]
      exact ⟨Nat.lt_of_lt_of_le h1 (by simp), h2⟩
    · obtain rfl : i = us.length := by omega
      rw [← h.len, getD_snoc_eq, h.len, look_snoc_eq]
      rcases hrt with e | ⟨h1, h2⟩
      · rw [e, look_snoc_eq]; exact ⟨by simp, rfl⟩
      · rw [look_snoc_lt h1]; exact ⟨Nat.lt_of_lt_of_le h1 (by simp), h2⟩

theorem prevs_left (d : ℕ) : ∀ (k : ℕ) (b : B V), k < b.vars.length →
    b.vars <+: (prevs v0 d k b).2.vars ∧ (prevs v0 d k b).1 < (prevs v0 d k b).2.vars.length ∧
    rootOf (prevs v0 d k b).2.vars (prevs v0 d k b).1 = rootOf (prevs v0 d k b).2.vars k ∧
    ∀ j < (prevs v0 d k b).2.vars.length, b.vars.length ≤ j → ∀ f srcs, kindAt (prevs v0 d k b).2.vars j ≠ some (.reg f srcs) := by
  induction d with
  | zero => intro k b hk; exact ⟨List.prefix_rfl, hk, rfl, fun j h1 h2 => by simp only [prevs] at h1; omega⟩
  | succ d ih =>
    intro k b hk
    have hstep : prevs v0 (d + 1) k b = prevs v0 d b.vars.length
        ⟨b.vars ++ [⟨.prev k (rootOf b.vars k), b.stage k, b.hv k, v0⟩], b.maxStage⟩ := rfl
    rw [hstep]
    set b1 : B V := ⟨b.vars ++ [⟨.prev k (rootOf b.vars k), b.stage k, b.hv k, v0⟩], b.maxStage⟩ with hb1
    have hl1 : b1.vars.length = b.vars.length + 1 := by simp [hb1]
    have hp1 : b.vars <+: b1.vars := List.prefix_append _ _
    have hk1 : kindAt b1.vars b.vars.length = some (.prev k (rootOf b.vars k)) := by simp [kindAt, hb1]
    obtain ⟨i1, i2, i3, i4⟩ := ih b.vars.length b1 (by omega)
    refine ⟨hp1.trans i1, i2, ?_, ?_⟩
    · rw [i3, rootOf_ext i1 (by omega), rootOf_ext (hp1.trans i1) hk]
      simp [rootOf, hk1]
    · intro j hj hle f srcs hc
      by_cases hj' : b1.vars.length ≤ j
      · exact i4 j hj hj' f srcs hc
      · obtain rfl : j = b.vars.length := by omega
        rw [kindAt_ext i1 (by omega), hk1] at hc
        cases hc

theorem run_left {inp : ℕ → PIn V} {us : List ℕ} {b : B V} {hs : List Bool} {S : List ℕ} {U : List (ℕ → Option V)}
    (hi : Inv v0 inp us b hs S U) (c : Cmd V) (hok : c.Ok hs) (hfl : c.Flat) {used rs : List ℕ} (h2 : Inv2 us b.vars used rs) :
    Inv2 (c.run v0 us b).1 (c.run v0 us b).2.vars (used ++ c.uses) (rs ++ [c.root rs]) := by
  have hexpr : ∀ (e : PExpr V) (f : V → V → V) (init : V), e.Flat → (∀ k ∈ e.fv, k < hs.length) →
      Inv2 (us ++ [(visit v0 (look us) e b).2.vars.length]) ((visit v0 (look us) e b).2.addReg (visit v0 (look us) e b).1 f init).2.vars
        (used ++ e.fv) (rs ++ [rs.length]) := by
    intro e f init he hfv
    have hlt : ∀ k ∈ e.fv, look us k < b.vars.length := fun k hk => hi.lt k (by rw [← hi.len1]; exact hfv k hk)
    have hL := visit_left (v0 := v0) (look us) e he b hlt
    have hp := addReg_prefix (visit v0 (look us) e b).2 (visit v0 (look us) e b).1 f init
    have hlen : ((visit v0 (look us) e b).2.addReg (visit v0 (look us) e b).1 f init).2.vars.length =
        (visit v0 (look us) e b).2.vars.length + 1 := by simp [B.addReg, B.add]
    have hsink : ∀ k ∈ (visit v0 (look us) e b).1.srcs, Sink ((visit v0 (look us) e b).2.addReg (visit v0 (look us) e b).1 f init).2.vars
        (rootOf ((visit v0 (look us) e b).2.addReg (visit v0 (look us) e b).1 f init).2.vars k) :=
      fun k hk => Sink.addReg _ _ f init hk (hL.lt k hk)
    refine h2.extend hi.lt (hL.pre.trans hp) (by omega) ?_ e.fv ?_ (.inl h2.len)
    · intro j hj hle F srcs hkd
      by_cases hj' : j < (visit v0 (look us) e b).2.vars.length
      · left
        obtain ⟨n1, n2⟩ := hL.new j hj' hle
        rcases n2 with n2 | n2
        · exact n2.mono hp
        · have := hsink j n2
          rw [rootOf_ext hp hj', n1] at this
          exact this
      · right
        obtain rfl : j = (visit v0 (look us) e b).2.vars.length := by omega
        exact rootOf_addReg _ _ f init
    · intro i hie
      refine ⟨by rw [← hi.len1]; exact hfv i hie, ?_⟩
      have hil : look us i < (visit v0 (look us) e b).2.vars.length := Nat.lt_of_lt_of_le (hlt i hie) hL.pre.length_le
      rcases hL.old (look us i) (List.mem_map_of_mem hie) with h | h
      · rw [rootOf_ext hp hil]; exact h.mono hp
      · exact hsink _ h
  cases c with
  | input h =>
    refine h2.extend hi.lt (List.prefix_append _ _) (by simp [Cmd.run, B.add]) ?_ [] (by simp) (.inl h2.len)
    intro j hj hle f srcs hk
    have : j = b.vars.length := by simp [Cmd.run, B.add] at hj; omega
    subst this
    simp [Cmd.run, B.add, kindAt] at hk
  | stage e => exact hexpr e (fun _ d => d) v0 hfl hok.2.2
  | acc f init e => exact hexpr e f init hfl hok.2.1
  | prev v d =>
    obtain ⟨h1, _⟩ := hok
    have hv : v < us.length := by rw [← hi.len1]; exact h1
    obtain ⟨p1, p2, p3, p4⟩ := prevs_left (v0 := v0) d (look us v) b (hi.lt v hv)
    obtain ⟨r1, r2⟩ := h2.root v hv
    refine h2.extend hi.lt p1 p2 (fun j hj hle f srcs hk => absurd hk (p4 j hj hle f srcs)) [] (by simp)
      (.inr ⟨r1, ?_⟩)
    show rootOf (prevs v0 d (look us v) b).2.vars (prevs v0 d (look us v) b).1 = rootOf (prevs v0 d (look us v) b).2.vars (look us (rs.getD v 0))
    rw [p3, rootOf_ext p1 (hi.lt v hv), rootOf_ext p1 (hi.lt _ r1), r2]

theorem build_left (cs : List (Cmd V)) : ∀ {inp : ℕ → PIn V} {us : List ℕ} {b : B V} {hs : List Bool} {S : List ℕ}
    {U : List (ℕ → Option V)} {used rs : List ℕ}, Inv v0 inp us b hs S U → OkAll hs cs → (∀ c ∈ cs, c.Flat) → Inv2 us b.vars used rs →
    Inv2 (build v0 cs (us, b)).1 (build v0 cs (us, b)).2.vars (used ++ cs.flatMap Cmd.uses) (rootAll rs cs) := by
  induction cs with
  | nil => intro inp us b hs S U used rs _ _ _ h; simpa [build, rootAll] using h
  | cons c cs ih =>
    intro inp us b hs S U used rs hi hok hfl h2
    have h3 := run_left hi c hok.1 (hfl c (by simp)) h2
    obtain ⟨k, e1, i1, _⟩ := run_spec (fun h => portDen inp h b.vars.length) hi c hok.1 (fun _ => rfl)
    rw [e1] at h3
    have h4 := ih i1 hok.2 (fun c hc => hfl c (by simp [hc])) h3
    have hb : build v0 (c :: cs) (us, b) = build v0 cs (us ++ [k], (c.run v0 us b).2) := by
      show build v0 cs (c.run v0 us b) = _
      rw [← e1]
    rw [hb]
    simpa [rootAll, List.append_assoc] using h4

theorem outDelay_wf (cut : V → V) (n : ℕ) : ∀ (b : B V) (k s : ℕ), Wf v0 b.vars → k < b.vars.length → stg b.vars k = some s →
    Wf v0 (outDelay v0 cut n k b).2.vars ∧ stg (outDelay v0 cut n k b).2.vars (outDelay v0 cut n k b).1 = some (s + n) := by
  induction n with
  | zero => intro b k s hw hk hs; exact ⟨hw, hs⟩
  | succ n ih =>
    intro b k s hw hk hs
    obtain ⟨w1, p1, r1, _⟩ := visitVar_good (v0 := v0) (inp := fun _ => ⟨fun _ => v0, fun _ => true⟩) hk hs b hw List.prefix_rfl
    obtain ⟨e1, w2, p2, l2, s2, _⟩ := addStage_spec w1 r1 cut
    obtain ⟨i1, i2⟩ := ih ((visitVar k b).2.addStage v0 (visitVar k b).1 cut).2 b.vars.length (s + 1) w2
      (by rw [l2]; exact Nat.lt_succ_self _) s2
    refine ⟨i1, ?_⟩
    rw [show s + (n + 1) = s + 1 + n by omega]
    exact i2

/-- The registers inserted for outputs: each has one behind it or is on the last stage. -/
theorem outputs_left (cut : V → V) (ks : List ℕ) : ∀ b : B V, Wf v0 b.vars →
    (∀ k ∈ ks, k < b.vars.length ∧ ∃ s, stg b.vars k = some s ∧ s ≤ b.maxStage) →
    Wf v0 (outputs v0 cut ks b).2.vars ∧ b.vars <+: (outputs v0 cut ks b).2.vars ∧
    (∀ j < (outputs v0 cut ks b).2.vars.length, b.vars.length ≤ j →
      Sink (outputs v0 cut ks b).2.vars j ∨ stg (outputs v0 cut ks b).2.vars j = some b.maxStage) ∧
    (∀ j < (outputs v0 cut ks b).2.vars.length, b.vars.length ≤ j → ∃ n ≤ b.maxStage, stg (outputs v0 cut ks b).2.vars j = some n) ∧
    ∀ k ∈ ks, ∀ s < b.maxStage, stg b.vars k = some s →
      Sink (outputs v0 cut ks b).2.vars (rootOf (outputs v0 cut ks b).2.vars k) := by
  induction ks with
  | nil =>
    intro b hw _
    exact ⟨hw, List.prefix_rfl, fun j h1 h2 => absurd h1 (by simp only [outputs]; omega),
      fun j h1 h2 => absurd h1 (by simp only [outputs]; omega), fun k hk => by cases hk⟩
  | cons k0 ks ih =>
    intro b hw hks
    obtain ⟨hk, s, hs, hle⟩ := hks k0 (by simp)
    have hst : b.stage k0 = some s := hs
    have hmk : makeOutput v0 cut k0 b = outDelay v0 cut (b.maxStage - s) k0 b := by rw [makeOutput, hst]
    obtain ⟨d1, d2⟩ := outDelay_wf (v0 := v0) cut (b.maxStage - s) b k0 s hw hk hs
    have dm := outDelay_max (v0 := v0) cut (b.maxStage - s) b k0 s hs (by omega)
    have dL := outDelay_left (v0 := v0) cut (b.maxStage - s) k0 b hk
    rw [← hmk] at d1 d2 dm dL
    rw [show s + (b.maxStage - s) = b.maxStage by omega] at d2
    obtain ⟨i1, i2, i3, i4, i5⟩ := ih (makeOutput v0 cut k0 b).2 d1 (by
      intro k hkm
      obtain ⟨a1, s', a2, a3⟩ := hks k (by simp [hkm])
      exact ⟨Nat.lt_of_lt_of_le a1 dL.pre.length_le, s', by rw [stg_ext dL.pre a1]; exact a2, by rw [dm]; exact a3⟩)
    rw [dm] at i3 i4 i5
    have hlast : (makeOutput v0 cut k0 b).1 < (makeOutput v0 cut k0 b).2.vars.length := dL.lt _ (by simp)
    -- stages of the chain
    have hchain : ∀ j < (makeOutput v0 cut k0 b).2.vars.length, b.vars.length ≤ j →
        ∃ n ≤ b.maxStage, stg (makeOutput v0 cut k0 b).2.vars j = some n := by
      have gen : ∀ (n : ℕ) (b' : B V) (k s : ℕ), k < b'.vars.length → stg b'.vars k = some s →
          ∀ j < (outDelay v0 cut n k b').2.vars.length, b'.vars.length ≤ j →
            ∃ m ≤ s + n, stg (outDelay v0 cut n k b').2.vars j = some m := by
        intro n
        induction n with
        | zero => intro b' k s _ _ j h1 h2; exact absurd h1 (by simp only [outDelay]; omega)
        | succ n ihn =>
          intro b' k s hk hs j h1 h2
          have hstk : stg ((visitVar k b').2.addStage v0 (visitVar k b').1 cut).2.vars b'.vars.length = some (s + 1) := by
            show stg (b'.vars ++ [_]) b'.vars.length = _
            simp only [stg, List.getElem?_concat_length, Option.bind_some]
            show (b'.stage k).map (· + 1) = _
            have : b'.stage k = some s := hs
            rw [this]
            rfl
          have hlen : ((visitVar k b').2.addStage v0 (visitVar k b').1 cut).2.vars.length = b'.vars.length + 1 := by
            rw [addStage_vars]; simp [B.addReg, B.add, visitVar]
          have h1' : j < (outDelay v0 cut n b'.vars.length ((visitVar k b').2.addStage v0 (visitVar k b').1 cut).2).2.vars.length := h1
          show ∃ m ≤ s + (n + 1), stg (outDelay v0 cut n b'.vars.length ((visitVar k b').2.addStage v0 (visitVar k b').1 cut).2).2.vars j = some m
          have hr := ihn ((visitVar k b').2.addStage v0 (visitVar k b').1 cut).2 b'.vars.length (s + 1) (by omega) hstk j h1'
          by_cases hj : b'.vars.length + 1 ≤ j
          · obtain ⟨m, hm, hm'⟩ := hr (by omega)
            exact ⟨m, by omega, hm'⟩
          · obtain rfl : j = b'.vars.length := by omega
            have hpre := (outDelay_left (v0 := v0) cut n b'.vars.length ((visitVar k b').2.addStage v0 (visitVar k b').1 cut).2 (by omega)).pre
            exact ⟨s + 1, by omega, by rw [stg_ext hpre (by omega)]; exact hstk⟩
      intro j h1 h2
      rw [hmk] at h1 ⊢
      obtain ⟨m, hm, hm'⟩ := gen (b.maxStage - s) b k0 s hk hs j h1 h2
      exact ⟨m, by omega, hm'⟩
    refine ⟨i1, dL.pre.trans i2, ?_, ?_, ?_⟩
    · intro j hj hle'
      by_cases hj' : (makeOutput v0 cut k0 b).2.vars.length ≤ j
      · exact i3 j hj hj'
      · obtain ⟨n1, n2⟩ := dL.new j (by omega) hle'
        rcases n2 with n2 | n2
        · exact .inl (n2.mono i2)
        · rw [List.mem_singleton] at n2
          right
          show stg (outputs v0 cut ks (makeOutput v0 cut k0 b).2).2.vars j = _
          rw [stg_ext i2 (by omega), n2]
          exact d2
    · intro j hj hle'
      by_cases hj' : (makeOutput v0 cut k0 b).2.vars.length ≤ j
      · exact i4 j hj hj'
      · obtain ⟨n, h1, h2⟩ := hchain j (by omega) hle'
        refine ⟨n, h1, ?_⟩
        show stg (outputs v0 cut ks (makeOutput v0 cut k0 b).2).2.vars j = _
        rw [stg_ext i2 (by omega)]
        exact h2
    · intro k hkm s' hs' hsk
      rw [List.mem_cons] at hkm
      rcases hkm with rfl | hkm
      · show Sink (outputs v0 cut ks (makeOutput v0 cut k b).2).2.vars (rootOf (outputs v0 cut ks (makeOutput v0 cut k b).2).2.vars k)
        rw [rootOf_ext i2 (Nat.lt_of_lt_of_le hk dL.pre.length_le)]
        rcases dL.old k (by simp) with h | h
        · exact h.mono i2
        · -- the last register is not `k`: their stages differ
          exfalso
          rw [List.mem_singleton] at h
          rw [← h, stg_ext dL.pre hk, hsk, Option.some.injEq] at d2
          omega
      · obtain ⟨a1, _⟩ := hks k (by simp [hkm])
        exact i5 k hkm s' hs' (by rw [stg_ext dL.pre a1]; exact hsk)

/-- Programs without nested expressions leave no register over: if every variable that is not on the last stage is computed with or
    an output (for `prev`, one of the variables with the same tokens). -/
theorem noOrphan_flat (cut : V → V) (cs : List (Cmd V)) (hok : OkAll [] cs) (hacc : ∀ f init e, Cmd.acc f init e ∉ cs)
    (hfl : ∀ c ∈ cs, c.Flat) (os : List ℕ) (hos : ∀ i ∈ os, i < cs.length)
    (hcov : ∀ i n : ℕ, (latAll [] cs)[i]? = some n → n < (prog v0 cs).2.maxStage →
      ∃ i' : ℕ, (rootAll [] cs)[i']? = (rootAll [] cs)[i]? ∧ i' < cs.length ∧ (i' ∈ cs.flatMap Cmd.uses ∨ i' ∈ os)) :
    Wf v0 (outputs v0 cut (os.map (look (prog v0 cs).1)) (prog v0 cs).2).2.vars ∧
    NoOrphan (outputs v0 cut (os.map (look (prog v0 cs).1)) (prog v0 cs).2).2.vars (prog v0 cs).2.maxStage := by
  obtain ⟨hi, hm⟩ := prog_inv (v0 := v0) (inp := fun _ => ⟨fun _ => v0, fun _ => false⟩) cs hok
  have hm := hm hacc
  have hl := length_prog (v0 := v0) cs hok
  have h0 : Inv v0 (fun _ => ⟨fun _ => v0, fun _ => false⟩) [] (B.empty : B V) [] [] [] := by
    refine ⟨?_, rfl, rfl, rfl, ?_, ?_, ?_, ?_⟩
    · intro k v hk; simp [B.empty] at hk
    all_goals intro i hi; simp at hi
  have h2 : Inv2 (prog v0 cs).1 (prog v0 cs).2.vars (cs.flatMap Cmd.uses) (rootAll [] cs) := by
    have := build_left cs (used := []) (rs := []) h0 hok hfl ⟨by
      intro j f srcs hj; simp [B.empty, kindAt] at hj, by simp, rfl, by simp⟩
    rw [List.nil_append] at this
    exact this
  obtain ⟨w, p, o1, o2, o3⟩ := outputs_left (v0 := v0) cut (os.map (look (prog v0 cs).1)) (prog v0 cs).2 hi.wf (by
    intro k hk
    obtain ⟨i, him, rfl⟩ := List.mem_map.1 hk
    have hlt : i < (prog v0 cs).1.length := by rw [hl]; exact hos i him
    exact ⟨hi.lt i hlt, _, hi.st i hlt, hm _ _ (hi.st i hlt)⟩)
  refine ⟨w, ?_⟩
  generalize hvars : (outputs v0 cut (os.map (look (prog v0 cs).1)) (prog v0 cs).2).2.vars = vars at *
  intro j v f srcs hv hk
  have hjl : j < vars.length := (List.getElem?_eq_some_iff.1 hv).1
  have hstj : stg vars j = v.stage := by simp [stg, hv]
  have toUse : Sink vars j → ∃ (s : ℕ) (w : PVar V) (g : (ℕ → V) → V → V) (srcs' : List ℕ), vars[s]? = some w ∧ w.kind = .reg g srcs' ∧
        ∃ x ∈ srcs', rootOf vars x = j := by
    rintro ⟨s, w, g, ss, h1, h2, x, h3, _, h4⟩
    exact ⟨s, w, g, ss, h1, h2, x, h3, h4⟩
  by_cases hold : j < (prog v0 cs).2.vars.length
  · have hkj : kindAt (prog v0 cs).2.vars j = some (.reg f srcs) := by
      rw [← kindAt_ext p hold]; simp [kindAt, hv, hk]
    obtain ⟨n, hn⟩ := Option.ne_none_iff_exists'.1 (hi.wf.stage_ne hold)
    have hn' : v.stage = some n := by rw [← hstj, stg_ext p hold]; exact hn
    refine ⟨n, hn', hm j n hn, fun hlt => toUse ?_⟩
    rcases h2.reg j f srcs hkj with h | ⟨i, hil, h⟩
    · exact h.mono p
    · have hstage : ∀ i < (prog v0 cs).1.length, stg (prog v0 cs).2.vars (rootOf (prog v0 cs).2.vars (look (prog v0 cs).1 i)) =
          some ((latAll [] cs).getD i 0) := by
        intro i hil
        have := (srcOf_root hi.wf _ _ (Nat.lt_succ_self _) (hi.lt i hil)).2.1
        rw [this]
        exact hi.st i hil
      have hgi : (latAll [] cs)[i]? = some n := by
        have h1 := hstage i hil
        rw [h, hn, Option.some.injEq] at h1
        rw [h1, List.getD_eq_getElem?_getD]
        have : i < (latAll [] cs).length := by rw [hi.len3]; exact hil
        rw [List.getElem?_eq_getElem this]
        rfl
      obtain ⟨i', hr, hi', hc⟩ := hcov i n hgi hlt
      have hi'l : i' < (prog v0 cs).1.length := by rw [hl]; exact hi'
      have hrr : rootOf (prog v0 cs).2.vars (look (prog v0 cs).1 i') = j := by
        have a1 := (h2.root i' hi'l).2
        have a2 := (h2.root i hil).2
        have e : (rootAll [] cs).getD i' 0 = (rootAll [] cs).getD i 0 := by
          rw [List.getD_eq_getElem?_getD, List.getD_eq_getElem?_getD, hr]
        rw [e] at a1
        rw [a1, ← a2, h]
      rcases hc with hc | hc
      · have := (h2.used i' hc).2
        rw [hrr] at this
        exact this.mono p
      · have hs' : stg (prog v0 cs).2.vars (look (prog v0 cs).1 i') = some n := by
          have := (srcOf_root hi.wf _ _ (Nat.lt_succ_self _) (hi.lt i' hi'l)).2.1
          rw [hrr, hn] at this
          exact this.symm
        have := o3 (look (prog v0 cs).1 i') (List.mem_map_of_mem hc) n hlt hs'
        rw [rootOf_ext p (hi.lt i' hi'l), hrr] at this
        exact this
  · obtain ⟨n, h1, h2'⟩ := o2 j hjl (by omega)
    refine ⟨n, by rw [← hstj]; exact h2', h1, fun hlt => toUse ?_⟩
    rcases o1 j hjl (by omega) with h | h
    · exact h
    · rw [h2', Option.some.injEq] at h
      omega

/-! ## Theorems -/

/-- Lockstep of a pipeline without registers left over. -/
theorem lockstep {vars : List (PVar V)} (hw : Wf v0 vars) {D : ℕ} (hD : NoOrphan vars D) {s0 : V} (r : Run (toNet v0 vars) v0 s0)
    (hvalid : ∀ t i i', (r.inp t).vvalid i = (r.inp t).vvalid i')
    (hlast : ∀ t (j j' : ℕ), stg vars j = some D → stg vars j' = some D → (r.inp t).oready j = (r.inp t).oready j')
    (hrest : ∀ t (j : ℕ), stg vars j ≠ some D → (r.inp t).oready j = true) : r.Consistent := by
  rcases Nat.eq_zero_or_pos D with rfl | hpos
  · -- no registers at all
    intro t j nd hnd a ha
    exfalso
    obtain ⟨v, f, srcs, hv, hk, _⟩ := toNet_op hnd (List.ne_nil_of_mem ha)
    obtain ⟨n, hn, hle, _⟩ := hD j v f srcs hv hk
    have h := hw j v hv
    unfold VarOk at h
    rw [hk] at h
    obtain ⟨_, _, ⟨m, hm, _⟩, _⟩ := h
    rw [hm, Option.some.injEq] at hn
    omega
  · have key : ∀ j, lev vars (.op j) = D ↔ stg vars j = some D := by
      intro j
      simp only [lev]
      cases stg vars j with
      | none => simp; omega
      | some n => simp
    exact r.c58_lockstep (toNet_ordered hw) (toNet_balanced hw hD) hvalid
      (fun t j j' h h' => hlast t j j' ((key j).1 h) ((key j').1 h')) (fun t j h => hrest t j fun h' => h ((key j).2 h'))

/-- A pipeline with ready: the program, the variables made outputs, and the network of all registers. -/
def readyNet (v0 : V) (cut : V → V) (cs : List (Cmd V)) (os : List ℕ) : List (PVar V) :=
  (outputs v0 cut (os.map (look (prog v0 cs).1)) (prog v0 cs).2).2.vars

/-- Every variable before the last stage is computed with or an output; for `prev`, one of the variables with the same tokens. -/
def Covered (v0 : V) (cs : List (Cmd V)) (os : List ℕ) : Prop :=
  ∀ i n : ℕ, (latAll [] cs)[i]? = some n → n < (prog v0 cs).2.maxStage →
    ∃ i' : ℕ, (rootAll [] cs)[i']? = (rootAll [] cs)[i]? ∧ i' < cs.length ∧ (i' ∈ cs.flatMap Cmd.uses ∨ i' ∈ os)

/-- The conditions on a program: it is well formed, has no accumulator and no nested expressions, and nothing in it is left over. -/
structure Plain (v0 : V) (cs : List (Cmd V)) (os : List ℕ) : Prop where
  ok : OkAll [] cs
  acc : ∀ f init e, Cmd.acc f init e ∉ cs
  flat : ∀ c ∈ cs, c.Flat
  outs : ∀ i ∈ os, i < cs.length
  cov : Covered v0 cs os

/-- **C60, stalls.** With inputs that are valid together and outputs that are ready together, the operands of a register are always
    taken together, whenever the outputs stall. -/
theorem c60_stall (cut : V → V) (cs : List (Cmd V)) (os : List ℕ) (hp : Plain v0 cs os) {s0 : V}
    (r : Run (toNet v0 (readyNet v0 cut cs os)) v0 s0)
    (hvalid : ∀ t i i', (r.inp t).vvalid i = (r.inp t).vvalid i')
    (hlast : ∀ t (j j' : ℕ), stg (readyNet v0 cut cs os) j = some (prog v0 cs).2.maxStage →
      stg (readyNet v0 cut cs os) j' = some (prog v0 cs).2.maxStage → (r.inp t).oready j = (r.inp t).oready j')
    (hrest : ∀ t (j : ℕ), stg (readyNet v0 cut cs os) j ≠ some (prog v0 cs).2.maxStage → (r.inp t).oready j = true) :
    r.Consistent := by
  obtain ⟨h1, h2⟩ := noOrphan_flat (v0 := v0) cut cs hp.ok hp.acc hp.flat os hp.outs hp.cov
  exact lockstep h1 h2 r hvalid hlast hrest

/-- **C60, values.** If operands are always taken together, the `k`-th datum an output delivers is the value the program has for the
    `k`-th data of the inputs. -/
theorem c60_output (cut : V → V) (cs : List (Cmd V)) (os : List ℕ) (hok : OkAll [] cs) (hacc : ∀ f init e, Cmd.acc f init e ∉ cs)
    (hos : ∀ i ∈ os, i < cs.length) {s0 : V}
    (r : Run (toNet v0 (readyNet v0 cut cs os)) v0 s0) (hc : r.Consistent) (vs : ℕ → ℕ → V) (t : ℕ)
    (hvs : ∀ i k v, (r.xfer (.var i) t)[k]? = some v → vs i k = v)
    (hcut : ∀ i ∈ os, ∀ t x, dget (specAll v0 (fun j _ t => some (vs (look (prog v0 cs).1 j) t)) cs []) i t = some x → cut x = x)
    (j i o : ℕ) (hj : os[j]? = some i)
    (ho : (outputs v0 cut (os.map (look (prog v0 cs).1)) (prog v0 cs).2).1[j]? = some o)
    (f : (ℕ → V) → V → V) (srcs : List ℕ) (hreg : kindAt (readyNet v0 cut cs os) o = some (.reg f srcs)) (k : ℕ) (v : V)
    (hv : (r.xfer (.op o) t)[k]? = some v) :
    dget (specAll v0 (fun j _ t => some (vs (look (prog v0 cs).1 j) t)) cs []) i k = some v := by
  obtain ⟨hinv, hm⟩ := prog_inv (v0 := v0) (inp := total vs) cs hok
  have hm := hm hacc
  have hl := length_prog (v0 := v0) cs hok
  have hports : portOf (total vs) (prog v0 cs).1 = fun j _ t => some (vs (look (prog v0 cs).1 j) t) := by
    funext j h t
    simp [portOf, total]
  rw [hports] at hinv
  have hos' : ∀ i ∈ os, i < (prog v0 cs).1.length := fun i h => by rw [hl]; exact hos i h
  obtain ⟨w, p, _, _, h5⟩ := outputs_spec (v0 := v0) (inp := total vs) cut (os.map (look (prog v0 cs).1)) (prog v0 cs).2 hinv.wf (by
    intro k hk
    obtain ⟨i, him, rfl⟩ := List.mem_map.1 hk
    refine ⟨hinv.lt i (hos' i him), ⟨_, hinv.st i (hos' i him), hm _ _ (hinv.st i (hos' i him))⟩, ?_⟩
    intro t x hx
    rw [hinv.den i (hos' i him)] at hx
    exact hcut i him t x hx)
  have him : i ∈ os := List.mem_of_getElem? hj
  obtain ⟨q1, _, _, q4⟩ := h5 j (look (prog v0 cs).1 i) o (by rw [List.getElem?_map, hj]; rfl) ho
  rw [← hinv.den i (hos' i him), ← q4, den_toNet w vs _ q1 _ (Nat.lt_succ_self _) _ (Nat.lt_succ_self _)]
  have e : srcOf (outputs v0 cut (os.map (look (prog v0 cs).1)) (prog v0 cs).2).2.vars (o + 1) o = (.op o, 0) := by
    have : kindAt (outputs v0 cut (os.map (look (prog v0 cs).1)) (prog v0 cs).2).2.vars o = some (.reg f srcs) := hreg
    simp [srcOf, this]
  rw [e]
  simp only [Nat.zero_le, if_true, Nat.sub_zero]
  have hg := List.getElem?_eq_getElem q1
  have hk : ((outputs v0 cut (os.map (look (prog v0 cs).1)) (prog v0 cs).2).2.vars[o]).kind = .reg f srcs := by
    have : kindAt (outputs v0 cut (os.map (look (prog v0 cs).1)) (prog v0 cs).2).2.vars o = some (.reg f srcs) := hreg
    simpa [kindAt, hg] using this
  exact congrArg some (r.c58_stream (toNet_ordered w) hc t vs hvs _ _ (Nat.lt_succ_self _) _ (toNet_reg hg hk) k v hv)

/-- **C60, values of all registers.** The same for a variable that is a register of any stage, accumulators included. -/
theorem c60_tokens (cs : List (Cmd V)) (hok : OkAll [] cs) {s0 : V} (r : Run (toNet v0 (prog v0 cs).2.vars) v0 s0)
    (hc : r.Consistent) (vs : ℕ → ℕ → V) (t : ℕ) (hvs : ∀ i k v, (r.xfer (.var i) t)[k]? = some v → vs i k = v)
    (i : ℕ) (hi : i < cs.length) (f : (ℕ → V) → V → V) (srcs : List ℕ)
    (hreg : kindAt (prog v0 cs).2.vars (look (prog v0 cs).1 i) = some (.reg f srcs)) (k : ℕ) (v : V)
    (hv : (r.xfer (.op (look (prog v0 cs).1 i)) t)[k]? = some v) :
    dget (specAll v0 (fun j _ t => some (vs (look (prog v0 cs).1 j) t)) cs []) i k = some v := by
  obtain ⟨hinv, _⟩ := prog_inv (v0 := v0) (inp := total vs) cs hok
  have hl := length_prog (v0 := v0) cs hok
  have hlt := hinv.lt i (by omega)
  have hports : portOf (total vs) (prog v0 cs).1 = fun j _ t => some (vs (look (prog v0 cs).1 j) t) := by
    funext j h t
    simp [portOf, total]
  have hd := hinv.den i (by omega)
  rw [hports] at hd
  rw [← hd, den_toNet hinv.wf vs _ hlt _ (Nat.lt_succ_self _) _ (Nat.lt_succ_self _)]
  have e : srcOf (prog v0 cs).2.vars (look (prog v0 cs).1 i + 1) (look (prog v0 cs).1 i) = (.op (look (prog v0 cs).1 i), 0) := by
    simp [srcOf, hreg]
  rw [e]
  simp only [Nat.zero_le, if_true, Nat.sub_zero]
  have hg := List.getElem?_eq_getElem hlt
  have hk : ((prog v0 cs).2.vars[look (prog v0 cs).1 i]).kind = .reg f srcs := by simpa [kindAt, hg] using hreg
  rw [r.c58_stream (toNet_ordered hinv.wf) hc t vs hvs _ _ (Nat.lt_succ_self _) _ (toNet_reg hg hk) k v hv]

/-- **C60, throughput.** If the outputs are always ready, nothing stalls: a register of stage `n` is valid exactly `n` cycles after
    the inputs were, and every datum of an input is taken in the cycle in which it is offered. -/
theorem c60_free (cut : V → V) (cs : List (Cmd V)) (os : List ℕ) (hp : Plain v0 cs os) {s0 : V}
    (r : Run (toNet v0 (readyNet v0 cut cs os)) v0 s0)
    (hvalid : ∀ t i i', (r.inp t).vvalid i = (r.inp t).vvalid i')
    (hready : ∀ t j, (r.inp t).oready j = true) :
    (∀ (t j n : ℕ) (f : (ℕ → V) → V → V) (srcs : List ℕ), kindAt (readyNet v0 cut cs os) j = some (.reg f srcs) → srcs ≠ [] →
      stg (readyNet v0 cut cs os) j = some n → ∀ i,
      r.valid (t + n) (.op j) = (r.inp t).vvalid i ∧ (r.valid t (.op j) = true → r.ready t (.op j) = true)) ∧
    ∀ t i, r.valid t (.var i) = true → r.ready t (.var i) = true := by
  obtain ⟨hw, hD⟩ := noOrphan_flat (v0 := v0) cut cs hp.ok hp.acc hp.flat os hp.outs hp.cov
  change Wf v0 (readyNet v0 cut cs os) at hw
  change NoOrphan (readyNet v0 cut cs os) _ at hD
  generalize readyNet v0 cut cs os = vars at *
  have hb := toNet_balanced hw hD
  have hor := toNet_ordered hw
  have hlat := fun t j nd hnd i => r.c58_latency hor hb hvalid hready t j nd hnd i
  refine ⟨?_, ?_⟩
  · intro t j n f srcs hk hne hn i
    obtain ⟨v, hv, hvk⟩ : ∃ v, vars[j]? = some v ∧ v.kind = .reg f srcs := by
      cases hg : vars[j]? with
      | none => simp [kindAt, hg] at hk
      | some v => exact ⟨v, rfl, by simpa [kindAt, hg] using hk⟩
    have h := hlat t j _ ⟨toNet_reg hv hvk, by simpa using hne⟩ i
    simpa only [lev, hn, Option.getD_some] using h
  · intro t i hv
    refine (Dataflow.ready_iff hor (r.st t) (r.inp t) (.var i)).2 ⟨(by intro k hk; cases hk), fun s nd hs hu => ?_⟩
    obtain ⟨a, ha, hax⟩ := hu
    have hop : Run.OpAt (toNet v0 vars) s nd := ⟨hs, List.ne_nil_of_mem ha⟩
    have h1 := (hb.ins s nd hop).2
    refine ⟨?_, ?_⟩
    · have := (hlat t s nd hop 0).2
      show (r.ready t (.op s) || !r.valid t (.op s)) = true
      cases hvs : r.valid t (.op s) with
      | false => simp
      | true => rw [this hvs]; rfl
    · simp only [Dataflow.St.allValid, List.all_eq_true]
      intro b hbm
      have e1 := h1 a ha
      rw [hax, hb.var] at e1
      have e2 := h1 b hbm
      cases hbs : b.1 with
      | var i' =>
        have : r.valid t (.var i') = r.valid t (.var i) := by
          have hx : ∀ i, r.valid t (.var i) = (r.inp t).vvalid i := by
            intro i
            show ((r.st t).val (r.inp t) (.var i)).isSome = _
            simp only [Dataflow.St.val]
            cases (r.inp t).vvalid i <;> rfl
          rw [hx, hx, hvalid]
        show r.valid t (.var i') = true
        rw [this]; exact hv
      | op k =>
        exfalso
        rw [hbs] at e2
        have hks := hor s nd hs b hbm k hbs
        have hsl : s < (toNet v0 vars).length := (List.getElem?_eq_some_iff.1 hs).1
        have hkg := List.getElem?_eq_getElem (Nat.lt_trans hks hsl)
        by_cases hin : ((toNet v0 vars)[k]'(Nat.lt_trans hks hsl)).ins = []
        · exact hb.idle k _ hkg hin s ⟨nd, hs, b, hbm, hbs⟩
        · obtain ⟨c, hc⟩ := List.exists_mem_of_ne_nil _ hin
          have := (hb.ins k _ ⟨hkg, hin⟩).2 c hc
          omega

/-! ## Cases -/

/-- `a = p(x + 1)`, `b = p(a * y)`, `c = p(b + y)`. -/
def exFlat : List (Cmd ℕ) :=
  [.input true, .input true, .stage (.bin (· + ·) (.var 0) (.const 1)), .stage (.bin (· * ·) (.var 2) (.var 1)),
   .stage (.bin (· + ·) (.var 3) (.var 1))]

theorem exFlat_plain : Plain 0 exFlat [4, 2] := by
  refine ⟨?_, ?_, ?_, by decide, ?_⟩
  · refine ⟨trivial, trivial, ⟨?_, by decide, by decide⟩, ⟨?_, by decide, by decide⟩, ⟨?_, by decide, by decide⟩, trivial⟩
    all_goals
      intro i; match i with
      | 0 => trivial
      | 1 => trivial
  · intro f init e h
    simp [exFlat] at h
  · intro c hc
    simp only [exFlat, List.mem_cons, List.not_mem_nil, or_false] at hc
    rcases hc with rfl | rfl | rfl | rfl | rfl
    · trivial
    · trivial
    · intro i; match i with
      | 0 => exact .inl ⟨0, rfl⟩
      | 1 => exact .inr ⟨1, rfl⟩
    · intro i; match i with
      | 0 => exact .inl ⟨2, rfl⟩
      | 1 => exact .inl ⟨1, rfl⟩
    · intro i; match i with
      | 0 => exact .inl ⟨3, rfl⟩
      | 1 => exact .inl ⟨1, rfl⟩
  · intro i n hi hn
    have hm : (prog 0 exFlat).2.maxStage = 3 := by decide +kernel
    rw [hm] at hn
    match i, hi with
    | 0, _ => exact ⟨0, rfl, by decide, .inl (by decide)⟩
    | 1, _ => exact ⟨1, rfl, by decide, .inl (by decide)⟩
    | 2, _ => exact ⟨2, rfl, by decide, .inl (by decide)⟩
    | 3, _ => exact ⟨3, rfl, by decide, .inl (by decide)⟩
    | 4, h =>
      have e : (latAll [] exFlat)[4]? = some 3 := by decide
      rw [e, Option.some.injEq] at h
      omega
    | i + 5, h => cases h

-- the outputs `c` and `a`, the second two registers later than `a`; all registers of stage 3
example : (outputs 0 id ([4, 2].map (look (prog 0 exFlat).1)) (prog 0 exFlat).2).1 = [7, 9] ∧
    (List.range 10).map (stg (readyNet 0 id exFlat [4, 2])) = [0, 0, 1, 1, 2, 1, 2, 3, 2, 3].map some := by decide +kernel

/-- Both inputs have a datum in every cycle; the outputs are ready in even cycles. -/
def exFlatRun : Run (toNet 0 (readyNet 0 id exFlat [4, 2])) 0 0 :=
  Run.of _ 0 0 fun t => ⟨fun i => if i = 0 then t else 10 * t + 10, fun _ => true, fun j => j != 7 && j != 9 || t % 2 == 0⟩

-- the hypotheses of `c60_stall` hold for it
example : exFlatRun.Consistent := by
  have hst : ∀ j, stg (readyNet 0 id exFlat [4, 2]) j = some 3 ↔ j = 7 ∨ j = 9 := by
    intro j
    by_cases hj : j < 10
    · revert j
      decide +kernel
    · have hl : (readyNet 0 id exFlat [4, 2]).length = 10 := by decide +kernel
      simp [stg, List.getElem?_eq_none (show (readyNet 0 id exFlat [4, 2]).length ≤ j by omega)]
      omega
  have hm : (prog 0 exFlat).2.maxStage = 3 := by decide +kernel
  refine c60_stall id exFlat [4, 2] exFlat_plain exFlatRun (fun _ _ _ => rfl) ?_ ?_
  · intro t j j' h h'
    rw [hm, hst] at h h'
    rcases h with rfl | rfl <;> rcases h' with rfl | rfl <;> rfl
  · intro t j h
    rw [hm, Ne, hst] at h
    simp [exFlatRun, Run.of]
    omega

-- the first datum of both outputs
example : dget (specAll 0 (fun j _ t => some (if j = 0 then t else 10 * t + 10)) exFlat []) 4 0 = some ((0 + 1) * 10 + 10) ∧
    exFlatRun.data 3 (.op 7) = 20 ∧ exFlatRun.valid 3 (.op 7) = true ∧ exFlatRun.data 3 (.op 9) = 1 := by decide +kernel

/-- A nested expression: `a = p(x)`, `b = p(a)`, `c = p(b)`, `z = p(c + (b + (a + y)))`. -/
def exNested : List (Cmd ℕ) :=
  [.input true, .input true, .stage (.var 0), .stage (.var 2), .stage (.var 3),
   .stage (.bin (· + ·) (.var 4) (.bin (· + ·) (.var 3) (.bin (· + ·) (.var 2) (.var 1))))]

/-- The inputs have a datum in every cycle; the output, register 12, is ready in all cycles but 4; all other `ready` wires are 1
    (pipeline.py:368-370). -/
def exNestedIn (t : ℕ) : Dataflow.In ℕ := ⟨fun i => if i = 0 then t else 1000 * t, fun _ => true, fun j => j != 12 || t != 4⟩

/-- The registers in cycles 0 to 10. -/
def exNestedTab : List (List (ℕ × Option ℕ)) :=
  [[(0, none), (0, none), (0, none), (0, none), (0, none), (0, none), (0, none), (0, none), (0, none), (0, none), (0, none),
    (0, none), (0, none)],
   [(0, some 0), (0, some 0), (0, some 0), (0, none), (0, none), (0, some 0), (0, some 0), (0, none), (0, some 0), (0, some
    0), (0, none), (0, none), (0, none)],
   [(0, some 0), (0, some 0), (1, some 1), (0, some 0), (0, none), (1000, some 1000), (1000, some 1000), (0, some 0), (1000,
    some 1000), (1000, some 1000), (0, some 0), (0, none), (0, none)],
   [(0, some 0), (0, some 0), (2, some 2), (1, some 1), (0, some 0), (2000, some 2000), (2000, some 2000), (1001, some 1001),
    (2000, some 2000), (2000, some 2000), (1001, some 1001), (0, some 0), (0, none)],
   [(0, some 0), (0, some 0), (3, some 3), (2, some 2), (1, some 1), (3000, some 3000), (3000, some 3000), (2002, some 2002),
    (3000, some 3000), (3000, some 3000), (2002, some 2002), (1002, some 1002), (0, some 0)],
   [(0, some 0), (0, some 0), (3, some 3), (2, some 2), (1, some 1), (3000, none), (3000, none), (2002, none), (3000, none),
    (3000, some 3000), (2002, some 2002), (1002, some 1002), (0, some 0)],
   [(0, some 0), (0, some 0), (3, some 3), (2, none), (2, some 2), (5000, some 5000), (5000, some 5000), (2002, none), (5000,
    some 5000), (5000, some 5000), (2002, none), (2004, some 2004), (1003, some 1003)],
   [(0, some 0), (0, some 0), (6, some 6), (3, some 3), (2, none), (6000, some 6000), (6000, some 6000), (5003, some 5003),
    (6000, some 6000), (6000, some 6000), (5003, some 5003), (2004, none), (2006, some 2006)],
   [(0, some 0), (0, some 0), (7, some 7), (6, some 6), (3, some 3), (7000, some 7000), (7000, some 7000), (6006, some 6006),
    (7000, some 7000), (7000, some 7000), (6006, some 6006), (5006, some 5006), (2006, none)],
   [(0, some 0), (0, some 0), (8, some 8), (7, some 7), (6, some 6), (8000, some 8000), (8000, some 8000), (7007, some 7007),
    (8000, some 8000), (8000, some 8000), (7007, some 7007), (6012, some 6012), (5009, some 5009)],
   [(0, some 0), (0, some 0), (9, some 9), (8, some 8), (7, some 7), (9000, some 9000), (9000, some 9000), (8008, some 8008),
    (9000, some 9000), (9000, some 9000), (8008, some 8008), (7014, some 7014), (6018, some 6018)]]

/-- **C60, negation: nested expressions.** Visiting an operand twice leaves registers over (here 5, 7 and 8) that are always ready.
    After one cycle in which the output is not ready, the fourth datum of the output is computed from the fourth datum of `x` and the
    fifth datum of `y`; the fourth datum of `y`, 3000, was accepted and is lost. -/
theorem c60_not_nested : OkAll [] exNested ∧ (∀ f init e, Cmd.acc f init e ∉ exNested) ∧ Covered 0 exNested [5] ∧
    (outputs 0 id ([5].map (look (prog 0 exNested).1)) (prog 0 exNested).2).1 = [12] ∧
    ∃ r : Run (toNet 0 (readyNet 0 id exNested [5])) 0 0,
      (∀ t i, (r.inp t).vvalid i = true) ∧ (∀ t j, j ≠ 12 → (r.inp t).oready j = true) ∧
      r.xfer (.var 0) 9 = [0, 1, 2, 3, 6, 7, 8] ∧
      r.xfer (.var 1) 9 = [0, 1000, 2000, 3000, 5000, 6000, 7000, 8000] ∧
      r.xfer (.op 12) 10 = [0, 1003, 2006, 5009] ∧
      ∀ vs : ℕ → ℕ → ℕ, (∀ i k v, (r.xfer (.var i) 9)[k]? = some v → vs i k = v) →
        dget (specAll 0 (fun j _ t => some (vs (look (prog 0 exNested).1 j) t)) exNested []) 5 3 = some 3009 := by
  have hok : OkAll [] exNested := by
    refine ⟨trivial, trivial, ⟨trivial, by decide, by decide⟩, ⟨trivial, by decide, by decide⟩, ⟨trivial, by decide, by decide⟩,
      ⟨?_, by decide, by decide⟩, trivial⟩
    intro i; match i with
    | 0 => trivial
    | 1 =>
      intro i; match i with
      | 0 => trivial
      | 1 =>
        intro i; match i with
        | 0 => trivial
        | 1 => trivial
  have hacc : ∀ f init e, Cmd.acc f init e ∉ exNested := by
    intro f init e h
    simp [exNested] at h
  have hw : Wf 0 (readyNet 0 id exNested [5]) := by
    obtain ⟨hi, hm⟩ := prog_inv (v0 := 0) (inp := fun _ => ⟨fun _ => 0, fun _ => false⟩) exNested hok
    refine (outputs_left (v0 := 0) id ([5].map (look (prog 0 exNested).1)) (prog 0 exNested).2 hi.wf ?_).1
    intro k hk
    have hl := length_prog (v0 := 0) exNested hok
    obtain ⟨i, him, rfl⟩ := List.mem_map.1 hk
    have hlt : i < (prog 0 exNested).1.length := by
      rw [hl]
      rw [List.mem_singleton] at him
      subst him
      decide
    exact ⟨hi.lt i hlt, _, hi.st i hlt, hm hacc _ _ (hi.st i hlt)⟩
  have hins : (toNet 0 (readyNet 0 id exNested [5])).map (fun nd => (nd.lat, nd.ins.map (·.2))) =
      [(0, []), (0, []), (0, [0]), (0, [0]), (0, [0]), (0, [0]), (0, [0]), (0, [0, 0]), (0, [0]), (0, [0]), (0, [0, 0]), (0, [0, 0]),
        (0, [0, 0])] := by
    decide +kernel
  have hs : Dataflow.Simple (toNet 0 (readyNet 0 id exNested [5])) := by
    have key : ∀ (j : ℕ) nd, (toNet 0 (readyNet 0 id exNested [5]))[j]? = some nd → nd.lat = 0 ∧ ∀ d ∈ nd.ins.map (·.2), d = 0 := by
      intro j nd hj
      have h := congrArg (·[j]?) hins
      simp only [List.getElem?_map, hj, Option.map_some] at h
      have hm := List.mem_of_getElem? h.symm
      have hall : ∀ p ∈ [((0 : ℕ), ([] : List ℕ)), (0, []), (0, [0]), (0, [0]), (0, [0]), (0, [0]), (0, [0]), (0, [0, 0]), (0, [0]), (0, [0]),
          (0, [0, 0]), (0, [0, 0]), (0, [0, 0])], p.1 = 0 ∧ ∀ d ∈ p.2, d = 0 := by decide
      exact hall _ hm
    exact ⟨toNet_ordered hw, fun j nd hj => (key j nd hj).1, fun j nd hj a ha => (key j nd hj).2 _ (List.mem_map_of_mem ha)⟩
  have hlen : (toNet 0 (readyNet 0 id exNested [5])).length = 13 := by decide +kernel
  have hT : ∀ t < 10, exNestedTab.getD (t + 1) [] =
      Dataflow.tabNext (toNet 0 (readyNet 0 id exNested [5])) 0 0 (exNestedIn t) (exNestedTab.getD t []) := by
    decide +kernel
  have h0 : exNestedTab.getD 0 [] = Dataflow.tabInit (toNet 0 (readyNet 0 id exNested [5])) := by decide +kernel
  have htab := fun x hx t ht => ((Run.of (toNet 0 (readyNet 0 id exNested [5])) 0 0 exNestedIn).tab hs (fun t => exNestedTab.getD t []) 10 h0 hT
    x hx t ht).2
  have hx0 : (Run.of (toNet 0 (readyNet 0 id exNested [5])) 0 0 exNestedIn).xfer (.var 0) 9 = [0, 1, 2, 3, 6, 7, 8] := by
    rw [htab (.var 0) trivial 9 (by decide)]
    decide +kernel
  have hx1 : (Run.of (toNet 0 (readyNet 0 id exNested [5])) 0 0 exNestedIn).xfer (.var 1) 9 =
      [0, 1000, 2000, 3000, 5000, 6000, 7000, 8000] := by
    rw [htab (.var 1) trivial 9 (by decide)]
    decide +kernel
  refine ⟨hok, hacc, ?_, by decide +kernel, Run.of _ 0 0 exNestedIn, fun _ _ => rfl, ?_, hx0, hx1, ?_, ?_⟩
  · intro i n hi hn
    have hm : (prog 0 exNested).2.maxStage = 4 := by decide +kernel
    rw [hm] at hn
    match i, hi with
    | 0, _ => exact ⟨0, rfl, by decide, .inl (by decide)⟩
    | 1, _ => exact ⟨1, rfl, by decide, .inl (by decide)⟩
    | 2, _ => exact ⟨2, rfl, by decide, .inl (by decide)⟩
    | 3, _ => exact ⟨3, rfl, by decide, .inl (by decide)⟩
    | 4, _ => exact ⟨4, rfl, by decide, .inl (by decide)⟩
    | 5, _ => exact ⟨5, rfl, by decide, .inr (by decide)⟩
    | i + 6, h => cases h
  · intro t j hj
    simp [Run.of, exNestedIn, hj]
  · rw [htab (.op 12) (show 12 < _ by rw [hlen]; decide) 10 (by decide)]
    decide +kernel
  · intro vs hvs
    have e0 := hvs 0 3 3 (by rw [hx0]; rfl)
    have e1 := hvs 1 3 3000 (by rw [hx1]; rfl)
    have hu : (prog 0 exNested).1 = [0, 1, 2, 3, 4, 12] := by decide +kernel
    rw [hu]
    show some (vs 0 3 + (vs 0 3 + (vs 0 3 + vs 1 3))) = _
    rw [e0, e1]

end Pipe
