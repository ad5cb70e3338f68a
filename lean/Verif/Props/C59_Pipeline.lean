import Verif.Model.Pipeline
import Mathlib.Data.List.Forall2
import Mathlib.Data.List.FinRange

/-!
# C59: pipelines without `ready` compute every expression on values of the same cycle
-/

namespace Pipe

variable {V : Type} (v0 : V)

/-! ## Specification: the stream of a variable, by the cycle in which its inputs arrive -/

/-- All values of a list, if there are any. -/
def allSome : List (Option V) → Option (List V)
  | [] => some []
  | o :: os => match o, allSome os with
    | some v, some vs => some (v :: vs)
    | _, _ => none

/-- The value of an expression, if all its variables have one. -/
def PExpr.eval (env : ℕ → Option V) : PExpr V → Option V
  | .var k => env k
  | .const v => some v
  | .un f e => (e.eval env).map f
  | .op _ f args => (allSome (List.ofFn fun i => (args i).eval env)).map f

/-- The variables of an expression. -/
def PExpr.fv : PExpr V → List ℕ
  | .var k => [k]
  | .const _ => []
  | .un _ e => e.fv
  | .op _ _ args => (List.ofFn fun i => (args i).fv).flatten

/-- An expression without unary operators. -/
def PExpr.NoUn : PExpr V → Prop
  | .var _ => True
  | .const _ => True
  | .un _ _ => False
  | .op _ _ args => ∀ i, (args i).NoUn

/-- The values of a stream before cycle `t`. -/
def before (g : ℕ → Option V) (t : ℕ) : List V := (List.range t).filterMap g

/-- What a call of the user stands for, given the streams of the earlier variables and the input of the pipeline that the call
    would declare. -/
def Cmd.spec (port : Bool → ℕ → Option V) (us : List (ℕ → Option V)) : Cmd V → ℕ → Option V
  | .input hv => port hv
  | .stage e => fun t => e.eval fun k => (us.getD k fun _ => none) t
  | .acc f init e =>
    let g := fun t => e.eval fun k => (us.getD k fun _ => none) t
    fun t => (g t).map (f ((before g t).foldl f init))
  | .prev v d =>
    let g := us.getD v fun _ => none
    fun t => if d = 0 then g t else (g t).map fun _ => ((before g t).reverse[d - 1]?).getD v0

/-! ## Networks -/

/-- The stream of a variable in a network, from those before it. -/
def stt (f : (ℕ → V) → V → V) (init : V) (ok : ℕ → Bool) (env : ℕ → ℕ → V) : ℕ → V
  | 0 => init
  | t + 1 => if ok t then f (env t) (stt f init ok env t) else stt f init ok env t

/-- The stream with a number. -/
def dget (ds : List (ℕ → Option V)) (k : ℕ) : ℕ → Option V := ds.getD k fun _ => none

/-- The input port as a stream. -/
def portDen (inp : ℕ → PIn V) (hv : Bool) (k : ℕ) (t : ℕ) : Option V :=
  if !hv || (inp t).valid k then some ((inp t).data k) else none

/-- The stream of a variable. -/
def denOf (inp : ℕ → PIn V) (ds : List (ℕ → Option V)) (v : PVar V) : ℕ → Option V :=
  match v.kind with
  | .input => portDen inp v.hv ds.length
  | .reg f srcs =>
    let ok := fun t => srcs.all fun s => (dget ds s t).isSome
    let env := fun t s => (dget ds s t).getD v0
    fun t => if ok t then some (f (env t) (stt f v.init ok env t)) else none
  | .prev p root =>
    let ok := fun t => (dget ds root t).isSome
    fun t => if ok t then some (stt (fun e _ => e p) v.init ok (fun t s => (dget ds s t).getD v0) t) else none

/-- The streams of a list of variables. -/
def denL (inp : ℕ → PIn V) : List (PVar V) → List (ℕ → Option V) → List (ℕ → Option V)
  | [], ds => ds
  | v :: vs, ds => denL inp vs (ds ++ [denOf v0 inp ds v])

/-- The streams of a network. -/
def dens (inp : ℕ → PIn V) (vars : List (PVar V)) : List (ℕ → Option V) := denL v0 inp vars []

theorem denL_append (inp : ℕ → PIn V) (vs ws : List (PVar V)) (ds : List (ℕ → Option V)) :
    denL v0 inp (vs ++ ws) ds = denL v0 inp ws (denL v0 inp vs ds) := by
  induction vs generalizing ds with
  | nil => rfl
  | cons v vs ih => simp only [List.cons_append, denL, ih]

theorem denL_prefix (inp : ℕ → PIn V) (vs : List (PVar V)) (ds : List (ℕ → Option V)) :
    ∃ es, denL v0 inp vs ds = ds ++ es ∧ es.length = vs.length := by
  induction vs generalizing ds with
  | nil => exact ⟨[], by simp [denL], rfl⟩
  | cons v vs ih =>
    obtain ⟨es, h, hl⟩ := ih (ds ++ [denOf v0 inp ds v])
    exact ⟨denOf v0 inp ds v :: es, by simp [denL, h], by simp [hl]⟩

theorem dens_length (inp : ℕ → PIn V) (vars : List (PVar V)) : (dens v0 inp vars).length = vars.length := by
  obtain ⟨es, h, hl⟩ := denL_prefix v0 inp vars []
  rw [dens, h]
  simp [hl]

theorem dens_snoc (inp : ℕ → PIn V) (vars : List (PVar V)) (v : PVar V) :
    dens v0 inp (vars ++ [v]) = dens v0 inp vars ++ [denOf v0 inp (dens v0 inp vars) v] := by
  simp [dens, denL_append, denL]

theorem dens_ext (inp : ℕ → PIn V) {vars vars' : List (PVar V)} (h : vars <+: vars') (k : ℕ) (hk : k < vars.length) :
    dget (dens v0 inp vars') k = dget (dens v0 inp vars) k := by
  obtain ⟨ws, rfl⟩ := h
  obtain ⟨es, h, _⟩ := denL_prefix v0 inp ws (dens v0 inp vars)
  have : dens v0 inp (vars ++ ws) = dens v0 inp vars ++ es := by rw [dens, denL_append]; exact h
  have hl : k < (dens v0 inp vars).length := by rw [dens_length]; exact hk
  simp only [dget, this, List.getD_eq_getElem?_getD]
  rw [List.getElem?_append_left hl]

/-- A function of the data of the variables that depends only on some of them. -/
def Local {A : Type} (f : (ℕ → V) → A) (srcs : List ℕ) : Prop := ∀ e e', (∀ s ∈ srcs, e s = e' s) → f e = f e'

/-- The stage of a variable. -/
def stg (vars : List (PVar V)) (k : ℕ) : Option ℕ := (vars[k]?).bind (·.stage)

/-- Whether it has a valid. -/
def hvOf (vars : List (PVar V)) (k : ℕ) : Bool := ((vars[k]?).map (·.hv)).getD false

/-- A variable that fits the ones before it. -/
def VarOk (v0 : V) (vars : List (PVar V)) (k : ℕ) (v : PVar V) : Prop :=
  match v.kind with
  | .input => v.stage = some 0
  | .reg f srcs => srcs ≠ [] ∧ (∀ s ∈ srcs, s < k) ∧ (∃ n, v.stage = some (n + 1) ∧ ∀ s ∈ srcs, stg vars s = some n) ∧
      Local f srcs ∧ v.hv = srcs.any (hvOf vars) ∧ (v.hv = false → ∀ e a a', f e a = f e a')
  | .prev p root => p < k ∧ root < k ∧ stg vars p = v.stage ∧ stg vars root = v.stage ∧ v.stage ≠ none ∧ v.hv = true ∧
      hvOf vars root = true ∧ rootOf vars p = root ∧ rootOf vars root = root ∧ v.init = v0

/-- A network all of whose variables fit. -/
def Wf (v0 : V) (vars : List (PVar V)) : Prop := ∀ k v, vars[k]? = some v → VarOk v0 vars k v

/-- A run of the clocked network. -/
structure PRun (vars : List (PVar V)) where
  inp : ℕ → PIn V
  st : ℕ → PSt V
  start : st 0 = PSt.init v0 vars
  step : ∀ t, st (t + 1) = (st t).step vars (inp t)

variable {v0}

/-- What is seen of a variable in a cycle: its data, if it is valid. -/
def PRun.obs {vars : List (PVar V)} (r : PRun v0 vars) (t k : ℕ) : Option V :=
  if (r.st t).valid vars (r.inp t) k then some ((r.st t).sig vars (r.inp t) k) else none

theorem getElem?_dens (inp : ℕ → PIn V) (vars : List (PVar V)) (k : ℕ) (v : PVar V) (hk : vars[k]? = some v) :
    dget (dens v0 inp vars) k = denOf v0 inp (dens v0 inp (vars.take k)) v := by
  have hl : k < vars.length := by rw [List.getElem?_eq_some_iff] at hk; exact hk.1
  have hp : vars.take k ++ [v] <+: vars := by
    have e : vars.take (k + 1) = vars.take k ++ [v] := by rw [List.take_add_one, hk]; rfl
    rw [← e]
    exact List.take_prefix _ _
  have hlen : (vars.take k).length = k := by simp; omega
  rw [dens_ext v0 inp hp k (by simp; omega), dens_snoc]
  have hd : (dens v0 inp (List.take k vars)).length = k := by rw [dens_length, hlen]
  simp only [dget, List.getD_eq_getElem?_getD]
  rw [List.getElem?_append_right (by omega), hd]
  simp

/-- In a network whose variables fit, the variable of stage `n` shows its stream `n` cycles late, and nothing before. -/
theorem net_align {vars : List (PVar V)} (hw : Wf v0 vars) (r : PRun v0 vars) :
    ∀ (k : ℕ) (v : PVar V) (n : ℕ), vars[k]? = some v → v.stage = some n →
      (∀ t, r.obs (t + n) k = dget (dens v0 r.inp vars) k t) ∧ (v.hv = true → ∀ t < n, r.obs t k = none) := by
  intro k
  induction k using Nat.strongRecOn with
  | _ k ih =>
  intro v n hk hn
  have hkl : k < vars.length := by rw [List.getElem?_eq_some_iff] at hk; exact hk.1
  have hok := hw k v hk
  have hlow : ∀ s < k, dget (dens v0 r.inp (vars.take k)) s = dget (dens v0 r.inp vars) s := by
    intro s hs
    exact (dens_ext v0 r.inp (List.take_prefix k vars) s (by simp; omega)).symm
  have hex : ∀ s < k, ∃ w, vars[s]? = some w := fun s hs => ⟨vars[s], List.getElem?_eq_getElem (by omega)⟩
  rw [getElem?_dens r.inp vars k v hk]
  unfold VarOk at hok
  have hkind : kindAt vars k = some v.kind := by simp [kindAt, hk]
  cases hv : v.kind with
  | input =>
    simp only [hv] at hok
    rw [hok] at hn
    cases hn
    refine ⟨fun t => ?_, fun _ t ht => by omega⟩
    have hr : rootOf vars k = k := by simp [rootOf, hkind, hv]
    have hd : (dens v0 r.inp (List.take k vars)).length = k := by rw [dens_length]; simp; omega
    simp only [PRun.obs, PSt.valid, hr, hk, hv, PSt.sig, hkind, denOf, portDen, hd, Nat.add_zero]
  | reg f srcs =>
    simp only [hv] at hok
    obtain ⟨hne, hlt, ⟨m, hm, hst⟩, hloc, hhv, hcomb⟩ := hok
    rw [hm] at hn
    cases hn
    have hr : rootOf vars k = k := by simp [rootOf, hkind, hv]
    have hsrc : ∀ s ∈ srcs, (∀ t, r.obs (t + m) s = dget (dens v0 r.inp vars) s t) ∧
        (hvOf vars s = true → ∀ t < m, r.obs t s = none) := by
      intro s hs
      obtain ⟨w, hwv⟩ := hex s (hlt s hs)
      have h := ih s (hlt s hs) w m hwv (by have := hst s hs; simpa [stg, hwv] using this)
      refine ⟨h.1, fun hh => h.2 ?_⟩
      simpa [hvOf, hwv] using hh
    have hobsV : ∀ t s, (r.obs t s).isSome = (r.st t).valid vars (r.inp t) s := by
      intro t s
      unfold PRun.obs
      split <;> simp_all
    have hok : ∀ t, (srcs.all fun s => (dget (dens v0 r.inp vars) s t).isSome) =
        srcs.all ((r.st (t + m)).valid vars (r.inp (t + m))) := by
      intro t
      rw [Bool.eq_iff_iff, List.all_eq_true, List.all_eq_true]
      refine forall_congr' fun s => forall_congr' fun hs => ?_
      rw [← (hsrc s hs).1 t, hobsV]
    have henv : ∀ t, (srcs.all ((r.st (t + m)).valid vars (r.inp (t + m)))) = true → ∀ a,
        f ((r.st (t + m)).sig vars (r.inp (t + m))) a = f (fun s => (dget (dens v0 r.inp vars) s t).getD v0) a := by
      intro t hall a
      refine congrFun (hloc _ _ fun s hs => ?_) a
      rw [List.all_eq_true] at hall
      rw [← (hsrc s hs).1 t]
      simp [PRun.obs, hall s hs]
    have hval : ∀ t, (r.st (t + 1)).val k = srcs.all ((r.st t).valid vars (r.inp t)) := by
      intro t; rw [r.step]; simp only [PSt.step, hkind, hv]
    have hdat : ∀ t, (r.st (t + 1)).data k = if srcs.all ((r.st t).valid vars (r.inp t)) then
        f ((r.st t).sig vars (r.inp t)) ((r.st t).data k) else (r.st t).data k := by
      intro t; rw [r.step]; simp only [PSt.step, hkind, hv]
    have hobs : ∀ t, r.obs t k = if !v.hv || (r.st t).val k then some ((r.st t).data k) else none := by
      intro t
      simp only [PRun.obs, PSt.valid, hr, hk, hv, PSt.sig, hkind]
    simp only [denOf, hv]
    have hden : ∀ t, (if (srcs.all fun s => (dget (dens v0 r.inp (List.take k vars)) s t).isSome) = true then
        some (f (fun s => (dget (dens v0 r.inp (List.take k vars)) s t).getD v0)
          (stt f v.init (fun t => srcs.all fun s => (dget (dens v0 r.inp (List.take k vars)) s t).isSome)
            (fun t s => (dget (dens v0 r.inp (List.take k vars)) s t).getD v0) t)) else none) =
        if (srcs.all fun s => (dget (dens v0 r.inp vars) s t).isSome) = true then
        some (f (fun s => (dget (dens v0 r.inp vars) s t).getD v0)
          (stt f v.init (fun t => srcs.all fun s => (dget (dens v0 r.inp vars) s t).isSome)
            (fun t s => (dget (dens v0 r.inp vars) s t).getD v0) t)) else none := by
      have e1 : (fun t => srcs.all fun s => (dget (dens v0 r.inp (List.take k vars)) s t).isSome) =
          fun t => srcs.all fun s => (dget (dens v0 r.inp vars) s t).isSome := by
        funext t
        rw [Bool.eq_iff_iff, List.all_eq_true, List.all_eq_true]
        refine forall_congr' fun s => forall_congr' fun hs => ?_
        rw [hlow s (hlt s hs)]
      have e2 : ∀ t a, f (fun s => (dget (dens v0 r.inp (List.take k vars)) s t).getD v0) a =
          f (fun s => (dget (dens v0 r.inp vars) s t).getD v0) a := by
        intro t a
        refine congrFun (hloc _ _ fun s hs => ?_) a
        rw [hlow s (hlt s hs)]
      have e3 : ∀ t, stt f v.init (fun t => srcs.all fun s => (dget (dens v0 r.inp (List.take k vars)) s t).isSome)
            (fun t s => (dget (dens v0 r.inp (List.take k vars)) s t).getD v0) t =
          stt f v.init (fun t => srcs.all fun s => (dget (dens v0 r.inp vars) s t).isSome)
            (fun t s => (dget (dens v0 r.inp vars) s t).getD v0) t := by
        intro t
        rw [e1]
        induction t with
        | zero => rfl
        | succ t iht => simp only [stt, iht, e2]
      intro t
      rw [congrFun e1 t, e2, e3]
    refine ⟨fun t => ?_, fun hh t ht => ?_⟩
    · rw [hden, show t + (m + 1) = (t + m) + 1 by omega, hobs, hval, hdat, hok]
      cases hh : v.hv with
      | false =>
        have hall : srcs.all ((r.st (t + m)).valid vars (r.inp (t + m))) = true := by
          rw [List.all_eq_true]
          intro s hs
          obtain ⟨w, hwv⟩ := hex s (hlt s hs)
          rw [hh] at hhv
          have hws := (List.any_eq_false.1 hhv.symm) s hs
          have hwf : ∀ s w, vars[s]? = some w → w.hv = false → rootOf vars s = s := by
            intro s w hs hwh
            have := hw s w hs
            unfold VarOk at this
            have hkd : kindAt vars s = some w.kind := by simp [kindAt, hs]
            cases hwk : w.kind with
            | prev p root => rw [hwk] at this; simp only at this; rw [this.2.2.2.2.2.1] at hwh; cases hwh
            | input => simp [rootOf, hkd, hwk]
            | reg _ _ => simp [rootOf, hkd, hwk]
          have hwh : w.hv = false := by simpa [hvOf, hwv] using hws
          simp [PSt.valid, hwf s w hwv hwh, hwv, hwh]
        simp only [hall, if_true, Bool.not_false, Bool.true_or]
        rw [henv t hall, hcomb hh]
      | true =>
        have hstate : (r.st (t + m)).data k = stt f v.init
            (fun t => srcs.all fun s => (dget (dens v0 r.inp vars) s t).isSome)
            (fun t s => (dget (dens v0 r.inp vars) s t).getD v0) t := by
          have hbase : ∀ u, u ≤ m → (r.st u).data k = v.init := by
            intro u
            induction u with
            | zero => intro _; rw [r.start]; simp [PSt.init, hk]
            | succ u ihu =>
              intro hu
              rw [hdat, if_neg, ihu (by omega)]
              rw [hh] at hhv
              obtain ⟨s, hs, hs'⟩ := List.any_eq_true.1 hhv.symm
              rw [List.all_eq_true]
              intro hall
              have h1 := (hsrc s hs).2 hs' u (by omega)
              have h2 := hobsV u s
              rw [h1, hall s hs] at h2
              cases h2
          clear hden
          induction t with
          | zero => rw [Nat.zero_add]; exact hbase m (Nat.le_refl _)
          | succ t iht =>
            rw [show t + 1 + m = (t + m) + 1 by omega, hdat]
            simp only [stt]
            rw [hok, iht]
            split
            · rename_i hall; rw [henv t hall]
            · rfl
        simp only [Bool.not_true, Bool.false_or]
        split
        · rename_i hall
          rw [henv t hall, hstate]
        · rfl
    · rw [hobs, hh]
      have : (r.st t).val k = false := by
        cases t with
        | zero => rw [r.start]; rfl
        | succ t =>
          rw [hval]
          rw [hh] at hhv
          obtain ⟨s, hs, hs'⟩ := List.any_eq_true.1 hhv.symm
          rw [← Bool.not_eq_true, List.all_eq_true]
          intro hall
          have h1 := (hsrc s hs).2 hs' t (by omega)
          have h2 := hobsV t s
          rw [h1, hall s hs] at h2
          cases h2
      rw [this]
      rfl
  | prev p root =>
    simp only [hv] at hok
    obtain ⟨hp, hrt, hsp, hsr, _, hhv, hhr, hrp, hrr⟩ := hok
    obtain ⟨wp, hwp⟩ := hex p hp
    obtain ⟨wr, hwr⟩ := hex root hrt
    have hP := ih p hp wp n hwp (by simpa [stg, hwp, hn] using hsp)
    have hR := ih root hrt wr n hwr (by simpa [stg, hwr, hn] using hsr)
    have hRn := hR.2 (by simpa [hvOf, hwr] using hhr)
    have hr : rootOf vars k = root := by simp [rootOf, hkind, hv]
    have hvk : ∀ t, (r.st t).valid vars (r.inp t) k = (r.st t).valid vars (r.inp t) root := by
      intro t; simp only [PSt.valid, hr, hrr]
    have hvp : ∀ t, (r.st t).valid vars (r.inp t) p = (r.st t).valid vars (r.inp t) root := by
      intro t; simp only [PSt.valid, hrp, hrr]
    have hobsV : ∀ t s, (r.obs t s).isSome = (r.st t).valid vars (r.inp t) s := by
      intro t s
      unfold PRun.obs
      split <;> simp_all
    have hdat : ∀ t, (r.st (t + 1)).data k = if (r.st t).valid vars (r.inp t) root then
        (r.st t).sig vars (r.inp t) p else (r.st t).data k := by
      intro t; rw [r.step]; simp only [PSt.step, hkind, hv]
    have hobs : ∀ t, r.obs t k = if (r.st t).valid vars (r.inp t) root then some ((r.st t).data k) else none := by
      intro t
      simp only [PRun.obs, hvk, PSt.sig, hkind, hv]
    refine ⟨fun t => ?_, fun _ t ht => ?_⟩
    · simp only [denOf, hv, hlow root hrt]
      rw [hobs, ← hobsV, hR.1 t]
      have hstate : (r.st (t + n)).data k = stt (fun e _ => e p) v.init
          (fun t => (dget (dens v0 r.inp vars) root t).isSome)
          (fun t s => (dget (dens v0 r.inp (List.take k vars)) s t).getD v0) t := by
        have hbase : ∀ u, u ≤ n → (r.st u).data k = v.init := by
          intro u
          induction u with
          | zero => intro _; rw [r.start]; simp [PSt.init, hk]
          | succ u ihu =>
            intro hu
            have h2 := hobsV u root
            rw [hRn u (by omega)] at h2
            rw [hdat, ← h2, ihu (by omega)]
            rfl
        induction t with
        | zero => rw [Nat.zero_add]; exact hbase n (Nat.le_refl _)
        | succ t iht =>
          rw [show t + 1 + n = (t + n) + 1 by omega, hdat]
          simp only [stt, hlow p hp]
          rw [← hobsV, hR.1 t, iht]
          split
          · rename_i hs
            rw [← hP.1 t]
            have : (r.st (t + n)).valid vars (r.inp (t + n)) p = true := by
              rw [hvp, ← hobsV, hR.1 t]; exact hs
            simp [PRun.obs, this]
          · rfl
      rw [hstate]
    · rw [hobs, ← hobsV, hRn t ht]
      rfl

/-! ## The builder -/

section
variable (v0) (inp : ℕ → PIn V)

/-- The value of a result of the visitor. -/
def Res.val (r : Res V) (ds : List (ℕ → Option V)) (t : ℕ) : Option V :=
  if r.srcs.all fun s => (dget ds s t).isSome then some (r.ev fun s => (dget ds s t).getD v0) else none

/-- A result on stage `sg` that stands for the stream `g`. -/
structure RGood (vars : List (PVar V)) (r : Res V) (sg : Option ℕ) (h : Bool) (g : ℕ → Option V) : Prop where
  stage : r.stage = sg
  lt : ∀ s ∈ r.srcs, s < vars.length
  srcs : ∀ s ∈ r.srcs, stg vars s = sg
  ne : sg ≠ none → r.srcs ≠ []
  nil : sg = none → r.srcs = []
  loc : Local r.ev r.srcs
  hv : r.srcs.any (hvOf vars) = h
  val : ∀ t, r.val v0 (dens v0 inp vars) t = g t

/-- The stages are counted in `max_stage_id`. -/
def MaxOk (b : B V) : Prop := ∀ k n, stg b.vars k = some n → n ≤ b.maxStage

/-- A visit that only adds variables and returns such a result, from any network that contains `vars0`. -/
def Good (vars0 : List (PVar V)) (v : Visit V) (sg : Option ℕ) (h : Bool) (g : ℕ → Option V) : Prop :=
  ∀ b : B V, Wf v0 b.vars → vars0 <+: b.vars →
    Wf v0 (v b).2.vars ∧ b.vars <+: (v b).2.vars ∧ RGood v0 inp (v b).2.vars (v b).1 sg h g ∧ (MaxOk b → MaxOk (v b).2)

end

theorem stg_ext {vars vars' : List (PVar V)} (h : vars <+: vars') {k : ℕ} (hk : k < vars.length) :
    stg vars' k = stg vars k := by
  obtain ⟨ws, rfl⟩ := h
  simp [stg, List.getElem?_append_left hk]

theorem hvOf_ext {vars vars' : List (PVar V)} (h : vars <+: vars') {k : ℕ} (hk : k < vars.length) :
    hvOf vars' k = hvOf vars k := by
  obtain ⟨ws, rfl⟩ := h
  simp [hvOf, List.getElem?_append_left hk]

theorem rootOf_ext {vars vars' : List (PVar V)} (h : vars <+: vars') {k : ℕ} (hk : k < vars.length) :
    rootOf vars' k = rootOf vars k := by
  obtain ⟨ws, rfl⟩ := h
  simp [rootOf, kindAt, List.getElem?_append_left hk]

theorem any_congr {l : List ℕ} {p q : ℕ → Bool} (h : ∀ s ∈ l, p s = q s) : l.any p = l.any q := by
  induction l with
  | nil => rfl
  | cons a l ih =>
    simp only [List.any_cons]
    rw [h a (by simp), ih fun s hs => h s (by simp [hs])]

theorem all_congr {l : List ℕ} {p q : ℕ → Bool} (h : ∀ s ∈ l, p s = q s) : l.all p = l.all q := by
  induction l with
  | nil => rfl
  | cons a l ih =>
    simp only [List.all_cons]
    rw [h a (by simp), ih fun s hs => h s (by simp [hs])]

variable {inp : ℕ → PIn V}

theorem RGood.mono {vars vars' : List (PVar V)} (h : vars <+: vars') {r : Res V} {sg : Option ℕ} {hh : Bool}
    {g : ℕ → Option V} (hr : RGood v0 inp vars r sg hh g) : RGood v0 inp vars' r sg hh g where
  stage := hr.stage
  lt s hs := Nat.lt_of_lt_of_le (hr.lt s hs) h.length_le
  srcs s hs := by rw [stg_ext h (hr.lt s hs)]; exact hr.srcs s hs
  ne := hr.ne
  nil := hr.nil
  loc := hr.loc
  hv := by rw [← hr.hv]; exact any_congr fun s hs => hvOf_ext h (hr.lt s hs)
  val t := by
    rw [← hr.val t]
    unfold Res.val
    rw [all_congr fun s hs => by rw [dens_ext v0 inp h s (hr.lt s hs)]]
    rw [hr.loc _ _ fun s hs => by rw [dens_ext v0 inp h s (hr.lt s hs)]]

theorem VarOk.mono {vars vars' : List (PVar V)} (h : vars <+: vars') {k : ℕ} {v : PVar V} (hk : k ≤ vars.length)
    (hv : VarOk v0 vars k v) : VarOk v0 vars' k v := by
  unfold VarOk at hv ⊢
  cases hkd : v.kind with
  | input => rw [hkd] at hv; exact hv
  | reg f srcs =>
    rw [hkd] at hv
    obtain ⟨h1, h2, ⟨n, h3, h4⟩, h5, h6, h7⟩ := hv
    refine ⟨h1, h2, ⟨n, h3, fun s hs => ?_⟩, h5, ?_, h7⟩
    · rw [stg_ext h (Nat.lt_of_lt_of_le (h2 s hs) hk)]; exact h4 s hs
    · rw [h6]; exact any_congr fun s hs => (hvOf_ext h (Nat.lt_of_lt_of_le (h2 s hs) hk)).symm
  | prev p root =>
    rw [hkd] at hv
    obtain ⟨h1, h2, h3, h4, h5, h6, h7, h8, h9⟩ := hv
    have l1 : p < vars.length := by omega
    have l2 : root < vars.length := by omega
    refine ⟨h1, h2, ?_, ?_, h5, h6, ?_, ?_, ?_⟩
    · rw [stg_ext h l1]; exact h3
    · rw [stg_ext h l2]; exact h4
    · rw [hvOf_ext h l2]; exact h7
    · rw [rootOf_ext h l1]; exact h8
    · rw [rootOf_ext h l2]; exact h9

theorem Wf.snoc {vars : List (PVar V)} (hw : Wf v0 vars) {v : PVar V} (hv : VarOk v0 vars vars.length v) :
    Wf v0 (vars ++ [v]) := by
  intro k w hk
  by_cases hl : k < vars.length
  · rw [List.getElem?_append_left hl] at hk
    exact (hw k w hk).mono (List.prefix_append _ _) (Nat.le_of_lt hl)
  · have hl' : k < (vars ++ [v]).length := by rw [List.getElem?_eq_some_iff] at hk; exact hk.1
    have : k = vars.length := by simp at hl'; omega
    subst this
    have : w = v := by simpa using hk.symm
    subst this
    exact hv.mono (List.prefix_append _ _) (Nat.le_refl _)

theorem before_succ (g : ℕ → Option V) (t : ℕ) : before g (t + 1) = before g t ++ (g t).toList := by
  unfold before
  rw [List.range_succ, List.filterMap_append]
  cases h : g t <;> simp [h]

/-- A new register stands for the stream of its function over the stream of its operand. -/
theorem addReg_spec {b : B V} (hw : Wf v0 b.vars) {r : Res V} {n : ℕ} {h : Bool} {g : ℕ → Option V}
    (hr : RGood v0 inp b.vars r (some n) h g) (f : V → V → V) (init : V) (hf : h = false → ∀ a a' d, f a d = f a' d) :
    (b.addReg r f init).1 = b.vars.length ∧ Wf v0 (b.addReg r f init).2.vars ∧
    b.vars <+: (b.addReg r f init).2.vars ∧ (b.addReg r f init).2.vars.length = b.vars.length + 1 ∧
    stg (b.addReg r f init).2.vars b.vars.length = some (n + 1) ∧
    hvOf (b.addReg r f init).2.vars b.vars.length = h ∧
    dget (dens v0 inp (b.addReg r f init).2.vars) b.vars.length = fun t => (g t).map (f ((before g t).foldl f init)) := by
  have hhv : r.srcs.any b.hv = h := hr.hv
  refine ⟨rfl, ?_, List.prefix_append _ _, by simp [B.addReg, B.add], by simp [B.addReg, B.add, stg, hr.stage],
    by simp [B.addReg, B.add, hvOf, hhv], ?_⟩
  · refine hw.snoc ?_
    unfold VarOk
    refine ⟨hr.ne (by simp), hr.lt, ⟨n, by simp [hr.stage], hr.srcs⟩, ?_, rfl, ?_⟩
    · intro e e' he
      funext a
      show f a (r.ev e) = f a (r.ev e')
      rw [hr.loc e e' he]
    · intro hh e a a'
      exact hf (by rw [← hhv]; exact hh) a a' _
  · show dget (dens v0 inp (b.vars ++ [_])) b.vars.length = _
    rw [dens_snoc]
    have hd : (dens v0 inp b.vars).length = b.vars.length := dens_length _ _ _
    simp only [dget, List.getD_eq_getElem?_getD]
    rw [List.getElem?_append_right (by omega), hd]
    simp only [Nat.sub_self, List.getElem?_cons_zero, Option.getD_some, denOf]
    have hg : ∀ t, g t = if (r.srcs.all fun s => (dget (dens v0 inp b.vars) s t).isSome) then
        some (r.ev fun s => (dget (dens v0 inp b.vars) s t).getD v0) else none := fun t => (hr.val t).symm
    have hst : ∀ t, stt (fun env a => f a (r.ev env)) init
        (fun t => r.srcs.all fun s => (dget (dens v0 inp b.vars) s t).isSome)
        (fun t s => (dget (dens v0 inp b.vars) s t).getD v0) t = (before g t).foldl f init := by
      intro t
      induction t with
      | zero => rfl
      | succ t ih =>
        simp only [stt]
        rw [before_succ, List.foldl_append, ih, hg t]
        split <;> rfl
    funext t
    rw [hst, hg t]
    split <;> rfl

theorem addStage_spec {b : B V} (hw : Wf v0 b.vars) {r : Res V} {n : ℕ} {h : Bool} {g : ℕ → Option V}
    (hr : RGood v0 inp b.vars r (some n) h g) (c : V → V) :
    (b.addStage v0 r c).1 = b.vars.length ∧ Wf v0 (b.addStage v0 r c).2.vars ∧
    b.vars <+: (b.addStage v0 r c).2.vars ∧ (b.addStage v0 r c).2.vars.length = b.vars.length + 1 ∧
    stg (b.addStage v0 r c).2.vars b.vars.length = some (n + 1) ∧
    hvOf (b.addStage v0 r c).2.vars b.vars.length = h ∧
    dget (dens v0 inp (b.addStage v0 r c).2.vars) b.vars.length = (fun t => (g t).map c) ∧
    (b.addStage v0 r c).2.maxStage = max b.maxStage (n + 1) ∧
    (MaxOk b → MaxOk (b.addStage v0 r c).2) := by
  obtain ⟨h1, h2, h3, h4, h5, h6, h7⟩ := addReg_spec hw hr (fun _ d => c d) v0 (fun _ _ _ _ => rfl)
  have hmax : (b.addStage v0 r c).2.maxStage = max b.maxStage (n + 1) := by simp [B.addStage, hr.stage]
  refine ⟨h1, h2, h3, h4, h5, h6, ?_, hmax, ?_⟩
  · exact h7
  · intro hm k m hk
    rw [hmax]
    have hk' : stg (b.addReg r (fun _ d => c d) v0).2.vars k = some m := hk
    by_cases hl : k < b.vars.length
    · rw [stg_ext h3 hl] at hk'
      have := hm k m hk'
      omega
    · have hlt : k < (b.addReg r (fun _ d => c d) v0).2.vars.length := by
        refine Nat.lt_of_not_le fun hge => ?_
        rw [stg, List.getElem?_eq_none hge] at hk'
        cases hk'
      have : k = b.vars.length := by omega
      subst this
      rw [h5] at hk'
      cases hk'
      omega

theorem visitVar_good {vars : List (PVar V)} {k n : ℕ} (hk : k < vars.length) (hs : stg vars k = some n) :
    Good v0 inp vars (visitVar k) (some n) (hvOf vars k) (dget (dens v0 inp vars) k) := by
  intro b hw hp
  refine ⟨hw, List.prefix_rfl, ⟨?_, ?_, ?_, ?_, ?_, ?_, ?_, ?_⟩, id⟩
  · show stg b.vars k = _
    rw [stg_ext hp hk, hs]
  · intro s hs
    simp only [visitVar, List.mem_singleton] at hs
    subst hs
    exact Nat.lt_of_lt_of_le hk hp.length_le
  · intro s hs'
    simp only [visitVar, List.mem_singleton] at hs'
    subst hs'
    show stg b.vars s = _
    rw [stg_ext hp hk, hs]
  · intro _; simp [visitVar]
  · intro h; cases h
  · intro e e' he
    exact he k (by simp [visitVar])
  · simp [visitVar, hvOf_ext hp hk]
  · intro t
    show (if ([k].all fun s => (dget (dens v0 inp b.vars) s t).isSome) = true then
      some ((dget (dens v0 inp b.vars) k t).getD v0) else none) = _
    rw [← dens_ext v0 inp hp k hk]
    cases h : dget (dens v0 inp b.vars) k t with
    | none => simp [h]
    | some x => simp [h]

theorem Good.mono {vars vars' : List (PVar V)} (h : vars <+: vars') {v : Visit V} {sg : Option ℕ} {hh : Bool}
    {g : ℕ → Option V} (hv : Good v0 inp vars v sg hh g) : Good v0 inp vars' v sg hh g :=
  fun b hw hp => hv b hw (h.trans hp)

theorem delays_spec (n : ℕ) {v : Visit V} {s : ℕ} {h : Bool} {g : ℕ → Option V} (b : B V) (hw : Wf v0 b.vars)
    (hv : Good v0 inp b.vars v (some s) h g) :
    Wf v0 (delays v0 id n v b).2.vars ∧ b.vars <+: (delays v0 id n v b).2.vars ∧
    Good v0 inp (delays v0 id n v b).2.vars (delays v0 id n v b).1 (some (s + n)) h g ∧
    (MaxOk b → MaxOk (delays v0 id n v b).2) := by
  induction n generalizing v s b with
  | zero => exact ⟨hw, List.prefix_rfl, hv, id⟩
  | succ n ih =>
    obtain ⟨w1, p1, r1, m1⟩ := hv b hw List.prefix_rfl
    obtain ⟨e1, w2, p2, l2, s2, h2, d2, _, m2⟩ := addStage_spec w1 r1 id
    have hg : Good v0 inp ((v b).2.addStage v0 (v b).1 id).2.vars (visitVar ((v b).2.addStage v0 (v b).1 id).1)
        (some (s + 1)) h g := by
      have := visitVar_good (v0 := v0) (inp := inp) (vars := ((v b).2.addStage v0 (v b).1 id).2.vars)
        (k := (v b).2.vars.length) (n := s + 1) (by omega) s2
      rw [h2, d2] at this
      rw [e1]
      have e : (fun t => (g t).map id) = g := by funext t; simp
      rw [e] at this
      exact this
    obtain ⟨w3, p3, g3, m3⟩ := ih _ w2 hg
    refine ⟨w3, p1.trans (p2.trans p3), ?_, fun hm => m3 (m2 (m1 hm))⟩
    have : s + 1 + n = s + (n + 1) := by omega
    rw [this] at g3
    exact g3

/-- What a visit stands for: stage, valid, stream. -/
abbrev VSpec (V : Type) := Option ℕ × Bool × (ℕ → Option V)

theorem runAll_spec {vs : List (Visit V)} {sps : List (VSpec V)} (b : B V) (hw : Wf v0 b.vars)
    (hf : List.Forall₂ (fun v sp => Good v0 inp b.vars v sp.1 sp.2.1 sp.2.2) vs sps) :
    Wf v0 (runAll vs b).2.vars ∧ b.vars <+: (runAll vs b).2.vars ∧
    List.Forall₂ (fun r sp => RGood v0 inp (runAll vs b).2.vars r sp.1 sp.2.1 sp.2.2) (runAll vs b).1 sps ∧
    (MaxOk b → MaxOk (runAll vs b).2) := by
  induction vs generalizing sps b with
  | nil => cases hf; exact ⟨hw, List.prefix_rfl, .nil, id⟩
  | cons v vs ih =>
    cases hf with
    | cons hv hvs =>
      rename_i sp sps
      obtain ⟨w1, p1, r1, m1⟩ := hv b hw List.prefix_rfl
      obtain ⟨w2, p2, r2, m2⟩ := ih (v b).2 w1 (hvs.imp fun _ _ h => h.mono p1)
      exact ⟨w2, p1.trans p2, .cons (r1.mono p2) r2, fun hm => m2 (m1 hm)⟩

/-- The specification after alignment. -/
def VSpec.at (m : ℕ) (sp : VSpec V) : VSpec V := (sp.1.map fun _ => m, sp.2)

theorem align_spec (m : ℕ) {rvs : List (Res V × Visit V)} {sps : List (VSpec V)} (b : B V) (hw : Wf v0 b.vars)
    (hf : List.Forall₂ (fun (rv : Res V × Visit V) sp => rv.1.stage = sp.1 ∧ (∀ s, sp.1 = some s → s ≤ m) ∧
      Good v0 inp b.vars rv.2 sp.1 sp.2.1 sp.2.2) rvs sps) :
    Wf v0 (align v0 m rvs b).2.vars ∧ b.vars <+: (align v0 m rvs b).2.vars ∧
    List.Forall₂ (fun v sp => Good v0 inp (align v0 m rvs b).2.vars v sp.1 sp.2.1 sp.2.2) (align v0 m rvs b).1
      (sps.map (VSpec.at m)) ∧
    (MaxOk b → MaxOk (align v0 m rvs b).2) := by
  induction rvs generalizing sps b with
  | nil => cases hf; exact ⟨hw, List.prefix_rfl, .nil, id⟩
  | cons rv rvs ih =>
    cases hf with
    | cons hv hvs =>
      rename_i sp sps
      obtain ⟨r, v⟩ := rv
      obtain ⟨sg, hh, g⟩ := sp
      obtain ⟨hst, hle, hgood⟩ := hv
      simp only at hst hle hgood
      have key : ∃ x : Visit V × B V, x = (match r.stage with
          | none => (v, b)
          | some s => delays v0 id (m - s) v b) ∧ Wf v0 x.2.vars ∧ b.vars <+: x.2.vars ∧
          Good v0 inp x.2.vars x.1 (sg.map fun _ => m) hh g ∧ (MaxOk b → MaxOk x.2) := by
        refine ⟨_, rfl, ?_⟩
        rw [hst]
        cases sg with
        | none => exact ⟨hw, List.prefix_rfl, hgood, id⟩
        | some s =>
          have := delays_spec (m - s) b hw hgood
          have e : s + (m - s) = m := by have := hle s rfl; omega
          rw [e] at this
          exact this
      obtain ⟨x, hx, w1, p1, g1, m1⟩ := key
      have hal : align v0 m ((r, v) :: rvs) b = (x.1 :: (align v0 m rvs x.2).1, (align v0 m rvs x.2).2) := by
        rw [hx]; rfl
      rw [hal]
      obtain ⟨w2, p2, g2, m2⟩ := ih x.2 w1 (hvs.imp fun _ _ h => ⟨h.1, h.2.1, h.2.2.mono p1⟩)
      exact ⟨w2, p1.trans p2, .cons (g1.mono p2) g2, fun hm => m2 (m1 hm)⟩

/-- The greater of two stages. -/
def omax : Option ℕ → Option ℕ → Option ℕ
  | none, m => m
  | some s, none => some s
  | some s, some m => some (max s m)

/-- The greatest stage of a list. -/
def osup (l : List (Option ℕ)) : Option ℕ := l.foldr omax none

theorem maxStage_eq (rs : List (Res V)) : maxStage rs = osup (rs.map (·.stage)) := by
  induction rs with
  | nil => rfl
  | cons r rs ih =>
    simp only [maxStage, List.map_cons, osup, List.foldr_cons]
    rw [ih]
    show _ = omax r.stage (osup (rs.map (·.stage)))
    cases r.stage <;> cases osup (rs.map (·.stage)) <;> rfl

theorem omax_assoc (a b c : Option ℕ) : omax (omax a b) c = omax a (omax b c) := by
  cases a <;> cases b <;> cases c <;> simp [omax, Nat.max_assoc]

theorem osup_append (l m : List (Option ℕ)) : osup (l ++ m) = omax (osup l) (osup m) := by
  induction l with
  | nil => rfl
  | cons a l ih =>
    show omax a (osup (l ++ m)) = omax (omax a (osup l)) (osup m)
    rw [ih, omax_assoc]

theorem osup_flatten (ls : List (List (Option ℕ))) : osup ls.flatten = osup (ls.map osup) := by
  induction ls with
  | nil => rfl
  | cons l ls ih =>
    rw [List.flatten_cons, osup_append, ih]
    rfl

theorem osup_none {l : List (Option ℕ)} : osup l = none ↔ ∀ a ∈ l, a = none := by
  induction l with
  | nil => simp [osup]
  | cons a l ih =>
    show omax a (osup l) = none ↔ _
    rw [List.forall_mem_cons, ← ih]
    cases a <;> cases osup l <;> simp [omax]

theorem osup_le {l : List (Option ℕ)} {m : ℕ} (h : osup l = some m) : ∀ s, some s ∈ l → s ≤ m := by
  induction l generalizing m with
  | nil => intro s hs; cases hs
  | cons a l ih =>
    intro s hs
    have h' : omax a (osup l) = some m := h
    rw [List.mem_cons] at hs
    cases ho : osup l with
    | none =>
      rw [ho] at h'
      rcases hs with rfl | hs
      · cases h'; exact Nat.le_refl _
      · have := osup_none.1 ho _ hs
        cases this
    | some m' =>
      rw [ho] at h'
      cases a with
      | none =>
        cases h'
        rcases hs with hs | hs
        · cases hs
        · exact ih ho s hs
      | some x =>
        have : max x m' = m := by simpa [omax] using h'
        rcases hs with hs | hs
        · cases hs; omega
        · have := ih ho s hs; omega

/-- Results of operands on one stage put together. -/
theorem combine_good {vars : List (PVar V)} {rs : List (Res V)} {sps : List (VSpec V)} (f : List V → V) (sg : Option ℕ)
    (hf : List.Forall₂ (fun r sp => RGood v0 inp vars r sp.1 sp.2.1 sp.2.2) rs sps)
    (hsg : ∀ sp ∈ sps, sp.1 = none ∨ sp.1 = sg) (hne : sg ≠ none → ∃ sp ∈ sps, sp.1 ≠ none) :
    RGood v0 inp vars (combine f sg rs) sg (sps.any (·.2.1)) (fun t => (allSome (sps.map fun sp => sp.2.2 t)).map f) := by
  have hmem : ∀ r ∈ rs, ∃ sp ∈ sps, RGood v0 inp vars r sp.1 sp.2.1 sp.2.2 := by
    clear hsg hne
    induction hf with
    | nil => intro r hr; cases hr
    | cons h _ ih =>
      intro r hr
      rcases List.mem_cons.1 hr with rfl | hr
      · exact ⟨_, by simp, h⟩
      · obtain ⟨sp, h1, h2⟩ := ih r hr
        exact ⟨sp, by simp [h1], h2⟩
  have hmem' : ∀ sp ∈ sps, ∃ r ∈ rs, RGood v0 inp vars r sp.1 sp.2.1 sp.2.2 := by
    clear hsg hne hmem
    induction hf with
    | nil => intro r hr; cases hr
    | cons h _ ih =>
      intro sp hsp
      rcases List.mem_cons.1 hsp with rfl | hsp
      · exact ⟨_, by simp, h⟩
      · obtain ⟨r, h1, h2⟩ := ih sp hsp
        exact ⟨r, by simp [h1], h2⟩
  refine ⟨rfl, ?_, ?_, ?_, ?_, ?_, ?_, ?_⟩
  · intro s hs
    obtain ⟨r, hr, hs⟩ := List.mem_flatMap.1 hs
    obtain ⟨sp, _, hg⟩ := hmem r hr
    exact hg.lt s hs
  · intro s hs
    obtain ⟨r, hr, hs⟩ := List.mem_flatMap.1 hs
    obtain ⟨sp, hsp, hg⟩ := hmem r hr
    rcases hsg sp hsp with h | h
    · rw [hg.nil h] at hs; cases hs
    · rw [hg.srcs s hs, h]
  · intro h
    obtain ⟨sp, hsp, hn⟩ := hne h
    obtain ⟨r, hr, hg⟩ := hmem' sp hsp
    obtain ⟨s, hs⟩ := List.exists_mem_of_ne_nil _ (hg.ne hn)
    exact List.ne_nil_of_mem (List.mem_flatMap.2 ⟨r, hr, hs⟩)
  · intro h
    rw [List.eq_nil_iff_forall_not_mem]
    intro s hs
    obtain ⟨r, hr, hs⟩ := List.mem_flatMap.1 hs
    obtain ⟨sp, hsp, hg⟩ := hmem r hr
    rw [hg.nil (by rcases hsg sp hsp with h' | h' <;> simp [h', h])] at hs
    cases hs
  · intro e e' he
    show f _ = f _
    congr 1
    apply List.map_congr_left
    intro r hr
    obtain ⟨sp, _, hg⟩ := hmem r hr
    exact hg.loc e e' fun s hs => he s (List.mem_flatMap.2 ⟨r, hr, hs⟩)
  · show (rs.flatMap (·.srcs)).any (hvOf vars) = _
    clear hsg hne hmem hmem'
    induction hf with
    | nil => rfl
    | cons h _ ih => simp only [List.flatMap_cons, List.any_append, List.any_cons, ih, h.hv]
  · intro t
    show (if ((rs.flatMap (·.srcs)).all fun s => (dget (dens v0 inp vars) s t).isSome) = true then
      some (f (rs.map fun r => r.ev fun s => (dget (dens v0 inp vars) s t).getD v0)) else none) = _
    have key : allSome (sps.map fun sp => sp.2.2 t) =
        if ((rs.flatMap (·.srcs)).all fun s => (dget (dens v0 inp vars) s t).isSome) = true then
          some (rs.map fun r => r.ev fun s => (dget (dens v0 inp vars) s t).getD v0) else none := by
      clear hsg hne hmem hmem'
      induction hf with
      | nil => rfl
      | cons h _ ih =>
        simp only [List.map_cons, allSome, ih, List.flatMap_cons, List.all_append, ← h.val t, Res.val]
        generalize (List.all _ _) = p
        generalize (List.all _ _) = q
        cases p <;> cases q <;> rfl
    rw [key]
    split <;> rfl

theorem pack_good {vars : List (PVar V)} (f : List V → V) {vs : List (Visit V)} {sps : List (VSpec V)}
    (hf : List.Forall₂ (fun v sp => Good v0 inp vars v sp.1 sp.2.1 sp.2.2) vs sps) :
    Good v0 inp vars (pack v0 f vs) (osup (sps.map (·.1))) (sps.any (·.2.1))
      (fun t => (allSome (sps.map fun sp => sp.2.2 t)).map f) := by
  intro b hw hp
  have hf' : List.Forall₂ (fun v sp => Good v0 inp b.vars v sp.1 sp.2.1 sp.2.2) vs sps := hf.imp fun _ _ h => h.mono hp
  obtain ⟨w1, p1, r1, m1⟩ := runAll_spec b hw hf'
  have hms : maxStage (runAll vs b).1 = osup (sps.map (·.1)) := by
    rw [maxStage_eq]
    congr 1
    revert r1
    generalize (runAll vs b).2.vars = W
    generalize (runAll vs b).1 = rs
    intro r1
    clear hf hf' w1 p1 m1
    induction r1 with
    | nil => rfl
    | cons h _ ih => rw [List.map_cons, List.map_cons, h.stage, ih]
  unfold pack
  simp only [hms]
  cases ho : osup (sps.map (·.1)) with
  | none =>
    refine ⟨w1, p1, combine_good f none r1 (fun sp hsp => .inl ?_) (fun h => absurd rfl h), m1⟩
    exact osup_none.1 ho _ (List.mem_map_of_mem hsp)
  | some m =>
    have hz : List.Forall₂ (fun (rv : Res V × Visit V) sp => rv.1.stage = sp.1 ∧ (∀ s, sp.1 = some s → s ≤ m) ∧
        Good v0 inp (runAll vs b).2.vars rv.2 sp.1 sp.2.1 sp.2.2) ((runAll vs b).1.zip vs) sps := by
      have hle : ∀ sp ∈ sps, ∀ s, sp.1 = some s → s ≤ m := fun sp hsp s hs =>
        osup_le ho s (hs ▸ List.mem_map_of_mem hsp)
      have hg : List.Forall₂ (fun v sp => Good v0 inp (runAll vs b).2.vars v sp.1 sp.2.1 sp.2.2) vs sps :=
        hf'.imp fun _ _ h => h.mono p1
      revert hle
      revert hg r1
      generalize (runAll vs b).2.vars = W
      generalize (runAll vs b).1 = rs
      clear hf hf' w1 p1 m1 hms ho
      intro r1 hg hle
      induction r1 generalizing vs with
      | nil => cases hg; exact .nil
      | cons h _ ih =>
        cases hg with
        | cons hg1 hg2 =>
          exact .cons ⟨h.stage, hle _ (by simp), hg1⟩ (ih hg2 fun sp hsp => hle sp (by simp [hsp]))
    obtain ⟨w2, p2, g2, m2⟩ := align_spec m (runAll vs b).2 w1 hz
    obtain ⟨w3, p3, r3, m3⟩ := runAll_spec _ w2 g2
    refine ⟨w3, p1.trans (p2.trans p3), ?_, fun hm => m3 (m2 (m1 hm))⟩
    have hc := combine_good f (some m) r3 (fun sp hsp => by
      obtain ⟨sp', _, rfl⟩ := List.mem_map.1 hsp
      cases h : sp'.1 <;> simp [VSpec.at, h]) (fun _ => by
      have : ¬ ∀ a ∈ sps.map (·.1), a = none := fun h => by rw [osup_none.2 h] at ho; cases ho
      by_cases hex : ∃ sp ∈ sps, sp.1 ≠ none
      · obtain ⟨sp, hsp, hn⟩ := hex
        refine ⟨_, List.mem_map_of_mem hsp, ?_⟩
        cases h : sp.1 with
        | none => exact absurd h hn
        | some s => simp [VSpec.at, h]
      · refine absurd (fun a ha => ?_) this
        obtain ⟨sp, hsp, rfl⟩ := List.mem_map.1 ha
        cases h : sp.1 with
        | none => rfl
        | some s => exact absurd ⟨sp, hsp, by simp [h]⟩ hex)
    have e1 : (sps.map (VSpec.at m)).any (·.2.1) = sps.any (·.2.1) := by rw [List.any_map]; rfl
    have e2 : ∀ t, (sps.map (VSpec.at m)).map (fun sp => sp.2.2 t) = sps.map fun sp => sp.2.2 t := by
      intro t; rw [List.map_map]; rfl
    rw [e1] at hc
    simp only [e2] at hc
    exact hc

theorem visit_good {vars : List (PVar V)} (us : ℕ → ℕ) (e : PExpr V) (hn : e.NoUn)
    (hlt : ∀ k ∈ e.fv, us k < vars.length) (hst : ∀ k ∈ e.fv, stg vars (us k) ≠ none) :
    Good v0 inp vars (visit v0 us e) (osup (e.fv.map fun k => stg vars (us k))) (e.fv.any fun k => hvOf vars (us k))
      (fun t => e.eval fun k => dget (dens v0 inp vars) (us k) t) := by
  induction e with
  | var k =>
    obtain ⟨n, hs⟩ := Option.ne_none_iff_exists'.1 (hst k (by simp [PExpr.fv]))
    have := visitVar_good (v0 := v0) (inp := inp) (hlt k (by simp [PExpr.fv])) hs
    simpa [PExpr.fv, osup, omax, hs, PExpr.eval, visit] using this
  | const v =>
    intro b hw _
    refine ⟨hw, List.prefix_rfl, ⟨rfl, ?_, ?_, ?_, ?_, ?_, rfl, ?_⟩, id⟩
    · intro s hs; cases hs
    · intro s hs; cases hs
    · intro h; exact absurd rfl h
    · intro _; rfl
    · intro _ _ _; rfl
    · intro t; rfl
  | un f e _ => exact absurd hn id
  | op n f args ih =>
    have hmem : ∀ i, ∀ k ∈ (args i).fv, k ∈ (PExpr.op n f args).fv := by
      intro i k hk
      simp only [PExpr.fv, List.mem_flatten, List.mem_ofFn]
      exact ⟨_, ⟨i, rfl⟩, hk⟩
    have hall := fun i => ih i (hn i) (fun k hk => hlt k (hmem i k hk)) (fun k hk => hst k (hmem i k hk))
    have hf : List.Forall₂ (fun v (sp : VSpec V) => Good v0 inp vars v sp.1 sp.2.1 sp.2.2)
        (List.ofFn fun i => visit v0 us (args i))
        (List.ofFn fun i => ((osup ((args i).fv.map fun k => stg vars (us k)), ((args i).fv.any fun k => hvOf vars (us k)),
          fun t => (args i).eval fun k => dget (dens v0 inp vars) (us k) t) : VSpec V)) := by
      rw [List.ofFn_eq_map, List.ofFn_eq_map, List.forall₂_map_left_iff, List.forall₂_map_right_iff, List.forall₂_same]
      intro i _
      exact hall i
    have h := pack_good f hf
    have e1 : osup ((List.ofFn fun i => ((osup ((args i).fv.map fun k => stg vars (us k)),
          ((args i).fv.any fun k => hvOf vars (us k)),
          fun t => (args i).eval fun k => dget (dens v0 inp vars) (us k) t) : VSpec V)).map (·.1)) =
        osup ((PExpr.op n f args).fv.map fun k => stg vars (us k)) := by
      simp only [PExpr.fv, List.map_flatten, osup_flatten, List.map_map, List.ofFn_eq_map]
      rfl
    have e2 : ((List.ofFn fun i => ((osup ((args i).fv.map fun k => stg vars (us k)),
          ((args i).fv.any fun k => hvOf vars (us k)),
          fun t => (args i).eval fun k => dget (dens v0 inp vars) (us k) t) : VSpec V)).any (·.2.1)) =
        ((PExpr.op n f args).fv.any fun k => hvOf vars (us k)) := by
      simp only [PExpr.fv, List.any_flatten, List.ofFn_eq_map, List.any_map]
      rfl
    rw [e1, e2] at h
    simp only [List.ofFn_eq_map, List.map_map] at h
    simp only [PExpr.eval, visit, List.ofFn_eq_map]
    exact h

/-! ## Programs -/

/-- Programs covered: expressions over the variables the user holds, at least one in each, without unary operators;
    accumulators and `prev` on variables with a valid (`hs`: which of the variables have one). -/
def Cmd.Ok (hs : List Bool) : Cmd V → Prop
  | .input _ => True
  | .stage e => e.NoUn ∧ e.fv ≠ [] ∧ ∀ k ∈ e.fv, k < hs.length
  | .acc _ _ e => e.NoUn ∧ (∀ k ∈ e.fv, k < hs.length) ∧ ∃ k ∈ e.fv, hs.getD k false = true
  | .prev v _ => v < hs.length ∧ hs.getD v false = true

/-- Whether the result of a call has a valid. -/
def Cmd.hv (hs : List Bool) : Cmd V → Bool
  | .input h => h
  | .stage e => e.fv.any fun k => hs.getD k false
  | .acc _ _ e => e.fv.any fun k => hs.getD k false
  | .prev v _ => hs.getD v false

/-- The number of cycles from the inputs to the result of a call: one more than that of the latest variable. -/
def Cmd.lat (ss : List ℕ) : Cmd V → ℕ
  | .input _ => 0
  | .stage e => (e.fv.map fun k => ss.getD k 0).foldr max 0 + 1
  | .acc _ _ e => (e.fv.map fun k => ss.getD k 0).foldr max 0 + 1
  | .prev v _ => ss.getD v 0

/-- These numbers for the variables of the user. -/
def latAll : List ℕ → List (Cmd V) → List ℕ
  | ss, [] => ss
  | ss, c :: cs => latAll (ss ++ [c.lat ss]) cs

/-- All calls of a program are covered. -/
def OkAll : List Bool → List (Cmd V) → Prop
  | _, [] => True
  | hs, c :: cs => c.Ok hs ∧ OkAll (hs ++ [c.hv hs]) cs

/-- Which variables of the user have a valid after a program. -/
def hvAll : List Bool → List (Cmd V) → List Bool
  | hs, [] => hs
  | hs, c :: cs => hvAll (hs ++ [c.hv hs]) cs

/-- The streams of the variables of the user; `ports i` is the input port, if call `i` declares one. -/
def specAll (v0 : V) (ports : ℕ → Bool → ℕ → Option V) : List (Cmd V) → List (ℕ → Option V) → List (ℕ → Option V)
  | [], us => us
  | c :: cs, us => specAll v0 ports cs (us ++ [c.spec v0 (ports us.length) us])

/-- The variables of the user stand for their streams. -/
structure Inv (v0 : V) (inp : ℕ → PIn V) (us : List ℕ) (b : B V) (hs : List Bool) (S : List ℕ)
    (U : List (ℕ → Option V)) : Prop where
  wf : Wf v0 b.vars
  len1 : hs.length = us.length
  len2 : U.length = us.length
  len3 : S.length = us.length
  lt : ∀ i < us.length, look us i < b.vars.length
  den : ∀ i < us.length, dget (dens v0 inp b.vars) (look us i) = dget U i
  hv : ∀ i < us.length, hvOf b.vars (look us i) = hs.getD i false
  st : ∀ i < us.length, stg b.vars (look us i) = some (S.getD i 0)

theorem Wf.stage_ne {vars : List (PVar V)} (hw : Wf v0 vars) {k : ℕ} (hk : k < vars.length) : stg vars k ≠ none := by
  have hg : vars[k]? = some vars[k] := List.getElem?_eq_getElem hk
  have h := hw k _ hg
  unfold VarOk at h
  simp only [stg, hg, Option.bind_some]
  cases hkd : (vars[k]).kind with
  | input => rw [hkd] at h; simp only at h; rw [h]; simp
  | reg f srcs =>
    rw [hkd] at h
    obtain ⟨_, _, ⟨n, hn, _⟩, _⟩ := h
    rw [hn]; simp
  | prev p root => rw [hkd] at h; exact h.2.2.2.2.1

theorem osup_some {l : List (Option ℕ)} (hne : l ≠ []) (h : ∀ a ∈ l, a ≠ none) : ∃ m, osup l = some m := by
  cases ho : osup l with
  | some m => exact ⟨m, rfl⟩
  | none =>
    obtain ⟨a, ha⟩ := List.exists_mem_of_ne_nil _ hne
    exact absurd (osup_none.1 ho a ha) (h a ha)

theorem osup_map_some (l : List ℕ) (hne : l ≠ []) : osup (l.map some) = some (l.foldr max 0) := by
  induction l with
  | nil => exact absurd rfl hne
  | cons a l ih =>
    show omax (some a) (osup (l.map some)) = _
    cases l with
    | nil => simp [osup, omax]
    | cons b l => rw [ih (by simp)]; rfl

theorem PExpr.eval_congr (e : PExpr V) (f g : ℕ → Option V) (h : ∀ k ∈ e.fv, f k = g k) : e.eval f = e.eval g := by
  induction e with
  | var k => exact h k (by simp [PExpr.fv])
  | const v => rfl
  | un f e ih => simp only [PExpr.eval]; rw [ih h]
  | op n F args ih =>
    simp only [PExpr.eval]
    have : ∀ i, (args i).eval f = (args i).eval g := fun i => ih i fun k hk => h k (by
      simp only [PExpr.fv, List.mem_flatten, List.mem_ofFn]
      exact ⟨_, ⟨i, rfl⟩, hk⟩)
    simp only [this]

theorem look_snoc_lt {us : List ℕ} {k i : ℕ} (hi : i < us.length) : look (us ++ [k]) i = look us i := by
  simp [look, List.getD_eq_getElem?_getD, List.getElem?_append_left hi]

theorem look_snoc_eq {us : List ℕ} {k : ℕ} : look (us ++ [k]) us.length = k := by
  simp [look, List.getD_eq_getElem?_getD]

theorem getD_snoc_lt {A : Type} {l : List A} {a d : A} {i : ℕ} (hi : i < l.length) : (l ++ [a]).getD i d = l.getD i d := by
  simp [List.getD_eq_getElem?_getD, List.getElem?_append_left hi]

theorem getD_snoc_eq {A : Type} {l : List A} {a d : A} : (l ++ [a]).getD l.length d = a := by
  simp [List.getD_eq_getElem?_getD]

/-- A step that adds variables and gives the user one more. -/
theorem Inv.extend {us : List ℕ} {b b' : B V} {hs : List Bool} {S : List ℕ} {U : List (ℕ → Option V)}
    (hi : Inv v0 inp us b hs S U) (hw : Wf v0 b'.vars) (hp : b.vars <+: b'.vars) {k : ℕ} (hk : k < b'.vars.length) {h : Bool} (hh : hvOf b'.vars k = h)
    {n : ℕ} (hn : stg b'.vars k = some n) {g : ℕ → Option V} (hg : dget (dens v0 inp b'.vars) k = g) : 
    Inv v0 inp (us ++ [k]) b' (hs ++ [h]) (S ++ [n]) (U ++ [g]) where
  wf := hw
  len1 := by simp [hi.len1]
  len2 := by simp [hi.len2]
  len3 := by simp [hi.len3]
  lt i hl := by
    rw [List.length_append, List.length_singleton] at hl
    by_cases he : i < us.length
    · rw [look_snoc_lt he]; exact Nat.lt_of_lt_of_le (hi.lt i he) hp.length_le
    · obtain rfl : i = us.length := by omega
      rw [look_snoc_eq]; exact hk
  den i hl := by
    rw [List.length_append, List.length_singleton] at hl
    by_cases he : i < us.length
    · rw [look_snoc_lt he, dens_ext v0 inp hp _ (hi.lt i he), hi.den i he, dget, dget, getD_snoc_lt (by rw [hi.len2]; exact he)]
    · obtain rfl : i = us.length := by omega
      rw [look_snoc_eq, hg, dget, ← hi.len2, getD_snoc_eq]
  hv i hl := by
    rw [List.length_append, List.length_singleton] at hl
    by_cases he : i < us.length
    · rw [look_snoc_lt he, hvOf_ext hp (hi.lt i he), hi.hv i he, getD_snoc_lt (by rw [hi.len1]; exact he)]
    · obtain rfl : i = us.length := by omega
      rw [look_snoc_eq, hh, ← hi.len1, getD_snoc_eq]
  st i hl := by
    rw [List.length_append, List.length_singleton] at hl
    by_cases he : i < us.length
    · rw [look_snoc_lt he, stg_ext hp (hi.lt i he), hi.st i he, getD_snoc_lt (by rw [hi.len3]; exact he)]
    · obtain rfl : i = us.length := by omega
      rw [look_snoc_eq, hn, ← hi.len3, getD_snoc_eq]

theorem last_before (g : ℕ → Option V) (t d : ℕ) : (before g (t + 1)).reverse[d]? =
    match g t with
    | none => (before g t).reverse[d]?
    | some x => if d = 0 then some x else (before g t).reverse[d - 1]? := by
  rw [before_succ]
  cases g t with
  | none => simp
  | some x =>
    simp only [Option.toList_some, List.reverse_append, List.reverse_singleton, List.singleton_append]
    cases d <;> simp

/-- `prev` by one more step. -/
def prevStream (v0 : V) (g : ℕ → Option V) (d : ℕ) (t : ℕ) : Option V :=
  if d = 0 then g t else (g t).map fun _ => ((before g t).reverse[d - 1]?).getD v0

theorem prevs_spec (g : ℕ → Option V) : ∀ (d d0 : ℕ) (b : B V) (k : ℕ), Wf v0 b.vars → k < b.vars.length →
    hvOf b.vars k = true → dget (dens v0 inp b.vars) k = prevStream v0 g d0 →
    Wf v0 (prevs v0 d k b).2.vars ∧ b.vars <+: (prevs v0 d k b).2.vars ∧
    (prevs v0 d k b).1 < (prevs v0 d k b).2.vars.length ∧
    stg (prevs v0 d k b).2.vars (prevs v0 d k b).1 = stg b.vars k ∧
    hvOf (prevs v0 d k b).2.vars (prevs v0 d k b).1 = true ∧
    dget (dens v0 inp (prevs v0 d k b).2.vars) (prevs v0 d k b).1 = prevStream v0 g (d0 + d) ∧
    (MaxOk b → MaxOk (prevs v0 d k b).2) := by
  intro d
  induction d with
  | zero => intro d0 b k hw hk hh hd; exact ⟨hw, List.prefix_rfl, hk, rfl, hh, hd, id⟩
  | succ d ih =>
    intro d0 b k hw hk hh hd
    have hstep : prevs v0 (d + 1) k b = prevs v0 d b.vars.length
        ⟨b.vars ++ [⟨.prev k (rootOf b.vars k), b.stage k, b.hv k, v0⟩], b.maxStage⟩ := rfl
    rw [hstep]
    have hgk : b.vars[k]? = some b.vars[k] := List.getElem?_eq_getElem hk
    have hkd : kindAt b.vars k = some (b.vars[k]).kind := by simp [kindAt, hgk]
    obtain ⟨n, hn⟩ := Option.ne_none_iff_exists'.1 (hw.stage_ne hk)
    have hR : rootOf b.vars k < b.vars.length ∧ stg b.vars (rootOf b.vars k) = some n ∧
        hvOf b.vars (rootOf b.vars k) = true ∧ rootOf b.vars (rootOf b.vars k) = rootOf b.vars k ∧
        ∀ t, (dget (dens v0 inp b.vars) (rootOf b.vars k) t).isSome = (dget (dens v0 inp b.vars) k t).isSome := by
      have h := hw k _ hgk
      unfold VarOk at h
      cases hkk : (b.vars[k]).kind with
      | input =>
        have : rootOf b.vars k = k := by simp [rootOf, hkd, hkk]
        rw [this]; exact ⟨hk, hn, hh, this, fun _ => rfl⟩
      | reg f srcs =>
        have : rootOf b.vars k = k := by simp [rootOf, hkd, hkk]
        rw [this]; exact ⟨hk, hn, hh, this, fun _ => rfl⟩
      | prev p root =>
        have e : rootOf b.vars k = root := by simp [rootOf, hkd, hkk]
        rw [hkk] at h
        obtain ⟨_, h2, _, h4, _, _, h7, _, h9, _⟩ := h
        rw [e]
        refine ⟨by omega, ?_, h7, h9, fun t => ?_⟩
        · rw [h4]; simpa [stg, hgk] using hn
        · rw [getElem?_dens inp b.vars k _ hgk]
          simp only [denOf, hkk]
          have : dget (dens v0 inp (List.take k b.vars)) root = dget (dens v0 inp b.vars) root :=
            (dens_ext v0 inp (List.take_prefix k b.vars) root (by simp; omega)).symm
          rw [this]
          by_cases hs : (dget (dens v0 inp b.vars) root t).isSome = true
          · rw [if_pos hs, hs]; rfl
          · rw [if_neg hs, Bool.not_eq_true] at *; rw [hs]; rfl
    obtain ⟨r1, r2, r3, r4, r5⟩ := hR
    have hst : b.stage k = some n := hn
    have hhv : b.hv k = true := hh
    rw [hst, hhv]
    set v : PVar V := ⟨.prev k (rootOf b.vars k), some n, true, v0⟩ with hvdef
    have hw' : Wf v0 (b.vars ++ [v]) := by
      refine hw.snoc ?_
      unfold VarOk
      show _ ∧ _
      exact ⟨hk, r1, hn, r2, by simp, rfl, r3, rfl, r4, rfl⟩
    have hden : dget (dens v0 inp (b.vars ++ [v])) b.vars.length = prevStream v0 g (d0 + 1) := by
      have := getElem?_dens (v0 := v0) inp (b.vars ++ [v]) b.vars.length v (by simp)
      rw [this, List.take_left' rfl]
      simp only [denOf, hvdef]
      have hsome : ∀ t, (dget (dens v0 inp b.vars) (rootOf b.vars k) t).isSome = (g t).isSome := by
        intro t
        rw [r5, hd]
        unfold prevStream
        split <;> simp
      have hstt : ∀ t, stt (fun e _ => e k) v0 (fun t => (dget (dens v0 inp b.vars) (rootOf b.vars k) t).isSome)
          (fun t s => (dget (dens v0 inp b.vars) s t).getD v0) t = ((before g t).reverse[d0]?).getD v0 := by
        intro t
        induction t with
        | zero => simp [stt, before]
        | succ t iht =>
          simp only [stt]
          rw [hsome, iht, hd, last_before]
          cases hg : g t with
          | none => simp
          | some x =>
            simp only [Option.isSome_some, if_true, prevStream, hg]
            split <;> rename_i h0 <;> simp
      funext t
      simp only [hsome]
      have := hstt t
      simp only [hsome] at this
      rw [this]
      unfold prevStream
      rw [if_neg (Nat.succ_ne_zero d0), Nat.add_sub_cancel]
      cases g t <;> rfl
    obtain ⟨i1, i2, i3, is, i4, i5, i6⟩ := ih (d0 + 1) ⟨b.vars ++ [v], b.maxStage⟩ b.vars.length hw' (by simp)
      (by simp [hvOf, hvdef]) hden
    refine ⟨i1, (List.prefix_append _ _).trans i2, i3, ?_, i4, ?_, fun hm => i6 ?_⟩
    · rw [is, hn]; simp [stg, hvdef]
    · rw [show d0 + (d + 1) = d0 + 1 + d by omega]; exact i5
    · intro j m hj
      have hj' : stg (b.vars ++ [v]) j = some m := hj
      by_cases hl : j < b.vars.length
      · rw [stg_ext (List.prefix_append _ _) hl] at hj'; exact hm j m hj'
      · have hlt : j < (b.vars ++ [v]).length := by
          refine Nat.lt_of_not_le fun hge => ?_
          rw [stg, List.getElem?_eq_none hge] at hj'
          cases hj'
        have : j = b.vars.length := by simp at hlt; omega
        subst this
        have : n = m := by simpa [stg, hvdef] using hj'
        subst this
        exact hm k n hn

theorem run_spec (ports : Bool → ℕ → Option V) {us : List ℕ} {b : B V} {hs : List Bool} {S : List ℕ}
    {U : List (ℕ → Option V)} (hi : Inv v0 inp us b hs S U) (c : Cmd V) (hok : c.Ok hs) (hport : ∀ h, ports h = portDen inp h b.vars.length) :
    ∃ k, (c.run v0 us b).1 = us ++ [k] ∧
      Inv v0 inp (us ++ [k]) (c.run v0 us b).2 (hs ++ [c.hv hs]) (S ++ [c.lat S]) (U ++ [c.spec v0 ports U]) ∧
      b.vars <+: (c.run v0 us b).2.vars ∧
      ((∀ f init e, c ≠ .acc f init e) → MaxOk b → MaxOk (c.run v0 us b).2) := by
  have hexpr : ∀ e : PExpr V, e.NoUn → e.fv ≠ [] → (∀ k ∈ e.fv, k < hs.length) →
      Good v0 inp b.vars (visit v0 (look us) e) (some ((e.fv.map fun k => S.getD k 0).foldr max 0)) (e.fv.any fun k => hs.getD k false)
        (fun t => e.eval fun k => dget U k t) := by
    intro e h1 h2 h3
    have hlt : ∀ k ∈ e.fv, look us k < b.vars.length := fun k hk => hi.lt k (by rw [← hi.len1]; exact h3 k hk)
    have hg := visit_good (v0 := v0) (inp := inp) (look us) e h1 hlt fun k hk => hi.wf.stage_ne (hlt k hk)
    have hst : (e.fv.map fun k => stg b.vars (look us k)) = (e.fv.map fun k => S.getD k 0).map some := by
      rw [List.map_map]
      exact List.map_congr_left fun k hk => hi.st k (by rw [← hi.len1]; exact h3 k hk)
    rw [hst, osup_map_some _ (by simpa using h2)] at hg
    have e1 : (e.fv.any fun k => hvOf b.vars (look us k)) = e.fv.any fun k => hs.getD k false :=
      any_congr fun k hk => hi.hv k (by rw [← hi.len1]; exact h3 k hk)
    have e2 : (fun t => e.eval fun k => dget (dens v0 inp b.vars) (look us k) t) = fun t => e.eval fun k => dget U k t := by
      funext t
      refine e.eval_congr _ _ fun k hk => ?_
      rw [hi.den k (by rw [← hi.len1]; exact h3 k hk)]
    rw [e1, e2] at hg
    exact hg
  cases c with
  | input h =>
    refine ⟨b.vars.length, rfl, hi.extend ?_ (List.prefix_append _ _)
      (by rw [Cmd.run]; simp [B.add]) ?_ (n := 0) ?_ ?_, List.prefix_append _ _, ?_⟩
    · exact hi.wf.snoc (by unfold VarOk; rfl)
    · simp [Cmd.run, B.add, hvOf, Cmd.hv]
    · simp [Cmd.run, B.add, stg]
    · show dget (dens v0 inp (b.vars ++ [_])) _ = _
      rw [getElem?_dens inp _ b.vars.length _ List.getElem?_concat_length, List.take_left' rfl]
      simp only [denOf, dens_length, Cmd.spec, hport]
    · intro _ hm j m hj
      have hj' : stg (b.vars ++ [_]) j = some m := hj
      by_cases hl : j < b.vars.length
      · rw [stg_ext (List.prefix_append _ _) hl] at hj'; exact hm j m hj'
      · have hlt : j < (b.vars ++ [(⟨.input, some 0, h, v0⟩ : PVar V)]).length := by
          refine Nat.lt_of_not_le fun hge => ?_
          rw [stg, List.getElem?_eq_none hge] at hj'
          cases hj'
        have : j = b.vars.length := by simp at hlt; omega
        subst this
        simp [stg] at hj'
        subst hj'
        exact Nat.zero_le _
  | stage e =>
    obtain ⟨h1, h2, h3⟩ := hok
    have hg := hexpr e h1 h2 h3
    obtain ⟨w1, p1, r1, m1⟩ := hg b hi.wf List.prefix_rfl
    obtain ⟨e1, w2, p2, l2, s2, h2', d2, _, m2⟩ := addStage_spec w1 r1 id
    refine ⟨((visit v0 (look us) e b).2).vars.length, by rw [← e1]; rfl, hi.extend w2 (p1.trans p2) (by
      show _ < (B.addStage v0 _ _ _).2.vars.length
      omega) h2' s2 ?_, p1.trans p2, fun _ hm => m2 (m1 hm)⟩
    show dget (dens v0 inp (B.addStage v0 _ _ _).2.vars) _ = _
    rw [d2]
    funext t
    simp only [Cmd.spec, Option.map_id_fun, id]
    rfl
  | acc f init e =>
    obtain ⟨h1, h3, k0, hk0, hk1⟩ := hok
    have hg := hexpr e h1 (List.ne_nil_of_mem hk0) h3
    have hany : (e.fv.any fun k => hs.getD k false) = true := List.any_eq_true.2 ⟨k0, hk0, hk1⟩
    rw [hany] at hg
    obtain ⟨w1, p1, r1, m1⟩ := hg b hi.wf List.prefix_rfl
    obtain ⟨e1, w2, p2, l2, s2, h2', d2⟩ := addReg_spec w1 r1 f init (fun h => by cases h)
    refine ⟨((visit v0 (look us) e b).2).vars.length, by rw [← e1]; rfl, hi.extend w2 (p1.trans p2) (by
      show _ < (B.addReg _ _ _ _).2.vars.length
      omega) (by rw [Cmd.hv, hany]; exact h2') s2 ?_, p1.trans p2, fun h => absurd rfl (h f init e)⟩
    exact d2
  | prev v d =>
    obtain ⟨h1, h2⟩ := hok
    have hv : v < us.length := by rw [← hi.len1]; exact h1
    obtain ⟨i1, i2, i3, is, i4, i5, i6⟩ := prevs_spec (v0 := v0) (inp := inp) (dget U v) d 0 b (look us v) hi.wf (hi.lt v hv)
      (by rw [hi.hv v hv, h2]) (by rw [hi.den v hv]; funext t; simp [prevStream])
    refine ⟨_, rfl, hi.extend i1 i2 i3 (by rw [Cmd.hv, h2]; exact i4) (is.trans (hi.st v hv)) ?_, i2, fun _ => i6⟩
    show dget (dens v0 inp (prevs v0 d (look us v) b).2.vars) _ = _
    rw [i5, Nat.zero_add]
    rfl

theorem build_prefix (cs : List (Cmd V)) (us : List ℕ) (b : B V) :
    us <+: (build v0 cs (us, b)).1 := by
  induction cs generalizing us b with
  | nil => exact List.prefix_rfl
  | cons c cs ih =>
    have h := ih (c.run v0 us b).1 (c.run v0 us b).2
    refine List.IsPrefix.trans ?_ h
    cases c <;> exact List.prefix_append _ _

theorem look_prefix {us us' : List ℕ} (h : us <+: us') {i : ℕ} (hi : i < us.length) : look us' i = look us i := by
  obtain ⟨ws, rfl⟩ := h
  simp [look, List.getD_eq_getElem?_getD, List.getElem?_append_left hi]

theorem build_inv (cs : List (Cmd V)) : ∀ (us : List ℕ) (b : B V) (hs : List Bool) (S : List ℕ)
    (U : List (ℕ → Option V)), Inv v0 inp us b hs S U → OkAll hs cs → ∀ ports : ℕ → Bool → ℕ → Option V,
    (∀ i h, ports i h = portDen inp h (look (build v0 cs (us, b)).1 i)) →
    Inv v0 inp (build v0 cs (us, b)).1 (build v0 cs (us, b)).2 (hvAll hs cs) (latAll S cs) (specAll v0 ports cs U) ∧
    b.vars <+: (build v0 cs (us, b)).2.vars ∧
    ((∀ f init e, Cmd.acc f init e ∉ cs) → MaxOk b → MaxOk (build v0 cs (us, b)).2) := by
  induction cs with
  | nil => intro us b hs S U hi _ ports _; exact ⟨hi, List.prefix_rfl, fun _ => id⟩
  | cons c cs ih =>
    intro us b hs S U hi hok ports hp
    have hport : ∀ h, ports U.length h = portDen inp h b.vars.length ∨ ∀ h, c ≠ .input h := by
      intro h
      cases c with
      | input hv =>
        left
        rw [hp, hi.len2]
        congr 1
        have : look (build v0 (Cmd.input hv :: cs) (us, b)).1 us.length = look (us ++ [b.vars.length]) us.length :=
          look_prefix (build_prefix cs (us ++ [b.vars.length]) _) (by simp)
        rw [this, look_snoc_eq]
      | _ => right; intro h hc; cases hc
    -- the port is used only by `input`
    have hspec : c.spec v0 (ports U.length) U = c.spec v0 (fun h => portDen inp h b.vars.length) U := by
      cases c with
      | input hv =>
        rcases hport hv with h | h
        · exact h
        · exact absurd rfl (h hv)
      | _ => rfl
    obtain ⟨k, e1, i1, p1, m1⟩ := run_spec (fun h => portDen inp h b.vars.length) hi c hok.1 (fun _ => rfl)
    have hb : build v0 (c :: cs) (us, b) = build v0 cs (us ++ [k], (c.run v0 us b).2) := by
      show build v0 cs (c.run v0 us b) = _
      rw [← e1]
    rw [hb] at hp ⊢
    rw [← hspec] at i1
    obtain ⟨i2, p2, m2⟩ := ih _ _ _ _ _ i1 hok.2 ports hp
    refine ⟨i2, p1.trans p2, fun hna hm => m2 (fun f init e hmem => hna f init e (by simp [hmem])) (m1 (fun f init e hc => ?_) hm)⟩
    exact hna f init e (by simp [hc])

theorem outDelay_spec (cut : V → V) (n : ℕ) : ∀ (b : B V) (k s : ℕ), Wf v0 b.vars → k < b.vars.length →
    stg b.vars k = some s → (∀ t x, dget (dens v0 inp b.vars) k t = some x → cut x = x) →
    Wf v0 (outDelay v0 cut n k b).2.vars ∧ b.vars <+: (outDelay v0 cut n k b).2.vars ∧
    (outDelay v0 cut n k b).1 < (outDelay v0 cut n k b).2.vars.length ∧
    stg (outDelay v0 cut n k b).2.vars (outDelay v0 cut n k b).1 = some (s + n) ∧
    hvOf (outDelay v0 cut n k b).2.vars (outDelay v0 cut n k b).1 = hvOf b.vars k ∧
    dget (dens v0 inp (outDelay v0 cut n k b).2.vars) (outDelay v0 cut n k b).1 = dget (dens v0 inp b.vars) k := by
  induction n with
  | zero => intro b k s hw hk hs _; exact ⟨hw, List.prefix_rfl, hk, hs, rfl, rfl⟩
  | succ n ih =>
    intro b k s hw hk hs hcut
    obtain ⟨w1, p1, r1, _⟩ := visitVar_good (v0 := v0) (inp := inp) hk hs b hw List.prefix_rfl
    obtain ⟨e1, w2, p2, l2, s2, h2, d2, _, _⟩ := addStage_spec w1 r1 cut
    have hd : dget (dens v0 inp ((visitVar k b).2.addStage v0 (visitVar k b).1 cut).2.vars) b.vars.length =
        dget (dens v0 inp b.vars) k := by
      show dget (dens v0 inp ((visitVar k b).2.addStage v0 (visitVar k b).1 cut).2.vars) (visitVar k b).2.vars.length = _
      rw [d2]
      funext t
      cases h : dget (dens v0 inp b.vars) k t with
      | none => rfl
      | some x => rw [Option.map_some, hcut t x h]
    obtain ⟨i1, i2, i3, i4, i5, i6⟩ := ih ((visitVar k b).2.addStage v0 (visitVar k b).1 cut).2 b.vars.length (s + 1) w2
      (by rw [l2]; exact Nat.lt_succ_self _) s2 (by rw [hd]; exact hcut)
    refine ⟨i1, p2.trans i2, i3, ?_, ?_, ?_⟩
    · rw [show s + (n + 1) = s + 1 + n by omega]; exact i4
    · exact i5.trans h2
    · exact i6.trans hd

theorem outDelay_max (cut : V → V) (n : ℕ) : ∀ (b : B V) (k s : ℕ), stg b.vars k = some s → s + n ≤ b.maxStage →
    (outDelay v0 cut n k b).2.maxStage = b.maxStage := by
  induction n with
  | zero => intro b k s _ _; rfl
  | succ n ih =>
    intro b k s hs hle
    have hst : b.stage k = some s := hs
    have hmax : ((visitVar k b).2.addStage v0 (visitVar k b).1 cut).2.maxStage = b.maxStage := by
      show (match b.stage k with | none => b.maxStage | some s => max b.maxStage (s + 1)) = _
      rw [hst]
      show max b.maxStage (s + 1) = b.maxStage
      omega
    have := ih ((visitVar k b).2.addStage v0 (visitVar k b).1 cut).2 b.vars.length (s + 1) (by
      show stg (b.vars ++ [_]) b.vars.length = _
      simp only [stg, List.getElem?_concat_length, Option.bind_some]
      show (b.stage k).map (· + 1) = _
      rw [hst]
      rfl) (by rw [hmax]; omega)
    exact this.trans hmax

theorem outputs_spec (cut : V → V) (ks : List ℕ) : ∀ b : B V, Wf v0 b.vars →
    (∀ k ∈ ks, k < b.vars.length ∧ (∃ s, stg b.vars k = some s ∧ s ≤ b.maxStage) ∧
      ∀ t x, dget (dens v0 inp b.vars) k t = some x → cut x = x) →
    Wf v0 (outputs v0 cut ks b).2.vars ∧ b.vars <+: (outputs v0 cut ks b).2.vars ∧
    (outputs v0 cut ks b).2.maxStage = b.maxStage ∧ (outputs v0 cut ks b).1.length = ks.length ∧
    ∀ (j k o : ℕ), ks[j]? = some k → (outputs v0 cut ks b).1[j]? = some o →
      o < (outputs v0 cut ks b).2.vars.length ∧ stg (outputs v0 cut ks b).2.vars o = some b.maxStage ∧
      hvOf (outputs v0 cut ks b).2.vars o = hvOf b.vars k ∧
      dget (dens v0 inp (outputs v0 cut ks b).2.vars) o = dget (dens v0 inp b.vars) k := by
  induction ks with
  | nil => intro b hw _; exact ⟨hw, List.prefix_rfl, rfl, rfl, fun j k o hj => by cases hj⟩
  | cons k0 ks ih =>
    intro b hw hks
    obtain ⟨hk, ⟨s, hs, hle⟩, hcut⟩ := hks k0 (by simp)
    have hst : b.stage k0 = some s := hs
    have hmk : makeOutput v0 cut k0 b = outDelay v0 cut (b.maxStage - s) k0 b := by rw [makeOutput, hst]
    obtain ⟨d1, d2, d3, d4, d5, d6⟩ := outDelay_spec (v0 := v0) (inp := inp) cut (b.maxStage - s) b k0 s hw hk hs hcut
    have dm := outDelay_max (v0 := v0) cut (b.maxStage - s) b k0 s hs (by omega)
    rw [← hmk] at d1 d2 d3 d4 d5 d6 dm
    rw [show s + (b.maxStage - s) = b.maxStage by omega] at d4
    obtain ⟨i1, i2, i3, i4, i5⟩ := ih (makeOutput v0 cut k0 b).2 d1 (by
      intro k hkm
      obtain ⟨a1, ⟨s', a2, a3⟩, a4⟩ := hks k (by simp [hkm])
      refine ⟨Nat.lt_of_lt_of_le a1 d2.length_le, ⟨s', ?_, by rw [dm]; exact a3⟩, ?_⟩
      · rw [stg_ext d2 a1]; exact a2
      · rw [dens_ext v0 inp d2 k a1]; exact a4)
    simp only [outputs]
    refine ⟨i1, d2.trans i2, i3.trans dm, by simp [i4], ?_⟩
    intro j k o hj ho
    cases j with
    | zero =>
      rw [List.getElem?_cons_zero, Option.some.injEq] at hj ho
      subst hj ho
      refine ⟨Nat.lt_of_lt_of_le d3 i2.length_le, ?_, ?_, ?_⟩
      · rw [stg_ext i2 d3]; exact d4
      · rw [hvOf_ext i2 d3]; exact d5
      · rw [dens_ext v0 inp i2 _ d3]; exact d6
    | succ j =>
      rw [List.getElem?_cons_succ] at hj ho
      obtain ⟨x1, x2, x3, x4⟩ := i5 j k o hj ho
      have hkl : k < b.vars.length := (hks k (by simp [List.mem_of_getElem? hj])).1
      refine ⟨x1, ?_, ?_, ?_⟩
      · rw [x2, dm]
      · rw [x3, hvOf_ext d2 hkl]
      · rw [x4, dens_ext v0 inp d2 k hkl]

/-! ## Theorems -/

variable (v0) in
/-- The variables of the user and the pipeline after a program. -/
def prog (cs : List (Cmd V)) : List ℕ × B V := build v0 cs ([], B.empty)

/-- The input port a call declares, in terms of the values driven on the ports of the network. -/
def portOf (inp : ℕ → PIn V) (us : List ℕ) (i : ℕ) (hv : Bool) (t : ℕ) : Option V :=
  if !hv || (inp t).valid (look us i) then some ((inp t).data (look us i)) else none

theorem length_latAll (cs : List (Cmd V)) (ss : List ℕ) : (latAll ss cs).length = ss.length + cs.length := by
  induction cs generalizing ss with
  | nil => rfl
  | cons c cs ih => simp only [latAll, ih, List.length_append, List.length_cons, List.length_nil]; omega

theorem prog_inv (cs : List (Cmd V)) (hok : OkAll [] cs) : Inv v0 inp (prog v0 cs).1 (prog v0 cs).2 (hvAll [] cs) (latAll [] cs)
      (specAll v0 (portOf inp (prog v0 cs).1) cs []) ∧
    ((∀ f init e, Cmd.acc f init e ∉ cs) → MaxOk (prog v0 cs).2) := by
  have h0 : Inv v0 inp [] (B.empty : B V) [] [] [] := by
    refine ⟨?_, rfl, rfl, rfl, ?_, ?_, ?_, ?_⟩
    · intro k v hk; simp [B.empty] at hk
    all_goals intro i hi; simp at hi
  obtain ⟨h1, _, h3⟩ := build_inv cs [] B.empty [] [] [] h0 hok (portOf inp (prog v0 cs).1) (fun i h => rfl)
  refine ⟨h1, fun h => h3 h ?_⟩
  intro k n hk
  simp [B.empty, stg] at hk

theorem length_prog (cs : List (Cmd V)) (hok : OkAll [] cs) : (prog v0 cs).1.length = cs.length := by
  have h := (prog_inv (v0 := v0) (inp := fun _ => ⟨fun _ => v0, fun _ => false⟩) cs hok).1.len3
  rw [← h, length_latAll]
  simp

/-- **C59.** In a pipeline without `ready`, the variable a call returned shows, some number of cycles after the inputs, what the
    expression of the call gives on the values of its variables of one and the same cycle; the number is one more than that of
    the latest operand, whatever the stages of the operands are; a variable with a valid shows nothing before. -/
theorem c59_align (cs : List (Cmd V)) (hok : OkAll [] cs) (r : PRun v0 (prog v0 cs).2.vars) (i n : ℕ)
    (hn : (latAll [] cs)[i]? = some n) :
    (∀ t, r.obs (t + n) (look (prog v0 cs).1 i) = dget (specAll v0 (portOf r.inp (prog v0 cs).1) cs []) i t) ∧
    ((hvAll [] cs)[i]? = some true → ∀ t < n, r.obs t (look (prog v0 cs).1 i) = none) := by
  obtain ⟨hi, _⟩ := prog_inv (v0 := v0) (inp := r.inp) cs hok
  have hlt : i < (prog v0 cs).1.length := by
    rw [← hi.len3]; exact (List.getElem?_eq_some_iff.1 hn).1
  have hk := hi.lt i hlt
  have hst := hi.st i hlt
  have hS : (latAll [] cs).getD i 0 = n := by rw [List.getD_eq_getElem?_getD, hn]; rfl
  rw [hS] at hst
  have hg := List.getElem?_eq_getElem hk
  have hst' : ((prog v0 cs).2.vars[look (prog v0 cs).1 i]).stage = some n := by simpa [stg, hg] using hst
  obtain ⟨a1, a2⟩ := net_align hi.wf r _ _ n hg hst'
  refine ⟨fun t => by rw [a1, hi.den i hlt], fun hh => a2 ?_⟩
  have := hi.hv i hlt
  rw [List.getD_eq_getElem?_getD, hh] at this
  simpa [hvOf, hg] using this

/-- **C59, outputs.** With registers inserted for the outputs, all outputs of a program without accumulators show the values of the
    same inputs in the same cycle, provided the default width of the pipeline (`cut`) keeps these values. -/
theorem c59_output (cut : V → V) (cs : List (Cmd V)) (hok : OkAll [] cs) (hacc : ∀ f init e, Cmd.acc f init e ∉ cs)
    (os : List ℕ) (r : PRun v0 (outputs v0 cut (os.map (look (prog v0 cs).1)) (prog v0 cs).2).2.vars)
    (hos : ∀ i ∈ os, i < cs.length)
    (hcut : ∀ i ∈ os, ∀ t x, dget (specAll v0 (portOf r.inp (prog v0 cs).1) cs []) i t = some x → cut x = x)
    (j i o : ℕ) (hj : os[j]? = some i)
    (ho : (outputs v0 cut (os.map (look (prog v0 cs).1)) (prog v0 cs).2).1[j]? = some o) :
    (∀ t, r.obs (t + (prog v0 cs).2.maxStage) o = dget (specAll v0 (portOf r.inp (prog v0 cs).1) cs []) i t) ∧
    ((hvAll [] cs)[i]? = some true → ∀ t < (prog v0 cs).2.maxStage, r.obs t o = none) := by
  obtain ⟨hi, hm⟩ := prog_inv (v0 := v0) (inp := r.inp) cs hok
  have hm := hm hacc
  have hl := length_prog (v0 := v0) cs hok
  obtain ⟨w, p, _, _, h5⟩ := outputs_spec (v0 := v0) (inp := r.inp) cut (os.map (look (prog v0 cs).1)) (prog v0 cs).2 hi.wf (by
    intro k hk
    obtain ⟨i, him, rfl⟩ := List.mem_map.1 hk
    have hlt : i < (prog v0 cs).1.length := by rw [hl]; exact hos i him
    exact ⟨hi.lt i hlt, ⟨_, hi.st i hlt, hm _ _ (hi.st i hlt)⟩, by rw [hi.den i hlt]; exact hcut i him⟩)
  have hlt : i < (prog v0 cs).1.length := by rw [hl]; exact hos i (List.mem_of_getElem? hj)
  obtain ⟨x1, x2, x3, x4⟩ := h5 j (look (prog v0 cs).1 i) o (by rw [List.getElem?_map, hj]; rfl) ho
  have hg := List.getElem?_eq_getElem x1
  obtain ⟨a1, a2⟩ := net_align w r _ _ (prog v0 cs).2.maxStage hg (by simpa [stg, hg] using x2)
  refine ⟨fun t => by rw [a1, x4, hi.den i hlt], fun hh => a2 ?_⟩
  rw [hi.hv i hlt, List.getD_eq_getElem?_getD, hh] at x3
  simpa [hvOf, hg] using x3

/-- **C59, last stage.** The outputs of a program without accumulators are as late as the latest variable at least. -/
theorem c59_max (cs : List (Cmd V)) (hok : OkAll [] cs) (hacc : ∀ f init e, Cmd.acc f init e ∉ cs) (i n : ℕ)
    (hn : (latAll [] cs)[i]? = some n) : n ≤ (prog v0 cs).2.maxStage := by
  obtain ⟨hi, hm⟩ := prog_inv (v0 := v0) (inp := fun _ => ⟨fun _ => v0, fun _ => false⟩) cs hok
  have hlt : i < (prog v0 cs).1.length := by
    rw [← hi.len3]; exact (List.getElem?_eq_some_iff.1 hn).1
  refine hm hacc _ _ ((hi.st i hlt).trans ?_)
  rw [List.getD_eq_getElem?_getD, hn]
  rfl

/-! ## Runs and cases -/

/-- The registers of a pipeline after some cycles. -/
def PSt.after (v0 : V) (vars : List (PVar V)) (inp : ℕ → PIn V) : ℕ → PSt V
  | 0 => PSt.init v0 vars
  | t + 1 => (PSt.after v0 vars inp t).step vars (inp t)

variable (v0) in
/-- The run on given inputs. -/
def PRun.of (vars : List (PVar V)) (inp : ℕ → PIn V) : PRun v0 vars := ⟨inp, PSt.after v0 vars inp, rfl, fun _ => rfl⟩

/-- A binary operator on numbers. -/
def PExpr.bin (f : ℕ → ℕ → ℕ) (a b : PExpr ℕ) : PExpr ℕ :=
  .op 2 (fun l => f (l.getD 0 0) (l.getD 1 0)) fun i => if i = 0 then a else b

/-- `x`, `y`; `a = p(x + 1)`; `b = p(a * y)`: `y` goes through one register; `c = p(b + (x + y))`: `x + y` through two; the sum of
    `b`; the `b` before the last. -/
def exPipe : List (Cmd ℕ) :=
  [.input true, .input true, .stage (.bin (· + ·) (.var 0) (.const 1)), .stage (.bin (· * ·) (.var 2) (.var 1)),
   .stage (.bin (· + ·) (.var 3) (.bin (· + ·) (.var 0) (.var 1))), .acc (· + ·) 0 (.var 3), .prev 3 2]

/-- Inputs: `x` has a value in every cycle, `y` in cycles not divisible by 3. -/
def exPipeIn (t : ℕ) : PIn ℕ := ⟨fun k => if k = 0 then t + 1 else 10 * t, fun k => k == 0 || t % 3 != 0⟩

theorem exPipe_ok : OkAll [] exPipe := by
  refine ⟨trivial, trivial, ⟨?_, ?_, ?_⟩, ⟨?_, ?_, ?_⟩, ⟨?_, ?_, ?_⟩, ⟨trivial, by decide, 3, by decide, by decide⟩, ⟨by decide, by decide⟩, trivial⟩
  · intro i; match i with
    | 0 => trivial
    | 1 => trivial
  · decide
  · decide
  · intro i; match i with
    | 0 => trivial
    | 1 => trivial
  · decide
  · decide
  · intro i; match i with
    | 0 => trivial
    | 1 =>
      intro i; match i with
      | 0 => trivial
      | 1 => trivial
  · decide
  · decide

-- stages: the inputs, then 1, 2, 3; the sum is one later than `b`, the previous value on the stage of `b`
example : latAll [] exPipe = [0, 0, 1, 2, 3, 3, 2] := by decide
example : hvAll [] exPipe = [true, true, true, true, true, true, true] := by decide
example : (prog 0 exPipe).1 = [0, 1, 2, 4, 7, 8, 10] := by decide +kernel

-- `c59_align` on this pipeline: `c` of the inputs of cycle 4 is seen in cycle 7
example : (PRun.of 0 (prog 0 exPipe).2.vars exPipeIn).obs 7 7 = some ((5 + 1) * 40 + (5 + 40)) := by decide +kernel
example : dget (specAll 0 (portOf exPipeIn (prog 0 exPipe).1) exPipe []) 4 4 = some ((5 + 1) * 40 + (5 + 40)) := by decide +kernel
-- nothing comes out for a cycle in which `y` has no value
example : (PRun.of 0 (prog 0 exPipe).2.vars exPipeIn).obs 6 7 = none := by decide +kernel
-- the sum of the `b` of cycles 1, 2, 4, in cycle 7
example : (PRun.of 0 (prog 0 exPipe).2.vars exPipeIn).obs 7 8 = some (3 * 10 + 4 * 20 + 6 * 40) := by decide +kernel
-- the `b` of cycle 1 with the `b` of cycle 4
example : (PRun.of 0 (prog 0 exPipe).2.vars exPipeIn).obs 6 10 = some (3 * 10) := by decide +kernel

/-- The same without the accumulator and `prev`. -/
def exPipe' : List (Cmd ℕ) := exPipe.take 5

theorem exPipe'_ok : OkAll [] exPipe' := by
  obtain ⟨h0, h1, h2, h3, h4, _⟩ := exPipe_ok
  exact ⟨h0, h1, h2, h3, h4, trivial⟩

example : ∀ f init e, Cmd.acc f init e ∉ exPipe' := by
  intro f init e h
  simp [exPipe', exPipe] at h

-- `c59_output`: `a` and `c` as outputs, 3 cycles after the inputs
example : (prog 0 exPipe').2.maxStage = 3 ∧ (outputs 0 id ([2, 4].map (look (prog 0 exPipe').1)) (prog 0 exPipe').2).1 = [9, 7] := by
  decide +kernel
example : (PRun.of 0 (outputs 0 id [2, 7] (prog 0 exPipe').2).2.vars exPipeIn).obs 7 9 = some (5 + 1) ∧
    (PRun.of 0 (outputs 0 id [2, 7] (prog 0 exPipe').2).2.vars exPipeIn).obs 7 7 = some ((5 + 1) * 40 + (5 + 40)) := by
  decide +kernel

/-- **C59, negation: unary operators.** `stage` of a unary operator is `stage` of its operand. -/
theorem c59_not_unary : ∃ (r : PRun 0 (prog 0 [Cmd.input true, .stage (.un (fun v => 255 - v) (.var 0))]).2.vars) (t : ℕ),
    r.obs (t + 1) (look (prog 0 [Cmd.input true, .stage (.un (fun v => 255 - v) (.var 0))]).1 1) ≠
      dget (specAll 0 (portOf r.inp (prog 0 [Cmd.input true, .stage (.un (fun v => 255 - v) (.var 0))]).1)
        [Cmd.input true, .stage (.un (fun v => 255 - v) (.var 0))] []) 1 t :=
  ⟨PRun.of 0 _ exPipeIn, 0, by decide +kernel⟩

/-- **C59, negation: accumulators.** With an accumulator on the last stage the outputs do not show the values of the same inputs: the
    stage of an accumulator does not count in `max_stage_id`, and no register is inserted for the other output. -/
theorem c59_not_acc : OkAll [] [Cmd.input true, .acc (· + ·) 0 (.var 0)] ∧
    ∃ (r : PRun 0 (outputs 0 id [0, 1] (prog 0 [Cmd.input true, .acc (· + ·) 0 (.var 0)]).2).2.vars) (o o' : ℕ),
      (outputs 0 id [0, 1] (prog 0 [Cmd.input true, .acc (· + ·) 0 (.var 0)]).2).1 = [o, o'] ∧
      r.obs 0 o = some 1 ∧ r.obs 0 o' = none ∧ r.obs 1 o = some 2 ∧ r.obs 1 o' = some 1 :=
  ⟨⟨trivial, ⟨trivial, by decide, 0, by decide, by decide⟩, trivial⟩,
    PRun.of 0 _ exPipeIn, 0, 1, by decide +kernel, by decide +kernel, by decide +kernel, by decide +kernel, by decide +kernel⟩

/-- **C59, negation: wide outputs.** The registers inserted for outputs have the default width: of a 40-bit value the lowest 32 bits
    come out. -/
theorem c59_not_width : OkAll [] [(Cmd.input true : Cmd ℕ), .stage (.var 0)] ∧
    ∃ (r : PRun 0 (outputs 0 (· % 2 ^ 32) [0, 1] (prog 0 [Cmd.input true, .stage (.var 0)]).2).2.vars) (o o' : ℕ),
      (outputs 0 (· % 2 ^ 32) [0, 1] (prog 0 [Cmd.input true, .stage (.var 0)]).2).1 = [o, o'] ∧
      r.obs 0 0 = some (2 ^ 39 + 7) ∧ r.obs 1 o = some 7 ∧ r.obs 1 o' = some (2 ^ 39 + 7) :=
  ⟨⟨trivial, ⟨trivial, by decide, by decide⟩, trivial⟩,
    PRun.of 0 _ fun t => ⟨fun _ => 2 ^ 39 + 7, fun _ => t == 0⟩, 2, 1, by decide +kernel, by decide +kernel, by decide +kernel,
    by decide +kernel⟩

/-- **C59, negation: constants.** `stage` of a constant is 0 in the first cycle, and so enters what is computed from the first
    inputs. -/
theorem c59_not_const : ∃ (r : PRun 0 (prog 0 [Cmd.input true, .stage (.const 5), .stage (.bin (· + ·) (.var 0) (.var 1))]).2.vars),
    (r.inp 0).data 0 = 1 ∧ (r.inp 0).valid 0 = true ∧ r.obs 1 2 = some 1 ∧ r.obs 2 2 = some (2 + 5) :=
  ⟨PRun.of 0 _ exPipeIn, by decide +kernel, by decide +kernel, by decide +kernel, by decide +kernel⟩

end Pipe
