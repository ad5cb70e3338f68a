import Verif.Lemmas.ThreadNames
import Verif.Props.C19_Thread

/-! C88: the names of a thread function denote the variables Python says. -/

namespace Nam
open Hdl Thr

/-! ## Meaning of the statements in Python -/

/-- The local variables of one call: unbound, or a number. -/
abbrev Loc := String → Option ℤ

/-- The value fits the registers of the thread. -/
def Fits (w : ℕ) (v : ℤ) : Prop := 0 < w ∧ -2 ^ (w - 1) ≤ v ∧ v < 2 ^ (w - 1)

/-- The value of an expression; an unbound name raises. -/
def SE.val (get : String → Option ℤ) : SE → Option ℤ
  | .lit z => some z
  | .name n => get n
  | .op f a b => (a.val get).bind fun x => (b.val get).bind fun y => some (f x y)

def valAll (get : String → Option ℤ) : List SE → Option (List ℤ)
  | [] => some []
  | e :: es => (e.val get).bind fun v => (valAll get es).bind fun vs => some (v :: vs)

/-- Assignments from left to right. -/
def setAll : List String → List ℤ → Loc → Loc
  | x :: xs, v :: vs, l => setAll xs vs (Function.update l x (some v))
  | _, _, l => l

/-- How statements end; `ret none` is a `return` without value. -/
inductive POut
  | norm | brk | cont | ret (v : Option ℤ)
  deriving DecidableEq

def POut.out : POut → Out
  | .norm => .norm
  | .brk => .brk
  | .cont => .cont
  | .ret _ => .ret

/-- The result of a call whose body ends in this way; `none` is `None`. -/
def POut.result : POut → Option (Option ℤ)
  | .norm => some none
  | .ret v => some v
  | _ => none

section
variable (outer : String → Option ℤ) (fs : String → Option FDef) (w : ℕ)

/-- Python: a name is looked up in the local variables of the call if it is local to the function (a parameter, or assigned
    anywhere in it), and else outside. -/
def pyGet (L : List String) (l : Loc) (n : String) : Option ℤ := if n ∈ L then l n else outer n

/-- Execution of the statements of a function with local names `L`; every call has its own local variables.  `for` is
    executed like the `while` loop of C19 (`c19_range` says when this is the loop of Python).  No value exceeds the registers. -/
inductive Py : List String → Src → Loc → POut → Loc → Prop
  | nil {L l} : Py L .nil l .norm l
  | asg {L xs es rest l vs o l'} : xs.length = es.length → valAll (pyGet outer L l) es = some vs → (∀ v ∈ vs, Fits w v) →
      Py L rest (setAll xs vs l) o l' → Py L (.asg xs es rest) l o l'
  | aug {L x f e rest l a b o l'} : l x = some a → e.val (pyGet outer L l) = some b → Fits w (f a b) →
      Py L rest (Function.update l x (some (f a b))) o l' → Py L (.aug x f e rest) l o l'
  | ifT {L c p q rest l v l1 o l'} : c.val (pyGet outer L l) = some v → v ≠ 0 → Py L p l .norm l1 → Py L rest l1 o l' →
      Py L (.ifte c p q rest) l o l'
  | ifTx {L c p q rest l v o l1} : c.val (pyGet outer L l) = some v → v ≠ 0 → Py L p l o l1 → o ≠ .norm →
      Py L (.ifte c p q rest) l o l1
  | ifF {L c p q rest l l1 o l'} : c.val (pyGet outer L l) = some 0 → Py L q l .norm l1 → Py L rest l1 o l' →
      Py L (.ifte c p q rest) l o l'
  | ifFx {L c p q rest l o l1} : c.val (pyGet outer L l) = some 0 → Py L q l o l1 → o ≠ .norm →
      Py L (.ifte c p q rest) l o l1
  | whileEnd {L c p rest l o l'} : c.val (pyGet outer L l) = some 0 → Py L rest l o l' → Py L (.while_ c p rest) l o l'
  | whileAgain {L c p rest l v o1 l1 o l'} : c.val (pyGet outer L l) = some v → v ≠ 0 → Py L p l o1 l1 →
      (o1 = .norm ∨ o1 = .cont) → Py L (.while_ c p rest) l1 o l' → Py L (.while_ c p rest) l o l'
  | whileBrk {L c p rest l v l1 o l'} : c.val (pyGet outer L l) = some v → v ≠ 0 → Py L p l .brk l1 → Py L rest l1 o l' →
      Py L (.while_ c p rest) l o l'
  | whileRet {L c p rest l v r l1} : c.val (pyGet outer L l) = some v → v ≠ 0 → Py L p l (.ret r) l1 →
      Py L (.while_ c p rest) l (.ret r) l1
  | loopEnd {L i e s p rest l a b o l'} : l i = some a → e.val (pyGet outer L l) = some b → ¬ a < b → Py L rest l o l' →
      Py L (.loop i e s p rest) l o l'
  | loopAgain {L i e s p rest l a b o1 l1 a1 d o l'} : l i = some a → e.val (pyGet outer L l) = some b → a < b →
      Py L p l o1 l1 → (o1 = .norm ∨ o1 = .cont) → l1 i = some a1 → s.val (pyGet outer L l1) = some d → Fits w (a1 + d) →
      Py L (.loop i e s p rest) (Function.update l1 i (some (a1 + d))) o l' → Py L (.loop i e s p rest) l o l'
  | loopBrk {L i e s p rest l a b l1 o l'} : l i = some a → e.val (pyGet outer L l) = some b → a < b →
      Py L p l .brk l1 → Py L rest l1 o l' → Py L (.loop i e s p rest) l o l'
  | loopRet {L i e s p rest l a b r l1} : l i = some a → e.val (pyGet outer L l) = some b → a < b →
      Py L p l (.ret r) l1 → Py L (.loop i e s p rest) l (.ret r) l1
  | forr {L i b e s p rest l v o l'} : b.val (pyGet outer L l) = some v → Fits w v →
      Py L (.loop i e s p rest) (Function.update l i (some v)) o l' → Py L (.forr i b e s p rest) l o l'
  | brk {L l} : Py L .brk l .brk l
  | cont {L l} : Py L .cont l .cont l
  | retN {L l} : Py L (.ret none) l (.ret none) l
  | ret {L e l v} : e.val (pyGet outer L l) = some v → Fits w v → Py L (.ret (some e)) l (.ret (some v)) l
  | call {L x f fd args rest l vs o1 l1 r o l'} : fs f = some fd → fd.params.length = args.length →
      valAll (pyGet outer L l) args = some vs → (∀ v ∈ vs, Fits w v) →
      Py fd.locals fd.body (setAll fd.params vs fun _ => none) o1 l1 → o1.result = some r →
      Py L rest (Function.update l x r) o l' → Py L (.call x f args rest) l o l'

end

/-! ## Simulation -/

variable {outer : String → Option ℤ} {fs : String → Option FDef} {w : ℕ}

theorem Fits.wrap {v : ℤ} (h : Fits w v) (k : ℕ) : (mk w k).wrap v = v := by
  obtain ⟨hw, h1, h2⟩ := h
  obtain ⟨u, rfl⟩ : ∃ u, w = u + 1 := ⟨w - 1, by omega⟩
  simp only [Nat.add_sub_cancel] at h1 h2
  change Int.bmod v (2 ^ (u + 1)) = v
  have e : (2 : ℤ) ^ u = ((2 ^ u : ℕ) : ℤ) := by push_cast; rfl
  rw [e] at h1 h2
  rw [pow_succ]
  generalize 2 ^ u = m at *
  exact Int.bmod_eq_of_le (by omega) (by omega)

/-- The registers of the frame hold the local variables. -/
def Rel (fr : Fr) (l : Loc) (env : Env) : Prop :=
  ∀ x v, l x = some v → ∃ j, fr.vars.lookup x = some (.reg j) ∧ env (.tmp j) = v

/-- Only registers numbered from `lo` to `hi` differ. -/
def Same (lo hi : ℕ) (env env' : Env) : Prop := ∀ k, k < lo ∨ hi ≤ k → env' (.tmp k) = env (.tmp k)

theorem Same.refl (lo hi : ℕ) (env : Env) : Same lo hi env env := fun _ _ => rfl

theorem Same.trans {lo hi : ℕ} {e1 e2 e3 : Env} (h1 : Same lo hi e1 e2) (h2 : Same lo hi e2 e3) : Same lo hi e1 e3 :=
  fun k hk => (h2 k hk).trans (h1 k hk)

theorem Same.update {lo hi j : ℕ} (h1 : lo ≤ j) (h2 : j < hi) (env : Env) (v : ℤ) :
    Same lo hi env (Function.update env (.tmp j) v) := by
  intro k hk
  rw [Function.update_of_ne]
  intro h
  cases h
  omega

theorem Rel.update {L : List String} {lo k j : ℕ} {fr : Fr} {l : Loc} {env : Env} {x : String} {v : ℤ} (h : Rel fr l env)
    (hi : Inv L lo k fr) (hx : fr.vars.lookup x = some (.reg j)) :
    Rel fr (Function.update l x (some v)) (Function.update env (.tmp j) v) := by
  intro y u hy
  by_cases hxy : y = x
  · subst hxy
    rw [Function.update_self] at hy
    cases hy
    exact ⟨j, hx, Function.update_self ..⟩
  · rw [Function.update_of_ne hxy] at hy
    obtain ⟨i, h1, h2⟩ := h y u hy
    refine ⟨i, h1, ?_⟩
    rw [Function.update_of_ne]
    · exact h2
    · intro hj
      cases hj
      exact hxy (hi.inj y x _ h1 hx)

theorem rexpr_val {L : List String} {lo k n : ℕ} {fr frF : Fr} {base : List Fr} {l : Loc} {env : Env}
    (hL : ∀ x ∈ L, outer x = none) (hi : Inv L lo k fr) (hk : ∀ x r, fr.vars.lookup x = some r → frF.vars.lookup x = some r)
    (hR : Rel frF l env) (e : SE) :
    ∀ {e' : Expr} {v : ℤ}, rexpr outer (St n fr base) e = some e' → e.val (pyGet outer L l) = some v → e'.eval env = v := by
  induction e with
  | lit z => intro e' v h h'; cases h; cases h'; rfl
  | name x =>
    intro e' v h h'
    simp only [rexpr, look_st hi.call] at h
    simp only [SE.val, pyGet] at h'
    by_cases hx : x ∈ L
    · rw [if_pos hx] at h'
      obtain ⟨j, h1, h2⟩ := hR x v h'
      cases hl : fr.vars.lookup x with
      | none => rw [hl] at h; simp [hL x hx] at h
      | some r =>
        have := hk x r hl
        rw [h1] at this
        cases this
        rw [hl] at h
        cases h
        exact h2
    · rw [if_neg hx] at h'
      cases hl : fr.vars.lookup x with
      | none =>
        rw [hl, h'] at h
        cases h
        rfl
      | some r => exact absurd (hi.names x r hl) hx
  | op f a b iha ihb =>
    intro e' v h h'
    simp only [rexpr, Option.bind_eq_some_iff, Option.some.injEq] at h
    simp only [SE.val, Option.bind_eq_some_iff, Option.some.injEq] at h'
    obtain ⟨a', ha, b', hb, rfl⟩ := h
    obtain ⟨x, hx, y, hy, rfl⟩ := h'
    change f (a'.eval env) (b'.eval env) = _
    rw [iha ha hx, ihb hb hy]

theorem rexprs_val {L : List String} {lo k n : ℕ} {fr frF : Fr} {base : List Fr} {l : Loc} {env : Env}
    (hL : ∀ x ∈ L, outer x = none) (hi : Inv L lo k fr) (hk : ∀ x r, fr.vars.lookup x = some r → frF.vars.lookup x = some r)
    (hR : Rel frF l env) (es : List SE) :
    ∀ {es' : List Expr} {vs : List ℤ}, rexprs outer (St n fr base) es = some es' → valAll (pyGet outer L l) es = some vs →
      es'.map (fun e => e.eval env) = vs := by
  induction es with
  | nil => intro es' vs h h'; cases h; cases h'; rfl
  | cons e es ih =>
    intro es' vs h h'
    simp only [rexprs, Option.bind_eq_some_iff, Option.some.injEq] at h
    simp only [valAll, Option.bind_eq_some_iff, Option.some.injEq] at h'
    obtain ⟨a', ha, b', hb, rfl⟩ := h
    obtain ⟨x, hx, y, hy, rfl⟩ := h'
    rw [List.map_cons, rexpr_val hL hi hk hR e ha hx, ih hb hy]

/-- Assigning to several names. -/
theorem binds_rel {L : List String} {lo k : ℕ} {frF : Fr} (hi : Inv L lo k frF) (env : Env) {xs : List String} {js : List ℕ}
    (h : List.Forall₂ (fun x j => frF.vars.lookup x = some (.reg j)) xs js) :
    ∀ {es : List Expr} {vs : List ℤ} {l : Loc} {acc : Env}, es.map (fun e => e.eval env) = vs → (∀ v ∈ vs, Fits w v) →
    Rel frF l acc →
    Rel frF (setAll xs vs l) ((mkBinds w js es).foldl
        (fun acc b => Function.update acc b.1.name (b.1.wrap (b.2.eval env))) acc) ∧
      Same lo k acc ((mkBinds w js es).foldl
        (fun acc b => Function.update acc b.1.name (b.1.wrap (b.2.eval env))) acc) := by
  induction h with
  | nil =>
    intro es vs l acc _ _ hR
    simp only [mkBinds, List.map_nil, List.zip_nil_left, List.foldl_nil, setAll]
    exact ⟨hR, Same.refl _ _ _⟩
  | @cons x j xs js hx _ ih =>
    intro es vs l acc hv hf hR
    cases es with
    | nil =>
      subst hv
      simp only [mkBinds, List.map_nil, List.zip_nil_right, List.foldl_nil, setAll]
      exact ⟨hR, Same.refl _ _ _⟩
    | cons e es =>
      cases hv
      have hb := hi.regs x j hx
      have hfe : Fits w (e.eval env) := hf _ (by simp)
      obtain ⟨r1, r2⟩ := ih (es := es) (acc := Function.update acc (.tmp j) (e.eval env)) rfl
        (fun v hv => hf v (by simp [hv])) (hR.update hi hx)
      simp only [mkBinds, List.map_cons, List.zip_cons_cons, List.foldl_cons, setAll]
      rw [hfe.wrap]
      exact ⟨r1, (Same.update hb.1 hb.2 _ _).trans r2⟩

theorem Rel.keep {k0 k1 : ℕ} {frF : Fr} {l : Loc} {env env' : Env}
    (h : Rel frF l env) (hs : Same k0 k1 env env')
    (hd : ∀ x j, l x ≠ none → frF.vars.lookup x = some (.reg j) → j < k0 ∨ k1 ≤ j) : Rel frF l env' := by
  intro x v hx
  obtain ⟨j, h1, h2⟩ := h x v hx
  exact ⟨j, h1, by rw [hs j (hd x j (by simp [hx]) h1), h2]⟩

theorem Same.mono {lo hi lo' hi' : ℕ} {e e' : Env} (h : Same lo hi e e') (h1 : lo' ≤ lo) (h2 : hi ≤ hi') :
    Same lo' hi' e e' := fun k hk => h k (by omega)

theorem truthy_of {e : Expr} {env : Env} {v : ℤ} (h : e.eval env = v) (hv : v ≠ 0) : e.truthy env = true := by
  simp [Expr.truthy, h, hv]

theorem falsy_of {e : Expr} {env : Env} (h : e.eval env = 0) : e.truthy env = false := by
  simp [Expr.truthy, h]

theorem St_inj {k k' m : ℕ} {fr fr' : Fr} {base : List Fr} (h : (⟨k, St m fr base⟩ : RS) = ⟨k', St m fr' base⟩) :
    k = k' ∧ fr = fr' := by
  simp only [RS.mk.injEq, St] at h
  refine ⟨h.1, ?_⟩
  have := List.append_cancel_left h.2
  simpa using this

/-- What a list of statements does when it is executed as the thread compiler resolves it. -/
def Sim (w : ℕ) (frF : Fr) (lo kF : ℕ) (P : Prog) (env : Env) (o : POut) (l' : Loc) : Prop :=
  ∃ env', Exec (rvReg w frF.rv) P env o.out env' ∧ Same lo kF env env' ∧ Rel frF l' env' ∧
    ∀ v, o = .ret (some v) → ∃ j, frF.rv = some j ∧ env' (.tmp j) = v

theorem norm_ret {o : POut} (h : o.out = .norm) : o = .norm := by cases o <;> simp_all [POut.out]

theorem sim (hO : ∀ f fd, fs f = some fd → ∀ x ∈ fd.locals, outer x = none) {L : List String} {s : Src} {l l' : Loc}
    {o : POut} (h : Py outer fs w L s l o l') :
    ∀ {n m lo k kF : ℕ} {fr frF : Fr} {base : List Fr} {P : Prog} {k' : ℕ} {fr' : Fr} {env : Env},
      resolve outer fs w n s ⟨k, St m fr base⟩ = some (P, ⟨k', St m fr' base⟩) → (∀ x ∈ L, outer x = none) →
      Inv L lo k fr → (∀ x ∈ s.assigned, x ∈ L) → Grow k' fr' kF frF → Inv L lo kF frF → Rel frF l env →
      Sim w frF lo kF P env o l' := by
  induction h with
  | nil =>
    intro n m lo k kF fr frF base P k' fr' env hr hL hi ha hg hF hR
    cases n with
    | zero => cases hr
    | succ n =>
      simp only [resolve, resolveW, Option.some.injEq, Prod.mk.injEq] at hr
      obtain ⟨rfl, -⟩ := hr
      exact ⟨env, .nil, Same.refl _ _ _, hR, fun v hv => by cases hv⟩
  | @asg L xs es rest l vs o l' hlen hv hf _ ih =>
    intro n m lo k kF fr frF base P k' fr' env hr hL hi ha hg hF hR
    cases n with
    | zero => cases hr
    | succ n =>
      simp only [resolve, resolveW, if_pos hlen, Option.bind_eq_some_iff, Option.some.injEq, Prod.mk.injEq] at hr
      obtain ⟨es', he, ⟨js, s1⟩, h1, ⟨P', s2⟩, h2, rfl, h3⟩ := hr
      obtain ⟨k1, fr1, rfl, i1, g1, l1⟩ := storeAll_spec xs h1 hi fun y hy => ha y (by simp [Src.assigned, hy])
      have ha' : ∀ y ∈ rest.assigned, y ∈ L := fun y hy => ha y (by simp [Src.assigned, hy])
      obtain ⟨k2, fr2, rfl, i2, g2⟩ := shape (n + 1) rest L lo m fr1 base k1 _ _ h2 i1 ha'
      obtain ⟨rfl, rfl⟩ := St_inj h3
      have gF := g2.trans hg
      have l1' : List.Forall₂ (fun x j => frF.vars.lookup x = some (.reg j)) xs js :=
        l1.imp fun x j h => gF.keep _ _ h
      have hev := rexprs_val hL hi (fun x r h => gF.keep _ _ (g1.keep _ _ h)) hR es he hv
      obtain ⟨r1, r2⟩ := binds_rel hF env l1' hev hf hR
      obtain ⟨env', e1, e2, e3, e4⟩ := ih (n := n + 1) (m := m) h2 hL i1 ha' hg hF r1
      exact ⟨env', .assign e1, r2.trans e2, e3, e4⟩
  | @aug L x f e rest l a b o l' hx hv hf _ ih =>
    intro n m lo k kF fr frF base P k' fr' env hr hL hi ha hg hF hR
    cases n with
    | zero => cases hr
    | succ n =>
      simp only [resolve, resolveW, Option.bind_eq_some_iff, Option.some.injEq, Prod.mk.injEq] at hr
      obtain ⟨e', he, ⟨j, s1⟩, h1, ⟨P', s2⟩, h2, rfl, h3⟩ := hr
      obtain ⟨k1, fr1, rfl, i1, g1, l1⟩ := store_spec h1 hi (ha x (by simp [Src.assigned]))
      have ha' : ∀ y ∈ rest.assigned, y ∈ L := fun y hy => ha y (by simp [Src.assigned, hy])
      obtain ⟨k2, fr2, rfl, i2, g2⟩ := shape (n + 1) rest L lo m fr1 base k1 _ _ h2 i1 ha'
      obtain ⟨rfl, rfl⟩ := St_inj h3
      have gF := g2.trans hg
      have l1' := gF.keep _ _ l1
      have hev := rexpr_val hL hi (fun x r h => gF.keep _ _ (g1.keep _ _ h)) hR e he hv
      obtain ⟨j', q1, q2⟩ := hR x a hx
      rw [l1'] at q1
      cases q1
      have hb := hF.regs x j l1'
      obtain ⟨env', e1, e2, e3, e4⟩ := ih (n := n + 1) (m := m) (env := Function.update env (.tmp j) (f a b)) h2 hL i1 ha' hg hF (hR.update hF l1')
      refine ⟨env', .assign ?_, (Same.update hb.1 hb.2 _ _).trans e2, e3, e4⟩
      convert e1 using 1
      change Function.update env (.tmp j) ((mk w j).wrap (f (env (.tmp j)) (e'.eval env))) = _
      rw [q2, hev, hf.wrap]
  | @ifT L c p q rest l v l1 o l' hc hv _ _ ihp ihr =>
    intro n m lo k kF fr frF base P k' fr' env hr hL hi ha hg hF hR
    cases n with
    | zero => cases hr
    | succ n =>
      simp only [resolve, resolveW, Option.bind_eq_some_iff, Option.some.injEq, Prod.mk.injEq] at hr
      obtain ⟨c', he, ⟨P1, s1⟩, h1, ⟨P2, s2⟩, h2, ⟨P3, s3⟩, h3, rfl, h4⟩ := hr
      have hap : ∀ y ∈ p.assigned, y ∈ L := fun y hy => ha y (by simp [Src.assigned, hy])
      have haq : ∀ y ∈ q.assigned, y ∈ L := fun y hy => ha y (by simp [Src.assigned, hy])
      have har : ∀ y ∈ rest.assigned, y ∈ L := fun y hy => ha y (by simp [Src.assigned, hy])
      obtain ⟨k1, fr1, rfl, i1, g1⟩ := shape (n + 1) p L lo (m + 1) fr base k _ _ h1 hi hap
      obtain ⟨k2, fr2, rfl, i2, g2⟩ := shape (n + 1) q L lo (m + 1) fr1 base k1 _ _ h2 i1 haq
      obtain ⟨k3, fr3, rfl, i3, g3⟩ := shape (n + 1) rest L lo m fr2 base k2 _ _ h3 i2 har
      obtain ⟨rfl, rfl⟩ := St_inj h4
      have hev := rexpr_val hL hi (fun x r h => hg.keep _ _ (g3.keep _ _ (g2.keep _ _ (g1.keep _ _ h)))) hR c he hc
      obtain ⟨e1, a1, a2, a3, -⟩ := ihp (n := n + 1) (m := m + 1) h1 hL hi hap ((g2.trans g3).trans hg) hF hR
      obtain ⟨e2, b1, b2, b3, b4⟩ := ihr (n := n + 1) (m := m) h3 hL i2 har hg hF a3
      exact ⟨e2, .ifT (truthy_of hev hv) a1 b1, a2.trans b2, b3, b4⟩
  | @ifTx L c p q rest l v o l1 hc hv _ ho ihp =>
    intro n m lo k kF fr frF base P k' fr' env hr hL hi ha hg hF hR
    cases n with
    | zero => cases hr
    | succ n =>
      simp only [resolve, resolveW, Option.bind_eq_some_iff, Option.some.injEq, Prod.mk.injEq] at hr
      obtain ⟨c', he, ⟨P1, s1⟩, h1, ⟨P2, s2⟩, h2, ⟨P3, s3⟩, h3, rfl, h4⟩ := hr
      have hap : ∀ y ∈ p.assigned, y ∈ L := fun y hy => ha y (by simp [Src.assigned, hy])
      have haq : ∀ y ∈ q.assigned, y ∈ L := fun y hy => ha y (by simp [Src.assigned, hy])
      have har : ∀ y ∈ rest.assigned, y ∈ L := fun y hy => ha y (by simp [Src.assigned, hy])
      obtain ⟨k1, fr1, rfl, i1, g1⟩ := shape (n + 1) p L lo (m + 1) fr base k _ _ h1 hi hap
      obtain ⟨k2, fr2, rfl, i2, g2⟩ := shape (n + 1) q L lo (m + 1) fr1 base k1 _ _ h2 i1 haq
      obtain ⟨k3, fr3, rfl, i3, g3⟩ := shape (n + 1) rest L lo m fr2 base k2 _ _ h3 i2 har
      obtain ⟨rfl, rfl⟩ := St_inj h4
      have hev := rexpr_val hL hi (fun x r h => hg.keep _ _ (g3.keep _ _ (g2.keep _ _ (g1.keep _ _ h)))) hR c he hc
      obtain ⟨e1, a1, a2, a3, a4⟩ := ihp (n := n + 1) (m := m + 1) h1 hL hi hap ((g2.trans g3).trans hg) hF hR
      exact ⟨e1, .ifTx (truthy_of hev hv) a1 (fun h => ho (norm_ret h)), a2, a3, a4⟩
  | @ifF L c p q rest l l1 o l' hc _ _ ihq ihr =>
    intro n m lo k kF fr frF base P k' fr' env hr hL hi ha hg hF hR
    cases n with
    | zero => cases hr
    | succ n =>
      simp only [resolve, resolveW, Option.bind_eq_some_iff, Option.some.injEq, Prod.mk.injEq] at hr
      obtain ⟨c', he, ⟨P1, s1⟩, h1, ⟨P2, s2⟩, h2, ⟨P3, s3⟩, h3, rfl, h4⟩ := hr
      have hap : ∀ y ∈ p.assigned, y ∈ L := fun y hy => ha y (by simp [Src.assigned, hy])
      have haq : ∀ y ∈ q.assigned, y ∈ L := fun y hy => ha y (by simp [Src.assigned, hy])
      have har : ∀ y ∈ rest.assigned, y ∈ L := fun y hy => ha y (by simp [Src.assigned, hy])
      obtain ⟨k1, fr1, rfl, i1, g1⟩ := shape (n + 1) p L lo (m + 1) fr base k _ _ h1 hi hap
      obtain ⟨k2, fr2, rfl, i2, g2⟩ := shape (n + 1) q L lo (m + 1) fr1 base k1 _ _ h2 i1 haq
      obtain ⟨k3, fr3, rfl, i3, g3⟩ := shape (n + 1) rest L lo m fr2 base k2 _ _ h3 i2 har
      obtain ⟨rfl, rfl⟩ := St_inj h4
      have hev := rexpr_val hL hi (fun x r h => hg.keep _ _ (g3.keep _ _ (g2.keep _ _ (g1.keep _ _ h)))) hR c he hc
      obtain ⟨e1, a1, a2, a3, -⟩ := ihq (n := n + 1) (m := m + 1) h2 hL i1 haq (g3.trans hg) hF hR
      obtain ⟨e2, b1, b2, b3, b4⟩ := ihr (n := n + 1) (m := m) h3 hL i2 har hg hF a3
      exact ⟨e2, .ifF (falsy_of hev) a1 b1, a2.trans b2, b3, b4⟩
  | @ifFx L c p q rest l o l1 hc _ ho ihq =>
    intro n m lo k kF fr frF base P k' fr' env hr hL hi ha hg hF hR
    cases n with
    | zero => cases hr
    | succ n =>
      simp only [resolve, resolveW, Option.bind_eq_some_iff, Option.some.injEq, Prod.mk.injEq] at hr
      obtain ⟨c', he, ⟨P1, s1⟩, h1, ⟨P2, s2⟩, h2, ⟨P3, s3⟩, h3, rfl, h4⟩ := hr
      have hap : ∀ y ∈ p.assigned, y ∈ L := fun y hy => ha y (by simp [Src.assigned, hy])
      have haq : ∀ y ∈ q.assigned, y ∈ L := fun y hy => ha y (by simp [Src.assigned, hy])
      have har : ∀ y ∈ rest.assigned, y ∈ L := fun y hy => ha y (by simp [Src.assigned, hy])
      obtain ⟨k1, fr1, rfl, i1, g1⟩ := shape (n + 1) p L lo (m + 1) fr base k _ _ h1 hi hap
      obtain ⟨k2, fr2, rfl, i2, g2⟩ := shape (n + 1) q L lo (m + 1) fr1 base k1 _ _ h2 i1 haq
      obtain ⟨k3, fr3, rfl, i3, g3⟩ := shape (n + 1) rest L lo m fr2 base k2 _ _ h3 i2 har
      obtain ⟨rfl, rfl⟩ := St_inj h4
      have hev := rexpr_val hL hi (fun x r h => hg.keep _ _ (g3.keep _ _ (g2.keep _ _ (g1.keep _ _ h)))) hR c he hc
      obtain ⟨e1, a1, a2, a3, a4⟩ := ihq (n := n + 1) (m := m + 1) h2 hL i1 haq (g3.trans hg) hF hR
      exact ⟨e1, .ifFx (falsy_of hev) a1 (fun h => ho (norm_ret h)), a2, a3, a4⟩
  | @whileEnd L c p rest l o l' hc _ ihr =>
    intro n m lo k kF fr frF base P k' fr' env hr hL hi ha hg hF hR
    cases n with
    | zero => cases hr
    | succ n =>
      simp only [resolve, resolveW, Option.bind_eq_some_iff, Option.some.injEq, Prod.mk.injEq] at hr
      obtain ⟨c', he, ⟨P1, s1⟩, h1, ⟨P3, s3⟩, h3, rfl, h4⟩ := hr
      have hap : ∀ y ∈ p.assigned, y ∈ L := fun y hy => ha y (by simp [Src.assigned, hy])
      have har : ∀ y ∈ rest.assigned, y ∈ L := fun y hy => ha y (by simp [Src.assigned, hy])
      obtain ⟨k1, fr1, rfl, i1, g1⟩ := shape (n + 1) p L lo (m + 1) fr base k _ _ h1 hi hap
      obtain ⟨k3, fr3, rfl, i3, g3⟩ := shape (n + 1) rest L lo m fr1 base k1 _ _ h3 i1 har
      obtain ⟨rfl, rfl⟩ := St_inj h4
      have hev := rexpr_val hL hi (fun x r h => hg.keep _ _ (g3.keep _ _ (g1.keep _ _ h))) hR c he hc
      obtain ⟨e2, b1, b2, b3, b4⟩ := ihr (n := n + 1) (m := m) h3 hL i1 har hg hF hR
      exact ⟨e2, .whileEnd .nil (falsy_of hev) b1, b2, b3, b4⟩
  | @whileAgain L c p rest l v o1 l1 o l' hc hv _ ho _ ihp ihw =>
    intro n m lo k kF fr frF base P k' fr' env hr hL hi ha hg hF hR
    have hr0 := hr
    cases n with
    | zero => cases hr
    | succ n =>
      simp only [resolve, resolveW, Option.bind_eq_some_iff, Option.some.injEq, Prod.mk.injEq] at hr
      obtain ⟨c', he, ⟨P1, s1⟩, h1, ⟨P3, s3⟩, h3, rfl, h4⟩ := hr
      have hap : ∀ y ∈ p.assigned, y ∈ L := fun y hy => ha y (by simp [Src.assigned, hy])
      have har : ∀ y ∈ rest.assigned, y ∈ L := fun y hy => ha y (by simp [Src.assigned, hy])
      obtain ⟨k1, fr1, rfl, i1, g1⟩ := shape (n + 1) p L lo (m + 1) fr base k _ _ h1 hi hap
      obtain ⟨k3, fr3, rfl, i3, g3⟩ := shape (n + 1) rest L lo m fr1 base k1 _ _ h3 i1 har
      obtain ⟨rfl, rfl⟩ := St_inj h4
      have hev := rexpr_val hL hi (fun x r h => hg.keep _ _ (g3.keep _ _ (g1.keep _ _ h))) hR c he hc
      obtain ⟨e1, a1, a2, a3, -⟩ := ihp (n := n + 1) (m := m + 1) h1 hL hi hap (g3.trans hg) hF hR
      obtain ⟨e2, b1, b2, b3, b4⟩ := ihw hr0 hL hi ha hg hF a3
      exact ⟨e2, .whileAgain .nil (truthy_of hev hv) a1 (by rcases ho with rfl | rfl <;> simp [POut.out]) b1,
        a2.trans b2, b3, b4⟩
  | @whileBrk L c p rest l v l1 o l' hc hv _ _ ihp ihr =>
    intro n m lo k kF fr frF base P k' fr' env hr hL hi ha hg hF hR
    cases n with
    | zero => cases hr
    | succ n =>
      simp only [resolve, resolveW, Option.bind_eq_some_iff, Option.some.injEq, Prod.mk.injEq] at hr
      obtain ⟨c', he, ⟨P1, s1⟩, h1, ⟨P3, s3⟩, h3, rfl, h4⟩ := hr
      have hap : ∀ y ∈ p.assigned, y ∈ L := fun y hy => ha y (by simp [Src.assigned, hy])
      have har : ∀ y ∈ rest.assigned, y ∈ L := fun y hy => ha y (by simp [Src.assigned, hy])
      obtain ⟨k1, fr1, rfl, i1, g1⟩ := shape (n + 1) p L lo (m + 1) fr base k _ _ h1 hi hap
      obtain ⟨k3, fr3, rfl, i3, g3⟩ := shape (n + 1) rest L lo m fr1 base k1 _ _ h3 i1 har
      obtain ⟨rfl, rfl⟩ := St_inj h4
      have hev := rexpr_val hL hi (fun x r h => hg.keep _ _ (g3.keep _ _ (g1.keep _ _ h))) hR c he hc
      obtain ⟨e1, a1, a2, a3, -⟩ := ihp (n := n + 1) (m := m + 1) h1 hL hi hap (g3.trans hg) hF hR
      obtain ⟨e2, b1, b2, b3, b4⟩ := ihr (n := n + 1) (m := m) h3 hL i1 har hg hF a3
      exact ⟨e2, .whileBrk .nil (truthy_of hev hv) a1 b1, a2.trans b2, b3, b4⟩
  | @whileRet L c p rest l v r l1 hc hv _ ihp =>
    intro n m lo k kF fr frF base P k' fr' env hr hL hi ha hg hF hR
    cases n with
    | zero => cases hr
    | succ n =>
      simp only [resolve, resolveW, Option.bind_eq_some_iff, Option.some.injEq, Prod.mk.injEq] at hr
      obtain ⟨c', he, ⟨P1, s1⟩, h1, ⟨P3, s3⟩, h3, rfl, h4⟩ := hr
      have hap : ∀ y ∈ p.assigned, y ∈ L := fun y hy => ha y (by simp [Src.assigned, hy])
      have har : ∀ y ∈ rest.assigned, y ∈ L := fun y hy => ha y (by simp [Src.assigned, hy])
      obtain ⟨k1, fr1, rfl, i1, g1⟩ := shape (n + 1) p L lo (m + 1) fr base k _ _ h1 hi hap
      obtain ⟨k3, fr3, rfl, i3, g3⟩ := shape (n + 1) rest L lo m fr1 base k1 _ _ h3 i1 har
      obtain ⟨rfl, rfl⟩ := St_inj h4
      have hev := rexpr_val hL hi (fun x r h => hg.keep _ _ (g3.keep _ _ (g1.keep _ _ h))) hR c he hc
      obtain ⟨e1, a1, a2, a3, a4⟩ := ihp (n := n + 1) (m := m + 1) h1 hL hi hap (g3.trans hg) hF hR
      exact ⟨e1, .whileRet .nil (truthy_of hev hv) a1, a2, a3, a4⟩
  | @loopEnd L i e s p rest l a b o l' hx hv hab _ ihr =>
    intro n m lo k kF fr frF base P k' fr' env hr hL hi ha hg hF hR
    cases n with
    | zero => cases hr
    | succ n =>
      simp only [resolve, resolveW, Option.bind_eq_some_iff, Option.some.injEq, Prod.mk.injEq] at hr
      obtain ⟨e', he, st', hs, ⟨j, s0⟩, h0, ⟨P1, s1⟩, h1, ⟨P3, s3⟩, h3, rfl, h4⟩ := hr
      have hap : ∀ y ∈ p.assigned, y ∈ L := fun y hy => ha y (by simp [Src.assigned, hy])
      have har : ∀ y ∈ rest.assigned, y ∈ L := fun y hy => ha y (by simp [Src.assigned, hy])
      obtain ⟨k0, fr0, rfl, i0, g0, l0⟩ := store_spec h0 hi (ha i (by simp [Src.assigned]))
      obtain ⟨k1, fr1, rfl, i1, g1⟩ := shape (n + 1) p L lo (m + 1) fr0 base k0 _ _ h1 i0 hap
      obtain ⟨k3, fr3, rfl, i3, g3⟩ := shape (n + 1) rest L lo m fr1 base k1 _ _ h3 i1 har
      obtain ⟨rfl, rfl⟩ := St_inj h4
      have gF := (g1.trans g3).trans hg
      have l0' := gF.keep _ _ l0
      have hev := rexpr_val hL hi (fun x r h => gF.keep _ _ (g0.keep _ _ h)) hR e he hv
      obtain ⟨j', q1, q2⟩ := hR i a hx
      rw [l0'] at q1
      cases q1
      obtain ⟨e2, b1, b2, b3, b4⟩ := ihr (n := n + 1) (m := m) h3 hL i1 har hg hF hR
      refine ⟨e2, .loopEnd ?_ b1, b2, b3, b4⟩
      change ¬ env (.tmp j) < e'.eval env
      rw [q2, hev]
      exact hab
  | @loopAgain L i e s p rest l a b o1 l1 a1 d o l' hx hv hab _ ho hx1 hd hfit _ ihp ihw =>
    intro n m lo k kF fr frF base P k' fr' env hr hL hi ha hg hF hR
    have hr0 := hr
    cases n with
    | zero => cases hr
    | succ n =>
      simp only [resolve, resolveW, Option.bind_eq_some_iff, Option.some.injEq, Prod.mk.injEq] at hr
      obtain ⟨e', he, st', hs, ⟨j, s0⟩, h0, ⟨P1, s1⟩, h1, ⟨P3, s3⟩, h3, rfl, h4⟩ := hr
      have hap : ∀ y ∈ p.assigned, y ∈ L := fun y hy => ha y (by simp [Src.assigned, hy])
      have har : ∀ y ∈ rest.assigned, y ∈ L := fun y hy => ha y (by simp [Src.assigned, hy])
      obtain ⟨k0, fr0, rfl, i0, g0, l0⟩ := store_spec h0 hi (ha i (by simp [Src.assigned]))
      obtain ⟨k1, fr1, rfl, i1, g1⟩ := shape (n + 1) p L lo (m + 1) fr0 base k0 _ _ h1 i0 hap
      obtain ⟨k3, fr3, rfl, i3, g3⟩ := shape (n + 1) rest L lo m fr1 base k1 _ _ h3 i1 har
      obtain ⟨rfl, rfl⟩ := St_inj h4
      have gF := (g1.trans g3).trans hg
      have l0' := gF.keep _ _ l0
      have hb := hF.regs i j l0'
      have hev := rexpr_val hL hi (fun x r h => gF.keep _ _ (g0.keep _ _ h)) hR e he hv
      obtain ⟨j', q1, q2⟩ := hR i a hx
      rw [l0'] at q1
      cases q1
      obtain ⟨e1, c1, c2, c3, -⟩ := ihp (n := n + 1) (m := m + 1) h1 hL i0 hap (g3.trans hg) hF hR
      have hst := rexpr_val hL hi (fun x r h => gF.keep _ _ (g0.keep _ _ h)) c3 s hs hd
      obtain ⟨j', q1, q3⟩ := c3 i a1 hx1
      rw [l0'] at q1
      cases q1
      obtain ⟨e2, b1, b2, b3, b4⟩ := ihw (env := Function.update e1 (.tmp j) (a1 + d)) hr0 hL hi ha hg hF (c3.update hF l0')
      refine ⟨e2, .loopAgain ?_ c1 (by rcases ho with rfl | rfl <;> simp [POut.out]) ?_,
        (c2.trans (Same.update hb.1 hb.2 _ _)).trans b2, b3, b4⟩
      · change env (.tmp j) < e'.eval env
        rw [q2, hev]
        exact hab
      · convert b1 using 1
        change Function.update e1 (.tmp j) ((mk w j).wrap (e1 (.tmp j) + st'.eval e1)) = _
        rw [q3, hst, hfit.wrap]
  | @loopBrk L i e s p rest l a b l1 o l' hx hv hab _ _ ihp ihr =>
    intro n m lo k kF fr frF base P k' fr' env hr hL hi ha hg hF hR
    cases n with
    | zero => cases hr
    | succ n =>
      simp only [resolve, resolveW, Option.bind_eq_some_iff, Option.some.injEq, Prod.mk.injEq] at hr
      obtain ⟨e', he, st', hs, ⟨j, s0⟩, h0, ⟨P1, s1⟩, h1, ⟨P3, s3⟩, h3, rfl, h4⟩ := hr
      have hap : ∀ y ∈ p.assigned, y ∈ L := fun y hy => ha y (by simp [Src.assigned, hy])
      have har : ∀ y ∈ rest.assigned, y ∈ L := fun y hy => ha y (by simp [Src.assigned, hy])
      obtain ⟨k0, fr0, rfl, i0, g0, l0⟩ := store_spec h0 hi (ha i (by simp [Src.assigned]))
      obtain ⟨k1, fr1, rfl, i1, g1⟩ := shape (n + 1) p L lo (m + 1) fr0 base k0 _ _ h1 i0 hap
      obtain ⟨k3, fr3, rfl, i3, g3⟩ := shape (n + 1) rest L lo m fr1 base k1 _ _ h3 i1 har
      obtain ⟨rfl, rfl⟩ := St_inj h4
      have gF := (g1.trans g3).trans hg
      have l0' := gF.keep _ _ l0
      have hev := rexpr_val hL hi (fun x r h => gF.keep _ _ (g0.keep _ _ h)) hR e he hv
      obtain ⟨j', q1, q2⟩ := hR i a hx
      rw [l0'] at q1
      cases q1
      obtain ⟨e1, c1, c2, c3, -⟩ := ihp (n := n + 1) (m := m + 1) h1 hL i0 hap (g3.trans hg) hF hR
      obtain ⟨e2, b1, b2, b3, b4⟩ := ihr (n := n + 1) (m := m) h3 hL i1 har hg hF c3
      refine ⟨e2, .loopBrk ?_ c1 b1, c2.trans b2, b3, b4⟩
      change env (.tmp j) < e'.eval env
      rw [q2, hev]
      exact hab
  | @loopRet L i e s p rest l a b r l1 hx hv hab _ ihp =>
    intro n m lo k kF fr frF base P k' fr' env hr hL hi ha hg hF hR
    cases n with
    | zero => cases hr
    | succ n =>
      simp only [resolve, resolveW, Option.bind_eq_some_iff, Option.some.injEq, Prod.mk.injEq] at hr
      obtain ⟨e', he, st', hs, ⟨j, s0⟩, h0, ⟨P1, s1⟩, h1, ⟨P3, s3⟩, h3, rfl, h4⟩ := hr
      have hap : ∀ y ∈ p.assigned, y ∈ L := fun y hy => ha y (by simp [Src.assigned, hy])
      have har : ∀ y ∈ rest.assigned, y ∈ L := fun y hy => ha y (by simp [Src.assigned, hy])
      obtain ⟨k0, fr0, rfl, i0, g0, l0⟩ := store_spec h0 hi (ha i (by simp [Src.assigned]))
      obtain ⟨k1, fr1, rfl, i1, g1⟩ := shape (n + 1) p L lo (m + 1) fr0 base k0 _ _ h1 i0 hap
      obtain ⟨k3, fr3, rfl, i3, g3⟩ := shape (n + 1) rest L lo m fr1 base k1 _ _ h3 i1 har
      obtain ⟨rfl, rfl⟩ := St_inj h4
      have gF := (g1.trans g3).trans hg
      have l0' := gF.keep _ _ l0
      have hev := rexpr_val hL hi (fun x r h => gF.keep _ _ (g0.keep _ _ h)) hR e he hv
      obtain ⟨j', q1, q2⟩ := hR i a hx
      rw [l0'] at q1
      cases q1
      obtain ⟨e1, c1, c2, c3, c4⟩ := ihp (n := n + 1) (m := m + 1) h1 hL i0 hap (g3.trans hg) hF hR
      refine ⟨e1, .loopRet ?_ c1, c2, c3, c4⟩
      change env (.tmp j) < e'.eval env
      rw [q2, hev]
      exact hab
  | @forr L i b e s p rest l v o l' hv hfit _ ihw =>
    intro n m lo k kF fr frF base P k' fr' env hr hL hi ha hg hF hR
    cases n with
    | zero => cases hr
    | succ n =>
      simp only [resolve, resolveW, Option.bind_eq_some_iff, Option.some.injEq, Prod.mk.injEq] at hr
      obtain ⟨b', hb, e', he, st', hs, ⟨j, s0⟩, h0, ⟨P1, s1⟩, h1, ⟨P3, s3⟩, h3, rfl, h4⟩ := hr
      have hr0 : resolve outer fs w (n + 1) (.loop i e s p rest) ⟨k, St m fr base⟩ =
          some (.loopr (mk w j) e' st' P1 P3, ⟨k', St m fr' base⟩) := by
        simp only [resolve, resolveW, Option.bind_eq_some_iff, Option.some.injEq, Prod.mk.injEq]
        exact ⟨e', he, st', hs, ⟨j, s0⟩, h0, ⟨P1, s1⟩, h1, ⟨P3, s3⟩, h3, rfl, h4⟩
      have hap : ∀ y ∈ p.assigned, y ∈ L := fun y hy => ha y (by simp [Src.assigned, hy])
      have har : ∀ y ∈ rest.assigned, y ∈ L := fun y hy => ha y (by simp [Src.assigned, hy])
      obtain ⟨k0, fr0, rfl, i0, g0, l0⟩ := store_spec h0 hi (ha i (by simp [Src.assigned]))
      obtain ⟨k1, fr1, rfl, i1, g1⟩ := shape (n + 1) p L lo (m + 1) fr0 base k0 _ _ h1 i0 hap
      obtain ⟨k3, fr3, rfl, i3, g3⟩ := shape (n + 1) rest L lo m fr1 base k1 _ _ h3 i1 har
      obtain ⟨rfl, rfl⟩ := St_inj h4
      have gF := (g1.trans g3).trans hg
      have l0' := gF.keep _ _ l0
      have hbd := hF.regs i j l0'
      have hev := rexpr_val hL hi (fun x r h => gF.keep _ _ (g0.keep _ _ h)) hR b hb hv
      obtain ⟨e2, b1, b2, b3, b4⟩ := ihw (env := Function.update env (.tmp j) v) hr0 hL hi
        (fun y hy => ha y (by simpa [Src.assigned] using hy)) hg hF (hR.update hF l0')
      refine ⟨e2, .assign ?_, (Same.update hbd.1 hbd.2 _ _).trans b2, b3, b4⟩
      convert b1 using 1
      change Function.update env (.tmp j) ((mk w j).wrap (b'.eval env)) = _
      rw [hev, hfit.wrap]
  | brk =>
    intro n m lo k kF fr frF base P k' fr' env hr hL hi ha hg hF hR
    cases n with
    | zero => cases hr
    | succ n =>
      simp only [resolve, resolveW, Option.some.injEq, Prod.mk.injEq] at hr
      obtain ⟨rfl, -⟩ := hr
      exact ⟨env, .brk, Same.refl _ _ _, hR, fun v hv => by cases hv⟩
  | cont =>
    intro n m lo k kF fr frF base P k' fr' env hr hL hi ha hg hF hR
    cases n with
    | zero => cases hr
    | succ n =>
      simp only [resolve, resolveW, Option.some.injEq, Prod.mk.injEq] at hr
      obtain ⟨rfl, -⟩ := hr
      exact ⟨env, .cont, Same.refl _ _ _, hR, fun v hv => by cases hv⟩
  | retN =>
    intro n m lo k kF fr frF base P k' fr' env hr hL hi ha hg hF hR
    cases n with
    | zero => cases hr
    | succ n =>
      simp only [resolve, resolveW, Option.some.injEq, Prod.mk.injEq] at hr
      obtain ⟨rfl, -⟩ := hr
      exact ⟨env, .ret, Same.refl _ _ _, hR, fun v hv => by cases hv⟩
  | @ret L e l v hv hfit =>
    intro n m lo k kF fr frF base P k' fr' env hr hL hi ha hg hF hR
    cases n with
    | zero => cases hr
    | succ n =>
      have key : ∃ j e', frF.rv = some j ∧ P = .ret (some e') .nil ∧ e'.eval env = v := by
        simp only [resolve, resolveW, getRv_st hi.call] at hr
        split at hr
        · next j hj =>
          simp only [Option.bind_eq_some_iff, Option.some.injEq, Prod.mk.injEq] at hr
          obtain ⟨e', he, rfl, h4⟩ := hr
          obtain ⟨rfl, rfl⟩ := St_inj h4
          exact ⟨j, e', hg.rv j hj, rfl, rexpr_val hL hi (fun x r h => hg.keep _ _ h) hR e he hv⟩
        · simp only [setRv_st hi.call, Option.bind_eq_some_iff, Option.some.injEq, Prod.mk.injEq] at hr
          obtain ⟨e', he, rfl, h4⟩ := hr
          obtain ⟨rfl, rfl⟩ := St_inj h4
          have hle := hi.le
          refine ⟨k, e', hg.rv k rfl, rfl, rexpr_val (fr := { fr with rv := some k }) (lo := lo) (k := k + 1) hL ?_
            (fun x r h => hg.keep _ _ h) hR e he hv⟩
          refine ⟨hi.call, by omega, fun x j hj => ?_, hi.inj, hi.names, fun j hj => ?_, fun j hj x hx => ?_⟩
          · have := hi.regs x j hj; omega
          · cases hj; omega
          · cases hj; have := hi.regs x k hx; omega
      obtain ⟨j, e', hj, rfl, hev⟩ := key
      have hb := hF.rvb j hj
      refine ⟨Function.update env (.tmp j) v, ?_, Same.update hb.1 hb.2 _ _, ?_, fun u hu => ?_⟩
      · have h1 := Exec.ret (rv := rvReg w (some j)) (e := some e') (rest := .nil) (env := env)
        have h2 : bindAll ((some e').map fun e => (rvReg w (some j), e)).toList env = Function.update env (.tmp j) v := by
          change Function.update env (.tmp j) ((mk w j).wrap (e'.eval env)) = _
          rw [hev, hfit.wrap]
        rw [h2] at h1
        rw [hj]
        exact h1
      · intro x u hx
        obtain ⟨i, q1, q2⟩ := hR x u hx
        refine ⟨i, q1, ?_⟩
        rw [Function.update_of_ne]
        · exact q2
        · intro h
          cases h
          exact hF.rvd _ hj x q1
      · cases hu
        exact ⟨j, hj, Function.update_self ..⟩
  | @call L x f fd args rest l vs o1 l1 r o l' hfd hlen hv hf _ hres _ ihb ihr =>
    intro n m lo k kF fr frF base P k' fr' env hr hL hi ha hg hF hR
    cases n with
    | zero => cases hr
    | succ n =>
      simp only [resolve, resolveW, hfd, Option.bind_some] at hr
      split at hr
      · next hgd =>
        simp only [Option.bind_eq_some_iff, Option.some.injEq, Prod.mk.injEq] at hr
        obtain ⟨es', he, ⟨js, s1⟩, h1, ⟨B, s2⟩, h2, frB, h3, ⟨P', s4⟩, h4, rfl, h5⟩ := hr
        rw [look_st hi.call] at hgd
        have hab : ∀ y ∈ fd.body.assigned, y ∈ fd.locals := fun y hy => by simp [FDef.locals, hy]
        have har : ∀ y ∈ rest.assigned, y ∈ L := fun y hy => ha y (by simp [Src.assigned, hy])
        obtain ⟨k1, fr1, rfl, i1, g1, l1⟩ := storeAll_spec (n := 0) (base := St m fr base) (L := fd.locals) (lo := k) fd.params
          h1 (inv_new _ k) fun y hy => by simp [FDef.locals, hy]
        obtain ⟨k2, fr2, rfl, i2, g2⟩ := shape n fd.body fd.locals k 0 fr1 (St m fr base) k1 _ _ h2 i1 hab
        obtain rfl : fr2 = frB := by simpa [St] using h3
        obtain ⟨i3, g3⟩ := call_add hi i2 (ha x (by simp [Src.assigned])) hgd.2
        have ht : (St 0 fr2 (St m fr base)).tail = St m fr base := rfl
        simp only [ht, addVar_st hi.call] at h4
        obtain ⟨k4, fr4, rfl, i4, g4⟩ := shape (n + 1) rest L lo m _ base k2 _ _ h4 i3 har
        obtain ⟨rfl, rfl⟩ := St_inj h5
        have gF := g4.trans hg
        have hev := rexprs_val hL hi (fun x r h => gF.keep _ _ (g3.keep _ _ h)) hR args he hv
        have l1' : List.Forall₂ (fun x j => fr2.vars.lookup x = some (.reg j)) fd.params js :=
          l1.imp fun x j h => g2.keep _ _ h
        obtain ⟨r1, r2⟩ := binds_rel i2 env l1' (l := fun _ => none) hev hf (fun y v hy => by cases hy)
        obtain ⟨e1, a1, a2, a3, a4⟩ := ihb (n := n) (m := 0) h2 (hO f fd hfd) i1 hab (Grow.refl _ _) i2 r1
        have hs : Same k k2 env e1 := r2.trans a2
        have hx0 : frF.vars.lookup x = some (match fr2.rv with | some j => Ref.reg j | none => .cst 0) :=
          gF.keep _ _ (by rw [lookup_cons, if_pos rfl]; cases fr2.rv <;> rfl)
        -- the registers of the other names of the caller
        have hd : ∀ y j, y ≠ x → frF.vars.lookup y = some (.reg j) → j < k ∨ k2 ≤ j := by
          intro y j hy hj
          cases hl : fr.vars.lookup y with
          | none =>
            right
            refine (gF.new y j ?_ hj).1
            rw [lookup_cons, if_neg hy, hl]
          | some q =>
            left
            have := gF.keep _ _ (g3.keep _ _ hl)
            rw [hj] at this
            cases this
            exact (hi.regs y j hl).2
        have hR1 : Rel frF (Function.update l x r) e1 := by
          intro y u hy
          by_cases hyx : y = x
          · subst hyx
            rw [Function.update_self] at hy
            subst hy
            have ho1 : o1 = .ret (some u) := by cases o1 <;> simp_all [POut.result]
            obtain ⟨j, q1, q2⟩ := a4 u ho1
            rw [q1] at hx0
            exact ⟨j, hx0, q2⟩
          · rw [Function.update_of_ne hyx] at hy
            obtain ⟨j, q1, q2⟩ := hR y u hy
            exact ⟨j, q1, by rw [hs j (hd y j hyx q1), q2]⟩
        obtain ⟨e2, b1, b2, b3, b4⟩ := ihr (n := n + 1) (m := m) h4 hL i3 har hg hF hR1
        have hs' : Same lo kF env e1 := hs.mono hi.le gF.le
        refine ⟨e2, .call (o1 := o1.out) a1 ?_ b1, hs'.trans b2, b3, b4⟩
        cases o1 <;> simp_all [POut.result, POut.out]
      · cases hr

/-! ## The resolved program does not mention the state of the FSM -/

theorem rvReg_name (nm : String) (o : Option ℕ) : (rvReg w o).name ≠ .state nm := by cases o <;> simp [rvReg, mk]

theorem rexpr_indep (nm : String) {stk : List Fr} (e : SE) {e' : Expr} (h : rexpr outer stk e = some e') :
    Indep (.state nm) e' := by
  induction e generalizing e' with
  | lit z => cases h; intro env a; rfl
  | name n =>
    simp only [rexpr] at h
    split at h
    · cases h
      intro env a
      change Function.update env (.state nm) a (.tmp _) = env (.tmp _)
      rw [Function.update_of_ne (by simp)]
    · cases h; intro env a; rfl
    · simp only [Option.map_eq_some_iff] at h
      obtain ⟨z, -, rfl⟩ := h
      intro env a; rfl
  | op f a b iha ihb =>
    simp only [rexpr, Option.bind_eq_some_iff, Option.some.injEq] at h
    obtain ⟨a', ha, b', hb, rfl⟩ := h
    intro env z
    change f (a'.eval _) (b'.eval _) = f (a'.eval env) (b'.eval env)
    rw [iha ha env z, ihb hb env z]

theorem rexprs_indep (nm : String) {stk : List Fr} (es : List SE) {es' : List Expr} (h : rexprs outer stk es = some es') :
    ∀ e ∈ es', Indep (.state nm) e := by
  induction es generalizing es' with
  | nil => cases h; simp
  | cons e es ih =>
    simp only [rexprs, Option.bind_eq_some_iff, Option.some.injEq] at h
    obtain ⟨a, ha, b, hb, rfl⟩ := h
    intro x hx
    rcases List.mem_cons.1 hx with rfl | hx
    · exact rexpr_indep nm e ha
    · exact ih hb x hx

theorem mkBinds_ok (nm : String) {js : List ℕ} {es : List Expr} (h : ∀ e ∈ es, Indep (.state nm) e) :
    ∀ b ∈ mkBinds w js es, b.1.name ≠ .state nm ∧ Indep (.state nm) b.2 := by
  intro b hb
  obtain ⟨h1, h2⟩ := List.of_mem_zip hb
  obtain ⟨j, -, hj⟩ := List.mem_map.1 h1
  exact ⟨by rw [← hj]; simp [mk], h _ h2⟩

def OkInl (nm : String) (inl : Src → RS → Option (Prog × RS)) : Prop :=
  ∀ src s P s', inl src s = some (P, s') → ∀ rv : Reg, rv.name ≠ .state nm → P.Ok (.state nm) rv

theorem resolveW_ok (nm : String) {inl : Src → RS → Option (Prog × RS)} (hI : OkInl nm inl) :
    OkInl nm (resolveW outer fs w inl) := by
  intro src
  induction src with
  | nil => intro s P s' h rv _; simp only [resolveW, Option.some.injEq, Prod.mk.injEq] at h; obtain ⟨rfl, -⟩ := h; trivial
  | asg xs es rest ih =>
    intro s P s' h rv hv
    simp only [resolveW] at h
    split at h
    · simp only [Option.bind_eq_some_iff, Option.some.injEq, Prod.mk.injEq] at h
      obtain ⟨es', he, q, -, ⟨P', s2⟩, h2, rfl, -⟩ := h
      exact ⟨mkBinds_ok nm (rexprs_indep nm es he), ih _ _ _ h2 rv hv⟩
    · cases h
  | aug x f e rest ih =>
    intro s P s' h rv hv
    simp only [resolveW, Option.bind_eq_some_iff, Option.some.injEq, Prod.mk.injEq] at h
    obtain ⟨e', he, q, -, ⟨P', s2⟩, h2, rfl, -⟩ := h
    refine ⟨fun b hb => ?_, ih _ _ _ h2 rv hv⟩
    rw [List.mem_singleton] at hb
    subst hb
    refine ⟨by simp [mk], fun env z => ?_⟩
    change f (Function.update env (.state nm) z (.tmp q.1)) (e'.eval _) = f (env (.tmp q.1)) (e'.eval env)
    rw [rexpr_indep nm e he env z, Function.update_of_ne (by simp)]
  | ifte c p q rest ihp ihq ihr =>
    intro s P s' h rv hv
    simp only [resolveW, Option.bind_eq_some_iff, Option.some.injEq, Prod.mk.injEq] at h
    obtain ⟨c', he, ⟨P1, s1⟩, h1, ⟨P2, s2⟩, h2, ⟨P3, s3⟩, h3, rfl, -⟩ := h
    exact ⟨rexpr_indep nm c he, ihp _ _ _ h1 rv hv, ihq _ _ _ h2 rv hv, ihr _ _ _ h3 rv hv⟩
  | while_ c p rest ihp ihr =>
    intro s P s' h rv hv
    simp only [resolveW, Option.bind_eq_some_iff, Option.some.injEq, Prod.mk.injEq] at h
    obtain ⟨c', he, ⟨P1, s1⟩, h1, ⟨P3, s3⟩, h3, rfl, -⟩ := h
    exact ⟨rexpr_indep nm c he, trivial, ihp _ _ _ h1 rv hv, ihr _ _ _ h3 rv hv⟩
  | loop i e st p rest ihp ihr =>
    intro s P s' h rv hv
    simp only [resolveW, Option.bind_eq_some_iff, Option.some.injEq, Prod.mk.injEq] at h
    obtain ⟨e', he, st', hs, q, -, ⟨P1, s1⟩, h1, ⟨P3, s3⟩, h3, rfl, -⟩ := h
    exact ⟨by simp [mk], rexpr_indep nm e he, rexpr_indep nm st hs, ihp _ _ _ h1 rv hv, ihr _ _ _ h3 rv hv⟩
  | forr i b e st p rest ihp ihr =>
    intro s P s' h rv hv
    simp only [resolveW, Option.bind_eq_some_iff, Option.some.injEq, Prod.mk.injEq] at h
    obtain ⟨b', hb, e', he, st', hs, q, -, ⟨P1, s1⟩, h1, ⟨P3, s3⟩, h3, rfl, -⟩ := h
    refine ⟨fun x hx => ?_, by simp [mk], rexpr_indep nm e he, rexpr_indep nm st hs, ihp _ _ _ h1 rv hv, ihr _ _ _ h3 rv hv⟩
    rw [List.mem_singleton] at hx
    subst hx
    exact ⟨by simp [mk], rexpr_indep nm b hb⟩
  | brk => intro s P s' h rv _; simp only [resolveW, Option.some.injEq, Prod.mk.injEq] at h; obtain ⟨rfl, -⟩ := h; trivial
  | cont => intro s P s' h rv _; simp only [resolveW, Option.some.injEq, Prod.mk.injEq] at h; obtain ⟨rfl, -⟩ := h; trivial
  | ret e =>
    intro s P s' h rv hv
    cases e with
    | none =>
      simp only [resolveW, Option.some.injEq, Prod.mk.injEq] at h
      obtain ⟨rfl, -⟩ := h
      exact ⟨by simp, trivial⟩
    | some e =>
      simp only [resolveW] at h
      split at h <;>
      · simp only [Option.bind_eq_some_iff, Option.some.injEq, Prod.mk.injEq] at h
        obtain ⟨e', he, rfl, -⟩ := h
        refine ⟨fun x hx => ?_, trivial⟩
        cases hx
        exact ⟨hv, rexpr_indep nm e he⟩
  | call x f args rest ih =>
    intro s P s' h rv hv
    simp only [resolveW, Option.bind_eq_some_iff] at h
    obtain ⟨fd, -, h⟩ := h
    split at h
    · simp only [Option.bind_eq_some_iff, Option.some.injEq, Prod.mk.injEq] at h
      obtain ⟨es', he, q, -, ⟨B, s2⟩, h2, fr, -, ⟨P', s4⟩, h4, rfl, -⟩ := h
      exact ⟨mkBinds_ok nm (rexprs_indep nm args he), hI _ _ _ _ h2 _ (rvReg_name nm _), ih _ _ _ h4 rv hv⟩
    · cases h

theorem resolve_ok (nm : String) (n : ℕ) : OkInl nm (resolve outer fs w n) := by
  induction n with
  | zero => intro src s P s' h; cases h
  | succ n ih => exact resolveW_ok nm ih

/-! ## C88 -/

/-- **C88, execution.**  A thread function that Python executes (with numbers that fit the registers) to its end: the program made
    by the visitor is executed to its end as well, every bound local variable has its own register, which then holds its
    value, and the return register holds the value returned.  The names of local variables are not those of objects outside
    (`c88_not_outer`). -/
theorem c88_exec {n : ℕ} {fd : FDef} {args : List ℤ} {binds : List (Reg × Expr)} {P : Prog} {fr : Fr}
    (hp : threadProg outer fs w n fd args = some (binds, P, fr)) (hl : ∀ x ∈ fd.locals, outer x = none)
    (hO : ∀ f fd, fs f = some fd → ∀ x ∈ fd.locals, outer x = none) (ha : ∀ v ∈ args, Fits w v) {o : POut} {l' : Loc}
    (hpy : Py outer fs w fd.locals fd.body (setAll fd.params args fun _ => none) o l') (env : Env) :
    ∃ env', Exec (rvReg w fr.rv) P (bindAll binds env) o.out env' ∧
      (∀ x v, l' x = some v → ∃ j, fr.vars.lookup x = some (.reg j) ∧ env' (.tmp j) = v) ∧
      (∀ x y j, fr.vars.lookup x = some (.reg j) → fr.vars.lookup y = some (.reg j) → x = y) ∧
      ∀ v, o = .ret (some v) → ∃ j, fr.rv = some j ∧ env' (.tmp j) = v ∧ ∀ x, fr.vars.lookup x ≠ some (.reg j) := by
  unfold threadProg at hp
  split at hp
  · simp only [Option.bind_eq_some_iff, Option.some.injEq, Prod.mk.injEq] at hp
    obtain ⟨⟨js, s1⟩, h1, ⟨B, s2⟩, h2, fr0, h3, rfl, rfl, rfl⟩ := hp
    have hab : ∀ y ∈ fd.body.assigned, y ∈ fd.locals := fun y hy => by simp [FDef.locals, hy]
    obtain ⟨k1, fr1, rfl, i1, g1, l1⟩ := storeAll_spec (n := 0) (base := []) (L := fd.locals) (lo := 0) fd.params
      h1 (inv_new _ 0) fun y hy => by simp [FDef.locals, hy]
    obtain ⟨k2, fr2, rfl, i2, g2⟩ := shape n fd.body fd.locals 0 0 fr1 [] k1 _ _ h2 i1 hab
    obtain rfl : fr2 = fr0 := by simpa [St] using h3
    have l1' : List.Forall₂ (fun x j => fr2.vars.lookup x = some (.reg j)) fd.params js :=
      l1.imp fun x j h => g2.keep _ _ h
    have hev : (args.map Expr.int).map (fun e => e.eval env) = args := by
      rw [List.map_map]
      exact List.map_id args
    obtain ⟨r1, -⟩ := binds_rel i2 env l1' (l := fun _ => none) hev ha (fun y v hy => by cases hy)
    obtain ⟨env', e1, -, e3, e4⟩ := sim hO hpy h2 hl i1 hab (Grow.refl _ _) i2 r1
    refine ⟨env', e1, e3, i2.inj, fun v hv => ?_⟩
    obtain ⟨j, q1, q2⟩ := e4 v hv
    exact ⟨j, q1, q2, fun x hx => i2.rvd j q1 x hx⟩
  · cases hp

/-- **C88.**  A thread function that Python executes to its end, started with numbers as arguments: the FSM of the thread reaches
    its last state and stays there; every bound local variable has a register of its own, which then holds its value, and the
    return register holds the value returned.  `good` and `esc` are as in C19. -/
theorem c88_thread {nm : String} {sw n : ℕ} {rst : Expr} {uc : Bool} {E : ℕ → Env} {fd : FDef} {args : List ℤ}
    {binds : List (Reg × Expr)} {P : Prog} {fr : Fr}
    (hp : threadProg outer fs w n fd args = some (binds, P, fr)) (hl : ∀ x ∈ fd.locals, outer x = none)
    (hO : ∀ f fd, fs f = some fd → ∀ x ∈ fd.locals, outer x = none) (ha : ∀ v ∈ args, Fits w v)
    (hg : P.good = true) (he : P.esc = false) (hw : (start nm sw binds (rvReg w fr.rv) P).cur < 2 ^ sw)
    (hE : Run nm (start nm sw binds (rvReg w fr.rv) P) rst uc E) {o : POut} {l' : Loc}
    (hpy : Py outer fs w fd.locals fd.body (setAll fd.params args fun _ => none) o l') :
    ∃ T, ∀ t ≥ T, E t (.state nm) = (start nm sw binds (rvReg w fr.rv) P).cur ∧
      (∀ x v, l' x = some v → ∃ j, fr.vars.lookup x = some (.reg j) ∧ E t (.tmp j) = v) ∧
      (∀ x y j, fr.vars.lookup x = some (.reg j) → fr.vars.lookup y = some (.reg j) → x = y) ∧
      ∀ v, o = .ret (some v) → ∃ j, fr.rv = some j ∧ E t (.tmp j) = v ∧ ∀ x, fr.vars.lookup x ≠ some (.reg j) := by
  obtain ⟨env', e1, e2, e3, e4⟩ := c88_exec hp hl hO ha hpy (E 0)
  have hok : P.Ok (.state nm) (rvReg w fr.rv) ∧ ∀ b ∈ binds, b.1.name ≠ .state nm ∧ Indep (.state nm) b.2 := by
    unfold threadProg at hp
    split at hp
    · simp only [Option.bind_eq_some_iff, Option.some.injEq, Prod.mk.injEq] at hp
      obtain ⟨q, h1, ⟨B, s2⟩, h2, fr0, h3, rfl, rfl, rfl⟩ := hp
      refine ⟨resolve_ok nm n _ _ _ _ h2 _ (rvReg_name nm _), mkBinds_ok nm fun e he => ?_⟩
      obtain ⟨z, -, rfl⟩ := List.mem_map.1 he
      intro env a; rfl
    · cases hp
  obtain ⟨T, -, h2⟩ := c19_final hg he hok.1 hok.2 hw hE e1
  refine ⟨T, fun t ht => ⟨(h2 t ht).1, fun x v hx => ?_, e3, fun v hv => ?_⟩⟩
  · obtain ⟨j, q1, q2⟩ := e2 x v hx
    exact ⟨j, q1, by rw [(h2 t ht).2 _ (by simp), q2]⟩
  · obtain ⟨j, q1, q2, q3⟩ := e4 v hv
    exact ⟨j, q1, by rw [(h2 t ht).2 _ (by simp), q2], q3⟩

/-- The functions called. -/
def Src.calls : Src → List String
  | .nil | .brk | .cont | .ret _ => []
  | .asg _ _ rest | .aug _ _ _ rest => rest.calls
  | .ifte _ p q rest => p.calls ++ q.calls ++ rest.calls
  | .while_ _ p rest | .loop _ _ _ p rest | .forr _ _ _ _ p rest => p.calls ++ rest.calls
  | .call _ f _ rest => f :: rest.calls

theorem rec_none {f : String} {fd : FDef} (hf : fs f = some fd) {inl : Src → RS → Option (Prog × RS)}
    (hI : ∀ s, inl fd.body s = none) : ∀ (src : Src), f ∈ src.calls → ∀ s, resolveW outer fs w inl src s = none := by
  intro src
  induction src with
  | nil => intro h; cases h
  | brk => intro h; cases h
  | cont => intro h; cases h
  | ret e => intro h; cases h
  | asg xs es rest ih => intro h s; simp [resolveW, ih h]
  | aug x g e rest ih => intro h s; simp [resolveW, ih h]
  | ifte c p q rest ihp ihq ihr =>
    intro h s
    simp only [Src.calls, List.mem_append] at h
    rcases h with (h | h) | h
    · simp [resolveW, ihp h]
    · simp [resolveW, ihq h]
    · simp [resolveW, ihr h]
  | while_ c p rest ihp ihr =>
    intro h s
    simp only [Src.calls, List.mem_append] at h
    rcases h with h | h
    · simp [resolveW, ihp h]
    · simp [resolveW, ihr h]
  | loop i e st p rest ihp ihr =>
    intro h s
    simp only [Src.calls, List.mem_append] at h
    rcases h with h | h
    · simp [resolveW, ihp h]
    · simp [resolveW, ihr h]
  | forr i b e st p rest ihp ihr =>
    intro h s
    simp only [Src.calls, List.mem_append] at h
    rcases h with h | h
    · simp [resolveW, ihp h]
    · simp [resolveW, ihr h]
  | call x g args rest ih =>
    intro h s
    simp only [Src.calls, List.mem_cons] at h
    rcases h with rfl | h
    · simp [resolveW, hf, hI]
    · simp [resolveW, ih h]

/-- **C88 does not hold for recursive functions**: the visitor follows the calls for ever. -/
theorem c88_not_recursive {f : String} {fd : FDef} (hf : fs f = some fd) (hc : f ∈ fd.body.calls) (n : ℕ) (src : Src)
    (h : f ∈ src.calls) (s : RS) : resolve outer fs w n src s = none := by
  induction n generalizing src s with
  | zero => rfl
  | succ n ih => exact rec_none hf (fun s => ih fd.body hc s) src h s

/-! ## Examples -/

namespace Ex88

def add : ℤ → ℤ → ℤ := (· + ·)
def sub : ℤ → ℤ → ℤ := (· - ·)
def lt : ℤ → ℤ → ℤ := fun a b => if a < b then 1 else 0

/-- `def f(a): b = a + 1; return b` -/
def fF : FDef := ⟨["a"], .asg ["b"] [.op add (.name "a") (.lit 1)] (.ret (some (.name "b")))⟩

/-- `def main(b): s = 0`, `for a in range(b): s = s + f(s)`, `return s` -/
def fM : FDef := ⟨["b"], .asg ["s"] [.lit 0] (.forr "a" (.lit 0) (.name "b") (.lit 1)
  (.call "$0" "f" [.name "s"] (.asg ["s"] [.op add (.name "s") (.name "$0")] .nil)) (.ret (some (.name "s"))))⟩

def funs : String → Option FDef := fun x => if x = "f" then some fF else none

def noOuter : String → Option ℤ := fun _ => none

/-- Python: `main(2)` is 3. -/
theorem py_main : ∃ l', Py noOuter funs 32 fM.locals fM.body (setAll fM.params [2] fun _ => none) (.ret (some 3)) l' ∧
    l' "s" = some 3 ∧ l' "b" = some 2 := by
  have fit : ∀ v : ℤ, 0 ≤ v → v < 10 → Fits 32 v := fun v h1 h2 => ⟨by decide, by omega, by omega⟩
  have hf : ∀ v : ℤ, 0 ≤ v → v < 9 → ∃ l1, Py noOuter funs 32 fF.locals fF.body (setAll fF.params [v] fun _ => none)
      (.ret (some (v + 1))) l1 := by
    intro v h1 h2
    refine ⟨_, .asg (vs := [v + 1]) rfl rfl ?_ (.ret rfl (fit _ (by omega) (by omega)))⟩
    intro u hu
    rw [List.mem_singleton] at hu
    subst hu
    exact fit _ (by omega) (by omega)
  obtain ⟨_, h0⟩ := hf 0 (by decide) (by decide)
  obtain ⟨_, h1⟩ := hf 1 (by decide) (by decide)
  have one : ∀ v : ℤ, 0 ≤ v → v < 10 → ∀ u ∈ [v], Fits 32 u := by
    intro v a b u hu
    rw [List.mem_singleton] at hu
    subst hu
    exact fit _ a b
  refine ⟨_, .asg (vs := [0]) rfl rfl (one 0 (by decide) (by decide)) (.forr (v := 0) rfl (fit _ (by decide) (by decide))
    (.loopAgain (a := 0) (b := 2) (a1 := 0) (d := 1) rfl rfl (by decide)
      (.call (fd := fF) (vs := [0]) rfl rfl rfl (one 0 (by decide) (by decide)) h0 rfl
        (.asg (vs := [1]) rfl rfl (one 1 (by decide) (by decide)) .nil)) (.inl rfl) rfl rfl (fit _ (by decide) (by decide))
      (.loopAgain (a := 1) (b := 2) (a1 := 1) (d := 1) rfl rfl (by decide)
        (.call (fd := fF) (vs := [1]) rfl rfl rfl (one 1 (by decide) (by decide)) h1 rfl
          (.asg (vs := [3]) rfl rfl (one 3 (by decide) (by decide)) .nil)) (.inl rfl) rfl rfl (fit _ (by decide) (by decide))
        (.loopEnd (a := 2) (b := 2) rfl rfl (by decide) (.ret rfl (fit _ (by decide) (by decide))))))), ?_, ?_⟩ <;> rfl

/-- The names of `main` and `f` are distinct variables, though both have `a` and `b`. -/
example : ∃ binds P fr, threadProg noOuter funs 32 2 fM [2] = some (binds, P, fr) ∧ P.good = true ∧ P.esc = false ∧
    fr.vars.lookup "s" = some (.reg 1) ∧ fr.vars.lookup "$0" = some (.reg 5) ∧ fr.rv = some 6 := by
  refine ⟨_, _, _, rfl, ?_, ?_, ?_, ?_, ?_⟩ <;> rfl

/-- The FSM gives 3. -/
example {rst : Expr} {uc : Bool} {E : ℕ → Env} {binds : List (Reg × Expr)} {P : Prog} {fr : Fr}
    (hp : threadProg noOuter funs 32 2 fM [2] = some (binds, P, fr))
    (hE : Run "th" (start "th" 32 binds (rvReg 32 fr.rv) P) rst uc E) : ∃ T, ∀ t ≥ T, E t (.tmp 6) = 3 := by
  obtain ⟨l', h1, -, -⟩ := py_main
  obtain ⟨b', P', fr', h2, hg, he, hw, h6⟩ : ∃ binds P fr, threadProg noOuter funs 32 2 fM [2] = some (binds, P, fr) ∧
      P.good = true ∧ P.esc = false ∧ (start "th" 32 binds (rvReg 32 fr.rv) P).cur < 2 ^ 32 ∧ fr.rv = some 6 := by
    refine ⟨_, _, _, rfl, ?_, ?_, ?_, ?_⟩
    · rfl
    · rfl
    · decide +kernel
    · rfl
  have h3 := h2.symm.trans hp
  simp only [Option.some.injEq, Prod.mk.injEq] at h3
  obtain ⟨rfl, rfl, rfl⟩ := h3
  obtain ⟨T, hT⟩ := c88_thread (o := .ret (some 3)) hp (fun _ _ => rfl) (fun _ _ _ _ _ => rfl)
    (fun v hv => by rw [List.mem_singleton] at hv; subst hv; exact ⟨by decide, by decide, by decide⟩) hg he hw hE h1
  refine ⟨T, fun t ht => ?_⟩
  obtain ⟨j, q1, q2, -⟩ := (hT t ht).2.2.2 3 rfl
  rw [h6] at q1
  cases q1
  exact q2

/-! ### A local variable with the name of an object outside -/

/-- `i = 0; y = 0`, `while i < 2: {if 0 < i: y = x}; x = 5; i = i + 1` -/
def fX : FDef := ⟨[], .asg ["i", "y"] [.lit 0, .lit 0] (.while_ (.op lt (.name "i") (.lit 2))
  (.ifte (.op lt (.lit 0) (.name "i")) (.asg ["y"] [.name "x"] .nil) .nil
    (.asg ["x"] [.lit 5] (.asg ["i"] [.op add (.name "i") (.lit 1)] .nil))) .nil)⟩

/-- `x = 7` outside. -/
def outX : String → Option ℤ := fun n => if n = "x" then some 7 else none

theorem fit (v : ℤ) (h1 : 0 ≤ v) (h2 : v < 10) : Fits 32 v := ⟨by decide, by omega, by omega⟩

theorem fits1 (v : ℤ) (h1 : 0 ≤ v) (h2 : v < 10) : ∀ u ∈ [v], Fits 32 u := by
  intro u hu
  rw [List.mem_singleton] at hu
  subst hu
  exact fit _ h1 h2

end Ex88

open Ex88 in
/-- **C88 does not hold for a local variable with the name of an object outside.**  The thread function reads `x` before (in the
    text) its first assignment of `x`, in a loop: Python gives 5 (local variable), the FSM 7 (object outside). -/
theorem c88_not_outer : ∃ l', Py outX funs 32 fX.locals fX.body (setAll fX.params [] fun _ => none) .norm l' ∧
    l' "y" = some 5 ∧ ∃ binds P fr j, threadProg outX funs 32 1 fX [] = some (binds, P, fr) ∧
      fr.vars.lookup "y" = some (.reg j) ∧
      ∀ env, ∃ env', Exec (rvReg 32 fr.rv) P (bindAll binds env) .norm env' ∧ env' (.tmp j) = 7 := by
  refine ⟨_, .asg (vs := [0, 0]) rfl rfl ?_ (.whileAgain (v := 1) (o1 := .norm) rfl (by decide)
    (.ifF rfl .nil (.asg (vs := [5]) rfl rfl (fits1 _ (by decide) (by decide))
      (.asg (vs := [1]) rfl rfl (fits1 _ (by decide) (by decide)) .nil))) (.inl rfl)
    (.whileAgain (v := 1) (o1 := .norm) rfl (by decide)
      (.ifT (v := 1) rfl (by decide) (.asg (vs := [5]) rfl rfl (fits1 _ (by decide) (by decide)) .nil)
        (.asg (vs := [5]) rfl rfl (fits1 _ (by decide) (by decide))
          (.asg (vs := [2]) rfl rfl (fits1 _ (by decide) (by decide)) .nil))) (.inl rfl) (.whileEnd rfl .nil))), rfl,
    _, _, _, 1, rfl, rfl, fun env => ?_⟩
  · intro v hv
    simp only [List.mem_cons, List.not_mem_nil, or_false, or_self] at hv
    subst hv
    exact fit _ (by decide) (by decide)
  · refine ⟨_, .assign (.whileAgain .nil ?_ (.ifF ?_ .nil (.assign (.assign .nil))) (.inl rfl)
      (.whileAgain .nil ?_ (.ifT ?_ (.assign .nil) (.assign (.assign .nil))) (.inl rfl) (.whileEnd .nil ?_ .nil))), ?_⟩
    all_goals rfl

namespace Ex88

/-- `def g(a): if a: return 5` -/
def fG : FDef := ⟨["a"], .ifte (.name "a") (.ret (some (.lit 5))) .nil .nil⟩

/-- `for i in range(2): r = g(1 - i)` -/
def fN : FDef := ⟨[], .forr "i" (.lit 0) (.lit 2) (.lit 1) (.call "r" "g" [.op sub (.lit 1) (.name "i")] .nil) .nil⟩

def funG : String → Option FDef := fun x => if x = "g" then some fG else none

end Ex88

open Ex88 in
/-- **C88 does not hold for `None`.**  The second call returns no value: `r` is `None` in Python, but the register keeps the
    value of the first call. -/
theorem c88_not_none : ∃ l', Py noOuter funG 32 fN.locals fN.body (setAll fN.params [] fun _ => none) .norm l' ∧
    l' "r" = none ∧ ∃ binds P fr j, threadProg noOuter funG 32 2 fN [] = some (binds, P, fr) ∧
      fr.vars.lookup "r" = some (.reg j) ∧
      ∀ env, ∃ env', Exec (rvReg 32 fr.rv) P (bindAll binds env) .norm env' ∧ env' (.tmp j) = 5 := by
  refine ⟨_, .forr (v := 0) rfl (fit _ (by decide) (by decide))
    (.loopAgain (o1 := .norm) (a := 0) (b := 2) (a1 := 0) (d := 1) rfl rfl (by decide)
      (.call (fd := fG) (vs := [1]) rfl rfl rfl (fits1 _ (by decide) (by decide))
        (.ifTx (v := 1) (o := .ret (some 5)) rfl (by decide) (.ret rfl (fit _ (by decide) (by decide))) (by decide)) rfl .nil)
      (.inl rfl) rfl rfl (fit _ (by decide) (by decide))
    (.loopAgain (o1 := .norm) (a := 1) (b := 2) (a1 := 1) (d := 1) rfl rfl (by decide)
      (.call (fd := fG) (vs := [0]) rfl rfl rfl (fits1 _ (by decide) (by decide)) (.ifF rfl .nil .nil) rfl .nil)
      (.inl rfl) rfl rfl (fit _ (by decide) (by decide))
    (.loopEnd (a := 2) (b := 2) rfl rfl (by decide) .nil))), rfl, _, _, _, 2, rfl, rfl, fun env => ?_⟩
  refine ⟨_, .assign (.loopAgain ?_ (.call (.ifTx ?_ .ret (by decide)) (.inr rfl) .nil) (.inl rfl)
    (.loopAgain ?_ (.call (.ifF ?_ .nil .nil) (.inl rfl) .nil) (.inl rfl) (.loopEnd ?_ .nil))), ?_⟩
  · change (0 : ℤ) < 2; decide
  · rfl
  · change (1 : ℤ) < 2; decide
  · rfl
  · change ¬ (2 : ℤ) < 2; decide
  · rfl

namespace Ex88

/-- `def h(a): if a: x = h(a - 1)` -/
def fH : FDef := ⟨["a"], .ifte (.name "a") (.call "x" "h" [.op sub (.name "a") (.lit 1)] .nil) .nil .nil⟩

def funH : String → Option FDef := fun x => if x = "h" then some fH else none

example (n : ℕ) (s : RS) : resolve noOuter funH 32 n (.call "r" "h" [.lit 3] .nil) s = none :=
  c88_not_recursive (f := "h") (fd := fH) rfl (List.mem_cons_self ..) n _ (List.mem_cons_self ..) s

end Ex88

end Nam
