import Verif.Props.C19_Thread

/-!
# C19: `for x in (o1, o2, ...)`
-/

namespace Thr
open Hdl

theorem truthy_upd {v : Var} {c : Expr} (h : Indep v c) (env : Env) (a : Int) :
    c.truthy (Function.update env v a) = c.truthy env := by
  simp only [Expr.truthy, h env a]

theorem bindAll_upd {v : Var} (bs : List (Reg × Expr)) (h : ∀ b ∈ bs, b.1.name ≠ v ∧ Indep v b.2) (env : Env) (a : Int) :
    bindAll bs (Function.update env v a) = Function.update (bindAll bs env) v a := by
  have key : ∀ (l : List (Reg × Expr)), (∀ b ∈ l, b.1.name ≠ v ∧ Indep v b.2) → ∀ acc : Env,
      l.foldl (fun acc b => Function.update acc b.1.name (b.1.wrap (b.2.eval (Function.update env v a))))
        (Function.update acc v a) =
      Function.update (l.foldl (fun acc b => Function.update acc b.1.name (b.1.wrap (b.2.eval env))) acc) v a := by
    intro l
    induction l with
    | nil => intro _ _; rfl
    | cons b l ih =>
      intro hl acc
      have hb := hl b (by simp)
      simp only [List.foldl_cons]
      rw [Function.update_comm hb.1.symm, hb.2 env a]
      exact ih (fun c hc => hl c (by simp [hc])) _
  exact key bs h env

/-- The value of a variable that the program does not mention makes no difference. -/
theorem Exec.upd {v : Var} (a : Int) {rv : Reg} {p : Prog} {env env' : Env} {o : Out} (h : Exec rv p env o env')
    (hp : p.Ok v rv) : Exec rv p (Function.update env v a) o (Function.update env' v a) := by
  induction h with
  | nil => exact .nil
  | pass _ ih => exact .pass (ih hp)
  | assign _ ih => exact .assign (by rw [bindAll_upd _ hp.1]; exact ih hp.2)
  | ifT hc _ _ ih1 ih2 =>
    obtain ⟨h1, h2, h3, h4⟩ := hp
    exact .ifT (by rw [truthy_upd h1, hc]) (ih1 h2) (ih2 h4)
  | ifTx hc _ hne ih1 =>
    obtain ⟨h1, h2, h3, h4⟩ := hp
    exact .ifTx (by rw [truthy_upd h1, hc]) (ih1 h2) hne
  | ifF hc _ _ ih1 ih2 =>
    obtain ⟨h1, h2, h3, h4⟩ := hp
    exact .ifF (by rw [truthy_upd h1, hc]) (ih1 h3) (ih2 h4)
  | ifFx hc _ hne ih1 =>
    obtain ⟨h1, h2, h3, h4⟩ := hp
    exact .ifFx (by rw [truthy_upd h1, hc]) (ih1 h3) hne
  | whileEnd _ hc _ ih0 ih1 =>
    obtain ⟨h1, h2, h3, h4⟩ := hp
    exact .whileEnd (ih0 h2) (by rw [truthy_upd h1, hc]) (ih1 h4)
  | whileAgain _ hc _ ho _ ih0 ih1 ih2 =>
    obtain ⟨h1, h2, h3, h4⟩ := hp
    exact .whileAgain (ih0 h2) (by rw [truthy_upd h1, hc]) (ih1 h3) ho (ih2 ⟨h1, h2, h3, h4⟩)
  | whileBrk _ hc _ _ ih0 ih1 ih2 =>
    obtain ⟨h1, h2, h3, h4⟩ := hp
    exact .whileBrk (ih0 h2) (by rw [truthy_upd h1, hc]) (ih1 h3) (ih2 h4)
  | whileRet _ hc _ ih0 ih1 =>
    obtain ⟨h1, h2, h3, h4⟩ := hp
    exact .whileRet (ih0 h2) (by rw [truthy_upd h1, hc]) (ih1 h3)
  | loopEnd hc _ ih1 =>
    obtain ⟨h1, h2, h3, h4, h5⟩ := hp
    exact .loopEnd (by rw [Function.update_of_ne h1, h2]; exact hc) (ih1 h5)
  | loopAgain hc _ ho _ ih1 ih2 =>
    obtain ⟨h1, h2, h3, h4, h5⟩ := hp
    refine .loopAgain (by rw [Function.update_of_ne h1, h2]; exact hc) (ih1 h4) ho ?_
    rw [Function.update_of_ne h1, h3, Function.update_comm h1.symm]
    exact ih2 ⟨h1, h2, h3, h4, h5⟩
  | loopBrk hc _ _ ih1 ih2 =>
    obtain ⟨h1, h2, h3, h4, h5⟩ := hp
    exact .loopBrk (by rw [Function.update_of_ne h1, h2]; exact hc) (ih1 h4) (ih2 h5)
  | loopRet hc _ ih1 =>
    obtain ⟨h1, h2, h3, h4, h5⟩ := hp
    exact .loopRet (by rw [Function.update_of_ne h1, h2]; exact hc) (ih1 h4)
  | brk => exact .brk
  | cont => exact .cont
  | @ret rv e rest env =>
    have : ∀ b ∈ (e.map fun e => (rv, e)).toList, b.1.name ≠ v ∧ Indep v b.2 := by
      intro b hb
      cases e with
      | none => simp at hb
      | some e => simp at hb; subst hb; exact hp.1 e rfl
    have h := @Exec.ret rv e rest (Function.update env v a)
    rwa [bindAll_upd _ this] at h
  | call _ ho _ ih1 ih2 =>
    obtain ⟨h1, h2, h3⟩ := hp
    exact .call (by rw [bindAll_upd _ h1]; exact ih1 h2) ho (ih2 h3)

/-- A variable that the program does not mention keeps its value. -/
theorem Exec.keeps {v : Var} {rv : Reg} {p : Prog} {env env' : Env} {o : Out} (h : Exec rv p env o env')
    (hp : p.Ok v rv) : env' v = env v := by
  have h1 := h.upd (env v) hp
  rw [Function.update_eq_self] at h1
  have := (h.det h1).2
  rw [this, Function.update_self]

/-- The assumptions on `for x in objs: p` with temporary counter `tmp`: the counter is fresh and can hold the number of
    elements, and neither the body nor the assignment of `x` changes the value of an element. -/
structure ListLoop (rv tmp x : Reg) (objs : List Expr) (p : Prog) : Prop where
  fresh : p.Ok tmp.name rv
  ne : x.name ≠ tmp.name
  objT : ∀ a ∈ objs, Indep tmp.name a
  objX : ∀ a ∈ objs, Indep x.name a
  objP : ∀ a ∈ objs, ∀ env o env', Exec rv p env o env' → a.eval env' = a.eval env
  wide : ∀ v : Int, 0 ≤ v → v < objs.length + 1 → tmp.wrap v = v

section
variable {rv tmp x : Reg} {objs : List Expr} {p rest : Prog}

/-- The loop body with the assignment of the element. -/
def elemBody (tmp x : Reg) (objs : List Expr) (p : Prog) : Prog :=
  .assign [(x, .fn fun env => ((objs[(env tmp.name).toNat]?).map (·.eval env)).getD 0)] p

theorem elem_exec (h : ListLoop rv tmp x objs p) {k : ℕ} (hk : k < objs.length) {env env' : Env} {o : Out} :
    Exec rv (elemBody tmp x objs p) (Function.update env tmp.name k) o env' ↔
      Exec rv p (Function.update (Function.update env x.name (x.wrap (objs[k].eval env))) tmp.name k) o env' := by
  have hb : bindAll [(x, .fn fun env => ((objs[(env tmp.name).toNat]?).map (·.eval env)).getD 0)]
      (Function.update env tmp.name (k : Int)) =
      Function.update (Function.update env x.name (x.wrap (objs[k].eval env))) tmp.name k := by
    have hv : Expr.eval (.fn fun env => ((objs[(env tmp.name).toNat]?).map (·.eval env)).getD 0)
        (Function.update env tmp.name (k : Int)) = objs[k].eval (Function.update env tmp.name (k : Int)) := by
      rw [Expr.eval, Function.update_self, Int.toNat_natCast, List.getElem?_eq_getElem hk]
      rfl
    simp only [bindAll, List.foldl_cons, List.foldl_nil, hv]
    rw [h.objT _ (List.getElem_mem hk), Function.update_comm h.ne]
  constructor
  · intro hx
    cases hx with
    | assign hx => rwa [hb] at hx
  · intro hx
    exact .assign (by rwa [hb])

theorem elem_plain (h : ListLoop rv tmp x objs p) :
    Plain rv tmp (.int objs.length) (.int 1) (elemBody tmp x objs p) where
  var := by
    intro env o env' hx
    cases hx with
    | assign hx =>
      rw [hx.keeps h.fresh]
      simp only [bindAll, List.foldl_cons, List.foldl_nil]
      rw [Function.update_of_ne h.ne.symm]
  end_ := fun _ _ _ _ => rfl
  step := fun _ _ _ _ => rfl
  endI := fun _ _ => rfl
  stepI := fun _ _ => rfl

/-- The values of the remaining elements. -/
def vals (x : Reg) (val : Expr → Int) (objs : List Expr) (k : ℕ) : List Int := (objs.drop k).map fun a => x.wrap (val a)

theorem vals_cons {val : Expr → Int} {k : ℕ} (hk : k < objs.length) :
    vals x val objs k = x.wrap (val objs[k]) :: vals x val objs (k + 1) := by
  rw [vals, List.drop_eq_getElem_cons hk]; rfl

theorem vals_nil {val : Expr → Int} {k : ℕ} (hk : ¬ k < objs.length) : vals x val objs k = [] := by
  rw [vals, List.drop_eq_nil_of_le (by omega)]; rfl

theorem range_to_list (h : ListLoop rv tmp x objs p) (val : Expr → Int) {l : List Int} {env eP : Env} {o : Out}
    (hx : PyFor rv tmp.name (elemBody tmp x objs p) l env o eP) : ∀ k : ℕ, l = pyRange k objs.length 1 →
    (∀ a ∈ objs, a.eval env = val a) → ∀ c : Int,
    PyFor rv x.name p (vals x val objs k) (Function.update env tmp.name c) o (Function.update eP tmp.name c) := by
  have hnext : ∀ {env e1 : Env} {o1 : Out} {k : ℕ} {a : Int} {l : List Int} (c : Int),
      a :: l = pyRange k objs.length 1 → (∀ a ∈ objs, a.eval env = val a) →
      Exec rv (elemBody tmp x objs p) (Function.update env tmp.name a) o1 e1 →
      k < objs.length ∧ l = pyRange (k + 1 : ℕ) objs.length 1 ∧ (∀ a ∈ objs, a.eval e1 = val a) ∧
      vals x val objs k = x.wrap (val (objs.getD k (.int 0))) :: vals x val objs (k + 1) ∧
      Exec rv p (Function.update (Function.update env tmp.name c) x.name (x.wrap (val (objs.getD k (.int 0))))) o1
        (Function.update e1 tmp.name c) := by
    intro env e1 o1 k a l c hl hv h1
    have hk : k < objs.length := by
      by_contra hk
      rw [pyRange_nil (by decide) (by omega)] at hl
      cases hl
    rw [pyRange_cons (by decide) (by omega)] at hl
    cases hl
    have hd : objs.getD k (.int 0) = objs[k] := by
      rw [List.getD_eq_getElem?_getD, List.getElem?_eq_getElem hk]; rfl
    have h2 := (elem_exec h hk).1 h1
    have h3 := h2.upd c h.fresh
    rw [Function.update_idem] at h3
    refine ⟨hk, by push_cast; rfl, ?_, by rw [hd]; exact vals_cons hk, ?_⟩
    · intro a ha
      rw [h.objP a ha _ _ _ h2, h.objT a ha, h.objX a ha, hv a ha]
    · rw [hd, Function.update_comm h.ne.symm, ← hv _ (List.getElem_mem hk)]
      exact h3
  induction hx with
  | done =>
    intro k hl hv c
    have hk : ¬ k < objs.length := by
      intro hk
      rw [pyRange_cons (by decide) (by omega)] at hl
      cases hl
    rw [vals_nil hk]
    exact .done
  | next h1 ho _ ih =>
    intro k hl hv c
    obtain ⟨hk, hl', hv', hc, hp⟩ := hnext c hl hv h1
    rw [hc]
    exact .next hp ho (ih (k + 1) hl' hv' c)
  | brk h1 =>
    intro k hl hv c
    obtain ⟨hk, hl', hv', hc, hp⟩ := hnext c hl hv h1
    rw [hc]
    exact .brk hp
  | ret h1 =>
    intro k hl hv c
    obtain ⟨hk, hl', hv', hc, hp⟩ := hnext c hl hv h1
    rw [hc]
    exact .ret hp

theorem list_to_range (h : ListLoop rv tmp x objs p) (val : Expr → Int) {l : List Int} {env eP : Env} {o : Out}
    (hx : PyFor rv x.name p l env o eP) : ∀ k : ℕ, l = vals x val objs k →
    (∀ a ∈ objs, a.eval env = val a) → ∀ c : Int, ∃ c' : Int,
    PyFor rv tmp.name (elemBody tmp x objs p) (pyRange k objs.length 1) (Function.update env tmp.name c) o
      (Function.update eP tmp.name c') := by
  have hnext : ∀ {env e1 : Env} {o1 : Out} {k : ℕ} {a : Int} {l : List Int} (c : Int),
      a :: l = vals x val objs k → (∀ a ∈ objs, a.eval env = val a) →
      Exec rv p (Function.update env x.name a) o1 e1 →
      pyRange k objs.length 1 = (k : Int) :: pyRange (k + 1 : ℕ) objs.length 1 ∧ l = vals x val objs (k + 1) ∧
      (∀ a ∈ objs, a.eval e1 = val a) ∧
      Exec rv (elemBody tmp x objs p) (Function.update (Function.update env tmp.name c) tmp.name (k : Int)) o1
        (Function.update e1 tmp.name (k : Int)) := by
    intro env e1 o1 k a l c hl hv h1
    have hk : k < objs.length := by
      by_contra hk
      rw [vals_nil hk] at hl
      cases hl
    rw [vals_cons hk] at hl
    cases hl
    refine ⟨by rw [pyRange_cons (by decide) (by omega)]; push_cast; rfl, rfl, ?_, ?_⟩
    · intro a ha
      rw [h.objP a ha _ _ _ h1, h.objX a ha, hv a ha]
    · rw [Function.update_idem]
      refine (elem_exec h hk).2 ?_
      rw [hv _ (List.getElem_mem hk)]
      exact h1.upd _ h.fresh
  induction hx with
  | done =>
    intro k hl hv c
    have hk : ¬ k < objs.length := by
      intro hk
      rw [vals_cons hk] at hl
      cases hl
    rw [pyRange_nil (by decide) (by omega)]
    exact ⟨c, .done⟩
  | next h1 ho _ ih =>
    intro k hl hv c
    obtain ⟨hr, hl', hv', hp⟩ := hnext c hl hv h1
    rw [hr]
    obtain ⟨c', hc'⟩ := ih (k + 1) hl' hv' k
    exact ⟨c', .next hp ho hc'⟩
  | brk h1 =>
    intro k hl hv c
    obtain ⟨hr, hl', hv', hp⟩ := hnext c hl hv h1
    rw [hr]
    exact ⟨k, .brk hp⟩
  | ret h1 =>
    intro k hl hv c
    obtain ⟨hr, hl', hv', hp⟩ := hnext c hl hv h1
    rw [hr]
    exact ⟨k, .ret hp⟩

/-- Python's `for x in objs: p` followed by `rest`: the elements are evaluated first. -/
def PyForList (rv x : Reg) (objs : List Expr) (p rest : Prog) (env : Env) (o : Out) (env' : Env) : Prop :=
  ∃ oL eL, PyFor rv x.name p (objs.map fun a => x.wrap (a.eval env)) env oL eL ∧
    (((oL = .norm ∨ oL = .brk) ∧ Exec rv rest eL o env') ∨ (oL = .ret ∧ o = .ret ∧ env' = eL))

/-- **C19, `for x in (o1, o2, ...)`.**  Apart from the fresh counter, the compiled loop does what Python's does: the
    body is executed once for each element, in order, with `x` assigned the element. -/
theorem c19_for_list (h : ListLoop rv tmp x objs p) (hr : rest.Ok tmp.name rv) (env : Env) (o : Out) :
    (∀ env', Exec rv (.forList tmp x objs p rest) env o env' →
      PyForList rv x objs p rest env o (Function.update env' tmp.name (env tmp.name))) ∧
    (∀ env', PyForList rv x objs p rest env o env' →
      ∃ c, Exec rv (.forList tmp x objs p rest) env o (Function.update env' tmp.name c)) := by
  have hrange := fun env' => c19_range (rest := rest) (b := .int 0) (elem_plain h) (env := env) (by simp [Expr.eval])
    (h.wide 0 (by simp) (by omega)) (fun v h1 h2 => h.wide v (by simpa [Expr.eval] using h1) (by simpa [Expr.eval] using h2)) o env'
  have hz : (pyRange (Expr.eval (.int 0) env) (Expr.eval (.int objs.length) env) (Expr.eval (.int 1) env)) =
      pyRange (0 : ℕ) objs.length 1 := rfl
  have hm : vals x (fun a => a.eval env) objs 0 = objs.map fun a => x.wrap (a.eval env) := by rw [vals, List.drop_zero]
  constructor
  · intro env' hx
    rcases (hrange env').1 hx with ⟨eP, h1, h2⟩ | ⟨eP, h1, h2⟩ | ⟨rfl, h1⟩
    · have := range_to_list h (fun a => a.eval env) h1 0 hz (fun _ _ => rfl) (env tmp.name)
      rw [hm, Function.update_eq_self] at this
      refine ⟨_, _, this, .inl ⟨.inl rfl, ?_⟩⟩
      have h3 := h2.upd (env tmp.name) hr
      rwa [Function.update_idem] at h3
    · have := range_to_list h (fun a => a.eval env) h1 0 hz (fun _ _ => rfl) (env tmp.name)
      rw [hm, Function.update_eq_self] at this
      exact ⟨_, _, this, .inl ⟨.inr rfl, h2.upd (env tmp.name) hr⟩⟩
    · have := range_to_list h (fun a => a.eval env) h1 0 hz (fun _ _ => rfl) (env tmp.name)
      rw [hm, Function.update_eq_self] at this
      exact ⟨_, _, this, .inr ⟨rfl, rfl, rfl⟩⟩
  · rintro env' ⟨oL, eL, h1, h2⟩
    obtain ⟨c, hc⟩ := list_to_range h (fun a => a.eval env) h1 0 hm.symm (fun _ _ => rfl) (env tmp.name)
    rw [Function.update_eq_self] at hc
    rcases h2 with ⟨rfl | rfl, h2⟩ | ⟨rfl, rfl, rfl⟩
    · refine ⟨after 0 objs.length 1, (hrange _).2 (.inl ⟨_, hc, ?_⟩)⟩
      rw [Function.update_idem]
      exact h2.upd _ hr
    · exact ⟨_, (hrange _).2 (.inr (.inl ⟨_, hc, h2.upd _ hr⟩))⟩
    · exact ⟨_, (hrange _).2 (.inr (.inr ⟨rfl, hc⟩))⟩

end

/-! ## Example: `for i in (7, n, 9): x = x + i` -/

section
open Ex

/-- The counter. -/
def cnt : Reg := ⟨.tmp 7, 32, true, none⟩

theorem exLoop : ListLoop rv cnt i [.int 7, var n, .int 9]
    (.assign [(x, .fn fun env => env x.name + env i.name)] .nil) where
  fresh := by
    refine ⟨?_, trivial⟩
    intro b hb
    rw [List.mem_singleton] at hb
    subst hb
    exact ⟨by decide, fun env a => by simp [Expr.eval, cnt, x, i]⟩
  ne := by decide
  objT := by
    intro a ha
    simp only [List.mem_cons, List.not_mem_nil, or_false] at ha
    rcases ha with rfl | rfl | rfl <;> intro env v <;> simp [Expr.eval, var, cnt, n]
  objX := by
    intro a ha
    simp only [List.mem_cons, List.not_mem_nil, or_false] at ha
    rcases ha with rfl | rfl | rfl <;> intro env v <;> simp [Expr.eval, var, i, n]
  objP := by
    intro a ha env o env' hx
    simp only [List.mem_cons, List.not_mem_nil, or_false] at ha
    cases hx with
    | assign hx =>
      cases hx
      rcases ha with rfl | rfl | rfl <;> simp [Expr.eval, var, bindAll, x, n]
  wide := by
    intro v h1 h2
    simp only [List.length_cons, List.length_nil] at h2
    have : v = 0 ∨ v = 1 ∨ v = 2 ∨ v = 3 := by omega
    rcases this with rfl | rfl | rfl | rfl <;> decide

/-- With `n = 5` the loop adds 7, 5 and 9 to `x`. -/
example (env : Env) (h0 : env x.name = 0) (h5 : env n.name = 5) : ∃ env',
    Exec rv (.forList cnt i [.int 7, var n, .int 9] (.assign [(x, .fn fun env => env x.name + env i.name)] .nil) .nil)
      env .norm env' ∧ env' x.name = 21 ∧ env' i.name = 9 := by
  obtain ⟨c, hc⟩ := (c19_for_list exLoop (rest := .nil) trivial env .norm).2 _
    ⟨.norm, _, .next (.assign .nil) (.inl rfl) (.next (.assign .nil) (.inl rfl) (.next (.assign .nil) (.inl rfl) .done)),
      .inl ⟨.inl rfl, .nil⟩⟩
  refine ⟨_, hc, ?_, ?_⟩
  · have e1 : i.wrap 7 = 7 := by decide
    have e2 : i.wrap 5 = 5 := by decide
    have e3 : i.wrap 9 = 9 := by decide
    have hx : x.name = .user "x" := rfl
    have hi : i.name = .user "i" := rfl
    have hn : n.name = .user "n" := rfl
    have hcn : cnt.name = .tmp 7 := rfl
    simp only [bindAll, List.foldl_cons, List.foldl_nil, Expr.eval, var, h0, h5, e1, e2, e3, hx, hi, hn, hcn] at *
    simp [Function.update, h0, h5]
    decide
  · have e3 : i.wrap 9 = 9 := by decide
    simp [bindAll, Expr.eval, Function.update, x, i, n, cnt]
    decide

end

end Thr
