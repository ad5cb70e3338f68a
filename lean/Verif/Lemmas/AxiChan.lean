import Verif.Model.AxiChan
import Verif.Lemmas.SeqRun
import Mathlib.Data.List.Induction

/-! The block emitted for any number of calls on one valid/ready channel, and its executions. -/

namespace Axi

open Hdl SeqSt

/-- A channel: the valid register, the ready input, the payload registers, and the registers that are lowered by
    default and kept while stalled besides `valid`. -/
structure Port where
  valid : Reg
  ready : Var
  pay : List Reg
  kept : List Reg

/-- One call on the channel. -/
structure Site where
  cond : Option Expr
  ack : Expr
  sets : List (Reg × Expr)
  zero : Option Expr

def asg (l : List (Reg × Expr)) : List Code := l.map fun p => .subst p.1 p.2

def Port.down (p : Port) : List Code := asg ((p.valid :: p.kept).map fun r => (r, .int 0))
def Port.hold (p : Port) : List Code := asg ((p.valid :: p.kept).map fun r => (r, .var r.name))

/-- The condition under which the call's assignments are made. -/
def Site.guard (s : Site) : Expr :=
  match s.cond with
  | none => s.ack
  | some c => c.and s.ack

def Site.zeroOps (p : Port) (s : Site) : List SeqOp :=
  match s.zero with
  | none => []
  | some z => [.thn, .iff [z], .add [.subst p.valid (.int 0)]]

/-- The `Seq` calls of one call on the channel. -/
def Site.ops (p : Port) (s : Site) : List SeqOp :=
  ifCond s.cond ++ ([.iff [s.ack], .add (asg s.sets)] ++ (s.zeroOps p ++
  [.delay 1, .add p.down, .iff [stall p.valid p.ready], .add p.hold]))

def Site.zeroBody (p : Port) (s : Site) : List Item :=
  match s.zero with
  | none => []
  | some z => [.chain [(s.guard.and z, Code.block [.subst p.valid (.int 0)])] none]

def Site.body (name : String) (p : Port) (k : Nat) (s : Site) : List Item :=
  [.chain [(s.guard, Code.block (asg s.sets))] none] ++ (s.zeroBody p ++
  [.plain (.subst (condReg name k 1) (.int 1)),
   .chain [(stall p.valid p.ready, Code.block p.hold)] none])

def downAt (name : String) (p : Port) (k : Nat) : Nat × Code :=
  (1, .ite (.var (condReg name k 1).name) (Code.block p.down) .skip)

/-- Nothing is pending in the builder. -/
structure Clean (s : SeqSt) : Prop where
  next : s.next = {}
  elifCond : s.elifCond = none
  nextElse : s.nextElse = false

theorem applyAll_append (s : SeqSt) (a b : List SeqOp) :
    s.applyAll (a ++ b) = (s.applyAll a).bind fun s' => s'.applyAll b := by
  induction a generalizing s with
  | nil => rfl
  | cons op a ih =>
    simp only [List.cons_append, applyAll]
    cases op.apply s with
    | none => rfl
    | some s' => simp [ih]

/-- A conditional statement. -/
theorem add_cond (s : SeqSt) (c : Expr) (l : List Code) (hn : s.next = { cond := some c })
    (he : s.elifCond = none) (hx : s.nextElse = false) :
    ∃ s', s.add l = some s' ∧ s'.body = s.body ++ [.chain [(c, Code.block l)] none] ∧
      s'.delayed = s.delayed ∧ s'.name = s.name ∧ s'.tmpCount = s.tmpCount ∧
      s'.lastCond = s.lastCond ∧ Clean s' := by
  simp [add, addKw, hn, he, hx, Kwargs.hasArgs, addStatement, addStatement1, pushBody]
  exact ⟨by simp, by simp, by simp⟩

/-- A statement delayed by one without condition. -/
theorem add_delay1 (s : SeqSt) (l : List Code) (hn : s.next = { delay := some 1 })
    (he : s.elifCond = none) :
    ∃ s', s.add l = some s' ∧
      s'.body = s.body ++ [.plain (.subst (condReg s.name s.tmpCount 1) (.int 1))] ∧
      s'.delayed = s.delayed ++
        [(1, .ite (.var (condReg s.name s.tmpCount 1).name) (Code.block l) .skip)] ∧
      s'.name = s.name ∧ s'.tmpCount = s.tmpCount + 1 ∧ Clean s' := by
  simp only [add, addKw, hn, he, Kwargs.hasArgs, addStatement, addStatement1, addDelayed, addDelayedCond]
  simp [pushBody, pushDelayed, pipeLoop, pushRaw]
  exact ⟨by simp, by simp, by simp⟩

theorem iff_one (s : SeqSt) (c : Expr) (hn : s.next = {}) :
    (s.iff [c]).next = { cond := some c } ∧ (s.iff [c]).lastCond = [c] ∧ (s.iff [c]).elifCond = none ∧
    (s.iff [c]).body = s.body ∧ (s.iff [c]).delayed = s.delayed ∧ (s.iff [c]).name = s.name ∧
    (s.iff [c]).tmpCount = s.tmpCount ∧ (s.iff [c]).nextElse = s.nextElse := by
  simp [SeqSt.iff, makeCond, hn]

theorem iff_two (s : SeqSt) (c d : Expr) (hn : s.next = { cond := some c }) :
    (s.iff [d]).next = { cond := some (c.and d) } ∧ (s.iff [d]).lastCond = [c.and d] ∧
    (s.iff [d]).elifCond = none ∧
    (s.iff [d]).body = s.body ∧ (s.iff [d]).delayed = s.delayed ∧ (s.iff [d]).name = s.name ∧
    (s.iff [d]).tmpCount = s.tmpCount ∧ (s.iff [d]).nextElse = s.nextElse := by
  simp [SeqSt.iff, makeCond, hn]

theorem thn_one (s : SeqSt) (c : Expr) (hn : s.next = {}) (hl : s.lastCond = [c]) :
    s.thn.next = { cond := some c } ∧ s.thn.elifCond = none ∧
    s.thn.body = s.body ∧ s.thn.delayed = s.delayed ∧ s.thn.name = s.name ∧ s.thn.tmpCount = s.tmpCount ∧
    s.thn.nextElse = s.nextElse := by
  simp [SeqSt.thn, SeqSt.iff, makeCond, hn, hl]

/-- What one call leaves in the builder. -/
structure Effect (name : String) (p : Port) (sites : List Site) (s s' : SeqSt) : Prop where
  body : s'.body = s.body ++ (sites.zipIdx s.tmpCount).flatMap fun q => q.1.body name p q.2
  delayed : s'.delayed = s.delayed ++ (sites.zipIdx s.tmpCount).map fun q => downAt name p q.2
  name : s'.name = s.name
  count : s'.tmpCount = s.tmpCount + sites.length
  clean : Clean s'

theorem site_effect (p : Port) (σ : Site) (s : SeqSt) (h : Clean s) :
    ∃ s', s.applyAll (σ.ops p) = some s' ∧ Effect s.name p [σ] s s' := by
  -- the condition
  obtain ⟨a, ha, na, la, ea, ba, da, ma, ca, xa⟩ : ∃ a, s.applyAll (ifCond σ.cond ++ [.iff [σ.ack]]) = some a ∧
      a.next = { cond := some σ.guard } ∧ a.lastCond = [σ.guard] ∧ a.elifCond = none ∧ a.body = s.body ∧
      a.delayed = s.delayed ∧ a.name = s.name ∧ a.tmpCount = s.tmpCount ∧ a.nextElse = s.nextElse := by
    cases hc : σ.cond with
    | none =>
      refine ⟨_, rfl, ?_⟩
      have hg : σ.guard = σ.ack := by simp [Site.guard, hc]
      rw [hg]
      exact iff_one s σ.ack h.next
    | some c =>
      refine ⟨_, rfl, ?_⟩
      have hg : σ.guard = c.and σ.ack := by simp [Site.guard, hc]
      rw [hg]
      obtain ⟨h1, h2, h3, h4, h5, h6, h7, h8⟩ := iff_one s c h.next
      obtain ⟨k1, k2, k3, k4, k5, k6, k7, k8⟩ := iff_two (s.iff [c]) c σ.ack h1
      exact ⟨k1, k2, k3, k4.trans h4, k5.trans h5, k6.trans h6, k7.trans h7, k8.trans h8⟩
  obtain ⟨b, hb, bb, db, nb, cb, lb, clb⟩ := add_cond a σ.guard (asg σ.sets) na ea (xa.trans h.nextElse)
  -- the optional zero check
  obtain ⟨z, hz, bz, dz, nz, cz, clz⟩ : ∃ z, b.applyAll (σ.zeroOps p) = some z ∧
      z.body = b.body ++ σ.zeroBody p ∧ z.delayed = b.delayed ∧ z.name = b.name ∧ z.tmpCount = b.tmpCount ∧
      Clean z := by
    cases hzz : σ.zero with
    | none => exact ⟨b, by simp [Site.zeroOps, hzz, applyAll], by simp [Site.zeroBody, hzz], rfl, rfl, rfl, clb⟩
    | some e =>
      obtain ⟨t1, t2, t3, t4, t5, t6, t7⟩ := thn_one b σ.guard clb.next (lb.trans la)
      obtain ⟨k1, k2, k3, k4, k5, k6, k7, k8⟩ := iff_two b.thn σ.guard e t1
      obtain ⟨w, hw, bw, dw, nw, cw, -, clw⟩ :=
        add_cond (b.thn.iff [e]) (σ.guard.and e) [.subst p.valid (.int 0)] k1 k3
          (k8.trans (t7.trans clb.nextElse))
      refine ⟨w, ?_, ?_, ?_, ?_, ?_, clw⟩
      · simp [Site.zeroOps, hzz, applyAll, SeqOp.apply, hw]
      · rw [bw, k4, t3]; simp [Site.zeroBody, hzz]
      · rw [dw, k5, t4]
      · rw [nw, k6, t5]
      · rw [cw, k7, t6]
  -- the default
  obtain ⟨d, hd, bd, dd, nd, cd, cld⟩ :=
    add_delay1 { z with next := { z.next with delay := some 1 } } p.down (by simp [clz.next]) clz.elifCond
  -- the retry
  obtain ⟨i1, i2, i3, i4, i5, i6, i7, i8⟩ := iff_one d (stall p.valid p.ready) cld.next
  obtain ⟨r, hr, br, dr, nr, cr, -, clr⟩ :=
    add_cond (d.iff [stall p.valid p.ready]) (stall p.valid p.ready) p.hold i1 i3 (i8.trans cld.nextElse)
  have ecz : z.tmpCount = s.tmpCount := by rw [cz, cb, ca]
  have enz : z.name = s.name := by rw [nz, nb, ma]
  refine ⟨r, ?_, ?_, ?_, ?_, ?_, clr⟩
  · have e : σ.ops p = (ifCond σ.cond ++ [.iff [σ.ack]]) ++ ([.add (asg σ.sets)] ++ (σ.zeroOps p ++
        [.delay 1, .add p.down, .iff [stall p.valid p.ready], .add p.hold])) := by simp [Site.ops]
    rw [e, applyAll_append, ha, Option.bind_some, applyAll_append]
    have : a.applyAll [.add (asg σ.sets)] = some b := by simp [applyAll, SeqOp.apply, hb]
    rw [this, Option.bind_some, applyAll_append, hz, Option.bind_some]
    simp [applyAll, SeqOp.apply, hd, hr]
  · rw [br, i4, bd, bz, bb, ba]
    simp [Site.body, ecz, enz]
  · rw [dr, i5, dd, dz, db, da]
    simp [downAt, ecz, enz]
  · rw [nr, i6, nd]; exact enz
  · rw [cr, i7, cd]; simp [ecz]

theorem sites_effect (p : Port) (sites : List Site) (s : SeqSt) (h : Clean s) :
    ∃ s', s.applyAll (sites.flatMap (Site.ops p)) = some s' ∧ Effect s.name p sites s s' := by
  induction sites generalizing s with
  | nil => exact ⟨s, rfl, by simp, by simp, rfl, by simp, h⟩
  | cons σ l ih =>
    obtain ⟨a, ha, ea⟩ := site_effect p σ s h
    obtain ⟨b, hb, eb⟩ := ih a ea.clean
    refine ⟨b, ?_, ?_, ?_, ?_, ?_, eb.clean⟩
    · rw [List.flatMap_cons, applyAll_append, ha, Option.bind_some, hb]
    · rw [eb.body, ea.body, ea.count, ea.name]; simp
    · rw [eb.delayed, ea.delayed, ea.count, ea.name]; simp
    · rw [eb.name, ea.name]
    · rw [eb.count, ea.count]; simp; omega

/-- The call's assignments are made at this edge. -/
def Site.fires (σ : Site) (env : Env) : Bool := σ.guard.truthy env

/-- The zero check applies. -/
def Site.zeroed (σ : Site) (env : Env) : Bool :=
  match σ.zero with
  | none => false
  | some z => z.truthy env

/-- Values assigned to a signal of the channel by the statements of one call. -/
def Site.trace (p : Port) (σ : Site) (env : Env) (x : Var) : List Int :=
  (if σ.fires env then traceL (asg σ.sets) env x else []) ++
  ((if σ.fires env && σ.zeroed env then (Code.subst p.valid (.int 0)).trace env x else []) ++
  (if (stall p.valid p.ready).truthy env then traceL p.hold env x else []))

theorem chain_trace (c : Expr) (l : List Code) (env : Env) (x : Var) :
    (Item.chain [(c, Code.block l)] none).code.trace env x =
      if c.truthy env then traceL l env x else [] := by
  simp [Item.code, chainCode, Code.trace, Code.trace_block]

theorem site_body_trace (name : String) (p : Port) (k : Nat) (σ : Site) (env : Env) (x : Var)
    (hx : x ≠ .cond name k 1) :
    traceL ((σ.body name p k).map Item.code) env x = σ.trace p env x := by
  have hz : traceL ((σ.zeroBody p).map Item.code) env x =
      if σ.fires env && σ.zeroed env then (Code.subst p.valid (.int 0)).trace env x else [] := by
    cases h : σ.zero with
    | none => simp [Site.zeroBody, h, Site.zeroed]
    | some z =>
      simp only [Site.zeroBody, h, List.map_cons, List.map_nil, traceL_cons, traceL_nil, List.append_nil]
      rw [chain_trace, Expr.truthy_and]
      by_cases h1 : σ.guard.truthy env = true <;> by_cases h2 : z.truthy env = true <;>
        simp [Site.zeroed, h, Site.fires, h1, h2, traceL]
  simp only [Site.body, List.map_append, traceL_append, hz, List.map_cons, List.map_nil, traceL_cons,
    traceL_nil, List.append_nil, chain_trace]
  have : (Item.plain (Code.subst (condReg name k 1) (.int 1))).code.trace env x = [] := by
    simp [Item.code, Code.trace, condReg, Ne.symm hx]
  rw [this]
  by_cases h1 : σ.guard.truthy env = true <;> simp [Site.trace, Site.fires, h1]

/-- The block emitted for the calls `sites` on a channel with its own `Seq`. -/
structure Emitted (name : String) (p : Port) (sites : List Site) (s : SeqSt) : Prop where
  body : s.body = sites.zipIdx.flatMap fun q => q.1.body name p q.2
  delayed : s.delayed = sites.zipIdx.map fun q => downAt name p q.2

theorem emitted (name : String) (p : Port) (sites : List Site) :
    ∃ s, (SeqSt.fresh name).applyAll (sites.flatMap (Site.ops p)) = some s ∧ Emitted name p sites s := by
  obtain ⟨s, h, e⟩ := sites_effect p sites (SeqSt.fresh name) ⟨rfl, rfl, rfl⟩
  exact ⟨s, h, by simpa [SeqSt.fresh] using e.body, by simpa [SeqSt.fresh] using e.delayed⟩

theorem Emitted.code_trace {name : String} {p : Port} {sites : List Site} {s : SeqSt}
    (e : Emitted name p sites s) (env : Env) (x : Var) (hx : ∀ k, x ≠ .cond name k 1) :
    traceL s.makeCode env x =
      (sites.zipIdx.flatMap fun q => if env (.cond name q.2 1) ≠ 0 then traceL p.down env x else []) ++
      sites.flatMap fun σ => σ.trace p env x := by
  have hm : s.maxDelay + 1 ≤ 2 := by
    unfold maxDelay
    rw [e.delayed]
    generalize sites.zipIdx = l
    induction l with
    | nil => simp
    | cons q l ih =>
      simp only [List.map_cons, List.foldl_cons]
      rw [foldl_max_init]
      simp only [downAt] at *
      omega
  have h0 : s.delayedAt 0 = [] := by
    unfold delayedAt
    rw [e.delayed]
    simp [downAt]
  have h1 : s.delayedAt 1 = sites.zipIdx.map fun q => (downAt name p q.2).2 := by
    unfold delayedAt
    rw [e.delayed]
    simp [downAt, List.filterMap_map, Function.comp_def]
  rw [trace_makeCode s env x 2 hm]
  simp only [seg, Nat.zero_add, h0, h1, traceL_nil, List.append_nil]
  congr 1
  · simp only [traceL, List.flatMap_map]
    congr 1
    funext q
    simp only [downAt, Code.trace, Code.trace_block]
    have : (Expr.var (condReg name q.2 1).name).truthy env = decide (env (.cond name q.2 1) ≠ 0) := by
      simp [Expr.truthy, Expr.var, Expr.eval, condReg, bne, decide_not]
      rfl
    rw [this]
    simp [traceL]
  · unfold bodyTrace
    rw [e.body, List.map_flatMap]
    have : ∀ l : List (Site × Nat), traceL (l.flatMap fun q => (q.1.body name p q.2).map Item.code) env x =
        (l.map Prod.fst).flatMap fun σ => σ.trace p env x := by
      intro l
      induction l with
      | nil => rfl
      | cons q l ih =>
        rw [List.flatMap_cons, traceL_append, ih, site_body_trace name p q.2 q.1 env x (hx q.2)]
        rfl
    rw [this]
    simp

/-! ## Executions -/

/-- The assignments of a list with different targets. -/
theorem trace_asg {l : List (Reg × Expr)} (hn : (l.map fun q => q.1.name).Nodup) {r : Reg} {v : Expr}
    (h : (r, v) ∈ l) (env : Env) : traceL (asg l) env r.name = [r.wrap (v.eval env)] := by
  induction l with
  | nil => simp at h
  | cons q l ih =>
    simp only [List.map_cons, List.nodup_cons] at hn
    have hz : ∀ (l : List (Reg × Expr)) (x : Var), x ∉ l.map (fun q => q.1.name) → traceL (asg l) env x = [] := by
      intro l x hx
      refine traceL_eq_nil fun c hc r hr he => ?_
      obtain ⟨b, hb, rfl⟩ := List.mem_map.1 hc
      simp only [Code.targets, List.mem_singleton] at hr
      subst hr
      exact hx (List.mem_map.2 ⟨b, hb, he⟩)
    show traceL (Code.subst q.1 q.2 :: asg l) env r.name = _
    rw [traceL_cons]
    rcases List.mem_cons.1 h with rfl | h
    · rw [hz l _ hn.1]; simp [Code.trace]
    · have hne : q.1.name ≠ r.name := fun he => hn.1 (List.mem_map.2 ⟨(r, v), h, he.symm⟩)
      rw [ih hn.2 h]; simp [Code.trace, hne]

theorem trace_asg_none {l : List (Reg × Expr)} {x : Var} (hx : x ∉ l.map fun q => q.1.name) (env : Env) :
    traceL (asg l) env x = [] := by
  refine traceL_eq_nil fun c hc r hr he => ?_
  obtain ⟨b, hb, rfl⟩ := List.mem_map.1 hc
  simp only [Code.targets, List.mem_singleton] at hr
  subst hr
  exact hx (List.mem_map.2 ⟨b, hb, he⟩)

theorem last_flatMap {α : Type} (l : List α) (f : α → Bool) (g : α → List Int) (hg : ∀ a, f a = true → g a ≠ []) :
    (l.flatMap fun a => if f a then g a else []).getLast? =
      ((l.filter f).getLast?).bind fun a => (g a).getLast? := by
  induction l using List.reverseRecOn with
  | nil => rfl
  | append_singleton l a ih =>
    rw [List.flatMap_append, List.filter_append, List.getLast?_append, List.getLast?_append]
    by_cases h : f a = true
    · simp only [List.flatMap_cons, List.flatMap_nil, h, if_true, List.append_nil, List.filter_cons, List.filter_nil]
      rcases hl : (g a).getLast? with _ | v
      · exact absurd (List.getLast?_eq_none_iff.1 hl) (hg a h)
      · simp [hl]
    · simp only [List.flatMap_cons, List.flatMap_nil, h, List.filter_cons, List.filter_nil]
      simpa using ih

theorem nodup_inj {l : List Reg} (h : (l.map Reg.name).Nodup) {a b : Reg} (ha : a ∈ l) (hb : b ∈ l)
    (he : a.name = b.name) : a = b := by
  induction l with
  | nil => simp at ha
  | cons r l ih =>
    simp only [List.map_cons, List.nodup_cons] at h
    rcases List.mem_cons.1 ha with h1 | h1 <;> rcases List.mem_cons.1 hb with h2 | h2
    · rw [h1, h2]
    · exact absurd (List.mem_map.2 ⟨b, h2, by rw [← he, h1]⟩) h.1
    · exact absurd (List.mem_map.2 ⟨a, h1, by rw [he, h2]⟩) h.1
    · exact ih h.2 h1 h2

theorem flatMap_congr' {α β : Type} {l : List α} {f g : α → List β} (h : ∀ a ∈ l, f a = g a) :
    l.flatMap f = l.flatMap g := by
  induction l with
  | nil => rfl
  | cons a l ih =>
    rw [List.flatMap_cons, List.flatMap_cons, h a (by simp), ih fun b hb => h b (by simp [hb])]

theorem last_const {l : List Int} {v : Int} (h : ∀ a ∈ l, a = v) (hn : l ≠ []) : l.getLast? = some v := by
  rcases hl : l.getLast? with _ | a
  · exact absurd (List.getLast?_eq_none_iff.1 hl) hn
  · rw [h a (List.mem_of_getLast? hl)]

structure Port.Ok (name : String) (p : Port) : Prop where
  bit : p.valid.width = 1
  uns : p.valid.signed = false
  nodup : ((p.valid :: p.pay).map Reg.name).Nodup
  kept : ∀ r ∈ p.kept, r ∈ p.pay
  keptNodup : (p.kept.map Reg.name).Nodup
  user : ∀ r ∈ p.valid :: p.pay, ∀ k, r.name ≠ .cond name k 1

/-- The call assigns `vals` to the payload registers, raises `valid`, and only when the register is free. -/
structure Site.Ok (p : Port) (vals : Site → List Expr) (σ : Site) : Prop where
  len : (vals σ).length = p.pay.length
  sets : σ.sets.Perm ((p.valid, .int 1) :: p.pay.zip (vals σ))
  free : ∀ env, σ.fires env = true → (stall p.valid p.ready).truthy env = false

theorem Port.Ok.wrap_valid {name : String} {p : Port} (h : p.Ok name) (v : Int) :
    p.valid.wrap v = v % 2 := by
  simp [Reg.wrap, h.bit, h.uns]

variable {name : String} {p : Port} {sites : List Site} {s : SeqSt} {vals : Site → List Expr}

theorem Site.Ok.names {σ : Site} (h : σ.Ok p vals) :
    (σ.sets.map fun q => q.1.name).Perm ((p.valid :: p.pay).map Reg.name) := by
  have := h.sets.map fun q => q.1.name
  refine this.trans (List.Perm.of_eq ?_)
  simp only [List.map_cons]
  congr 1
  have e : (p.pay.zip (vals σ)).map Prod.fst = p.pay := List.map_fst_zip (by rw [h.len]; exact Nat.le_refl _)
  conv_rhs => rw [← e]
  simp [Function.comp_def]

theorem Site.Ok.trace_sets {σ : Site} (h : σ.Ok p vals) (hp : p.Ok name) {r : Reg} {v : Expr}
    (hr : (r, v) ∈ (p.valid, .int 1) :: p.pay.zip (vals σ)) (env : Env) :
    traceL (asg σ.sets) env r.name = [r.wrap (v.eval env)] :=
  trace_asg (h.names.nodup_iff.2 hp.nodup) (h.sets.mem_iff.2 hr) env

/-- The value of a signal after an edge without reset. -/
theorem Emitted.tick (e : Emitted name p sites s) {rst : Option Expr} {env : Env}
    (hr : isReset rst env = false) (x : Var) (hx : ∀ k, x ≠ .cond name k 1) :
    (s.always rst).tick env x = (((sites.zipIdx.flatMap fun q => if env (.cond name q.2 1) ≠ 0
      then traceL p.down env x else []) ++ sites.flatMap fun σ => σ.trace p env x).getLast?).getD (env x) := by
  rw [Code.tick, Code.exec_eq_trace, trace_always, if_neg (by simp [hr]), e.code_trace env x hx]

/-- While stalled nothing changes. -/
theorem Emitted.tick_stall (e : Emitted name p sites s) (hp : p.Ok name)
    (hs : ∀ σ ∈ sites, σ.Ok p vals) (hne : sites ≠ []) {rst : Option Expr} {env : Env}
    (hr : isReset rst env = false) (hst : (stall p.valid p.ready).truthy env = true) {r : Reg}
    (hm : r ∈ p.valid :: p.pay) (hw : r.wrap (env r.name) = env r.name) :
    (s.always rst).tick env r.name = env r.name := by
  rw [e.tick hr r.name (hp.user r hm)]
  have htr : ∀ σ ∈ sites, σ.trace p env r.name = traceL p.hold env r.name := by
    intro σ hσ
    have hf : σ.fires env = false := by
      by_contra h
      have := (hs σ hσ).free env (by simpa using h)
      rw [hst] at this; cases this
    simp [Site.trace, hf, hst]
  have hnd : ((p.valid :: p.kept).map Reg.name).Nodup := by
    have := hp.nodup
    simp only [List.map_cons, List.nodup_cons] at this ⊢
    refine ⟨fun hh => this.1 ?_, hp.keptNodup⟩
    obtain ⟨q, hq, he⟩ := List.mem_map.1 hh
    exact List.mem_map.2 ⟨q, hp.kept q hq, he⟩
  by_cases hk : r ∈ p.valid :: p.kept
  · have hh : traceL p.hold env r.name = [env r.name] := by
      have := trace_asg (l := (p.valid :: p.kept).map fun r => (r, Expr.var r.name)) (r := r)
        (v := .var r.name) (by simpa [Function.comp_def] using hnd) (List.mem_map.2 ⟨r, hk, rfl⟩) env
      rw [Port.hold, this]
      have : (Expr.var r.name).eval env = env r.name := rfl
      rw [this, hw]
    have hb : (sites.flatMap fun σ => σ.trace p env r.name).getLast? = some (env r.name) := by
      apply last_const
      · intro a ha
        obtain ⟨σ, hσ, ha⟩ := List.mem_flatMap.1 ha
        rw [htr σ hσ, hh] at ha
        simpa using ha
      · obtain ⟨σ, l, rfl⟩ := List.exists_cons_of_ne_nil hne
        rw [List.flatMap_cons, htr σ (by simp), hh]
        simp
    rw [List.getLast?_append, hb]
    rfl
  · have hin : r.name ∉ (p.valid :: p.kept).map Reg.name := by
      intro hh
      obtain ⟨q, hq, he⟩ := List.mem_map.1 hh
      have hq' : q ∈ p.valid :: p.pay := by
        rcases List.mem_cons.1 hq with rfl | hq
        · simp
        · exact List.mem_cons_of_mem _ (hp.kept q hq)
      have := nodup_inj hp.nodup hq' hm he
      exact hk (this ▸ hq)
    have h1 : traceL p.down env r.name = [] := by
      refine trace_asg_none ?_ env
      simpa [Function.comp_def] using hin
    have h2 : traceL p.hold env r.name = [] := by
      refine trace_asg_none ?_ env
      simpa [Function.comp_def] using hin
    have hb : (sites.flatMap fun σ => σ.trace p env r.name) = [] := by
      rw [List.flatMap_eq_nil_iff]
      intro σ hσ
      rw [htr σ hσ, h2]
    have hd : (sites.zipIdx.flatMap fun q => if env (.cond name q.2 1) ≠ 0 then ([] : List Int) else []) = [] := by
      rw [List.flatMap_eq_nil_iff]
      intro q _
      simp
    rw [h1, hb, hd]
    simp

/-- The last call whose assignments are made. -/
def winner (sites : List Site) (env : Env) : Option Site := (sites.filter fun σ => σ.fires env).getLast?

theorem winner_mem {env : Env} {σ : Site} (h : winner sites env = some σ) : σ ∈ sites ∧ σ.fires env = true := by
  have := List.mem_of_getLast? h
  simpa using this

/-- The last call that fires decides. -/
theorem Emitted.tick_fire (e : Emitted name p sites s) (hp : p.Ok name)
    (hs : ∀ σ ∈ sites, σ.Ok p vals) {rst : Option Expr} {env : Env}
    (hr : isReset rst env = false) {σ : Site} (hw : winner sites env = some σ) :
    (s.always rst).tick env p.valid.name = (if σ.zeroed env then 0 else 1) ∧
    ∀ r v, (r, v) ∈ p.pay.zip (vals σ) → (s.always rst).tick env r.name = r.wrap (v.eval env) := by
  obtain ⟨hσ, hf⟩ := winner_mem hw
  have hst := (hs σ hσ).free env hf
  have htr : ∀ (σ : Site) (x : Var), σ.trace p env x = if σ.fires env then
      (traceL (asg σ.sets) env x ++
        if σ.zeroed env then (Code.subst p.valid (.int 0)).trace env x else []) else [] := by
    intro σ x
    by_cases h : σ.fires env = true <;> simp [Site.trace, h, hst]
  have hlast : ∀ x, (∀ σ ∈ sites, traceL (asg σ.sets) env x ≠ []) →
      (sites.flatMap fun σ => σ.trace p env x).getLast? =
        (traceL (asg σ.sets) env x ++
        if σ.zeroed env then (Code.subst p.valid (.int 0)).trace env x else []).getLast? := by
    intro x hx
    have h1 : (sites.flatMap fun σ => σ.trace p env x) =
        sites.flatMap fun σ => if (σ.fires env && decide (traceL (asg σ.sets) env x ≠ [])) then
      (traceL (asg σ.sets) env x ++
        if σ.zeroed env then (Code.subst p.valid (.int 0)).trace env x else []) else [] := by
      apply flatMap_congr'
      intro τ hτ
      rw [htr τ x]
      simp [hx τ hτ]
    rw [h1, last_flatMap _ _ _ (by
      intro τ hτ
      simp only [Bool.and_eq_true, decide_eq_true_eq] at hτ
      simp [hτ.2])]
    have h2 : (sites.filter fun σ => (σ.fires env && decide (traceL (asg σ.sets) env x ≠ []))) =
        sites.filter fun σ => σ.fires env := by
      apply List.filter_congr
      intro τ hτ
      simp [hx τ hτ]
    rw [h2]
    unfold winner at hw
    rw [hw]
    rfl
  constructor
  · have hsv : ∀ τ ∈ sites, traceL (asg τ.sets) env p.valid.name = [1] := by
      intro τ hτ
      rw [(hs τ hτ).trace_sets hp (r := p.valid) (v := .int 1) (by simp) env]
      simp [hp.wrap_valid, Expr.eval]
    rw [e.tick hr _ (hp.user _ (by simp)), List.getLast?_append,
      hlast _ (fun τ hτ => by rw [hsv τ hτ]; simp), hsv σ hσ]
    by_cases hz : σ.zeroed env = true
    · simp [hz, Code.trace, hp.wrap_valid, Expr.eval]
    · simp [hz]
  · intro r v hrv
    have hrp : r ∈ p.pay := (List.of_mem_zip hrv).1
    have hsv : ∀ τ ∈ sites, traceL (asg τ.sets) env r.name ≠ [] := by
      intro τ hτ
      obtain ⟨i, hi, he⟩ := List.getElem_of_mem hrp
      have hl := (hs τ hτ).len
      have hm : (r, (vals τ)[i]) ∈ p.pay.zip (vals τ) := by
        rw [List.mem_iff_getElem]
        refine ⟨i, by simp [hl, hi], ?_⟩
        simp [he]
      rw [(hs τ hτ).trace_sets hp (List.mem_cons_of_mem _ hm) env]
      simp
    have hne : p.valid.name ≠ r.name := by
      have := hp.nodup
      simp only [List.map_cons, List.nodup_cons] at this
      exact fun hh => this.1 (hh ▸ List.mem_map_of_mem hrp)
    rw [e.tick hr _ (hp.user r (List.mem_cons_of_mem _ hrp)), List.getLast?_append, hlast _ hsv,
      (hs σ hσ).trace_sets hp (List.mem_cons_of_mem _ hrv) env]
    simp [Code.trace, hne]

/-- Without a request and without stall, `valid` is lowered as soon as the default is armed. -/
theorem Emitted.tick_idle (e : Emitted name p sites s) (hp : p.Ok name) (hne : sites ≠ [])
    {rst : Option Expr} {env : Env} (hr : isReset rst env = false)
    (hw : winner sites env = none) (hst : (stall p.valid p.ready).truthy env = false)
    (hc : env (.cond name 0 1) ≠ 0 ∨ env p.valid.name = 0) :
    (s.always rst).tick env p.valid.name = 0 := by
  have hb : (sites.flatMap fun σ => σ.trace p env p.valid.name) = [] := by
    rw [List.flatMap_eq_nil_iff]
    intro σ hσ
    have hf : σ.fires env = false := by
      unfold winner at hw
      rw [List.getLast?_eq_none_iff, List.filter_eq_nil_iff] at hw
      simpa using hw σ hσ
    simp [Site.trace, hf, hst]
  have hd : traceL p.down env p.valid.name = [0] := by
    have hnd : ((p.valid :: p.kept).map Reg.name).Nodup := by
      have := hp.nodup
      simp only [List.map_cons, List.nodup_cons] at this ⊢
      refine ⟨fun hh => this.1 ?_, hp.keptNodup⟩
      obtain ⟨q, hq, he⟩ := List.mem_map.1 hh
      exact List.mem_map.2 ⟨q, hp.kept q hq, he⟩
    have := trace_asg (l := (p.valid :: p.kept).map fun r => (r, Expr.int 0)) (r := p.valid)
      (v := .int 0) (by simpa [Function.comp_def] using hnd) (by simp) env
    rw [Port.down, this]
    simp [hp.wrap_valid, Expr.eval]
  rw [e.tick hr _ (hp.user _ (by simp)), hb, hd, List.append_nil]
  by_cases hnil : (sites.zipIdx.flatMap fun q => if env (.cond name q.2 1) ≠ 0 then [(0 : Int)] else []) = []
  · rw [hnil]
    rcases hc with hc | hc
    · obtain ⟨σ, l, rfl⟩ := List.exists_cons_of_ne_nil hne
      rw [List.flatMap_eq_nil_iff] at hnil
      have := hnil (σ, 0) (by simp)
      simp [hc] at this
    · simpa using hc
  · rw [last_const (v := 0) _ hnil]
    · rfl
    · intro a ha
      obtain ⟨q, -, ha⟩ := List.mem_flatMap.1 ha
      split at ha <;> simp_all

/-- The default is armed after the first edge. -/
theorem Emitted.tick_cond (e : Emitted name p sites s) (hp : p.Ok name)
    (hs : ∀ σ ∈ sites, σ.Ok p vals) (hne : sites ≠ []) {rst : Option Expr} {env : Env}
    (hr : isReset rst env = false) : (s.always rst).tick env (.cond name 0 1) = 1 := by
  rw [Code.tick, Code.exec_eq_trace, trace_always, if_neg (by simp [hr])]
  have hu : ∀ r ∈ p.valid :: p.pay, r.name ≠ .cond name 0 1 := fun r hr => hp.user r hr 0
  have hk : ∀ r ∈ p.valid :: p.kept, r.name ≠ .cond name 0 1 := by
    intro r hr
    rcases List.mem_cons.1 hr with rfl | hr
    · exact hu _ (by simp)
    · exact hu _ (List.mem_cons_of_mem _ (hp.kept r hr))
  have hdown : traceL p.down env (.cond name 0 1) = [] := by
    refine trace_asg_none ?_ env
    intro hh
    obtain ⟨q, hq, he⟩ := List.mem_map.1 hh
    obtain ⟨r, hr, rfl⟩ := List.mem_map.1 hq
    exact hk r hr he
  have hhold : traceL p.hold env (.cond name 0 1) = [] := by
    refine trace_asg_none ?_ env
    intro hh
    obtain ⟨q, hq, he⟩ := List.mem_map.1 hh
    obtain ⟨r, hr, rfl⟩ := List.mem_map.1 hq
    exact hk r hr he
  have hsets : ∀ σ ∈ sites, traceL (asg σ.sets) env (.cond name 0 1) = [] := by
    intro σ hσ
    refine trace_asg_none ?_ env
    intro hh
    have := (hs σ hσ).names.mem_iff.1 hh
    obtain ⟨r, hr, he⟩ := List.mem_map.1 this
    exact hu r hr he
  have hzero : (Code.subst p.valid (.int 0)).trace env (.cond name 0 1) = [] := by
    simp [Code.trace, hu p.valid (by simp)]
  have : (traceL s.makeCode env (.cond name 0 1)).getLast? = some 1 := by
    apply last_const
    · intro a ha
      obtain ⟨c, hc, ha⟩ := List.mem_flatMap.1 ha
      rcases mem_makeCode.1 hc with ⟨d, hd⟩ | ⟨it, hit, rfl⟩
      · rw [e.delayed] at hd
        obtain ⟨q, -, hq⟩ := List.mem_map.1 hd
        simp only [downAt, Prod.mk.injEq] at hq
        rw [← hq.2] at ha
        simp [Code.trace, Code.trace_block, hdown] at ha
      · rw [e.body] at hit
        obtain ⟨⟨σ, k⟩, hq, hit⟩ := List.mem_flatMap.1 hit
        have hσ : σ ∈ sites := by
          have := List.mem_zipIdx hq
          simp only [this.2.2]
          exact List.getElem_mem _
        simp only [Site.body, List.mem_append, List.mem_cons, List.not_mem_nil, or_false] at hit
        rcases hit with rfl | hit | rfl | rfl
        · rw [chain_trace, hsets σ hσ] at ha; simp at ha
        · cases hz : σ.zero with
          | none => simp [Site.zeroBody, hz] at hit
          | some z =>
            simp only [Site.zeroBody, hz, List.mem_singleton] at hit
            subst hit
            rw [chain_trace, traceL_cons, hzero] at ha
            simp at ha
        · simp only [Item.code, Code.trace] at ha
          split at ha
          · simpa [condReg, Reg.wrap, Expr.eval] using ha
          · simp at ha
        · rw [chain_trace, hhold] at ha; simp at ha
    · obtain ⟨σ, l, rfl⟩ := List.exists_cons_of_ne_nil hne
      intro hn
      have hmem : Code.subst (condReg name 0 1) (.int 1) ∈ s.makeCode := by
        refine mem_makeCode.2 (Or.inr ⟨.plain (.subst (condReg name 0 1) (.int 1)), ?_, rfl⟩)
        rw [e.body]
        simp [List.zipIdx_cons, Site.body]
      have : (Code.subst (condReg name 0 1) (.int 1)).trace env (.cond name 0 1) = [] := by
        have := List.flatMap_eq_nil_iff.1 hn _ hmem
        exact this
      simp [Code.trace, condReg] at this
  rw [this]; rfl

theorem Emitted.target (e : Emitted name p sites s) (hs : ∀ σ ∈ sites, σ.Ok p vals) (hne : sites ≠ [])
    (rst : Option Expr) {r : Reg} (hr : r ∈ p.valid :: p.pay) :
    r.name ∈ (s.always rst).targets.map Reg.name := by
  obtain ⟨σ, l, rfl⟩ := List.exists_cons_of_ne_nil hne
  have h := (hs σ (by simp)).names.mem_iff.2 (List.mem_map_of_mem hr)
  obtain ⟨⟨q, v⟩, hq, he⟩ := List.mem_map.1 h
  refine mem_always_targets (c := (Item.chain [(σ.guard, Code.block (asg σ.sets))] none).code) (r := q) ?_ ?_ he
  · refine mem_makeCode.2 (Or.inr ⟨_, ?_, rfl⟩)
    rw [e.body]
    simp [List.zipIdx_cons, Site.body]
  · simp only [Item.code, chainCode, Code.targets, Code.targets_block, List.mem_append, List.mem_flatMap]
    refine Or.inl ⟨.subst q v, List.mem_map.2 ⟨_, hq, rfl⟩, by simp [Code.targets]⟩

theorem Emitted.target_cond (e : Emitted name p sites s) (hne : sites ≠ []) (rst : Option Expr) :
    Var.cond name 0 1 ∈ (s.always rst).targets.map Reg.name := by
  obtain ⟨σ, l, rfl⟩ := List.exists_cons_of_ne_nil hne
  refine mem_always_targets (c := Code.subst (condReg name 0 1) (.int 1)) (r := condReg name 0 1) ?_
    (by simp [Code.targets]) rfl
  refine mem_makeCode.2 (Or.inr ⟨.plain (.subst (condReg name 0 1) (.int 1)), ?_, rfl⟩)
  rw [e.body]
  simp [List.zipIdx_cons, Site.body]

/-- What the channel shows. -/
def payload (p : Port) (env : Env) : List Int := p.pay.map fun r => env r.name

/-- What a call asks to be sent. -/
def request (p : Port) (vals : Site → List Expr) (σ : Site) (env : Env) : List Int :=
  (p.pay.zip (vals σ)).map fun q => q.1.wrap (q.2.eval env)

/-- The beat put into the channel register at this edge. -/
def accepted (p : Port) (vals : Site → List Expr) (sites : List Site) (env : Env) : List (List Int) :=
  match winner sites env with
  | none => []
  | some σ => if σ.zeroed env then [] else [request p vals σ env]

/-- The beats handed over at the edges before `n`. -/
def handed (p : Port) (E : Nat → Env) (n : Nat) : List (List Int) :=
  (List.range n).flatMap fun t =>
    if E t p.valid.name ≠ 0 ∧ E t p.ready ≠ 0 then [payload p (E t)] else []

/-- The beat on offer. -/
def pending (p : Port) (env : Env) : List (List Int) :=
  if env p.valid.name ≠ 0 then [payload p env] else []

theorem stall_truthy (env : Env) : (stall p.valid p.ready).truthy env =
    (decide (env p.valid.name ≠ 0) && decide (env p.ready = 0)) := by
  by_cases h1 : env p.valid.name = 0 <;> by_cases h2 : env p.ready = 0 <;>
    simp [stall, Expr.truthy, Expr.eval, h1, h2]

theorem payload_eq {vs : List Expr} {env env' : Env} (hl : vs.length = p.pay.length)
    (h : ∀ r v, (r, v) ∈ p.pay.zip vs → env' r.name = r.wrap (v.eval env)) :
    payload p env' = (p.pay.zip vs).map fun q => q.1.wrap (q.2.eval env) := by
  have e : (p.pay.zip vs).map Prod.fst = p.pay := List.map_fst_zip (by rw [hl]; exact Nat.le_refl _)
  unfold payload
  conv_lhs => rw [← e]
  rw [List.map_map]
  apply List.map_congr_left
  rintro ⟨r, v⟩ hq
  exact h r v hq

/-- Requests come out of the channel exactly once and in order; the registers stay in range. -/
theorem Emitted.beats (e : Emitted name p sites s) (hp : p.Ok name) (hs : ∀ σ ∈ sites, σ.Ok p vals)
    (hne : sites ≠ []) {rst : Option Expr} {E : Nat → Env} (hE : Run (s.always rst) E)
    (h0 : E 0 p.valid.name = 0) (n : Nat) (hr : ∀ t < n, isReset rst (E t) = false) :
    (handed p E n ++ pending p (E n) = (List.range n).flatMap fun t => accepted p vals sites (E t)) ∧
    (0 < n → E n (.cond name 0 1) = 1) ∧
    (E n p.valid.name = 0 ∨ E n p.valid.name = 1 ∧ ∀ r ∈ p.pay, r.wrap (E n r.name) = E n r.name) := by
  induction n with
  | zero => exact ⟨by simp [handed, pending, h0], by omega, Or.inl h0⟩
  | succ n ih =>
    obtain ⟨ih1, ih2, ih3⟩ := ih fun t ht => hr t (by omega)
    have hrn := hr n (by omega)
    have hcond : E (n + 1) (.cond name 0 1) = 1 := by
      rw [hE n _ (e.target_cond hne rst)]
      exact e.tick_cond hp hs hne hrn
    have hstep : ∀ r ∈ p.valid :: p.pay, E (n + 1) r.name = (s.always rst).tick (E n) r.name :=
      fun r hm => hE n _ (e.target hs hne rst hm)
    have hH : handed p E (n + 1) = handed p E n ++
        (if E n p.valid.name ≠ 0 ∧ E n p.ready ≠ 0 then [payload p (E n)] else []) := by
      simp [handed, List.range_succ]
    rw [hH, List.range_succ, List.flatMap_append, ← ih1]
    simp only [List.flatMap_cons, List.flatMap_nil, List.append_nil]
    by_cases hst : (stall p.valid p.ready).truthy (E n) = true
    · -- stalled
      have hst' := hst
      rw [stall_truthy] at hst'
      simp only [Bool.and_eq_true, decide_eq_true_eq] at hst'
      obtain ⟨hv, hrd⟩ := hst'
      obtain ⟨hv1, hwr⟩ := ih3.resolve_left hv
      have hnw : winner sites (E n) = none := by
        rcases hw : winner sites (E n) with _ | σ
        · rfl
        · obtain ⟨hσ, hf⟩ := winner_mem hw
          have := (hs σ hσ).free _ hf
          rw [hst] at this; cases this
      have hkeep : ∀ r ∈ p.valid :: p.pay, E (n + 1) r.name = E n r.name := by
        intro r hm
        rw [hstep r hm]
        refine e.tick_stall hp hs hne hrn hst hm ?_
        rcases List.mem_cons.1 hm with rfl | hm
        · rw [hp.wrap_valid, hv1]; rfl
        · exact hwr r hm
      have hpay : payload p (E (n + 1)) = payload p (E n) :=
        List.map_congr_left fun r hm => hkeep r (List.mem_cons_of_mem _ hm)
      have hval := hkeep p.valid (by simp)
      refine ⟨?_, fun _ => hcond, Or.inr ⟨by rw [hval, hv1], fun r hm => ?_⟩⟩
      · simp [accepted, hnw, pending, hval, hpay, hrd]
      · rw [hkeep r (List.mem_cons_of_mem _ hm)]; exact hwr r hm
    · -- the register is free or handed over
      have hst0 : (stall p.valid p.ready).truthy (E n) = false := by simpa using hst
      have hho : (if E n p.valid.name ≠ 0 ∧ E n p.ready ≠ 0 then [payload p (E n)] else []) =
          pending p (E n) := by
        rw [stall_truthy] at hst0
        unfold pending
        by_cases hv : E n p.valid.name = 0
        · simp [hv]
        · have : E n p.ready ≠ 0 := by
            intro h; simp [hv, h] at hst0
          simp [hv, this]
      rw [hho]
      rcases hw : winner sites (E n) with _ | σ
      · have hz : E (n + 1) p.valid.name = 0 := by
          rw [hstep _ (by simp)]
          refine e.tick_idle hp hne hrn hw hst0 ?_
          rcases Nat.eq_zero_or_pos n with rfl | hn
          · exact Or.inr h0
          · exact Or.inl (by rw [ih2 hn]; decide)
        exact ⟨by simp [accepted, hw, pending, hz], fun _ => hcond, Or.inl hz⟩
      · obtain ⟨f1, f2⟩ := e.tick_fire hp hs hrn hw
        have hl := (hs σ (winner_mem hw).1).len
        have hval : E (n + 1) p.valid.name = if σ.zeroed (E n) then 0 else 1 := by
          rw [hstep _ (by simp)]; exact f1
        have hf2 : ∀ r v, (r, v) ∈ p.pay.zip (vals σ) → E (n + 1) r.name = r.wrap (v.eval (E n)) := by
          intro r v hm
          rw [hstep r (List.mem_cons_of_mem _ (List.of_mem_zip hm).1)]
          exact f2 r v hm
        by_cases hz : σ.zeroed (E n) = true
        · rw [if_pos hz] at hval
          exact ⟨by simp [accepted, hw, hz, pending, hval], fun _ => hcond, Or.inl hval⟩
        · rw [if_neg hz] at hval
          refine ⟨?_, fun _ => hcond, Or.inr ⟨hval, fun r hm => ?_⟩⟩
          · simp only [accepted, hw, hz, pending, hval]
            simp [payload_eq hl hf2, request]
          · obtain ⟨i, hi, he⟩ := List.getElem_of_mem hm
            have hm' : (r, (vals σ)[i]'(by rw [hl]; exact hi)) ∈ p.pay.zip (vals σ) := by
              rw [List.mem_iff_getElem]
              exact ⟨i, by simp [hl, hi], by simp [he]⟩
            rw [hf2 _ _ hm', Reg.wrap_wrap]

/-- `valid` is only raised by a call. -/
theorem Emitted.valid_next (e : Emitted name p sites s) (hp : p.Ok name) (hs : ∀ σ ∈ sites, σ.Ok p vals)
    (hne : sites ≠ []) {rst : Option Expr} {E : Nat → Env} (hE : Run (s.always rst) E)
    (h0 : E 0 p.valid.name = 0) (n : Nat) (hr : ∀ t < n + 1, isReset rst (E t) = false)
    (hv : E (n + 1) p.valid.name ≠ 0) :
    (E n p.valid.name ≠ 0 ∧ E n p.ready = 0) ∨ ∃ σ ∈ sites, σ.fires (E n) = true := by
  by_cases hst : (stall p.valid p.ready).truthy (E n) = true
  · left
    rw [stall_truthy] at hst
    simpa using hst
  · right
    rcases hw : winner sites (E n) with _ | σ
    · exfalso
      apply hv
      rw [hE n _ (e.target hs hne rst (by simp))]
      refine e.tick_idle hp hne (hr n (by omega)) hw (by simpa using hst) ?_
      rcases Nat.eq_zero_or_pos n with rfl | hn
      · exact Or.inr h0
      · exact Or.inl (by rw [(e.beats hp hs hne hE h0 n fun t ht => hr t (by omega)).2.1 hn]; decide)
    · exact ⟨σ, winner_mem hw⟩

theorem iff_many (s : SeqSt) (cs : List Expr) (c : Expr) (hc : makeCond cs = some c) (hn : s.next = {}) :
    (s.iff cs).next = { cond := some c } ∧ (s.iff cs).elifCond = none ∧
    (s.iff cs).body = s.body ∧ (s.iff cs).delayed = s.delayed ∧ (s.iff cs).nextElse = s.nextElse := by
  simp [SeqSt.iff, hc, hn]

/-- Two guarded statements in a row. -/
theorem two_guarded (name : String) (cs ds : List Expr) (c d : Expr) (hc : makeCond cs = some c)
    (hd : makeCond ds = some d) (l m : List Code) :
    ∃ s, (SeqSt.fresh name).applyAll [.iff cs, .add l, .iff ds, .add m] = some s ∧
      s.body = [.chain [(c, Code.block l)] none, .chain [(d, Code.block m)] none] ∧ s.delayed = [] := by
  obtain ⟨a1, a2, a3, a4, a5⟩ := iff_many (SeqSt.fresh name) cs c hc rfl
  obtain ⟨s1, h1, b1, d1, -, -, -, k1⟩ := add_cond _ c l a1 a2 (by rw [a5]; rfl)
  obtain ⟨a1', a2', a3', a4', a5'⟩ := iff_many s1 ds d hd k1.next
  obtain ⟨s2, h2, b2, d2, -⟩ := add_cond _ d m a1' a2' (by rw [a5', k1.nextElse])
  refine ⟨s2, ?_, ?_, ?_⟩
  · simp [applyAll, SeqOp.apply, h1, h2]
  · rw [b2, a3', b1, a3]; rfl
  · rw [d2, a4', d1, a4]; rfl

theorem two_guarded' {name : String} {cs ds : List Expr} {l m : List Code} {s : SeqSt}
    (hs : (SeqSt.fresh name).applyAll [.iff cs, .add l, .iff ds, .add m] = some s) {c d : Expr}
    (hc : makeCond cs = some c) (hd : makeCond ds = some d) :
    s.body = [.chain [(c, Code.block l)] none, .chain [(d, Code.block m)] none] ∧ s.delayed = [] := by
  obtain ⟨s', h, h1, h2⟩ := two_guarded name cs ds c d hc hd l m
  rw [hs] at h
  obtain rfl := Option.some.inj h
  exact ⟨h1, h2⟩

end Axi
