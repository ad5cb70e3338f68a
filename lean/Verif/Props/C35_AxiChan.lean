import Verif.Lemmas.AxiChan

/-!
# C35: AXI channels hold a request until it is accepted

`write_request`, `read_request`, `write_data` (and the AXI4-Lite, slave read data and AXI4-Stream output
versions) may be called any number of times with any arguments.  For every schedule of conditions, arguments and
`ready`: once `valid` is raised it stays raised with unchanged payload until `ready`, and the beats handed over
are exactly the acknowledged requests, in order.  If two calls are acknowledged at the same edge only the one
written later is sent.
-/

namespace Axi

open Hdl

/-- The values shown on the payload ports. -/
def shown (pay : List Reg) (env : Env) : List Int := pay.map fun r => env r.name

/-- Beats transferred at the edges before `n`: those with `valid` and `ready`. -/
def transfers (valid : Reg) (ready : Var) (pay : List Reg) (E : Nat → Env) (n : Nat) : List (List Int) :=
  (List.range n).flatMap fun t => if E t valid.name ≠ 0 ∧ E t ready ≠ 0 then [shown pay (E t)] else []

/-- Beat waiting to be transferred. -/
def waiting (valid : Reg) (pay : List Reg) (env : Env) : List (List Int) :=
  if env valid.name ≠ 0 then [shown pay env] else []

/-- The condition of a call holds (a call without condition always asks). -/
def wants (cond : Option Expr) (env : Env) : Bool := cond.all fun c => c.truthy env

/-- The channel can take a beat: `ready` or not `valid`. -/
def canTake (valid : Reg) (ready : Var) (env : Env) : Bool := env ready != 0 || env valid.name == 0

/-- The channel with the calls `calls` (`ops` are the `Seq` calls they make) behaves: `acked` tells which calls
    are acknowledged at an edge, `beat` what an acknowledged call has to send. -/
def Behaves {α : Type} (name : String) (valid : Reg) (ready : Var) (pay : List Reg) (ops : α → List SeqOp)
    (acked : α → Env → Bool) (beat : α → Env → List (List Int)) (calls : List α) : Prop :=
  ∃ s, (SeqSt.fresh name).applyAll (calls.flatMap ops) = some s ∧
    ∀ (rst : Option Expr) (E : Nat → Env), Run (s.always rst) E → E 0 valid.name = 0 →
    ∀ n, (∀ t < n, isReset rst (E t) = false) →
    -- every transferred or waiting beat is an acknowledged request, each exactly once and in order
    transfers valid ready pay E n ++ waiting valid pay (E n) =
      (List.range n).flatMap (fun t =>
        (calls.filter fun a => acked a (E t)).getLast?.toList.flatMap fun a => beat a (E t)) ∧
    -- a beat that is not taken stays
    (∀ t < n, E t valid.name ≠ 0 → E t ready = 0 →
      E (t + 1) valid.name ≠ 0 ∧ shown pay (E (t + 1)) = shown pay (E t))

/-- The same, when no two calls are acknowledged at the same edge: every acknowledged request is sent. -/
theorem Behaves.all {α : Type} {name : String} {valid : Reg} {ready : Var} {pay : List Reg}
    {ops : α → List SeqOp} {acked : α → Env → Bool} {beat : α → Env → List (List Int)} {calls : List α}
    (h : Behaves name valid ready pay ops acked beat calls) :
    ∃ s, (SeqSt.fresh name).applyAll (calls.flatMap ops) = some s ∧
    ∀ (rst : Option Expr) (E : Nat → Env), Run (s.always rst) E → E 0 valid.name = 0 →
    ∀ n, (∀ t < n, isReset rst (E t) = false) →
    (∀ t < n, (calls.filter fun a => acked a (E t)).length ≤ 1) →
    transfers valid ready pay E n ++ waiting valid pay (E n) =
      (List.range n).flatMap (fun t => (calls.filter fun a => acked a (E t)).flatMap fun a => beat a (E t)) := by
  obtain ⟨s, h1, h2⟩ := h
  refine ⟨s, h1, fun rst E hE h0 n hr ho => ?_⟩
  rw [(h2 rst E hE h0 n hr).1]
  refine flatMap_congr' fun t ht => ?_
  have := ho t (List.mem_range.1 ht)
  generalize calls.filter (fun a => acked a (E t)) = l at this
  rcases l with _ | ⟨a, _ | ⟨b, l⟩⟩
  · rfl
  · rfl
  · simp at this

theorem Emitted.stays {name : String} {p : Port} {sites : List Site} {s : SeqSt} {vals : Site → List Expr}
    (e : Emitted name p sites s) (hp : p.Ok name) (hs : ∀ σ ∈ sites, σ.Ok p vals)
    (hne : sites ≠ []) {rst : Option Expr} {E : Nat → Env} (hE : Run (s.always rst) E)
    (h0 : E 0 p.valid.name = 0) (n : Nat) (hr : ∀ t < n + 1, isReset rst (E t) = false)
    (hv : E n p.valid.name ≠ 0) (hrd : E n p.ready = 0) :
    ∀ r ∈ p.valid :: p.pay, E (n + 1) r.name = E n r.name := by
  intro r hm
  obtain ⟨hv1, hw⟩ := (e.beats hp hs hne hE h0 n fun t ht => hr t (by omega)).2.2.resolve_left hv
  rw [hE _ _ (e.target hs hne rst hm)]
  refine e.tick_stall hp hs hne (hr _ (by omega)) (by rw [stall_truthy]; simp [hv, hrd]) hm ?_
  rcases List.mem_cons.1 hm with rfl | hm
  · rw [hp.wrap_valid, hv1]; rfl
  · exact hw r hm

/-- From the generic channel to the claim. -/
theorem behaves {α : Type} {name : String} {p : Port} {vals : Site → List Expr} (hp : p.Ok name)
    {ops : α → List SeqOp} {acked : α → Env → Bool} {beat : α → Env → List (List Int)} {calls : List α}
    (site : α → Site) (hops : ∀ a ∈ calls, ops a = (site a).ops p) (hs : ∀ a ∈ calls, (site a).Ok p vals)
    (hacked : ∀ a ∈ calls, ∀ env, acked a env = (site a).fires env)
    (hbeat : ∀ a ∈ calls, ∀ env, beat a env = if (site a).zeroed env then [] else [request p vals (site a) env])
    (hne : calls ≠ []) :
    Behaves name p.valid p.ready p.pay ops acked beat calls := by
  obtain ⟨s, h, e⟩ := emitted name p (calls.map site)
  have hne' : calls.map site ≠ [] := by simpa using hne
  have hs' : ∀ σ ∈ calls.map site, σ.Ok p vals := by
    intro σ hσ
    obtain ⟨a, ha, rfl⟩ := List.mem_map.1 hσ
    exact hs a ha
  refine ⟨s, ?_, fun rst E hE h0 n hr => ⟨?_, fun t ht hv hrd => ?_⟩⟩
  · rw [← h, List.flatMap_map]
    congr 1
    exact flatMap_congr' hops
  · refine (e.beats hp hs' hne' hE h0 n hr).1.trans (flatMap_congr' fun t _ => ?_)
    have hf : (calls.map site).filter (fun σ => σ.fires (E t)) =
        (calls.filter fun a => acked a (E t)).map site := by
      rw [List.filter_map]
      congr 1
      exact List.filter_congr fun a ha => (hacked a ha _).symm
    unfold accepted winner
    rw [hf, List.getLast?_map]
    rcases hl : (calls.filter fun a => acked a (E t)).getLast? with _ | a
    · rfl
    · have ha : a ∈ calls := (List.mem_filter.1 (List.mem_of_getLast? hl)).1
      simp [hbeat a ha]
  · have := e.stays hp hs' hne' hE h0 t (fun u hu => hr u (by omega)) hv hrd
    exact ⟨by rw [this _ (by simp)]; exact hv,
      List.map_congr_left fun r hr => this r (List.mem_cons_of_mem _ hr)⟩

theorem eval_fn (f : Env → Int) (env : Env) : (Expr.fn f).eval env = f env := rfl

theorem fires_eq (cond : Option Expr) (ack : Expr) (sets zero) (env : Env) :
    (Site.mk cond ack sets zero).fires env = (wants cond env && ack.truthy env) := by
  cases cond <;> simp [Site.fires, Site.guard, wants, Expr.truthy_and]

theorem free_truthy (valid : Reg) (ready : Var) (env : Env) :
    (free valid ready).truthy env = canTake valid ready env := by
  by_cases h1 : env ready = 0 <;> by_cases h2 : env valid.name = 0 <;>
    simp [free, canTake, Expr.truthy, Expr.eval, h1, h2]

theorem stall_not_free {valid : Reg} {ready : Var} {env : Env} (h : (free valid ready).truthy env = true) :
    (stall valid ready).truthy env = false := by
  rw [free_truthy] at h
  by_cases h1 : env ready = 0 <;> by_cases h2 : env valid.name = 0 <;>
    simp_all [stall, canTake, Expr.truthy, Expr.eval]

theorem free_of_fires {cond : Option Expr} {valid : Reg} {ready : Var} {sets zero} {env : Env}
    (h : (Site.mk cond (free valid ready) sets zero).fires env = true) :
    (stall valid ready).truthy env = false := by
  rw [fires_eq, Bool.and_eq_true] at h
  exact stall_not_free h.2

theorem free_of_fires' {cond : Option Expr} {acc : Expr} {valid : Reg} {ready : Var} {sets zero} {env : Env}
    (h : (Site.mk cond (acc.and (free valid ready)) sets zero).fires env = true) :
    (stall valid ready).truthy env = false := by
  rw [fires_eq, Bool.and_eq_true, Expr.truthy_and, Bool.and_eq_true] at h
  exact stall_not_free h.2.2

/-- `valid` is one bit, and the ports have different names, none of them a name `Seq` generates. -/
structure PortsOk (name : String) (valid : Reg) (pay : List Reg) : Prop where
  bit : valid.width = 1
  uns : valid.signed = false
  nodup : ((valid :: pay).map Reg.name).Nodup
  user : ∀ r ∈ valid :: pay, ∀ k, r.name ≠ .cond name k 1

theorem PortsOk.port {name : String} {valid : Reg} {pay : List Reg} (h : PortsOk name valid pay) (ready : Var)
    (kept : List Reg) (hk : kept.Sublist pay) : (Port.mk valid ready pay kept).Ok name where
  bit := h.bit
  uns := h.uns
  nodup := h.nodup
  kept := fun r hr => hk.subset hr
  keptNodup := by
    have := h.nodup
    simp only [List.map_cons, List.nodup_cons] at this
    exact this.2.sublist (hk.map _)
  user := h.user

/-- What an address request sends: the address and the length minus one, each in its register's width. -/
def AddrCall.beat (c : AddrChan) (a : AddrCall) (env : Env) : List Int :=
  [c.addr.wrap (a.addr.eval env), c.len.wrap (a.length.eval env - 1)]

/-- **C35** for `write_request`: a request of length 0 is dropped. -/
theorem c35_write_request (name : String) (c : AddrChan) (acceptable : Expr) (calls : List AddrCall)
    (hne : calls ≠ []) (hc : PortsOk name c.valid [c.addr, c.len]) :
    Behaves name c.valid c.ready [c.addr, c.len] (writeRequest c acceptable)
      (fun a env => wants a.cond env && (acceptable.truthy env && canTake c.valid c.ready env))
      (fun a env => if a.length.eval env = 0 then [] else [a.beat c env]) calls := by
  refine behaves (vals := fun σ => (σ.sets.eraseIdx 2).map Prod.snd)
    (hc.port c.ready [] (by simp))
    (fun a => ⟨a.cond, acceptable.and (free c.valid c.ready),
      [(c.addr, a.addr), (c.len, a.lenMinus1), (c.valid, .int 1)], some a.isZero⟩)
    (fun a _ => rfl) (fun a _ => ⟨rfl, ?_, fun env h => free_of_fires' h⟩) (fun a _ env => ?_)
    (fun a _ env => ?_) hne
  · exact ((List.Perm.swap _ _ _).cons _).trans (List.Perm.swap _ _ _)
  · rw [fires_eq, Expr.truthy_and, free_truthy]
  · have hz : a.isZero.truthy env = decide (a.length.eval env = 0) := by
      by_cases h : a.length.eval env = 0 <;> simp [AddrCall.isZero, Expr.truthy, eval_fn, h]
    by_cases h : a.length.eval env = 0 <;>
      simp [Site.zeroed, hz, h, request, AddrCall.beat, AddrCall.lenMinus1, eval_fn]

/-- **C35** for `read_request`. -/
theorem c35_read_request (name : String) (c : AddrChan) (calls : List AddrCall)
    (hne : calls ≠ []) (hc : PortsOk name c.valid [c.addr, c.len]) :
    Behaves name c.valid c.ready [c.addr, c.len] (readRequest c)
      (fun a env => wants a.cond env && canTake c.valid c.ready env)
      (fun a env => [a.beat c env]) calls := by
  refine behaves (vals := fun σ => (σ.sets.eraseIdx 2).map Prod.snd)
    (hc.port c.ready [] (by simp))
    (fun a => ⟨a.cond, free c.valid c.ready,
      [(c.addr, a.addr), (c.len, a.lenMinus1), (c.valid, .int 1)], none⟩)
    (fun a _ => rfl) (fun a _ => ⟨rfl, ?_, fun env h => free_of_fires h⟩) (fun a _ env => ?_)
    (fun a _ env => ?_) hne
  · exact ((List.Perm.swap _ _ _).cons _).trans (List.Perm.swap _ _ _)
  · rw [fires_eq, free_truthy]
  · simp [Site.zeroed, request, AddrCall.beat, AddrCall.lenMinus1, eval_fn]

/-- **C35** for `write_data`: data, last flag, and all strobe bits. -/
theorem c35_write_data (name : String) (c : DataChan) (calls : List DataCall)
    (hne : calls ≠ []) (hc : PortsOk name c.valid [c.data, c.last, c.strb]) :
    Behaves name c.valid c.ready [c.data, c.last, c.strb] (writeData c)
      (fun a env => wants a.cond env && canTake c.valid c.ready env)
      (fun a env => [[c.data.wrap (a.data.eval env), c.last.wrap (a.last.eval env),
        c.strb.wrap (2 ^ c.strb.width - 1)]]) calls := by
  refine behaves (vals := fun σ => (σ.sets.eraseIdx 1).map Prod.snd)
    (hc.port c.ready [c.last] (by simp))
    (fun a => ⟨a.cond, free c.valid c.ready,
      [(c.data, a.data), (c.valid, .int 1), (c.last, a.last), (c.strb, allOnes c)], none⟩)
    (fun a _ => rfl) (fun a _ => ⟨rfl, ?_, fun env h => free_of_fires h⟩) (fun a _ env => ?_)
    (fun a _ env => ?_) hne
  · exact List.Perm.swap _ _ _
  · rw [fires_eq, free_truthy]
  · simp [Site.zeroed, request, allOnes, Expr.eval]

/-- **C35** for AXI4-Lite `write_request`. -/
theorem c35_lite_write_request (name : String) (c : LiteChan) (acceptable : Expr) (calls : List LiteCall)
    (hne : calls ≠ []) (hc : PortsOk name c.valid [c.pay]) :
    Behaves name c.valid c.ready [c.pay] (fun a => liteWriteRequest c acceptable a.cond a.val)
      (fun a env => wants a.cond env && (acceptable.truthy env && canTake c.valid c.ready env))
      (fun a env => [[c.pay.wrap (a.val.eval env)]]) calls := by
  refine behaves (vals := fun σ => (σ.sets.eraseIdx 1).map Prod.snd)
    (hc.port c.ready [] (by simp))
    (fun a => ⟨a.cond, acceptable.and (free c.valid c.ready), [(c.pay, a.val), (c.valid, .int 1)], none⟩)
    (fun a _ => rfl) (fun a _ => ⟨rfl, ?_, fun env h => free_of_fires' h⟩) (fun a _ env => ?_)
    (fun a _ env => ?_) hne
  · exact List.Perm.swap _ _ _
  · rw [fires_eq, Expr.truthy_and, free_truthy]
  · simp [Site.zeroed, request]

/-- **C35** for AXI4-Lite `read_request` and the AXI4-Lite slave's `push_read_data`. -/
theorem c35_lite_push (name : String) (c : LiteChan) (calls : List LiteCall)
    (hne : calls ≠ []) (hc : PortsOk name c.valid [c.pay]) :
    Behaves name c.valid c.ready [c.pay] (fun a => litePush c a.cond a.val)
      (fun a env => wants a.cond env && canTake c.valid c.ready env)
      (fun a env => [[c.pay.wrap (a.val.eval env)]]) calls := by
  refine behaves (vals := fun σ => (σ.sets.eraseIdx 1).map Prod.snd)
    (hc.port c.ready [] (by simp))
    (fun a => ⟨a.cond, free c.valid c.ready, [(c.pay, a.val), (c.valid, .int 1)], none⟩)
    (fun a _ => rfl) (fun a _ => ⟨rfl, ?_, fun env h => free_of_fires h⟩) (fun a _ env => ?_)
    (fun a _ env => ?_) hne
  · exact List.Perm.swap _ _ _
  · rw [fires_eq, free_truthy]
  · simp [Site.zeroed, request]

/-- **C35** for AXI4-Lite `write_data`. -/
theorem c35_lite_write_data (name : String) (c : LiteDataChan) (calls : List LiteCall)
    (hne : calls ≠ []) (hc : PortsOk name c.valid [c.data, c.strb]) :
    Behaves name c.valid c.ready [c.data, c.strb] (liteWriteData c)
      (fun a env => wants a.cond env && canTake c.valid c.ready env)
      (fun a env => [[c.data.wrap (a.val.eval env), c.strb.wrap (2 ^ c.strb.width - 1)]]) calls := by
  refine behaves (vals := fun σ => (σ.sets.eraseIdx 1).map Prod.snd)
    (hc.port c.ready [] (by simp))
    (fun a => ⟨a.cond, free c.valid c.ready, [(c.data, a.val), (c.valid, .int 1),
      (c.strb, .fn fun _ => (2 ^ c.strb.width : Nat) - 1)], none⟩)
    (fun a _ => rfl) (fun a _ => ⟨rfl, ?_, fun env h => free_of_fires h⟩) (fun a _ env => ?_)
    (fun a _ env => ?_) hne
  · exact List.Perm.swap _ _ _
  · rw [fires_eq, free_truthy]
  · simp [Site.zeroed, request, Expr.eval]

/-- **C35** for the AXI4-Stream output's `write_data` and the slave's `push_read_data`, with or without the
    last flag and the side signals. -/
theorem c35_stream_write (name : String) (c : StreamChan) (calls : List StreamCall)
    (hne : calls ≠ []) (hc : PortsOk name c.valid (c.data :: (c.last.toList ++ c.side)))
    (hside : ∀ a ∈ calls, a.side.length = c.side.length) :
    Behaves name c.valid c.ready (c.data :: (c.last.toList ++ c.side)) (streamWrite c)
      (fun a env => wants a.cond env && canTake c.valid c.ready env)
      (fun a env => [c.data.wrap (a.data.eval env) :: (c.last.toList.map (fun r => r.wrap (a.last.eval env)) ++
        (c.side.zip a.side).map fun q => q.1.wrap (q.2.eval env))]) calls := by
  have hz : ∀ a : StreamCall, a.side.length = c.side.length →
      (c.last.toList ++ c.side).zip (c.last.toList.map (fun _ => a.last) ++ a.side) =
        c.last.toList.map (fun r => (r, a.last)) ++ c.side.zip a.side := by
    intro a _
    rcases c.last with _ | r <;> simp
  have hv : ∀ a : StreamCall, a.side.length = c.side.length →
      ((c.last.toList.map (fun r => (r, a.last)) ++ c.side.zip a.side).map Prod.snd) =
        c.last.toList.map (fun _ => a.last) ++ a.side := by
    intro a h
    have : (c.side.zip a.side).map Prod.snd = a.side := List.map_snd_zip (by omega)
    simp [this]
  refine behaves (vals := fun σ => (σ.sets.eraseIdx 1).map Prod.snd)
    (hc.port c.ready c.last.toList ((List.sublist_append_left _ _).trans (List.sublist_cons_self _ _)))
    (fun a => ⟨a.cond, free c.valid c.ready, (c.data, a.data) :: (c.valid, .int 1) ::
      (c.last.toList.map (fun r => (r, a.last)) ++ c.side.zip a.side), none⟩)
    (fun a _ => ?_) (fun a ha => ⟨?_, ?_, fun env h => free_of_fires h⟩) (fun a _ env => ?_)
    (fun a ha env => ?_) hne
  · rcases h : c.last with _ | r <;> simp [streamWrite, Site.ops, Site.zeroOps, asg, Port.down, Port.hold, h]
  · have := hside a ha
    simp [List.length_zip, this]
  · have h := hside a ha
    simp only [List.eraseIdx_cons_succ, List.eraseIdx_cons_zero, List.map_cons, List.zip_cons_cons]
    rw [hv a h, hz a h]
    exact List.Perm.swap _ _ _
  · rw [fires_eq, free_truthy]
  · have h := hside a ha
    simp only [Site.zeroed, request, List.eraseIdx_cons_succ, List.eraseIdx_cons_zero, List.map_cons,
      List.zip_cons_cons]
    rw [hv a h, hz a h]
    simp [Function.comp_def]

/-! ## Concrete channels -/

/-- An address channel with 32 bit addresses. -/
def exAddr : AddrChan :=
  ⟨⟨.user "awaddr", 32, false, some 0⟩, ⟨.user "awlen", 8, false, some 0⟩, ⟨.user "awvalid", 1, false, some 0⟩,
    .user "awready"⟩

theorem exAddr_ok : PortsOk "ch" exAddr.valid [exAddr.addr, exAddr.len] :=
  ⟨rfl, rfl, by simp [exAddr], by simp [exAddr]⟩

/-- Two calls with different conditions meet the hypotheses. -/
example : Behaves "ch" exAddr.valid exAddr.ready [exAddr.addr, exAddr.len] (writeRequest exAddr (.int 1))
    (fun a env => wants a.cond env && ((Expr.int 1).truthy env && canTake exAddr.valid exAddr.ready env))
    (fun a env => if a.length.eval env = 0 then [] else [a.beat exAddr env])
    [⟨some (.var (.user "go")), .var (.user "a"), .int 4⟩, ⟨some (.var (.user "stop")), .int 64, .int 1⟩] :=
  c35_write_request _ _ _ _ (by simp) exAddr_ok

example : PortsOk "ch" ⟨.user "wvalid", 1, false, some 0⟩
    [⟨.user "wdata", 32, false, some 0⟩, ⟨.user "wlast", 1, false, some 0⟩, ⟨.user "wstrb", 4, false, some 0⟩] :=
  ⟨rfl, rfl, by simp, by simp⟩

/-- Two requests acknowledged at the same edge: both callers see the acknowledgement, only the second request is
    sent. -/
theorem c35_simultaneous :
    let a : AddrCall := ⟨none, .int 4, .int 1⟩
    let b : AddrCall := ⟨none, .int 8, .int 1⟩
    ∃ s, (SeqSt.fresh "ch").applyAll ([a, b].flatMap (readRequest exAddr)) = some s ∧
      ∀ (rst : Option Expr) (E : Nat → Env), Run (s.always rst) E → E 0 exAddr.valid.name = 0 →
      isReset rst (E 0) = false →
      (wants a.cond (E 0) && canTake exAddr.valid exAddr.ready (E 0)) = true ∧
      (wants b.cond (E 0) && canTake exAddr.valid exAddr.ready (E 0)) = true ∧
      transfers exAddr.valid exAddr.ready [exAddr.addr, exAddr.len] E 1 ++
        waiting exAddr.valid [exAddr.addr, exAddr.len] (E 1) = [[8, 0]] := by
  intro a b
  obtain ⟨s, h1, h2⟩ := c35_read_request "ch" exAddr [a, b] (by simp) exAddr_ok
  refine ⟨s, h1, fun rst E hE h0 hr => ?_⟩
  have hc : ∀ x, (wants none (E 0) && canTake exAddr.valid exAddr.ready (E 0)) = x → x = true := by
    intro x hx; rw [← hx]; simp [wants, canTake, h0]
  refine ⟨hc _ rfl, hc _ rfl, ?_⟩
  rw [(h2 rst E hE h0 1 fun t ht => by obtain rfl : t = 0 := by omega
                                       exact hr).1]
  have h0' : canTake exAddr.valid exAddr.ready (E 0) = true := by simp [canTake, h0]
  simp only [List.range_one, List.flatMap_cons, List.flatMap_nil, List.append_nil, a, b, List.filter, wants,
    Option.all, h0', Bool.and_self, List.getLast?_cons_cons, List.getLast?_singleton, Option.toList]
  rfl

end Axi
