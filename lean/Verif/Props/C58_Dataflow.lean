import Verif.Model.Dataflow

/-!
# C58: tokens in a dataflow network

A token of a source is transferred in a cycle in which its `valid` and `ready` are both 1.
-/

namespace Dataflow

variable {S V : Type}

/-- A run of a network: inputs and states, one index per cycle. -/
structure Run (net : Net S V) (v0 : V) (s0 : S) where
  inp : ℕ → In V
  st : ℕ → St S V
  start : st 0 = St.init net v0 s0
  step : ∀ t, st (t + 1) = St.step net v0 (inp t) (st t)

/-- Operands come before the operator that uses them. -/
def Ordered (net : Net S V) : Prop :=
  ∀ (j : ℕ) (nd : Node S V), net[j]? = some nd → ∀ a ∈ nd.ins, ∀ k, a.1 = .op k → k < j

/-- `x` is an operand of operator `s`. -/
def Uses (net : Net S V) (s : ℕ) (x : Src) : Prop := ∃ nd, net[s]? = some nd ∧ ∃ a ∈ nd.ins, a.1 = x

namespace Run

variable {net : Net S V} {v0 : V} {s0 : S} (r : Run net v0 s0)

/-- `valid` of a source in a cycle. -/
def valid (t : ℕ) (x : Src) : Bool := (r.st t).valid (r.inp t) x

/-- `ready` of a source in a cycle. -/
def ready (t : ℕ) (x : Src) : Bool := (r.st t).ready net (r.inp t) x

/-- The data of a source in a cycle. -/
def data (t : ℕ) (x : Src) : V := ((r.st t).val (r.inp t) x).getD v0

/-- The tokens of a source transferred before a cycle. -/
def xfer (x : Src) : ℕ → List V
  | 0 => []
  | t + 1 => xfer x t ++ (if r.valid t x && r.ready t x then [r.data t x] else [])

end Run

/-- The results of an operator for a list of operand tuples. -/
def Node.run (nd : Node S V) (s : S) : List (List V) → List V
  | [] => []
  | a :: as => nd.out (nd.next s a) :: Node.run nd (nd.next s a) as

/-- The operands of the `k`-th activation of an operator, given the tokens of the sources: token `k - d` for an operand
    `prev(d)`, the initial value if there is no such token. -/
def Node.tuple (nd : Node S V) (v0 : V) (tok : Src → List V) (k : ℕ) : List V :=
  nd.ins.map fun a => if a.2 ≤ k then ((tok a.1)[k - a.2]?).getD v0 else v0

/-! ## The wire `ready` -/

section
variable {net : Net S V} {v0 : V} {s0 : S}

theorem rdyN_stable (ho : Ordered net) (st : St S V) (i : In V) :
    ∀ (k m : ℕ) (x : Src), (∀ s, Uses net s x → net.length - s ≤ k) → k ≤ m →
      st.rdyN net i (m + 1) x = st.rdyN net i (k + 1) x := by
  intro k
  induction k with
  | zero =>
    intro m x hx _
    simp only [St.rdyN]
    congr 1
    rw [Bool.eq_iff_iff, List.all_eq_true, List.all_eq_true]
    have hno : ∀ s ∈ List.range net.length, ∀ nd, net[s]? = some nd → (nd.ins.any fun a => a.1 == x) = false := by
      intro s hs nd hnd
      rw [Bool.eq_false_iff]
      intro hany
      rw [List.any_eq_true] at hany
      obtain ⟨a, ha, hax⟩ := hany
      have := hx s ⟨nd, hnd, a, ha, by simpa using hax⟩
      rw [List.mem_range] at hs
      omega
    constructor <;> intro _ s hs <;> cases hnd : net[s]? with
      | none => simp
      | some nd => simp [hno s hs nd hnd]
  | succ k ih =>
    intro m x hx hm
    obtain ⟨m, rfl⟩ : ∃ m', m = m' + 1 := ⟨m - 1, by omega⟩
    conv => lhs; unfold St.rdyN
    conv => rhs; unfold St.rdyN
    congr 1
    rw [Bool.eq_iff_iff, List.all_eq_true, List.all_eq_true]
    refine forall_congr' fun s => forall_congr' fun hs => ?_
    cases hnd : net[s]? with
    | none => simp
    | some nd =>
      cases hany : (nd.ins.any fun a => a.1 == x) with
      | false => simp [hany]
      | true =>
        have hu : Uses net s x := by
          rw [List.any_eq_true] at hany
          obtain ⟨a, ha, hax⟩ := hany
          exact ⟨nd, hnd, a, ha, by simpa using hax⟩
        have e := ih m (.op s) (by
          rintro s' ⟨nd', hnd', a, ha, hax⟩
          have h1 := ho s' nd' hnd' a ha s hax
          have h2 := hx s hu
          omega) (by omega)
        simp only [hany, e]

/-- `ready` of a source is 1 exactly if the output that reads it is ready and every operator that uses it accepts and has
    all its operands. -/
theorem ready_iff (ho : Ordered net) (st : St S V) (i : In V) (x : Src) :
    st.ready net i x = true ↔
      (∀ j, x = .op j → i.oready j = true) ∧
      ∀ s nd, net[s]? = some nd → (∃ a ∈ nd.ins, a.1 = x) → st.accept net i s = true ∧ st.allValid i nd = true := by
  have base : st.ready net i x = ((match x with | .var _ => true | .op j => i.oready j) &&
    (List.range net.length).all fun s =>
      match net[s]? with
      | none => true
      | some nd => !(nd.ins.any fun a => a.1 == x) || (st.accept net i s && st.allValid i nd)) := by
    unfold St.ready St.accept
    conv => lhs; unfold St.rdyN
    congr 1
    rw [Bool.eq_iff_iff, List.all_eq_true, List.all_eq_true]
    refine forall_congr' fun s => forall_congr' fun hs => ?_
    rw [List.mem_range] at hs
    cases hnd : net[s]? with
    | none => simp
    | some nd =>
      simp only
      have e : st.rdyN net i net.length (.op s) = st.ready net i (.op s) := by
        unfold St.ready
        obtain ⟨m, hm⟩ : ∃ m, net.length = m + 1 := ⟨net.length - 1, by omega⟩
        have h := fun k m => rdyN_stable ho st i k m (.op s)
        have hu : ∀ s', Uses net s' (.op s) → net.length - s' ≤ m := by
          rintro s' ⟨nd', hnd', a, ha, hax⟩
          have h1 := ho s' nd' hnd' a ha s hax
          omega
        rw [h m net.length hu (by omega)]
        rw [hm]
      rw [e]
  rw [base, Bool.and_eq_true, List.all_eq_true]
  apply and_congr
  · cases x with
    | var k => simp
    | op j => simp
  · constructor
    · intro h s nd hnd ⟨a, ha, hax⟩
      have hs : s < net.length := by
        rw [List.getElem?_eq_some_iff] at hnd
        exact hnd.1
      have := h s (List.mem_range.2 hs)
      rw [hnd] at this
      simp only [Bool.or_eq_true, Bool.and_eq_true] at this
      rcases this with h' | h'
      · exfalso
        rw [Bool.not_eq_true', ← Bool.not_eq_true] at h'
        exact h' (List.any_eq_true.2 ⟨a, ha, by simp [hax]⟩)
      · exact h'
    · intro h s hs
      cases hnd : net[s]? with
      | none => rfl
      | some nd =>
        simp only [Bool.or_eq_true, Bool.and_eq_true]
        cases hany : (nd.ins.any fun a => a.1 == x) with
        | false => simp
        | true =>
          right
          rw [List.any_eq_true] at hany
          obtain ⟨a, ha, hax⟩ := hany
          exact h s nd hnd ⟨a, ha, by simpa using hax⟩

end

/-! ## Tokens of one operator -/

/-- State of an operator after a list of operand tuples. -/
def Node.fin (nd : Node S V) (s : S) : List (List V) → S
  | [] => s
  | a :: as => Node.fin nd (nd.next s a) as

theorem Node.run_append (nd : Node S V) (s : S) (as : List (List V)) (a : List V) :
    nd.run s (as ++ [a]) = nd.run s as ++ [nd.out (nd.next (nd.fin s as) a)] := by
  induction as generalizing s with
  | nil => rfl
  | cons b bs ih => simp only [List.cons_append, Node.run, Node.fin, ih]

theorem Node.fin_append (nd : Node S V) (s : S) (as : List (List V)) (a : List V) :
    nd.fin s (as ++ [a]) = nd.next (nd.fin s as) a := by
  induction as generalizing s with
  | nil => rfl
  | cons b bs ih => simp only [List.cons_append, Node.fin, ih]

theorem Node.run_length (nd : Node S V) (s : S) (as : List (List V)) : (nd.run s as).length = as.length := by
  induction as generalizing s with
  | nil => rfl
  | cons b bs ih => simp only [List.length_cons, Node.run, ih]

/-- The tokens in a pipeline, the oldest first. -/
def flight (p : List (Option V)) : List V := p.reverse.filterMap id

theorem flight_snoc (p : List (Option V)) (o : Option V) : flight (p ++ [o]) = o.toList ++ flight p := by
  cases o <;> simp [flight]

theorem flight_cons (p : List (Option V)) (o : Option V) : flight (o :: p) = flight p ++ o.toList := by
  cases o <;> simp [flight]

theorem flight_length (p : List (Option V)) : (flight p).length ≤ p.length := by
  unfold flight
  refine Nat.le_trans (List.length_filterMap_le _ _) ?_
  simp

namespace Run

variable {net : Net S V} {v0 : V} {s0 : S} (r : Run net v0 s0)

/-- The operator takes its operands in this cycle. -/
def fire (t j : ℕ) (nd : Node S V) : Bool := (r.st t).fire net (r.inp t) j nd

/-- The operand tuples an operator has taken before a cycle. -/
def acts (j : ℕ) (nd : Node S V) : ℕ → List (List V)
  | 0 => []
  | t + 1 => acts j nd t ++ (if r.fire t j nd then [nd.ins.map ((r.st t).arg v0 (r.inp t))] else [])

theorem s_eq (j : ℕ) (nd : Node S V) (hnd : net[j]? = some nd) (t : ℕ) :
    (r.st t).s j = nd.fin nd.init (r.acts j nd t) := by
  induction t with
  | zero => rw [r.start]; simp [St.init, hnd, acts, Node.fin]
  | succ t ih =>
    rw [r.step]
    simp only [St.step, hnd, acts]
    cases hf : r.fire t j nd with
    | false =>
      rw [if_neg (by simpa [fire] using hf)]
      simpa using ih
    | true =>
      rw [if_pos (by simpa [fire] using hf)]
      simp only [if_true, Node.fin_append, ih]

theorem pipe_length (j : ℕ) (nd : Node S V) (hnd : net[j]? = some nd) (t : ℕ) :
    ((r.st t).pipe j).length = nd.lat + 1 := by
  induction t with
  | zero => rw [r.start]; simp [St.init, hnd]
  | succ t ih =>
    rw [r.step]
    simp only [St.step, hnd]
    split
    · simp [ih]
    · exact ih

theorem tokens_eq (j : ℕ) (nd : Node S V) (hnd : net[j]? = some nd) (t : ℕ) :
    r.xfer (.op j) t ++ flight ((r.st t).pipe j) = nd.run nd.init (r.acts j nd t) := by
  induction t with
  | zero => rw [r.start]; simp [St.init, hnd, acts, xfer, Node.run, flight]
  | succ t ih =>
    have hs := r.s_eq j nd hnd t
    obtain ⟨q, l, hq⟩ : ∃ q l, (r.st t).pipe j = q ++ [l] := by
      have hl := r.pipe_length j nd hnd t
      rcases List.eq_nil_or_concat ((r.st t).pipe j) with h | ⟨q, l, h⟩
      · rw [h] at hl; simp at hl
      · exact ⟨q, l, by rw [h, List.concat_eq_append]⟩
    have hval : (r.st t).val (r.inp t) (.op j) = l := by
      simp [St.val, hq]
    have hp : (r.st (t + 1)).pipe j = if (r.st t).accept net (r.inp t) j then
        ((if r.fire t j nd then some (nd.out (nd.next ((r.st t).s j) (nd.ins.map ((r.st t).arg v0 (r.inp t))))) else none) ::
          (r.st t).pipe j).dropLast else (r.st t).pipe j := by
      rw [r.step]
      simp only [St.step, hnd, fire]
      rfl
    cases hacc : (r.st t).accept net (r.inp t) j with
    | false =>
      rw [hacc] at hp
      have hf : r.fire t j nd = false := by simp [fire, St.fire, hacc]
      have hr : r.ready t (.op j) = false := by
        simp only [St.accept, Bool.or_eq_false_iff] at hacc
        exact hacc.1
      simp only [xfer, acts, hf, hr, hp, Bool.and_false, Bool.false_eq_true, if_false, List.append_nil]
      exact ih
    | true =>
      rw [hacc, if_pos rfl, hq, ← List.cons_append, List.dropLast_concat] at hp
      have hx : (if r.valid t (.op j) && r.ready t (.op j) then [r.data t (.op j)] else []) = l.toList := by
        cases l with
        | none =>
          have : r.valid t (.op j) = false := by simp [valid, St.valid, hval]
          simp [this]
        | some v =>
          have hv : r.valid t (.op j) = true := by simp [valid, St.valid, hval]
          have hr : r.ready t (.op j) = true := by
            have hv' : (r.st t).valid (r.inp t) (.op j) = true := hv
            simp only [St.accept, hv', Bool.not_true, Bool.or_false] at hacc
            exact hacc
          simp [hv, hr, data, hval]
      simp only [xfer, acts, hp, hx, flight_cons]
      rw [hq, flight_snoc] at ih
      cases hf : r.fire t j nd with
      | false =>
        simp only [Bool.false_eq_true, if_false, Option.toList_none, List.append_nil]
        rw [List.append_assoc]
        exact ih
      | true =>
        simp only [if_true, Option.toList_some, Node.run_append, ← ih, hs, List.append_assoc]

theorem hist_eq (x : Src) (t d : ℕ) :
    (r.st t).hist x d = if d < (r.xfer x t).length then ((r.xfer x t)[(r.xfer x t).length - 1 - d]?).getD v0 else v0 := by
  induction t generalizing d with
  | zero => rw [r.start]; simp [St.init, xfer]
  | succ t ih =>
    rw [r.step]
    simp only [St.step, xfer]
    have e : ((r.st t).valid (r.inp t) x && (r.st t).ready net (r.inp t) x) = (r.valid t x && r.ready t x) := rfl
    rw [e]
    by_cases h : (r.valid t x && r.ready t x) = true
    case neg => simpa [h] using ih d
    case pos =>
      simp only [h, if_true, List.length_append, List.length_singleton]
      cases d with
      | zero =>
        rw [if_pos (by omega)]
        simp [data]
      | succ d =>
        simp only [ih]
        by_cases hd : d < (r.xfer x t).length
        · rw [if_pos hd, if_pos (by omega), List.getElem?_append_left (by omega)]
          congr 2
          omega
        · rw [if_neg hd, if_neg (by omega)]

/-- All operands of an operator become ready together. -/
def Consistent : Prop :=
  ∀ (t j : ℕ) (nd : Node S V), net[j]? = some nd → ∀ a ∈ nd.ins, ∀ b ∈ nd.ins, r.ready t a.1 = true → r.ready t b.1 = true

theorem fire_iff (ho : Ordered net) (hc : r.Consistent) (t j : ℕ) (nd : Node S V) (hnd : net[j]? = some nd)
    (a : Src × ℕ) (ha : a ∈ nd.ins) : r.fire t j nd = (r.valid t a.1 && r.ready t a.1) := by
  rw [Bool.eq_iff_iff, Bool.and_eq_true]
  constructor
  · intro h
    simp only [fire, St.fire, Bool.and_eq_true, List.all_eq_true, St.allValid] at h
    exact ⟨h.2 a ha, h.1.2 a ha⟩
  · intro ⟨_, hr⟩
    have h := ((ready_iff ho (r.st t) (r.inp t) a.1).1 hr).2 j nd hnd ⟨a, ha, rfl⟩
    simp only [fire, St.fire, Bool.and_eq_true, List.all_eq_true]
    exact ⟨⟨h.1, fun b hb => hc t j nd hnd a ha b hb hr⟩, h.2⟩

theorem acts_eq (ho : Ordered net) (hc : r.Consistent) (j : ℕ) (nd : Node S V) (hnd : net[j]? = some nd) (t : ℕ) :
    (∀ a ∈ nd.ins, (r.xfer a.1 t).length = (r.acts j nd t).length) ∧
    r.acts j nd t = (List.range (r.acts j nd t).length).map (nd.tuple v0 fun x => r.xfer x t) := by
  induction t with
  | zero => simp [acts, xfer]
  | succ t ih =>
    obtain ⟨ih1, ih2⟩ := ih
    have old : ∀ k < (r.acts j nd t).length,
        nd.tuple v0 (fun x => r.xfer x t) k = nd.tuple v0 (fun x => r.xfer x (t + 1)) k := by
      intro k hk
      unfold Node.tuple
      apply List.map_congr_left
      intro a ha
      have := ih1 a ha
      split
      · simp only [xfer]
        rw [List.getElem?_append_left (by omega)]
      · rfl
    have old' : (List.range (r.acts j nd t).length).map (nd.tuple v0 fun x => r.xfer x t) =
        (List.range (r.acts j nd t).length).map (nd.tuple v0 fun x => r.xfer x (t + 1)) :=
      List.map_congr_left fun k hk => old k (List.mem_range.1 hk)
    cases hf : r.fire t j nd with
    | false =>
      have hx : ∀ a ∈ nd.ins, r.xfer a.1 (t + 1) = r.xfer a.1 t := by
        intro a ha
        have := r.fire_iff ho hc t j nd hnd a ha
        rw [hf] at this
        simp [xfer, ← this]
      simp only [acts, hf, Bool.false_eq_true, if_false, List.append_nil]
      refine ⟨fun a ha => by rw [hx a ha]; exact ih1 a ha, ?_⟩
      rw [← old']
      exact ih2
    | true =>
      have hx : ∀ a ∈ nd.ins, r.xfer a.1 (t + 1) = r.xfer a.1 t ++ [r.data t a.1] := by
        intro a ha
        have := r.fire_iff ho hc t j nd hnd a ha
        rw [hf] at this
        simp [xfer, ← this]
      simp only [acts, hf, if_true]
      refine ⟨fun a ha => by rw [hx a ha]; simp [ih1 a ha], ?_⟩
      rw [List.length_append, List.length_singleton, List.range_succ, List.map_append, ← old', ← ih2]
      congr 1
      rw [List.map_singleton]
      congr 1
      unfold Node.tuple
      apply List.map_congr_left
      intro a ha
      have hl := ih1 a ha
      show _ = if a.2 ≤ _ then ((r.xfer a.1 (t + 1))[_]?).getD v0 else v0
      rw [hx a ha]
      obtain ⟨x, d⟩ := a
      cases d with
      | zero =>
        rw [if_pos (by omega), ← hl]
        simp [St.arg, data]
      | succ d =>
        simp only [St.arg, hist_eq, hl]
        by_cases hd : d < (r.acts j nd t).length
        · rw [if_pos hd, if_pos (by omega), List.getElem?_append_left (by simp only at hl; omega)]
          congr 2
          omega
        · rw [if_neg hd, if_neg (by omega)]

/-! ## C58 -/

/-- Every operator takes its operands as they come: its operands have been transferred equally often, and what it has passed on,
    with at most `latency` results still inside, is its function of the operands transferred, in order. -/
theorem c58_op (ho : Ordered net) (hc : r.Consistent) (t j : ℕ) (nd : Node S V) (hnd : net[j]? = some nd) :
    ∃ (m : ℕ) (inside : List V),
      (∀ a ∈ nd.ins, (r.xfer a.1 t).length = m) ∧ inside.length ≤ nd.lat + 1 ∧
      r.xfer (.op j) t ++ inside = nd.run nd.init ((List.range m).map (nd.tuple v0 fun x => r.xfer x t)) := by
  obtain ⟨h1, h2⟩ := r.acts_eq ho hc j nd hnd t
  refine ⟨(r.acts j nd t).length, flight ((r.st t).pipe j), h1, ?_, ?_⟩
  · rw [← r.pipe_length j nd hnd t]
    exact flight_length _
  · rw [r.tokens_eq j nd hnd t, ← h2]

end Run

/-- State of an operator before its `k`-th activation. -/
def Node.stateAt (nd : Node S V) (args : ℕ → List V) : ℕ → S
  | 0 => nd.init
  | k + 1 => nd.next (nd.stateAt args k) (args k)

/-- The stream a source stands for, without clock and handshake: the `k`-th result from the `k`-th operands. -/
def den (net : Net S V) (v0 : V) (vs : ℕ → ℕ → V) : ℕ → Src → ℕ → V
  | _, .var i, k => vs i k
  | 0, .op _, _ => v0
  | f + 1, .op j, k =>
    match net[j]? with
    | none => v0
    | some nd =>
      let args := fun k => nd.ins.map fun a => if a.2 ≤ k then den net v0 vs f a.1 (k - a.2) else v0
      nd.out (nd.next (nd.stateAt args k) (args k))

theorem Node.run_map (nd : Node S V) (args : ℕ → List V) (m : ℕ) :
    nd.run nd.init ((List.range m).map args) =
      (List.range m).map fun k => nd.out (nd.next (nd.stateAt args k) (args k)) := by
  have hfin : ∀ m, nd.fin nd.init ((List.range m).map args) = nd.stateAt args m := by
    intro m
    induction m with
    | zero => rfl
    | succ m ih => rw [List.range_succ, List.map_append, List.map_singleton, Node.fin_append, ih]; rfl
  induction m with
  | zero => rfl
  | succ m ih =>
    rw [List.range_succ, List.map_append, List.map_singleton, Node.run_append, ih, hfin, List.map_append,
      List.map_singleton]

theorem Node.stateAt_congr (nd : Node S V) (f g : ℕ → List V) (m : ℕ) (h : ∀ k < m, f k = g k) :
    nd.stateAt f m = nd.stateAt g m := by
  induction m with
  | zero => rfl
  | succ m ih =>
    simp only [Node.stateAt]
    rw [ih fun k hk => h k (by omega), h m (by omega)]

namespace Run

variable {net : Net S V} {v0 : V} {s0 : S} (r : Run net v0 s0)

/-- Whatever the timing of `valid` and `ready`, the tokens of every operator are those of its stream. -/
theorem c58_stream (ho : Ordered net) (hc : r.Consistent) (t : ℕ) (vs : ℕ → ℕ → V)
    (hvs : ∀ i k v, (r.xfer (.var i) t)[k]? = some v → vs i k = v) :
    ∀ (f j : ℕ), j < f → ∀ nd, net[j]? = some nd → ∀ k v, (r.xfer (.op j) t)[k]? = some v →
      den net v0 vs f (.op j) k = v := by
  intro f
  induction f with
  | zero => intro j hj; omega
  | succ f ih =>
    intro j hj nd hnd k v hk
    obtain ⟨m, fl, h1, _, h3⟩ := r.c58_op ho hc t j nd hnd
    have hk' : (r.xfer (.op j) t ++ fl)[k]? = some v := by
      have hlt : k < (r.xfer (.op j) t).length := by
        rw [List.getElem?_eq_some_iff] at hk; exact hk.1
      rw [List.getElem?_append_left hlt]
      exact hk
    rw [h3, Node.run_map, List.getElem?_map] at hk'
    have hkm : k < m := by
      refine Nat.lt_of_not_le fun hcon => ?_
      rw [List.getElem?_eq_none (by simp; omega)] at hk'
      simp at hk'
    rw [List.getElem?_range hkm, Option.map_some, Option.some_inj] at hk'
    have hargs : ∀ k' ≤ k, nd.tuple v0 (fun x => r.xfer x t) k' =
        nd.ins.map fun a => if a.2 ≤ k' then den net v0 vs f a.1 (k' - a.2) else v0 := by
      intro k' hk'
      unfold Node.tuple
      apply List.map_congr_left
      intro a ha
      have hl := h1 a ha
      split
      · have hlt : k' - a.2 < (r.xfer a.1 t).length := by omega
        have hget : (r.xfer a.1 t)[k' - a.2]? = some ((r.xfer a.1 t)[k' - a.2]) := List.getElem?_eq_getElem hlt
        show ((r.xfer a.1 t)[k' - a.2]?).getD v0 = _
        rw [hget, Option.getD_some]
        obtain ⟨x, d⟩ := a
        cases x with
        | var i =>
          have e : den net v0 vs f (Src.var i) (k' - d) = vs i (k' - d) := by unfold den; cases f <;> rfl
          rw [e]
          exact (hvs i _ _ hget).symm
        | op i =>
          have hij := ho j nd hnd _ ha i rfl
          obtain ⟨nd', hnd'⟩ : ∃ nd', net[i]? = some nd' := by
            have : j < net.length := by rw [List.getElem?_eq_some_iff] at hnd; exact hnd.1
            exact ⟨net[i], List.getElem?_eq_getElem (by omega)⟩
          exact (ih i (by omega) nd' hnd' _ _ hget).symm
      · rfl
    simp only [den, hnd]
    rw [← hk', hargs k (Nat.le_refl _)]
    rw [Node.stateAt_congr nd (nd.tuple v0 fun x => r.xfer x t) _ k fun k' h => hargs k' (by omega)]

/-- All operands ready together holds if operands of an operator that are shared are shared together: expressions in which
    every intermediate value and every variable is used once, pipelines, and so on. -/
theorem c58_shared (ho : Ordered net)
    (hsh : ∀ (j : ℕ) (nd : Node S V), net[j]? = some nd → ∀ a ∈ nd.ins, ∀ b ∈ nd.ins, ∀ s, Uses net s b.1 → Uses net s a.1)
    (hout : ∀ (t j : ℕ) (nd : Node S V), net[j]? = some nd → ∀ a ∈ nd.ins, ∀ k, a.1 = .op k → (r.inp t).oready k = true) :
    r.Consistent := by
  intro t j nd hnd a ha b hb hr
  have h := (ready_iff ho (r.st t) (r.inp t) a.1).1 hr
  refine (ready_iff ho (r.st t) (r.inp t) b.1).2 ⟨fun k hk => hout t j nd hnd b hb k hk, fun s nd' hs hu => ?_⟩
  obtain ⟨nd'', hs', a', ha', e⟩ := hsh j nd hnd a ha b hb s ⟨nd', hs, hu⟩
  rw [hs] at hs'
  cases hs'
  exact h.2 s nd' hs ⟨a', ha', e⟩

/-- An operator with operands; the network may also contain entries without operands that nothing uses. -/
def OpAt (net : Net S V) (j : ℕ) (nd : Node S V) : Prop := net[j]? = some nd ∧ nd.ins ≠ []

/-- The result of the scheduler when every operator has latency 1: the operands of an operator are on the stage before it, all
    outputs are on stage `D`, the last one, and what is not an output is used. -/
structure Balanced1 (net : Net S V) (lev : Src → ℕ) (D : ℕ) : Prop where
  var : ∀ i, lev (.var i) = 0
  ins : ∀ (j : ℕ) (nd : Node S V), OpAt net j nd → nd.lat = 0 ∧ ∀ a ∈ nd.ins, lev a.1 + 1 = lev (.op j)
  idle : ∀ (j : ℕ) (nd : Node S V), net[j]? = some nd → nd.ins = [] → ∀ s, ¬ Uses net s (.op j)
  used : ∀ (j : ℕ) (nd : Node S V), OpAt net j nd → lev (.op j) < D → ∃ s, Uses net s (.op j)
  last : ∀ (j : ℕ) (nd : Node S V), OpAt net j nd → lev (.op j) ≤ D

/-- A source that is used, or an operator on the last stage. -/
def Live (net : Net S V) (lev : Src → ℕ) (D : ℕ) (x : Src) : Prop :=
  (∃ s, Uses net s x) ∨ ∃ j nd, x = .op j ∧ OpAt net j nd ∧ lev x = D

theorem Balanced1.live {lev : Src → ℕ} {D : ℕ} (hb : Balanced1 net lev D) (j : ℕ) (nd : Node S V)
    (hnd : OpAt net j nd) : Live net lev D (.op j) := by
  by_cases h : lev (.op j) < D
  · exact .inl (hb.used j nd hnd h)
  · exact .inr ⟨j, nd, rfl, hnd, by have := hb.last j nd hnd; omega⟩

theorem ready_level (ho : Ordered net) {lev : Src → ℕ} {D : ℕ} (hb : Balanced1 net lev D) (t : ℕ)
    (hv : ∀ x y, lev x = lev y → Live net lev D x → Live net lev D y → r.valid t x = r.valid t y)
    (hr : ∀ (j j' : ℕ), lev (.op j) = D → lev (.op j') = D → (r.inp t).oready j = (r.inp t).oready j')
    (hr1 : ∀ (j : ℕ), lev (.op j) ≠ D → (r.inp t).oready j = true) :
    ∀ (n : ℕ) (x y : Src), D - lev x ≤ n → lev x = lev y → Live net lev D x → Live net lev D y →
      r.ready t x = true → r.ready t y = true := by
  have huse : ∀ s x, Uses net s x → lev x + 1 = lev (.op s) ∧ lev (.op s) ≤ D := by
    rintro s x ⟨nd, hnd, a, ha, rfl⟩
    have ho' : OpAt net s nd := ⟨hnd, List.ne_nil_of_mem ha⟩
    exact ⟨(hb.ins s nd ho').2 a ha, hb.last s nd ho'⟩
  intro n
  induction n with
  | zero =>
    intro x y hn hxy hlx hly hx
    rcases hlx with ⟨s, hs⟩ | ⟨j, nd, rfl, hnd, hD⟩
    · have := huse s x hs; omega
    rcases hly with ⟨s, hs⟩ | ⟨j', nd', rfl, hnd', hD'⟩
    · have := huse s y hs; omega
    have h := (ready_iff ho (r.st t) (r.inp t) (.op j)).1 hx
    refine (ready_iff ho (r.st t) (r.inp t) (.op j')).2 ⟨fun k hk => ?_, fun s nd hs hu => ?_⟩
    · cases hk
      rw [hr j' j hD' hD]
      exact h.1 j rfl
    · have := huse s _ ⟨nd, hs, hu⟩; omega
  | succ n ih =>
    intro x y hn hxy hlx hly hx
    have h := (ready_iff ho (r.st t) (r.inp t) x).1 hx
    by_cases hD : lev x = D
    · exact ih x y (by omega) hxy hlx hly hx
    obtain ⟨s, hs⟩ : ∃ s, Uses net s x := by
      rcases hlx with hs | ⟨j, nd, rfl, hnd, hD'⟩
      · exact hs
      · exact absurd hD' hD
    obtain ⟨nds, hnds, hus⟩ := id hs
    obtain ⟨hacc, hall⟩ := h.2 s nds hnds hus
    have hs1 := huse s x hs
    refine (ready_iff ho (r.st t) (r.inp t) y).2 ⟨fun k hk => ?_, fun s' nd' hs' hu' => ?_⟩
    · subst hk
      exact hr1 k (by omega)
    · have hs2 := huse s' y ⟨nd', hs', hu'⟩
      have hle : lev (.op s) = lev (.op s') := by omega
      have l1 := hb.live s nds ⟨hnds, List.ne_nil_of_mem hus.choose_spec.1⟩
      have l2 := hb.live s' nd' ⟨hs', List.ne_nil_of_mem hu'.choose_spec.1⟩
      refine ⟨?_, ?_⟩
      · have hvv : r.valid t (.op s) = r.valid t (.op s') := hv _ _ hle l1 l2
        have hacc' : (r.ready t (.op s) || !r.valid t (.op s)) = true := hacc
        show (r.ready t (.op s') || !r.valid t (.op s')) = true
        rw [Bool.or_eq_true] at hacc' ⊢
        rcases hacc' with e | e
        · exact .inl (ih (.op s) (.op s') (by omega) hle l1 l2 e)
        · exact .inr (hvv ▸ e)
      · have hvx : r.valid t x = true := by
          obtain ⟨a, ha, rfl⟩ := hus
          simp only [St.allValid, List.all_eq_true] at hall
          exact hall a ha
        simp only [St.allValid, List.all_eq_true]
        intro b hb'
        have hlb := huse s' b.1 ⟨nd', hs', b, hb', rfl⟩
        have : r.valid t x = r.valid t b.1 := hv x b.1 (by omega) hlx (.inl ⟨s', nd', hs', b, hb', rfl⟩)
        rw [this] at hvx
        exact hvx

/-- `valid` of an operator of latency 1 in the next cycle. -/
theorem valid_next (t j : ℕ) (nd : Node S V) (hnd : net[j]? = some nd) (hlat : nd.lat = 0) :
    r.valid (t + 1) (.op j) = if (r.st t).accept net (r.inp t) j then r.fire t j nd else r.valid t (.op j) := by
  have hl := r.pipe_length j nd hnd t
  rw [hlat] at hl
  obtain ⟨p, hp⟩ := List.length_eq_one_iff.1 hl
  unfold valid St.valid St.val
  rw [r.step]
  simp only [St.step, hnd, hp, fire]
  split
  · split
    · rename_i h1 h2; simp [h2]
    · rename_i h1 h2; simp [h2]
  · simp

/-- All operands ready together also holds for a balanced network of operators of latency 1 if the variables become valid
    together and the outputs ready together. -/
theorem c58_lockstep (ho : Ordered net) {lev : Src → ℕ} {D : ℕ} (hb : Balanced1 net lev D)
    (hvalid : ∀ t i i', (r.inp t).vvalid i = (r.inp t).vvalid i')
    (hready : ∀ t (j j' : ℕ), lev (.op j) = D → lev (.op j') = D → (r.inp t).oready j = (r.inp t).oready j')
    (hready1 : ∀ t (j : ℕ), lev (.op j) ≠ D → (r.inp t).oready j = true) :
    r.Consistent := by
  have huse : ∀ s x, Uses net s x → lev x + 1 = lev (.op s) ∧ lev (.op s) ≤ D := by
    rintro s x ⟨nd, hnd, a, ha, rfl⟩
    have ho' : OpAt net s nd := ⟨hnd, List.ne_nil_of_mem ha⟩
    exact ⟨(hb.ins s nd ho').2 a ha, hb.last s nd ho'⟩
  have hsome : ∀ j nd, OpAt net j nd → 0 < lev (.op j) := by
    intro j nd hnd
    obtain ⟨_, h3⟩ := hb.ins j nd hnd
    obtain ⟨a, ha⟩ := List.exists_mem_of_ne_nil _ hnd.2
    have := h3 a ha
    omega
  have hex : ∀ j, Live net lev D (.op j) → ∃ nd, OpAt net j nd := by
    rintro j (⟨s, nd, hnd, a, ha, e⟩ | ⟨j', nd, e, hnd, _⟩)
    · have h1 := ho s nd hnd a ha j e
      have : s < net.length := by rw [List.getElem?_eq_some_iff] at hnd; exact hnd.1
      have hg := List.getElem?_eq_getElem (l := net) (i := j) (by omega)
      exact ⟨net[j], hg, fun he => hb.idle j _ hg he s ⟨nd, hnd, a, ha, e⟩⟩
    · cases e
      exact ⟨nd, hnd⟩
  have toV : ∀ t, (∀ (j j' : ℕ) (nd nd' : Node S V), OpAt net j nd → OpAt net j' nd' →
      lev (.op j) = lev (.op j') → r.valid t (.op j) = r.valid t (.op j')) →
      ∀ x y, lev x = lev y → Live net lev D x → Live net lev D y → r.valid t x = r.valid t y := by
    intro t hv x y hxy hx hy
    cases x with
    | var i =>
      cases y with
      | var i' =>
        have := hvalid t i i'
        simp only [valid, St.valid, St.val, this]
        split <;> rfl
      | op j =>
        obtain ⟨nd, hnd⟩ := hex j hy
        have := hsome j nd hnd
        rw [hb.var] at hxy
        omega
    | op j =>
      obtain ⟨nd, hnd⟩ := hex j hx
      cases y with
      | var i =>
        have := hsome j nd hnd
        rw [hb.var] at hxy
        omega
      | op j' =>
        obtain ⟨nd', hnd'⟩ := hex j' hy
        exact hv j j' nd nd' hnd hnd' hxy
  have inv : ∀ t, ∀ (j j' : ℕ) (nd nd' : Node S V), OpAt net j nd → OpAt net j' nd' →
      lev (.op j) = lev (.op j') → r.valid t (.op j) = r.valid t (.op j') := by
    intro t
    induction t with
    | zero =>
      intro j j' nd nd' hnd hnd' _
      have h1 : ∀ j (nd : Node S V), OpAt net j nd → r.valid 0 (.op j) = false := by
        intro j nd hnd
        unfold valid St.valid St.val
        rw [r.start]
        simp [St.init, hnd.1, (hb.ins j nd hnd).1]
      rw [h1 j nd hnd, h1 j' nd' hnd']
    | succ t ih =>
      have hV := toV t ih
      have hR := r.ready_level ho hb t hV (hready t) (hready1 t)
      have key : ∀ (j j' : ℕ) (nd nd' : Node S V), OpAt net j nd → OpAt net j' nd' →
          lev (.op j) = lev (.op j') → r.valid (t + 1) (.op j) = true → r.valid (t + 1) (.op j') = true := by
        intro j j' nd nd' hnd hnd' hl
        rw [r.valid_next t j nd hnd.1 (hb.ins j nd hnd).1, r.valid_next t j' nd' hnd'.1 (hb.ins j' nd' hnd').1]
        have l1 := hb.live j nd hnd
        have l2 := hb.live j' nd' hnd'
        have hrr : r.ready t (.op j) = r.ready t (.op j') := by
          rw [Bool.eq_iff_iff]
          exact ⟨hR _ _ _ (Nat.le_refl _) hl l1 l2, hR _ _ _ (Nat.le_refl _) hl.symm l2 l1⟩
        have hvv := ih j j' nd nd' hnd hnd' hl
        have hacc : (r.st t).accept net (r.inp t) j = (r.st t).accept net (r.inp t) j' := by
          show (r.ready t (.op j) || !r.valid t (.op j)) = (r.ready t (.op j') || !r.valid t (.op j'))
          rw [hrr, hvv]
        rw [← hacc]
        split
        · intro hf
          simp only [fire, St.fire, Bool.and_eq_true, List.all_eq_true, St.allValid] at hf ⊢
          obtain ⟨a, ha⟩ := List.exists_mem_of_ne_nil _ hnd.2
          have hua : Live net lev D a.1 := .inl ⟨j, nd, hnd.1, a, ha, rfl⟩
          have hla := (hb.ins j nd hnd).2 a ha
          refine ⟨⟨hacc ▸ hf.1.1, fun b hb' => ?_⟩, fun b hb' => ?_⟩
          · have hlb := (hb.ins j' nd' hnd').2 b hb'
            exact hR _ a.1 b.1 (Nat.le_refl _) (by omega) hua (.inl ⟨j', nd', hnd'.1, b, hb', rfl⟩) (hf.1.2 a ha)
          · have hlb := (hb.ins j' nd' hnd').2 b hb'
            have := hV a.1 b.1 (by omega) hua (.inl ⟨j', nd', hnd'.1, b, hb', rfl⟩)
            have h2 : r.valid t a.1 = true := hf.2 a ha
            rw [this] at h2
            exact h2
        · intro h
          rw [← hvv]
          exact h
      intro j j' nd nd' hnd hnd' hl
      rw [Bool.eq_iff_iff]
      exact ⟨key j j' nd nd' hnd hnd' hl, key j' j nd' nd hnd' hnd hl.symm⟩
  intro t j nd hnd a ha b hb' h
  have hop : OpAt net j nd := ⟨hnd, List.ne_nil_of_mem ha⟩
  have hla := (hb.ins j nd hop).2 a ha
  have hlb := (hb.ins j nd hop).2 b hb'
  exact r.ready_level ho hb t (toV t (inv t)) (hready t) (hready1 t) _ a.1 b.1 (Nat.le_refl _) (by omega)
    (.inl ⟨j, nd, hnd, a, ha, rfl⟩) (.inl ⟨j, nd, hnd, b, hb', rfl⟩) h

/-- A result that is not taken stays: `valid` and the data are held until `ready`. -/
theorem c58_hold (t j : ℕ) (nd : Node S V) (hnd : net[j]? = some nd) (hv : r.valid t (.op j) = true)
    (hr : r.ready t (.op j) = false) :
    r.valid (t + 1) (.op j) = true ∧ r.data (t + 1) (.op j) = r.data t (.op j) := by
  have hacc : (r.st t).accept net (r.inp t) j = false := by
    show (r.ready t (.op j) || !r.valid t (.op j)) = false
    rw [hv, hr]
    rfl
  have hp : (r.st (t + 1)).pipe j = (r.st t).pipe j := by
    rw [r.step]
    simp only [St.step, hnd, hacc, Bool.false_eq_true, if_false]
  have e : (r.st (t + 1)).val (r.inp (t + 1)) (.op j) = (r.st t).val (r.inp t) (.op j) := by
    simp only [St.val, hp]
  unfold valid St.valid data
  rw [e]
  exact ⟨hv, rfl⟩

/-- In a balanced network of operators of latency 1 whose outputs are always ready, an operator on stage `n` is valid exactly
    `n` cycles after the variables, and every valid result is taken at once. -/
theorem c58_latency (ho : Ordered net) {lev : Src → ℕ} {D : ℕ} (hb : Balanced1 net lev D)
    (hvalid : ∀ t i i', (r.inp t).vvalid i = (r.inp t).vvalid i')
    (hready : ∀ t j, (r.inp t).oready j = true) (t j : ℕ) (nd : Node S V) (hnd : OpAt net j nd) (i : ℕ) :
    r.valid (t + lev (.op j)) (.op j) = (r.inp t).vvalid i ∧
      (r.valid t (.op j) = true → r.ready t (.op j) = true) := by
  have hcon := r.c58_lockstep ho hb hvalid (fun t j j' _ _ => by rw [hready, hready]) (fun t j _ => hready t j)
  -- the operators of one stage have the same `valid`
  have huse : ∀ s x, Uses net s x → lev x + 1 = lev (.op s) ∧ lev (.op s) ≤ D := by
    rintro s x ⟨nd, hnd, a, ha, rfl⟩
    have ho' : OpAt net s nd := ⟨hnd, List.ne_nil_of_mem ha⟩
    exact ⟨(hb.ins s nd ho').2 a ha, hb.last s nd ho'⟩
  have hlt : ∀ (s : ℕ) (nd : Node S V), net[s]? = some nd → ∀ a ∈ nd.ins, ∀ k, a.1 = .op k → ∃ nd', OpAt net k nd' := by
    intro s nd hs a ha k e
    have h1 := ho s nd hs a ha k e
    have : s < net.length := by rw [List.getElem?_eq_some_iff] at hs; exact hs.1
    have hg := List.getElem?_eq_getElem (l := net) (i := k) (by omega)
    exact ⟨net[k], hg, fun he => hb.idle k _ hg he s ⟨nd, hs, a, ha, e⟩⟩
  have hpos : ∀ (j : ℕ) (nd : Node S V), OpAt net j nd → 0 < lev (.op j) := by
    intro j nd hnd
    obtain ⟨_, h3⟩ := hb.ins j nd hnd
    obtain ⟨a, ha⟩ := List.exists_mem_of_ne_nil _ hnd.2
    have := h3 a ha
    omega
  -- what a stage holds: the `valid` of the variables, delayed
  have main : ∀ (T : ℕ), ∀ (j : ℕ) (nd : Node S V), OpAt net j nd →
      r.valid T (.op j) = if lev (.op j) ≤ T then (r.inp (T - lev (.op j))).vvalid i else false := by
    intro T
    induction T with
    | zero =>
      intro j nd hnd
      rw [if_neg (by have := hpos j nd hnd; omega)]
      unfold valid St.valid St.val
      rw [r.start]
      simp [St.init, hnd.1, (hb.ins j nd hnd).1]
    | succ T ih =>
      have srcV : ∀ x, (∀ k, x = .op k → ∃ nd, OpAt net k nd) →
          r.valid T x = if lev x ≤ T then (r.inp (T - lev x)).vvalid i else false := by
        intro x hx
        cases x with
        | var k =>
          rw [hb.var, if_pos (by omega), Nat.sub_zero, hvalid T i k]
          show (if (r.inp T).vvalid k then some ((r.inp T).vdata k) else none).isSome = (r.inp T).vvalid k
          cases (r.inp T).vvalid k <;> rfl
        | op k =>
          obtain ⟨nd, hnd⟩ := hx k rfl
          exact ih k nd hnd
      have allV : ∀ (s : ℕ) (nd : Node S V), net[s]? = some nd → ∀ a ∈ nd.ins, r.valid T a.1 = true →
          (r.st T).allValid (r.inp T) nd = true := by
        intro s nd hs a ha hva
        simp only [St.allValid, List.all_eq_true]
        intro b hb'
        show r.valid T b.1 = true
        have e1 := (hb.ins s nd ⟨hs, List.ne_nil_of_mem ha⟩).2 a ha
        have e2 := (hb.ins s nd ⟨hs, List.ne_nil_of_mem ha⟩).2 b hb'
        rw [srcV a.1 (hlt s nd hs a ha)] at hva
        rw [srcV b.1 (hlt s nd hs b hb')]
        have : lev b.1 = lev a.1 := by omega
        rw [this]
        exact hva
      have accV : ∀ n (j : ℕ) (nd : Node S V), net[j]? = some nd → D - lev (.op j) ≤ n →
          (r.st T).accept net (r.inp T) j = true := by
        intro n
        induction n with
        | zero =>
          intro j nd hnd hn
          show (r.ready T (.op j) || !r.valid T (.op j)) = true
          rw [Bool.or_eq_true]
          left
          refine (ready_iff ho (r.st T) (r.inp T) _).2 ⟨fun k _ => hready T k, fun s nd' hs hu => ?_⟩
          have := huse s _ ⟨nd', hs, hu⟩
          omega
        | succ n ihn =>
          intro j nd hnd hn
          show (r.ready T (.op j) || !r.valid T (.op j)) = true
          cases hvj : r.valid T (.op j) with
          | false => simp
          | true =>
            rw [Bool.or_eq_true]
            left
            refine (ready_iff ho (r.st T) (r.inp T) _).2 ⟨fun k _ => hready T k, fun s nd' hs hu => ?_⟩
            have := huse s _ ⟨nd', hs, hu⟩
            obtain ⟨a, ha, e⟩ := hu
            exact ⟨ihn s nd' hs (by omega), allV s nd' hs a ha (e ▸ hvj)⟩
      intro j nd hnd
      rw [r.valid_next T j nd hnd.1 (hb.ins j nd hnd).1, accV _ j nd hnd.1 (Nat.le_refl _), if_pos rfl]
      obtain ⟨a, ha⟩ := List.exists_mem_of_ne_nil _ hnd.2
      have hla := (hb.ins j nd hnd).2 a ha
      rw [r.fire_iff ho hcon T j nd hnd.1 a ha]
      have hra : r.valid T a.1 = true → r.ready T a.1 = true := by
        intro hva
        refine (ready_iff ho (r.st T) (r.inp T) _).2 ⟨fun k _ => hready T k, fun s nd' hs hu => ?_⟩
        obtain ⟨b, hb', e⟩ := hu
        exact ⟨accV _ s nd' hs (Nat.le_refl _), allV s nd' hs b hb' (e ▸ hva)⟩
      have e1 : (r.valid T a.1 && r.ready T a.1) = r.valid T a.1 := by
        cases h : r.valid T a.1 with
        | false => rfl
        | true => rw [hra h]; rfl
      rw [e1, srcV a.1 (hlt j nd hnd.1 a ha)]
      by_cases hT : lev a.1 ≤ T
      · rw [if_pos hT, if_pos (by omega)]
        congr 2
        omega
      · rw [if_neg hT, if_neg (by omega)]
  refine ⟨?_, fun hv => ?_⟩
  · rw [main _ j nd hnd, if_pos (by omega), Nat.add_sub_cancel]
  · -- a valid result is ready: otherwise it would be held, and the next one overwritten
    have acc : ∀ n (j : ℕ) (nd : Node S V), OpAt net j nd → D - lev (.op j) ≤ n → r.valid t (.op j) = true →
        r.ready t (.op j) = true := by
      intro n
      induction n with
      | zero =>
        intro j nd hnd hn _
        refine (ready_iff ho (r.st t) (r.inp t) _).2 ⟨fun k _ => hready t k, fun s nd' hs hu => ?_⟩
        have := huse s _ ⟨nd', hs, hu⟩
        omega
      | succ n ihn =>
        intro j nd hnd hn hvj
        refine (ready_iff ho (r.st t) (r.inp t) _).2 ⟨fun k _ => hready t k, fun s nd' hs hu => ?_⟩
        have hs1 := huse s _ ⟨nd', hs, hu⟩
        obtain ⟨a, ha, e⟩ := hu
        refine ⟨?_, ?_⟩
        · show (r.ready t (.op s) || !r.valid t (.op s)) = true
          cases hvs : r.valid t (.op s) with
          | false => simp
          | true => rw [ihn s nd' ⟨hs, List.ne_nil_of_mem ha⟩ (by omega) hvs]; rfl
        · simp only [St.allValid, List.all_eq_true]
          intro b hb'
          have e1 := (hb.ins s nd' ⟨hs, List.ne_nil_of_mem ha⟩).2 a ha
          have e2 := (hb.ins s nd' ⟨hs, List.ne_nil_of_mem ha⟩).2 b hb'
          have hj := hpos j nd hnd
          have hbl : lev b.1 = lev (.op j) := by rw [e] at e1; omega
          show r.valid t b.1 = true
          rcases hbx : b.1 with k | k
          · rw [hbx, hb.var] at hbl
            omega
          · obtain ⟨nd'', hk⟩ := hlt s nd' hs b hb' k hbx
            rw [main t k nd'' hk]
            rw [main t j nd hnd] at hvj
            rw [hbx] at hbl
            rw [hbl]
            exact hvj
    exact acc _ j nd hnd (Nat.le_refl _) hv

end Run

/-! ## Examples and counterexamples -/

/-- The run for given inputs. -/
def Run.of (net : Net S V) (v0 : V) (s0 : S) (inp : ℕ → In V) : Run net v0 s0 where
  inp := inp
  st t := Nat.rec (St.init net v0 s0) (fun t st => St.step net v0 (inp t) st) t
  start := rfl
  step _ := rfl

/-- An operator without state of the given latency. -/
def fnNode (f : List ℕ → ℕ) (ins : List Src) (lat : ℕ := 0) : Node ℕ ℕ :=
  ⟨0, fun _ a => f a, id, ins.map (·, 0), lat⟩

/-- Sum of the operands. -/
def addNode (ins : List Src) : Node ℕ ℕ := fnNode List.sum ins

/-- `s = l + r`, `s2 = r + q`, `out = s + s2`. -/
def exShare : Net ℕ ℕ := [addNode [.var 0, .var 1], addNode [.var 1, .var 2], addNode [.op 0, .op 1]]

/-- A variable that comes late: `q` is not valid in the first cycle. -/
def exShareIn : ℕ → In ℕ
  | 0 => ⟨fun i => [1, 10, 0].getD i 0, fun i => i != 2, fun _ => true⟩
  | 1 => ⟨fun i => [2, 10, 100].getD i 0, fun _ => true, fun _ => true⟩
  | _ => ⟨fun _ => 0, fun _ => false, fun _ => true⟩

/-- Two outputs: `out1 = l + r`, `out2 = r + r`. -/
def exTwo : Net ℕ ℕ := [addNode [.var 0, .var 1], addNode [.var 1, .var 1]]

/-- The second output is not ready in the second cycle. -/
def exTwoIn : ℕ → In ℕ
  | 0 => ⟨fun i => [1, 10].getD i 0, fun _ => true, fun _ => true⟩
  | 1 => ⟨fun i => [2, 20].getD i 0, fun _ => true, fun j => j == 0⟩
  | 2 => ⟨fun i => [3, 20].getD i 0, fun _ => true, fun _ => true⟩
  | _ => ⟨fun _ => 0, fun _ => false, fun _ => true⟩

/-- `out = x * y + (y + z)`: the multiplier has latency 7, the sum is delayed by 6 to match. -/
def exMul : Net ℕ ℕ :=
  fnNode (fun a => a.foldl (· * ·) 1) [.var 0, .var 1] 6 :: addNode [.var 1, .var 2] ::
    ([1, 2, 3, 4, 5, 6].map fun j => addNode [.op j]) ++ [addNode [.op 0, .op 7]]

/-- The variables are always valid together; the output is stalled at first. -/
def exMulIn (t : ℕ) : In ℕ :=
  ⟨fun i => if t = 9 ∧ i = 2 then 1000 else 0, fun _ => t ≤ 1 || t == 8 || t == 9, fun j => j != 8 || 9 ≤ t⟩

/-- A variable that comes late: the datum of `l` is taken in the first cycle, though `r` is not, and is lost.  The first
    result is that of the second datum. -/
theorem c58_not_late : ∃ r : Run exShare 0 0,
    r.xfer (.var 0) 4 = [1, 2] ∧ r.xfer (.var 1) 4 = [10] ∧ r.xfer (.var 2) 4 = [100] ∧
    r.xfer (.op 2) 4 = [122] ∧ den exShare 0 (fun i k => ((r.xfer (.var i) 4)[k]?).getD 0) 3 (.op 2) 0 = 121 :=
  ⟨Run.of exShare 0 0 exShareIn, by decide +kernel⟩

/-- Two outputs that are not ready together: the second datum of `l` is lost. -/
theorem c58_not_outputs : ∃ r : Run exTwo 0 0,
    r.xfer (.var 0) 4 = [1, 2, 3] ∧ r.xfer (.var 1) 4 = [10, 20] ∧
    r.xfer (.op 0) 4 = [11, 23] ∧ den exTwo 0 (fun i k => ((r.xfer (.var i) 4)[k]?).getD 0) 2 (.op 0) 1 = 22 :=
  ⟨Run.of exTwo 0 0 exTwoIn, by decide +kernel⟩

/-- Variables that are always valid together, one output, stages balanced: a datum of `z` is still lost, because the
    multiplier stalls as a whole while the registers of the other path still accept. -/
theorem c58_not_mul : ∃ r : Run exMul 0 0,
    (∀ t i i', (r.inp t).vvalid i = (r.inp t).vvalid i') ∧
    (r.xfer (.var 0) 10).length = 3 ∧ (r.xfer (.var 1) 10).length = 3 ∧ r.xfer (.var 2) 10 = [0, 0, 0, 1000] ∧
    r.xfer (.op 8) 18 = [0, 0, 1000] ∧
    den exMul 0 (fun i k => ((r.xfer (.var i) 18)[k]?).getD 0) 9 (.op 8) 2 = 0 :=
  ⟨Run.of exMul 0 0 exMulIn, fun _ _ _ => rfl, by decide +kernel⟩

/-- `p = x * y`, then the running sum of `p + 100 * p.prev(1)`. -/
def exTree : Net ℕ ℕ :=
  [fnNode (fun a => a.foldl (· * ·) 1) [.var 0, .var 1] 6,
   ⟨0, fun s a => s + a.getD 0 0 + 100 * a.getD 1 0, id, [(.op 0, 0), (.op 0, 1)], 0⟩]

/-- The variables come at different times and the output is stalled now and then. -/
def exTreeIn (t : ℕ) : In ℕ :=
  ⟨fun i => t + i, fun i => t < 8 && (i == 0 || t % 2 == 1), fun j => j == 0 || t % 3 == 0⟩

theorem exTree_ordered : Ordered exTree := by
  intro j nd h
  rcases j with _ | _ | j
  · simp only [exTree, List.getElem?_cons_zero, Option.some_inj] at h
    subst h
    simp [fnNode]
  · simp only [exTree, List.getElem?_cons_succ, List.getElem?_cons_zero, Option.some_inj] at h
    subst h
    simp
  · simp [exTree] at h

theorem exTree_uses (s : ℕ) (x : Src) :
    Uses exTree s x ↔ (s = 0 ∧ (x = .var 0 ∨ x = .var 1)) ∨ (s = 1 ∧ x = .op 0) := by
  rcases s with _ | _ | s <;> simp [Uses, exTree, fnNode, eq_comm]
  · constructor
    · rintro ⟨_, ⟨h, _⟩ | ⟨h, _⟩⟩ <;> simp [h]
    · rintro (h | h) <;> exact ⟨0, by simp [h]⟩
  · constructor
    · rintro ⟨_, ⟨h, _⟩ | ⟨h, _⟩⟩ <;> simp [h]
    · intro h; exact ⟨0, by simp [h]⟩

/-- The hypotheses of `c58_op` and `c58_stream` hold for a product and a running sum over the last two of its values. -/
theorem exTree_consistent : (Run.of exTree 0 0 exTreeIn).Consistent := by
  refine Run.c58_shared _ exTree_ordered ?_ ?_
  · intro j nd h a ha b hb s hs
    rw [exTree_uses] at hs ⊢
    rcases j with _ | _ | j
    · simp only [exTree, List.getElem?_cons_zero, Option.some_inj] at h
      subst h
      simp [fnNode] at ha hb
      rcases ha with rfl | rfl <;> rcases hb with rfl | rfl <;> simp_all
    · simp only [exTree, List.getElem?_cons_succ, List.getElem?_cons_zero, Option.some_inj] at h
      subst h
      simp at ha hb
      rcases ha with rfl | rfl <;> rcases hb with rfl | rfl <;> simp_all
    · simp [exTree] at h
  · intro t j nd h a ha k hk
    have : k = 0 := by
      have hu : Uses exTree j (.op k) := ⟨nd, h, a, ha, hk⟩
      rw [exTree_uses] at hu
      simp at hu
      exact hu.2
    subst this
    rfl

/-- Tokens of that run: the products of what was transferred, and their running sums. -/
example : let r := Run.of exTree 0 0 exTreeIn
    r.xfer (.var 0) 30 = [1, 3, 5, 7] ∧ r.xfer (.var 1) 30 = [2, 4, 6, 8] ∧ r.xfer (.op 0) 30 = [2, 12, 30, 56] ∧
    r.xfer (.op 1) 30 = [2, 2 + 12 + 200, 2 + 12 + 200 + 30 + 1200, 2 + 12 + 200 + 30 + 1200 + 56 + 3000] := by
  decide +kernel

/-- The stages of `exShare`. -/
def exShareLev : Src → ℕ
  | .var _ => 0
  | .op j => if j < 2 then 1 else 2

/-- The variables of `exShare` together, the output stalled now and then: the case of `c58_lockstep`. -/
example : Ordered exShare ∧ Run.Balanced1 exShare exShareLev 2 := by
  refine ⟨?_, ⟨fun _ => rfl, ?_, ?_, ?_, ?_⟩⟩
  · intro j nd h
    rcases j with _ | _ | _ | j <;> simp [exShare, addNode, fnNode] at h <;> subst h <;> simp
  · rintro j nd ⟨h, _⟩
    rcases j with _ | _ | _ | j <;> simp [exShare, addNode, fnNode] at h <;> subst h <;> simp [exShareLev]
  · intro j nd h he
    rcases j with _ | _ | _ | j <;> simp [exShare, addNode, fnNode] at h <;> subst h <;> simp at he
  · rintro j nd ⟨h, _⟩ hl
    refine ⟨2, _, rfl, ?_⟩
    rcases j with _ | _ | _ | j <;> simp [exShare, addNode, fnNode, exShareLev] at h hl ⊢
  · intro j nd h
    simp only [exShareLev]
    split <;> omega

/-- That case, with tokens. -/
example : let r := Run.of exShare 0 0 fun t =>
      ⟨fun i => 10 * t + i, fun _ => t % 2 == 0 && t < 6, fun j => j != 2 || t % 3 == 0⟩
    r.xfer (.op 2) 20 = [4, 84, 164] := by
  decide +kernel

end Dataflow
