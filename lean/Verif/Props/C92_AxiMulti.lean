import Verif.Model.AxiMulti
import Verif.Props.C56_AxiMem
import Verif.Props.C45_Names

/-!
# C92: the AXI memory with several ports
-/

namespace AxiMulti
open AxiMem

/-- `x` are the registers of a memory with `n` ports over time from reset on, for the inputs `inp t p` of port `p` and the
    bytes `ops t` written by the `write` intrinsic.  The masters keep an address valid until it is accepted. -/
structure PRun {B : Type} (c : Cfg) (u : B) (w0 : Word B) (mem0 : ℕ → B) (n : ℕ) (inp : ℕ → ℕ → In B)
    (ops : ℕ → List (ℕ × B)) (x : ℕ → Sys B) : Prop where
  init : x 0 = Sys.init w0 mem0
  step : ∀ t, x (t + 1) = (x t).step c u n (inp t) (ops t)
  awhold : ∀ t p, p < n → (inp t p).awvalid = true → ((x t).port p).awready = false → (inp (t + 1) p).awvalid = true
  arhold : ∀ t p, p < n → (inp t p).arvalid = true → ((x t).port p).arready = false → (inp (t + 1) p).arvalid = true
  awaddr : ∀ t p, p < n → (inp t p).awaddr < 2 ^ c.aw ∧ 1 ≤ (inp t p).awcnt
  araddr : ∀ t p, p < n → (inp t p).araddr < 2 ^ c.aw ∧ 1 ≤ (inp t p).arcnt

section
variable {B : Type} {c : Cfg} {u : B} {w0 : Word B} {mem0 : ℕ → B} {n : ℕ} {inp : ℕ → ℕ → In B}
  {ops : ℕ → List (ℕ × B)} {x : ℕ → Sys B}

/-! ## A port is a memory with one port, the others being seen as `write` intrinsics -/

/-- A byte written by a list of writes, each replacing one byte. -/
theorem fold_wr (size : ℕ) (f : ℕ → B) (m : ℕ → B) (k : ℕ) :
    ((List.range k).map fun y => (y, f y)).foldl (fun m o => wrByte size m o.1 o.2) m =
      fun y => if y < k ∧ y < size then f y else m y := by
  induction k with
  | zero => funext y; simp
  | succ k ih =>
    rw [List.range_succ, List.map_append, List.foldl_append, ih]
    funext y
    simp only [List.map_cons, List.map_nil, List.foldl_cons, List.foldl_nil, wrByte]
    by_cases h : y = k
    · subst h; by_cases h' : y < size <;> simp [h']
    · have : y < k + 1 ↔ y < k := by omega
      simp [h, this]

theorem fold_ops_out (size : ℕ) (l : List (ℕ × B)) (m : ℕ → B) (y : ℕ) (hy : size ≤ y) :
    l.foldl (fun m o => wrByte size m o.1 o.2) m y = m y := by
  induction l generalizing m with
  | nil => rfl
  | cons o l ih =>
    rw [List.foldl_cons, ih, wrByte, if_neg]
    rintro ⟨rfl, h⟩; omega

theorem putWord_out (nb size : ℕ) (m : ℕ → B) (a : ℕ) (w : Word B) (y : ℕ) (hy : size ≤ y) :
    putWord nb size m a w y = m y := by
  rw [putWord, if_neg]; rintro ⟨-, -, h, -⟩; omega

/-- The memory after the writes of the ports of a list, in order. -/
def afterPorts (c : Cfg) (s : Sys B) (l : List ℕ) (m : ℕ → B) : ℕ → B :=
  l.foldl (fun m p => match s.store c p with | some (a, w) => putWord c.nb c.size m a w | none => m) m

theorem step_mem (s : Sys B) (i : ℕ → In B) (o : List (ℕ × B)) : (s.step c u n i o).mem =
    o.foldl (fun m o => wrByte c.size m o.1 o.2) (afterPorts c s (List.range n) s.mem) := by
  simp only [Sys.step, storeWord_eq]
  rfl

theorem afterPorts_out (s : Sys B) (l : List ℕ) (m : ℕ → B) (y : ℕ) (hy : c.size ≤ y) :
    afterPorts c s l m y = m y := by
  induction l generalizing m with
  | nil => rfl
  | cons p l ih =>
    rw [afterPorts, List.foldl_cons]
    refine (ih _).trans ?_
    cases s.store c p with
    | none => rfl
    | some v => exact putWord_out _ _ _ _ _ _ hy

/-- The inputs of port `p` with the changes of the memory as `write` intrinsics. -/
def seen (c : Cfg) (inp : ℕ → ℕ → In B) (x : ℕ → Sys B) (p t : ℕ) : In B :=
  { inp t p with ops := (List.range c.size).map fun y => (y, (x (t + 1)).mem y) }

/-- Port `p` over time. -/
def pst (x : ℕ → Sys B) (p t : ℕ) : St B := (x t).view p

theorem port_run (hx : PRun c u w0 mem0 n inp ops x) {p : ℕ} (hp : p < n) :
    MRun c u w0 mem0 (seen c inp x p) (pst x p) where
  init := by simp only [pst, hx.init]; rfl
  step t := by
    have hm : (x (t + 1)).mem = (seen c inp x p t).ops.foldl (fun m o => wrByte c.size m o.1 o.2)
        (if ((x t).view p).dst == 1 && !empty ((x t).view p).wdat && ((x t).view p).awake c then
          storeWord c.nb c.size (x t).mem ((x t).view p).waddr (Fifo.asyncRdata ((x t).view p).wdat) else (x t).mem) := by
      simp only [seen]
      rw [fold_wr]
      funext y
      by_cases hy : y < c.size
      · simp [hy]
      · rw [if_neg (by tauto)]
        have h1 : (x (t + 1)).mem y = (x t).mem y := by
          rw [hx.step t, step_mem, fold_ops_out _ _ _ _ (by omega), afterPorts_out _ _ _ _ (by omega)]
        rw [h1, storeWord_eq]
        split
        · rw [putWord_out _ _ _ _ _ _ (by omega)]
        · rfl
    have h2 : (x (t + 1)).view p = { ((x t).view p).step c u (inp t p) with mem := (x (t + 1)).mem } := by
      conv_lhs => rw [Sys.view]
      rw [hx.step t]; rfl
    rw [pst, pst, h2, hm]
    rfl
  awhold t h1 h2 := hx.awhold t p hp h1 h2
  arhold t h1 h2 := hx.arhold t p hp h1 h2
  awaddr t := hx.awaddr t p hp
  araddr t := hx.araddr t p hp

/-! ## The theorems -/

/-- The inputs of port `p` over time. -/
def pin (inp : ℕ → ℕ → In B) (p t : ℕ) : In B := inp t p

theorem awL_seen (p t : ℕ) : awL (seen c inp x p) (pst x p) t = awL (pin inp p) (pst x p) t := by
  induction t with
  | zero => rfl
  | succ t ih => rw [awL, awL, ih]; rfl

theorem wL_seen (p t : ℕ) : wL c (seen c inp x p) (pst x p) t = wL c (pin inp p) (pst x p) t := by
  induction t with
  | zero => rfl
  | succ t ih => rw [wL, wL, ih]; rfl

theorem expect_seen (p t : ℕ) : expect c (seen c inp x p) (pst x p) t = expect c (pin inp p) (pst x p) t := by
  induction t with
  | zero => rfl
  | succ t ih => rw [expect, expect, ih]; rfl

theorem got_seen (p t : ℕ) : got (seen c inp x p) (pst x p) t = got (pin inp p) (pst x p) t := by
  induction t with
  | zero => rfl
  | succ t ih => rw [got, got, ih]; rfl

/-- Writing the word `w` at address `a` replaces byte `y`. -/
def Hits (c : Cfg) (y a : ℕ) (w : Word B) : Prop := a ≤ y ∧ y < a + c.nb ∧ y < c.size ∧ w.strb (y - a) = true

theorem ports_none (s : Sys B) (y : ℕ) (l : List ℕ) (m : ℕ → B)
    (h : ∀ p ∈ l, ∀ a w, s.store c p = some (a, w) → ¬Hits c y a w) : afterPorts c s l m y = m y := by
  induction l generalizing m with
  | nil => rfl
  | cons p l ih =>
    rw [afterPorts, List.foldl_cons]
    refine (ih _ fun q hq => h q (List.mem_cons_of_mem _ hq)).trans ?_
    have hp := h p List.mem_cons_self
    cases hs : s.store c p with
    | none => rfl
    | some v => exact if_neg (hp v.1 v.2 hs)

theorem ports_some (s : Sys B) (y k : ℕ) (m : ℕ → B) {p : ℕ} (hp : p < k) {a : ℕ} {w : Word B}
    (hs : s.store c p = some (a, w)) (hy : Hits c y a w)
    (h : ∀ q, p < q → q < k → ∀ a w, s.store c q = some (a, w) → ¬Hits c y a w) :
    afterPorts c s (List.range k) m y = w.byte (y - a) := by
  induction k with
  | zero => omega
  | succ k ih =>
    have e : afterPorts c s (List.range (k + 1)) m = afterPorts c s [k] (afterPorts c s (List.range k) m) := by
      rw [List.range_succ, afterPorts, List.foldl_append]; rfl
    rw [e]
    by_cases hk : p = k
    · subst hk
      simp only [afterPorts, List.foldl_cons, List.foldl_nil, hs]
      exact if_pos hy
    · rw [ports_none s y [k] _ (by
        intro q hq
        rw [List.mem_singleton] at hq
        subst hq
        exact h q (by omega) (by omega))]
      exact ih (by omega) fun q h1 h2 => h q h1 (by omega)

theorem ops_none (size : ℕ) (y : ℕ) (l : List (ℕ × B)) (m : ℕ → B) (h : ∀ o ∈ l, o.1 ≠ y) :
    l.foldl (fun m o => wrByte size m o.1 o.2) m y = m y := by
  induction l generalizing m with
  | nil => rfl
  | cons o l ih =>
    rw [List.foldl_cons, ih _ fun q hq => h q (List.mem_cons_of_mem _ hq), wrByte, if_neg]
    rintro ⟨rfl, -⟩
    exact h o List.mem_cons_self rfl

theorem gh_store (hx : PRun c u w0 mem0 n inp ops x) {p : ℕ} (hp : p < n) (t : ℕ) :
    (gh c (pst x p) (t + 1)).L = (gh c (pst x p) t).L ++ ((x t).store c p).toList := by
  rw [gh_L (port_run hx hp) t, Sys.store]
  have : wr c (pst x p) t =
    (((x t).port p).dst == 1 && !empty ((x t).port p).wdat && ((x t).port p).awake c) := rfl
  rw [this]
  split <;> rfl

/-- **C92, writes.**  Every port serves its requests and words like the memory of C56: at every time `R p` of its accepted
    requests and `W p` of its words have led to the writes `L p`, one response is raised for each completed request,
    waiting words are written and requests accepted within the same bounds, whatever the other ports do.  In a cycle a
    port does at most one write.  A byte gets the value written by the last port that writes it in the cycle, unless the
    `write` intrinsic writes it, and nothing else changes the memory. -/
theorem c92_write (hx : PRun c u w0 mem0 n inp ops x) : ∃ (R : ℕ → ℕ → List (ℕ × ℕ)) (W : ℕ → ℕ → List (Word B))
    (L : ℕ → ℕ → List (ℕ × Word B)) (cur : ℕ → ℕ → Option (ℕ × ℕ)) (b : ℕ → ℕ → ℕ),
    (∀ p, p < n → ∀ t, R p t <+: awL (pin inp p) (pst x p) t ∧ W p t <+: wL c (pin inp p) (pst x p) t ∧
      Served c.nb c.aw (R p t) (W p t) (L p t) (cur p t) (b p t) ∧
      b p (t + 1) = b p t + (if (pst x p (t + 1)).bvalid then 1 else 0) ∧
      (L p (t + 1) = L p t ∨ ∃ v, L p (t + 1) = L p t ++ [v])) ∧
    (∀ t y, (∀ o ∈ ops t, o.1 ≠ y) →
      (∀ p a w, p < n → L p (t + 1) = L p t ++ [(a, w)] → Hits c y a w →
        (∀ q a w, p < q → q < n → L q (t + 1) = L q t ++ [(a, w)] → ¬Hits c y a w) →
        (x (t + 1)).mem y = w.byte (y - a)) ∧
      ((∀ p a w, p < n → L p (t + 1) = L p t ++ [(a, w)] → ¬Hits c y a w) → (x (t + 1)).mem y = (x t).mem y)) ∧
    (c.interval ≠ 1 → ∀ p, p < n → ∀ t, (cur p t ≠ none ∨ R p t ≠ awL (pin inp p) (pst x p) t) →
      W p t ≠ wL c (pin inp p) (pst x p) t → ∃ k, k ≤ max c.keep 1 + 2 ∧ L p (t + k) ≠ L p t) ∧
    (∀ p, p < n → ∀ t, (inp t p).awvalid = true →
      (∀ s, t ≤ s → s ≤ t + c.wdelay + 1 →
        (awL (pin inp p) (pst x p) s).length + 2 < (R p s).length + 2 ^ c.reqAw) →
      ∃ k, k ≤ c.wdelay + 2 ∧ (inp (t + k) p).awvalid = true ∧ ((x (t + k)).port p).awready = true) := by
  have hL : ∀ t p, p < n → ∀ a w, (gh c (pst x p) (t + 1)).L = (gh c (pst x p) t).L ++ [(a, w)] ↔
      (x t).store c p = some (a, w) := by
    intro t p hp a w
    rw [gh_store hx hp, List.append_cancel_left_eq]
    cases (x t).store c p <;> simp
  refine ⟨fun p t => (gh c (pst x p) t).R, fun p t => (gh c (pst x p) t).W, fun p t => (gh c (pst x p) t).L,
    fun p t => (gh c (pst x p) t).cur, fun p t => (gh c (pst x p) t).b, ?_, ?_, ?_, ?_⟩
  · intro p hp t
    obtain ⟨q1, q2, hw⟩ := winv (port_run hx hp) t
    refine ⟨⟨q1, ?_⟩, ⟨q2, ?_⟩, hw.served, gh_b (port_run hx hp) t, ?_⟩
    · rw [← awL_seen (c := c)]; exact hw.e1.symm
    · rw [← wL_seen]; exact hw.e2.symm
    · simp only [gh_store hx hp]
      cases (x t).store c p with
      | none => left; simp
      | some v => right; exact ⟨v, rfl⟩
  · intro t y ho
    have hm : (x (t + 1)).mem y = afterPorts c (x t) (List.range n) (x t).mem y := by
      rw [hx.step t, step_mem, ops_none _ _ _ _ ho]
    constructor
    · intro p a w hp h1 h2 h3
      rw [hm]
      exact ports_some _ _ _ _ hp ((hL t p hp a w).mp h1) h2
        fun q k1 k2 a w h => h3 q a w k1 k2 ((hL t q k2 a w).mpr h)
    · intro h
      rw [hm]
      refine ports_none _ _ _ _ fun p hp a w hs => ?_
      have hp := List.mem_range.mp hp
      exact h p a w hp ((hL t p hp a w).mpr hs)
  · intro hi p hp t h1 h2
    rw [← awL_seen (c := c)] at h1
    rw [← wL_seen] at h2
    exact write_within (port_run hx hp) hi t h1 h2
  · intro p hp t hv hroom
    obtain ⟨k, hk, h⟩ := accept_within (port_run hx hp) t hv (by
      intro s h1 h2
      rw [awL_seen]
      exact hroom s h1 h2)
    simp only [AW, Bool.and_eq_true] at h
    exact ⟨k, hk, h.1, h.2⟩

/-- **C92, reads.**  The beats transferred at a port are, in order, the beats of the requests accepted there: consecutive
    word addresses, `rlast` on the last beat, the data is what the shared memory holds at a time between the request and
    the transfer; an offered beat stays until it is taken; outstanding beats are offered and requests accepted within the
    bounds of C56. -/
theorem c92_read (hx : PRun c u w0 mem0 n inp ops x) {p : ℕ} (hp : p < n) :
    (∀ t, ∃ dn rest, expect c (pin inp p) (pst x p) t = dn ++ rest ∧
      List.Forall₂ (fun g b => g.2.1 = b.last ∧ Good c u (pst x p) g.1 b g.2.2) (got (pin inp p) (pst x p) t) dn ∧
      ((pst x p t).rvalid = true →
        ∃ b rest', rest = b :: rest' ∧ (pst x p t).rlast = b.last ∧ Good c u (pst x p) (pst x p t).rdata b t)) ∧
    (∀ t, (pst x p t).rvalid = true → (inp t p).rready = false → (pst x p (t + 1)).rvalid = true ∧
      (pst x p (t + 1)).rlast = (pst x p t).rlast ∧ (pst x p (t + 1)).rdata = (pst x p t).rdata) ∧
    (c.interval ≠ 1 → ∀ t, (got (pin inp p) (pst x p) t).length < (expect c (pin inp p) (pst x p) t).length →
      ∃ k, k ≤ c.rdelay + max c.keep 1 + 2 ∧ (pst x p (t + k)).rvalid = true) ∧
    (∀ t, (inp t p).arvalid = true →
      (∀ s, t ≤ s → s ≤ t + 1 →
        (expect c (pin inp p) (pst x p) s).length + 2 < (got (pin inp p) (pst x p) s).length + 2 ^ c.reqAw) →
      ∃ k, k ≤ 2 ∧ AR (pin inp p) (pst x p) (t + k) = true) := by
  have hr := port_run hx hp
  refine ⟨fun t => ?_, fun t => c56_read_stable hr t, ?_, ?_⟩
  · rw [← expect_seen, ← got_seen (c := c)]
    exact c56_read hr t
  · intro hi t h
    rw [← expect_seen, ← got_seen (c := c)] at h
    exact (c56_read_progress hr).1 hi t h
  · intro t hv h
    refine (c56_read_progress hr).2 t hv fun s h1 h2 => ?_
    have := h s h1 h2
    rw [← expect_seen, ← got_seen (c := c)] at this
    exact this

/-- **C92, ports see each other.**  A byte that a write of port `p` leaves in the memory in cycle `s` and that is not
    written in the cycles up to `e` is what a beat of any port transferred up to `e` brings whose request was accepted
    in cycle `s` or later. -/
theorem c92_coherent (hx : PRun c u w0 mem0 n inp ops x) : ∃ (L : ℕ → ℕ → List (ℕ × Word B)),
    (∀ p, p < n → ∀ t, ∃ R W cur b, R <+: awL (pin inp p) (pst x p) t ∧ W <+: wL c (pin inp p) (pst x p) t ∧
      Served c.nb c.aw R W (L p t) cur b) ∧
    ∀ s e p y a w, p < n → L p (s + 1) = L p s ++ [(a, w)] → Hits c y a w →
      (∀ q a w, p < q → q < n → L q (s + 1) = L q s ++ [(a, w)] → ¬Hits c y a w) →
      (∀ t, s ≤ t → t < e → ∀ o ∈ ops t, o.1 ≠ y) →
      (∀ t, s < t → t < e → ∀ q a w, q < n → L q (t + 1) = L q t ++ [(a, w)] → ¬Hits c y a w) →
      ∀ q, q < n → ∀ (i : ℕ) (g : (ℕ → B) × Bool × ℕ) (b : Beat), (got (pin inp q) (pst x q) e)[i]? = some g →
        (expect c (pin inp q) (pst x q) e)[i]? = some b → s ≤ b.time → b.addr ≤ y →
        g.1 (y - b.addr) = w.byte (y - a) := by
  obtain ⟨R, W, L, cur, b, h1, h2, -, -⟩ := c92_write hx
  refine ⟨L, fun p hp t => ⟨_, _, _, _, (h1 p hp t).1, (h1 p hp t).2.1, (h1 p hp t).2.2.1⟩, ?_⟩
  intro s e p y a w hp hl hy hq hops hno q hqn i g b hg hb hsb hby
  have hmem : ∀ d, s + 1 + d ≤ e → (x (s + 1 + d)).mem y = w.byte (y - a) := by
    intro d
    induction d with
    | zero =>
      intro hd
      exact (h2 s y (hops s le_rfl (by omega))).1 p a w hp hl hy hq
    | succ d ih =>
      intro hd
      have := (h2 (s + 1 + d) y (hops _ (by omega) (by omega))).2 (hno _ (by omega) (by omega))
      rw [show s + 1 + (d + 1) = s + 1 + d + 1 by omega, this]
      exact ih (by omega)
  obtain ⟨dn, rest, e1, e2, -⟩ := (c92_read hx hqn).1 e
  have hi : i < (got (pin inp q) (pst x q) e).length := (List.getElem?_eq_some_iff.mp hg).1
  have hi' : i < dn.length := by rw [← e2.length_eq]; exact hi
  rw [e1, List.getElem?_append_left hi'] at hb
  have hgood := (List.forall₂_iff_get.mp e2).2 i hi hi'
  rw [List.getElem?_eq_getElem hi] at hg
  rw [List.getElem?_eq_getElem hi'] at hb
  simp only [Option.some.injEq] at hg hb
  simp only [List.get_eq_getElem, hg, hb] at hgood
  obtain ⟨-, t', k1, k2, k3⟩ := hgood
  have hte : g.2.2 < e := by
    have : ∀ e, ∀ g ∈ got (pin inp q) (pst x q) e, g.2.2 < e := by
      intro e
      induction e with
      | zero => intro g h; simp [got] at h
      | succ e ih =>
        intro g h
        rw [got, List.mem_append] at h
        rcases h with h | h
        · exact Nat.lt_succ_of_lt (ih g h)
        · split at h
          · rw [List.mem_singleton] at h; subst h; exact Nat.lt_succ_self _
          · simp at h
    exact this e g (hg ▸ List.getElem_mem hi)
  rw [k3, show b.addr + (y - b.addr) = y by omega, if_pos hy.2.2.1]
  have := hmem (t' - (s + 1)) (by omega)
  rwa [show s + 1 + (t' - (s + 1)) = t' by omega] at this

end

/-! ## Two memories in one module -/

theorem run_items : ∀ (l : List Module.Obj) (m m' : Module.ModSt) (ns : List String),
    Module.run m (l.map .declare) = some (m', ns) → m'.items = m.items ++ l := by
  intro l
  induction l with
  | nil => intro m m' ns h; simp [Module.run] at h; simp [h.1]
  | cons o l ih =>
    intro m m' ns h
    simp only [List.map_cons, Module.run, Module.Op.apply, Option.bind_eq_some_iff, Option.map_eq_some_iff] at h
    obtain ⟨m1, h1, ⟨r, ns'⟩, h2, h3⟩ := h
    rw [show m' = r from (Prod.mk.inj h3).1.symm, ih m1 r ns' h2]
    have : m1.items = m.items ++ [o] := by
      unfold Module.ModSt.declare at h1
      split at h1
      · cases h1
      · split at h1
        · cases h1
        · cases h1; exact Module.items_store m o
    rw [this, List.append_assoc]; rfl

/-- **Disagreement.**  The constructors of two memories of one module raise an exception, whatever the names of the
    memories and whatever else is declared (except a port of the module with the name of a counter): the counters of the
    first ports, or those of two memories with one port, have the same names. -/
theorem c92_not_two (c c' : Cfg) (suf pre : String) (l1 l2 l3 : List Module.Obj)
    (hp : ∀ o ∈ l1 ++ l2 ++ l3, o.name = "_write_count" ++ suf →
      o.kind ≠ .input ∧ o.kind ≠ .output ∧ o.kind ≠ .inout) :
    Module.run { tmpPrefix := pre } ((l1 ++ counters c suf ++ l2 ++ counters c' suf ++ l3).map .declare) = none := by
  cases h : Module.run { tmpPrefix := pre } ((l1 ++ counters c suf ++ l2 ++ counters c' suf ++ l3).map .declare) with
  | none => rfl
  | some r =>
    exfalso
    obtain ⟨m', ns⟩ := r
    have hi := run_items _ _ _ _ h
    have hi : m'.items = l1 ++ counters c suf ++ l2 ++ counters c' suf ++ l3 := hi
    have hk : ∀ (c : Cfg), ∀ o ∈ counters c suf, o.kind = .reg := by
      intro c o ho
      simp only [counters, List.mem_append, List.mem_cons, List.not_mem_nil, or_false] at ho
      rcases ho with (rfl | rfl | rfl | rfl) | ho
      · rfl
      · rfl
      · rfl
      · rfl
      · split at ho
        · rw [List.mem_cons] at ho
          rcases ho with rfl | ho
          · rfl
          · split at ho
            · rw [List.mem_singleton] at ho; subst ho; rfl
            · simp at ho
        · simp at ho
    have hc : ∀ (c : Cfg), ⟨.reg, "_write_count" ++ suf, some (.int (c.aw + 1)), false, none⟩ ∈ counters c suf :=
      fun c => by simp [counters]
    have h1 := Module.c51_defined_once h
      (o := ⟨.reg, "_write_count" ++ suf, some (.int (c.aw + 1)), false, none⟩) (by rw [hi]; simp [hc c]) (by
        intro q hq hn
        rw [hi] at hq
        simp only [List.mem_append] at hq
        rcases hq with (((hq | hq) | hq) | hq) | hq
        · exact hp q (by simp [hq]) hn
        · rw [hk c q hq]; decide
        · exact hp q (by simp [hq]) hn
        · rw [hk c' q hq]; decide
        · exact hp q (by simp [hq]) hn)
    have h2 := congrArg List.length h1.1
    rw [hi] at h2
    simp only [List.filter_append, List.length_append, List.length_cons, List.length_nil] at h2
    have hpos : ∀ (c : Cfg), 1 ≤ ((counters c suf).filter fun q => q.name = "_write_count" ++ suf).length := by
      intro c
      refine List.length_pos_iff.mpr (List.ne_nil_of_mem (List.mem_filter.mpr ⟨hc c, ?_⟩))
      simp
    have := hpos c
    have := hpos c'
    omega

/-! ## A concrete run -/

/-- A run given by its inputs. -/
def sysRun {B : Type} (c : Cfg) (u : B) (w0 : Word B) (mem0 : ℕ → B) (n : ℕ) (inp : ℕ → ℕ → In B)
    (ops : ℕ → List (ℕ × B)) : ℕ → Sys B
  | 0 => Sys.init w0 mem0
  | t + 1 => (sysRun c u w0 mem0 n inp ops t).step c u n (inp t) (ops t)

/-- Both ports write two words at the same time, port 0 at address 8 and port 1 at address 12; port 1 reads both words
    of port 0 after that. -/
def ex92In (t p : ℕ) : In ℕ :=
  if p = 0 then { exIn t with arvalid := false }
  else { exIn t with awaddr := 12, word := if t = 0 then exWord 110 false else exWord 120 true }

def ex92 : ℕ → Sys ℕ := sysRun exCfg 0 (exWord 0 false) (fun _ => 0) 2 ex92In fun _ => []

theorem ex92_aw : ∀ t, t ≤ 3 → ∀ p, p < 2 → (((ex92 t).port p).awready = true ↔ t = 3) := by decide +kernel
theorem ex92_ar : ∀ t, t ≤ 22 → (((ex92 t).port 1).arready = true ↔ t = 22) := by decide +kernel

theorem ex92Run : PRun exCfg 0 (exWord 0 false) (fun _ => 0) 2 ex92In (fun _ => []) ex92 where
  init := rfl
  step _ := rfl
  awhold t p hp h1 h2 := by
    have h1' : t ≤ 3 := by simp only [ex92In] at h1; split at h1 <;> simpa [exIn] using h1
    have h := ex92_aw t h1' p hp
    rw [h2] at h
    have : t ≠ 3 := by rintro rfl; simp at h
    simp only [ex92In]
    split <;> simp only [exIn, decide_eq_true_eq] <;> omega
  arhold t p hp h1 h2 := by
    simp only [ex92In] at h1 ⊢
    split at h1
    · cases h1
    · rename_i hp0
      have : p = 1 := by omega
      subst this
      simp only [exIn, decide_eq_true_eq] at h1
      have h := ex92_ar t h1.2
      rw [h2] at h
      have : t ≠ 22 := by rintro rfl; simp at h
      rw [if_neg hp0]
      simp only [exIn, decide_eq_true_eq]; omega
  awaddr t p _ := by simp only [ex92In]; split <;> simp [exIn, exCfg]
  araddr t p _ := by simp only [ex92In]; split <;> simp [exIn, exCfg]

/-- Address 12 is written by port 1 first and by port 0 in the next cycle, address 8 by port 0, address 16 by port 1; port
    1 reads the words of port 0. -/
example : (ex92 12).mem 8 = 10 ∧ (ex92 12).mem 12 = 20 ∧ (ex92 12).mem 16 = 120 ∧
    expect exCfg (pin ex92In 1) (pst ex92 1) 30 = [⟨8, false, 22⟩, ⟨12, true, 22⟩] ∧
    (got (pin ex92In 1) (pst ex92 1) 40).map (fun g => (g.1 0, g.2.1)) = [(10, false), (20, true)] := by
  decide +kernel

example : Hits exCfg 13 12 (exWord 20 true) := by
  simp [Hits, exCfg, exWord]

end AxiMulti
