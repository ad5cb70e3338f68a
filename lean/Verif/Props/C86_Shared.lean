import Verif.Model.Shared
import Verif.Props.C21_Mutex

/-!
# C86: shared variables of threads

For any number of threads and calls, and any execution.
-/

namespace Shr

open Hdl

/-- A target has bit `j` of element `e`. -/
def Covers (t : ℕ × Option ℕ) (e j : ℕ) : Prop := t.1 = e ∧ ∀ b, t.2 = some b → b = j

/-- Bit `j` of element `e` belongs to the part: without a part all bits of a register, `v[i]` is bit `i` of a register or element
    `i` of an array, `v[i][b]` is a bit of an element of an array. -/
def Part.Has (k : Kind) (env : Env) (s : Store) (p : Part) (e j : ℕ) : Prop :=
  match k.len, p with
  | none, .whole => e = 0
  | none, .one i => e = 0 ∧ i env s = j ∧ j < k.w
  | some n, .one i => i env s = e ∧ e < n
  | some n, .two i b => i env s = e ∧ e < n ∧ b env s = j ∧ j < k.w
  | _, _ => False

/-- The part is a single bit. -/
def Part.bit (k : Kind) (p : Part) : Bool :=
  match k.len, p with
  | none, .one _ => true
  | some _, .two _ _ => true
  | _, _ => false

theorem below_some {i : ℤ} {n b : ℕ} : below i n = some b ↔ i = b ∧ b < n := by
  unfold below
  split
  · rename_i h
    rw [Option.some.injEq]
    omega
  · rename_i h
    simp only [reduceCtorEq, false_iff]
    omega

theorem has_iff {k : Kind} {env : Env} {s : Store} {p : Part} {e j : ℕ} :
    p.Has k env s e j ↔ ∃ t, target k p env s = some t ∧ Covers t e j := by
  unfold Part.Has target Covers
  constructor
  · intro h
    split at h
    · rename_i h1; rw [h1]; exact ⟨(0, none), rfl, h.symm, by simp⟩
    · rename_i i h1
      obtain ⟨rfl, h2, h3⟩ := h
      rw [h1]
      exact ⟨(0, some j), by simp only [below_some.2 ⟨h2, h3⟩, Option.map_some], rfl, fun b hb => by simpa using hb.symm⟩
    · rename_i n i h1
      rw [h1]
      exact ⟨(e, none), by simp only [below_some.2 h, Option.map_some], rfl, by simp⟩
    · rename_i n i b h1
      obtain ⟨h2, h3, h4, h5⟩ := h
      rw [h1]
      exact ⟨(e, some j), by simp only [below_some.2 ⟨h2, h3⟩, below_some.2 ⟨h4, h5⟩, Option.bind_some, Option.map_some], rfl,
        fun b hb => by simpa using hb.symm⟩
    · exact h.elim
  · rintro ⟨t, ht, hc1, hc2⟩
    split at ht
    · rename_i h1
      cases ht
      simp only [h1]; exact hc1.symm
    · rename_i i h1
      obtain ⟨b, hb, rfl⟩ := Option.map_eq_some_iff.1 ht
      have := below_some.1 hb
      have hbj := hc2 b rfl
      simp only [h1]
      subst hbj
      exact ⟨hc1.symm, this⟩
    · cases ht
    · cases ht
    · rename_i n i h1
      obtain ⟨b, hb, rfl⟩ := Option.map_eq_some_iff.1 ht
      have := below_some.1 hb
      simp only [h1]
      subst hc1
      exact this
    · rename_i n i b h1
      obtain ⟨e', he, ht⟩ := Option.bind_eq_some_iff.1 ht
      obtain ⟨b', hb, rfl⟩ := Option.map_eq_some_iff.1 ht
      have h2 := below_some.1 he
      have h3 := below_some.1 hb
      have hbj := hc2 b' rfl
      simp only [h1]
      subst hc1 hbj
      exact ⟨h2.1, h2.2, h3⟩

theorem bit_iff {k : Kind} {env : Env} {s : Store} {p : Part} {t : ℕ × Option ℕ} (ht : target k p env s = some t) :
    (if t.2 = none then (1 : ℕ) else 0) = if p.bit k then 0 else 1 := by
  unfold target at ht
  unfold Part.bit
  split at ht <;> rename_i h1
  · cases ht; simp [h1]
  · obtain ⟨b, hb, rfl⟩ := Option.map_eq_some_iff.1 ht; simp [h1]
  · cases ht
  · cases ht
  · obtain ⟨b, hb, rfl⟩ := Option.map_eq_some_iff.1 ht; simp [h1]
  · obtain ⟨e', he, ht⟩ := Option.bind_eq_some_iff.1 ht
    obtain ⟨b', hb, rfl⟩ := Option.map_eq_some_iff.1 ht
    simp [h1]

theorem bit_pos {k : Kind} {env : Env} {s : Store} {p : Part} {t : ℕ × Option ℕ} (ht : target k p env s = some t) (j : ℕ) :
    (if t.2 = none then j else 0) = if p.bit k then 0 else j := by
  have := bit_iff ht
  by_cases h : t.2 = none <;> cases hb : p.bit k <;> simp_all

/-- The call writes bit `j` of element `e` at this edge. -/
def Site.Writes (k : Kind) (env : Env) (s : Store) (c : Site) (e j : ℕ) : Prop :=
  env (.state c.th) = c.st ∧ c.part.Has k env s e j

/-- Bit `j` of an integer. -/
def intBit (x : ℤ) (j : ℕ) : Bool := decide (x / 2 ^ j % 2 = 1)

theorem setBit_bit (n b : ℕ) (x : Bool) (j : ℕ) : (setBit n b x).testBit j = if j = b then x else n.testBit j := by
  unfold setBit
  rw [Nat.testBit_xor]
  by_cases hj : j = b
  · subst hj
    by_cases hx : n.testBit j = x
    · simp [hx]
    · rw [if_neg hx]
      simp
      cases h : n.testBit j <;> cases x <;> simp_all
  · split
    · simp
    · rw [Nat.testBit_two_pow_of_ne (Ne.symm hj)]
      simp

theorem word_bit (x : ℤ) {w j : ℕ} (hj : j < w) : (x % 2 ^ w).toNat.testBit j = intBit x j := by
  have hp : (0 : ℤ) < 2 ^ w := Int.pow_pos (by decide)
  have h0 : 0 ≤ x % 2 ^ w := Int.emod_nonneg _ (by omega)
  obtain ⟨n, hn⟩ := Int.eq_ofNat_of_zero_le h0
  have hx : x = 2 ^ w * (x / 2 ^ w) + n := by rw [← hn]; exact (Int.mul_ediv_add_emod x _).symm
  rw [hn, Int.toNat_natCast, Nat.testBit_eq_decide_div_mod_eq]
  unfold intBit
  have hsplit : (2 : ℤ) ^ w = 2 ^ j * (2 * 2 ^ (w - j - 1)) := by
    rw [← Int.pow_succ', ← Int.pow_add]
    congr 1
    omega
  have : x / 2 ^ j % 2 = ((n / 2 ^ j % 2 : ℕ) : ℤ) := by
    have hpj : (2 : ℤ) ^ j ≠ 0 := Int.ne_of_gt (Int.pow_pos (by decide))
    rw [hx, hsplit, Int.mul_assoc, Int.add_comm, Int.add_mul_ediv_left _ _ hpj, Int.mul_assoc, Int.add_mul_emod_self_left]
    push_cast
    rfl
  rw [this]
  congr 1
  exact propext ⟨fun h => by exact_mod_cast h, fun h => by exact_mod_cast h⟩

variable {k : Kind} {ws : List Site} {env : Env} {s : Store}

theorem on_of {c : Site} (h : env (.state c.th) = c.st) : c.on env = true := decide_eq_true h

theorem exec_other {c : Site} {a : Store} {e j : ℕ} (h : ¬ c.Writes k env s e j) :
    (c.exec k env s a e).testBit j = (a e).testBit j := by
  unfold Site.exec
  by_cases hon : c.on env = true
  · rw [if_pos hon]
    cases ht : target k c.part env s with
    | none => rfl
    | some t =>
      have hc : ¬ Covers t e j := fun hc => h ⟨of_decide_eq_true hon, has_iff.2 ⟨t, ht, hc⟩⟩
      simp only [put]
      by_cases he : e = t.1
      · rw [if_pos he]
        cases hb : t.2 with
        | none => exact absurd ⟨he.symm, by simp [hb]⟩ hc
        | some b =>
          simp only
          rw [setBit_bit, if_neg]
          rintro rfl
          exact hc ⟨he.symm, fun b' hb' => by rw [hb] at hb'; injection hb' with h; exact h.symm⟩
      · rw [if_neg he]
  · rw [if_neg hon]

theorem exec_self {c : Site} {a : Store} {t : ℕ × Option ℕ} (hs : env (.state c.th) = c.st)
    (ht : target k c.part env s = some t) {e j : ℕ} (hc : Covers t e j) (hj : j < k.w) :
    (c.exec k env s a e).testBit j = intBit (c.val env s) (if t.2 = none then j else 0) := by
  unfold Site.exec
  rw [if_pos (on_of hs), ht]
  simp only [put]
  rw [if_pos hc.1.symm]
  cases hb : t.2 with
  | none => simpa using word_bit _ hj
  | some b =>
    have : j = b := (hc.2 b hb).symm
    simp only [setBit_bit, if_pos this]
    unfold intBit
    have h : c.val env s % 2 = 0 ∨ c.val env s % 2 = 1 := by omega
    rcases h with h | h <;> simp [h]

theorem foldl_other {e j : ℕ} (h : ∀ c ∈ ws, ¬ c.Writes k env s e j) (a : Store) :
    (ws.foldl (fun a c => c.exec k env s a) a e).testBit j = (a e).testBit j := by
  induction ws generalizing a with
  | nil => rfl
  | cons c l ih =>
    rw [List.foldl_cons, ih fun c' hc' => h c' (List.mem_cons_of_mem _ hc'), exec_other (h c (by simp))]

/-- **C86, writes.** After the edge at which a thread is in the state of its call, the part holds the value, unless a call added later writes
    it at the same edge. -/
theorem c86_write {pre post : List Site} {c : Site} (hws : ws = pre ++ c :: post) {e j : ℕ} (hw : c.Writes k env s e j) (hj : j < k.w)
    (hlater : ∀ d ∈ post, ¬ d.Writes k env s e j) :
    (step k ws env s e).testBit j = intBit (c.val env s) (if c.part.bit k then 0 else j) := by
  subst hws
  obtain ⟨t, ht, hc⟩ := has_iff.1 hw.2
  unfold step
  rw [List.foldl_append, List.foldl_cons, foldl_other hlater, exec_self hw.1 ht hc hj, bit_pos ht]

/-- **C86, the rest.** Bits that no thread writes at an edge keep their value. -/
theorem c86_keep {e j : ℕ} (h : ∀ c ∈ ws, ¬ c.Writes k env s e j) : (step k ws env s e).testBit j = (s e).testBit j :=
  foldl_other h s

theorem foldl_none {l : List Site} (h : ∀ c ∈ l, env (.state c.th) ≠ c.st) (a : Store) :
    l.foldl (fun a c => c.exec k env s a) a = a := by
  induction l generalizing a with
  | nil => rfl
  | cons c l ih =>
    rw [List.foldl_cons, ih fun c' hc' => h c' (List.mem_cons_of_mem _ hc')]
    unfold Site.exec
    rw [if_neg]
    simpa [Site.on] using h c (by simp)

theorem step_none (h : ∀ c ∈ ws, env (.state c.th) ≠ c.st) : step k ws env s = s := foldl_none h s

theorem step_one {pre post : List Site} {c : Site} (hws : ws = pre ++ c :: post) (hs : env (.state c.th) = c.st) {t : ℕ × Option ℕ}
    (ht : target k c.part env s = some t) (ho : ∀ d ∈ pre ++ post, env (.state d.th) ≠ d.st) :
    step k ws env s = put k s t (c.val env s) := by
  subst hws
  have h1 : step k pre env s = s := step_none fun d hd => ho d (List.mem_append_left _ hd)
  unfold step at h1 ⊢
  rw [List.foldl_append, List.foldl_cons, h1, foldl_none fun d hd => ho d (List.mem_append_right _ hd)]
  unfold Site.exec
  rw [if_pos (on_of hs), ht]

/-- **C86, going on.** The thread leaves the state of the call at the next edge. -/
theorem c86_next {n : String} {fw : ℕ} {f f' g : FsmSt} {p : Part} {v : Ex} {ws' : List Site} (hw : write ws f p v = some (ws', f'))
    (hidle : f.next = {}) {ops : List FsmOp} (hg : f'.applyAll ops = some g) (hreach : FsmSt.Reach n fw g)
    (hone : (g.jumpsFrom f.cur).length = 1) (hfit : f.cur + 1 < 2 ^ fw) {rst : Expr} {uc : Bool} {E : ℕ → Env}
    (hE : Run (g.always rst uc) E) (t : ℕ) (hr : rst.truthy (E t) = false) (hst : E t (.state n) = f.cur) :
    E (t + 1) (.state n) = ((f.cur + 1 : ℕ) : ℤ) ∧ ws' = ws ++ [⟨f.name, f.cur, p, v⟩] := by
  unfold write at hw
  simp only [FsmSt.applyAll, FsmOp.apply, Option.bind_some, Option.map_some, Option.some.injEq, Prod.mk.injEq] at hw
  obtain ⟨rfl, rfl⟩ := hw
  refine ⟨?_, rfl⟩
  obtain ⟨extra, he⟩ := FsmSt.applyAll_grows hg
  have hj : (f.gotoNext none).jumps = f.jumps ++ [(f.cur, ⟨f.cur + 1, none, none⟩)] := by
    simp [FsmSt.gotoNext, FsmSt.goto, FsmSt.setIndex, hidle]
  have h1 := FsmSt.jumpsFrom_append he f.cur
  rw [FsmSt.jumpsFrom_append hj f.cur] at h1
  simp only [List.filterMap_cons, if_true, List.filterMap_nil] at h1
  rw [h1] at hone
  simp only [List.length_append, List.length_singleton] at hone
  have e1 : f.jumpsFrom f.cur = [] := List.eq_nil_of_length_eq_zero (by omega)
  have e2 : (extra.filterMap fun e => if e.1 = f.cur then some e.2 else none) = [] := List.eq_nil_of_length_eq_zero (by omega)
  rw [e1, e2] at h1
  simp only [List.nil_append, List.append_nil] at h1
  rw [FsmSt.run_next hreach hE t f.cur hr hst (by rw [h1]; simpa using hfit), h1]
  simp [FsmSt.nextState, holds, takeJump]

/-! ## With a mutex -/

/-- The contents over time: every edge without reset is a `step`. -/
def Exec (k : Kind) (ws : List Site) (rst : Expr) (E : ℕ → Env) (V : ℕ → Store) : Prop :=
  ∀ t, rst.truthy (E t) = false → V (t + 1) = step k ws (E t) (V t)

/-- Thread `n` executes a `write` at edge `t`. -/
def Writing (ws : List Site) (E : ℕ → Env) (n : String) (t : ℕ) : Prop := ∃ c ∈ ws, c.th = n ∧ E t (.state n) = c.st

section

variable {name : String} {width fw : ℕ} {tmps : List String} {y : Sys} {rst : Expr} {uc : String → Bool} {E : ℕ → Env} {V : ℕ → Store}

/-- **C86, atomicity.** If threads write only while they hold the mutex, the variable does not change while a thread holds the mutex and does
    not write. -/
theorem c86_atomic (hb : Built name width fw tmps y) (hc : y.Clean) (hE : y.Exec rst uc E) (hV : Exec k ws rst E V) {n : String} {t₁ t₂ : ℕ}
    (h12 : t₁ ≤ t₂) (hlock : ∀ t, t₁ ≤ t → t < t₂ → ∀ m, Writing ws E m t → y.Holds rst E m t)
    (hold : ∀ t, t₁ ≤ t → t < t₂ → y.Holds rst E n t ∧ rst.truthy (E t) = false ∧ ¬ Writing ws E n t) : V t₂ = V t₁ := by
  induction h12 with
  | refl => rfl
  | @step t ht ih =>
    have h := hold t ht (Nat.lt_succ_self _)
    rw [hV t h.2.1, step_none, ih (fun u h1 h2 => hlock u h1 (Nat.lt_succ_of_lt h2)) fun u h1 h2 => hold u h1 (Nat.lt_succ_of_lt h2)]
    intro c hcm hst
    have hw : Writing ws E c.th t := ⟨c, hcm, rfl, hst⟩
    by_cases hn : c.th = n
    · exact h.2.2 (hn ▸ hw)
    · exact c21_exclusion hb hc hE hn t ⟨hlock t ht (Nat.lt_succ_self _) _ hw, h.1⟩

/-- The update made with call `c` at edge `t` is that of a critical section: the thread holds the mutex since some `t₀`, has not
    written since, and writes `g` of what the variable was at `t₀`. -/
def Section (y : Sys) (ws : List Site) (rst : Expr) (E : ℕ → Env) (V : ℕ → Store) (c : Site) (g : Store → ℤ) (t : ℕ) : Prop :=
  ∃ t₀, t₀ ≤ t ∧ (∀ u, t₀ ≤ u → u ≤ t → y.Holds rst E c.th u) ∧ (∀ u, t₀ ≤ u → u < t → ¬ Writing ws E c.th u) ∧ c.val (E t) (V t) = g (V t₀)

/-- A thread has one call in one state (`write` goes to the next state). -/
def Apart (ws : List Site) : Prop := ws.Pairwise fun c d => c.th = d.th → c.st ≠ d.st

theorem others_off (hb : Built name width fw tmps y) (hc : y.Clean) (hE : y.Exec rst uc E) (ha : Apart ws) {t : ℕ}
    (hlock : ∀ m, Writing ws E m t → y.Holds rst E m t) {pre post : List Site} {c : Site} (hws : ws = pre ++ c :: post)
    (hst : E t (.state c.th) = c.st) : ∀ d ∈ pre ++ post, E t (.state d.th) ≠ d.st := by
  intro d hd hds
  have hcm : c ∈ ws := by rw [hws]; simp
  have hdm : d ∈ ws := by rw [hws]; simp only [List.mem_append, List.mem_cons] at hd ⊢; tauto
  have hth : d.th = c.th := by
    by_contra hne
    exact c21_exclusion hb hc hE hne t ⟨hlock _ ⟨d, hdm, rfl, hds⟩, hlock _ ⟨c, hcm, rfl, hst⟩⟩
  have hstd : d.st = c.st := by
    rw [hth, hst] at hds
    exact_mod_cast hds.symm
  subst hws
  unfold Apart at ha
  rw [List.pairwise_append] at ha
  rcases List.mem_append.1 hd with hd | hd
  · exact ha.2.2 d hd c (by simp) hth hstd
  · exact (List.pairwise_cons.1 ha.2.1).1 d hd hth.symm hstd.symm

theorem section_put (hb : Built name width fw tmps y) (hc : y.Clean) (hE : y.Exec rst uc E) (hV : Exec k ws rst E V) (ha : Apart ws)
    {t : ℕ} (hr : ∀ u, u ≤ t → rst.truthy (E u) = false) (hlock : ∀ u, u ≤ t → ∀ m, Writing ws E m u → y.Holds rst E m u)
    {c : Site} (hcm : c ∈ ws) (hst : E t (.state c.th) = c.st) {g : Store → ℤ} (hsec : Section y ws rst E V c g t) {tg : ℕ × Option ℕ}
    (ht : target k c.part (E t) (V t) = some tg) : V (t + 1) = put k (V t) tg (g (V t)) := by
  obtain ⟨t₀, h0, hh, hnw, hv⟩ := hsec
  obtain ⟨pre, post, hws⟩ := List.append_of_mem hcm
  have heq : V t = V t₀ := c86_atomic hb hc hE hV h0 (fun u _ h2 => hlock u (by omega))
    fun u h1 h2 => ⟨hh u h1 (by omega), hr u (by omega), hnw u h1 h2⟩
  rw [hV t (hr t (Nat.le_refl _)), step_one hws hst ht (others_off hb hc hE ha (hlock t (Nat.le_refl _)) hws hst), hv, heq]

/-- **C86, critical sections.** A value computed from what was read at the beginning of a critical section is written to a variable that has
    still that content: the write does `g` on the content of the moment, and no update of another thread is lost. -/
theorem c86_section (hb : Built name width fw tmps y) (hc : y.Clean) (hE : y.Exec rst uc E) (hV : Exec k ws rst E V) (ha : Apart ws)
    {t : ℕ} (hr : ∀ u, u ≤ t → rst.truthy (E u) = false) (hlock : ∀ u, u ≤ t → ∀ m, Writing ws E m u → y.Holds rst E m u)
    {c : Site} (hcm : c ∈ ws) (hst : E t (.state c.th) = c.st) {g : Store → ℤ} (hsec : Section y ws rst E V c g t) {e j : ℕ}
    (hj : j < k.w) :
    (c.part.Has k (E t) (V t) e j → (V (t + 1) e).testBit j = intBit (g (V t)) (if c.part.bit k then 0 else j)) ∧
      (¬ c.part.Has k (E t) (V t) e j → (V (t + 1) e).testBit j = (V t e).testBit j) := by
  obtain ⟨t₀, h0, hh, hnw, hv⟩ := hsec
  obtain ⟨pre, post, hws⟩ := List.append_of_mem hcm
  have heq : V t = V t₀ := c86_atomic hb hc hE hV h0 (fun u _ h2 => hlock u (by omega))
    fun u h1 h2 => ⟨hh u h1 (by omega), hr u (by omega), hnw u h1 h2⟩
  have hoff := others_off hb hc hE ha (hlock t (Nat.le_refl _)) hws hst
  rw [hV t (hr t (Nat.le_refl _))]
  refine ⟨fun hp => ?_, fun hp => ?_⟩
  · rw [c86_write hws ⟨hst, hp⟩ hj fun d hd h => hoff d (List.mem_append_right _ hd) h.1, hv, heq]
  · refine c86_keep fun d hd h => ?_
    rw [hws] at hd
    rcases List.mem_append.1 hd with hd | hd
    · exact hoff d (List.mem_append_left _ hd) h.1
    · rcases List.mem_cons.1 hd with rfl | hd
      · exact hp h.2
      · exact hoff d (List.mem_append_right _ hd) h.1

/-- What the calls add at edge `t`, where call `c` adds `d c t`. -/
def added (ws : List Site) (E : ℕ → Env) (d : Site → ℕ → ℤ) (t : ℕ) : ℤ := ((ws.filter fun c => c.on (E t)).map fun c => d c t).sum

/-- **C86, counting.** If every write adds to what the thread has read in the same critical section, the register holds the sum of everything
    added by all threads. -/
theorem c86_count (hb : Built name width fw tmps y) (hc : y.Clean) (hE : y.Exec rst uc E) {w : ℕ} (hV : Exec ⟨w, none⟩ ws rst E V)
    (ha : Apart ws) {T : ℕ} (hr : ∀ u, u < T → rst.truthy (E u) = false)
    (hlock : ∀ u, u < T → ∀ m, Writing ws E m u → y.Holds rst E m u) (d : Site → ℕ → ℤ)
    (hsec : ∀ t, t < T → ∀ c ∈ ws, E t (.state c.th) = c.st →
      c.part = .whole ∧ Section y ws rst E V c (fun s => s 0 + d c t) t) :
    (V T 0 : ℤ) % 2 ^ w = (V 0 0 + ((List.range T).map fun t => added ws E d t).sum) % 2 ^ w := by
  induction T with
  | zero => simp
  | succ T ih =>
    have ih := ih (fun u hu => hr u (by omega)) (fun u hu => hlock u (by omega)) fun t ht => hsec t (by omega)
    rw [List.range_succ, List.map_append, List.map_singleton, List.sum_append, List.sum_singleton, ← Int.add_assoc,
      Int.add_emod, ← ih]
    by_cases hon : ∃ c ∈ ws, E T (.state c.th) = c.st
    · obtain ⟨c, hcm, hst⟩ := hon
      obtain ⟨hp, hs⟩ := hsec T (by omega) c hcm hst
      have hn := section_put hb hc hE hV ha (t := T) (fun u hu => hr u (by omega)) (fun u hu => hlock u (by omega)) hcm hst hs
        (tg := (0, none)) (by rw [hp]; rfl)
      obtain ⟨pre, post, hws⟩ := List.append_of_mem hcm
      have hoff := others_off hb hc hE ha (hlock T (by omega)) hws hst
      have hadd : added ws E d T = d c T := by
        unfold added
        have hf : ∀ l : List Site, (∀ c' ∈ l, E T (.state c'.th) ≠ c'.st) → l.filter (fun c => c.on (E T)) = [] := fun l hl =>
          List.filter_eq_nil_iff.2 fun c' hc' => by simpa [Site.on] using hl c' hc'
        rw [hws, List.filter_append, hf pre fun c' hc' => hoff c' (List.mem_append_left _ hc'), List.filter_cons,
          hf post fun c' hc' => hoff c' (List.mem_append_right _ hc')]
        have : c.on (E T) = true := decide_eq_true hst
        simp [this]
      rw [hn, hadd]
      show (((((V T 0 : ℤ) + d c T) % 2 ^ w).toNat : ℕ) : ℤ) % 2 ^ w = _
      have hp : (0 : ℤ) < 2 ^ w := Int.pow_pos (by decide)
      rw [Int.toNat_of_nonneg (Int.emod_nonneg _ (by omega)), Int.emod_emod_of_dvd _ (Int.dvd_refl _), Int.add_emod]
    · have hz : added ws E d T = 0 := by
        unfold added
        rw [List.filter_eq_nil_iff.2 fun c' hc' => by simpa [Site.on] using fun h => hon ⟨c', hc', h⟩]
        rfl
      rw [hV T (hr T (by omega)), step_none fun c hcm h => hon ⟨c, hcm, h⟩, hz]
      simp

end

/-! ## Without a mutex -/

/-- **C86, unprotected updates.** If two threads add to a register at the same edge, what the thread whose call was added first adds is lost. -/
theorem c86_not_unlocked {w : ℕ} {pre mid post : List Site} {c d : Site} (hws : ws = pre ++ c :: mid ++ d :: post)
    (_hc : env (.state c.th) = c.st) (hd : env (.state d.th) = d.st) {x₁ x₂ : ℤ} (_hcv : c.part = .whole ∧ c.val env s = s 0 + x₁)
    (hdv : d.part = .whole ∧ d.val env s = s 0 + x₂) (hpost : ∀ b ∈ post, env (.state b.th) ≠ b.st) :
    (step ⟨w, none⟩ ws env s 0 : ℤ) = (s 0 + x₂) % 2 ^ w := by
  subst hws
  unfold step
  rw [List.foldl_append, List.foldl_cons, foldl_none hpost]
  unfold Site.exec
  rw [if_pos (on_of hd), hdv.1, hdv.2]
  show (((((s 0 : ℤ) + x₂) % 2 ^ w).toNat : ℕ) : ℤ) = _
  have hp : (0 : ℤ) < 2 ^ w := Int.pow_pos (by decide)
  rw [Int.toNat_of_nonneg (Int.emod_nonneg _ (by omega))]

/-! ## Examples

Threads `a` and `b` do `lock()`, `x = count.value`, `count.write(x + 1)` or `count.write(x + 2)`, `unlock()`, for ever. -/

namespace Ex86

def inc (d : ℤ) : Ex := fun _ s => s 0 + d

/-- The calls of thread `n`: what is left of the mutex, the FSM and the shared variable. -/
def prog (n : String) (d : ℤ) (m : MutexSt) (ws : List Site) : Option (MutexSt × List Site × FsmSt × FsmSt × FsmSt × FsmSt) :=
  (m.lock (FsmSt.fresh n 4)).bind fun p =>
  (write ws p.2 .whole (inc d)).bind fun q =>
  (p.1.unlock q.2).map fun r => (r.1, q.1, p.2, q.2, r.2, r.2.goto 0 none none)

def m0 : MutexSt := MutexSt.fresh "m" 4
def f0 : FsmSt := FsmSt.fresh "a" 4
def pa := (prog "a" 1 m0 []).getD (m0, [], f0, f0, f0, f0)
def pb := (prog "b" 2 pa.1 pa.2.1).getD (m0, [], f0, f0, f0, f0)

def ma1 : MutexSt := ((m0.lock (FsmSt.fresh "a" 4)).getD (m0, f0)).1
def mb1 : MutexSt := ((pa.1.lock (FsmSt.fresh "b" 4)).getD (m0, f0)).1

def calls : List Site := [⟨"a", 2, .whole, inc 1⟩, ⟨"b", 2, .whole, inc 2⟩]

theorem calls_eq : pb.2.1 = calls := rfl

def sys : Sys :=
  ⟨pb.1, Function.update (Function.update (Function.update (Function.update (Function.update (Function.update (Function.update
    (Function.update (fun n => FsmSt.fresh n 4) "a" pa.2.2.1) "a" pa.2.2.2.1) "a" pa.2.2.2.2.1) "a" pa.2.2.2.2.2)
      "b" pb.2.2.1) "b" pb.2.2.2.1) "b" pb.2.2.2.2.1) "b" pb.2.2.2.2.2,
    [⟨.lock, "a", 0⟩, ⟨.unlock, "a", 3⟩, ⟨.lock, "b", 0⟩, ⟨.unlock, "b", 3⟩]⟩

theorem built : Built "m" 4 4 [] sys := by
  have h0 : Built "m" 4 4 [] ⟨m0, fun n => FsmSt.fresh n 4, []⟩ := .fresh
  have h1 := Built.lock "a" (m := ma1) (f := pa.2.2.1) h0 ⟨rfl, rfl, rfl⟩ rfl
  have h2 := Built.fsm "a" (.gotoNext none) (f := pa.2.2.2.1) h1 trivial (fun _ h _ => by simp at h) rfl
  have h3 := Built.unlock "a" (m := pa.1) (f := pa.2.2.2.2.1) h2 ⟨rfl, rfl, rfl⟩ rfl
  have h4 := Built.fsm "a" (.goto 0 none none) (f := pa.2.2.2.2.2) h3 trivial (fun _ h _ => by simp at h) rfl
  have h5 := Built.lock "b" (m := mb1) (f := pb.2.2.1) h4 ⟨rfl, rfl, rfl⟩ rfl
  have h6 := Built.fsm "b" (.gotoNext none) (f := pb.2.2.2.1) h5 trivial (fun _ h _ => by simp at h) rfl
  have h7 := Built.unlock "b" (m := pb.1) (f := pb.2.2.2.2.1) h6 ⟨rfl, rfl, rfl⟩ rfl
  exact Built.fsm "b" (.goto 0 none none) (f := pb.2.2.2.2.2) h7 trivial (fun _ h _ => by simp at h) rfl

theorem clean : sys.Clean := by
  intro c hc
  simp only [sys, List.mem_cons, List.not_mem_nil, or_false] at hc
  rcases hc with rfl | rfl | rfl | rfl <;> decide

def blocks : List Code :=
  [sys.mx.seq.always (some (.int 0)), (sys.th "a").always (.int 0) true, (sys.th "b").always (.int 0) false]

def ev : ℕ → Env := sim blocks (fun _ => 0) (fun _ _ => 0)

def cnt : ℕ → Store
  | 0 => fun _ => 0
  | t + 1 => step ⟨8, none⟩ calls (ev t) (cnt t)

theorem exec : sys.Exec (.int 0) (fun n => n == "a") ev := by
  have hd : Disjoint' blocks := by decide
  refine ⟨sim_run hd _ _ (by simp [blocks]), ?_⟩
  intro c hc
  simp only [sys, List.mem_cons, List.not_mem_nil, or_false] at hc
  rcases hc with rfl | rfl | rfl | rfl <;> exact sim_run hd _ _ (by simp [blocks])

theorem at_a : ∀ t, t < 8 → ev t (.state "a") = 2 → t = 6 := by decide +kernel
theorem at_b : ∀ t, t < 8 → ev t (.state "b") = 2 → t = 2 := by decide +kernel

theorem holds_b : sys.Holds (.int 0) ev "b" 2 := by
  refine ⟨1, by decide, ⟨⟨.lock, "b", 0⟩, by simp [sys], rfl, by decide +kernel, by decide +kernel⟩, fun _ _ _ => rfl, ?_⟩
  rintro u h1 h2 ⟨c, hc, hk, hn, hst⟩
  obtain rfl : u = 1 := by omega
  have h3 : ev 1 (.state "b") = 1 := by decide +kernel
  rw [h3] at hst
  simp only [sys, List.mem_cons, List.not_mem_nil, or_false] at hc
  rcases hc with rfl | rfl | rfl | rfl <;> simp at hk hn hst

theorem holds_a : sys.Holds (.int 0) ev "a" 6 := by
  refine ⟨5, by decide, ⟨⟨.lock, "a", 0⟩, by simp [sys], rfl, by decide +kernel, by decide +kernel⟩, fun _ _ _ => rfl, ?_⟩
  rintro u h1 h2 ⟨c, hc, hk, hn, hst⟩
  obtain rfl : u = 5 := by omega
  have h3 : ev 5 (.state "a") = 1 := by decide +kernel
  rw [h3] at hst
  simp only [sys, List.mem_cons, List.not_mem_nil, or_false] at hc
  rcases hc with rfl | rfl | rfl | rfl <;> simp at hk hn hst

theorem lk : ∀ u, u < 8 → ∀ m, Writing calls ev m u → sys.Holds (.int 0) ev m u := by
  rintro u hu m ⟨c, hc, rfl, hst⟩
  simp only [calls, List.mem_cons, List.not_mem_nil, or_false] at hc
  rcases hc with rfl | rfl
  · rw [at_a u hu hst]; exact holds_a
  · rw [at_b u hu hst]; exact holds_b

/-- What the call adds. -/
def d (c : Site) (_ : ℕ) : ℤ := if c.th = "a" then 1 else 2

/-- After both critical sections the counter is 3. -/
example : (cnt 8 0 : ℤ) % 2 ^ 8 = (cnt 0 0 + ((List.range 8).map fun t => added calls ev d t).sum) % 2 ^ 8 ∧
    ((List.range 8).map fun t => added calls ev d t).sum = 3 := by
  refine ⟨c86_count built clean exec (V := cnt) (fun t _ => rfl) ?_ (fun _ _ => rfl) lk d ?_, by decide +kernel⟩
  · unfold Apart calls
    simp
  · intro t ht c hc hst
    have hh := lk t ht c.th ⟨c, hc, rfl, hst⟩
    simp only [calls, List.mem_cons, List.not_mem_nil, or_false] at hc
    rcases hc with rfl | rfl <;> exact ⟨rfl, t, Nat.le_refl _, fun u h1 h2 => by
      obtain rfl : u = t := by omega
      exact hh, fun u h1 h2 => absurd h1 (by omega), rfl⟩

/-- At edge 3 thread `b` still has the mutex, and the counter stays. -/
example : cnt 4 = cnt 3 := by
  refine c86_atomic built clean exec (V := cnt) (ws := calls) (k := ⟨8, none⟩) (n := "b") (fun t _ => rfl) (by omega)
    (fun u h1 h2 => lk u (by omega)) fun u h1 h2 => ?_
  obtain rfl : u = 3 := by omega
  refine ⟨?_, rfl, ?_⟩
  · refine ⟨1, by decide, ⟨⟨.lock, "b", 0⟩, by simp [sys], rfl, by decide +kernel, by decide +kernel⟩, fun _ _ _ => rfl, ?_⟩
    rintro u h1 h2 ⟨c, hc, hk, hn, hst⟩
    have h3 : ∀ u, u < 3 → ev u (.state "b") ≠ 3 := by decide +kernel
    simp only [sys, List.mem_cons, List.not_mem_nil, or_false] at hc
    rcases hc with rfl | rfl | rfl | rfl <;> simp at hk hn
    exact h3 u h2 hst
  · rintro ⟨c, hc, hn, hst⟩
    simp only [calls, List.mem_cons, List.not_mem_nil, or_false] at hc
    rcases hc with rfl | rfl
    · exact absurd hn (by decide)
    · exact absurd (at_b 3 (by omega) hst) (by decide)

/-- The FSM of thread `a` goes from 2 to 3 with the write at edge 6. -/
example : ev 7 (.state "a") = 3 := by
  have hw : write [] pa.2.2.1 .whole (inc 1) = some ([⟨"a", 2, .whole, inc 1⟩], pa.2.2.2.1) := rfl
  exact (c86_next (n := "a") (fw := 4) (ops := [.gotoNext none, .goto 0 none none]) (g := sys.th "a") hw rfl rfl (built.inv.reach "a")
    (by decide) (by decide) (exec.thread ⟨.lock, "a", 0⟩ (by simp [sys])) 6 rfl (by decide +kernel)).1

/-- The write of `a` at edge 6 adds 1 to what the counter is then. -/
example (j : ℕ) (hj : j < 8) : (cnt 7 0).testBit j = intBit (cnt 6 0 + 1) j :=
  (c86_section (k := ⟨8, none⟩) (e := 0) (j := j) built clean exec (V := cnt) (ws := calls) (g := fun s => s 0 + 1) (fun t _ => rfl) (by unfold Apart calls; simp)
    (fun _ _ => rfl) (fun u hu => lk u (by omega)) (c := ⟨"a", 2, .whole, inc 1⟩) (by simp [calls]) (by decide +kernel)
    ⟨6, Nat.le_refl _, fun u h1 h2 => by
      obtain rfl : u = 6 := by omega
      exact holds_a, fun u h1 h2 => absurd h1 (by omega), rfl⟩ hj).1 rfl

example : (step ⟨8, none⟩ calls (ev 6) (cnt 6) 0).testBit 1 = intBit (cnt 6 0 + 1) 1 :=
  c86_write (k := ⟨8, none⟩) (env := ev 6) (s := cnt 6) (e := 0) (ws := calls) (pre := []) (post := [⟨"b", 2, .whole, inc 2⟩]) rfl (c := ⟨"a", 2, .whole, inc 1⟩)
    ⟨by decide +kernel, rfl⟩ (by decide) fun d hd => by
      simp only [List.mem_singleton] at hd
      subst hd
      exact fun h => absurd (at_b 6 (by omega) h.1) (by decide)

/-- Element 3 of an array of 8 words of 4 bits is written whole by `a` and bit 2 of it by `b`, at the same edge. -/
example : ((List.range 4).map fun j => (step ⟨4, some 8⟩
      [⟨"a", 2, .one fun _ _ => 3, fun _ _ => -1⟩, ⟨"b", 2, .two (fun _ _ => 3) (fun _ _ => 2), fun _ _ => 6⟩]
      (fun _ => 2) (fun _ => 0) 3).testBit j) = [true, true, false, true] := by decide +kernel

/-- The bit written by `b`, and one not in the array. -/
example : Part.Has ⟨4, some 8⟩ (fun _ => 2) (fun _ => 0) (.two (fun _ _ => 3) (fun _ _ => 2)) 3 2 ∧
    ¬ Part.Has ⟨4, some 8⟩ (fun _ => 2) (fun _ => 0) (.two (fun _ _ => 8) (fun _ _ => 2)) 8 2 := by
  simp [Part.Has]

/-- Two threads add 1 at the same edge: the counter goes from 5 to 6. -/
example : (step ⟨8, none⟩ [⟨"a", 2, .whole, inc 1⟩, ⟨"b", 2, .whole, inc 1⟩] (fun _ => 2) (fun _ => 5) 0 : ℤ) = (5 + 1) % 2 ^ 8 :=
  c86_not_unlocked (env := fun _ => 2) (s := fun _ => 5) (pre := []) (mid := []) (post := []) rfl rfl rfl (x₁ := 1) (x₂ := 1)
    ⟨rfl, rfl⟩ ⟨rfl, rfl⟩ (by simp)

end Ex86

end Shr
