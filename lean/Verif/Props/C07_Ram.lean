import Verif.Model.Ram
import Mathlib.Data.List.Nodup
import Mathlib.Data.List.Perm.Basic

/-!
# C07: the generated RAM behaves as an array
-/

namespace Ram
variable {α : Type}

/-- One cycle of the history: what the ports do, and the order in which the simulator lets the
writes take effect. -/
structure Cycle (α : Type) where
  ops : List (PortOp α)
  sched : List (Nat × α)

def run (aw : Nat) (we : Bool) (s : State α) (h : List (Cycle α)) : State α :=
  h.foldl (fun s c => step aw we s c.ops c.sched) s

/-- Port `p` writes word `w` to address `a`. -/
def WritesTo (aw : Nat) (we : Bool) (p : PortOp α) (a : Nat) (w : α) : Prop :=
  (we = true → p.enable = true) ∧ p.wenable = true ∧ p.addr % 2 ^ aw = a ∧ p.wdata = w

/-- Specification of the memory after a history: `Content m0 h a v` means that `v` is what address
`a` may hold - the word written by some port in the latest cycle that wrote `a`, or the initial
word if no cycle did. -/
inductive Content (aw : Nat) (we : Bool) (m0 : Nat → α) : List (Cycle α) → Nat → α → Prop
  | init (a) : Content aw we m0 [] a (m0 a)
  | keep (h c a v) : Content aw we m0 h a v → (∀ p ∈ c.ops, ∀ w, ¬ WritesTo aw we p a w) →
      Content aw we m0 (h ++ [c]) a v
  | write (h c a p w) : p ∈ c.ops → WritesTo aw we p a w → Content aw we m0 (h ++ [c]) a w

theorem mem_writes (aw : Nat) (we : Bool) (ops : List (PortOp α)) (a : Nat) (w : α) :
    (a, w) ∈ writes aw we ops ↔ ∃ p ∈ ops, WritesTo aw we p a w := by
  simp only [writes, List.mem_map, List.mem_filter, WritesTo, PortOp.active, PortOp.index,
    Prod.mk.injEq, Bool.and_eq_true, Bool.or_eq_true, Bool.not_eq_true']
  constructor
  · rintro ⟨p, ⟨hp, ha, hw⟩, h1, h2⟩
    refine ⟨p, hp, ?_, hw, h1, h2⟩
    intro h; rcases ha with ha | ha
    · rw [h] at ha; cases ha
    · exact ha
  · rintro ⟨p, hp, ha, hw, h1, h2⟩
    refine ⟨p, ⟨hp, ?_, hw⟩, h1, h2⟩
    cases we
    · exact Or.inl rfl
    · exact Or.inr (ha rfl)

theorem commit_cases (mem : Nat → α) (ws : List (Nat × α)) (a : Nat) :
    (a, commit mem ws a) ∈ ws ∨ ((∀ w, (a, w) ∉ ws) ∧ commit mem ws a = mem a) := by
  induction ws generalizing mem with
  | nil => right; simp [commit]
  | cons w ws ih =>
    obtain ⟨x, y⟩ := w
    rcases ih (fun b => if b = x then y else mem b) with h | ⟨h1, h2⟩
    · left; exact List.mem_cons_of_mem _ h
    · by_cases hx : a = x
      · left
        simp only [hx, if_true] at h2
        have : commit mem ((x, y) :: ws) a = y := by
          rw [hx]; exact h2
        rw [this, hx]; exact List.mem_cons_self ..
      · right
        simp only [hx, if_false] at h2
        refine ⟨?_, h2⟩
        intro w hw
        rcases List.mem_cons.mp hw with hw | hw
        · injection hw with h3 _; exact hx h3
        · exact h1 w hw

/-- **C07 (memory).** For any number of ports, width, enable option and history, and whatever order
the simulator gives the writes of different ports, every address holds a word the specification
allows. -/
theorem c07_ram_content (aw : Nat) (we : Bool) (s0 : State α) (h : List (Cycle α))
    (hs : ∀ c ∈ h, c.sched.Perm (writes aw we c.ops)) (a : Nat) :
    Content aw we s0.mem h a ((run aw we s0 h).mem a) := by
  obtain ⟨rh, rfl⟩ : ∃ rh : List (Cycle α), h = rh.reverse := ⟨h.reverse, by simp⟩
  induction rh with
  | nil => exact Content.init a
  | cons c rh ih =>
    have ih' := ih (fun d hd => hs d (by simp at hd ⊢; exact Or.inl hd))
    have hp := hs c (by simp)
    have e : (run aw we s0 (c :: rh).reverse).mem a =
        commit (run aw we s0 rh.reverse).mem c.sched a := by
      simp [run, step]
    rw [e, List.reverse_cons]
    rcases commit_cases (run aw we s0 rh.reverse).mem c.sched a with h1 | ⟨h1, h2⟩
    · obtain ⟨p, hpm, hw⟩ := (mem_writes aw we c.ops a _).mp (hp.mem_iff.mp h1)
      exact Content.write _ c a p _ hpm hw
    · rw [h2]
      refine Content.keep _ c a _ ih' ?_
      intro p hpm w hw
      exact h1 w (hp.mem_iff.mpr ((mem_writes aw we c.ops a w).mpr ⟨p, hpm, hw⟩))

/-- **C07 (determinism).** When no cycle has two ports writing different words to the same address,
the content of the specification is unique, so the memory is exactly "last word written". -/
theorem c07_ram_content_unique (aw : Nat) (we : Bool) (m0 : Nat → α) (h : List (Cycle α))
    (hc : ∀ c ∈ h, ∀ p ∈ c.ops, ∀ q ∈ c.ops, ∀ a v w,
      WritesTo aw we p a v → WritesTo aw we q a w → v = w)
    (a : Nat) (v w : α) (h1 : Content aw we m0 h a v) (h2 : Content aw we m0 h a w) : v = w := by
  induction h1 generalizing w with
  | init a =>
    generalize hh : ([] : List (Cycle α)) = h0 at h2
    cases h2 with
    | init => rfl
    | keep h c a v _ _ => simp at hh
    | write h c a p w _ _ => simp at hh
  | keep h c a v hcon hno ih =>
    generalize hh : h ++ [c] = h0 at h2
    cases h2 with
    | init => simp at hh
    | keep h' c' a' v' hcon' hno' =>
      obtain ⟨rfl, hcc⟩ := List.append_inj' hh rfl
      exact ih (fun d hd => hc d (by simp [hd])) w hcon'
    | write h' c' a' p w hp hw =>
      obtain ⟨rfl, hcc⟩ := List.append_inj' hh rfl
      simp at hcc; subst hcc
      exact absurd hw (hno p hp w)
  | write h c a p x hp hx =>
    generalize hh : h ++ [c] = h0 at h2
    cases h2 with
    | init => simp at hh
    | keep h' c' a' v' hcon' hno' =>
      obtain ⟨rfl, hcc⟩ := List.append_inj' hh rfl
      simp at hcc; subst hcc
      exact absurd hx (hno' p hp x)
    | write h' c' a' q w hq hw =>
      obtain ⟨rfl, hcc⟩ := List.append_inj' hh rfl
      simp at hcc; subst hcc
      exact hc c (by simp) p hp q hq a x w hx hw

/-- **C07 (read ports).** After a cycle, the read register of a port holds: the word the port itself
wrote; else the word its address had before the cycle (so a read never sees another port's write of
the same cycle); else, if not enabled, what it held before. -/
theorem c07_ram_read (aw : Nat) (we : Bool) (s : State α) (c : Cycle α) (k : Nat) (p : PortOp α)
    (r : α) (hp : c.ops[k]? = some p) (hr : s.rdata[k]? = some r) :
    (step aw we s c.ops c.sched).rdata[k]? =
      some (if we = true ∧ p.enable = false then r
            else if p.wenable = true then p.wdata else s.mem (p.addr % 2 ^ aw)) := by
  simp only [step, List.getElem?_zipWith, hp, hr, nextRdata, PortOp.active, PortOp.index]
  cases we <;> by_cases h : p.enable = true <;> simp [h]

/-- **C07 (asynchronous ports).** With `sync=False` the port shows the addressed word at once. -/
theorem c07_ram_async (aw : Nat) (we : Bool) (s0 : State α) (h : List (Cycle α))
    (hs : ∀ c ∈ h, c.sched.Perm (writes aw we c.ops)) (p : PortOp α) :
    Content aw we s0.mem h (p.addr % 2 ^ aw) (asyncRdata aw (run aw we s0 h) p) :=
  c07_ram_content aw we s0 h hs _

/-- **C07 (initial content).** A RAM built with `initvals` starts with these words, zero-extended to
the whole depth. -/
theorem c07_ram_init (z : α) (iv : List α) (a : Nat) :
    (∀ v, iv[a]? = some v → initMem z iv a = v) ∧ (iv.length ≤ a → initMem z iv a = z) := by
  constructor
  · intro v h; simp [initMem, List.getD, h]
  · intro h; simp [initMem, List.getD, List.getElem?_eq_none h]

/-- Non-vacuity: two ports; port 0 writes 7 to address 1 while port 1 reads it, then port 1 reads
again. -/
example :
    let s0 : State Nat := ⟨initMem 0 [5, 6], [0, 0]⟩
    let h : List (Cycle Nat) := [⟨[⟨true, true, 1, 7⟩, ⟨true, false, 1, 0⟩], [(1, 7)]⟩,
      ⟨[⟨false, true, 1, 9⟩, ⟨true, false, 1, 0⟩], []⟩]
    (run 2 true s0 h).rdata = [7, 7] ∧ (run 2 true s0 (h.take 1)).rdata = [7, 6] ∧
    (run 2 true s0 h).mem 1 = 7 ∧ ∀ c ∈ h, c.sched = writes 2 true c.ops := by decide

end Ram
