import Verif.Lemmas.ThreadSem
import Verif.Lemmas.FsmInv

/-!
# The thread compiler produces a layout of the program
-/

namespace Thr
open Hdl

/-- A loop occurs in the statement list itself (not inside another statement, not after a jump). -/
def Prog.hasLoop : Prog → Bool
  | .nil => false
  | .pass rest => rest.hasLoop
  | .assign _ rest => rest.hasLoop
  | .ifte _ _ _ rest => rest.hasLoop
  | .while_ .. => true
  | .loopr .. => true
  | .brk _ => false
  | .cont _ => false
  | .ret _ _ => false
  | .call _ _ _ rest => rest.hasLoop

/-- Programs for which the compiler is right: no call in the test of a `while`; no loop in a statement list after an
    `if` that holds a `break` or `continue` of an enclosing loop; no `break` or `continue` leaves a function. -/
def Prog.good : Prog → Bool
  | .nil => true
  | .pass rest => rest.good
  | .assign _ rest => rest.good
  | .ifte _ p q rest => p.good && q.good && rest.good && (!(p.esc || q.esc) || !rest.hasLoop)
  | .while_ pre _ p rest => pre.isNil && p.good && rest.good
  | .loopr _ _ _ p rest => p.good && rest.good
  | .brk _ => true
  | .cont _ => true
  | .ret _ _ => true
  | .call _ _ body rest => body.good && !body.esc && rest.good

/-! ## Effect of the operations of the visitor -/

def CS.code (s : CS) (i : ℕ) : List Code := s.fsm.at' 0 i
def CS.jl (s : CS) (i : ℕ) : List Jump := Thr.jl s.fsm i

/-- What is constant in the FSM of a thread: its name and width; nothing is delayed or pending, there is no parallel
    code. -/
structure Pl (nm : String) (w : ℕ) (s : CS) : Prop where
  name : s.fsm.name = nm
  width : s.fsm.width = w
  next : s.fsm.next = {}
  delay : s.fsm.delayAmount = 0
  seq : s.fsm.seq = (FsmSt.fresh nm w).seq

theorem push_eq (f : FsmSt) (i : ℕ) (it : Item) :
    ∃ l, f.push 0 i it = { f with code := f.code ++ [((0, i), it)], dstVar := l } := by
  obtain ⟨extra, h1, -⟩ := FsmSt.addDst_eq
    { f with code := f.code ++ [((0, i), it)], delayAmount := max f.delayAmount 0 } it.code.targets
  refine ⟨f.dstVar ++ extra, ?_⟩
  unfold FsmSt.push
  rw [h1]
  simp

theorem bind_eq (s : CS) (r : Reg) (e : Expr) : ∃ l, s.bind r e =
    ⟨{ s.fsm with code := s.fsm.code ++ [((0, s.fsm.cur), .plain (.subst r e))], dstVar := l }, s.frame⟩ := by
  obtain ⟨l, hl⟩ := push_eq s.fsm s.fsm.cur (.plain (.subst r e))
  exact ⟨l, congrArg (CS.mk · s.frame) hl⟩

section ops
variable (s : CS) {name : String} {w : ℕ}

@[simp] theorem bind_frame (r e) : (s.bind r e).frame = s.frame := rfl
@[simp] theorem bind_cur (r e) : (s.bind r e).cur = s.cur := by
  obtain ⟨l, h⟩ := bind_eq s r e; rw [h]; rfl
@[simp] theorem bind_jl (r e i) : (s.bind r e).jl i = s.jl i := by
  obtain ⟨l, h⟩ := bind_eq s r e; rw [h]; rfl
theorem bind_code (r e i) :
    (s.bind r e).code i = s.code i ++ if s.cur = i then [.subst r e] else [] := by
  obtain ⟨l, h⟩ := bind_eq s r e; rw [h]
  simp only [CS.code, FsmSt.at', List.filterMap_append, CS.cur]
  congr 1
  by_cases hi : s.fsm.cur = i
  · simp [hi, Item.code]
  · simp [hi]
theorem Pl.bind {s : CS} (h : Pl name w s) (r e) : Pl name w (s.bind r e) := by
  obtain ⟨l, hl⟩ := bind_eq s r e; rw [hl]; exact ⟨h.1, h.2, h.3, h.4, h.5⟩

@[simp] theorem binds_frame (bs) : (s.binds bs).frame = s.frame := by
  induction bs generalizing s with
  | nil => rfl
  | cons b bs ih => exact (ih _).trans rfl
@[simp] theorem binds_cur (bs) : (s.binds bs).cur = s.cur := by
  induction bs generalizing s with
  | nil => rfl
  | cons b bs ih => exact (ih _).trans (bind_cur ..)
@[simp] theorem binds_jl (bs i) : (s.binds bs).jl i = s.jl i := by
  induction bs generalizing s with
  | nil => rfl
  | cons b bs ih => exact (ih _).trans (bind_jl ..)
theorem binds_code (bs i) :
    (s.binds bs).code i = s.code i ++ if s.cur = i then bs.map (fun b => .subst b.1 b.2) else [] := by
  induction bs generalizing s with
  | nil => simp [CS.binds]
  | cons b bs ih =>
    have : s.binds (b :: bs) = (s.bind b.1 b.2).binds bs := rfl
    rw [this, ih, bind_code, bind_cur]
    by_cases hi : s.cur = i <;> simp [hi]
theorem Pl.binds {s : CS} (h : Pl name w s) (bs) : Pl name w (s.binds bs) := by
  induction bs generalizing s with
  | nil => exact h
  | cons b bs ih => exact ih (h.bind _ _)

@[simp] theorem jump_frame (a b c e) : (s.jump a b c e).frame = s.frame := rfl
@[simp] theorem jump_cur (a b c e) : (s.jump a b c e).cur = s.cur := rfl
@[simp] theorem jump_code (a b c e i) : (s.jump a b c e).code i = s.code i := rfl
theorem jump_jl {s : CS} (h : Pl name w s) (a b c e i) :
    (s.jump a b c e).jl i = s.jl i ++ if a = i then [⟨b, c, e⟩] else [] := by
  simp only [CS.jl, Thr.jl, CS.jump, FsmSt.gotoFrom, FsmSt.goto, List.filterMap_append, h.next, Option.getD_some]
  congr 1
  by_cases hi : a = i <;> cases c <;> simp [hi]
theorem Pl.jump {s : CS} (h : Pl name w s) (a b c e) : Pl name w (s.jump a b c e) :=
  ⟨h.1, h.2, rfl, h.4, h.5⟩

@[simp] theorem inc_frame : s.inc.frame = s.frame := rfl
@[simp] theorem inc_cur : s.inc.cur = s.cur + 1 := rfl
@[simp] theorem inc_code (i) : s.inc.code i = s.code i := rfl
@[simp] theorem inc_jl (i) : s.inc.jl i = s.jl i := rfl
theorem Pl.inc {s : CS} (h : Pl name w s) : Pl name w s.inc := ⟨h.1, h.2, rfl, h.4, h.5⟩

@[simp] theorem resolve_frame (l d) : (s.resolve l d).frame = s.frame := by
  induction l generalizing s with
  | nil => rfl
  | cons b bs ih => exact (ih _).trans rfl
@[simp] theorem resolve_cur (l d) : (s.resolve l d).cur = s.cur := by
  induction l generalizing s with
  | nil => rfl
  | cons b bs ih => exact (ih _).trans rfl
@[simp] theorem resolve_code (l d i) : (s.resolve l d).code i = s.code i := by
  induction l generalizing s with
  | nil => rfl
  | cons b bs ih => exact (ih _).trans rfl
theorem resolve_jl {s : CS} (h : Pl name w s) (l : List ℕ) (d i) :
    (s.resolve l d).jl i = s.jl i ++ List.replicate (l.count i) ⟨d, none, none⟩ := by
  induction l generalizing s with
  | nil => simp [CS.resolve]
  | cons b bs ih =>
    have : s.resolve (b :: bs) d = (s.jump b d none none).resolve bs d := rfl
    rw [this, ih (h.jump _ _ _ _), jump_jl h]
    by_cases hi : b = i
    · simp [hi, List.replicate_succ]
    · rw [List.count_cons_of_ne hi]; simp [hi]
theorem Pl.resolve {s : CS} (h : Pl name w s) (l d) : Pl name w (s.resolve l d) := by
  induction l generalizing s with
  | nil => exact h
  | cons b bs ih => exact ih (h.jump _ _ _ _)

/-- The frame is book-keeping only. -/
def CS.withFrame (f : Frame) : CS := { s with frame := f }
@[simp] theorem withFrame_frame (f) : (s.withFrame f).frame = f := rfl
@[simp] theorem withFrame_cur (f) : (s.withFrame f).cur = s.cur := rfl
@[simp] theorem withFrame_code (f i) : (s.withFrame f).code i = s.code i := rfl
@[simp] theorem withFrame_jl (f i) : (s.withFrame f).jl i = s.jl i := rfl
theorem Pl.withFrame {s : CS} (h : Pl name w s) (f) : Pl name w (s.withFrame f) := ⟨h.1, h.2, h.3, h.4, h.5⟩

end ops

/-! ## Invariants -/

/-- Nothing exists yet at or after the current state. -/
structure Fresh (s : CS) : Prop where
  code : ∀ i, s.cur ≤ i → s.code i = []
  jl : ∀ i, s.cur ≤ i → s.jl i = []
  brk : ∀ i ∈ s.frame.allBrk, i < s.cur
  cont : ∀ i ∈ s.frame.allCont, i < s.cur
  ret : ∀ i ∈ s.frame.allRet, i < s.cur

/-- Relation of the visitor states before and after a part of the program. -/
structure Res (s s' : CS) : Prop where
  le : s.cur ≤ s'.cur
  code : ∀ i < s.cur, s'.code i = s.code i
  jl : ∀ i < s.cur, s'.jl i = s.jl i
  brk : ∀ i < s.cur, i ∈ s'.frame.allBrk ↔ i ∈ s.frame.allBrk
  cont : ∀ i < s.cur, i ∈ s'.frame.allCont ↔ i ∈ s.frame.allCont
  ret : ∀ i < s.cur, i ∈ s'.frame.allRet ↔ i ∈ s.frame.allRet
  un : ∀ i, s.cur ≤ i → i ∈ s'.frame.allBrk ∨ i ∈ s'.frame.allCont ∨ i ∈ s'.frame.allRet → s'.jl i = []
  bc : ∀ i, s.cur ≤ i → i ∈ s'.frame.allBrk → i ∉ s'.frame.allCont
  br : ∀ i, s.cur ≤ i → i ∈ s'.frame.allBrk → i ∉ s'.frame.allRet
  cr : ∀ i, s.cur ≤ i → i ∈ s'.frame.allCont → i ∉ s'.frame.allRet

/-- The states of `[s.cur, s'.cur)` in the final FSM `T`: as in `s'`, with the unresolved jumps resolved. -/
structure Ext (s s' : CS) (T : FsmSt) (β γ ρ : ℕ) : Prop where
  code : ∀ i, s.cur ≤ i → i < s'.cur → T.at' 0 i = s'.code i
  brk : ∀ i, s.cur ≤ i → i < s'.cur → i ∈ s'.frame.allBrk → JumpsTo (Thr.jl T i) β
  cont : ∀ i, s.cur ≤ i → i < s'.cur → i ∈ s'.frame.allCont → JumpsTo (Thr.jl T i) γ
  ret : ∀ i, s.cur ≤ i → i < s'.cur → i ∈ s'.frame.allRet → JumpsTo (Thr.jl T i) ρ
  jl : ∀ i, s.cur ≤ i → i < s'.cur → i ∉ s'.frame.allBrk → i ∉ s'.frame.allCont → i ∉ s'.frame.allRet →
    Thr.jl T i = s'.jl i

theorem Res.refl (s : CS) (h : Fresh s) : Res s s :=
  ⟨Nat.le_refl _, fun _ _ => rfl, fun _ _ => rfl, fun _ _ => Iff.rfl, fun _ _ => Iff.rfl, fun _ _ => Iff.rfl,
   fun i hi _ => h.jl i hi,
   fun i hi hb => absurd (h.brk i hb) (by omega), fun i hi hb => absurd (h.brk i hb) (by omega),
   fun i hi hb => absurd (h.cont i hb) (by omega)⟩

theorem Res.trans {a b c : CS} (h : Res a b) (k : Res b c) : Res a c := by
  have hle := h.le
  have kle := k.le
  refine ⟨by omega, fun i hi => (k.code i (by omega)).trans (h.code i hi),
    fun i hi => (k.jl i (by omega)).trans (h.jl i hi), fun i hi => (k.brk i (by omega)).trans (h.brk i hi),
    fun i hi => (k.cont i (by omega)).trans (h.cont i hi), fun i hi => (k.ret i (by omega)).trans (h.ret i hi),
    ?_, ?_, ?_, ?_⟩
  · intro i hi hu
    rcases Nat.lt_or_ge i b.cur with hb | hb
    · rw [k.brk i hb, k.cont i hb, k.ret i hb] at hu
      rw [k.jl i hb]
      exact h.un i hi hu
    · exact k.un i hb hu
  · intro i hi
    rcases Nat.lt_or_ge i b.cur with hb | hb
    · rw [k.brk i hb, k.cont i hb]; exact h.bc i hi
    · exact k.bc i hb
  · intro i hi
    rcases Nat.lt_or_ge i b.cur with hb | hb
    · rw [k.brk i hb, k.ret i hb]; exact h.br i hi
    · exact k.br i hb
  · intro i hi
    rcases Nat.lt_or_ge i b.cur with hb | hb
    · rw [k.cont i hb, k.ret i hb]; exact h.cr i hi
    · exact k.cr i hb

theorem Ext.left {a b c : CS} {T : FsmSt} {β γ ρ : ℕ} (h : Ext a c T β γ ρ) (k : Res b c) : Ext a b T β γ ρ := by
  have kle := k.le
  refine ⟨fun i h1 h2 => (h.code i h1 (by omega)).trans (k.code i h2),
    fun i h1 h2 hm => h.brk i h1 (by omega) ((k.brk i h2).2 hm),
    fun i h1 h2 hm => h.cont i h1 (by omega) ((k.cont i h2).2 hm),
    fun i h1 h2 hm => h.ret i h1 (by omega) ((k.ret i h2).2 hm), fun i h1 h2 hb hc hr => ?_⟩
  rw [h.jl i h1 (by omega) (by rwa [k.brk i h2]) (by rwa [k.cont i h2]) (by rwa [k.ret i h2]), k.jl i h2]

theorem Ext.right {a b c : CS} {T : FsmSt} {β γ ρ : ℕ} (h : Ext a c T β γ ρ) (k : a.cur ≤ b.cur) : Ext b c T β γ ρ :=
  ⟨fun i h1 => h.code i (by omega), fun i h1 => h.brk i (by omega), fun i h1 => h.cont i (by omega),
   fun i h1 => h.ret i (by omega), fun i h1 => h.jl i (by omega)⟩

/-- Conclusion about visiting `p`. -/
structure Done (name : String) (w : ℕ) (p : Prog) (rv : Reg) (s s' : CS) : Prop where
  pl : Pl name w s'
  fresh : Fresh s'
  res : Res s s'
  esc : p.esc = false → ∀ i, s.cur ≤ i → i ∉ s'.frame.allBrk ∧ i ∉ s'.frame.allCont
  lay : s.frame.skip = false → ∀ T β γ ρ, Ext s s' T β γ ρ → Lay T p rv s.cur s'.cur β γ ρ
  dead : s.frame.skip = true → s'.cur = s.cur + p.dead

/-- Under which condition `p` may be visited. -/
def Pre (p : Prog) (s : CS) : Prop :=
  s.frame.skip = true ∨ (p.good = true ∧ (p.hasLoop = true → s.frame.allBrk = [] ∧ s.frame.allCont = []))

/-- Conclusion about the first statement of a list: `P T β γ ρ` is the layout of the statement. -/
structure Stmt (name : String) (w : ℕ) (s s1 : CS) (P : FsmSt → ℕ → ℕ → ℕ → Prop) : Prop where
  pl : Pl name w s1
  fresh : Fresh s1
  res : Res s s1
  skip : s1.frame.skip = false
  lay : ∀ T β γ ρ, Ext s s1 T β γ ρ → P T β γ ρ

theorem Done.of_skip {name w rv} {p rest : Prog} {s s' : CS} (hs : s.frame.skip = true)
    (he : p.esc = false → rest.esc = false) (hd : p.dead = rest.dead) (h : Done name w rest rv s s') :
    Done name w p rv s s' :=
  ⟨h.pl, h.fresh, h.res, fun e => h.esc (he e), fun k => absurd hs (by simp [k]), fun k => hd ▸ h.dead k⟩

theorem Done.cons {name w rv} {p rest : Prog} {s s1 s' : CS} {P : FsmSt → ℕ → ℕ → ℕ → Prop}
    (h1 : Stmt name w s s1 P) (h2 : Done name w rest rv s1 s')
    (he : p.esc = false → rest.esc = false ∧ ∀ i, s.cur ≤ i → i ∉ s1.frame.allBrk ∧ i ∉ s1.frame.allCont)
    (hs : s.frame.skip = false) (hl : ∀ T β γ ρ, P T β γ ρ → Lay T rest rv s1.cur s'.cur β γ ρ → Lay T p rv s.cur s'.cur β γ ρ) :
    Done name w p rv s s' := by
  refine ⟨h2.pl, h2.fresh, h1.res.trans h2.res, ?_, ?_, fun k => absurd hs (by simp [k])⟩
  · intro hp i hi
    obtain ⟨hr, h⟩ := he hp
    rcases Nat.lt_or_ge i s1.cur with hb | hb
    · rw [h2.res.brk i hb, h2.res.cont i hb]; exact h i hi
    · exact h2.esc hr i hb
  · intro _ T β γ ρ hx
    exact hl T β γ ρ (h1.lay T β γ ρ (hx.left h2.res)) (h2.lay h1.skip T β γ ρ (hx.right h1.res.le))

/-! ## Statements -/

theorem JumpsTo.single (t : ℕ) : JumpsTo [⟨t, none, none⟩] t := by simp [JumpsTo]

theorem stmt_assign {name w} {s : CS} (hp : Pl name w s) (hf : Fresh s) (hs : s.frame.skip = false)
    (bs : List (Reg × Expr)) : Stmt name w s (s.binds bs).jumpNext.inc fun T _ _ _ =>
      Binds T s.cur bs ∧ JumpsTo (Thr.jl T s.cur) (s.cur + 1) := by
  have hb := hp.binds bs
  have hc : ∀ i, ((s.binds bs).jumpNext.inc).code i =
      s.code i ++ if s.cur = i then bs.map (fun b => .subst b.1 b.2) else [] := by
    intro i; simp [CS.jumpNext, binds_code]
  have hj : ∀ i, ((s.binds bs).jumpNext.inc).jl i =
      s.jl i ++ if s.cur = i then [⟨s.cur + 1, none, none⟩] else [] := by
    intro i; simp [CS.jumpNext, jump_jl hb]
  have hcur : ((s.binds bs).jumpNext.inc).cur = s.cur + 1 := by simp [CS.jumpNext]
  have hfr : ((s.binds bs).jumpNext.inc).frame = s.frame := by simp [CS.jumpNext]
  have hpl : Pl name w (s.binds bs).jumpNext.inc := (hb.jump _ _ _ _).inc
  generalize (s.binds bs).jumpNext.inc = s1 at *
  refine ⟨hpl, ⟨?_, ?_, ?_, ?_, ?_⟩, ⟨?_, ?_, ?_, ?_, ?_, ?_, ?_, ?_, ?_, ?_⟩, by rw [hfr, hs], ?_⟩
  · intro i hi; rw [hc, hf.code i (by omega), if_neg (by omega)]; rfl
  · intro i hi; rw [hj, hf.jl i (by omega), if_neg (by omega)]; rfl
  · intro i hi; rw [hfr] at hi; have := hf.brk i hi; omega
  · intro i hi; rw [hfr] at hi; have := hf.cont i hi; omega
  · intro i hi; rw [hfr] at hi; have := hf.ret i hi; omega
  · omega
  · intro i hi; rw [hc, if_neg (by omega), List.append_nil]
  · intro i hi; rw [hj, if_neg (by omega), List.append_nil]
  · intro i hi; rw [hfr]
  · intro i hi; rw [hfr]
  · intro i hi; rw [hfr]
  · intro i hi hu
    rw [hfr] at hu
    rcases hu with h | h | h
    · have := hf.brk i h; omega
    · have := hf.cont i h; omega
    · have := hf.ret i h; omega
  · intro i hi h; rw [hfr] at h; have := hf.brk i h; omega
  · intro i hi h; rw [hfr] at h; have := hf.brk i h; omega
  · intro i hi h; rw [hfr] at h; have := hf.cont i h; omega
  · intro T β γ ρ hx
    constructor
    · have := hx.code s.cur (Nat.le_refl _) (by omega)
      rw [hc, hf.code _ (Nat.le_refl _), if_pos rfl] at this
      exact this
    · rw [hx.jl s.cur (Nat.le_refl _) (by omega), hj, hf.jl _ (Nat.le_refl _), if_pos rfl]
      · exact JumpsTo.single _
      · rw [hfr]; intro h; have := hf.brk _ h; omega
      · rw [hfr]; intro h; have := hf.cont _ h; omega
      · rw [hfr]; intro h; have := hf.ret _ h; omega

/-! ### Sub-frames -/

theorem mem_pop_brk {f g : Frame} {i : ℕ} : i ∈ (f.pop g).allBrk ↔ i ∈ f.allBrk ∨ i ∈ g.allBrk := by
  simp [Frame.pop, Frame.allBrk, or_assoc]
theorem mem_pop_cont {f g : Frame} {i : ℕ} : i ∈ (f.pop g).allCont ↔ i ∈ f.allCont ∨ i ∈ g.allCont := by
  simp [Frame.pop, Frame.allCont, or_assoc]
theorem mem_pop_ret {f g : Frame} {i : ℕ} : i ∈ (f.pop g).allRet ↔ i ∈ f.allRet ∨ i ∈ g.allRet := by
  simp [Frame.pop, Frame.allRet, or_assoc]
theorem pop_skip (f g : Frame) : (f.pop g).skip = f.skip := rfl

theorem Res.ge {s s' : CS} (h : Res s s') (h0 : s.frame = {}) :
    (∀ i ∈ s'.frame.allBrk, s.cur ≤ i) ∧ (∀ i ∈ s'.frame.allCont, s.cur ≤ i) ∧ (∀ i ∈ s'.frame.allRet, s.cur ≤ i) := by
  refine ⟨fun i hi => ?_, fun i hi => ?_, fun i hi => ?_⟩ <;> by_contra hlt
  · exact absurd ((h.brk i (by omega)).1 hi) (by simp [Frame.allBrk, h0])
  · exact absurd ((h.cont i (by omega)).1 hi) (by simp [Frame.allCont, h0])
  · exact absurd ((h.ret i (by omega)).1 hi) (by simp [Frame.allRet, h0])

/-- Summary of visiting statements in a new frame from state `a` on. -/
structure Sub (name : String) (w a : ℕ) (s2 : CS) (f : Frame) : Prop where
  pl : Pl name w s2
  le : a ≤ s2.cur
  freshC : ∀ i, s2.cur ≤ i → s2.code i = []
  freshJ : ∀ i, s2.cur ≤ i → s2.jl i = []
  brk : ∀ i ∈ f.allBrk, a ≤ i ∧ i < s2.cur ∧ s2.jl i = [] ∧ i ∉ f.allCont ∧ i ∉ f.allRet
  cont : ∀ i ∈ f.allCont, a ≤ i ∧ i < s2.cur ∧ s2.jl i = [] ∧ i ∉ f.allRet
  ret : ∀ i ∈ f.allRet, a ≤ i ∧ i < s2.cur ∧ s2.jl i = []

theorem Done.sub {name w rv} {p : Prog} {s s2 : CS} (h : Done name w p rv s s2) (h0 : s.frame = {}) :
    Sub name w s.cur s2 s2.frame := by
  obtain ⟨g1, g2, g3⟩ := h.res.ge h0
  refine ⟨h.pl, h.res.le, h.fresh.code, h.fresh.jl, fun i hi => ?_, fun i hi => ?_, fun i hi => ?_⟩
  · exact ⟨g1 i hi, h.fresh.brk i hi, h.res.un i (g1 i hi) (.inl hi), h.res.bc i (g1 i hi) hi, h.res.br i (g1 i hi) hi⟩
  · exact ⟨g2 i hi, h.fresh.cont i hi, h.res.un i (g2 i hi) (.inr (.inl hi)), h.res.cr i (g2 i hi) hi⟩
  · exact ⟨g3 i hi, h.fresh.ret i hi, h.res.un i (g3 i hi) (.inr (.inr hi))⟩

theorem Fresh.inc {s : CS} (h : Fresh s) : Fresh s.inc := by
  refine ⟨fun i hi => h.code i ?_, fun i hi => h.jl i ?_, fun i hi => ?_, fun i hi => ?_, fun i hi => ?_⟩
  · simp at hi; omega
  · simp at hi; omega
  · have := h.brk i hi; simp; omega
  · have := h.cont i hi; simp; omega
  · have := h.ret i hi; simp; omega

theorem Fresh.new {s : CS} (h : Fresh s) : Fresh (s.withFrame {}) :=
  ⟨h.code, h.jl, by simp [Frame.allBrk], by simp [Frame.allCont], by simp [Frame.allRet]⟩

/-- From the entries `NB`, `NC`, `NR` newly made by a statement. -/
theorem mk_res {s s1 : CS} {NB NC NR : ℕ → Prop} (hf : Fresh s) (hle : s.cur ≤ s1.cur)
    (fc : ∀ i, s1.cur ≤ i → s1.code i = []) (fj : ∀ i, s1.cur ≤ i → s1.jl i = [])
    (oc : ∀ i < s.cur, s1.code i = s.code i) (oj : ∀ i < s.cur, s1.jl i = s.jl i)
    (kb : ∀ i, i ∈ s1.frame.allBrk ↔ i ∈ s.frame.allBrk ∨ NB i)
    (kc : ∀ i, i ∈ s1.frame.allCont ↔ i ∈ s.frame.allCont ∨ NC i)
    (kr : ∀ i, i ∈ s1.frame.allRet ↔ i ∈ s.frame.allRet ∨ NR i)
    (nb : ∀ i, NB i → s.cur ≤ i ∧ i < s1.cur ∧ s1.jl i = [] ∧ ¬ NC i ∧ ¬ NR i)
    (nc : ∀ i, NC i → s.cur ≤ i ∧ i < s1.cur ∧ s1.jl i = [] ∧ ¬ NR i)
    (nr : ∀ i, NR i → s.cur ≤ i ∧ i < s1.cur ∧ s1.jl i = []) : Fresh s1 ∧ Res s s1 := by
  refine ⟨⟨fc, fj, ?_, ?_, ?_⟩, ⟨hle, oc, oj, ?_, ?_, ?_, ?_, ?_, ?_, ?_⟩⟩
  · intro i hi
    rcases (kb i).1 hi with h | h
    · have := hf.brk i h; omega
    · exact (nb i h).2.1
  · intro i hi
    rcases (kc i).1 hi with h | h
    · have := hf.cont i h; omega
    · exact (nc i h).2.1
  · intro i hi
    rcases (kr i).1 hi with h | h
    · have := hf.ret i h; omega
    · exact (nr i h).2.1
  · intro i hi; rw [kb]; exact or_iff_left fun h => by have := (nb i h).1; omega
  · intro i hi; rw [kc]; exact or_iff_left fun h => by have := (nc i h).1; omega
  · intro i hi; rw [kr]; exact or_iff_left fun h => by have := (nr i h).1; omega
  · intro i hi hu
    rw [kb, kc, kr] at hu
    rcases hu with (h | h) | (h | h) | (h | h)
    · have := hf.brk i h; omega
    · exact (nb i h).2.2.1
    · have := hf.cont i h; omega
    · exact (nc i h).2.2.1
    · have := hf.ret i h; omega
    · exact (nr i h).2.2
  · intro i hi h
    rw [kc]
    rcases (kb i).1 h with h | h
    · have := hf.brk i h; omega
    · rintro (k | k)
      · have := hf.cont i k; omega
      · exact (nb i h).2.2.2.1 k
  · intro i hi h
    rw [kr]
    rcases (kb i).1 h with h | h
    · have := hf.brk i h; omega
    · rintro (k | k)
      · have := hf.ret i k; omega
      · exact (nb i h).2.2.2.2 k
  · intro i hi h
    rw [kr]
    rcases (kc i).1 h with h | h
    · have := hf.cont i h; omega
    · rintro (k | k)
      · have := hf.ret i k; omega
      · exact (nc i h).2.2.2 k

/-- `mk_res` with what the entries mean for the final FSM. -/
theorem mk_ext {s s1 : CS} {NB NC NR : ℕ → Prop} (hf : Fresh s)
    (kb : ∀ i, i ∈ s1.frame.allBrk ↔ i ∈ s.frame.allBrk ∨ NB i)
    (kc : ∀ i, i ∈ s1.frame.allCont ↔ i ∈ s.frame.allCont ∨ NC i)
    (kr : ∀ i, i ∈ s1.frame.allRet ↔ i ∈ s.frame.allRet ∨ NR i) {T : FsmSt} {β γ ρ : ℕ} (hx : Ext s s1 T β γ ρ)
    {i : ℕ} (h1 : s.cur ≤ i) (h2 : i < s1.cur) : T.at' 0 i = s1.code i ∧
      (NB i → JumpsTo (Thr.jl T i) β) ∧ (NC i → JumpsTo (Thr.jl T i) γ) ∧ (NR i → JumpsTo (Thr.jl T i) ρ) ∧
      (¬ NB i → ¬ NC i → ¬ NR i → Thr.jl T i = s1.jl i) := by
  refine ⟨hx.code i h1 h2, fun h => hx.brk i h1 h2 ((kb i).2 (.inr h)), fun h => hx.cont i h1 h2 ((kc i).2 (.inr h)),
    fun h => hx.ret i h1 h2 ((kr i).2 (.inr h)), fun hb hc hr => hx.jl i h1 h2 ?_ ?_ ?_⟩
  · rw [kb]; rintro (h | h)
    · have := hf.brk _ h; omega
    · exact hb h
  · rw [kc]; rintro (h | h)
    · have := hf.cont _ h; omega
    · exact hc h
  · rw [kr]; rintro (h | h)
    · have := hf.ret _ h; omega
    · exact hr h

/-- `if` without `else`. -/
theorem stmt_if {name w rv} {p : Prog} {s s2 : CS} (hf : Fresh s) (hs : s.frame.skip = false)
    (c : Expr) (hd : Done name w p rv (s.inc.withFrame {}) s2) :
    Stmt name w s ((s2.withFrame (s.frame.pop s2.frame)).jump s.cur (s.cur + 1) (some c) (some s2.cur))
      fun T β γ ρ => Binds T s.cur [] ∧ Thr.jl T s.cur = [⟨s.cur + 1, some c, some s2.cur⟩] ∧
        Lay T p rv (s.cur + 1) s2.cur β γ ρ := by
  have hsub := hd.sub rfl
  have hle := hsub.le
  rw [withFrame_cur, inc_cur] at hle hsub
  have hc : ∀ i, ((s2.withFrame (s.frame.pop s2.frame)).jump s.cur (s.cur + 1) (some c) (some s2.cur)).code i =
      s2.code i := fun i => rfl
  have hj : ∀ i, ((s2.withFrame (s.frame.pop s2.frame)).jump s.cur (s.cur + 1) (some c) (some s2.cur)).jl i =
      s2.jl i ++ if s.cur = i then [⟨s.cur + 1, some c, some s2.cur⟩] else [] := by
    intro i; rw [jump_jl (hd.pl.withFrame _)]; simp
  have hcur : ((s2.withFrame (s.frame.pop s2.frame)).jump s.cur (s.cur + 1) (some c) (some s2.cur)).cur = s2.cur := rfl
  have hfr : ((s2.withFrame (s.frame.pop s2.frame)).jump s.cur (s.cur + 1) (some c) (some s2.cur)).frame =
    s.frame.pop s2.frame := rfl
  have hpl : Pl name w ((s2.withFrame (s.frame.pop s2.frame)).jump s.cur (s.cur + 1) (some c) (some s2.cur)) :=
    (hd.pl.withFrame _).jump _ _ _ _
  have hold : ∀ i, i < s.cur + 1 → s2.code i = s.code i ∧ s2.jl i = s.jl i := fun i hi =>
    ⟨hd.res.code i hi, hd.res.jl i hi⟩
  generalize ((s2.withFrame (s.frame.pop s2.frame)).jump s.cur (s.cur + 1) (some c) (some s2.cur)) = s1 at *
  have kb : ∀ i, i ∈ s1.frame.allBrk ↔ i ∈ s.frame.allBrk ∨ i ∈ s2.frame.allBrk := by
    intro i; rw [hfr, mem_pop_brk]
  have kc : ∀ i, i ∈ s1.frame.allCont ↔ i ∈ s.frame.allCont ∨ i ∈ s2.frame.allCont := by
    intro i; rw [hfr, mem_pop_cont]
  have kr : ∀ i, i ∈ s1.frame.allRet ↔ i ∈ s.frame.allRet ∨ i ∈ s2.frame.allRet := by
    intro i; rw [hfr, mem_pop_ret]
  have hfresh : ∀ i, s.cur + 1 ≤ i → s1.jl i = s2.jl i := by
    intro i hi; rw [hj, if_neg (by omega), List.append_nil]
  obtain ⟨r1, r2⟩ := mk_res (s1 := s1) hf (by omega) (fun i hi => by rw [hc]; exact hsub.freshC i (by omega))
    (fun i hi => by rw [hfresh i (by omega)]; exact hsub.freshJ i (by omega))
    (fun i hi => by rw [hc, (hold i (by omega)).1])
    (fun i hi => by rw [hj, (hold i (by omega)).2, if_neg (by omega), List.append_nil]) kb kc kr
    (fun i h => by obtain ⟨h1, h2, h3, h4⟩ := hsub.brk i h; exact ⟨by omega, by omega, by rwa [hfresh i h1], h4⟩)
    (fun i h => by obtain ⟨h1, h2, h3, h4⟩ := hsub.cont i h; exact ⟨by omega, by omega, by rwa [hfresh i h1], h4⟩)
    (fun i h => by obtain ⟨h1, h2, h3⟩ := hsub.ret i h; exact ⟨by omega, by omega, by rwa [hfresh i h1]⟩)
  refine ⟨hpl, r1, r2, by rw [hfr, pop_skip, hs], fun T β γ ρ hx => ?_⟩
  have hX := fun i h1 h2 => mk_ext hf kb kc kr hx (i := i) h1 h2
  obtain ⟨x1, -, -, -, x5⟩ := hX s.cur (Nat.le_refl _) (by omega)
  refine ⟨?_, ?_, ?_⟩
  · rw [hc, (hold _ (by omega)).1, hf.code _ (Nat.le_refl _)] at x1
    exact x1
  · rw [x5, hj, (hold _ (by omega)).2, hf.jl _ (Nat.le_refl _), if_pos rfl]
    · rfl
    · intro h; have := (hsub.brk _ h).1; omega
    · intro h; have := (hsub.cont _ h).1; omega
    · intro h; have := (hsub.ret _ h).1; omega
  · refine hd.lay rfl T β γ ρ ⟨?_, ?_, ?_, ?_, ?_⟩ <;> intro i h1 h2 <;> simp at h1 <;>
      obtain ⟨y1, y2, y3, y4, y5⟩ := hX i (by omega) (by omega)
    · rw [y1, hc]
    · exact y2
    · exact y3
    · exact y4
    · intro hb hc' hr; rw [y5 hb hc' hr, hfresh i h1]

/-- `if` with `else`. -/
theorem stmt_ifelse {name w rv} {p q : Prog} {s s2 s3 : CS} (hf : Fresh s) (hs : s.frame.skip = false)
    (c : Expr) (hd : Done name w p rv (s.inc.withFrame {}) s2) (hq : Done name w q rv (s2.inc.withFrame {}) s3) :
    Stmt name w s (((s3.withFrame ((s.frame.pop s2.frame).pop s3.frame)).jump s.cur (s.cur + 1) (some c)
        (some (s2.cur + 1))).jump s2.cur s3.cur none none)
      fun T β γ ρ => Binds T s.cur [] ∧ Thr.jl T s.cur = [⟨s.cur + 1, some c, some (s2.cur + 1)⟩] ∧
        Lay T p rv (s.cur + 1) s2.cur β γ ρ ∧ Binds T s2.cur [] ∧ JumpsTo (Thr.jl T s2.cur) s3.cur ∧
        Lay T q rv (s2.cur + 1) s3.cur β γ ρ := by
  have hsub := hd.sub rfl
  have hle := hsub.le
  rw [withFrame_cur, inc_cur] at hle hsub
  have hsub' := hq.sub rfl
  have hle' := hsub'.le
  rw [withFrame_cur, inc_cur] at hle' hsub'
  obtain ⟨s1, hs1⟩ : ∃ s1, ((s3.withFrame ((s.frame.pop s2.frame).pop s3.frame)).jump s.cur (s.cur + 1) (some c)
        (some (s2.cur + 1))).jump s2.cur s3.cur none none = s1 := ⟨_, rfl⟩
  rw [hs1]
  have hc : ∀ i, s1.code i = s3.code i := fun i => by rw [← hs1]; rfl
  have hj : ∀ i, s1.jl i = s3.jl i ++ (if s.cur = i then [⟨s.cur + 1, some c, some (s2.cur + 1)⟩] else []) ++
      (if s2.cur = i then [⟨s3.cur, none, none⟩] else []) := by
    intro i
    rw [← hs1, jump_jl ((hq.pl.withFrame _).jump _ _ _ _), jump_jl (hq.pl.withFrame _)]
    simp
  have hcur : s1.cur = s3.cur := by rw [← hs1]; rfl
  have hfr : s1.frame = (s.frame.pop s2.frame).pop s3.frame := by rw [← hs1]; rfl
  have hpl : Pl name w s1 := by rw [← hs1]; exact ((hq.pl.withFrame _).jump _ _ _ _).jump _ _ _ _
  clear hs1
  have hold : ∀ i, i < s.cur + 1 → s2.code i = s.code i ∧ s2.jl i = s.jl i := fun i hi =>
    ⟨hd.res.code i hi, hd.res.jl i hi⟩
  have hold' : ∀ i, i < s2.cur + 1 → s3.code i = s2.code i ∧ s3.jl i = s2.jl i := fun i hi =>
    ⟨hq.res.code i hi, hq.res.jl i hi⟩
  have kb : ∀ i, i ∈ s1.frame.allBrk ↔ i ∈ s.frame.allBrk ∨ (i ∈ s2.frame.allBrk ∨ i ∈ s3.frame.allBrk) := by
    intro i; rw [hfr, mem_pop_brk, mem_pop_brk, or_assoc]
  have kc : ∀ i, i ∈ s1.frame.allCont ↔ i ∈ s.frame.allCont ∨ (i ∈ s2.frame.allCont ∨ i ∈ s3.frame.allCont) := by
    intro i; rw [hfr, mem_pop_cont, mem_pop_cont, or_assoc]
  have kr : ∀ i, i ∈ s1.frame.allRet ↔ i ∈ s.frame.allRet ∨ (i ∈ s2.frame.allRet ∨ i ∈ s3.frame.allRet) := by
    intro i; rw [hfr, mem_pop_ret, mem_pop_ret, or_assoc]
  have hj1 : ∀ i, s.cur + 1 ≤ i → i < s2.cur → s1.jl i = s2.jl i := by
    intro i h1 h2
    rw [hj, if_neg (by omega), if_neg (by omega), List.append_nil, List.append_nil, (hold' i (by omega)).2]
  have hj2 : ∀ i, s2.cur + 1 ≤ i → s1.jl i = s3.jl i := by
    intro i h1
    rw [hj, if_neg (by omega), if_neg (by omega), List.append_nil, List.append_nil]
  obtain ⟨r1, r2⟩ := mk_res (s1 := s1) hf (by omega) (fun i hi => by rw [hc]; exact hsub'.freshC i (by omega))
    (fun i hi => by rw [hj2 i (by omega)]; exact hsub'.freshJ i (by omega))
    (fun i hi => by rw [hc, (hold' i (by omega)).1, (hold i (by omega)).1])
    (fun i hi => by rw [hj, (hold' i (by omega)).2, (hold i (by omega)).2, if_neg (by omega), if_neg (by omega),
                        List.append_nil, List.append_nil]) kb kc kr
    (fun i h => by
      rcases h with h | h
      · obtain ⟨h1, h2, h3, h4, h5⟩ := hsub.brk i h
        refine ⟨by omega, by omega, by rwa [hj1 i h1 h2], ?_, ?_⟩
        · rintro (k | k)
          · exact h4 k
          · have := (hsub'.cont i k).1; omega
        · rintro (k | k)
          · exact h5 k
          · have := (hsub'.ret i k).1; omega
      · obtain ⟨h1, h2, h3, h4, h5⟩ := hsub'.brk i h
        refine ⟨by omega, by omega, by rwa [hj2 i h1], ?_, ?_⟩
        · rintro (k | k)
          · have := (hsub.cont i k).2.1; omega
          · exact h4 k
        · rintro (k | k)
          · have := (hsub.ret i k).2.1; omega
          · exact h5 k)
    (fun i h => by
      rcases h with h | h
      · obtain ⟨h1, h2, h3, h5⟩ := hsub.cont i h
        refine ⟨by omega, by omega, by rwa [hj1 i h1 h2], ?_⟩
        rintro (k | k)
        · exact h5 k
        · have := (hsub'.ret i k).1; omega
      · obtain ⟨h1, h2, h3, h5⟩ := hsub'.cont i h
        refine ⟨by omega, by omega, by rwa [hj2 i h1], ?_⟩
        rintro (k | k)
        · have := (hsub.ret i k).2.1; omega
        · exact h5 k)
    (fun i h => by
      rcases h with h | h
      · obtain ⟨h1, h2, h3⟩ := hsub.ret i h
        exact ⟨by omega, by omega, by rwa [hj1 i h1 h2]⟩
      · obtain ⟨h1, h2, h3⟩ := hsub'.ret i h
        exact ⟨by omega, by omega, by rwa [hj2 i h1]⟩)
  refine ⟨hpl, r1, r2, by rw [hfr, pop_skip, pop_skip, hs], fun T β γ ρ hx => ?_⟩
  have hX := fun i h1 h2 => mk_ext hf kb kc kr hx (i := i) h1 h2
  obtain ⟨x1, -, -, -, x5⟩ := hX s.cur (Nat.le_refl _) (by omega)
  obtain ⟨z1, -, -, -, z5⟩ := hX s2.cur (by omega) (by omega)
  refine ⟨?_, ?_, ?_, ?_, ?_, ?_⟩
  · rw [hc, (hold' _ (by omega)).1, (hold _ (by omega)).1, hf.code _ (Nat.le_refl _)] at x1
    exact x1
  · rw [x5, hj, (hold' _ (by omega)).2, (hold _ (by omega)).2, hf.jl _ (Nat.le_refl _), if_pos rfl, if_neg (by omega)]
    · rfl
    · rintro (h | h)
      · have := (hsub.brk _ h).1; omega
      · have := (hsub'.brk _ h).1; omega
    · rintro (h | h)
      · have := (hsub.cont _ h).1; omega
      · have := (hsub'.cont _ h).1; omega
    · rintro (h | h)
      · have := (hsub.ret _ h).1; omega
      · have := (hsub'.ret _ h).1; omega
  · refine hd.lay rfl T β γ ρ ⟨?_, ?_, ?_, ?_, ?_⟩ <;> intro i h1 h2 <;> simp at h1 <;>
      obtain ⟨y1, y2, y3, y4, y5⟩ := hX i (by omega) (by omega)
    · rw [y1, hc, (hold' i (by omega)).1]
    · exact fun h => y2 (.inl h)
    · exact fun h => y3 (.inl h)
    · exact fun h => y4 (.inl h)
    · intro hb hc' hr
      rw [y5, hj1 i h1 h2]
      · rintro (h | h)
        · exact hb h
        · have := (hsub'.brk _ h).1; omega
      · rintro (h | h)
        · exact hc' h
        · have := (hsub'.cont _ h).1; omega
      · rintro (h | h)
        · exact hr h
        · have := (hsub'.ret _ h).1; omega
  · rw [hc, (hold' _ (by omega)).1, hsub.freshC _ (Nat.le_refl _)] at z1
    exact z1
  · rw [z5, hj, (hold' _ (by omega)).2, hsub.freshJ _ (Nat.le_refl _), if_neg (by omega), if_pos rfl]
    · exact JumpsTo.single _
    · rintro (h | h)
      · have := (hsub.brk _ h).2.1; omega
      · have := (hsub'.brk _ h).1; omega
    · rintro (h | h)
      · have := (hsub.cont _ h).2.1; omega
      · have := (hsub'.cont _ h).1; omega
    · rintro (h | h)
      · have := (hsub.ret _ h).2.1; omega
      · have := (hsub'.ret _ h).1; omega
  · refine hq.lay rfl T β γ ρ ⟨?_, ?_, ?_, ?_, ?_⟩ <;> intro i h1 h2 <;> simp at h1 <;>
      obtain ⟨y1, y2, y3, y4, y5⟩ := hX i (by omega) (by omega)
    · rw [y1, hc]
    · exact fun h => y2 (.inr h)
    · exact fun h => y3 (.inr h)
    · exact fun h => y4 (.inr h)
    · intro hb hc' hr
      rw [y5, hj2 i h1]
      · rintro (h | h)
        · have := (hsub.brk _ h).2.1; omega
        · exact hb h
      · rintro (h | h)
        · have := (hsub.cont _ h).2.1; omega
        · exact hc' h
      · rintro (h | h)
        · have := (hsub.ret _ h).2.1; omega
        · exact hr h

theorem JumpsTo.replicate {n t : ℕ} (h : 0 < n) : JumpsTo (List.replicate n ⟨t, none, none⟩) t := by
  refine ⟨?_, fun j hj => List.eq_of_mem_replicate hj⟩
  intro h0
  rw [List.replicate_eq_nil_iff] at h0
  omega

/-- A loop: test in the first state, body, a state that goes back. -/
theorem stmt_loop {name w rv} {p : Prog} {s s1 s2 : CS} {γ' : ℕ} {bs : List (Reg × Expr)} (hf : Fresh s)
    (hs : s.frame.skip = false) (hb0 : s.frame.allBrk = []) (hc0 : s.frame.allCont = [])
    (c : Expr) (hd : Done name w p rv (s.inc.withFrame {}) s2)
    (hc : ∀ i, s1.code i = s2.code i ++ if s2.cur = i then bs.map (fun b => .subst b.1 b.2) else [])
    (hj : ∀ i, s1.jl i = s2.jl i ++ (if s.cur = i then [⟨s.cur + 1, some c, some (s2.cur + 1)⟩] else []) ++
      (if s2.cur = i then [⟨s.cur, none, none⟩] else []) ++
      List.replicate (s2.frame.allBrk.count i) ⟨s2.cur + 1, none, none⟩ ++
      List.replicate (s2.frame.allCont.count i) ⟨γ', none, none⟩)
    (hcur : s1.cur = s2.cur + 1) (hfr : s1.frame = (s.frame.pop s2.frame).clearLoop) (hpl : Pl name w s1) :
    Stmt name w s s1
      fun T _ _ ρ => Binds T s.cur [] ∧ Thr.jl T s.cur = [⟨s.cur + 1, some c, some (s2.cur + 1)⟩] ∧
        Lay T p rv (s.cur + 1) s2.cur (s2.cur + 1) γ' ρ ∧ Binds T s2.cur bs ∧ JumpsTo (Thr.jl T s2.cur) s.cur := by
  have hsub := hd.sub rfl
  have hle := hsub.le
  rw [withFrame_cur, inc_cur] at hle hsub
  have hold : ∀ i, i < s.cur + 1 → s2.code i = s.code i ∧ s2.jl i = s.jl i := fun i hi =>
    ⟨hd.res.code i hi, hd.res.jl i hi⟩
  have nb0 : ∀ i, i < s.cur + 1 ∨ s2.cur ≤ i → s2.frame.allBrk.count i = 0 := fun i hi =>
    List.count_eq_zero.2 fun h => by have := hsub.brk i h; omega
  have nc0 : ∀ i, i < s.cur + 1 ∨ s2.cur ≤ i → s2.frame.allCont.count i = 0 := fun i hi =>
    List.count_eq_zero.2 fun h => by have := hsub.cont i h; omega
  have kb : ∀ i, i ∈ s1.frame.allBrk ↔ i ∈ s.frame.allBrk ∨ False := by
    intro i; rw [hfr, hb0]; simp [Frame.clearLoop, Frame.allBrk]
  have kc : ∀ i, i ∈ s1.frame.allCont ↔ i ∈ s.frame.allCont ∨ False := by
    intro i; rw [hfr, hc0]; simp [Frame.clearLoop, Frame.allCont]
  have kr : ∀ i, i ∈ s1.frame.allRet ↔ i ∈ s.frame.allRet ∨ i ∈ s2.frame.allRet := by
    intro i; rw [hfr, ← mem_pop_ret]; rfl
  have hj1 : ∀ i, s.cur + 1 ≤ i → i < s2.cur → s1.jl i = s2.jl i ++
      List.replicate (s2.frame.allBrk.count i) ⟨s2.cur + 1, none, none⟩ ++
      List.replicate (s2.frame.allCont.count i) ⟨γ', none, none⟩ := by
    intro i h1 h2
    rw [hj, if_neg (by omega), if_neg (by omega), List.append_nil, List.append_nil]
  obtain ⟨r1, r2⟩ := mk_res (s1 := s1) (NB := fun _ => False) (NC := fun _ => False) hf (by omega)
    (fun i hi => by rw [hc, if_neg (by omega), hsub.freshC i (by omega)]; rfl)
    (fun i hi => by
      rw [hj, if_neg (by omega), if_neg (by omega), hsub.freshJ i (by omega), nb0 i (by omega), nc0 i (by omega)]; rfl)
    (fun i hi => by rw [hc, (hold i (by omega)).1, if_neg (by omega), List.append_nil])
    (fun i hi => by
      rw [hj, if_neg (by omega), if_neg (by omega), (hold i (by omega)).2, nb0 i (by omega), nc0 i (by omega)]; simp)
    kb kc kr (fun i h => h.elim) (fun i h => h.elim)
    (fun i h => by
      obtain ⟨h1, h2, h3⟩ := hsub.ret i h
      refine ⟨by omega, by omega, ?_⟩
      rw [hj1 i h1 h2, h3, List.count_eq_zero.2 fun k => (hsub.brk i k).2.2.2.2 h,
        List.count_eq_zero.2 fun k => (hsub.cont i k).2.2.2 h]
      rfl)
  refine ⟨hpl, r1, r2, ?_, fun T β γ ρ hx => ?_⟩
  · rw [hfr]
    simp only [Frame.skip, Frame.clearLoop, Frame.pop] at hs ⊢
    simp_all
  have hX := fun i h1 h2 => mk_ext hf kb kc kr hx (i := i) h1 h2
  obtain ⟨x1, -, -, -, x5⟩ := hX s.cur (Nat.le_refl _) (by omega)
  obtain ⟨z1, -, -, -, z5⟩ := hX s2.cur (by omega) (by omega)
  refine ⟨?_, ?_, ?_, ?_, ?_⟩
  · rw [hc, (hold _ (by omega)).1, hf.code _ (Nat.le_refl _), if_neg (by omega)] at x1
    exact x1
  · rw [x5 id id, hj, (hold _ (by omega)).2, hf.jl _ (Nat.le_refl _), if_pos rfl, if_neg (by omega),
      nb0 _ (by omega), nc0 _ (by omega)]
    · rfl
    · intro h; have := (hsub.ret _ h).1; omega
  · refine hd.lay rfl T _ _ ρ ⟨?_, ?_, ?_, ?_, ?_⟩ <;> intro i h1 h2 <;> simp at h1 <;>
      obtain ⟨y1, -, -, y4, y5⟩ := hX i (by omega) (by omega)
    · rw [y1, hc, if_neg (by omega), List.append_nil]
    · intro h
      obtain ⟨k1, k2, k3, k4, k5⟩ := hsub.brk i h
      rw [y5 id id k5, hj1 i h1 h2, k3, List.count_eq_zero.2 k4]
      simpa using JumpsTo.replicate (List.count_pos_iff.2 h)
    · intro h
      obtain ⟨k1, k2, k3, k4⟩ := hsub.cont i h
      rw [y5 id id k4, hj1 i h1 h2, k3, List.count_eq_zero.2 fun k => (hsub.brk i k).2.2.2.1 h]
      simpa using JumpsTo.replicate (List.count_pos_iff.2 h)
    · exact y4
    · intro hb hc' hr
      rw [y5 id id hr, hj1 i h1 h2, List.count_eq_zero.2 hb, List.count_eq_zero.2 hc']
      simp
  · rw [hc, hsub.freshC _ (Nat.le_refl _), if_pos rfl] at z1
    exact z1
  · rw [z5 id id, hj, hsub.freshJ _ (Nat.le_refl _), if_neg (by omega), if_pos rfl, nb0 _ (by omega), nc0 _ (by omega)]
    · exact JumpsTo.single _
    · intro h; have := (hsub.ret _ h).2.1; omega

/-- A call: arguments, body, `return` jumps. -/
theorem stmt_call {name w rv'} {body : Prog} {s s0 s2 : CS} {args : List (Reg × Expr)} (hp : Pl name w s) (hf : Fresh s)
    (hs : s.frame.skip = false) (h0 : s0 = ((s.withFrame {}).binds args).jumpNext.inc)
    (he : body.esc = false) (hd : Done name w body rv' s0 s2) :
    Stmt name w s ((s2.resolve s2.frame.allRet s2.cur).withFrame s.frame)
      fun T _ _ _ => Binds T s.cur args ∧ JumpsTo (Thr.jl T s.cur) (s.cur + 1) ∧
        Lay T body rv' (s.cur + 1) s2.cur 0 0 s2.cur := by
  have ha := stmt_assign (hp.withFrame {}) hf.new rfl args
  rw [← h0] at ha
  have h0f : s0.frame = {} := by rw [h0]; simp [CS.jumpNext]
  have h0c : s0.cur = s.cur + 1 := by rw [h0]; simp [CS.jumpNext]
  have hsub := hd.sub h0f
  have hle := hsub.le
  rw [h0c] at hle hsub
  obtain ⟨s1, hs1⟩ : ∃ s1, (s2.resolve s2.frame.allRet s2.cur).withFrame s.frame = s1 := ⟨_, rfl⟩
  rw [hs1]
  have hc : ∀ i, s1.code i = s2.code i := fun i => by rw [← hs1]; simp
  have hj : ∀ i, s1.jl i = s2.jl i ++ List.replicate (s2.frame.allRet.count i) ⟨s2.cur, none, none⟩ := by
    intro i
    rw [← hs1, withFrame_jl, resolve_jl hd.pl]
  have hcur : s1.cur = s2.cur := by rw [← hs1]; simp
  have hfr : s1.frame = s.frame := by rw [← hs1]; rfl
  have hpl : Pl name w s1 := by rw [← hs1]; exact (hd.pl.resolve _ _).withFrame _
  clear hs1
  have hr := ha.res.trans hd.res
  have nr0 : ∀ i, i < s.cur + 1 ∨ s2.cur ≤ i → s2.frame.allRet.count i = 0 := fun i hi =>
    List.count_eq_zero.2 fun h => by have := hsub.ret i h; omega
  have hne : ∀ i, i ∉ s2.frame.allBrk ∧ i ∉ s2.frame.allCont := by
    intro i
    rcases Nat.lt_or_ge i s0.cur with h | h
    · rw [hd.res.brk i h, hd.res.cont i h, h0f]; simp [Frame.allBrk, Frame.allCont]
    · exact hd.esc he i h
  have kb : ∀ i, i ∈ s1.frame.allBrk ↔ i ∈ s.frame.allBrk ∨ False := by simp [hfr]
  have kc : ∀ i, i ∈ s1.frame.allCont ↔ i ∈ s.frame.allCont ∨ False := by simp [hfr]
  have kr : ∀ i, i ∈ s1.frame.allRet ↔ i ∈ s.frame.allRet ∨ False := by simp [hfr]
  obtain ⟨r1, r2⟩ := mk_res (s1 := s1) (NB := fun _ => False) (NC := fun _ => False) (NR := fun _ => False) hf (by omega)
    (fun i hi => by rw [hc, hsub.freshC i (by omega)])
    (fun i hi => by rw [hj, hsub.freshJ i (by omega), nr0 i (by omega)]; rfl)
    (fun i hi => by rw [hc, hr.code i (by simpa using hi)]; rfl)
    (fun i hi => by rw [hj, hr.jl i (by simpa using hi), nr0 i (by omega)]; simp)
    kb kc kr (fun i h => h.elim) (fun i h => h.elim) (fun i h => h.elim)
  refine ⟨hpl, r1, r2, by rw [hfr, hs], fun T β γ ρ hx => ?_⟩
  have hX := fun i h1 h2 => mk_ext hf kb kc kr hx (i := i) h1 h2
  have hxA : Ext (s.withFrame {}) s2 T 0 0 s2.cur := by
    refine ⟨?_, ?_, ?_, ?_, ?_⟩ <;> intro i h1 h2 <;> simp at h1 <;>
      obtain ⟨y1, -, -, -, y5⟩ := hX i (by omega) (by omega)
    · rw [y1, hc]
    · exact fun h => absurd h (hne i).1
    · exact fun h => absurd h (hne i).2
    · intro h
      rw [y5 id id id, hj, (hsub.ret i h).2.2]
      exact JumpsTo.replicate (List.count_pos_iff.2 h)
    · intro _ _ hr
      rw [y5 id id id, hj, List.count_eq_zero.2 hr]
      simp
  obtain ⟨b1, b2⟩ := ha.lay T 0 0 s2.cur (hxA.left hd.res)
  refine ⟨b1, b2, ?_⟩
  have := hd.lay (by rw [h0f]; rfl) T 0 0 s2.cur (hxA.right (by rw [h0c]; simp))
  rwa [h0c] at this

/-! ## The jump statements -/

theorem step_brk {s : CS} (hf : Fresh s) :
    Fresh (s.withFrame { s.frame with brk := s.frame.brk ++ [s.cur] }).inc ∧
    Res s (s.withFrame { s.frame with brk := s.frame.brk ++ [s.cur] }).inc :=
  mk_res (NB := fun i => i = s.cur) (NC := fun _ => False) (NR := fun _ => False) hf (by simp)
    (fun i hi => hf.code i (by simp at hi; omega)) (fun i hi => hf.jl i (by simp at hi; omega))
    (fun _ _ => rfl) (fun _ _ => rfl)
    (fun i => by simp only [inc_frame, withFrame_frame, Frame.allBrk, List.mem_append, List.mem_singleton]
                 rw [or_right_comm])
    (fun i => by simp [Frame.allCont]) (fun i => by simp [Frame.allRet])
    (fun i h => by subst h; exact ⟨Nat.le_refl _, by simp, hf.jl _ (Nat.le_refl _), id, id⟩)
    (fun _ h => h.elim) (fun _ h => h.elim)

theorem step_cont {s : CS} (hf : Fresh s) :
    Fresh (s.withFrame { s.frame with cont := s.frame.cont ++ [s.cur] }).inc ∧
    Res s (s.withFrame { s.frame with cont := s.frame.cont ++ [s.cur] }).inc :=
  mk_res (NC := fun i => i = s.cur) (NB := fun _ => False) (NR := fun _ => False) hf (by simp)
    (fun i hi => hf.code i (by simp at hi; omega)) (fun i hi => hf.jl i (by simp at hi; omega))
    (fun _ _ => rfl) (fun _ _ => rfl)
    (fun i => by simp [Frame.allBrk])
    (fun i => by simp only [inc_frame, withFrame_frame, Frame.allCont, List.mem_append, List.mem_singleton]
                 rw [or_right_comm])
    (fun i => by simp [Frame.allRet])
    (fun _ h => h.elim)
    (fun i h => by subst h; exact ⟨Nat.le_refl _, by simp, hf.jl _ (Nat.le_refl _), id⟩)
    (fun _ h => h.elim)

theorem step_ret {s : CS} (hf : Fresh s) (bs : List (Reg × Expr)) :
    Fresh ((s.binds bs).withFrame { s.frame with ret := s.frame.ret ++ [s.cur] }).inc ∧
    Res s ((s.binds bs).withFrame { s.frame with ret := s.frame.ret ++ [s.cur] }).inc :=
  mk_res (NR := fun i => i = s.cur) (NB := fun _ => False) (NC := fun _ => False) hf (by simp)
    (fun i hi => by
      simp at hi
      rw [inc_code, withFrame_code, binds_code, hf.code i (by omega), if_neg (by omega)]; rfl)
    (fun i hi => by simp at hi ⊢; exact hf.jl i (by omega))
    (fun i hi => by rw [inc_code, withFrame_code, binds_code, if_neg (by omega), List.append_nil])
    (fun _ _ => by simp)
    (fun i => by simp [Frame.allBrk]) (fun i => by simp [Frame.allCont])
    (fun i => by simp only [inc_frame, withFrame_frame, Frame.allRet, List.mem_append, List.mem_singleton]
                 rw [or_right_comm])
    (fun _ h => h.elim) (fun _ h => h.elim)
    (fun i h => by subst h; refine ⟨Nat.le_refl _, by simp, ?_⟩; simp; exact hf.jl _ (Nat.le_refl _))

/-! ## The compiler -/

theorem count_nil_pop {f g : Frame} (h : f.allBrk = []) : (f.pop g).allBrk = g.allBrk := by
  simp only [Frame.allBrk, List.append_eq_nil_iff] at h
  simp [Frame.pop, Frame.allBrk, h.1, h.2]

theorem count_nil_pop' {f g : Frame} (h : f.allCont = []) : (f.pop g).allCont = g.allCont := by
  simp only [Frame.allCont, List.append_eq_nil_iff] at h
  simp [Frame.pop, Frame.allCont, h.1, h.2]

theorem compile_done (name : String) (w : ℕ) (p : Prog) : ∀ (rv : Reg) (s : CS), Pl name w s → Fresh s → Pre p s →
    Done name w p rv s (compile p rv s) := by
  induction p with
  | nil =>
    intro rv s hp hf _
    exact ⟨hp, hf, Res.refl s hf, fun _ i hi => ⟨fun h => by have := hf.brk i h; omega,
      fun h => by have := hf.cont i h; omega⟩, fun _ T β γ ρ _ => rfl, fun _ => rfl⟩
  | pass rest ih =>
    intro rv s hp hf hpre
    have := ih rv s hp hf hpre
    exact ⟨this.pl, this.fresh, this.res, this.esc, this.lay, this.dead⟩
  | assign bs rest ih =>
    intro rv s hp hf hpre
    cases hs : s.frame.skip with
    | true =>
      simp only [compile, hs, if_true]
      exact Done.of_skip (rest := rest) hs (fun h => h) rfl (ih rv s hp hf (.inl hs))
    | false =>
      simp only [compile, hs, Bool.false_eq_true, if_false]
      obtain ⟨g1, g2⟩ := hpre.resolve_left (by simp [hs])
      have h1 := stmt_assign hp hf hs bs
      have hfr : (s.binds bs).jumpNext.inc.frame = s.frame := by simp [CS.jumpNext]
      have hcur : (s.binds bs).jumpNext.inc.cur = s.cur + 1 := by simp [CS.jumpNext]
      refine Done.cons h1 (ih rv _ h1.pl h1.fresh (.inr ⟨g1, by rw [hfr]; exact g2⟩)) (fun he => ⟨he, fun i hi => ?_⟩) hs ?_
      · rw [hfr]
        exact ⟨fun h => by have := hf.brk i h; omega, fun h => by have := hf.cont i h; omega⟩
      · rintro T β γ ρ ⟨l1, l2⟩ l3
        rw [hcur] at l3
        exact ⟨l1, l2, l3⟩
  | ifte c p q rest ihp ihq ihr =>
    intro rv s hp hf hpre
    cases hs : s.frame.skip with
    | true =>
      simp only [compile, hs, if_true]
      exact Done.of_skip (rest := rest) hs (by simp [Prog.esc]) rfl (ihr rv s hp hf (.inl hs))
    | false =>
      obtain ⟨g1, g2⟩ := hpre.resolve_left (by simp [hs])
      simp only [Prog.good, Bool.and_eq_true, Bool.or_eq_true, Bool.not_eq_true', Bool.or_eq_false_iff] at g1
      obtain ⟨⟨⟨gp, gq⟩, gr⟩, ge⟩ := g1
      have hempty : ∀ r : Prog, ∀ s : CS, r.hasLoop = true → (s.withFrame {}).frame.allBrk = [] ∧ (s.withFrame {}).frame.allCont = [] :=
        fun _ _ _ => ⟨rfl, rfl⟩
      have hd := ihp rv (s.inc.withFrame {}) (hp.inc.withFrame _) hf.inc.new (.inr ⟨gp, fun _ => ⟨rfl, rfl⟩⟩)
      have hpe : p.esc = false → s.inc.cur ≤ s.inc.cur → ∀ i, i ∉ (compile p rv (s.inc.withFrame {})).frame.allBrk ∧
          i ∉ (compile p rv (s.inc.withFrame {})).frame.allCont := by
        intro he _ i
        rcases Nat.lt_or_ge i (s.inc.withFrame {}).cur with h | h
        · rw [hd.res.brk i h, hd.res.cont i h]; simp [Frame.allBrk, Frame.allCont]
        · exact hd.esc he i h
      by_cases hq : q = .nil
      · subst hq
        simp only [compile, hs, Prog.isNil, Bool.false_eq_true, if_false, if_true]
        have h1 := stmt_if hf hs c hd
        refine Done.cons h1 (ihr rv _ h1.pl h1.fresh (.inr ⟨gr, fun hl => ?_⟩)) (fun he => ?_) hs ?_
        · have hne := ge.resolve_right (by simp [hl])
          have := hpe hne.1 (Nat.le_refl _)
          obtain ⟨a1, a2⟩ := g2 hl
          simp only [jump_frame, withFrame_frame]
          rw [count_nil_pop a1, count_nil_pop' a2]
          exact ⟨List.eq_nil_iff_forall_not_mem.2 fun i => (this i).1, List.eq_nil_iff_forall_not_mem.2 fun i => (this i).2⟩
        · simp only [Prog.esc, Bool.or_eq_false_iff] at he
          refine ⟨he.2, fun i hi => ?_⟩
          have := hpe he.1.1 (Nat.le_refl _) i
          simp only [jump_frame, withFrame_frame, mem_pop_brk, mem_pop_cont]
          refine ⟨?_, ?_⟩ <;> rintro (h | h)
          · have := hf.brk i h; omega
          · exact this.1 h
          · have := hf.cont i h; omega
          · exact this.2 h
        · rintro T β γ ρ ⟨l1, l2, l3⟩ l4
          exact ⟨_, l1, l2, l3, l4⟩
      · have hdq := ihq rv ((compile p rv (s.inc.withFrame {})).inc.withFrame {}) (hd.pl.inc.withFrame _)
          hd.fresh.inc.new (.inr ⟨gq, fun _ => ⟨rfl, rfl⟩⟩)
        have hqe : q.esc = false → ∀ i,
            i ∉ (compile q rv ((compile p rv (s.inc.withFrame {})).inc.withFrame {})).frame.allBrk ∧
            i ∉ (compile q rv ((compile p rv (s.inc.withFrame {})).inc.withFrame {})).frame.allCont := by
          intro he i
          rcases Nat.lt_or_ge i ((compile p rv (s.inc.withFrame {})).inc.withFrame {}).cur with h | h
          · rw [hdq.res.brk i h, hdq.res.cont i h]; simp [Frame.allBrk, Frame.allCont]
          · exact hdq.esc he i h
        have h1 := stmt_ifelse hf hs c hd hdq
        have hcomp : compile (.ifte c p q rest) rv s = compile rest rv
            ((((compile q rv ((compile p rv (s.inc.withFrame {})).inc.withFrame {})).withFrame
              ((s.frame.pop (compile p rv (s.inc.withFrame {})).frame).pop
                (compile q rv ((compile p rv (s.inc.withFrame {})).inc.withFrame {})).frame)).jump s.cur (s.cur + 1) (some c)
              (some ((compile p rv (s.inc.withFrame {})).cur + 1))).jump (compile p rv (s.inc.withFrame {})).cur
                (compile q rv ((compile p rv (s.inc.withFrame {})).inc.withFrame {})).cur none none) := by
          have hq' : q.isNil = false := by cases q <;> simp_all [Prog.isNil]
          simp only [compile, hs, hq', Bool.false_eq_true, if_false]; rfl
        rw [hcomp]
        refine Done.cons h1 (ihr rv _ h1.pl h1.fresh (.inr ⟨gr, fun hl => ?_⟩)) (fun he => ?_) hs ?_
        · have hne := ge.resolve_right (by simp [hl])
          have k1 := hpe hne.1 (Nat.le_refl _)
          have k2 := hqe hne.2
          obtain ⟨a1, a2⟩ := g2 hl
          have e1 : (compile p rv (s.inc.withFrame {})).frame.allBrk = [] :=
            List.eq_nil_iff_forall_not_mem.2 fun i => (k1 i).1
          have e2 : (compile p rv (s.inc.withFrame {})).frame.allCont = [] :=
            List.eq_nil_iff_forall_not_mem.2 fun i => (k1 i).2
          simp only [jump_frame, withFrame_frame]
          rw [count_nil_pop (by rw [count_nil_pop a1, e1]), count_nil_pop' (by rw [count_nil_pop' a2, e2])]
          exact ⟨List.eq_nil_iff_forall_not_mem.2 fun i => (k2 i).1, List.eq_nil_iff_forall_not_mem.2 fun i => (k2 i).2⟩
        · simp only [Prog.esc, Bool.or_eq_false_iff] at he
          refine ⟨he.2, fun i hi => ?_⟩
          have k1 := hpe he.1.1 (Nat.le_refl _) i
          have k2 := hqe he.1.2 i
          simp only [jump_frame, withFrame_frame, mem_pop_brk, mem_pop_cont]
          refine ⟨?_, ?_⟩ <;> rintro ((h | h) | h)
          · have := hf.brk i h; omega
          · exact k1.1 h
          · exact k2.1 h
          · have := hf.cont i h; omega
          · exact k1.2 h
          · exact k2.2 h
        · rintro T β γ ρ ⟨l1, l2, l3, l4, l5, l6⟩ l7
          cases q with
          | nil => exact absurd rfl hq
          | _ => exact ⟨_, _, l1, l2, l3, l4, l5, l6, l7⟩
  | while_ pre c p rest _ ihp ihr =>
    intro rv s hp hf hpre
    cases hs : s.frame.skip with
    | true =>
      simp only [compile, hs, if_true]
      exact Done.of_skip (rest := rest) hs (by simp [Prog.esc]) rfl (ihr rv s hp hf (.inl hs))
    | false =>
      obtain ⟨g1, g2⟩ := hpre.resolve_left (by simp [hs])
      obtain ⟨b0, c0⟩ := g2 rfl
      simp only [Prog.good, Bool.and_eq_true] at g1
      obtain ⟨⟨gn, gp⟩, gr⟩ := g1
      have hpre0 : pre = .nil := by cases pre <;> simp_all [Prog.isNil]
      subst hpre0
      have hd := ihp rv (s.inc.withFrame {}) (hp.inc.withFrame _) hf.inc.new (.inr ⟨gp, fun _ => ⟨rfl, rfl⟩⟩)
      obtain ⟨s2, hs2⟩ : ∃ s2, compile p rv (s.inc.withFrame {}) = s2 := ⟨_, rfl⟩
      rw [hs2] at hd
      have hcomp : compile (.while_ .nil c p rest) rv s = compile rest rv
          (((((s2.withFrame (s.frame.pop s2.frame)).inc.jump s.cur (s.cur + 1) (some c) (some (s2.cur + 1))).jump
            s2.cur s.cur none none).endLoop (s2.cur + 1) s.cur)) := by
        simp only [compile, hs, Bool.false_eq_true, if_false, ← hs2]; rfl
      rw [hcomp]
      have q0 := hd.pl.withFrame (s.frame.pop s2.frame)
      have q1 := q0.inc.jump s.cur (s.cur + 1) (some c) (some (s2.cur + 1))
      have q2 := q1.jump s2.cur s.cur none none
      obtain ⟨s1, hs1⟩ : ∃ s1, (((s2.withFrame (s.frame.pop s2.frame)).inc.jump s.cur (s.cur + 1) (some c)
        (some (s2.cur + 1))).jump s2.cur s.cur none none).endLoop (s2.cur + 1) s.cur = s1 := ⟨_, rfl⟩
      rw [hs1]
      have hcur : s1.cur = s2.cur + 1 := by
        rw [← hs1]; show (((_ : CS).resolve _ _).resolve _ _).cur = _; simp
      have hfr : s1.frame = (s.frame.pop s2.frame).clearLoop := by rw [← hs1]; simp [CS.endLoop]
      have h1 := stmt_loop (γ' := s.cur) (bs := []) (s1 := s1) hf hs b0 c0 c hd
        (by intro i; rw [← hs1]; show (((_ : CS).resolve _ _).resolve _ _).code i = _; simp)
        (by
          intro i
          rw [← hs1]
          show (((_ : CS).resolve _ _).resolve _ _).jl i = _
          rw [resolve_jl (q2.resolve _ _), resolve_jl q2, jump_jl q1, jump_jl q0.inc]
          simp [count_nil_pop b0, count_nil_pop' c0])
        hcur hfr (by rw [← hs1]; exact (q2.resolve _ _).resolve _ _ |>.withFrame _)
      refine Done.cons h1 (ihr rv _ h1.pl h1.fresh (.inr ⟨gr, fun _ => by rw [hfr]; exact ⟨rfl, rfl⟩⟩))
        (fun he => ⟨?_, fun i _ => ?_⟩) hs ?_
      · simpa [Prog.esc] using he
      · rw [hfr]; simp [Frame.clearLoop, Frame.allBrk, Frame.allCont]
      · rintro T β γ ρ ⟨l1, l2, l3, l4, l5⟩ l6
        rw [hcur] at l6
        exact ⟨rfl, s2.cur, l1, l2, l3, l4, l5, l6⟩
  | loopr i e st p rest ihp ihr =>
    intro rv s hp hf hpre
    cases hs : s.frame.skip with
    | true =>
      simp only [compile, hs, if_true]
      exact Done.of_skip (rest := rest) hs (by simp [Prog.esc]) rfl (ihr rv s hp hf (.inl hs))
    | false =>
      obtain ⟨g1, g2⟩ := hpre.resolve_left (by simp [hs])
      obtain ⟨b0, c0⟩ := g2 rfl
      simp only [Prog.good, Bool.and_eq_true] at g1
      obtain ⟨gp, gr⟩ := g1
      have hd := ihp rv (s.inc.withFrame {}) (hp.inc.withFrame _) hf.inc.new (.inr ⟨gp, fun _ => ⟨rfl, rfl⟩⟩)
      obtain ⟨s2, hs2⟩ : ∃ s2, compile p rv (s.inc.withFrame {}) = s2 := ⟨_, rfl⟩
      rw [hs2] at hd
      have hsub := hd.sub rfl
      have hle := hsub.le
      rw [withFrame_cur, inc_cur] at hle
      have hcomp : compile (.loopr i e st p rest) rv s = compile rest rv
          ((((((s2.withFrame (s.frame.pop s2.frame)).bind i (plusE i st)).inc.jump s2.cur s.cur none none).jump
            s.cur (s.cur + 1) (some (ltE i e)) (some (s2.cur + 1))).endLoop (s2.cur + 1) s2.cur)) := by
        simp only [compile, hs, Bool.false_eq_true, if_false, ← hs2, inc_cur, bind_cur]; rfl
      rw [hcomp]
      have q0 := (hd.pl.withFrame (s.frame.pop s2.frame)).bind i (plusE i st)
      have q1 := q0.inc.jump s2.cur s.cur none none
      have q2 := q1.jump s.cur (s.cur + 1) (some (ltE i e)) (some (s2.cur + 1))
      obtain ⟨s1, hs1⟩ : ∃ s1, ((((s2.withFrame (s.frame.pop s2.frame)).bind i (plusE i st)).inc.jump s2.cur s.cur none
        none).jump s.cur (s.cur + 1) (some (ltE i e)) (some (s2.cur + 1))).endLoop (s2.cur + 1) s2.cur = s1 := ⟨_, rfl⟩
      rw [hs1]
      have hcur : s1.cur = s2.cur + 1 := by
        rw [← hs1]; show (((_ : CS).resolve _ _).resolve _ _).cur = _; simp
      have hfr : s1.frame = (s.frame.pop s2.frame).clearLoop := by rw [← hs1]; simp [CS.endLoop]
      have h1 := stmt_loop (γ' := s2.cur) (bs := [(i, plusE i st)]) (s1 := s1) hf hs b0 c0 (ltE i e) hd
        (by intro i; rw [← hs1]; show (((_ : CS).resolve _ _).resolve _ _).code i = _; rw [resolve_code, resolve_code, jump_code, jump_code, inc_code, bind_code]; rfl)
        (by
          intro j
          rw [← hs1]
          show (((_ : CS).resolve _ _).resolve _ _).jl j = _
          rw [resolve_jl (q2.resolve _ _), resolve_jl q2, jump_jl q1, jump_jl q0.inc]
          simp only [inc_jl, bind_jl, withFrame_jl, resolve_frame, jump_frame, inc_frame, bind_frame, withFrame_frame,
            count_nil_pop b0, count_nil_pop' c0]
          by_cases e1 : s.cur = j
          · rw [if_neg (show s2.cur ≠ j by omega)]; simp
          · simp [e1])
        hcur hfr (by rw [← hs1]; exact (q2.resolve _ _).resolve _ _ |>.withFrame _)
      refine Done.cons h1 (ihr rv _ h1.pl h1.fresh (.inr ⟨gr, fun _ => by rw [hfr]; exact ⟨rfl, rfl⟩⟩))
        (fun he => ⟨?_, fun i _ => ?_⟩) hs ?_
      · simpa [Prog.esc] using he
      · rw [hfr]; simp [Frame.clearLoop, Frame.allBrk, Frame.allCont]
      · rintro T β γ ρ ⟨l1, l2, l3, l4, l5⟩ l6
        rw [hcur] at l6
        exact ⟨s2.cur, l1, l2, l3, l4, l5, l6⟩
  | brk rest ih =>
    intro rv s hp hf hpre
    obtain ⟨f1, r1⟩ := step_brk hf
    have h2 := ih rv _ (hp.withFrame _).inc f1 (.inl (by simp [Frame.skip]))
    have hdd : (compile rest rv (s.withFrame { s.frame with brk := s.frame.brk ++ [s.cur] }).inc).cur =
      s.cur + 1 + rest.dead := h2.dead (by simp [Frame.skip])
    refine ⟨h2.pl, h2.fresh, r1.trans h2.res, by simp [Prog.esc], fun _ T β γ ρ hx => ?_,
      fun _ => hdd.trans (by simp only [Prog.dead]; omega)⟩
    have hlt : s.cur < (compile rest rv (s.withFrame { s.frame with brk := s.frame.brk ++ [s.cur] }).inc).cur := Nat.lt_of_succ_le h2.res.le
    refine ⟨?_, ?_, hdd⟩
    · exact (hx.code s.cur (Nat.le_refl _) hlt).trans ((h2.res.code s.cur (by simp)).trans (hf.code _ (Nat.le_refl _)))
    · exact hx.brk s.cur (Nat.le_refl _) hlt ((h2.res.brk s.cur (by simp)).2 (by simp [Frame.allBrk]))
  | cont rest ih =>
    intro rv s hp hf hpre
    obtain ⟨f1, r1⟩ := step_cont hf
    have h2 := ih rv _ (hp.withFrame _).inc f1 (.inl (by simp [Frame.skip]))
    have hdd : (compile rest rv (s.withFrame { s.frame with cont := s.frame.cont ++ [s.cur] }).inc).cur =
      s.cur + 1 + rest.dead := h2.dead (by simp [Frame.skip])
    refine ⟨h2.pl, h2.fresh, r1.trans h2.res, by simp [Prog.esc], fun _ T β γ ρ hx => ?_,
      fun _ => hdd.trans (by simp only [Prog.dead]; omega)⟩
    have hlt : s.cur < (compile rest rv (s.withFrame { s.frame with cont := s.frame.cont ++ [s.cur] }).inc).cur := Nat.lt_of_succ_le h2.res.le
    refine ⟨?_, ?_, hdd⟩
    · exact (hx.code s.cur (Nat.le_refl _) hlt).trans ((h2.res.code s.cur (by simp)).trans (hf.code _ (Nat.le_refl _)))
    · exact hx.cont s.cur (Nat.le_refl _) hlt ((h2.res.cont s.cur (by simp)).2 (by simp [Frame.allCont]))
  | ret e rest ih =>
    intro rv s hp hf hpre
    obtain ⟨f1, r1⟩ := step_ret hf ((e.map fun e => (rv, e)).toList)
    have h2 := ih rv _ ((hp.binds _).withFrame _).inc f1 (.inl (by simp [Frame.skip]))
    have hcomp : compile (.ret e rest) rv s = compile rest rv
      ((s.binds ((e.map fun e => (rv, e)).toList)).withFrame { s.frame with ret := s.frame.ret ++ [s.cur] }).inc := by
      simp only [compile, binds_frame, binds_cur]; rfl
    rw [hcomp]
    have hdd := h2.dead (by simp [Frame.skip])
    rw [inc_cur, withFrame_cur, binds_cur] at hdd
    refine ⟨h2.pl, h2.fresh, r1.trans h2.res, ?_, fun _ T β γ ρ hx => ?_, fun _ => hdd.trans (by simp only [Prog.dead]; omega)⟩
    · intro he i hi
      rcases Nat.lt_or_ge i (s.cur + 1) with h | h
      · rw [h2.res.brk i (by simpa using h), h2.res.cont i (by simpa using h)]
        simp only [inc_frame, withFrame_frame]
        exact ⟨fun h => by have := hf.brk i h; omega, fun h => by have := hf.cont i h; omega⟩
      · exact h2.esc he i (by simpa using h)
    have hlt := h2.res.le
    rw [inc_cur, withFrame_cur, binds_cur] at hlt
    have hlt := Nat.lt_of_succ_le hlt
    refine ⟨?_, ?_, hdd⟩
    · have := (hx.code s.cur (Nat.le_refl _) hlt).trans (h2.res.code s.cur (by simp))
      rw [inc_code, withFrame_code, binds_code, hf.code _ (Nat.le_refl _), if_pos rfl] at this
      exact this
    · exact hx.ret s.cur (Nat.le_refl _) hlt ((h2.res.ret s.cur (by simp)).2 (by simp [Frame.allRet]))
  | call args rv' body rest ihb ihr =>
    intro rv s hp hf hpre
    cases hs : s.frame.skip with
    | true =>
      simp only [compile, hs, if_true]
      exact Done.of_skip (rest := rest) hs (by simp [Prog.esc]) rfl (ihr rv s hp hf (.inl hs))
    | false =>
      obtain ⟨g1, g2⟩ := hpre.resolve_left (by simp [hs])
      simp only [Prog.good, Bool.and_eq_true, Bool.not_eq_true'] at g1
      obtain ⟨⟨gb, ge⟩, gr⟩ := g1
      obtain ⟨s0, h0⟩ : ∃ s0, s0 = ((s.withFrame {}).binds args).jumpNext.inc := ⟨_, rfl⟩
      have ha := stmt_assign (hp.withFrame {}) hf.new rfl args
      rw [← h0] at ha
      have h0f : s0.frame = {} := by rw [h0]; simp [CS.jumpNext]
      have hd := ihb rv' s0 ha.pl ha.fresh (.inr ⟨gb, fun _ => by rw [h0f]; exact ⟨rfl, rfl⟩⟩)
      have hcomp : compile (.call args rv' body rest) rv s = compile rest rv
          (((compile body rv' s0).resolve (compile body rv' s0).frame.allRet (compile body rv' s0).cur).withFrame
            s.frame) := by
        simp only [compile, hs, Bool.false_eq_true, if_false, h0]; rfl
      rw [hcomp]
      have h1 := stmt_call hp hf hs h0 ge hd
      refine Done.cons h1 (ihr rv _ h1.pl h1.fresh (.inr ⟨gr, g2⟩)) (fun he => ⟨he, fun i hi => ?_⟩) hs ?_
      · exact ⟨fun h => by have := hf.brk i h; omega, fun h => by have := hf.cont i h; omega⟩
      · rintro T β γ ρ ⟨l1, l2, l3⟩ l4
        rw [withFrame_cur, resolve_cur] at l4
        exact ⟨ge, _, l1, l2, l3, l4⟩

end Thr
