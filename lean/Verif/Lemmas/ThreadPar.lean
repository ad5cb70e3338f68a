import Verif.Model.ThreadPar
import Verif.Lemmas.ThreadTick

/-!
# Parallel blocks of a thread: all assignments go to one state
-/

namespace Thr
open Hdl

/-! ## Vocabulary -/

/-- The statements of `p` followed by those of `r`. -/
def PProg.append : PProg → PProg → PProg
  | .nil, r => r
  | .assign bs rest, r => .assign bs (rest.append r)
  | .pass rest, r => .pass (rest.append r)
  | .ifte c p q rest, r => .ifte c p q (rest.append r)
  | .while_ pre c p rest, r => .while_ pre c p (rest.append r)
  | .loopr i e s p rest, r => .loopr i e s p (rest.append r)
  | .brk rest, r => .brk (rest.append r)
  | .cont rest, r => .cont (rest.append r)
  | .ret e rest, r => .ret e (rest.append r)
  | .call args rv body rest, r => .call args rv body (rest.append r)
  | .setPar rest, r => .setPar (rest.append r)
  | .unsetPar rest, r => .unsetPar (rest.append r)

/-- `set_parallel()`, the statements of `p`, `unset_parallel()`, then `rest`. -/
def PProg.block (p rest : PProg) : PProg := .setPar (p.append (.unsetPar rest))

/-- A loop occurs in the statement list itself. -/
def PProg.topLoop : PProg → Bool
  | .nil => false
  | .assign _ rest => rest.topLoop
  | .pass rest => rest.topLoop
  | .ifte _ _ _ rest => rest.topLoop
  | .while_ .. => true
  | .loopr .. => true
  | .brk rest => rest.topLoop
  | .cont rest => rest.topLoop
  | .ret _ rest => rest.topLoop
  | .call _ _ _ rest => rest.topLoop
  | .setPar rest => rest.topLoop
  | .unsetPar rest => rest.topLoop

/-- What may be in a parallel block: everything but `break`, `continue` and other parallel blocks, and `return` only
    in the functions called in it (`r`: inside such a function). -/
def PProg.inner (r : Bool) : PProg → Bool
  | .nil => true
  | .assign _ rest => rest.inner r
  | .pass rest => rest.inner r
  | .ifte _ p q rest => p.inner r && q.inner r && rest.inner r
  | .while_ pre _ p rest => pre.inner false && !pre.topLoop && p.inner r && rest.inner r
  | .loopr _ _ _ p rest => p.inner r && rest.inner r
  | .brk _ => false
  | .cont _ => false
  | .ret _ rest => r && rest.inner r
  | .call _ _ body rest => body.inner true && rest.inner r
  | .setPar _ => false
  | .unsetPar _ => false

/-- The assignments in the text of the statements, in order: of an `if` both branches, of a loop the body once, of a
    call those of the arguments and of the function, up to `return` (`sk`: a `return` came before in the list). -/
def PProg.flat : PProg → Reg → Bool → List (Reg × Expr)
  | .nil, _, _ => []
  | .assign bs rest, rv, sk => (if sk then [] else bs) ++ rest.flat rv sk
  | .pass rest, rv, sk => rest.flat rv sk
  | .ifte _ p q rest, rv, sk => (if sk then [] else p.flat rv false ++ q.flat rv false) ++ rest.flat rv sk
  | .while_ pre _ p rest, rv, sk => (if sk then [] else pre.flat rv false ++ p.flat rv false) ++ rest.flat rv sk
  | .loopr i _ s p rest, rv, sk => (if sk then [] else p.flat rv false ++ [(i, plusE i s)]) ++ rest.flat rv sk
  | .brk rest, rv, _ => rest.flat rv true
  | .cont rest, rv, _ => rest.flat rv true
  | .ret e rest, rv, _ => (e.map fun e => (rv, e)).toList ++ rest.flat rv true
  | .call args rv' body rest, rv, sk => (if sk then [] else args ++ body.flat rv' false) ++ rest.flat rv sk
  | .setPar rest, rv, sk => rest.flat rv sk
  | .unsetPar rest, rv, sk => rest.flat rv sk

/-- `Seqd rv e P Q`: `Q` is `P` with every parallel block replaced by one simultaneous assignment of all that is
    assigned in the text of the block.  `e`: an `if` with a `break` or `continue` comes before in the same list; then
    no loop may be among the statements of the block itself. -/
inductive Seqd : Reg → Bool → PProg → Prog → Prop
  | nil {rv e} : Seqd rv e .nil .nil
  | assign {rv e bs rest rest'} : Seqd rv e rest rest' → Seqd rv e (.assign bs rest) (.assign bs rest')
  | pass {rv e rest rest'} : Seqd rv e rest rest' → Seqd rv e (.pass rest) (.pass rest')
  | ifte {rv e c p p' q q' rest rest'} : Seqd rv false p p' → Seqd rv false q q' →
      Seqd rv (e || p'.esc || q'.esc) rest rest' → Seqd rv e (.ifte c p q rest) (.ifte c p' q' rest')
  | while_ {rv e c p p' rest rest'} : Seqd rv false p p' → Seqd rv e rest rest' →
      Seqd rv e (.while_ .nil c p rest) (.while_ .nil c p' rest')
  | loopr {rv e i d s p p' rest rest'} : Seqd rv false p p' → Seqd rv e rest rest' →
      Seqd rv e (.loopr i d s p rest) (.loopr i d s p' rest')
  | brk {rv e rest rest'} : Seqd rv true rest rest' → Seqd rv e (.brk rest) (.brk rest')
  | cont {rv e rest rest'} : Seqd rv true rest rest' → Seqd rv e (.cont rest) (.cont rest')
  | ret {rv e v rest rest'} : Seqd rv e rest rest' → Seqd rv e (.ret v rest) (.ret v rest')
  | call {rv e args rv' body body' rest rest'} : Seqd rv' false body body' → Seqd rv e rest rest' →
      Seqd rv e (.call args rv' body rest) (.call args rv' body' rest')
  | par {rv e} {p rest : PProg} {rest'} : p.inner false = true → (p.topLoop = false ∨ e = false) → Seqd rv e rest rest' →
      Seqd rv e (p.block rest) (.assign (p.flat rv false) rest')

/-! ## FSM operations and the list of jumps -/

theorem addDst_jumps (rs : List Reg) : ∀ (f : FsmSt) (j : List (ℕ × Jump)),
    ({ f with jumps := j } : FsmSt).addDst rs = { f.addDst rs with jumps := j } := by
  induction rs with
  | nil => intro f j; rfl
  | cons r rs ih =>
    intro f j
    simp only [FsmSt.addDst]
    by_cases h : f.dstVar.any (fun d => d.name = r.name) = true
    · rw [if_pos h, if_pos h]; exact ih f j
    · rw [if_neg h, if_neg h]; exact ih { f with dstVar := f.dstVar ++ [r] } j

/-- The binds, on the FSM alone. -/
def fb (f : FsmSt) (bs : List (Reg × Expr)) : FsmSt :=
  bs.foldl (fun f b => f.addStatement [.subst b.1 b.2] {}) f

theorem fb_cons (f : FsmSt) (b : Reg × Expr) (bs) : fb f (b :: bs) = fb (f.addStatement [.subst b.1 b.2] {}) bs := rfl

theorem fb_append (f : FsmSt) (a b : List (Reg × Expr)) : fb f (a ++ b) = fb (fb f a) b := by
  simp [fb, List.foldl_append]

theorem binds_fsm (bs : List (Reg × Expr)) : ∀ s : CS, s.binds bs = ⟨fb s.fsm bs, s.frame⟩ := by
  induction bs with
  | nil => intro s; rfl
  | cons b bs ih =>
    intro s
    exact ih (s.bind b.1 b.2)

theorem fb_jumps (bs : List (Reg × Expr)) : ∀ (f : FsmSt) (j : List (ℕ × Jump)),
    fb { f with jumps := j } bs = { fb f bs with jumps := j } := by
  induction bs with
  | nil => intro f j; rfl
  | cons b bs ih =>
    intro f j
    rw [fb_cons, fb_cons, ← ih]
    congr 1
    exact addDst_jumps _ { f with code := f.code ++ [((0, f.cur), .plain (.subst b.1 b.2))],
                                  delayAmount := max f.delayAmount 0 } j

theorem fb_keeps (bs : List (Reg × Expr)) (f : FsmSt) : (fb f bs).jumps = f.jumps ∧ (fb f bs).next = f.next ∧
    (fb f bs).cur = f.cur := by
  have h1 := binds_fsm bs ⟨f, {}⟩
  induction bs generalizing f with
  | nil => exact ⟨rfl, rfl, rfl⟩
  | cons b bs ih =>
    obtain ⟨l, hl⟩ := push_eq f f.cur (.plain (.subst b.1 b.2))
    have : f.addStatement [.subst b.1 b.2] {} = _ := hl
    rw [fb_cons, this]
    obtain ⟨i1, i2, i3⟩ := ih _ (binds_fsm bs _)
    exact ⟨i1, i2, i3⟩

theorem gotoFrom_eq {f : FsmSt} (h : f.next = {}) (a b c e) :
    f.gotoFrom a b c e = { f with jumps := f.jumps ++ [(a, ⟨b, c, e⟩)] } := by
  obtain ⟨name, width, cur, code, jumps, da, tc, dv, sq, lc, ld, li, ne, ec, nx⟩ := f
  simp only at h
  subst h
  cases c <;> rfl

/-! ## A block -/

/-- From `f` to `f'`: the assignments `bs` in the current state, and jumps from the current state. -/
def PR (f f' : FsmSt) (bs : List (Reg × Expr)) : Prop :=
  ∃ J : List (ℕ × Jump), f' = { fb f bs with jumps := f.jumps ++ J } ∧ ∀ j ∈ J, j.1 = f.cur

theorem PR.refl (f : FsmSt) : PR f f [] := ⟨[], by simp [fb], by simp⟩

theorem PR.cur {f f' : FsmSt} {bs} (h : PR f f' bs) : f'.cur = f.cur := by
  obtain ⟨J, rfl, -⟩ := h; exact (fb_keeps bs f).2.2

theorem PR.next {f f' : FsmSt} {bs} (h : PR f f' bs) : f'.next = f.next := by
  obtain ⟨J, rfl, -⟩ := h; exact (fb_keeps bs f).2.1

theorem PR.trans {f g k : FsmSt} {a b} (h1 : PR f g a) (h2 : PR g k b) : PR f k (a ++ b) := by
  have hc := h1.cur
  obtain ⟨J, rfl, hJ⟩ := h1
  obtain ⟨K, rfl, hK⟩ := h2
  refine ⟨J ++ K, ?_, ?_⟩
  · rw [fb_append, fb_jumps, List.append_assoc]
  · intro j hj
    rcases List.mem_append.1 hj with h | h
    · exact hJ j h
    · exact (hK j h).trans hc

theorem PR.binds (f : FsmSt) (bs) : PR f (fb f bs) bs := by
  refine ⟨[], ?_, by simp⟩
  have := (fb_keeps bs f).1
  rw [List.append_nil, ← this]

theorem PR.jump {f : FsmSt} (h : f.next = {}) {a : ℕ} (ha : a = f.cur) (b c e) : PR f (f.gotoFrom a b c e) [] :=
  ⟨[(a, ⟨b, c, e⟩)], by rw [gotoFrom_eq h]; rfl, by simp [ha]⟩

theorem PR.resolve (l : List ℕ) (d : ℕ) : ∀ (s : CS), s.fsm.next = {} → (∀ x ∈ l, x = s.cur) →
    PR s.fsm (s.resolve l d).fsm [] := by
  induction l with
  | nil => intro s _ _; exact PR.refl _
  | cons b l ih =>
    intro s hn hl
    have h1 : PR s.fsm (s.jump b d none none).fsm [] := PR.jump hn (hl b (by simp)) d none none
    exact h1.trans (ih _ (h1.next.trans hn) fun x hx => hl x (by simp [hx]))

/-- No jump of an enclosing loop is open. -/
def Frame.clean (f : Frame) : Prop := f.brk = [] ∧ f.cont = [] ∧ f.subBrk = [] ∧ f.subCont = []

/-- What statements of a parallel block do to the visitor. -/
structure Blk (s s' : PS) (bs : List (Reg × Expr)) (r : Bool) : Prop where
  par : s'.par = true
  pr : PR s.cs.fsm s'.cs.fsm bs
  brk : s'.cs.frame.brk = s.cs.frame.brk
  cont : s'.cs.frame.cont = s.cs.frame.cont
  sbrk : s'.cs.frame.subBrk = s.cs.frame.subBrk
  scont : s'.cs.frame.subCont = s.cs.frame.subCont
  ret : ∀ x ∈ s'.cs.frame.ret, x ∈ s.cs.frame.ret ∨ x = s.cs.cur
  sret : ∀ x ∈ s'.cs.frame.subRet, x ∈ s.cs.frame.subRet ∨ x = s.cs.cur
  frame : r = false → s'.cs.frame = s.cs.frame

theorem Blk.refl {s : PS} (h : s.par = true) (r : Bool) : Blk s s [] r :=
  ⟨h, PR.refl _, rfl, rfl, rfl, rfl, fun _ h => .inl h, fun _ h => .inl h, fun _ => rfl⟩

theorem Blk.of_frame {s s' : PS} {bs} {r} (hp : s'.par = true) (hr : PR s.cs.fsm s'.cs.fsm bs)
    (hf : s'.cs.frame = s.cs.frame) : Blk s s' bs r :=
  ⟨hp, hr, by rw [hf], by rw [hf], by rw [hf], by rw [hf], fun _ h => .inl (hf ▸ h), fun _ h => .inl (hf ▸ h), fun _ => hf⟩

theorem Blk.cur {s s' : PS} {bs} {r} (h : Blk s s' bs r) : s'.cs.cur = s.cs.cur := h.pr.cur

theorem Blk.trans {s t u : PS} {a b} {r} (h : Blk s t a r) (k : Blk t u b r) : Blk s u (a ++ b) r where
  par := k.par
  pr := h.pr.trans k.pr
  brk := k.brk.trans h.brk
  cont := k.cont.trans h.cont
  sbrk := k.sbrk.trans h.sbrk
  scont := k.scont.trans h.scont
  ret x hx := by
    rcases k.ret x hx with h1 | h1
    · exact h.ret x h1
    · exact .inr (h1.trans h.cur)
  sret x hx := by
    rcases k.sret x hx with h1 | h1
    · exact h.sret x h1
    · exact .inr (h1.trans h.cur)
  frame hr := (k.frame hr).trans (h.frame hr)

theorem Blk.mono {s t : PS} {a} {r} (h : Blk s t a false) : Blk s t a r :=
  ⟨h.par, h.pr, h.brk, h.cont, h.sbrk, h.scont, h.ret, h.sret, fun _ => h.frame rfl⟩

theorem Blk.clean {s t : PS} {a} {r} (h : Blk s t a r) (hc : s.cs.frame.clean) : t.cs.frame.clean :=
  ⟨h.brk.trans hc.1, h.cont.trans hc.2.1, h.sbrk.trans hc.2.2.1, h.scont.trans hc.2.2.2⟩

theorem Blk.inFrame {s : PS} {f : PS → PS} {bs} {r}
    (h : Blk (s.map fun c => { c with frame := {} }) (f (s.map fun c => { c with frame := {} })) bs r) :
    Blk s (s.inFrame f) bs r ∧ (s.inFrame f).cs.frame.ret = s.cs.frame.ret := by
  refine ⟨⟨h.par, h.pr, rfl, rfl, ?_, ?_, fun x hx => .inl hx, ?_, ?_⟩, rfl⟩
  · have h1 := h.brk
    have h2 := h.sbrk
    simp only [PS.map] at h1 h2
    simp [PS.inFrame, PS.map, Frame.pop, Frame.allBrk, h1, h2]
  · have h1 := h.cont
    have h2 := h.scont
    simp only [PS.map] at h1 h2
    simp [PS.inFrame, PS.map, Frame.pop, Frame.allCont, h1, h2]
  · intro x hx
    simp only [PS.inFrame, PS.map, Frame.pop, Frame.allRet, List.mem_append] at hx
    rcases hx with hx | hx | hx
    · exact .inl hx
    · rcases h.ret x hx with h1 | h1
      · simp [PS.map] at h1
      · exact .inr h1
    · rcases h.sret x hx with h1 | h1
      · simp [PS.map] at h1
      · exact .inr h1
  · intro hr
    have := h.frame hr
    simp only [PS.map] at this
    simp [PS.inFrame, PS.map, this, Frame.pop, Frame.allBrk, Frame.allCont, Frame.allRet]

theorem PS.inc_par {s : PS} (h : s.par = true) : s.inc = s := by simp [PS.inc, h]
theorem PS.jumpNext_par {s : PS} (h : s.par = true) : s.jumpNext = s := by simp [PS.jumpNext, h]

theorem Blk.jump {s : PS} (h : s.par = true) (hn : s.cs.fsm.next = {}) {a : ℕ} (ha : a = s.cs.cur) (b c e) {r} :
    Blk s (s.map (·.jump a b c e)) [] r := Blk.of_frame h (PR.jump hn ha b c e) rfl

theorem Blk.skip {s t : PS} {a} {r} (h : Blk s t a r) (hr : t.cs.frame.ret = s.cs.frame.ret) :
    t.cs.frame.skip = s.cs.frame.skip := by
  simp [Frame.skip, h.brk, h.cont, hr]

theorem endLoop_clean {s : CS} (h : s.frame.clean) (a b : ℕ) : s.endLoop a b = s := by
  obtain ⟨fsm, brk, cont, ret, sb, sc, sr⟩ := s
  obtain ⟨h1, h2, h3, h4⟩ := h
  simp only at h1 h2 h3 h4
  subst h1 h2 h3 h4
  rfl

theorem compileP_block (p : PProg) : ∀ (r : Bool) (rv : Reg) (s : PS), p.inner r = true → s.par = true →
    s.cs.fsm.next = {} → (p.topLoop = false ∨ s.cs.frame.clean) →
    Blk s (compileP p rv s) (p.flat rv s.cs.frame.skip) r := by
  -- one statement, then the rest
  have cons : ∀ (rest : PProg) (ih : ∀ (r : Bool) (rv : Reg) (s : PS), rest.inner r = true → s.par = true →
      s.cs.fsm.next = {} → (rest.topLoop = false ∨ s.cs.frame.clean) →
      Blk s (compileP rest rv s) (rest.flat rv s.cs.frame.skip) r) (r : Bool) (rv : Reg) (s t : PS) (a),
      rest.inner r = true → s.cs.fsm.next = {} → (rest.topLoop = false ∨ s.cs.frame.clean) → Blk s t a r →
      t.cs.frame.ret = s.cs.frame.ret →
      Blk s (compileP rest rv t) (a ++ rest.flat rv s.cs.frame.skip) r := by
    intro rest ih r rv s t a hi hn hc h hr
    rw [← h.skip hr]
    exact h.trans (ih r rv t hi h.par (h.pr.next.trans hn) (hc.imp_right h.clean))
  induction p with
  | nil => intro r rv s _ hp _ _; exact Blk.refl hp r
  | pass rest ih => intro r rv s hi hp hn hc; exact ih r rv s hi hp hn hc
  | assign bs rest ih =>
    intro r rv s hi hp hn hc
    simp only [compileP, PProg.flat]
    refine cons rest ih r rv s _ _ hi hn hc ?_ ?_
    · by_cases hs : s.cs.frame.skip = true
      · simp only [hs, if_true]; exact Blk.refl hp r
      · simp only [hs]
        have hp' : (s.map (·.binds bs)).par = true := hp
        simp only [PS.jumpNext_par hp', PS.inc_par hp']
        refine Blk.of_frame hp' ?_ (binds_frame _ _)
        simp only [PS.map, binds_fsm]
        exact PR.binds _ _
    · by_cases hs : s.cs.frame.skip = true
      · simp only [hs, if_true]
      · simp only [hs]
        have hp' : (s.map (·.binds bs)).par = true := hp
        simp only [PS.jumpNext_par hp', PS.inc_par hp', Bool.false_eq_true, if_false]
        simp [PS.map]
  | ifte c p q rest ihp ihq ihr =>
    intro r rv s hi hp hn hc
    simp only [PProg.inner, Bool.and_eq_true] at hi
    simp only [compileP, PProg.flat]
    by_cases hs : s.cs.frame.skip = true
    · simp only [hs, if_true]
      have := cons rest ihr r rv s s [] hi.2 hn hc (Blk.refl hp r) rfl
      rwa [hs] at this
    · simp only [hs, Bool.false_eq_true, if_false, PS.inc_par hp]
      obtain ⟨b1, e1⟩ := Blk.inFrame (s := s) (f := compileP p rv)
        (ihp r rv (s.map fun c => { c with frame := {} }) hi.1.1 hp hn (.inr ⟨rfl, rfl, rfl, rfl⟩))
      have hpf : p.flat rv ((s.map fun c => { c with frame := {} }).cs.frame.skip) = p.flat rv false := rfl
      rw [hpf] at b1
      by_cases hq : q.isNil = true
      · simp only [hq, if_true]
        have hq' : q.flat rv false = [] := by cases q <;> simp_all [PProg.isNil, PProg.flat]
        rw [hq', List.append_nil]
        have b2 := b1.trans (Blk.jump b1.par (b1.pr.next.trans hn) b1.cur.symm s.cur (some c)
          (some (s.inFrame (compileP p rv)).cur))
        rw [List.append_nil] at b2
        have := cons rest ihr r rv s _ _ hi.2 hn hc b2 e1
        rwa [Bool.eq_false_iff.2 hs] at this
      · simp only [hq, Bool.false_eq_true, if_false, PS.inc_par b1.par]
        obtain ⟨b2, e2⟩ := Blk.inFrame (s := s.inFrame (compileP p rv)) (f := compileP q rv)
          (ihq r rv _ hi.1.2 b1.par (b1.pr.next.trans hn) (.inr ⟨rfl, rfl, rfl, rfl⟩))
        have hqf : q.flat rv (((s.inFrame (compileP p rv)).map fun c => { c with frame := {} }).cs.frame.skip) =
          q.flat rv false := rfl
        rw [hqf] at b2
        have b3 := b1.trans b2
        have b4 := b3.trans (Blk.jump b3.par (b3.pr.next.trans hn) b3.cur.symm s.cur (some c)
          (some (s.inFrame (compileP p rv)).cur))
        have b5 := b4.trans (Blk.jump b4.par (b4.pr.next.trans hn) (a := (s.inFrame (compileP p rv)).cur)
          (b1.cur.trans b4.cur.symm) ((s.inFrame (compileP p rv)).inFrame (compileP q rv)).cur none none)
        rw [List.append_nil, List.append_nil] at b5
        have := cons rest ihr r rv s _ _ hi.2 hn hc b5 (e2.trans e1)
        rwa [Bool.eq_false_iff.2 hs] at this
  | while_ pre c p rest ihpre ihp ihr =>
    intro r rv s hi hp hn hc
    simp only [PProg.inner, Bool.and_eq_true, Bool.not_eq_true'] at hi
    have hcl : s.cs.frame.clean := hc.resolve_left (by simp [PProg.topLoop])
    simp only [compileP, PProg.flat]
    by_cases hs : s.cs.frame.skip = true
    · simp only [hs, if_true]
      have := cons rest ihr r rv s s [] hi.2 hn (.inr hcl) (Blk.refl hp r) rfl
      rwa [hs] at this
    · simp only [hs, Bool.false_eq_true, if_false]
      have b0 := ihpre false rv s hi.1.1.1 hp hn (.inl hi.1.1.2)
      rw [Bool.eq_false_iff.2 hs] at b0
      have e0 := b0.frame rfl
      replace b0 := b0.mono (r := r)
      simp only [PS.inc_par b0.par]
      obtain ⟨b1, e1⟩ := Blk.inFrame (s := compileP pre rv s) (f := compileP p rv)
        (ihp r rv _ hi.1.2 b0.par (b0.pr.next.trans hn) (.inr ⟨rfl, rfl, rfl, rfl⟩))
      have hpf : p.flat rv (((compileP pre rv s).map fun c => { c with frame := {} }).cs.frame.skip) = p.flat rv false := rfl
      rw [hpf] at b1
      simp only [PS.inc_par b1.par]
      have b2 := b0.trans b1
      have b3 := b2.trans (Blk.jump b2.par (b2.pr.next.trans hn) (a := (compileP pre rv s).cur)
        (b0.cur.trans b2.cur.symm) (compileP pre rv s).cur (some c)
        (some ((compileP pre rv s).inFrame (compileP p rv)).cur))
      have b4 := b3.trans (Blk.jump b3.par (b3.pr.next.trans hn) (a := ((compileP pre rv s).inFrame (compileP p rv)).cur)
        (b2.cur.trans b3.cur.symm) (compileP pre rv s).cur none none)
      rw [List.append_nil, List.append_nil] at b4
      have hl := endLoop_clean (b4.clean hcl) ((compileP pre rv s).inFrame (compileP p rv)).cur (compileP pre rv s).cur
      simp only [PS.map] at hl b4 ⊢
      rw [hl]
      have := cons rest ihr r rv s _ _ hi.2 hn (.inr hcl) b4 (e1.trans (by rw [e0]))
      rwa [Bool.eq_false_iff.2 hs] at this
  | loopr i e st p rest ihp ihr =>
    intro r rv s hi hp hn hc
    simp only [PProg.inner, Bool.and_eq_true] at hi
    have hcl : s.cs.frame.clean := hc.resolve_left (by simp [PProg.topLoop])
    simp only [compileP, PProg.flat]
    by_cases hs : s.cs.frame.skip = true
    · simp only [hs, if_true]
      have := cons rest ihr r rv s s [] hi.2 hn (.inr hcl) (Blk.refl hp r) rfl
      rwa [hs] at this
    · simp only [hs, Bool.false_eq_true, if_false, PS.inc_par hp]
      obtain ⟨b1, e1⟩ := Blk.inFrame (s := s) (f := compileP p rv)
        (ihp r rv (s.map fun c => { c with frame := {} }) hi.1 hp hn (.inr ⟨rfl, rfl, rfl, rfl⟩))
      have hpf : p.flat rv ((s.map fun c => { c with frame := {} }).cs.frame.skip) = p.flat rv false := rfl
      rw [hpf] at b1
      have bb : Blk (s.inFrame (compileP p rv)) ((s.inFrame (compileP p rv)).map (·.bind i (plusE i st)))
          [(i, plusE i st)] r := Blk.of_frame b1.par (PR.binds _ [(i, plusE i st)]) rfl
      have b2 := b1.trans bb
      simp only [PS.inc_par b2.par]
      have b3 := b2.trans (Blk.jump b2.par (b2.pr.next.trans hn) (a := (s.inFrame (compileP p rv)).cur)
        (b1.cur.trans b2.cur.symm) s.cur none none)
      have b4 := b3.trans (Blk.jump b3.par (b3.pr.next.trans hn) (a := s.cur)
        b3.cur.symm s.cur (some (ltE i e)) (some ((s.inFrame (compileP p rv)).map (·.bind i (plusE i st))).cur))
      rw [List.append_nil, List.append_nil] at b4
      have hl := endLoop_clean (b4.clean hcl) ((s.inFrame (compileP p rv)).map (·.bind i (plusE i st))).cur
        (s.inFrame (compileP p rv)).cur
      simp only [PS.map] at hl b4 ⊢
      rw [hl]
      have := cons rest ihr r rv s _ _ hi.2 hn (.inr hcl) b4 e1
      rwa [Bool.eq_false_iff.2 hs] at this
  | brk rest ih => intro r rv s hi; simp [PProg.inner] at hi
  | cont rest ih => intro r rv s hi; simp [PProg.inner] at hi
  | setPar rest ih => intro r rv s hi; simp [PProg.inner] at hi
  | unsetPar rest ih => intro r rv s hi; simp [PProg.inner] at hi
  | ret e rest ih =>
    intro r rv s hi hp hn hc
    simp only [PProg.inner, Bool.and_eq_true] at hi
    obtain ⟨rfl, hi⟩ := hi
    simp only [compileP, PProg.flat]
    have hp' : ((s.map (·.binds ((e.map fun e => (rv, e)).toList))).map fun s =>
      { s with frame := { s.frame with ret := s.frame.ret ++ [s.cur] } }).par = true := hp
    rw [PS.inc_par hp']
    have b1 : Blk s ((s.map (·.binds ((e.map fun e => (rv, e)).toList))).map fun s =>
      { s with frame := { s.frame with ret := s.frame.ret ++ [s.cur] } }) ((e.map fun e => (rv, e)).toList) true := by
      refine ⟨hp, ?_, ?_, ?_, ?_, ?_, ?_, ?_, fun h => absurd h (by decide)⟩
      · simp only [PS.map, binds_fsm]; exact PR.binds _ _
      · simp [PS.map]
      · simp [PS.map]
      · simp [PS.map]
      · simp [PS.map]
      · intro x hx
        simpa [PS.map] using hx
      · intro x hx
        exact .inl (by simpa [PS.map] using hx)
    have b2 := b1.trans (ih true rv _ hi b1.par (b1.pr.next.trans hn) (hc.imp_right b1.clean))
    have hsk : (((s.map (·.binds ((e.map fun e => (rv, e)).toList))).map fun s =>
      { s with frame := { s.frame with ret := s.frame.ret ++ [s.cur] } }) : PS).cs.frame.skip = true := by
      simp [PS.map, Frame.skip]
    rw [hsk] at b2
    exact b2
  | call args rv' body rest ihb ihr =>
    intro r rv s hi hp hn hc
    simp only [PProg.inner, Bool.and_eq_true] at hi
    simp only [compileP, PProg.flat]
    by_cases hs : s.cs.frame.skip = true
    · simp only [hs, if_true]
      have := cons rest ihr r rv s s [] hi.2 hn hc (Blk.refl hp r) rfl
      rwa [hs] at this
    · simp only [hs, Bool.false_eq_true, if_false]
      have hp' : (s.map fun s => ({ s with frame := {} } : CS).binds args).par = true := hp
      rw [PS.jumpNext_par hp', PS.inc_par hp']
      have p1 : PR s.cs.fsm (s.map fun s => ({ s with frame := {} } : CS).binds args).cs.fsm args := by
        simp only [PS.map, binds_fsm]; exact PR.binds _ _
      have hf1 : (s.map fun s => ({ s with frame := {} } : CS).binds args).cs.frame = {} := by simp [PS.map]
      have b1 := ihb true rv' _ hi.1 hp' (p1.next.trans hn) (.inr (by rw [hf1]; exact ⟨rfl, rfl, rfl, rfl⟩))
      have hbf : body.flat rv' (s.map fun s => ({ s with frame := {} } : CS).binds args).cs.frame.skip =
        body.flat rv' false := by rw [hf1]; rfl
      rw [hbf] at b1
      have p2 := p1.trans b1.pr
      have p3 := p2.trans (PR.resolve
        (compileP body rv' (s.map fun s => ({ s with frame := {} } : CS).binds args)).cs.frame.allRet
        (compileP body rv' (s.map fun s => ({ s with frame := {} } : CS).binds args)).cs.cur
        (compileP body rv' (s.map fun s => ({ s with frame := {} } : CS).binds args)).cs (p2.next.trans hn) (by
          intro x hx
          rcases List.mem_append.1 hx with h | h
          · rcases b1.ret x h with h1 | h1
            · rw [hf1] at h1; simp at h1
            · exact h1.trans b1.cur.symm
          · rcases b1.sret x h with h1 | h1
            · rw [hf1] at h1; simp at h1
            · exact h1.trans b1.cur.symm))
      rw [List.append_nil] at p3
      have := cons rest ihr r rv s _ _ hi.2 hn hc (Blk.of_frame (r := r) (s' := (compileP body rv'
        (s.map fun s => ({ s with frame := {} } : CS).binds args)).map fun t =>
          { t.resolve t.frame.allRet t.cur with frame := s.cs.frame }) b1.par p3 rfl) rfl
      rwa [Bool.eq_false_iff.2 hs] at this

/-! ## Two visitors whose FSMs differ in overridden jumps only -/

structure Sim (s t : CS) : Prop where
  frame : s.frame = t.frame
  next : s.fsm.next = {}
  fsm : t.fsm = { s.fsm with jumps := t.fsm.jumps }
  last : ∀ i env x, (traceL (s.fsm.jumpsAt i) env x).getLast? = (traceL (t.fsm.jumpsAt i) env x).getLast?

theorem Sim.refl {s : CS} (h : s.fsm.next = {}) : Sim s s := ⟨rfl, h, rfl, fun _ _ _ => rfl⟩

theorem jumpsAt_setJumps (f : FsmSt) (J K : List (ℕ × Jump)) (i : ℕ) :
    ({ f with jumps := J ++ K } : FsmSt).jumpsAt i =
      ({ f with jumps := J } : FsmSt).jumpsAt i ++ ({ f with jumps := K } : FsmSt).jumpsAt i := by
  simp only [FsmSt.jumpsAt, List.filterMap_append]
  rfl

/-- Both append to the list of jumps, what they append ends alike. -/
theorem Sim.ext {s t : CS} (h : Sim s t) {f' g' : FsmSt} {F : Frame} {J K : List (ℕ × Jump)} {bs}
    (hf : f' = { fb s.fsm bs with jumps := s.fsm.jumps ++ J }) (hg : g' = { fb t.fsm bs with jumps := t.fsm.jumps ++ K })
    (hJ : ∀ i env x, (traceL (({ s.fsm with jumps := J } : FsmSt).jumpsAt i) env x).getLast? =
      (traceL (({ s.fsm with jumps := K } : FsmSt).jumpsAt i) env x).getLast?) : Sim ⟨f', F⟩ ⟨g', F⟩ := by
  subst hf hg
  refine ⟨rfl, (fb_keeps bs _).2.1.trans h.next, ?_, fun i env x => ?_⟩
  · rw [h.fsm, fb_jumps]
  · have hk : ∀ (f : FsmSt) (L : List (ℕ × Jump)) i,
        ({ fb f bs with jumps := L } : FsmSt).jumpsAt i = ({ f with jumps := L } : FsmSt).jumpsAt i := by
      intro f L i
      have h1 : (fb f bs).stateReg = f.stateReg := by
        have h2 : ∀ (bs : List (Reg × Expr)) (f : FsmSt), (fb f bs).stateReg = f.stateReg := by
          intro bs
          induction bs with
          | nil => intro f; rfl
          | cons b bs ih =>
            intro f
            obtain ⟨l, hl⟩ := push_eq f f.cur (.plain (.subst b.1 b.2))
            have : f.addStatement [.subst b.1 b.2] {} = _ := hl
            rw [fb_cons, ih, this]
            rfl
        exact h2 bs f
      simp only [FsmSt.jumpsAt]
      change L.filterMap (fun e => if e.1 = i then some (FsmSt.jumpCode (fb f bs).stateReg e.2) else none) = _
      rw [h1]
      rfl
    have hs : ∀ L i, ({ t.fsm with jumps := L } : FsmSt).jumpsAt i = ({ s.fsm with jumps := L } : FsmSt).jumpsAt i := by
      intro L i; rw [h.fsm]
    simp only [hk]
    rw [jumpsAt_setJumps, jumpsAt_setJumps, traceL_append, traceL_append, List.getLast?_append, List.getLast?_append,
      hs K, hJ]
    have := h.last i env x
    rw [show ({ t.fsm with jumps := t.fsm.jumps } : FsmSt) = t.fsm from rfl,
      show ({ s.fsm with jumps := s.fsm.jumps } : FsmSt) = s.fsm from rfl, this]

theorem Sim.cur {s t : CS} (h : Sim s t) : t.cur = s.cur := by
  unfold CS.cur; rw [h.fsm]

theorem Sim.withFrame {s t : CS} (h : Sim s t) (F : Frame) : Sim { s with frame := F } { t with frame := F } :=
  ⟨rfl, h.next, h.fsm, h.last⟩

theorem Sim.binds {s t : CS} (h : Sim s t) (bs) : Sim (s.binds bs) (t.binds bs) := by
  rw [binds_fsm, binds_fsm, ← h.frame]
  refine h.ext (J := []) (K := []) (bs := bs) ?_ ?_ (fun _ _ _ => rfl)
  · rw [List.append_nil, ← (fb_keeps bs s.fsm).1]
  · rw [List.append_nil, ← (fb_keeps bs t.fsm).1]

theorem Sim.next' {s t : CS} (h : Sim s t) : t.fsm.next = {} := by rw [h.fsm]; exact h.next

theorem Sim.jump {s t : CS} (h : Sim s t) (a b c e) : Sim (s.jump a b c e) (t.jump a b c e) := by
  have hf : (⟨t.fsm.gotoFrom a b c e, t.frame⟩ : CS) = ⟨t.fsm.gotoFrom a b c e, s.frame⟩ := by rw [h.frame]
  unfold CS.jump
  rw [hf]
  exact h.ext (bs := []) (gotoFrom_eq h.next a b c e) (gotoFrom_eq h.next' a b c e) (fun _ _ _ => rfl)

theorem Sim.inc {s t : CS} (h : Sim s t) : Sim s.inc t.inc := by
  refine ⟨h.frame, rfl, ?_, fun i env x => ?_⟩
  · have := h.fsm
    simp only [CS.inc, h.cur]
    rw [this]
    rfl
  · exact h.last i env x

theorem Sim.jumpNext {s t : CS} (h : Sim s t) : Sim s.jumpNext t.jumpNext := by
  unfold CS.jumpNext; rw [h.cur]; exact h.jump ..

theorem Sim.resolve (l : List ℕ) (d : ℕ) : ∀ {s t : CS}, Sim s t → Sim (s.resolve l d) (t.resolve l d) := by
  induction l with
  | nil => intro s t h; exact h
  | cons b l ih => intro s t h; exact ih (h.jump b d none none)

theorem Sim.endLoop {s t : CS} (h : Sim s t) (a b : ℕ) : Sim (s.endLoop a b) (t.endLoop a b) := by
  unfold CS.endLoop
  have h1 := h.resolve (l := s.frame.allBrk) (d := a)
  have h2 := h1.resolve (l := s.frame.allCont) (d := b)
  have h3 := h2.withFrame (s.frame.clearLoop)
  simp only [resolve_frame, ← h.frame]
  exact h3

theorem compile_clean (q : Prog) : ∀ (rv : Reg) (s : CS), q.esc = false → s.frame.clean → (compile q rv s).frame.clean := by
  have pop : ∀ {f g : Frame}, f.clean → g.clean → (f.pop g).clean := by
    rintro f g ⟨a1, a2, a3, a4⟩ ⟨b1, b2, b3, b4⟩
    simp [Frame.clean, Frame.pop, Frame.allBrk, Frame.allCont, a1, a2, a3, a4, b1, b2, b3, b4]
  have emp : ({} : Frame).clean := ⟨rfl, rfl, rfl, rfl⟩
  induction q with
  | nil => intro rv s _ h; exact h
  | pass rest ih => intro rv s he h; exact ih rv s he h
  | assign bs rest ih =>
    intro rv s he h
    simp only [compile]
    refine ih rv _ he ?_
    split
    · exact h
    · simpa [CS.jumpNext] using h
  | ifte c p q rest ihp ihq ihr =>
    intro rv s he h
    simp only [Prog.esc, Bool.or_eq_false_iff] at he
    simp only [compile]
    refine ihr rv _ he.2 ?_
    split
    · exact h
    · split
      · exact pop h (ihp rv _ he.1.1 emp)
      · exact pop (pop h (ihp rv _ he.1.1 emp)) (ihq rv _ he.1.2 emp)
  | while_ pre c p rest ihpre ihp ihr =>
    intro rv s he h
    simp only [Prog.esc, Bool.or_eq_false_iff] at he
    simp only [compile]
    refine ihr rv _ he.2 ?_
    split
    · exact h
    · exact ⟨rfl, rfl, rfl, rfl⟩
  | loopr i e st p rest ihp ihr =>
    intro rv s he h
    simp only [compile]
    refine ihr rv _ he ?_
    split
    · exact h
    · exact ⟨rfl, rfl, rfl, rfl⟩
  | brk rest ih => intro rv s he; simp [Prog.esc] at he
  | cont rest ih => intro rv s he; simp [Prog.esc] at he
  | ret e rest ih =>
    intro rv s he h
    simp only [compile]
    refine ih rv _ he ?_
    simpa [Frame.clean] using h
  | call args rv' body rest ihb ihr =>
    intro rv s he h
    simp only [compile]
    refine ihr rv _ he ?_
    split <;> exact h

theorem compileP_append (p : PProg) : ∀ (r : PProg) (rv : Reg) (s : PS),
    compileP (p.append r) rv s = compileP r rv (compileP p rv s) := by
  induction p with
  | nil => intro r rv s; rfl
  | _ => intro r rv s; simp only [PProg.append, compileP, *]

/-- A block compared with one assignment. -/
theorem block_sim {p : PProg} {rv : Reg} {s t : CS} (h : Sim s t) (hi : p.inner false = true)
    (hc : p.topLoop = false ∨ s.frame.clean) (hs : s.frame.skip = false) :
    ∃ s', (fun u : PS => (⟨{ u.cs with fsm := u.cs.fsm.gotoNext none }, false⟩ : PS)) (compileP p rv ⟨s, true⟩) =
      ⟨s', false⟩ ∧ (compileP p rv ⟨s, true⟩).cs.frame = s.frame ∧
      Sim s' ((t.binds (p.flat rv false)).jumpNext.inc) := by
  have b := compileP_block p false rv ⟨s, true⟩ hi rfl h.next hc
  rw [show (⟨s, true⟩ : PS).cs.frame.skip = false from hs] at b
  refine ⟨_, rfl, b.frame rfl, ?_⟩
  have hfr := b.frame rfl
  have hcur := b.pr.cur
  have hnx := b.pr.next.trans h.next
  obtain ⟨J, hJ, hJc⟩ := b.pr
  obtain ⟨f', hf'⟩ : ∃ f', (compileP p rv ⟨s, true⟩).cs.fsm = f' := ⟨_, rfl⟩
  rw [hf'] at hJ hcur hnx
  have e0 : ({ (compileP p rv ⟨s, true⟩).cs with fsm := (compileP p rv ⟨s, true⟩).cs.fsm.gotoNext none } : CS) =
      ⟨f'.gotoNext none, s.frame⟩ := by
    rw [hf', ← hfr]
  rw [e0]
  -- before the index is advanced
  have k : Sim ⟨f'.gotoFrom s.cur (s.cur + 1) none none, s.frame⟩ (t.binds (p.flat rv false)).jumpNext := by
    have e2 : (t.binds (p.flat rv false)).jumpNext = ⟨{ fb t.fsm (p.flat rv false) with
        jumps := t.fsm.jumps ++ [(s.cur, ⟨s.cur + 1, none, none⟩)] }, s.frame⟩ := by
      have hn : (fb t.fsm (p.flat rv false)).next = {} := (fb_keeps _ _).2.1.trans h.next'
      unfold CS.jumpNext CS.jump
      rw [binds_cur, h.cur, binds_fsm, gotoFrom_eq hn, (fb_keeps _ _).1, h.frame]
    rw [e2]
    refine h.ext (J := J ++ [(s.cur, ⟨s.cur + 1, none, none⟩)]) (bs := p.flat rv false) ?_ rfl ?_
    · rw [gotoFrom_eq hnx, hJ, List.append_assoc]
    · intro i env x
      rw [jumpsAt_setJumps, traceL_append, List.getLast?_append]
      by_cases hi' : s.cur = i
      · by_cases hx : s.fsm.stateReg.name = x
        · have : (traceL (({ s.fsm with jumps := [(s.cur, ⟨s.cur + 1, none, none⟩)] } : FsmSt).jumpsAt i) env x) =
              [s.fsm.stateReg.wrap ((s.cur + 1 : ℕ) : Int)] := by
            simp only [FsmSt.jumpsAt, hi', List.filterMap_cons, List.filterMap_nil, if_true, FsmSt.jumpCode,
              traceL_cons, traceL_nil, List.append_nil, Code.trace]
            rw [if_pos]
            · rfl
            · exact hx
          rw [this]
          rfl
        · have z : ∀ L : List (ℕ × Jump), traceL (({ s.fsm with jumps := L } : FsmSt).jumpsAt i) env x = [] := by
            intro L
            simp only [traceL, List.flatMap_eq_nil_iff, FsmSt.jumpsAt, List.mem_filterMap]
            rintro c ⟨e, -, he⟩
            split at he
            · obtain rfl := Option.some.inj he
              have hx' : ({ s.fsm with jumps := L } : FsmSt).stateReg.name ≠ x := hx
              unfold FsmSt.jumpCode
              split
              · simp [Code.trace, hx']
              · split <;> simp [Code.trace, hx']
            · cases he
          rw [z, z]
          rfl
      · have z : ({ s.fsm with jumps := J } : FsmSt).jumpsAt i = [] := by
          simp only [FsmSt.jumpsAt, List.filterMap_eq_nil_iff]
          intro e he
          rw [if_neg]
          rw [hJc e he]
          exact hi'
        rw [z]
        simp
  have k' := k.inc
  have e3 : (⟨f'.gotoNext none, s.frame⟩ : CS) = (⟨f'.gotoFrom s.cur (s.cur + 1) none none, s.frame⟩ : CS).inc := by
    rw [gotoFrom_eq hnx]
    have hc2 : f'.cur = s.cur := hcur
    unfold FsmSt.gotoNext CS.inc
    simp only [FsmSt.goto, hnx, CS.cur, hc2]
    simp only [FsmSt.setIndex, Option.getD_none]
  rw [e3]
  exact k'

theorem PS.inFrame_seq {s s1 : CS} {f : PS → PS} (h : f ⟨⟨s.fsm, {}⟩, false⟩ = ⟨s1, false⟩) :
    (⟨s, false⟩ : PS).inFrame f = ⟨⟨s1.fsm, s.frame.pop s1.frame⟩, false⟩ := by
  have h' : f (PS.map ⟨s, false⟩ fun c => { c with frame := {} }) = ⟨s1, false⟩ := h
  simp only [PS.inFrame, h']
  rfl

theorem PS.inc_seq (s : CS) : (⟨s, false⟩ : PS).inc = ⟨s.inc, false⟩ := rfl

theorem Seqd.isNil {rv e P Q} (h : Seqd rv e P Q) : P.isNil = Q.isNil := by cases h <;> rfl

theorem seqd_sim {rv : Reg} {e : Bool} {P : PProg} {Q : Prog} (h : Seqd rv e P Q) : ∀ (s t : CS), Sim s t →
    (e = false → s.frame.clean) → ∃ s', compileP P rv ⟨s, false⟩ = ⟨s', false⟩ ∧ Sim s' (compile Q rv t) := by
  have emp : ({} : Frame).clean := ⟨rfl, rfl, rfl, rfl⟩
  induction h with
  | nil => intro s t hs _; exact ⟨s, rfl, hs⟩
  | pass _ ih => intro s t hs hc; exact ih s t hs hc
  | @assign rv e bs rest rest' _ ih =>
    intro s t hs hc
    simp only [compileP, compile]
    by_cases hk : s.frame.skip = true
    · have hk' : t.frame.skip = true := hs.frame ▸ hk
      simp only [hk, hk', if_true]
      exact ih s t hs hc
    · have hk' : ¬ t.frame.skip = true := hs.frame ▸ hk
      simp only [hk, hk']
      exact ih (s.binds bs).jumpNext.inc _ ((hs.binds bs).jumpNext.inc) (fun he => by
        simpa [CS.jumpNext] using hc he)
  | @ifte rv e c p p' q q' rest rest' _ hq _ ihp ihq ihr =>
    intro s t hs hc
    simp only [compileP, compile]
    by_cases hk : s.frame.skip = true
    · have hk' : t.frame.skip = true := hs.frame ▸ hk
      simp only [hk, hk', if_true]
      exact ihr s t hs (fun he => hc (by simp only [Bool.or_eq_false_iff] at he; exact he.1.1))
    · have hk' : ¬ t.frame.skip = true := hs.frame ▸ hk
      simp only [hk, hk', Bool.false_eq_true, if_false]
      obtain ⟨s1, e1, h1⟩ := ihp ⟨s.inc.fsm, {}⟩ ⟨t.inc.fsm, {}⟩ (hs.inc.withFrame {}) (fun _ => emp)
      have e1' : (PS.inc ⟨s, false⟩).inFrame (compileP p rv) = ⟨⟨s1.fsm, s.frame.pop s1.frame⟩, false⟩ :=
        PS.inFrame_seq (s := s.inc) e1
      have e1t : t.inc.inFrame (compile p' rv) = ⟨(compile p' rv ⟨t.inc.fsm, {}⟩).fsm,
          t.frame.pop (compile p' rv ⟨t.inc.fsm, {}⟩).frame⟩ := rfl
      have hfr1 : s.frame.pop s1.frame = t.frame.pop (compile p' rv ⟨t.inc.fsm, {}⟩).frame := by
        rw [hs.frame, h1.frame]
      have k1 : Sim ⟨s1.fsm, s.frame.pop s1.frame⟩ (t.inc.inFrame (compile p' rv)) := by
        rw [e1t, ← hfr1]; exact h1.withFrame _
      have c1 : e = false → p'.esc = false → (s.frame.pop s1.frame).clean := by
        intro he hpe
        have a := hc he
        have b := compile_clean p' rv ⟨t.inc.fsm, {}⟩ hpe emp
        rw [← h1.frame] at b
        obtain ⟨a1, a2, a3, a4⟩ := a
        obtain ⟨b1, b2, b3, b4⟩ := b
        simp [Frame.clean, Frame.pop, Frame.allBrk, Frame.allCont, a1, a2, a3, a4, b1, b2, b3, b4]
      have hcur0 : (PS.inc ⟨s, false⟩).cur = t.inc.cur := hs.inc.cur.symm
      have hcur00 : (⟨s, false⟩ : PS).cur = t.cur := hs.cur.symm
      rw [e1', hcur0, hcur00, ← hq.isNil]
      by_cases hqn : q.isNil = true
      · simp only [hqn, if_true]
        have hm : (⟨⟨s1.fsm, s.frame.pop s1.frame⟩, false⟩ : PS).cur = (t.inc.inFrame (compile p' rv)).cur := k1.cur.symm
        rw [hm]
        exact ihr _ _ (k1.jump ..) (fun he => by
          simp only [Bool.or_eq_false_iff] at he
          exact c1 he.1.1 he.1.2)
      · simp only [hqn, Bool.false_eq_true, if_false]
        obtain ⟨s2, e2, h2⟩ := ihq ⟨s1.inc.fsm, {}⟩ ⟨(t.inc.inFrame (compile p' rv)).inc.fsm, {}⟩
          (k1.inc.withFrame {}) (fun _ => emp)
        have e2' : (PS.inc ⟨⟨s1.fsm, s.frame.pop s1.frame⟩, false⟩).inFrame (compileP q rv) =
            ⟨⟨s2.fsm, (s.frame.pop s1.frame).pop s2.frame⟩, false⟩ :=
          PS.inFrame_seq (s := (⟨s1.fsm, s.frame.pop s1.frame⟩ : CS).inc) e2
        have e2t : (t.inc.inFrame (compile p' rv)).inc.inFrame (compile q' rv) =
            ⟨(compile q' rv ⟨(t.inc.inFrame (compile p' rv)).inc.fsm, {}⟩).fsm,
            (t.inc.inFrame (compile p' rv)).frame.pop
              (compile q' rv ⟨(t.inc.inFrame (compile p' rv)).inc.fsm, {}⟩).frame⟩ := rfl
        have k2 : Sim ⟨s2.fsm, (s.frame.pop s1.frame).pop s2.frame⟩
            ((t.inc.inFrame (compile p' rv)).inc.inFrame (compile q' rv)) := by
          rw [e2t, ← k1.frame, ← h2.frame]; exact h2.withFrame _
        have hm1 : (⟨⟨s1.fsm, s.frame.pop s1.frame⟩, false⟩ : PS).cur = (t.inc.inFrame (compile p' rv)).cur := k1.cur.symm
        have hm2 : (PS.inc ⟨⟨s1.fsm, s.frame.pop s1.frame⟩, false⟩).cur = (t.inc.inFrame (compile p' rv)).inc.cur :=
          k1.inc.cur.symm
        have hm3 : (⟨⟨s2.fsm, (s.frame.pop s1.frame).pop s2.frame⟩, false⟩ : PS).cur =
          ((t.inc.inFrame (compile p' rv)).inc.inFrame (compile q' rv)).cur := k2.cur.symm
        rw [e2', hm1, hm2, hm3]
        exact ihr _ _ ((k2.jump ..).jump ..) (fun he => by
          simp only [Bool.or_eq_false_iff] at he
          obtain ⟨a1, a2, a3, a4⟩ := c1 he.1.1 he.1.2
          have b := compile_clean q' rv ⟨(t.inc.inFrame (compile p' rv)).inc.fsm, {}⟩ he.2 emp
          rw [← h2.frame] at b
          obtain ⟨b1, b2, b3, b4⟩ := b
          change ((s.frame.pop s1.frame).pop s2.frame).clean
          simp only [Frame.clean] at *
          refine ⟨a1, a2, ?_, ?_⟩
          · change (s.frame.pop s1.frame).subBrk ++ (s2.frame.brk ++ s2.frame.subBrk) = []
            rw [a3, b1, b3]; rfl
          · change (s.frame.pop s1.frame).subCont ++ (s2.frame.cont ++ s2.frame.subCont) = []
            rw [a4, b2, b4]; rfl)
  | @while_ rv e c p p' rest rest' _ _ ihp ihr =>
    intro s t hs hc
    simp only [compileP, compile]
    by_cases hk : s.frame.skip = true
    · have hk' : t.frame.skip = true := hs.frame ▸ hk
      simp only [hk, hk', if_true]
      exact ihr s t hs hc
    · have hk' : ¬ t.frame.skip = true := hs.frame ▸ hk
      simp only [hk, hk', Bool.false_eq_true, if_false]
      obtain ⟨s1, e1, h1⟩ := ihp ⟨s.inc.fsm, {}⟩ ⟨t.inc.fsm, {}⟩ (hs.inc.withFrame {}) (fun _ => emp)
      have e1' : (PS.inc ⟨s, false⟩).inFrame (compileP p rv) = ⟨⟨s1.fsm, s.frame.pop s1.frame⟩, false⟩ :=
        PS.inFrame_seq (s := s.inc) e1
      have k1 : Sim ⟨s1.fsm, s.frame.pop s1.frame⟩ (t.inc.inFrame (compile p' rv)) := by
        rw [show t.inc.inFrame (compile p' rv) = ⟨(compile p' rv ⟨t.inc.fsm, {}⟩).fsm,
          t.frame.pop (compile p' rv ⟨t.inc.fsm, {}⟩).frame⟩ from rfl, ← hs.frame, ← h1.frame]
        exact h1.withFrame _
      have m0 : (⟨s, false⟩ : PS).cur = t.cur := hs.cur.symm
      have m1 : (PS.inc ⟨s, false⟩).cur = t.inc.cur := hs.inc.cur.symm
      have m2 : (⟨⟨s1.fsm, s.frame.pop s1.frame⟩, false⟩ : PS).cur = (t.inc.inFrame (compile p' rv)).cur := k1.cur.symm
      have m3 : (PS.inc ⟨⟨s1.fsm, s.frame.pop s1.frame⟩, false⟩).cur = (t.inc.inFrame (compile p' rv)).inc.cur :=
        k1.inc.cur.symm
      rw [e1', m0, m1, m2, m3]
      exact ihr _ _ (((k1.inc.jump ..).jump ..).endLoop ..) (fun _ => ⟨rfl, rfl, rfl, rfl⟩)
  | @loopr rv e i d st p p' rest rest' _ _ ihp ihr =>
    intro s t hs hc
    simp only [compileP, compile]
    by_cases hk : s.frame.skip = true
    · have hk' : t.frame.skip = true := hs.frame ▸ hk
      simp only [hk, hk', if_true]
      exact ihr s t hs hc
    · have hk' : ¬ t.frame.skip = true := hs.frame ▸ hk
      simp only [hk, hk', Bool.false_eq_true, if_false]
      obtain ⟨s1, e1, h1⟩ := ihp ⟨s.inc.fsm, {}⟩ ⟨t.inc.fsm, {}⟩ (hs.inc.withFrame {}) (fun _ => emp)
      have e1' : (PS.inc ⟨s, false⟩).inFrame (compileP p rv) = ⟨⟨s1.fsm, s.frame.pop s1.frame⟩, false⟩ :=
        PS.inFrame_seq (s := s.inc) e1
      have k1 : Sim ⟨s1.fsm, s.frame.pop s1.frame⟩ (t.inc.inFrame (compile p' rv)) := by
        rw [show t.inc.inFrame (compile p' rv) = ⟨(compile p' rv ⟨t.inc.fsm, {}⟩).fsm,
          t.frame.pop (compile p' rv ⟨t.inc.fsm, {}⟩).frame⟩ from rfl, ← hs.frame, ← h1.frame]
        exact h1.withFrame _
      have k2 := (k1.binds [(i, plusE i st)]).inc
      have m0 : (⟨s, false⟩ : PS).cur = t.cur := hs.cur.symm
      have m1 : (PS.inc ⟨s, false⟩).cur = t.inc.cur := hs.inc.cur.symm
      have m2 : (⟨⟨s1.fsm, s.frame.pop s1.frame⟩, false⟩ : PS).cur = (t.inc.inFrame (compile p' rv)).cur := k1.cur.symm
      have m3 : (PS.inc (PS.map ⟨⟨s1.fsm, s.frame.pop s1.frame⟩, false⟩ (·.bind i (plusE i st)))).cur =
        ((t.inc.inFrame (compile p' rv)).bind i (plusE i st)).inc.cur := k2.cur.symm
      rw [e1', m0, m1, m2, m3]
      exact ihr _ _ (((k2.jump ..).jump ..).endLoop ..) (fun _ => ⟨rfl, rfl, rfl, rfl⟩)
  | @brk rv e rest rest' _ ih =>
    intro s t hs _
    simp only [compileP, compile]
    rw [hs.cur, ← hs.frame]
    exact ih _ _ (hs.withFrame { s.frame with brk := s.frame.brk ++ [s.cur] }).inc (fun h => by cases h)
  | @cont rv e rest rest' _ ih =>
    intro s t hs _
    simp only [compileP, compile]
    rw [hs.cur, ← hs.frame]
    exact ih _ _ (hs.withFrame { s.frame with cont := s.frame.cont ++ [s.cur] }).inc (fun h => by cases h)
  | @ret rv e v rest rest' _ ih =>
    intro s t hs hc
    simp only [compileP, compile]
    have hb := hs.binds ((v.map fun e => (rv, e)).toList)
    rw [hb.cur, ← hb.frame]
    refine ih (⟨(s.binds ((v.map fun e => (rv, e)).toList)).fsm, { (s.binds ((v.map fun e => (rv, e)).toList)).frame with
      ret := (s.binds ((v.map fun e => (rv, e)).toList)).frame.ret ++
        [(s.binds ((v.map fun e => (rv, e)).toList)).cur] }⟩ : CS).inc _ (hb.withFrame { (s.binds ((v.map fun e => (rv, e)).toList)).frame with
      ret := (s.binds ((v.map fun e => (rv, e)).toList)).frame.ret ++
        [(s.binds ((v.map fun e => (rv, e)).toList)).cur] }).inc (fun h => ?_)
    obtain ⟨a1, a2, a3, a4⟩ := hc h
    exact ⟨by simp [a1], by simp [a2], by simp [a3], by simp [a4]⟩
  | @call rv e args rv' body body' rest rest' _ _ ihb ihr =>
    intro s t hs hc
    simp only [compileP, compile]
    by_cases hk : s.frame.skip = true
    · have hk' : t.frame.skip = true := hs.frame ▸ hk
      simp only [hk, hk', if_true]
      exact ihr s t hs hc
    · have hk' : ¬ t.frame.skip = true := hs.frame ▸ hk
      simp only [hk, hk', Bool.false_eq_true, if_false]
      have k0 := ((hs.withFrame {}).binds args).jumpNext.inc
      obtain ⟨s1, e1, h1⟩ := ihb _ _ k0 (fun _ => by simpa [CS.jumpNext] using emp)
      have e1' : compileP body rv' (PS.inc (PS.jumpNext (PS.map ⟨s, false⟩ fun s =>
        ({ s with frame := {} } : CS).binds args))) = ⟨s1, false⟩ := e1
      rw [e1']
      have k2 := (h1.resolve (l := s1.frame.allRet) (d := s1.cur)).withFrame s.frame
      have hx : (⟨((compile body' rv' (({ t with frame := {} } : CS).binds args).jumpNext.inc).resolve s1.frame.allRet
          s1.cur).fsm, s.frame⟩ : CS) = { (compile body' rv' (({ t with frame := {} } : CS).binds args).jumpNext.inc).resolve
            (compile body' rv' (({ t with frame := {} } : CS).binds args).jumpNext.inc).frame.allRet
            (compile body' rv' (({ t with frame := {} } : CS).binds args).jumpNext.inc).cur with frame := t.frame } := by
        rw [h1.frame, h1.cur, hs.frame]
      rw [← hx]
      exact ihr _ _ k2 hc
  | @par rv e p rest rest' hi hl _ ih =>
    intro s t hs hc
    simp only [PProg.block, compileP, compile, compileP_append]
    by_cases hk : s.frame.skip = true
    · have hk' : t.frame.skip = true := hs.frame ▸ hk
      -- all is skipped
      have hz : ∀ (p : PProg) (rv : Reg), p.inner false = true → compileP p rv ⟨s, false⟩ = ⟨s, false⟩ := by
        intro p
        induction p with
        | nil => intro rv _; rfl
        | pass rest ih => intro rv h; exact ih rv h
        | assign bs rest ih => intro rv h; simp only [compileP, hk, if_true]; exact ih rv h
        | ifte c p q rest _ _ ih =>
          intro rv h
          simp only [PProg.inner, Bool.and_eq_true] at h
          simp only [compileP, hk, if_true]; exact ih rv h.2
        | while_ pre c p rest _ _ ih =>
          intro rv h
          simp only [PProg.inner, Bool.and_eq_true] at h
          simp only [compileP, hk, if_true]; exact ih rv h.2
        | loopr i e st p rest _ ih =>
          intro rv h
          simp only [PProg.inner, Bool.and_eq_true] at h
          simp only [compileP, hk, if_true]; exact ih rv h.2
        | brk => intro rv h; simp [PProg.inner] at h
        | cont => intro rv h; simp [PProg.inner] at h
        | ret => intro rv h; simp [PProg.inner] at h
        | call args rv' body rest _ ih =>
          intro rv h
          simp only [PProg.inner, Bool.and_eq_true] at h
          simp only [compileP, hk, if_true]; exact ih rv h.2
        | setPar => intro rv h; simp [PProg.inner] at h
        | unsetPar => intro rv h; simp [PProg.inner] at h
      simp only [hk, hk', if_true, hz p rv hi]
      exact ih s t hs hc
    · have hk' : ¬ t.frame.skip = true := hs.frame ▸ hk
      simp only [hk, hk', Bool.false_eq_true, if_false]
      obtain ⟨s', e1, e2, h1⟩ := block_sim (rv := rv) hs hi (hl.imp_right hc) (Bool.eq_false_iff.2 hk)
      simp only [e2, hk, Bool.false_eq_true, if_false]
      simp only at e1
      rw [← e2, e1]
      refine ih _ _ h1 (fun he => ?_)
      rw [h1.frame]
      have := hc he
      rw [hs.frame] at this
      simpa [CS.jumpNext] using this

theorem Sim.tick {s t : CS} (h : Sim s t) (rst : Expr) (uc : Bool) (env : Env) :
    (s.fsm.always rst uc).tick env = (t.fsm.always rst uc).tick env := by
  funext x
  rw [Code.tick, Code.tick, Code.exec_eq_trace, Code.exec_eq_trace, FsmSt.always_trace, FsmSt.always_trace]
  congr 1
  have hf := h.fsm
  by_cases hr : rst.truthy env = true
  · rw [if_pos hr, if_pos hr]
    have : t.fsm.makeReset = s.fsm.makeReset := by rw [hf]; rfl
    rw [this]
  · rw [if_neg hr, if_neg hr, FsmSt.makeCase_trace, FsmSt.makeCase_trace]
    have h1 : traceL t.fsm.seq.makeCode env x = traceL s.fsm.seq.makeCode env x := by rw [hf]
    have h2 : traceL t.fsm.delayedSubsts env x = traceL s.fsm.delayedSubsts env x := by rw [hf]; rfl
    have h3 : ∀ n, t.fsm.seg env x 0 n = s.fsm.seg env x 0 n := by
      intro n
      induction n with
      | zero => rfl
      | succ n ih =>
        simp only [FsmSt.seg, ih]
        have : t.fsm.active (0 + n) env x = s.fsm.active (0 + n) env x := by rw [hf]; rfl
        rw [this]
    have h4 : t.fsm.delayAmount = s.fsm.delayAmount := by rw [hf]
    have h5 : (s.fsm.jumpTrace env x).getLast? = (t.fsm.jumpTrace env x).getLast? := by
      have h6 : t.fsm.stateReg = s.fsm.stateReg := by rw [hf]; rfl
      simp only [FsmSt.jumpTrace, h6]
      split
      · exact h.last ..
      · rfl
    rw [h1, h2, h3, h4]
    simp only [List.getLast?_append, h5]

/-- The FSM of a thread with parallel blocks behaves as that of the thread in which each block is one assignment. -/
theorem startP_sim {name : String} {w : ℕ} {args : List (Reg × Expr)} {rv : Reg} {P : PProg} {Q : Prog}
    (h : Seqd rv false P Q) : Sim (startP name w args rv P).cs (start name w args rv Q) := by
  obtain ⟨s', e1, h1⟩ := seqd_sim (Seqd.call (rv := rv) (e := false) (args := args) h Seqd.nil)
    ⟨FsmSt.fresh name w, {}⟩ ⟨FsmSt.fresh name w, {}⟩ (Sim.refl rfl) (fun _ => ⟨rfl, rfl, rfl, rfl⟩)
  unfold startP start
  rw [e1]
  exact h1

end Thr
