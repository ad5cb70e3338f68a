import Verif.Lemmas.ThreadComp
import Verif.Props.C16_FsmStep

/-!
# The clocked hardware of a thread FSM
-/

namespace Thr
open Hdl

/-- The value of the expression does not depend on variable `v`. -/
def Indep (v : Var) (e : Expr) : Prop := ∀ env x, e.eval (Function.update env v x) = e.eval env

/-- The program neither reads nor assigns variable `v`. -/
def Prog.Ok (v : Var) : Prog → Reg → Prop
  | .nil, _ => True
  | .pass rest, rv => rest.Ok v rv
  | .assign bs rest, rv => (∀ b ∈ bs, b.1.name ≠ v ∧ Indep v b.2) ∧ rest.Ok v rv
  | .ifte c p q rest, rv => Indep v c ∧ p.Ok v rv ∧ q.Ok v rv ∧ rest.Ok v rv
  | .while_ pre c p rest, rv => Indep v c ∧ pre.Ok v rv ∧ p.Ok v rv ∧ rest.Ok v rv
  | .loopr i e s p rest, rv => i.name ≠ v ∧ Indep v e ∧ Indep v s ∧ p.Ok v rv ∧ rest.Ok v rv
  | .brk rest, rv => rest.Ok v rv
  | .cont rest, rv => rest.Ok v rv
  | .ret e rest, rv => (∀ x ∈ e, rv.name ≠ v ∧ Indep v x) ∧ rest.Ok v rv
  | .call args rv' body rest, rv => (∀ b ∈ args, b.1.name ≠ v ∧ Indep v b.2) ∧ body.Ok v rv' ∧ rest.Ok v rv

/-! ## Invariants of the FSM -/

theorem compile_mono (p : Prog) : ∀ (rv : Reg) (s : CS), s.cur ≤ (compile p rv s).cur := by
  induction p with
  | nil => intro rv s; exact Nat.le_refl _
  | pass rest ih => exact ih
  | assign bs rest ih =>
    intro rv s
    simp only [compile]
    refine Nat.le_trans ?_ (ih _ _)
    split
    · exact Nat.le_refl _
    · simp [CS.jumpNext]
  | ifte c p q rest ihp ihq ihr =>
    intro rv s
    simp only [compile]
    refine Nat.le_trans ?_ (ihr _ _)
    split
    · exact Nat.le_refl _
    · have h1 := ihp rv (s.inc.withFrame {})
      simp only [withFrame_cur, inc_cur] at h1
      split
      · exact Nat.le_trans (Nat.le_succ _) h1
      · have h2 := ihq rv ((compile p rv (s.inc.withFrame {})).inc.withFrame {})
        simp only [withFrame_cur, inc_cur] at h2
        exact Nat.le_trans (Nat.le_trans (Nat.le_succ _) h1) (Nat.le_trans (Nat.le_succ _) h2)
  | while_ pre c p rest ihpre ihp ihr =>
    intro rv s
    simp only [compile]
    refine Nat.le_trans ?_ (ihr _ _)
    split
    · exact Nat.le_refl _
    · have h0 := ihpre rv s
      have h1 := ihp rv ((compile pre rv s).inc.withFrame {})
      simp only [withFrame_cur, inc_cur] at h1
      show s.cur ≤ ((((_ : CS).resolve _ _).resolve _ _)).cur
      rw [resolve_cur, resolve_cur, jump_cur, jump_cur, inc_cur]
      exact Nat.le_trans h0 (Nat.le_trans (Nat.le_trans (Nat.le_succ _) h1) (Nat.le_succ _))
  | loopr i e st p rest ihp ihr =>
    intro rv s
    simp only [compile]
    refine Nat.le_trans ?_ (ihr _ _)
    split
    · exact Nat.le_refl _
    · have h1 := ihp rv (s.inc.withFrame {})
      simp only [withFrame_cur, inc_cur] at h1
      show s.cur ≤ ((((_ : CS).resolve _ _).resolve _ _)).cur
      rw [resolve_cur, resolve_cur, jump_cur, jump_cur, inc_cur, bind_cur]
      exact (Nat.le_trans (Nat.le_trans (Nat.le_succ _) h1) (Nat.le_succ _))
  | brk rest ih =>
    intro rv s
    exact Nat.le_trans (Nat.le_succ _) (ih rv (s.withFrame { s.frame with brk := s.frame.brk ++ [s.cur] }).inc)
  | cont rest ih =>
    intro rv s
    exact Nat.le_trans (Nat.le_succ _) (ih rv (s.withFrame { s.frame with cont := s.frame.cont ++ [s.cur] }).inc)
  | ret e rest ih =>
    intro rv s
    simp only [compile]
    refine Nat.le_trans ?_ (ih rv _)
    show s.cur ≤ (s.binds _).cur + 1
    rw [binds_cur]; exact Nat.le_succ _
  | call args rv' body rest ihb ihr =>
    intro rv s
    simp only [compile]
    refine Nat.le_trans ?_ (ihr _ _)
    split
    · exact Nat.le_refl _
    · have h1 := ihb rv' ((s.withFrame {}).binds args).jumpNext.inc
      have h2 : ((s.withFrame {}).binds args).jumpNext.inc.cur = s.cur + 1 := by
        rw [inc_cur, CS.jumpNext, jump_cur, binds_cur, withFrame_cur]
      rw [h2] at h1
      show s.cur ≤ ((_ : CS).resolve _ _).cur
      rw [resolve_cur]
      exact Nat.le_trans (Nat.le_succ _) h1

/-- Every statement is an assignment not touching `v`, every jump goes to a state up to `N`. -/
structure WF (v : Var) (N : ℕ) (s : CS) : Prop where
  code : ∀ x ∈ s.fsm.code, ∃ i r e, x = ((0, i), .plain (.subst r e)) ∧ r.name ≠ v ∧ Indep v e
  jumps : ∀ x ∈ s.fsm.jumps, x.2.dst ≤ N ∧ (∀ d ∈ x.2.elseDst, d ≤ N) ∧ ∀ c ∈ x.2.cond, Indep v c

section
variable {name : String} {w N : ℕ} {v : Var} {s : CS}

theorem WF.bind (h : WF v N s) (r e) (h1 : r.name ≠ v) (h2 : Indep v e) : WF v N (s.bind r e) := by
  obtain ⟨l, hl⟩ := bind_eq s r e
  rw [hl]
  refine ⟨fun x hx => ?_, h.jumps⟩
  rcases List.mem_append.1 hx with hx | hx
  · exact h.code x hx
  · rw [List.mem_singleton] at hx; exact ⟨_, r, e, hx, h1, h2⟩

theorem WF.binds (h : WF v N s) (bs) (h1 : ∀ b ∈ bs, b.1.name ≠ v ∧ Indep v b.2) : WF v N (s.binds bs) := by
  induction bs generalizing s with
  | nil => exact h
  | cons b bs ih =>
    exact ih (h.bind _ _ (h1 b (by simp)).1 (h1 b (by simp)).2) fun b hb => h1 b (by simp [hb])

theorem WF.jump (h : WF v N s) (hp : s.fsm.next = {}) (a b c e) (hb : b ≤ N) (he : ∀ d ∈ e, d ≤ N)
    (hc : ∀ x ∈ c, Indep v x) : WF v N (s.jump a b c e) := by
  refine ⟨h.code, fun x hx => ?_⟩
  rcases List.mem_append.1 hx with hx | hx
  · exact h.jumps x hx
  · rw [List.mem_singleton] at hx
    subst hx
    refine ⟨hb, he, ?_⟩
    cases c with
    | none => simp [hp]
    | some c => exact hc

theorem WF.inc (h : WF v N s) : WF v N s.inc := ⟨h.code, h.jumps⟩
theorem WF.withFrame (h : WF v N s) (f) : WF v N (s.withFrame f) := ⟨h.code, h.jumps⟩

theorem jump_next (a b c e) : (s.jump a b c e).fsm.next = {} := rfl
theorem inc_next : s.inc.fsm.next = {} := rfl

theorem WF.resolve (h : WF v N s) (hp : s.fsm.next = {}) (l : List ℕ) (d) (hd : d ≤ N) : WF v N (s.resolve l d) := by
  induction l generalizing s with
  | nil => exact h
  | cons b bs ih => exact ih (h.jump hp _ _ _ _ hd (by simp) (by simp)) rfl

theorem resolve_next (hp : s.fsm.next = {}) (l : List ℕ) (d) : (s.resolve l d).fsm.next = {} := by
  induction l generalizing s with
  | nil => exact hp
  | cons b bs ih => exact ih rfl

theorem bind_next (r e) : (s.bind r e).fsm.next = s.fsm.next := by
  obtain ⟨l, hl⟩ := bind_eq s r e
  rw [hl]

theorem binds_next (bs) : (s.binds bs).fsm.next = s.fsm.next := by
  induction bs generalizing s with
  | nil => rfl
  | cons b bs ih => exact (ih).trans (bind_next _ _)

end

theorem ltE_indep {v : Var} {i : Reg} {e : Expr} (h1 : i.name ≠ v) (h2 : Indep v e) : Indep v (ltE i e) := by
  intro env x
  simp only [ltE, Expr.eval.eq_2, h2 env x, Function.update_of_ne h1]

theorem plusE_indep {v : Var} {i : Reg} {e : Expr} (h1 : i.name ≠ v) (h2 : Indep v e) : Indep v (plusE i e) := by
  intro env x
  simp only [plusE, Expr.eval.eq_2, h2 env x, Function.update_of_ne h1]

theorem compile_wf {v : Var} {N : ℕ} (p : Prog) : ∀ (rv : Reg) (s : CS), p.Ok v rv → WF v N s → s.fsm.next = {} →
    (compile p rv s).cur ≤ N → WF v N (compile p rv s) ∧ (compile p rv s).fsm.next = {} := by
  induction p with
  | nil => intro rv s _ h hn _; exact ⟨h, hn⟩
  | pass rest ih => intro rv s hk h hn hN; exact ih rv s hk h hn hN
  | assign bs rest ih =>
    intro rv s hk h hn hN
    simp only [compile] at hN ⊢
    have hm := compile_mono rest rv (if s.frame.skip then s else (s.binds bs).jumpNext.inc)
    cases hs : s.frame.skip with
    | true => simp only [hs, if_true] at hN hm ⊢; exact ih rv s hk.2 h hn hN
    | false =>
      simp only [hs, Bool.false_eq_true, if_false] at hN hm ⊢
      refine ih rv _ hk.2 (((h.binds bs hk.1).jump ((binds_next _).trans hn) _ _ _ _ ?_ (by simp) (by simp)).inc) rfl hN
      exact Nat.le_trans hm hN
  | ifte c p q rest ihp ihq ihr =>
    intro rv s hk h hn hN
    obtain ⟨k1, k2, k3, k4⟩ := hk
    cases hs : s.frame.skip with
    | true => simp only [compile, hs, if_true] at hN ⊢; exact ihr rv s k4 h hn hN
    | false =>
      have m1 := compile_mono p rv (s.inc.withFrame {})
      simp only [withFrame_cur, inc_cur] at m1
      cases hq : q.isNil with
      | true =>
        simp only [compile, hs, hq, Bool.false_eq_true, if_false, if_true] at hN ⊢
        have m2 := Nat.le_trans (compile_mono rest rv _) hN
        rw [jump_cur] at m2
        replace m2 : (compile p rv (s.inc.withFrame {})).cur ≤ N := m2
        obtain ⟨w1, n1⟩ := ihp rv (s.inc.withFrame {}) k2 (h.inc.withFrame _) rfl m2
        have w2 := (w1.withFrame (s.frame.pop (compile p rv (s.inc.withFrame {})).frame)).jump n1 s.cur (s.cur + 1) (some c)
          (some (compile p rv (s.inc.withFrame {})).cur) (Nat.le_trans m1 m2) (by intro d hd; cases hd; exact m2)
          (by intro x hx; cases hx; exact k1)
        exact ihr rv _ k4 w2 rfl hN
      | false =>
        simp only [compile, hs, hq, Bool.false_eq_true, if_false] at hN ⊢
        have m2 := Nat.le_trans (compile_mono rest rv _) hN
        rw [jump_cur, jump_cur] at m2
        replace m2 : (compile q rv ((compile p rv (s.inc.withFrame {})).inc.withFrame {})).cur ≤ N := m2
        have m3 := compile_mono q rv ((compile p rv (s.inc.withFrame {})).inc.withFrame {})
        simp only [withFrame_cur, inc_cur] at m3
        obtain ⟨w1, n1⟩ := ihp rv (s.inc.withFrame {}) k2 (h.inc.withFrame _) rfl (by omega)
        obtain ⟨w2, n2⟩ := ihq rv ((compile p rv (s.inc.withFrame {})).inc.withFrame {}) k3 (w1.inc.withFrame _) rfl m2
        have w3 := ((w2.withFrame ((s.frame.pop (compile p rv (s.inc.withFrame {})).frame).pop
          (compile q rv ((compile p rv (s.inc.withFrame {})).inc.withFrame {})).frame)).jump n2 s.cur (s.cur + 1) (some c)
          (some ((compile p rv (s.inc.withFrame {})).cur + 1)) (Nat.le_trans m1 (by omega))
          (by intro d hd; cases hd; exact Nat.le_trans m3 m2) (by intro x hx; cases hx; exact k1)).jump rfl
          (compile p rv (s.inc.withFrame {})).cur (compile q rv ((compile p rv (s.inc.withFrame {})).inc.withFrame {})).cur
          none none m2 (by simp) (by simp)
        exact ihr rv _ k4 w3 rfl hN
  | while_ pre c p rest ihpre ihp ihr =>
    intro rv s hk h hn hN
    obtain ⟨k1, k2, k3, k4⟩ := hk
    cases hs : s.frame.skip with
    | true => simp only [compile, hs, if_true] at hN ⊢; exact ihr rv s k4 h hn hN
    | false =>
      simp only [compile, hs, Bool.false_eq_true, if_false] at hN ⊢
      have m2 := Nat.le_trans (compile_mono rest rv _) hN
      simp only [CS.endLoop] at m2
      replace m2 : ((((_ : CS).resolve _ _).resolve _ _)).cur ≤ N := m2
      rw [resolve_cur, resolve_cur, jump_cur, jump_cur, inc_cur] at m2
      replace m2 : (compile p rv ((compile pre rv s).inc.withFrame {})).cur + 1 ≤ N := m2
      have m1 := compile_mono p rv ((compile pre rv s).inc.withFrame {})
      simp only [withFrame_cur, inc_cur] at m1
      obtain ⟨w0, n0⟩ := ihpre rv s k2 h hn (by omega)
      obtain ⟨w1, n1⟩ := ihp rv ((compile pre rv s).inc.withFrame {}) k3 (w0.inc.withFrame _) rfl (by omega)
      have w2 := ((w1.withFrame ((compile pre rv s).frame.pop (compile p rv ((compile pre rv s).inc.withFrame {})).frame)).inc.jump
        inc_next (compile pre rv s).cur
        ((compile pre rv s).cur + 1) (some c) (some ((compile p rv ((compile pre rv s).inc.withFrame {})).cur + 1))
        (by omega) (by intro d hd; cases hd; exact m2) (by intro x hx; cases hx; exact k1)).jump rfl
        (compile p rv ((compile pre rv s).inc.withFrame {})).cur (compile pre rv s).cur none none (by omega) (by simp) (by simp)
      refine ihr rv _ k4 ((w2.resolve rfl _ _ ?_).resolve (resolve_next rfl _ _) _ _ ?_ |>.withFrame _) ?_ hN
      · exact m2
      · show (compile pre rv s).cur ≤ N; omega
      · exact resolve_next (resolve_next rfl _ _) _ _
  | loopr i e st p rest ihp ihr =>
    intro rv s hk h hn hN
    obtain ⟨k0, k1, k2, k3, k4⟩ := hk
    cases hs : s.frame.skip with
    | true => simp only [compile, hs, if_true] at hN ⊢; exact ihr rv s k4 h hn hN
    | false =>
      simp only [compile, hs, Bool.false_eq_true, if_false] at hN ⊢
      have m2 := Nat.le_trans (compile_mono rest rv _) hN
      simp only [CS.endLoop] at m2
      replace m2 : ((((_ : CS).resolve _ _).resolve _ _)).cur ≤ N := m2
      rw [resolve_cur, resolve_cur, jump_cur, jump_cur, inc_cur, bind_cur] at m2
      replace m2 : (compile p rv (s.inc.withFrame {})).cur + 1 ≤ N := m2
      have m1 := compile_mono p rv (s.inc.withFrame {})
      simp only [withFrame_cur, inc_cur] at m1
      obtain ⟨w1, n1⟩ := ihp rv (s.inc.withFrame {}) k3 (h.inc.withFrame _) rfl (by omega)
      have w2 := ((((w1.withFrame (s.frame.pop (compile p rv (s.inc.withFrame {})).frame)).bind i (plusE i st) k0
        (plusE_indep k0 k2)).inc.jump inc_next (compile p rv (s.inc.withFrame {})).cur s.cur none none (by omega)
        (by simp) (by simp)).jump rfl s.cur (s.cur + 1) (some (ltE i e))
        (some ((compile p rv (s.inc.withFrame {})).cur + 1)) (by omega) (by intro d hd; cases hd; exact m2)
        (by intro x hx; cases hx; exact ltE_indep k0 k1))
      simp only [inc_cur, bind_cur]
      simp only [inc_cur, bind_cur] at hN
      refine ihr rv _ k4 ((w2.resolve rfl _ _ ?_).resolve (resolve_next rfl _ _) _ _ ?_ |>.withFrame _) ?_ hN
      · exact m2
      · show (compile p rv (s.inc.withFrame {})).cur ≤ N; omega
      · exact resolve_next (resolve_next rfl _ _) _ _
  | brk rest ih => intro rv s hk h hn hN; exact ih rv _ hk ((h.withFrame _).inc) rfl hN
  | cont rest ih => intro rv s hk h hn hN; exact ih rv _ hk ((h.withFrame _).inc) rfl hN
  | ret e rest ih =>
    intro rv s hk h hn hN
    refine ih rv _ hk.2 (((h.binds _ ?_).withFrame _).inc) rfl hN
    intro b hb
    cases e with
    | none => simp at hb
    | some e => simp at hb; subst hb; exact hk.1 e rfl
  | call args rv' body rest ihb ihr =>
    intro rv s hk h hn hN
    obtain ⟨k1, k2, k3⟩ := hk
    cases hs : s.frame.skip with
    | true => simp only [compile, hs, if_true] at hN ⊢; exact ihr rv s k3 h hn hN
    | false =>
      simp only [compile, hs, Bool.false_eq_true, if_false] at hN ⊢
      have m2 := Nat.le_trans (compile_mono rest rv _) hN
      replace m2 : ((_ : CS).resolve _ _).cur ≤ N := m2
      rw [resolve_cur] at m2
      replace m2 : (compile body rv' ((s.withFrame {}).binds args).jumpNext.inc).cur ≤ N := m2
      have m1 := compile_mono body rv' ((s.withFrame {}).binds args).jumpNext.inc
      have w0 := ((((h.withFrame {}).binds args k1).jump ((binds_next _).trans hn) ((s.withFrame {}).binds args).cur
        (((s.withFrame {}).binds args).cur + 1) none none (Nat.le_trans m1 m2) (by simp) (by simp)).inc)
      obtain ⟨w1, n1⟩ := ihb rv' ((s.withFrame {}).binds args).jumpNext.inc k2 w0 rfl m2
      exact ihr rv _ k3 ((w1.resolve n1 _ _ m2).withFrame _) (resolve_next n1 _ _) hN

theorem compile_pl {name : String} {w : ℕ} (p : Prog) : ∀ (rv : Reg) (s : CS), Pl name w s → Pl name w (compile p rv s) := by
  induction p with
  | nil => intro rv s h; exact h
  | pass rest ih => intro rv s h; exact ih rv s h
  | assign bs rest ih =>
    intro rv s h
    simp only [compile]
    cases hs : s.frame.skip with
    | true => simp only [if_true]; exact ih rv s h
    | false => simp only [Bool.false_eq_true, if_false]; exact ih rv _ ((h.binds bs).jump _ _ _ _).inc
  | ifte c p q rest ihp ihq ihr =>
    intro rv s h
    cases hs : s.frame.skip with
    | true => simp only [compile, hs, if_true]; exact ihr rv s h
    | false =>
      have w1 := ihp rv (s.inc.withFrame {}) (h.inc.withFrame _)
      cases hq : q.isNil with
      | true =>
        simp only [compile, hs, hq, Bool.false_eq_true, if_false, if_true]
        exact ihr rv _ ((w1.withFrame (s.frame.pop (compile p rv (s.inc.withFrame {})).frame)).jump _ _ _ _)
      | false =>
        simp only [compile, hs, hq, Bool.false_eq_true, if_false]
        have w2 := ihq rv ((compile p rv (s.inc.withFrame {})).inc.withFrame {}) (w1.inc.withFrame _)
        exact ihr rv _ (((w2.withFrame ((s.frame.pop (compile p rv (s.inc.withFrame {})).frame).pop
          (compile q rv ((compile p rv (s.inc.withFrame {})).inc.withFrame {})).frame)).jump _ _ _ _).jump _ _ _ _)
  | while_ pre c p rest ihpre ihp ihr =>
    intro rv s h
    cases hs : s.frame.skip with
    | true => simp only [compile, hs, if_true]; exact ihr rv s h
    | false =>
      simp only [compile, hs, Bool.false_eq_true, if_false]
      have w1 := ihp rv ((compile pre rv s).inc.withFrame {}) ((ihpre rv s h).inc.withFrame _)
      exact ihr rv _ ((((((w1.withFrame ((compile pre rv s).frame.pop
        (compile p rv ((compile pre rv s).inc.withFrame {})).frame)).inc.jump _ _ _ _).jump _ _ _ _).resolve _ _).resolve
          _ _).withFrame _)
  | loopr i e st p rest ihp ihr =>
    intro rv s h
    cases hs : s.frame.skip with
    | true => simp only [compile, hs, if_true]; exact ihr rv s h
    | false =>
      simp only [compile, hs, Bool.false_eq_true, if_false]
      have w1 := ihp rv (s.inc.withFrame {}) (h.inc.withFrame _)
      exact ihr rv _ (((((((w1.withFrame (s.frame.pop (compile p rv (s.inc.withFrame {})).frame)).bind i
        (plusE i st)).inc.jump _ _ _ _).jump _ _ _ _).resolve _ _).resolve _ _).withFrame _)
  | brk rest ih => intro rv s h; exact ih rv _ (h.withFrame _).inc
  | cont rest ih => intro rv s h; exact ih rv _ (h.withFrame _).inc
  | ret e rest ih => intro rv s h; exact ih rv _ ((h.binds _).withFrame _).inc
  | call args rv' body rest ihb ihr =>
    intro rv s h
    cases hs : s.frame.skip with
    | true => simp only [compile, hs, if_true]; exact ihr rv s h
    | false =>
      simp only [compile, hs, Bool.false_eq_true, if_false]
      have w1 := ihb rv' ((s.withFrame {}).binds args).jumpNext.inc ((((h.withFrame {}).binds args).jump _ _ _ _).inc)
      exact ihr rv _ ((w1.resolve _ _).withFrame _)

theorem start_pl (name : String) (w : ℕ) (args : List (Reg × Expr)) (rv : Reg) (body : Prog) :
    Pl name w (start name w args rv body) :=
  compile_pl _ _ _ ⟨rfl, rfl, rfl, rfl, rfl⟩

/-! ## One clock edge -/

/-- The registers: the state register in state `i`, the others as in `e`. -/
def lift (v : Var) (c : ℕ × Env) : Env := Function.update c.2 v (c.1 : Int)

theorem mem_jl {T : FsmSt} {i : ℕ} {j : Jump} (h : j ∈ jl T i) : (i, j) ∈ T.jumps := by
  simp only [jl, List.mem_filterMap] at h
  obtain ⟨⟨a, b⟩, h1, h2⟩ := h
  by_cases ha : a = i
  · simp only [ha, if_true, Option.some.injEq] at h2
    subst h2; subst ha; exact h1
  · simp [ha] at h2

theorem jumpsAt_eq (T : FsmSt) (i : ℕ) : T.jumpsAt i = (jl T i).map (FsmSt.jumpCode T.stateReg) := by
  simp only [FsmSt.jumpsAt, jl, List.map_filterMap]
  congr 1
  funext e
  by_cases h : e.1 = i <;> simp [h]

theorem nextSt_trace (st : Reg) (hs : st.signed = false) {N : ℕ} (hN : N < 2 ^ st.width) (l : List Jump)
    (hl : ∀ j ∈ l, j.dst ≤ N ∧ (∀ d ∈ j.elseDst, d ≤ N) ∧ ∀ c ∈ j.cond, Indep st.name c) (e : Env) (x : Int) (k : ℕ) :
    (((traceL (l.map (FsmSt.jumpCode st)) (Function.update e st.name x) st.name).getLast?).getD (k : Int)) =
      (nextSt l e k : ℕ) := by
  induction l generalizing k with
  | nil => rfl
  | cons j l ih =>
    obtain ⟨h1, h2, h3⟩ := hl j (by simp)
    rw [List.map_cons, traceL_cons, List.getLast?_append]
    have hj := FsmSt.jumpCode_trace st j.cond j.dst j.elseDst (Function.update e st.name x) (k : Int) hs (by omega)
      (fun d hd => by have := h2 d hd; omega)
    have hstep : ∀ o : Option Int, ∀ b : Option Int, (b.or o).getD (k : Int) = b.getD (o.getD k) := by
      intro o b; cases b <;> rfl
    rw [hstep, show FsmSt.jumpCode st j = FsmSt.jumpCode st ⟨j.dst, j.cond, j.elseDst⟩ from rfl, hj]
    have hnext : takeJump (holds j.cond (Function.update e st.name x)) j.dst j.elseDst (k : Int) =
        ((match j.cond with
          | none => j.dst
          | some c => if c.truthy e then j.dst else j.elseDst.getD k : ℕ) : Int) := by
      cases hc : j.cond with
      | none => simp [takeJump, holds]
      | some c =>
        have hi : c.truthy (Function.update e st.name x) = c.truthy e := by
          simp only [Expr.truthy, h3 c hc e x]
        simp only [takeJump, holds, hi]
        cases c.truthy e <;> cases j.elseDst <;> simp
    rw [hnext]
    exact ih (fun j hj => hl j (by simp [hj])) _

theorem nextSt_le {T : FsmSt} {v : Var} {N i : ℕ} (h : ∀ x ∈ T.jumps, x.2.dst ≤ N ∧ (∀ d ∈ x.2.elseDst, d ≤ N) ∧
    ∀ c ∈ x.2.cond, Indep v c) (hi : i ≤ N) (e : Env) : nextSt (jl T i) e i ≤ N := by
  have hl : ∀ j ∈ jl T i, j.dst ≤ N ∧ (∀ d ∈ j.elseDst, d ≤ N) := fun j hj =>
    ⟨(h _ (mem_jl hj)).1, (h _ (mem_jl hj)).2.1⟩
  have : ∀ (l : List Jump) (k : ℕ), (∀ j ∈ l, j.dst ≤ N ∧ (∀ d ∈ j.elseDst, d ≤ N)) → k ≤ N → nextSt l e k ≤ N := by
    intro l
    induction l with
    | nil => intro k _ hk; exact hk
    | cons j l ih =>
      intro k hl hk
      refine ih _ (fun j hj => hl j (by simp [hj])) ?_
      obtain ⟨h1, h2⟩ := hl j (by simp)
      beta_reduce
      cases hc : j.cond with
      | none => exact h1
      | some c =>
        simp only
        split
        · exact h1
        · cases he : j.elseDst with
          | none => exact hk
          | some d => exact h2 d he
  exact this _ _ hl hi

theorem tick_lift {name : String} {w N : ℕ} {s : CS} (hp : Pl name w s) (hw : WF (.state name) N s)
    (hN : N < 2 ^ w) (rst : Expr) (uc : Bool) (i : ℕ) (e : Env)
    (hr : rst.truthy (lift (.state name) (i, e)) = false) :
    (s.fsm.always rst uc).tick (lift (.state name) (i, e)) = lift (.state name) (mstep s.fsm (i, e)) := by
  have hst : s.fsm.stateReg.name = .state name := by simp [FsmSt.stateReg, hp.name]
  have hcode : ∀ c ∈ s.fsm.at' 0 i, ∃ r f, c = .subst r f ∧ r.name ≠ .state name ∧ Indep (.state name) f := by
    intro c hc
    simp only [FsmSt.at', List.mem_filterMap] at hc
    obtain ⟨x, hx, hx2⟩ := hc
    obtain ⟨k, r, f, rfl, h1, h2⟩ := hw.code x hx
    by_cases hk : k = i
    · subst hk
      simp [Item.code] at hx2
      exact ⟨r, f, hx2.symm, h1, h2⟩
    · simp [hk] at hx2
  funext x
  rw [FsmSt.tick_eq _ _ _ _ hr, FsmSt.makeCase_trace]
  have e1 : traceL s.fsm.seq.makeCode (lift (.state name) (i, e)) x = [] := by rw [hp.seq]; rfl
  have e2 : traceL s.fsm.delayedSubsts (lift (.state name) (i, e)) x = [] := by
    simp [FsmSt.delayedSubsts, hp.delay]
  have e3 : s.fsm.seg (lift (.state name) (i, e)) x 0 (s.fsm.delayAmount + 1) ++
      s.fsm.jumpTrace (lift (.state name) (i, e)) x = s.fsm.armTrace 0 (lift (.state name) (i, e)) x := by
    rw [hp.delay]
    simp [FsmSt.seg, FsmSt.armTrace]
  have hval : lift (.state name) (i, e) (s.fsm.dstateReg 0).name = (i : Int) := by
    show lift (.state name) (i, e) s.fsm.stateReg.name = _
    rw [hst]; simp [lift]
  rw [e1, e2, e3, FsmSt.armTrace_eq, hval, if_pos (by omega), Int.toNat_natCast, FsmSt.armCode_trace]
  simp only [List.nil_append, if_true]
  by_cases hx : x = .state name
  · subst hx
    have k1 : s.fsm.keyTrace 0 i (lift (.state name) (i, e)) (.state name) = [] := by
      unfold FsmSt.keyTrace
      refine traceL_eq_nil fun c hc r hr => ?_
      obtain ⟨r', f, rfl, h1, -⟩ := hcode c hc
      simp [Code.targets] at hr
      subst hr; exact h1
    rw [k1, List.nil_append, jumpsAt_eq]
    have := nextSt_trace s.fsm.stateReg rfl (N := N) (by simpa [FsmSt.stateReg, hp.width] using hN) (jl s.fsm i)
      (fun j hj => by have := hw.jumps _ (mem_jl hj); rw [hst]; exact this) e (i : Int) i
    rw [hst] at this
    simp only [lift, Function.update_self, mstep]
    exact this
  · have k2 : traceL (s.fsm.jumpsAt i) (lift (.state name) (i, e)) x = [] := by
      rw [jumpsAt_eq]
      refine traceL_eq_nil fun c hc r hr => ?_
      obtain ⟨j, -, rfl⟩ := List.mem_map.1 hc
      rw [FsmSt.jumpCode_targets _ _ r hr, hst]
      exact fun h => hx h.symm
    rw [k2, List.append_nil]
    simp only [lift, mstep, Function.update_of_ne hx]
    rw [Code.exec_eq_trace, Code.trace_block]
    unfold FsmSt.keyTrace
    congr 2
    generalize s.fsm.at' 0 i = l at hcode
    induction l with
    | nil => rfl
    | cons c l ih =>
      obtain ⟨r, f, rfl, h1, h2⟩ := hcode c (by simp)
      rw [traceL_cons, traceL_cons, ih fun c hc => hcode c (by simp [hc])]
      congr 1
      simp only [Code.trace, h2 e (i : Int)]

/-- The registers over time, with reset inactive. -/
structure Run (name : String) (s : CS) (rst : Expr) (uc : Bool) (E : ℕ → Env) : Prop where
  start : E 0 (.state name) = 0
  norst : ∀ t, rst.truthy (E t) = false
  step : ∀ t, E (t + 1) = (s.fsm.always rst uc).tick (E t)

theorem Run.eq {name : String} {w N : ℕ} {s : CS} {rst : Expr} {uc : Bool} {E : ℕ → Env} (h : Run name s rst uc E)
    (hp : Pl name w s) (hw : WF (.state name) N s) (hN : N < 2 ^ w) (t : ℕ) :
    E t = lift (.state name) ((mstep s.fsm)^[t] (0, E 0)) := by
  induction t with
  | zero =>
    funext x
    simp only [lift, Function.iterate_zero, id]
    by_cases hx : x = .state name
    · subst hx; simp [h.start]
    · rw [Function.update_of_ne hx]
  | succ t ih =>
    have hr := h.norst t
    rw [h.step, Function.iterate_succ_apply']
    rw [ih] at hr ⊢
    generalize (mstep s.fsm)^[t] (0, E 0) = c at hr ⊢
    exact tick_lift hp hw hN rst uc c.1 c.2 hr

/-- The FSM of a thread holds its program. -/
theorem start_lay (name : String) (w : ℕ) (args : List (Reg × Expr)) (rv : Reg) (body : Prog) (hg : body.good = true)
    (he : body.esc = false) : Pl name w (start name w args rv body) ∧ Fresh (start name w args rv body) ∧
      Lay (start name w args rv body).fsm (.call args rv body .nil) rv 0 (start name w args rv body).cur 0 0 0 := by
  have hf : Fresh ⟨FsmSt.fresh name w, {}⟩ := by
    refine ⟨fun i _ => rfl, fun i _ => rfl, ?_, ?_, ?_⟩ <;> simp [Frame.allBrk, Frame.allCont, Frame.allRet]
  have hd := compile_done name w (.call args rv body .nil) rv ⟨FsmSt.fresh name w, {}⟩ ⟨rfl, rfl, rfl, rfl, rfl⟩ hf
    (.inr ⟨by simp [Prog.good, hg, he], fun _ => ⟨rfl, rfl⟩⟩)
  have hfr : (start name w args rv body).frame = {} := rfl
  refine ⟨hd.pl, hd.fresh, hd.lay rfl _ 0 0 0 ⟨fun i _ _ => rfl, ?_, ?_, ?_, fun i _ _ _ _ _ => rfl⟩⟩
  · intro i _ _ h
    rw [show compile (.call args rv body .nil) rv ⟨FsmSt.fresh name w, {}⟩ = start name w args rv body from rfl, hfr] at h
    simp [Frame.allBrk] at h
  · intro i _ _ h
    rw [show compile (.call args rv body .nil) rv ⟨FsmSt.fresh name w, {}⟩ = start name w args rv body from rfl, hfr] at h
    simp [Frame.allCont] at h
  · intro i _ _ h
    rw [show compile (.call args rv body .nil) rv ⟨FsmSt.fresh name w, {}⟩ = start name w args rv body from rfl, hfr] at h
    simp [Frame.allRet] at h

theorem start_wf (name : String) (w : ℕ) (args : List (Reg × Expr)) (rv : Reg) (body : Prog) {v : Var}
    (ha : ∀ b ∈ args, b.1.name ≠ v ∧ Indep v b.2) (hb : body.Ok v rv) :
    WF v (start name w args rv body).cur (start name w args rv body) :=
  (compile_wf (.call args rv body .nil) rv ⟨FsmSt.fresh name w, {}⟩ ⟨ha, hb, trivial⟩
    ⟨fun x hx => by simp [FsmSt.fresh] at hx, fun x hx => by simp [FsmSt.fresh] at hx⟩ rfl (Nat.le_refl _)).1

end Thr
