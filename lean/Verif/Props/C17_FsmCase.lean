import Verif.Lemmas.Fsm

/-!
# C17: the case and the if rendering of an FSM are equivalent
-/

namespace Hdl

open FsmSt

/-- **C17.**  For every FSM (whatever statements, delayed statements, jumps and parallel code it
    has), every register contents and every reset input, the block generated with `case=True` and
    the one generated with `case=False` compute the same next value of every register. -/
theorem c17_case_eq_if (s : FsmSt) (rst : Expr) (env : Env) :
    (s.always rst true).tick env = (s.always rst false).tick env := by
  funext x
  rw [Code.tick, Code.tick, Code.exec_eq_trace, Code.exec_eq_trace, always_trace, always_trace]

/-- The bodies alone are equivalent too, also when executed after other statements. -/
theorem c17_bodies (s : FsmSt) (env acc : Env) :
    (Code.block s.makeCase).exec env acc = (Code.block s.makeIf).exec env acc := by
  funext x
  rw [Code.exec_eq_trace, Code.exec_eq_trace, Code.trace_block, Code.trace_block, makeIf_trace]

/-- Example: an FSM with two states, a delayed statement and jumps; the two renderings are
    different programs (three arms against four `if`s) but compute the same values. -/
example : ((FsmSt.fresh "f" 32).applyAll
      [.iff [.var (.user "go")], .delay 1, .add [.subst ⟨.user "a", 8, false, none⟩ (.int 5)],
       .gotoNext (some (.var (.user "go"))), .add [.subst ⟨.user "b", 8, false, none⟩ (.int 7)],
       .goto 0 none none]).map
      (fun s => (s.makeCase.length, s.makeIf.length,
        [Var.state "f", .dstate "f" 1, .user "a", .user "b"].map
          ((s.always (.int 0) true).tick (fun _ => 1)),
        [Var.state "f", .dstate "f" 1, .user "a", .user "b"].map
          ((s.always (.int 0) false).tick (fun _ => 1)))) =
    some (3, 4, [0, 1, 1, 7], [0, 1, 1, 7]) := by decide

end Hdl
