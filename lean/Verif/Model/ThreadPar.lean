import Verif.Model.Thread

/-!
# Model of `set_parallel` and `unset_parallel` (thread/ttypes.py:91-98, thread/compiler.py:1251-1264)

The thread compiler of Model/Thread.lean with the flag `fsm.parallel`: while it is set, `setFsm()` without arguments
and `incFsmCount()` do nothing, all else is as before.  The simplifications are those of Model/Thread.lean.
-/

namespace Thr
open Hdl

/-- A list of statements, as `Prog`, with the calls of `set_parallel` and `unset_parallel` as statements
    (thread/ttypes.py:91-98). -/
inductive PProg
  | nil
  | assign (bs : List (Reg × Expr)) (rest : PProg)
  | pass (rest : PProg)
  | ifte (c : Expr) (p q rest : PProg)
  | while_ (pre : PProg) (c : Expr) (p rest : PProg)
  | loopr (i : Reg) (e s : Expr) (p rest : PProg)
  | brk (rest : PProg)
  | cont (rest : PProg)
  | ret (e : Option Expr) (rest : PProg)
  | call (args : List (Reg × Expr)) (rv : Reg) (body rest : PProg)
  | setPar (rest : PProg)
  | unsetPar (rest : PProg)

/-- No statements: `len(node.orelse) == 0` (thread/compiler.py:239). -/
def PProg.isNil : PProg → Bool
  | .nil => true
  | _ => false

/-- State of the visitor with `fsm.parallel`; an FSM without the attribute counts as `False`
    (thread/compiler.py:1252-1253, 1262). -/
structure PS where
  cs : CS
  par : Bool

/-- `getFsmCount` (thread/compiler.py:1266-1267). -/
def PS.cur (s : PS) : Nat := s.cs.cur

/-- An operation that does not look at `fsm.parallel`: `setBind` (thread/compiler.py:1219-1248), `setFsm` with
    arguments (1251-1259), the operations on the scope. -/
def PS.map (s : PS) (f : CS → CS) : PS := { s with cs := f s.cs }

/-- `setFsm()` with default arguments (thread/compiler.py:1251-1259). -/
def PS.jumpNext (s : PS) : PS := if s.par then s else s.map CS.jumpNext

/-- `incFsmCount` (thread/compiler.py:1261-1264). -/
def PS.inc (s : PS) : PS := if s.par then s else s.map CS.inc

/-- Visiting in a new frame: `pushScope`, the statements, `popScope` (e.g. thread/compiler.py:230-235). -/
def PS.inFrame (s : PS) (visit : PS → PS) : PS :=
  let s' := visit (s.map fun c => { c with frame := {} })
  s'.map fun c => { c with frame := s.cs.frame.pop c.frame }

/-- Visiting a list of statements (thread/compiler.py:133-834); `rv` is the return register of the function.  The two
    intrinsic functions are calls, so they are skipped after a jump (420-422). -/
def compileP : PProg → Reg → PS → PS
  | .nil, _, s => s
  | .pass rest, rv, s => compileP rest rv s
  | .assign bs rest, rv, s =>
    compileP rest rv (if s.cs.frame.skip then s else (s.map (·.binds bs)).jumpNext.inc)
  | .ifte c p q rest, rv, s =>
    compileP rest rv (
      if s.cs.frame.skip then s else
      let cur := s.cur
      let s := s.inc
      let trueCount := s.cur
      let s := s.inFrame (compileP p rv)
      let mid := s.cur
      if q.isNil then s.map (·.jump cur trueCount (some c) (some mid))
      else
        let s := s.inc
        let falseCount := s.cur
        let s := s.inFrame (compileP q rv)
        let end' := s.cur
        s.map fun s => (s.jump cur trueCount (some c) (some falseCount)).jump mid end' none none)
  | .while_ pre c p rest, rv, s =>
    compileP rest rv (
      if s.cs.frame.skip then s else
      let s := compileP pre rv s
      let begin' := s.cur
      let s := s.inc
      let bodyBegin := s.cur
      let s := s.inFrame (compileP p rv)
      let bodyEnd := s.cur
      let s := s.inc
      let exit := s.cur
      s.map fun s =>
        ((s.jump begin' bodyBegin (some c) (some exit)).jump bodyEnd begin' none none).endLoop exit begin')
  | .loopr i e st p rest, rv, s =>
    compileP rest rv (
      if s.cs.frame.skip then s else
      let check := s.cur
      let s := s.inc
      let bodyBegin := s.cur
      let s := s.inFrame (compileP p rv)
      let bodyEnd := s.cur
      let s := (s.map (·.bind i (plusE i st))).inc
      let exit := s.cur
      s.map fun s =>
        ((s.jump bodyEnd check none none).jump check bodyBegin (some (ltE i e)) (some exit)).endLoop exit bodyEnd)
  | .brk rest, rv, s =>
    compileP rest rv (s.map fun s => { s with frame := { s.frame with brk := s.frame.brk ++ [s.cur] } }).inc
  | .cont rest, rv, s =>
    compileP rest rv (s.map fun s => { s with frame := { s.frame with cont := s.frame.cont ++ [s.cur] } }).inc
  | .ret e rest, rv, s =>
    let s := s.map (·.binds ((e.map fun e => (rv, e)).toList))
    compileP rest rv (s.map fun s => { s with frame := { s.frame with ret := s.frame.ret ++ [s.cur] } }).inc
  | .call args rv' body rest, rv, s =>
    compileP rest rv (
      if s.cs.frame.skip then s else
      let frame := s.cs.frame
      let s := (s.map fun s => ({ s with frame := {} } : CS).binds args).jumpNext.inc
      let s := compileP body rv' s
      s.map fun s => { s.resolve s.frame.allRet s.cur with frame := frame })
  | .setPar rest, rv, s => compileP rest rv (if s.cs.frame.skip then s else { s with par := true })
  | .unsetPar rest, rv, s =>
    -- `fsm.parallel = False`, then `goto_next` of the FSM itself (fsm/fsm.py:133-155)
    compileP rest rv (if s.cs.frame.skip then s else
      ⟨{ s.cs with fsm := s.cs.fsm.gotoNext none }, false⟩)

/-- `Thread.start` (thread/thread.py:64-83, 219-258) of a function with statements `body`: the call of the function on
    a new FSM, for which `parallel` is not set. -/
def startP (name : String) (width : Nat) (args : List (Reg × Expr)) (rv : Reg) (body : PProg) : PS :=
  compileP (.call args rv body .nil) rv ⟨⟨FsmSt.fresh name width, {}⟩, false⟩

end Thr
