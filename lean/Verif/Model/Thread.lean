import Verif.Model.Fsm

/-!
# Model of the thread compiler (thread/compiler.py, thread/scope.py)

The body of a thread function is a `Prog`; the visitor turns it into calls on the FSM of the thread
(Model/Fsm.lean).  Modelled: assignments (also to tuples and to several targets), augmented assignments, `if`,
`while`, `for ... in range`, `for ... in` a list, `pass`, `break`, `continue`, `return`, and calls of user functions,
which are inlined.

Simplifications:
* names are resolved to registers (`getVariable`, thread/compiler.py:1144-1158: function-level scope, so a name is one
  register in each inlined call) and expressions are given by their value (Model/Hdl.lean);
* an expression that contains calls of user functions is written as the `call` statements, in the order of visiting,
  followed by the statement with the return registers in place of the calls (thread/compiler.py:133-144, 185-212,
  601-703: visiting the expression emits the states of the calls before those of the statement); only for the test of
  a `while`, where this matters, are the calls kept apart (`pre`);
* the tree of scope frames is represented by the lists of the current frame and the concatenated lists of the frames
  below it, which is all that is ever read;
* fixed-point variables, intrinsic functions and methods, `print`, subscripts, keyword and default arguments are not
  modelled; `fsm.parallel` is in Model/ThreadPar.lean.
-/

namespace Thr
open Hdl

/-- A list of statements (Python `ast`, as visited by thread/compiler.py); every constructor holds the statements that
    follow in the same list.
    `assign`: `visit_Assign` (133-144) with all its binds, `visit_AugAssign` (185-212), an argument list;
    `ifte`: `visit_If` (221-255), `q = nil` if there is no `else`;
    `while_`: `visit_While` (257-293), `pre` the calls in the test;
    `loopr i e s`: the part of `_for_range_fsm` (338-389) after the initialization, see `forr`;
    `brk`, `cont`, `ret`: 804-834;
    `call args rv body`: `_call_Name_function` (601-703), return register `rv`. -/
inductive Prog
  | nil
  | assign (bs : List (Reg × Expr)) (rest : Prog)
  | pass (rest : Prog)
  | ifte (c : Expr) (p q rest : Prog)
  | while_ (pre : Prog) (c : Expr) (p rest : Prog)
  | loopr (i : Reg) (e s : Expr) (p rest : Prog)
  | brk (rest : Prog)
  | cont (rest : Prog)
  | ret (e : Option Expr) (rest : Prog)
  | call (args : List (Reg × Expr)) (rv : Reg) (body rest : Prog)

/-- No statements: `len(node.orelse) == 0` (thread/compiler.py:239). -/
def Prog.isNil : Prog → Bool
  | .nil => true
  | _ => false

/-- `for i in range(b, e, s)` (thread/compiler.py:309-389).  The initialization is visited like an assignment; that
    the frame of the loop is pushed before it makes no difference, since it contains no jump. -/
def Prog.forr (i : Reg) (b e s : Expr) (p rest : Prog) : Prog := .assign [(i, b)] (.loopr i e s p rest)

/-- `cond_node = LessThan(iter_node, end_node)` (thread/compiler.py:330). -/
def ltE (i : Reg) (e : Expr) : Expr := .fn fun env => if env i.name < e.eval env then 1 else 0

/-- `update_node = Plus(iter_node, step_node)` (thread/compiler.py:331). -/
def plusE (i : Reg) (s : Expr) : Expr := .fn fun env => env i.name + s.eval env

/-- `for x in (o1, o2, ...)` (thread/compiler.py:391-418): the value is chosen by a `PatternMux` on a temporary
    counter (the default, an undefined value, is 0 here). -/
def Prog.forList (tmp x : Reg) (objs : List Expr) (p rest : Prog) : Prog :=
  .forr tmp (.int 0) (.int objs.length) (.int 1)
    (.assign [(x, .fn fun env => ((objs[(env tmp.name).toNat]?).map (·.eval env)).getD 0)] p) rest

/-- What is read of the scope frames: the unresolved jumps of the current frame (thread/scope.py:222-224) and of the
    frames below it (thread/scope.py:142-170). -/
structure Frame where
  brk : List Nat := []
  cont : List Nat := []
  ret : List Nat := []
  subBrk : List Nat := []
  subCont : List Nat := []
  subRet : List Nat := []
  deriving DecidableEq

/-- `getUnresolvedBreak` (thread/scope.py:142-150). -/
def Frame.allBrk (f : Frame) : List Nat := f.brk ++ f.subBrk
/-- `getUnresolvedContinue` (thread/scope.py:152-160). -/
def Frame.allCont (f : Frame) : List Nat := f.cont ++ f.subCont
/-- `getUnresolvedReturn` (thread/scope.py:162-170). -/
def Frame.allRet (f : Frame) : List Nat := f.ret ++ f.subRet

/-- `skip` (thread/compiler.py:1116-1118; thread/scope.py:133-140). -/
def Frame.skip (f : Frame) : Bool := !f.brk.isEmpty || !f.cont.isEmpty || !f.ret.isEmpty

/-- `popScopeFrame` (thread/scope.py:52-53): the frame `child` becomes the last of the frames below `f`. -/
def Frame.pop (f child : Frame) : Frame :=
  { f with subBrk := f.subBrk ++ child.allBrk
           subCont := f.subCont ++ child.allCont
           subRet := f.subRet ++ child.allRet }

/-- `clearBreak`, `clearContinue` (thread/scope.py:182-196). -/
def Frame.clearLoop (f : Frame) : Frame := { f with brk := [], cont := [], subBrk := [], subCont := [] }

/-- State of the visitor (thread/compiler.py:76-110). -/
structure CS where
  fsm : FsmSt
  frame : Frame

/-- `getFsmCount` (thread/compiler.py:1266-1267). -/
def CS.cur (s : CS) : Nat := s.fsm.cur

/-- `setBind` (thread/compiler.py:1219-1248): the assignment is added to the current state. -/
def CS.bind (s : CS) (r : Reg) (e : Expr) : CS := { s with fsm := s.fsm.addStatement [.subst r e] {} }

/-- Several binds in the same state (thread/compiler.py:140-141, 182-183, 636-684). -/
def CS.binds (s : CS) (bs : List (Reg × Expr)) : CS := bs.foldl (fun s b => s.bind b.1 b.2) s

/-- `setFsm` (thread/compiler.py:1251-1259). -/
def CS.jump (s : CS) (src dst : Nat) (c : Option Expr) (els : Option Nat) : CS :=
  { s with fsm := s.fsm.gotoFrom src dst c els }

/-- `setFsm()` with default arguments: to the next state (thread/compiler.py:1255-1258). -/
def CS.jumpNext (s : CS) : CS := s.jump s.cur (s.cur + 1) none none

/-- `incFsmCount` (thread/compiler.py:1261-1264). -/
def CS.inc (s : CS) : CS := { s with fsm := s.fsm.setIndex (s.cur + 1) }

/-- `for b in unresolved: self.setFsm(b, dst)` (thread/compiler.py:282-288, 378-384, 690-692). -/
def CS.resolve (s : CS) (l : List Nat) (dst : Nat) : CS := l.foldl (fun s b => s.jump b dst none none) s

/-- Visiting in a new frame: `pushScope`, the statements, `popScope` (e.g. thread/compiler.py:230-235). -/
def CS.inFrame (s : CS) (visit : CS → CS) : CS :=
  let s' := visit { s with frame := {} }
  { s' with frame := s.frame.pop s'.frame }

/-- The end of a loop: resolving `break` to `exit` and `continue` to `again` and forgetting them
    (thread/compiler.py:282-291, 378-387). -/
def CS.endLoop (s : CS) (exit again : Nat) : CS :=
  let s := s.resolve s.frame.allBrk exit
  let s := s.resolve s.frame.allCont again
  { s with frame := s.frame.clearLoop }

/-- Visiting a list of statements; `rv` is the return register of the function (thread/compiler.py:812-834). -/
def compile : Prog → Reg → CS → CS
  | .nil, _, s => s
  | .pass rest, rv, s => compile rest rv s
  | .assign bs rest, rv, s =>
    compile rest rv (if s.frame.skip then s else (s.binds bs).jumpNext.inc)
  | .ifte c p q rest, rv, s =>
    compile rest rv (
      if s.frame.skip then s else
      let cur := s.cur
      let s := s.inc
      let trueCount := s.cur
      let s := s.inFrame (compile p rv)
      let mid := s.cur
      if q.isNil then s.jump cur trueCount (some c) (some mid)
      else
        let s := s.inc
        let falseCount := s.cur
        let s := s.inFrame (compile q rv)
        let end' := s.cur
        (s.jump cur trueCount (some c) (some falseCount)).jump mid end' none none)
  | .while_ pre c p rest, rv, s =>
    compile rest rv (
      if s.frame.skip then s else
      let s := compile pre rv s
      let begin' := s.cur
      let s := s.inc
      let bodyBegin := s.cur
      let s := s.inFrame (compile p rv)
      let bodyEnd := s.cur
      let s := s.inc
      let exit := s.cur
      let s := (s.jump begin' bodyBegin (some c) (some exit)).jump bodyEnd begin' none none
      s.endLoop exit begin')
  | .loopr i e st p rest, rv, s =>
    compile rest rv (
      if s.frame.skip then s else
      let check := s.cur
      let s := s.inc
      let bodyBegin := s.cur
      let s := s.inFrame (compile p rv)
      let bodyEnd := s.cur
      let s := (s.bind i (plusE i st)).inc
      let exit := s.cur
      let s := (s.jump bodyEnd check none none).jump check bodyBegin (some (ltE i e)) (some exit)
      s.endLoop exit bodyEnd)
  | .brk rest, rv, s =>
    compile rest rv ({ s with frame := { s.frame with brk := s.frame.brk ++ [s.cur] } } : CS).inc
  | .cont rest, rv, s =>
    compile rest rv ({ s with frame := { s.frame with cont := s.frame.cont ++ [s.cur] } } : CS).inc
  | .ret e rest, rv, s =>
    let s := s.binds ((e.map fun e => (rv, e)).toList)
    compile rest rv ({ s with frame := { s.frame with ret := s.frame.ret ++ [s.cur] } } : CS).inc
  | .call args rv' body rest, rv, s =>
    compile rest rv (
      if s.frame.skip then s else
      -- `pushScope('call')`, arguments, body, `return` jumps, `popScope` of the emptied frame
      let frame := s.frame
      let s := (({ s with frame := {} } : CS).binds args).jumpNext.inc
      let s := compile body rv' s
      let s := s.resolve s.frame.allRet s.cur
      { s with frame := frame })

/-- `Thread.start` (thread/thread.py:64-83, 219-258): a new FSM with the call of the thread function. -/
def start (name : String) (width : Nat) (args : List (Reg × Expr)) (rv : Reg) (body : Prog) : CS :=
  compile (.call args rv body .nil) rv ⟨FsmSt.fresh name width, {}⟩

end Thr
