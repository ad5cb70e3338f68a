import Mathlib.Logic.Function.Basic

/-!
# The register-transfer core shared by the Seq and FSM models

Registers, expressions and statements that `Seq` and `FSM` put into an `always @(posedge clk)`
block, and the Verilog meaning of such a block.

Simplifications common to every model built on this file:
* values are integers; `x`/`z` bits are not modelled;
* an assignment target is a whole register (no bit or part select, no array element);
* all assignments are non-blocking (`<=`): right-hand sides and conditions read the register
  values from before the edge;
* an expression is given by its value as a function of the register values (`Expr.fn`), except
  that Python integer constants are kept apart, because the builders test for them;
* generated names are kept as structured data instead of the strings that Python joins with `_`.
  This is faithful because `Module.Reg` raises `ValueError` on a name that is already taken
  (core/module.py:105-113 and 1284-1293), so two different generated registers never share a
  name in a module that is built without error.
-/

namespace Hdl

/-- Signal names.  `user` is a name chosen by the user; the others are the names generated by
    `_add_delayed_cond` (seq/seq.py:680-689, fsm/fsm.py:831-842), `_add_delayed_subst`
    (seq/seq.py:692-714, fsm/fsm.py:845-867), `Prev` (seq/seq.py:139-193, `prev` for the cached
    registers, `tmp` for the `TmpReg`s of a conditional `Prev`), and the FSM state register and its
    delayed copies (fsm/fsm.py:51 and 940-960). -/
inductive Var
  | user (name : String)
  | cond (owner : String) (k i : Nat)
  | sbst (owner : String) (k i : Nat)
  | prev (pfx : String) (i : Nat)
  | tmp (k : Nat)
  | state (owner : String)
  | dstate (owner : String) (i : Nat)
  deriving DecidableEq, Repr

/-- Values of all signals at one moment (of the variables of core/vtypes.py:536-630). -/
abbrev Env := Var → Int

/-- A register variable object (core/vtypes.py `_Variable`, with the attributes `name`, `width`,
    `signed`, `initval`; `width=None` is one bit) (core/vtypes.py:536-560, 659). -/
structure Reg where
  name : Var
  width : Nat
  signed : Bool := false
  init : Option Int := none
  deriving DecidableEq, Repr

/-- Storing a value in a register keeps its low `width` bits, read back as signed or unsigned
    (Verilog assignment semantics of the emitted `reg [signed] [width-1:0]`). -/
def Reg.wrap (r : Reg) (v : Int) : Int :=
  if r.signed then Int.bmod v (2 ^ r.width) else v % (2 ^ r.width : Nat)

/-- An expression: a Python/Verilog integer constant, or any other expression, given by its value
    (core/vtypes.py:806-1854, operators not modelled individually). -/
inductive Expr
  | int (c : Int)
  | fn (f : Env → Int)

/-- Value of an expression (core/vtypes.py:806-1854). -/
def Expr.eval : Expr → Env → Int
  | .int c, _ => c
  | .fn f, env => f env

/-- Verilog truth of a condition: any non-zero value (of the `If` of core/vtypes.py:1974). -/
def Expr.truthy (e : Expr) (env : Env) : Bool := e.eval env != 0

/-- Reading a variable (core/vtypes.py:536). -/
def Expr.var (v : Var) : Expr := .fn fun env => env v

/-- `vtypes.Not` = `Ulnot`, logical negation with value 0 or 1 (core/vtypes.py:1533-1534). -/
def Expr.not (a : Expr) : Expr := .fn fun env => if a.truthy env then 0 else 1

/-- `vtypes.Ands` of two arguments = `Land`, value 0 or 1 (core/vtypes.py:1537-1545). -/
def Expr.and (a b : Expr) : Expr := .fn fun env => if a.truthy env && b.truthy env then 1 else 0

/-- Statements: `Subst` (core/vtypes.py:1903), `If` with both branches (1974-2015, a missing else
    is `skip`), and sequences of statements. -/
inductive Code
  | skip
  | seq (a b : Code)
  | subst (r : Reg) (e : Expr)
  | ite (c : Expr) (t e : Code)

/-- A tuple or list of statements (core/vtypes.py:1974-2015). -/
def Code.block : List Code → Code
  | [] => .skip
  | c :: cs => .seq c (Code.block cs)

/-- Verilog meaning of a statement inside a clocked block: `env` holds the values before the edge
    (what right-hand sides and conditions read), `acc` the values scheduled so far (of core/vtypes.py:1903-2015, in an `always` as in seq/seq.py:371-393). -/
def Code.exec : Code → Env → Env → Env
  | .skip, _, acc => acc
  | .seq a b, env, acc => b.exec env (a.exec env acc)
  | .subst r e, env, acc => Function.update acc r.name (r.wrap (e.eval env))
  | .ite c t e, env, acc => if c.truthy env then t.exec env acc else e.exec env acc

/-- The registers a statement can assign: `SubstDstVisitor` (seq/subst_visitor.py:14-83). -/
def Code.targets : Code → List Reg
  | .skip => []
  | .seq a b => a.targets ++ b.targets
  | .subst r _ => [r]
  | .ite _ t e => t.targets ++ e.targets

/-- Register values after a clock edge at which the block `c` was executed (seq/seq.py:371-393). -/
def Code.tick (c : Code) (env : Env) : Env := c.exec env env

/-- Specification device: the values assigned to `x`, in execution order (of core/vtypes.py:1903-2015). -/
def Code.trace : Code → Env → Var → List Int
  | .skip, _, _ => []
  | .seq a b, env, x => a.trace env x ++ b.trace env x
  | .subst r e, env, x => if r.name = x then [r.wrap (e.eval env)] else []
  | .ite c t e, env, x => if c.truthy env then t.trace env x else e.trace env x

/-- The same for a list of statements (of core/vtypes.py:1903-2015). -/
def traceL (l : List Code) (env : Env) (x : Var) : List Int := l.flatMap fun c => c.trace env x

/-- `If(c1) s1 else if (c2) s2 ... else se`: the nested `If` objects built by `If.Elif` and
    `If.Else` (core/vtypes.py:1993-2005). -/
def chainCode : List (Expr × Code) → Option Code → Code
  | [], none => .skip
  | [], some e => e
  | (c, s) :: rest, els => .ite c s (chainCode rest els)

/-- Verilog `case (sel)` with integer labels: the first arm whose label equals the selector
    (core/vtypes.py `Case`/`When`, 2066-2150). -/
def caseCode (sel : Expr) : List (Int × Code) → Code
  | [] => .skip
  | (k, s) :: rest => .ite (.fn fun env => if sel.eval env = k then 1 else 0) s (caseCode sel rest)

end Hdl
