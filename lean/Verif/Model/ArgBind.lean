import Mathlib.Data.Nat.Notation
import Mathlib.Data.Int.Notation

/-!
# Model of the binding of arguments in calls of thread functions (thread/compiler.py:601-683, 1144-1211; thread/scope.py)

A call of a user function pushes a scope frame, binds the arguments to names of the frame and then visits the body.  The values
of the arguments are visited before; a visited expression is a number, given by its value in a state of the registers, or another
Python object.  All assignments are made in the same state of the FSM.

Simplifications: the registers of numbers are numbered in the order of their creation; names of temporary variables
(`_tmp_name('tmp')`) are not entered in the frame; default values are literals, names and sums; `*expr` and `**expr` in the call
are left out; no fixed-point values.
-/

namespace ABind

/-- The contents of the registers of a thread (thread/compiler.py:1132-1136). -/
abbrev Store := ℕ → ℤ

/-- A visited argument: of `numerical_types` (core/vtypes.py:2313) or another object. -/
inductive Arg (O : Type)
  | num (e : Store → ℤ)
  | obj (o : O)

/-- What a name of the frame stands for (thread/scope.py:230-231): a register, an object, or the list of `*args`
    (thread/compiler.py:1200-1211). -/
inductive Bnd (O : Type)
  | reg (r : ℕ)
  | obj (o : O)
  | seq (l : List (ℕ ⊕ O))

/-- The expression of a default value (`tree.args.defaults`, thread/compiler.py:673-679). -/
inductive DExpr
  | lit (z : ℤ)
  | name (s : String)
  | add (a b : DExpr)

/-- The parameters of a function definition (`ast.arguments`, read at thread/compiler.py:633-680): `def f(posonly, /, args, *vararg, kwonly, **kwarg)`; `defaults` are
    those of the last parameters of `posonly` and `args`. -/
structure Sig where
  posonly : List String := []
  args : List String
  vararg : Option String := none
  kwonly : List String := []
  kwarg : Option String := none
  defaults : List DExpr := []

/-- Errors raised: too many positional arguments (thread/compiler.py:649-651), two values (663-665), a keyword that is no parameter
    (669-670), a name that is not defined (1157), an object that is not assignable or not a number. -/
inductive Err
  | tooMany
  | multiple
  | keyword
  | undefined
  | other
  deriving DecidableEq

/-- The visitor during a call (thread/compiler.py:613, thread/scope.py:215-225): the variables of the new frame, the number of registers, the assignments of the current state. -/
structure BSt (O : Type) where
  env : List (String × Bnd O)
  regs : ℕ
  binds : List (ℕ × (Store → ℤ))

variable {O : Type}

/-- `searchVariable` in the frame of the call (thread/scope.py:69-89, 237-240): the search stops at a frame of type 'call'. -/
def find (env : List (String × Bnd O)) (n : String) : Option (Bnd O) := (env.find? fun x => x.1 == n).map Prod.snd

/-- `setArgBind` (thread/compiler.py:1190-1198) with `getVariable(name, store=True)` (1144-1161). -/
def setArg (s : BSt O) (n : String) : Arg O → Except Err (BSt O)
  | .obj o => .ok { s with env := (n, .obj o) :: s.env }
  | .num e =>
    match find s.env n with
    | none => .ok ⟨(n, .reg s.regs) :: s.env, s.regs + 1, s.binds ++ [(s.regs, e)]⟩
    | some (.reg r) => .ok { s with binds := s.binds ++ [(r, e)] }
    | some _ => .error .other

/-- The loop of `setVarargBind` (thread/compiler.py:1201-1210): numbers get temporary registers. -/
def varLefts (s : BSt O) : List (Arg O) → BSt O × List (ℕ ⊕ O)
  | [] => (s, [])
  | .obj o :: l => let x := varLefts s l; (x.1, .inr o :: x.2)
  | .num e :: l =>
    let x := varLefts { s with regs := s.regs + 1, binds := s.binds ++ [(s.regs, e)] } l
    (x.1, .inl s.regs :: x.2)

/-- `setVarargBind` (thread/compiler.py:1200-1211). -/
def setVar (s : BSt O) (n : String) (l : List (Arg O)) : BSt O :=
  let x := varLefts s l
  { x.1 with env := (n, .seq x.2) :: x.1.env }

/-- The loop on the positional arguments (thread/compiler.py:635-651), with `args_used_list` and `rest_args`. -/
def bindPos (va : Bool) : List String → List (Arg O) → BSt O → Except Err (BSt O × List String × List (Arg O))
  | _, [], s => .ok (s, [], [])
  | p :: ps, a :: as, s => do
    let s ← setArg s p a
    let x ← bindPos va ps as s
    pure (x.1, p :: x.2.1, x.2.2)
  | [], as, s => if va then .ok (s, [], as) else .error .tooMany

/-- The loop on the keywords (thread/compiler.py:661-670). -/
def bindKw (params : List String) : List (String × Arg O) → List String → BSt O → Except Err (BSt O × List String)
  | [], used, s => .ok (s, used)
  | (k, a) :: kws, used, s =>
    if k ∈ used then .error .multiple
    else if k ∈ params then do
      let s ← setArg s k a
      bindKw params kws (used ++ [k]) s
    else .error .keyword

/-- Visiting a default value (thread/compiler.py:679): in the frame of the call.  `outer` are the objects of the frame in which the
    thread was started and its globals (1150-1157). -/
def visitD (outer : String → Option (Arg O)) (env : List (String × Bnd O)) : DExpr → Except Err (Arg O)
  | .lit z => .ok (.num fun _ => z)
  | .name n =>
    match find env n with
    | some (.reg r) => .ok (.num fun st => st r)
    | some (.obj o) => .ok (.obj o)
    | some (.seq _) => .error .other
    | none =>
      match outer n with
      | some a => .ok a
      | none => .error .undefined
  | .add a b => do
    let x ← visitD outer env a
    let y ← visitD outer env b
    match x, y with
    | .num e, .num f => pure (.num fun st => e st + f st)
    | _, _ => .error .other

/-- The loop on the default values (thread/compiler.py:675-680). -/
def bindDef (outer : String → Option (Arg O)) (used : List String) : List (String × DExpr) → BSt O → Except Err (BSt O)
  | [], s => .ok s
  | (n, d) :: l, s =>
    if n ∈ used then bindDef outer used l s
    else do
      let a ← visitD outer s.env d
      let s ← setArg s n a
      bindDef outer used l s

/-- `zip(tree.args.args[-kwargs_size:], tree.args.defaults)` (thread/compiler.py:673-675); if there are no default values the loop is
    not executed. -/
def Sig.defaulted (sig : Sig) : List (String × DExpr) :=
  (sig.args.drop (sig.args.length - sig.defaults.length)).zip sig.defaults

/-- `*args`, if there is something in it (thread/compiler.py:653-659). -/
def setRest (sig : Sig) (s : BSt O) (rest : List (Arg O)) : BSt O :=
  match rest, sig.vararg with
  | [], _ => s
  | _, none => s
  | l, some n => setVar s n l

/-- The binding of the arguments (thread/compiler.py:633-680).  `posonly`, `kwonly` and `kwarg` are not looked at. -/
def bindCall (outer : String → Option (Arg O)) (sig : Sig) (args : List (Arg O)) (kws : List (String × Arg O)) (s : BSt O) :
    Except Err (BSt O) := do
  let x ← bindPos sig.vararg.isSome sig.args args s
  let y ← bindKw sig.args kws x.2.1 (setRest sig x.1 x.2.2)
  bindDef outer y.2 sig.defaulted y.1

/-- The clock edge in the state of the call: all right-hand sides are evaluated before, registers are `dw` bits wide and signed
    (thread/compiler.py:1132-1136, 1219-1248). -/
def commit (dw : ℕ) (binds : List (ℕ × (Store → ℤ))) (st : Store) : Store := fun r =>
  match binds.reverse.find? fun b => b.1 == r with
  | some b => Int.bmod (b.2 st) (2 ^ dw)
  | none => st r

/-- A value of the called function: what `visit_Name` returns (thread/compiler.py:987-1002), with registers replaced by their
    contents. -/
inductive PVal (O : Type)
  | int (z : ℤ)
  | obj (o : O)
  | tup (l : List (ℤ ⊕ O))

/-- What a name of the called function is when its body starts: `visit_Name`, `getVariable` (thread/compiler.py:987-1002,
    1144-1161). -/
def readName (outer : String → Option (Arg O)) (env : List (String × Bnd O)) (st : Store) (n : String) : Except Err (PVal O) :=
  match find env n with
  | some (.reg r) => .ok (.int (st r))
  | some (.obj o) => .ok (.obj o)
  | some (.seq l) => .ok (.tup (l.map (Sum.map st id)))
  | none =>
    match outer n with
    | some (.num e) => .ok (.int (e st))
    | some (.obj o) => .ok (.obj o)
    | none => .error .undefined

end ABind
