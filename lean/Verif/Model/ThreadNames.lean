import Verif.Model.Thread
import Mathlib.Data.Nat.Notation
import Mathlib.Data.Int.Notation

/-! Names in thread functions: how the visitor of the thread compiler (thread/compiler.py, thread/scope.py) turns the names of a
    Python function into registers and inlines calls, giving the programs of Model/Thread.lean.

    Simplifications:
    * expressions are literals, names and operators applied to values; a call inside an expression is written as a statement
      before it, which keeps the result under a name that is no Python name (as in Model/Thread.lean);
    * no statements after `break`, `continue` and `return` in a list (the visitor leaves them out);
    * arguments are positional (C82 has the others), numbers, as are the objects of the frame in which the thread was started;
      nested definitions of functions, tests of `while` with calls (C19), lists and fixed-point variables are left out;
    * registers are numbered in the order of their creation (`_tmp_name`, thread/compiler.py:19-29: a counter in the name);
    * recursion of the visitor (for functions called in functions) is bounded by a number. -/

namespace Nam
open Hdl Thr

/-- Expressions without calls (`ast.Constant`, `ast.Name`, `ast.BinOp`, `ast.Compare`, `ast.BoolOp`; thread/compiler.py:836-1002). -/
inductive SE
  | lit (z : ℤ)
  | name (n : String)
  | op (f : ℤ → ℤ → ℤ) (a b : SE)

/-- Statements, each with those that follow in the list.
    `asg`: targets and values of an assignment (to a tuple, or several targets with the same value; thread/compiler.py:133-183);
    `aug x f e`: `x op= e` (185-212); `while_` (257-293); `forr`: `for i in range(b, e, s)` (309-389), `loop` the part of it after
    the initialization; `call x f args`: a call of a function whose result is kept as `x` (601-703). -/
inductive Src
  | nil
  | asg (xs : List String) (es : List SE) (rest : Src)
  | aug (x : String) (f : ℤ → ℤ → ℤ) (e : SE) (rest : Src)
  | ifte (c : SE) (p q rest : Src)
  | while_ (c : SE) (p rest : Src)
  | loop (i : String) (e s : SE) (p rest : Src)
  | forr (i : String) (b e s : SE) (p rest : Src)
  | brk
  | cont
  | ret (e : Option SE)
  | call (x f : String) (args : List SE) (rest : Src)

/-- A function definition (`ast.FunctionDef`, found by `getFunction`; thread/compiler.py:1174-1188). -/
structure FDef where
  params : List String
  body : Src

/-- What a name stands for (thread/scope.py:230-231): a register, or the constant that is the result of a call without return
    value (thread/compiler.py:705-710). -/
inductive Ref
  | reg (k : ℕ)
  | cst (z : ℤ)
  deriving DecidableEq

/-- `ScopeFrame` (thread/scope.py:215-225): `call` is `ftype == 'call'`. -/
structure Fr where
  call : Bool
  vars : List (String × Ref)
  rv : Option ℕ

/-- A frame as pushed for a block (thread/compiler.py:230, 246, 268, 342). -/
def plain : Fr := ⟨false, [], none⟩

/-- The number of registers created and the frames from `current` outwards (thread/scope.py:19-30). -/
structure RS where
  k : ℕ
  stk : List Fr

/-- `searchVariable` (thread/scope.py:69-89, 237-240). -/
def look : List Fr → String → Option Ref
  | [], _ => none
  | f :: fs, n => match f.vars.lookup n with
    | some r => some r
    | none => if f.call then none else look fs n

/-- `addVariable` (thread/scope.py:55-64, 230-231): into the nearest frame of a call. -/
def addVar : List Fr → String → Ref → List Fr
  | [], _, _ => []
  | f :: fs, n, r => if f.call then { f with vars := (n, r) :: f.vars } :: fs else f :: addVar fs n r

/-- `getReturnVariable` (thread/scope.py:172-180). -/
def getRv : List Fr → Option ℕ
  | [] => none
  | f :: fs => if f.call then f.rv else getRv fs

/-- `setReturnVariable` (thread/scope.py:123-131). -/
def setRv : List Fr → ℕ → List Fr
  | [], _ => []
  | f :: fs, k => if f.call then { f with rv := some k } :: fs else f :: setRv fs k

/-- `pushScopeFrame` for a block (thread/scope.py:38-50). -/
def RS.push (s : RS) : RS := { s with stk := plain :: s.stk }

/-- `popScopeFrame` (thread/scope.py:52-53). -/
def RS.pop (s : RS) : RS := { s with stk := s.stk.tail }

/-- `makeVariableReg` (thread/compiler.py:1132-1136): signed, of the data width of the thread. -/
def mk (w k : ℕ) : Reg := ⟨.tmp k, w, true, some 0⟩

/-- The return register in Model/Thread.lean; a function without return value has none (thread/compiler.py:1132-1136). -/
def rvReg (w : ℕ) : Option ℕ → Reg
  | some k => mk w k
  | none => ⟨.user "", w, true, none⟩

/-- `getVariable(name, store=True)` (thread/compiler.py:1144-1161). -/
def store (s : RS) (n : String) : Option (ℕ × RS) :=
  match look s.stk n with
  | some (.reg j) => some (j, s)
  | some (.cst _) => none
  | none => some (s.k, ⟨s.k + 1, addVar s.stk n (.reg s.k)⟩)

/-- Several targets (thread/compiler.py:140-141, 182-183). -/
def storeAll : List String → RS → Option (List ℕ × RS)
  | [], s => some ([], s)
  | n :: ns, s => (store s n).bind fun p => (storeAll ns p.2).bind fun q => some (p.1 :: q.1, q.2)

section
variable (outer : String → Option ℤ)

/-- Visiting an expression; `getVariable(name)` (thread/compiler.py:987-1002, 1144-1157): the frames up to that of the call, then
    the frame in which the thread was started and its globals, `outer`; otherwise `NameError`. -/
def rexpr (stk : List Fr) : SE → Option Expr
  | .lit z => some (.int z)
  | .name n => match look stk n with
    | some (.reg k) => some (.var (.tmp k))
    | some (.cst z) => some (.int z)
    | none => (outer n).map .int
  | .op f a b => (rexpr stk a).bind fun a' => (rexpr stk b).bind fun b' =>
      some (.fn fun env => f (a'.eval env) (b'.eval env))

/-- Visiting several expressions (thread/compiler.py:137, 607-608). -/
def rexprs (stk : List Fr) : List SE → Option (List Expr)
  | [] => some []
  | e :: es => (rexpr outer stk e).bind fun e' => (rexprs stk es).bind fun es' => some (e' :: es')

variable (fs : String → Option FDef) (w : ℕ)

/-- The assignments of the targets or parameters with registers `js` (thread/compiler.py:140-141, 636-645). -/
def mkBinds (js : List ℕ) (es : List Expr) : List (Reg × Expr) := (js.map (mk w)).zip es

/-- Visiting statements; `inl` visits the body of a called function (thread/compiler.py:133-418). -/
def resolveW (inl : Src → RS → Option (Prog × RS)) : Src → RS → Option (Prog × RS)
  | .nil, s => some (.nil, s)
  | .asg xs es rest, s =>
    if xs.length = es.length then
      (rexprs outer s.stk es).bind fun es' => (storeAll xs s).bind fun q => (resolveW inl rest q.2).bind fun t =>
        some (.assign (mkBinds w q.1 es') t.1, t.2)
    else none
  | .aug x f e rest, s =>
    (rexpr outer s.stk e).bind fun e' => (store s x).bind fun q => (resolveW inl rest q.2).bind fun t =>
      some (.assign [(mk w q.1, .fn fun env => f (env (.tmp q.1)) (e'.eval env))] t.1, t.2)
  | .ifte c p q rest, s =>
    (rexpr outer s.stk c).bind fun c' => (resolveW inl p s.push).bind fun a => (resolveW inl q a.2.pop.push).bind fun b =>
      (resolveW inl rest b.2.pop).bind fun t => some (.ifte c' a.1 b.1 t.1, t.2)
  | .while_ c p rest, s =>
    (rexpr outer s.stk c).bind fun c' => (resolveW inl p s.push).bind fun a =>
      (resolveW inl rest a.2.pop).bind fun t => some (.while_ .nil c' a.1 t.1, t.2)
  | .loop i e st p rest, s =>
    (rexpr outer s.stk e).bind fun e' => (rexpr outer s.stk st).bind fun st' => (store s i).bind fun q =>
      (resolveW inl p q.2.push).bind fun a => (resolveW inl rest a.2.pop).bind fun t =>
        some (.loopr (mk w q.1) e' st' a.1 t.1, t.2)
  | .forr i b e st p rest, s =>
    (rexpr outer s.stk b).bind fun b' =>
      (rexpr outer s.stk e).bind fun e' => (rexpr outer s.stk st).bind fun st' => (store s i).bind fun q =>
        (resolveW inl p q.2.push).bind fun a => (resolveW inl rest a.2.pop).bind fun t =>
          some (.assign [(mk w q.1, b')] (.loopr (mk w q.1) e' st' a.1 t.1), t.2)
  | .brk, s => some (.brk .nil, s)
  | .cont, s => some (.cont .nil, s)
  | .ret none, s => some (.ret none .nil, s)
  | .ret (some e), s =>
    match getRv s.stk with
    | some _ => (rexpr outer s.stk e).bind fun e' => some (.ret (some e') .nil, s)
    | none =>
      let s' : RS := ⟨s.k + 1, setRv s.stk s.k⟩
      (rexpr outer s'.stk e).bind fun e' => some (.ret (some e') .nil, s')
  | .call x f args rest, s =>
    (fs f).bind fun fd =>
      if fd.params.length = args.length ∧ look s.stk x = none then
        (rexprs outer s.stk args).bind fun es' => (storeAll fd.params ⟨s.k, ⟨true, [], none⟩ :: s.stk⟩).bind fun q =>
          (inl fd.body q.2).bind fun b => (b.2.stk.head?).bind fun fr =>
            (resolveW inl rest ⟨b.2.k, addVar b.2.stk.tail x (match fr.rv with
              | some j => .reg j
              | none => .cst 0)⟩).bind fun t =>
              some (.call (mkBinds w q.1 es') (rvReg w fr.rv) b.1 t.1, t.2)
      else none

/-- Visiting statements with calls nested at most `n` deep (thread/compiler.py:420-692). -/
def resolve : ℕ → Src → RS → Option (Prog × RS)
  | 0 => fun _ _ => none
  | n + 1 => resolveW outer fs w (resolve n)

/-- `_synthesize_start_fsm` (thread/thread.py:219-258): the call of the thread function with numbers as arguments; gives the
    assignments of the parameters, the body, and the frame of the call at its end. -/
def threadProg (n : ℕ) (fd : FDef) (args : List ℤ) : Option (List (Reg × Expr) × Prog × Fr) :=
  if fd.params.length = args.length then
    (storeAll fd.params ⟨0, [⟨true, [], none⟩]⟩).bind fun q => (resolve outer fs w n fd.body q.2).bind fun b =>
      (b.2.stk.head?).bind fun fr => some (mkBinds w q.1 (args.map .int), b.1, fr)
  else none

end
end Nam
