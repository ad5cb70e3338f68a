import Verif.Model.Hdl

/-!
# Model of `Mux`, `PatternMux`, `PatternIf` (core/vtypes.py) and the assignment helpers of types/util.py

Values are integers as in `Model/Hdl.lean`.  Not modelled: widths and signedness of the operands of
`?:` (the value of an operand is taken as it is), conditions that are Python floats, strings or lists.
-/

namespace Hdl

/-- `Cond`, Verilog `c ? t : e` (core/vtypes.py:1830-1854). -/
def Expr.cond (c t e : Expr) : Expr := .fn fun env => if c.truthy env then t.eval env else e.eval env

/-- `Mux` (core/vtypes.py:1857-1861): a Python constant condition is resolved at once. -/
def mux (c t e : Expr) : Expr :=
  match c with
  | .int n => if n ≠ 0 then t else e
  | c => .cond c t e

/-- The loop of `PatternMux` over the reversed patterns (core/vtypes.py:2185-2190). -/
def patternMuxLoop : Option Expr → List (Option Expr × Expr) → Option (Option Expr)
  | prev, [] => some prev
  | none, (some _, _) :: _ => none
  | some _, (none, _) :: _ => none
  | none, (none, v) :: ps => patternMuxLoop (some v) ps
  | some prev, (some c, v) :: ps => patternMuxLoop (some (mux c v prev)) ps

/-- `PatternMux` (core/vtypes.py:2179-2192) of a list of patterns.  `none` is a `ValueError`, and also
    the `None` returned for an empty list. -/
def patternMux (ps : List (Option Expr × Expr)) : Option Expr :=
  (patternMuxLoop none ps.reverse).join

/-- The loop of `PatternIf` (core/vtypes.py:2158-2174) from pattern `i`; `length` is the value of the
    variable of that name.  The `If` objects are nested by `prev.Else(body)` (2167). -/
def patternIfLoop (length : Nat) : Nat → List (Option Expr × Code) → Option Code
  | _, [] => some .skip
  | i, (some c, s) :: ps => (patternIfLoop length (i + 1) ps).map fun e => .ite c s e
  | i, (none, s) :: _ => if i + 1 < length then none else some s

/-- `PatternIf` (core/vtypes.py:2150-2176).  `asList`: the patterns are passed as one list, in which
    case `length` was computed before the list was unpacked (2153-2156).  At least one pattern. -/
def patternIf (asList : Bool) (ps : List (Option Expr × Code)) : Option Code :=
  patternIfLoop (if asList then 1 else ps.length) 0 ps

/-- Calls that change the continuous assignment of a wire (types/util.py:57-101, and `assign`,
    core/vtypes.py:573-577). -/
inductive AssignOp
  | assign (v : Expr)
  | overwrite (v : Expr)
  | addMux (c v : Expr)
  | addEnable (c v : Expr)
  | addDisable (c v : Expr)

/-- The right-hand side assigned to the wire after the call; `none` inside: no assignment yet;
    outer `none`: `ValueError('already assigned')` (core/vtypes.py:606-609).  `x` is the value of `IntX()`
    (unknown in Verilog). -/
def AssignOp.apply (x : Int) (w : Option Expr) : AssignOp → Option (Option Expr)
  | .assign v => match w with
    | none => some (some v)
    | some _ => none
  | .overwrite v => some (some v)
  | .addMux c v => match w with
    | none => some (some (mux c v (.int x)))
    | some p => some (some (mux c v p))
  | .addEnable c v => match w with
    | none => some (some (mux c v (.int 0)))
    | some p => some (some (mux c v p))
  | .addDisable c v => match w with
    | none => some (some (mux c v (.int 1)))
    | some p => some (some (.and (mux c v (.int 1)) p))

/-- A sequence of calls (types/util.py:57-101). -/
def applyAssigns (x : Int) (w : Option Expr) : List AssignOp → Option (Option Expr)
  | [] => some w
  | op :: ops => (op.apply x w).bind fun w' => applyAssigns x w' ops

end Hdl
