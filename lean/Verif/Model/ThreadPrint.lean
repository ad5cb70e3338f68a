import Mathlib.Data.Rat.Defs

/-!
# Model of `print` in threads

`_call_Name_print`, `_print_binop_mod` and `_print_f_strings` (thread/compiler.py:450-575), which
turn a call of `print` into `$display(format, values...)`, and what `$display` shows.

Simplified: a value is a string, an integer or a fixed-point number; the values of the variables
are those at the time of the display; the products and quotients in the arguments are exact
rational numbers.  Not modelled: the state of the FSM taken by the call (thread/compiler.py:538-543,
as for every other statement), conversions `!r`, escapes in the text of a string, `visit_Print`
(for Python 2, thread/compiler.py:1006-1053), keyword arguments of `print` (ignored by the code).
-/

namespace ThreadPrint

/-- The value of an expression in a call of `print`: a string (`vtypes.Str`), an integer, or a
    fixed-point number with its bits and its point (`fxd._FixedBase`)
    (thread/compiler.py:460-469, 514-530). -/
inductive PV where
  | str (s : List Char)
  | int (n : Int)
  | fixed (raw : Int) (point : Int)
  deriving DecidableEq, Repr

/-- A part of a format specification of an f-string: a text, or a nested value
    (thread/compiler.py:566-572). -/
inductive SpecPart where
  | lit (s : List Char)
  | nested
  deriving DecidableEq, Repr

/-- A part of an f-string: a text or a value with its format specification
    (thread/compiler.py:560-574). -/
inductive FPart where
  | lit (s : List Char)
  | val (v : PV) (spec : Option (List SpecPart))
  deriving DecidableEq, Repr

/-- An argument of `print`: `form % values`, an f-string, a tuple, another expression
    (thread/compiler.py:454-513). -/
inductive PArg where
  | mod (form : List Char) (vals : List PV)
  | fstr (parts : List FPart)
  | tuple (es : List PV)
  | expr (v : PV)
  deriving DecidableEq, Repr

/-- The value of an argument of `$display`: a string or a number (thread/compiler.py:534-539). -/
inductive Val where
  | str (s : List Char)
  | num (q : Rat)
  deriving DecidableEq, Repr

/-- The argument made for a value of `form % values` or of an f-string
    (thread/compiler.py:460-469, 479-488). -/
def modVal : PV → Val
  | .str s => .str s
  | .int n => .num n
  | .fixed raw point =>
    if 0 ≤ point then .num (raw / 2 ^ point.toNat) else .num (raw * 2 ^ (-point).toNat)

/-- The two lists filled by the loop: `argvalues`, `formatstring_list`
    (thread/compiler.py:452-453). -/
structure Acc where
  vals : List Val := []
  fmt : List (List Char) := []
  deriving DecidableEq, Repr

/-- An expression that is neither a formatted string nor a tuple, and the elements of a tuple
    (thread/compiler.py:494-511, 514-530): a negative point multiplies by `2 ** value.point`. -/
def addPlain (a : Acc) : PV → Acc
  | .str s => { a with fmt := a.fmt ++ [s, [' ']] }
  | .fixed raw point =>
    { vals := a.vals ++ [if 0 ≤ point then .num (raw / 2 ^ point.toNat)
        else .num (raw * (1 / 2 ^ (-point).toNat))]
      fmt := a.fmt ++ [['%', 'f'], [' ']] }
  | .int n => { vals := a.vals ++ [.num n], fmt := a.fmt ++ [['%', 'd'], [' ']] }

/-- The directive for a value of an f-string; nothing if the specification is not one text: a
    `SyntaxError`, or a `TypeError` for one nested value (thread/compiler.py:564-574). -/
def specFmt : Option (List SpecPart) → Option (List Char)
  | none => some ['%', 'd']
  | some [.lit s] => some ('%' :: s)
  | some _ => none

/-- `_print_f_strings` (thread/compiler.py:557-575): the values and the format. -/
def fString : List FPart → Option (List PV × List Char)
  | [] => some ([], [])
  | .lit s :: ps => (fString ps).map fun r => (r.1, s ++ r.2)
  | .val v spec :: ps => do
    let d ← specFmt spec
    let r ← fString ps
    return (v :: r.1, d ++ r.2)

/-- A formatted string: its values and its format are appended (thread/compiler.py:458-472,
    477-491). -/
def addForm (a : Acc) (vals : List PV) (form : List Char) : Acc :=
  { vals := a.vals ++ vals.map modVal, fmt := a.fmt ++ [form, [' ']] }

/-- One pass of the loop over the arguments (thread/compiler.py:454-530). -/
def addArg (a : Acc) : PArg → Option Acc
  | .mod form vals => some (addForm a vals form)
  | .fstr ps => (fString ps).map fun r => addForm a r.1 r.2
  | .tuple es => some (es.foldl addPlain a)
  | .expr v => some (addPlain a v)

/-- The loop over the arguments (thread/compiler.py:454-530). -/
def addArgs : Acc → List PArg → Option Acc
  | a, [] => some a
  | a, x :: xs => (addArg a x).bind fun b => addArgs b xs

/-- `_call_Name_print` (thread/compiler.py:450-539): the format and the values of `$display`;
    nothing if the compiler raises. -/
def compile (args : List PArg) : Option (List Char × List Val) :=
  (addArgs {} args).map fun a => (a.fmt.dropLast.flatten, a.vals)

/-- A character between `%` and the letter of a directive (IEEE 1364-2005, 17.1.1; the format made
    at thread/compiler.py:534-535). -/
def isFlag (c : Char) : Bool := c.isDigit || c == '.' || c == '-'

/-- What `$display` shows for a format and values (IEEE 1364-2005, 17.1.1; called by the code made
    at thread/compiler.py:534-539): texts as they are, `%%` as a percent sign, the values by the
    directives in order, the values left over in decimal.  How a directive shows a value is given by
    `conv` (flags, letter, value).  Nothing if a value is missing or the format ends within a
    directive.  The first argument holds the flags read since a `%`. -/
def render (conv : List Char → Char → Val → List Char) :
    Option (List Char) → List Char → List Val → Option (List Char)
  | none, [], vs => some (vs.flatMap (conv [] 'd'))
  | some _, [], _ => none
  | none, c :: cs, vs =>
    if c = '%' then render conv (some []) cs vs
    else (render conv none cs vs).map (c :: ·)
  | some ds, c :: cs, vs =>
    if isFlag c then render conv (some (ds ++ [c])) cs vs
    else if c = '%' then
      if ds = [] then (render conv none cs vs).map ('%' :: ·) else none
    else match vs with
      | [] => none
      | v :: vs => (render conv none cs vs).map (conv ds c v ++ ·)

/-- The line shown by a call of `print`: nothing if the compiler raises; within, nothing if the
    display is malformed (thread/compiler.py:450-545). -/
def shown (conv : List Char → Char → Val → List Char) (args : List PArg) :
    Option (Option (List Char)) :=
  (compile args).map fun r => render conv none r.1 r.2

end ThreadPrint
