/-!
# Integer constants as text (core/vtypes.py, verilog/to_verilog.py)

Text is a list of characters without line breaks.  Not modelled: `is_raw_value`; the other spellings
accepted by Python's `int` (white space, `+`, `0x`); upper-case digits are accepted as in the code.
-/

namespace Literal

/-- The value of an integer constant: a number, or digits with `x` and `z` kept as they are
    (core/vtypes.py:63-103). -/
inductive Value
  | num (v : Int)
  | raw (digits : List Char)
  deriving DecidableEq, Repr

/-- `Int` (core/vtypes.py:806-845). -/
structure Lit where
  value : Value
  width : Option Int := none
  base : Option Nat := none
  signed : Bool := false
  deriving DecidableEq, Repr

/-- Value of a digit, as in Python's `int(s, base)` (core/vtypes.py:66). -/
def digitVal (c : Char) : Option Nat :=
  if 48 ≤ c.toNat ∧ c.toNat ≤ 57 then some (c.toNat - 48)
  else if 97 ≤ c.toNat ∧ c.toNat ≤ 102 then some (c.toNat - 87)
  else if 65 ≤ c.toNat ∧ c.toNat ≤ 70 then some (c.toNat - 55)
  else none

/-- Is `c` a digit in this base (core/vtypes.py:66). -/
def isDigit (base : Nat) (c : Char) : Bool :=
  match digitVal c with
  | some d => d < base
  | none => false

/-- The digits of `int(s, base)` (core/vtypes.py:66) read from the left. -/
def digits (base acc : Nat) : List Char → Option Nat
  | [] => some acc
  | c :: l =>
    match digitVal c with
    | some d => if d < base then digits base (acc * base + d) l else none
    | none => none

/-- Digits, at least one (core/vtypes.py:66). -/
def unsigned (base : Nat) (l : List Char) : Option Nat := if l = [] then none else digits base 0 l

/-- Python's `int(s, base)` (core/vtypes.py:66, 75, 84, 93, 99, 110); `none` is a `ValueError`. -/
def pyInt (base : Nat) : List Char → Option Int
  | '-' :: l => (unsigned base l).map fun n => - (n : Int)
  | l => (unsigned base l).map fun n => (n : Int)

/-- The character class of `check_int_hex`, `check_int_dec`, `check_int_oct`, `check_int_bin`
    (core/vtypes.py:35-57). -/
def isXZ (c : Char) : Bool := c = 'x' || c = 'z' || c = 'X' || c = 'Z'

/-- `check_int_hex`, `check_int_dec`, `check_int_oct`, `check_int_bin` (core/vtypes.py:35-57). -/
def check (base : Nat) (l : List Char) : Bool := l ≠ [] && l.all fun c => isXZ c || isDigit base c

/-- `re.search(c + '(.+)', s)`: the text after the first `c` that is not the last character
    (core/vtypes.py:29, 63). -/
def after (c : Char) : List Char → Option (List Char)
  | [] => none
  | x :: l => if x = c ∧ l ≠ [] then some l else after c l

/-- Does the text begin with a quote, `c` and one more character (core/vtypes.py:108-120). -/
def quoted (c : Char) : List Char → Bool
  | q :: x :: _ :: _ => q = '\'' && x = c
  | _ => false

/-- `re.search("(.+)'c.+", s)`: the text before the last quote that is followed by `c` and one more
    character, if not empty (core/vtypes.py:108-120). -/
def before (c : Char) : List Char → Option (List Char)
  | [] => none
  | x :: l =>
    match before c l with
    | some p => some (x :: p)
    | none => if quoted c l then some [x] else none

/-- `s.replace('_', '')` (core/vtypes.py:28, 61, 107). -/
def strip (l : List Char) : List Char := l.filter fun c => c ≠ '_'

/-- One of the branches of `str_to_value` (for instance core/vtypes.py:63-70). -/
def branch (base : Nat) (l : List Char) : Option (Value × Option Nat) :=
  match pyInt base l with
  | some v => some (.num v, some base)
  | none => if check base l then some (.raw l, some base) else none

/-- `str_to_value` (core/vtypes.py:60-103); `none` is a `ValueError`.  In the last branch the check cannot
    succeed for digits that `int` rejects. -/
def strToValue (s : List Char) : Option (Value × Option Nat) :=
  match after 'h' (strip s) with
  | some l => branch 16 l
  | none =>
  match after 'd' (strip s) with
  | some l => branch 10 l
  | none =>
  match after 'o' (strip s) with
  | some l => branch 8 l
  | none =>
  match after 'b' (strip s) with
  | some l => branch 2 l
  | none => (pyInt 10 (strip s)).map fun v => (.num v, none)

/-- `str_to_width` (core/vtypes.py:106-121); outer `none` is the `ValueError` of `int`. -/
def strToWidth (s : List Char) : Option (Option Int) :=
  match before 'h' (strip s) with
  | some l => (pyInt 10 l).map some
  | none =>
  match before 'd' (strip s) with
  | some l => (pyInt 10 l).map some
  | none =>
  match before 'o' (strip s) with
  | some l => (pyInt 10 l).map some
  | none =>
  match before 'b' (strip s) with
  | some l => (pyInt 10 l).map some
  | none => some none

/-- `str_to_signed` (core/vtypes.py:27-32). -/
def strToSigned (s : List Char) : Bool := (after 's' (strip s)).isSome

/-- `Int(value, width, base, signed)` of a Python integer (core/vtypes.py:821-825). -/
def ofInt (v : Int) (width : Option Int) (base : Option Nat) (signed : Bool) : Lit :=
  ⟨.num v, width, base, if v ≥ 0 then signed else true⟩

/-- The checks on a value that is no number (core/vtypes.py:830-843). -/
def checkBase : Value → Option Nat → Bool
  | .num _, _ => true
  | .raw _, none => false
  | .raw l, some b => (b = 16 || b = 10 || b = 8 || b = 2) && check b l

/-- `Int(text, width, base, signed)` (core/vtypes.py:826-845); `none` is a `ValueError`. -/
def ofText (s : List Char) (width : Option Int) (base : Option Nat) (signed : Bool) : Option Lit :=
  (strToValue s).bind fun (v, b) =>
    let b := if base.isSome then base else b
    if checkBase v b then
      (if width.isSome then some width else strToWidth s).map fun w =>
        ⟨v, w, b, if signed then true else strToSigned s⟩
    else none

/-- `str` of an integer (verilog/to_verilog.py:72, 82). -/
def decimal (v : Int) : List Char :=
  if v < 0 then '-' :: Nat.toDigits 10 v.natAbs else Nat.toDigits 10 v.natAbs

/-- The digits of the absolute value in a base (`bin`, `oct`, `str`, `hex` without the prefix;
    verilog/to_verilog.py:79-82, 88-91, 97-100, 106-109, 115-118). -/
def valueText (base : Nat) : Value → List Char
  | .num v => Nat.toDigits base v.natAbs
  | .raw l => l

/-- The marks of `visit_Int` (verilog/to_verilog.py:75-78, 84-87, 93-96, 102-105, 111-114). -/
def mark (signed : Bool) (c : Char) : List Char := if signed then ['\'', 's', c] else ['\'', c]

/-- The sign (verilog/to_verilog.py:67-69).  A text value has no minus sign here (62-65 is for
    `is_raw_value`). -/
def signText : Value → List Char
  | .num v => if v < 0 then ['-'] else []
  | .raw _ => []

/-- The width, if it is neither `None` nor 0 (verilog/to_verilog.py:71-72). -/
def widthText : Option Int → List Char
  | some w => if w ≠ 0 then decimal w else []
  | none => []

/-- The mark and the digits (verilog/to_verilog.py:74-120); `none` is the `ValueError` of 120. -/
def bodyText (o : Lit) : Option (List Char) :=
  match o.base with
  | none =>
    some ((if o.signed then ['\'', 's', 'd'] else if widthText o.width ≠ [] then ['\'', 'd'] else [])
      ++ valueText 10 o.value)
  | some 2 => some (mark o.signed 'b' ++ valueText 2 o.value)
  | some 8 => some (mark o.signed 'o' ++ valueText 8 o.value)
  | some 10 => some (mark o.signed 'd' ++ valueText 10 o.value)
  | some 16 => some (mark o.signed 'h' ++ valueText 16 o.value)
  | _ => none

/-- `visit_Int` (verilog/to_verilog.py:58-122). -/
def print (o : Lit) : Option (List Char) :=
  (bodyText o).map fun b => signText o.value ++ widthText o.width ++ b

end Literal
