import Verif.Model.VExpr

/-!
# Indexing and slicing (core/vtypes.py:438-487, `_Numeric.__getitem__`)

For a variable without `dims` and with a width known at generation time; indexes are Python integers.
-/

namespace Index

open Vlog

/-- What `x[r]` becomes: a `Pointer` with its position, a `Slice` with its bounds, a `Cat` of `Pointer`s (most
    significant first), or an exception (core/vtypes.py:438-487). -/
inductive Item
  | pointer (pos : Int)
  | slice (msb lsb : Int)
  | cat (pos : List Int)
  | error
  deriving DecidableEq, Repr

/-- Python's `range(a, b, s)` as the list of its elements (core/vtypes.py:479-480). -/
def pyRange (a b s : Int) : List Int :=
  if s > 0 then (List.range ((b - a + s - 1) / s).toNat).map fun i : Nat => a + i * s
  else if s < 0 then (List.range ((a - b - s - 1) / (-s)).toNat).map fun i : Nat => a + i * s
  else []

/-- `x[i]` (core/vtypes.py:484-487). -/
def getIndex (width : Nat) (i : Int) : Item :=
  .pointer (if i < 0 then width - i.natAbs else i)

/-- The lower bound of a slice (core/vtypes.py:453-456). -/
def lower (size : Nat) (start : Option Int) : Int :=
  match start with
  | none => 0
  | some r => if r < 0 then size - r.natAbs else r

/-- The upper bound of a slice, inclusive (core/vtypes.py:458-462). -/
def upper (size : Nat) (stop : Option Int) : Int :=
  (match stop with
   | none => (size : Int)
   | some l => if l < 0 then size - l.natAbs else l) - 1

/-- `x[start:stop:step]` (core/vtypes.py:439-482). -/
def getSlice (size : Nat) (start stop step : Option Int) : Item :=
  let right := lower size start
  let left := upper size stop
  if left < 0 then .error
  else
    match step with
    | none => .slice left right
    | some s => if s = 0 then .error else .cat (pyRange right (left + 1) s).reverse

/-- A concatenation, most significant operand first (verilog/to_verilog.py:381-383). -/
def catList : List VExpr → Option VExpr
  | [] => none
  | [e] => some e
  | e :: es => (catList es).map (.cat e)

/-- The printed expression, if it is legal Verilog for a variable of this width (verilog/to_verilog.py:370-383):
    positions inside the vector, `msb >= lsb`, a non-empty concatenation. -/
def Item.expr (t : Ty) (x : String) : Item → Option VExpr
  | .pointer p => if 0 ≤ p ∧ p < t.width then some (.bit (.var t x) p.toNat) else none
  | .slice m l =>
      if 0 ≤ l ∧ l ≤ m ∧ m < t.width then some (.slice (.var t x) m.toNat l.toNat) else none
  | .cat ps =>
      if ps.all (fun p => 0 ≤ p && p < t.width) then
        catList (ps.map fun p => .bit (.var t x) p.toNat)
      else none
  | .error => none

end Index
