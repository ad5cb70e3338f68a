/-!
# Typed Verilog values

The part of the Verilog-2001 expression rules used by the generated arithmetic: a vector has a width
and a signedness; an assignment keeps the low bits; an expression is signed only if all its operands
are, and in an unsigned expression a signed operand is zero-extended (IEEE 1364-2005, 5.5).
These rules are part of the trusted reading of Verilog; the definitions cite the code that relies on
them.
-/

namespace Vlog

/-- Declared width and signedness of a vector (core/vtypes.py:536-548, the attributes `width` and
    `signed` of `_Variable`). -/
structure Ty where
  width : Nat
  signed : Bool
  deriving DecidableEq, Repr

/-- Assigning `v` to a vector keeps the low `width` bits, read back with the declared signedness
    (the emitted `assign` and `<=`, e.g. of stream/stypes.py:506-514). -/
def Ty.wrap (t : Ty) (v : Int) : Int :=
  if t.signed then Int.bmod v (2 ^ t.width) else v % (2 ^ t.width : Nat)

/-- A vector with its current value (stream/stypes.py:479-486, the attributes `width` and `signed` of
    an operator together with the value of its `sig_data`). -/
structure Val where
  ty : Ty
  val : Int
  deriving DecidableEq, Repr

/-- The value is one the vector can hold (stream/stypes.py:479-486). -/
def Val.Ok (v : Val) : Prop := v.ty.wrap v.val = v.val

/-- What an operand contributes to an expression whose signedness is `ctx`: in an unsigned
    expression a signed operand is zero-extended (the operands of verilog/to_verilog.py:209-396). -/
def Val.read (v : Val) (ctx : Bool) : Int := if ctx then v.val else v.val % (2 ^ v.ty.width : Nat)

end Vlog
