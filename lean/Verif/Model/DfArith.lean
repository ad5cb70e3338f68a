import Verif.Model.StreamArith

/-!
# Quotient and remainder of dataflow values (dataflow/dtypes.py)

`Divide` and `Mod` of `dataflow/dtypes.py`: the operand registers, the absolute values, the divider of
`dataflow/div.py`, the shift and the sign of the result, and the registers that hold all of these while data flow.
Attributes are those of `_BinaryOperator` (dataflow/dtypes.py:558-567), which are the same as in `stream/stypes.py`
(`SArith.binAttr`); so are the values of the other operators.  A `FixedPoint` constant is printed with its
signedness here (dataflow/dtypes.py:2708-2725), like an `Int`.
Not modelled: the reset (all registers start at their `initval`, the valid flags at 0).
-/

namespace DfArith

open Vlog SArith

/-- What the registers `div_ldata` and `div_rdata` are assigned (dataflow/dtypes.py:828-847): the aligned operands if
    the left point is not larger, the operands themselves if it is. -/
def operands (ρ : String → Int) (l r : Nd) : Int × Int :=
  let o := binAttr l.attr r.attr
  let p := if l.attr.point ≤ r.attr.point then aligned l r o.signed else (l.expr, r.expr)
  (p.1.assign ρ ⟨o.width, l.attr.signed⟩, p.2.assign ρ ⟨o.width, r.attr.signed⟩)

/-- `shift_size` (dataflow/dtypes.py:834-842). -/
def shiftSize (l r : Attr) : Nat :=
  let point := max l.point r.point
  if l.point ≤ r.point then point else point - (l.point - r.point)

/-- `div_abs_ldata`, `div_abs_rdata` (dataflow/dtypes.py:852-867).  The `1` widens the expression to 32 bits; the
    assignment cuts it back to the width, so the bits are those of the sum in the width. -/
def absReg {W : Nat} (signed : Bool) (x : BitVec W) : BitVec W :=
  if signed then (if x.msb = false then x else ~~~x + 1#W) else x

/-- `sign` (dataflow/dtypes.py:849-850): the top bits of the two registers differ. -/
def signOf {W : Nat} (a b : BitVec W) : Bool :=
  !((!a.msb && !b.msb) || (a.msb && b.msb))

/-- `div_odata` (dataflow/dtypes.py:869-885): shifted left, and negated if the result is signed and the sign is set. -/
def outReg {W : Nat} (signed osign : Bool) (sh : Nat) (x : BitVec W) : BitVec W :=
  let y := if sh > 0 then x <<< sh else x
  if signed then (if osign = false then y else ~~~y + 1#W) else y

/-- What does not change while data flow: signedness of the operands and of the result, the shift, and which output
    of the divider is connected (`rslt` at dataflow/dtypes.py:931, `mod` at 1076). -/
structure Cfg where
  lsigned : Bool
  rsigned : Bool
  signed : Bool
  shift : Nat
  isMod : Bool
  deriving DecidableEq, Repr

/-- The output of the divider that is connected to `abs_odata` (dataflow/dtypes.py:929-931, 1074-1076). -/
def Cfg.pick {W : Nat} (c : Cfg) (o : Div.Out W) : BitVec W := if c.isMod then o.mod else o.rslt

/-- The registers of a `Divide` or `Mod` (dataflow/dtypes.py:828-903). -/
structure St (W : Nat) where
  ldata : BitVec W
  rdata : BitVec W
  absL : BitVec W
  absR : BitVec W
  div : Div.State W
  signs : List Bool
  odata : BitVec W
  valids : List Bool

/-- What comes in at a clock edge: the two operands as they are assigned to the registers, `all_valid` and `all_ready`
    of the operands, `ready` of the consumers (dataflow/dtypes.py:846-847, 905-917). -/
structure In (W : Nat) where
  lval : BitVec W
  rval : BitVec W
  allValid : Bool
  allReady : Bool
  ready : Bool

/-- `valid` (dataflow/dtypes.py:889-896): the last of three registers behind the divider. -/
def St.valid {W : Nat} (s : St W) : Bool := s.valids.getLast?.getD false

/-- `accept` (dataflow/dtypes.py:844). -/
def accept {W : Nat} (s : St W) (i : In W) : Bool := i.ready || !s.valid

/-- A chain of one-bit registers (dataflow/dtypes.py:891-895, 898-902). -/
def chain (x : Bool) : List Bool → List Bool
  | [] => []
  | r :: rs => x :: chain r rs

/-- One clock edge (dataflow/dtypes.py:844-933): everything, and the divider through `update`, moves on `accept`;
    `enable` is `accept`, `all_ready` and `all_valid` together. -/
def step {W : Nat} (c : Cfg) (s : St W) (i : In W) : St W :=
  if accept s i then
    { ldata := i.lval
      rdata := i.rval
      absL := absReg c.lsigned s.ldata
      absR := absReg c.rsigned s.rdata
      div := Div.step true true true s.div ⟨true, i.allReady && i.allValid, s.absL, s.absR⟩
      signs := chain (signOf s.ldata s.rdata) s.signs
      odata := outReg c.signed (s.signs.getLast?.getD false) c.shift (c.pick s.div.out)
      valids := chain s.div.out.valid s.valids }
  else s

/-- The registers after reset: the divider has `W + 1` stages (dataflow/div.py:24), the sign goes through
    `latency - 2 = W + 3` registers (dataflow/dtypes.py:798-799, 898-902), the valid flag of the divider through three
    (891-895). -/
def init (W : Nat) : St W where
  ldata := 0#W
  rdata := 0#W
  absL := 0#W
  absR := 0#W
  div := ⟨List.replicate (W + 1) ⟨false, false, false, 0, 0, 0⟩, ⟨0#W, 0#W, false⟩⟩
  signs := List.replicate (W + 5 - 2) false
  odata := 0#W
  valids := List.replicate 3 false

/-- The configuration of the operator on two nodes (dataflow/dtypes.py:812-842, 956-986). -/
def cfg (l r : Attr) (isMod : Bool) : Cfg :=
  ⟨l.signed, r.signed, (binAttr l r).signed, shiftSize l r, isMod⟩

/-- The registers one pair of operands goes through, without the time: operand registers, absolute values, divider,
    sign and shift (dataflow/dtypes.py:846-887). -/
def through {W : Nat} (c : Cfg) (a b : BitVec W) : BitVec W :=
  outReg c.signed (signOf a b) c.shift
    (c.pick (divider true true true (absReg c.lsigned a) (absReg c.rsigned b)))

/-- The number read from `data` (dataflow/dtypes.py:815, 887). -/
def value (ρ : String → Int) (l r : Nd) (isMod : Bool) : Int :=
  let o := binAttr l.attr r.attr
  let p := operands ρ l r
  o.ty.wrap ((through (cfg l.attr r.attr isMod) (BitVec.ofInt o.width p.1) (BitVec.ofInt o.width p.2)).toNat : Int)

/-- `Divide` (dataflow/dtypes.py:794-938). -/
def divide (ρ : String → Int) (l r : Nd) : Int := value ρ l r false

/-- `Mod` (dataflow/dtypes.py:942-1083). -/
def mod (ρ : String → Int) (l r : Nd) : Int := value ρ l r true

end DfArith
