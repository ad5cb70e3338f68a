/-!
# Model of the generated pipelined multiplier and multiply-add

`veriloggen/stream/mul.py`, `veriloggen/dataflow/mul.py`, `veriloggen/types/mul.py`
(`mkMultiplierCore`, identical clocked block in the three files) and
`veriloggen/stream/madd.py` (`mkMaddCore`).
-/

namespace Mul

/-- An operand as the multiplication sees it: a signed register (`stream/mul.py:20`,
`signed=lsigned`), or `$signed({1'b0, _a})` if unsigned (`stream/mul.py:26-33`).
Verilog sign-extends signed operands to the width of the assigned wire; the value is the
integer denoted. -/
def operand {w : Nat} (signed : Bool) (x : BitVec w) : Int :=
  if signed then x.toInt else (x.toNat : Int)

/-- `_mul` wire, `stream/mul.py:22, 35`: the product of the two signed operands, kept modulo
`2 ^ (lwidth + rwidth)`. -/
def mulWire {l r : Nat} (ls rs : Bool) (a : BitVec l) (b : BitVec r) : BitVec (l + r) :=
  BitVec.ofInt (l + r) (operand ls a * operand rs b)

/-- Registers: `stream/mul.py:20-24` (`_a`, `_b`, `_pipe_mul0 .. _pipe_mul{depth-2}`).
The `depth < 2` case raises (`stream/mul.py:54`), so `pipe` has `depth - 1 ≥ 1` registers. -/
structure State (l r : Nat) where
  a : BitVec l
  b : BitVec r
  pipe : List (BitVec (l + r))

/-- Inputs: `stream/mul.py:13-17`. -/
structure In (l r : Nat) where
  update : Bool
  a : BitVec l
  b : BitVec r

/-- `[_pipe_mul[i](_pipe_mul[i - 1]) for i in range(1, depth - 1)]` together with
`_pipe_mul[0](_mul)`, `stream/mul.py:42-43`. -/
def shift {α : Type} (x : α) : List α → List α
  | [] => []
  | r :: rs => x :: shift r rs

/-- The clocked block, `stream/mul.py:38-44`. -/
def step {l r : Nat} (ls rs : Bool) (s : State l r) (i : In l r) : State l r :=
  if i.update then
    { a := i.a, b := i.b, pipe := shift (mulWire ls rs s.a s.b) s.pipe }
  else s

/-- Output `c`, `stream/mul.py:36`: `_pipe_mul[depth - 2]`. -/
def out {l r : Nat} (s : State l r) : Option (BitVec (l + r)) := s.pipe.getLast?

/-- `retwidth` of multiply-add, `stream/madd.py:11`. -/
def maddWidth (a b c : Nat) : Nat := max (a + b) c

/-- `_mul` and `_madd` wires of `stream/madd.py:26-27, 44-45`: both are `retwidth` bits wide and
signed; `_madd` sign-extends `__c` to `retwidth`. -/
def maddWire {wa wb wc : Nat} (as bs cs : Bool) (a : BitVec wa) (b : BitVec wb) (c : BitVec wc) :
    BitVec (maddWidth wa wb wc) :=
  let mul := BitVec.ofInt (maddWidth wa wb wc) (operand as a * operand bs b)
  BitVec.ofInt (maddWidth wa wb wc) (mul.toInt + operand cs c)

/-- Registers of `stream/madd.py:23-29`. -/
structure MaddState (wa wb wc : Nat) where
  a : BitVec wa
  b : BitVec wb
  c : BitVec wc
  pipe : List (BitVec (maddWidth wa wb wc))

/-- Inputs of `stream/madd.py:16-20`. -/
structure MaddIn (wa wb wc : Nat) where
  update : Bool
  a : BitVec wa
  b : BitVec wb
  c : BitVec wc

/-- Clocked block of `stream/madd.py:48-55`. -/
def maddStep {wa wb wc : Nat} (as bs cs : Bool) (s : MaddState wa wb wc)
    (i : MaddIn wa wb wc) : MaddState wa wb wc :=
  if i.update then
    { a := i.a, b := i.b, c := i.c, pipe := shift (maddWire as bs cs s.a s.b s.c) s.pipe }
  else s

/-- Output `d`, `stream/madd.py:46`. -/
def maddOut {wa wb wc : Nat} (s : MaddState wa wb wc) :
    Option (BitVec (maddWidth wa wb wc)) := s.pipe.getLast?

/-- Valid chain of `dataflow/mul.py:80-93` / `types/mul.py:86-101`: `depth` one-bit registers,
cleared by reset, shifted when `update` is high. -/
def validStep (rst update enable : Bool) (v : List Bool) : List Bool :=
  if rst then v.map (fun _ => false)
  else if update then shift enable v
  else v

end Mul
