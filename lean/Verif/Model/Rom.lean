import Verif.Model.Vlog
import Verif.Model.Sched
import Mathlib.Data.Nat.Log
import Mathlib.Data.Nat.Notation
import Mathlib.Data.Int.Notation

/-! Read-only memories (types/rom.py), the look-up table of a stream and the registers `Predicate` and `Reg`
    (stream/stypes.py).  Lengths of tables are below `2 ^ 29`, where `math.log(n, 2)` is exact for powers of two. -/

namespace Rom
open Vlog

/-- `int.bit_length`, of the absolute value (core/vtypes.py:124-132). -/
def bitLen (v : ℤ) : ℕ := if v = 0 then 0 else Nat.log 2 v.natAbs + 1

/-- `get_width` of a Python integer (core/vtypes.py:124-132). -/
def intWidth (v : ℤ) : ℕ := bitLen v + 1

/-- The data width when none is given (types/rom.py:55-60). -/
def dataWidth (values : List ℤ) : ℕ := values.foldl (fun d v => if d < intWidth v then intWidth v else d) 1

/-- The width of the address of a ROM (types/rom.py:51). -/
def romSize (values : List ℤ) : ℕ := Nat.clog 2 values.length

/-- The width of the address of a look-up table (stream/stypes.py:2152). -/
def lutSize (patterns : List ℤ) : ℕ := Nat.log 2 patterns.length

/-- The bits of a vector declared with a width: `[w-1:0]` (`make_width`, verilog/to_verilog.py:559-562), so that
    `[0-1:0]` has two. -/
def vecBits (w : ℕ) : ℕ := if w = 0 then 2 else w

/-- An expression assigned to the address wire (types/rom.py:52-53, stream/stypes.py:2153-2154). -/
def cutAddr (size : ℕ) (a : ℤ) : ℤ := a % 2 ^ vecBits size

/-- The `case` over the address (types/rom.py:28-31): one branch for each value, no default; the data register has `dw`
    bits, unsigned. -/
def caseVal (values : List ℤ) (dw : ℕ) (addr old : ℤ) : ℤ :=
  match values.zipIdx.find? (fun p => decide ((p.2 : ℤ) = addr)) with
  | some p => p.1 % 2 ^ dw
  | none => old

/-- The register of a clocked ROM at a clock edge (types/rom.py:33-38): `en` is the enable input if there is one. -/
def syncNext (values : List ℤ) (dw size : ℕ) (en : Option Bool) (a old : ℤ) : ℤ :=
  if en.getD true then caseVal values dw (cutAddr size a) old else old

/-- The output of a `SyncROM` (types/rom.py:43-90) in cycle `t`, from what the register holds at first. -/
def syncOut (values : List ℤ) (dw : ℕ) (en : Option (ℕ → Bool)) (a : ℕ → ℤ) (x : ℤ) : ℕ → ℤ
  | 0 => x
  | t + 1 => syncNext values dw (romSize values) (en.map (· t)) (a t) (syncOut values dw en a x t)

/-- The output of an `AsyncROM` (types/rom.py:26, 93-97) for the `t`-th value of its address: blocking assignments in
    `always @*`. -/
def asyncOut (values : List ℤ) (dw : ℕ) (a : ℕ → ℤ) (x : ℤ) : ℕ → ℤ
  | 0 => caseVal values dw (cutAddr (romSize values) (a 0)) x
  | t + 1 => caseVal values dw (cutAddr (romSize values) (a (t + 1))) (asyncOut values dw a x t)

/-- The circuit of a `LUT` (stream/stypes.py:2139-2172): a clocked ROM enabled when the stream advances, read through a
    wire of the width and signedness of the operator; the register has no initial value.  `u` holds the valid flag and
    the operands. -/
def LutRegs (patterns : List ℤ) (ty : Ty) (en : ℕ → Bool) (u : ℕ → Bool × List ℤ) (sig : ℕ → ℤ) : Prop :=
  ∃ r : ℕ → ℤ, (∀ t, r (t + 1) = syncNext patterns ty.width (lutSize patterns) (some (en t)) ((u t).2.headD 0) (r t)) ∧
    ∀ t, sig t = ty.wrap (r t)

/-- The condition `when` of a `Predicate` (stream/stypes.py:4762): the second operand if there is one. -/
def whenOf (as : List ℤ) : Bool := as.length != 2 || as.getD 1 0 != 0

/-- The register of a `Predicate` (stream/stypes.py:4747-4765), of the type of its data. -/
def PredRegs (ty : Ty) (en : ℕ → Bool) (u : ℕ → Bool × List ℤ) (sig : ℕ → ℤ) : Prop :=
  ∃ r : ℕ → ℤ, r 0 = 0 ∧
    (∀ t, r (t + 1) = if (u t).1 && en t && whenOf (u t).2 then ty.wrap ((u t).2.headD 0) else r t) ∧ ∀ t, sig t = r t

/-- The register of a `Reg` (stream/stypes.py:4768-4781): `wr t` is the value a thread writes in cycle `t`; its statement
    comes later in the always block than that of the `Predicate`. -/
def RegRegs (ty : Ty) (en : ℕ → Bool) (u : ℕ → Bool × List ℤ) (wr : ℕ → Option ℤ) (sig : ℕ → ℤ) : Prop :=
  ∃ r : ℕ → ℤ, r 0 = 0 ∧
    (∀ t, r (t + 1) = match wr t with
      | some v => ty.wrap v
      | none => if (u t).1 && en t && whenOf (u t).2 then ty.wrap ((u t).2.headD 0) else r t) ∧ ∀ t, sig t = r t

end Rom
