import Verif.Model.VExpr
import Mathlib.Data.Nat.Notation
import Mathlib.Data.Int.Notation

/-!
# Model of the bit operators of streams (stream/stypes.py:1123-1387, 1462-1482, 1580-1826)

`And`, `Or`, `Xor`, `Xnor`, `Unot`, the logical operators, the reductions, `Pointer`, `Slice`, `Cat`, `Repeat` and `Split`: the type that
`_set_attributes` gives the result and the value that the wire or register gets; and `eval()` of the operators on constants.

An operand is a vector with its value (`Vlog.Val`).  Latency and enables are left out (C24), also the `point`, which is 0 for all
results except those of `Split`.  A slice or chunk that is no legal Verilog (upper bound less than lower bound) is `none`.
-/

namespace SBits

open Vlog

/-- `sig_data` of an operand in an expression: it has the declared type (stream/stypes.py:504, 509), and a literal of this type evaluates as the net
    does. -/
def leaf (v : Val) : VExpr := .lit v.ty (bits v.ty.width v.val)

/-- A wire or register of type `t` that is given `e` (stream/stypes.py:1136-1146, 1536-1544). -/
def put (t : Ty) (e : VExpr) : Val := ⟨t, e.assign (fun _ => 0) t⟩

/-- `Pointer` with a constant position (stream/stypes.py:1580-1593). -/
def pointer (v : Val) (i : ℕ) : Val := put ⟨1, false⟩ (.bit (leaf v) i)

/-- `Slice` (stream/stypes.py:1619-1635). -/
def slice (v : Val) (m l : ℕ) : Option Val := if m < l then none else some (put ⟨m - l + 1, false⟩ (.slice (leaf v) m l))

/-- `{a, b, …}`, the highest first (core/vtypes.py:1739-1805). -/
def catExpr : List Val → VExpr
  | [] => .lit ⟨0, false⟩ 0
  | v :: vs => .cat (leaf v) (catExpr vs)

/-- `Cat` (stream/stypes.py:1756-1769). -/
def cat (vs : List Val) : Val := put ⟨(vs.map fun v => v.ty.width).sum, false⟩ (catExpr vs)

/-- `Repeat` (stream/stypes.py:1790-1802). -/
def repeatOf (v : Val) (n : ℕ) : Val := put ⟨v.ty.width * n, false⟩ (.rep n (leaf v))

/-- The bitwise operators (stream/stypes.py:1165-1191). -/
inductive BOp
  | and | or | xor | xnor
  deriving DecidableEq, Repr

/-- The expression of a bitwise operator (stream/stypes.py:475; `~^` is the complement of `^`). -/
def BOp.expr (a b : VExpr) : BOp → VExpr
  | .and => .bin .and a b
  | .or => .bin .or a b
  | .xor => .bin .xor a b
  | .xnor => .not (.bin .xor a b)

/-- `And`, `Or`, `Xor`, `Xnor` (stream/stypes.py:1123-1148, 1165-1191). -/
def bitwise (op : BOp) (l r : Val) : Val := put ⟨max l.ty.width r.ty.width, false⟩ (op.expr (leaf l) (leaf r))

/-- `Unot` (stream/stypes.py:1236-1242, 1258). -/
def unot (v : Val) : Val := put ⟨v.ty.width, false⟩ (.not (leaf v))

/-- `Land`, `Lor` and `Ulnot` (stream/stypes.py:1194-1221, 1245-1249). -/
def land (l r : Val) : Val := put ⟨1, false⟩ (.land (leaf l) (leaf r))
/-- `Lor` (stream/stypes.py:1132-1143, 1209-1214). -/
def lor (l r : Val) : Val := put ⟨1, false⟩ (.lor (leaf l) (leaf r))
/-- `Ulnot` (stream/stypes.py:1245-1249). -/
def ulnot (v : Val) : Val := put ⟨1, false⟩ (.lnot (leaf v))

/-- The reductions (stream/stypes.py:1269-1387). -/
inductive Red
  | and | nand | or | nor | xor | xnor
  deriving DecidableEq, Repr

/-- A reduction of the low `w` bits of `n` (IEEE 1364-2005, 5.1.11, for the operators of stream/stypes.py:1269-1369). -/
def Red.bit (w n : ℕ) : Red → Bool
  | .and => (List.range w).all n.testBit
  | .nand => !(List.range w).all n.testBit
  | .or => (List.range w).any n.testBit
  | .nor => !(List.range w).any n.testBit
  | .xor => (List.range w).foldl (fun b i => b ^^ n.testBit i) false
  | .xnor => !(List.range w).foldl (fun b i => b ^^ n.testBit i) false

/-- `Uand`, `Unand` and so on: one bit (stream/stypes.py:1269-1273). -/
def reduce (op : Red) (v : Val) : Val := ⟨⟨1, false⟩, if op.bit v.ty.width (bits v.ty.width v.val) then 1 else 0⟩

/-- `ReinterpretCast` to type `t` (stream/stypes.py:1462-1482). -/
def reinterpret (v : Val) (t : Ty) : Val := put t (leaf v)

/-! ## `Split` -/

/-- The chunk that starts at bit `i`, of `n` chunks of width `w` (stream/stypes.py:1728-1748). -/
def chunk (v : Val) (w n i : ℕ) (signed : Bool) : Option Val :=
  if i + w > v.ty.width then
    let pad : Val := if signed then repeatOf (pointer v (v.ty.width - 1)) (w * n - v.ty.width)
      else ⟨⟨w * n - v.ty.width, false⟩, 0⟩
    (slice v (v.ty.width - 1) i).map fun s => reinterpret (cat [pad, s]) ⟨w, signed⟩
  else (slice v (i + w - 1) i).map fun s => reinterpret s ⟨w, signed⟩

/-- `⌈a / b⌉` (stream/stypes.py:1717, 1719). -/
def ceilDiv (a b : ℕ) : ℕ := (a + b - 1) / b

/-- Chunk width and number of chunks (stream/stypes.py:1710-1719); `none` is an exception. -/
def splitSize (width : ℕ) (w n : Option ℕ) : Option (ℕ × ℕ) :=
  match w, n with
  | some w, none => if w = 0 then none else some (w, ceilDiv width w)
  | none, some n => if n = 0 then none else some (ceilDiv width n, n)
  | _, _ => none

/-- `Split(data, width, num_chunks)`, the lowest chunk first as with `reverse=True` (stream/stypes.py:1673-1753). -/
def split (v : Val) (w n : Option ℕ) (signed : Bool) : Option (List (Option Val)) :=
  (splitSize v.ty.width w n).map fun p => (List.range p.2).map fun k => chunk v p.1 p.2 (k * p.1) signed

/-! ## `eval()` on constants -/

/-- The loops of `Uand.eval` and `Unand.eval` (stream/stypes.py:1279-1286, 1299-1306). -/
def evalAll : ℕ → ℤ → Bool
  | 0, _ => true
  | n + 1, v => if v % 2 = 0 then false else evalAll n (v / 2)

/-- The loops of `Uor.eval` and `Unor.eval` (stream/stypes.py:1319-1326, 1339-1346). -/
def evalAny : ℕ → ℤ → Bool
  | 0, _ => false
  | n + 1, v => if v % 2 = 1 then true else evalAny n (v / 2)

/-- The loops of `Uxor.eval` and `Uxnor.eval` (stream/stypes.py:1360-1365, 1380-1385): `ret` starts at 1. -/
def evalParity : ℕ → ℤ → Bool → Bool
  | 0, _, ret => ret
  | n + 1, v, ret => evalParity n (v / 2) (ret ^^ (v % 2 == 1))

/-- `eval()` of a reduction of an integer constant (stream/stypes.py:1275-1387). -/
def Red.eval (w : ℕ) (v : ℤ) : Red → Bool
  | .and => evalAll w v
  | .nand => !evalAll w v
  | .or => evalAny w v
  | .nor => !evalAny w v
  | .xor => evalParity w v true == true
  | .xnor => evalParity w v true == false

end SBits
