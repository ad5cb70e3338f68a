import Verif.Model.StreamBits
import Verif.Model.StreamArith
import Verif.Model.StreamOp

/-!
# Model of sums and averages of several stream values and of `Abs`, `Sign`, `Complement2` (stream/stypes.py)

`_PlusN`, `Average`, `AverageRound` on integers (`point = 0`).  Latencies and enables are left out (C24).  `AddTree` is that of
`Verif/Model/StreamOp.lean`, `Divide` that of `Verif/Model/StreamArith.lean`.  `log(length, 2)` is taken to be exact.
-/

namespace SAvg

open Vlog SBits

/-- `_SpecialOperator._set_attributes`: the greatest width; signed if one of the operands is (stream/stypes.py:1502-1519). -/
def specialTy (vs : List Val) : Ty := ⟨(vs.map fun v => v.ty.width).foldl max 0, vs.any fun v => v.ty.signed⟩

/-- `plus_n`: `args[0] + args[1] + …` (stream/stypes.py:2471-2475). -/
def plusExpr (v : Val) (vs : List Val) : VExpr := vs.foldl (fun e u => .bin .plus e (leaf u)) (leaf v)

/-- `_PlusN` (stream/stypes.py:2461-2478); `args[0]` of no operands raises. -/
def plusN : List Val → Option Val
  | [] => none
  | v :: vs => some (put (specialTy (v :: vs)) (plusExpr v vs))

/-- The division that ends `Average` and `AverageRound` (stream/stypes.py:2661-2664, 2670-2673). -/
def divBy (sum : Val) (n : ℕ) : Val :=
  if n &&& (n - 1) = 0 then Stream.sraW sum.ty.width sum n.log2
  else
    let l : SArith.Nd := ⟨⟨sum.ty.width, 0, sum.ty.signed⟩, .net "sum"⟩
    let r := SArith.mkInt n
    ⟨(SArith.binAttr l.attr r.attr).ty, SArith.divide (fun _ => sum.val) l r⟩

/-- `Average` (stream/stypes.py:2659-2664); `log(0, 2)` raises. -/
def average (vs : List Val) : Option Val := if vs = [] then none else some (divBy (Stream.addTree vs) vs.length)

/-- `AverageRound` (stream/stypes.py:2667-2673). -/
def averageRound (vs : List Val) : Option Val :=
  if vs = [] then none else some (divBy (Stream.plus (Stream.addTree vs) (Stream.int (vs.length / 2 : ℕ))) vs.length)

/-- `vtypes.Sign` of a signal: `var < Int(0, signed=True)` (core/vtypes.py:1875-1879). -/
def signExpr (e : VExpr) : VExpr := .cmp .lt e (.pyInt 0)

/-- `vtypes.Complement2` of a signal: `~var + 1` (core/vtypes.py:1864-1868). -/
def complExpr (e : VExpr) : VExpr := .bin .plus (.not e) (.pyInt 1)

/-- `Sign` (stream/stypes.py:2225-2234; value as implemented at 1541-1544). -/
def sign (v : Val) : Val := put v.ty (signExpr (leaf v))

/-- `Complement2` (stream/stypes.py:2175-2184). -/
def complement2 (v : Val) : Val := put v.ty (complExpr (leaf v))

/-- `Abs`: `Mux(Sign(var), Complement2(var), var)` (stream/stypes.py:2200-2209, core/vtypes.py:1871-1872). -/
def abs (v : Val) : Val := put v.ty (.cond (signExpr (leaf v)) (complExpr (leaf v)) (leaf v))

end SAvg
