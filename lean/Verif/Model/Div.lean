/-!
# Model of the pipelined divider

Verilog text in `veriloggen/stream/div.py:6-166` (parameters `A_SIGNED`, `B_SIGNED`,
`O_SIGNED`); `veriloggen/dataflow/div.py:6-152` is the same module with the three
parameters fixed to 1.
-/

namespace Div

/-- `complement2`, stream/div.py:38-41 (`~in + 1`). -/
def complement2 {w : Nat} (x : BitVec w) : BitVec w := ~~~x + 1#w

/-- `getsign` / `is_positive`, stream/div.py:28-36. -/
def isPositive {w : Nat} (x : BitVec w) : Bool := !x.msb

/-- `absolute`, stream/div.py:48-56. -/
def absolute {w : Nat} (x : BitVec w) : BitVec w := if x.msb then complement2 x else x

/-- Registers of one pipeline stage `s_depth[d]`, stream/div.py:67-72. -/
structure Stage (W : Nat) where
  valid : Bool
  aPos : Bool
  bPos : Bool
  dividend : BitVec (2 * W)
  divisor : BitVec (2 * W)
  rslt : BitVec (2 * W)
  deriving DecidableEq

/-- Operands and control inputs, stream/div.py:15-20 (`RST` is modelled by `reset`). -/
structure In (W : Nat) where
  update : Bool
  enable : Bool
  a : BitVec W
  b : BitVec W

/-- Loading stage 0, stream/div.py:61-62, 86-88, 108-110. The shift is evaluated in the
`2*W`-bit context of the assigned register. -/
def load {W : Nat} (aS bS : Bool) (i : In W) : Stage W where
  valid := i.enable
  aPos := isPositive i.a
  bPos := isPositive i.b
  dividend := (if aS then absolute i.a else i.a).setWidth (2 * W)
  divisor := ((if bS then absolute i.b else i.b).setWidth (2 * W)) <<< (W - 1)
  rslt := 0#(2 * W)

/-- `sub_value`, stream/div.py:76. -/
def subValue {W : Nat} (s : Stage W) : BitVec (2 * W) := s.dividend - s.divisor

/-- `is_large = !sub_value[W_D*2-1]`, stream/div.py:77. -/
def isLarge {W : Nat} (s : Stage W) : Bool := !(subValue s).msb

/-- Stage `d` from stage `d-1`, stream/div.py:98-100, 116-118. The concatenation
`{stage_rslt, is_large}` is truncated to `2*W` bits by the assignment. -/
def next {W : Nat} (s : Stage W) : Stage W where
  valid := s.valid
  aPos := s.aPos
  bPos := s.bPos
  dividend := if isLarge s then subValue s else s.dividend
  divisor := s.divisor >>> 1
  rslt := (s.rslt.concat (isLarge s)).setWidth (2 * W)

/-- Output registers `rslt`, `mod`, `valid`, stream/div.py:21-23. -/
structure Out (W : Nat) where
  rslt : BitVec W
  mod : BitVec W
  valid : Bool
  deriving DecidableEq

/-- The output registers from the last stage, stream/div.py:125-163. With `O_SIGNED` the sign
of the quotient is fixed when the operand signs differ and the sign of the remainder follows
the dividend; otherwise the raw values are taken. The final `'hx` arm is unreachable. -/
def final {W : Nat} (oS : Bool) (s : Stage W) : Out W where
  valid := s.valid
  rslt :=
    if oS then
      (if s.aPos && s.bPos then s.rslt
       else if !s.aPos && s.bPos then complement2 s.rslt
       else if s.aPos && !s.bPos then complement2 s.rslt
       else s.rslt).setWidth W
    else s.rslt.setWidth W
  mod :=
    if oS then
      (if s.aPos && s.bPos then (s.dividend.setWidth W).setWidth (2 * W)
       else if !s.aPos && s.bPos then complement2 ((s.dividend.setWidth W).setWidth (2 * W))
       else if s.aPos && !s.bPos then (s.dividend.setWidth W).setWidth (2 * W)
       else complement2 ((s.dividend.setWidth W).setWidth (2 * W))).setWidth W
    else s.dividend.setWidth W

/-- All registers: `DEPTH = W_D + 1` stages (stream/div.py:26, 66) and the output registers. -/
structure State (W : Nat) where
  stages : List (Stage W)
  out : Out W

/-- The stage registers on an enabled edge: stage 0 is loaded, stage `d` takes `next` of stage
`d-1` (stream/div.py:66-122). -/
def shift {W : Nat} (x : Stage W) : List (Stage W) → List (Stage W)
  | [] => []
  | r :: rs => x :: shift (next r) rs

/-- One clock edge without reset: everything is gated by `update`
(stream/div.py:85, 97, 107, 115, 128, 135, 158). -/
def step {W : Nat} (aS bS oS : Bool) (s : State W) (i : In W) : State W :=
  if i.update then
    { stages := shift (load aS bS i) s.stages
      out := match s.stages.getLast? with
        | some l => final oS l
        | none => s.out }
  else s

/-- One clock edge with `RST` high: valid and sign flags are cleared
(stream/div.py:81-84, 93-96, 126-127); the data registers are not reset and still move when
`update` is high (stream/div.py:105-121, 133-163). -/
def reset {W : Nat} (aS bS oS : Bool) (s : State W) (i : In W) : State W :=
  let s' := step aS bS oS s i
  { stages := s'.stages.map fun t => { t with valid := false, aPos := false, bPos := false }
    out := { s'.out with valid := false } }

end Div
