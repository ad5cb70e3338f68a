/-!
# Reset of bits, slices and concatenations of registers

`ResetVisitor` (veriloggen/seq/reset_visitor.py) writes the reset of each target recorded by
`_add_dst_var` (seq/seq.py:671-677): a register, a bit, a slice, or a concatenation of them.
-/

namespace PartReset

/-- The initial value of a register: a Python integer, or a `vtypes.Int` object without width
    (core/vtypes.py:548, 806). Initial values that are other expressions are not modelled. -/
inductive Init
  | int (v : Int)
  | obj (v : Int)
deriving DecidableEq, Repr

/-- The number written (core/vtypes.py:548, 806). -/
def Init.val : Init → Int
  | .int v => v
  | .obj v => v

/-- Bit `k` of an integer in two's complement (the meaning of the literals of core/vtypes.py:806). -/
def ibit (v : Int) (k : Nat) : Bool := decide (v / 2 ^ k % 2 = 1)

/-- A register without dimensions (core/vtypes.py:536-563). -/
structure PReg where
  name : String
  width : Nat
  init : Option Init
deriving DecidableEq, Repr

/-- A register, `Pointer` or `Slice` with constant positions as the left side of an assignment
    (seq/subst_visitor.py:27-28, 69-73). Pointers of pointers or slices are not modelled. -/
inductive Part
  | whole (r : PReg)
  | bit (r : PReg) (pos : Nat)
  | slice (r : PReg) (msb lsb : Nat)
deriving DecidableEq, Repr

/-- The register a target belongs to: `node.var` (seq/reset_visitor.py:30, 48). -/
def Part.reg : Part → PReg
  | .whole r => r
  | .bit r _ => r
  | .slice r _ _ => r

/-- The lowest bit of a target (seq/reset_visitor.py:33, 56). -/
def Part.lo : Part → Nat
  | .whole _ => 0
  | .bit _ p => p
  | .slice _ _ l => l

/-- One more than the highest bit of a target (seq/reset_visitor.py:33, 56). -/
def Part.hi : Part → Nat
  | .whole r => r.width
  | .bit _ p => p + 1
  | .slice _ m _ => m + 1

/-- A recorded target: one part, or a `Cat` of parts (seq/subst_visitor.py:69-76). -/
inductive Dst
  | one (p : Part)
  | cat (ps : List Part)
deriving DecidableEq, Repr

/-- The bits of a right-hand side. The literal has 32 bits, or the width of the widest operand if
    that is more; `none` is the visitor's `None`. The outer `none` is the `TypeError` of
    seq/reset_visitor.py:40: `visit_Pointer` accepts a Python number but no `vtypes.Int`.
    (`visit__Variable`, `visit_Pointer`, `visit_Slice`, seq/reset_visitor.py:24-56.) -/
def rhs : Part → Option (Option (Nat → Bool))
  | .whole r => some (r.init.map fun i => fun k => ibit i.val k)
  | .bit r p =>
    match r.init with
    | none => some none
    | some (.obj _) => none
    | some (.int v) => some (some fun k => ((BitVec.ofInt 32 v >>> p) &&& 1#32).getLsbD k)
  | .slice r m l =>
    match r.init with
    | none => some none
    | some i =>
      let w := max 32 (m - l + 1)
      some (some fun k =>
        ((BitVec.ofInt w i.val >>> l) &&& BitVec.ofNat w (2 ^ (m - l + 1) - 1)).getLsbD k)

/-- A nonblocking assignment to one part; bits of the right side may be `x`
    (seq/reset_visitor.py:27, 45, 56, 80). -/
abbrev Stmt := Part × (Nat → Option Bool)

/-- The reset of one recorded target. In a `Cat` every right side has the width of its left side,
    so the assignment is that of each part; a part without initial value is given `IntX`
    (seq/reset_visitor.py:24-80). -/
def visit : Dst → Option (List Stmt)
  | .one p => (rhs p).map fun o =>
    match o with
    | none => []
    | some f => [(p, fun k => some (f k))]
  | .cat ps => ps.mapM fun p => (rhs p).map fun o =>
    match o with
    | none => (p, fun _ => none)
    | some f => (p, fun k => some (f k))

/-- `make_reset` over the recorded targets (seq/seq.py:612-618). -/
def makeReset : List Dst → Option (List Stmt)
  | [] => some []
  | d :: ds =>
    match visit d, makeReset ds with
    | some a, some b => some (a ++ b)
    | _, _ => none

/-- The bits of every register; `none` is `x` (of core/vtypes.py:536-563). -/
abbrev Bits := String → Nat → Option Bool

/-- Effect of one assignment (Verilog, of seq/reset_visitor.py:27, 45, 56, 80). -/
def put (e : Bits) (s : Stmt) : Bits := fun x k =>
  if x = s.1.reg.name ∧ s.1.lo ≤ k ∧ k < s.1.hi then s.2 (k - s.1.lo) else e x k

/-- The registers after a clock edge with the reset asserted (seq/seq.py:371-393). `none`: the
    generator raised. -/
def reset (ds : List Dst) (e : Bits) : Option Bits := (makeReset ds).map fun l => l.foldl put e

end PartReset
