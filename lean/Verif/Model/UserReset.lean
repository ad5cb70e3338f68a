import Verif.Model.PartReset

/-!
# Reset statements handed to `make_always`

`Seq.make_always(reset=...)` and `FSM.make_always(reset=...)` merge the statements of the user with
the generated ones in different ways.
-/

namespace UserReset

open PartReset

/-- The reset branch of `Seq.make_always`: the statements of the user, then the generated ones
    (seq/seq.py:378, 389-391), executed at an edge with the reset asserted. Right sides of the user
    are given by their bits; targets are registers, bits and slices. -/
def seqReset (user : List Stmt) (ps : List Part) (e : Bits) : Option Bits :=
  (makeReset (ps.map .one)).map fun l => (user ++ l).foldl put e

/-- The merging of `FSM.make_reset`: the first statement for each `str(v.left)`. Distinct parts are
    written differently (fsm/fsm.py:715-754, core/vtypes.py:630, 1646, 1725). -/
def firsts : List Stmt → List Part → List Stmt
  | [], _ => []
  | s :: l, seen => if s.1 ∈ seen then firsts l seen else s :: firsts l (s.1 :: seen)

/-- The reset branch of `FSM.make_always` (fsm/fsm.py:403-409). The state register is one of the
    targets (fsm/fsm.py:725-728). -/
def fsmReset (user : List Stmt) (ps : List Part) (e : Bits) : Option Bits :=
  (makeReset (ps.map .one)).map fun l => (firsts (user ++ l) []).foldl put e

end UserReset
