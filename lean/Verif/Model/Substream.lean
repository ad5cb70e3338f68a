import Verif.Model.Sched

/-!
# Model of substreams (stream/stypes.py:3975-4038, 4106-4145; thread/stream.py:451-470, 3827-3869)

`parent.substream(child)` makes an operator of the parent whose operands are the sources of another stream.  The circuit
of the child is a scheduled graph of its own (`Sch.Run`); the operator writes the operands into the registers that drive
the variables of the child, `from_sink` reads an output of the child.

Simplifications: `dump` is left out; the values are integers (a register cuts an operand to the width of the variable);
parameters of the child are constants, as in Model/Sched.lean.
-/

namespace Sub

open Sch

/-- The operand for variable `k` of the child: `Substream.write` (stream/stypes.py:4008-4013) appends the operand and the
    name, `_implement` (4026) zips them.  `names` are the written variables in the order of the calls. -/
def operand (names : List ℕ) (as : List Int) (k : ℕ) : Option Int := (names.zip as).lookup k

/-- What the registers of the child hold: `ivalid` and the `wdata` register of every variable.  Both are written when the
    stage of the operator is valid and the parent advances (stream/stypes.py:4019-4029, 2795-2822); nothing writes
    `ivalid` back to 0 unless the child is run by itself (thread/stream.py:1752-1755). -/
def put (names : List ℕ) (s : Bool × (ℕ → Int)) (u : Bool × List Int) : Bool × (ℕ → Int) :=
  if u.1 then (true, fun k => (operand names u.2 k).getD (s.2 k)) else s

/-- The registers after hardware reset (stream/stypes.py:2811-2812, `initval=0`). -/
def zero : Bool × (ℕ → Int) := (false, fun _ => 0)

/-- The clock edge at the end of cycle `t` (stream/stypes.py:4019-4029): `en` is `senable` of the parent, `u` the valid flag
    of the operator's stage and its operands, `iv` and `x` the `ivalid` and the variables of the child. -/
def Edge (names : List ℕ) (en : ℕ → Bool) (u : ℕ → Bool × List Int) (iv : ℕ → Bool) (x : ℕ → ℕ → Int) (t : ℕ) : Prop :=
  (iv (t + 1), fun k => x k (t + 1)) = if en t then put names (iv t, fun k => x k t) (u t) else (iv t, fun k => x k t)

/-- `add_disable_cond` (types/util.py:91-100): what the conditions added so far (`prev`, 1 at first) become. -/
def disable (prev cond value : Bool) : Bool := (if cond then value else true) && prev

/-- `oready` of the parent: `internal_oready`, where the substream adds the condition of thread/stream.py:3848-3849; `rest`
    are the conditions added by others (FIFOs, other substreams), `ic` is `internal_oready` of the child. -/
def parentReady (rest busy ic : Bool) : Bool := disable rest busy ic

/-- `oready` of the child: its own `internal_oready` (thread/stream.py:87-89), the condition of thread/stream.py:3845, and
    those of the other parents. -/
def childReady (ic others busy parent : Bool) : Bool := disable (ic && others) busy parent

/-! ## `busy` of the child -/

/-- The registers of `busy` of a stream (thread/stream.py:1781-1803, 1876-1892): `source_busy` delayed `depth + 2` times (the
    last one is `sink_busy`), its previous value, and `busy_reg`. -/
structure Busy where
  chain : List Bool
  prev : Bool := false
  reg : Bool := false
  deriving DecidableEq, Repr

/-- After hardware reset (thread/stream.py:1884, 135-136). -/
def Busy.init (depth : ℕ) : Busy := { chain := List.replicate (depth + 2) false }

/-- `sink_busy` (thread/stream.py:1788). -/
def Busy.sink (b : Busy) : Bool := b.chain.getLastD false

/-- `busy` (thread/stream.py:1803). -/
def Busy.out (b : Busy) (source : Bool) : Bool := source || b.sink || b.reg

/-- One clock edge (thread/stream.py:1790-1796, 1883-1887). -/
def Busy.step (b : Busy) (oready source : Bool) : Busy where
  chain := if oready then source :: b.chain.dropLast else b.chain
  prev := if oready then b.sink else b.prev
  reg := if source then true else if !b.sink && b.prev then false else b.reg

/-- A stream `parent` that delays its source by `s` stages and hands it to the substream `child`, which hands it to the
    substream `grand`, which delays it by `g` stages: the depth of `child` is `g + 1`, that of `parent` `s + g + 2`.  The data
    registers with their valid flags (stream/stypes.py:2298-2311; stream/stream.py:572-592), and the registers of `busy`;
    `source_busy` of the child is a copy of that of the parent (thread/stream.py:3838-3841: `reset_delay` is still 0 when
    the operator is implemented, and `Prev` by -1 is the signal itself, seq/seq.py:139-145). -/
structure Nest where
  pre : List (Bool × Int)
  carg : Bool × Int := (false, 0)
  garg : Bool × Int := (false, 0)
  post : List Int
  pbusy : Busy
  csource : Bool := false
  cbusy : Busy
  deriving DecidableEq, Repr

/-- After hardware reset (every register has `initval=0`; stream/stypes.py:2298-2311, 2811-2812). -/
def Nest.init (s g : ℕ) : Nest where
  pre := List.replicate s (false, 0)
  post := List.replicate g 0
  pbusy := Busy.init (s + g + 2)
  cbusy := Busy.init (g + 1)

/-- The output of the grandchild, which is the output of the child and of the parent (stream/stypes.py:4106-4125). -/
def Nest.out (n : Nest) : Int := n.post.getLastD n.garg.2

/-- `oready` of the parent (`rest`: no stall by anything outside), of the child and of the grandchild
    (thread/stream.py:3845-3849). -/
def Nest.ready (n : Nest) (rest source : Bool) : Bool × Bool × Bool :=
  let p := parentReady rest (n.pbusy.out source) true
  let c := childReady true true (n.pbusy.out source) p
  (p, c, childReady true true (n.cbusy.out n.csource) c)

/-- One clock edge (stream/stypes.py:4019-4029, 2298-2311; thread/stream.py:3838-3841): `source` is `source_busy` of the
    parent, `item` the valid flag and the value of its source. -/
def Nest.step (n : Nest) (rest source : Bool) (item : Bool × Int) : Nest :=
  let (p, c, g) := n.ready rest source
  let last := n.pre.getLastD item
  { pre := if p then (item :: n.pre).dropLast else n.pre
    carg := if p && last.1 then last else n.carg
    garg := if c && n.carg.1 then n.carg else n.garg
    post := if g then (n.garg.2 :: n.post).dropLast else n.post
    pbusy := n.pbusy.step p source
    csource := if p && n.pbusy.out source then source else n.csource
    cbusy := n.cbusy.step c n.csource }

/-- The outputs of the parent in the cycles in which it advances (stream/stypes.py:4106-4125): cycle `t` has `rest t` and
    `items t`; `source t` is its `source_busy`. -/
def Nest.outs (rest source : ℕ → Bool) (item : ℕ → Bool × Int) : ℕ → ℕ → Nest → List Int
  | 0, _, _ => []
  | k + 1, t, n =>
    let r := Nest.outs rest source item k (t + 1) (n.step (rest t) (source t) (item t))
    if (n.ready (rest t) (source t)).1 then n.out :: r else r

end Sub
