import Mathlib.Data.Nat.Notation
import Mathlib.Logic.Function.Basic

/-!
# Model of the scheduling of stream graphs (stream/scheduler.py, stream/allocator.py, stream/stream.py)

A graph is a heap of nodes, addressed by number (`object_id`); the scheduler assigns stages and inserts delay nodes.

Simplifications:
* an operator is its latency and the value it computes from the history of its operands (`Op`); how registers
  compute that is given in `Run` (below) as a contract, which Props/C24_Schedule.lean derives for the operators with
  generic `_implement` (stream/stypes.py:488-545, 574-625, 1525-1577), delays, `prev` and state machines;
* a variable connected to another node (`Variable.connect`) is that node; operators that change their latency or
  initiation interval while being scheduled (`variable_latency`, `variable_initiation_interval`) have them fixed here,
  and the initiation interval is 1;
* the result cache of the visitor (stream/visitor.py:16-28) is left out: a node that was visited has a start stage or
  is a constant; a loop in the graph exhausts the fuel.
-/

namespace Sch

/-- What the inputs of an operator were in the cycles in which the stream advanced, oldest first: the valid flag of its
    stage (`svalid`) and the operands (`svalid` and operands of stream/stypes.py:493-520). -/
abbrev Hist := List (Bool × List Int)

/-- An operator (`_Operator`, stream/stypes.py:458-462): latency, and the value as function of the history up to the
    cycle in which the operands are taken. -/
structure Op where
  lat : ℕ
  f : Hist → Int

/-- The last operands (0 without any) (stream/stypes.py:493-520). -/
def lastArgs (h : Hist) : List Int := (h.getLast?.map (·.2)).getD []

/-- `_Delay` (stream/stypes.py:2250-2311): latency 1, the value of its operand. -/
def delayOp : Op := ⟨1, fun h => (lastArgs h).headD 0⟩

/-- The kinds of nodes: `_Constant` and `_ParameterVariable` (stream/stypes.py:2716-2746, 2892-2938), `_Variable`
    (2749-2889), operators (466-625, 1488-1577, 2941-3150). -/
inductive Kind
  | const (v : Int)
  | input (k : ℕ)
  | op (o : Op)

/-- `_Numeric` (stream/stypes.py:98-137), with the fields used by the scheduler.  `args` are the operands; `deps` the
    `dependency` of an accumulator (stream/scheduler.py:146-151), which only delays it. -/
structure Node where
  kind : Kind
  args : List ℕ := []
  deps : List ℕ := []
  start : Option ℕ := none
  end_ : Option ℕ := none
  delayed : List (ℕ × ℕ) := []
  parent : Option ℕ := none

/-- The nodes created so far; the next `object_id` (stream/stypes.py:65-70). -/
structure Heap where
  node : ℕ → Node
  next : ℕ

/-- Assigning the fields of a node (stream/stypes.py:98-137). -/
def Heap.set (h : Heap) (id : ℕ) (n : Node) : Heap := { h with node := Function.update h.node id n }

/-- One round of `stypes._max` (stream/stypes.py:5159-5166). -/
def maxStep : Option ℕ → Option ℕ → Option ℕ
  | m, none => m
  | none, some v => some v
  | some m, some v => some (if m < v then v else m)

/-- `stypes._max` (stream/stypes.py:5157-5167). -/
def maxStage (l : List (Option ℕ)) : Option ℕ := l.foldl maxStep none

/-- The loop of `fill_gap` (stream/scheduler.py:61-78): `k` more stages after stage `cur` of `prev`. -/
def fillLoop (n : ℕ) : ℕ → ℕ → ℕ → Heap → ℕ × Heap
  | 0, prev, _, h => (prev, h)
  | k + 1, prev, cur, h =>
    match (h.node n).delayed.lookup (cur + 1) with
    | some r => fillLoop n k r (cur + 1) h
    | none =>
      let r := h.next
      let h := h.set n { h.node n with delayed := (h.node n).delayed ++ [(cur + 1, r)] }
      let h := { h.set r { kind := .op delayOp, args := [prev], start := some cur, end_ := some (cur + 1),
                           parent := some n } with next := r + 1 }
      fillLoop n k r (cur + 1) h

/-- `fill_gap` (stream/scheduler.py:47-78); `none` if it raises. -/
def fillGap (h : Heap) (id endStage : ℕ) : Option (ℕ × Heap) :=
  match (h.node id).end_ with
  | none => some (id, h)
  | some e =>
    if e = endStage then some (id, h)
    else if e > endStage then none
    else
      let n := (h.node id).parent.getD id
      let cur := ((h.node n).end_).getD 0
      some (fillLoop n (endStage - cur) n cur h)

/-- `fill_gap` for all operands (stream/scheduler.py:88-89, 106, 126, 154-166). -/
def fillAll : List ℕ → ℕ → Heap → Option (List ℕ × Heap)
  | [], _, h => some ([], h)
  | a :: as, m, h =>
    match fillGap h a m with
    | none => none
    | some (r, h) =>
      match fillAll as m h with
      | none => none
      | some (rs, h) => some (r :: rs, h)

/-- Visiting the operands one after the other (stream/scheduler.py:83-84, 102, 119-122, 139-149). -/
def visitAll (visit : ℕ → Heap → Option (Option ℕ × Heap)) : List ℕ → Heap → Option (List (Option ℕ) × Heap)
  | [], h => some ([], h)
  | a :: as, h =>
    match visit a h with
    | none => none
    | some (e, h) =>
      match visitAll visit as h with
      | none => none
      | some (es, h) => some (e :: es, h)

/-- `visit` of `ASAPScheduler` (stream/scheduler.py:80-193): the end stage, `none` for constants.  All kinds of operators
    are treated alike; the order in which the operands of an accumulator are visited does not matter. -/
def visit : ℕ → ℕ → Heap → Option (Option ℕ × Heap)
  | 0, _, _ => none
  | f + 1, id, h =>
    match (h.node id).kind with
    | .const _ => some (none, h)
    | .input _ =>
      if (h.node id).start.isSome then some ((h.node id).end_, h)
      else some (some 0, h.set id { h.node id with start := some 0, end_ := some 0 })
    | .op o =>
      if (h.node id).start.isSome then some ((h.node id).end_, h)
      else
        match visitAll (visit f) ((h.node id).args ++ (h.node id).deps) h with
        | none => none
        | some (es, h) =>
          let mine := (maxStage es).getD 0
          match fillAll (h.node id).args mine h with
          | none => none
          | some (as, h) =>
            some (some (mine + o.lat),
              h.set id { h.node id with args := as, start := some mine, end_ := some (mine + o.lat) })

/-- `schedule` (stream/scheduler.py:25-27). -/
def schedule (h : Heap) (outs : List ℕ) : Option Heap := (visitAll (visit h.next) outs h).map (·.2)

/-- The depth of the pipeline (stream/stream.py:201-204). -/
def depth (h : Heap) (outs : List ℕ) : ℕ :=
  (maxStage (some 0 :: outs.map fun o => (h.node o).end_)).getD 0

/-- Scheduling and `balance_output` (stream/stream.py:196-206; stream/scheduler.py:29-45): the nodes that drive the
    outputs, and the graph. -/
def implement (h : Heap) (outs : List ℕ) : Option (List ℕ × Heap) :=
  match schedule h outs with
  | none => none
  | some h' => fillAll outs (depth h' outs) h'

/-! ## The circuit -/

/-- The clock cycles before `t` in which the stream advances (stream/stream.py:552-592). -/
def cyc (en : ℕ → Bool) (t : ℕ) : List ℕ := (List.range t).filter en

/-- The valid flags of the stages (`implement_control`, `_make_valid_chain`; stream/stream.py:550-592) in cycle `t`:
    `iv` is `ivalid`, `none` if there is none (no flag is used then); a register is updated when the stream advances. -/
structure ValidChain (en : ℕ → Bool) (iv : Option (ℕ → Bool)) (valid : ℕ → ℕ → Bool) : Prop where
  first : ∀ t, valid 0 t = (iv.map (· t)).getD true
  init : ∀ i, valid (i + 1) 0 = iv.isNone
  step : ∀ i t, valid (i + 1) (t + 1) = if en t then valid i t else valid (i + 1) t

/-- The operator `o` with inputs `u` and output `sig`: in every cycle the output is the value for the operands `lat`
    advances before (anything in the first cycles) (stream/stypes.py:493-520). -/
def Op.Drives (o : Op) (en : ℕ → Bool) (u : ℕ → Bool × List Int) (sig : ℕ → Int) : Prop :=
  ∀ t, o.lat ≤ (cyc en t).length → sig t = o.f (((cyc en t ++ [t]).take ((cyc en t).length + 1 - o.lat)).map u)

/-- The circuit for the scheduled graph (`Allocator.allocate`, stream/allocator.py:10-17): `en` is `senable` (`oready`,
    constantly true without it), `x k t` the `k`-th input in cycle `t`, `sig id t` the `sig_data` of a node.  The valid
    flag of an operator is that of its start stage. -/
structure Run (h : Heap) (en : ℕ → Bool) (iv : Option (ℕ → Bool)) (x : ℕ → ℕ → Int) (valid : ℕ → ℕ → Bool)
    (sig : ℕ → ℕ → Int) : Prop where
  chain : ValidChain en iv valid
  const : ∀ id v, id < h.next → (h.node id).kind = .const v → ∀ t, sig id t = v
  input : ∀ id k, id < h.next → (h.node id).kind = .input k → ∀ t, sig id t = x k t
  op : ∀ id o s, id < h.next → (h.node id).kind = .op o → (h.node id).start = some s →
    o.Drives en (fun t => (valid s t, (h.node id).args.map (sig · t))) (sig id)

/-- The registers of the generic `_implement` (stream/stypes.py:493-547 binary, 574-625 unary, 1525-1577 special; a delay,
    2298-2311, is the case `L = 1`): a wire without latency, else `L` registers in a row, all updated when the stream
    advances.  `g` is the combinational value of the operands. -/
def Pipe (L : ℕ) (g : List Int → Int) (en : ℕ → Bool) (a : ℕ → List Int) (sig : ℕ → Int) : Prop :=
  match L with
  | 0 => ∀ t, sig t = g (a t)
  | l + 1 => ∃ r : ℕ → ℕ → Int, (∀ i, r i 0 = 0) ∧
      (∀ t, r 0 (t + 1) = if en t then g (a t) else r 0 t) ∧
      (∀ i t, r (i + 1) (t + 1) = if en t then r i t else r (i + 1) t) ∧ ∀ t, sig t = r l t

/-- The register of `_Prev` (stream/stypes.py:2361-2373): latency 0, but a register. -/
def PrevReg (en : ℕ → Bool) (a : ℕ → List Int) (sig : ℕ → Int) : Prop :=
  sig 0 = 0 ∧ ∀ t, sig (t + 1) = if en t then (a t).headD 0 else sig t

/-- The registers of an accumulator (stream/stypes.py:3014-3148; latency 1): updated when the stream advances and the stage
    is valid (`_and_vars(svalid, senable)`).  `init`, `step`, `out` are the machine of Model/StreamAcc.lean or another
    one. -/
def AccRegs {S : Type} (init : S) (step : S → List Int → S) (out : S → Int) (en : ℕ → Bool) (u : ℕ → Bool × List Int)
    (sig : ℕ → Int) : Prop :=
  ∃ r : ℕ → S, r 0 = init ∧ (∀ t, r (t + 1) = if en t && (u t).1 then step (r t) (u t).2 else r t) ∧
    ∀ t, sig t = out (r t)

/-! ## The control signals -/

/-- What drives a control output (stream/stream.py:552-576). -/
inductive Drv
  | absent
  | undriven
  | one
  | oready
  | lastValid
  deriving DecidableEq, Repr

/-- The result of `implement_control`: whether the registers are enabled by `oready` (`senable`), whether the valid flags
    exist, and the drivers of `ovalid` and `iready` (stream/stream.py:552-576). -/
structure Control where
  senable : Bool
  chain : Bool
  ovalid : Drv
  iready : Drv
  deriving DecidableEq, Repr

/-- `implement_control` (stream/stream.py:552-592) for the signals that are present; `none` if it raises:
    `iready.assign(None)` is a `TypeError` (core/vtypes.py:1921-1924). -/
def control (ivalid iready ovalid oready : Bool) : Option Control :=
  if !ivalid && !oready then
    some ⟨false, false, if ovalid then .one else .absent, if iready then .one else .absent⟩
  else if !ivalid then
    some ⟨true, false, if ovalid then .undriven else .absent, if iready then .oready else .absent⟩
  else if iready && !oready then none
  else some ⟨oready, true, if ovalid then .lastValid else .absent, if iready then .oready else .absent⟩

end Sch
