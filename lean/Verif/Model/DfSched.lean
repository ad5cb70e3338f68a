import Verif.Model.Sched
import Verif.Model.Dataflow
import Mathlib.Data.List.Sort

/-!
# Model of the scheduling of dataflow graphs (dataflow/scheduler.py, dataflow/dataflow.py, dataflow/allocator.py)

The graph and its heap are those of Model/Sched.lean: the fields the scheduler uses are the same (dataflow/dtypes.py:79-126).
`fill_gap`, `schedule`, `balance_output` and `_max` are, line by line, those of the streams (dataflow/scheduler.py:25-82,
dataflow/dtypes.py:2799-2809), so they are not written down again; `visit` differs.  The scheduled graph is translated to the
network of Model/Dataflow.lean.

Simplifications, besides those of the two models:
* `prev` and `variable_latency` are left out, a graph has no `deps`;
* the state of an operator is the history of its operands, of which its value is a function (`Op.f`);
* the nodes are visited as a list with repetitions; the order of the allocator is that of `key`.
-/

namespace DfSch

open Sch (Heap Node Op Hist maxStage visitAll fillAll depth)

/-- `visit` of `ASAPScheduler` (dataflow/scheduler.py:84-167): the end stage, `none` for constants.  An operator all of whose
    operands have no stage gets no start stage and the end stage 0 (`next_stage`, dataflow/scheduler.py:13-16); `fill_gap` does
    nothing then (dataflow/scheduler.py:55-56). -/
def visit : ℕ → ℕ → Heap → Option (Option ℕ × Heap)
  | 0, _, _ => none
  | f + 1, id, h =>
    match (h.node id).kind with
    | .const _ => some (none, h)
    | .input _ =>
      if (h.node id).start.isSome then some ((h.node id).end_, h)
      else some (some 0, h.set id { h.node id with start := some 0, end_ := some 0 })
    | .op o =>
      if (h.node id).start.isSome then some ((h.node id).end_, h)
      else
        match visitAll (visit f) ((h.node id).args ++ (h.node id).deps) h with
        | none => none
        | some (es, h) =>
          match maxStage es with
          | none => some (some 0, h.set id { h.node id with end_ := some 0 })
          | some mine =>
            match fillAll (h.node id).args mine h with
            | none => none
            | some (as, h) =>
              some (some (mine + o.lat),
                h.set id { h.node id with args := as, start := some mine, end_ := some (mine + o.lat) })

/-- `schedule` (dataflow/scheduler.py:25-27). -/
def schedule (h : Heap) (outs : List ℕ) : Option Heap := (visitAll (visit h.next) outs h).map (·.2)

/-- Scheduling and `balance_output` (dataflow/dataflow.py:124-134; dataflow/scheduler.py:29-52): the nodes that drive the
    outputs, and the graph; `max_stage` is `depth`. -/
def implement (h : Heap) (outs : List ℕ) : Option (List ℕ × Heap) :=
  match schedule h outs with
  | none => none
  | some h' => fillAll outs (depth h' outs) h'

/-- The sorting key of the allocator (dataflow/allocator.py:11-12), a pair, as one number: the start stage (-1 without any) is
    more significant than the `object_id`. -/
def key (h : Heap) (id : ℕ) : ℕ := (((h.node id).start.map (· + 1)).getD 0) * (h.next + 1) + id

/-- `AllVisitor` (dataflow/visitor.py:167-217): a node and all its operands; the number bounds the depth. -/
def allOf (h : Heap) : ℕ → ℕ → List ℕ
  | 0, id => [id]
  | f + 1, id => id :: (h.node id).args.flatMap (allOf h f)

/-- All nodes the outputs use (dataflow/dataflow.py:137-140). -/
def allVars (h : Heap) (rs : List ℕ) : List ℕ := rs.flatMap fun r => allOf h (key h r + 1) r

/-- Whether a node is an operator (the class of dataflow/dtypes.py:541). -/
def isOp (h : Heap) (id : ℕ) : Bool := match (h.node id).kind with | .op _ => true | _ => false

/-- The operators in the order in which they are implemented (dataflow/allocator.py:10-13). -/
def order (h : Heap) (rs : List ℕ) : List ℕ :=
  ((List.range h.next).filter fun id => isOp h id && (allVars h rs).contains id).insertionSort fun a b => key h a ≤ key h b

/-- The source an operand is; `none` for a constant, which has neither `valid` nor `ready` (dataflow/dtypes.py:2103-2110). -/
def src (h : Heap) (ord : List ℕ) (a : ℕ) : Option Dataflow.Src :=
  match (h.node a).kind with
  | .const _ => none
  | .input k => some (.var k)
  | .op _ => some (.op (ord.idxOf a))

/-- The value of a constant operand (dataflow/dtypes.py:2083-2110). -/
def con (h : Heap) (a : ℕ) : Option Int := match (h.node a).kind with | .const v => some v | _ => none

/-- The operands of an operator (`ldata`, `rdata`; dataflow/dtypes.py:592-593): constants and the data of the sources. -/
def merge : List (Option Int) → List Int → List Int
  | [], _ => []
  | some v :: cs, xs => v :: merge cs xs
  | none :: cs, xs => xs.headD 0 :: merge cs xs.tail

/-- The operator for a node (`_implement`; dataflow/dtypes.py:575-618, 640-681, 1610-1653, 2016-2039, 2395-2541). -/
def mkNode (h : Heap) (ord : List ℕ) (id : ℕ) : Dataflow.Node Hist Int :=
  let o : Op := match (h.node id).kind with | .op o => o | _ => Sch.delayOp
  { init := []
    next := fun s xs => s ++ [(true, merge ((h.node id).args.map (con h)) xs)]
    out := o.f
    ins := (h.node id).args.filterMap fun a => (src h ord a).map (·, 0)
    lat := o.lat - 1 }

/-- `Allocator.allocate` (dataflow/allocator.py:10-13; dataflow/dataflow.py:143-144): the network. -/
def net (h : Heap) (rs : List ℕ) : Dataflow.Net Hist Int := (order h rs).map (mkNode h (order h rs))

end DfSch
