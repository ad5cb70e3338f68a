import Mathlib.Data.Nat.Notation

/-!
# Model of the dataflow operators (veriloggen/dataflow/dtypes.py)

The network that `Dataflow.implement` builds: variables with `valid` and `ready` ports, operators with a handshake.
One step is one rising clock edge, without reset.  Simplifications:

* constants and parameters are part of the function of an operator; a variable has both `valid` and `ready`;
* the data of an output that is not valid is not represented;
* an operator computes its result when it takes its operands and carries it along; for the multiplier and the divider
  this is what C04 and C06 prove of their cores;
* the operators are numbered so that operands come first, as the visitors require ("Loop detected", dataflow/visitor.py:14-24).
-/

namespace Dataflow

/-- Where an operand comes from: a variable (dataflow/dtypes.py:2113) or an operator. -/
inductive Src
  | var (i : ℕ)
  | op (j : ℕ)
  deriving DecidableEq

/-- An operator: state (`data` and `count` of an accumulator, nothing for the others), its update on taking operands
    (dataflow/dtypes.py:611, 672, 1646, 2455-2535), its value; operands, each with the number of `prev` steps
    (dataflow/dtypes.py:140-155); latency minus 1 (dataflow/dtypes.py:542, 694, 795). -/
structure Node (S V : Type) where
  init : S
  next : S → List V → S
  out : S → V
  ins : List (Src × ℕ)
  lat : ℕ

/-- The operators (`Allocator.allocate`, dataflow/allocator.py:10-13). -/
abbrev Net (S V : Type) := List (Node S V)

/-- Inputs of one cycle: data and valid of the variables, ready of the outputs (constant 1 for an operator without output,
    dataflow/dtypes.py:617-618, 252-255). -/
structure In (V : Type) where
  vdata : ℕ → V
  vvalid : ℕ → Bool
  oready : ℕ → Bool

/-- Registers: states of the operators, the pipeline of each operator (the entry first; for latency 1 the registers `data`
    and `valid`, dataflow/dtypes.py:582-583), the previous values of a source (`_Prev`, dataflow/dtypes.py:2042-2078). -/
structure St (S V : Type) where
  s : ℕ → S
  pipe : ℕ → List (Option V)
  hist : Src → ℕ → V

section
variable {S V : Type} (net : Net S V) (v0 : V)

/-- Reset values (dataflow/dtypes.py:582-583, 2067, 2411-2413); `v0` is 0. -/
def St.init (s0 : S) : St S V :=
  ⟨fun j => (net[j]?.map (·.init)).getD s0, fun j => List.replicate ((net[j]?.map (·.lat)).getD 0 + 1) none, fun _ _ => v0⟩

/-- `sig_valid` and `sig_data` of a source (dataflow/dtypes.py:585-586, 2250-2264); `none`: not valid. -/
def St.val (st : St S V) (i : In V) : Src → Option V
  | .var k => if i.vvalid k then some (i.vdata k) else none
  | .op j => ((st.pipe j).getLast?).join

/-- `sig_valid` of a source (dataflow/dtypes.py:586). -/
def St.valid (st : St S V) (i : In V) (x : Src) : Bool := (st.val i x).isSome

/-- `all_valid = _and_vars(lvalid, rvalid)` (dataflow/dtypes.py:601, 664, 1637). -/
def St.allValid (st : St S V) (i : In V) (nd : Node S V) : Bool := nd.ins.all fun a => st.valid i a.1

/-- The wire `sig_ready` of a source: the conjunction of what `_connect_ready` collects (dataflow/dtypes.py:2828-2844): the
    `ready_cond` of the operators using it (dataflow/dtypes.py:604-615) and the ready of the output (252-259).  The argument
    bounds the depth of the recursion. -/
def St.rdyN (st : St S V) (i : In V) : ℕ → Src → Bool
  | 0, _ => true
  | k + 1, x =>
    (match x with | .var _ => true | .op j => i.oready j) &&
    (List.range net.length).all fun s =>
      match net[s]? with
      | none => true
      | some nd => !(nd.ins.any fun a => a.1 == x) ||
          ((St.rdyN st i k (.op s) || !st.valid i (.op s)) && st.allValid i nd)

/-- `sig_ready` of a source (dataflow/dtypes.py:587, 604-615). -/
def St.ready (st : St S V) (i : In V) (x : Src) : Bool := st.rdyN net i (net.length + 1) x

/-- `accept = ready | !valid` (dataflow/dtypes.py:604, 667, 734). -/
def St.accept (st : St S V) (i : In V) (s : ℕ) : Bool := st.ready net i (.op s) || !st.valid i (.op s)

/-- `data_cond`: `accept`, `all_ready` and `all_valid` (dataflow/dtypes.py:606-608, 764-766). -/
def St.fire (st : St S V) (i : In V) (s : ℕ) (nd : Node S V) : Bool :=
  st.accept net i s && (nd.ins.all fun a => st.ready net i a.1) && st.allValid i nd

/-- The value of an operand (dataflow/dtypes.py:592-593, 2067-2078): `sig_data` or one of its previous values. -/
def St.arg (st : St S V) (i : In V) (a : Src × ℕ) : V :=
  match a.2 with
  | 0 => (st.val i a.1).getD v0
  | d + 1 => st.hist a.1 d

/-- One clock edge.  The registers of an operator move if it accepts: `valid(0)` if valid and ready, then
    `valid(all_valid)` if accept and all_ready, so the next valid is `data_cond` (dataflow/dtypes.py:611-613, 674-676,
    730-756, 1648-1650; the cores move with `update = accept`, 776-777).  Previous values shift when the source is
    transferred (dataflow/dtypes.py:2075-2078). -/
def St.step (i : In V) (st : St S V) : St S V where
  s j := match net[j]? with
    | none => st.s j
    | some nd => if st.fire net i j nd then nd.next (st.s j) (nd.ins.map (st.arg v0 i)) else st.s j
  pipe j := match net[j]? with
    | none => st.pipe j
    | some nd =>
      if st.accept net i j then
        ((if st.fire net i j nd then some (nd.out (nd.next (st.s j) (nd.ins.map (st.arg v0 i)))) else none) ::
          st.pipe j).dropLast
      else st.pipe j
  hist x d := if st.valid i x && st.ready net i x then
      (match d with | 0 => (st.val i x).getD v0 | d + 1 => st.hist x d) else st.hist x d

end

end Dataflow
