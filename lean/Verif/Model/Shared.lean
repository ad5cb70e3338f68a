import Verif.Model.Mutex
import Mathlib.Data.Nat.Notation
import Mathlib.Data.Int.Notation

/-!
# Model of variables shared by threads (thread/ttypes.py:294-347)

`Shared(value)` wraps a register or an array of registers.  `write(value, *part)` adds a statement to the `Seq` of the shared variable, with
the condition that the FSM of the calling thread is in its current state, and a jump to the next state.  `read` and `.value` give the variable.

Simplifications: the content is a function from element numbers to words (element 0 alone for a register); values and indices are
functions of the registers of the threads and of the content; edges with an active reset are left open (what they do is C15).  A `part` that
is a pair makes `Pointer(v, (a, b))`, which has no Verilog, and is not modelled, nor are negative constants as parts (C42).
-/

namespace Shr

open Hdl

/-- The words of the variable (thread/ttypes.py:297-298). -/
abbrev Store := ℕ → ℕ

/-- An expression in a thread: it may read registers and the shared variable (thread/ttypes.py:302-307). -/
abbrev Ex := Env → Store → ℤ

/-- The arguments `*part` of `write` (thread/ttypes.py:324-331). -/
inductive Part
  | whole
  | one (i : Ex)
  | two (i j : Ex)

/-- What the variable is: a register of width `w`, or an array of `n` of them (core/vtypes.py:1576-1614 on what `v[i]` is then). -/
structure Kind where
  w : ℕ
  len : Option ℕ

/-- The index `i`, if it is below `n` (an assignment outside does nothing in Verilog; `v[p]` in thread/ttypes.py:322). -/
def below (i : ℤ) (n : ℕ) : Option ℕ := if 0 ≤ i ∧ i < n then some i.toNat else none

/-- The element assigned and the bit in it, `none` for all bits (thread/ttypes.py:319-331).  A bit of a bit and an array as a whole cannot be
    assigned in Verilog. -/
def target (k : Kind) (p : Part) (env : Env) (s : Store) : Option (ℕ × Option ℕ) :=
  match k.len, p with
  | none, .whole => some (0, none)
  | none, .one i => (below (i env s) k.w).map fun b => (0, some b)
  | none, .two _ _ => none
  | some _, .whole => none
  | some n, .one i => (below (i env s) n).map fun e => (e, none)
  | some n, .two i j => (below (i env s) n).bind fun e => (below (j env s) k.w).map fun b => (e, some b)

/-- A call of `write`: the thread, its state, the part and the value (thread/ttypes.py:317-335). -/
structure Site where
  th : String
  st : ℕ
  part : Part
  val : Ex

/-- `write(fsm, value, *part)`: the statement is added to the `Seq`, the FSM goes on (thread/ttypes.py:309-338). -/
def write (ws : List Site) (f : FsmSt) (p : Part) (v : Ex) : Option (List Site × FsmSt) :=
  (f.applyAll [.gotoNext none]).map fun f' => (ws ++ [⟨f.name, f.cur, p, v⟩], f')

/-- The condition `fsm.state == fsm.current` (thread/ttypes.py:317). -/
def Site.on (c : Site) (env : Env) : Bool := decide (env (.state c.th) = c.st)

/-- A word with bit `b` set to `x` (an assignment to `Pointer`, core/vtypes.py:1587-1588). -/
def setBit (n b : ℕ) (x : Bool) : ℕ := n ^^^ (if n.testBit b = x then 0 else 2 ^ b)

/-- The assignment of `x` to the target (thread/ttypes.py:333-335; the value is cut to the width). -/
def put (k : Kind) (s : Store) (t : ℕ × Option ℕ) (x : ℤ) : Store := fun e =>
  if e = t.1 then
    match t.2 with
    | none => (x % 2 ^ k.w).toNat
    | some b => setBit (s e) b (x % 2 == 1)
  else s e

/-- The statement of one call, where `s` is the content before the edge and `a` what earlier statements made of it
    (thread/ttypes.py:333-335). -/
def Site.exec (k : Kind) (env : Env) (s a : Store) (c : Site) : Store :=
  if c.on env then
    match target k c.part env s with
    | some t => put k a t (c.val env s)
    | none => a
  else a

/-- A clock edge: all statements of the `Seq` in the order of the calls (seq/seq.py:601-609; thread/ttypes.py:333-335). -/
def step (k : Kind) (ws : List Site) (env : Env) (s : Store) : Store := ws.foldl (fun a c => c.exec k env s a) s

end Shr
