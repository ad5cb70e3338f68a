import Verif.Model.ThreadRun

/-!
# Model of thread pools (veriloggen/thread/pool.py)

A pool of `n` threads and the FSMs of parents that call its methods.  As in `ThreadRun` the control flow of a parent is the
list of the calls it executes.  Simplifications:

* the expression `tid` is represented by its values in the states in which it is used;
* a bit of `start` that does not exist reads as 0 (in Verilog as x, which no condition takes for true);
* `done` and `ret` return expressions over the registers of the threads; they are represented by `pick`.
-/

namespace Pool

open ThreadRun (Phase Child Code)

/-- A call of a parent: a statement without the pool, `pool.run(tid, …)` (pool.py:65-107) where `t` and `t'` are the values of
    `tid` in the first and in the last of its states, `pool.join(tid)` (109-123), `pool.reset(tid)` (140-162). -/
inductive Call (A : Type)
  | work
  | run (t : ℕ) (a : A) (t' : ℕ)
  | join (t : ℕ)
  | reset (t : ℕ)

/-- A state of the parent's FSM, or a `reset`, which has none (pool.py:65-162). -/
inductive Micro (A : Type)
  | work
  | set (t : ℕ)
  | fire (a : A)
  | clr (t : ℕ)
  | join (t : ℕ)
  | reset (t : ℕ)

/-- The states of a call: `run` sets the bit (pool.py:68-71), starts the threads whose bit is set (92-100) and clears the bit
    (102-105). -/
def Call.states {A : Type} : Call A → List (Micro A)
  | .work => [.work]
  | .run t a t' => [.set t, .fire a, .clr t']
  | .join t => [.join t]
  | .reset t => [.reset t]

/-- The states of a parent that executes calls (pool.py:65-162). -/
def states {A : Type} (cs : List (Call A)) : List (Micro A) := cs.flatMap Call.states

/-- The parents, the register `start` (pool.py:56-57), the threads. -/
structure St (A S : Type) where
  rest : List (List (Micro A))
  bits : ℕ → Bool
  child : ℕ → Child S

/-- The `tid`s in the calls of `reset` in the present state, and the states from the present one on: `reset` does not go to a
    next state (pool.py:147-160). -/
def split {A : Type} : List (Micro A) → List ℕ × List (Micro A)
  | .reset t :: cs => ((t :: (split cs).1), (split cs).2)
  | cs => ([], cs)

/-- The states the parents are in (pool.py:65-162). -/
def St.acts {A S : Type} (s : St A S) : List (Micro A) := s.rest.filterMap fun r => (split r).2.head?

/-- The `tid`s being reset (pool.py:147-149). -/
def St.resets {A S : Type} (s : St A S) : List ℕ := s.rest.flatMap fun r => (split r).1

/-- Reset values (pool.py:56-57); the pool has not been used. -/
def St.init {A S : Type} (calls : List (List (Call A))) (r0 : ℕ → S) : St A S :=
  ⟨calls.map states, fun _ => false, fun k => ⟨.idle, false, r0 k⟩⟩

/-- The thread a `tid` selects in `join`, `done` and `ret`: the first pattern that matches (pool.py:112-121, 128-138,
    167-176); `tids k` is the attribute `tid` of thread `k`. -/
def pick (n : ℕ) (tids : ℕ → ℕ) (t : ℕ) : Option ℕ := (List.range n).find? fun k => tids k == t

/-- The assignments to `start`, in the order of the parents; those to a bit that does not exist have no effect
    (pool.py:68-70, 102-104). -/
def nextBits {A : Type} (n : ℕ) (bits : ℕ → Bool) (acts : List (Micro A)) (k : ℕ) : Bool :=
  acts.foldl (fun b m => match m with
    | .set t => if t = k ∧ t < n then true else b
    | .clr t => if t = k ∧ t < n then false else b
    | _ => b) (bits k)

/-- The arguments given by the parents that are in the state that starts threads (pool.py:92-97). -/
def fires {A : Type} (acts : List (Micro A)) : List A :=
  acts.filterMap fun m => match m with
    | .fire a => some a
    | _ => none

/-- One clock edge of thread `k`: as in `ThreadRun.stepChild`, but the start needs the bit of the thread (pool.py:92-97,
    thread.py:279-284, 332-334, 449-453), the last assignment of the arguments wins, and the reset needs `tid == thread.tid`
    (pool.py:147-159). -/
def stepChild {A S : Type} (c : Code A S) (bit : Bool) (fs : List A) (reset : Bool) (k : ℕ) (x : Child S) : Child S :=
  match x.phase with
  | .idle => match (if bit then fs.getLast? else none) with
    | some a => ⟨.busy, true, c.bind k a x.reg⟩
    | none => x
  | .busy => ⟨if (c.body k x.reg).2 then .fin else .busy, x.called, (c.body k x.reg).1⟩
  | .fin => if reset then ⟨.idle, false, x.reg⟩ else x

/-- Whether a parent leaves its state (pool.py:71, 97, 105, 121; thread.py:456). -/
def leaves {A S : Type} (n : ℕ) (tids : ℕ → ℕ) (go : Bool) (child : ℕ → Child S) : Option (Micro A) → Bool
  | none => false
  | some .work => go
  | some (.set _) => true
  | some (.fire _) => true
  | some (.clr _) => true
  | some (.join t) => match pick n tids t with
    | some k => (child k).phase == .fin
    | none => false
  | some (.reset _) => false

/-- One clock edge (pool.py:65-162); `go p`: a statement of parent `p` without the pool ends. -/
def St.step {A S : Type} (c : Code A S) (n : ℕ) (tids : ℕ → ℕ) (go : ℕ → Bool) (s : St A S) : St A S where
  rest := s.rest.mapIdx fun p r => if leaves n tids (go p) s.child (split r).2.head? then (split r).2.tail else r
  bits := nextBits n s.bits s.acts
  child k := if k < n then
      stepChild c (s.bits (tids k)) (fires s.acts) (s.resets.contains (tids k)) k (s.child k)
    else s.child k

end Pool
