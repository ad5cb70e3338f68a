import Mathlib.Data.Nat.Notation

/-!
# Model of child threads (veriloggen/thread/thread.py: `run`, `join`, `reset`, `done`)

A parent FSM and child FSMs.  The control flow of the parent is represented by the calls it executes, in order: loops and
branches decide which call comes next.  `work` stands for any other statement with a state of its own.  Simplifications:

* one parent calls each child (two parents that start a child in the same cycle are not represented);
* the states of the body of a child are one function on its registers, with a flag for reaching the end;
* `called` is part of the child.
-/

namespace ThreadRun

/-- A call the parent executes: a statement without threads, `run` with its arguments (thread.py:105-129), `join` (131-140),
    `reset` (152-170). -/
inductive Call (A : Type)
  | work
  | run (i : ℕ) (a : A)
  | join (i : ℕ)
  | reset (i : ℕ)

/-- Where the state of a child's FSM is: `start_state`, a state of the body, `end_state` (thread.py:117-125). -/
inductive Phase
  | idle | busy | fin
  deriving DecidableEq

/-- A child: its state, the register `called` (thread.py:275-277), its other registers. -/
structure Child (S : Type) where
  phase : Phase
  called : Bool
  reg : S

/-- The code of the children: binding of the arguments to registers (thread.py:304-334, 421-447), one cycle of the body and
    whether it reaches `end_state`. -/
structure Code (A S : Type) where
  bind : ℕ → A → S → S
  body : ℕ → S → S × Bool

/-- The parent, as the calls still to be executed, and the children (thread/thread.py:105-170). -/
structure St (A S : Type) where
  rest : List (Call A)
  child : ℕ → Child S

/-- The calls of `reset` before the next state of the parent, and the calls from this state on: `reset` adds conditions on
    `fsm.state == fsm.current` and does not go to a next state (thread.py:158-170). -/
def split {A : Type} : List (Call A) → List ℕ × List (Call A)
  | .reset i :: cs => ((i :: (split cs).1), (split cs).2)
  | cs => ([], cs)

/-- The call whose state the parent is in (thread/thread.py:105-170). -/
def St.act {A S : Type} (s : St A S) : Option (Call A) := (split s.rest).2.head?

/-- The reset values (thread/thread.py:275-277). -/
def St.init {A S : Type} (calls : List (Call A)) (r0 : ℕ → S) : St A S := ⟨calls, fun i => ⟨.idle, false, r0 i⟩⟩

/-- One clock edge of a child: in `start_state` the parent's `start_flag` binds the arguments, sets `called` and goes to the
    body (thread.py:273-284, 332-334, 449-453); in `end_state` the `reset_flag` resets `called` and goes to `start_state`
    (thread.py:158-167). -/
def stepChild {A S : Type} (c : Code A S) (act : Option (Call A)) (resets : List ℕ) (i : ℕ) (x : Child S) : Child S :=
  match x.phase with
  | .idle => match act with
    | some (.run j a) => if j = i then ⟨.busy, true, c.bind i a x.reg⟩ else x
    | _ => x
  | .busy => ⟨if (c.body i x.reg).2 then .fin else .busy, x.called, (c.body i x.reg).1⟩
  | .fin => if i ∈ resets then ⟨.idle, false, x.reg⟩ else x

/-- The parent leaves its state: after `run` at once (thread.py:456), in `join` if the child is in `end_state` (137-138),
    otherwise when `go` says so. -/
def leaves {A S : Type} (go : Bool) (child : ℕ → Child S) : Option (Call A) → Bool
  | none => false
  | some .work => go
  | some (.run _ _) => true
  | some (.join i) => (child i).phase == .fin
  | some (.reset _) => false

/-- One clock edge (thread/thread.py:105-170, 273-284). -/
def St.step {A S : Type} (c : Code A S) (go : Bool) (s : St A S) : St A S where
  rest := if leaves go s.child s.act then (split s.rest).2.tail else s.rest
  child i := stepChild c s.act (split s.rest).1 i (s.child i)

/-! ## Arguments of `run` -/

/-- The source of a parameter's value in a call of `run` (thread/thread.py:304-334). -/
inductive Arg (E : Type)
  | given (e : E)
  | default (e : E)
  | old

/-- Errors Python raises (thread/thread.py:343-344, 348-349, 416-417). -/
inductive Err
  | typeError | nameError
  deriving DecidableEq

/-- The positional arguments and the defaults of the last parameters (thread.py:304-334, 346-349, 421-447); a keyword argument
    reaches `kwargs_code.append('{}={}'.format(key, key))` where `key` is not defined (thread.py:419).  A parameter that is
    neither given nor has a default is not assigned; in the first `run`, which also compiles the call, its name is then looked
    up in the caller's frames (thread.py:461-467, compiler.py:1144-1157), which is not represented. -/
def bindArgs {E : Type} (params : List String) (defaults : List E) (args : List E) (kwargs : List (String × E)) :
    Except Err (List (String × Arg E)) :=
  if params.length < args.length then .error .typeError
  else match kwargs with
    | kw :: _ => if kw.1 ∈ params.take args.length then .error .typeError else .error .nameError
    | [] => .ok (params.mapIdx fun k p =>
        (p, match args[k]? with
          | some e => .given e
          | none => match defaults[k + defaults.length - params.length]? with
            | some e => if params.length ≤ k + defaults.length then .default e else .old
            | none => .old))

end ThreadRun
