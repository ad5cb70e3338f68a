import Mathlib.Data.Nat.Notation
import Mathlib.Data.Int.Notation

/-!
# Model of the clocks and resets of a test bench (simulation/simulation.py, simulation/verilator_template.cpp)

`setup_clock`, `setup_reset` as the Verilog `initial` blocks they add, and the main program that `to_verilator_cpp` renders for Verilator.
The design itself is left out: a run ends only by `MAX_SIM_TIME`, not by `$finish`.  Each `initial` block is run on its own: the variables
it assigns are assigned by no other block.  A value is `none` for `x`.  A half period 0 makes the C++ program undefined (`% 0`): nothing is
claimed about it.
-/

namespace TBench

/-- Statements of an `initial` block: `Delay` and blocking assignments (core/vtypes.py:2285-2290, verilog/to_verilog.py:504-508,
    839-850). -/
inductive Stmt
  | delay (n : ℕ)
  | set (x : String) (f : (String → Option ℤ) → Option ℤ)

/-- Execution of statements in order for at most `left` time units (`visit_Initial`, verilog/to_verilog.py:739-744): the values, and the time
    left if the end is reached. -/
def runList : List Stmt → ℕ → (String → Option ℤ) → (String → Option ℤ) × Option ℕ
  | [], left, env => (env, some left)
  | .delay n :: r, left, env => if left < n then (env, none) else runList r (left - n) env
  | .set x f :: r, left, env => runList r left (fun y => if y = x then f env else env y)

/-- `Forever` (core/vtypes.py:2278-2282, verilog/to_verilog.py:852-857), at most `fuel` times; `none` if the time is not used up then. -/
def runForever (body : List Stmt) : ℕ → ℕ → (String → Option ℤ) → Option (String → Option ℤ)
  | 0, _, _ => none
  | fuel + 1, left, env =>
    match runList body left env with
    | (env', none) => some env'
    | (env', some left') => runForever body fuel left' env'

/-- `!x` (`vtypes.Not`, simulation/simulation.py:64). -/
def lnot : Option ℤ → Option ℤ
  | none => none
  | some v => some (if v = 0 then 1 else 0)

/-- The block of `setup_clock` after time `t` (simulation/simulation.py:61-65), everything that happens at `t` included.  A body without a
    delay never lets time pass: `none`. -/
def clockAt (clk : String) (hperiod t : ℕ) : Option (String → Option ℤ) :=
  match runList [.set clk fun _ => some 0] t (fun _ => none) with
  | (env, none) => some env
  | (env, some left) => runForever [.delay hperiod, .set clk fun env => lnot (env clk)] (t + 1) left env

/-- `reset(b)` for a Python Boolean (simulation/simulation.py:82-87, verilog/to_verilog.py:131-134). -/
def setBool (x : String) (b : Bool) : Stmt := .set x fun _ => some (if b then 1 else 0)

/-- The block of `setup_reset` (simulation/simulation.py:76-88). -/
def resetBlock (reset : String) (statement : List Stmt) (period : ℕ) (positive : Bool) : List Stmt :=
  setBool reset (!positive) :: statement ++
    [.delay period, setBool reset positive, .delay period, setBool reset (!positive)]

/-- The values of that block after time `t` (simulation/simulation.py:81-88), everything that happens at `t` included. -/
def resetAt (reset : String) (statement : List Stmt) (period : ℕ) (positive : Bool) (t : ℕ) : String → Option ℤ :=
  (runList (resetBlock reset statement period positive) t (fun _ => none)).1

/-- The objects `to_verilator_cpp` looks at for initial values: the registers that are the keys of `verilator_reset_statements`, and
    assignments (simulation/simulation.py:99-102, 458-465). -/
inductive Obj
  | reg (name : String)
  | subst (left : String) (right : ℤ)

/-- `setup_reset` on `verilator_reset_statements` (simulation/simulation.py:96-102): the statements are added to the entry of the reset. -/
def addStatements : List (String × List Obj) → String → List Obj → List (String × List Obj)
  | [], rst, ss => [(rst, ss)]
  | (r, l) :: d, rst, ss => if r = rst then (r, l ++ ss) :: d else (r, l) :: addStatements d rst ss

/-- `for init in inits_list: if isinstance(init, vtypes.Subst)` (simulation/simulation.py:458-465): iteration over a dictionary is over its
    keys. -/
def initsOf (d : List (String × List Obj)) : List (String × ℤ) :=
  (d.map fun kv => Obj.reg kv.1).filterMap fun o =>
    match o with
    | .subst l r => some (l, r)
    | .reg _ => none

/-- What the rendered program is made from (simulation/simulation.py:445-501): clocks with half periods, resets with period and polarity,
    the other inputs, initial values, and `sim_time`. -/
structure Bench where
  clks : List (String × ℕ)
  rsts : List (String × ℕ × Bool)
  inits : List (String × ℤ)
  inputs : List String
  simTime : ℕ

/-- `time_step` (simulation/simulation.py:472-487). -/
def Bench.step (b : Bench) : ℕ :=
  match b.clks.map Prod.snd ++ b.rsts.map fun r => r.2.1 with
  | [] => 1
  | a :: l => l.foldl Nat.gcd a

/-- `top->x = v` (simulation/verilator_template.cpp:35-50). -/
def put (env : String → ℤ) (x : String) (v : ℤ) : String → ℤ := fun y => if y = x then v else env y

/-- The assignments before the loop (simulation/verilator_template.cpp:35-50). -/
def Bench.init (b : Bench) : String → ℤ :=
  let e := b.clks.foldl (fun e c => put e c.1 0) (fun _ => 0)
  let e := b.rsts.foldl (fun e r => put e r.1 (if r.2.2 then 0 else 1)) e
  let e := b.inits.foldl (fun e i => put e i.1 i.2) e
  b.inputs.foldl (fun e x => put e x 0) e

/-- One clock in the loop (simulation/verilator_template.cpp:53-57). -/
def tick (t : ℕ) (e : String → ℤ) (c : String × ℕ) : String → ℤ :=
  if t % c.2 = 0 then put e c.1 (if e c.1 = 0 then 1 else 0) else e

/-- One reset in the loop (simulation/verilator_template.cpp:59-66). -/
def tock (t : ℕ) (e : String → ℤ) (r : String × ℕ × Bool) : String → ℤ :=
  let e := if t = r.2.1 then put e r.1 (if r.2.2 then 1 else 0) else e
  if t = r.2.1 * 2 then put e r.1 (if r.2.2 then 0 else 1) else e

/-- The assignments of the loop before `top->eval()` at time `t` (simulation/verilator_template.cpp:52-73). -/
def Bench.body (b : Bench) (t : ℕ) (e : String → ℤ) : String → ℤ :=
  b.inputs.foldl (fun e x => put e x 0) (b.rsts.foldl (tock t) (b.clks.foldl (tick t) e))

/-- The inputs of the `n`-th `top->eval()`, which is at time `n * step` (simulation/verilator_template.cpp:52-85). -/
def Bench.evalAt (b : Bench) : ℕ → String → ℤ
  | 0 => b.body 0 b.init
  | n + 1 => b.body ((n + 1) * b.step) (b.evalAt n)

/-- Whether the `n`-th evaluation is reached (simulation/verilator_template.cpp:79-82): the loop is left after an evaluation at
    `MAX_SIM_TIME` or later, if that is not 0. -/
def Bench.reached (b : Bench) : ℕ → Bool
  | 0 => true
  | n + 1 => b.reached n && !(decide (b.simTime > 0) && decide (n * b.step ≥ b.simTime))

end TBench
