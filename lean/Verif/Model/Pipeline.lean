import Verif.Model.Dataflow

/-!
# Model of `Pipeline` (veriloggen/pipeline/pipeline.py)

`Pipeline` builds registers while the user writes expressions: `DataVisitor` visits an expression and inserts registers where
the operands are on different stages.  A pipeline variable is its number in `Pipeline.vars`.  Simplifications:

* the width of a register is part of the function of the register, except for the registers inserted for outputs (`cut`);
* `prev` makes a new chain of registers for each call (no `prev_dict`), with initial value 0;
* registers are not distinguished by signedness; `reset` of a variable, and expressions over signals that are not pipeline variables, are not represented.
-/

namespace Pipe

/-- Expressions over the variables the user holds: pipeline variables, constants, unary operators, and operators the visitor
    treats with `pack` (binary operators, Pointer, Slice, Cat, Repeat, Cond; pipeline.py:610-650). -/
inductive PExpr (V : Type)
  | var (k : ℕ)
  | const (v : V)
  | un (f : V → V) (e : PExpr V)
  | op (n : ℕ) (f : List V → V) (args : Fin n → PExpr V)

/-- What the visitor returns (pipeline.py:598-602): the stage, the data expression, and the variables whose `valid` and
    `ready` it collects. -/
structure Res (V : Type) where
  stage : Option ℕ
  ev : (ℕ → V) → V
  srcs : List ℕ

/-- What drives a variable: an input port (pipeline.py:67-74), a register behind `p` with the valid and ready of `root`
    (`_make_prev`, pipeline.py:302-321), or a register of `_make_tmp` (pipeline.py:212-299) with its function of the data of all
    variables and of its own data, and its operands. -/
inductive Kind (V : Type)
  | input
  | prev (p root : ℕ)
  | reg (f : (ℕ → V) → V → V) (srcs : List ℕ)

/-- A pipeline variable (`_PipelineVariable`, pipeline.py:349-370); `hv`: `valid` is not None; `init`: the value at reset. -/
structure PVar (V : Type) where
  kind : Kind V
  stage : Option ℕ
  hv : Bool
  init : V

/-- The builder: `vars` and `max_stage_id` (pipeline.py:58-59). -/
structure B (V : Type) where
  vars : List (PVar V)
  maxStage : ℕ

section
variable {V : Type} (v0 : V)

/-- What drives variable `k` of `Pipeline.vars` (pipeline.py:59). -/
def kindAt (vars : List (PVar V)) (k : ℕ) : Option (Kind V) := (vars[k]?).map fun v => v.kind

/-- `stage_id` of a variable (pipeline.py:354). -/
def B.stage (b : B V) (k : ℕ) : Option ℕ := (b.vars[k]?).bind (·.stage)

/-- Whether `valid` of a variable is not None (pipeline.py:356). -/
def B.hv (b : B V) (k : ℕ) : Bool := ((b.vars[k]?).map (·.hv)).getD false

/-- Append to `vars` (pipeline.py:73, 90, 196, 393). -/
def B.add (b : B V) (v : PVar V) : ℕ × B V := (b.vars.length, { b with vars := b.vars ++ [v] })

/-- `_make_tmp` and the new variable on the next stage (pipeline.py:81-90, 184-196); the data function gets its own data. -/
def B.addReg (b : B V) (r : Res V) (f : V → V → V) (init : V) : ℕ × B V :=
  b.add ⟨.reg (fun env a => f a (r.ev env)) r.srcs, r.stage.map (· + 1), r.srcs.any b.hv, init⟩

/-- `Pipeline.stage` after the visit (pipeline.py:81-97): a register, and `max_stage_id`. -/
def B.addStage (b : B V) (r : Res V) (g : V → V) : ℕ × B V :=
  let x := b.addReg r (fun _ d => g d) v0
  (x.1, { x.2 with maxStage := match r.stage with | none => b.maxStage | some s => max b.maxStage (s + 1) })

/-- A visit of some expression (pipeline.py:598-656). -/
abbrev Visit (V : Type) := B V → Res V × B V

/-- `visit__PipelineVariable` (pipeline.py:598-602). -/
def visitVar (k : ℕ) : Visit V := fun b => (⟨b.stage k, fun env => env k, [k]⟩, b)

/-- `[self.visit(arg) for arg in args]` (pipeline.py:546, 580). -/
def runAll : List (Visit V) → B V → List (Res V) × B V
  | [], b => ([], b)
  | v :: vs, b =>
    let x := v b
    let y := runAll vs x.2
    (x.1 :: y.1, y.2)

/-- `for i in range(diff): p = self.df.stage(p)` (pipeline.py:572-576): each call visits `p` again. -/
def delays (g : V → V) : ℕ → Visit V → B V → Visit V × B V
  | 0, v, b => (v, b)
  | n + 1, v, b =>
    let x := v b
    let y := x.2.addStage v0 x.1 g
    delays g n (visitVar y.1) y.2

/-- The loop over the operands (pipeline.py:562-578). -/
def align (m : ℕ) : List (Res V × Visit V) → B V → List (Visit V) × B V
  | [], b => ([], b)
  | (r, v) :: rest, b =>
    let x := match r.stage with
      | none => (v, b)
      | some s => delays v0 id (m - s) v b
    let y := align m rest x.2
    (x.1 :: y.1, y.2)

/-- `max_stage` (pipeline.py:556-560): the greatest stage that is not None. -/
def maxStage : List (Res V) → Option ℕ
  | [] => none
  | r :: rs => match r.stage, maxStage rs with
    | none, m => m
    | some s, none => some s
    | some s, some m => some (max s m)

/-- The data, valid and ready of the operands put together (pipeline.py:550-554, 581-585, 610-613). -/
def combine (f : List V → V) (stage : Option ℕ) (rs : List (Res V)) : Res V :=
  ⟨stage, fun env => f (rs.map (·.ev env)), rs.flatMap (·.srcs)⟩

/-- `pack` (pipeline.py:545-585): visit the operands, insert registers, visit the operands again. -/
def pack (f : List V → V) (vs : List (Visit V)) : Visit V := fun b =>
  let x := runAll vs b
  match maxStage x.1 with
  | none => (combine f none x.1, x.2)
  | some m =>
    let y := align v0 m (x.1.zip vs) x.2
    let z := runAll y.1 y.2
    (combine f (some m) z.1, z.2)

/-- `DataVisitor.visit` (pipeline.py:598-656); `us`: the variables the user holds.  A unary operator is visited as its
    operand (pipeline.py:615-616). -/
def visit (us : ℕ → ℕ) : PExpr V → Visit V
  | .var k => visitVar (us k)
  | .const v => fun b => (⟨none, fun _ => v, []⟩, b)
  | .un _ e => visit us e
  | .op n f args => pack v0 f (List.ofFn fun i => visit us (args i))

/-- A call of the user: `input` (pipeline.py:67), `stage` (78), `_accumulate` with the composed operators (181), `prev` (372). -/
inductive Cmd (V : Type)
  | input (hv : Bool)
  | stage (e : PExpr V)
  | acc (f : V → V → V) (init : V) (e : PExpr V)
  | prev (v d : ℕ)

/-- The loop of `prev` (pipeline.py:384-394), without `prev_dict`. -/
def prevs : ℕ → ℕ → B V → ℕ × B V
  | 0, p, b => (p, b)
  | d + 1, p, b =>
    let root := match kindAt b.vars p with
      | some (.prev _ r) => r
      | _ => p
    let x := b.add ⟨.prev p root, b.stage p, b.hv p, v0⟩
    prevs d x.1 x.2

/-- The variables the user holds, as a function (pipeline.py:598-602). -/
def look (us : List ℕ) (k : ℕ) : ℕ := us.getD k 0

/-- One call: the variables the user holds and the builder (pipeline.py:67, 78, 181, 372). -/
def Cmd.run (us : List ℕ) (b : B V) : Cmd V → List ℕ × B V
  | .input hv => let x := b.add ⟨.input, some 0, hv, v0⟩; (us ++ [x.1], x.2)
  | .stage e =>
    let x := visit v0 (look us) e b
    let y := x.2.addStage v0 x.1 id
    (us ++ [y.1], y.2)
  | .acc f init e =>
    let x := visit v0 (look us) e b
    let y := x.2.addReg x.1 f init
    (us ++ [y.1], y.2)
  | .prev v d => let x := prevs v0 d (look us v) b; (us ++ [x.1], x.2)

/-- A program of the user (pipeline.py:67, 78, 181, 372). -/
def build : List (Cmd V) → List ℕ × B V → List ℕ × B V
  | [], x => x
  | c :: cs, x => build cs (c.run v0 x.1 x.2)

/-- The empty pipeline (pipeline.py:50-64). -/
def B.empty : B V := ⟨[], 0⟩

/-- The loop of `make_output` (pipeline.py:404-408): `stage` with the default width of the pipeline (`cut`, 79-80). -/
def outDelay (cut : V → V) : ℕ → ℕ → B V → ℕ × B V
  | 0, k, b => (k, b)
  | n + 1, k, b =>
    let x := visitVar k b
    let y := x.2.addStage v0 x.1 cut
    outDelay cut n y.1 y.2

/-- `make_output` of a variable (pipeline.py:401-430): registers up to `max_stage_id`. -/
def makeOutput (cut : V → V) (k : ℕ) (b : B V) : ℕ × B V :=
  match b.stage k with
  | none => (k, b)
  | some s => outDelay v0 cut (b.maxStage - s) k b

/-- `make_always` (pipeline.py:150-167): `make_output` of the variables that have one. -/
def outputs (cut : V → V) : List ℕ → B V → List ℕ × B V
  | [], b => ([], b)
  | k :: ks, b =>
    let x := makeOutput v0 cut k b
    let y := outputs cut ks x.2
    (x.1 :: y.1, y.2)

/-! ## Clock cycles, without `ready` -/

/-- Input ports of a cycle, by the number of the input variable (pipeline.py:67-74). -/
structure PIn (V : Type) where
  data : ℕ → V
  valid : ℕ → Bool

/-- Registers (pipeline.py:212-299). -/
structure PSt (V : Type) where
  data : ℕ → V
  val : ℕ → Bool

/-- Reset values (pipeline.py:201-204, 213-217). -/
def PSt.init (vars : List (PVar V)) : PSt V := ⟨fun k => ((vars[k]?).map (·.init)).getD v0, fun _ => false⟩

/-- The variable whose `valid` is that of `k` (pipeline.py:302-321). -/
def rootOf (vars : List (PVar V)) (k : ℕ) : ℕ :=
  match kindAt vars k with
  | some (.prev _ r) => r
  | _ => k

/-- `valid` of a variable; None counts as 1 (pipeline.py:531-540). -/
def PSt.valid (vars : List (PVar V)) (i : PIn V) (st : PSt V) (k : ℕ) : Bool :=
  let k := rootOf vars k
  match vars[k]? with
  | none => false
  | some v => !v.hv || (match v.kind with | .input => i.valid k | _ => st.val k)

/-- The data of a variable (pipeline.py:355). -/
def PSt.sig (vars : List (PVar V)) (i : PIn V) (st : PSt V) (k : ℕ) : V :=
  match kindAt vars k with
  | some .input => i.data k
  | _ => st.data k

/-- One clock edge without `ready`: the data if the operands are valid (pipeline.py:237-268), `valid` (272-290), `prev`
    (310-319). -/
def PSt.step (vars : List (PVar V)) (i : PIn V) (st : PSt V) : PSt V where
  data k := match kindAt vars k with
    | some (.reg f srcs) => if srcs.all (st.valid vars i) then f (st.sig vars i) (st.data k) else st.data k
    | some (.prev p root) => if st.valid vars i root then st.sig vars i p else st.data k
    | _ => st.data k
  val k := match kindAt vars k with
    | some (.reg _ srcs) => srcs.all (st.valid vars i)
    | _ => st.val k

/-! ## With `ready`: the handshake is that of `Dataflow` -/

/-- The operand `valid` and data of a variable come from: an input, a register, or an earlier value of one of these (pipeline.py:302-321). -/
def srcOf (vars : List (PVar V)) : ℕ → ℕ → Dataflow.Src × ℕ
  | 0, k => (.var k, 0)
  | n + 1, k => match kindAt vars k with
    | some (.prev p _) => ((srcOf vars n p).1, (srcOf vars n p).2 + 1)
    | some (.reg _ _) => (.op k, 0)
    | _ => (.var k, 0)

/-- The value of operand `s` in a list of operands (pipeline.py:550-554). -/
def pick (srcs : List ℕ) (args : List V) (s : ℕ) : V := ((srcs.zip args).lookup s).getD v0

/-- The registers with `valid` and `ready` (pipeline.py:212-299) as a network of operators of latency 1: `data_cond`
    (237-255), `valid_cond` (272-290) and the ready of the operands (28-44, 292-297) are those of `Dataflow.Node`.  The `ready` of a
    register that nothing uses and that is no output is 1 (368-370).  A variable that is no register stands for an operator without operands that nothing uses. -/
def toNet (vars : List (PVar V)) : Dataflow.Net V V :=
  vars.map fun v => match v.kind with
    | .reg f srcs => ⟨v.init, fun s args => f (pick v0 srcs args) s, id, srcs.map (srcOf vars vars.length), 0⟩
    | _ => ⟨v.init, fun s _ => s, id, [], 0⟩

end

end Pipe
