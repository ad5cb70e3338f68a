import Verif.Model.Seq

/-!
# Model of `fsm/fsm.py`

The builder object `FSM`: every API call is a function from builder state to builder state, `none`
where Python raises.  Not modelled: `make_module` (`as_module=True`), keyword arguments given
directly to `add`/`__call__`, state marks given as `Localparam` objects instead of integers
(`_to_index`), negative state numbers, the `State` wrapper (which only calls `When` first),
conditions that are themselves managers, extra `reset`/`body` statements handed to `make_always`.
-/

namespace Hdl

/-- `next_kwargs` of an FSM (fsm/fsm.py:80, 316-318): as for `Seq`, and the state given by `When`. -/
structure FKwargs extends Kwargs where
  index : Option Nat := none

/-- An entry of `self.jump[src]` (fsm/fsm.py:765-766): destination, condition, else destination. -/
structure Jump where
  dst : Nat
  cond : Option Expr := none
  elseDst : Option Nat := none

/-- State of an `FSM` object (fsm/fsm.py:43-85).  `code` holds `self.body` (delay 0) and
    `self.delayed_body` as one list of entries `((delay, state), item)` in insertion order; `jumps`
    holds `self.jump` the same way; `lastIf` is the position in `code` of the object referenced by
    `last_if_statement`; of `last_kwargs` only `delay` is ever read; `cur` is `state_count`. -/
structure FsmSt where
  name : String
  width : Nat
  cur : Nat := 0
  code : List ((Nat × Nat) × Item) := []
  jumps : List (Nat × Jump) := []
  delayAmount : Nat := 0
  tmpCount : Nat := 0
  dstVar : List Reg := []
  seq : SeqSt
  lastCond : List Expr := []
  lastDelay : Option Nat := none
  lastIf : Option Nat := none
  nextElse : Bool := false
  elifCond : Option Expr := none
  next : FKwargs := {}

namespace FsmSt

/-- The state register (fsm/fsm.py:51-55), initial value the mark of state 0. -/
def stateReg (s : FsmSt) : Reg := ⟨.state s.name, s.width, false, some 0⟩

/-- The state register `d` edges ago: `_get_delayed_state` (fsm/fsm.py:962-967) of the registers
    created by `_add_delayed_state` (954-957). -/
def dstateReg (s : FsmSt) : Nat → Reg
  | 0 => s.stateReg
  | d + 1 => ⟨.dstate s.name (d + 1), s.width, false, some 0⟩

/-- `_add_dst_var` (fsm/fsm.py:822-828): first occurrence of each name is kept. -/
def addDst (s : FsmSt) : List Reg → FsmSt
  | [] => s
  | r :: rs =>
    addDst (if s.dstVar.any (fun d => d.name = r.name) then s
            else { s with dstVar := s.dstVar ++ [r] }) rs

/-- Appending to `self.body[i]` (`d = 0`, fsm/fsm.py:816-817) or to `self.delayed_body[d][i]`
    (807-808), after `_add_delayed_state(d)` (785, 940-960). -/
def push (s : FsmSt) (d i : Nat) (it : Item) : FsmSt :=
  addDst { s with code := s.code ++ [((d, i), it)], delayAmount := max s.delayAmount d }
    it.code.targets

/-- Register `i` of the condition pipeline number `k` (fsm/fsm.py:832-838; the name also contains
    the state, which is left out because the number is unique). -/
def condReg (owner : String) (k i : Nat) : Reg := ⟨.cond owner k i, 1, false, some 0⟩

/-- Register `i` of the value pipeline number `k` (fsm/fsm.py:853-864). -/
def sbstReg (owner : String) (left : Reg) (k i : Nat) : Reg :=
  ⟨.sbst owner k i, left.width, left.signed, some 0⟩

/-- The loops of `_add_delayed_cond` (fsm/fsm.py:835-842) and `_add_delayed_subst` (855-866): from
    stage `i`, with `m` stages to go.  The stages are added with `index=None`, that is to the
    current state `self.current`, whatever state the statement itself is for (840, 865). -/
def pipeLoop (reg : Nat → Reg) : Nat → Nat → Expr → FsmSt → Expr × FsmSt
  | 0, _, prev, s => (prev, s)
  | m + 1, i, prev, s =>
    pipeLoop reg m (i + 1) (.var (reg (i + 1)).name)
      (s.push i s.cur (.plain (.subst (reg (i + 1)) prev)))

/-- `_add_delayed_cond` (fsm/fsm.py:831-842). -/
def addDelayedCond (s : FsmSt) (c : Expr) (delay : Nat) : Expr × FsmSt :=
  pipeLoop (condReg s.name s.tmpCount) delay 0 c { s with tmpCount := s.tmpCount + 1 }

/-- `_add_delayed_subst` (fsm/fsm.py:845-867). -/
def addDelayedSubst (s : FsmSt) (c : Code) (delay : Nat) : Code × FsmSt :=
  match c with
  | .subst left (.fn f) =>
    let (prev, s') := pipeLoop (sbstReg s.name left s.tmpCount) delay 0 (.fn f)
      { s with tmpCount := s.tmpCount + 1 }
    (.subst left prev, s')
  | c => (c, s)

/-- The list comprehension over the statements at fsm/fsm.py:788-789. -/
def addDelayedSubsts (s : FsmSt) : List Code → Nat → List Code × FsmSt
  | [], _ => ([], s)
  | c :: cs, delay =>
    let (c', s1) := s.addDelayedSubst c delay
    let (cs', s2) := s1.addDelayedSubsts cs delay
    (c' :: cs', s2)

/-- The delayed branch of `_add_statement` (fsm/fsm.py:784-810), `delay > 0`, for state `index`. -/
def addDelayed (s : FsmSt) (stmts : List Code) (index delay : Nat) (cond : Option Expr)
    (lz eager : Bool) : FsmSt :=
  let (stmts', s1) := if eager then s.addDelayedSubsts stmts delay else (stmts, s)
  let c := cond.getD (.int 1)
  let (g, s2) :=
    if lz then
      let (t, s') := s1.addDelayedCond (.int 1) delay
      (match c with
        | .int 1 => t
        | c => Expr.and t c, s')
    else s1.addDelayedCond c delay
  s2.push delay index (.plain (.ite g (Code.block stmts') .skip))

/-- `_add_statement` without `keep` (fsm/fsm.py:784-819), for state `index`. -/
def addStatement1 (s : FsmSt) (stmts : List Code) (index delay : Nat) (cond : Option Expr)
    (lz eager : Bool) : FsmSt :=
  if delay = 0 then
    match cond with
    | some c =>
      { s with lastIf := some s.code.length }.push 0 index (.chain [(c, Code.block stmts)] none)
    | none => stmts.foldl (fun s c => s.push 0 index (.plain c)) s
  else s.addDelayed stmts index delay cond lz eager

/-- `_add_statement` (fsm/fsm.py:769-819). -/
def addStatement (s : FsmSt) (stmts : List Code) (kw : FKwargs) : FsmSt :=
  let index := kw.index.getD s.cur
  let d := kw.delay.getD 0
  let lz := kw.lazyCond.getD false
  let eager := kw.eagerVal.getD false
  match kw.keep with
  | some m =>
    (List.range m).foldl (fun s i => s.addStatement1 stmts index (d + i) kw.cond lz eager) s
  | none => s.addStatement1 stmts index d kw.cond lz eager

/-- Adding a branch to the `If` object at position `i` (core/vtypes.py:2000-2015, used at
    fsm/fsm.py:187-190); see the remark at `SeqSt.extendElif`. -/
def extendElif (s : FsmSt) (i : Nat) (c : Expr) (b : Code) : FsmSt :=
  addDst { s with code := s.code.modify i fun e => match e with
    | (k, .chain bs none) => (k, .chain (bs ++ [(c, b)]) none)
    | e => e } b.targets

/-- Adding the else branch to the `If` object at position `i` (core/vtypes.py:1993-1998, used at
    fsm/fsm.py:195-197). -/
def extendElse (s : FsmSt) (i : Nat) (b : Code) : FsmSt :=
  addDst { s with code := s.code.modify i fun e => match e with
    | (k, .chain bs none) => (k, .chain bs (some b))
    | e => e } b.targets

/-- `add` (fsm/fsm.py:179-203) after the attributes `kw` have been collected.  With an `Elif` or
    `Else` pending but no current `If` object Python raises `AttributeError`: `none`. -/
def addKw (s : FsmSt) (kw : FKwargs) (stmts : List Code) : Option FsmSt :=
  match s.elifCond, kw.hasArgs with
  | some c, false =>
    match s.lastIf with
    | some i => some { s.extendElif i c (Code.block stmts) with elifCond := none }
    | none => none
  | _, _ =>
    if s.nextElse && !kw.hasArgs then
      match s.lastIf with
      | some i => some { s.extendElse i (Code.block stmts) with
          lastIf := none, nextElse := false, elifCond := none }
      | none => none
    else
      some ({ s with lastIf := none, nextElse := false }.addStatement stmts kw)

/-- `add` (fsm/fsm.py:173-203), called through `__call__`. -/
def add (s : FsmSt) (stmts : List Code) : Option FsmSt :=
  { s with lastDelay := s.next.delay, next := {} }.addKw s.next stmts

/-- `If` (fsm/fsm.py:214-230). -/
def iff (s : FsmSt) (conds : List Expr) : FsmSt :=
  let s := { s with elifCond := none }
  match makeCond conds with
  | none => s
  | some c =>
    let c' := match s.next.cond with
      | none => c
      | some old => Expr.and old c
    { s with next := { s.next with cond := some c' }, lastCond := [c'] }

/-- `Then` (fsm/fsm.py:294-298). -/
def thn (s : FsmSt) : FsmSt :=
  { s with lastCond := [] }.iff (makeCond s.lastCond).toList

/-- `Else` (fsm/fsm.py:233-261): unlike `Seq.Else` it does not raise when the last statement was
    not an `If` object (it then only sets the condition, for use by `goto`). -/
def els (s : FsmSt) : Option FsmSt :=
  let s := { s with elifCond := none }
  if s.lastCond = [] then none else
  let lc := SeqSt.negLast s.lastCond
  let s := { s with lastCond := lc }
  if s.lastDelay.getD 0 > 0 then some { s.thn with lastCond := lc }
  else some { s with nextElse := s.nextElse || s.lastIf.isSome,
                     next := { s.next with cond := makeCond lc } }

/-- `Elif` (fsm/fsm.py:263-292), with at least one condition. -/
def elif (s : FsmSt) (c : Expr) (cs : List Expr) : Option FsmSt :=
  if s.lastCond = [] then none else
  let cond := cs.foldl Expr.and c
  let lc := SeqSt.negLast s.lastCond ++ [cond]
  let s := { s with lastCond := lc }
  if s.lastDelay.getD 0 > 0 then some { s.thn with lastCond := lc }
  else some { s with elifCond := if s.lastIf.isSome then some cond else s.elifCond,
                     next := { s.next with cond := makeCond lc } }

/-- `goto` (fsm/fsm.py:88-108); `goto_init` (110-131) is `goto 0` without else destination. -/
def goto (s : FsmSt) (dst : Nat) (cond : Option Expr) (elseDst : Option Nat) : FsmSt :=
  let c := match cond with
    | some c => some c
    | none => s.next.cond
  { s with next := {}, jumps := s.jumps ++ [(s.next.index.getD s.cur, ⟨dst, c, elseDst⟩)] }

/-- `_set_index` (fsm/fsm.py:893-904): `set_index`, and `inc` with no argument. -/
def setIndex (s : FsmSt) (i : Nat) : FsmSt :=
  { s with next := {}, lastIf := none, nextElse := false, lastCond := [], elifCond := none,
           cur := i }

/-- `goto_next` (fsm/fsm.py:133-155): the destination is one past the source state, and the current
    state is advanced by one. -/
def gotoNext (s : FsmSt) (cond : Option Expr) : FsmSt :=
  let s' := s.goto (s.next.index.getD s.cur + 1) cond none
  s'.setIndex (s.cur + 1)

/-- `goto_from` (fsm/fsm.py:157-167). -/
def gotoFrom (s : FsmSt) (src dst : Nat) (cond : Option Expr) (elseDst : Option Nat) : FsmSt :=
  { s with next := { s.next with index := some src } }.goto dst cond elseDst

/-- `Clear` (fsm/fsm.py:325-330). -/
def clear (s : FsmSt) : FsmSt :=
  { s with next := {}, lastIf := none, nextElse := false, lastCond := [], elifCond := none }

/-- `self.body[i]` (`d = 0`) or `self.delayed_body[d][i]` (fsm/fsm.py:57, 62). -/
def at' (s : FsmSt) (d i : Nat) : List Code :=
  s.code.filterMap fun e => if e.1 = (d, i) then some e.2.code else none

/-- `_to_state_assign` (fsm/fsm.py:983-991). -/
def jumpCode (st : Reg) (j : Jump) : Code :=
  match j.cond with
  | none => .subst st (.int j.dst)
  | some c => .ite c (.subst st (.int j.dst))
      (match j.elseDst with
        | none => .skip
        | some e => .subst st (.int e))

/-- `self.jump[i]`, as statements (fsm/fsm.py:1014-1018). -/
def jumpsAt (s : FsmSt) (i : Nat) : List Code :=
  s.jumps.filterMap fun e => if e.1 = i then some (jumpCode s.stateReg e.2) else none

/-- The keys of a dictionary with integer keys, in increasing order (`sorted`, fsm/fsm.py:680,
    685). -/
def sortedKeys (l : List Nat) : List Nat :=
  (List.range (l.foldl max 0 + 1)).filter fun i => i ∈ l

/-- The states for which there is code of delay `d` (`dct.keys()` at fsm/fsm.py:680; for `d = 0`
    also those with jumps, 667-668). -/
def indexes (s : FsmSt) (d : Nat) : List Nat :=
  sortedKeys (s.code.filterMap (fun e => if e.1.1 = d then some e.1.2 else none) ++
    if d = 0 then s.jumps.map Prod.fst else [])

/-- The statements for state `i`: `_get_when_statement` (fsm/fsm.py:1011-1019),
    `_get_delayed_when_statement` (1021-1022). -/
def armCode (s : FsmSt) (d i : Nat) : Code :=
  Code.block (s.at' d i ++ if d = 0 then s.jumpsAt i else [])

/-- `_get_delayed_substs` (fsm/fsm.py:969-975). -/
def delayedSubsts (s : FsmSt) : List Code :=
  (List.range s.delayAmount).map fun d =>
    .subst (s.dstateReg (d + 1)) (.var (s.dstateReg d).name)

/-- One case statement (fsm/fsm.py:677-682 and 684-689).  Python omits it when it has no arms, where
    it would do nothing. -/
def caseAt (s : FsmSt) (d : Nat) : Code :=
  caseCode (.var (s.dstateReg d).name) ((s.indexes d).map fun i : Nat => ((i : Int), s.armCode d i))

/-- `make_case` (fsm/fsm.py:666-691): code of the parallel `Seq`, the delayed state registers, the
    delayed statements by decreasing delay, the statements and jumps of the current state. -/
def makeCase (s : FsmSt) : List Code :=
  s.seq.makeCode ++ s.delayedSubsts ++
    (List.range (s.delayAmount + 1)).reverse.map fun d => s.caseAt d

/-- The `if` statement for one state: `_get_if_statement`, `_get_delayed_if_statement`
    (fsm/fsm.py:999-1009, 1024-1035). -/
def ifAt (s : FsmSt) (d i : Nat) : Code :=
  .ite (.fn fun env => if env (s.dstateReg d).name = (i : Int) then 1 else 0) (s.armCode d i) .skip

/-- `make_if` (fsm/fsm.py:693-711). -/
def makeIf (s : FsmSt) : List Code :=
  s.seq.makeCode ++ s.delayedSubsts ++
    (List.range (s.delayAmount + 1)).reverse.flatMap fun d => (s.indexes d).map fun i => s.ifAt d i

/-- The registers `make_reset` goes through, in its order (fsm/fsm.py:725-752). -/
def resetRegs (s : FsmSt) : List Reg :=
  (List.range (s.delayAmount + 1)).map s.dstateReg ++ s.dstVar ++ s.seq.dstVar

/-- The merging done by `make_reset` (fsm/fsm.py:714-754): the first entry with an initial value for each name. -/
def resetList : List Reg → List Var → List Code
  | [], _ => []
  | r :: rs, seen =>
    match r.init with
    | none => resetList rs seen
    | some v =>
      if r.name ∈ seen then resetList rs seen
      else .subst r (.int v) :: resetList rs (r.name :: seen)

/-- `make_reset` (fsm/fsm.py:714-754). -/
def makeReset (s : FsmSt) : List Code := resetList s.resetRegs []

/-- `make_always` (fsm/fsm.py:396-411) with `case=True` or `case=False`. -/
def always (s : FsmSt) (rst : Expr) (useCase : Bool) : Code :=
  .ite rst (Code.block s.makeReset) (Code.block (if useCase then s.makeCase else s.makeIf))

end FsmSt

/-- The API calls on an `FSM`.  `par` are calls on the parallel `Seq` (`fsm.Always`, `fsm.Prev`,
    `fsm.add_reset`; fsm/fsm.py:206-211, 333-335). -/
inductive FsmOp
  | iff (conds : List Expr)
  | els
  | elif (c : Expr) (cs : List Expr)
  | thn
  | delay (n : Nat)
  | keep (n : Nat)
  | lazyCond (b : Bool)
  | eagerVal (b : Bool)
  | whn (i : Nat)
  | clear
  | add (stmts : List Code)
  | goto (dst : Nat) (cond : Option Expr) (elseDst : Option Nat)
  | gotoNext (cond : Option Expr)
  | gotoFrom (src dst : Nat) (cond : Option Expr) (elseDst : Option Nat)
  | inc
  | setIndex (i : Nat)
  | par (op : SeqOp)

/-- One API call (`Delay`, `Keep`, `LazyCond`, `EagerVal`, `When`: fsm/fsm.py:300-318; `inc`,
    `set_index`: 169-170, 757-758). -/
def FsmOp.apply (s : FsmSt) : FsmOp → Option FsmSt
  | .iff cs => some (s.iff cs)
  | .els => s.els
  | .elif c cs => s.elif c cs
  | .thn => some s.thn
  | .delay n => some { s with next := { s.next with delay := some n } }
  | .keep n => some { s with next := { s.next with keep := some n } }
  | .lazyCond b => some { s with next := { s.next with lazyCond := some b } }
  | .eagerVal b => some { s with next := { s.next with eagerVal := some b } }
  | .whn i => some { s with next := { s.next with index := some i } }
  | .clear => some s.clear
  | .add stmts => s.add stmts
  | .goto dst c e => some (s.goto dst c e)
  | .gotoNext c => some (s.gotoNext c)
  | .gotoFrom src dst c e => some (s.gotoFrom src dst c e)
  | .inc => some (s.setIndex (s.cur + 1))
  | .setIndex i => some (s.setIndex i)
  | .par op => (op.apply s.seq).map fun q => { s with seq := q }

/-- A sequence of API calls (program order; each call is one of the methods above, fsm/fsm.py:88-330). -/
def FsmSt.applyAll (s : FsmSt) : List FsmOp → Option FsmSt
  | [] => some s
  | op :: ops => (op.apply s).bind fun s' => s'.applyAll ops

/-- `FSM(m, name, clk, rst, width)` (fsm/fsm.py:43-85). -/
def FsmSt.fresh (name : String) (width : Nat) : FsmSt :=
  { name := name, width := width, seq := SeqSt.fresh (name ++ "_par") }

end Hdl
