import Verif.Model.Hdl

/-!
# Model of `seq/seq.py`

The builder object: every API call is a function from builder state to builder state, `none` where
Python raises.  Not modelled: `make_module` (`as_module=True`), `update` (see `SeqUpdate`), keyword arguments given
directly to `add`/`__call__` (the chained form `If/Delay/Keep/LazyCond/EagerVal` sets the same
dictionary), conditions that are themselves managers, conditions `None` inside `If`/`Elif`,
`Prev` of an expression (which first goes through a wire).
-/

namespace Hdl

/-- `next_kwargs` (seq/seq.py:95): attributes of the next statement. -/
structure Kwargs where
  cond : Option Expr := none
  delay : Option Nat := none
  keep : Option Nat := none
  lazyCond : Option Bool := none
  eagerVal : Option Bool := none

/-- `has_args` (seq/seq.py:110-111): some attribute other than `cond` is present. -/
def Kwargs.hasArgs (k : Kwargs) : Bool :=
  k.delay.isSome || k.keep.isSome || k.lazyCond.isSome || k.eagerVal.isSome

/-- An entry of `self.body`: a statement given by the user, or an `If` object created by the
    manager, which later `Elif`/`Else` calls may still extend (seq/seq.py:113-127, 661-665). -/
inductive Item
  | plain (c : Code)
  | chain (branches : List (Expr × Code)) (els : Option Code)

/-- The statement an entry stands for (seq/seq.py:103-137). -/
def Item.code : Item → Code
  | .plain c => c
  | .chain bs e => chainCode bs e

/-- State of a `Seq` object (seq/seq.py:72-97).  `lastIf` is the position in `body` of the object
    referenced by `last_if_statement`; of `last_kwargs` only `delay` is ever read; `delayed_body`
    is kept as one list in insertion order; `modTmp` stands for the counter of the module that
    names `TmpReg`s. -/
structure SeqSt where
  name : String
  tmpCount : Nat := 0
  modTmp : Nat := 0
  delayed : List (Nat × Code) := []
  prevDict : List ((String × Nat) × Reg) := []
  body : List Item := []
  dstVar : List Reg := []
  lastCond : List Expr := []
  lastDelay : Option Nat := none
  lastIf : Option Nat := none
  nextElse : Bool := false
  elifCond : Option Expr := none
  next : Kwargs := {}

/-- `make_condition` (seq/seq.py:30-51) and `_make_cond` (730-737): the conjunction of a list of
    conditions, `None` for the empty list. -/
def makeCond : List Expr → Option Expr
  | [] => none
  | c :: cs => some (cs.foldl Expr.and c)

namespace SeqSt

/-- `_add_dst_var` (seq/seq.py:671-677): first occurrence of each name is kept. -/
def addDst (s : SeqSt) : List Reg → SeqSt
  | [] => s
  | r :: rs =>
    addDst (if s.dstVar.any (fun d => d.name = r.name) then s
            else { s with dstVar := s.dstVar ++ [r] }) rs

/-- Appending to `self.body` and registering the targets (seq/seq.py:665-666). -/
def pushBody (s : SeqSt) (it : Item) : SeqSt :=
  addDst { s with body := s.body ++ [it] } it.code.targets

/-- Appending to `self.delayed_body[d]` and registering the targets (seq/seq.py:656-657). -/
def pushDelayed (s : SeqSt) (d : Nat) (c : Code) : SeqSt :=
  addDst { s with delayed := s.delayed ++ [(d, c)] } c.targets

/-- `_add_statement([c], delay=d, no_delay_cond=True)` (seq/seq.py:621-668 with these arguments,
    as called at 687 and 712). -/
def pushRaw (s : SeqSt) (d : Nat) (c : Code) : SeqSt :=
  if d = 0 then s.pushBody (.plain c) else s.pushDelayed d c

/-- Register `i` of the condition pipeline number `k` (seq/seq.py:681-686): one bit, initial
    value 0. -/
def condReg (owner : String) (k i : Nat) : Reg := ⟨.cond owner k i, 1, false, some 0⟩

/-- The loops of `_add_delayed_cond` (seq/seq.py:684-688) and `_add_delayed_subst` (709-713), which
    differ only in the register they create: from stage `i`, with `m` stages to go. -/
def pipeLoop (reg : Nat → Reg) : Nat → Nat → Expr → SeqSt → Expr × SeqSt
  | 0, _, prev, s => (prev, s)
  | m + 1, i, prev, s =>
    pipeLoop reg m (i + 1) (.var (reg (i + 1)).name) (s.pushRaw i (.subst (reg (i + 1)) prev))

/-- `_add_delayed_cond` (seq/seq.py:680-689). -/
def addDelayedCond (s : SeqSt) (c : Expr) (delay : Nat) : Expr × SeqSt :=
  pipeLoop (condReg s.name s.tmpCount) delay 0 c { s with tmpCount := s.tmpCount + 1 }

/-- Register `i` of the value pipeline number `k` (seq/seq.py:704-711): width and signedness of the
    assigned register, initial value 0. -/
def sbstReg (owner : String) (left : Reg) (k i : Nat) : Reg :=
  ⟨.sbst owner k i, left.width, left.signed, some 0⟩

/-- `_add_delayed_subst` (seq/seq.py:692-714): only assignments with a non-constant right-hand side
    get a value pipeline. -/
def addDelayedSubst (s : SeqSt) (c : Code) (delay : Nat) : Code × SeqSt :=
  match c with
  | .subst left (.fn f) =>
    let (prev, s') := pipeLoop (sbstReg s.name left s.tmpCount) delay 0 (.fn f)
      { s with tmpCount := s.tmpCount + 1 }
    (.subst left prev, s')
  | c => (c, s)

/-- The list comprehension over the statements at seq/seq.py:637-638. -/
def addDelayedSubsts (s : SeqSt) : List Code → Nat → List Code × SeqSt
  | [], _ => ([], s)
  | c :: cs, delay =>
    let (c', s1) := s.addDelayedSubst c delay
    let (cs', s2) := s1.addDelayedSubsts cs delay
    (c' :: cs', s2)

/-- The delayed branch of `_add_statement` (seq/seq.py:635-659), `delay > 0`. -/
def addDelayed (s : SeqSt) (stmts : List Code) (delay : Nat) (cond : Option Expr)
    (lz eager : Bool) : SeqSt :=
  let (stmts', s1) := if eager then s.addDelayedSubsts stmts delay else (stmts, s)
  let c := cond.getD (.int 1)
  let (g, s2) :=
    if lz then
      let (t, s') := s1.addDelayedCond (.int 1) delay
      (match c with
        | .int 1 => t
        | c => Expr.and t c, s')
    else s1.addDelayedCond c delay
  s2.pushDelayed delay (.ite g (Code.block stmts') .skip)

/-- `_add_statement` without `keep` (seq/seq.py:635-668). -/
def addStatement1 (s : SeqSt) (stmts : List Code) (delay : Nat) (cond : Option Expr)
    (lz eager : Bool) : SeqSt :=
  if delay = 0 then
    match cond with
    | some c =>
      { s with lastIf := some s.body.length }.pushBody (.chain [(c, Code.block stmts)] none)
    | none => stmts.foldl (fun s c => s.pushBody (.plain c)) s
  else s.addDelayed stmts delay cond lz eager

/-- `_add_statement` (seq/seq.py:621-668); `keep = m` repeats the statement with delays
    `delay, delay+1, ..., delay+m-1` (626-633). -/
def addStatement (s : SeqSt) (stmts : List Code) (kw : Kwargs) : SeqSt :=
  let d := kw.delay.getD 0
  let lz := kw.lazyCond.getD false
  let eager := kw.eagerVal.getD false
  match kw.keep with
  | some m =>
    (List.range m).foldl (fun s i => s.addStatement1 stmts (d + i) kw.cond lz eager) s
  | none => s.addStatement1 stmts d kw.cond lz eager

/-- Adding a branch to the `If` object at position `i` of the body (`If.Elif` followed by the call
    with the statements, core/vtypes.py:2000-2015, used at seq/seq.py:114-115).  An object that has
    an else branch already would raise; `last_if_statement` never refers to such an object
    (`SeqSt.Inv.lastIf`), so that case is left without effect here. -/
def extendElif (s : SeqSt) (i : Nat) (c : Expr) (b : Code) : SeqSt :=
  addDst { s with body := s.body.modify i fun it => match it with
    | .chain bs none => .chain (bs ++ [(c, b)]) none
    | it => it } b.targets

/-- Adding the else branch to the `If` object at position `i` (core/vtypes.py:1993-1998, used at
    seq/seq.py:122-123); the same remark applies. -/
def extendElse (s : SeqSt) (i : Nat) (b : Code) : SeqSt :=
  addDst { s with body := s.body.modify i fun it => match it with
    | .chain bs none => .chain bs (some b)
    | it => it } b.targets

/-- `add` (seq/seq.py:109-130) after the attributes `kw` have been collected.  With an `Elif` or
    `Else` pending but no current `If` object Python raises `AttributeError` (114, 122): `none`. -/
def addKw (s : SeqSt) (kw : Kwargs) (stmts : List Code) : Option SeqSt :=
  match s.elifCond, kw.hasArgs with
  | some c, false =>
    match s.lastIf with
    | some i => some { s.extendElif i c (Code.block stmts) with elifCond := none }
    | none => none
  | _, _ =>
    if s.nextElse && !kw.hasArgs then
      match s.lastIf with
      | some i => some { s.extendElse i (Code.block stmts) with
          lastIf := none, nextElse := false, elifCond := none }
      | none => none
    else
      some ({ s with lastIf := none, nextElse := false }.addStatement stmts kw)

/-- `add` (seq/seq.py:103-130), called through `__call__`. -/
def add (s : SeqSt) (stmts : List Code) : Option SeqSt :=
  { s with lastDelay := s.next.delay, next := {} }.addKw s.next stmts

/-- `If` (seq/seq.py:196-212). -/
def iff (s : SeqSt) (conds : List Expr) : SeqSt :=
  let s := { s with elifCond := none }
  match makeCond conds with
  | none => s
  | some c =>
    let c' := match s.next.cond with
      | none => c
      | some old => Expr.and old c
    { s with next := { s.next with cond := some c' }, lastCond := [c'] }

/-- `Then` (seq/seq.py:270-274). -/
def thn (s : SeqSt) : SeqSt :=
  { s with lastCond := [] }.iff (makeCond s.lastCond).toList

/-- `last_cond[-1] = Not(last_cond[-1])` (seq/seq.py:221-222). -/
def negLast (l : List Expr) : List Expr :=
  match l.getLast? with
  | none => l
  | some c => l.dropLast ++ [Expr.not c]

/-- `Else` (seq/seq.py:215-240). -/
def els (s : SeqSt) : Option SeqSt :=
  let s := { s with elifCond := none }
  if s.lastCond = [] then none else
  let lc := negLast s.lastCond
  let s := { s with lastCond := lc }
  if s.lastDelay.getD 0 > 0 then some { s.thn with lastCond := lc }
  else match s.lastIf with
    | none => none
    | some _ => some { s with nextElse := true, next := { s.next with cond := makeCond lc } }

/-- `Elif` (seq/seq.py:242-268), with at least one condition. -/
def elif (s : SeqSt) (c : Expr) (cs : List Expr) : Option SeqSt :=
  if s.lastCond = [] then none else
  let cond := cs.foldl Expr.and c
  let lc := negLast s.lastCond ++ [cond]
  let s := { s with lastCond := lc }
  if s.lastDelay.getD 0 > 0 then some { s.thn with lastCond := lc }
  else match s.lastIf with
    | none => none
    | some _ =>
      some { s with elifCond := some cond, next := { s.next with cond := makeCond lc } }

/-- Lookup in `prev_dict` (seq/seq.py:171, 184). -/
def lookupPrev (s : SeqSt) (key : String × Nat) : Option Reg :=
  (s.prevDict.find? fun e => e.1 = key).map Prod.snd

/-- The register created by `Prev` for stage `i` (seq/seq.py:187-188). -/
def prevReg (pfx : String) (var : Reg) (init : Int) (i : Nat) : Reg :=
  ⟨.prev pfx i, var.width, var.signed, some init⟩

/-- The loop of `Prev` without condition (seq/seq.py:175, 183-191) from stage `i`, `m` to go. -/
def prevLoop (pfx : String) (var : Reg) (init : Int) : Nat → Nat → Reg → SeqSt → Reg × SeqSt
  | 0, _, p, s => (p, s)
  | m + 1, i, p, s =>
    match s.lookupPrev (pfx, i + 1) with
    | some r => prevLoop pfx var init m (i + 1) r s
    | none =>
      let r := prevReg pfx var init (i + 1)
      let s := { s with prevDict := s.prevDict ++ [((pfx, i + 1), r)] }
      prevLoop pfx var init m (i + 1) r (s.pushBody (.plain (.subst r (.var p.name))))

/-- The loop of `Prev` with a condition (seq/seq.py:175-180); `_add_statement` with `cond` also
    sets `last_if_statement` (663). -/
def prevCondLoop (var : Reg) (init : Int) (c : Expr) : Nat → Reg → SeqSt → Reg × SeqSt
  | 0, p, s => (p, s)
  | m + 1, p, s =>
    let r : Reg := ⟨.tmp s.modTmp, var.width, var.signed, some init⟩
    let s := { s with modTmp := s.modTmp + 1 }
    prevCondLoop var init c m r
      ({ s with lastIf := some s.body.length }.pushBody
        (.chain [(c, .block [.subst r (.var p.name)])] none))

/-- `Prev` of a variable (seq/seq.py:139-193).  `pfx` is `prefix + var.name` (166). -/
def prev (s : SeqSt) (pfx : String) (var : Reg) (delay : Nat) (init : Int) (cond : Option Expr) :
    Reg × SeqSt :=
  if delay = 0 then (var, s) else
  match s.lookupPrev (pfx, delay) with
  | some r => (r, s)
  | none =>
    match cond with
    | none => prevLoop pfx var init delay 0 var s
    | some c => prevCondLoop var init c delay var s

/-- `add_reset` (seq/seq.py:133-136). -/
def addReset (s : SeqSt) (r : Reg) : SeqSt := s.addDst [r]

/-- `Clear` (seq/seq.py:292-297). -/
def clear (s : SeqSt) : SeqSt :=
  { s with next := {}, lastIf := none, nextElse := false, lastCond := [], elifCond := none }

/-- `delayed_body[d]` (seq/seq.py:80, 656). -/
def delayedAt (s : SeqSt) (d : Nat) : List Code :=
  s.delayed.filterMap fun e => if e.1 = d then some e.2 else none

/-- The largest key of `delayed_body` (0 if there is none) (seq/seq.py:604). -/
def maxDelay (s : SeqSt) : Nat := s.delayed.foldl (fun m e => max m e.1) 0

/-- `make_code` (seq/seq.py:601-609): delayed statements by decreasing delay, then the body. -/
def makeCode (s : SeqSt) : List Code :=
  ((List.range (s.maxDelay + 1)).reverse.flatMap fun d => s.delayedAt d) ++ s.body.map Item.code

/-- `make_reset` (seq/seq.py:612-618) with `ResetVisitor` (seq/reset_visitor.py:26-29). -/
def makeReset (s : SeqSt) : List Code :=
  s.dstVar.filterMap fun r => r.init.map fun v => .subst r (.int v)

/-- `make_always` (seq/seq.py:371-393): the block executed at each positive clock edge. -/
def always (s : SeqSt) (rst : Option Expr) : Code :=
  match rst with
  | none => Code.block s.makeCode
  | some r =>
    if s.makeReset = [] then Code.block s.makeCode
    else .ite r (Code.block s.makeReset) (Code.block s.makeCode)

end SeqSt

/-- The API calls on a `Seq` (seq/seq.py:139-297, 740). -/
inductive SeqOp
  | iff (conds : List Expr)
  | els
  | elif (c : Expr) (cs : List Expr)
  | thn
  | delay (n : Nat)
  | keep (n : Nat)
  | lazyCond (b : Bool)
  | eagerVal (b : Bool)
  | clear
  | add (stmts : List Code)
  | prev (pfx : String) (var : Reg) (delay : Nat) (init : Int) (cond : Option Expr)
  | addReset (r : Reg)

/-- One API call (`Delay`, `Keep`, `LazyCond`, `EagerVal`: seq/seq.py:276-290). -/
def SeqOp.apply (s : SeqSt) : SeqOp → Option SeqSt
  | .iff cs => some (s.iff cs)
  | .els => s.els
  | .elif c cs => s.elif c cs
  | .thn => some s.thn
  | .delay n => some { s with next := { s.next with delay := some n } }
  | .keep n => some { s with next := { s.next with keep := some n } }
  | .lazyCond b => some { s with next := { s.next with lazyCond := some b } }
  | .eagerVal b => some { s with next := { s.next with eagerVal := some b } }
  | .clear => some s.clear
  | .add stmts => s.add stmts
  | .prev pfx v n i c => some (s.prev pfx v n i c).2
  | .addReset r => some (s.addReset r)

/-- A sequence of API calls (seq/seq.py:139-297, 740). -/
def SeqSt.applyAll (s : SeqSt) : List SeqOp → Option SeqSt
  | [] => some s
  | op :: ops => (op.apply s).bind fun s' => s'.applyAll ops

/-- `Seq(m, name, clk, rst)` (seq/seq.py:72-97). -/
def SeqSt.fresh (name : String) : SeqSt := { name := name }

end Hdl
