import Verif.Model.Literal

/-!
# Model of writing and reading Verilog: expressions and statements

`verilog/to_verilog.py` turns veriloggen objects (core/vtypes.py) into the syntax trees of pyverilog
(`pyverilog.vparser.ast`, called `vast` in the code); pyverilog prints them.  `verilog/from_verilog.py` turns
the trees of parsed Verilog into veriloggen objects.  pyverilog itself is not part of the repository and not
modelled: the trees are an inductive type here, with one constructor for each class the code uses.

Not modelled: hierarchical names (`Scope`, `ScopeIndex`), `EmbeddedCode`, `is_raw_value` of `Int`.
`none` stands for a Python exception.
-/

namespace Emit

open Literal

/-! ### Veriloggen objects -/

/-- The operator classes (core/vtypes.py:1047-1530; `Pointer` 1576, `Slice` 1674, `Cond` 1830). -/
inductive VOp
  | power | times | divide | mod | plus | minus | sll | srl | sra
  | lessThan | greaterThan | lessEq | greaterEq | eq | notEq | eql | notEql
  | and | xor | xnor | or | land | lor
  | uplus | uminus | ulnot | unot | uand | unand | uor | unor | uxor | uxnor
  | pointer | slice | cond
  deriving DecidableEq, Repr

/-- Expressions (core/vtypes.py): Python numbers, booleans and strings, `Int`, `Float` (by its text), `Str`,
    a variable or parameter (by its name, to_verilog.py:163-206), operators, `Cat` (1739), `Repeat` (1808),
    `_SkipUnaryOperator` (1042), `FunctionCall` (core/function.py:71), `SystemTask` (core/vtypes.py:2219). -/
inductive VE
  | num (n : Int)
  | bool (b : Bool)
  | lit (o : Lit)
  | flt (s : String)
  | str (s : String)
  | var (x : String)
  | op (o : VOp) (l : List VE)
  | cat (l : List VE)
  | rep (v t : VE)
  | skip (e : VE)
  | call (f : String) (l : List VE)
  | sys (cmd : String) (l : List VE)

/-- Sensitivities (core/vtypes.py:1882-1900); a plain expression is level sensitive. -/
inductive VSens
  | pos (e : VE)
  | neg (e : VE)
  | all
  | level (e : VE)

/-- Statements (core/vtypes.py:1904-2296).  `none` is Python's `None` (a missing body or else branch), `tup` a
    tuple or list of statements.  `when []` is `When(None)`.  `task` is a `TaskCall` (core/task.py:44), `single`
    a `SingleStatement` of an expression. -/
inductive VS
  | none
  | tup (l : List VS)
  | sub (l r : VE) (blk : Bool) (ld rd : Option VE)
  | ifs (c : VE) (t f : VS)
  | for_ (pre : VS) (c : VE) (post body : VS)
  | while_ (c : VE) (body : VS)
  | case_ (x : Bool) (comp : VE) (l : List VS)
  | when (conds : List VE) (body : VS)
  | single (e : VE)
  | task (f : String) (l : List VE)
  | event (l : List VSens)
  | wait (c : VE) (body : VS)
  | forever (l : List VS)
  | delay (e : VE)

/-- `is None` (verilog/to_verilog.py:402-403, 861). -/
def VS.isNone : VS → Bool
  | .none => true
  | _ => false

/-! ### Syntax trees of pyverilog -/

/-- The operator classes of `vast` used in verilog/to_verilog.py:213-396. -/
inductive AOp
  | power | times | divide | mod | plus | minus | sll | srl | sra
  | lessThan | greaterThan | lessEq | greaterEq | eq | notEq | eql | notEql
  | and | xor | xnor | or | land | lor
  | uplus | uminus | ulnot | unot | uand | unand | uor | unor | uxor | uxnor
  | pointer | partselect | cond
  deriving DecidableEq, Repr

/-- Expressions of `vast` (made by verilog/to_verilog.py:58-396). -/
inductive AE
  | int (t : List Char)
  | flt (s : String)
  | str (s : String)
  | id (x : String)
  | op (o : AOp) (l : List AE)
  | cat (l : List AE)
  | rep (v t : AE)
  | call (f : String) (l : List AE)
  | sys (cmd : String) (l : List AE)

/-- The delay of an assignment: a `DelayStatement`, or an expression where one is expected (verilog/to_verilog.py:841-850). -/
inductive ADel
  | stmt (e : AE)
  | raw (e : AE)

/-- `vast.Sens`; `bare` is one made without a type (verilog/to_verilog.py:498-501, 702-723, 867-875). -/
inductive ASens
  | pos (e : AE)
  | neg (e : AE)
  | all
  | level (e : AE)
  | bare (e : AE)

/-- Statements of `vast`; `none` is Python's `None`, `item` is `vast.Case`, `delay` the `SingleStatement` of a
    `DelayStatement` (made by verilog/to_verilog.py:399-443, 493-508, 824-875). -/
inductive AS
  | none
  | block (l : List AS)
  | bsub (l r : AE) (ld rd : Option ADel)
  | nbsub (l r : AE) (ld rd : Option ADel)
  | ifs (c : AE) (t f : AS)
  | for_ (pre : AS) (c : AE) (post body : AS)
  | while_ (c : AE) (body : AS)
  | case_ (x : Bool) (comp : AE) (l : List AS)
  | item (conds : List AE) (body : AS)
  | single (e : AE)
  | task (f : String) (l : List AE)
  | event (l : List ASens)
  | wait (c : AE) (body : AS)
  | forever (body : AS)
  | delay (e : AE)

/-- `is None`, `not` of a tree (verilog/from_verilog.py:659-660, 727-728). -/
def AS.isNone : AS → Bool
  | .none => true
  | _ => false

/-! ### Writing -/

/-- A visitor (verilog/to_verilog.py:40-55, 824, 839): `blk` tells `VerilogBlockingVisitor` from
    `VerilogAlwaysVisitor`, `fv` is `for_verilator`, `ini` is `in_initial`; `rst c` tells whether the text of a
    condition contains `rst` or `reset` (405-406). -/
structure Vis where
  blk : Bool
  fv : Bool := false
  ini : Bool := false
  rst : AE → Bool := fun _ => false

/-- `visit_Power` and so on (verilog/to_verilog.py:213-379, 392-396). -/
def emitOp : VOp → AOp
  | .power => .power | .times => .times | .divide => .divide | .mod => .mod
  | .plus => .plus | .minus => .minus | .sll => .sll | .srl => .srl | .sra => .sra
  | .lessThan => .lessThan | .greaterThan => .greaterThan | .lessEq => .lessEq | .greaterEq => .greaterEq
  | .eq => .eq | .notEq => .notEq | .eql => .eql | .notEql => .notEql
  | .and => .and | .xor => .xor | .xnor => .xnor | .or => .or | .land => .land | .lor => .lor
  | .uplus => .uplus | .uminus => .uminus | .ulnot => .ulnot | .unot => .unot
  | .uand => .uand | .unand => .unand | .uor => .uor | .unor => .unor | .uxor => .uxor | .uxnor => .uxnor
  | .pointer => .pointer | .slice => .partselect | .cond => .cond

/-- The system tasks that `visit_SystemTask` replaces for Verilator (verilog/to_verilog.py:485-488). -/
def muted (v : Vis) (cmd : String) : Bool :=
  v.fv && (cmd == "dumpfile" || cmd == "dumpvars" || (v.ini && cmd == "finish"))

/-- `vast.SystemCall('write', (vast.StringConst(''),))` (verilog/to_verilog.py:486, 488, 506, 854). -/
def writeNothing : AE := .sys "write" [.str ""]

/-- `isinstance(node.var, vtypes.Cat)` (verilog/to_verilog.py:386). -/
def VE.isCat : VE → Bool
  | .cat _ => true
  | _ => false

mutual

/-- `visit` of an expression (verilog/to_verilog.py:58-143, 163-396, 483-491, 511-518).  `visit_Repeat`
    (385-389) wraps what is no `Cat` in a `Cat`. -/
def emitE (v : Vis) : VE → Option AE
  | .num n => some (.int (decimal n))
  | .bool b => some (.int (if b then ['1'] else ['0']))
  | .lit o => (print o).map .int
  | .flt s => some (.flt s)
  | .str s => some (.str s)
  | .var x => some (.id x)
  | .op o l => (emitEs v l).map (.op (emitOp o))
  | .cat l => (emitEs v l).map .cat
  | .rep a t =>
    match emitE v a, emitE v t with
    | some a', some t' => some (.rep (if a.isCat then a' else .cat [a']) t')
    | _, _ => none
  | .skip e => emitE v e
  | .call f l => (emitEs v l).map (.call f)
  | .sys cmd l => if muted v cmd then some writeNothing else (emitEs v l).map (.sys cmd)

/-- `[self.visit(a) for a in ...]` (verilog/to_verilog.py:382, 490, 517). -/
def emitEs (v : Vis) : List VE → Option (List AE)
  | [] => some []
  | e :: l =>
    match emitE v e, emitEs v l with
    | some a, some as => some (a :: as)
    | _, _ => none

end

/-- The delay of an assignment, if it is true for Python (verilog/to_verilog.py:829-830, 844-847): an integer
    is if it is not 0, an `Int` is (its `len` is its width, not 0).  Delays that are other expressions are not
    modelled (their truth is their width, and an error if it is no integer).  Only `VerilogBlockingVisitor`
    makes a `DelayStatement`. -/
def emitDel (v : Vis) : Option VE → Option (Option ADel)
  | .none => some .none
  | some (.num n) => if n = 0 then some .none else (emitE v (.num n)).map fun a => some (if v.blk then .stmt a else .raw a)
  | some (.lit o) => (emitE v (.lit o)).map fun a => some (if v.blk then .stmt a else .raw a)
  | some _ => .none

/-- `visit_Subst` (verilog/to_verilog.py:826-835, 841-850). -/
def emitSub (v : Vis) (l r : VE) (blk : Bool) (ld rd : Option VE) : Option AS :=
  match emitE v l, emitE v r, emitDel v ld, emitDel v rd with
  | some l, some r, some ld, some rd => some (if v.blk || blk then .bsub l r ld rd else .nbsub l r ld rd)
  | _, _, _, _ => none

/-- The sensitivities of `Event` (verilog/to_verilog.py:498-502): `visit_Posedge` and `visit_Negedge` are only
    defined by `VerilogBlockingVisitor` (867-875), `visit_SensitiveAll` by neither visitor. -/
def emitSens (v : Vis) : VSens → Option ASens
  | .pos e => if v.blk then (emitE v e).map .pos else none
  | .neg e => if v.blk then (emitE v e).map .neg else none
  | .all => none
  | .level e => (emitE v e).map .bare

/-- `[... for n in node.sensitivity]` (verilog/to_verilog.py:499-501). -/
def emitSensL (v : Vis) : List VSens → Option (List ASens)
  | [] => some []
  | e :: l =>
    match emitSens v e, emitSensL v l with
    | some a, some as => some (a :: as)
    | _, _ => none

/-- `_optimize_block` (verilog/to_verilog.py:151-160). -/
def flatten : List AS → List AS
  | [] => []
  | .block b :: l => b ++ flatten l
  | a :: l => a :: flatten l

/-- The else branch of `visit_If` (verilog/to_verilog.py:404-410). -/
def elseIf (rst : Bool) : AS → AS
  | .block [.ifs c t f] => if rst then .block [.ifs c t f] else .ifs c t f
  | a => a

mutual

/-- `visit` of a statement (verilog/to_verilog.py:145-149, 399-443, 493-508, 525-528, 824-875). -/
def emitS (v : Vis) : VS → Option AS
  | .none => none
  | .tup l => (emitSs v l).map fun l => .block (flatten l)
  | .sub l r blk ld rd => emitSub v l r blk ld rd
  | .ifs c t f =>
    match emitE v c, emitS v t with
    | some c, some t =>
      (if f.isNone then some .none else (emitS v f).map (elseIf (v.rst c))).map (.ifs c t)
    | _, _ => none
  | .for_ pre c post body =>
    match emitS { v with blk := true } pre, emitE v c, emitS { v with blk := true } post, emitS v body with
    | some pre, some c, some post, some body => some (.for_ pre c post body)
    | _, _, _, _ => none
  | .while_ c body =>
    match emitE v c, emitS v body with
    | some c, some body => some (.while_ c body)
    | _, _ => none
  | .case_ x comp l =>
    match emitE v comp, emitSs v l with
    | some comp, some l => some (.case_ x comp l)
    | _, _ => none
  | .when conds body =>
    match emitEs v conds, emitS v body with
    | some conds, some body => some (.item conds body)
    | _, _ => none
  | .single e => (emitE v e).map .single
  | .task f l => (emitEs v l).map (.task f)
  | .event l => (emitSensL v l).map .event
  | .wait c body =>
    if v.blk then
      match emitE v c with
      | some c =>
        (if body.isNone then some .none else emitS v body).map (.wait c)
      | none => none
    else none
  | .forever l =>
    if v.blk then
      if v.fv then some (.single writeNothing)
      else (emitSs v l).map fun l => .forever (.block (flatten l))
    else none
  | .delay e => if v.fv then some (.single writeNothing) else (emitE v e).map .delay

/-- `[self.visit(s) for s in ...]` (verilog/to_verilog.py:399-443). -/
def emitSs (v : Vis) : List VS → Option (List AS)
  | [] => some []
  | s :: l =>
    match emitS v s, emitSs v l with
    | some a, some as => some (a :: as)
    | _, _ => none

end

/-- The statement of an `always` or `initial` block or of a function or task body
    (verilog/to_verilog.py:724-725, 741-742, 752-753, 761-762). -/
def emitBody (v : Vis) (l : List VS) : Option AS := (emitSs v l).map fun l => .block (flatten l)

/-! ### Reading -/

/-- `visit_Power` and so on (verilog/from_verilog.py:424-433, 441-590). -/
def readOp : AOp → VOp
  | .power => .power | .times => .times | .divide => .divide | .mod => .mod
  | .plus => .plus | .minus => .minus | .sll => .sll | .srl => .srl | .sra => .sra
  | .lessThan => .lessThan | .greaterThan => .greaterThan | .lessEq => .lessEq | .greaterEq => .greaterEq
  | .eq => .eq | .notEq => .notEq | .eql => .eql | .notEql => .notEql
  | .and => .and | .xor => .xor | .xnor => .xnor | .or => .or | .land => .land | .lor => .lor
  | .uplus => .uplus | .uminus => .uminus | .ulnot => .ulnot | .unot => .unot
  | .uand => .uand | .unand => .unand | .uor => .uor | .unor => .unor | .uxor => .uxor | .uxnor => .uxnor
  | .pointer => .pointer | .partselect => .slice | .cond => .cond

mutual

/-- `visit` of an expression (verilog/from_verilog.py:259-266, 411-590, 809-813, 909-913).  `Float` rejects the
    text of the tree (262-263; core/vtypes.py:940-943).  Whatever object of the module an identifier names
    (226-257), it is written as that name again. -/
def readE : AE → Option VE
  | .int t => (ofText t none none false).map .lit
  | .flt _ => none
  | .str s => some (.str s)
  | .id x => some (.var x)
  | .op o l => (readEs l).map (.op (readOp o))
  | .cat l => (readEs l).map .cat
  | .rep a t =>
    match readE a, readE t with
    | some a, some t => some (.rep a t)
    | _, _ => none
  | .call f l => (readEs l).map (.call f)
  | .sys cmd l => (readEs l).map (.sys cmd)

/-- `[self.visit(a) for a in ...]` (verilog/from_verilog.py:809-813, 909-913). -/
def readEs : List AE → Option (List VE)
  | [] => some []
  | e :: l =>
    match readE e, readEs l with
    | some a, some as => some (a :: as)
    | _, _ => none

end

/-- `self.visit(node.ldelay.delay) if node.ldelay is not None else None` (verilog/from_verilog.py:639-642,
    648-651): only a `DelayStatement` has the attribute. -/
def readDel : Option ADel → Option (Option VE)
  | .none => some .none
  | some (.stmt e) => (readE e).map some
  | some (.raw _) => none

/-- `visit_BlockingSubstitution` and `visit_NonblockingSubstitution` (verilog/from_verilog.py:636-652). -/
def readSub (l r : AE) (blk : Bool) (ld rd : Option ADel) : Option VS :=
  match readE l, readE r, readDel ld, readDel rd with
  | some l, some r, some ld, some rd => some (.sub l r blk ld rd)
  | _, _, _, _ => none

/-- `visit_Sens` (verilog/from_verilog.py:622-634).  What type a `Sens` made without one has is decided by
    pyverilog; the parser always gives one. -/
def readSens : ASens → Option VSens
  | .pos e => (readE e).map .pos
  | .neg e => (readE e).map .neg
  | .all => some .all
  | .level e => (readE e).map .level
  | .bare _ => none

/-- `visit_SensList` (verilog/from_verilog.py:619-620). -/
def readSensL : List ASens → Option (List VSens)
  | [] => some []
  | e :: l =>
    match readSens e, readSensL l with
    | some a, some as => some (a :: as)
    | _, _ => none

/-- `to_tuple` (verilog/from_verilog.py:98-101): a list stays as it is. -/
def toTuple : VS → List VS
  | .tup l => l
  | s => [s]

/-- A `Wait` is only given a statement that is not empty (verilog/from_verilog.py:727-732). -/
def waitBody : List VS → VS
  | [] => .none
  | l => .tup l

mutual

/-- `visit` of a statement that is not in a generate block (verilog/from_verilog.py:636-742, 852-856, 909-913,
    937-941).  `visit_TaskCall` (852-856) gives `TaskCall` an object as name and one argument, the tuple of the
    arguments, so the call cannot be written again (to_verilog.py:526-527 makes an identifier of the object and
    a block of the tuple); here the reading itself fails. -/
def readS : AS → Option VS
  | .none => none
  | .block l => (readSs l).map .tup
  | .bsub l r ld rd => readSub l r true ld rd
  | .nbsub l r ld rd => readSub l r false ld rd
  | .ifs c t f =>
    match readE c, readS t with
    | some c, some t =>
      (if f.isNone then some .none else (readS f).map fun f => .tup (toTuple f)).map (.ifs c (.tup (toTuple t)))
    | _, _ => none
  | .for_ pre c post body =>
    match readS pre, readE c, readS post, readS body with
    | some pre, some c, some post, some body => some (.for_ pre c post (.tup (toTuple body)))
    | _, _, _, _ => none
  | .while_ c body =>
    match readE c, readS body with
    | some c, some body => some (.while_ c (.tup (toTuple body)))
    | _, _ => none
  | .case_ x comp l =>
    match readE comp, readSs l with
    | some comp, some l => some (.case_ x comp l)
    | _, _ => none
  | .item conds body =>
    match readEs conds, readS body with
    | some conds, some body => some (.when conds (.tup (toTuple body)))
    | _, _ => none
  | .single e => (readE e).map .single
  | .task _ _ => none
  | .event l => (readSensL l).map .event
  | .wait c body =>
    match readE c with
    | some c =>
      (if body.isNone then some .none else (readS body).map fun b => waitBody (toTuple b)).map (.wait c)
    | none => none
  | .forever body => (readS body).map fun b => .forever (toTuple b)
  | .delay e => (readE e).map .delay

/-- `visit_Block` (verilog/from_verilog.py:710-712). -/
def readSs : List AS → Option (List VS)
  | [] => some []
  | s :: l =>
    match readS s, readSs l with
    | some a, some as => some (a :: as)
    | _, _ => none

end

/-! ### Functions and tasks -/

/-- The classes of the variables of a function or task (core/function.py:24-37, core/task.py:20-33). -/
inductive FKind
  | input | reg | integer
  deriving DecidableEq, Repr

/-- A variable of a function or task; the width is the pair of bounds that is written
    (verilog/to_verilog.py:553-584). -/
structure FDecl where
  kind : FKind
  name : String
  width : Option (VE × VE)
  signed : Bool

/-- A function or task: `io_variable`, `variable` and `statement` (core/function.py:11-43, core/task.py:11-39). -/
structure Fn where
  io : List FDecl
  var : List FDecl
  body : List VS

/-- A variable in the tree (verilog/to_verilog.py:638-689). -/
structure ADecl where
  kind : FKind
  name : String
  width : Option (AE × AE)
  signed : Bool

/-- The parts of a function or task in the tree: declarations and, last, a statement (verilog/to_verilog.py:747-763). -/
inductive FItem
  | decl (d : ADecl)
  | stmt (a : AS)

/-- `make_width` of bounds (verilog/to_verilog.py:553-558). -/
def emitWidth (v : Vis) : Option (VE × VE) → Option (Option (AE × AE))
  | none => some none
  | some (m, l) =>
    match emitE v m, emitE v l with
    | some m, some l => some (some (m, l))
    | _, _ => none

/-- `visit_Input`, `visit_Reg`, `visit_Integer` (verilog/to_verilog.py:638-643, 661-682); a `Reg` named like an
    output of the module is not modelled here. -/
def emitFDecl (v : Vis) (d : FDecl) : Option ADecl :=
  (emitWidth v d.width).map fun w => ⟨d.kind, d.name, w, d.signed⟩

/-- Declarations (verilog/to_verilog.py:750-751, 759-760). -/
def emitFDecls (v : Vis) : List FDecl → Option (List FItem)
  | [] => some []
  | d :: l =>
    match emitFDecl v d, emitFDecls v l with
    | some a, some as => some (.decl a :: as)
    | _, _ => none

/-- `visit_Function`, `visit_Task` (verilog/to_verilog.py:747-763). -/
def emitFn (v : Vis) (f : Fn) : Option (List FItem) :=
  match emitFDecls v f.io, emitFDecls v f.var, emitBody { v with blk := true } f.body with
  | some io, some var, some b => some (io ++ var ++ [.stmt b])
  | _, _, _ => none

/-- The bounds of a width (verilog/from_verilog.py:210-213). -/
def readWidth : Option (AE × AE) → Option (Option (VE × VE))
  | none => some none
  | some (m, l) =>
    match readE m, readE l with
    | some m, some l => some (some (m, l))
    | _, _ => none

/-- `visit_Function`, `visit_Task` (verilog/from_verilog.py:769-807, 815-850): a declaration is visited to the
    list of its variables, which go into the table of their class under their name (the names are assumed
    distinct); a block is visited to a list too, and for each of its statements the whole list is appended to
    the body (800-801, 844-845). -/
def readFn : List FItem → Option Fn
  | [] => some ⟨[], [], []⟩
  | .decl d :: l =>
    match readWidth d.width, readFn l with
    | some w, some f =>
      some (match d.kind with
        | .input => { f with io := ⟨d.kind, d.name, w, d.signed⟩ :: f.io }
        | _ => { f with var := ⟨d.kind, d.name, w, d.signed⟩ :: f.var })
    | _, _ => none
  | .stmt a :: l =>
    match readS a, readFn l with
    | some (.tup b), some f => some { f with body := b.map (fun _ => .tup b) ++ f.body }
    | some s, some f => some { f with body := s :: f.body }
    | _, _ => none

end Emit
