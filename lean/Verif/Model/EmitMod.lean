import Verif.Model.Emit

/-!
# Model of writing and reading Verilog: modules

`VerilogModuleVisitor` of `verilog/to_verilog.py` and the module level of `VerilogReadVisitor` of
`verilog/from_verilog.py`, on top of the expressions and statements of `Model/Emit.lean`.

Simplifications:

* a declaration in the tree stands for itself and for a `vast.Decl` of it (from_verilog.py:407-409);
* a body of a generate block that is no `vast.Block` is a block without name that has one item; a missing else branch is one
  without items and name (to_verilog.py:808-810, from_verilog.py:864-866, 878-883);
* `Tri`, `Supply`, `EmbeddedCode`, initial values of variables (they are not written), instance arrays are left out;
* the `GenerateIfElse` that reading adds to the items (from_verilog.py:893) is left out: it is written as nothing
  (to_verilog.py:814-815).
-/

namespace Emit

/-! ### Veriloggen objects -/

/-- A width: none, a number of bits, or bounds (`raw_width`) (core/vtypes.py:538-550, verilog/to_verilog.py:553-564). -/
inductive VW
  | none
  | width (e : VE)
  | bounds (m l : VE)

/-- Dimensions: none, lengths, or bounds (`raw_dims`) (to_verilog.py:567-584). -/
inductive VD
  | none
  | dims (l : List VE)
  | bounds (l : List (VE × VE))

/-- The classes of variables (core/vtypes.py:632-744). -/
inductive DKind
  | input | output | inout | reg | wire | integer | real | genvar
  deriving DecidableEq, Repr

/-- `Input`, `Output`, `Inout` (core/vtypes.py:643-651). -/
def DKind.io : DKind → Bool
  | .input => true
  | .output => true
  | .inout => true
  | _ => false

/-- A variable (core/vtypes.py:632-744). -/
structure VDecl where
  kind : DKind
  name : String
  width : VW
  dims : VD
  signed : Bool

/-- The items of a module (`items`, core/module.py:43): parameters (`loc` for `Localparam`), variables, `AnyType`, `Assign` with the
    delays of its `Subst`, `Always`, `Initial`, `Function`, `Task`, `Instance`, `GenerateFor`, `GenerateIf` with its `Else`
    (core/vtypes.py:746-776, 1929-1975; core/module.py:1335-1503). -/
inductive VItem
  | param (loc : Bool) (name : String) (value : VE) (w : VW) (signed : Bool)
  | decl (d : VDecl)
  | any (name : String)
  | assign (l r : VE) (ld rd : Option VE)
  | always (sens : List VSens) (body : List VS)
  | initial (body : List VS)
  | func (name : String) (w : VW) (f : Fn)
  | task (name : String) (f : Fn)
  | inst (m name : String) (params : List (Option String × VE)) (ports : List (Option String × Option VE))
  | gfor (pre : VS) (c : VE) (post : VS) (scope : Option String) (body : List VItem)
  | gif (c : VE) (ts : Option String) (t : List VItem) (fs : Option String) (f : List VItem)

/-- A module: its name and its items in the order in which they were made (core/module.py:18-48). -/
structure VMod where
  name : String
  items : List VItem

/-- Setting an entry of an `OrderedDict`: an entry that exists keeps its place (core/module.py:24-38). -/
def dictPut {X : Type} (k : String) (x : X) : List (String × X) → List (String × X)
  | [] => [(k, x)]
  | (k', y) :: l => if k = k' then (k, x) :: l else (k', y) :: dictPut k x l

/-- What an item enters into `io_variable` (core/module.py:50-85, 1032-1041); `none` is an `AnyType`. -/
def VItem.ioEntry : VItem → Option (String × Option VDecl)
  | .decl d => if d.kind.io then some (d.name, some d) else none
  | .any n => some (n, none)
  | _ => none

/-- `io_variable` (core/module.py:24). -/
def ioTable (items : List VItem) : List (String × Option VDecl) :=
  (items.filterMap VItem.ioEntry).foldl (fun t e => dictPut e.1 e.2 t) []

/-- The items that are written in the head of a module (to_verilog.py:613-617). -/
def VItem.head : VItem → Bool
  | .decl d => d.kind.io
  | .param false _ _ _ _ => true
  | _ => false

/-- `is_output` (core/module.py:1179-1184). -/
def isOutput (items : List VItem) (n : String) : Bool :=
  match (ioTable items).lookup n with
  | some (some d) => d.kind == .output
  | _ => false

/-- The variable of that name that an item enters into `variable` (core/module.py:86-174, 1042-1050). -/
def VItem.varOf (n : String) : VItem → Option VDecl
  | .decl d => if !d.kind.io && d.name == n then some d else none
  | _ => none

/-- `is_reg` (core/module.py:1193-1198): the last variable of that name is a `Reg`. -/
def isReg (items : List VItem) (n : String) : Bool :=
  match (items.filterMap (VItem.varOf n)).getLast? with
  | some d => d.kind == .reg
  | none => false

/-- The value of a parameter or localparam: that of the parameter given, if one is given (core/vtypes.py:754-755).  `env` has the
    values of the parameters of the module. -/
def paramValue (env : List (String × VE)) : VE → VE
  | .var x => (env.lookup x).getD (.var x)
  | e => e

/-! ### Syntax trees -/

/-- A declaration of `vast` (verilog/to_verilog.py:638-696). -/
structure ADec where
  kind : DKind
  name : String
  width : Option (AE × AE)
  dims : Option (List (AE × AE))
  signed : Bool

/-- Items of a `vast.ModuleDef`; `gen` is a `GenerateStatement`, `gfor` and `gif` are `ForStatement` and `IfStatement` (verilog/to_verilog.py:615-822). -/
inductive AItem
  | param (loc : Bool) (name : String) (value : AE) (w : Option (AE × AE)) (signed : Bool)
  | decl (d : ADec)
  | assign (l r : AE)
  | always (sens : List ASens) (body : AS)
  | initial (body : AS)
  | func (name : String) (w : Option (AE × AE)) (f : List FItem)
  | task (name : String) (f : List FItem)
  | inst (m name : String) (params : List (Option String × AE)) (ports : List (Option String × Option AE))
  | gen (l : List AItem)
  | gfor (pre : AS) (c : AE) (post : AS) (scope : Option String) (body : List AItem)
  | gif (c : AE) (ts : Option String) (t : List AItem) (fs : Option String) (f : List AItem)

/-- A port: a `vast.Ioport` with its second declaration, or a `vast.Port` of the old style (verilog/to_verilog.py:638-659). -/
inductive APort
  | io (first : ADec) (second : Option ADec)
  | plain (name : String)

/-- `vast.ModuleDef` (verilog/to_verilog.py:615). -/
structure AMod where
  name : String
  params : List AItem
  ports : List APort
  items : List AItem

/-! ### Writing -/

/-- `make_width` (verilog/to_verilog.py:553-565). -/
def emitW (v : Vis) : VW → Option (Option (AE × AE))
  | .none => some none
  | .width e => (emitE v e).map fun a => some (.op .minus [a, .int ['1']], .int ['0'])
  | .bounds m l =>
    match emitE v m, emitE v l with
    | some m, some l => some (some (m, l))
    | _, _ => none

/-- One dimension by bounds (verilog/to_verilog.py:570-573). -/
def emitBounds (v : Vis) : List (VE × VE) → Option (List (AE × AE))
  | [] => some []
  | (m, l) :: t =>
    match emitE v m, emitE v l, emitBounds v t with
    | some m, some l, some t => some ((m, l) :: t)
    | _, _, _ => none

/-- `make_dims` (verilog/to_verilog.py:567-584). -/
def emitDims (v : Vis) : VD → Option (Option (List (AE × AE)))
  | .none => some none
  | .dims l => (emitEs v l).map fun as => some (as.map fun a => (.int ['0'], .op .minus [a, .int ['1']]))
  | .bounds l => (emitBounds v l).map some

/-- `visit_Input` and so on (verilog/to_verilog.py:638-706), without the special cases of `Output` and `Reg`. -/
def emitDecl (v : Vis) (d : VDecl) : Option ADec :=
  match emitW v d.width, emitDims v d.dims with
  | some w, some ds => some ⟨d.kind, d.name, w, ds, d.signed⟩
  | _, _ => none

/-- `visit_Output` and the other ports (verilog/to_verilog.py:638-659): the register of an output has the width and sign of the
    output. -/
def emitPort (v : Vis) (reg : String → Bool) (d : VDecl) : Option APort :=
  (emitDecl v d).map fun a => .io a (if d.kind == .output && reg d.name then some { a with kind := .reg } else none)

/-- The ports (verilog/to_verilog.py:604-606): an `AnyType` (698-699) is left out. -/
def emitPorts (v : Vis) (reg : String → Bool) : List (String × Option VDecl) → Option (List APort)
  | [] => some []
  | (_, none) :: l => emitPorts v reg l
  | (_, some d) :: l =>
    match emitPort v reg d, emitPorts v reg l with
    | some a, some as => some (a :: as)
    | _, _ => none

/-- The sensitivity of an `Always` (verilog/to_verilog.py:699-723). -/
def emitASens (v : Vis) : VSens → Option ASens
  | .pos e => (emitE v e).map .pos
  | .neg e => (emitE v e).map .neg
  | .all => some .all
  | .level e => (emitE v e).map .level

/-- The list of them; an empty one is `@(*)` (verilog/to_verilog.py:719-722). -/
def emitASensL (v : Vis) : List VSens → Option (List ASens)
  | [] => some []
  | e :: l =>
    match emitASens v e, emitASensL v l with
    | some a, some as => some (a :: as)
    | _, _ => none

/-- Parameters of an instance (verilog/to_verilog.py:768-769). -/
def emitParams (v : Vis) : List (Option String × VE) → Option (List (Option String × AE))
  | [] => some []
  | (n, e) :: l =>
    match emitE v e, emitParams v l with
    | some a, some as => some ((n, a) :: as)
    | _, _ => none

/-- Ports of an instance (verilog/to_verilog.py:770-771): `None` cannot be visited. -/
def emitConns (v : Vis) : List (Option String × Option VE) → Option (List (Option String × Option AE))
  | [] => some []
  | (_, none) :: _ => none
  | (n, some e) :: l =>
    match emitE v e, emitConns v l with
    | some a, some as => some ((n, some a) :: as)
    | _, _ => none

/-- `visit_Function` and `visit_Task` of a module (verilog/to_verilog.py:747-763): a local register named like an output of the module
    is visited to `None`, which cannot be printed. -/
def emitFnM (v : Vis) (out : String → Bool) (f : Fn) : Option (List FItem) :=
  if f.var.any fun d => d.kind == .reg && out d.name then none else emitFn v f

/-- Nested generate statements are put into the block (verilog/to_verilog.py:785-790). -/
def unGen : List AItem → List AItem
  | [] => []
  | .gen l :: t => l ++ unGen t
  | a :: t => a :: unGen t

/-- The parameters, which come first (verilog/to_verilog.py:605-607, 621-627, 777-779). -/
def emitParamItems (v : Vis) : List VItem → Option (List AItem)
  | [] => some []
  | .param false n x w s :: l =>
    match emitE v x, emitW v w, emitParamItems v l with
    | some x, some w, some as => some (.param false n x w s :: as)
    | _, _, _ => none
  | _ :: l => emitParamItems v l

mutual

/-- `visit` of an item (verilog/to_verilog.py:621-635, 661-815); `out` is `is_output` of the module.  `[]` is `None`. -/
def emitItem (v : Vis) (out : String → Bool) : VItem → Option (List AItem)
  | .param loc n x w s =>
    match emitE v x, emitW v w with
    | some x, some w => some [.param loc n x w s]
    | _, _ => none
  | .decl d => if d.kind == .reg && out d.name then some [] else (emitDecl v d).map fun a => [.decl a]
  | .any _ => some []
  | .assign l r _ _ =>
    match emitE v l, emitE v r with
    | some l, some r => some [.assign l r]
    | _, _ => none
  | .always sens body =>
    match emitASensL v sens, emitBody { v with blk := false } body with
    | some sens, some body => some [.always (if sens.isEmpty then [.all] else sens) body]
    | _, _ => none
  | .initial body => (emitBody { v with blk := true, ini := true } body).map fun a => [.initial a]
  | .func n w f =>
    match emitW v w, emitFnM v out f with
    | some w, some f => some [.func n w f]
    | _, _ => none
  | .task n f => (emitFnM v out f).map fun f => [.task n f]
  | .inst m n params ports =>
    match emitParams v params, emitConns v ports with
    | some params, some ports => some [.inst m n params ports]
    | _, _ => none
  | .gfor pre c post scope body =>
    match emitS { v with blk := true } pre, emitE v c, emitS { v with blk := true } post, emitParamItems v body,
        emitItems v out body with
    | some pre, some c, some post, some ps, some body => some [.gen [.gfor pre c post scope (ps ++ unGen body)]]
    | _, _, _, _, _ => none
  | .gif c ts t fs f =>
    match emitE v c, emitParamItems v t, emitItems v out t, emitParamItems v f, emitItems v out f with
    | some c, some pt, some t, some pf, some f =>
      some [.gen [.gif c ts (pt ++ unGen t) (if (pf ++ unGen f).isEmpty then none else fs) (pf ++ unGen f)]]
    | _, _, _, _, _ => none

/-- The items that are not written in the head (verilog/to_verilog.py:613-618, 780-784). -/
def emitItems (v : Vis) (out : String → Bool) : List VItem → Option (List AItem)
  | [] => some []
  | i :: l =>
    if i.head then emitItems v out l
    else
      match emitItem v out i, emitItems v out l with
      | some a, some as => some (a ++ as)
      | _, _ => none

end

/-- `visit_Module` (verilog/to_verilog.py:596-618). -/
def emitMod (v : Vis) (m : VMod) : Option AMod :=
  match emitParamItems v m.items, emitPorts v (isReg m.items) (ioTable m.items),
      emitItems v (isOutput m.items) m.items with
  | some ps, some io, some items => some ⟨m.name, ps, io, items⟩
  | _, _, _ => none

/-! ### Reading -/

/-- The bounds of a width; they are kept as `raw_width`, and written again (verilog/from_verilog.py:210-213, 269-277). -/
def readW : Option (AE × AE) → Option VW
  | none => some .none
  | some (m, l) =>
    match readE m, readE l with
    | some m, some l => some (.bounds m l)
    | _, _ => none

/-- Dimensions (verilog/from_verilog.py:215-224). -/
def readBounds : List (AE × AE) → Option (List (VE × VE))
  | [] => some []
  | (m, l) :: t =>
    match readE m, readE l, readBounds t with
    | some m, some l, some t => some ((m, l) :: t)
    | _, _, _ => none

/-- The same (verilog/from_verilog.py:269-277). -/
def readDims : Option (List (AE × AE)) → Option VD
  | none => some .none
  | some l => (readBounds l).map .bounds

/-- `visit_Input` and so on (verilog/from_verilog.py:268-380): `visit_Real` and `visit_Genvar` do not look at the sign. -/
def readDecl (a : ADec) : Option VDecl :=
  match readW a.width, readDims a.dims with
  | some w, some ds => some ⟨a.kind, a.name, w, ds, if a.kind == .real || a.kind == .genvar then false else a.signed⟩
  | _, _ => none

/-- `visit_Ioport`, `visit_Port` (verilog/from_verilog.py:188-193, 369-372). -/
def readPort : APort → Option (List VItem)
  | .plain n => some [.any n]
  | .io a none => (readDecl a).map fun d => [.decl d]
  | .io a (some b) =>
    match readDecl a, readDecl b with
    | some d, some e => some [.decl d, .decl e]
    | _, _ => none

/-- `visit_Portlist` (verilog/from_verilog.py:181-186). -/
def readPorts : List APort → Option (List VItem)
  | [] => some []
  | a :: l =>
    match readPort a, readPorts l with
    | some a, some l => some (a ++ l)
    | _, _ => none

/-- `visit_ParamArg` (verilog/from_verilog.py:756-759). -/
def readParams : List (Option String × AE) → Option (List (Option String × VE))
  | [] => some []
  | (n, e) :: l =>
    match readE e, readParams l with
    | some a, some as => some ((n, a) :: as)
    | _, _ => none

/-- `visit_PortArg` (verilog/from_verilog.py:761-765). -/
def readConns : List (Option String × Option AE) → Option (List (Option String × Option VE))
  | [] => some []
  | (n, none) :: l => (readConns l).map fun as => (n, none) :: as
  | (n, some e) :: l =>
    match readE e, readConns l with
    | some a, some as => some ((n, some a) :: as)
    | _, _ => none

/-- Whether a statement has an `if` or `for` outside of others, which are visited first (verilog/from_verilog.py:654-677). -/
def hasBranch : AS → Bool
  | .block l => branchIn l
  | .ifs _ _ _ => true
  | .for_ _ _ _ _ => true
  | .while_ _ b => hasBranch b
  | .case_ _ _ l => branchIn l
  | .item _ b => hasBranch b
  | .wait _ b => hasBranch b
  | .forever b => hasBranch b
  | _ => false
where
  /-- The same for a list. -/
  branchIn : List AS → Bool
    | [] => false
    | s :: l => hasBranch s || branchIn l

/-- Whose items are read: a module, a `GenerateFor` or `GenerateIf`, or a `GenerateIfElse` (verilog/from_verilog.py:655, 667). -/
inductive Ctx
  | mod | gen | els
  deriving DecidableEq, Repr

/-- The values of the parameters among items that were read (core/module.py:1051-1057). -/
def paramBinds (l : List VItem) : List (String × VE) :=
  l.filterMap fun | .param _ n x _ _ => some (n, x) | _ => none

/-- The parameters and ports of the modules that are read (core/module.py:1372-1377, 1396-1403). -/
abbrev Lib := String → Option (List String × List String)

/-- The names given for an instance of a module that is known exist (core/module.py:1372-1403). -/
def namesOk (lib : Lib) (m : String) (ps : List (Option String × AE)) (qs : List (Option String × Option AE)) : Bool :=
  match lib m with
  | none => true
  | some (params, ports) =>
    (ps.all fun p => p.1.all params.contains) && (qs.all fun q => q.1.all ports.contains)

mutual

/-- `visit` of an item (verilog/from_verilog.py:361-405, 592-617, 654-677, 714-718, 744-850, 858-907): the items that are added to
    the module or generate block that is read.  `env` has the values of the parameters read so far.

    An `if` or `for` of an `initial` block in a `GenerateFor` or `GenerateIf` is read as a generate block (654-656, 666-668, 714-718),
    an object that cannot be written as a statement; here the reading fails.  An `if` or `for` in a `GenerateIfElse` is read as
    a statement that is thrown away, but the items in it are added. -/
def readItem (lib : Lib) (ctx : Ctx) (env : List (String × VE)) : AItem → Option (List VItem)
  | .param loc n x w s =>
    match readE x, readW w with
    | some x, some w => some [.param loc n (paramValue env x) w s]
    | _, _ => none
  | .decl d => (readDecl d).map fun d => [.decl d]
  | .assign l r =>
    match readE l, readE r with
    | some l, some r => some [.assign l r none none]
    | _, _ => none
  | .always sens body =>
    match readSensL sens, readS body with
    | some sens, some b => some [.always sens (toTuple b)]
    | _, _ => none
  | .initial body =>
    if ctx == .gen && hasBranch body then none else (readS body).map fun b => [.initial (toTuple b)]
  | .func n w f =>
    match readW w, readFn f with
    | some w, some f => some [.func n w f]
    | _, _ => none
  | .task n f => (readFn f).map fun f => [.task n f]
  | .inst m n ps qs =>
    match readParams ps, readConns qs with
    | some ps', some qs' => if namesOk lib m ps qs then some [.inst m n ps' qs'] else none
    | _, _ => none
  | .gen l => readGens lib env l
  | .gfor pre c post scope body =>
    match readS pre, readE c, readS post, readItems lib ctx env body with
    | some pre, some c, some post, some b => some (if ctx = .gen then [.gfor pre c post scope b] else b)
    | _, _, _, _ => none
  | .gif c ts t fs f =>
    if ctx = .gen then
      match readE c, readItems lib .gen env t, readItems lib .els env f with
      | some c, some t, some f => some [.gif c ts t fs f]
      | _, _, _ => none
    else
      match readE c, readItems lib ctx env t with
      | some _, some t => (readItems lib ctx (paramBinds t ++ env) f).map fun f => t ++ f
      | _, _ => none

/-- The items of a module or a block one after the other (verilog/from_verilog.py:154-157, 710-712). -/
def readItems (lib : Lib) (ctx : Ctx) (env : List (String × VE)) : List AItem → Option (List VItem)
  | [] => some []
  | a :: l =>
    match readItem lib ctx env a with
    | none => none
    | some i =>
      match readItems lib ctx (paramBinds i ++ env) l with
      | none => none
      | some is => some (i ++ is)

/-- `visit_GenerateStatement` (verilog/from_verilog.py:858-907). -/
def readGens (lib : Lib) (env : List (String × VE)) : List AItem → Option (List VItem)
  | [] => some []
  | .gfor pre c post scope body :: l =>
    match readS pre, readE c, readS post, readItems lib .gen env body, readGens lib env l with
    | some pre, some c, some post, some b, some l => some (.gfor pre c post scope b :: l)
    | _, _, _, _, _ => none
  | .gif c ts t fs f :: l =>
    match readE c, readItems lib .gen env t, readItems lib .els env f, readGens lib env l with
    | some c, some t, some f, some l => some (.gif c ts t fs f :: l)
    | _, _, _, _ => none
  | _ :: _ => none

end

/-- `visit_ModuleDef` (verilog/from_verilog.py:163-175): the parameters, the ports and the items. -/
def readMod (lib : Lib) (a : AMod) : Option VMod :=
  match readItems lib .mod [] a.params, readPorts a.ports with
  | some ps, some io =>
    (readItems lib .mod (paramBinds ps) a.items).map fun is => ⟨a.name, ps ++ io ++ is⟩
  | _, _ => none

end Emit
