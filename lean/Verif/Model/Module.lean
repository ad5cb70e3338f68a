/-!
# Model of the name tables of `Module` (core/module.py)

Declaring objects, generating temporary names, copying and connecting objects of another module.
Not modelled: functions, tasks, instances, generate blocks and `AnyType` objects (so
`find_identifier` only searches the four tables of variables and constants), array dimensions.
Regular expressions are not modelled: the matching relation `re.match(pattern, key)` is a parameter.
-/

namespace Module

/-- The classes of declared objects (core/vtypes.py:643-773); none is a subclass of another. -/
inductive Kind
  | input | output | inout | wire | reg | integer | real | genvar | parameter | localparam
  deriving DecidableEq, Repr

/-- The dictionaries `io_variable`, `variable`, `global_constant`, `local_constant`
    (core/module.py:22-27). -/
inductive Table
  | io | var | glob | loc
  deriving DecidableEq, Repr

/-- The dictionary an object of a class is stored in (core/module.py:50-189, 1039-1056). -/
def Kind.table : Kind → Table
  | .input | .output | .inout => .io
  | .wire | .reg | .integer | .real | .genvar => .var
  | .parameter => .glob
  | .localparam => .loc

/-- Width and parameter expressions: constants, variables, and operators applied to operands
    (core/vtypes.py:806-1854; `un` and `bin` stand for all unary and binary operators, `cond` for `Cond`). -/
inductive WExpr
  | int (n : Int)
  | var (name : String)
  | un (f : Int → Int) (a : WExpr)
  | bin (f : Int → Int → Int) (a b : WExpr)
  | cond (c t e : WExpr)

/-- Value of an expression when the constants have the given values (Verilog elaboration) (of core/vtypes.py:806-1854). -/
def WExpr.eval (env : String → Int) : WExpr → Int
  | .int n => n
  | .var x => env x
  | .un f a => f (a.eval env)
  | .bin f a b => f (a.eval env) (b.eval env)
  | .cond c t e => if c.eval env ≠ 0 then t.eval env else e.eval env

/-- `RenameVisitor.visit` (core/rename_visitor.py:21-102). -/
def WExpr.rename (pre post : String) (keep : List String) : WExpr → WExpr
  | .int n => .int n
  | .var x => .var (if x ∈ keep then x else pre ++ x ++ post)
  | .un f a => .un f (a.rename pre post keep)
  | .bin f a b => .bin f (a.rename pre post keep) (b.rename pre post keep)
  | .cond c t e => .cond (c.rename pre post keep) (t.rename pre post keep) (e.rename pre post keep)

/-- A declared object (core/vtypes.py:536-560). `width = none` is one bit. -/
structure Obj where
  kind : Kind
  name : String
  width : Option WExpr := none
  signed : Bool := false
  value : Option WExpr := none

/-- An `OrderedDict` of objects by name (core/module.py:24-38). -/
abbrev Dict := List (String × Obj)

/-- `d.get(k)` (core/module.py:24-38). -/
def Dict.get (d : Dict) (k : String) : Option Obj := (d.find? fun e => e.1 = k).map Prod.snd

/-- `d[k] = v`: an existing key keeps its position (core/module.py:24-38). -/
def Dict.set (d : Dict) (k : String) (v : Obj) : Dict :=
  if d.any (fun e => e.1 = k) then d.map fun e => if e.1 = k then (k, v) else e
  else d ++ [(k, v)]

/-- A `Module` (core/module.py:14-47). -/
structure ModSt where
  io : Dict := []
  var : Dict := []
  glob : Dict := []
  loc : Dict := []
  items : List Obj := []
  tmpPrefix : String := "_tmp"
  tmpCount : Nat := 0

namespace ModSt

/-- One of the dictionaries (core/module.py:24-38). -/
def dict (m : ModSt) : Table → Dict
  | .io => m.io
  | .var => m.var
  | .glob => m.glob
  | .loc => m.loc

/-- Replacing one of the dictionaries (core/module.py:24-38). -/
def setDict (m : ModSt) (t : Table) (d : Dict) : ModSt :=
  match t with
  | .io => { m with io := d }
  | .var => { m with var := d }
  | .glob => { m with glob := d }
  | .loc => { m with loc := d }

/-- Storing an object in the dictionary of its class and in `items` (for instance
    core/module.py:54-55; `add_object`, 1026-1056, does the same). -/
def store (m : ModSt) (o : Obj) : ModSt :=
  let m := m.setDict o.kind.table ((m.dict o.kind.table).set o.name o)
  { m with items := m.items ++ [o] }

/-- `find_identifier` (core/module.py:1146-1163). -/
def find (m : ModSt) (name : String) : Option Obj :=
  match m.io.get name with
  | some o => some o
  | none => match m.var.get name with
    | some o => some o
    | none => match m.glob.get name with
      | some o => some o
      | none => m.loc.get name

/-- The classes each declaration passes to `check_existing_identifier`: for these an object of the
    same name may exist already (core/module.py:53, 61, 83, 91, 110, 130, 148, 164, 180, 188). -/
def Kind.compatible : Kind → List Kind
  | .input => [.wire]
  | .output => [.wire, .reg]
  | .inout => [.wire]
  | .wire => [.input, .output]
  | .reg => [.output]
  | _ => []

/-- `check_existing_identifier` (core/module.py:1284-1293): true if no error is raised. -/
def checkExisting (m : ModSt) (name : String) (types : List Kind) : Bool :=
  match m.find name with
  | none => true
  | some o => o.kind ∈ types

/-- `is_reg` (core/module.py:1193-1198). -/
def isReg (m : ModSt) (name : String) : Bool :=
  match m.var.get name with
  | some o => o.kind = .reg
  | none => false

/-- `Input`, `Output`, `Inout`, `Wire`, `Reg`, `Integer`, `Real`, `Genvar`, `Parameter`,
    `Localparam` (core/module.py:50-189); `none` is the `ValueError`.  Only `Wire` has the extra test
    of 92-93. -/
def declare (m : ModSt) (o : Obj) : Option ModSt :=
  if !m.checkExisting o.name (Kind.compatible o.kind) then none
  else if o.kind = .wire ∧ m.isReg o.name then none
  else some (m.store o)

/-- `OutputReg` (core/module.py:66-78). -/
def outputReg (m : ModSt) (o : Obj) : Option ModSt :=
  if !m.checkExisting o.name [] then none
  else some ((m.store { o with kind := .output }).store { o with kind := .reg })

/-- The name given by `TmpWire`, `TmpReg`, `TmpInteger`, `TmpReal`, `TmpGenvar`, `TmpLocalparam`
    (core/module.py:97-103, 115-121, 133-139, 151-157, 167-173, 191-197). -/
def tmpName (m : ModSt) (pre : Option String) : String :=
  (pre.getD m.tmpPrefix) ++ "_" ++ toString m.tmpCount

/-- The `Tmp...` methods (same lines) with `get_tmp` (core/module.py:1166-1169); the name of `o` is
    replaced by the generated one. -/
def tmp (m : ModSt) (pre : Option String) (o : Obj) : Option ModSt :=
  { m with tmpCount := m.tmpCount + 1 }.declare { o with name := m.tmpName pre }

end ModSt

/-- Declarations made by the user (core/module.py:50-189). -/
inductive Op
  | declare (o : Obj)
  | outputReg (o : Obj)
  | tmp (pre : Option String) (o : Obj)

/-- One declaration (the methods above) (core/module.py:50-189). -/
def Op.apply (m : ModSt) : Op → Option ModSt
  | .declare o => m.declare o
  | .outputReg o => m.outputReg o
  | .tmp pre o => m.tmp pre o

/-- A program: the module afterwards and the names generated by its `Tmp...` calls, in order (core/module.py:50-189). -/
def run (m : ModSt) : List Op → Option (ModSt × List String)
  | [] => some (m, [])
  | op :: ops =>
    (op.apply m).bind fun m' =>
    (run m' ops).map fun (r, ns) =>
      (r, match op with
        | .tmp pre _ => m.tmpName pre :: ns
        | _ => ns)

/-! ## Copying and connecting -/

/-- The arguments `include`, `exclude`, `use_fullmatch` (core/module.py:770-789). -/
structure Filter where
  incl : List String := []
  excl : List String := []
  fullmatch : Bool := false

/-- The loops over `include` and `exclude` (core/module.py:793-808, and the same in each of the
    copying and connecting methods): the final value of `skip`. `m` is `re.match`. -/
def Filter.skip (f : Filter) (m : String → String → Bool) (key : String) : Bool :=
  let full := fun p => if f.fullmatch then "^" ++ p ++ "$" else p
  let s := f.incl.foldl (fun s p => if m (full p) key then false else s) (!f.incl.isEmpty)
  f.excl.foldl (fun s p => if m (full p) key then true else s) s

/-- The arguments `prefix`, `postfix`, `rename_exclude` (core/module.py:628-629). -/
structure Naming where
  pre : String := ""
  post : String := ""
  keep : List String := []

/-- `''.join([prefix, name, postfix])` (core/module.py:668). -/
def Naming.name (n : Naming) (x : String) : String := n.pre ++ x ++ n.post

/-- The copied object (core/module.py:809-812; 667-670 for parameters, where `value` is renamed as
    well — ports and variables have no such value here). -/
def Naming.copy (n : Naming) (o : Obj) : Obj :=
  { o with name := n.name o.name,
           width := o.width.map (WExpr.rename n.pre n.post n.keep),
           value := o.value.map (WExpr.rename n.pre n.post n.keep) }

/-- The class made by `copy_ports_as_vars` (`get_opposite_variable`, core/module.py:1212-1222). -/
def opposite (useWire : Bool) : Kind → Kind
  | .input => if useWire then .wire else .reg
  | _ => .wire

/-- The variants of the copying methods: `copy_params`, `copy_ports`, `copy_localparams`,
    `copy_vars` keep the class; `copy_params_as_localparams` (core/module.py:718) and
    `copy_ports_as_vars` (856) change it. -/
inductive Mode
  | same
  | asLocal
  | asVar (useWire : Bool)

/-- The class of the copy (core/module.py:667, 718, 762, 809, 856). -/
def Mode.kind : Mode → Kind → Kind
  | .same, k => k
  | .asLocal, _ => .localparam
  | .asVar w, k => opposite w k

/-- The copy made by a copying method: `Naming.copy` with the class of the method (core/module.py:718,
    809-812, 856-862). -/
def Naming.copyAs (n : Naming) (mode : Mode) (o : Obj) : Obj :=
  { n.copy o with kind := mode.kind o.kind }

/-- One round of the loop of a copying method (core/module.py:792-814). -/
def copyStep (re : String → String → Bool) (f : Filter) (n : Naming) (mode : Mode)
    (acc : ModSt × Dict) (e : String × Obj) : ModSt × Dict :=
  if f.skip re e.1 then acc
  else (acc.1.store (n.copyAs mode e.2), acc.2.set (n.copyAs mode e.2).name (n.copyAs mode e.2))

/-- `copy_params`, `copy_params_as_localparams`, `copy_localparams`, `copy_ports`,
    `copy_ports_as_vars`, `copy_vars` (core/module.py:628-912) on the table `src`: the module with the
    copies added, and the returned dictionary. -/
def copyAll (re : String → String → Bool) (f : Filter) (n : Naming) (mode : Mode)
    (m : ModSt) (src : Dict) : ModSt × Dict :=
  src.foldl (copyStep re f n mode) (m, [])

/-- The body of the loop of `connect_ports` / `connect_params` (core/module.py:955-965, 1000-1010) for
    a selected key: `first` and `second` are `io_variable` and `variable`, or `global_constant` and
    `local_constant`. -/
def connectOne (strict : Bool) (first second : Dict) (myKey : String) : Option (Option Obj) :=
  match first.get myKey with
  | some o => some (some o)
  | none => match second.get myKey with
    | some o => some (some o)
    | none => if strict then none else some none

/-- `ret[key] = ...` if an object was found (core/module.py:962-965, 1007-1010). -/
def Dict.bind (acc : Dict) (key : String) : Option Obj → Dict
  | some o => acc.set key o
  | none => acc

/-- `connect_params`, `connect_ports` (core/module.py:923-1010); `none` is the `IndexError`. -/
def connectAll (re : String → String → Bool) (f : Filter) (n : Naming) (strict : Bool)
    (first second : Dict) (acc : Dict) : Dict → Option Dict
  | [] => some acc
  | e :: rest =>
    if f.skip re e.1 then connectAll re f n strict first second acc rest
    else
      (connectOne strict first second (n.name e.1)).bind fun r =>
        connectAll re f n strict first second (acc.bind e.1 r) rest

end Module
