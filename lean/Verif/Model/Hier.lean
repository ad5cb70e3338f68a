/-!
# Model of module hierarchies (core/module.py, verilog/to_verilog.py)

`Module.Instance`, `GenerateFor`, `GenerateIf` and `Else` build a hierarchy of objects; `find_module`, `get_modules`,
`has_hook` and `resolve_hook` walk over it, and `write_verilog` writes what `get_modules` returns.

Objects are numbers, in the order of their creation, and a heap gives the contents of each.  Not modelled: `StubModule`
and instances by a string, parameters and ports of instances, and the checks that instance names and scope names
are new (C51 has the same checks for variables).  Recursion has fuel; running out is Python's `RecursionError`.
-/

namespace Hier

/-- A `Module` or `Generate` object (core/module.py:15-45, 1421-1424, 1469-1502): its name, whether it is a `Generate`,
    its instances (name and module), `submodule`, `generate`, for a `GenerateIf` its `Else`, and its hooks. -/
structure Node where
  name : String := ""
  gen : Bool := false
  insts : List (String × Nat) := []
  subs : List (String × Nat) := []
  gens : List (Option String × List Nat) := []
  els : Option Nat := none
  hooks : List Nat := []
  deriving DecidableEq

/-- The objects: the next number and the contents (core/module.py:14-47). -/
structure Heap where
  size : Nat := 0
  node : Nat → Node := fun _ => {}

/-- Change an object (core/module.py:24-47). -/
def Heap.set (h : Heap) (i : Nat) (n : Node) : Heap := { h with node := fun j => if j = i then n else h.node j }

/-- A new object (core/module.py:18-47). -/
def Heap.new (h : Heap) (n : Node) : Heap := ⟨h.size + 1, fun j => if j = h.size then n else h.node j⟩

/-- `d[k] = v` of an `OrderedDict` (core/module.py:36-38). -/
def dictSet {α β : Type} [DecidableEq α] (d : List (α × β)) (k : α) (v : β) : List (α × β) :=
  if d.any (fun e => e.1 = k) then d.map fun e => if e.1 = k then (k, v) else e else d ++ [(k, v)]

/-- `d.get(k)` (core/module.py:36-38). -/
def dictGet {α β : Type} [DecidableEq α] (d : List (α × β)) (k : α) : Option β :=
  (d.find? fun e => e.1 = k).map Prod.snd

/-- The values of `generate`, lists taken apart (core/module.py:1255-1264, 1274-1279, 1452-1457). -/
def Node.blocks (n : Node) : List Nat := n.gens.flatMap Prod.snd

/-- The values of `submodule` (core/module.py:37). -/
def Node.modules (n : Node) : List Nat := n.subs.map Prod.snd

/-- The first result that is not `None` of a search through a list (core/module.py:1255-1269). -/
def firstFound (g : Nat → Option (Option Nat)) : List Nat → Option (Option Nat)
  | [] => some none
  | j :: l =>
    match g j with
    | none => none
    | some (some m) => some (some m)
    | some none => firstFound g l

/-- `find_module` (core/module.py:1252-1269). -/
def findModule (h : Heap) : Nat → Nat → String → Option (Option Nat)
  | 0, _, _ => none
  | f + 1, i, n =>
    match dictGet (h.node i).subs n with
    | some m => some (some m)
    | none => firstFound (fun j => findModule h f j n) ((h.node i).blocks ++ (h.node i).modules)

/-- `modules.update(...)` for the objects of a list (core/module.py:1274-1281, 1452-1459). -/
def collect (g : Nat → Option (List (String × Nat))) : List Nat → List (String × Nat) → Option (List (String × Nat))
  | [], d => some d
  | j :: l, d =>
    match g j with
    | none => none
    | some e => collect g l (e.foldl (fun d x => dictSet d x.1 x.2) d)

/-- `get_modules` of a `Module` and of a `Generate` (core/module.py:1271-1282, 1450-1460). -/
def getModules (h : Heap) : Nat → Nat → Option (List (String × Nat))
  | 0, _ => none
  | f + 1, i =>
    collect (getModules h f) ((h.node i).blocks ++ (h.node i).modules)
      (if (h.node i).gen then [] else [((h.node i).name, i)])

/-- The loop of `Module.Instance` (core/module.py:574-579). -/
def renameLoop (fuel : Nat) (p m : Nat) : Nat → Heap → Option Nat → Option Heap
  | 0, _, _ => none
  | _ + 1, h, none => some h
  | g + 1, h, some mod =>
    if mod = m then some h
    else
      let h := h.set m { h.node m with name := (h.node m).name ++ "_" }
      let h := h.set p { h.node p with subs := dictSet (h.node p).subs (h.node m).name m }
      match findModule h fuel p (h.node m).name with
      | none => none
      | some r => renameLoop fuel p m g h r

/-- `Module.Instance` (core/module.py:558-581). -/
def instanceOf (fuel : Nat) (h : Heap) (p : Nat) (nm : String) (m : Nat) : Option Heap :=
  let h := h.set p { h.node p with insts := (h.node p).insts ++ [(nm, m)] }
  match findModule h fuel p (h.node m).name with
  | none => none
  | some none => some (h.set p { h.node p with subs := dictSet (h.node p).subs (h.node m).name m })
  | some (some mod) => renameLoop fuel p m fuel h (some mod)

/-- `self.generate[scope] = t`, or appending to `self.generate[None]` (core/module.py:525-555). -/
def addBlock (d : List (Option String × List Nat)) (scope : Option String) (t : Nat) : List (Option String × List Nat) :=
  match scope with
  | none => dictSet d none ((dictGet d none).getD [] ++ [t])
  | some s => dictSet d (some s) [t]

/-- The calls that build a hierarchy: `Module(name)`, `p.GenerateFor(..., scope)`, `p.GenerateIf(cond, scope)` (which
    makes its `Else` too), `p.Instance(m, name)`, `p.add_hook(method)` (core/module.py:525-581). -/
inductive Call
  | module (name : String)
  | genFor (p : Nat) (scope : Option String)
  | genIf (p : Nat) (scope : Option String)
  | inst (p : Nat) (name : String) (m : Nat)
  | hook (p : Nat) (x : Nat)
  deriving DecidableEq

/-- One call (core/module.py:18-45, 525-581, 1021-1023, 1424-1426, 1469-1502).  A scope that is already in use raises
    (535-536, 551-552). -/
def Call.apply (fuel : Nat) (h : Heap) : Call → Option Heap
  | .module name => some (h.new { name := name })
  | .genFor p scope =>
    if scope.isSome && ((h.node p).gens.any fun e => e.1 = scope) then none
    else
      let t := h.size
      let h := h.new { name := "GenerateFor", gen := true }
      some (h.set p { h.node p with gens := addBlock (h.node p).gens scope t })
  | .genIf p scope =>
    if scope.isSome && ((h.node p).gens.any fun e => e.1 = scope) then none
    else
      let t := h.size
      let h := h.new { name := "GenerateIf", gen := true, els := some (t + 1) }
      let h := h.new { name := "GenerateIfElse", gen := true }
      some (h.set p { h.node p with gens := addBlock (h.node p).gens scope t })
  | .inst p nm m => instanceOf fuel h p nm m
  | .hook p x => some (h.set p { h.node p with hooks := (h.node p).hooks ++ [x] })

/-- A sequence of calls (core/module.py:525-581). -/
def run (fuel : Nat) (h : Heap) : List Call → Option Heap
  | [] => some h
  | c :: l => (c.apply fuel h).bind fun h => run fuel h l

/-- Results of a list of objects, in order (core/module.py:1255-1264). -/
def concat (g : Nat → Option (List Nat)) : List Nat → Option (List Nat)
  | [] => some []
  | j :: l =>
    match g j, concat g l with
    | some a, some b => some (a ++ b)
    | _, _ => none

/-- The methods `resolve_hook` calls (core/module.py:1232-1241). -/
def resolveHook (h : Heap) : Nat → Nat → Option (List Nat)
  | 0, _ => none
  | f + 1, i => (concat (resolveHook h f) (h.node i).modules).map fun l => (h.node i).hooks ++ l

/-- Whether some object of a list has a hook, in order (core/module.py:1243-1249). -/
def anyFirst (g : Nat → Option Bool) : List Nat → Option Bool
  | [] => some false
  | j :: l =>
    match g j with
    | none => none
    | some true => some true
    | some false => anyFirst g l

/-- `has_hook` (core/module.py:1243-1249). -/
def hasHook (h : Heap) : Nat → Nat → Option Bool
  | 0, _ => none
  | f + 1, i => if (h.node i).hooks ≠ [] then some true else anyFirst (hasHook h f) (h.node i).modules

/-- The hooked methods called by `to_verilog` (core/module.py:1016-1019, 1224-1230). -/
def hooked (h : Heap) (f : Nat) (top : Nat) : Option (List Nat) :=
  match hasHook h f top with
  | none => none
  | some false => some []
  | some true => resolveHook h f top

end Hier
