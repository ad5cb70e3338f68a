import Verif.Model.Hier

/-!
# Model of `Submodule` (core/submodule.py, core/module.py, core/collect_visitor.py, core/rename_visitor.py)

`Submodule(parent, child, ...)` copies constants and ports of a child module into a parent under a prefix, and makes
an instance whose ports are connected to the copies or to given expressions.

Names in `include` and `exclude` are regular expressions in the code (`re.match('^' + p + '$', key)`); the model takes
the matching of patterns against keys as a parameter `mt`.  Expressions have constants, references, unary and binary
operators and `Cond`, with codes for the operators; `Pointer`, `Slice`, `Cat`, `Repeat` and embedded code in widths
are not modelled, nor `AnyType` ports (for which `get_opposite_variable` raises), `dims`, initial values of ports
(which the builder methods and from_verilog never set), `postfix` and `rename_exclude` (which `Submodule` does not use),
arguments given as tuples of one element, children given as Verilog text (C65 and C53 treat reading), and the renaming of
modules with equal names in `Instance` (C65).
-/

namespace Submod

/-- Expressions of widths and values: `ref` is a reference to a variable without width, `refw` a reference to a
    variable with a width, which the object carries along (core/vtypes.py:536-563). -/
inductive Ex where
  | int (z : Int)
  | ref (n : String)
  | refw (n : String) (w : Ex)
  | un (op : Nat) (a : Ex)
  | bin (op : Nat) (a b : Ex)
  | cond (c t f : Ex)
  deriving DecidableEq

/-- `CollectVisitor.visit` (core/collect_visitor.py:19-91): the names of the variables of an expression and of the
    widths of these variables.  Their values are not visited. -/
def Ex.collect : Ex → List String
  | .int _ => []
  | .ref n => [n]
  | .refw n w => n :: w.collect
  | .un _ a => a.collect
  | .bin _ a b => a.collect ++ b.collect
  | .cond c t f => c.collect ++ t.collect ++ f.collect

/-- `RenameVisitor.visit` (core/rename_visitor.py:21-103): each variable is copied, and the copy renamed. -/
def Ex.rename (p : String) : Ex → Ex
  | .int z => .int z
  | .ref n => .ref (p ++ n)
  | .refw n w => .refw (p ++ n) w
  | .un o a => .un o (a.rename p)
  | .bin o a b => .bin o (a.rename p) (b.rename p)
  | .cond c t f => .cond (c.rename p) (t.rename p) (f.rename p)

/-- A `Parameter` or `Localparam` (core/vtypes.py:750-772); `raw` is `raw_width`, set by from_verilog only. -/
structure Const where
  name : String
  value : Ex
  width : Option Ex := none
  raw : Option (Ex × Ex) := none
  signed : Bool := false
  deriving DecidableEq

/-- `_ParameterVariable.__init__` (core/vtypes.py:752-759) after the constants `ds`: a value that is a constant itself
    is replaced by the value of that constant. -/
def declare (ds : List Const) (d : Const) : Const :=
  match d.value with
  | .ref n | .refw n _ => match ds.find? fun d' => d'.name = n with
    | some d' => { d with value := d'.value }
    | none => d
  | _ => d

/-- The classes `Input`, `Output` and `Inout` (core/vtypes.py:643-651). -/
inductive Dir where
  | input | output | inout
  deriving DecidableEq

/-- A port (core/module.py:47-89). -/
structure Port where
  name : String
  dir : Dir
  width : Option Ex := none
  raw : Option (Ex × Ex) := none
  signed : Bool := false
  deriving DecidableEq

/-- The child: `global_constant`, `local_constant` and `io_variable` (core/module.py:604-613). -/
structure Child where
  params : List Const := []
  locals : List Const := []
  ports : List Port := []

/-- The kinds of objects of the parent that occur here; `other` stands for functions, tasks and the like (core/submodule.py:14-40). -/
inductive Kind where
  | param | localparam | io (d : Dir) | reg | wire | inst | other
  deriving DecidableEq

/-- An object in `items` of the parent (core/module.py:1021-1060). -/
structure Item where
  kind : Kind
  name : String
  value : Option Ex := none
  width : Option Ex := none
  raw : Option (Ex × Ex) := none
  signed : Bool := false
  deriving DecidableEq

/-- The filter of the `copy_*` methods (core/module.py:648-664 and the same lines in the others): without `include`
    everything is included, and `exclude` has the last word. -/
def keep (mt : String → String → Bool) (incl excl : List String) (key : String) : Bool :=
  (incl.isEmpty || incl.any fun p => mt p key) && !(excl.any fun p => mt p key)

/-- `copy_params_as_localparams` (core/module.py:675-721): a new `Localparam` without `raw_width`. -/
def copyParams (mt : String → String → Bool) (p : String) (incl excl : List String) (ds : List Const) : List Item :=
  (ds.filter fun d => keep mt incl excl d.name).map fun d =>
    { kind := .localparam
      name := p ++ d.name
      value := some (d.value.rename p)
      width := d.width.map (Ex.rename p)
      signed := d.signed }

/-- `copy_localparams` (core/module.py:723-768): a deep copy, so that `raw_width` stays as it was. -/
def copyLocals (mt : String → String → Bool) (p : String) (incl : List String) (ds : List Const) : List Item :=
  (ds.filter fun d => keep mt incl [] d.name).map fun d =>
    { kind := .localparam
      name := p ++ d.name
      value := some (d.value.rename p)
      width := d.width.map (Ex.rename p)
      raw := d.raw
      signed := d.signed }

/-- `copy_ports` (core/module.py:770-815): a deep copy, so that `raw_width` stays as it was. -/
def copyPorts (mt : String → String → Bool) (p : String) (incl : List String) (ps : List Port) : List Item :=
  (ps.filter fun q => keep mt incl [] q.name).map fun q =>
    { kind := .io q.dir
      name := p ++ q.name
      width := q.width.map (Ex.rename p)
      raw := q.raw
      signed := q.signed }

/-- `get_opposite_variable` (core/module.py:1212-1221). -/
def opposite (useWire : Bool) : Dir → Kind
  | .input => if useWire then .wire else .reg
  | .output => .wire
  | .inout => .wire

/-- `copy_ports_as_vars` (core/module.py:817-865). -/
def copyVars (mt : String → String → Bool) (p : String) (incl excl : List String) (useWire : Bool) (ps : List Port) :
    List Item :=
  (ps.filter fun q => keep mt incl excl q.name).map fun q =>
    { kind := opposite useWire q.dir
      name := p ++ q.name
      width := q.width.map (Ex.rename p)
      signed := q.signed }

/-- The argument `arg_params` or `arg_ports`: a list of expressions, or a dictionary or list of pairs (core/submodule.py:43-73). -/
inductive Args where
  | pos (l : List Ex)
  | named (l : List (String × Ex))

/-- The dictionary of arguments (core/submodule.py:43-71): expressions without names are zipped with the names of the
    child, pairs are put into an `OrderedDict`. -/
def Args.dict (keys : List String) : Args → List (String × Ex)
  | .pos l => (keys.zip l).foldl (fun d x => Hier.dictSet d x.1 x.2) []
  | .named l => l.foldl (fun d x => Hier.dictSet d x.1 x.2) []

/-- The arguments of `Submodule` other than parent and child (core/submodule.py:13-16, 30-38): `prefix` is by default
    the name and an underscore. -/
structure Opts where
  name : String
  pre : Option String := none
  params : Args := .named []
  ports : Args := .named []
  asIo : List String := []
  asWire : List String := []

/-- The prefix (core/submodule.py:35-38). -/
def Opts.prefix (o : Opts) : String := o.pre.getD (o.name ++ "_")

/-- `used_params` (core/submodule.py:90-96). -/
def usedNames (c : Child) : List String :=
  c.ports.flatMap fun q => q.name :: (q.width.elim [] Ex.collect)

/-- `new_param.value = param` for the copies of the parameters given (core/submodule.py:120-124). -/
def setValues (p : String) (args : List (String × Ex)) (l : List Item) : List Item :=
  l.map fun i =>
    match args.find? fun a => p ++ a.1 = i.name with
    | some a => { i with value := some a.2 }
    | none => i

/-- What `Submodule` makes: the objects of the parent after the call, and the arguments of the instance (core/submodule.py:120-171). -/
structure Out where
  items : List Item
  params : List (String × Ex)
  ports : List (String × Ex)

/-- `new_params` (core/submodule.py:98-105, 120-124). -/
def newParams (mt : String → String → Bool) (c : Child) (p : String) (ap : List (String × Ex)) : List Item :=
  if ap.isEmpty then [] else setValues p ap (copyParams mt p (ap.map Prod.fst) [] c.params)

/-- `new_localparams` (core/submodule.py:107-118). -/
def newLocals (mt : String → String → Bool) (c : Child) (p : String) (ap : List (String × Ex)) : List Item :=
  if (usedNames c).isEmpty then []
  else copyParams mt p (usedNames c) (ap.map Prod.fst) c.params ++ copyLocals mt p (usedNames c) c.locals

/-- `new_ports` (core/submodule.py:126-145). -/
def newPorts (mt : String → String → Bool) (c : Child) (p : String) (aq : List (String × Ex)) (o : Opts) :
    List Item :=
  (if o.asIo.isEmpty then [] else copyPorts mt p o.asIo c.ports) ++
  copyVars mt p [] (aq.map Prod.fst ++ o.asIo ++ o.asWire) false c.ports ++
  (if o.asWire.isEmpty then [] else copyVars mt p o.asWire [] true c.ports)

/-- `all_params` (core/submodule.py:147-155). -/
def allParams (c : Child) (p : String) (np : List Item) : List (String × Ex) :=
  c.params.filterMap fun d => if np.any (fun i => i.name = p ++ d.name) then some (d.name, .ref (p ++ d.name)) else none

/-- `all_ports` (core/submodule.py:157-167). -/
def allPorts (c : Child) (p : String) (aq : List (String × Ex)) (nq : List Item) : List (String × Ex) :=
  c.ports.filterMap fun q =>
    match Hier.dictGet aq q.name with
    | some e => some (q.name, e)
    | none => if nq.any (fun i => i.name = p ++ q.name) then some (q.name, .ref (p ++ q.name)) else none

/-- `Submodule.__init__` (core/submodule.py:13-171) for a parent with the given objects.  A parameter that the child does
    not have is a `KeyError`, an instance name that is taken a `ValueError` (core/module.py:565, 1284-1293). -/
def submodule (mt : String → String → Bool) (parent : List Item) (c : Child) (o : Opts) : Except String Out :=
  let p := o.prefix
  let ap := o.params.dict (c.params.map Const.name)
  let aq := o.ports.dict (c.ports.map Port.name)
  let np := newParams mt c p ap
  if !(ap.all fun a => np.any fun i => i.name = p ++ a.1) then .error "KeyError"
  else
    let nq := newPorts mt c p aq o
    let items := parent ++ np ++ newLocals mt c p ap ++ nq
    if items.any (fun i => i.name = o.name) then .error "ValueError"
    else .ok ⟨items ++ [{ kind := .inst, name := o.name }], allParams c p np, allPorts c p aq nq⟩

/-! ## The Verilog that is written -/

/-- Arithmetic of constant expressions: the operators, and the conversion of a value to the type of a constant with an
    optional width (IEEE 1364-2005, 12.2), which does nothing when done again. -/
structure Sem where
  un : Nat → Int → Int
  bin : Nat → Int → Int → Int
  fit : Option Int → Bool → Int → Int
  fit_fit : ∀ w s v, fit w s (fit w s v) = fit w s v

/-- The value of an expression, `none` when a name has none; only the names of variables are written
    (verilog/to_verilog.py:163-190). -/
def Ex.eval (S : Sem) (ρ : String → Option Int) : Ex → Option Int
  | .int z => some z
  | .ref n => ρ n
  | .refw n _ => ρ n
  | .un o a => (a.eval S ρ).map (S.un o)
  | .bin o a b => match a.eval S ρ, b.eval S ρ with
    | some x, some y => some (S.bin o x y)
    | _, _ => none
  | .cond c t f => match c.eval S ρ, t.eval S ρ, f.eval S ρ with
    | some x, some y, some z => some (if x ≠ 0 then y else z)
    | _, _, _ => none

/-- `make_width` (verilog/to_verilog.py:553-564): the range written, `raw_width` first, as a number of bits.  The
    outer `none` is a range with a name that has no value, the inner one an absent range. -/
def bits (S : Sem) (ρ : String → Option Int) (raw : Option (Ex × Ex)) (width : Option Ex) : Option (Option Int) :=
  match raw with
  | some (m, l) => match m.eval S ρ, l.eval S ρ with
    | some x, some y => some (some (x - y + 1))
    | _, _ => none
  | none => match width with
    | some w => (w.eval S ρ).map some
    | none => some none

end Submod
