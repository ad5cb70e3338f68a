/-!
# Model of `split_read_write`

`split_read_write` (types/axi.py:4750-4792) gives the read channels and the write channels of one AXI
master of a simulated design to two ports of a multi-port memory model.  It works on the dictionary
of `copy_sim_ports`: a `Reg` for every input of the design, a `Wire` for every output (with
`use_wire=True` a `Wire` for both).

Simplified: the module is the list of its identifiers and the list of the drivers added; the
temporary wire of `Reg.connect` (core/vtypes.py:585-588) is left out, a driver copies the value (source
and destination have the same width and signedness, core/module.py:270-330).
-/

namespace AxiSplit

/-- Kind of a variable object (core/vtypes.py:655-760). -/
inductive Kind
  | reg | wire | other
  deriving DecidableEq, Repr

/-- An entry of `ports`: the key, the name of the object, its kind (types/axi.py:4755). -/
structure Port where
  key : String
  name : String
  kind : Kind
  deriving DecidableEq, Repr

/-- What drives a net: another net or the constant 0 (types/axi.py:4761, 4764, 4768). -/
inductive Drv
  | net (n : String)
  | zero
  deriving DecidableEq, Repr

/-- The module: its identifiers, and the drivers added, oldest first (core/module.py:105-113). -/
structure Mod where
  names : List String
  drv : List (String × Drv) := []
  deriving DecidableEq, Repr

/-- `str.startswith` (types/axi.py:4758, 4778-4779). -/
def starts (s p : String) : Bool := p.toList.isPrefixOf s.toList

/-- The test for the channels AR and R (types/axi.py:4758). -/
def isRead (pre key : String) : Bool := starts key (pre ++ "_ar") || starts key (pre ++ "_r")

/-- The test for the channels AW, W and B (types/axi.py:4778-4779). -/
def isWrite (pre key : String) : Bool :=
  starts key (pre ++ "_aw") || starts key (pre ++ "_w") || starts key (pre ++ "_b")

/-- `m.RegLike(port, name=n)`, `m.WireLike(port, name=n)`: raises if the name is taken
    (core/module.py:1284-1293). -/
def Mod.define (m : Mod) (n : String) : Option Mod :=
  if n ∈ m.names then none else some { m with names := m.names ++ [n] }

/-- `x.connect(v)` and `x.assign(v)` (core/vtypes.py:581-592). -/
def Mod.drive (m : Mod) (n : String) (d : Drv) : Mod := { m with drv := m.drv ++ [(n, d)] }

/-- One pass of either loop (types/axi.py:4756-4770, 4775-4790), `mine` being the test for the
    channels of this half: the new port and the module afterwards. -/
def copyPort (mine : String → Bool) (pfx : String) (m : Mod) (p : Port) : Option (Port × Mod) :=
  let n := pfx ++ p.name
  (m.define n).map fun m =>
    if mine p.key then
      if p.kind = .reg then (⟨n, n, .reg⟩, m.drive p.name (.net n))
      else (⟨n, n, .wire⟩, m.drive n (.net p.name))
    else
      if p.kind = .wire then (⟨n, n, .wire⟩, m.drive n .zero) else (⟨n, n, .wire⟩, m)

/-- Either loop (types/axi.py:4754-4770, 4773-4790). -/
def copyPorts (mine : String → Bool) (pfx : String) : List Port → Mod → Option (List Port × Mod)
  | [], m => some ([], m)
  | p :: ps, m =>
    (copyPort mine pfx m p).bind fun r =>
      (copyPorts mine pfx ps r.2).map fun q => (r.1 :: q.1, q.2)

/-- `split_read_write` (types/axi.py:4750-4792). -/
def split (m : Mod) (ports : List Port) (pre : String) (rp : String := "r_") (wp : String := "w_") :
    Option (List Port × List Port × Mod) :=
  (copyPorts (isRead pre) rp ports m).bind fun r =>
    (copyPorts (isWrite pre) wp ports r.2).map fun w => (r.1, w.1, w.2)

/-- The values of the nets agree with the drivers (Verilog: `assign`, and `always @*` with one
    blocking assignment, core/vtypes.py:585-590). -/
def Settled (m : Mod) (env : String → Int) : Prop :=
  ∀ e ∈ m.drv, env e.1 = match e.2 with
    | .net n => env n
    | .zero => 0

/-- `copy_sim_ports` (core/module.py:914-920): inputs of the design as `Reg`, or as `Wire` with
    `use_wire`, outputs as `Wire`; without prefix or postfix key and name are the name of the port. -/
def simPort (useWire isInput : Bool) (name : String) : Port :=
  ⟨name, name, if isInput && !useWire then .reg else .wire⟩

end AxiSplit
