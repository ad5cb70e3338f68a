import Mathlib.Data.Nat.Log

/-!
# Model of the IP-XACT description: clocks, resets, buses, ports, address maps

`to_ipxact` (types/ipxact.py:14-138) and the parts of `ComponentGen` (types/componentgen.py) that
describe the interfaces of the module.  Dictionaries are association lists with distinct keys.

Simplified: the XML elements are records with the texts that matter; `clk_ports` and `rst_ports`
are given as dictionaries (with lists as values) or not at all; `math.ceil(math.log(n, 2))` is
exact.  Not modelled: port maps of the buses, interrupts, views, file sets, the written files.
-/

namespace IpXact

/-- The clock or reset of a bus: whether it is a variable, and an input of its module
    (types/ipxact.py:71-72, 77-78). -/
structure Sig where
  name : String
  isVar : Bool := true
  isInput : Bool := true
  deriving DecidableEq, Repr

/-- A bus interface (types/ipxact.py:64-68). -/
structure Bus where
  name : String
  clk : Sig
  rst : Sig
  deriving DecidableEq, Repr

/-- The name if the signal is an input of the module, else `None` (types/ipxact.py:71-81). -/
def Sig.port (s : Sig) : Option String := if s.isVar && s.isInput then some s.name else none

/-- `clk_ports` and `rst_ports` (types/ipxact.py:20-33). -/
structure Ports where
  clk : List (String × List String) := []
  rst : List (String × String) := []
  deriving DecidableEq, Repr

/-- `if clk not in clk_ports: clk_ports[clk] = []` (types/ipxact.py:83-84). -/
def addClk (d : List (String × List String)) (c : String) : List (String × List String) :=
  if d.any fun e => e.1 = c then d else d ++ [(c, [])]

/-- `if rst not in clk_ports[clk]: clk_ports[clk].append(rst)` (types/ipxact.py:86-87). -/
def addAssoc (d : List (String × List String)) (c r : String) : List (String × List String) :=
  d.map fun e => if e.1 = c ∧ r ∉ e.2 then (e.1, e.2 ++ [r]) else e

/-- `if rst not in rst_ports: rst_ports[rst] = 'ACTIVE_HIGH'` (types/ipxact.py:89-90). -/
def addRst (d : List (String × String)) (r : String) : List (String × String) :=
  if d.any fun e => e.1 = r then d else d ++ [(r, "ACTIVE_HIGH")]

/-- One pass of the loop over the buses (types/ipxact.py:70-90). -/
def assocBus (p : Ports) (b : Bus) : Ports :=
  let clk := match b.clk.port with
    | none => p.clk
    | some c =>
      match b.rst.port with
      | none => addClk p.clk c
      | some r => addAssoc (addClk p.clk c) c r
  let rst := match b.rst.port with
    | none => p.rst
    | some r => addRst p.rst r
  ⟨clk, rst⟩

/-- The loop over the buses (types/ipxact.py:70-90). -/
def assocAll (p : Ports) (bs : List Bus) : Ports := bs.foldl assocBus p

/-- The buses named in `ASSOCIATED_BUSIF` of clock `c` (types/componentgen.py:406-411). -/
def busIf (bs : List Bus) (c : String) : List String :=
  (bs.filter fun b => b.clk.isVar && b.clk.isInput && b.clk.name = c).map Bus.name

/-- The description of a clock: `ASSOCIATED_BUSIF` and `ASSOCIATED_RESET`
    (types/componentgen.py:155-156, 395-432). -/
structure ClockEntry where
  name : String
  buses : List String
  resets : List String
  deriving DecidableEq, Repr

/-- The clocks described (types/componentgen.py:155-156). -/
def clocks (p : Ports) (bs : List Bus) : List ClockEntry :=
  (assocAll p bs).clk.map fun e => ⟨e.1, busIf bs e.1, e.2⟩

/-- The resets described, with their polarities (types/componentgen.py:152-153). -/
def resets (p : Ports) (bs : List Bus) : List (String × String) := (assocAll p bs).rst

/-- `range` of the memory map of a slave with `n` registers (types/componentgen.py:615). -/
def mapRange (n : Nat) : Nat := 2 ^ Nat.clog 2 (max n 4096)

/-- The byte address of register `i` of `AXISRegister` and `AXISLiteRegister`: the number of the
    register is `addr >> log2(datawidth // 8)` (thread/axis.py:85-86, 104). -/
def regAddr (bytes i : Nat) : Nat := bytes * i

/-- `left` and `right` of the vector of a port, none without a width (types/componentgen.py:695-697). -/
def portVector (width : Option Int) : Option (Int × Int) := width.map fun w => (w - 1, 0)

end IpXact
