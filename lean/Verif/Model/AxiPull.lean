/-!
# Model of the requests of an AXI slave

`pull_request`, `pull_write_request` and `pull_read_request` of `AxiSlave` (types/axi.py:2407-2537),
for any number of calls on one slave, and the response and identifier registers set up by its
constructor (types/axi.py:2376-2392).  `AxiLiteSlave` has the same code without lengths and
identifiers (types/axi.py:2611-2616, 2631-2753).

One step is one clock edge out of reset.  Simplified: addresses and identifiers are numbers (the
registers are as wide as the ports); the registers `prev_awvalid` and `prev_arvalid`, of which every
call makes its own, are kept once, as they are all equal; the ready signal of the write data is an input
(`pull_write_data`, or anything else); a call without a condition has one that always holds.
-/

namespace AxiPull

/-- The three functions (types/axi.py:2407, 2463, 2503). -/
inductive Kind where
  | write
  | read
  | both
  deriving DecidableEq, Repr

/-- The inputs of a cycle (types/axi.py:103-145, 167-193, 213-240, 259-300); `wready` and the
    conditions of the calls are set by the user (types/axi.py:1267-1270, 2425). -/
structure In where
  awvalid : Bool
  awaddr : Nat
  awlen : Nat
  awid : Nat
  arvalid : Bool
  araddr : Nat
  arlen : Nat
  arid : Nat
  wvalid : Bool
  wready : Bool
  wlast : Bool
  bready : Bool
  cond : Nat → Bool

/-- The registers made by a call: `addr`, `length`, `writevalid`, `readvalid`
    (types/axi.py:2412-2415, 2470-2472, 2510-2512). -/
structure Call where
  addr : Nat := 0
  length : Nat := 0
  wv : Bool := false
  rv : Bool := false
  deriving DecidableEq, Repr

/-- The state of the slave: the registers of the calls, `prev_awvalid`, `prev_arvalid`
    (types/axi.py:2417-2424), `bvalid`, `bid`, `rid` (types/axi.py:2376-2392). -/
structure St where
  call : Nat → Call
  prevAw : Bool
  prevAr : Bool
  bvalid : Bool
  bid : Nat
  rid : Nat

/-- After reset every register is 0 (types/axi.py:2412-2424). -/
def init : St := ⟨fun _ => {}, false, false, false, 0, 0⟩

/-- What a call adds to `awready` (types/axi.py:2430-2434, 2482-2488). -/
def writeVal (k : Kind) (cond : Bool) (c : Call) (s : St) : Bool :=
  match k with
  | .write => cond && !c.wv && !s.bvalid && s.prevAw
  | .both => cond && (!c.wv && !c.rv && !s.bvalid && s.prevAw)
  | .read => false

/-- What a call adds to `arready` (types/axi.py:2436-2439, 2523-2524). -/
def readVal (k : Kind) (cond : Bool) (c : Call) (s : St) : Bool :=
  match k with
  | .read => cond && !c.rv && s.prevAr
  | .both => cond && (!c.rv && !c.wv && s.prevAr && !s.prevAw)
  | .write => false

/-- `awready`: `_connect_ready` joins what the calls add (types/axi.py:36-45, 2441-2442,
    2490-2491). -/
def awready (n : Nat) (kind : Nat → Kind) (s : St) (i : In) : Bool :=
  (List.range n).any fun k => writeVal (kind k) (i.cond k) (s.call k) s

/-- `arready` (types/axi.py:36-45, 2443-2444, 2526-2527). -/
def arready (n : Nat) (kind : Nat → Kind) (s : St) (i : In) : Bool :=
  (List.range n).any fun k => readVal (kind k) (i.cond k) (s.call k) s

/-- The registers of a call after a clock edge, given the acknowledgements of the write and the
    read channel (types/axi.py:2446-2459, 2493-2500, 2529-2536); lengths have 9 bits
    (types/axi.py:2413, 2471, 2511). -/
def nextCall (k : Kind) (wack rack : Bool) (c : Call) (i : In) : Call :=
  let w : Call := ⟨i.awaddr, (i.awlen + 1) % 2 ^ 9, true, false⟩
  let r : Call := ⟨i.araddr, (i.arlen + 1) % 2 ^ 9, false, true⟩
  let no : Call := { c with wv := false, rv := false }
  match k with
  | .write => if wack then w else no
  | .read => if rack then r else no
  | .both => if wack then w else if rack then r else no

/-- One clock edge (types/axi.py:2376-2392, 2417-2459). -/
def step (n : Nat) (kind : Nat → Kind) (s : St) (i : In) : St :=
  let aw := awready n kind s i
  let ar := arready n kind s i
  { call := fun k => nextCall (kind k) (aw && i.awvalid && !s.bvalid) (ar && i.arvalid) (s.call k) i
    prevAw := i.awvalid
    prevAr := i.arvalid
    bvalid := if i.wvalid && i.wready && i.wlast then true
      else if s.bvalid && i.bready then false else s.bvalid
    bid := if i.awvalid && aw && !s.bvalid then i.awid else s.bid
    rid := if i.arvalid && ar then i.arid else s.rid }

/-- The state after some cycles (types/axi.py:2374, the `Seq` of the slave). -/
def run (n : Nat) (kind : Nat → Kind) (i : Nat → In) : Nat → St
  | 0 => init
  | t + 1 => step n kind (run n kind i t) (i t)

end AxiPull
