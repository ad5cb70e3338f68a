import Mathlib.Data.Nat.Notation

/-!
# The DMA data paths (thread/axim.py:870-1578)

State 2 of the data state machines, for the operation that is selected (`op_sel_buf == op_id`).  One step is one
clock edge without reset; words are unsigned.  `on` says that the machine is in state 2; in its other states it
does not touch the registers below except that state 1 clears `count` and `wvalid`.  Not modelled here: state 0
(taking an entry from the request FIFO) and the RAM burst machines (`Model/Ram`), which appear as streams.
-/

namespace Dma

/-- `log_pack_size = int(math.log(pack_size, 2))` (thread/axim.py:947, 1036, 1373, 1485): the width of `count`. -/
def countMod (pack : ℕ) : ℕ := 2 ^ Nat.log2 pack

/-! ## Read, same width (thread/axim.py:880-935) -/

/-- The state and `read_local_size_buf` (thread/axim.py:906-929). -/
structure RSame where
  on : Bool
  size : ℕ

/-- One clock edge (thread/axim.py:926-935); the RAM burst is given `rdata` and `rvalid` themselves
    (thread/axim.py:918-922). -/
def RSame.step (σ : RSame) (rvalid : Bool) : RSame :=
  if σ.on then
    { on := !(rvalid && decide (σ.size ≤ 1))
      size := if rvalid then σ.size - 1 else σ.size }
  else σ

/-! ## Read, RAM word wider than AXI word (thread/axim.py:937-1024) -/

/-- Registers (thread/axim.py:984-988 and `read_local_size_buf`). -/
structure RNarrow where
  on : Bool
  count : ℕ
  wdata : ℕ
  wvalid : Bool
  size : ℕ

/-- Entering state 2 (thread/axim.py:993-997). -/
def RNarrow.enter (size wdata : ℕ) : RNarrow := ⟨true, 0, wdata, false, size⟩

/-- One clock edge with the AXI read data inputs (thread/axim.py:999-1024); `rready` is 1 in state 2. -/
def RNarrow.step (pack dw : ℕ) (σ : RNarrow) (rvalid : Bool) (rdata : ℕ) : RNarrow :=
  if σ.on then
    let cat := rdata * 2 ^ (pack * dw - dw) + σ.wdata / 2 ^ dw
    let more := rvalid && decide (σ.count < pack - 1)
    let full := rvalid && σ.count == pack - 1
    { on := !(full && decide (σ.size ≤ 1))
      count := if full then 0 else if more then (σ.count + 1) % countMod pack else σ.count
      wdata := if full || more then cat else σ.wdata
      wvalid := full
      size := if full then σ.size - 1 else σ.size }
  else σ

/-! ## Read, AXI word wider than RAM word (thread/axim.py:1026-1127) -/

/-- Registers (thread/axim.py:1073-1077 and `read_local_size_buf`). -/
structure RWide where
  on : Bool
  count : ℕ
  wdata : ℕ
  wvalid : Bool
  size : ℕ

/-- Entering state 2 (thread/axim.py:1083-1087). -/
def RWide.enter (size wdata : ℕ) : RWide := ⟨true, 0, wdata, false, size⟩

/-- `rready`: a beat is taken only at `count == 0` (thread/axim.py:1091-1092). -/
def RWide.rready (σ : RWide) : Bool := σ.on && σ.count == 0

/-- One clock edge (thread/axim.py:1089-1127). -/
def RWide.step (pack rw : ℕ) (σ : RWide) (rvalid : Bool) (rdata : ℕ) : RWide :=
  if σ.on then
    let load := rvalid && σ.count == 0
    let shift := decide (σ.count > 0)
    { on := !(decide (σ.size ≤ 1) && (load || shift))
      count := if σ.count = pack - 1 then 0 else if load || shift then (σ.count + 1) % countMod pack else σ.count
      wdata := if load then rdata else if shift then σ.wdata / 2 ^ rw else σ.wdata
      wvalid := load || shift
      size := if load || shift then σ.size - 1 else σ.size }
  else σ

/-- The word the RAM is given: `wdata[:ram_datawidth]` (thread/axim.py:1078). -/
def RWide.word (rw : ℕ) (σ : RWide) : ℕ := σ.wdata % 2 ^ rw

/-! ## Write -/

/-- Inputs of a write data machine: the RAM word on offer with its last flag, `wready`, and the head of the
    request FIFO (the length of the next burst in AXI words; thread/axim.py:1336-1353). -/
structure WrIn where
  rvalid : Bool
  rdata : ℕ
  rlast : Bool
  wready : Bool
  fifo : Option ℕ

/-- The valid register of the write data channel after an edge (types/axi.py:564-593, see `Model/AxiChan`):
    `send` is the condition of the `write_data` call. -/
def nextValid (wv wready send : Bool) : Bool := (send && (wready || !wv)) || (wv && !wready)

/-! ### Same width (thread/axim.py:1290-1361) -/

/-- Registers: `write_size_buf` (thread/axim.py:1343-1356), and the valid register of the write data channel. -/
structure WSame where
  on : Bool
  size : ℕ
  wv : Bool

/-- `rready` (thread/axim.py:1334-1335). -/
def WSame.rready (σ : WSame) (i : WrIn) : Bool := (i.wready || !σ.wv) && decide (σ.size > 0)

/-- The RAM word taken from the RAM burst at this edge (`rvalid` and `rready`; thread/ram.py:225-246). -/
def WSame.took (σ : WSame) (i : WrIn) : Option (ℕ × Bool) :=
  if i.rvalid && σ.rready i then some (i.rdata, i.rlast) else none

/-- The beat given to `write_data` (thread/axim.py:1351-1353); the call is not tied to state 2. -/
def WSame.sent (σ : WSame) (i : WrIn) : Option (ℕ × Bool) :=
  if i.rvalid && σ.rready i then some (i.rdata, i.rlast || σ.size == 1) else none

/-- One clock edge (thread/axim.py:1342-1361). -/
def WSame.step (σ : WSame) (i : WrIn) : WSame :=
  let go := i.rvalid && σ.rready i
  { on := σ.on && !(go && i.rlast)
    size := if σ.on && go then σ.size - 1
      else if σ.on && σ.size == 0 then i.fifo.getD σ.size else σ.size
    wv := nextValid σ.wv i.wready go }

/-! ### RAM word wider than AXI word (thread/axim.py:1363-1473) -/

/-- Registers (thread/axim.py:1415-1416, 1440-1443) and the valid register of the channel. -/
structure WNarrow where
  on : Bool
  count : ℕ
  wdata : ℕ
  wlast : Bool
  size : ℕ
  wv : Bool

/-- `rready` (thread/axim.py:1417-1418). -/
def WNarrow.rready (σ : WNarrow) (i : WrIn) : Bool :=
  (i.wready || !σ.wv) && σ.count == 0 && decide (σ.size > 0)

/-- `wcond` (thread/axim.py:1444-1447). -/
def WNarrow.wcond (σ : WNarrow) (i : WrIn) : Bool :=
  σ.on && ((i.wready || !σ.wv) && decide (σ.size > 0)) && (decide (σ.count > 0) || i.rvalid)

/-- The RAM word taken from the RAM burst at this edge (`rvalid` and `rready`; thread/ram.py:225-246). -/
def WNarrow.took (σ : WNarrow) (i : WrIn) : Option (ℕ × Bool) :=
  if i.rvalid && σ.rready i then some (i.rdata, i.rlast) else none

/-- The beat given to `write_data` (thread/axim.py:1448-1450). -/
def WNarrow.sent (dw : ℕ) (σ : WNarrow) (i : WrIn) : Option (ℕ × Bool) :=
  if σ.wcond i then
    some ((if σ.count = 0 then i.rdata % 2 ^ dw else σ.wdata % 2 ^ dw), σ.size == 1)
  else none

/-- One clock edge (thread/axim.py:1430-1473). -/
def WNarrow.step (pack dw : ℕ) (σ : WNarrow) (i : WrIn) : WNarrow :=
  let go := σ.wcond i
  let last := σ.count == pack - 1
  { on := σ.on && !(go && last && σ.wlast)
    count := if go && last then 0 else if go then (σ.count + 1) % countMod pack else σ.count
    wdata := if go then (if σ.count = 0 then i.rdata / 2 ^ dw else σ.wdata / 2 ^ dw) else σ.wdata
    wlast := if go && σ.count == 0 then i.rlast else σ.wlast
    size := if go then σ.size - 1
      else if σ.on && σ.size == 0 then i.fifo.getD σ.size else σ.size
    wv := nextValid σ.wv i.wready go }

/-! ### AXI word wider than RAM word (thread/axim.py:1475-1578) -/

/-- Registers (thread/axim.py:1531-1532, 1557-1558) and the valid register of the channel. -/
structure WWide where
  on : Bool
  count : ℕ
  wdata : ℕ
  size : ℕ
  wv : Bool

/-- `rready` (thread/axim.py:1533-1534). -/
def WWide.rready (σ : WWide) (i : WrIn) : Bool :=
  (i.wready || !σ.wv || decide (σ.count > 0)) && decide (σ.size > 0)

/-- The RAM word taken from the RAM burst at this edge (`rvalid` and `rready`; thread/ram.py:225-246). -/
def WWide.took (σ : WWide) (i : WrIn) : Option (ℕ × Bool) :=
  if i.rvalid && σ.rready i then some (i.rdata, i.rlast) else none

/-- `_wdata` (thread/axim.py:1559). -/
def WWide.cat (pack rw : ℕ) (σ : WWide) (i : WrIn) : ℕ := i.rdata * 2 ^ (pack * rw - rw) + σ.wdata / 2 ^ rw

/-- `wcond` (thread/axim.py:1555-1556). -/
def WWide.wcond (pack : ℕ) (σ : WWide) (i : WrIn) : Bool :=
  σ.on && σ.count == pack - 1 && i.rvalid && σ.rready i

/-- The beat accepted by `write_data` (thread/axim.py:1559-1561): the channel takes it when `wready` or not
    `wvalid`. -/
def WWide.sent (pack rw : ℕ) (σ : WWide) (i : WrIn) : Option (ℕ × Bool) :=
  if σ.wcond pack i && (i.wready || !σ.wv) then some (σ.cat pack rw i, i.rlast || σ.size == 1) else none

/-- One clock edge (thread/axim.py:1545-1578); burst lengths are converted to RAM words
    (`write_size_fifo << log_pack_size`). -/
def WWide.step (pack rw : ℕ) (σ : WWide) (i : WrIn) : WWide :=
  let go := σ.on && i.rvalid && σ.rready i
  let last := σ.count == pack - 1
  { on := σ.on && !(go && last && i.rlast)
    count := if go && last then 0 else if go then (σ.count + 1) % countMod pack else σ.count
    wdata := if go then σ.cat pack rw i else σ.wdata
    size := if go then σ.size - 1
      else if σ.on && σ.size == 0 then (i.fifo.map (· * countMod pack)).getD σ.size else σ.size
    wv := nextValid σ.wv i.wready (σ.wcond pack i) }

end Dma
