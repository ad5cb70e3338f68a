import Mathlib.Data.Int.ModEq

/-!
# Model of the stream operators `RingBuffer` and `Scratchpad` (stream/stypes.py:4151-4356)

A stream operator works on items that pass the stages of the pipeline: `svalid` of a stage says that it holds an item, and
`senable` (`oready`) moves all the stages at once (stream/stream.py:552-595).  Time is counted in clock cycles; a cycle in
which `senable` is low changes nothing.

One read port is modelled: each `read` makes its own port of the RAM (stypes.py:4172-4176), the writes do not depend on
the ports for reading, and the read registers of the ports are apart from each other (types/ram.py:73-88).

Not modelled: the scheduler, which gives the stages (the model has the distance of the stages of the read and the buffer as
a parameter `diff`, at least one), reset in the middle of a run, streams without `ivalid` or `oready`, initiation intervals
other than one, and the points of fixed point numbers.
-/

namespace RingBuf

/-- The parameters of a buffer and of a read: `length`, the width of the addresses (stypes.py:4184, 4230: `ceil(log2
    length)`), the width of the offset, and the distance of the stages (stypes.py:4236). -/
structure Cfg where
  length : ℕ
  aw : ℕ
  ow : ℕ
  diff : ℕ

/-- The width in which the address of the read is computed: `length` is a plain decimal number, of 32 bits, the operands are
    extended to the largest width (stypes.py:4238-4241). -/
def Cfg.cw (c : Cfg) : ℕ := max 32 (max c.aw c.ow)

/-- The wires in one cycle: `senable`, `svalid` of the stage of the buffer, the argument `enable` of the buffer (true if not
    given), the data; the bits of the offset and the argument `enable` of the read, in the stage of the read
    (stypes.py:4190-4204, 4234-4247). -/
structure In (α : Type) where
  en : Bool
  valid : Bool
  wen : Bool := true
  data : α
  off : ℕ := 0
  ren : Bool := true

/-- The registers: `waddr` (stypes.py:4194), the RAM, `svalid` of the stages after that of the buffer (stream/stream.py:581-591),
    the registers of `seq.Prev` (seq/seq.py:174-180), the read register of the port (types/ram.py:22-24). -/
structure St (α : Type) where
  waddr : ℕ
  mem : ℕ → α
  vs : ℕ → Bool
  prev : ℕ → ℕ
  rdata : α

/-- Reset values (stypes.py:4194, stream.py:587, seq.py:178); the RAM has no reset and holds some words. -/
def St.init {α : Type} (m : ℕ → α) (r : α) : St α where
  waddr := 0
  mem := m
  vs _ := false
  prev _ := 0
  rdata := r

/-- `raddr` (stypes.py:4239-4244): `waddr` is unsigned, so the sum, the comparison and the difference are unsigned, and the
    offset is extended with zeros; the wire has `aw` bits. -/
def raddr (c : Cfg) (base off : ℕ) : ℕ :=
  let v := (base + off) % 2 ^ c.cw
  (if c.length ≤ v then (v + 2 ^ c.cw - c.length) % 2 ^ c.cw else v) % 2 ^ c.aw

/-- `svalid` of the stage of the read (stream/stream.py:578-591). -/
def St.ov {α : Type} (c : Cfg) (s : St α) : Bool := s.vs (c.diff - 1)

/-- The valid chain at a clock edge with `senable` (stream/stream.py:585-589). -/
def shift (v : Bool) (vs : ℕ → Bool) : ℕ → Bool
  | 0 => v
  | j + 1 => vs j

/-- The registers of `seq.Prev` at a clock edge with `renable_base` (seq.py:175-180). -/
def push (a : ℕ) (prev : ℕ → ℕ) : ℕ → ℕ
  | 0 => a
  | j + 1 => prev j

/-- One clock edge (stypes.py:4194-4206, 4234-4252; types/ram.py:73-84: a read sees the words before the edge). -/
def St.step {α : Type} (c : Cfg) (i : In α) (s : St α) : St α where
  waddr := if i.en && i.valid && i.wen then
      (if s.waddr = c.length - 1 then 0 else s.waddr + 1) % 2 ^ c.aw
    else s.waddr
  mem := if i.en && i.valid && i.wen then Function.update s.mem s.waddr i.data else s.mem
  vs := if i.en then shift i.valid s.vs else s.vs
  prev := if i.en && s.ov c then push s.waddr s.prev else s.prev
  rdata := if i.en && s.ov c && i.ren then s.mem (raddr c (s.prev (c.diff - 1)) i.off) else s.rdata

/-- The states of a run (stream/stypes.py:4194-4206). -/
def run {α : Type} (c : Cfg) (i : ℕ → In α) (m : ℕ → α) (r : α) : ℕ → St α
  | 0 => St.init m r
  | t + 1 => (run c i m r t).step c (i t)

/-- `sig_data` of the buffer itself (stypes.py:4190-4191, 4206): the wire `wdata`, without a register. -/
def sig {α : Type} (i : In α) : α := i.data

/-- An operator of one stage after the buffer that takes the buffer as its operand (stypes.py:587-592): its register. -/
def useBuf {α β : Type} (f : α → β) (i : ℕ → In α) (r : β) : ℕ → β
  | 0 => r
  | t + 1 => if (i t).en then f (sig (i t)) else useBuf f i r t

/-- A number as the value of a wire of `w` bits (stream/stypes.py:4182-4206). -/
def asBits (w : ℕ) (z : ℤ) : ℕ := (z % 2 ^ w).toNat

/-- The value of the bits of a signed wire of `w` bits (stream/stypes.py:4182-4206). -/
def asSigned (w n : ℕ) : ℤ := if 2 ^ w ≤ 2 * n then (n : ℤ) - 2 ^ w else n

/-- The value of the output of a read of a buffer of signed words of `dw` bits with an offset of `ow` bits: `rdata` has the
    larger one of the widths (stypes.py:1504-1506, 4229, 4234), is signed, and is assigned the port of the RAM, which is not
    signed (stypes.py:4250; types/ram.py:131-132). -/
def outValue (dw ow : ℕ) (word : ℕ) : ℤ := asSigned (max dw ow) word

/-! ## Scratchpad -/

/-- The wires in one cycle (stypes.py:4282-4312, 4334-4350): as for `RingBuffer`, with the address for writing, and the address
    for reading in the stage of the read. -/
structure PadIn (α : Type) where
  en : Bool
  valid : Bool
  wen : Bool := true
  waddr : ℕ
  data : α
  raddr : ℕ := 0
  ren : Bool := true

/-- The RAM, `svalid` of the stages after that of the scratchpad, the read register (stream/stypes.py:4282-4312). -/
structure Pad (α : Type) where
  mem : ℕ → α
  vs : ℕ → Bool
  rdata : α

/-- One clock edge (stypes.py:4282-4312, 4334-4356); addresses have `aw` bits. -/
def Pad.step {α : Type} (aw diff : ℕ) (i : PadIn α) (s : Pad α) : Pad α where
  mem := if i.en && i.valid && i.wen then Function.update s.mem (i.waddr % 2 ^ aw) i.data else s.mem
  vs := if i.en then shift i.valid s.vs else s.vs
  rdata := if i.en && s.vs (diff - 1) && i.ren then s.mem (i.raddr % 2 ^ aw) else s.rdata

/-- The states of a run (stream/stypes.py:4282-4312). -/
def padRun {α : Type} (aw diff : ℕ) (i : ℕ → PadIn α) (m : ℕ → α) (r : α) : ℕ → Pad α
  | 0 => ⟨m, fun _ => false, r⟩
  | t + 1 => (padRun aw diff i m r t).step aw diff (i t)

end RingBuf
