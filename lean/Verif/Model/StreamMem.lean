import Verif.Model.StreamOut
import Verif.Model.DmaFsm

/-!
# Memory as an AXI stream (`AXIM_for_AXIStreamIn`, `AXIM_for_AXIStreamOut`, thread/axim_for_axistream.py)

The data state machines of `dma_read_async` and `dma_write_async` and what the write request machine puts into the
request FIFO.  The request machines themselves (lines 176-224 and 421-479) are those of `Model/DmaFsm` line by line.
One step is one clock edge without reset.  The request FIFO appears as its head (`sync=False`: the head is visible
while the FIFO is not empty, thread/fifo.py:155-158).  The stream objects are used in `noio` mode, their channels are
connected by wires (lines 123-133, 371-381), so `tvalid` and `tready` of both ends are the same.
-/

namespace StreamMem

open StreamOut (Out)
open StreamIn (dec)
open Dma (ReqSt ReqIn)

/-! ## Memory to stream (`AXIM_for_AXIStreamIn._synthesize_read_data_fsm`, lines 226-265) -/

/-- Inputs: the head of the request FIFO, the read data channel, `tready` of the stream (thread/axim_for_axistream.py:237-265). -/
structure RdIn where
  fifo : Option ℕ
  rvalid : Bool
  rdata : ℕ
  tready : Bool

/-- The state together with `read_data_busy` (they change together, lines 239-245, 262-265), `read_local_size_buf`
(88-90) and the output registers of the stream. -/
structure Rd where
  on : Bool
  size : ℕ
  out : Out

/-- After reset (thread/axim_for_axistream.py:88-96). -/
def Rd.init : Rd := ⟨false, 0, Out.init⟩

/-- The request taken from the FIFO (thread/axim_for_axistream.py:237-245). -/
def Rd.deq (σ : Rd) (i : RdIn) : Option ℕ := if σ.on then none else i.fifo

/-- `rready` (thread/axim_for_axistream.py:248-251); it does not mention the state. -/
def Rd.rready (σ : Rd) (i : RdIn) : Bool := σ.out.ready i.tready && decide (σ.size > 0)

/-- `wcond` (thread/axim_for_axistream.py:254). -/
def Rd.wcond (σ : Rd) (i : RdIn) : Bool := i.rvalid && σ.rready i

/-- One clock edge (thread/axim_for_axistream.py:237-265); the size register has `w` bits. -/
def Rd.step (w : ℕ) (σ : Rd) (i : RdIn) : Rd :=
  let go := σ.wcond i
  { on := if σ.on then !(go && decide (σ.size ≤ 1)) else i.fifo.isSome
    size := if σ.on then (if go then dec w σ.size else σ.size) else i.fifo.getD σ.size
    out := σ.out.step i.tready (if go then some (i.rdata, decide (σ.size ≤ 1)) else none) }

/-! ## Stream to memory (`AXIM_for_AXIStreamOut._synthesize_write_data_fsm`, lines 481-530) -/

/-- Inputs: the head of the request FIFO, the stream, `wready` of the write data channel (thread/axim_for_axistream.py:492-530). -/
structure WrIn where
  fifo : Option ℕ
  tvalid : Bool
  tdata : ℕ
  wready : Bool

/-- The state together with `write_data_busy`, `count`, `write_size_buf` (thread/axim_for_axistream.py:336-343,
494-495), and the output registers of the write data channel, whose `write_data` (types/axi.py:564-593) is that of a
stream. -/
structure Wr where
  on : Bool
  count : ℕ
  size : ℕ
  out : Out

/-- After reset (thread/axim_for_axistream.py:336-343, 494-495). -/
def Wr.init : Wr := ⟨false, 0, 0, Out.init⟩

/-- The number of words of a transfer taken from the FIFO (thread/axim_for_axistream.py:492-503). -/
def Wr.begin (σ : Wr) (i : WrIn) : Option ℕ := if σ.on then none else i.fifo

/-- The length of a burst taken from the FIFO (thread/axim_for_axistream.py:506-512). -/
def Wr.burst (σ : Wr) (i : WrIn) : Option ℕ := if σ.on && σ.size == 0 then i.fifo else none

/-- `rready` (thread/axim_for_axistream.py:514-516); it does not mention the state. -/
def Wr.rready (σ : Wr) (i : WrIn) : Bool := σ.out.ready i.wready && decide (σ.size > 0)

/-- `wcond` (thread/axim_for_axistream.py:519). -/
def Wr.wcond (σ : Wr) (i : WrIn) : Bool := i.tvalid && σ.rready i

/-- One clock edge (thread/axim_for_axistream.py:492-530); the registers have `w` bits. -/
def Wr.step (w : ℕ) (σ : Wr) (i : WrIn) : Wr :=
  let go := σ.wcond i
  { on := if σ.on then !(go && σ.count == 1) else i.fifo.isSome
    count := if σ.on then (if go then dec w σ.count else σ.count) else i.fifo.getD σ.count
    size := if σ.on then (if go then dec w σ.size else (σ.burst i).getD σ.size)
      else if i.fifo.isSome then 0 else σ.size
    out := σ.out.step i.wready (if go then some (i.tdata, decide (σ.size ≤ 1)) else none) }

/-! ## What goes into the request FIFOs -/

/-- `read_req_fifo.enq_rtl` of the request machine (thread/axim_for_axistream.py:198-201): the size of the transfer. -/
def rdEnq (σ : ReqSt) (i : ReqIn) : Option ℕ := if !σ.st1 && σ.start && !i.almostFull then some σ.rest else none

/-- `write_req_fifo.enq_rtl` of the request machine: the size of the transfer in state 0 and the length of every
burst in state 1 (thread/axim_for_axistream.py:443-446, 456-461). -/
def wrEnq (σ : ReqSt) (i : ReqIn) : Option ℕ :=
  if !σ.st1 && σ.start && !i.almostFull then some σ.rest else if σ.st1 && i.ack then some σ.cur else none

end StreamMem
