import Verif.Model.DmaData

/-!
# AXI stream input into a FIFO (`AXIStreamInFifo`, thread/axistreamin.py:510-902)

The data state machines of `dma_read(fifo, size)`.  One step is one clock edge without reset; words are unsigned.
The request FIFO appears as the input `req`: the entry at its head, offered while `read_data_busy` is 0.  Each
machine sets `read_data_busy` on leaving state 0 and clears it on returning there, so `on` (state 1) stands for it;
requests are hidden by the environment while another machine or a `read` intrinsic is busy.  The target FIFO
appears as its `almost_full` flag; `enq_rtl` stores the word of a cycle in which its condition holds and
`almost_full` is 0 (thread/fifo.py:120-138, `Model/ThreadFifo`).
-/

namespace StreamIn

/-- `read_local_size_buf.dec()` on the `w`-bit register, `w = addrwidth + 1` (thread/axistreamin.py:557-559). -/
def dec (w s : ℕ) : ℕ := (s + (2 ^ w - 1)) % 2 ^ w

/-! ## FIFO as wide as the stream, any number of FIFOs (thread/axistreamin.py:636-689) -/

/-- Inputs: head of the request FIFO (operation and size), the stream, and `almost_full` of the FIFO of each
operation (thread/axistreamin.py:657-681). -/
structure SIn where
  req : Option (ℕ × ℕ)
  tvalid : Bool
  tdata : ℕ
  af : ℕ → Bool

/-- The state of `read_data_fsm`, `read_op_sel_buf` and `read_local_size_buf` (thread/axistreamin.py:554-559). -/
structure Same where
  on : Bool
  sel : ℕ
  size : ℕ

/-- After reset (thread/axistreamin.py:554-559). -/
def Same.init : Same := ⟨false, 0, 0⟩

/-- The request taken at this edge: state 0 of one of the operations `ops` (thread/axistreamin.py:657-668). -/
def Same.start (ops : List ℕ) (σ : Same) (i : SIn) : Option (ℕ × ℕ) :=
  if σ.on then none else i.req.filter (fun r => ops.contains r.1)

/-- `tready`: the disjunction of the `read_data` conditions (thread/axistreamin.py:671-673, types/axi.py:1725-1732). -/
def Same.tready (ops : List ℕ) (σ : Same) (i : SIn) : Bool :=
  ops.any fun op => σ.on && !i.af op && σ.sel == op

/-- Condition of `fifo.enq_rtl(tdata)` of operation `op` (thread/axistreamin.py:679-681). -/
def Same.enq (σ : Same) (i : SIn) (op : ℕ) : Bool := σ.on && i.tvalid && !i.af op && σ.sel == op

/-- One clock edge: state 0 (thread/axistreamin.py:657-668), and in state 1 the decrement and the return to state 0
that every operation adds to the shared machine, under `tvalid` and its own `almost_full` only
(thread/axistreamin.py:675-677, 683-689). -/
def Same.step (w : ℕ) (ops : List ℕ) (σ : Same) (i : SIn) : Same :=
  if σ.on then
    let go := ops.any fun op => i.tvalid && !i.af op
    { σ with
      on := !(go && decide (σ.size ≤ 1))
      size := if go then dec w σ.size else σ.size }
  else match σ.start ops i with
    | some r => ⟨true, r.1, r.2⟩
    | none => σ

/-! ## FIFO word wider than the stream word (thread/axistreamin.py:691-774) -/

/-- Inputs for the machine of one FIFO: the size of the request at the head of the request FIFO when it names
this FIFO, the stream, and `almost_full` (thread/axistreamin.py:719-745). -/
structure FIn where
  req : Option ℕ
  tvalid : Bool
  tdata : ℕ
  af : Bool

/-- The state, `count`, `wdata`, `wvalid` (thread/axistreamin.py:731-735) and `read_local_size_buf`. -/
structure Narrow where
  on : Bool
  count : ℕ
  wdata : ℕ
  wvalid : Bool
  size : ℕ

/-- After reset (thread/axistreamin.py:731-735). -/
def Narrow.init : Narrow := ⟨false, 0, 0, false, 0⟩

/-- The request taken at this edge (thread/axistreamin.py:719-729). -/
def Narrow.start (σ : Narrow) (i : FIn) : Option ℕ := if σ.on then none else i.req

/-- `tready` (thread/axistreamin.py:743-745). -/
def Narrow.tready (σ : Narrow) (i : FIn) : Bool := σ.on && !i.af

/-- The word stored in the FIFO at this edge (thread/axistreamin.py:766-767). -/
def Narrow.enq (σ : Narrow) (i : FIn) : Option ℕ := if σ.wvalid && !i.af then some σ.wdata else none

/-- One clock edge: state 0 (thread/axistreamin.py:719-740) and state 1 (747-774). -/
def Narrow.step (w pack dw : ℕ) (σ : Narrow) (i : FIn) : Narrow :=
  if σ.on then
    let cat := i.tdata * 2 ^ (pack * dw - dw) + σ.wdata / 2 ^ dw
    let more := !i.af && i.tvalid && decide (σ.count < pack - 1)
    let full := !i.af && i.tvalid && σ.count == pack - 1
    { on := !(full && decide (σ.size ≤ 1))
      count := if full then 0 else if more then (σ.count + 1) % Dma.countMod pack else σ.count
      wdata := if full || more then cat else σ.wdata
      wvalid := if i.af then σ.wvalid else full
      size := if full then dec w σ.size else σ.size }
  else
    { on := i.req.isSome
      count := 0
      wdata := σ.wdata
      wvalid := false
      size := i.req.getD σ.size }

/-! ## Stream word wider than the FIFO word (thread/axistreamin.py:776-869) -/

/-- The state, `count`, `wdata`, `wvalid` (thread/axistreamin.py:816-820) and `read_local_size_buf`. -/
structure Wide where
  on : Bool
  count : ℕ
  wdata : ℕ
  wvalid : Bool
  size : ℕ

/-- After reset (thread/axistreamin.py:816-820). -/
def Wide.init : Wide := ⟨false, 0, 0, false, 0⟩

/-- The request taken at this edge (thread/axistreamin.py:804-814). -/
def Wide.start (σ : Wide) (i : FIn) : Option ℕ := if σ.on then none else i.req

/-- `tready`: a beat is taken only at `count == 0` (thread/axistreamin.py:828-830). -/
def Wide.tready (σ : Wide) (i : FIn) : Bool := σ.on && !i.af && σ.count == 0

/-- The word offered to the FIFO: the low bits of `wdata` (thread/axistreamin.py:858-860). -/
def Wide.word (rw : ℕ) (σ : Wide) : ℕ := σ.wdata % 2 ^ rw

/-- The word stored in the FIFO at this edge (thread/axistreamin.py:861-862). -/
def Wide.enq (rw : ℕ) (σ : Wide) (i : FIn) : Option ℕ := if σ.wvalid && !i.af then some (σ.word rw) else none

/-- One clock edge: state 0 (thread/axistreamin.py:804-825) and state 1 (832-869). -/
def Wide.step (w pack rw : ℕ) (σ : Wide) (i : FIn) : Wide :=
  if σ.on then
    let load := !i.af && i.tvalid && σ.count == 0
    let shift := !i.af && decide (σ.count > 0)
    { on := !(decide (σ.size ≤ 1) && !i.af && σ.count == pack - 1)
      count := if !i.af && σ.count == pack - 1 then 0
        else if load || shift then (σ.count + 1) % Dma.countMod pack else σ.count
      wdata := if load then i.tdata else if shift then σ.wdata / 2 ^ rw else σ.wdata
      wvalid := if i.af then σ.wvalid else load || shift
      size := if load || shift then dec w σ.size else σ.size }
  else
    { on := i.req.isSome
      count := 0
      wdata := σ.wdata
      wvalid := false
      size := i.req.getD σ.size }

end StreamIn
