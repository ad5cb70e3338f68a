import Verif.Model.StreamIn

/-!
# AXI stream output (`AXIStreamOut`, `AXIStreamOutFifo`, thread/axistreamout.py)

The `write` and `write_fence` intrinsics and the data state machines of `dma_write(fifo, size)`, with the output
registers of the stream.  One step is one clock edge without reset; words are unsigned.  The request FIFO appears as
the input `req`: the entry at its head.  The source FIFO appears as its `empty` flag and its `rdata`; `deq` of a
machine is the condition of its `deq_rtl`, which the FIFO sees unless it is empty (thread/fifo.py:140-160).
-/

namespace StreamOut

open StreamIn (dec)

/-! ## The output registers (types/axi.py:1858-1909) -/

/-- `tvalid`, `tdata`, `tlast` (types/axi.py:1688-1699, 1858-1870). -/
structure Out where
  valid : Bool
  data : ℕ
  last : Bool

/-- After reset (types/axi.py:1688-1699). -/
def Out.init : Out := ⟨false, 0, false⟩

/-- `ack` of `write_data` (types/axi.py:1886). -/
def Out.ready (o : Out) (tready : Bool) : Bool := tready || !o.valid

/-- One clock edge; `send` is the argument of the call of `write_data` whose condition holds (types/axi.py:1883-1907:
assignment, de-assertion, retry). -/
def Out.step (o : Out) (tready : Bool) (send : Option (ℕ × Bool)) : Out :=
  match (if o.ready tready then send else none) with
  | some b => ⟨true, b.1, b.2⟩
  | none => ⟨o.valid && !tready, o.data, o.valid && !tready && o.last⟩

/-- The beat taken by the consumer at this edge, with its last flag (the ports of types/axi.py:1688-1699). -/
def Out.beat (o : Out) (tready : Bool) : Option (ℕ × Bool) :=
  if o.valid && tready then some (o.data, o.last) else none

/-! ## Stream words from FIFOs of the same width, and `write` (thread/axistreamout.py:100-116, 631-702) -/

/-- Inputs: the head of the request FIFO (operation and size), `empty` and `rdata` of the FIFO of each operation,
`tready`, and the arguments of the `write` statement at which a thread is waiting (thread/axistreamout.py:641-702). -/
structure SIn where
  req : Option (ℕ × ℕ)
  empty : ℕ → Bool
  rdata : ℕ → ℕ
  tready : Bool
  write : Option (ℕ × Bool)

/-- The state of `write_data_fsm`, `write_data_busy`, `write_op_sel_buf`, `write_size_buf`
(thread/axistreamout.py:549-557), `rlast` (664), the valid register of `deq_rtl` (thread/fifo.py:156) and
`repeat_rvalid` (thread/axistreamout.py:683) of every operation; `wr`: the thread is in the second state of `write`. -/
structure Same where
  state : ℕ
  busy : Bool
  sel : ℕ
  size : ℕ
  rlast : ℕ → Bool
  rvalid : ℕ → Bool
  rep : ℕ → Bool
  wr : Bool
  out : Out

/-- After reset (thread/axistreamout.py:549-557, 664, 683). -/
def Same.init : Same := ⟨0, false, 0, 0, fun _ => false, fun _ => false, fun _ => false, false, Out.init⟩

/-- The state in which the request of an operation is taken: 0 for the operation synthesized first; for the others
`set_index(1)` (thread/axistreamout.py:641-650). -/
def base (ops : List ℕ) (op : ℕ) : ℕ := if ops.head? = some op then 0 else 1

/-- State 0 of an operation: its request is taken (thread/axistreamout.py:653-668). -/
def Same.disp (ops : List ℕ) (σ : Same) (i : SIn) (op : ℕ) : Option ℕ :=
  if σ.state == base ops op && !σ.busy then (i.req.filter fun r => r.1 == op).map Prod.snd else none

/-- `data_fsm.here` in state 1 of an operation (thread/axistreamout.py:671-702). -/
def Same.here (ops : List ℕ) (σ : Same) (op : ℕ) : Bool := σ.state == base ops op + 1

/-- `deq_cond` in state 1 of an operation (thread/axistreamout.py:674-678). -/
def Same.deq (ops : List ℕ) (σ : Same) (i : SIn) (op : ℕ) : Bool :=
  σ.here ops op && !i.empty op && σ.sel == op && decide (σ.size > 0) && σ.out.ready i.tready

/-- `rvalid` of `deq_rtl`: registered for a FIFO with `sync=True`, combinational otherwise
(thread/fifo.py:155-158). -/
def Same.valid (sync : Bool) (ops : List ℕ) (σ : Same) (i : SIn) (op : ℕ) : Bool :=
  if sync then σ.rvalid op else σ.deq ops i op

/-- `cur_rvalid` (thread/axistreamout.py:687). -/
def Same.cur (sync : Bool) (ops : List ℕ) (σ : Same) (i : SIn) (op : ℕ) : Bool :=
  σ.valid sync ops i op || σ.rep op

/-- `wcond` (thread/axistreamout.py:696); it does not mention the state. -/
def Same.wcond (sync : Bool) (ops : List ℕ) (σ : Same) (i : SIn) (op : ℕ) : Bool :=
  σ.sel == op && σ.cur sync ops i op && σ.out.ready i.tready

/-- End of a transfer (thread/axistreamout.py:699-702). -/
def Same.fin (sync : Bool) (ops : List ℕ) (σ : Same) (i : SIn) (op : ℕ) : Bool :=
  σ.here ops op && σ.wcond sync ops i op && σ.rlast op

/-- `write_idle` (thread/axistreamout.py:561-563). -/
def Same.idle (σ : Same) (i : SIn) : Bool := !i.req.isSome && !σ.busy

/-- The arguments of the `write_data` calls whose condition holds, of which the last takes effect
(thread/axistreamout.py:107-111, 697). -/
def Same.send (sync : Bool) (ops : List ℕ) (σ : Same) (i : SIn) : Option (ℕ × Bool) :=
  ops.foldl (fun b op => if σ.wcond sync ops i op then some (i.rdata op, σ.rlast op) else b)
    (if σ.wr then some (i.write.getD (0, false)) else none)

/-- The next state: the jumps of all operations in this state in the order of synthesis, of which the last takes
effect (thread/axistreamout.py:668, 699). -/
def Same.next (sync : Bool) (ops : List ℕ) (σ : Same) (i : SIn) : ℕ :=
  ops.foldl (fun s op =>
    let s := if (σ.disp ops i op).isSome then base ops op + 1 else s
    if σ.fin sync ops i op then 0 else s) σ.state

/-- One clock edge (thread/axistreamout.py:100-116, 653-702).  The statements about `write_data_busy` exclude one another (`c68_same` shows it), their order is
not modelled. -/
def Same.step (sync : Bool) (w : ℕ) (ops : List ℕ) (σ : Same) (i : SIn) : Same :=
  let taken := ops.findSome? fun op => (σ.disp ops i op).map fun n => (op, n)
  let wstart := !σ.wr && i.write.isSome && σ.idle i
  let wend := σ.wr && σ.out.ready i.tready
  { state := σ.next sync ops i
    busy := if taken.isSome || wstart then true
      else if wend || (ops.any fun op => σ.fin sync ops i op) then false else σ.busy
    sel := (taken.map Prod.fst).getD σ.sel
    size := if ops.any fun op => σ.deq ops i op then dec w σ.size else (taken.map Prod.snd).getD σ.size
    rlast := fun op => if σ.state = base ops op then false
      else if σ.deq ops i op then decide (σ.size ≤ 1) else σ.rlast op
    rvalid := fun op => σ.deq ops i op
    rep := fun op => σ.cur sync ops i op && !σ.out.ready i.tready
    wr := if σ.wr then !wend else wstart
    out := σ.out.step i.tready (σ.send sync ops i) }

/-! ## `write_fence` (thread/axistreamout.py:118-125) -/

/-- Position of the thread in `write_fence(value, last)` and the output registers: 0 and 1 as in `write` (100-116),
2 the waiting for acceptance, 3 the state after the call. -/
structure Fence where
  pc : ℕ
  out : Out

/-- One clock edge (thread/axistreamout.py:100-125) with no transfer in progress (`write_idle` and nothing else sending). -/
def Fence.step (v : ℕ × Bool) (σ : Fence) (tready : Bool) : Fence :=
  { pc := if σ.pc = 0 then 1
      else if σ.pc = 1 then (if σ.out.ready tready then 2 else 1)
      else if σ.pc = 2 then (if tready && σ.out.valid || !σ.out.valid then 3 else 2)
      else σ.pc
    out := σ.out.step tready (if σ.pc = 1 then some v else none) }

/-! ## FIFO word wider than the stream word (thread/axistreamout.py:704-807) -/

/-- Inputs for the machine of one FIFO: the size of the request at the head of the request FIFO when it names this
FIFO and the interface is not busy otherwise, `empty` and `rdata` of the FIFO, and `tready` (thread/axistreamout.py:731-741, 756-762). -/
structure FIn where
  req : Option ℕ
  empty : Bool
  rdata : ℕ
  tready : Bool

/-- The state, `count`, `rlast`, `wdata`, `wlast` (thread/axistreamout.py:743-745, 782-785), `write_size_buf`, the
valid register of `deq_rtl`, `repeat_rvalid` (767), and the output registers. -/
structure Narrow where
  on : Bool
  count : ℕ
  rlast : Bool
  wdata : ℕ
  wlast : Bool
  size : ℕ
  rvalid : Bool
  rep : Bool
  out : Out

/-- After reset (thread/axistreamout.py:743-745, 767, 782-785). -/
def Narrow.init : Narrow := ⟨false, 0, false, 0, false, 0, false, false, Out.init⟩

/-- The request taken at this edge (thread/axistreamout.py:731-741, 750). -/
def Narrow.start (σ : Narrow) (i : FIn) : Option ℕ := if σ.on then none else i.req

/-- `cur_rvalid` (thread/axistreamout.py:771). -/
def Narrow.cur (σ : Narrow) : Bool := σ.rvalid || σ.rep

/-- `deq_cond` (thread/axistreamout.py:756-762). -/
def Narrow.deq (pack : ℕ) (σ : Narrow) (i : FIn) : Bool :=
  σ.on && !i.empty && decide (σ.size > 0) && σ.out.ready i.tready && !σ.cur && (σ.count == 0 || σ.count == pack - 1)

/-- `wcond` (thread/axistreamout.py:780-781). -/
def Narrow.wcond (σ : Narrow) (i : FIn) : Bool :=
  σ.on && σ.out.ready i.tready && (decide (σ.count > 0) || σ.cur)

/-- The arguments of `write_data` (thread/axistreamout.py:786-788). -/
def Narrow.send (pack dw : ℕ) (σ : Narrow) (i : FIn) : Option (ℕ × Bool) :=
  if σ.wcond i then
    some ((if σ.count = 0 then i.rdata % 2 ^ dw else σ.wdata % 2 ^ dw), σ.size == 0 && σ.count == pack - 1)
  else none

/-- One clock edge: state 0 (thread/axistreamout.py:731-750) and state 1 (753-807). -/
def Narrow.step (w pack dw : ℕ) (σ : Narrow) (i : FIn) : Narrow :=
  let go := σ.wcond i
  let d := σ.deq pack i
  let full := σ.count == pack - 1
  { on := if σ.on then !(go && full && σ.wlast) else i.req.isSome
    count := if σ.on then
        (if go && full then 0 else if go then (σ.count + 1) % Dma.countMod pack else σ.count)
      else 0
    rlast := if σ.on then (if d then decide (σ.size ≤ 1) else σ.rlast) else false
    wdata := if go then (if σ.count = 0 then i.rdata / 2 ^ dw else σ.wdata / 2 ^ dw) else σ.wdata
    wlast := if go && σ.count == 0 then σ.rlast else σ.wlast
    size := if σ.on then (if d then dec w σ.size else σ.size) else i.req.getD σ.size
    rvalid := d
    rep := σ.cur && !σ.out.ready i.tready
    out := σ.out.step i.tready (σ.send pack dw i) }

/-! ## Stream word wider than the FIFO word (thread/axistreamout.py:809-908) -/

/-- The state, `count`, `rlast`, `wdata` (thread/axistreamout.py:854-856, 884), `write_size_buf`, the valid register of
`deq_rtl`, `repeat_rvalid` (876), and the output registers. -/
structure Wide where
  on : Bool
  count : ℕ
  rlast : Bool
  wdata : ℕ
  size : ℕ
  rvalid : Bool
  rep : Bool
  out : Out

/-- After reset (thread/axistreamout.py:854-856, 876, 884). -/
def Wide.init : Wide := ⟨false, 0, false, 0, 0, false, false, Out.init⟩

/-- The request taken at this edge (thread/axistreamout.py:838-861). -/
def Wide.start (σ : Wide) (i : FIn) : Option ℕ := if σ.on then none else i.req

/-- `local_size`: the size rounded up to a multiple of `2 ** log_pack_size`, in `w` bits
(thread/axistreamout.py:841-844). -/
def Wide.round (w pack n : ℕ) : ℕ :=
  (n / Dma.countMod pack + if n % Dma.countMod pack > 0 then 1 else 0) * Dma.countMod pack % 2 ^ w

/-- `rready` and `wready` (thread/axistreamout.py:865, 873-874). -/
def Wide.ready (σ : Wide) (i : FIn) : Bool := i.tready || !σ.out.valid || decide (σ.count > 0)

/-- `deq_cond` (thread/axistreamout.py:866-869). -/
def Wide.deq (σ : Wide) (i : FIn) : Bool := σ.on && !i.empty && decide (σ.size > 0) && σ.ready i

/-- `cur_rvalid` (thread/axistreamout.py:880). -/
def Wide.cur (σ : Wide) : Bool := σ.rvalid || σ.rep

/-- `_wdata` (thread/axistreamout.py:886). -/
def Wide.cat (pack rw : ℕ) (σ : Wide) (i : FIn) : ℕ := i.rdata * 2 ^ (pack * rw - rw) + σ.wdata / 2 ^ rw

/-- The arguments of `write_data` (thread/axistreamout.py:882-888). -/
def Wide.send (pack rw : ℕ) (σ : Wide) (i : FIn) : Option (ℕ × Bool) :=
  if σ.on && σ.count == pack - 1 && σ.cur && σ.ready i then some (σ.cat pack rw i, σ.rlast) else none

/-- One clock edge: state 0 (thread/axistreamout.py:838-861) and state 1 (864-908). -/
def Wide.step (w pack rw : ℕ) (σ : Wide) (i : FIn) : Wide :=
  let go := σ.on && σ.cur && σ.ready i
  let d := σ.deq i
  let full := σ.count == pack - 1
  { on := if σ.on then !(go && full && σ.rlast) else i.req.isSome
    count := if σ.on then
        (if go && full then 0 else if go then (σ.count + 1) % Dma.countMod pack else σ.count)
      else 0
    rlast := if σ.on then (if d then decide (σ.size ≤ 1) else σ.rlast) else false
    wdata := if go then σ.cat pack rw i else σ.wdata
    size := if σ.on then (if d then dec w σ.size else σ.size) else (i.req.map (Wide.round w pack)).getD σ.size
    rvalid := d
    rep := σ.cur && !σ.ready i
    out := σ.out.step i.tready (σ.send pack rw i) }

/-! ## Stream words from RAMs of the same width (thread/axistreamout.py:205-261) -/

/-- Inputs: head of the request FIFO (operation, size), and `rvalid`, `rlast`, `rdata` of the RAM burst of each
operation (thread/axistreamout.py:245-248, `Model/Ram`), and `tready`. -/
structure RIn where
  req : Option (ℕ × ℕ)
  rvalid : ℕ → Bool
  rlast : ℕ → Bool
  rdata : ℕ → ℕ
  tready : Bool

/-- The state of `write_data_fsm`, `write_data_busy`, `write_op_sel_buf`, `write_size_buf`
(thread/axistreamout.py:70-83), and the output registers. -/
structure Ram where
  state : ℕ
  busy : Bool
  sel : ℕ
  size : ℕ
  out : Out

/-- After reset (thread/axistreamout.py:70-86). -/
def Ram.init : Ram := ⟨0, false, 0, 0, Out.init⟩

/-- State 0 of an operation (thread/axistreamout.py:228-240); `base` as in lines 216-225. -/
def Ram.disp (ops : List ℕ) (σ : Ram) (i : RIn) (op : ℕ) : Option ℕ :=
  if σ.state == base ops op && !σ.busy then (i.req.filter fun r => r.1 == op).map Prod.snd else none

/-- The condition of the start of the burst of an operation (thread/axistreamout.py:243-248). -/
def Ram.burst (ops : List ℕ) (σ : Ram) (op : ℕ) : Bool := σ.state == base ops op + 1 && σ.sel == op

/-- `wcond` (thread/axistreamout.py:252). -/
def Ram.wcond (σ : Ram) (i : RIn) (op : ℕ) : Bool := σ.sel == op && i.rvalid op && σ.out.ready i.tready

/-- `data_fsm.here` in state 2 of an operation (thread/axistreamout.py:251-261). -/
def Ram.here (ops : List ℕ) (σ : Ram) (op : ℕ) : Bool := σ.state == base ops op + 2

/-- The next state: the jumps of all operations in the order of synthesis, of which the last takes effect
(thread/axistreamout.py:240, 249, 258). -/
def Ram.next (ops : List ℕ) (σ : Ram) (i : RIn) : ℕ :=
  ops.foldl (fun s op =>
    let s := if (σ.disp ops i op).isSome then base ops op + 1 else s
    let s := if σ.state = base ops op + 1 then base ops op + 2 else s
    if σ.here ops op && σ.wcond i op && i.rlast op then 0 else s) σ.state

/-- One clock edge (thread/axistreamout.py:228-261). -/
def Ram.step (w : ℕ) (ops : List ℕ) (σ : Ram) (i : RIn) : Ram :=
  let taken := ops.findSome? fun op => (σ.disp ops i op).map fun n => (op, n)
  { state := σ.next ops i
    busy := if taken.isSome then true
      else if ops.any fun op => σ.here ops op && σ.wcond i op && i.rlast op then false else σ.busy
    sel := (taken.map Prod.fst).getD σ.sel
    size := if ops.any fun op => σ.here ops op && σ.wcond i op then dec w σ.size
      else (taken.map Prod.snd).getD σ.size
    out := σ.out.step i.tready
      (ops.foldl (fun b op => if σ.wcond i op then some (i.rdata op, i.rlast op) else b) none) }

end StreamOut
