import Verif.Model.Ram

/-!
# Model of the block transfers of `MultibankRAM` (`veriloggen/thread/ram.py:575-683, 752-831, 887-903`)

`numbanks` RAMs that take turns: `blocksize` words of the first, `blocksize` words of the second and so on.  Every bank
has a burst machine of its own (`Burst.rstep`, `Burst.wstep`), started together with an FSM that gives the turns.
Banks that are themselves `MultibankRAM` are not modelled.
-/

namespace Block

/-- Inputs of `read_burst_block`, thread/ram.py:575-576. -/
structure RIn where
  cond : Bool
  addr : Nat
  stride : Nat
  length : Nat
  blocksize : Nat
  rready : Bool
  rquit : Bool

/-- Registers of `read_burst_block`, thread/ram.py:581-617: the burst machines of the banks, `ram_sel`, and those of the
    FSM; `turn` is its state, 0 or one more than the bank. -/
structure RState (α : Type) where
  bank : Nat → Burst.RState α
  sel : Nat → Bool
  turn : Nat
  length : Nat
  blocksize : Nat
  count : Nat
  rvalid : Bool
  rlast : Bool

/-- The inputs of the burst machine of a bank, thread/ram.py:586-598, 642-643. -/
def RState.bankIn {α : Type} (s : RState α) (x : RIn) (i : Nat) : Burst.RIn :=
  ⟨x.cond, x.addr, x.stride, x.length, x.rready && s.turn == i + 1, x.rquit || s.rvalid && s.rlast⟩

/-- One clock edge of `read_burst_block`, thread/ram.py:619-681. -/
def rstep {α : Type} (n aw : Nat) (mem : Nat → Nat → α) (s : RState α) (x : RIn) : RState α :=
  let bank := fun i => Burst.rstep aw (mem i) (s.bank i) (s.bankIn x i)
  if s.turn = 0 then
    { bank := bank, sel := fun _ => false, turn := if x.cond && decide (x.length > 0) then 1 else 0,
      length := x.length, blocksize := x.blocksize, count := 0, rvalid := false, rlast := false }
  else
    -- If(rready)(ram_sel(...))
    let sel := fun j => if x.rready then j + 1 == s.turn else s.sel j
    -- If(rready, _length > 0)
    let adv := x.rready && decide (s.length > 0)
    let length := if adv then s.length - 1 else s.length
    let count := if adv then s.count + 1 else s.count
    let rvalid := if adv then true else s.rvalid
    -- If(rready, _length <= 1)
    let rlast := if x.rready && decide (s.length ≤ 1) then true else s.rlast
    -- If(rlast, rvalid, rready)
    let fin := s.rlast && s.rvalid && x.rready
    let rvalid := if fin then false else rvalid
    let rlast := if fin then false else rlast
    -- If(rquit)
    let rvalid := if x.rquit then false else rvalid
    let rlast := if x.rquit then false else rlast
    -- If(rready, count == _blocksize - 1)
    let wrap := x.rready && s.count + 1 == s.blocksize
    { bank := bank, sel := sel,
      turn := if x.rquit then 0 else if fin then 0 else if wrap then (if s.turn = n then 1 else s.turn + 1) else s.turn,
      length := length, blocksize := s.blocksize, count := if wrap then 0 else count, rvalid := rvalid, rlast := rlast }

/-- `rdata`, a `Mux` over the banks of which the last outermost, thread/ram.py:635-636, 645 (types/util.py:68-78); `z` is
    the unknown value. -/
def rdata {α : Type} (n : Nat) (z : α) (s : RState α) : α :=
  (List.range n).foldl (fun a i => if s.sel i then (s.bank i).rdata else a) z

/-- Inputs of `write_burst_block`, thread/ram.py:752-753. -/
structure WIn (α : Type) where
  cond : Bool
  addr : Nat
  stride : Nat
  length : Nat
  blocksize : Nat
  wdata : α
  wvalid : Bool
  wlast : Bool
  wquit : Bool

/-- Registers of `write_burst_block`, thread/ram.py:758-783. -/
structure WState where
  bank : Nat → Burst.WState
  turn : Nat
  length : Nat
  blocksize : Nat
  count : Nat
  done : Bool

/-- The inputs of the burst machine of a bank, thread/ram.py:761-771, 799-801. -/
def WState.bankIn {α : Type} (s : WState) (x : WIn α) (i : Nat) : Burst.WIn α :=
  ⟨x.cond, x.addr, x.stride, x.length, x.wdata, x.wvalid && s.turn == i + 1, x.wlast,
    x.wquit || x.wvalid && x.wlast || x.wvalid && decide (s.length ≤ 1)⟩

/-- One clock edge of `write_burst_block`, thread/ram.py:785-828. -/
def wstep {α : Type} (n aw : Nat) (s : WState) (x : WIn α) : WState :=
  let bank := fun i => Burst.wstep aw (s.bank i) (s.bankIn x i)
  if s.turn = 0 then
    { bank := bank, turn := if x.cond && decide (x.length > 0) then 1 else 0, length := x.length,
      blocksize := x.blocksize, count := 0, done := false }
  else
    -- If(wvalid)
    let length := if x.wvalid then s.length - 1 else s.length
    let done := if x.wvalid then false else s.done
    let count := if x.wvalid then s.count + 1 else s.count
    -- If(wvalid, _length <= 1), If(wvalid, wlast)
    let done := if x.wvalid && decide (s.length ≤ 1) then true else done
    let done := if x.wvalid && x.wlast then true else done
    -- If(wvalid, count == _blocksize - 1)
    let wrap := x.wvalid && s.count + 1 == s.blocksize
    { bank := bank,
      turn := if x.wquit then 0
              else if x.wvalid && x.wlast then 0
              else if x.wvalid && decide (s.length ≤ 1) then 0
              else if wrap then (if s.turn = n then 1 else s.turn + 1) else s.turn
      length := length, blocksize := s.blocksize, count := if wrap then 0 else count, done := done }

/-- The RAM writes of a cycle: bank, address and word (thread/ram.py:761-771). -/
def wemit {α : Type} (n : Nat) (s : WState) (x : WIn α) : List (Nat × Nat × α) :=
  (List.range n).flatMap fun i => (Burst.wemit (s.bank i) (s.bankIn x i)).toList.map fun w => (i, w.1, w.2)

/-- `wready`, thread/ram.py:796, 827-829: `fsm.here` is taken after `fsm.inc()`, so it is the state of the next bank. -/
def wready (n : Nat) (s : WState) : Bool := (List.range n).any fun i => s.turn == i + 2

/-- Registers of `write_burst_bcast`, thread/ram.py:895-899: one `write_burst` for every bank, with the same inputs. -/
abbrev BState : Type := Nat → Burst.WState

/-- One clock edge of `write_burst_bcast`, thread/ram.py:895-899. -/
def bstep {α : Type} (aw : Nat) (s : BState) (x : Burst.WIn α) : BState := fun i => Burst.wstep aw (s i) x

/-- The RAM writes of a cycle (thread/ram.py:895-899). -/
def bemit {α : Type} (n : Nat) (s : BState) (x : Burst.WIn α) : List (Nat × Nat × α) :=
  (List.range n).flatMap fun i => (Burst.wemit (s i) x).toList.map fun w => (i, w.1, w.2)

/-- `util.log2(numbanks)`, types/util.py:47-49, for `numbanks` at least 1: rounded up. -/
def shift (n : Nat) : Nat := if n ≤ 1 then 0 else Nat.log2 (n - 1) + 1

/-- `local_packed_size` of `_dma_read_packed` and `_dma_write_packed`, thread/axim.py:603-615, 651-663. -/
def packedSize (n size : Nat) : Nat :=
  if size % 2 ^ shift n > 0 then size / 2 ^ shift n + 1 else size / 2 ^ shift n

/-- The address in the banks of the `j`-th word of a packed burst with the default stride `numbanks`,
    thread/axim.py:600-601, 648-649, thread/ram.py:715-722, 732-736. -/
def packedAddr (n a j : Nat) : Nat := (a + j * n) / 2 ^ shift n

end Block
