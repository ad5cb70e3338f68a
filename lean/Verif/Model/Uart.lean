import Mathlib.Data.Nat.Notation

/-!
# Model of the UART (veriloggen/thread/uart.py)

`W = int(clockfreq / baudrate)` (`waitnum`, thread/uart.py:94, 144) is the number of clock cycles per bit; the
constructor raises (`math.log`) if it is 0.  Registers hold natural numbers below two to the power of their width.
One `step` is one rising clock edge.
-/

namespace Uart

/-- The width of `waitcount`: `int(math.log(waitnum, 2)) + 1` (thread/uart.py:107, 156), for an exact logarithm. -/
def wcWidth (W : ℕ) : ℕ := Nat.log2 W + 1

/-- The value that `waitcount(v)` stores: `v` in the width of the register (thread/uart.py:110, 127, 160, 174). -/
def toWc (W : ℕ) (v : Int) : ℕ := (v % (2 ^ wcWidth W : ℕ)).toNat

/-- The registers of `UartTx` (thread/uart.py:101-107): FSM state, outputs, shift register, counter. -/
structure Tx where
  st : ℕ
  ready : Bool
  txd : Bool
  mem : ℕ
  wc : ℕ
  deriving DecidableEq

/-- Reset values (thread/uart.py:101-107). -/
def Tx.init : Tx := ⟨0, true, true, 0, 0⟩

/-- `mkUartTx` (thread/uart.py): state 0 (109-119), states 1 to 10 (121-129), state 11 (131-135) of the FSM. -/
def Tx.step (W : ℕ) (rst : Bool) (din : ℕ) (enable : Bool) (s : Tx) : Tx :=
  if rst then Tx.init
  else if s.st = 0 then
    { s with
      wc := toWc W (W - 1), txd := true, mem := din * 2 + 0, ready := if enable then false else s.ready,
      st := if enable then 1 else 0 }
  else if s.st ≤ 10 then
    if s.wc > 0 then { s with wc := s.wc - 1 }
    else { s with txd := s.mem % 2 == 1, mem := 2 ^ 8 + s.mem / 2, wc := toWc W (W - 1), st := s.st + 1 }
  else if s.st = 11 then { s with ready := true, st := 0 }
  else s

/-- The registers of `UartRx` (thread/uart.py:150-156). -/
structure Rx where
  st : ℕ
  dout : ℕ
  valid : Bool
  mem : ℕ
  wc : ℕ
  deriving DecidableEq

/-- Reset values (thread/uart.py:150-156). -/
def Rx.init : Rx := ⟨0, 0, false, 0, 0⟩

/-- `vtypes.Cat(rxd, mem[1:9])` (thread/uart.py:161, 173). -/
def Rx.shift (rxd : Bool) (mem : ℕ) : ℕ := rxd.toNat * 2 ^ 8 + mem / 2

/-- `mkUartRx` (thread/uart.py): state 0 (158-164), states 1 to 10 (166-176, the jump back of the first at 167-168), state 11
    (178-183).  `dout` has 8 bits, `mem[0:9]` has 9. -/
def Rx.step (W : ℕ) (rst : Bool) (rxd : Bool) (s : Rx) : Rx :=
  if rst then Rx.init
  else if s.st = 0 then
    { s with
      valid := false, wc := toWc W ((W / 2 : ℕ) - 1), mem := shift rxd s.mem, st := if rxd = false then 1 else 0 }
  else if s.st ≤ 10 then
    if s.wc > 0 then
      { s with wc := s.wc - 1, st := if s.st = 1 ∧ s.wc = 1 ∧ rxd = true then 0 else s.st }
    else { s with mem := shift rxd s.mem, wc := toWc W (W - 1), st := s.st + 1 }
  else if s.st = 11 then { s with valid := true, dout := s.mem % 2 ^ 8, st := 0 }
  else s

/-- A thread that calls `send` (thread/uart.py:43-53): `ph = 0` the thread is elsewhere or in the first state of a
    `send`, `ph = 1, 2` the second and third state; `din`, `enable` the registers connected to the transmitter
    (thread/uart.py:36-38; no other thread drives them). -/
structure Send where
  ph : ℕ
  din : ℕ
  enable : Bool
  deriving DecidableEq

/-- Initial values (`tx_enable.initval = 0`, thread/uart.py:38). -/
def Send.init : Send := ⟨0, 0, false⟩

/-- `send` (thread/uart.py:43-53); `call = some v`: the thread is in the first state of a `send` of the value `v`.
    `din` has 8 bits. -/
def Send.step (call : Option ℕ) (ready : Bool) (s : Send) : Send :=
  if s.ph = 0 then
    match call with
    | some v => ⟨1, v % 2 ^ 8, true⟩
    | none => s
  else if s.ph = 1 then { s with enable := false, ph := 2 }
  else if ready then { s with ph := 0 } else s

end Uart
