import Verif.Model.StreamAcc

/-!
# Model of reductions with a valid signal and of ReduceArgMax / ReduceArgMin (stream/stypes.py)

`_ReduceValid`, `ReduceCustomValid` (3710-3777), `CounterValid` (3780-3787), `Predicate` (4728-4765),
`_Prev` (2314-2372), `ReduceArgMax`, `ReduceArgMin` and their `Valid` forms (5046-5091).  The
accumulators and counters are those of `Verif/Model/StreamAcc.lean`, with the simplifications made
there.

`ReduceArgMax` is modelled with the registers that the code makes for it: those of the reduction, those
of the counter, the register of `_max.prev(1)`, the register `valid` that delays the valid signal by one
stage, and the register of `Predicate`.
-/

namespace Stream

open Vlog

/-- The valid signal that `_ReduceValid` and `ReduceCustomValid` return beside the reduction `c` with
    the size `n` of `sw` bits: `Pulse(size, dependency=right, enable=enable, reset=reset)`
    (stream/stypes.py:3715, 3775).  The interval is not passed on. -/
def AccCfg.validOf (c : AccCfg) (sw n : Nat) : AccCfg := pulseCfg sw n none c.hasReset c.hasEnable

/-- The valid signal that `CounterValid` returns (stream/stypes.py:3785): neither the step nor the
    interval is passed on. -/
def CntCfg.validOf (c : CntCfg) (sw n : Nat) : AccCfg := pulseCfg sw n none c.hasReset c.hasEnable

/-- The inputs of `ReduceArgMax` in one cycle: `adv` is `senable`, `valid` is `svalid` of the stage of
    the operand (stream/stypes.py:3113, 4763), `en`, `rst` and `x` the arguments. -/
structure ArgIn where
  adv : Bool
  valid : Bool := true
  en : Bool := true
  rst : Bool := false
  x : Int := 0
  deriving DecidableEq, Repr

/-- What the accumulators see of it: `_and_vars(svalid, senable)` (stream/stypes.py:3113). -/
def ArgIn.toAcc (i : ArgIn) : AccIn := { go := i.adv && i.valid, en := i.en, rst := i.rst, x := i.x }

/-- `ReduceArgMax(right, size, ...)` (stream/stypes.py:5046-5055): the reduction and the counter
    `Counter(size, dependency=right, enable=enable, reset=reset)`, whose step is the two bit constant 1
    and whose type is the default one. -/
structure ArgCfg where
  acc : AccCfg
  size : Option Val := none

/-- The counter of `ReduceArgMax` (stream/stypes.py:5051; defaults 3550-3551). -/
def ArgCfg.cnt (c : ArgCfg) : CntCfg :=
  { ty := ⟨32, false⟩, step := ⟨⟨2, true⟩, 1⟩, size := c.size,
    hasReset := c.acc.hasReset, hasEnable := c.acc.hasEnable }

/-- The registers (stream/stypes.py:3039-3059, 3573-3585, 2369-2372, 4759). -/
structure ArgSt where
  /-- of the reduction (stream/stypes.py:3039-3059) -/
  mx : AccSt
  /-- of the counter (stream/stypes.py:3573-3585) -/
  cnt : CntSt
  /-- of `_max.prev(1)` (stream/stypes.py:2369-2372) -/
  prev : Int
  /-- `svalid` of the stage after the reduction -/
  v1 : Bool
  /-- of `Predicate` (stream/stypes.py:4759) -/
  idx : Int
  deriving DecidableEq, Repr

/-- Register values after hardware reset (stream/stypes.py:2369, 3040, 3573-3577, 4759). -/
def ArgCfg.init (c : ArgCfg) : ArgSt :=
  { mx := c.acc.init, cnt := c.cnt.init, prev := 0, v1 := false, idx := 0 }

/-- `NotEq(_max, _max.prev(1))` as a wire (stream/stypes.py:5052-5053). -/
def ArgSt.update (s : ArgSt) : Bool := s.mx.data != s.prev

/-- One clock edge: the accumulators (stream/stypes.py:3113-3130, 3615-3630), the register of `prev`,
    which is clocked by `senable` alone (2372), the valid register, and the register of `Predicate`
    with `_and_vars(svalid, senable, when_cond)` (4763-4765). -/
def ArgCfg.step (c : ArgCfg) (s : ArgSt) (i : ArgIn) : ArgSt where
  mx := c.acc.step s.mx i.toAcc
  cnt := c.cnt.stepSt s.cnt i.toAcc
  prev := if i.adv then s.mx.data else s.prev
  v1 := if i.adv then i.valid else s.v1
  idx := if s.v1 && i.adv && s.update then s.cnt.data else s.idx

/-- The registers after a sequence of clock edges (each as stream/stypes.py:2372, 3113-3130, 3615-3630,
    4763-4765). -/
def ArgCfg.run (c : ArgCfg) (s : ArgSt) (l : List ArgIn) : ArgSt := l.foldl c.step s

end Stream
