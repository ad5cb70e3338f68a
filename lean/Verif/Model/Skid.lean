/-!
# Model of the skid buffer (`veriloggen/types/skidbuffer.py`)
-/

namespace Skid

/-- Registers of `make_skidbuffer`, types/skidbuffer.py:90-96. -/
structure State (α : Type) where
  mData : α
  mValid : Bool
  tmpData : α
  tmpValid : Bool
  deriving DecidableEq

/-- Inputs `s_data`, `s_valid`, `m_ready`, types/skidbuffer.py:80-81. -/
structure In (α : Type) where
  sData : α
  sValid : Bool
  mReady : Bool

/-- types/skidbuffer.py:90-96: all registers reset to 0 (`z` is the all-zero payload). -/
def init {α : Type} (z : α) : State α := ⟨z, false, z, false⟩

/-- types/skidbuffer.py:101 `s_ready.assign(Not(tmp_valid))`. -/
def sReady {α : Type} (s : State α) : Bool := !s.tmpValid

/-- types/skidbuffer.py:103. -/
def nextData {α : Type} (s : State α) (i : In α) : α := if s.tmpValid then s.tmpData else i.sData

/-- types/skidbuffer.py:104. -/
def nextValid {α : Type} (s : State α) (i : In α) : Bool := s.tmpValid || i.sValid

/-- The three guarded updates of the clocked block in program order,
types/skidbuffer.py:108-118; a later update of the same register wins. -/
def step {α : Type} (s : State α) (i : In α) : State α :=
  let s1 : State α :=
    if i.mReady || !s.mValid then { s with mData := nextData s i, mValid := nextValid s i } else s
  let s2 : State α :=
    if !s.tmpValid && s.mValid && !i.mReady then
      { s1 with tmpData := i.sData, tmpValid := i.sValid } else s1
  if s.tmpValid && i.mReady then { s2 with tmpValid := false } else s2

/-- A chain of skid buffers, producer side first: the output of one is the input of the next
and the ready of the next is the ready input of the previous one (types/axi.py:512-552, the
loop builds the chain from the bus side). `chainReady`/`chainData`/`chainValid` give the
signals at the two ends. -/
def chainReady {α : Type} : List (State α) → Bool → Bool
  | [], r => r
  | s :: _, _ => sReady s

/-- Payload and valid seen by the consumer of a chain fed with `(d, v)` (types/axi.py:512-552). -/
def chainOut {α : Type} : List (State α) → α × Bool → α × Bool
  | [], dv => dv
  | s :: ss, _ => chainOut ss (s.mData, s.mValid)

/-- One clock edge of a chain (types/axi.py:512-552). -/
def chainStep {α : Type} : List (State α) → In α → List (State α)
  | [], _ => []
  | s :: ss, i =>
    step s ⟨i.sData, i.sValid, chainReady ss i.mReady⟩ ::
      chainStep ss ⟨s.mData, s.mValid, i.mReady⟩

/-- Packing of the payload fields, types/skidbuffer.py:26-38: `Cat` puts the first field in
the most significant position. Fields are pairs (width, value). -/
def pack : List (Nat × Nat) → Nat
  | [] => 0
  | (_, v) :: fs => v * 2 ^ (fs.map Prod.fst).sum + pack fs

/-- Unpacking, types/skidbuffer.py:49-59: slices taken from the most significant end;
`Slice(m_data, msb, lsb)` is `(data >> lsb) mod 2^(msb-lsb+1)`. -/
def unpack : List Nat → Nat → List Nat
  | [], _ => []
  | w :: ws, d =>
    let msb := (w :: ws).sum - 1
    let lsb := msb + 1 - w
    (d / 2 ^ lsb) % 2 ^ (msb + 1 - lsb) :: unpack ws d

end Skid
