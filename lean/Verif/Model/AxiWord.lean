import Mathlib.Data.Nat.Notation

/-!
# Word-indexed access to the AXI memory (veriloggen/types/axi.py: `AxiMemoryModel.read_word`, `write_word`)

The memory is an array of bytes (values below 256).  Simplified: the index arithmetic `word_index * bits` is done without
overflow, the accessed bytes are inside the memory.
-/

namespace AxiWord

/-- `num_bytes = int(math.ceil(bits / 8))` (types/axi.py:3306, 3326). -/
def numBytes (bits : ℕ) : ℕ := (bits + 7) / 8

/-- `addr = byte_offset + word_index * bits / 8` (types/axi.py:3307-3308, 3327-3328). -/
def addr (idx off bits : ℕ) : ℕ := off + idx * bits / 8

/-- `shift = word_index * bits % 8` (types/axi.py:3309, 3329). -/
def shift (idx bits : ℕ) : ℕ := idx * bits % 8

/-- `Cat(*reversed([mem[addr + i] for i in range(n)]))`: the byte at the lowest address is the least significant one
    (types/axi.py:3311-3312, 3333-3334). -/
def cat (mem : ℕ → ℕ) (a : ℕ) : ℕ → ℕ
  | 0 => 0
  | n + 1 => cat mem a n + mem (a + n) * 256 ^ n

/-- `read_word`: the register of `bits` bits gets `raw_data >> shift` (types/axi.py:3301-3319). -/
def readWord (mem : ℕ → ℕ) (idx off bits : ℕ) : ℕ :=
  (cat mem (addr idx off bits) (numBytes bits) >>> shift idx bits) % 2 ^ bits

/-- `write_word`: `raw_data_wire`, of `8 * num_bytes` bits (types/axi.py:3331-3346). -/
def rawData (mem : ℕ → ℕ) (idx off bits wdata : ℕ) : ℕ :=
  let n := 8 * numBytes bits
  let w := wdata % 2 ^ bits
  let inv := ((2 ^ bits - 1) <<< shift idx bits) % 2 ^ n
  let mask := 2 ^ n - 1 - inv
  ((w <<< shift idx bits) % 2 ^ n) ||| (cat mem (addr idx off bits) (numBytes bits) &&& mask)

/-- `write_word`: the bytes of the memory afterwards (types/axi.py:3348-3351). -/
def writeWord (mem : ℕ → ℕ) (idx off bits wdata : ℕ) : ℕ → ℕ := fun y =>
  let a := addr idx off bits
  if a ≤ y ∧ y < a + numBytes bits then rawData mem idx off bits wdata / 256 ^ (y - a) % 256 else mem y

end AxiWord
