import Mathlib.Data.Int.Notation
import Mathlib.Data.Nat.Notation

/-!
# Pattern address generators of thread streams (thread/stream.py)

One step is one clock edge without reset. Registers of `addrwidth` bits hold integers reduced modulo
`2 ^ addrwidth`; counts and sizes have one bit more. The reset, the RAM and the data path are not modelled; the RAM
port is used in the cycles with `oready` and `renable` (thread/stream.py:1944-1946) or `wenable`
(thread/stream.py:2673-2675).
-/

namespace Pat

/-- Contents of an `addrwidth`-bit register (thread/stream.py:2100-2120). -/
def addr (aw : ℕ) (x : ℤ) : ℤ := x % 2 ^ aw

/-- Decrement of a count register (`addrwidth + 1` bits, thread/stream.py:2109-2111). -/
def dec (aw n : ℕ) : ℕ := (n + (2 ^ (aw + 1) - 1)) % 2 ^ (aw + 1)

/-- `pattern + pad` (thread/stream.py:759-768, 782-784); errors are `none`. -/
def pad (maxLen : ℕ) (pattern : List (ℕ × ℤ)) : Option (List (ℕ × ℤ)) :=
  if pattern = [] then none
  else if pattern.length > maxLen then none
  else some (pattern ++ List.replicate (maxLen - pattern.length) (1, 0))

/-- One dimension: `cur_offset`, `size_buf`, `stride_buf`, `count` (thread/stream.py:2100-2120). -/
structure Dim where
  cur : ℤ
  size : ℕ
  stride : ℤ
  count : ℕ
  deriving DecidableEq

/-- Loading one dimension at the start (thread/stream.py:2133-2153). -/
def Dim.load (aw : ℕ) (p : ℕ × ℤ) : Dim :=
  ⟨0, p.1 % 2 ^ (aw + 1), addr aw p.2, dec aw (p.1 % 2 ^ (aw + 1))⟩

/-- Updating the dimensions, innermost first; `up` is `upcond` (thread/stream.py:2192-2209). -/
def tick (aw : ℕ) : Bool → List Dim → List Dim
  | _, [] => []
  | up, d :: ds =>
    let zero := d.count == 0
    (if up then
      if zero then { d with cur := 0, count := dec aw d.size }
      else { d with cur := addr aw (d.cur + d.stride), count := dec aw d.count }
    else d) :: tick aw (up && zero) ds

/-- `fin_cond` (thread/stream.py:2190, 2204-2211). -/
def fin (ds : List Dim) : Bool := ds.all (·.count == 0)

/-- `source_all_offset` (thread/stream.py:2178-2183). -/
def total (aw : ℕ) (offset : ℤ) (ds : List Dim) : ℤ := addr aw (offset + (ds.map (·.cur)).sum)

/-- Inputs of a generator; `start` is the start signal of the stream with the mode selected, which comes while the
    machine is idle (thread/stream.py:2125-2126). -/
structure In where
  start : Bool
  oready : Bool
  stop : Bool

/-- Registers of the source pattern generator: state of the machine, `source_offset_buf`, the dimensions,
    `source_ram_raddr`, `source_ram_renable`, `source_idle` (thread/stream.py:2121-2221). -/
structure Src where
  st : ℕ
  offset : ℤ
  dims : List Dim
  raddr : ℤ
  renable : Bool
  idle : Bool
  deriving DecidableEq

/-- One clock edge of the source pattern generator (thread/stream.py:2121-2221); `offset`, `pattern` are the setting
    registers (padded pattern). -/
def Src.step (aw : ℕ) (offset : ℤ) (pattern : List (ℕ × ℤ)) (σ : Src) (i : In) : Src :=
  if !i.oready then σ
  else if σ.st = 0 then
    if i.start then
      { σ with st := 1, offset := addr aw offset, dims := pattern.map (Dim.load aw) }
    else σ
  else if σ.st = 1 then
    { st := if fin σ.dims then 2 else if i.stop then 0 else 1
      offset := σ.offset
      dims := tick aw true σ.dims
      raddr := total aw σ.offset σ.dims
      renable := !i.stop
      idle := i.stop }
  else { σ with st := 0, renable := false, idle := true }

/-- The RAM read of a cycle (thread/stream.py:1944-1946). -/
def Src.read (σ : Src) (i : In) : Option ℤ := if i.oready && σ.renable then some σ.raddr else none

/-! ## Sink pattern generator (thread/stream.py:2822-2913) -/

/-- Inputs: as above, and the stream output with its `when` condition (thread/stream.py:2870-2876). -/
structure SinkIn (α : Type) extends In where
  when : Bool
  rdata : α

/-- Registers of the sink pattern generator (thread/stream.py:2797-2820, 377-386). -/
structure Sink (α : Type) where
  st : ℕ
  offset : ℤ
  dims : List Dim
  waddr : ℤ
  wdata : α
  wenable : Bool

/-- Loading at the start: only the size and stride buffers (thread/stream.py:2829-2844). -/
def Dim.loadBufs (aw : ℕ) (p : ℕ × ℤ) (d : Dim) : Dim :=
  { d with size := p.1 % 2 ^ (aw + 1), stride := addr aw p.2 }

/-- Loading in state 1: offset and count (thread/stream.py:2857-2866). -/
def Dim.loadCount (aw : ℕ) (d : Dim) : Dim := { d with cur := 0, count := dec aw d.size }

/-- One clock edge (thread/stream.py:399-402, 2829-2913). -/
def Sink.step {α : Type} (aw : ℕ) (offset : ℤ) (pattern : List (ℕ × ℤ)) (σ : Sink α) (i : SinkIn α) : Sink α :=
  if !i.oready then σ
  else if σ.st = 0 then
    if i.start then
      { σ with st := 1, offset := addr aw offset, wenable := false
               dims := List.zipWith (Dim.loadBufs aw) pattern σ.dims }
    else { σ with wenable := false }
  else if σ.st = 1 then
    { σ with st := 2, dims := σ.dims.map (Dim.loadCount aw), wenable := false }
  else
    { st := if i.stop then 0 else if i.when && fin σ.dims then 0 else 2
      offset := σ.offset
      dims := if i.when then tick aw true σ.dims else σ.dims
      waddr := if i.when then total aw σ.offset σ.dims else σ.waddr
      wdata := if i.when then i.rdata else σ.wdata
      wenable := i.when }

/-- The RAM write of a cycle (thread/stream.py:2673-2675). -/
def Sink.write {α : Type} (σ : Sink α) (i : SinkIn α) : Option (ℤ × α) :=
  if i.oready && σ.wenable then some (σ.waddr, σ.wdata) else none

/-! ## Multi-pattern source generator (thread/stream.py:2223-2418) -/

/-- One pattern with its offset, as held in the buffers (`size_buf` has only `addrwidth` bits here,
    thread/stream.py:2260-2264). -/
structure Buf where
  offset : ℤ
  pats : List (ℕ × ℤ)
  deriving DecidableEq

/-- Loading the buffers at the start (thread/stream.py:2295-2320). -/
def Buf.load (aw : ℕ) (b : Buf) : Buf :=
  ⟨addr aw b.offset, b.pats.map fun p => (p.1 % 2 ^ aw, addr aw p.2)⟩

/-- Registers: state, `num_patterns` (of `nw` bits), the buffers, `cur_offset` and `count` of the first pattern (thread/stream.py:2223-2269). -/
structure Multi where
  st : ℕ
  num : ℕ
  bufs : List Buf
  curs : List (ℤ × ℕ)
  raddr : ℤ
  renable : Bool
  idle : Bool
  deriving DecidableEq

/-- The dimensions the odometer works on (thread/stream.py:2357-2360). -/
def Multi.dims (σ : Multi) : List Dim :=
  List.zipWith (fun (c : ℤ × ℕ) (p : ℕ × ℤ) => ⟨c.1, p.1, p.2, c.2⟩) σ.curs ((σ.bufs.head?.map (·.pats)).getD [])

/-- Shifting the buffers down by one pattern; the last one stays (thread/stream.py:2377-2397). -/
def shift (l : List Buf) : List Buf := l.tail ++ l.getLast?.toList

/-- `num_patterns.dec()` (thread/stream.py:2285-2287, 2399-2401; width thread/stream.py:2229-2231). -/
def decNum (nw n : ℕ) : ℕ := (n + (2 ^ nw - 1)) % 2 ^ nw

/-- One clock edge (thread/stream.py:2271-2418); `settings` are the setting registers of all patterns. -/
def Multi.step (aw nw : ℕ) (settings : List Buf) (σ : Multi) (i : In) : Multi :=
  if !i.oready then σ
  else if σ.st = 0 then
    if i.start then
      { σ with
        st := 1
        num := decNum nw σ.num
        bufs := settings.map (Buf.load aw)
        curs := ((settings.head?.map (·.pats)).getD []).map fun p => (0, dec aw (p.1 % 2 ^ (aw + 1))) }
    else σ
  else if σ.st = 1 then
    let f := fin σ.dims
    { st := if f && σ.num == 0 then 2 else if i.stop then 0 else 1
      num := if f then decNum nw σ.num else σ.num
      bufs := if f then shift σ.bufs else σ.bufs
      curs := (tick aw true σ.dims).map fun d => (d.cur, d.count)
      raddr := total aw ((σ.bufs.head?.map (·.offset)).getD 0) σ.dims
      renable := !i.stop
      idle := i.stop }
  else { σ with st := 0, renable := false, idle := true }

/-- The RAM read of a cycle (thread/stream.py:1944-1946). -/
def Multi.read (σ : Multi) (i : In) : Option ℤ := if i.oready && σ.renable then some σ.raddr else none

/-! ## Multi-pattern sink generator (thread/stream.py:2915-3101) -/

/-- Registers of the sink: as `Multi`, with the RAM write port (thread/stream.py:2915-2961, 381-386). -/
structure MSink (α : Type) where
  st : ℕ
  num : ℕ
  bufs : List Buf
  curs : List (ℤ × ℕ)
  waddr : ℤ
  wdata : α
  wenable : Bool

/-- The dimensions the odometer works on (thread/stream.py:3052-3055). -/
def MSink.dims {α : Type} (σ : MSink α) : List Dim :=
  List.zipWith (fun (c : ℤ × ℕ) (p : ℕ × ℤ) => ⟨c.1, p.1, p.2, c.2⟩) σ.curs ((σ.bufs.head?.map (·.pats)).getD [])

/-- One clock edge (thread/stream.py:399-402, 2963-3101). Only the write port looks at the `when` condition
    (3044-3048): the odometer (3057-3066), the shift of the buffers (3071-3096) and the end (3098-3100) do not. A start
    outside the initial state is left out. -/
def MSink.step {α : Type} (aw nw : ℕ) (settings : List Buf) (σ : MSink α) (i : SinkIn α) : MSink α :=
  if !i.oready then σ
  else if σ.st = 0 then
    if i.start then
      { σ with st := 1, num := decNum nw σ.num, bufs := settings.map (Buf.load aw), wenable := false }
    else { σ with wenable := false }
  else if σ.st = 1 then
    { σ with
      st := 2
      curs := ((σ.bufs.head?.map (·.pats)).getD []).map fun p => (0, dec aw p.1)
      wenable := false }
  else
    let f := fin σ.dims
    { st := if i.stop then 0 else if f && σ.num == 0 then 0 else 2
      num := if f then decNum nw σ.num else σ.num
      bufs := if f then shift σ.bufs else σ.bufs
      curs := (tick aw true σ.dims).map fun d => (d.cur, d.count)
      waddr := if i.when then total aw ((σ.bufs.head?.map (·.offset)).getD 0) σ.dims else σ.waddr
      wdata := if i.when then i.rdata else σ.wdata
      wenable := i.when }

/-- The RAM write of a cycle (thread/stream.py:2673-2675). -/
def MSink.write {α : Type} (σ : MSink α) (i : SinkIn α) : Option (ℤ × α) :=
  if i.oready && σ.wenable then some (σ.waddr, σ.wdata) else none

/-- What `set_sink_multipattern` rejects (thread/stream.py:1179-1207) and what it puts into the setting registers
    (1219-1246): each pattern padded with `(1, 0)`, offset 0 for the patterns not given; the sizes and strides of those
    keep their `old` values. `none` is `ValueError`. -/
def setMulti (maxMulti maxLen : ℕ) (offsets : List ℤ) (patterns : List (List (ℕ × ℤ))) (old : List Buf) :
    Option (ℕ × List Buf) :=
  if patterns = [] ∨ offsets.length ≠ patterns.length ∨ maxMulti < patterns.length then none
  else if patterns.any fun p => decide (maxLen < p.length) then none
  else some (patterns.length,
    List.zipWith (fun o p => ⟨o, p ++ List.replicate (maxLen - p.length) (1, 0)⟩) offsets patterns ++
      (old.drop patterns.length).map fun b => ⟨0, b.pats⟩)

/-! ## Shapes -/

/-- `_to_pattern` (thread/stream.py:3769-3780) for integer shapes; `none` is `IndexError`. Axes may be negative, as
    Python indices. -/
def toPattern (shape : List ℕ) (order : List ℤ) : Option (List (ℕ × ℤ)) :=
  order.mapM fun p =>
    let idx : ℤ := if p < 0 then p + shape.length else p
    if idx < 0 then none
    else do
      let size ← shape[idx.toNat]?
      -- `shape[p + 1:]`
      let from' : ℤ := if p + 1 < 0 then p + 1 + shape.length else p + 1
      some (size, ((shape.drop from'.toNat).foldl (· * ·) 1 : ℕ))

/-- `order` defaults to the reversed axes (thread/stream.py:804-805). -/
def defaultOrder (shape : List ℕ) : List ℤ := ((List.range shape.length).map Int.ofNat).reverse

end Pat
