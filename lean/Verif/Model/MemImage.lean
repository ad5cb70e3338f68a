import Verif.Model.Literal
import Mathlib.Data.Nat.Log
import Mathlib.Data.Nat.Notation

/-!
# Memory images (veriloggen/types/axi.py: `set_memory`, `to_memory_image`, `aligned_shape`, `shape_to_memory_size`)

The elements of numpy arrays are 64-bit integers (`np.int64`): `>>` is the arithmetic shift, `<<` drops what does not fit,
and `np.full([1], 2 ** 64 - 1, dtype=np.int64)` is -1.  An array of any number of dimensions is the list of its rows along
the last axis.  A Python exception is `none`.  `math.ceil(a / b)` and `math.log` are taken as exact.  Simplified: the text of
an image is written at once and not in blocks of `blksize` words; arrays of other element types are not modelled.
-/

namespace MemImg

/-- An element of an array (`dtype=np.int64`). -/
abbrev I64 := BitVec 64

/-- `np.full([1], 2 ** w - 1, dtype=np.int64)` (types/axi.py:4586, 4605, 4667-4668, 4706-4707). -/
def mask (w : ℕ) : I64 := BitVec.ofNat 64 (2 ^ w - 1)

/-- `int(math.ceil(a / b))` (types/axi.py:4574, 4578, 4598, 4625, 4639, 4642, 4666, 4669, 4705, 4708). -/
def cdiv (a b : ℕ) : ℕ := (a + b - 1) / b

/-- An array: the size of its last axis, and its rows along the last axis (the numpy array of types/axi.py:4553-4628). -/
structure Arr where
  cols : ℕ
  rows : List (List I64)

/-- The rows have the length given by the shape (types/axi.py:4553-4628). -/
def Arr.Ok (a : Arr) : Prop := ∀ r ∈ a.rows, r.length = a.cols

/-! ## Shapes -/

/-- The last dimension in `aligned_shape` (types/axi.py:4618-4628). -/
def alignedLast (r dw mw : ℕ) : ℕ :=
  if dw = mw ∨ dw > mw then r else cdiv r (mw / dw) * (mw / dw)

/-- `aligned_shape`; an empty shape has no last dimension, a width of 0 divides by zero (types/axi.py:4618-4628). -/
def alignedShape (shape : List ℕ) (dw mw : ℕ) : Option (List ℕ) :=
  if dw = mw ∨ dw > mw then some shape
  else if dw = 0 then none
  else
    match shape.getLast? with
    | none => none
    | some r => some (shape.dropLast ++ [alignedLast r dw mw])

/-- `shape_to_length` (types/axi.py:4631-4632). -/
def shapeLength (shape : List ℕ) : ℕ := shape.foldl (fun x y => x * y) 1

/-- `shape_to_memory_size` (types/axi.py:4635-4642). -/
def memorySize (shape : List ℕ) (dw : ℕ) (mw : Option ℕ) (blk : ℕ) : Option ℕ := do
  let shape ← match mw with
    | some mw => alignedShape shape dw mw
    | none => some shape
  let bytes := cdiv dw 8
  if bytes = 0 then none
  else if blk / bytes = 0 then none
  else some ((blk / bytes) * cdiv (shapeLength shape) (blk / bytes))

/-! ## `set_memory` -/

/-- The loop of `align`: `ret[offset] = data` and the next position (types/axi.py:4738-4745). -/
def alignLoop (n r : ℕ) : List I64 → ℕ → ℕ → List I64 → Option (List I64)
  | [], _, _, ret => some ret
  | d :: ds, off, idx, ret =>
    if off < ret.length then
      if idx + 1 = r then
        alignLoop n r ds (if n - r % n < n then off + 1 + (n - r % n) else off + 1) 0 (ret.set off d)
      else alignLoop n r ds (off + 1) (idx + 1) (ret.set off d)
    else none

/-- `align`: the result has one dimension; `% 0` raises (types/axi.py:4726-4747). -/
def align (n : ℕ) (a : Arr) : Option Arr :=
  if n = 1 then some a
  else if n = 0 then none
  else
    (alignLoop n a.cols a.rows.flatten 0 0 (List.replicate (a.rows.length * alignedLast a.cols 1 n) 0)).map
      fun l => ⟨l.length, [l]⟩

/-- `align` if it is asked for (types/axi.py:4663-4664, 4702-4703). -/
def alignOpt (al : Option ℕ) (a : Arr) : Option Arr :=
  match al with
  | some n => align n a
  | none => some a

/-- The padding of the last axis: `np.pad` raises if the number of elements to add is negative (types/axi.py:4671-4677). -/
def padCols (n : ℕ) (a : Arr) : Option Arr :=
  if a.cols % n = 0 then some a
  else if n < a.cols then none
  else some ⟨n, a.rows.map fun r => r ++ List.replicate (n - a.cols) 0⟩

/-- `np.reshape(v, [-1, n])` (types/axi.py:4600, 4606, 4683). -/
def reshape (n : ℕ) (l : List I64) : Option (List (List I64)) :=
  if l.length % n = 0 then some ((List.range (l.length / n)).map fun j => (l.drop (j * n)).take n) else none

/-- `np.bitwise_or.reduce(v, -1)` (types/axi.py:4607, 4684). -/
def orAll (l : List I64) : I64 := l.foldl (fun x y => x ||| y) 0

/-- `masked_data`, `shift`, `v`: one row (types/axi.py:4679-4682). -/
def shiftRow (n mw sw : ℕ) (r : List I64) : List I64 :=
  r.mapIdx fun k x => ((x &&& mask sw) <<< (sw * (k % n))) &&& mask mw

/-- The check of the size and `mem[offset:offset + v.shape[-1]] = v` (types/axi.py:4686-4691, 4718-4723). -/
def put (mem : List I64) (off : ℕ) (v : List I64) : Option (List I64) :=
  if v.length > ((mem.drop off).take v.length).length then none
  else some (mem.take off ++ v ++ mem.drop (off + v.length))

/-- `_set_memory_wide` (types/axi.py:4655-4691). -/
def setWide (mem : List I64) (src : Arr) (mw sw off : ℕ) (al : Option ℕ) : Option (List I64) := do
  if mw > 64 ∨ sw = 0 then none
  else
    let src ← alignOpt al src
    let n := cdiv mw sw
    let src ← padCols n src
    let v ← reshape n (src.rows.map (shiftRow n mw sw)).flatten
    put mem (off / cdiv mw 8) (v.map orAll)

/-- `dup_src >> shift` and `& mem_mask`: the pieces of an element (types/axi.py:4587, 4710-4716). -/
def pieces (n mw : ℕ) (x : I64) : List I64 :=
  (List.range n).map fun k => (x.sshiftRight (mw * k)) &&& mask mw

/-- `_set_memory_narrow`; a mask of more than 64 bits does not fit (types/axi.py:4694-4723). -/
def setNarrow (mem : List I64) (src : Arr) (mw sw off : ℕ) (al : Option ℕ) : Option (List I64) := do
  if mw > 64 ∨ mw = 0 ∨ sw > 64 then none
  else
    let src ← alignOpt al src
    put mem (off / cdiv mw 8) (src.rows.flatten.flatMap (pieces (cdiv sw mw) mw))

/-- `set_memory` (types/axi.py:4645-4652). -/
def setMemory (mem : List I64) (src : Arr) (mw sw off : ℕ) (al : Option ℕ) : Option (List I64) :=
  if mw < sw then setNarrow mem src mw sw off al else setWide mem src mw sw off al

/-! ## `to_memory_image` -/

/-- The words written to the file (types/axi.py:4561-4607).  The result of `np.append` is not used; an array of numpy has no
    `reverse`. -/
def imageWords (length : Option ℕ) (dw ww : ℕ) (big : Bool) (a : List I64) : Option (List I64) :=
  if a = [] then none
  else
    let a := match length with
      | some n => if a.length > n then a.take n else a
      | none => a
    if ww = 0 ∨ dw = 0 then none
    else if big then none
    else if ww ≤ dw then
      if ww > 64 then none else some (a.flatMap (pieces (cdiv dw ww) ww))
    else if dw > 64 then none
    else
      let n := cdiv ww dw
      (reshape n a).map fun v => v.map fun l => orAll (l.mapIdx fun k x => (x &&& mask dw) <<< (dw * k))

/-- `'%0nx\n' % d` (types/axi.py:4574-4575, 4592, 4612): with a sign if negative, filled with zeros to `n` characters. -/
def hexLine (n : ℕ) (d : ℤ) : List Char :=
  let t := Nat.toDigits 16 d.natAbs
  (if d < 0 then '-' :: (List.replicate (n - 1 - t.length) '0' ++ t) else List.replicate (n - t.length) '0' ++ t) ++ ['\n']

/-- The text of the file (types/axi.py:4589-4593, 4609-4613). -/
def imageText (ww : ℕ) (ws : List I64) : List Char := ws.flatMap fun d => hexLine (cdiv ww 4) d.toInt

/-- `to_memory_image`: the text and the returned number of words (types/axi.py:4553-4615). -/
def toMemoryImage (length : Option ℕ) (dw ww : ℕ) (big : Bool) (a : List I64) : Option (List Char × ℕ) :=
  (imageWords length dw ww big a).map fun ws => (imageText ww ws, ws.length)

/-- `$readmemh` (the Verilog system task called at types/axi.py:3023-3025): numbers separated by white space; comments,
    addresses, `_`, `x` and `z` are not modelled. -/
def readmemh : List Char → Option ℕ → Option (List ℕ)
  | [], none => some []
  | [], some v => some [v]
  | c :: cs, cur =>
    if c = '\n' ∨ c = ' ' ∨ c = '\t' then
      match cur with
      | none => readmemh cs none
      | some v => (readmemh cs none).map (v :: ·)
    else
      match Literal.digitVal c with
      | some d => readmemh cs (some (cur.getD 0 * 16 + d))
      | none => none

/-- The bytes after `$readmemh`: `mem` has `size` bytes, those not in the file keep their undefined contents `u`
    (types/axi.py:3020-3025). -/
def loadBytes (size : ℕ) (u : ℕ → ℕ) (ws : List ℕ) (a : ℕ) : ℕ :=
  if a < size ∧ a < ws.length then ws.getD a 0 % 256 else u a

/-- `mem_addrwidth` with an image of `n` words (types/axi.py:3005-3007, 3016-3018). -/
def memAw (aw n : ℕ) : ℕ := max aw (Nat.clog 2 n)

/-- The words of `_make_img`, the image used if none is given (types/axi.py:3030-3045). -/
def defaultWords (size width : ℕ) : Option (List I64) :=
  if width / 8 = 0 then none
  else some ((List.range (size / (width / 8))).flatMap fun k =>
    (List.range (width / 8)).map fun j => ((BitVec.ofNat 64 k).sshiftRight (j * 8)) &&& mask 8)

/-- The memory of `AxiMemoryModel` after loading: without an image, or with an array as image (types/axi.py:2993-3025). -/
def initMem (aw mdw : ℕ) (img : Option (List I64 × Option ℕ)) (u : ℕ → ℕ) : Option (ℕ × (ℕ → ℕ)) :=
  match img with
  | none => do
    let ws ← defaultWords (2 ^ aw) mdw
    let bs ← readmemh (imageText 8 ws) none
    some (2 ^ aw, loadBytes (2 ^ aw) u bs)
  | some (a, dw) => do
    let (t, n) ← toMemoryImage none (dw.getD mdw) 8 false a
    let bs ← readmemh t none
    some (2 ^ memAw aw n, loadBytes (2 ^ memAw aw n) u bs)

end MemImg
