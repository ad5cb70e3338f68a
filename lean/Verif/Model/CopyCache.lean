/-!
# Model of the streams used by `copy` and `copy_pattern`

The intrinsics `copy` and `copy_pattern` (thread/util.py:12-63) copy between RAMs with a stream of their
own, kept in a dictionary of the Python module by its name.

Simplified: only the choice of the stream is modelled, not its use (`set_source`, `set_sink`, `run`,
`join`, which are those of any other stream).  A module refuses a second stream of a name, as the first
signal of the stream exists already (thread/stream.py:84).
-/

namespace CopyCache

/-- A RAM: its module and its name (thread/util.py:16, 22). -/
structure Ram where
  m : Nat
  name : List Char
  deriving DecidableEq, Repr

/-- A stream: the module it is made in and its name (thread/util.py:25, 53). -/
structure Strm where
  m : Nat
  name : List Char
  deriving DecidableEq, Repr

/-- The two functions (thread/util.py:12, 40). -/
inductive Kind where
  | copy
  | pattern
  deriving DecidableEq, Repr

/-- The two dictionaries (thread/util.py:8-9) and the streams that exist in the modules
    (thread/stream.py:84). -/
structure St where
  copies : List (List Char × Strm) := []
  patterns : List (List Char × Strm) := []
  made : List Strm := []
  deriving DecidableEq, Repr

/-- The dictionary used by a function (thread/util.py:18, 46). -/
def St.cache (s : St) : Kind → List (List Char × Strm)
  | .copy => s.copies
  | .pattern => s.patterns

/-- `'_'.join(['copy', src_ram.name, dst_ram.name])` (thread/util.py:16, 44). -/
def key (src dst : Ram) : List Char :=
  ['c', 'o', 'p', 'y', '_'] ++ src.name ++ '_' :: dst.name

/-- A new entry of the dictionary and a new stream (thread/util.py:25-29, 53-57). -/
def St.add (s : St) (k : Kind) (x : Strm) : St :=
  match k with
  | .copy => { s with copies := s.copies ++ [(x.name, x)], made := s.made ++ [x] }
  | .pattern => { s with patterns := s.patterns ++ [(x.name, x)], made := s.made ++ [x] }

/-- A call (thread/util.py:12-29, 40-57): the stream used; nothing if the module raises. -/
def call (k : Kind) (src dst : Ram) (s : St) : Option (St × Strm) :=
  match (s.cache k).lookup (key src dst) with
  | some x => some (s, x)
  | none =>
    let x : Strm := ⟨src.m, key src dst⟩
    if x ∈ s.made then none else some (s.add k x, x)

/-- A sequence of calls (thread/util.py:12-63): the state afterwards and the streams used. -/
def calls : List (Kind × Ram × Ram) → St → Option (St × List Strm)
  | [], s => some (s, [])
  | (k, src, dst) :: cs, s =>
    (call k src dst s).bind fun r => (calls cs r.1).map fun q => (q.1, r.2 :: q.2)

end CopyCache
