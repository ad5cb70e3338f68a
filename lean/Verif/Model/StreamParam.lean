import Verif.Model.StreamFifo

/-!
# Model of values held for a run (veriloggen/thread/stream.py: `parameter`, `set_parameter`, `set_source_empty`)

A parameter of a thread stream, and a source set with `set_source_empty`, is a register that is written before a run and copied
into the input of the data path when the run starts.  The registers are added beside those of `Model/StreamRun.lean` and
`Model/StreamFifo.lean`; the width of the registers and the conversion of the value (`write_adjust`) are left out.
-/

namespace SRun

/-- The two registers: `next_parameter_data` or `source_empty_data` (stream.py:443-444, 275-278), and the register of the input of
    the data path (stypes.py:2804-2814). -/
structure Hold (X : Type) where
  next : X
  data : X

/-- One clock edge for a parameter: `wr` is the value of a `set_parameter` executed in this cycle, `start` is `source_start`
    (stream.py:1435-1441, stypes.py:2818-2822).  Neither depends on `oready`. -/
def Hold.param {X : Type} (wr : Option X) (start : Bool) (h : Hold X) : Hold X where
  next := wr.getD h.next
  data := if start then h.next else h.data

/-- One clock edge for a source set with `set_source_empty` (stream.py:1002-1022); `mode_idle` is 0, so that the condition on
    `source_mode` is always true.  `ram` is there if the program also uses `set_source` for this source: then it is the word at the
    output of the RAM, written in every busy cycle whatever the mode (2049-2051).  `source_start` and `source_busy` are never 1
    together (`c81_apart`), so that the order of the two writes does not matter. -/
def Hold.source {X : Type} (wr : Option X) (start busy oready : Bool) (ram : Option X) (h : Hold X) : Hold X where
  next := wr.getD h.next
  data := if oready then (if start then h.next else if busy then ram.getD h.data else h.data) else h.data

end SRun
