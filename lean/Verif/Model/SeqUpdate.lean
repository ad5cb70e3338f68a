import Verif.Model.Seq

/-!
# Model of `Seq.update` and `Seq.implement`

`Seq.update` merges one `Seq` into another; dataflows and streams use it to collect the statements
of the managers of their inputs (dataflow/dataflow.py:157, stream/stream.py:230).

Simplified: object identity of managers and modules is a number, clocks and resets are identified
by their names (a name denotes one object of a module, core/module.py:1284-1293); the module's
counter of temporary registers, which the two objects share, is not merged, and calls on the source
after the merge that extend one of its `If` objects (an object the destination then shares) are not
followed into the destination.  Not modelled: `make_module` (`as_module=True`).
-/

namespace Hdl

/-- A `Seq` object with the attributes `update` looks at (seq/seq.py:60-97). -/
structure SeqObj where
  oid : Nat
  m : Nat
  clk : String
  rst : Option String
  st : SeqSt
  done : Bool := false

/-- The reset condition of the generated block (seq/seq.py:389). -/
def SeqObj.rstE (o : SeqObj) : Option Expr := o.rst.map fun r => .var (.user r)

/-- `dict.update` on `dst_var` (seq/seq.py:357): a key already present keeps its place and takes the
    new value, the others are appended. -/
def updDst (a b : List Reg) : List Reg :=
  a.map (fun r => (b.find? fun q => q.name = r.name).getD r) ++
    b.filter fun q => !a.any fun r => r.name = q.name

/-- `dict.update` on `prev_dict` (seq/seq.py:355). -/
def updPrev (a b : List ((String × Nat) × Reg)) : List ((String × Nat) × Reg) :=
  a.map (fun e => (b.find? fun q => q.1 = e.1).getD e) ++
    b.filter fun q => !a.any fun e => e.1 = q.1

/-- The four statements of `update` that move the contents (seq/seq.py:352-357). -/
def SeqSt.merge (a b : SeqSt) : SeqSt :=
  { a with
    delayed := a.delayed ++
      (List.range (b.maxDelay + 1)).flatMap fun d => (b.delayedAt d).map fun c => (d, c)
    prevDict := updPrev a.prevDict b.prevDict
    body := a.body ++ b.body
    dstVar := updDst a.dstVar b.dstVar }

/-- `update` (seq/seq.py:327-360): destination and source afterwards, `none` where it raises.  A
    source that is the destination itself is left alone (337-338). -/
def SeqObj.update (a b : SeqObj) : Option (SeqObj × SeqObj) :=
  if a.done then none
  else if b.done then some (a, b)
  else if a.oid = b.oid then some (a, b)
  else if a.m ≠ b.m then none
  else if a.clk ≠ b.clk then none
  else if a.rst ≠ b.rst then none
  else if a.st.name = b.st.name then none
  else some ({ a with st := a.st.merge b.st }, { b with done := true })

/-- `implement` (seq/seq.py:363-393): the `always` block added to the module, if any. -/
def SeqObj.implement (o : SeqObj) : Option Code × SeqObj :=
  if o.done then (none, o)
  else if o.st.makeReset = [] ∧ o.st.makeCode = [] then (none, { o with done := true })
  else (some (o.st.always o.rstE), { o with done := true })

/-- One clock edge of a module with several `always` blocks: all read the old values, the last
    write to a register counts (Verilog semantics of the blocks of seq/seq.py:384-393; registers
    assigned in two blocks have no defined value, which is not used here). -/
def tickAll (cs : List Code) (env : Env) : Env := cs.foldl (fun acc c => c.exec env acc) env

/-- The module after `implement` of two managers (core/module.py:1232-1241 runs the hooks in the
    order of creation; seq/seq.py:99-100 registers `implement`). -/
def implementAll (os : List SeqObj) : List Code := os.filterMap fun o => o.implement.1

end Hdl
