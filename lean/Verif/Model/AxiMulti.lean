import Verif.Model.AxiMem
import Verif.Model.Module

/-!
# Model of the AXI memory with several ports (veriloggen/types/axi.py: `AxiMultiportMemoryModel`)

Every port has the FSMs, FIFOs, counters and bus registers of the memory with one port (`AxiMem`; the loop body of
types/axi.py:3631-3849 is that of 3047-3266 with one index more); the byte memory is shared and all writes to it are
statements of one `Seq`, so the writes of a later port win, and those of the `write` intrinsic win over all ports.
-/

namespace AxiMulti
open AxiMem

/-- The registers of all ports and the memory (types/axi.py:3528-3566, 3613-3614); the `mem` of a port is not used. -/
structure Sys (B : Type) where
  port : ℕ → St B
  mem : ℕ → B

/-- State after reset (types/axi.py:3528-3566, 3613-3618). -/
def Sys.init {B : Type} (w0 : Word B) (mem : ℕ → B) : Sys B := ⟨fun _ => St.init w0 mem, mem⟩

section
variable {B : Type} (c : Cfg) (u : B)

/-- A port together with the memory (types/axi.py:3624-3629). -/
def Sys.view (s : Sys B) (p : ℕ) : St B := { s.port p with mem := s.mem }

/-- The word written by a port in this cycle, with its address (types/axi.py:3718-3738). -/
def Sys.store (s : Sys B) (p : ℕ) : Option (ℕ × Word B) :=
  if (s.port p).dst == 1 && !empty (s.port p).wdat && (s.port p).awake c then
    some ((s.port p).waddr, Fifo.asyncRdata (s.port p).wdat)
  else none

/-- One clock edge of a memory with `n` ports: `inp p` are the inputs of port `p`, `ops` the bytes written by the `write`
    intrinsic (types/axi.py:3624-3849, 3283-3299). -/
def Sys.step (n : ℕ) (inp : ℕ → In B) (ops : List (ℕ × B)) (s : Sys B) : Sys B where
  port p := (s.view p).step c u (inp p)
  mem := ops.foldl (fun m o => wrByte c.size m o.1 o.2)
    ((List.range n).foldl (fun m p =>
      match s.store c p with
      | some (a, w) => storeWord c.nb c.size m a w
      | none => m) s.mem)

end

/-- The counters declared for a port (types/axi.py:3631-3646, `suf` is `_` and the number of the port) and for a memory with
    one port (types/axi.py:3047-3063, `suf` is empty): the names do not contain the name of the memory. -/
def counters (c : Cfg) (suf : String) : List Module.Obj :=
  [⟨.reg, "_write_count" ++ suf, some (.int (c.aw + 1)), false, none⟩,
   ⟨.reg, "_write_addr" ++ suf, some (.int c.aw), false, none⟩,
   ⟨.reg, "_read_count" ++ suf, some (.int (c.aw + 1)), false, none⟩,
   ⟨.reg, "_read_addr" ++ suf, some (.int c.aw), false, none⟩] ++
  (if c.interval > 0 then
    ⟨.reg, "_sleep_interval_count" ++ suf, some (.int (c.aw + 1)), false, none⟩ ::
    (if c.keep > 0 then [⟨.reg, "_keep_sleep_count" ++ suf, some (.int (c.aw + 1)), false, none⟩] else [])
   else [])

end AxiMulti
