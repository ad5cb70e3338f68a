import Verif.Model.StreamBits
import Verif.Model.StreamArith
import Mathlib.Data.Int.Notation

/-!
# Model of `CustomCounter` (stream/stypes.py:3788-3925)

The registers of the variables, the wire in which they are put together, and the slices and casts that take them apart again.  One step is
one clock edge.

Simplifications: an expression that `func` returns is a function of the values of the operands it is given; `initiation_interval` is only
looked at to find the enable (3859-3861), the stall counter (3890-3907) is left out; variables have at least one bit; points are not negative.
-/

namespace CCnt

open Vlog

/-- One variable: an entry of `width_list`, `point_list` and `signed_list` (stream/stypes.py:3812-3846). -/
structure Var where
  width : ℕ := 32
  point : ℕ := 0
  signed : Bool := true
  deriving DecidableEq, Repr

/-- The type of the register (stream/stypes.py:3865-3867). -/
def Var.ty (v : Var) : Ty := ⟨v.width, v.signed⟩

/-- A list of the constructor: the default is repeated, a list of another length raises (stream/stypes.py:3812-3846). -/
def column {α : Type} (n : ℕ) (dflt : α) : Option (List α) → Option (List α)
  | none => some (List.replicate n dflt)
  | some l => if l.length = n then some l else none

/-- `zip(self.width_list, self.point_list, self.signed_list)` (stream/stypes.py:3866-3867). -/
def zipVars : List ℕ → List ℕ → List Bool → List Var
  | w :: ws, p :: ps, s :: ss => ⟨w, p, s⟩ :: zipVars ws ps ss
  | _, _, _ => []

/-- The variables that the constructor makes for `n` initial values (stream/stypes.py:3810-3846); `none` is an exception. -/
def mkVars (n : ℕ) (ws ps : Option (List ℕ)) (ss : Option (List Bool)) : Option (List Var) :=
  match column n 32 ws, column n 0 ps, column n true ss with
  | some ws, some ps, some ss => some (zipVars ws ps ss)
  | _, _, _ => none

/-- A counter: its variables, the expressions that `func` returns, is a `reset` given, and is `initiation_interval` different from 1
    (stream/stypes.py:3795-3810, 3860, 3875). -/
structure Cfg where
  vars : List Var
  next : List (List ℤ → ℤ)
  hasReset : Bool := false
  multi : Bool := false

/-- `func` must return one expression for every variable (stream/stypes.py:3877-3878); `none` is an exception. -/
def Cfg.build (c : Cfg) : Option Cfg := if c.next.length = c.vars.length then some c else none

/-- What the operator sees in one cycle: `adv` is `senable`, `valid` is `svalid`, the others are the values of the operands
    (stream/stypes.py:3798-3804, 3857-3863). -/
structure In where
  adv : Bool := true
  valid : Bool := true
  inits : List ℤ := []
  args : List ℤ := []
  rst : ℤ := 0
  deriving DecidableEq, Repr

/-- `arg_data`: the initial values, the arguments and the reset, if there is one (stream/stypes.py:3798-3804, 3857). -/
def Cfg.argData (c : Cfg) (i : In) : List ℤ := i.inits ++ i.args ++ (if c.hasReset then [i.rst] else [])

/-- `arg_data[num_vars:num_vars + num_vars]` (stream/stypes.py:3873). -/
def Cfg.funcArgs (c : Cfg) (i : In) : List ℤ := ((c.argData i).drop c.vars.length).take c.vars.length

/-- `enable_cond` (stream/stypes.py:3859-3861). -/
def Cfg.enable (c : Cfg) (i : In) : Bool := i.adv && (!c.multi || i.valid)

/-- The registers after hardware reset: `initval=0` (stream/stypes.py:3865). -/
def Cfg.init (c : Cfg) : List ℤ := c.vars.map fun _ => 0

/-- What is assigned to registers of these variables (stream/stypes.py:3880-3881, 3887-3888). -/
def store : List Var → List ℤ → List ℤ
  | v :: vs, x :: xs => v.ty.wrap x :: store vs xs
  | _, _ => []

/-- One clock edge; the assignment of the initial values comes later in the sequence and wins (stream/stypes.py:3873-3888). -/
def Cfg.step (c : Cfg) (s : List ℤ) (i : In) : List ℤ :=
  if c.hasReset && c.enable i && i.rst != 0 then store c.vars ((c.argData i).take c.vars.length)
  else if c.enable i then store c.vars (c.next.map fun e => e (s ++ c.funcArgs i))
  else s

/-- The registers with their types (stream/stypes.py:3865-3867). -/
def vals : List Var → List ℤ → List Val
  | v :: vs, x :: xs => ⟨v.ty, x⟩ :: vals vs xs
  | _, _ => []

/-- `sig_data`: all variables, the first in the highest bits (stream/stypes.py:3869-3871). -/
def Cfg.data (c : Cfg) (s : List ℤ) : Val := SBits.cat (vals c.vars s)

/-- `Cast(Slice(v, lsb + width - 1, lsb), width, point, signed)` (stream/stypes.py:3920-3921). -/
def pick (d : Val) (v : Var) (lsb : ℕ) : Option ℤ :=
  (SBits.slice d (lsb + v.width - 1) lsb).map fun s =>
    SArith.cast (fun _ => s.val) ⟨v.width, v.point, v.signed⟩ ⟨⟨s.ty.width, 0, s.ty.signed⟩, .net "data"⟩

/-- The loop over the reversed lists (stream/stypes.py:3916-3923). -/
def unpack (d : Val) : List Var → ℕ → List (Option ℤ)
  | [], _ => []
  | v :: vs, lsb => pick d v lsb :: unpack d vs (lsb + v.width)

/-- The values of the tuple that `CustomCounter` returns (stream/stypes.py:3910-3925). -/
def Cfg.outs (c : Cfg) (s : List ℤ) : List (Option ℤ) := (unpack (c.data s) c.vars.reverse 0).reverse

/-- The registers at cycle `t` (stream/stypes.py:3865, 3880-3888). -/
def Cfg.at (c : Cfg) (inp : ℕ → In) : ℕ → List ℤ
  | 0 => c.init
  | t + 1 => c.step (c.at inp t) (inp t)

end CCnt
