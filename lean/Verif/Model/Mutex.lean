import Verif.Model.Fsm

/-!
# Model of `Mutex` and `Barrier` (thread/ttypes.py)

The objects add statements to their own `Seq` and states to the `FSM` of the thread that calls them;
both builders are the models of `Model/Seq.lean` and `Model/Fsm.lean`.  Not modelled: the Python type
check of the `blocking` argument of `acquire`; `acquire`/`release` are `lock`, `try_lock` and
`unlock` (thread/ttypes.py:210-224).
-/

namespace Hdl

/-- `vtypes.Ors` of two arguments = `Lor`, value 0 or 1 (core/vtypes.py:1548-1556). -/
def Expr.or (a b : Expr) : Expr := .fn fun env => if a.truthy env || b.truthy env then 1 else 0

/-- `variable == constant` (core/vtypes.py:1228, `Eq`), value 0 or 1. -/
def Expr.eqInt (v : Var) (n : Int) : Expr := .fn fun env => if env v = n then 1 else 0

/-- `vtypes.And`, bitwise (core/vtypes.py:1284); used here on one-bit operands only, where it
    is the product. -/
def Expr.band1 (a b : Expr) : Expr := .fn fun env => a.eval env * b.eval env

/-- `fsm.state == fsm.current` (thread/ttypes.py:138, 166, 193, 280). -/
def FsmSt.inState (f : FsmSt) : Expr := .eqInt (.state f.name) f.cur

/-- A `Mutex` (thread/ttypes.py:110-126).  `ids` holds the keys of `id_map` in insertion order, so
    that the value of a key is its position, and `id_map_count` the length. -/
structure MutexSt where
  name : String
  width : Nat
  seq : SeqSt
  ids : List String := []

namespace MutexSt

/-- `Mutex(m, name, clk, rst, width)` (thread/ttypes.py:110-126). -/
def fresh (name : String) (width : Nat) : MutexSt := ⟨name, width, SeqSt.fresh name, []⟩

/-- `lock_reg` (thread/ttypes.py:120-121). -/
def lockReg (m : MutexSt) : Reg := ⟨.user ("_" ++ m.name ++ "_lock_reg"), 1, false, some 0⟩

/-- `lock_id` (thread/ttypes.py:122-123). -/
def lockId (m : MutexSt) : Reg := ⟨.user ("_" ++ m.name ++ "_lock_id"), m.width, false, some 0⟩

/-- `_get_id` (thread/ttypes.py:203-208). -/
def getId (m : MutexSt) (n : String) : Nat × MutexSt :=
  if n ∈ m.ids then (m.ids.idxOf n, m)
  else (m.ids.length, { m with ids := m.ids ++ [n] })

/-- `vtypes.Not(self.lock_reg)` (thread/ttypes.py:139, 167). -/
def isFree (m : MutexSt) : Expr := .not (.var m.lockReg.name)

/-- `self.lock_id == new_lock_id` (thread/ttypes.py:140, 150, 177, 195). -/
def isMine (m : MutexSt) (id : Nat) : Expr := .eqInt m.lockId.name id

/-- `lock` (thread/ttypes.py:128-154). -/
def lock (m : MutexSt) (f : FsmSt) : Option (MutexSt × FsmSt) :=
  let p := m.getId f.name
  let id := p.1
  let m := p.2
  if id > 2 ^ m.width - 1 then none else
  let own := Expr.and (.var m.lockReg.name) (m.isMine id)
  (m.seq.applyAll [.iff [f.inState, m.isFree],
    .add [.subst m.lockReg (.int 1), .subst m.lockId (.int id)]]).bind fun q =>
  (f.applyAll [.iff [.or m.isFree (m.isMine id)], .gotoNext none,
    .iff [.not own], .goto f.cur none none,
    .iff [own], .gotoNext none]).map fun f' => ({ m with seq := q }, f')

/-- The register `TmpReg(initval=0)` that holds the result of `try_lock` (thread/ttypes.py:178). -/
def resultReg (tmp : String) : Reg := ⟨.user tmp, 1, false, some 0⟩

/-- `try_lock` (thread/ttypes.py:156-184); `tmp` is the name the module generates for the result
    register. -/
def tryLock (m : MutexSt) (f : FsmSt) (tmp : String) : Option (MutexSt × FsmSt) :=
  let p := m.getId f.name
  let id := p.1
  let m := p.2
  if id > 2 ^ m.width - 1 then none else
  let own := Expr.band1 (.var m.lockReg.name) (m.isMine id)
  (m.seq.applyAll [.iff [f.inState, m.isFree],
    .add [.subst m.lockReg (.int 1), .subst m.lockId (.int id)]]).bind fun q =>
  (f.applyAll [.gotoNext none,
    .add [.subst (resultReg tmp) own], .gotoNext none]).map fun f' => ({ m with seq := q }, f')

/-- `unlock` (thread/ttypes.py:186-201). -/
def unlock (m : MutexSt) (f : FsmSt) : Option (MutexSt × FsmSt) :=
  let p := m.getId f.name
  let id := p.1
  let m := p.2
  if id > 2 ^ m.width - 1 then none else
  (m.seq.applyAll [.iff [f.inState, m.isMine id], .add [.subst m.lockReg (.int 0)]]).bind fun q =>
  (f.applyAll [.gotoNext none]).map fun f' => ({ m with seq := q }, f')

end MutexSt

/-- `util.log2` of a positive integer (types/util.py:47-49): the logarithm rounded up.  (Python
    computes it in floating point, exact for every value a barrier can have in practice.) -/
def clog2 (n : Nat) : Nat := if n ≤ 1 then 0 else Nat.log2 (n - 1) + 1

/-- A `Barrier` (thread/ttypes.py:251-276). -/
structure BarrierSt where
  name : String
  parties : Nat
  seq : SeqSt
  mutex : MutexSt

namespace BarrierSt

/-- `count` (thread/ttypes.py:258, 262-263). -/
def countReg (name : String) (parties : Nat) : Reg :=
  ⟨.user ("_" ++ name ++ "_barrier_count"), clog2 parties + 1, false, some 0⟩

/-- `done` (thread/ttypes.py:264-265). -/
def doneReg (name : String) : Reg := ⟨.user ("_" ++ name ++ "_barrier_done"), 1, false, some 0⟩

/-- `Barrier(m, name, clk, rst, numparties)` (thread/ttypes.py:251-276). -/
def fresh (name : String) (parties : Nat) : Option BarrierSt :=
  ((SeqSt.fresh name).applyAll [
    .add [.subst (doneReg name) (.int 0)],
    .iff [.eqInt (countReg name parties).name parties],
    .add [.subst (countReg name parties) (.int 0), .subst (doneReg name) (.int 1)]]).map fun q =>
  ⟨name, parties, q, MutexSt.fresh ("_" ++ name ++ "_barrier_mutex") 32⟩

/-- `count.inc()` (core/vtypes.py:657, 669-676). -/
def incCount (b : BarrierSt) : Code :=
  .subst (countReg b.name b.parties) (.fn fun env => env (countReg b.name b.parties).name + 1)

/-- `wait` (thread/ttypes.py:278-292). -/
def wait (b : BarrierSt) (f : FsmSt) : Option (BarrierSt × FsmSt) :=
  (b.mutex.lock f).bind fun (m, f) =>
  (b.seq.applyAll [.iff [f.inState], .add [b.incCount]]).bind fun q =>
  (f.applyAll [.gotoNext none]).bind fun f =>
  (m.unlock f).bind fun (m, f) =>
  (f.applyAll [.iff [.var (doneReg b.name).name], .gotoNext none]).map fun f =>
  ({ b with seq := q, mutex := m }, f)

end BarrierSt

end Hdl
