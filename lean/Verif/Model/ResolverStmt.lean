import Mathlib.Data.Int.Notation

/-!
# Resolution of statements (resolver/resolver.py:76-397, 399-405, 490-493, 619-624)

`ReplaceVisitor` on the statements of an always block: it puts known constants into the expressions and replaces a
`For` by one copy of its body for each iteration.  The visitor changes nodes in place and also returns a value; a node
inside another statement is replaced by the returned value, a statement directly in the always block is not
(`visit_Always` throws the value away), so both are modelled.  Because of the changes in place a `For` that cannot be
unrolled comes back with the changes made while trying.

Simplified: expressions have unbounded integer values (when this makes no difference is C44) and the operators
listed in `Op` and `Un`; an element of an array has one index and the array is not named in the dictionary; widths
are constants; nodes are not shared between statements, so the cache of visited nodes (52-73) is left out; `Case`,
delays, system tasks, calls, `Cat`, slices and `Repeat` are left out; an `If` without
`false_statement` is an `If` with an empty one.
-/

namespace RSt

/-- Operators with two operands (core/vtypes.py:1054-1062, 1090-1104, 1172-1253, 1353-1382). -/
inductive Op
  | add | sub | mul | lt | gt | le | ge | eq | ne | land | lor
  deriving DecidableEq, Repr

/-- Operators with one operand (core/vtypes.py:1392-1410). -/
inductive Un
  | neg | lnot
  deriving DecidableEq, Repr

/-- Expressions: a number (`int`, or `_Constant`, whose value is taken at resolver/resolver.py:97-98), a variable, a
    parameter or localparam (129-143), an element of an array (`Pointer`, 244-254), operators (218-242), `Cond`
    (297-311). -/
inductive E
  | num (v : ℤ)
  | var (x : String)
  | par (x : String)
  | elem (a : String) (i : E)
  | un (o : Un) (a : E)
  | bin (o : Op) (a b : E)
  | cond (c a b : E)
  deriving DecidableEq, Repr

/-- A Python bool as the number it is printed as (verilog/to_verilog.py:131-134). -/
def b2i (b : Bool) : ℤ := if b then 1 else 0

/-- `op` of the operators on Python integers (core/vtypes.py:1058, 1094, 1101, 1180-1251, 1360-1363, 1376-1379). -/
def Op.fold : Op → ℤ → ℤ → ℤ
  | .add, x, y => x + y
  | .sub, x, y => x - y
  | .mul, x, y => x * y
  | .lt, x, y => b2i (decide (x < y))
  | .gt, x, y => b2i (decide (y < x))
  | .le, x, y => b2i (decide (x ≤ y))
  | .ge, x, y => b2i (decide (y ≤ x))
  | .eq, x, y => b2i (decide (x = y))
  | .ne, x, y => b2i (decide (x ≠ y))
  | .land, x, y => b2i (x != 0 && y != 0)
  | .lor, x, y => b2i (x != 0 || y != 0)

/-- `op` of the operators with one operand (core/vtypes.py:1395-1396, 1406-1407). -/
def Un.fold : Un → ℤ → ℤ
  | .neg, x => -x
  | .lnot, x => b2i (x == 0)

/-- The constant dictionary (resolver/resolver.py:107-125).  A value need not be a number (372-374, 395). -/
abbrev Dict := String → Option E

/-- `const_dict[x] = e` (resolver/resolver.py:374, 395). -/
def Dict.set (d : Dict) (x : String) (e : E) : Dict := fun y => if y = x then some e else d y

/-- The number returned by the visit of an expression, if it is one (resolver/resolver.py:78-98, 129-143, 218-311;
    `check_constant`, 21-24).  With `fr` the visitor is a `ForReplaceVisitor`, which looks up variables as well
    (490-493). -/
def cval (fr : Bool) (d : Dict) : E → Option ℤ
  | .num v => some v
  | .var x =>
      if fr then
        match d x with
        | some (.num v) => some v
        | _ => none
      else none
  | .par x =>
      match d x with
      | some (.num v) => some v
      | _ => none
  | .elem _ _ => none
  | .un o a =>
      match cval fr d a with
      | some x => some (o.fold x)
      | none => none
  | .bin o a b =>
      match cval fr d a, cval fr d b with
      | some x, some y => some (o.fold x y)
      | _, _ => none
  | .cond c a b =>
      match cval fr d c, cval fr d a, cval fr d b with
      | some z, some x, some y => some (if z ≠ 0 then x else y)
      | _, _, _ => none

/-- An operand after the visit: overwritten if a number came back (resolver/resolver.py:228-231). -/
def over (v : Option ℤ) (e : E) : E :=
  match v with
  | some v => .num v
  | none => e

/-- The node of an expression after the visit (resolver/resolver.py:218-311): operands are overwritten in place unless
    the whole node is a number, in which case it is left as it was (223-227). -/
def node (fr : Bool) (d : Dict) : E → E
  | .num v => .num v
  | .var x => .var x
  | .par x => .par x
  | .elem a i => .elem a (over (cval fr d i) (node fr d i))
  | .un o a => if (cval fr d (.un o a)).isSome then .un o a else .un o (over (cval fr d a) (node fr d a))
  | .bin o a b =>
      if (cval fr d (.bin o a b)).isSome then .bin o a b
      else .bin o (over (cval fr d a) (node fr d a)) (over (cval fr d b) (node fr d b))
  | .cond c a b =>
      if (cval fr d (.cond c a b)).isSome then .cond c a b
      else .cond (over (cval fr d c) (node fr d c)) (over (cval fr d a) (node fr d a)) (over (cval fr d b) (node fr d b))

/-- What stands in a field after `if check_constant(r): field = r` (resolver/resolver.py:336-341, 351-352, 365-366,
    402-403). -/
def put (fr : Bool) (d : Dict) (e : E) : E := over (cval fr d e) (node fr d e)

/-- What the visit of an expression returns (resolver/resolver.py:70-73, 129-134): a leaf in the dictionary returns
    its entry, a number or not. -/
def ret (fr : Bool) (d : Dict) : E → E
  | .var x => if fr then (d x).getD (.var x) else .var x
  | .par x => (d x).getD (.par x)
  | e => put fr d e

/-- Statements.  `asg` is `Subst`, blocking or not (core/vtypes.py:1903-1931); `ite` is `If` (1974-2015); `loop` is
    `For`, with `i = init`, the condition, `j = step` and the body (2018-2040); `whl` is `While` (2043-2063). -/
inductive S
  | skip
  | seq (a b : S)
  | asg (blk : Bool) (l e : E)
  | ite (c : E) (t f : S)
  | whl (c : E) (b : S)
  | loop (i : String) (init c : E) (j : String) (step : E) (b : S)
  deriving DecidableEq, Repr

/-- The loop of `visit_For` (resolver/resolver.py:376-397).  `i` and `j` are the destinations of `pre` and `post`, `c` is what the
    visit of the condition returned, `k` the condition of the node and `step` the right side of `post` as they stand; `f`
    visits a copy of the body.  `some (.inl s)`: the
    statements of the iterations; `some (.inr (c, step))`: the condition was not a number, the node stays, with the
    condition and the step as changed in place (379-382, 395).  `none`: the `ValueError` of line 392, an
    exception in the body, or more than `n` iterations. -/
def unroll (f : Dict → Option S) (i j : String) (c k : E) : Nat → Dict → E → Option (S ⊕ (E × E))
  | 0, _, _ => none
  | n + 1, d, step =>
      match cval true d c with
      | none => some (.inr (node true d k, step))
      | some v =>
          if v = 0 then some (.inl .skip)
          else
            match f d with
            | none => none
            | some b =>
                if j = i then
                  match unroll f i j c k n (d.set i (ret true d step)) (node true d step) with
                  | some (.inl s) => some (.inl (.seq b s))
                  | r => r
                else none

/-- `ReplaceVisitor.visit` of a statement (resolver/resolver.py:330-342 for `Subst`, 345-358 for `If`, 360-397 for `For`,
    399-405 for `While`; 45-46 for a tuple): the returned statement, and the statement in place.  An `If` and a
    `While` hold what the visits of their statements returned.  `n` bounds the iterations of each loop.  `none`: an
    exception (`pre.left.name` of a number, 372), or more than `n` iterations. -/
def visitS (n : Nat) : S → Bool → Dict → Option (S × S)
  | .skip, _, _ => some (.skip, .skip)
  | .seq a b, fr, d =>
      match visitS n a fr d, visitS n b fr d with
      | some (ra, pa), some (rb, pb) => some (.seq ra rb, .seq pa pb)
      | _, _ => none
  | .asg blk l e, fr, d =>
      let s := S.asg blk (ret fr d l) (put fr d e)
      some (s, s)
  | .ite c t f, fr, d =>
      match visitS n t fr d, visitS n f fr d with
      | some (rt, _), some (rf, _) => some (.ite (put fr d c) rt rf, .ite (put fr d c) rt rf)
      | _, _ => none
  | .whl c b, fr, d =>
      match visitS n b fr d with
      | some (rb, _) => some (.whl (put fr d c) rb, .whl (put fr d c) rb)
      | none => none
  | .loop i init c j step b, fr, d =>
      match ret fr d (.var i), ret fr d (.var j) with
      | .var i, .var j =>
          let f := fun d => (visitS n b true d).map Prod.fst
          match unroll f i j (ret fr d c) (put fr d c) n (d.set i (put fr d init)) (put fr d step) with
          | some (.inl s) => some (s, .loop i (put fr d init) (put fr d c) j (put fr d step) b)
          | some (.inr (c', step')) =>
              let s := S.loop i (put fr d init) c' j step' b
              some (s, s)
          | none => none
      | _, _ => none

/-- `visit_Always` (resolver/resolver.py:619-624): the returned tuple is thrown away, the statements stay as changed in
    place. -/
def always (n : Nat) (d : Dict) (s : S) : Option S := (visitS n s false d).map Prod.snd

end RSt
