/-!
# Model of `equals`

The function `equals` and the method `VeriloggenNode.equals` (core/vtypes.py:193-213, 232-241), which
compare two expressions attribute by attribute, with the attributes of the classes of expressions.

Simplified: the values of `Int` are numbers; the plain Python values are integers and strings; classes
that do not set `attr_names` are compared by `object_id` (variables, parameters, `SystemTask`,
`Scope`) and are one constructor with the class and the identifier.
-/

namespace VEquals

/-- An expression: Python values, objects compared by identity (core/vtypes.py:225, 536, 2203,
    2219), `Int` (core/vtypes.py:806-820), operators (core/vtypes.py:977-987, 1015-1022), and the
    special operators (core/vtypes.py:1576-1840). -/
inductive E where
  | pyInt (v : Int)
  | pyStr (s : String)
  | obj (cls : String) (id : Nat)
  | int (value : Int) (width : Option Nat) (base : Option Nat) (signed : Bool)
  | bin (cls : String) (left right : E)
  | un (cls : String) (right : E)
  | pointer (var pos : E)
  | slice (var msb lsb : E)
  | cat (vars : List E)
  | rep (var times : E)
  | cond (condition trueValue falseValue : E)

mutual

/-- `equals` of two values (core/vtypes.py:193-213, 232-241): values of different types differ;
    Python values are compared; objects by the attributes of their class: `object_id` (225), `value`
    (780), `left` and `right` (978), `right` (1016), `var` and `pos` (1577), `var`, `msb` and `lsb`
    (1675), `vars` (1740), `var` and `times` (1809).  `Cond` inherits `args` and `kwargs` (1564), which
    are empty (1833, 1568-1569). -/
def equals : E → E → Bool
  | .pyInt v, b => match b with
    | .pyInt w => v = w
    | _ => false
  | .pyStr s, b => match b with
    | .pyStr t => s = t
    | _ => false
  | .obj c i, b => match b with
    | .obj d j => c = d && i = j
    | _ => false
  | .int v _ _ _, b => match b with
    | .int w _ _ _ => v = w
    | _ => false
  | .bin c l r, b => match b with
    | .bin d m s => c = d && equals l m && equals r s
    | _ => false
  | .un c r, b => match b with
    | .un d s => c = d && equals r s
    | _ => false
  | .pointer v p, b => match b with
    | .pointer w q => equals v w && equals p q
    | _ => false
  | .slice v m l, b => match b with
    | .slice w n k => equals v w && equals m n && equals l k
    | _ => false
  | .cat vs, b => match b with
    | .cat ws => equalsZip vs ws
    | _ => false
  | .rep v t, b => match b with
    | .rep w u => equals v w && equals t u
    | _ => false
  | .cond _ _ _, b => match b with
    | .cond _ _ _ => true
    | _ => false

/-- `equals` of two tuples: `for aa, bb in zip(a, b)`, which ends with the shorter one
    (core/vtypes.py:197-202). -/
def equalsZip : List E → List E → Bool
  | [], _ => true
  | v :: vs, ws => match ws with
    | [] => true
    | w :: ws => equals v w && equalsZip vs ws

end

end VEquals
