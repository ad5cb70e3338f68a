import Verif.Model.EmitMod
import Verif.Props.C64_Read

/-!
# What a module means

A module is its parameters, its ports and a tree of items: the leaves declare, assign, run or instantiate something, the inner nodes
repeat or select items.  Expressions and statements are interpreted as in C63.
-/

namespace Emit

/-- A variable. -/
structure MDecl (X : Type) where
  kind : DKind
  name : String
  width : Option (X × X)
  dims : Option (List (X × X))
  signed : Bool

/-- A variable of a function. -/
abbrev MFDecl (X : Type) := FKind × String × Option (X × X) × Bool

/-- What is there once. -/
inductive Leaf (X D : Type)
  | param (loc : Bool) (name : String) (value : X) (w : Option (X × X)) (signed : Bool)
  | decl (d : MDecl X)
  | assign (l r : X) (ld rd : Option X)
  | always (sens : List (Edge × Option X)) (body : D)
  | initial (body : D)
  | func (name : String) (w : Option (X × X)) (io var : List (MFDecl X)) (body : D)
  | task (name : String) (io var : List (MFDecl X)) (body : D)
  | inst (m name : String) (params : List (Option String × X)) (ports : List (Option String × Option X))

/-- An item. -/
inductive MItem (X D : Type)
  | leaf (x : Leaf X D)
  | gfor (pre : D) (c : X) (post : D) (scope : Option String) (body : List (MItem X D))
  | gif (c : X) (ts : Option String) (t : List (MItem X D)) (fs : Option String) (f : List (MItem X D))

/-- An else branch without items has no name. -/
def MItem.gifN {X D : Type} (c : X) (ts : Option String) (t : List (MItem X D)) (fs : Option String)
    (f : List (MItem X D)) : MItem X D := .gif c ts t (if f.isEmpty then none else fs) f

/-- A module: for each port its declaration and that of the register an output is. -/
structure MMod (X D : Type) where
  name : String
  params : List (Leaf X D)
  ports : List (MDecl X × Option (MDecl X))
  items : List (MItem X D)

mutual

/-- Elaboration: what there is, in which blocks and with which values of the genvars; `holds` decides a condition, `runs` has the
    values of the genvars in the iterations of a loop. -/
def MItem.elab {X D E : Type} (holds : X → E → Bool) (runs : D → X → D → E → List E) (p : List (Option String)) (e : E) :
    MItem X D → List (List (Option String) × E × Leaf X D)
  | .leaf x => [(p, e, x)]
  | .gfor pre c post s b => (runs pre c post e).flatMap fun e' => MItem.elabs holds runs (p ++ [s]) e' b
  | .gif c ts t fs f =>
    if holds c e then MItem.elabs holds runs (p ++ [ts]) e t else MItem.elabs holds runs (p ++ [fs]) e f

/-- The same for a list. -/
def MItem.elabs {X D E : Type} (holds : X → E → Bool) (runs : D → X → D → E → List E) (p : List (Option String)) (e : E) :
    List (MItem X D) → List (List (Option String) × E × Leaf X D)
  | [] => []
  | i :: l => MItem.elab holds runs p e i ++ MItem.elabs holds runs p e l

end

/-- All of them, or nothing. -/
def all? {X Y : Type} (f : X → Option Y) : List X → Option (List Y)
  | [] => some []
  | x :: l =>
    match f x, all? f l with
    | some y, some ys => some (y :: ys)
    | _, _ => none

theorem all?_append {X Y : Type} (f : X → Option Y) (a b : List X) :
    all? f (a ++ b) = (all? f a).bind fun x => (all? f b).map fun y => x ++ y := by
  induction a with
  | nil => simp [all?]
  | cons x a ih =>
    simp only [List.cons_append, all?, ih]
    cases f x <;> cases all? f a <;> cases all? f b <;> rfl

namespace Sem

variable {X D : Type} (S : Sem X D)

/-! ### Objects -/

/-- A pair of bounds. -/
def pairV (p : VE × VE) : Option (X × X) :=
  match S.toESem.denV p.1, S.toESem.denV p.2 with
  | some a, some b => some (a, b)
  | _, _ => none

/-- A width of `w` bits is `[w-1:0]`. -/
def wV : VW → Option (Option (X × X))
  | .none => some none
  | .width e => (S.toESem.denV e).map fun x => some (S.app "-" [x, S.lit ['1']], S.lit ['0'])
  | .bounds m l => (S.pairV (m, l)).map some

/-- Dimensions: `d` elements are `[0:d-1]`. -/
def dimsV : VD → Option (Option (List (X × X)))
  | .none => some none
  | .dims l => (S.toESem.denVs l).map fun xs => some (xs.map fun x => (S.lit ['0'], S.app "-" [x, S.lit ['1']]))
  | .bounds l => (all? S.pairV l).map some

/-- A variable. -/
def declV (d : VDecl) : Option (MDecl X) :=
  match S.wV d.width, S.dimsV d.dims with
  | some w, some ds => some ⟨d.kind, d.name, w, ds, d.signed⟩
  | _, _ => none

/-- A variable of a function. -/
def fdeclV (d : FDecl) : Option (MFDecl X) :=
  match d.width with
  | none => some (d.kind, d.name, none, d.signed)
  | some p => (S.pairV p).map fun w => (d.kind, d.name, some w, d.signed)

/-- A function or task. -/
def fnV (f : Fn) : Option (List (MFDecl X) × List (MFDecl X) × D) :=
  match all? S.fdeclV f.io, all? S.fdeclV f.var, S.denVs true f.body with
  | some io, some var, some b => some (io, var, b)
  | _, _, _ => none

/-- A parameter of an instance. -/
def argV (p : Option String × VE) : Option (Option String × X) := (S.toESem.denV p.2).map fun x => (p.1, x)

/-- A port of an instance. -/
def connV (p : Option String × Option VE) : Option (Option String × Option X) :=
  match p.2 with
  | none => some (p.1, none)
  | some e => (S.toESem.denV e).map fun x => (p.1, some x)

/-- A parameter. -/
def paramV (loc : Bool) (n : String) (x : VE) (w : VW) (s : Bool) : Option (Leaf X D) :=
  match S.toESem.denV x, S.wV w with
  | some x, some w => some (.param loc n x w s)
  | _, _ => none

/-- The parameters of a module or block. -/
def paramsV : List VItem → Option (List (Leaf X D))
  | [] => some []
  | .param false n x w s :: l =>
    match S.paramV false n x w s, paramsV l with
    | some a, some as => some (a :: as)
    | _, _ => none
  | _ :: l => paramsV l

/-- Parameters and the other items. -/
def blockM (ps : Option (List (Leaf X D))) (is : Option (List (MItem X D))) : Option (List (MItem X D)) :=
  match ps, is with
  | some ps, some is => some (ps.map .leaf ++ is)
  | _, _ => none

mutual

/-- What an item object means; ports and parameters are no items. -/
def itemV : VItem → Option (List (MItem X D))
  | .param false _ _ _ _ => some []
  | .param true n x w s => (S.paramV true n x w s).map fun x => [.leaf x]
  | .decl d => if d.kind.io then some [] else (S.declV d).map fun d => [.leaf (.decl d)]
  | .any _ => some []
  | .assign l r ld rd =>
    match S.toESem.denV l, S.toESem.denV r, S.delV ld, S.delV rd with
    | some l, some r, some ld, some rd => some [.leaf (.assign l r ld rd)]
    | _, _, _, _ => none
  | .always sens body =>
    match S.sensVs (if sens.isEmpty then [.all] else sens), S.denVs false body with
    | some s, some b => some [.leaf (.always s b)]
    | _, _ => none
  | .initial body => (S.denVs true body).map fun b => [.leaf (.initial b)]
  | .func n w f =>
    match S.wV w, S.fnV f with
    | some w, some f => some [.leaf (.func n w f.1 f.2.1 f.2.2)]
    | _, _ => none
  | .task n f => (S.fnV f).map fun f => [.leaf (.task n f.1 f.2.1 f.2.2)]
  | .inst m n ps qs =>
    match all? S.argV ps, all? S.connV qs with
    | some ps, some qs => some [.leaf (.inst m n ps qs)]
    | _, _ => none
  | .gfor pre c post s body =>
    match S.denV true pre, S.toESem.denV c, S.denV true post, blockM (S.paramsV body) (itemsV body) with
    | some pre, some c, some post, some b => some [.gfor pre c post s b]
    | _, _, _, _ => none
  | .gif c ts t fs f =>
    match S.toESem.denV c, blockM (S.paramsV t) (itemsV t), blockM (S.paramsV f) (itemsV f) with
    | some c, some t, some f => some [.gifN c ts t fs f]
    | _, _, _ => none

/-- The same for a list. -/
def itemsV : List VItem → Option (List (MItem X D))
  | [] => some []
  | i :: l =>
    match itemV i, itemsV l with
    | some a, some as => some (a ++ as)
    | _, _ => none

end

/-- A port: an output is a register if one of that name is declared. -/
def portV (items : List VItem) (d : VDecl) : Option (MDecl X × Option (MDecl X)) :=
  match S.declV d, (if d.kind == .output then (items.filterMap (VItem.varOf d.name)).find? fun r => r.kind == .reg else none) with
  | some a, none => some (a, none)
  | some a, some r => (S.declV r).map fun r => (a, some r)
  | none, _ => none

/-- Not the register of an output. -/
def _root_.Emit.VItem.notOutReg (out : String → Bool) : VItem → Bool
  | .decl d => !(d.kind == .reg && out d.name)
  | _ => true

/-- A module object. -/
def modV (m : VMod) : Option (MMod X D) :=
  match S.paramsV m.items, all? (S.portV m.items) ((ioTable m.items).filterMap (·.2)),
      S.itemsV (m.items.filter (VItem.notOutReg (isOutput m.items))) with
  | some ps, some io, some is => some ⟨m.name, ps, io, is⟩
  | _, _, _ => none

/-! ### Syntax trees -/

/-- A pair of bounds. -/
def pairA (p : AE × AE) : X × X := (S.toESem.denA p.1, S.toESem.denA p.2)

/-- A variable. -/
def declA (d : ADec) : MDecl X := ⟨d.kind, d.name, d.width.map S.pairA, d.dims.map fun l => l.map S.pairA, d.signed⟩

/-- The declarations of a function or task of one class. -/
def fdeclsA (io : Bool) : List FItem → List (MFDecl X)
  | [] => []
  | .decl d :: l =>
    if (d.kind == .input) == io then (d.kind, d.name, d.width.map S.pairA, d.signed) :: fdeclsA io l else fdeclsA io l
  | .stmt _ :: l => fdeclsA io l

/-- The statements of a function or task. -/
def fbodyA : List FItem → Option D
  | [] => some S.skip
  | .decl _ :: l => fbodyA l
  | .stmt a :: l =>
    match S.denA a, fbodyA l with
    | some a, some b => some (S.seq a b)
    | _, _ => none

/-- The parameters of a module or block. -/
def paramsA : List AItem → List (Leaf X D)
  | [] => []
  | .param false n x w s :: l => .param false n (S.toESem.denA x) (w.map S.pairA) s :: paramsA l
  | _ :: l => paramsA l

mutual

/-- What an item of a tree means. -/
def itemA : AItem → Option (List (MItem X D))
  | .param false _ _ _ _ => some []
  | .param true n x w s => some [.leaf (.param true n (S.toESem.denA x) (w.map S.pairA) s)]
  | .decl d => if d.kind.io then some [] else some [.leaf (.decl (S.declA d))]
  | .assign l r => some [.leaf (.assign (S.toESem.denA l) (S.toESem.denA r) none none)]
  | .always sens body =>
    match S.sensAs sens, S.denA body with
    | some s, some b => some [.leaf (.always s b)]
    | _, _ => none
  | .initial body => (S.denA body).map fun b => [.leaf (.initial b)]
  | .func n w f => (S.fbodyA f).map fun b => [.leaf (.func n (w.map S.pairA) (S.fdeclsA true f) (S.fdeclsA false f) b)]
  | .task n f => (S.fbodyA f).map fun b => [.leaf (.task n (S.fdeclsA true f) (S.fdeclsA false f) b)]
  | .inst m n ps qs =>
    some [.leaf (.inst m n (ps.map fun p => (p.1, S.toESem.denA p.2)) (qs.map fun q => (q.1, q.2.map S.toESem.denA)))]
  | .gen l => itemsA l
  | .gfor pre c post s body =>
    match S.denA pre, S.denA post, blockM (some (S.paramsA body)) (itemsA body) with
    | some pre, some post, some b => some [.gfor pre (S.toESem.denA c) post s b]
    | _, _, _ => none
  | .gif c ts t fs f =>
    match blockM (some (S.paramsA t)) (itemsA t), blockM (some (S.paramsA f)) (itemsA f) with
    | some t, some f => some [.gifN (S.toESem.denA c) ts t fs f]
    | _, _ => none

/-- The same for a list. -/
def itemsA : List AItem → Option (List (MItem X D))
  | [] => some []
  | i :: l =>
    match itemA i, itemsA l with
    | some a, some as => some (a ++ as)
    | _, _ => none

end

/-- The declaration of an item, if it is one. -/
def _root_.Emit.AItem.dec : AItem → Option ADec
  | .decl d => some d
  | _ => none

/-- The declaration of a port among items. -/
def findIo (items : List AItem) (n : String) : Option ADec :=
  (items.filterMap AItem.dec).find? fun d => d.kind.io && d.name == n

/-- The declaration of a port. -/
def ioOf (items : List AItem) : APort → Option ADec
  | .io d _ => some d
  | .plain n => findIo items n

/-- The registers: of the ports, then of the items. -/
def _root_.Emit.APort.second? : APort → Option ADec
  | .io _ s => s
  | .plain _ => none

/-- The register of that name. -/
def regOf (a : AMod) (n : String) : Option ADec :=
  (a.ports.filterMap APort.second? ++ (a.params ++ a.items).filterMap AItem.dec).find? fun d => d.name == n && d.kind == .reg

/-- A port: an output is a register if one of that name is declared. -/
def portA (a : AMod) (p : APort) : Option (MDecl X × Option (MDecl X)) :=
  (ioOf a.items p).map fun d => (S.declA d, if d.kind == .output then (regOf a d.name).map S.declA else none)

/-- The names of the outputs. -/
def outA (a : AMod) (n : String) : Bool :=
  (a.ports.filterMap (ioOf a.items)).any fun d => d.kind == .output && d.name == n

/-- Not the register of an output. -/
def _root_.Emit.AItem.notOutReg (out : String → Bool) : AItem → Bool
  | .decl d => !(d.kind == .reg && out d.name)
  | _ => true

/-- A module of a tree. -/
def modA (a : AMod) : Option (MMod X D) :=
  match all? (S.portA a) a.ports, S.itemsA ((a.params ++ a.items).filter (AItem.notOutReg (outA a))) with
  | some io, some is => some ⟨a.name, S.paramsA (a.params ++ a.items), io, is⟩
  | _, _ => none

end Sem

end Emit
