import Verif.Model.Emit

/-!
# What the trees mean: any interpretation with associative sequencing

An interpretation gives a meaning to every expression and statement form; the only laws are that sequencing is
associative with a unit and that replicating `{x}` is replicating `x`.
-/

namespace Emit

open Literal

/-- A meaning for expressions: `app` for an operator by its Verilog symbol. -/
structure ESem (X : Type) where
  lit : List Char → X
  flt : String → X
  str : String → X
  id : String → X
  app : String → List X → X
  cat : List X → X
  rep : X → X → X
  call : String → List X → X
  sys : String → List X → X
  rep_cat : ∀ x t, rep (cat [x]) t = rep x t

/-- The kinds of edge an event waits for. -/
inductive Edge
  | pos | neg | all | level
  deriving DecidableEq, Repr

/-- A meaning for statements. -/
structure Sem (X D : Type) extends ESem X where
  skip : D
  seq : D → D → D
  assign : Bool → X → X → Option X → Option X → D
  ite : X → D → D → D
  forD : D → X → D → D → D
  whileD : X → D → D
  caseD : Bool → X → List (List X × D) → D
  doD : X → D
  taskD : String → List X → D
  eventD : List (Edge × Option X) → D
  waitD : X → D → D
  foreverD : D → D
  delayD : X → D
  skip_seq : ∀ d, seq skip d = d
  seq_skip : ∀ d, seq d skip = d
  assoc : ∀ a b c, seq (seq a b) c = seq a (seq b c)

/-- The Verilog symbol of an operator object: the operator methods of `_Numeric` (core/vtypes.py:330-430), the
    comments and `op` methods of the classes (1256, 1270 and so on). -/
def VOp.sym : VOp → String
  | .power => "**" | .times => "*" | .divide => "/" | .mod => "%" | .plus => "+" | .minus => "-"
  | .sll => "<<" | .srl => ">>" | .sra => ">>>" | .lessThan => "<" | .greaterThan => ">" | .lessEq => "<="
  | .greaterEq => ">=" | .eq => "==" | .notEq => "!=" | .eql => "===" | .notEql => "!=="
  | .and => "&" | .xor => "^" | .xnor => "~^" | .or => "|" | .land => "&&" | .lor => "||"
  | .uplus => "+_" | .uminus => "-_" | .ulnot => "!_" | .unot => "~_" | .uand => "&_" | .unand => "~&_"
  | .uor => "|_" | .unor => "~|_" | .uxor => "^_" | .uxnor => "~^_"
  | .pointer => "[]" | .slice => "[:]" | .cond => "?:"

/-- The Verilog symbol of an operator of a syntax tree. -/
def AOp.sym : AOp → String
  | .power => "**" | .times => "*" | .divide => "/" | .mod => "%" | .plus => "+" | .minus => "-"
  | .sll => "<<" | .srl => ">>" | .sra => ">>>" | .lessThan => "<" | .greaterThan => ">" | .lessEq => "<="
  | .greaterEq => ">=" | .eq => "==" | .notEq => "!=" | .eql => "===" | .notEql => "!=="
  | .and => "&" | .xor => "^" | .xnor => "~^" | .or => "|" | .land => "&&" | .lor => "||"
  | .uplus => "+_" | .uminus => "-_" | .ulnot => "!_" | .unot => "~_" | .uand => "&_" | .unand => "~&_"
  | .uor => "|_" | .unor => "~|_" | .uxor => "^_" | .uxnor => "~^_"
  | .pointer => "[]" | .partselect => "[:]" | .cond => "?:"

namespace ESem

variable {X : Type} (S : ESem X)

mutual

/-- What an expression object means; a literal by its spelling (C43). -/
def denV : VE → Option X
  | .num n => some (S.lit (decimal n))
  | .bool b => some (S.lit (if b then ['1'] else ['0']))
  | .lit o => (print o).map S.lit
  | .flt s => some (S.flt s)
  | .str s => some (S.str s)
  | .var x => some (S.id x)
  | .op o l => (denVs l).map (S.app o.sym)
  | .cat l => (denVs l).map S.cat
  | .rep a t =>
    match denV a, denV t with
    | some a, some t => some (S.rep a t)
    | _, _ => none
  | .skip e => denV e
  | .call f l => (denVs l).map (S.call f)
  | .sys cmd l => (denVs l).map (S.sys cmd)

/-- The same for a list. -/
def denVs : List VE → Option (List X)
  | [] => some []
  | e :: l =>
    match denV e, denVs l with
    | some a, some as => some (a :: as)
    | _, _ => none

end

mutual

/-- What an expression of a syntax tree means. -/
def denA : AE → X
  | .int t => S.lit t
  | .flt s => S.flt s
  | .str s => S.str s
  | .id x => S.id x
  | .op o l => S.app o.sym (denAs l)
  | .cat l => S.cat (denAs l)
  | .rep a t => S.rep (denA a) (denA t)
  | .call f l => S.call f (denAs l)
  | .sys cmd l => S.sys cmd (denAs l)

/-- The same for a list. -/
def denAs : List AE → List X
  | [] => []
  | e :: l => denA e :: denAs l

end

end ESem

namespace Sem

variable {X D : Type} (S : Sem X D)

/-- A delay: 0 is none. -/
def delV : Option VE → Option (Option X)
  | none => some none
  | some (.num n) => if n = 0 then some none else (S.toESem.denV (.num n)).map some
  | some e => (S.toESem.denV e).map some

/-- An edge object. -/
def sensV : VSens → Option (Edge × Option X)
  | .pos e => (S.toESem.denV e).map fun x => (.pos, some x)
  | .neg e => (S.toESem.denV e).map fun x => (.neg, some x)
  | .all => some (.all, none)
  | .level e => (S.toESem.denV e).map fun x => (.level, some x)

/-- Edge objects. -/
def sensVs : List VSens → Option (List (Edge × Option X))
  | [] => some []
  | e :: l =>
    match sensV S e, sensVs l with
    | some a, some as => some (a :: as)
    | _, _ => none

mutual

/-- What a statement object means where assignments are blocking (`blk`, in `initial`, functions and tasks) or
    blocking only on demand (in `always`); the head and the step of a `For` are blocking.  `none`: no statement. -/
def denV (blk : Bool) : VS → Option D
  | .none => none
  | .tup l => denVs blk l
  | .sub l r b ld rd =>
    match S.toESem.denV l, S.toESem.denV r, S.delV ld, S.delV rd with
    | some l, some r, some ld, some rd => some (S.assign (blk || b) l r ld rd)
    | _, _, _, _ => none
  | .ifs c t f =>
    match S.toESem.denV c, denV blk t with
    | some c, some t =>
      (if f.isNone then some S.skip else denV blk f).map (S.ite c t)
    | _, _ => none
  | .for_ pre c post body =>
    match denV true pre, S.toESem.denV c, denV true post, denV blk body with
    | some pre, some c, some post, some body => some (S.forD pre c post body)
    | _, _, _, _ => none
  | .while_ c body =>
    match S.toESem.denV c, denV blk body with
    | some c, some body => some (S.whileD c body)
    | _, _ => none
  | .case_ x comp l =>
    match S.toESem.denV comp, denVw blk l with
    | some comp, some l => some (S.caseD x comp l)
    | _, _ => none
  | .when _ _ => none
  | .single e => (S.toESem.denV e).map S.doD
  | .task f l => (S.toESem.denVs l).map (S.taskD f)
  | .event l => (S.sensVs l).map S.eventD
  | .wait c body =>
    match S.toESem.denV c with
    | some c =>
      (if body.isNone then some S.skip else denV blk body).map (S.waitD c)
    | none => none
  | .forever l => (denVs blk l).map S.foreverD
  | .delay e => (S.toESem.denV e).map S.delayD

/-- Statements one after the other. -/
def denVs (blk : Bool) : List VS → Option D
  | [] => some S.skip
  | s :: l =>
    match denV blk s, denVs blk l with
    | some a, some b => some (S.seq a b)
    | _, _ => none

/-- The branches of a case statement; no condition is the default. -/
def denVw (blk : Bool) : List VS → Option (List (List X × D))
  | [] => some []
  | .when conds body :: l =>
    match S.toESem.denVs conds, denV blk body, denVw blk l with
    | some c, some b, some r => some ((c, b) :: r)
    | _, _, _ => none
  | _ :: _ => none

end

/-- A delay of a syntax tree; an expression that is no `DelayStatement` has no meaning. -/
def delA : Option ADel → Option (Option X)
  | none => some none
  | some (.stmt e) => some (some (S.toESem.denA e))
  | some (.raw _) => none

/-- An edge of a syntax tree; one without a type has no meaning. -/
def sensA : ASens → Option (Edge × Option X)
  | .pos e => some (.pos, some (S.toESem.denA e))
  | .neg e => some (.neg, some (S.toESem.denA e))
  | .all => some (.all, none)
  | .level e => some (.level, some (S.toESem.denA e))
  | .bare _ => none

/-- Edges of a syntax tree. -/
def sensAs : List ASens → Option (List (Edge × Option X))
  | [] => some []
  | e :: l =>
    match sensA S e, sensAs l with
    | some a, some as => some (a :: as)
    | _, _ => none

mutual

/-- What a statement of a syntax tree means. -/
def denA : AS → Option D
  | .none => none
  | .block l => denAs l
  | .bsub l r ld rd =>
    match S.delA ld, S.delA rd with
    | some ld, some rd => some (S.assign true (S.toESem.denA l) (S.toESem.denA r) ld rd)
    | _, _ => none
  | .nbsub l r ld rd =>
    match S.delA ld, S.delA rd with
    | some ld, some rd => some (S.assign false (S.toESem.denA l) (S.toESem.denA r) ld rd)
    | _, _ => none
  | .ifs c t f =>
    match denA t with
    | some t =>
      (if f.isNone then some S.skip else denA f).map (S.ite (S.toESem.denA c) t)
    | none => none
  | .for_ pre c post body =>
    match denA pre, denA post, denA body with
    | some pre, some post, some body => some (S.forD pre (S.toESem.denA c) post body)
    | _, _, _ => none
  | .while_ c body => (denA body).map (S.whileD (S.toESem.denA c))
  | .case_ x comp l => (denAw l).map (S.caseD x (S.toESem.denA comp))
  | .item _ _ => none
  | .single e => some (S.doD (S.toESem.denA e))
  | .task f l => some (S.taskD f (S.toESem.denAs l))
  | .event l => (S.sensAs l).map S.eventD
  | .wait c body =>
    (if body.isNone then some S.skip else denA body).map (S.waitD (S.toESem.denA c))
  | .forever body => (denA body).map S.foreverD
  | .delay e => some (S.delayD (S.toESem.denA e))

/-- Statements one after the other. -/
def denAs : List AS → Option D
  | [] => some S.skip
  | s :: l =>
    match denA s, denAs l with
    | some a, some b => some (S.seq a b)
    | _, _ => none

/-- The branches of a case statement. -/
def denAw : List AS → Option (List (List X × D))
  | [] => some []
  | .item conds body :: l =>
    match denA body, denAw l with
    | some b, some r => some ((S.toESem.denAs conds, b) :: r)
    | _, _ => none
  | _ :: _ => none

end

end Sem

/-! ### Expressions -/

theorem emitOp_sym (o : VOp) : (emitOp o).sym = o.sym := by cases o <;> rfl

mutual

theorem emitE_den {X : Type} (S : ESem X) {v : Vis} (hv : v.fv = false) :
    ∀ (e : VE) (a : AE), emitE v e = some a → S.denV e = some (S.denA a)
  | .num n, a, h => by cases h; rfl
  | .bool b, a, h => by cases h; rfl
  | .lit o, a, h => by
    obtain ⟨t, ht, rfl⟩ := Option.map_eq_some_iff.1 h
    simp [ESem.denV, ESem.denA, ht]
  | .flt s, a, h => by cases h; rfl
  | .str s, a, h => by cases h; rfl
  | .var x, a, h => by cases h; rfl
  | .op o l, a, h => by
    obtain ⟨t, ht, rfl⟩ := Option.map_eq_some_iff.1 h
    simp [ESem.denV, ESem.denA, emitEs_den S hv l t ht, emitOp_sym]
  | .cat l, a, h => by
    obtain ⟨t, ht, rfl⟩ := Option.map_eq_some_iff.1 h
    simp [ESem.denV, ESem.denA, emitEs_den S hv l t ht]
  | .rep b t, a, h => by
    rw [emitE] at h
    cases hb : emitE v b with
    | none => simp [hb] at h
    | some b' =>
      cases ht : emitE v t with
      | none => simp [hb, ht] at h
      | some t' =>
        simp only [hb, ht, Option.some.injEq] at h
        subst h
        rw [ESem.denV, emitE_den S hv b b' hb, emitE_den S hv t t' ht]
        simp only [ESem.denA]
        split
        · rfl
        · simp only [ESem.denA, ESem.denAs, S.rep_cat]
  | .skip e, a, h => by
    rw [ESem.denV]
    exact emitE_den S hv e a h
  | .call f l, a, h => by
    obtain ⟨t, ht, rfl⟩ := Option.map_eq_some_iff.1 h
    simp [ESem.denV, ESem.denA, emitEs_den S hv l t ht]
  | .sys cmd l, a, h => by
    rw [emitE, muted, hv] at h
    simp only [Bool.false_and, Bool.false_eq_true, ↓reduceIte] at h
    obtain ⟨t, ht, rfl⟩ := Option.map_eq_some_iff.1 h
    simp [ESem.denV, ESem.denA, emitEs_den S hv l t ht]

theorem emitEs_den {X : Type} (S : ESem X) {v : Vis} (hv : v.fv = false) :
    ∀ (l : List VE) (as : List AE), emitEs v l = some as → S.denVs l = some (S.denAs as)
  | [], as, h => by cases h; rfl
  | e :: l, as, h => by
    rw [emitEs] at h
    cases he : emitE v e with
    | none => simp [he] at h
    | some a =>
      cases hl : emitEs v l with
      | none => simp [he, hl] at h
      | some as' =>
        simp only [he, hl, Option.some.injEq] at h
        subst h
        rw [ESem.denVs, emitE_den S hv e a he, emitEs_den S hv l as' hl]
        rfl

end

/-! ### Statements -/

/-- Nothing the tree has no meaning for: no delayed assignment where assignments are not blocking, and no event
    on a level. -/
def clearDel (blk : Bool) : Option VE → Prop
  | none => True
  | some e => blk = true ∨ e = .num 0

mutual

/-- The same for statements. -/
def clear (blk : Bool) : VS → Prop
  | .none => True
  | .tup l => clears blk l
  | .sub _ _ _ ld rd => clearDel blk ld ∧ clearDel blk rd
  | .ifs _ t f => clear blk t ∧ clear blk f
  | .for_ pre _ post body => clear true pre ∧ clear true post ∧ clear blk body
  | .while_ _ body => clear blk body
  | .case_ _ _ l => clears blk l
  | .when _ body => clear blk body
  | .single _ => True
  | .task _ _ => True
  | .event l => ∀ e, VSens.level e ∉ l
  | .wait _ body => clear blk body
  | .forever l => clears blk l
  | .delay _ => True

/-- The same for a list. -/
def clears (blk : Bool) : List VS → Prop
  | [] => True
  | s :: l => clear blk s ∧ clears blk l

end

theorem denAs_append {X D : Type} (S : Sem X D) (a b : List AS) :
    S.denAs (a ++ b) = (S.denAs a).bind fun x => (S.denAs b).map fun y => S.seq x y := by
  induction a with
  | nil =>
    simp only [List.nil_append, Sem.denAs, Option.bind_some]
    cases S.denAs b with
    | none => rfl
    | some y => simp [S.skip_seq]
  | cons s a ih =>
    simp only [List.cons_append, Sem.denAs, ih]
    cases S.denA s <;> cases S.denAs a <;> cases S.denAs b <;> simp [S.assoc]

theorem denAs_flatten {X D : Type} (S : Sem X D) (l : List AS) : S.denAs (flatten l) = S.denAs l := by
  induction l with
  | nil => rfl
  | cons s l ih =>
    have hcons : S.denAs (s :: flatten l) = S.denAs (s :: l) := by
      simp only [Sem.denAs, ih]
    cases s <;> try exact hcons
    rename_i b
    rw [flatten, denAs_append, ih, Sem.denAs, Sem.denA]
    cases S.denAs b <;> cases S.denAs l <;> rfl

theorem denA_elseIf {X D : Type} (S : Sem X D) (r : Bool) (a : AS) : S.denA (elseIf r a) = S.denA a := by
  unfold elseIf
  split
  · split
    · rfl
    · simp only [Sem.denA, Sem.denAs]
      rename_i c t f _
      cases S.denA t with
      | none => rfl
      | some t =>
        simp only
        cases (if f.isNone then some S.skip else S.denA f) with
        | none => rfl
        | some d => simp [S.seq_skip]
  · rfl

theorem elseIf_isNone (r : Bool) {a : AS} (h : a.isNone = false) : (elseIf r a).isNone = false := by
  unfold elseIf
  split
  · split <;> rfl
  · exact h

/-- Only `None` is written as `None`, and only a `When` as a branch. -/
theorem emitS_shape {v : Vis} {s : VS} {a : AS} (h : emitS v s = some a) :
    a.isNone = false ∧ ((∃ c b, a = .item c b) ↔ ∃ c b, s = .when c b) := by
  cases s with
  | none => cases h
  | tup l =>
    obtain ⟨t, ht, rfl⟩ := Option.map_eq_some_iff.1 h
    simp [AS.isNone]
  | sub l r blk ld rd =>
    rw [emitS, emitSub] at h
    split at h
    · cases h
      split <;> simp [AS.isNone]
    · cases h
  | ifs c t f =>
    rw [emitS] at h
    split at h
    · obtain ⟨t, ht, rfl⟩ := Option.map_eq_some_iff.1 h
      simp [AS.isNone]
    · cases h
  | for_ pre c post body =>
    rw [emitS] at h
    split at h
    · cases h; simp [AS.isNone]
    · cases h
  | while_ c body =>
    rw [emitS] at h
    split at h
    · cases h; simp [AS.isNone]
    · cases h
  | case_ x comp l =>
    rw [emitS] at h
    split at h
    · cases h; simp [AS.isNone]
    · cases h
  | when c body =>
    rw [emitS] at h
    split at h
    · cases h; simp [AS.isNone]
    · cases h
  | single e =>
    obtain ⟨t, ht, rfl⟩ := Option.map_eq_some_iff.1 h
    simp [AS.isNone]
  | task f l =>
    obtain ⟨t, ht, rfl⟩ := Option.map_eq_some_iff.1 h
    simp [AS.isNone]
  | event l =>
    obtain ⟨t, ht, rfl⟩ := Option.map_eq_some_iff.1 h
    simp [AS.isNone]
  | wait c body =>
    rw [emitS] at h
    split at h
    · split at h
      · obtain ⟨t, ht, rfl⟩ := Option.map_eq_some_iff.1 h
        simp [AS.isNone]
      · cases h
    · cases h
  | forever l =>
    rw [emitS] at h
    split at h
    · split at h
      · cases h; simp [AS.isNone]
      · obtain ⟨t, ht, rfl⟩ := Option.map_eq_some_iff.1 h
        simp [AS.isNone]
    · cases h
  | delay e =>
    rw [emitS] at h
    split at h
    · cases h; simp [AS.isNone]
    · obtain ⟨t, ht, rfl⟩ := Option.map_eq_some_iff.1 h
      simp [AS.isNone]

theorem emitDel_den {X D : Type} (S : Sem X D) {v : Vis} (hv : v.fv = false) {d : Option VE} {a : Option ADel}
    (h : emitDel v d = some a) (hc : clearDel v.blk d) : S.delA a = S.delV d := by
  have key : ∀ e x, emitE v e = some x → e ≠ .num 0 → (v.blk = true ∨ e = .num 0) →
      S.delA (some (if v.blk then .stmt x else .raw x)) = (S.toESem.denV e).map some := by
    intro e x hx hn hc
    rw [if_pos (hc.resolve_right hn), emitE_den S.toESem hv e x hx]
    rfl
  unfold emitDel at h
  split at h
  · cases h; rfl
  · rename_i n
    split at h
    · cases h
      rename_i hn
      simp [Sem.delV, Sem.delA, hn]
    · rename_i hn
      obtain ⟨t, ht, rfl⟩ := Option.map_eq_some_iff.1 h
      rw [key _ _ ht (by simpa using hn) hc]
      simp [Sem.delV, hn]
  · rename_i o
    obtain ⟨t, ht, rfl⟩ := Option.map_eq_some_iff.1 h
    rw [key _ _ ht (by simp) hc]
    rfl
  · cases h

theorem emitSens_den {X D : Type} (S : Sem X D) {v : Vis} (hv : v.fv = false) :
    ∀ {l : List VSens} {as : List ASens}, emitSensL v l = some as → (∀ e, VSens.level e ∉ l) →
      S.sensAs as = S.sensVs l
  | [], as, h, _ => by cases h; rfl
  | e :: l, as, h, hc => by
    rw [emitSensL] at h
    cases he : emitSens v e with
    | none => simp [he] at h
    | some a =>
      cases hl : emitSensL v l with
      | none => simp [he, hl] at h
      | some as' =>
        simp only [he, hl, Option.some.injEq] at h
        subst h
        have h1 : S.sensA a = S.sensV e := by
          cases e with
          | pos e =>
            rw [emitSens] at he
            split at he
            · obtain ⟨t, ht, rfl⟩ := Option.map_eq_some_iff.1 he
              simp [Sem.sensA, Sem.sensV, emitE_den S.toESem hv e t ht]
            · cases he
          | neg e =>
            rw [emitSens] at he
            split at he
            · obtain ⟨t, ht, rfl⟩ := Option.map_eq_some_iff.1 he
              simp [Sem.sensA, Sem.sensV, emitE_den S.toESem hv e t ht]
            · cases he
          | all => cases he
          | level e => exact absurd List.mem_cons_self (hc e)
        rw [Sem.sensAs, Sem.sensVs, h1, emitSens_den S hv hl fun e he => hc e (List.mem_cons_of_mem _ he)]

mutual

theorem emitS_den {X D : Type} (S : Sem X D) :
    ∀ (s : VS) (v : Vis) (a : AS), v.fv = false → emitS v s = some a → clear v.blk s → S.denA a = S.denV v.blk s
  | .none, v, a, hv, h, hc => by cases h
  | .tup l, v, a, hv, h, hc => by
    obtain ⟨t, ht, rfl⟩ := Option.map_eq_some_iff.1 h
    rw [Sem.denA, denAs_flatten, Sem.denV]
    exact (emitSs_den S l v t hv ht hc).1
  | .sub l r blk ld rd, v, a, hv, h, hc => by
    rw [emitS, emitSub] at h
    split at h
    · rename_i l' r' ld' rd' h1 h2 h3 h4
      cases h
      rw [Sem.denV, emitE_den S.toESem hv _ _ h1, emitE_den S.toESem hv _ _ h2,
        ← emitDel_den S hv h3 hc.1, ← emitDel_den S hv h4 hc.2]
      cases hb : (v.blk || blk)
      · simp only [Bool.false_eq_true, ↓reduceIte, Sem.denA]
        cases S.delA ld' <;> cases S.delA rd' <;> rfl
      · simp only [↓reduceIte, Sem.denA]
        cases S.delA ld' <;> cases S.delA rd' <;> rfl
    · cases h
  | .ifs c t f, v, a, hv, h, hc => by
    rw [emitS] at h
    cases h1 : emitE v c with
    | none => simp [h1] at h
    | some c' =>
      cases h2 : emitS v t with
      | none => simp [h1, h2] at h
      | some t' =>
        simp only [h1, h2] at h
        obtain ⟨f', hf, rfl⟩ := Option.map_eq_some_iff.1 h
        rw [Sem.denA, Sem.denV, emitE_den S.toESem hv _ _ h1, emitS_den S t v t' hv h2 hc.1]
        have hff : (if f'.isNone then some S.skip else S.denA f') = if f.isNone then some S.skip else S.denV v.blk f := by
          cases hn : f.isNone with
          | true =>
            rw [hn, if_pos rfl] at hf
            cases hf
            rfl
          | false =>
            rw [hn, if_neg (by simp)] at hf
            obtain ⟨g, hg, rfl⟩ := Option.map_eq_some_iff.1 hf
            rw [elseIf_isNone _ (emitS_shape hg).1, if_neg (by simp), if_neg (by simp), denA_elseIf]
            exact emitS_den S f v g hv hg hc.2
        rw [hff]
        cases S.denV v.blk t <;> rfl
  | .for_ pre c post body, v, a, hv, h, hc => by
    rw [emitS] at h
    split at h
    · rename_i pre' c' post' body' h1 h2 h3 h4
      cases h
      rw [Sem.denA, Sem.denV, emitE_den S.toESem hv _ _ h2, emitS_den S pre { v with blk := true } _ hv h1 hc.1,
        emitS_den S post { v with blk := true } _ hv h3 hc.2.1, emitS_den S body _ _ hv h4 hc.2.2]
      cases S.denV true pre <;> cases S.denV true post <;> cases S.denV v.blk body <;> rfl
    · cases h
  | .while_ c body, v, a, hv, h, hc => by
    rw [emitS] at h
    split at h
    · rename_i c' body' h1 h2
      cases h
      rw [Sem.denA, Sem.denV, emitE_den S.toESem hv _ _ h1, emitS_den S body _ _ hv h2 hc]
      cases S.denV v.blk body <;> rfl
    · cases h
  | .case_ x comp l, v, a, hv, h, hc => by
    rw [emitS] at h
    split at h
    · rename_i c' l' h1 h2
      cases h
      rw [Sem.denA, Sem.denV, emitE_den S.toESem hv _ _ h1, (emitSs_den S l v l' hv h2 hc).2]
      cases S.denVw v.blk l <;> rfl
    · cases h
  | .when conds body, v, a, hv, h, hc => by
    rw [emitS] at h
    split at h
    · cases h; rfl
    · cases h
  | .single e, v, a, hv, h, hc => by
    obtain ⟨t, ht, rfl⟩ := Option.map_eq_some_iff.1 h
    simp [Sem.denA, Sem.denV, emitE_den S.toESem hv _ _ ht]
  | .task f l, v, a, hv, h, hc => by
    obtain ⟨t, ht, rfl⟩ := Option.map_eq_some_iff.1 h
    simp [Sem.denA, Sem.denV, emitEs_den S.toESem hv _ _ ht]
  | .event l, v, a, hv, h, hc => by
    obtain ⟨t, ht, rfl⟩ := Option.map_eq_some_iff.1 h
    rw [Sem.denA, Sem.denV, emitSens_den S hv ht hc]
  | .wait c body, v, a, hv, h, hc => by
    rw [emitS] at h
    split at h
    · split at h
      · rename_i c' h1
        obtain ⟨b, hb, rfl⟩ := Option.map_eq_some_iff.1 h
        rw [Sem.denA, Sem.denV, emitE_den S.toESem hv _ _ h1]
        have hff : (if b.isNone then some S.skip else S.denA b) =
            if body.isNone then some S.skip else S.denV v.blk body := by
          cases hn : body.isNone with
          | true =>
            rw [hn, if_pos rfl] at hb
            cases hb
            rfl
          | false =>
            rw [hn, if_neg (by simp)] at hb
            rw [(emitS_shape hb).1, if_neg (by simp), if_neg (by simp)]
            exact emitS_den S body v b hv hb hc
        rw [hff]
      · cases h
    · cases h
  | .forever l, v, a, hv, h, hc => by
    rw [emitS, hv] at h
    split at h
    · simp only [Bool.false_eq_true, ↓reduceIte] at h
      obtain ⟨t, ht, rfl⟩ := Option.map_eq_some_iff.1 h
      rw [Sem.denA, Sem.denA, denAs_flatten, Sem.denV, (emitSs_den S l v t hv ht hc).1]
    · cases h
  | .delay e, v, a, hv, h, hc => by
    rw [emitS, hv] at h
    simp only [Bool.false_eq_true, ↓reduceIte] at h
    obtain ⟨t, ht, rfl⟩ := Option.map_eq_some_iff.1 h
    simp [Sem.denA, Sem.denV, emitE_den S.toESem hv _ _ ht]

theorem emitSs_den {X D : Type} (S : Sem X D) :
    ∀ (l : List VS) (v : Vis) (as : List AS), v.fv = false → emitSs v l = some as → clears v.blk l →
      S.denAs as = S.denVs v.blk l ∧ S.denAw as = S.denVw v.blk l
  | [], v, as, hv, h, hc => by cases h; exact ⟨rfl, rfl⟩
  | s :: l, v, as, hv, h, hc => by
    rw [emitSs] at h
    cases he : emitS v s with
    | none => simp [he] at h
    | some a =>
      cases hl : emitSs v l with
      | none => simp [he, hl] at h
      | some as' =>
        simp only [he, hl, Option.some.injEq] at h
        subst h
        obtain ⟨i1, i2⟩ := emitSs_den S l v as' hv hl hc.2
        have h1 := emitS_den S s v a hv he hc.1
        refine ⟨by rw [Sem.denAs, Sem.denVs, h1, i1], ?_⟩
        by_cases hw : ∃ c b, s = .when c b
        · obtain ⟨c, b, rfl⟩ := hw
          rw [emitS] at he
          split at he
          · rename_i c' b' h3 h4
            cases he
            rw [Sem.denAw, Sem.denVw, emitEs_den S.toESem hv _ _ h3, emitS_den S b v b' hv h4 hc.1, i2]
            cases S.denV v.blk b <;> cases S.denVw v.blk l <;> rfl
          · cases he
        · have hw' : ¬ ∃ c b, a = .item c b := fun h' => hw ((emitS_shape he).2.1 h')
          have e1 : S.denAw (a :: as') = none := by
            cases a <;> first | rfl | exact absurd ⟨_, _, rfl⟩ hw'
          have e2 : S.denVw v.blk (s :: l) = none := by
            cases s <;> first | rfl | exact absurd ⟨_, _, rfl⟩ hw
          rw [e1, e2]

end

end Emit
