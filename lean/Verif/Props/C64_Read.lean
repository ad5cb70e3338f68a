import Verif.Props.C63_Emit
import Verif.Props.C43_Literal

/-!
# C64: Verilog statements that are read and written again
-/

namespace Emit

open Literal

/-! ### Meaning -/

mutual

/-- Every number of the expression means, in the interpretation, what it means when it is read and written again
    (C43: numbers that are unsigned or have no width keep their value, width and sign). -/
def sameE {X : Type} (S : ESem X) : AE → Prop
  | .int t => ∀ o t', ofText t none none false = some o → print o = some t' → S.lit t' = S.lit t
  | .flt _ => True
  | .str _ => True
  | .id _ => True
  | .op _ l => sameEs S l
  | .cat l => sameEs S l
  | .rep a t => sameE S a ∧ sameE S t
  | .call _ l => sameEs S l
  | .sys _ l => sameEs S l

/-- The same for a list. -/
def sameEs {X : Type} (S : ESem X) : List AE → Prop
  | [] => True
  | e :: l => sameE S e ∧ sameEs S l

end

/-- The same for a delay. -/
def sameDel {X : Type} (S : ESem X) : Option ADel → Prop
  | some (.stmt e) => sameE S e
  | _ => True

/-- The same for an edge. -/
def sameSens {X : Type} (S : ESem X) : ASens → Prop
  | .pos e => sameE S e
  | .neg e => sameE S e
  | .level e => sameE S e
  | _ => True

mutual

/-- The same for a statement, in which, where assignments are blocking (`blk`), all assignments are. -/
def same {X : Type} (S : ESem X) (blk : Bool) : AS → Prop
  | .none => True
  | .block l => sames S blk l
  | .bsub l r ld rd => sameE S l ∧ sameE S r ∧ sameDel S ld ∧ sameDel S rd
  | .nbsub l r ld rd => blk = false ∧ sameE S l ∧ sameE S r ∧ sameDel S ld ∧ sameDel S rd
  | .ifs c t f => sameE S c ∧ same S blk t ∧ same S blk f
  | .for_ pre c post body => same S true pre ∧ sameE S c ∧ same S true post ∧ same S blk body
  | .while_ c body => sameE S c ∧ same S blk body
  | .case_ _ comp l => sameE S comp ∧ sames S blk l
  | .item conds body => sameEs S conds ∧ same S blk body
  | .single e => sameE S e
  | .task _ l => sameEs S l
  | .event l => ∀ e ∈ l, sameSens S e
  | .wait c body => sameE S c ∧ same S blk body
  | .forever body => same S blk body
  | .delay e => sameE S e

/-- The same for a list. -/
def sames {X : Type} (S : ESem X) (blk : Bool) : List AS → Prop
  | [] => True
  | s :: l => same S blk s ∧ sames S blk l

end

theorem readOp_sym (o : AOp) : (readOp o).sym = o.sym := by cases o <;> rfl

theorem ofText_print {t : List Char} {o : Lit} (h : ofText t none none false = some o) : ∃ t', print o = some t' := by
  have hb : ∀ (l : List Char) b v b', branch b l = some (v, b') → b' = some b := by
    intro l b v b' hb
    unfold branch at hb
    split at hb
    · cases hb; rfl
    · split at hb
      · cases hb; rfl
      · cases hb
  have hbase : o.base = none ∨ o.base = some 2 ∨ o.base = some 8 ∨ o.base = some 10 ∨ o.base = some 16 := by
    unfold ofText at h
    cases hv : strToValue t with
    | none => rw [hv] at h; cases h
    | some vb =>
      obtain ⟨v, b⟩ := vb
      rw [hv] at h
      simp only [Option.bind_some, Option.isSome_none, Bool.false_eq_true, ↓reduceIte] at h
      split at h
      · obtain ⟨w, _, rfl⟩ := Option.map_eq_some_iff.1 h
        show b = none ∨ b = some 2 ∨ b = some 8 ∨ b = some 10 ∨ b = some 16
        unfold strToValue at hv
        split at hv
        · rw [hb _ _ _ _ hv]; simp
        · split at hv
          · rw [hb _ _ _ _ hv]; simp
          · split at hv
            · rw [hb _ _ _ _ hv]; simp
            · split at hv
              · rw [hb _ _ _ _ hv]; simp
              · obtain ⟨v', _, h'⟩ := Option.map_eq_some_iff.1 hv
                cases h'
                exact .inl rfl
      · cases h
  unfold print bodyText
  rcases hbase with h | h | h | h | h <;> rw [h] <;> exact ⟨_, rfl⟩

mutual

theorem readE_den {X : Type} (S : ESem X) :
    ∀ (a : AE) (e : VE), readE a = some e → sameE S a → S.denV e = some (S.denA a)
  | .int t, e, h, hs => by
    obtain ⟨o, ho, rfl⟩ := Option.map_eq_some_iff.1 h
    obtain ⟨t', ht'⟩ := ofText_print ho
    simp only [ESem.denV, ESem.denA, ht', Option.map_some, hs o t' ho ht']
  | .flt s, e, h, hs => by cases h
  | .str s, e, h, hs => by cases h; rfl
  | .id x, e, h, hs => by cases h; rfl
  | .op o l, e, h, hs => by
    obtain ⟨t, ht, rfl⟩ := Option.map_eq_some_iff.1 h
    simp [ESem.denV, ESem.denA, readEs_den S l t ht hs, readOp_sym]
  | .cat l, e, h, hs => by
    obtain ⟨t, ht, rfl⟩ := Option.map_eq_some_iff.1 h
    simp [ESem.denV, ESem.denA, readEs_den S l t ht hs]
  | .rep a t, e, h, hs => by
    rw [readE] at h
    split at h
    · rename_i h1 h2
      cases h
      simp [ESem.denV, ESem.denA, readE_den S a _ h1 hs.1, readE_den S t _ h2 hs.2]
    · cases h
  | .call f l, e, h, hs => by
    obtain ⟨t, ht, rfl⟩ := Option.map_eq_some_iff.1 h
    simp [ESem.denV, ESem.denA, readEs_den S l t ht hs]
  | .sys cmd l, e, h, hs => by
    obtain ⟨t, ht, rfl⟩ := Option.map_eq_some_iff.1 h
    simp [ESem.denV, ESem.denA, readEs_den S l t ht hs]

theorem readEs_den {X : Type} (S : ESem X) :
    ∀ (l : List AE) (es : List VE), readEs l = some es → sameEs S l → S.denVs es = some (S.denAs l)
  | [], es, h, hs => by cases h; rfl
  | a :: l, es, h, hs => by
    rw [readEs] at h
    split at h
    · rename_i h1 h2
      cases h
      simp [ESem.denVs, ESem.denAs, readE_den S a _ h1 hs.1, readEs_den S l _ h2 hs.2]
    · cases h

end

/-- What is read is no Python number. -/
theorem readE_num {a : AE} {n : Int} : readE a ≠ some (.num n) := by
  intro h
  cases a <;> rw [readE] at h
  all_goals first
    | cases h
    | (obtain ⟨t, _, ht⟩ := Option.map_eq_some_iff.1 h; cases ht; done)
    | (split at h <;> cases h)

theorem readDel_den {X D : Type} (S : Sem X D) {d : Option ADel} {e : Option VE} (h : readDel d = some e)
    (hs : sameDel S.toESem d) : S.delV e = S.delA d := by
  unfold readDel at h
  split at h
  · cases h; rfl
  · rename_i a
    obtain ⟨t, ht, rfl⟩ := Option.map_eq_some_iff.1 h
    have : S.delV (some t) = (S.toESem.denV t).map some := by
      cases t with
      | num n => exact absurd ht readE_num
      | _ => rfl
    rw [this, readE_den S.toESem a t ht hs]
    rfl
  · cases h

theorem readSens_den {X D : Type} (S : Sem X D) :
    ∀ (l : List ASens) (es : List VSens), readSensL l = some es → (∀ e ∈ l, sameSens S.toESem e) →
      S.sensVs es = S.sensAs l
  | [], es, h, _ => by cases h; rfl
  | a :: l, es, h, hs => by
    rw [readSensL] at h
    split at h
    · rename_i e es' h1 h2
      cases h
      have ha := hs a List.mem_cons_self
      have : S.sensV e = S.sensA a := by
        cases a with
        | pos x =>
          obtain ⟨t, ht, rfl⟩ := Option.map_eq_some_iff.1 h1
          simp [Sem.sensV, Sem.sensA, readE_den S.toESem x t ht ha]
        | neg x =>
          obtain ⟨t, ht, rfl⟩ := Option.map_eq_some_iff.1 h1
          simp [Sem.sensV, Sem.sensA, readE_den S.toESem x t ht ha]
        | all => cases h1; rfl
        | level x =>
          obtain ⟨t, ht, rfl⟩ := Option.map_eq_some_iff.1 h1
          simp [Sem.sensV, Sem.sensA, readE_den S.toESem x t ht ha]
        | bare x => cases h1
      rw [Sem.sensVs, Sem.sensAs, this, readSens_den S l es' h2 fun x hx => hs x (List.mem_cons_of_mem _ hx)]
    · cases h

theorem denVs_toTuple {X D : Type} (S : Sem X D) (blk : Bool) (s : VS) :
    S.denVs blk (toTuple s) = S.denV blk s := by
  have h1 : S.denVs blk [s] = S.denV blk s := by
    simp only [Sem.denVs]
    cases S.denV blk s <;> simp [S.seq_skip]
  cases s <;> first | exact h1 | rfl

/-- What is read from a statement is one, and only a branch is read as a `When`. -/
theorem readS_shape {a : AS} {s : VS} (h : readS a = some s) :
    a.isNone = false ∧ s.isNone = false ∧ ((∃ c b, s = .when c b) ↔ ∃ c b, a = .item c b) := by
  cases a <;> rw [readS] at h
  case none => cases h
  case block l =>
    obtain ⟨t, ht, rfl⟩ := Option.map_eq_some_iff.1 h
    simp [AS.isNone, VS.isNone]
  case bsub =>
    rw [readSub] at h
    split at h
    · cases h; simp [AS.isNone, VS.isNone]
    · cases h
  case nbsub =>
    rw [readSub] at h
    split at h
    · cases h; simp [AS.isNone, VS.isNone]
    · cases h
  case ifs =>
    split at h
    · obtain ⟨t, ht, rfl⟩ := Option.map_eq_some_iff.1 h
      simp [AS.isNone, VS.isNone]
    · cases h
  case for_ =>
    split at h
    · cases h; simp [AS.isNone, VS.isNone]
    · cases h
  case while_ =>
    split at h
    · cases h; simp [AS.isNone, VS.isNone]
    · cases h
  case case_ =>
    split at h
    · cases h; simp [AS.isNone, VS.isNone]
    · cases h
  case item =>
    split at h
    · cases h; simp [AS.isNone, VS.isNone]
    · cases h
  case task => cases h
  case wait =>
    split at h
    · obtain ⟨t, ht, rfl⟩ := Option.map_eq_some_iff.1 h
      simp [AS.isNone, VS.isNone]
    · cases h
  all_goals
    obtain ⟨t, ht, rfl⟩ := Option.map_eq_some_iff.1 h
    simp [AS.isNone, VS.isNone]

mutual

theorem readS_den {X D : Type} (S : Sem X D) :
    ∀ (a : AS) (blk : Bool) (s : VS), readS a = some s → same S.toESem blk a → S.denV blk s = S.denA a
  | .none, blk, s, h, hs => by cases h
  | .block l, blk, s, h, hs => by
    obtain ⟨t, ht, rfl⟩ := Option.map_eq_some_iff.1 h
    rw [Sem.denV, Sem.denA]
    exact (readSs_den S l blk t ht hs).1
  | .bsub l r ld rd, blk, s, h, hs => by
    rw [readS, readSub] at h
    split at h
    · rename_i l' r' ld' rd' h1 h2 h3 h4
      cases h
      rw [Sem.denV, Sem.denA, readE_den S.toESem _ _ h1 hs.1, readE_den S.toESem _ _ h2 hs.2.1,
        readDel_den S h3 hs.2.2.1, readDel_den S h4 hs.2.2.2]
      cases S.delA ld <;> cases S.delA rd <;> simp
    · cases h
  | .nbsub l r ld rd, blk, s, h, hs => by
    obtain ⟨rfl, hs⟩ := hs
    rw [readS, readSub] at h
    split at h
    · rename_i l' r' ld' rd' h1 h2 h3 h4
      cases h
      rw [Sem.denV, Sem.denA, readE_den S.toESem _ _ h1 hs.1, readE_den S.toESem _ _ h2 hs.2.1,
        readDel_den S h3 hs.2.2.1, readDel_den S h4 hs.2.2.2]
      cases S.delA ld <;> cases S.delA rd <;> simp
    · cases h
  | .ifs c t f, blk, s, h, hs => by
    rw [readS] at h
    split at h
    · rename_i c' t' h1 h2
      obtain ⟨f', hf, rfl⟩ := Option.map_eq_some_iff.1 h
      rw [Sem.denV, Sem.denA, readE_den S.toESem _ _ h1 hs.1, Sem.denV, denVs_toTuple, readS_den S t blk t' h2 hs.2.1]
      have hff : (if f'.isNone then some S.skip else S.denV blk f') = if f.isNone then some S.skip else S.denA f := by
        cases hn : f.isNone with
        | true =>
          rw [hn, if_pos rfl] at hf
          cases hf
          rfl
        | false =>
          rw [hn, if_neg (by simp)] at hf
          obtain ⟨g, hg, rfl⟩ := Option.map_eq_some_iff.1 hf
          rw [show (VS.tup (toTuple g)).isNone = false from rfl, if_neg (by simp), if_neg (by simp), Sem.denV,
            denVs_toTuple]
          exact readS_den S f blk g hg hs.2.2
      rw [hff]
      cases S.denA t <;> rfl
    · cases h
  | .for_ pre c post body, blk, s, h, hs => by
    rw [readS] at h
    split at h
    · rename_i h1 h2 h3 h4
      cases h
      rw [Sem.denV, Sem.denA, readS_den S pre true _ h1 hs.1, readE_den S.toESem _ _ h2 hs.2.1,
        readS_den S post true _ h3 hs.2.2.1, Sem.denV, denVs_toTuple, readS_den S body blk _ h4 hs.2.2.2]
      cases S.denA pre <;> cases S.denA post <;> cases S.denA body <;> rfl
    · cases h
  | .while_ c body, blk, s, h, hs => by
    rw [readS] at h
    split at h
    · rename_i h1 h2
      cases h
      rw [Sem.denV, Sem.denA, readE_den S.toESem _ _ h1 hs.1, Sem.denV, denVs_toTuple, readS_den S body blk _ h2 hs.2]
      cases S.denA body <;> rfl
    · cases h
  | .case_ x comp l, blk, s, h, hs => by
    rw [readS] at h
    split at h
    · rename_i h1 h2
      cases h
      rw [Sem.denV, Sem.denA, readE_den S.toESem _ _ h1 hs.1, (readSs_den S l blk _ h2 hs.2).2]
      cases S.denAw l <;> rfl
    · cases h
  | .item conds body, blk, s, h, hs => by
    rw [readS] at h
    split at h
    · cases h; rfl
    · cases h
  | .single e, blk, s, h, hs => by
    obtain ⟨t, ht, rfl⟩ := Option.map_eq_some_iff.1 h
    simp [Sem.denV, Sem.denA, readE_den S.toESem _ _ ht hs]
  | .task f l, blk, s, h, hs => by cases h
  | .event l, blk, s, h, hs => by
    obtain ⟨t, ht, rfl⟩ := Option.map_eq_some_iff.1 h
    rw [Sem.denV, Sem.denA, readSens_den S l t ht hs]
  | .wait c body, blk, s, h, hs => by
    rw [readS] at h
    split at h
    · rename_i c' h1
      obtain ⟨b, hb, rfl⟩ := Option.map_eq_some_iff.1 h
      rw [Sem.denV, Sem.denA, readE_den S.toESem _ _ h1 hs.1]
      have hff : (if b.isNone then some S.skip else S.denV blk b) =
          if body.isNone then some S.skip else S.denA body := by
        cases hn : body.isNone with
        | true =>
          rw [hn, if_pos rfl] at hb
          cases hb
          rfl
        | false =>
          rw [hn, if_neg (by simp)] at hb
          obtain ⟨g, hg, rfl⟩ := Option.map_eq_some_iff.1 hb
          rw [if_neg (show ¬ (false = true) by simp), ← readS_den S body blk g hg hs.2, ← denVs_toTuple S blk g]
          cases toTuple g with
          | nil => rfl
          | cons x l => rfl
      rw [hff]
    · cases h
  | .forever body, blk, s, h, hs => by
    obtain ⟨t, ht, rfl⟩ := Option.map_eq_some_iff.1 h
    rw [Sem.denV, Sem.denA, denVs_toTuple, readS_den S body blk t ht hs]
  | .delay e, blk, s, h, hs => by
    obtain ⟨t, ht, rfl⟩ := Option.map_eq_some_iff.1 h
    simp [Sem.denV, Sem.denA, readE_den S.toESem _ _ ht hs]

theorem readSs_den {X D : Type} (S : Sem X D) :
    ∀ (l : List AS) (blk : Bool) (ss : List VS), readSs l = some ss → sames S.toESem blk l →
      S.denVs blk ss = S.denAs l ∧ S.denVw blk ss = S.denAw l
  | [], blk, ss, h, hs => by cases h; exact ⟨rfl, rfl⟩
  | a :: l, blk, ss, h, hs => by
    rw [readSs] at h
    split at h
    · rename_i s ss' h1 h2
      cases h
      obtain ⟨i1, i2⟩ := readSs_den S l blk ss' h2 hs.2
      refine ⟨by rw [Sem.denVs, Sem.denAs, readS_den S a blk s h1 hs.1, i1], ?_⟩
      by_cases hw : ∃ c b, a = .item c b
      · obtain ⟨c, b, rfl⟩ := hw
        rw [readS] at h1
        split at h1
        · rename_i h3 h4
          cases h1
          rw [Sem.denVw, Sem.denAw, readEs_den S.toESem _ _ h3 hs.1.1, Sem.denV, denVs_toTuple,
            readS_den S b blk _ h4 hs.1.2, i2]
          cases S.denA b <;> cases S.denAw l <;> rfl
        · cases h1
      · have hw' : ¬ ∃ c b, s = .when c b := fun h' => hw ((readS_shape h1).2.2.1 h')
        have e1 : S.denVw blk (s :: ss') = none := by
          cases s <;> first | rfl | exact absurd ⟨_, _, rfl⟩ hw'
        have e2 : S.denAw (a :: l) = none := by
          cases a <;> first | rfl | exact absurd ⟨_, _, rfl⟩ hw
        rw [e1, e2]
    · cases h

end

/-- C64: the objects a statement is read as mean what the statement means, if, where assignments are written as
    blocking ones, all of its assignments are, and reading changes no number. -/
theorem c64_read {X D : Type} (S : Sem X D) (blk : Bool) (a : AS) (s : VS) (h : readS a = some s)
    (hs : same S.toESem blk a) : S.denV blk s = S.denA a :=
  readS_den S a blk s h hs

/-- C64: and so does what is written for them (delays of assignments in `always` blocks aside: C63). -/
theorem c64_rewrite {X D : Type} (S : Sem X D) (v : Vis) (hv : v.fv = false) (a : AS) (s : VS) (h : readS a = some s)
    (hs : same S.toESem v.blk a) (hc : clear v.blk s) (b : AS) (hb : emitS v s = some b) : S.denA b = S.denA a := by
  rw [← c64_read S v.blk a s h hs]
  exact emitS_den S s v b hv hb hc

/-! ### Statements that do not change -/

/-- A number that is read and written as itself. -/
def Stable (t : List Char) : Prop := ∃ o, ofText t none none false = some o ∧ print o = some t

mutual

/-- An expression without fractions whose numbers are written as they are read; what is repeated is in braces. -/
def goodE : AE → Prop
  | .int t => Stable t
  | .flt _ => False
  | .str _ => True
  | .id _ => True
  | .op _ l => goodEs l
  | .cat l => goodEs l
  | .rep a t => (∃ l, a = .cat l) ∧ goodE a ∧ goodE t
  | .call _ l => goodEs l
  | .sys _ l => goodEs l

/-- The same for a list. -/
def goodEs : List AE → Prop
  | [] => True
  | e :: l => goodE e ∧ goodEs l

end

/-- A delay, where assignments are blocking, by a number. -/
def goodDel (blk : Bool) : Option ADel → Prop
  | none => True
  | some (.stmt (.int t)) => blk = true ∧ Stable t
  | some _ => False

/-- An edge, where assignments are blocking. -/
def goodSens (blk : Bool) : ASens → Prop
  | .pos e => blk = true ∧ goodE e
  | .neg e => blk = true ∧ goodE e
  | _ => False

/-- A block. -/
def AS.IsBlock (a : AS) : Prop := ∃ l, a = .block l

/-- The block an else branch is, or is put into. -/
def asBlock : AS → AS
  | .block l => .block l
  | a => .block [a]

mutual

/-- Bodies are blocks, no block stands directly in a block, an else branch has the form of C63, there are no calls of
    tasks, no waiting where assignments are not blocking, and no other assignments where they are. -/
def good (rst : AE → Bool) (blk : Bool) : AS → Prop
  | .none => False
  | .block l => goods rst blk l ∧ ∀ b, AS.block b ∉ l
  | .bsub l r ld rd => goodE l ∧ goodE r ∧ goodDel blk ld ∧ goodDel blk rd
  | .nbsub l r ld rd => blk = false ∧ goodE l ∧ goodE r ∧ ld = none ∧ rd = none
  | .ifs c t f => goodE c ∧ good rst blk t ∧ t.IsBlock ∧
      (f = .none ∨ good rst blk f ∧ elseIf (rst c) (asBlock f) = f)
  | .for_ pre c post body => good rst true pre ∧ goodE c ∧ good rst true post ∧ good rst blk body ∧ body.IsBlock
  | .while_ c body => goodE c ∧ good rst blk body ∧ body.IsBlock
  | .case_ _ comp l => goodE comp ∧ goods rst blk l
  | .item conds body => goodEs conds ∧ good rst blk body ∧ body.IsBlock
  | .single e => goodE e
  | .task _ _ => False
  | .event l => ∀ e ∈ l, goodSens blk e
  | .wait c body => blk = true ∧ goodE c ∧ (body = .none ∨ good rst blk body ∧ body.IsBlock ∧ body ≠ .block [])
  | .forever body => blk = true ∧ good rst blk body ∧ body.IsBlock
  | .delay e => goodE e

/-- The same for a list. -/
def goods (rst : AE → Bool) (blk : Bool) : List AS → Prop
  | [] => True
  | s :: l => good rst blk s ∧ goods rst blk l

end

theorem emitOp_readOp (o : AOp) : emitOp (readOp o) = o := by cases o <;> rfl

mutual

theorem back_e {v : Vis} (hv : v.fv = false) : ∀ a, goodE a → ∃ e, readE a = some e ∧ emitE v e = some a
  | .int t, h => by
    obtain ⟨o, h1, h2⟩ := h
    exact ⟨.lit o, by rw [readE, h1]; rfl, by rw [emitE, h2]; rfl⟩
  | .flt _, h => h.elim
  | .str s, h => ⟨_, rfl, rfl⟩
  | .id x, h => ⟨_, rfl, rfl⟩
  | .op o l, h => by
    obtain ⟨es, h1, h2⟩ := back_es hv l h
    exact ⟨.op (readOp o) es, by rw [readE, h1]; rfl, by rw [emitE, h2, emitOp_readOp]; rfl⟩
  | .cat l, h => by
    obtain ⟨es, h1, h2⟩ := back_es hv l h
    exact ⟨.cat es, by rw [readE, h1]; rfl, by rw [emitE, h2]; rfl⟩
  | .rep a t, h => by
    obtain ⟨⟨l, rfl⟩, ha, ht⟩ := h
    obtain ⟨es, h1, h2⟩ := back_es hv l ha
    obtain ⟨e, h3, h4⟩ := back_e hv t ht
    exact ⟨.rep (.cat es) e, by rw [readE, readE, h1, h3]; rfl, by rw [emitE, emitE, h2, h4]; rfl⟩
  | .call f l, h => by
    obtain ⟨es, h1, h2⟩ := back_es hv l h
    exact ⟨.call f es, by rw [readE, h1]; rfl, by rw [emitE, h2]; rfl⟩
  | .sys cmd l, h => by
    obtain ⟨es, h1, h2⟩ := back_es hv l h
    refine ⟨.sys cmd es, by rw [readE, h1]; rfl, ?_⟩
    rw [emitE, if_neg (by simp [muted, hv]), h2]
    rfl

theorem back_es {v : Vis} (hv : v.fv = false) : ∀ l, goodEs l → ∃ es, readEs l = some es ∧ emitEs v es = some l
  | [], _ => ⟨[], rfl, rfl⟩
  | a :: l, h => by
    obtain ⟨e, h1, h2⟩ := back_e hv a h.1
    obtain ⟨es, h3, h4⟩ := back_es hv l h.2
    exact ⟨e :: es, by rw [readEs, h1, h3], by rw [emitEs, h2, h4]⟩

end

theorem back_del {v : Vis} {d : Option ADel} (h : goodDel v.blk d) :
    ∃ e, readDel d = some e ∧ emitDel v e = some d := by
  unfold goodDel at h
  split at h
  · exact ⟨none, rfl, rfl⟩
  · rename_i t
    obtain ⟨hb, o, h1, h2⟩ := h
    refine ⟨some (.lit o), by rw [readDel, readE, h1]; rfl, ?_⟩
    rw [emitDel, emitE, h2, hb]
    rfl
  · exact h.elim

theorem back_sens {v : Vis} (hv : v.fv = false) :
    ∀ l : List ASens, (∀ e ∈ l, goodSens v.blk e) → ∃ es, readSensL l = some es ∧ emitSensL v es = some l
  | [], _ => ⟨[], rfl, rfl⟩
  | a :: l, h => by
    obtain ⟨es, h3, h4⟩ := back_sens hv l fun e he => h e (List.mem_cons_of_mem _ he)
    have ha := h a List.mem_cons_self
    have : ∃ e, readSens a = some e ∧ emitSens v e = some a := by
      cases a with
      | pos e =>
        obtain ⟨x, h1, h2⟩ := back_e hv e ha.2
        exact ⟨.pos x, by rw [readSens, h1]; rfl, by rw [emitSens, if_pos ha.1, h2]; rfl⟩
      | neg e =>
        obtain ⟨x, h1, h2⟩ := back_e hv e ha.2
        exact ⟨.neg x, by rw [readSens, h1]; rfl, by rw [emitSens, if_pos ha.1, h2]; rfl⟩
      | all => exact ha.elim
      | level e => exact ha.elim
      | bare e => exact ha.elim
    obtain ⟨e, h1, h2⟩ := this
    exact ⟨e :: es, by rw [readSensL, h1, h3], by rw [emitSensL, h2, h4]⟩

theorem flatten_id {l : List AS} (h : ∀ b, AS.block b ∉ l) : flatten l = l := by
  induction l with
  | nil => rfl
  | cons s l ih =>
    have hl := ih fun b hb => h b (List.mem_cons_of_mem _ hb)
    cases s
    case block b => exact absurd List.mem_cons_self (h b)
    all_goals rw [flatten, hl]; simp

/-- A block of one statement that is no block. -/
theorem emit_single {v : Vis} {s : VS} {a : AS} (h : emitS v s = some a) :
    emitS v (.tup (toTuple s)) = some (asBlock a) := by
  have key : ∀ b, asBlock a = .block b → b = flatten [a] → emitS v (.tup [s]) = some (asBlock a) := by
    intro b h1 h2
    rw [emitS, emitSs, h, emitSs, h1, h2]
    rfl
  by_cases hs : ∃ l, s = .tup l
  · obtain ⟨l, rfl⟩ := hs
    obtain ⟨t, _, rfl⟩ := Option.map_eq_some_iff.1 h
    exact h
  · have : toTuple s = [s] := by
      cases s <;> first | rfl | exact absurd ⟨_, rfl⟩ hs
    rw [this]
    cases a
    case block l => exact key _ rfl (by simp [flatten])
    all_goals exact key _ rfl rfl

mutual

theorem back_s : ∀ (a : AS) (v : Vis), v.fv = false → good v.rst v.blk a →
    ∃ s, readS a = some s ∧ emitS v s = some a
  | .none, v, hv, h => h.elim
  | .block l, v, hv, h => by
    obtain ⟨ss, h1, h2⟩ := back_ss l v hv h.1
    refine ⟨.tup ss, by rw [readS, h1]; rfl, ?_⟩
    rw [emitS, h2, Option.map_some, flatten_id h.2]
  | .bsub l r ld rd, v, hv, h => by
    obtain ⟨l', a1, b1⟩ := back_e hv l h.1
    obtain ⟨r', a2, b2⟩ := back_e hv r h.2.1
    obtain ⟨ld', a3, b3⟩ := back_del h.2.2.1
    obtain ⟨rd', a4, b4⟩ := back_del h.2.2.2
    refine ⟨.sub l' r' true ld' rd', by rw [readS, readSub, a1, a2, a3, a4], ?_⟩
    rw [emitS, emitSub, b1, b2, b3, b4]
    simp
  | .nbsub l r ld rd, v, hv, h => by
    obtain ⟨hb, hl, hr, rfl, rfl⟩ := h
    obtain ⟨l', a1, b1⟩ := back_e hv l hl
    obtain ⟨r', a2, b2⟩ := back_e hv r hr
    refine ⟨.sub l' r' false none none, by rw [readS, readSub, a1, a2]; rfl, ?_⟩
    rw [emitS, emitSub, b1, b2]
    simp [emitDel, hb]
  | .ifs c t f, v, hv, h => by
    obtain ⟨c', a1, b1⟩ := back_e hv c h.1
    obtain ⟨t', a2, b2⟩ := back_s t v hv h.2.1
    have ht : emitS v (.tup (toTuple t')) = some t := by
      rw [emit_single b2]
      obtain ⟨l, hl⟩ := h.2.2.1
      rw [hl]
      rfl
    rcases h.2.2.2 with rfl | ⟨hf, he⟩
    · refine ⟨.ifs c' (.tup (toTuple t')) .none, by rw [readS, a1, a2]; rfl, ?_⟩
      rw [emitS, b1, ht]
      rfl
    · obtain ⟨f', a3, b3⟩ := back_s f v hv hf
      refine ⟨.ifs c' (.tup (toTuple t')) (.tup (toTuple f')), ?_, ?_⟩
      · rw [readS, a1, a2, a3, (readS_shape a3).1]
        rfl
      · rw [emitS, b1, ht, show (VS.tup (toTuple f')).isNone = false from rfl, emit_single b3]
        simp only [Bool.false_eq_true, ↓reduceIte, Option.map_some, he]
  | .for_ pre c post body, v, hv, h => by
    obtain ⟨h1, h2, h3, h4, l, hl⟩ := h
    obtain ⟨pre', a1, b1⟩ := back_s pre { v with blk := true } hv h1
    obtain ⟨c', a2, b2⟩ := back_e hv c h2
    obtain ⟨post', a3, b3⟩ := back_s post { v with blk := true } hv h3
    obtain ⟨body', a4, b4⟩ := back_s body v hv h4
    refine ⟨.for_ pre' c' post' (.tup (toTuple body')), by rw [readS, a1, a2, a3, a4], ?_⟩
    rw [emitS, b1, b2, b3, emit_single b4, hl]
    rfl
  | .while_ c body, v, hv, h => by
    obtain ⟨h2, h4, l, hl⟩ := h
    obtain ⟨c', a2, b2⟩ := back_e hv c h2
    obtain ⟨body', a4, b4⟩ := back_s body v hv h4
    refine ⟨.while_ c' (.tup (toTuple body')), by rw [readS, a2, a4], ?_⟩
    rw [emitS, b2, emit_single b4, hl]
    rfl
  | .case_ x comp l, v, hv, h => by
    obtain ⟨c', a2, b2⟩ := back_e hv comp h.1
    obtain ⟨ss, a4, b4⟩ := back_ss l v hv h.2
    exact ⟨.case_ x c' ss, by rw [readS, a2, a4], by rw [emitS, b2, b4]⟩
  | .item conds body, v, hv, h => by
    obtain ⟨h2, h4, l, hl⟩ := h
    obtain ⟨c', a2, b2⟩ := back_es hv conds h2
    obtain ⟨body', a4, b4⟩ := back_s body v hv h4
    refine ⟨.when c' (.tup (toTuple body')), by rw [readS, a2, a4], ?_⟩
    rw [emitS, b2, emit_single b4, hl]
    rfl
  | .single e, v, hv, h => by
    obtain ⟨c', a2, b2⟩ := back_e hv e h
    exact ⟨.single c', by rw [readS, a2]; rfl, by rw [emitS, b2]; rfl⟩
  | .task _ _, v, hv, h => h.elim
  | .event l, v, hv, h => by
    obtain ⟨es, a2, b2⟩ := back_sens hv l h
    exact ⟨.event es, by rw [readS, a2]; rfl, by rw [emitS, b2]; rfl⟩
  | .wait c body, v, hv, h => by
    obtain ⟨hb, h2, h3⟩ := h
    obtain ⟨c', a2, b2⟩ := back_e hv c h2
    rcases h3 with rfl | ⟨h4, ⟨l, hl⟩, h5⟩
    · refine ⟨.wait c' .none, by rw [readS, a2]; rfl, ?_⟩
      rw [emitS, if_pos hb, b2]
      rfl
    · obtain ⟨body', a4, b4⟩ := back_s body v hv h4
      have hne : ∀ x, x = toTuple body' → waitBody x = .tup x := by
        intro x hx
        cases x with
        | nil =>
          exfalso
          apply h5
          have := emit_single b4
          rw [← hx, hl] at this
          cases this
          exact hl
        | cons y x => rfl
      refine ⟨.wait c' (.tup (toTuple body')), ?_, ?_⟩
      · rw [readS, a2, a4, (readS_shape a4).1]
        simp [hne _ rfl]
      · rw [emitS, if_pos hb, b2, show (VS.tup (toTuple body')).isNone = false from rfl, emit_single b4, hl]
        rfl
  | .forever body, v, hv, h => by
    obtain ⟨hb, h4, l, hl⟩ := h
    obtain ⟨body', a4, b4⟩ := back_s body v hv h4
    refine ⟨.forever (toTuple body'), by rw [readS, a4]; rfl, ?_⟩
    have h6 := emit_single b4
    rw [hl] at h6
    obtain ⟨t, ht, h7⟩ := Option.map_eq_some_iff.1 h6
    rw [emitS, if_pos hb, if_neg (by simp [hv]), ht, Option.map_some, h7, hl]
    rfl
  | .delay e, v, hv, h => by
    obtain ⟨c', a2, b2⟩ := back_e hv e h
    refine ⟨.delay c', by rw [readS, a2]; rfl, ?_⟩
    rw [emitS, if_neg (by simp [hv]), b2]
    rfl

theorem back_ss : ∀ (l : List AS) (v : Vis), v.fv = false → goods v.rst v.blk l →
    ∃ ss, readSs l = some ss ∧ emitSs v ss = some l
  | [], v, hv, h => ⟨[], rfl, rfl⟩
  | a :: l, v, hv, h => by
    obtain ⟨s, h1, h2⟩ := back_s a v hv h.1
    obtain ⟨ss, h3, h4⟩ := back_ss l v hv h.2
    exact ⟨s :: ss, by rw [readSs, h1, h3], by rw [emitSs, h2, h4]⟩

end

/-- C64: a statement in the form veriloggen writes is read, and written again without change. -/
theorem c64_fix (v : Vis) (hv : v.fv = false) (a : AS) (h : good v.rst v.blk a) :
    ∃ s, readS a = some s ∧ emitS v s = some a :=
  back_s a v hv h

/-! ### What is written has that form -/

mutual

/-- An expression after its text is parsed: a number with a minus sign is a negation. -/
def parsedE : AE → AE
  | .int ('-' :: t) => .op .uminus [.int t]
  | .int t => .int t
  | .flt s => .flt s
  | .str s => .str s
  | .id x => .id x
  | .op o l => .op o (parsedEs l)
  | .cat l => .cat (parsedEs l)
  | .rep a t => .rep (parsedE a) (parsedE t)
  | .call f l => .call f (parsedEs l)
  | .sys cmd l => .sys cmd (parsedEs l)

/-- The same for a list. -/
def parsedEs : List AE → List AE
  | [] => []
  | e :: l => parsedE e :: parsedEs l

end

/-- The same for a delay. -/
def parsedDel : ADel → ADel
  | .stmt e => .stmt (parsedE e)
  | .raw e => .raw (parsedE e)

/-- The same for an edge. -/
def parsedSens : ASens → ASens
  | .pos e => .pos (parsedE e)
  | .neg e => .neg (parsedE e)
  | .all => .all
  | .level e => .level (parsedE e)
  | .bare e => .bare (parsedE e)

mutual

/-- The same for a statement. -/
def parsed : AS → AS
  | .none => .none
  | .block l => .block (parseds l)
  | .bsub l r ld rd => .bsub (parsedE l) (parsedE r) (ld.map parsedDel) (rd.map parsedDel)
  | .nbsub l r ld rd => .nbsub (parsedE l) (parsedE r) (ld.map parsedDel) (rd.map parsedDel)
  | .ifs c t f => .ifs (parsedE c) (parsed t) (parsed f)
  | .for_ pre c post body => .for_ (parsed pre) (parsedE c) (parsed post) (parsed body)
  | .while_ c body => .while_ (parsedE c) (parsed body)
  | .case_ x comp l => .case_ x (parsedE comp) (parseds l)
  | .item conds body => .item (parsedEs conds) (parsed body)
  | .single e => .single (parsedE e)
  | .task f l => .task f (parsedEs l)
  | .event l => .event (l.map parsedSens)
  | .wait c body => .wait (parsedE c) (parsed body)
  | .forever body => .forever (parsed body)
  | .delay e => .delay (parsedE e)

/-- The same for a list. -/
def parseds : List AS → List AS
  | [] => []
  | s :: l => parsed s :: parseds l

end

/-- A number that C43 says is read and written as itself, or one below 0 without a width. -/
def FineLit (o : Lit) : Prop :=
  (o.signed = true → o.width = none) ∧ (∀ w, o.width = some w → 1 ≤ w) ∧ BaseOk o.base ∧
  (Legal (o.base.getD 10) o.value ∨ o.width = none ∧ ∃ v < 0, o.value = .num v) ∧
  (o.base = none → ∃ v, o.value = .num v)

mutual

/-- An expression with such numbers and no fractions. -/
def fineE : VE → Prop
  | .num _ => True
  | .bool _ => True
  | .lit o => FineLit o
  | .flt _ => False
  | .str _ => True
  | .var _ => True
  | .op _ l => fineEs l
  | .cat l => fineEs l
  | .rep a t => fineE a ∧ fineE t
  | .skip e => fineE e
  | .call _ l => fineEs l
  | .sys _ l => fineEs l

/-- The same for a list. -/
def fineEs : List VE → Prop
  | [] => True
  | e :: l => fineE e ∧ fineEs l

end

/-- A delay by a number, where assignments are blocking. -/
def fineDel (blk : Bool) : Option VE → Prop
  | none => True
  | some (.num n) => n = 0 ∨ blk = true ∧ 0 ≤ n
  | some (.lit o) => blk = true ∧ FineLit o ∧ Legal (o.base.getD 10) o.value
  | some _ => False

/-- An edge, where assignments are blocking. -/
def fineSens (blk : Bool) : VSens → Prop
  | .pos e => blk = true ∧ fineE e
  | .neg e => blk = true ∧ fineE e
  | _ => False

/-- A body as the methods of the objects set it. -/
def VS.IsTup (s : VS) : Prop := ∃ l, s = .tup l

mutual

/-- A statement with such expressions and no calls of tasks. -/
def fine (blk : Bool) : VS → Prop
  | .none => False
  | .tup l => fines blk l
  | .sub l r _ ld rd => fineE l ∧ fineE r ∧ fineDel blk ld ∧ fineDel blk rd
  | .ifs c t f => fineE c ∧ fine blk t ∧ t.IsTup ∧ (f = .none ∨ fine blk f ∧ f.IsTup)
  | .for_ pre c post body => fine true pre ∧ fineE c ∧ fine true post ∧ fine blk body ∧ body.IsTup
  | .while_ c body => fineE c ∧ fine blk body ∧ body.IsTup
  | .case_ _ comp l => fineE comp ∧ fines blk l
  | .when conds body => fineEs conds ∧ fine blk body ∧ body.IsTup
  | .single e => fineE e
  | .task _ _ => False
  | .event l => ∀ e ∈ l, fineSens blk e
  | .wait c body => blk = true ∧ fineE c ∧
      (body = .none ∨ fine blk body ∧ ∃ l, body = .tup l ∧ ∃ s ∈ l, ¬ s.IsTup)
  | .forever l => blk = true ∧ fines blk l
  | .delay e => fineE e

/-- The same for a list. -/
def fines (blk : Bool) : List VS → Prop
  | [] => True
  | s :: l => fine blk s ∧ fines blk l

end

theorem print_neg {o : Lit} {v : Int} (hv : v < 0) (ho : o.value = .num v) :
    print o = (print { o with value := .num (-v) }).map ('-' :: ·) := by
  obtain ⟨val, w, b, s⟩ := o
  simp only at ho ⊢
  subst ho
  have e : bodyText ⟨.num (-v), w, b, s⟩ = bodyText ⟨.num v, w, b, s⟩ := by
    unfold bodyText valueText
    simp
  unfold print
  rw [e]
  simp only [signText, if_pos hv, if_neg (show ¬ (-v) < 0 by omega)]
  cases bodyText ⟨.num v, w, b, s⟩ <;> rfl

/-- A number written without a minus sign stays as it is. -/
theorem stable_parsed {t : List Char} (h : Stable t) (ht : '-' ∉ t) :
    parsedE (.int t) = .int t ∧ goodE (parsedE (.int t)) := by
  have : parsedE (.int t) = .int t := by
    rw [parsedE]
    intro t' he
    cases he
    exact ht List.mem_cons_self
  exact ⟨this, by rw [this]; exact h⟩

theorem stable_lit {o : Lit} (h : FineLit o) (hl : Legal (o.base.getD 10) o.value) {t : List Char}
    (ht : print o = some t) : Stable t ∧ '-' ∉ t := by
  obtain ⟨t', o', h1, h2, h3⟩ := c43_stable o h.1 h.2.1 h.2.2.1 hl h.2.2.2.2
  rw [ht] at h1
  cases h1
  exact ⟨⟨o', h2, h3⟩, print_no_minus h.2.1 h.2.2.1 hl ht⟩

theorem good_lit {o : Lit} (h : FineLit o) {t : List Char} (ht : print o = some t) : goodE (parsedE (.int t)) := by
  rcases h.2.2.2.1 with hl | ⟨hw, v, hv, ho⟩
  · obtain ⟨h1, h2⟩ := stable_lit h hl ht
    exact (stable_parsed h1 h2).2
  · rw [print_neg hv ho] at ht
    obtain ⟨u, hu, rfl⟩ := Option.map_eq_some_iff.1 ht
    have hl : Legal (o.base.getD 10) (.num (-v)) := by show 0 ≤ -v; omega
    have hf : FineLit { o with value := .num (-v) } := ⟨h.1, h.2.1, h.2.2.1, .inl hl, fun _ => ⟨_, rfl⟩⟩
    rw [parsedE]
    exact ⟨(stable_lit hf hl hu).1, trivial⟩

theorem good_num (n : Int) : goodE (parsedE (.int (decimal n))) ∧
    (0 ≤ n → parsedE (.int (decimal n)) = .int (decimal n) ∧ Stable (decimal n)) := by
  have hf : FineLit ⟨.num n, none, none, false⟩ := by
    refine ⟨by simp, by simp, .inl rfl, ?_, fun _ => ⟨_, rfl⟩⟩
    by_cases h : 0 ≤ n
    · exact .inl h
    · exact .inr ⟨rfl, n, by omega, rfl⟩
  have hp : print ⟨.num n, none, none, false⟩ = some (decimal n) := by
    unfold print bodyText signText widthText decimal valueText
    by_cases h : n < 0 <;> simp [h]
  refine ⟨good_lit hf hp, fun hn => ?_⟩
  obtain ⟨h1, h2⟩ := stable_lit hf hn hp
  exact ⟨(stable_parsed h1 h2).1, h1⟩

theorem isCat_emit {v : Vis} {e : VE} {a : AE} (h : emitE v e = some a) (hc : e.isCat = true) : ∃ l, a = .cat l := by
  cases e <;> try (cases hc; done)
  obtain ⟨t, _, rfl⟩ := Option.map_eq_some_iff.1 h
  exact ⟨t, rfl⟩

mutual

theorem written_e {v : Vis} (hv : v.fv = false) : ∀ e a, emitE v e = some a → fineE e → goodE (parsedE a)
  | .num n, a, h, _ => by cases h; exact (good_num n).1
  | .bool b, a, h, _ => by
    cases h
    cases b
    · exact (good_num 0).1
    · exact (good_num 1).1
  | .lit o, a, h, hf => by
    obtain ⟨t, ht, rfl⟩ := Option.map_eq_some_iff.1 h
    exact good_lit hf ht
  | .flt _, a, h, hf => hf.elim
  | .str _, a, h, _ => by cases h; trivial
  | .var _, a, h, _ => by cases h; trivial
  | .op o l, a, h, hf => by
    obtain ⟨t, ht, rfl⟩ := Option.map_eq_some_iff.1 h
    exact written_es hv l t ht hf
  | .cat l, a, h, hf => by
    obtain ⟨t, ht, rfl⟩ := Option.map_eq_some_iff.1 h
    exact written_es hv l t ht hf
  | .rep b t, a, h, hf => by
    rw [emitE] at h
    split at h
    · rename_i b' t' h1 h2
      cases h
      have gb := written_e hv b b' h1 hf.1
      refine ⟨?_, ?_, written_e hv t t' h2 hf.2⟩
      · split
        · rename_i hc
          obtain ⟨l, rfl⟩ := isCat_emit h1 hc
          exact ⟨_, rfl⟩
        · exact ⟨_, rfl⟩
      · split
        · exact gb
        · exact ⟨gb, trivial⟩
    · cases h
  | .skip e, a, h, hf => written_e hv e a h hf
  | .call f l, a, h, hf => by
    obtain ⟨t, ht, rfl⟩ := Option.map_eq_some_iff.1 h
    exact written_es hv l t ht hf
  | .sys cmd l, a, h, hf => by
    rw [emitE, if_neg (by simp [muted, hv])] at h
    obtain ⟨t, ht, rfl⟩ := Option.map_eq_some_iff.1 h
    exact written_es hv l t ht hf

theorem written_es {v : Vis} (hv : v.fv = false) :
    ∀ l as, emitEs v l = some as → fineEs l → goodEs (parsedEs as)
  | [], as, h, _ => by cases h; trivial
  | e :: l, as, h, hf => by
    rw [emitEs] at h
    split at h
    · rename_i h1 h2
      cases h
      exact ⟨written_e hv e _ h1 hf.1, written_es hv l _ h2 hf.2⟩
    · cases h

end

theorem written_del {v : Vis} {d : Option VE} {a : Option ADel} (h : emitDel v d = some a) (hf : fineDel v.blk d) :
    goodDel v.blk (a.map parsedDel) ∧ (v.blk = false → a = none) := by
  unfold fineDel at hf
  split at hf
  · cases h; exact ⟨trivial, fun _ => rfl⟩
  · rename_i n
    rw [emitDel] at h
    by_cases hn : n = 0
    · rw [if_pos hn] at h
      cases h; exact ⟨trivial, fun _ => rfl⟩
    · rw [if_neg hn] at h
      obtain ⟨hb, h0⟩ := hf.resolve_left hn
      obtain ⟨e1, e2⟩ := (good_num n).2 h0
      rw [hb] at h ⊢
      cases h
      refine ⟨?_, by simp⟩
      simp only [Option.map_some, if_true, parsedDel, e1]
      exact ⟨rfl, e2⟩
  · rename_i o
    obtain ⟨hb, h1, h2⟩ := hf
    obtain ⟨t, ht, rfl⟩ := Option.map_eq_some_iff.1 h
    obtain ⟨u, hu, rfl⟩ := Option.map_eq_some_iff.1 ht
    obtain ⟨e1, e2⟩ := stable_lit h1 h2 hu
    rw [hb]
    refine ⟨?_, by simp⟩
    simp only [Option.map_some, if_true, parsedDel, (stable_parsed e1 e2).1]
    exact ⟨rfl, e1⟩
  · exact hf.elim

theorem written_sens {v : Vis} (hv : v.fv = false) :
    ∀ (l : List VSens) as, emitSensL v l = some as → (∀ e ∈ l, fineSens v.blk e) →
      ∀ e ∈ as.map parsedSens, goodSens v.blk e
  | [], as, h, _ => by cases h; intro e he; cases he
  | x :: l, as, h, hf => by
    rw [emitSensL] at h
    split at h
    · rename_i h1 h2
      cases h
      have hx := hf x List.mem_cons_self
      have hl := written_sens hv l _ h2 fun e he => hf e (List.mem_cons_of_mem _ he)
      intro e he
      rcases List.mem_cons.1 he with rfl | he
      · cases x with
        | pos y =>
          rw [emitSens, if_pos hx.1] at h1
          obtain ⟨t, ht, rfl⟩ := Option.map_eq_some_iff.1 h1
          exact ⟨hx.1, written_e hv y t ht hx.2⟩
        | neg y =>
          rw [emitSens, if_pos hx.1] at h1
          obtain ⟨t, ht, rfl⟩ := Option.map_eq_some_iff.1 h1
          exact ⟨hx.1, written_e hv y t ht hx.2⟩
        | all => exact hx.elim
        | level y => exact hx.elim
      · exact hl e he
    · cases h

theorem goods_append {rst : AE → Bool} {blk : Bool} {a b : List AS} (ha : goods rst blk a) (hb : goods rst blk b) :
    goods rst blk (a ++ b) := by
  induction a with
  | nil => exact hb
  | cons s a ih => exact ⟨ha.1, ih ha.2⟩

theorem parseds_append (a b : List AS) : parseds (a ++ b) = parseds a ++ parseds b := by
  induction a with
  | nil => rfl
  | cons s a ih => simp [parseds, ih]

theorem parsed_isBlock {a : AS} {b : List AS} (h : parsed a = .block b) : ∃ c, a = .block c ∧ parseds c = b := by
  cases a <;> rw [parsed] at h <;> cases h
  exact ⟨_, rfl, rfl⟩

theorem parsed_flatten (l : List AS) : parseds (flatten l) = flatten (parseds l) := by
  induction l with
  | nil => rfl
  | cons s l ih =>
    cases s <;> simp [flatten, parseds, parsed, parseds_append, ih]

theorem flatten_good {rst : AE → Bool} {blk : Bool} {l : List AS} (h : goods rst blk l) :
    goods rst blk (flatten l) ∧ ∀ b, AS.block b ∉ flatten l := by
  induction l with
  | nil => exact ⟨trivial, fun b hb => by cases hb⟩
  | cons s l ih =>
    obtain ⟨i1, i2⟩ := ih h.2
    have hcons : (∀ b, s ≠ .block b) → goods rst blk (s :: flatten l) ∧ ∀ b, AS.block b ∉ s :: flatten l := by
      intro hs
      refine ⟨⟨h.1, i1⟩, fun b hb => ?_⟩
      rcases List.mem_cons.1 hb with hb | hb
      · exact hs b hb.symm
      · exact i2 b hb
    cases s
    case block b =>
      rw [flatten]
      refine ⟨goods_append h.1.1 i1, fun c hc => ?_⟩
      rcases List.mem_append.1 hc with hc | hc
      · exact h.1.2 c hc
      · exact i2 c hc
    all_goals exact hcons (by intro b hb; cases hb)

theorem block_good {rst : AE → Bool} {blk : Bool} {l : List AS} (h : goods rst blk (parseds l)) :
    good rst blk (parsed (.block (flatten l))) := by
  rw [parsed, parsed_flatten]
  exact flatten_good h

theorem tup_block {v : Vis} {s : VS} {a : AS} (hs : s.IsTup) (h : emitS v s = some a) :
    (∃ l, a = .block l) ∧ (parsed a).IsBlock := by
  obtain ⟨l, rfl⟩ := hs
  obtain ⟨t, _, rfl⟩ := Option.map_eq_some_iff.1 h
  exact ⟨⟨_, rfl⟩, _, rfl⟩

theorem parsed_elseIf (r : Bool) (a : AS) : parsed (elseIf r a) = elseIf r (parsed a) := by
  by_cases h : ∃ c t f, a = .block [.ifs c t f]
  · obtain ⟨c, t, f, rfl⟩ := h
    cases r <;> rfl
  · have e1 : elseIf r a = a := by
      unfold elseIf
      split
      · exact absurd ⟨_, _, _, rfl⟩ h
      · rfl
    have e2 : elseIf r (parsed a) = parsed a := by
      unfold elseIf
      split
      · rename_i c t f he
        exfalso
        obtain ⟨b, rfl, hb⟩ := parsed_isBlock he
        cases b with
        | nil => cases hb
        | cons x b =>
          rw [parseds] at hb
          obtain ⟨hx, hb'⟩ := List.cons.inj hb
          cases b with
          | cons y b => cases hb'
          | nil => cases x <;> rw [parsed] at hx <;> cases hx; exact h ⟨_, _, _, rfl⟩
      · rfl
    rw [e1, e2]

/-- An else branch made from a block. -/
theorem else_good {rst : AE → Bool} {blk : Bool} {r : Bool} {l : List AS} (h : good rst blk (.block l)) :
    good rst blk (elseIf r (.block l)) ∧ elseIf r (asBlock (elseIf r (.block l))) = elseIf r (.block l) := by
  by_cases hh : ∃ c t f, l = [.ifs c t f]
  · obtain ⟨c, t, f, rfl⟩ := hh
    cases r
    · exact ⟨h.1.1, rfl⟩
    · exact ⟨h, rfl⟩
  · have e1 : elseIf r (.block l) = .block l := by
      unfold elseIf
      split
      · rename_i he
        cases he
        exact absurd ⟨_, _, _, rfl⟩ hh
      · rfl
    rw [e1]
    exact ⟨h, e1⟩

theorem emit_notBlock {v : Vis} {s : VS} {a : AS} (h : emitS v s = some a) (hs : ¬ s.IsTup) : ∀ l, a ≠ .block l := by
  rintro l rfl
  cases s <;> rw [emitS] at h
  case none => cases h
  case tup => exact hs ⟨_, rfl⟩
  case sub =>
    rw [emitSub] at h
    split at h
    · split at h <;> cases h
    · cases h
  case ifs =>
    split at h
    · obtain ⟨t, _, ht⟩ := Option.map_eq_some_iff.1 h; cases ht
    · cases h
  case for_ => split at h <;> cases h
  case while_ => split at h <;> cases h
  case case_ => split at h <;> cases h
  case when => split at h <;> cases h
  case wait =>
    split at h
    · split at h
      · obtain ⟨t, _, ht⟩ := Option.map_eq_some_iff.1 h; cases ht
      · cases h
    · cases h
  case forever =>
    split at h
    · split at h
      · cases h
      · obtain ⟨t, _, ht⟩ := Option.map_eq_some_iff.1 h; cases ht
    · cases h
  case delay =>
    split at h
    · cases h
    · obtain ⟨t, _, ht⟩ := Option.map_eq_some_iff.1 h; cases ht
  all_goals
    obtain ⟨t, _, ht⟩ := Option.map_eq_some_iff.1 h
    cases ht

theorem nonempty_flatten {v : Vis} : ∀ (l : List VS) as, emitSs v l = some as → (∃ s ∈ l, ¬ s.IsTup) →
    flatten as ≠ []
  | [], as, h, hs => by obtain ⟨_, hc, _⟩ := hs; cases hc
  | s :: l, as, h, hs => by
    rw [emitSs] at h
    split at h
    · rename_i a as' h1 h2
      cases h
      obtain ⟨x, hx, hnt⟩ := hs
      rcases List.mem_cons.1 hx with rfl | hx
      · have := emit_notBlock h1 hnt
        cases a
        case block b => exact absurd rfl (this b)
        all_goals simp [flatten]
      · have ih := nonempty_flatten l as' h2 ⟨x, hx, hnt⟩
        cases a <;> simp [flatten, ih]
    · cases h

mutual

theorem written_s : ∀ (s : VS) (v : Vis) (a : AS), v.fv = false → (∀ c, v.rst (parsedE c) = v.rst c) →
    emitS v s = some a → fine v.blk s → good v.rst v.blk (parsed a)
  | .none, v, a, hv, hr, h, hf => hf.elim
  | .tup l, v, a, hv, hr, h, hf => by
    obtain ⟨t, ht, rfl⟩ := Option.map_eq_some_iff.1 h
    exact block_good (written_ss l v t hv hr ht hf)
  | .sub l r blk ld rd, v, a, hv, hr, h, hf => by
    rw [emitS, emitSub] at h
    split at h
    · rename_i h1 h2 h3 h4
      cases h
      have g1 := written_e hv _ _ h1 hf.1
      have g2 := written_e hv _ _ h2 hf.2.1
      obtain ⟨g3, n3⟩ := written_del h3 hf.2.2.1
      obtain ⟨g4, n4⟩ := written_del h4 hf.2.2.2
      split
      · exact ⟨g1, g2, g3, g4⟩
      · rename_i hb
        have hb' : v.blk = false := by
          cases hv' : v.blk
          · rfl
          · rw [hv'] at hb; simp at hb
        rw [n3 hb', n4 hb']
        exact ⟨hb', g1, g2, rfl, rfl⟩
    · cases h
  | .ifs c t f, v, a, hv, hr, h, hf => by
    rw [emitS] at h
    split at h
    · rename_i c' t' h1 h2
      obtain ⟨f', hf', rfl⟩ := Option.map_eq_some_iff.1 h
      refine ⟨written_e hv c c' h1 hf.1, written_s t v t' hv hr h2 hf.2.1, (tup_block hf.2.2.1 h2).2, ?_⟩
      rcases hf.2.2.2 with rfl | ⟨g1, g2⟩
      · cases hf'
        exact .inl rfl
      · obtain ⟨l, rfl⟩ := g2
        rw [if_neg (by simp [VS.isNone])] at hf'
        obtain ⟨g, hg, rfl⟩ := Option.map_eq_some_iff.1 hf'
        have gg := written_s (.tup l) v g hv hr hg g1
        obtain ⟨b, hb⟩ := (tup_block ⟨l, rfl⟩ hg).2
        refine .inr ?_
        rw [parsed_elseIf, hr, hb]
        rw [hb] at gg
        exact else_good gg
    · cases h
  | .for_ pre c post body, v, a, hv, hr, h, hf => by
    obtain ⟨f1, f2, f3, f4, f5⟩ := hf
    rw [emitS] at h
    split at h
    · rename_i h1 h2 h3 h4
      cases h
      exact ⟨written_s pre { v with blk := true } _ hv hr h1 f1, written_e hv c _ h2 f2,
        written_s post { v with blk := true } _ hv hr h3 f3, written_s body v _ hv hr h4 f4, (tup_block f5 h4).2⟩
    · cases h
  | .while_ c body, v, a, hv, hr, h, hf => by
    obtain ⟨f2, f4, f5⟩ := hf
    rw [emitS] at h
    split at h
    · rename_i h2 h4
      cases h
      exact ⟨written_e hv c _ h2 f2, written_s body v _ hv hr h4 f4, (tup_block f5 h4).2⟩
    · cases h
  | .case_ x comp l, v, a, hv, hr, h, hf => by
    rw [emitS] at h
    split at h
    · rename_i h2 h4
      cases h
      exact ⟨written_e hv comp _ h2 hf.1, written_ss l v _ hv hr h4 hf.2⟩
    · cases h
  | .when conds body, v, a, hv, hr, h, hf => by
    obtain ⟨f2, f4, f5⟩ := hf
    rw [emitS] at h
    split at h
    · rename_i h2 h4
      cases h
      exact ⟨written_es hv conds _ h2 f2, written_s body v _ hv hr h4 f4, (tup_block f5 h4).2⟩
    · cases h
  | .single e, v, a, hv, hr, h, hf => by
    obtain ⟨t, ht, rfl⟩ := Option.map_eq_some_iff.1 h
    exact written_e hv e t ht hf
  | .task f l, v, a, hv, hr, h, hf => hf.elim
  | .event l, v, a, hv, hr, h, hf => by
    obtain ⟨t, ht, rfl⟩ := Option.map_eq_some_iff.1 h
    exact written_sens hv l t ht hf
  | .wait c body, v, a, hv, hr, h, hf => by
    obtain ⟨hb, f2, f3⟩ := hf
    rw [emitS, if_pos hb] at h
    split at h
    · rename_i c' h1
      obtain ⟨b, hb', rfl⟩ := Option.map_eq_some_iff.1 h
      refine ⟨hb, written_e hv c c' h1 f2, ?_⟩
      rcases f3 with rfl | ⟨f4, l, rfl, f5⟩
      · cases hb'
        exact .inl rfl
      · rw [if_neg (by simp [VS.isNone])] at hb'
        have g := written_s (.tup l) v b hv hr hb' f4
        refine .inr ⟨g, (tup_block ⟨l, rfl⟩ hb').2, ?_⟩
        obtain ⟨t, ht, rfl⟩ := Option.map_eq_some_iff.1 hb'
        have := nonempty_flatten l t ht f5
        cases hfl : flatten t with
        | nil => exact absurd hfl this
        | cons x y => intro he; cases he
    · cases h
  | .forever l, v, a, hv, hr, h, hf => by
    rw [emitS, if_pos hf.1, if_neg (by simp [hv])] at h
    obtain ⟨t, ht, rfl⟩ := Option.map_eq_some_iff.1 h
    exact ⟨hf.1, block_good (written_ss l v t hv hr ht hf.2), _, rfl⟩
  | .delay e, v, a, hv, hr, h, hf => by
    rw [emitS, if_neg (by simp [hv])] at h
    obtain ⟨t, ht, rfl⟩ := Option.map_eq_some_iff.1 h
    exact written_e hv e t ht hf

theorem written_ss : ∀ (l : List VS) (v : Vis) (as : List AS), v.fv = false → (∀ c, v.rst (parsedE c) = v.rst c) →
    emitSs v l = some as → fines v.blk l → goods v.rst v.blk (parseds as)
  | [], v, as, hv, hr, h, hf => by cases h; trivial
  | s :: l, v, as, hv, hr, h, hf => by
    rw [emitSs] at h
    split at h
    · rename_i h1 h2
      cases h
      exact ⟨written_s s v _ hv hr h1 hf.1, written_ss l v _ hv hr h2 hf.2⟩
    · cases h

end

/-- C64: what is written for a statement is, once parsed, read and written again without change. -/
theorem c64_written (v : Vis) (hv : v.fv = false) (hr : ∀ c, v.rst (parsedE c) = v.rst c) (l : List VS)
    (hf : fines v.blk l) (a : AS) (h : emitBody v l = some a) :
    ∃ l', readS (parsed a) = some (.tup l') ∧ emitBody v l' = some (parsed a) := by
  obtain ⟨t, ht, rfl⟩ := Option.map_eq_some_iff.1 h
  obtain ⟨s, h1, h2⟩ := back_s _ v hv (block_good (written_ss l v t hv hr ht hf))
  rw [parsed] at h1 h2 ⊢
  obtain ⟨l', hl', rfl⟩ := Option.map_eq_some_iff.1 h1
  exact ⟨l', h1, h2⟩

/-! ### Functions and tasks -/

/-- The same for the parts of a function or task. -/
def parsedF : FItem → FItem
  | .decl d => .decl { d with width := d.width.map fun w => (parsedE w.1, parsedE w.2) }
  | .stmt a => .stmt (parsed a)

/-- The bounds of the width. -/
def fineD (d : FDecl) : Prop := ∀ m l, d.width = some (m, l) → fineE m ∧ fineE l

theorem back_decls {v : Vis} (hv : v.fv = false) : ∀ (ds : List FDecl) (as rest : List FItem) (g : Fn),
    emitFDecls v ds = some as → (∀ d ∈ ds, fineD d) → readFn rest = some g →
    ∃ ds', emitFDecls v ds' = some (as.map parsedF) ∧
      ((∀ d ∈ ds, d.kind = .input) → readFn (as.map parsedF ++ rest) = some { g with io := ds' ++ g.io }) ∧
      ((∀ d ∈ ds, d.kind ≠ .input) → readFn (as.map parsedF ++ rest) = some { g with var := ds' ++ g.var })
  | [], as, rest, g, h, hf, hg => by
    cases h
    exact ⟨[], rfl, fun _ => hg, fun _ => hg⟩
  | d :: ds, as, rest, g, h, hf, hg => by
    rw [emitFDecls] at h
    split at h
    · rename_i a as' h1 h2
      cases h
      obtain ⟨ds', i1, i2, i3⟩ := back_decls hv ds as' rest g h2 (fun x hx => hf x (List.mem_cons_of_mem _ hx)) hg
      obtain ⟨w, hw, rfl⟩ := Option.map_eq_some_iff.1 h1
      have : ∃ w', readWidth (w.map fun w => (parsedE w.1, parsedE w.2)) = some w' ∧
          emitWidth v w' = some (w.map fun w => (parsedE w.1, parsedE w.2)) := by
        cases hdw : d.width with
        | none =>
          rw [hdw] at hw
          cases hw
          exact ⟨none, rfl, rfl⟩
        | some p =>
          obtain ⟨m, l⟩ := p
          obtain ⟨fm, fl⟩ := hf d List.mem_cons_self m l hdw
          rw [hdw, emitWidth] at hw
          split at hw
          · rename_i m' l' e1 e2
            cases hw
            obtain ⟨x, x1, x2⟩ := back_e hv _ (written_e hv m m' e1 fm)
            obtain ⟨y, y1, y2⟩ := back_e hv _ (written_e hv l l' e2 fl)
            refine ⟨some (x, y), ?_, ?_⟩
            · simp only [Option.map_some, readWidth, x1, y1]
            · simp only [Option.map_some, emitWidth, x2, y2]
          · cases hw
      obtain ⟨w', w1, w2⟩ := this
      refine ⟨⟨d.kind, d.name, w', d.signed⟩ :: ds', ?_, fun hk => ?_, fun hk => ?_⟩
      · simp only [List.map_cons, parsedF, emitFDecls, emitFDecl, w2, i1, Option.map_some]
      · simp only [List.map_cons, parsedF, List.cons_append, readFn, w1,
          i2 fun x hx => hk x (List.mem_cons_of_mem _ hx), hk d List.mem_cons_self]
      · have hd := hk d List.mem_cons_self
        simp only [List.map_cons, parsedF, List.cons_append, readFn, w1,
          i3 fun x hx => hk x (List.mem_cons_of_mem _ hx)]
    · cases h

theorem readSs_length : ∀ (l : List AS) (ss : List VS), readSs l = some ss → ss.length = l.length
  | [], ss, h => by cases h; rfl
  | a :: l, ss, h => by
    rw [readSs] at h
    split at h
    · rename_i h2
      cases h
      simp [readSs_length l _ h2]
    · cases h

theorem parseds_length (l : List AS) : (parseds l).length = l.length := by
  induction l with
  | nil => rfl
  | cons s l ih => simp [parseds, ih]

theorem emit_copies {v : Vis} {b : List VS} {l : List AS} (h : emitSs v b = some l) (hl : ∀ c, AS.block c ∉ l)
    (ss : List VS) : ∃ as, emitSs v (ss.map fun _ => .tup b) = some as ∧
      flatten as = (List.replicate ss.length l).flatten := by
  induction ss with
  | nil => exact ⟨[], rfl, rfl⟩
  | cons s ss ih =>
    obtain ⟨as, h1, h2⟩ := ih
    refine ⟨.block (flatten l) :: as, ?_, ?_⟩
    · rw [List.map_cons, emitSs, emitS, h, h1]
      rfl
    · rw [flatten, h2, flatten_id hl]
      rfl

/-- C64 does not hold for functions and tasks: the declarations are read and written without change, but of a body of
    `n` statements `n` copies are written, so only a body of at most one statement is unchanged. -/
theorem c64_function (v : Vis) (hv : v.fv = false) (hr : ∀ c, v.rst (parsedE c) = v.rst c) (f : Fn)
    (hio : ∀ d ∈ f.io, d.kind = .input ∧ fineD d) (hvar : ∀ d ∈ f.var, d.kind ≠ .input ∧ fineD d)
    (hf : fines true f.body) (items : List FItem) (h : emitFn v f = some items) :
    ∃ ds l f', items = ds ++ [.stmt (.block l)] ∧ readFn (items.map parsedF) = some f' ∧
      emitFn v f' = some (ds.map parsedF ++ [.stmt (.block (List.replicate l.length (parseds l)).flatten)]) ∧
      (emitFn v f' = some (items.map parsedF) ↔ l.length ≤ 1) := by
  unfold emitFn at h
  split at h
  · rename_i io var b h1 h2 h3
    cases h
    obtain ⟨t, ht, rfl⟩ := Option.map_eq_some_iff.1 h3
    have hg := block_good (written_ss f.body { v with blk := true } t hv hr ht hf)
    rw [parsed] at hg
    obtain ⟨ss, e1, e2⟩ := back_ss _ { v with blk := true } hv hg.1
    have hlen : ss.length = (flatten t).length := by rw [readSs_length _ _ e1, parseds_length]
    have hrest : readFn [FItem.stmt (parsed (.block (flatten t)))] = some ⟨[], [], ss.map fun _ => .tup ss⟩ := by
      simp only [readFn, parsed, readS, e1, Option.map_some, List.append_nil]
    obtain ⟨var', i1, _, i3⟩ := back_decls hv f.var var _ _ h2 (fun d hd => (hvar d hd).2) hrest
    obtain ⟨io', j1, j2, _⟩ := back_decls hv f.io io _ _ h1 (fun d hd => (hio d hd).2) (i3 fun d hd => (hvar d hd).1)
    have j3 := j2 fun d hd => (hio d hd).1
    obtain ⟨as, c1, c2⟩ := emit_copies e2 hg.2 ss
    have hout : emitFn v { (⟨[], var' ++ [], ss.map fun _ => .tup ss⟩ : Fn) with io := io' ++ [] } =
        some ((io ++ var).map parsedF ++
          [.stmt (.block (List.replicate (flatten t).length (parseds (flatten t))).flatten)]) := by
      rw [emitFn]
      simp only [List.append_nil, j1, i1, emitBody, c1, Option.map_some, c2, hlen, List.map_append]
    refine ⟨io ++ var, flatten t, _, rfl, ?_, hout, ?_⟩
    · rw [List.map_append, List.map_append, List.append_assoc]
      exact j3
    · rw [hout]
      constructor
      · intro he
        simp only [List.map_append, List.map_cons, List.map_nil, parsedF, parsed, Option.some.injEq,
          List.append_cancel_left_eq, List.cons.injEq, FItem.stmt.injEq, AS.block.injEq, and_true] at he
        have hl := congrArg List.length he
        simp only [List.length_flatten, List.map_replicate, parseds_length] at hl
        rw [List.sum_replicate_nat] at hl
        by_contra hn
        have : 2 * (flatten t).length ≤ (flatten t).length * (flatten t).length :=
          Nat.mul_le_mul_right _ (by omega)
        omega
      · intro hn
        have : (List.replicate (flatten t).length (parseds (flatten t))).flatten = parseds (flatten t) := by
          match hft : flatten t with
          | [] => rfl
          | [x] => simp
          | x :: y :: l => rw [hft] at hn; simp at hn
        rw [this]
        simp [parsedF, parsed]
  · cases h

/-! ### Where it fails -/

/-- C64 does not hold for the other assignments where assignments are blocking (an `initial` block, a task): they are
    written as blocking ones. -/
theorem c64_not_initial (v : Vis) (hv : v.fv = false) (hb : v.blk = true) (l r : AE) (hl : goodE l) (hr : goodE r) :
    ∃ s, readS (.nbsub l r none none) = some s ∧ emitS v s = some (.bsub l r none none) := by
  obtain ⟨l', a1, b1⟩ := back_e hv l hl
  obtain ⟨r', a2, b2⟩ := back_e hv r hr
  refine ⟨.sub l' r' false none none, by rw [readS, readSub, a1, a2]; rfl, ?_⟩
  rw [emitS, emitSub, b1, b2]
  simp [emitDel, hb]

namespace Ex

/-- `initial begin a <= b; b <= a; end`. -/
def swap : AS := .block [.nbsub (.id "a") (.id "b") none none, .nbsub (.id "b") (.id "a") none none]

/-- Read and written, the values are no longer exchanged: the last assignment gives `b` what it had. -/
example : ∃ s a d d', readS swap = some s ∧ emitS ⟨true, false, true, fun _ => false⟩ s = some a ∧
    sem.denA swap = some d ∧ sem.denA a = some d' ∧
    (∀ s t, d s t → t.2 = s.2 ++ [("a", s.1 "b"), ("b", s.1 "a")]) ∧
    (∀ s t, d' s t → t.2 = s.2 ∧ t.1 "a" = s.1 "b" ∧ t.1 "b" = s.1 "b") := by
  refine ⟨_, _, _, _, rfl, rfl, rfl, rfl, ?_, ?_⟩
  · rintro s t ⟨u, hu, v, hv, hw⟩
    simp [sem, ESem.denA] at hu hv hw
    subst hw hv hu
    simp
  · rintro s t ⟨u, hu, v, hv, hw⟩
    simp [sem, ESem.denA] at hu hv hw
    subst hw hv hu
    simp

/-- `task t; begin c = c + 1; d = c; end endtask` is written with four assignments. -/
example : ∃ f, readFn [.stmt (.block [.bsub (.id "c") (.op .plus [.id "c", .int ['1']]) none none,
      .bsub (.id "d") (.id "c") none none])] = some f ∧
    emitFn ⟨true, false, false, fun _ => false⟩ f = some [.stmt (.block [
      .bsub (.id "c") (.op .plus [.id "c", .int ['1']]) none none, .bsub (.id "d") (.id "c") none none,
      .bsub (.id "c") (.op .plus [.id "c", .int ['1']]) none none, .bsub (.id "d") (.id "c") none none])] :=
  ⟨_, rfl, rfl⟩

/-- The statements of C63's example meet the hypotheses of `c64_written`. -/
example : fines false prog := by
  simp [prog, fines, fine, fineE, fineEs, fineDel, VS.IsTup]

/-- So do waiting statements, negative numbers and literals in an `initial` block. -/
example : fines true [.forever [.delay (.num 5), .sub (.var "clk") (.op .unot [.var "clk"]) false none none],
    .event [.pos (.var "clk")], .wait (.var "rdy") (.tup [.sub (.var "x") (.num (-3)) false none (some (.num 2))]),
    .sub (.var "y") (.lit ⟨.raw ['1', 'x'], some 2, some 2, false⟩) false none none,
    .sub (.var "z") (.lit ⟨.num (-7), none, none, true⟩) false none none] := by
  simp [fines, fine, fineE, fineEs, fineDel, fineSens, VS.IsTup, FineLit, Legal, BaseOk]
  decide

/-- `if(a) x <= 1; else begin if(b) y <= 2; end`, which is not in the form that is written, is read to the same
    meaning: its numbers mean what they mean when they are written again. -/
example : same sem.toESem false (.ifs (.id "a") (.nbsub (.id "x") (.int ['1']) none none)
    (.block [.ifs (.id "b") (.nbsub (.id "y") (.int ['2']) none none) .none])) := by
  have h : ∀ d : Char, d = '1' ∨ d = '2' → sameE sem.toESem (.int [d]) := by
    intro d hd o t' h1 h2
    rcases hd with rfl | rfl
    · have : ofText ['1'] none none false = some ⟨.num 1, none, none, false⟩ := by decide
      rw [this] at h1
      cases h1
      have : print ⟨.num 1, none, none, false⟩ = some ['1'] := by decide
      rw [this] at h2
      cases h2
      rfl
    · have : ofText ['2'] none none false = some ⟨.num 2, none, none, false⟩ := by decide
      rw [this] at h1
      cases h1
      have : print ⟨.num 2, none, none, false⟩ = some ['2'] := by decide
      rw [this] at h2
      cases h2
      rfl
  exact ⟨trivial, ⟨rfl, trivial, h _ (.inl rfl), trivial, trivial⟩,
    ⟨⟨trivial, ⟨rfl, trivial, h _ (.inr rfl), trivial, trivial⟩, trivial⟩, trivial⟩⟩

end Ex

end Emit
