import Verif.Lemmas.Emit

/-!
# C63: the Verilog written for a statement does what the statement says
-/

namespace Emit

open Literal

/-! ### What can be written -/

mutual

/-- All numbers have a base Verilog knows. -/
def okE : VE → Prop
  | .num _ => True
  | .bool _ => True
  | .lit o => ∃ t, print o = some t
  | .flt _ => True
  | .str _ => True
  | .var _ => True
  | .op _ l => okEs l
  | .cat l => okEs l
  | .rep a t => okE a ∧ okE t
  | .skip e => okE e
  | .call _ l => okEs l
  | .sys _ l => okEs l

/-- The same for a list. -/
def okEs : List VE → Prop
  | [] => True
  | e :: l => okE e ∧ okEs l

end

/-- A delay is a number. -/
def okDel : Option VE → Prop
  | none => True
  | some (.num _) => True
  | some (.lit o) => okE (.lit o)
  | some _ => False

/-- An event is on edges, and not in an `always` block; or on levels. -/
def okSens (blk : Bool) : VSens → Prop
  | .pos e => blk = true ∧ okE e
  | .neg e => blk = true ∧ okE e
  | .all => False
  | .level e => okE e

mutual

/-- Bodies are given, and waiting is not inside an `always` block. -/
def ok (blk : Bool) : VS → Prop
  | .none => False
  | .tup l => oks blk l
  | .sub l r _ ld rd => okE l ∧ okE r ∧ okDel ld ∧ okDel rd
  | .ifs c t f => okE c ∧ ok blk t ∧ (f = .none ∨ ok blk f)
  | .for_ pre c post body => ok true pre ∧ okE c ∧ ok true post ∧ ok blk body
  | .while_ c body => okE c ∧ ok blk body
  | .case_ _ comp l => okE comp ∧ oks blk l
  | .when conds body => okEs conds ∧ ok blk body
  | .single e => okE e
  | .task _ l => okEs l
  | .event l => ∀ e ∈ l, okSens blk e
  | .wait c body => blk = true ∧ okE c ∧ (body = .none ∨ ok blk body)
  | .forever l => blk = true ∧ oks blk l
  | .delay e => okE e

/-- The same for a list. -/
def oks (blk : Bool) : List VS → Prop
  | [] => True
  | s :: l => ok blk s ∧ oks blk l

end

mutual

theorem emitE_ok (v : Vis) : ∀ e, okE e → ∃ a, emitE v e = some a
  | .num _, _ => ⟨_, rfl⟩
  | .bool _, _ => ⟨_, rfl⟩
  | .lit o, h => by
    obtain ⟨t, ht⟩ := h
    exact ⟨_, by rw [emitE, ht]; rfl⟩
  | .flt _, _ => ⟨_, rfl⟩
  | .str _, _ => ⟨_, rfl⟩
  | .var _, _ => ⟨_, rfl⟩
  | .op o l, h => by
    obtain ⟨t, ht⟩ := emitEs_ok v l h
    exact ⟨_, by rw [emitE, ht]; rfl⟩
  | .cat l, h => by
    obtain ⟨t, ht⟩ := emitEs_ok v l h
    exact ⟨_, by rw [emitE, ht]; rfl⟩
  | .rep a t, h => by
    obtain ⟨a', ha⟩ := emitE_ok v a h.1
    obtain ⟨t', ht⟩ := emitE_ok v t h.2
    exact ⟨_, by rw [emitE, ha, ht]⟩
  | .skip e, h => by
    obtain ⟨a, ha⟩ := emitE_ok v e h
    exact ⟨a, by rw [emitE, ha]⟩
  | .call f l, h => by
    obtain ⟨t, ht⟩ := emitEs_ok v l h
    exact ⟨_, by rw [emitE, ht]; rfl⟩
  | .sys cmd l, h => by
    obtain ⟨t, ht⟩ := emitEs_ok v l h
    rw [emitE, ht]
    split <;> exact ⟨_, rfl⟩

theorem emitEs_ok (v : Vis) : ∀ l, okEs l → ∃ a, emitEs v l = some a
  | [], _ => ⟨_, rfl⟩
  | e :: l, h => by
    obtain ⟨a, ha⟩ := emitE_ok v e h.1
    obtain ⟨t, ht⟩ := emitEs_ok v l h.2
    exact ⟨_, by rw [emitEs, ha, ht]⟩

end

theorem emitDel_ok (v : Vis) : ∀ d, okDel d → ∃ a, emitDel v d = some a
  | none, _ => ⟨_, rfl⟩
  | some (.num n), _ => by
    rw [emitDel]
    split
    · exact ⟨_, rfl⟩
    · exact ⟨_, rfl⟩
  | some (.lit o), h => by
    obtain ⟨a, ha⟩ := emitE_ok v _ h
    exact ⟨_, by rw [emitDel, ha]; rfl⟩

theorem emitSens_ok (v : Vis) (l : List VSens) (h : ∀ e ∈ l, okSens v.blk e) : ∃ a, emitSensL v l = some a := by
  induction l with
  | nil => exact ⟨_, rfl⟩
  | cons e l ih =>
    obtain ⟨t, ht⟩ := ih fun x hx => h x (List.mem_cons_of_mem _ hx)
    have he := h e List.mem_cons_self
    have : ∃ a, emitSens v e = some a := by
      cases e with
      | pos e =>
        obtain ⟨a, ha⟩ := emitE_ok v e he.2
        exact ⟨_, by rw [emitSens, if_pos he.1, ha]; rfl⟩
      | neg e =>
        obtain ⟨a, ha⟩ := emitE_ok v e he.2
        exact ⟨_, by rw [emitSens, if_pos he.1, ha]; rfl⟩
      | all => exact he.elim
      | level e =>
        obtain ⟨a, ha⟩ := emitE_ok v e he
        exact ⟨_, by rw [emitSens, ha]; rfl⟩
    obtain ⟨a, ha⟩ := this
    exact ⟨_, by rw [emitSensL, ha, ht]⟩

mutual

theorem emitS_ok : ∀ s (v : Vis), ok v.blk s → ∃ a, emitS v s = some a
  | .none, v, h => h.elim
  | .tup l, v, h => by
    obtain ⟨t, ht⟩ := emitSs_ok l v h
    exact ⟨_, by rw [emitS, ht]; rfl⟩
  | .sub l r blk ld rd, v, h => by
    obtain ⟨a, ha⟩ := emitE_ok v l h.1
    obtain ⟨b, hb⟩ := emitE_ok v r h.2.1
    obtain ⟨c, hc⟩ := emitDel_ok v ld h.2.2.1
    obtain ⟨d, hd⟩ := emitDel_ok v rd h.2.2.2
    exact ⟨_, by rw [emitS, emitSub, ha, hb, hc, hd]⟩
  | .ifs c t f, v, h => by
    obtain ⟨a, ha⟩ := emitE_ok v c h.1
    obtain ⟨b, hb⟩ := emitS_ok t v h.2.1
    rw [emitS, ha, hb]
    cases hn : f.isNone with
    | true => exact ⟨_, rfl⟩
    | false =>
      rcases h.2.2 with hf | hf
      · rw [hf] at hn; cases hn
      · obtain ⟨d, hd⟩ := emitS_ok f v hf
        simp only [Bool.false_eq_true, ↓reduceIte, hd]
        exact ⟨_, rfl⟩
  | .for_ pre c post body, v, h => by
    obtain ⟨a, ha⟩ := emitS_ok pre { v with blk := true } h.1
    obtain ⟨b, hb⟩ := emitE_ok v c h.2.1
    obtain ⟨d, hd⟩ := emitS_ok post { v with blk := true } h.2.2.1
    obtain ⟨e, he⟩ := emitS_ok body v h.2.2.2
    exact ⟨_, by rw [emitS, ha, hb, hd, he]⟩
  | .while_ c body, v, h => by
    obtain ⟨b, hb⟩ := emitE_ok v c h.1
    obtain ⟨e, he⟩ := emitS_ok body v h.2
    exact ⟨_, by rw [emitS, hb, he]⟩
  | .case_ x comp l, v, h => by
    obtain ⟨b, hb⟩ := emitE_ok v comp h.1
    obtain ⟨e, he⟩ := emitSs_ok l v h.2
    exact ⟨_, by rw [emitS, hb, he]⟩
  | .when conds body, v, h => by
    obtain ⟨b, hb⟩ := emitEs_ok v conds h.1
    obtain ⟨e, he⟩ := emitS_ok body v h.2
    exact ⟨_, by rw [emitS, hb, he]⟩
  | .single e, v, h => by
    obtain ⟨b, hb⟩ := emitE_ok v e h
    exact ⟨_, by rw [emitS, hb]; rfl⟩
  | .task f l, v, h => by
    obtain ⟨b, hb⟩ := emitEs_ok v l h
    exact ⟨_, by rw [emitS, hb]; rfl⟩
  | .event l, v, h => by
    obtain ⟨b, hb⟩ := emitSens_ok v l h
    exact ⟨_, by rw [emitS, hb]; rfl⟩
  | .wait c body, v, h => by
    obtain ⟨a, ha⟩ := emitE_ok v c h.2.1
    rw [emitS, if_pos h.1, ha]
    cases hn : body.isNone with
    | true => exact ⟨_, rfl⟩
    | false =>
      rcases h.2.2 with hf | hf
      · rw [hf] at hn; cases hn
      · obtain ⟨d, hd⟩ := emitS_ok body v hf
        simp only [Bool.false_eq_true, ↓reduceIte, hd]
        exact ⟨_, rfl⟩
  | .forever l, v, h => by
    obtain ⟨b, hb⟩ := emitSs_ok l v h.2
    rw [emitS, if_pos h.1, hb]
    split <;> exact ⟨_, rfl⟩
  | .delay e, v, h => by
    obtain ⟨b, hb⟩ := emitE_ok v e h
    rw [emitS, hb]
    split <;> exact ⟨_, rfl⟩

theorem emitSs_ok : ∀ l (v : Vis), oks v.blk l → ∃ a, emitSs v l = some a
  | [], _, _ => ⟨_, rfl⟩
  | s :: l, v, h => by
    obtain ⟨b, hb⟩ := emitS_ok s v h.1
    obtain ⟨e, he⟩ := emitSs_ok l v h.2
    exact ⟨_, by rw [emitSs, hb, he]⟩

end

/-! ### Meaning -/

/-- C63: the statements of an `always` or `initial` block, a function or a task whose bodies are given are written
    as one block, and the block means, for every interpretation of expressions and statements in which sequencing
    is associative, what the statements say one after the other: assignments are blocking in `initial` blocks,
    functions and tasks, and in the head and step of a `For`, and where asked for elsewhere. -/
theorem c63_emit {X D : Type} (S : Sem X D) (v : Vis) (hv : v.fv = false) (l : List VS) (hok : oks v.blk l)
    (hc : clears v.blk l) : ∃ a, emitBody v l = some a ∧ S.denA a = S.denVs v.blk l := by
  obtain ⟨as, has⟩ := emitSs_ok l v hok
  refine ⟨.block (flatten as), by rw [emitBody, has]; rfl, ?_⟩
  rw [Sem.denA, denAs_flatten]
  exact (emitSs_den S l v as hv has hc).1

/-- C63: the same for an expression, wherever it is written. -/
theorem c63_expr {X : Type} (S : ESem X) (v : Vis) (hv : v.fv = false) (e : VE) (hok : okE e) :
    ∃ a, emitE v e = some a ∧ S.denV e = some (S.denA a) := by
  obtain ⟨a, ha⟩ := emitE_ok v e hok
  exact ⟨a, ha, emitE_den S hv e a ha⟩

/-! ### Shape -/

mutual

/-- No block stands in a block, and no else branch is a block of a single `if` unless the condition is one of a
    reset. -/
def flat (rst : AE → Bool) : AS → Prop
  | .none => True
  | .block l => flats rst l ∧ ∀ b, AS.block b ∉ l
  | .bsub _ _ _ _ => True
  | .nbsub _ _ _ _ => True
  | .ifs c t f => flat rst t ∧ flat rst f ∧ (rst c = false → ∀ c' t' f', f ≠ .block [.ifs c' t' f'])
  | .for_ pre _ post body => flat rst pre ∧ flat rst post ∧ flat rst body
  | .while_ _ body => flat rst body
  | .case_ _ _ l => flats rst l
  | .item _ body => flat rst body
  | .single _ => True
  | .task _ _ => True
  | .event _ => True
  | .wait _ body => flat rst body
  | .forever body => flat rst body
  | .delay _ => True

/-- The same for a list. -/
def flats (rst : AE → Bool) : List AS → Prop
  | [] => True
  | s :: l => flat rst s ∧ flats rst l

end

theorem flats_append {rst : AE → Bool} {a b : List AS} (ha : flats rst a) (hb : flats rst b) : flats rst (a ++ b) := by
  induction a with
  | nil => exact hb
  | cons s a ih => exact ⟨ha.1, ih ha.2⟩

theorem flatten_flat {rst : AE → Bool} {l : List AS} (h : flats rst l) :
    flats rst (flatten l) ∧ ∀ b, AS.block b ∉ flatten l := by
  induction l with
  | nil => exact ⟨trivial, fun b hb => by cases hb⟩
  | cons s l ih =>
    obtain ⟨i1, i2⟩ := ih h.2
    have hcons : (∀ b, s ≠ .block b) → flats rst (s :: flatten l) ∧ ∀ b, AS.block b ∉ s :: flatten l := by
      intro hs
      refine ⟨⟨h.1, i1⟩, fun b hb => ?_⟩
      rcases List.mem_cons.1 hb with hb | hb
      · exact hs b hb.symm
      · exact i2 b hb
    cases s
    case block b =>
      rw [flatten]
      refine ⟨flats_append h.1.1 i1, fun c hc => ?_⟩
      rcases List.mem_append.1 hc with hc | hc
      · exact h.1.2 c hc
      · exact i2 c hc
    all_goals exact hcons (by intro b hb; cases hb)

theorem elseIf_flat {rst : AE → Bool} {r : Bool} {a : AS} (h : flat rst a) :
    flat rst (elseIf r a) ∧ (r = false → ∀ c t f, elseIf r a ≠ .block [.ifs c t f]) := by
  unfold elseIf
  split
  · cases r
    · exact ⟨h.1.1, fun _ c t f => by simp⟩
    · exact ⟨h, by simp⟩
  · rename_i hne
    exact ⟨h, fun _ c t f he => hne c t f he⟩

mutual

theorem emitS_flat : ∀ s (v : Vis) a, emitS v s = some a → flat v.rst a
  | .none, v, a, h => by cases h
  | .tup l, v, a, h => by
    obtain ⟨t, ht, rfl⟩ := Option.map_eq_some_iff.1 h
    exact flatten_flat (emitSs_flat l v t ht)
  | .sub l r blk ld rd, v, a, h => by
    rw [emitS, emitSub] at h
    split at h
    · cases h
      split <;> trivial
    · cases h
  | .ifs c t f, v, a, h => by
    rw [emitS] at h
    split at h
    · rename_i c' t' h1 h2
      obtain ⟨f', hf, rfl⟩ := Option.map_eq_some_iff.1 h
      refine ⟨emitS_flat t v t' h2, ?_⟩
      split at hf
      · cases hf
        exact ⟨trivial, fun _ _ _ _ he => by cases he⟩
      · obtain ⟨g, hg, rfl⟩ := Option.map_eq_some_iff.1 hf
        exact elseIf_flat (emitS_flat f v g hg)
    · cases h
  | .for_ pre c post body, v, a, h => by
    rw [emitS] at h
    split at h
    · rename_i h1 h2 h3 h4
      cases h
      exact ⟨emitS_flat pre { v with blk := true } _ h1, emitS_flat post { v with blk := true } _ h3,
        emitS_flat body v _ h4⟩
    · cases h
  | .while_ c body, v, a, h => by
    rw [emitS] at h
    split at h
    · rename_i h1 h2
      cases h
      have h3 := emitS_flat body v _ h2
      exact h3
    · cases h
  | .case_ x comp l, v, a, h => by
    rw [emitS] at h
    split at h
    · rename_i h1 h2
      cases h
      exact emitSs_flat l v _ h2
    · cases h
  | .when conds body, v, a, h => by
    rw [emitS] at h
    split at h
    · rename_i h1 h2
      cases h
      have h3 := emitS_flat body v _ h2
      exact h3
    · cases h
  | .single e, v, a, h => by
    obtain ⟨t, ht, rfl⟩ := Option.map_eq_some_iff.1 h
    trivial
  | .task f l, v, a, h => by
    obtain ⟨t, ht, rfl⟩ := Option.map_eq_some_iff.1 h
    trivial
  | .event l, v, a, h => by
    obtain ⟨t, ht, rfl⟩ := Option.map_eq_some_iff.1 h
    trivial
  | .wait c body, v, a, h => by
    rw [emitS] at h
    split at h
    · split at h
      · obtain ⟨b, hb, rfl⟩ := Option.map_eq_some_iff.1 h
        split at hb
        · cases hb; trivial
        · exact emitS_flat body v b hb
      · cases h
    · cases h
  | .forever l, v, a, h => by
    rw [emitS] at h
    split at h
    · split at h
      · cases h; trivial
      · obtain ⟨t, ht, rfl⟩ := Option.map_eq_some_iff.1 h
        exact flatten_flat (emitSs_flat l v t ht)
    · cases h
  | .delay e, v, a, h => by
    rw [emitS] at h
    split at h
    · cases h; trivial
    · obtain ⟨t, ht, rfl⟩ := Option.map_eq_some_iff.1 h
      trivial

theorem emitSs_flat : ∀ l (v : Vis) as, emitSs v l = some as → flats v.rst as
  | [], v, as, h => by cases h; trivial
  | s :: l, v, as, h => by
    rw [emitSs] at h
    split at h
    · rename_i h1 h2
      cases h
      exact ⟨emitS_flat s v _ h1, emitSs_flat l v _ h2⟩
    · cases h

end

/-- C63: lists of statements in lists leave no block inside a block, and `Elif` no block around an `if`. -/
theorem c63_flat (v : Vis) (l : List VS) (a : AS) (h : emitBody v l = some a) : flat v.rst a := by
  obtain ⟨t, ht, rfl⟩ := Option.map_eq_some_iff.1 h
  exact flatten_flat (emitSs_flat l v t ht)

/-! ### For Verilator -/

/-- A system task that writes nothing. -/
def writeV : VE := .sys "write" [.str ""]

mutual

/-- An expression without the system tasks Verilator cannot run. -/
def stripE (ini : Bool) : VE → VE
  | .num n => .num n
  | .bool b => .bool b
  | .lit o => .lit o
  | .flt s => .flt s
  | .str s => .str s
  | .var x => .var x
  | .op o l => .op o (stripEs ini l)
  | .cat l => .cat (stripEs ini l)
  | .rep a t => .rep (stripE ini a) (stripE ini t)
  | .skip e => .skip (stripE ini e)
  | .call f l => .call f (stripEs ini l)
  | .sys cmd l =>
    if cmd = "dumpfile" ∨ cmd = "dumpvars" ∨ (ini = true ∧ cmd = "finish") then writeV else .sys cmd (stripEs ini l)

/-- The same for a list. -/
def stripEs (ini : Bool) : List VE → List VE
  | [] => []
  | e :: l => stripE ini e :: stripEs ini l

end

/-- The same for an edge. -/
def stripSens (ini : Bool) : VSens → VSens
  | .pos e => .pos (stripE ini e)
  | .neg e => .neg (stripE ini e)
  | .all => .all
  | .level e => .level (stripE ini e)

mutual

/-- A statement without delays, `Forever` and those system tasks. -/
def strip (ini : Bool) : VS → VS
  | .none => .none
  | .tup l => .tup (strips ini l)
  | .sub l r blk ld rd => .sub (stripE ini l) (stripE ini r) blk ld rd
  | .ifs c t f => .ifs (stripE ini c) (strip ini t) (strip ini f)
  | .for_ pre c post body => .for_ (strip ini pre) (stripE ini c) (strip ini post) (strip ini body)
  | .while_ c body => .while_ (stripE ini c) (strip ini body)
  | .case_ x comp l => .case_ x (stripE ini comp) (strips ini l)
  | .when conds body => .when (stripEs ini conds) (strip ini body)
  | .single e => .single (stripE ini e)
  | .task f l => .task f (stripEs ini l)
  | .event l => .event (l.map (stripSens ini))
  | .wait c body => .wait (stripE ini c) (strip ini body)
  | .forever _ => .single writeV
  | .delay _ => .single writeV

/-- The same for a list. -/
def strips (ini : Bool) : List VS → List VS
  | [] => []
  | s :: l => strip ini s :: strips ini l

end

mutual

theorem emitE_strip {v : Vis} (hv : v.fv = true) :
    ∀ e a, emitE v e = some a → emitE { v with fv := false } (stripE v.ini e) = some a
  | .num _, a, h => h
  | .bool _, a, h => h
  | .lit _, a, h => h
  | .flt _, a, h => h
  | .str _, a, h => h
  | .var _, a, h => h
  | .op o l, a, h => by
    obtain ⟨t, ht, rfl⟩ := Option.map_eq_some_iff.1 h
    rw [stripE, emitE, emitEs_strip hv l t ht]
    rfl
  | .cat l, a, h => by
    obtain ⟨t, ht, rfl⟩ := Option.map_eq_some_iff.1 h
    rw [stripE, emitE, emitEs_strip hv l t ht]
    rfl
  | .rep b t, a, h => by
    rw [emitE] at h
    split at h
    · rename_i b' t' h1 h2
      cases h
      rw [stripE, emitE, emitE_strip hv b b' h1, emitE_strip hv t t' h2]
      have : (stripE v.ini b).isCat = b.isCat := by
        cases b <;> try rfl
        rw [stripE]
        split <;> rfl
      simp only [this]
    · cases h
  | .skip e, a, h => by
    rw [stripE, emitE]
    exact emitE_strip hv e a h
  | .call f l, a, h => by
    obtain ⟨t, ht, rfl⟩ := Option.map_eq_some_iff.1 h
    rw [stripE, emitE, emitEs_strip hv l t ht]
    rfl
  | .sys cmd l, a, h => by
    rw [emitE] at h
    by_cases hm : cmd = "dumpfile" ∨ cmd = "dumpvars" ∨ (v.ini = true ∧ cmd = "finish")
    · rw [if_pos (by simpa [muted, hv, or_assoc] using hm)] at h
      cases h
      rw [stripE, if_pos hm]
      rfl
    · rw [if_neg (by simpa [muted, hv, or_assoc] using hm)] at h
      obtain ⟨t, ht, rfl⟩ := Option.map_eq_some_iff.1 h
      rw [stripE, if_neg hm, emitE, emitEs_strip hv l t ht]
      rfl

theorem emitEs_strip {v : Vis} (hv : v.fv = true) :
    ∀ l as, emitEs v l = some as → emitEs { v with fv := false } (stripEs v.ini l) = some as
  | [], as, h => h
  | e :: l, as, h => by
    rw [emitEs] at h
    split at h
    · rename_i h1 h2
      cases h
      rw [stripEs, emitEs, emitE_strip hv e _ h1, emitEs_strip hv l _ h2]
    · cases h

end

theorem emitDel_strip {v : Vis} {d : Option VE} {a : Option ADel} (h : emitDel v d = some a) :
    emitDel { v with fv := false } d = some a := by
  unfold emitDel at h ⊢
  split at h <;> exact h

theorem emitSens_strip {v : Vis} (hv : v.fv = true) :
    ∀ (l : List VSens) as, emitSensL v l = some as →
      emitSensL { v with fv := false } (l.map (stripSens v.ini)) = some as
  | [], as, h => h
  | e :: l, as, h => by
    rw [emitSensL] at h
    split at h
    · rename_i a as h1 h2
      cases h
      rw [List.map_cons, emitSensL, emitSens_strip hv l _ h2]
      have : emitSens { v with fv := false } (stripSens v.ini e) = some a := by
        cases e with
        | pos e =>
          rw [emitSens] at h1
          split at h1
          · rename_i hb
            obtain ⟨t, ht, rfl⟩ := Option.map_eq_some_iff.1 h1
            rw [stripSens, emitSens, if_pos hb, emitE_strip hv e t ht]
            rfl
          · cases h1
        | neg e =>
          rw [emitSens] at h1
          split at h1
          · rename_i hb
            obtain ⟨t, ht, rfl⟩ := Option.map_eq_some_iff.1 h1
            rw [stripSens, emitSens, if_pos hb, emitE_strip hv e t ht]
            rfl
          · cases h1
        | all => cases h1
        | level e =>
          obtain ⟨t, ht, rfl⟩ := Option.map_eq_some_iff.1 h1
          rw [stripSens, emitSens, emitE_strip hv e t ht]
          rfl
      rw [this]
    · cases h

theorem strip_isNone (ini : Bool) (s : VS) : (strip ini s).isNone = s.isNone := by
  cases s <;> rfl

mutual

theorem emitS_strip : ∀ s (v : Vis) a, v.fv = true → emitS v s = some a →
    emitS { v with fv := false } (strip v.ini s) = some a
  | .none, v, a, hv, h => by cases h
  | .tup l, v, a, hv, h => by
    obtain ⟨t, ht, rfl⟩ := Option.map_eq_some_iff.1 h
    rw [strip, emitS, emitSs_strip l v t hv ht]
    rfl
  | .sub l r blk ld rd, v, a, hv, h => by
    rw [emitS, emitSub] at h
    split at h
    · rename_i h1 h2 h3 h4
      cases h
      rw [strip, emitS, emitSub, emitE_strip hv _ _ h1, emitE_strip hv _ _ h2, emitDel_strip h3, emitDel_strip h4]
    · cases h
  | .ifs c t f, v, a, hv, h => by
    rw [emitS] at h
    split at h
    · rename_i c' t' h1 h2
      obtain ⟨f', hf, rfl⟩ := Option.map_eq_some_iff.1 h
      rw [strip, emitS, emitE_strip hv _ _ h1, emitS_strip t v _ hv h2]
      simp only [strip_isNone]
      split at hf
      · rename_i hn
        cases hf
        rw [if_pos hn]
        rfl
      · rename_i hn
        obtain ⟨g, hg, rfl⟩ := Option.map_eq_some_iff.1 hf
        rw [if_neg hn, emitS_strip f v _ hv hg]
        rfl
    · cases h
  | .for_ pre c post body, v, a, hv, h => by
    rw [emitS] at h
    split at h
    · rename_i h1 h2 h3 h4
      cases h
      have e1 := emitS_strip pre { v with blk := true } _ hv h1
      have e3 := emitS_strip post { v with blk := true } _ hv h3
      have e4 := emitS_strip body v _ hv h4
      simp only at e1 e3
      rw [strip, emitS, e1, emitE_strip hv _ _ h2, e3, e4]
    · cases h
  | .while_ c body, v, a, hv, h => by
    rw [emitS] at h
    split at h
    · rename_i h1 h2
      cases h
      rw [strip, emitS, emitE_strip hv _ _ h1, emitS_strip body v _ hv h2]
    · cases h
  | .case_ x comp l, v, a, hv, h => by
    rw [emitS] at h
    split at h
    · rename_i h1 h2
      cases h
      rw [strip, emitS, emitE_strip hv _ _ h1, emitSs_strip l v _ hv h2]
    · cases h
  | .when conds body, v, a, hv, h => by
    rw [emitS] at h
    split at h
    · rename_i h1 h2
      cases h
      rw [strip, emitS, emitEs_strip hv _ _ h1, emitS_strip body v _ hv h2]
    · cases h
  | .single e, v, a, hv, h => by
    obtain ⟨t, ht, rfl⟩ := Option.map_eq_some_iff.1 h
    rw [strip, emitS, emitE_strip hv _ _ ht]
    rfl
  | .task f l, v, a, hv, h => by
    obtain ⟨t, ht, rfl⟩ := Option.map_eq_some_iff.1 h
    rw [strip, emitS, emitEs_strip hv _ _ ht]
    rfl
  | .event l, v, a, hv, h => by
    obtain ⟨t, ht, rfl⟩ := Option.map_eq_some_iff.1 h
    rw [strip, emitS, emitSens_strip hv _ _ ht]
    rfl
  | .wait c body, v, a, hv, h => by
    rw [emitS] at h
    split at h
    · rename_i hb
      split at h
      · rename_i c' h1
        obtain ⟨b, hb', rfl⟩ := Option.map_eq_some_iff.1 h
        rw [strip, emitS, if_pos hb, emitE_strip hv _ _ h1]
        simp only [strip_isNone]
        split at hb'
        · rename_i hn
          cases hb'
          rw [if_pos hn]
          rfl
        · rename_i hn
          rw [if_neg hn, emitS_strip body v _ hv hb']
          rfl
      · cases h
    · cases h
  | .forever l, v, a, hv, h => by
    rw [emitS, hv] at h
    split at h
    · cases h
      rfl
    · cases h
  | .delay e, v, a, hv, h => by
    rw [emitS, hv] at h
    cases h
    rfl

theorem emitSs_strip : ∀ l (v : Vis) as, v.fv = true → emitSs v l = some as →
    emitSs { v with fv := false } (strips v.ini l) = some as
  | [], v, as, hv, h => h
  | s :: l, v, as, hv, h => by
    rw [emitSs] at h
    split at h
    · rename_i h1 h2
      cases h
      rw [strips, emitSs, emitS_strip s v _ hv h1, emitSs_strip l v _ hv h2]
    · cases h

end

/-- C63: for Verilator the same is written as otherwise for the statements in which every delay, every `Forever`,
    every `$dumpfile` and `$dumpvars` and, in an `initial` block, every `$finish` is replaced by writing nothing. -/
theorem c63_verilator (v : Vis) (hv : v.fv = true) (l : List VS) (a : AS) (h : emitBody v l = some a) :
    emitBody { v with fv := false } (strips v.ini l) = some a := by
  obtain ⟨t, ht, rfl⟩ := Option.map_eq_some_iff.1 h
  rw [emitBody, emitSs_strip l v t hv ht]
  rfl

/-! ### Where it fails -/

/-- C63 does not hold for an assignment with a delay in an `always` block: the delay is written as an expression, not
    as a delay, so the tree has no meaning, whatever the interpretation. -/
theorem c63_not_delay {X D : Type} (S : Sem X D) (v : Vis) (hb : v.blk = false) (l r : VE) (hl : okE l) (hr : okE r)
    (b : Bool) (n : Int) (hn : n ≠ 0) (rd : Option VE) (hrd : okDel rd) :
    ∃ a, emitS v (.sub l r b (some (.num n)) rd) = some a ∧ S.denA a = none := by
  obtain ⟨l', hl'⟩ := emitE_ok v l hl
  obtain ⟨r', hr'⟩ := emitE_ok v r hr
  obtain ⟨d, hd⟩ := emitDel_ok v rd hrd
  have hdel : emitDel v (some (.num n)) = some (some (.raw (.int (decimal n)))) := by
    rw [emitDel, if_neg hn, hb]
    rfl
  refine ⟨_, by rw [emitS, emitSub, hl', hr', hdel, hd], ?_⟩
  split <;> rfl

/-- C63 does not hold for an event on a level: the edge is written without a type. -/
theorem c63_not_level (v : Vis) (e : VE) (he : okE e) :
    ∃ a, emitE v e = some a ∧ emitS v (.event [.level e]) = some (.event [.bare a]) := by
  obtain ⟨a, ha⟩ := emitE_ok v e he
  exact ⟨a, ha, by simp [emitS, emitSensL, emitSens, ha]⟩

/-- Waiting inside an `always` block raises: `Wait`, `Forever` and events on edges. -/
theorem c63_always (v : Vis) (hb : v.blk = false) (c : VE) (s : VS) (l : List VS) (r : List VSens) :
    emitS v (.wait c s) = none ∧ emitS v (.forever l) = none ∧ emitS v (.event (.pos c :: r)) = none ∧
      emitS v (.event (.neg c :: r)) = none := by
  simp [emitS, emitSensL, emitSens, hb]

/-! ### Example -/

namespace Ex

/-- A state: the variables and the pending non-blocking assignments. -/
abbrev St := (String → Int) × List (String × Int)

/-- Expressions: a value in every state, and a name if it is one. -/
abbrev Val := Option String × ((String → Int) → Int)

/-- Repetition of a relation under a condition. -/
inductive Loop (c : Val) (d : St → St → Prop) : St → St → Prop
  | stop (s : St) : c.2 s.1 = 0 → Loop c d s s
  | more (s t u : St) : c.2 s.1 ≠ 0 → d s t → Loop c d t u → Loop c d s u

/-- The relational meaning of statements without timing; `+`, `<` and numerals are interpreted. -/
def sem : Sem Val (St → St → Prop) where
  lit t := (none, fun _ => (Literal.pyInt 10 t).getD 0)
  flt _ := (none, fun _ => 0)
  str _ := (none, fun _ => 0)
  id x := (some x, fun ρ => ρ x)
  app o l := (none, fun ρ => match o, l with
    | "+", [a, b] => a.2 ρ + b.2 ρ
    | "<", [a, b] => if a.2 ρ < b.2 ρ then 1 else 0
    | _, _ => 0)
  cat _ := (none, fun _ => 0)
  rep _ _ := (none, fun _ => 0)
  call _ _ := (none, fun _ => 0)
  sys _ _ := (none, fun _ => 0)
  rep_cat _ _ := rfl
  skip := Eq
  seq a b s u := ∃ t, a s t ∧ b t u
  assign blk l r _ _ s t := t = match l.1 with
    | some x => if blk then (fun y => if y = x then r.2 s.1 else s.1 y, s.2) else (s.1, s.2 ++ [(x, r.2 s.1)])
    | none => s
  ite c a b s t := if c.2 s.1 ≠ 0 then a s t else b s t
  forD pre c post body s u := ∃ t, pre s t ∧ Loop c (fun x z => ∃ y, body x y ∧ post y z) t u
  whileD c d := Loop c d
  caseD _ c l s t := match l.find? (fun p => p.1.isEmpty || p.1.any fun x => x.2 s.1 == c.2 s.1) with
    | some p => p.2 s t
    | none => s = t
  doD _ := Eq
  taskD _ _ := Eq
  eventD _ := Eq
  waitD _ d := d
  foreverD _ _ _ := False
  delayD _ := Eq
  skip_seq d := by
    funext s t
    simp
  seq_skip d := by
    funext s t
    simp
  assoc a b c := by
    funext s t
    apply propext
    constructor
    · rintro ⟨y, ⟨x, h1, h2⟩, h3⟩
      exact ⟨x, h1, y, h2, h3⟩
    · rintro ⟨x, h1, y, h2, h3⟩
      exact ⟨y, ⟨x, h1, h2⟩, h3⟩

/-- `If(a)( [x(1), [y(2)]] ).Elif(b)( For(i(0), i < 3, i(i + 1))( x(i) ) ).Else( Case(c)( When(0)(x(5)), When()(y(6)) ) )`. -/
def prog : List VS := [.ifs (.var "a")
  (.tup [.tup [.sub (.var "x") (.num 1) false none none, .tup [.sub (.var "y") (.num 2) false none none]]])
  (.tup [.ifs (.var "b")
    (.tup [.for_ (.sub (.var "i") (.num 0) false none none) (.op .lessThan [.var "i", .num 3])
      (.sub (.var "i") (.op .plus [.var "i", .num 1]) false none none)
      (.tup [.sub (.var "x") (.var "i") false none none])])
    (.tup [.case_ false (.var "c") [.when [.num 0] (.tup [.sub (.var "x") (.num 5) false none none]),
      .when [] (.tup [.sub (.var "y") (.num 6) true none none])]])])]

/-- The hypotheses of `c63_emit` hold for it in an `always` block. -/
example : oks false prog ∧ clears false prog := by
  simp [prog, oks, ok, okE, okEs, okDel, clears, clear, clearDel]

/-- What is written: the nested lists are gone, and so is the block around the inner `if`. -/
example : emitBody ⟨false, false, false, fun _ => false⟩ prog = some (.block [.ifs (.id "a")
    (.block [.nbsub (.id "x") (.int ['1']) none none, .nbsub (.id "y") (.int ['2']) none none])
    (.ifs (.id "b")
      (.block [.for_ (.bsub (.id "i") (.int ['0']) none none) (.op .lessThan [.id "i", .int ['3']])
        (.bsub (.id "i") (.op .plus [.id "i", .int ['1']]) none none)
        (.block [.nbsub (.id "x") (.id "i") none none])])
      (.block [.case_ false (.id "c") [.item [.int ['0']] (.block [.nbsub (.id "x") (.int ['5']) none none]),
        .item [] (.block [.bsub (.id "y") (.int ['6']) none none])]]))]) := by
  rfl

/-- With a reset as condition the block stays. -/
example : emitBody ⟨false, false, false, fun c => match c with | .id "rst" => true | _ => false⟩
    [.ifs (.var "rst") (.tup []) (.tup [.ifs (.var "b") (.tup []) .none])] =
    some (.block [.ifs (.id "rst") (.block []) (.block [.ifs (.id "b") (.block []) .none])]) := by
  rfl

/-- For Verilator: delays and `$finish` of an `initial` block disappear. -/
example : emitBody ⟨true, true, true, fun _ => false⟩
    [.delay (.num 10), .single (.sys "display" [.str "done"]), .single (.sys "finish" [])] =
    some (.block [.single writeNothing, .single (.sys "display" [.str "done"]), .single writeNothing]) := by
  rfl

end Ex

end Emit
