import Verif.Lemmas.EmitModG

/-!
# C78: what is written for a module is read and written again without change
-/

namespace Emit

/-- C78: what is written for a module is, once parsed, read as a module that is written as the same text. -/
theorem c78_written (v : Vis) (hv : v.fv = false) (hr : ∀ c, v.rst (parsedE c) = v.rst c) (lib : Lib) (P : String → Bool) (m : VMod)
    (hf : m.Fine lib P) (a : AMod) (h : emitMod v m = some a) :
    ∃ m', readMod lib (parsedMod a) = some m' ∧ emitMod v m' = some (parsedMod a) := written_mod hv hr hf h

/-! ### What goes wrong -/

/-- C78: a generate `if` in the else branch of another is written inside of it, and after reading both of its branches are written
    there without it. -/
theorem c78_not_else (v : Vis) (lib : Lib) (n c d x y z w : String) :
    ∃ a m' b, emitMod v ⟨n, [.gif (.var c) none [] none [.gif (.var d) none [.assign (.var x) (.var y) none none] none
        [.assign (.var z) (.var w) none none]]]⟩ = some a ∧
      readMod lib (parsedMod a) = some m' ∧ emitMod v m' = some b ∧
      a.items = [.gen [.gif (.id c) none [] none [.gif (.id d) none [.assign (.id x) (.id y)] none [.assign (.id z) (.id w)]]]] ∧
      b.items = [.gen [.gif (.id c) none [] none [.assign (.id x) (.id y), .assign (.id z) (.id w)]]] :=
  ⟨_, _, _, rfl, rfl, rfl, rfl, rfl⟩

/-- C78: a generate `for` in an else branch is written, and after reading its items are written there once. -/
theorem c78_not_loop (v : Vis) (lib : Lib) (n c i x y : String) :
    ∃ a m' b, emitMod v ⟨n, [.gif (.var c) none [] none [.gfor (.sub (.var i) (.num 0) true none none) (.op .lessThan [.var i, .num 4])
        (.sub (.var i) (.op .plus [.var i, .num 1]) true none none) none [.assign (.var x) (.var y) none none]]]⟩ = some a ∧
      readMod lib (parsedMod a) = some m' ∧ emitMod v m' = some b ∧
      b.items = [.gen [.gif (.id c) none [] none [.assign (.id x) (.id y)]]] :=
  ⟨_, _, _, rfl, rfl, rfl, rfl⟩

/-- C78: a module with an `initial` block with an `if` in a generate block is written, and the text cannot be read. -/
theorem c78_not_initial (v : Vis) (hv : v.fv = false) (lib : Lib) (n c i x y : String) :
    ∃ a, emitMod v ⟨n, [.gif (.var c) none [.initial [.ifs (.var i) (.tup [.sub (.var x) (.var y) true none none]) .none]] none []]⟩ =
      some a ∧ readMod lib (parsedMod a) = none := by
  obtain ⟨fv, blk, ini, rst⟩ := v
  cases hv
  exact ⟨_, rfl, rfl⟩

namespace Ex

/-- The module of C77 meets the hypothesis. -/
theorem cnt_fine : cnt.Fine (fun _ => none) (fun n => n == "W") := by
  refine ⟨?_, ?_, fun n _ => cnt_ok.once n⟩
  · simp [cnt, fineIs, fineI, fineE, fineEs, noName, fineW, fineDm, fineDecl, fines, fine, fineDel, fineASens, DKind.io, fineFn, fineD,
      VS.IsTup]
  · intro d hd hk
    simp only [cnt, List.mem_cons, List.not_mem_nil, or_false, reduceCtorEq, false_or, VItem.decl.injEq] at hd
    rcases hd with rfl | rfl | rfl | rfl | rfl <;> simp [DKind.io, fineDecl, fineW, fineDm, fineE] at hk ⊢

example : ∃ a m', emitMod ⟨false, false, false, fun _ => false⟩ cnt = some a ∧ readMod (fun _ => none) (parsedMod a) = some m' ∧
    emitMod ⟨false, false, false, fun _ => false⟩ m' = some (parsedMod a) := by
  obtain ⟨a, h, -⟩ := c77_write sem ⟨false, false, false, fun _ => false⟩ rfl cnt cnt_ok
  obtain ⟨m', h1, h2⟩ := c78_written _ rfl (fun _ => rfl) _ _ cnt cnt_fine a h
  exact ⟨a, m', h, h1, h2⟩

/-- What is read is another module: its register of the output stands beside the output, before the memory. -/
example : ((emitMod ⟨false, false, false, fun _ => false⟩ cnt).bind fun a => readMod (fun _ => none) (parsedMod a)).map
    (fun m => (m.items.filterMap VItem.dec).map (·.name)) = some ["CLK", "q", "q", "mem", "i"] := by decide +kernel

/-- So does one with a localparam that has the value of a `genvar`. -/
example : VMod.Fine (fun _ => none) (fun n => n == "B") ⟨"m", [.decl ⟨.genvar, "i", .none, .none, false⟩,
    .gfor (.sub (.var "i") (.num 0) true none none) (.op .lessThan [.var "i", .num 4])
      (.sub (.var "i") (.op .plus [.var "i", .num 1]) true none none) (some "loop") [.param true "B" (.var "i") .none false]]⟩ := by
  refine ⟨?_, ?_, ?_⟩
  · simp [fineIs, fineI, fineE, fineEs, noName, fineW, fineDm, fineDecl, fine, fineDel, DKind.io]
  · intro d hd hk
    simp only [List.mem_cons, List.not_mem_nil, or_false, reduceCtorEq, VItem.decl.injEq] at hd
    subst hd
    cases hk
  · intro n h
    cases h

end Ex

end Emit
