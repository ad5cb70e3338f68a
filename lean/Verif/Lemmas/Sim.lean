import Verif.Lemmas.SeqRun

/-! Executions of concrete designs, for examples. -/

namespace Hdl

/-- The execution of some clocked blocks from `init`; signals that no block assigns take their values
    from `ins`. -/
def sim (blocks : List Code) (init : Env) (ins : Nat → Env) : Nat → Env
  | 0 => init
  | t + 1 => fun x =>
    match blocks.find? fun c => decide (x ∈ c.targets.map Reg.name) with
    | some c => c.tick (sim blocks init ins t) x
    | none => ins (t + 1) x

/-- No register is assigned by two blocks. -/
def Disjoint' (blocks : List Code) : Prop :=
  blocks.Pairwise fun a b => ∀ x ∈ a.targets.map Reg.name, x ∉ b.targets.map Reg.name

instance (blocks : List Code) : Decidable (Disjoint' blocks) := by
  unfold Disjoint'; infer_instance

theorem sim_run {blocks : List Code} (hd : Disjoint' blocks) (init : Env) (ins : Nat → Env)
    {c : Code} (hc : c ∈ blocks) : Run c (sim blocks init ins) := by
  intro t x hx
  show (match blocks.find? fun c => decide (x ∈ c.targets.map Reg.name) with
    | some c => c.tick (sim blocks init ins t) x
    | none => ins (t + 1) x) = _
  have : blocks.find? (fun c => decide (x ∈ c.targets.map Reg.name)) = some c := by
    clear init ins
    induction blocks with
    | nil => simp at hc
    | cons b bs ih =>
      unfold Disjoint' at hd
      rw [List.pairwise_cons] at hd
      rw [List.find?_cons]
      rcases List.mem_cons.1 hc with rfl | hc
      · simp only [hx, decide_true]
      · have hb : x ∉ b.targets.map Reg.name := fun hb => hd.1 c hc x hb hx
        simp only [hb, decide_false]
        exact ih hd.2 hc
  rw [this]

end Hdl
