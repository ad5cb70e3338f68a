import Verif.Model.TestBench
import Mathlib.Tactic.Ring
import Mathlib.Tactic.ByContra
import Mathlib.Data.Nat.GCD.Basic

/-!
# C101: clocks and resets of a test bench, in Verilog and for Verilator
-/

namespace TBench

/-! ## The Verilog blocks -/

theorem clock_loop (clk : String) {h : ℕ} (h0 : 0 < h) : ∀ (fuel left : ℕ) (env : String → Option ℤ) (b : Bool),
    left < fuel → env clk = some (if b then 1 else 0) →
    ∃ env', runForever [.delay h, .set clk fun env => lnot (env clk)] fuel left env = some env' ∧
      env' clk = some (if (left / h % 2 = 1) = (b = true) then 0 else 1) := by
  intro fuel
  induction fuel with
  | zero => intro left env b hl; omega
  | succ fuel ih =>
    intro left env b hl he
    by_cases hlt : left < h
    · refine ⟨env, by simp [runForever, runList, hlt], ?_⟩
      rw [he, Nat.div_eq_of_lt hlt]
      cases b <;> simp
    · have h1 : runForever [.delay h, .set clk fun env => lnot (env clk)] (fuel + 1) left env =
          runForever [.delay h, .set clk fun env => lnot (env clk)] fuel (left - h) (fun y => if y = clk then lnot (env clk) else env y) := by
        simp [runForever, runList, hlt]
      obtain ⟨env', g1, g2⟩ := ih (left - h) (fun y => if y = clk then lnot (env clk) else env y) (!b) (by omega)
        (by simp only [if_true, he]; cases b <;> rfl)
      refine ⟨env', by rw [h1, g1], ?_⟩
      rw [g2]
      have h2 : left / h = (left - h) / h + 1 := by
        conv => lhs; rw [show left = left - h + h by omega]
        exact Nat.add_div_right _ h0
      rw [h2]
      generalize (left - h) / h = q
      rcases Nat.mod_two_eq_zero_or_one q with hq | hq
      · have : (q + 1) % 2 = 1 := by omega
        rw [hq, this]; cases b <;> simp
      · have : (q + 1) % 2 = 0 := by omega
        rw [hq, this]; cases b <;> simp

/-- **C101, the Verilog clock.** After `setup_clock` with a half period `h > 0` the clock is low for the first `h` time units, high for the
    next `h`, and so on for ever. -/
theorem c101_clock (clk : String) {h : ℕ} (h0 : 0 < h) (t : ℕ) :
    ∃ env, clockAt clk h t = some env ∧ env clk = some (if t / h % 2 = 1 then 1 else 0) := by
  obtain ⟨env, g1, g2⟩ := clock_loop clk h0 (t + 1) t (fun y => if y = clk then some 0 else none) false (Nat.lt_succ_self _) (by simp)
  refine ⟨env, ?_, ?_⟩
  · rw [← g1]; rfl
  · rw [g2]
    by_cases hh : t / h % 2 = 1 <;> simp [hh]

/-- **C101, half period 0.** Time never passes. -/
theorem c101_clock_zero (clk : String) (t : ℕ) : clockAt clk 0 t = none := by
  have h : ∀ fuel left env, runForever [.delay 0, .set clk fun env => lnot (env clk)] fuel left env = none := by
    intro fuel
    induction fuel with
    | zero => intro left env; rfl
    | succ fuel ih =>
      intro left env
      have : runForever [.delay 0, .set clk fun env => lnot (env clk)] (fuel + 1) left env =
          runForever [.delay 0, .set clk fun env => lnot (env clk)] fuel left (fun y => if y = clk then lnot (env clk) else env y) := by
        simp [runForever, runList]
      rw [this, ih]
  exact h _ _ _

/-- The delays of statements. -/
def delays : List Stmt → ℕ
  | [] => 0
  | .delay n :: r => n + delays r
  | .set _ _ :: r => delays r

/-- No statement assigns `x`. -/
def Avoids (x : String) (l : List Stmt) : Prop := ∀ y f, Stmt.set y f ∈ l → y ≠ x

theorem runList_append (l r : List Stmt) : ∀ left env, runList (l ++ r) left env =
    match runList l left env with
    | (e, none) => (e, none)
    | (e, some left') => runList r left' e := by
  induction l with
  | nil => intro left env; rfl
  | cons a l ih =>
    intro left env
    cases a with
    | delay n =>
      simp only [List.cons_append, runList]
      split
      · rfl
      · exact ih _ _
    | set x f => exact ih _ _

theorem runList_avoids {x : String} (l : List Stmt) : ∀ left env, Avoids x l →
    (runList l left env).1 x = env x ∧ (runList l left env).2 = if left < delays l then none else some (left - delays l) := by
  induction l with
  | nil => intro left env _; simp [runList, delays]
  | cons a l ih =>
    intro left env h
    have h' : Avoids x l := fun y f hm => h y f (List.mem_cons_of_mem _ hm)
    cases a with
    | delay n =>
      by_cases hn : left < n
      · refine ⟨by simp [runList, hn], ?_⟩
        rw [show delays (.delay n :: l) = n + delays l from rfl, if_pos (show left < n + delays l by omega)]
        simp [runList, hn]
      · obtain ⟨g1, g2⟩ := ih (left - n) env h'
        have hrun : runList (.delay n :: l) left env = runList l (left - n) env := by simp [runList, hn]
        rw [hrun, show delays (.delay n :: l) = n + delays l from rfl]
        refine ⟨g1, ?_⟩
        rw [g2]
        by_cases hd : left - n < delays l
        · rw [if_pos hd, if_pos (by omega)]
        · rw [if_neg hd, if_neg (by omega)]
          congr 1
          omega
    | set y f =>
      obtain ⟨g1, g2⟩ := ih left (fun z => if z = y then f env else env z) h'
      refine ⟨?_, g2⟩
      show (runList l left _).1 x = _
      rw [g1]
      have : ¬ x = y := fun hh => h y f (List.mem_cons_self ..) hh.symm
      simp [this]

/-- **C101, the Verilog reset.** Inactive while the statements of the caller and one more period pass, active for one period, inactive for
    ever after. -/
theorem c101_reset (reset : String) {statement : List Stmt} (h : Avoids reset statement) (period : ℕ) (positive : Bool) (t : ℕ) :
    resetAt reset statement period positive t reset =
      some (if (delays statement + period ≤ t ∧ t < delays statement + 2 * period) = (positive = true) then 1 else 0) := by
  unfold resetAt resetBlock
  show (runList (statement ++ _) t _).1 reset = _
  rw [runList_append]
  obtain ⟨g1, g2⟩ := runList_avoids statement t (fun y => if y = reset then some (if !positive then 1 else 0) else none) h
  generalize hr : runList statement t (fun y => if y = reset then some (if !positive then 1 else 0) else none) = r at g1 g2
  obtain ⟨e, o⟩ := r
  simp only at g1 g2
  simp only [if_true] at g1
  by_cases h1 : t < delays statement
  · rw [g2, if_pos h1]
    show e reset = _
    rw [g1]
    have : ¬ (delays statement + period ≤ t ∧ t < delays statement + 2 * period) := by omega
    cases positive <;> simp [this]
  · rw [g2, if_neg h1]
    simp only [runList, setBool]
    by_cases h2 : t - delays statement < period
    · rw [if_pos h2]
      show e reset = _
      rw [g1]
      have : ¬ (delays statement + period ≤ t ∧ t < delays statement + 2 * period) := by omega
      cases positive <;> simp [this]
    · rw [if_neg h2]
      by_cases h3 : t - delays statement - period < period
      · rw [if_pos h3]
        have : delays statement + period ≤ t ∧ t < delays statement + 2 * period := by omega
        cases positive <;> simp [this]
      · rw [if_neg h3]
        have : ¬ (delays statement + period ≤ t ∧ t < delays statement + 2 * period) := by omega
        cases positive <;> simp [this]

/-- A rising edge of the Verilog clock at time `t`. -/
def Rises (clk : String) (h t : ℕ) : Prop :=
  0 < t ∧ (∃ e, clockAt clk h (t - 1) = some e ∧ e clk = some 0) ∧ ∃ e, clockAt clk h t = some e ∧ e clk = some 1

/-- **C101, rising edges of the Verilog clock**: at the odd multiples of the half period and at no other time. -/
theorem c101_edges (clk : String) {h : ℕ} (h0 : 0 < h) (t : ℕ) : Rises clk h t ↔ ∃ k, t = (2 * k + 1) * h := by
  obtain ⟨e2, b1, b2⟩ := c101_clock clk h0 t
  obtain ⟨e1, a1, a2⟩ := c101_clock clk h0 (t - 1)
  have hv : Rises clk h t ↔ 0 < t ∧ (t - 1) / h % 2 = 0 ∧ t / h % 2 = 1 := by
    constructor
    · rintro ⟨ht, ⟨e, c1, c2⟩, ⟨e', d1, d2⟩⟩
      rw [a1] at c1; rw [b1] at d1
      cases c1; cases d1
      rw [a2] at c2; rw [b2] at d2
      refine ⟨ht, ?_, ?_⟩
      · by_contra hh; rw [if_pos (by omega)] at c2; simp at c2
      · by_contra hh; rw [if_neg hh] at d2; simp at d2
    · rintro ⟨ht, c, d⟩
      exact ⟨ht, ⟨e1, a1, by rw [a2, if_neg (by omega)]⟩, ⟨e2, b1, by rw [b2, if_pos d]⟩⟩
  rw [hv]
  constructor
  · rintro ⟨ht, c, d⟩
    refine ⟨t / h / 2, ?_⟩
    have h1 : 2 * (t / h / 2) + 1 = t / h := by omega
    rw [h1]
    by_contra hne
    have h2 := Nat.div_mul_le_self t h
    have h3 : t / h ≤ (t - 1) / h := (Nat.le_div_iff_mul_le h0).2 (by omega)
    have h4 : (t - 1) / h ≤ t / h := Nat.div_le_div_right (by omega)
    have : (t - 1) / h = t / h := by omega
    omega
  · rintro ⟨k, rfl⟩
    have h1 : (2 * k + 1) * h / h = 2 * k + 1 := Nat.mul_div_cancel _ h0
    have hle : 1 * h ≤ (2 * k + 1) * h := Nat.mul_le_mul_right h (by omega)
    have h2 : ((2 * k + 1) * h - 1) / h = 2 * k := by
      apply Nat.div_eq_of_lt_le
      · have : (2 * k + 1) * h = 2 * k * h + h := by ring
        omega
      · have : (2 * k + 1) * h = (2 * k + 1) * h := rfl
        show (2 * k + 1) * h - 1 < (2 * k + 1) * h
        omega
    rw [h1, h2]
    omega

/-- **C101, the reset is seen.** A period of at least two half periods contains a rising edge of the Verilog clock. -/
theorem c101_reset_seen (clk reset : String) {h period : ℕ} (h0 : 0 < h) (hp : 2 * h ≤ period) (positive : Bool) {statement : List Stmt}
    (hs : Avoids reset statement) :
    ∃ t, Rises clk h t ∧ resetAt reset statement period positive t reset = some (if positive then 1 else 0) := by
  generalize hD : delays statement + period = s
  have h1 := Nat.div_add_mod (s + h - 1) (2 * h)
  have h2 := Nat.mod_lt (s + h - 1) (show 0 < 2 * h by omega)
  refine ⟨(2 * ((s + h - 1) / (2 * h)) + 1) * h, (c101_edges clk h0 _).2 ⟨_, rfl⟩, ?_⟩
  rw [c101_reset reset hs]
  have h3 : (2 * ((s + h - 1) / (2 * h)) + 1) * h = 2 * h * ((s + h - 1) / (2 * h)) + h := by ring
  rw [h3]
  generalize 2 * h * ((s + h - 1) / (2 * h)) = q at *
  have : delays statement + period ≤ q + h ∧ q + h < delays statement + 2 * period := by omega
  cases positive <;> simp [this]

/-! ## The program for Verilator -/

/-- The names are distinct. -/
def Bench.Ok (b : Bench) : Prop := (b.clks.map Prod.fst ++ (b.rsts.map Prod.fst ++ b.inputs)).Nodup ∧ b.inits = []

theorem foldl_gcd_dvd (l : List ℕ) : ∀ a, l.foldl Nat.gcd a ∣ a ∧ ∀ x ∈ l, l.foldl Nat.gcd a ∣ x := by
  induction l with
  | nil => intro a; simp
  | cons y l ih =>
    intro a
    obtain ⟨h1, h2⟩ := ih (a.gcd y)
    refine ⟨Nat.dvd_trans h1 (Nat.gcd_dvd_left _ _), fun x hx => ?_⟩
    rcases List.mem_cons.1 hx with rfl | hx
    · exact Nat.dvd_trans h1 (Nat.gcd_dvd_right _ _)
    · exact h2 x hx

theorem step_dvd {b : Bench} {x : ℕ} (h : x ∈ b.clks.map Prod.snd ++ b.rsts.map fun r => r.2.1) : b.step ∣ x := by
  unfold Bench.step
  split
  · rename_i hh; rw [hh] at h; simp at h
  · rename_i a l hh
    rw [hh] at h
    obtain ⟨h1, h2⟩ := foldl_gcd_dvd l a
    rcases List.mem_cons.1 h with rfl | h
    · exact h1
    · exact h2 _ h

theorem dvd_foldl_gcd (l : List ℕ) : ∀ (a d : ℕ), d ∣ a → (∀ x ∈ l, d ∣ x) → d ∣ l.foldl Nat.gcd a := by
  induction l with
  | nil => intro a d h _; exact h
  | cons y l ih =>
    intro a d h hl
    exact ih _ _ (Nat.dvd_gcd h (hl y (List.mem_cons_self ..))) fun x hx => hl x (List.mem_cons_of_mem _ hx)

/-- **C101, the time step** is the greatest common divisor of the half periods and periods; 1 if there is no clock and no reset. -/
theorem c101_step (b : Bench) :
    (b.clks = [] → b.rsts = [] → b.step = 1) ∧
    (¬ (b.clks = [] ∧ b.rsts = []) → ∀ d, d ∣ b.step ↔ (∀ c h, (c, h) ∈ b.clks → d ∣ h) ∧ ∀ r p s, (r, p, s) ∈ b.rsts → d ∣ p) := by
  refine ⟨fun h1 h2 => by simp [Bench.step, h1, h2], fun h d => ⟨fun hd => ⟨fun c h hc => ?_, fun r p s hr => ?_⟩, fun ⟨h1, h2⟩ => ?_⟩⟩
  · exact Nat.dvd_trans hd (step_dvd (List.mem_append_left _ (List.mem_map.2 ⟨_, hc, rfl⟩)))
  · exact Nat.dvd_trans hd (step_dvd (List.mem_append_right _ (List.mem_map.2 ⟨_, hr, rfl⟩)))
  · have hall : ∀ x ∈ b.clks.map Prod.snd ++ b.rsts.map fun r => r.2.1, d ∣ x := by
      intro x hx
      rcases List.mem_append.1 hx with hx | hx
      · obtain ⟨⟨c, h⟩, hc, rfl⟩ := List.mem_map.1 hx
        exact h1 c h hc
      · obtain ⟨⟨r, p, s⟩, hr, rfl⟩ := List.mem_map.1 hx
        exact h2 r p s hr
    unfold Bench.step
    split
    · rename_i hh
      simp only [List.append_eq_nil_iff, List.map_eq_nil_iff] at hh
      exact absurd hh h
    · rename_i a l hh
      rw [hh] at hall
      exact dvd_foldl_gcd l a d (hall a (List.mem_cons_self ..)) fun x hx => hall x (List.mem_cons_of_mem _ hx)

theorem foldl_other {α : Type} (f : (String → ℤ) → α → String → ℤ) (key : α → String) (x : String)
    (hf : ∀ e a, key a ≠ x → f e a x = e x) (l : List α) : ∀ e, x ∉ l.map key → l.foldl f e x = e x := by
  induction l with
  | nil => intro e _; rfl
  | cons a l ih =>
    intro e h
    simp only [List.map_cons, List.mem_cons, not_or] at h
    show l.foldl f (f e a) x = _
    rw [ih _ h.2, hf e a (fun hh => h.1 hh.symm)]

theorem foldl_one {α : Type} (f : (String → ℤ) → α → String → ℤ) (key : α → String)
    (hf : ∀ e a x, key a ≠ x → f e a x = e x) (a : α) (g : ℤ → ℤ) (hg : ∀ e, f e a (key a) = g (e (key a))) (l : List α) : ∀ e, a ∈ l →
    (l.map key).Nodup → l.foldl f e (key a) = g (e (key a)) := by
  induction l with
  | nil => intro e h; cases h
  | cons c l ih =>
    intro e h hn
    simp only [List.map_cons, List.nodup_cons] at hn
    show l.foldl f (f e c) (key a) = _
    rcases List.mem_cons.1 h with rfl | h
    · rw [foldl_other f key (key a) (fun e c hc => hf e c _ hc) l _ hn.1, hg]
    · have hne : key c ≠ key a := fun hh => hn.1 (hh ▸ List.mem_map.2 ⟨a, h, rfl⟩)
      rw [ih _ h hn.2, hf e c _ hne]

theorem put_ne {e : String → ℤ} {x y : String} {v : ℤ} (h : y ≠ x) : put e y v x = e x := by
  unfold put; rw [if_neg (Ne.symm h)]

theorem put_eq {e : String → ℤ} {x : String} {v : ℤ} : put e x v x = v := by unfold put; rw [if_pos rfl]

theorem tick_ne {t : ℕ} {e : String → ℤ} {c : String × ℕ} {x : String} (h : c.1 ≠ x) : tick t e c x = e x := by
  unfold tick; split
  · exact put_ne h
  · rfl

theorem tock_ne {t : ℕ} {e : String → ℤ} {r : String × ℕ × Bool} {x : String} (h : r.1 ≠ x) : tock t e r x = e x := by
  unfold tock
  split <;> split <;> simp [put_ne h]

theorem Bench.Ok.parts {b : Bench} (h : b.Ok) : (b.clks.map Prod.fst).Nodup ∧ (b.rsts.map Prod.fst).Nodup ∧
    (∀ x ∈ b.clks.map Prod.fst, x ∉ b.rsts.map Prod.fst ∧ x ∉ b.inputs) ∧ (∀ x ∈ b.rsts.map Prod.fst, x ∉ b.clks.map Prod.fst ∧ x ∉ b.inputs) := by
  obtain ⟨h1, h2, h3⟩ := List.nodup_append.1 h.1
  obtain ⟨h4, _, h5⟩ := List.nodup_append.1 h2
  refine ⟨h1, h4, fun x hx => ⟨fun hr => ?_, fun hi => ?_⟩, fun x hx => ⟨fun hc => ?_, fun hi => ?_⟩⟩
  · exact h3 x hx x (List.mem_append_left _ hr) rfl
  · exact h3 x hx x (List.mem_append_right _ hi) rfl
  · exact h3 x hc x (List.mem_append_left _ hx) rfl
  · exact h5 x hx x hi rfl

theorem body_clk {b : Bench} (hb : b.Ok) {c : String × ℕ} (hc : c ∈ b.clks) (t : ℕ) (e : String → ℤ) :
    b.body t e c.1 = if t % c.2 = 0 then (if e c.1 = 0 then 1 else 0) else e c.1 := by
  obtain ⟨p1, p2, p3, p4⟩ := hb.parts
  have hm : c.1 ∈ b.clks.map Prod.fst := List.mem_map.2 ⟨c, hc, rfl⟩
  unfold Bench.body
  rw [foldl_other (fun e x => put e x 0) id c.1 (fun e a h => put_ne h) b.inputs _ (by simpa using (p3 _ hm).2),
    foldl_other (tock t) Prod.fst c.1 (fun e a h => tock_ne h) b.rsts _ (p3 _ hm).1,
    foldl_one (tick t) Prod.fst (fun e a x h => tick_ne h) c (fun v => if t % c.2 = 0 then (if v = 0 then 1 else 0) else v)
      (fun e => by unfold tick; split <;> simp [put_eq]) b.clks _ hc p1]

theorem body_rst {b : Bench} (hb : b.Ok) {r : String × ℕ × Bool} (hr : r ∈ b.rsts) (t : ℕ) (e : String → ℤ) :
    b.body t e r.1 = if t = r.2.1 * 2 then (if r.2.2 then 0 else 1) else if t = r.2.1 then (if r.2.2 then 1 else 0) else e r.1 := by
  obtain ⟨p1, p2, p3, p4⟩ := hb.parts
  have hm : r.1 ∈ b.rsts.map Prod.fst := List.mem_map.2 ⟨r, hr, rfl⟩
  unfold Bench.body
  rw [foldl_other (fun e x => put e x 0) id r.1 (fun e a h => put_ne h) b.inputs _ (by simpa using (p4 _ hm).2),
    foldl_one (tock t) Prod.fst (fun e a x h => tock_ne h) r
      (fun v => if t = r.2.1 * 2 then (if r.2.2 then 0 else 1) else if t = r.2.1 then (if r.2.2 then 1 else 0) else v)
      (fun e => by unfold tock; split <;> split <;> simp [put_eq]) b.rsts _ hr p2,
    foldl_other (tick t) Prod.fst r.1 (fun e a h => tick_ne h) b.clks _ (p4 _ hm).1]

theorem init_clk {b : Bench} (hb : b.Ok) {c : String × ℕ} (hc : c ∈ b.clks) : b.init c.1 = 0 := by
  obtain ⟨p1, p2, p3, p4⟩ := hb.parts
  have hm : c.1 ∈ b.clks.map Prod.fst := List.mem_map.2 ⟨c, hc, rfl⟩
  unfold Bench.init
  simp only [hb.2, List.foldl_nil]
  rw [foldl_other (fun e x => put e x 0) id c.1 (fun e a h => put_ne h) b.inputs _ (by simpa using (p3 _ hm).2),
    foldl_other (fun e r => put e r.1 (if r.2.2 then 0 else 1)) Prod.fst c.1 (fun e a h => put_ne h) b.rsts _ (p3 _ hm).1,
    foldl_one (fun e c => put e c.1 0) Prod.fst (fun e a x h => put_ne h) c (fun _ => 0) (fun e => put_eq) b.clks _ hc p1]

theorem init_rst {b : Bench} (hb : b.Ok) {r : String × ℕ × Bool} (hr : r ∈ b.rsts) : b.init r.1 = if r.2.2 then 0 else 1 := by
  obtain ⟨p1, p2, p3, p4⟩ := hb.parts
  have hm : r.1 ∈ b.rsts.map Prod.fst := List.mem_map.2 ⟨r, hr, rfl⟩
  unfold Bench.init
  simp only [hb.2, List.foldl_nil]
  rw [foldl_other (fun e x => put e x 0) id r.1 (fun e a h => put_ne h) b.inputs _ (by simpa using (p4 _ hm).2),
    foldl_one (fun e r => put e r.1 (if r.2.2 then 0 else 1)) Prod.fst (fun e a x h => put_ne h) r (fun _ => if r.2.2 then 0 else 1)
      (fun e => put_eq) b.rsts _ hr p2]

/-- **C101, the clock for Verilator.** At every evaluation the clock is high in the first half period, low in the next, and so on. -/
theorem c101_cpp_clock {b : Bench} (hb : b.Ok) {c : String} {h : ℕ} (hc : (c, h) ∈ b.clks) (h0 : 0 < h) (n : ℕ) :
    b.evalAt n c = if n * b.step / h % 2 = 0 then 1 else 0 := by
  obtain ⟨q, hq⟩ := step_dvd (b := b) (x := h) (List.mem_append_left _ (List.mem_map.2 ⟨_, hc, rfl⟩))
  have hs : 0 < b.step := by
    rcases Nat.eq_zero_or_pos b.step with h1 | h1
    · rw [h1] at hq; omega
    · exact h1
  have hq0 : 0 < q := by
    rcases Nat.eq_zero_or_pos q with h1 | h1
    · rw [h1] at hq; omega
    · exact h1
  have hdiv : ∀ n, n * b.step / h = n / q := by
    intro n
    rw [hq, Nat.mul_comm n, Nat.mul_div_mul_left _ _ hs]
  rw [hdiv]
  induction n with
  | zero =>
    show b.body 0 b.init c = _
    have := body_clk hb hc 0 b.init
    simp only at this
    rw [this, Nat.zero_mod, if_pos rfl, init_clk hb hc]
    simp
  | succ n ih =>
    show b.body ((n + 1) * b.step) (b.evalAt n) c = _
    have := body_clk hb hc ((n + 1) * b.step) (b.evalAt n)
    simp only at this
    rw [this, ih]
    have hmod : (n + 1) * b.step % h = 0 ↔ q ∣ n + 1 := by
      rw [hq, Nat.mul_comm (n + 1), ← Nat.dvd_iff_mod_eq_zero]
      exact Nat.mul_dvd_mul_iff_left hs
    rw [Nat.succ_div]
    by_cases hd : q ∣ n + 1
    · rw [if_pos (hmod.2 hd), if_pos hd]
      rcases Nat.mod_two_eq_zero_or_one (n / q) with hm | hm
      · have : (n / q + 1) % 2 = 1 := by omega
        simp [hm, this]
      · have : (n / q + 1) % 2 = 0 := by omega
        simp [hm, this]
    · rw [if_neg (fun hh => hd (hmod.1 hh)), if_neg hd]
      rfl

/-- **C101, the reset for Verilator.** Active at the evaluations from `period` on and before `2 * period`, inactive at all others. -/
theorem c101_cpp_reset {b : Bench} (hb : b.Ok) {r : String} {period : ℕ} {positive : Bool} (hr : (r, period, positive) ∈ b.rsts) (n : ℕ) :
    b.evalAt n r = if (period ≤ n * b.step ∧ n * b.step < 2 * period) = (positive = true) then 1 else 0 := by
  obtain ⟨q, hq⟩ := step_dvd (b := b) (x := period) (List.mem_append_right _ (List.mem_map.2 ⟨_, hr, rfl⟩))
  have key : b.evalAt n r = if (q ≤ n ∧ n < 2 * q ∧ 0 < b.step) = (positive = true) then 1 else 0 := by
    induction n with
    | zero =>
      show b.body 0 b.init r = _
      have := body_rst hb hr 0 b.init
      simp only at this
      rw [this, init_rst hb hr]
      by_cases hp : period = 0
      · subst hp
        rcases Nat.mul_eq_zero.1 hq.symm with hz | hz
        · cases positive <;> simp [hz]
        · cases positive <;> simp [hz]
      · have hq1 : q ≠ 0 := by rintro rfl; omega
        rw [if_neg (by omega), if_neg (by omega)]
        cases positive <;> simp [hq1]
    | succ n ih =>
      show b.body ((n + 1) * b.step) (b.evalAt n) r = _
      have := body_rst hb hr ((n + 1) * b.step) (b.evalAt n)
      simp only at this
      rw [this, ih]
      rcases Nat.eq_zero_or_pos b.step with hs | hs
      · rw [hs] at hq ⊢
        have hz : period = 0 := by omega
        clear hr this
        subst hz
        cases positive <;> simp
      · have e1 : (n + 1) * b.step = period * 2 ↔ n + 1 = 2 * q := by
          rw [hq, show b.step * q * 2 = 2 * q * b.step by ring]
          exact ⟨fun h => Nat.eq_of_mul_eq_mul_right hs h, fun h => by rw [h]⟩
        have e2 : (n + 1) * b.step = period ↔ n + 1 = q := by
          rw [hq, show b.step * q = q * b.step by ring]
          exact ⟨fun h => Nat.eq_of_mul_eq_mul_right hs h, fun h => by rw [h]⟩
        simp only [e1, e2]
        by_cases h1 : n + 1 = 2 * q
        · rw [if_pos h1]
          have hc : ¬ (q ≤ n + 1 ∧ n + 1 < 2 * q ∧ 0 < b.step) := by omega
          simp only [eq_false hc]
          cases positive <;> simp
        · rw [if_neg h1]
          by_cases h2 : n + 1 = q
          · rw [if_pos h2]
            have hc : q ≤ n + 1 ∧ n + 1 < 2 * q ∧ 0 < b.step := by omega
            simp only [eq_true hc]
            cases positive <;> simp
          · rw [if_neg h2]
            have : (q ≤ n + 1 ∧ n + 1 < 2 * q ∧ 0 < b.step) ↔ (q ≤ n ∧ n < 2 * q ∧ 0 < b.step) := by omega
            simp only [this]
  rw [key]
  have : (q ≤ n ∧ n < 2 * q ∧ 0 < b.step) ↔ (period ≤ n * b.step ∧ n * b.step < 2 * period) := by
    rw [hq]
    rcases Nat.eq_zero_or_pos b.step with hs | hs
    · simp [hs]
    · rw [show b.step * q = q * b.step by ring, show 2 * (q * b.step) = 2 * q * b.step by ring]
      constructor
      · rintro ⟨a1, a2, _⟩
        exact ⟨Nat.mul_le_mul_right _ a1, Nat.mul_lt_mul_of_pos_right a2 hs⟩
      · rintro ⟨a1, a2⟩
        exact ⟨Nat.le_of_mul_le_mul_right a1 hs, Nat.lt_of_mul_lt_mul_right a2, hs⟩
  simp only [this]

/-- **C101, the other inputs** are 0 at every evaluation. -/
theorem c101_cpp_inputs {b : Bench} {x : String} (hx : x ∈ b.inputs) (n : ℕ) : b.evalAt n x = 0 := by
  have h : ∀ (l : List String) (e : String → ℤ), (x ∈ l ∨ e x = 0) → l.foldl (fun e x => put e x 0) e x = 0 := by
    intro l
    induction l with
    | nil => intro e h; simpa using h
    | cons y l ih =>
      intro e h
      apply ih
      by_cases hy : x = y
      · right; subst hy; exact put_eq
      · rcases h with h | h
        · rcases List.mem_cons.1 h with h | h
          · exact absurd h hy
          · exact Or.inl h
        · right; show put e y 0 x = 0; rw [put_ne (Ne.symm hy), h]
  cases n <;> exact h _ _ (Or.inl hx)

/-- **C101, the end.** With `sim_time > 0` evaluations are made exactly up to the first one at `sim_time` or later; with 0 there is no end. -/
theorem c101_cpp_end (b : Bench) (n : ℕ) :
    b.reached n = true ↔ b.simTime = 0 ∨ ∀ m, m < n → m * b.step < b.simTime := by
  induction n with
  | zero => simp [Bench.reached]
  | succ n ih =>
    unfold Bench.reached
    rw [Bool.and_eq_true, ih]
    constructor
    · rintro ⟨h1, h2⟩
      rcases h1 with h1 | h1
      · exact Or.inl h1
      · by_cases h0 : b.simTime = 0
        · exact Or.inl h0
        · right
          intro m hm
          rcases Nat.lt_or_ge m n with hm' | hm'
          · exact h1 m hm'
          · have : m = n := by omega
            subst this
            have h3 : b.simTime > 0 := by omega
            simp [h3] at h2
            omega
    · rintro (h | h)
      · exact ⟨Or.inl h, by simp [h]⟩
      · refine ⟨Or.inr fun m hm => h m (by omega), ?_⟩
        have := h n (by omega)
        simp
        omega

/-- **C101, not the same clock.** At every evaluation the clock of the program for Verilator is the opposite of the clock that the Verilog test
    bench has at that time. -/
theorem c101_not_clock {b : Bench} (hb : b.Ok) {c : String} {h : ℕ} (hc : (c, h) ∈ b.clks) (h0 : 0 < h) (clk : String) (n : ℕ) :
    ∃ env, clockAt clk h (n * b.step) = some env ∧ env clk = some (1 - b.evalAt n c) := by
  obtain ⟨env, h1, h2⟩ := c101_clock clk h0 (n * b.step)
  refine ⟨env, h1, ?_⟩
  rw [h2, c101_cpp_clock hb hc h0]
  rcases Nat.mod_two_eq_zero_or_one (n * b.step / h) with hm | hm <;> simp [hm]

/-- **C101, the same reset**, if the statements of the caller take no time. -/
theorem c101_same_reset {b : Bench} (hb : b.Ok) {r : String} {period : ℕ} {positive : Bool} (hr : (r, period, positive) ∈ b.rsts)
    {reset : String} {statement : List Stmt} (hs : Avoids reset statement) (hd : delays statement = 0) (n : ℕ) :
    resetAt reset statement period positive (n * b.step) reset = some (b.evalAt n r) := by
  rw [c101_reset reset hs, c101_cpp_reset hb hr, hd]
  simp only [Nat.zero_add]

/-- **C101, not the same reset**: delays in the statements of the caller shift the Verilog reset, not that for Verilator. -/
theorem c101_not_reset {b : Bench} (hb : b.Ok) {r : String} {period : ℕ} {positive : Bool} (hr : (r, period, positive) ∈ b.rsts)
    (hp : 0 < period) {reset : String} {statement : List Stmt} (hs : Avoids reset statement) (hd : 0 < delays statement) :
    ∃ n, n * b.step = period ∧ resetAt reset statement period positive (n * b.step) reset ≠ some (b.evalAt n r) := by
  obtain ⟨q, hq⟩ := step_dvd (b := b) (x := period) (List.mem_append_right _ (List.mem_map.2 ⟨_, hr, rfl⟩))
  have hn : q * b.step = period := by rw [hq]; ring
  refine ⟨q, hn, ?_⟩
  rw [c101_reset reset hs, c101_cpp_reset hb hr, hn]
  have h1 : ¬ (delays statement + period ≤ period ∧ period < delays statement + 2 * period) := by omega
  have h2 : period ≤ period ∧ period < 2 * period := by omega
  simp only [eq_false h1, eq_true h2]
  cases positive <;> simp

/-- **C101, no initial values.** Whatever statements are given to `setup_reset`, and for whatever resets, the program for Verilator assigns
    none of them. -/
theorem c101_no_inits (calls : List (String × List Obj)) : initsOf (calls.foldl (fun d c => addStatements d c.1 c.2) []) = [] := by
  unfold initsOf
  rw [List.filterMap_eq_nil_iff]
  intro o ho
  obtain ⟨kv, _, rfl⟩ := List.mem_map.1 ho
  rfl

/-! ## Examples -/

/-- The defaults: half period 5, reset period 100. -/
private def exB : Bench := ⟨[("io_CLK", 5)], [("io_RST", 100, true)], [], ["x"], 1000⟩
private theorem exB_ok : exB.Ok := ⟨by decide, rfl⟩

example : ∃ env, clockAt "CLK" 5 7 = some env ∧ env "CLK" = some 1 := c101_clock "CLK" (by decide) 7
example : exB.step = 5 := by decide
example : 5 ∣ exB.step := ((c101_step exB).2 (fun h => absurd h.1 (by decide)) 5).2
  ⟨fun c h hc => by cases List.mem_singleton.1 hc; decide, fun r p s hr => by cases List.mem_singleton.1 hr; decide⟩
example : exB.evalAt 0 "io_CLK" = 1 := c101_cpp_clock exB_ok (h := 5) (List.mem_singleton.2 rfl) (by decide) 0
example : exB.evalAt 20 "io_RST" = 1 := c101_cpp_reset exB_ok (List.mem_singleton.2 rfl) 20
example : exB.evalAt 3 "x" = 0 := c101_cpp_inputs (List.mem_singleton.2 rfl) 3
example : ∃ env, clockAt "CLK" 5 (0 * exB.step) = some env ∧ env "CLK" = some (1 - exB.evalAt 0 "io_CLK") :=
  c101_not_clock exB_ok (List.mem_singleton.2 rfl) (by decide) "CLK" 0
example : resetAt "RST" [setBool "a" true] 100 true 150 "RST" = some 1 :=
  c101_reset "RST" (by intro y f h; simp [setBool] at h; rw [h.1]; decide) 100 true 150
example : ∃ t, Rises "CLK" 5 t ∧ resetAt "RST" [] 100 true t "RST" = some 1 :=
  c101_reset_seen "CLK" "RST" (by decide) (by decide) true (by intro y f h; cases h)
example : Rises "CLK" 4 100 ∧ ¬ Rises "CLK" 5 100 :=
  ⟨(c101_edges "CLK" (by decide) 100).2 ⟨12, rfl⟩, fun h => by obtain ⟨k, hk⟩ := (c101_edges "CLK" (by decide) 100).1 h; omega⟩
example : resetAt "RST" [] 100 true (20 * exB.step) "RST" = some (exB.evalAt 20 "io_RST") :=
  c101_same_reset exB_ok (List.mem_singleton.2 rfl) (by intro y f h; cases h) rfl 20
example : ∃ n, n * exB.step = 100 ∧ resetAt "RST" [.delay 10] 100 true (n * exB.step) "RST" ≠ some (exB.evalAt n "io_RST") :=
  c101_not_reset exB_ok (List.mem_singleton.2 rfl) (by decide) (by intro y f h; simp at h) (by decide)
example : exB.reached 200 = true ∧ exB.reached 201 = false := by decide +kernel
example : initsOf (addStatements [] "RST" [.subst "a" 1]) = [] := c101_no_inits [("RST", [.subst "a" 1])]

end TBench
