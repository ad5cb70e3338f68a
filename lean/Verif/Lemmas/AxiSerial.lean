import Verif.Model.AxiSerial
import Verif.Props.C56_AxiMem

/-!
# A port of the serial AXI memory (for C98)
-/

namespace AxiSerial
open AxiMem

/-- A port from reset on; `mem t` is the memory in cycle `t`. The master keeps addresses and data valid and stable until
    they are accepted, and makes no write request while it refuses a response. -/
structure PRun {B : Type} (c : Cfg) (u : B) (d0 : ℕ → B) (mem : ℕ → ℕ → B) (inp : ℕ → In B) (x : ℕ → P B) : Prop where
  init : x 0 = P.init d0
  step : ∀ t, x (t + 1) = (x t).step c u (mem t) (inp t)
  awhold : ∀ t, (inp t).awvalid = true → (x t).awready = false →
    (inp (t + 1)).awvalid = true ∧ (inp (t + 1)).awaddr = (inp t).awaddr ∧ (inp (t + 1)).awcnt = (inp t).awcnt
  arhold : ∀ t, (inp t).arvalid = true → (x t).arready = false →
    (inp (t + 1)).arvalid = true ∧ (inp (t + 1)).araddr = (inp t).araddr ∧ (inp (t + 1)).arcnt = (inp t).arcnt
  whold : ∀ t, (inp t).wvalid = true → (x t).wready = false →
    (inp (t + 1)).wvalid = true ∧ (inp (t + 1)).word = (inp t).word
  awok : ∀ t, (inp t).awvalid = true → (inp t).awaddr < 2 ^ c.aw ∧ 1 ≤ (inp t).awcnt ∧ (inp t).awcnt < 2 ^ (c.aw + 1)
  arok : ∀ t, (inp t).arvalid = true → (inp t).araddr < 2 ^ c.aw ∧ 1 ≤ (inp t).arcnt ∧ (inp t).arcnt < 2 ^ (c.aw + 1)
  resp : ∀ t, (x t).bvalid = true → (inp t).awvalid = true → (inp t).bready = true

section
variable {B : Type} {c : Cfg} {u : B} {d0 : ℕ → B} {mem : ℕ → ℕ → B} {inp : ℕ → In B} {x : ℕ → P B}

/-- The places for the words of the write requests transferred before cycle `t`. -/
def slots (c : Cfg) (inp : ℕ → In B) (x : ℕ → P B) : ℕ → List Beat
  | 0 => []
  | t + 1 => slots c inp x t ++
      if (inp t).awvalid && (x t).awready then beatsFrom c (inp t).awaddr (inp t).awcnt t else []

/-- The words transferred before cycle `t`. -/
def words (inp : ℕ → In B) (x : ℕ → P B) : ℕ → List (Word B)
  | 0 => []
  | t + 1 => words inp x t ++ if (inp t).wvalid && (x t).wready then [(inp t).word] else []

/-- The beats of the read requests transferred before cycle `t`. -/
def wanted (c : Cfg) (inp : ℕ → In B) (x : ℕ → P B) : ℕ → List Beat
  | 0 => []
  | t + 1 => wanted c inp x t ++
      if (inp t).arvalid && (x t).arready then beatsFrom c (inp t).araddr (inp t).arcnt t else []

/-- The beats transferred before cycle `t`: data, `rlast`, cycle. -/
def gotten (inp : ℕ → In B) (x : ℕ → P B) : ℕ → List ((ℕ → B) × Bool × ℕ)
  | 0 => []
  | t + 1 => gotten inp x t ++ if (x t).rvalid && (inp t).rready then [((x t).rdata, (x t).rlast, t)] else []

/-! ## Writes -/

/-- The rest of the request being served. -/
inductive WMode (c : Cfg) (i : In B) (s : P B) : List Beat → Prop
  | off (h : s.ph = .idle ∨ s.ph = .wa ∨ s.ph = .ra ∨ ∃ k, s.ph = .rd k) (hr : s.wready = false)
      (ha : s.awready = false) : WMode c i s []
  | ask {k : ℕ} (h : s.ph = .wd k) (hr : s.wready = false) (ha : s.awready = true) (hp : s.prevW = true)
      (hv : i.awvalid = true) (e1 : s.waddr = i.awaddr) (e2 : s.wcount = i.awcnt) : WMode c i s []
  | wait {k τ : ℕ} (h : s.ph = .wd k) (hr : s.wready = false) (ha : s.awready = false) (h1 : 1 ≤ s.wcount)
      (h2 : s.wcount < 2 ^ (c.aw + 1)) (h3 : s.waddr < 2 ^ c.aw) : WMode c i s (beatsFrom c s.waddr s.wcount τ)
  | data {τ : ℕ} (h : s.ph = .wdat) (ha : s.awready = false) (h1 : 1 ≤ s.wcount)
      (h2 : s.wcount < 2 ^ (c.aw + 1)) (h3 : s.waddr < 2 ^ c.aw) : WMode c i s (beatsFrom c s.waddr s.wcount τ)

/-- The places are those of the words transferred and of the rest of the request being served. -/
def WInv (c : Cfg) (inp : ℕ → In B) (x : ℕ → P B) (t : ℕ) : Prop :=
  ∃ dn rem, slots c inp x t = dn ++ rem ∧ dn.length = (words inp x t).length ∧ WMode c (inp t) (x t) rem

theorem dec_mod {n k : ℕ} (h1 : 1 ≤ n) (h2 : n < k) : (n + k - 1) % k = n - 1 := by
  rw [show n + k - 1 = (n - 1) + k by omega, Nat.add_mod_right, Nat.mod_eq_of_lt (by omega)]

/-- The state of a port that is about to accept an address has no response pending. -/
theorem wa_bvalid (hx : PRun c u d0 mem inp x) {t : ℕ} (h : WInv c inp x t) (hw : (x (t + 1)).ph = .wa) :
    (x (t + 1)).bvalid = false := by
  have hph : (x t).nextPh c (inp t) = .wa := by
    have := congrArg P.ph (hx.step t)
    rw [hw] at this
    exact this.symm
  have hb : (x (t + 1)).bvalid = if (x t).acc (inp t) && (inp t).word.last then true
      else if (x t).bvalid && (inp t).bready then false else (x t).bvalid := by rw [hx.step t]; rfl
  have hi : (x t).ph = .idle ∧ (inp t).awvalid = true := by
    unfold P.nextPh at hph
    split at hph
    · split at hph
      · cases hph
      · split at hph
        · exact ⟨by assumption, by assumption⟩
        · cases hph
    all_goals (first | (split at hph <;> cases hph) | cases hph)
  obtain ⟨dn, rem, -, -, hm⟩ := h
  have hr : (x t).wready = false := by
    cases hm with
    | off _ hr _ => exact hr
    | ask h => rw [hi.1] at h; cases h
    | wait h => rw [hi.1] at h; cases h
    | data h => rw [hi.1] at h; cases h
  rw [hb]
  simp only [P.acc, hr, Bool.and_false, Bool.false_and, Bool.false_eq_true, if_false]
  cases hbv : (x t).bvalid
  · simp
  · simp [hx.resp t hbv hi.2]

theorem winv (hx : PRun c u d0 mem inp x) (t : ℕ) :
    WInv c inp x t ∧ ((x t).ph = .wa → (x t).bvalid = false) := by
  induction t with
  | zero =>
    refine ⟨⟨[], [], rfl, rfl, ?_⟩, ?_⟩
    · rw [hx.init]; exact .off (.inl rfl) rfl rfl
    · rw [hx.init]; intro h; cases h
  | succ t ih =>
    obtain ⟨ih, ihb⟩ := ih
    refine ⟨?_, wa_bvalid hx ih⟩
    have f1 : (x (t + 1)).ph = (x t).nextPh c (inp t) := by rw [hx.step t]; rfl
    have f2 : (x (t + 1)).awready = if (x t).ph = .wa ∧ (inp t).awvalid = true ∧ (x t).bvalid = false then true
        else if (x t).prevW then false else (x t).awready := by rw [hx.step t]; rfl
    have f3 : (x (t + 1)).prevW = decide ((x t).ph = .wa) := by rw [hx.step t]; rfl
    have f4 : (x (t + 1)).waddr = if (x t).ph = .wa ∧ (inp t).awvalid = true ∧ (x t).bvalid = false then
          (inp t).awaddr % 2 ^ c.aw
        else if (x t).ph = .wdat ∧ (x t).acc (inp t) = true then ((x t).waddr + c.nb) % 2 ^ c.aw else (x t).waddr := by
      rw [hx.step t]; rfl
    have f5 : (x (t + 1)).wcount = if (x t).ph = .wa ∧ (inp t).awvalid = true ∧ (x t).bvalid = false then
          (inp t).awcnt % 2 ^ (c.aw + 1)
        else if (x t).ph = .wdat ∧ (x t).acc (inp t) = true then ((x t).wcount + 2 ^ (c.aw + 1) - 1) % 2 ^ (c.aw + 1)
        else (x t).wcount := by
      rw [hx.step t]; rfl
    have f6 : (x (t + 1)).wready = if (x t).ph = .wd 0 then true
        else if (x t).ph = .wdat then
          (if (x t).fin (inp t) then false else if c.interval = 0 then (x t).wready
            else decide ((x t).sleep ≠ c.interval - 1))
        else (x t).wready := by rw [hx.step t]; rfl
    obtain ⟨dn, rem, hs, hl, hm⟩ := ih
    cases hm with
    | off h hr ha =>
      have hs' : slots c inp x (t + 1) = dn := by simp [slots, hs, ha]
      have hl' : dn.length = (words inp x (t + 1)).length := by simp [words, hl, hr]
      by_cases hw : (x t).ph = .wa
      · cases hv : (inp t).awvalid
        · refine ⟨dn, [], by simp [hs'], hl', .off (.inl ?_) ?_ ?_⟩
          · rw [f1, P.nextPh, hw]; simp [hv]
          · rw [f6, hw]; simp [hr]
          · rw [f2, hw, hv, ha]; simp
        · have hb := ihb hw
          obtain ⟨k1, k2, k3⟩ := hx.awhold t hv ha
          obtain ⟨o1, o2, o3⟩ := hx.awok t hv
          refine ⟨dn, [], by simp [hs'], hl', .ask (k := c.wdelay) ?_ ?_ ?_ ?_ k1 ?_ ?_⟩
          · rw [f1, P.nextPh, hw]; simp [hv]
          · rw [f6, hw]; simp [hr]
          · rw [f2, hw, hv, hb]; simp
          · rw [f3, hw]; simp
          · rw [f4, hw, hv, hb, k2]; simp [Nat.mod_eq_of_lt o1]
          · rw [f5, hw, hv, hb, k3]; simp [Nat.mod_eq_of_lt o3]
      · have ha' : (x (t + 1)).awready = false := by rw [f2]; simp [hw, ha]
        refine ⟨dn, [], by simp [hs'], hl', ?_⟩
        rcases h with h | h | h | ⟨k, h⟩
        · refine .off ?_ (by rw [f6, h]; simp [hr]) ha'
          rw [f1, P.nextPh, h]
          cases (inp t).arvalid <;> cases (inp t).awvalid <;> simp
        · exact absurd h hw
        · refine .off ?_ (by rw [f6, h]; simp [hr]) ha'
          rw [f1, P.nextPh, h]
          cases (inp t).arvalid <;> simp
        · refine .off ?_ (by rw [f6, h]; simp [hr]) ha'
          rw [f1, P.nextPh, h]
          cases k with
          | zero => dsimp only; split <;> simp
          | succ k => simp
    | ask h hr ha hp hv e1 e2 =>
      rename_i k
      obtain ⟨o1, o2, o3⟩ := hx.awok t hv
      have hs' : slots c inp x (t + 1) = dn ++ beatsFrom c (x (t + 1)).waddr (x (t + 1)).wcount t := by
        rw [slots, hs, f4, f5, h]; simp [ha, hv, e1, e2]
      have hl' : dn.length = (words inp x (t + 1)).length := by simp [words, hl, hr]
      have ha' : (x (t + 1)).awready = false := by rw [f2, h, hp]; simp
      have w1 : (x (t + 1)).waddr = (inp t).awaddr := by rw [f4, h, e1]; simp
      have w2 : (x (t + 1)).wcount = (inp t).awcnt := by rw [f5, h, e2]; simp
      refine ⟨dn, _, hs', hl', ?_⟩
      cases k with
      | zero =>
        exact .data (by rw [f1, P.nextPh, h]) ha' (by rw [w2]; exact o2) (by rw [w2]; exact o3) (by rw [w1]; exact o1)
      | succ k =>
        exact .wait (k := k) (by rw [f1, P.nextPh, h]) (by rw [f6, h]; simp [hr]) ha' (by rw [w2]; exact o2)
          (by rw [w2]; exact o3) (by rw [w1]; exact o1)
    | wait h hr ha h1 h2 h3 =>
      rename_i k τ
      have w1 : (x (t + 1)).waddr = (x t).waddr := by rw [f4, h]; simp
      have w2 : (x (t + 1)).wcount = (x t).wcount := by rw [f5, h]; simp
      have hs' : slots c inp x (t + 1) = dn ++ beatsFrom c (x (t + 1)).waddr (x (t + 1)).wcount τ := by
        rw [slots, hs, w1, w2]; simp [ha]
      have hl' : dn.length = (words inp x (t + 1)).length := by simp [words, hl, hr]
      have ha' : (x (t + 1)).awready = false := by rw [f2, h]; simp [ha]
      refine ⟨dn, _, hs', hl', ?_⟩
      cases k with
      | zero =>
        exact .data (by rw [f1, P.nextPh, h]) ha' (by rw [w2]; exact h1) (by rw [w2]; exact h2) (by rw [w1]; exact h3)
      | succ k =>
        exact .wait (k := k) (by rw [f1, P.nextPh, h]) (by rw [f6, h]; simp [hr]) ha' (by rw [w2]; exact h1)
          (by rw [w2]; exact h2) (by rw [w1]; exact h3)
    | data h ha h1 h2 h3 =>
      rename_i τ
      have ha' : (x (t + 1)).awready = false := by rw [f2, h]; simp [ha]
      have hs0 : slots c inp x (t + 1) = slots c inp x t := by simp [slots, ha]
      cases hacc : (x t).acc (inp t)
      · have w1 : (x (t + 1)).waddr = (x t).waddr := by rw [f4, h]; simp [hacc]
        have w2 : (x (t + 1)).wcount = (x t).wcount := by rw [f5, h]; simp [hacc]
        refine ⟨dn, _, (by rw [hs0, hs, ← w1, ← w2]), ?_, .data ?_ ha' (by rw [w2]; exact h1) (by rw [w2]; exact h2)
          (by rw [w1]; exact h3)⟩
        · have : ((inp t).wvalid && (x t).wready) = false := hacc
          simp [words, hl, this]
        · rw [f1, P.nextPh, h]; simp [P.fin, hacc]
      · have hacc' : ((inp t).wvalid && (x t).wready) = true := hacc
        have w1 : (x (t + 1)).waddr = ((x t).waddr + c.nb) % 2 ^ c.aw := by rw [f4, h]; simp [hacc]
        have w2 : (x (t + 1)).wcount = (x t).wcount - 1 := by
          rw [f5, h]; simp only [hacc]; simp [dec_mod h1 h2]
        obtain ⟨n, hn⟩ : ∃ n, (x t).wcount = n + 1 := ⟨_, (Nat.succ_pred_eq_of_pos h1).symm⟩
        have hbeats : beatsFrom c (x t).waddr (x t).wcount τ = ⟨(x t).waddr, decide (n = 0), τ⟩ ::
            beatsFrom c (x (t + 1)).waddr (x (t + 1)).wcount τ := by
          rw [w1, w2, hn, beatsFrom_succ c _ _ _ h3]; simp
        have hs' : slots c inp x (t + 1) = (dn ++ [⟨(x t).waddr, decide (n = 0), τ⟩]) ++
            beatsFrom c (x (t + 1)).waddr (x (t + 1)).wcount τ := by
          rw [hs0, hs, hbeats]; simp
        have hl' : (dn ++ [(⟨(x t).waddr, decide (n = 0), τ⟩ : Beat)]).length = (words inp x (t + 1)).length := by
          simp [words, hl, hacc']
        by_cases h1' : (x t).wcount = 1
        · refine ⟨_, _, hs', hl', ?_⟩
          have : beatsFrom c (x (t + 1)).waddr (x (t + 1)).wcount τ = [] := by rw [w2, h1']; rfl
          rw [this]
          refine .off (.inl ?_) ?_ ha'
          · rw [f1, P.nextPh, h]; simp [P.fin, hacc, h1']
          · rw [f6, h]; simp [P.fin, hacc, h1']
        · refine ⟨_, _, hs', hl', .data ?_ ha' (by rw [w2]; omega) (by rw [w2]; omega) ?_⟩
          · rw [f1, P.nextPh, h]; simp [P.fin, h1']
          · rw [w1]; exact Nat.mod_lt _ (Nat.two_pow_pos _)

/-- In the data state the next word has a place, which is the current address. -/
theorem slot_at (hx : PRun c u d0 mem inp x) {t : ℕ} (h : (x t).ph = .wdat) :
    ∃ b, (slots c inp x t)[(words inp x t).length]? = some b ∧ b.addr = (x t).waddr := by
  obtain ⟨dn, rem, hs, hl, hm⟩ := (winv hx t).1
  cases hm with
  | off h' => rw [h] at h'; simp at h'
  | ask h' => rw [h] at h'; cases h'
  | wait h' => rw [h] at h'; cases h'
  | data h' ha h1 h2 h3 =>
    rename_i τ
    obtain ⟨n, hn⟩ : ∃ n, (x t).wcount = n + 1 := ⟨_, (Nat.succ_pred_eq_of_pos h1).symm⟩
    refine ⟨⟨(x t).waddr, decide (n = 0), τ⟩, ?_, rfl⟩
    rw [hs, hn, beatsFrom_succ c _ _ _ h3, ← hl, List.getElem?_append_right (Nat.le_refl _)]
    simp

/-- Words are transferred in the data state only. -/
theorem wready_ph (hx : PRun c u d0 mem inp x) {t : ℕ} (h : (x t).wready = true) : (x t).ph = .wdat := by
  obtain ⟨dn, rem, hs, hl, hm⟩ := (winv hx t).1
  cases hm with
  | off _ hr => rw [h] at hr; cases hr
  | ask _ hr => rw [h] at hr; cases hr
  | wait _ hr => rw [h] at hr; cases hr
  | data h' => exact h'

/-- A word not accepted in the data state is there in the next cycle, for the same place. -/
theorem held (hx : PRun c u d0 mem inp x) {t : ℕ} (h : (x t).ph = .wdat) (hv : (inp t).wvalid = true)
    (hr : (x t).wready = false) : (x (t + 1)).ph = .wdat ∧ (inp (t + 1)).wvalid = true ∧
      (inp (t + 1)).word = (inp t).word ∧ (x (t + 1)).waddr = (x t).waddr := by
  obtain ⟨k1, k2⟩ := hx.whold t hv hr
  have hacc : (x t).acc (inp t) = false := by simp [P.acc, hr]
  refine ⟨?_, k1, k2, ?_⟩
  · rw [hx.step t]
    show (x t).nextPh c (inp t) = _
    rw [P.nextPh, h]; simp [P.fin, hacc]
  · rw [hx.step t]
    simp only [P.step, h, hacc]
    simp

/-! ## Reads -/

/-- `d` are the bytes in memory at the address of the beat, at one time not before its request and before `t`. -/
def Fetched (c : Cfg) (u : B) (mem : ℕ → ℕ → B) (d : ℕ → B) (b : Beat) (t : ℕ) : Prop :=
  ∃ s, b.time ≤ s ∧ s < t ∧ ∀ k, d k = if b.addr + k < c.size then mem s (b.addr + k) else u

/-- The beat on the bus and the rest of the request being served. -/
inductive RMode (c : Cfg) (u : B) (mem : ℕ → ℕ → B) (t : ℕ) (i : In B) (s : P B) : Option Beat → List Beat → Prop
  | off (h : ∀ k, s.ph ≠ .rd k) (hv : s.rvalid = false) (hl : s.rlast = false) (ha : s.arready = false) :
      RMode c u mem t i s none []
  | ask {k : ℕ} (h : s.ph = .rd k) (hv : s.rvalid = false) (hl : s.rlast = false) (ha : s.arready = true)
      (hp : s.prevA = true) (hi : i.arvalid = true) (e1 : s.raddr = i.araddr) (e2 : s.rcount = i.arcnt) :
      RMode c u mem t i s none []
  | wait {k τ : ℕ} (h : s.ph = .rd k) (hv : s.rvalid = false) (hl : s.rlast = false) (ha : s.arready = false)
      (h1 : 1 ≤ s.rcount) (h3 : s.raddr < 2 ^ c.aw) (hτ : τ ≤ t) : RMode c u mem t i s none (beatsFrom c s.raddr s.rcount τ)
  | offer {τ : ℕ} {b : Beat} (h : s.ph = .rd 0) (hv : s.rvalid = true) (ha : s.arready = false) (hp : s.prevR = true)
      (hl : s.rlast = b.last) (hb : b.last = decide (s.rcount = 0)) (h3 : s.raddr < 2 ^ c.aw) (hτ : τ ≤ t)
      (hg : Fetched c u mem s.rdata b t) : RMode c u mem t i s (some b) (beatsFrom c s.raddr s.rcount τ)

/-- The beats wanted are those transferred, the one on the bus and the rest of the request being served. -/
def RInv (c : Cfg) (u : B) (mem : ℕ → ℕ → B) (inp : ℕ → In B) (x : ℕ → P B) (t : ℕ) : Prop :=
  ∃ dn cur rem, wanted c inp x t = dn ++ cur.toList ++ rem ∧
    List.Forall₂ (fun g b => g.2.1 = b.last ∧ Fetched c u mem g.1 b g.2.2) (gotten inp x t) dn ∧
    RMode c u mem t (inp t) (x t) cur rem

theorem rinv (hx : PRun c u d0 mem inp x) (t : ℕ) : RInv c u mem inp x t := by
  induction t with
  | zero =>
    refine ⟨[], none, [], rfl, .nil, ?_⟩
    rw [hx.init]; exact .off (fun k h => by cases h) rfl rfl rfl
  | succ t ih =>
    have f1 : (x (t + 1)).ph = (x t).nextPh c (inp t) := by rw [hx.step t]; rfl
    have f2 : (x (t + 1)).arready = if (x t).ph = .ra ∧ (inp t).arvalid = true then true
        else if (x t).prevA then false else (x t).arready := by rw [hx.step t]; rfl
    have f3 : (x (t + 1)).prevA = decide ((x t).ph = .ra) := by rw [hx.step t]; rfl
    have f4 : (x (t + 1)).raddr = if (x t).ph = .ra ∧ (inp t).arvalid = true then (inp t).araddr % 2 ^ c.aw
        else if (x t).ph = .rd 0 ∧ (x t).push c (inp t) = true then ((x t).raddr + c.nb) % 2 ^ c.aw else (x t).raddr := by
      rw [hx.step t]; rfl
    have f5 : (x (t + 1)).rcount = if (x t).ph = .ra ∧ (inp t).arvalid = true then (inp t).arcnt % 2 ^ (c.aw + 1)
        else if (x t).ph = .rd 0 ∧ (x t).push c (inp t) = true then (x t).rcount - 1 else (x t).rcount := by
      rw [hx.step t]; rfl
    have f6 : (x (t + 1)).rvalid = if (x t).ph = .rd 0 ∧ (x t).rvalid = true ∧ (inp t).rready = false then (x t).rvalid
        else if (x t).ph = .rd 0 ∧ (x t).push c (inp t) = true then true else if (x t).prevR then false
        else (x t).rvalid := by rw [hx.step t]; rfl
    have f7 : (x (t + 1)).rlast = if (x t).ph = .rd 0 ∧ (x t).rvalid = true ∧ (inp t).rready = false then (x t).rlast
        else if (x t).ph = .rd 0 ∧ (x t).push c (inp t) = true ∧ (x t).rcount = 1 then true
        else if (x t).prevR then false else (x t).rlast := by rw [hx.step t]; rfl
    have f8 : (x (t + 1)).rdata = if (x t).ph = .rd 0 ∧ (x t).ack (inp t) = true then
        fun k => rdByte u c.size (mem t) ((x t).raddr + k) else (x t).rdata := by rw [hx.step t]; rfl
    have f9 : (x (t + 1)).prevR = decide ((x t).ph = .rd 0) := by rw [hx.step t]; rfl
    -- a state that is not waiting for `rready`, with the rest `beatsFrom … τ` after the transfers of this cycle
    have fetch : ∀ (k τ : ℕ) (dn : List Beat), (x t).ph = .rd k → ((x t).rvalid = true → k = 0 ∧ (inp t).rready = true ∧
        (x t).prevR = true ∧ 1 ≤ (x t).rcount) →
        ((x t).rvalid = false → (x t).rlast = false) → (x t).raddr < 2 ^ c.aw → 1 ≤ (x t).rcount → τ ≤ t →
        ((x t).arready = true → (x t).prevA = true) →
        wanted c inp x (t + 1) = dn ++ beatsFrom c (x t).raddr (x t).rcount τ →
        List.Forall₂ (fun g b => g.2.1 = b.last ∧ Fetched c u mem g.1 b g.2.2) (gotten inp x (t + 1)) dn →
        RInv c u mem inp x (t + 1) := by
      intro k τ dn h hv hl h3 h1 hτ hpa hw hg
      have ha' : (x (t + 1)).arready = false := by
        rw [f2, h]
        cases hq : (x t).arready
        · simp
        · simp [hpa hq]
      have hnr : ¬((x t).rvalid = true ∧ (inp t).rready = false) := by
        rintro ⟨e1, e2⟩
        rw [(hv e1).2.1] at e2; cases e2
      have hack : (x t).ack (inp t) = true := by
        simp only [P.ack, Bool.or_eq_true, Bool.not_eq_true']
        cases hq : (x t).rvalid
        · simp
        · exact .inl (hv hq).2.1
      by_cases hp : (x t).ph = .rd 0 ∧ (x t).push c (inp t) = true
      · obtain ⟨n, hn⟩ : ∃ n, (x t).rcount = n + 1 := ⟨_, (Nat.succ_pred_eq_of_pos h1).symm⟩
        have w1 : (x (t + 1)).raddr = ((x t).raddr + c.nb) % 2 ^ c.aw := by rw [f4, hp.1, hp.2]; simp
        have w2 : (x (t + 1)).rcount = n := by rw [f5, hp.1, hp.2, hn]; simp
        refine ⟨dn, some ⟨(x t).raddr, decide (n = 0), τ⟩, beatsFrom c (x (t + 1)).raddr (x (t + 1)).rcount τ, ?_, hg, ?_⟩
        · rw [hw, hn, beatsFrom_succ c _ _ _ h3, w1, w2]; simp
        · refine .offer ?_ ?_ ha' ?_ ?_ ?_ ?_ (by omega) ⟨t, hτ, Nat.lt_succ_self _, fun k => ?_⟩
          · rw [f1, P.nextPh, hp.1]; simp [hn]
          · rw [f6, if_neg (fun q => hnr q.2), if_pos hp]
          · rw [f9, hp.1]; simp
          · rw [f7, if_neg (fun q => hnr q.2)]
            by_cases hn0 : n = 0
            · rw [if_pos ⟨hp.1, hp.2, by rw [hn, hn0]⟩]; simp [hn0]
            · rw [if_neg (fun q => by have := q.2.2; omega)]
              simp only [hn0, decide_false]
              cases hq : (x t).rvalid
              · rw [hl hq]; simp
              · simp [(hv hq).2.2.1]
          · rw [w2]
          · rw [w1]; exact Nat.mod_lt _ (Nat.two_pow_pos _)
          · rw [f8, if_pos ⟨hp.1, hack⟩]; rfl
      · have w1 : (x (t + 1)).raddr = (x t).raddr := by rw [f4, if_neg (by rw [h]; simp), if_neg hp]
        have w2 : (x (t + 1)).rcount = (x t).rcount := by rw [f5, if_neg (by rw [h]; simp), if_neg hp]
        have hph : ∃ k, (x (t + 1)).ph = .rd k := by
          rw [f1, P.nextPh, h]
          cases k with
          | zero =>
            refine ⟨0, ?_⟩
            have : ((x t).rcount == 0) = false := by simp; omega
            simp [this]
          | succ k => exact ⟨k, rfl⟩
        obtain ⟨k', hk'⟩ := hph
        refine ⟨dn, none, beatsFrom c (x (t + 1)).raddr (x (t + 1)).rcount τ, ?_, hg, .wait hk' ?_ ?_ ha' ?_ ?_ (by omega)⟩
        · rw [hw, w1, w2]; simp
        · rw [f6, if_neg (fun q => hnr q.2), if_neg hp]
          cases hq : (x t).rvalid
          · simp
          · simp [(hv hq).2.2.1]
        · rw [f7, if_neg (fun q => hnr q.2), if_neg (fun q => hp ⟨q.1, q.2.1⟩)]
          cases hq : (x t).rvalid
          · rw [hl hq]; simp
          · simp [(hv hq).2.2.1]
        · rw [w2]; exact h1
        · rw [w1]; exact h3
    obtain ⟨dn, cur, rem, hw, hg, hm⟩ := ih
    cases hm with
    | off h hv hl ha =>
      have hw' : wanted c inp x (t + 1) = dn := by simp [wanted, hw, ha]
      have hg' : gotten inp x (t + 1) = gotten inp x t := by simp [gotten, hv]
      have v' : (x (t + 1)).rvalid = false := by rw [f6]; simp [h, hv]
      have l' : (x (t + 1)).rlast = false := by rw [f7]; simp [h, hl]
      refine ⟨dn, none, [], by simp [hw'], hg' ▸ hg, ?_⟩
      by_cases hr : (x t).ph = .ra ∧ (inp t).arvalid = true
      · obtain ⟨k1, k2, k3⟩ := hx.arhold t hr.2 ha
        obtain ⟨o1, o2, o3⟩ := hx.arok t hr.2
        refine .ask (k := c.rdelay) ?_ v' l' ?_ ?_ k1 ?_ ?_
        · rw [f1, P.nextPh, hr.1]; simp [hr.2]
        · rw [f2, if_pos hr]
        · rw [f3, hr.1]; simp
        · rw [f4, if_pos hr, k2, Nat.mod_eq_of_lt o1]
        · rw [f5, if_pos hr, k3, Nat.mod_eq_of_lt o3]
      · refine .off ?_ v' l' ?_
        · intro k
          rw [f1, P.nextPh]
          cases hq : (x t).ph with
          | idle => cases (inp t).arvalid <;> cases (inp t).awvalid <;> simp
          | wa => cases (inp t).awvalid <;> simp
          | wd k => cases k <;> simp
          | wdat => dsimp only; split <;> simp
          | ra =>
            have : (inp t).arvalid = false := by
              cases hz : (inp t).arvalid
              · rfl
              · exact absurd ⟨hq, hz⟩ hr
            simp [this]
          | rd k => exact absurd hq (h k)
        · rw [f2, if_neg hr, ha]; simp
    | ask h hv hl ha hp hi e1 e2 =>
      obtain ⟨o1, o2, o3⟩ := hx.arok t hi
      refine fetch _ t dn h (fun q => by rw [hv] at q; cases q) (fun _ => hl) (e1 ▸ o1) (e2 ▸ o2) (Nat.le_refl _) (fun _ => hp)
        ?_ ?_
      · rw [wanted, hw, e1, e2]; simp [ha, hi]
      · simpa [gotten, hv] using hg
    | wait h hv hl ha h1 h3 hτ =>
      refine fetch _ _ dn h (fun q => by rw [hv] at q; cases q) (fun _ => hl) h3 h1 hτ (fun q => by rw [ha] at q; cases q) ?_ ?_
      · rw [wanted, hw]; simp [ha]
      · simpa [gotten, hv] using hg
    | offer h hv ha hp hl hb h3 hτ hgd =>
      rename_i τ b
      have hw' : wanted c inp x (t + 1) = dn ++ [b] ++ beatsFrom c (x t).raddr (x t).rcount τ := by
        rw [wanted, hw]; simp [ha]
      have ha' : (x (t + 1)).arready = false := by rw [f2, h]; simp [ha]
      cases hr : (inp t).rready
      · have hpush : (x t).push c (inp t) = false := by simp [P.push, P.ack, hr, hv]
        have hack : (x t).ack (inp t) = false := by simp [P.ack, hr, hv]
        have w1 : (x (t + 1)).raddr = (x t).raddr := by rw [f4, h, hpush]; simp
        have w2 : (x (t + 1)).rcount = (x t).rcount := by rw [f5, h, hpush]; simp
        refine ⟨dn, some b, beatsFrom c (x (t + 1)).raddr (x (t + 1)).rcount τ, ?_, ?_, .offer ?_ ?_ ha' ?_ ?_ ?_ ?_
          (by omega) ?_⟩
        · rw [hw', w1, w2]; simp
        · simpa [gotten, hr] using hg
        · rw [f1, P.nextPh, h]; simp [hr]
        · rw [f6, if_pos ⟨h, hv, hr⟩]; exact hv
        · rw [f9, h]; simp
        · rw [f7, if_pos ⟨h, hv, hr⟩]; exact hl
        · rw [w2]; exact hb
        · rw [w1]; exact h3
        · obtain ⟨s, s1, s2, s3⟩ := hgd
          refine ⟨s, s1, by omega, fun k => ?_⟩
          rw [f8, hack]; simpa using s3 k
      · have hg' : List.Forall₂ (fun g b => g.2.1 = b.last ∧ Fetched c u mem g.1 b g.2.2) (gotten inp x (t + 1))
            (dn ++ [b]) := by
          rw [gotten]
          simp only [hv, hr, Bool.and_self, if_true]
          exact List.rel_append hg (.cons ⟨hl, hgd⟩ .nil)
        by_cases h0 : (x t).rcount = 0
        · have hpush : (x t).push c (inp t) = false := by simp [P.push, h0]
          refine ⟨dn ++ [b], none, [], ?_, hg', .off ?_ ?_ ?_ ha'⟩
          · rw [hw', h0]; simp [beatsFrom]
          · intro k; rw [f1, P.nextPh, h]; simp [hv, hr, h0]
          · rw [f6, hpush, hr, hp]; simp
          · rw [f7, hpush, hr, hp]; simp
        · exact fetch 0 τ (dn ++ [b]) h (fun _ => ⟨rfl, hr, hp, by omega⟩) (fun q => by rw [hv] at q; cases q) h3 (by omega) hτ
            (fun q => by rw [ha] at q; cases q) hw' hg'

/-! ## Progress -/

/-- Not in a sleep period. -/
def Awake (c : Cfg) (s : P B) : Prop := c.interval = 0 ∨ s.sleep < c.interval - 1

theorem sleep_inv (hx : PRun c u d0 mem inp x) (t : ℕ) :
    (x t).sleep ≤ c.interval - 1 ∧ ((x t).keepc = 0 ∨ (x t).keepc < c.keep) := by
  induction t with
  | zero => rw [hx.init]; exact ⟨Nat.zero_le _, .inl rfl⟩
  | succ t ih =>
    rw [hx.step t]
    simp only [P.step]
    constructor
    · split
      · exact ih.1
      · split
        · omega
        · split <;> omega
    · split
      · exact ih.2
      · split
        · split <;> omega
        · exact ih.2

/-- Within `max keep 1` cycles the port is not asleep, unless the interval is 1. -/
theorem awake_within (hx : PRun c u d0 mem inp x) (hi : c.interval ≠ 1) (t : ℕ) :
    ∃ k, k ≤ max c.keep 1 ∧ Awake c (x (t + k)) := by
  by_cases h0 : c.interval = 0
  · exact ⟨0, Nat.zero_le _, .inl h0⟩
  by_cases hs : (x t).sleep = c.interval - 1
  · rcases Nat.eq_zero_or_pos c.keep with hk | hk
    · refine ⟨1, by omega, .inr ?_⟩
      have : (x (t + 1)).sleep = 0 := by
        rw [hx.step t]; simp [P.step, h0, hs, hk]
      omega
    · have key : ∀ d t, (x t).sleep = c.interval - 1 → (x t).keepc + d = c.keep - 1 →
          (x (t + d + 1)).sleep = 0 := by
        intro d
        induction d with
        | zero =>
          intro t hs hk
          rw [hx.step (t + 0)]
          simp only [P.step, Nat.add_zero]
          rw [if_neg h0, if_pos ⟨hs, .inr (by omega)⟩]
        | succ d ih =>
          intro t hs hk
          have e1 : (x (t + 1)).sleep = c.interval - 1 := by
            rw [hx.step t]
            simp only [P.step]
            rw [if_neg h0, if_neg (by omega), if_neg (by omega), hs]
          have e2 : (x (t + 1)).keepc = (x t).keepc + 1 := by
            rw [hx.step t]
            simp only [P.step]
            rw [if_neg (by omega), if_pos hs, if_neg (by omega)]
          have := ih (t + 1) e1 (by omega)
          rw [show t + (d + 1) + 1 = t + 1 + d + 1 by omega]
          exact this
      have hkc := (sleep_inv hx t).2
      have := key (c.keep - 1 - (x t).keepc) t hs (by omega)
      refine ⟨c.keep - 1 - (x t).keepc + 1, by omega, .inr ?_⟩
      rw [← Nat.add_assoc]
      omega
  · have := (sleep_inv hx t).1
    exact ⟨0, Nat.zero_le _, .inr (by rw [Nat.add_zero]; omega)⟩

theorem step_ph (hx : PRun c u d0 mem inp x) (t : ℕ) : (x (t + 1)).ph = (x t).nextPh c (inp t) := by rw [hx.step t]; rfl

/-- The delay states are bounded by the delays; without sleep a port that takes data is ready. -/
theorem ph_bound (hx : PRun c u d0 mem inp x) (t : ℕ) :
    (∀ k, (x t).ph = .wd k → k ≤ c.wdelay) ∧ (∀ k, (x t).ph = .rd k → k ≤ c.rdelay) ∧
    ((x t).ph = .wdat → c.interval = 0 → (x t).wready = true) := by
  induction t with
  | zero =>
    rw [hx.init]
    exact ⟨(fun k h => by cases h), (fun k h => by cases h), (fun h => by cases h)⟩
  | succ t ih =>
    obtain ⟨i1, i2, i3⟩ := ih
    have f6 : (x (t + 1)).wready = if (x t).ph = .wd 0 then true
        else if (x t).ph = .wdat then
          (if (x t).fin (inp t) then false else if c.interval = 0 then (x t).wready
            else decide ((x t).sleep ≠ c.interval - 1))
        else (x t).wready := by rw [hx.step t]; rfl
    rw [step_ph hx t, f6]
    unfold P.nextPh
    cases hq : (x t).ph with
    | idle => cases (inp t).arvalid <;> cases (inp t).awvalid <;> simp
    | wa => cases (inp t).awvalid <;> simp
    | wd k =>
      cases k with
      | zero => simp
      | succ k => have := i1 _ hq; simp; omega
    | wdat =>
      dsimp only
      cases hf : (x t).fin (inp t)
      · simp; intro h0; simp [h0, i3 hq h0]
      · simp
    | ra => cases (inp t).arvalid <;> simp
    | rd k =>
      cases k with
      | zero => dsimp only; split <;> simp
      | succ k => have := i2 _ hq; simp; omega

theorem rd_climb (hx : PRun c u d0 mem inp x) (k : ℕ) : ∀ t, (x t).ph = .rd k → (x (t + k)).ph = .rd 0 := by
  induction k with
  | zero => intro t h; exact h
  | succ k ih =>
    intro t h
    have : (x (t + 1)).ph = .rd k := by rw [step_ph hx t, P.nextPh, h]
    have := ih (t + 1) this
    rwa [show t + 1 + k = t + (k + 1) by omega] at this

theorem read_push (hx : PRun c u d0 mem inp x) (d : ℕ) : ∀ t, (x t).ph = .rd 0 → Awake c (x (t + d)) →
    ∃ k, k ≤ d + 1 ∧ (x (t + k)).rvalid = true := by
  have cnt : ∀ t, (x t).ph = .rd 0 → (x t).rvalid = false → 1 ≤ (x t).rcount := by
    intro t h hv
    obtain ⟨dn, cur, rem, -, -, hm⟩ := rinv hx t
    cases hm with
    | off h' => exact absurd h (h' 0)
    | ask _ _ _ _ _ hi _ e2 => rw [e2]; exact (hx.arok t hi).2.1
    | wait _ _ _ _ h1 => exact h1
    | offer _ hv' => rw [hv] at hv'; cases hv'
  induction d with
  | zero =>
    intro t h ha
    cases hv : (x t).rvalid
    · refine ⟨1, by omega, ?_⟩
      have hp : (x t).push c (inp t) = true := by
        have h1 := cnt t h hv
        simp only [P.push, P.ack, hv, Bool.not_false, Bool.or_true, Bool.and_true, Bool.and_eq_true, Bool.or_eq_true,
          decide_eq_true_eq, beq_iff_eq]
        exact ⟨ha, h1⟩
      rw [hx.step t]
      simp only [P.step, h, hp, hv]
      simp
    · exact ⟨0, by omega, hv⟩
  | succ d ih =>
    intro t h ha
    cases hv : (x t).rvalid
    · have e1 : (x (t + 1)).ph = .rd 0 := by rw [step_ph hx t, P.nextPh, h]; simp [hv]
      obtain ⟨k, hk, hl⟩ := ih (t + 1) e1 (by rwa [show t + 1 + d = t + (d + 1) by omega])
      exact ⟨k + 1, by omega, by rwa [show t + (k + 1) = t + 1 + k by omega]⟩
    · exact ⟨0, by omega, hv⟩

/-- While beats are outstanding one is offered within a bound. -/
theorem read_within (hx : PRun c u d0 mem inp x) (hi : c.interval ≠ 1) {t : ℕ}
    (h : (gotten inp x t).length < (wanted c inp x t).length) :
    ∃ k, k ≤ c.rdelay + max c.keep 1 + 1 ∧ (x (t + k)).rvalid = true := by
  obtain ⟨dn, cur, rem, hw, hg, hm⟩ := rinv hx t
  rw [hg.length_eq, hw] at h
  cases hm with
  | off => simp at h
  | ask => simp at h
  | wait hk =>
    rename_i k τ _ _ _ _ _ _
    have h0 := rd_climb hx _ t hk
    have hb := (ph_bound hx t).2.1 _ hk
    obtain ⟨e, he, ha⟩ := awake_within hx hi (t + k)
    obtain ⟨j, hj, hv⟩ := read_push hx e (t + k) h0 ha
    exact ⟨k + j, by omega, by rwa [← Nat.add_assoc]⟩
  | offer _ hv => exact ⟨0, by omega, hv⟩

theorem wd_climb (hx : PRun c u d0 mem inp x) (k : ℕ) : ∀ t, (x t).ph = .wd k → (inp t).wvalid = true →
    (inp (t + k + 1)).wvalid = true ∧ (x (t + k + 1)).wready = true := by
  have nr : ∀ t k, (x t).ph = .wd k → (x t).wready = false := by
    intro t k h
    cases hr : (x t).wready
    · rfl
    · have := wready_ph hx hr; rw [h] at this; cases this
  induction k with
  | zero =>
    intro t h hv
    refine ⟨(hx.whold t hv (nr t _ h)).1, ?_⟩
    show (x (t + 1)).wready = true
    rw [hx.step t]; simp only [P.step, h]; simp
  | succ k ih =>
    intro t h hv
    have e : (x (t + 1)).ph = .wd k := by rw [step_ph hx t, P.nextPh, h]
    have := ih (t + 1) e (hx.whold t hv (nr t _ h)).1
    rwa [show t + 1 + k + 1 = t + (k + 1) + 1 by omega] at this

theorem wdat_take (hx : PRun c u d0 mem inp x) (d : ℕ) : ∀ t, (x t).ph = .wdat → (inp t).wvalid = true →
    Awake c (x (t + d)) → ∃ k, k ≤ d + 1 ∧ (inp (t + k)).wvalid = true ∧ (x (t + k)).wready = true := by
  induction d with
  | zero =>
    intro t h hv ha
    cases hr : (x t).wready
    · obtain ⟨h', hv', -, -⟩ := held hx h hv hr
      refine ⟨1, by omega, hv', ?_⟩
      by_cases h0 : c.interval = 0
      · rw [(ph_bound hx t).2.2 h h0] at hr; cases hr
      · have ha : (x t).sleep < c.interval - 1 := by
          rcases ha with ha | ha
          · exact absurd ha h0
          · exact ha
        rw [hx.step t]
        simp only [P.step, h, P.fin, P.acc, hr]
        simp [h0]; omega
    · exact ⟨0, by omega, hv, hr⟩
  | succ d ih =>
    intro t h hv ha
    cases hr : (x t).wready
    · obtain ⟨h', hv', -, -⟩ := held hx h hv hr
      obtain ⟨k, hk, hl⟩ := ih (t + 1) h' hv' (by rwa [show t + 1 + d = t + (d + 1) by omega])
      exact ⟨k + 1, by omega, by rwa [show t + (k + 1) = t + 1 + k by omega]⟩
    · exact ⟨0, by omega, hv, hr⟩

/-- While a request is not complete, an offered word is taken within a bound. -/
theorem write_within (hx : PRun c u d0 mem inp x) (hi : c.interval ≠ 1) {t : ℕ}
    (h : (words inp x t).length < (slots c inp x t).length) (hv : (inp t).wvalid = true) :
    ∃ k, k ≤ c.wdelay + max c.keep 1 + 1 ∧ (inp (t + k)).wvalid = true ∧ (x (t + k)).wready = true := by
  obtain ⟨dn, rem, hs, hl, hm⟩ := (winv hx t).1
  rw [hs, ← hl] at h
  cases hm with
  | off => simp at h
  | ask => simp at h
  | wait hk =>
    rename_i k τ _ _ _ _ _
    have hb := (ph_bound hx t).1 _ hk
    exact ⟨k + 1, by omega, wd_climb hx k t hk hv⟩
  | data hk =>
    obtain ⟨e, he, ha⟩ := awake_within hx hi t
    obtain ⟨k, hk, hl⟩ := wdat_take hx e t hk hv ha
    exact ⟨k, by omega, hl⟩

theorem ra_ready (hx : PRun c u d0 mem inp x) {t : ℕ} (h : (x t).ph = .ra) (hv : (inp t).arvalid = true) :
    (inp (t + 1)).arvalid = true ∧ (x (t + 1)).arready = true := by
  have ha : (x t).arready = false := by
    obtain ⟨dn, cur, rem, -, -, hm⟩ := rinv hx t
    cases hm with
    | off _ _ _ ha => exact ha
    | ask h' => rw [h] at h'; cases h'
    | wait _ _ _ ha => exact ha
    | offer _ _ ha => exact ha
  refine ⟨(hx.arhold t hv ha).1, ?_⟩
  rw [hx.step t]; simp only [P.step, h, hv]; simp

theorem ar_false (hx : PRun c u d0 mem inp x) {t : ℕ} (h : ∀ k, (x t).ph ≠ .rd k) : (x t).arready = false := by
  obtain ⟨dn, cur, rem, -, -, hm⟩ := rinv hx t
  cases hm with
  | off _ _ _ ha => exact ha
  | ask h' => exact absurd h' (h _)
  | wait _ _ _ ha => exact ha
  | offer _ _ ha => exact ha

theorem aw_false (hx : PRun c u d0 mem inp x) {t : ℕ} (h : ∀ k, (x t).ph ≠ .wd k) : (x t).awready = false := by
  obtain ⟨dn, rem, -, -, hm⟩ := (winv hx t).1
  cases hm with
  | off _ _ ha => exact ha
  | ask h' => exact absurd h' (h _)
  | wait _ _ ha => exact ha
  | data _ ha => exact ha

/-- A read request is accepted within 3 cycles if no request is outstanding and no write is asked for. -/
theorem read_accept (hx : PRun c u d0 mem inp x) {t : ℕ}
    (hr : (gotten inp x t).length = (wanted c inp x t).length) (hw : (words inp x t).length = (slots c inp x t).length)
    (hn : (inp t).awvalid = false) (hv : (inp t).arvalid = true) :
    ∃ k, k ≤ 3 ∧ (inp (t + k)).arvalid = true ∧ (x (t + k)).arready = true := by
  have idle : ∀ t, (x t).ph = .idle → (inp t).arvalid = true →
      (inp (t + 2)).arvalid = true ∧ (x (t + 2)).arready = true := by
    intro t h hv
    have e : (x (t + 1)).ph = .ra := by rw [step_ph hx t, P.nextPh, h]; simp [hv]
    exact ra_ready hx e (hx.arhold t hv (ar_false hx (fun k h' => by rw [h] at h'; cases h'))).1
  cases hph : (x t).ph with
  | idle => exact ⟨2, by omega, idle t hph hv⟩
  | wa =>
    have e : (x (t + 1)).ph = .idle := by rw [step_ph hx t, P.nextPh, hph]; simp [hn]
    exact ⟨3, by omega, idle (t + 1) e (hx.arhold t hv (ar_false hx (fun k h' => by rw [hph] at h'; cases h'))).1⟩
  | wd k =>
    obtain ⟨dn, rem, hs, hl, hm⟩ := (winv hx t).1
    rw [hs, ← hl] at hw
    cases hm with
    | off h => rw [hph] at h; simp at h
    | ask _ _ _ _ hv' => rw [hn] at hv'; cases hv'
    | wait _ _ _ h1 => simp [beatsFrom] at hw; omega
    | data h => rw [hph] at h; cases h
  | wdat =>
    obtain ⟨dn, rem, hs, hl, hm⟩ := (winv hx t).1
    rw [hs, ← hl] at hw
    cases hm with
    | off h => rw [hph] at h; simp at h
    | ask h => rw [hph] at h; cases h
    | wait h => rw [hph] at h; cases h
    | data _ _ h1 => simp [beatsFrom] at hw; omega
  | ra => exact ⟨1, by omega, ra_ready hx hph hv⟩
  | rd k =>
    obtain ⟨dn, cur, rem, hs, hg, hm⟩ := rinv hx t
    rw [hs, hg.length_eq] at hr
    cases hm with
    | off h => exact absurd hph (h k)
    | ask _ _ _ ha => exact ⟨0, by omega, hv, ha⟩
    | wait _ _ _ _ h1 => simp [beatsFrom] at hr; omega
    | offer => simp at hr

/-- A write request is accepted within 3 cycles if no request is outstanding and no read is asked for. -/
theorem write_accept (hx : PRun c u d0 mem inp x) {t : ℕ}
    (hr : (gotten inp x t).length = (wanted c inp x t).length) (hw : (words inp x t).length = (slots c inp x t).length)
    (hn : ∀ k, k ≤ 1 → (inp (t + k)).arvalid = false) (hv : (inp t).awvalid = true) :
    ∃ k, k ≤ 3 ∧ (inp (t + k)).awvalid = true ∧ (x (t + k)).awready = true := by
  have wa : ∀ t, (x t).ph = .wa → (inp t).awvalid = true →
      (inp (t + 1)).awvalid = true ∧ (x (t + 1)).awready = true := by
    intro t h hv
    refine ⟨(hx.awhold t hv (aw_false hx (fun k h' => by rw [h] at h'; cases h'))).1, ?_⟩
    rw [hx.step t]; simp only [P.step, h, hv, (winv hx t).2 h]; simp
  have idle : ∀ t, (x t).ph = .idle → (inp t).arvalid = false → (inp t).awvalid = true →
      (inp (t + 2)).awvalid = true ∧ (x (t + 2)).awready = true := by
    intro t h hn hv
    have e : (x (t + 1)).ph = .wa := by rw [step_ph hx t, P.nextPh, h]; simp [hv, hn]
    exact wa (t + 1) e (hx.awhold t hv (aw_false hx (fun k h' => by rw [h] at h'; cases h'))).1
  cases hph : (x t).ph with
  | idle => exact ⟨2, by omega, idle t hph (hn 0 (by omega)) hv⟩
  | wa => exact ⟨1, by omega, wa t hph hv⟩
  | wd k =>
    obtain ⟨dn, rem, hs, hl, hm⟩ := (winv hx t).1
    rw [hs, ← hl] at hw
    cases hm with
    | off h => rw [hph] at h; simp at h
    | ask _ _ ha => exact ⟨0, by omega, hv, ha⟩
    | wait _ _ _ h1 => simp [beatsFrom] at hw; omega
    | data h => rw [hph] at h; cases h
  | wdat =>
    obtain ⟨dn, rem, hs, hl, hm⟩ := (winv hx t).1
    rw [hs, ← hl] at hw
    cases hm with
    | off h => rw [hph] at h; simp at h
    | ask h => rw [hph] at h; cases h
    | wait h => rw [hph] at h; cases h
    | data _ _ h1 => simp [beatsFrom] at hw; omega
  | ra =>
    have e : (x (t + 1)).ph = .idle := by rw [step_ph hx t, P.nextPh, hph]; simp [show (inp t).arvalid = false from hn 0 (by omega)]
    exact ⟨3, by omega, idle (t + 1) e (hn 1 (by omega))
      (hx.awhold t hv (aw_false hx (fun k h' => by rw [hph] at h'; cases h'))).1⟩
  | rd k =>
    obtain ⟨dn, cur, rem, hs, hg, hm⟩ := rinv hx t
    rw [hs, hg.length_eq] at hr
    cases hm with
    | off h => exact absurd hph (h k)
    | ask _ _ _ _ _ hi => rw [show (inp t).arvalid = false from hn 0 (by omega)] at hi; cases hi
    | wait _ _ _ _ h1 => simp [beatsFrom] at hr; omega
    | offer => simp at hr

end

end AxiSerial
