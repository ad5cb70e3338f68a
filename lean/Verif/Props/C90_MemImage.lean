import Verif.Lemmas.MemImage
import Verif.Props.C57_AxiWord

/-!
# C90: memory images

`set_memory` puts every element of an array at its byte address, `to_memory_image` writes a file from which `$readmemh` loads
the same bits, and `read_word` of the memory model gives the elements back.  `wordBit w l j` is bit `j` of the list `l` of words
of `w` bits.
-/

namespace MemImg

/-- Where the elements of an array of `rows` rows of `cols` elements go if `p` elements make a word: row `i` begins at element
    `i * S`, `T` elements are written in all.  `al` is `num_align_words`. -/
inductive Layout (p cols rows : ℕ) : Option ℕ → ℕ → ℕ → Prop
  | plain : cols % p = 0 → Layout p cols rows none cols (rows * cols)
  | one : cols % p = 0 → Layout p cols rows (some 1) cols (rows * cols)
  | short : 0 < cols → cols < p → Layout p cols rows none p (rows * p)
  | align (n S : ℕ) : 1 < n → 0 < cols → n ∣ S → cols ≤ S → S < cols + n → rows * S % p = 0 →
      Layout p cols rows (some n) S (rows * S)

theorem flatten_getD (S : ℕ) (rows : List (List I64)) (h : ∀ r ∈ rows, r.length = S) (i k : ℕ) (hk : k < S) :
    rows.flatten.getD (i * S + k) 0 = (rows.getD i []).getD k 0 := by
  induction rows generalizing i with
  | nil => simp
  | cons r rs ih =>
    have hr := h r List.mem_cons_self
    rw [List.flatten_cons]
    cases i with
    | zero => rw [Nat.zero_mul, Nat.zero_add, List.getD_append _ _ _ _ (by omega), List.getD_cons_zero]
    | succ i =>
      rw [Nat.add_mul, Nat.one_mul, List.getD_append_right _ _ _ _ (by omega), List.getD_cons_succ, hr,
        show i * S + S + k - S = i * S + k by omega, ih (fun r' h' => h r' (List.mem_cons_of_mem _ h'))]

theorem flatten_length (S : ℕ) (rows : List (List I64)) (h : ∀ r ∈ rows, r.length = S) :
    rows.flatten.length = rows.length * S := by
  induction rows with
  | nil => simp
  | cons r rs ih =>
    rw [List.flatten_cons, List.length_append, ih (fun r' h' => h r' (List.mem_cons_of_mem _ h')), h r List.mem_cons_self,
      List.length_cons, Nat.add_mul]
    omega

/-- The element at column `k` of row `i`, 0 in the padding. -/
def elem (a : Arr) (i k : ℕ) : I64 := if k < a.cols then (a.rows.getD i []).getD k 0 else 0

theorem layout_pad {p : ℕ} (hp : 0 < p) (a : Arr) (ha : a.Ok) {al : Option ℕ} {S T : ℕ}
    (hl : Layout p a.cols a.rows.length al S T) :
    ∃ a1 a2, alignOpt al a = some a1 ∧ padCols p a1 = some a2 ∧ (∀ r ∈ a2.rows, r.length % p = 0) ∧
      a2.rows.flatten.length = T ∧ T % p = 0 ∧ T = a.rows.length * S ∧
      ∀ i k, i < a.rows.length → k < S → a2.rows.flatten.getD (i * S + k) 0 = elem a i k := by
  cases hl with
  | plain h =>
    refine ⟨a, a, rfl, by rw [padCols, if_pos h], fun r hr => by rw [ha r hr]; exact h, flatten_length _ _ ha, ?_, rfl, ?_⟩
    · rw [Nat.mul_mod, h]; simp
    · intro i k _ hk
      rw [flatten_getD _ _ ha i k hk, elem, if_pos hk]
  | one h =>
    refine ⟨a, a, by rw [alignOpt, align, if_pos rfl], by rw [padCols, if_pos h], fun r hr => by rw [ha r hr]; exact h,
      flatten_length _ _ ha, ?_, rfl, ?_⟩
    · rw [Nat.mul_mod, h]; simp
    · intro i k _ hk
      rw [flatten_getD _ _ ha i k hk, elem, if_pos hk]
  | short h0 h =>
    have hr' : ∀ r ∈ a.rows.map fun r => r ++ List.replicate (p - a.cols) 0, r.length = p := by
      intro r hr
      obtain ⟨r', h', rfl⟩ := List.mem_map.1 hr
      rw [List.length_append, ha r' h', List.length_replicate]; omega
    refine ⟨a, ⟨p, a.rows.map fun r => r ++ List.replicate (p - a.cols) 0⟩, rfl, ?_, fun r hr => by rw [hr' r hr]; simp, ?_, ?_, rfl, ?_⟩
    · rw [padCols, if_neg (by rw [Nat.mod_eq_of_lt h]; omega), if_neg (by omega)]
    · rw [flatten_length p _ hr', List.length_map]
    · simp
    · intro i k hi hk
      rw [flatten_getD _ _ hr' i k hk, elem]
      have hmap : (a.rows.map fun r => r ++ List.replicate (p - a.cols) 0).getD i [] =
          a.rows[i] ++ List.replicate (p - a.cols) 0 := by
        rw [List.getD_eq_getElem _ _ (by simpa using hi), List.getElem_map]
      rw [hmap, List.getD_eq_getElem _ [] hi]
      have hlen := ha _ (List.getElem_mem hi)
      by_cases hk' : k < a.cols
      · rw [if_pos hk', List.getD_append _ _ _ _ (by omega)]
      · rw [if_neg hk', List.getD_append_right _ _ _ _ (by omega)]
        rw [List.getD_eq_getElem _ _ (by simp; omega)]
        simp
  | align n _ h1 h0 hd hge hlt hdiv =>
    have hS : cdiv a.cols n * n = S := by
      have g1 := cdiv_ge a.cols n (by omega)
      have g2 := cdiv_lt a.cols n (by omega)
      obtain ⟨c, rfl⟩ := hd
      rw [Nat.mul_comm n c] at hge hlt ⊢
      have : cdiv a.cols n < c + 1 := by
        by_contra hc
        have := Nat.mul_le_mul_right n (by omega : c + 1 ≤ cdiv a.cols n)
        rw [Nat.add_mul] at this; omega
      have : c < cdiv a.cols n + 1 := by
        by_contra hc
        have := Nat.mul_le_mul_right n (by omega : cdiv a.cols n + 1 ≤ c)
        rw [Nat.add_mul] at this; omega
      rw [show c = cdiv a.cols n by omega]
    have hlast : alignedLast a.cols 1 n = S := by
      rw [alignedLast, if_neg (by omega), Nat.div_one, hS]
    obtain ⟨l, e1, e2, -, e4⟩ := alignLoop_rows n a.cols (by omega) a.rows 0 (List.replicate (a.rows.length * S) 0) ha h0
      (by rw [hS]; simp)
    rw [hS] at e4
    rw [List.length_replicate] at e2
    refine ⟨⟨l.length, [l]⟩, ⟨l.length, [l]⟩, ?_, ?_, ?_, ?_, hdiv, rfl, ?_⟩
    · rw [alignOpt, MemImg.align, if_neg (by omega), if_neg (by omega), hlast, e1]; rfl
    · rw [padCols, if_pos (by rw [e2]; exact hdiv)]
    · intro r hr
      rw [List.mem_singleton.1 hr, e2]; exact hdiv
    · simpa using e2
    · intro i k hi hk
      have := e4 i k hi hk
      rw [Nat.zero_add] at this
      simp only [List.flatten_cons, List.flatten_nil, List.append_nil]
      rw [this, elem]
      split
      · rfl
      · rw [List.getD_eq_getElem?_getD, List.getElem?_replicate]
        split <;> rfl

/-- What is written, as bits. -/
theorem set_bits {mw sw n : ℕ} (hmw : 0 < mw) (hsw : 0 < sw) (hm64 : mw ≤ 64) (hs64 : sw ≤ 64)
    (hw : mw = n * sw ∨ (mw < sw ∧ sw = n * mw)) (mem : List I64) (a : Arr) (ha : a.Ok) {al : Option ℕ} {S T : ℕ} (off : ℕ)
    (hl : Layout (mw / sw + if mw < sw then 1 else 0) a.cols a.rows.length al S T)
    (hroom : (off / cdiv mw 8) * mw + T * sw ≤ mem.length * mw) :
    ∃ mem' p, setMemory mem a mw sw off al = some mem' ∧ mem'.length = mem.length ∧ p.length = T ∧ T = a.rows.length * S ∧
      (∀ i k, i < a.rows.length → k < S → p.getD (i * S + k) 0 = elem a i k) ∧
      ∀ j, wordBit mw mem' j =
        if (off / cdiv mw 8) * mw ≤ j ∧ j < (off / cdiv mw 8) * mw + T * sw then wordBit sw p (j - (off / cdiv mw 8) * mw)
        else wordBit mw mem j := by
  by_cases hlt : mw < sw
  · have hs : sw = n * mw := by
      rcases hw with h | h
      · have hn : n ≠ 0 := by rintro rfl; omega
        have := Nat.le_mul_of_pos_left sw (Nat.pos_of_ne_zero hn)
        omega
      · exact h.2
    have hn : 0 < n := by rcases Nat.eq_zero_or_pos n with h | h; (· subst h; omega); · exact h
    rw [if_pos hlt, Nat.div_eq_of_lt hlt] at hl
    obtain ⟨a1, a2, e1, e2, -, e4, -, e6, e7⟩ := layout_pad (by omega) a ha hl
    have : a2 = a1 := by
      rw [padCols, if_pos (by simp [Nat.mod_one])] at e2
      exact (Option.some.inj e2).symm
    subst this
    have hvl : (a2.rows.flatten.flatMap (pieces n mw)).length = T * n := by
      rw [length_flatMap_const _ n (length_pieces n mw), e4]
    have hTn : T * n * mw = T * sw := by rw [hs, Nat.mul_assoc]
    obtain ⟨mem', p1, p2, p3⟩ := put_bits mw hmw mem (a2.rows.flatten.flatMap (pieces n mw)) (off / cdiv mw 8) (by
      rw [hvl]
      refine Nat.le_of_mul_le_mul_right (c := mw) ?_ hmw
      rw [Nat.add_mul, hTn]; exact hroom)
    refine ⟨mem', a2.rows.flatten, ?_, p2, e4, e6, e7, fun j => ?_⟩
    · rw [setMemory, if_pos hlt, setNarrow, if_neg (by omega), e1]
      simp only [Option.bind_eq_bind, Option.bind_some]
      rw [show cdiv sw mw = n by rw [hs]; exact cdiv_mul n mw hmw]
      exact p1
    · rw [p3 j, hvl, Nat.add_mul, hTn, split_bits n mw hn hmw (by omega), ← hs]
  · have hs : mw = n * sw := by
      rcases hw with h | h
      · exact h
      · omega
    have hn : 0 < n := by rcases Nat.eq_zero_or_pos n with h | h; (· subst h; omega); · exact h
    have hdiv : mw / sw = n := by rw [hs]; exact Nat.mul_div_cancel n hsw
    rw [if_neg hlt, hdiv, Nat.add_zero] at hl
    obtain ⟨a1, a2, e1, e2, e3, e4, e5, e6, e7⟩ := layout_pad hn a ha hl
    have hfl := shiftRow_flatten n mw sw a2.rows e3
    have hql : (shiftRow n mw sw a2.rows.flatten).length = a2.rows.flatten.length := by simp [shiftRow]
    have hre : reshape n (a2.rows.map (shiftRow n mw sw)).flatten =
        some ((List.range ((shiftRow n mw sw a2.rows.flatten).length / n)).map
          fun j => ((shiftRow n mw sw a2.rows.flatten).drop (j * n)).take n) := by
      rw [reshape, hfl, if_pos (by rw [hql, e4]; exact e5)]
    have hpk := pack_bits n sw mw hn hsw hs hm64 a2.rows.flatten (shiftRow n mw sw a2.rows.flatten) hql (by rw [e4]; exact e5)
      (fun x k => ((x &&& mask sw) <<< (sw * k)) &&& mask mw) (fun i hi => shiftRow_getD n mw sw _ i hi)
      (fun x k b hb hk => place_bit n sw mw hs hm64 x k b hb hk)
    have hvl : ((List.map (fun j => List.take n (List.drop (j * n) (shiftRow n mw sw a2.rows.flatten)))
        (List.range ((shiftRow n mw sw a2.rows.flatten).length / n))).map orAll).length = T / n := by
      rw [List.length_map, List.length_map, List.length_range, hql, e4]
    generalize hv : (List.map (fun j => List.take n (List.drop (j * n) (shiftRow n mw sw a2.rows.flatten)))
        (List.range ((shiftRow n mw sw a2.rows.flatten).length / n))).map orAll = v at hpk hvl
    have hTn : T / n * mw = T * sw := by
      rw [hs, ← Nat.mul_assoc, Nat.div_mul_cancel (Nat.dvd_of_mod_eq_zero e5)]
    obtain ⟨mem', p1, p2, p3⟩ := put_bits mw hmw mem v (off / cdiv mw 8) (by
      rw [hvl]
      refine Nat.le_of_mul_le_mul_right (c := mw) ?_ hmw
      rw [Nat.add_mul, hTn]; exact hroom)
    refine ⟨mem', a2.rows.flatten, ?_, p2, e4, e6, e7, fun j => ?_⟩
    · rw [setMemory, if_neg hlt, setWide, if_neg (by omega), e1]
      simp only [Option.bind_eq_bind, Option.bind_some]
      rw [show cdiv mw sw = n by rw [hs]; exact cdiv_mul n sw hsw, e2]
      simp only [Option.bind_some]
      rw [hre]
      simp only [Option.bind_some]
      rw [hv]
      exact p1
    · rw [p3 j, hvl, Nat.add_mul, hTn, hpk]

/-- How many elements make a word of the memory (1 if an element takes several words). -/
def perWord (mw sw : ℕ) : ℕ := mw / sw + if mw < sw then 1 else 0

/-- **C90, setting.**  If one of the widths divides the other and the address is that of a word, every element is put at its
    address (`S` elements per row), the padding is zero, and nothing else changes. -/
theorem c90_set {mw sw n c : ℕ} (hc : mw = 8 * c) (hmw : 0 < mw) (hsw : 0 < sw) (hm64 : mw ≤ 64) (hs64 : sw ≤ 64)
    (hw : mw = n * sw ∨ sw = n * mw) (mem : List I64) (a : Arr) (ha : a.Ok) {al : Option ℕ} {S T : ℕ} (off : ℕ)
    (hl : Layout (perWord mw sw) a.cols a.rows.length al S T) (hoff : off % c = 0)
    (hroom : 8 * off + T * sw ≤ mem.length * mw) :
    ∃ mem', setMemory mem a mw sw off al = some mem' ∧ mem'.length = mem.length ∧
      (∀ i k b, i < a.rows.length → k < S → b < sw →
        wordBit mw mem' (8 * off + (i * S + k) * sw + b) =
          if k < a.cols then ((a.rows.getD i []).getD k 0).getLsbD b else false) ∧
      ∀ j, j < 8 * off ∨ 8 * off + T * sw ≤ j → wordBit mw mem' j = wordBit mw mem j := by
  have hcd : cdiv mw 8 = c := by rw [hc, Nat.mul_comm]; exact cdiv_mul c 8 (by omega)
  have hoc : off / cdiv mw 8 * mw = 8 * off := by
    rw [hcd, hc]
    have := Nat.div_add_mod off c
    rw [hoff, Nat.add_zero] at this
    calc off / c * (8 * c) = 8 * (c * (off / c)) := by ring
      _ = 8 * off := by rw [this]
  have hw' : mw = n * sw ∨ (mw < sw ∧ sw = n * mw) := by
    rcases hw with h | h
    · exact .inl h
    · by_cases hlt : mw < sw
      · exact .inr ⟨hlt, h⟩
      · refine .inl ?_
        rcases Nat.lt_or_ge n 2 with h2 | h2
        · have : n = 1 := by
            rcases Nat.lt_or_ge n 1 with h1 | h1
            · have : n = 0 := by omega
              subst this; omega
            · omega
          subst this; omega
        · have := Nat.mul_le_mul_right mw h2
          omega
  obtain ⟨mem', p, h1, h2, h3, h4, h5, h6⟩ := set_bits hmw hsw hm64 hs64 hw' mem a ha off hl (by rw [hoc]; exact hroom)
  rw [hoc] at h6
  refine ⟨mem', h1, h2, fun i k b hi hk hb => ?_, fun j hj => ?_⟩
  · have hin : (i * S + k) * sw + b < T * sw := by
      have : i * S + k + 1 ≤ T := by
        rw [h4]
        have := Nat.mul_le_mul_right S (by omega : i + 1 ≤ a.rows.length)
        rw [Nat.add_mul] at this; omega
      have := Nat.mul_le_mul_right sw this
      rw [Nat.add_mul] at this; omega
    rw [h6, if_pos ⟨by omega, by omega⟩, Nat.add_assoc, Nat.add_sub_cancel_left, wordBit]
    rw [show (i * S + k) * sw + b = b + (i * S + k) * sw by omega, Nat.add_mul_div_right _ _ hsw, Nat.div_eq_of_lt hb, Nat.zero_add,
      Nat.add_mul_mod_self_right, Nat.mod_eq_of_lt hb, h5 i k hi hk, elem]
    split
    · rfl
    · simp
  · rw [h6, if_neg (by omega)]

/-! ## Images -/

/-- **C90, image.**  If one of the widths divides the other (and the array fills the words), the words of the file hold the
    bits of the array, and `$readmemh` reads them back. -/
theorem c90_image {dw ww n : ℕ} (hd : 0 < dw) (hw0 : 0 < ww) (hd64 : dw ≤ 64) (hw64 : ww < 64)
    (hw : dw = n * ww ∨ (ww = n * dw ∧ ww ≠ dw)) (a : List I64) (hne : a ≠ []) (hfit : a.length * dw % ww = 0) :
    ∃ t ws, toMemoryImage none dw ww false a = some (t, ws.length) ∧ readmemh t none = some ws ∧
      ws.length * ww = a.length * dw ∧ (∀ w ∈ ws, w < 2 ^ ww) ∧
      ∀ j, (ws.getD (j / ww) 0).testBit (j % ww) = wordBit dw a j := by
  have key : ∃ v : List I64, imageWords none dw ww false a = some v ∧ v.length * ww = a.length * dw ∧
      (∀ w ∈ v, ∀ b, ww ≤ b → w.getLsbD b = false) ∧ ∀ j, wordBit ww v j = wordBit dw a j := by
    by_cases hle : ww ≤ dw
    · have hs : dw = n * ww := by
        rcases hw with h | h
        · exact h
        · have hn : n ≠ 0 := by rintro rfl; omega
          have := Nat.le_mul_of_pos_left dw (Nat.pos_of_ne_zero hn)
          omega
      have hn : 0 < n := by rcases Nat.eq_zero_or_pos n with h | h; (· subst h; omega); · exact h
      refine ⟨a.flatMap (pieces n ww), ?_, ?_, ?_, fun j => ?_⟩
      · simp only [imageWords]
        rw [if_neg hne, if_neg (by omega), if_neg (by simp), if_pos hle, if_neg (by omega), hs, cdiv_mul n ww hw0]
      · rw [length_flatMap_const _ n (length_pieces n ww), hs, Nat.mul_assoc]
      · intro w hwm b hb
        obtain ⟨x, -, hx⟩ := List.mem_flatMap.1 hwm
        obtain ⟨k, -, rfl⟩ := List.mem_map.1 hx
        rw [BitVec.getLsbD_and, mask_bit, show decide (b < ww) = false by simp; omega]
        simp
      · rw [split_bits n ww hn hw0 (by omega), ← hs]
    · have hs : ww = n * dw := by
        rcases hw with h | h
        · have hn : n ≠ 0 := by rintro rfl; omega
          have := Nat.le_mul_of_pos_left ww (Nat.pos_of_ne_zero hn)
          omega
        · exact h.1
      have hn : 0 < n := by rcases Nat.eq_zero_or_pos n with h | h; (· subst h; omega); · exact h
      have hmod : a.length % n = 0 := by
        rw [hs, Nat.mul_mod_mul_right] at hfit
        rcases Nat.mul_eq_zero.1 hfit with h | h
        · exact h
        · omega
      have hdiv : n * (a.length / n) = a.length := by have := Nat.div_add_mod a.length n; omega
      -- the elements shifted by their place in the array
      have hchunk : ∀ j, j < a.length / n →
          ((a.drop (j * n)).take n).mapIdx (fun k x => (x &&& mask dw) <<< (dw * k)) =
            ((a.mapIdx fun i x => (x &&& mask dw) <<< (dw * (i % n))).drop (j * n)).take n := by
        intro j hj
        have hup : j * n + n ≤ a.length := by
          have := Nat.mul_le_mul_right n (by omega : j + 1 ≤ a.length / n)
          rw [Nat.mul_comm (a.length / n), hdiv, Nat.add_mul] at this; omega
        apply List.ext_getElem
        · simp
        · intro k h1 h2
          have hk : k < n := by simp at h1; omega
          simp only [List.getElem_mapIdx, List.getElem_take, List.getElem_drop]
          rw [Nat.mul_add_mod', Nat.mod_eq_of_lt hk]
      have hq : (a.mapIdx fun i x => (x &&& mask dw) <<< (dw * (i % n))).length = a.length := by simp
      have hpk := pack_bits n dw ww hn hd hs (by omega) a (a.mapIdx fun i x => (x &&& mask dw) <<< (dw * (i % n))) hq hmod
        (fun x k => (x &&& mask dw) <<< (dw * k))
        (fun i hi => by rw [List.getD_eq_getElem _ _ (by rw [hq]; exact hi), List.getD_eq_getElem _ _ hi]; simp)
        (fun x k b hb hk => by
          have := place_bit n dw ww hs (by omega) x k b hb hk
          rw [BitVec.getLsbD_and, mask_bit, show decide (b < 64) = true by simp; omega, show decide (b < ww) = true by simpa using hb] at this
          simpa using this)
      refine ⟨((List.range (a.length / n)).map fun j => (a.drop (j * n)).take n).map
        fun l => orAll (l.mapIdx fun k x => (x &&& mask dw) <<< (dw * k)), ?_, ?_, ?_, fun j => ?_⟩
      · simp only [imageWords]
        rw [if_neg hne, if_neg (by omega), if_neg (by simp), if_neg hle, if_neg (by omega),
          show cdiv ww dw = n by rw [hs]; exact cdiv_mul n dw hd, reshape, if_pos hmod]
        rfl
      · rw [List.length_map, List.length_map, List.length_range, hs, ← Nat.mul_assoc, Nat.mul_comm (a.length / n), hdiv]
      · intro w hwm b hb
        obtain ⟨l, hl, rfl⟩ := List.mem_map.1 hwm
        obtain ⟨j, hj, rfl⟩ := List.mem_map.1 hl
        rw [orAll_bit, List.any_eq_false]
        intro x hx
        obtain ⟨k, hk, rfl⟩ := List.getElem_of_mem hx
        have hkn : k < n := by simp at hk; omega
        rw [List.getElem_mapIdx, BitVec.getLsbD_shiftLeft, BitVec.getLsbD_and, mask_bit]
        have : dw * k + dw ≤ ww := by
          have := Nat.mul_le_mul_right dw (by omega : k + 1 ≤ n)
          rw [Nat.add_mul, ← hs, Nat.mul_comm k] at this; omega
        rw [show decide (b - dw * k < dw) = false by simp; omega]
        simp
      · rw [← hpk j, hq, wordBit, wordBit]
        congr 2
        rw [List.map_map, List.map_map]
        refine List.map_congr_left fun j hj => ?_
        simp only [Function.comp]
        rw [hchunk j (List.mem_range.1 hj)]
  obtain ⟨v, h1, h2, h3, h4⟩ := key
  refine ⟨imageText ww v, v.map fun d => d.toNat, ?_, ?_, ?_, ?_, fun j => ?_⟩
  · rw [toMemoryImage, h1, List.length_map]; rfl
  · refine readmemh_text ww v fun d hd => ?_
    rw [BitVec.toInt_eq_msb_cond, BitVec.msb_eq_getLsbD_last, h3 d hd _ (by omega)]
    simp
  · rw [List.length_map]; exact h2
  · intro w hwm
    obtain ⟨d, hd, rfl⟩ := List.mem_map.1 hwm
    refine Nat.lt_pow_two_of_testBit _ fun i hi => ?_
    rw [BitVec.testBit_toNat, h3 d hd i hi]
  · rw [← h4 j, wordBit, List.getD_eq_getElem?_getD, List.getD_eq_getElem?_getD, List.getElem?_map]
    cases v[j / ww]? with
    | none => simp
    | some x => simp [BitVec.testBit_toNat]

open AxiWord in
/-- **C90, loading.**  The memory made for an array as image is large enough and holds its bits. -/
theorem c90_load {dw c : ℕ} (hc : dw = 8 * c) (hd : 0 < dw) (hd64 : dw ≤ 64) (aw mdw : ℕ) (d? : Option ℕ) (hdw : d?.getD mdw = dw)
    (a : List I64) (hne : a ≠ []) (u : ℕ → ℕ) (hu : ∀ y, u y < 256) :
    ∃ size M, initMem aw mdw (some (a, d?)) u = some (size, M) ∧ a.length * c ≤ size ∧ 2 ^ aw ≤ size ∧ (∀ y, M y < 256) ∧
      (∀ j, j < a.length * dw → memBit M j = wordBit dw a j) ∧ ∀ y, a.length * c ≤ y → M y = u y := by
  obtain ⟨t, ws, h1, h2, h3, h4, h5⟩ := c90_image (n := c) hd (by omega : 0 < 8) hd64 (by omega) (.inl (by omega)) a hne
    (by rw [hc, Nat.mul_left_comm]; simp)
  have hlen : ws.length = a.length * c := by
    rw [hc, Nat.mul_left_comm] at h3; omega
  have hsz : ws.length ≤ 2 ^ memAw aw ws.length :=
    le_trans (Nat.le_pow_clog (by omega) _) (Nat.pow_le_pow_right (by omega) (Nat.le_max_right _ _))
  refine ⟨2 ^ memAw aw ws.length, loadBytes (2 ^ memAw aw ws.length) u ws, ?_, by omega,
    Nat.pow_le_pow_right (by omega) (Nat.le_max_left _ _), fun y => ?_, fun j hj => ?_, fun y hy => ?_⟩
  · rw [initMem, hdw, h1]
    simp only [Option.bind_eq_bind, Option.bind_some]
    rw [h2]
    rfl
  · rw [loadBytes]; split
    · exact Nat.mod_lt _ (by omega)
    · exact hu y
  · have hj8 : j / 8 < ws.length := by
      rw [hlen]; refine Nat.div_lt_of_lt_mul ?_
      rw [hc, Nat.mul_left_comm] at hj; exact hj
    rw [memBit, loadBytes, if_pos ⟨by omega, hj8⟩, show (256 : ℕ) = 2 ^ 8 by rfl, Nat.testBit_mod_two_pow, h5 j,
      show decide (j % 8 < 8) = true by simp; omega, Bool.true_and]
  · rw [loadBytes, if_neg (by omega)]

open AxiWord in
/-- **C90, from the array to `read_word`.**  An array put into the memory image with `set_memory`, loaded by `AxiMemoryModel`
    and read with `read_word` gives its elements. -/
theorem c90_read {mw sw n c : ℕ} (hc : mw = 8 * c) (hmw : 0 < mw) (hsw : 0 < sw) (hm64 : mw ≤ 64) (hs64 : sw ≤ 64)
    (hw : mw = n * sw ∨ sw = n * mw) (hbits : sw % 8 = 1 ∨ sw % 8 = 2 ∨ sw % 4 = 0)
    (mem : List I64) (a : Arr) (ha : a.Ok) {al : Option ℕ} {S T : ℕ} (off : ℕ)
    (hl : Layout (perWord mw sw) a.cols a.rows.length al S T) (hoff : off % c = 0) (hne : mem ≠ [])
    (hroom : 8 * off + T * sw ≤ mem.length * mw) (aw : ℕ) (u : ℕ → ℕ) (hu : ∀ y, u y < 256) :
    ∃ mem' size M, setMemory mem a mw sw off al = some mem' ∧ initMem aw mw (some (mem', none)) u = some (size, M) ∧
      ∀ i k, i < a.rows.length → k < a.cols → k < S →
        readWord M (i * S + k) off sw = ((a.rows.getD i []).getD k 0).toNat % 2 ^ sw := by
  obtain ⟨mem', h1, h2, h3, -⟩ := c90_set hc hmw hsw hm64 hs64 hw mem a ha off hl hoff hroom
  have hne' : mem' ≠ [] := by
    rintro rfl
    simp only [List.length_nil] at h2
    exact hne (List.length_eq_zero_iff.1 h2.symm)
  obtain ⟨size, M, g1, g2, -, g4, g5, -⟩ := c90_load hc hmw hm64 aw mw none rfl mem' hne' u hu
  refine ⟨mem', size, M, h1, g1, fun i k hi hk hkS => ?_⟩
  apply Nat.eq_of_testBit_eq
  intro b
  rw [c57_read M g4 _ _ _ ((c57_fit sw).2 hbits _), Nat.testBit_mod_two_pow]
  by_cases hb : b < sw
  · have hT : T = a.rows.length * S := by cases hl <;> rfl
    have hin : (i * S + k) * sw + b < T * sw := by
      have : i * S + k + 1 ≤ T := by
        rw [hT]
        have := Nat.mul_le_mul_right S (by omega : i + 1 ≤ a.rows.length)
        rw [Nat.add_mul] at this; omega
      have := Nat.mul_le_mul_right sw this
      rw [Nat.add_mul] at this; omega
    rw [g5 _ (by rw [h2]; omega), h3 i k b hi hkS hb, if_pos hk, BitVec.testBit_toNat]
  · rw [show decide (b < sw) = false by simp; omega]; simp

open AxiWord in
/-- **C90, the image used if none is given**: word `k` of the memory is `k`. -/
theorem c90_default {mdw c : ℕ} (hc : mdw = 8 * c) (h0 : 0 < mdw) (aw : ℕ) (haw : aw ≤ 63) (u : ℕ → ℕ) (hu : ∀ y, u y < 256) :
    ∃ M, initMem aw mdw none u = some (2 ^ aw, M) ∧
      ∀ k, (k + 1) * c ≤ 2 ^ aw → readWord M k 0 mdw = k % 2 ^ mdw := by
  have hcm : mdw / 8 = c := by omega
  have hc0 : 0 < c := by omega
  have hpow : (2 : ℕ) ^ aw ≤ 2 ^ 63 := Nat.pow_le_pow_right (by omega) haw
  let g : ℕ → List I64 := fun k => (List.range c).map fun j => ((BitVec.ofNat 64 k).sshiftRight (j * 8)) &&& mask 8
  have hg : ∀ k, (g k).length = c := fun k => by simp [g]
  have hws : defaultWords (2 ^ aw) mdw = some ((List.range (2 ^ aw / c)).flatMap g) := by
    rw [defaultWords, hcm, if_neg (by omega)]
  generalize hv : (List.range (2 ^ aw / c)).flatMap g = v at hws
  have hmask : ∀ d ∈ v, 0 ≤ d.toInt := by
    intro d hd
    rw [← hv] at hd
    obtain ⟨x, -, hx⟩ := List.mem_flatMap.1 hd
    obtain ⟨k, -, rfl⟩ := List.mem_map.1 hx
    exact mask_toInt_nonneg _ 8 (by omega)
  have hM : initMem aw mdw none u = some (2 ^ aw, loadBytes (2 ^ aw) u (v.map fun d => d.toNat)) := by
    rw [initMem, hws]
    simp only [Option.bind_eq_bind, Option.bind_some]
    rw [readmemh_text 8 v hmask]
    rfl
  refine ⟨_, hM, fun k hk => ?_⟩
  have hlen : v.length = 2 ^ aw / c * c := by rw [← hv, length_flatMap_const g c hg, List.length_range]
  have hlt : ∀ y, loadBytes (2 ^ aw) u (v.map fun d => d.toNat) y < 256 := by
    intro y; rw [loadBytes]; split
    · exact Nat.mod_lt _ (by omega)
    · exact hu y
  have hk1 : k + 1 ≤ 2 ^ aw / c := (Nat.le_div_iff_mul_le hc0).2 hk
  have hk63 : k < 2 ^ 63 := by
    have : k + 1 ≤ (k + 1) * c := Nat.le_mul_of_pos_right _ hc0
    omega
  apply Nat.eq_of_testBit_eq
  intro b
  rw [c57_read _ hlt _ _ _ (by rw [hc, Nat.mul_left_comm]; simp; omega), Nat.testBit_mod_two_pow]
  by_cases hb : b < mdw
  · congr 1
    have e1 : 8 * 0 + k * mdw + b = 8 * (k * c) + b := by rw [hc, Nat.mul_left_comm]; omega
    have e2 : (8 * (k * c) + b) / 8 = k * c + b / 8 := by omega
    have hb8 : b / 8 < c := by omega
    have hup : k * c + b / 8 < v.length := by
      rw [hlen]
      have := Nat.mul_le_mul_right c hk1
      rw [Nat.add_mul] at this; omega
    have hsz : v.length ≤ 2 ^ aw := by rw [hlen]; exact Nat.div_mul_le_self _ _
    rw [e1, memBit, e2, show (8 * (k * c) + b) % 8 = b % 8 by omega, loadBytes,
      if_pos ⟨by omega, by rw [List.length_map]; exact hup⟩, show (256 : ℕ) = 2 ^ 8 by rfl, Nat.testBit_mod_two_pow,
      show decide (b % 8 < 8) = true by simp; omega, Bool.true_and]
    have hget : (v.map fun d => d.toNat).getD (k * c + b / 8) 0 = (v.getD (k * c + b / 8) 0).toNat := by
      rw [List.getD_eq_getElem _ _ (by rw [List.length_map]; exact hup), List.getD_eq_getElem _ _ hup, List.getElem_map]
    rw [hget, ← hv, flatMap_getD g c hc0 hg, BitVec.testBit_toNat]
    rw [show k * c + b / 8 = b / 8 + k * c by omega, Nat.add_mul_div_right _ _ hc0, Nat.div_eq_of_lt hb8, Nat.zero_add,
      Nat.add_mul_mod_self_right, Nat.mod_eq_of_lt hb8, List.getElem?_range (by omega), Option.map_some, Option.getD_some,
      List.getD_eq_getElem _ _ (by rw [hg]; exact hb8)]
    simp only [g, List.getElem_map, List.getElem_range]
    rw [BitVec.getLsbD_and, mask_bit, BitVec.getLsbD_sshiftRight, show decide (b % 8 < 64) = true by simp; omega,
      show decide (b % 8 < 8) = true by simp; omega, show decide (64 ≤ b % 8) = false by simp; omega,
      show b / 8 * 8 + b % 8 = b by omega]
    have hmsb : (BitVec.ofNat 64 k).msb = false := by
      rw [BitVec.msb_eq_getLsbD_last, BitVec.getLsbD_ofNat, Nat.testBit_lt_two_pow (by omega)]; simp
    rw [hmsb]
    by_cases h64 : b < 64
    · rw [if_pos h64, BitVec.getLsbD_ofNat, show decide (b < 64) = true by simpa using h64]; simp
    · rw [if_neg h64, Nat.testBit_lt_two_pow (lt_of_lt_of_le hk63 (Nat.pow_le_pow_right (by omega) (by omega)))]; simp
  · rw [show decide (b < mdw) = false by simp; omega]; simp

/-! ## Sizes -/

/-- **C90, aligned shape.**  The last dimension is the next multiple of the number of elements per word. -/
theorem c90_aligned (sh : List ℕ) (r dw mw : ℕ) (hd : 0 < dw) :
    ∃ r', alignedShape (sh ++ [r]) dw mw = some (sh ++ [r']) ∧ r ≤ r' ∧
      (dw < mw → mw / dw ∣ r' ∧ r' < r + mw / dw) ∧ (mw ≤ dw → r' = r) := by
  by_cases h : dw = mw ∨ dw > mw
  · refine ⟨r, by rw [alignedShape, if_pos h], le_rfl, fun h' => by omega, fun _ => rfl⟩
  · have hc : 0 < mw / dw := Nat.div_pos (by omega) hd
    refine ⟨cdiv r (mw / dw) * (mw / dw), ?_, cdiv_ge _ _ hc, fun _ => ⟨Nat.dvd_mul_left _ _, cdiv_lt _ _ hc⟩, fun h' => by omega⟩
    rw [alignedShape, if_neg h, if_neg (by omega)]
    simp [alignedLast, if_neg h]

/-- **C90, memory size.**  `shape_to_memory_size` is the number of elements (of the aligned shape), rounded up to whole blocks. -/
theorem c90_size (shape : List ℕ) (dw : ℕ) (mw : Option ℕ) (blk s : ℕ) (h : memorySize shape dw mw blk = some s) :
    ∃ sh, (mw = none → sh = shape) ∧ (∀ w, mw = some w → alignedShape shape dw w = some sh) ∧
      blk / cdiv dw 8 ∣ s ∧ sh.foldl (fun x y => x * y) 1 ≤ s ∧ s < sh.foldl (fun x y => x * y) 1 + blk / cdiv dw 8 := by
  have main : ∀ sh : List ℕ, (if cdiv dw 8 = 0 then none else if blk / cdiv dw 8 = 0 then none
      else some ((blk / cdiv dw 8) * cdiv (shapeLength sh) (blk / cdiv dw 8))) = some s →
      blk / cdiv dw 8 ∣ s ∧ sh.foldl (fun x y => x * y) 1 ≤ s ∧ s < sh.foldl (fun x y => x * y) 1 + blk / cdiv dw 8 := by
    intro sh h
    split at h
    · cases h
    split at h
    · cases h
    have e := (Option.some.inj h).symm
    rw [e]
    refine ⟨Nat.dvd_mul_right _ _, ?_, ?_⟩
    · rw [Nat.mul_comm]; exact cdiv_ge _ _ (Nat.pos_of_ne_zero ‹¬ blk / cdiv dw 8 = 0›)
    · rw [Nat.mul_comm]; exact cdiv_lt _ _ (Nat.pos_of_ne_zero ‹¬ blk / cdiv dw 8 = 0›)
  cases mw with
  | none => exact ⟨shape, fun _ => rfl, fun _ h => (by cases h), main shape h⟩
  | some w =>
    simp only [memorySize, Option.bind_eq_bind] at h
    cases hs : alignedShape shape dw w with
    | none => rw [hs] at h; cases h
    | some sh =>
      rw [hs] at h
      exact ⟨sh, fun h => (by cases h), fun w' h' => (by cases h'; exact hs), main sh h⟩

/-! ## What goes wrong -/

/-- **C90, rows longer than a word.**  The padding is computed as `num_pack - src.shape[-1]`: rows that are longer than a word
    and do not fill words raise an exception instead of being padded. -/
theorem c90_not_pad (mem : List I64) (a : Arr) (mw sw off n : ℕ) (hsw : 0 < sw) (hn : 0 < n) (e : mw = n * sw)
    (hlong : n < a.cols) (hrow : a.cols % n ≠ 0) : setMemory mem a mw sw off none = none := by
  have hge : ¬ mw < sw := by rw [e]; have := Nat.le_mul_of_pos_left sw hn; omega
  rw [setMemory, if_neg hge, setWide]
  split
  · rfl
  · simp only [alignOpt, Option.bind_eq_bind, Option.bind_some]
    rw [e, cdiv_mul n sw hsw, padCols, if_neg hrow, if_pos hlong]
    rfl

/-- **C90, addresses inside a word.**  An offset that is not the address of a word is rounded down without a message. -/
theorem c90_not_offset (mem : List I64) (a : Arr) (c sw off : ℕ) (al : Option ℕ) (hc : 0 < c) :
    setMemory mem a (8 * c) sw off al = setMemory mem a (8 * c) sw (off - off % c) al := by
  have hcd : cdiv (8 * c) 8 = c := by rw [Nat.mul_comm]; exact cdiv_mul c 8 (by omega)
  have : (off - off % c) / c = off / c := by
    have hd := Nat.div_add_mod off c
    rw [show off - off % c = c * (off / c) by omega, Nat.mul_div_cancel_left _ hc]
  simp only [setMemory, setNarrow, setWide, hcd, this]

/-- **C90, other widths.**  Elements of 24 bits in words of 32 bits: two elements are put into a word, the upper 16 bits of the
    second one are lost. -/
theorem c90_not_width (mem : List I64) (x y : I64) (z : BitVec 16) (off : ℕ) :
    setMemory mem ⟨2, [[x, y]]⟩ 32 24 off none =
      setMemory mem ⟨2, [[x, (y &&& 255#64) ||| (z.setWidth 64 <<< 8)]]⟩ 32 24 off none := by
  have hre : ∀ u v : I64, setMemory mem ⟨2, [[u, v]]⟩ 32 24 off none = put mem (off / 4) [orAll (shiftRow 2 32 24 [u, v])] := by
    intro u v
    rw [setMemory, if_neg (by omega), setWide, if_neg (by omega)]
    simp only [alignOpt, Option.bind_eq_bind, Option.bind_some]
    rw [show cdiv 32 24 = 2 by decide, show cdiv 32 8 = 4 by decide, padCols, if_pos (by simp)]
    simp only [Option.bind_some, List.map_cons, List.map_nil, List.flatten_cons, List.flatten_nil, List.append_nil]
    rw [reshape, if_pos (by simp [shiftRow])]
    simp [shiftRow]
  have key : ∀ y' : I64, (∀ b, b < 8 → y'.getLsbD b = y.getLsbD b) → shiftRow 2 32 24 [x, y'] = shiftRow 2 32 24 [x, y] := by
    intro y' hy
    have : ((y' &&& mask 24) <<< (24 * ((0 + 1) % 2))) &&& mask 32 = ((y &&& mask 24) <<< (24 * ((0 + 1) % 2))) &&& mask 32 := by
      apply BitVec.eq_of_getLsbD_eq
      intro b _
      rw [BitVec.getLsbD_and, BitVec.getLsbD_and, BitVec.getLsbD_shiftLeft, BitVec.getLsbD_shiftLeft, BitVec.getLsbD_and,
        BitVec.getLsbD_and, mask_bit, mask_bit]
      by_cases h : b < 32
      · rw [hy (b - 24 * ((0 + 1) % 2)) (by omega)]
      · rw [show decide (b < 32) = false by simpa using h, Bool.and_false, Bool.and_false, Bool.and_false]
    simp only [shiftRow, List.mapIdx_cons, List.mapIdx_nil]
    rw [this]
  refine (hre x y).trans (Eq.trans ?_ (hre x _).symm)
  have := key ((y &&& 255#64) ||| (z.setWidth 64 <<< 8)) ?_
  · rw [this]
  intro b hb
  rw [BitVec.getLsbD_or, BitVec.getLsbD_and, BitVec.getLsbD_shiftLeft, show 255#64 = mask 8 by decide, mask_bit,
    show decide (b < 8) = true by simpa using hb, show decide (b < 64) = true by simp; omega]
  simp

/-- **C90, length.**  `to_memory_image` with a `length` larger than the array writes no more than without it: the padded array is
    computed and thrown away. -/
theorem c90_not_length (n dw ww : ℕ) (big : Bool) (a : List I64) (h : a.length ≤ n) :
    toMemoryImage (some n) dw ww big a = toMemoryImage none dw ww big a := by
  simp only [toMemoryImage, imageWords, if_neg (by omega : ¬ a.length > n)]

/-- **C90, big endian** images cannot be written: numpy arrays have no `reverse`. -/
theorem c90_not_big (length : Option ℕ) (dw ww : ℕ) (a : List I64) : toMemoryImage length dw ww true a = none := by
  simp only [toMemoryImage, imageWords]
  split
  · rfl
  split
  · rfl
  rfl

/-- **C90, incomplete words.**  If several elements make a word, an array that does not fill the last word raises an exception. -/
theorem c90_not_fill (dw ww n : ℕ) (hd : 0 < dw) (e : ww = n * dw) (hn : 1 < n) (a : List I64) (h : a.length % n ≠ 0) :
    toMemoryImage none dw ww false a = none := by
  have hlt : dw < ww := by
    rw [e]; have := Nat.mul_le_mul_right dw (by omega : 2 ≤ n); omega
  simp only [toMemoryImage, imageWords]
  split
  · rfl
  rw [if_neg (by omega), if_neg (by simp), if_neg (by omega)]
  split
  · rfl
  · rw [e, cdiv_mul n dw hd, reshape, if_neg h]; rfl

/-- **C90, words of more than 64 bits.**  Elements beyond bit 64 of a word are lost. -/
theorem c90_not_words (x y z w z' w' : I64) :
    toMemoryImage none 32 128 false [x, y, z, w] = toMemoryImage none 32 128 false [x, y, z', w'] := by
  have hz : ∀ v : I64, ∀ k, 64 ≤ k → (v &&& mask 32) <<< k = 0 := by
    intro v k hk
    apply BitVec.eq_of_getLsbD_eq
    intro b hb
    rw [BitVec.getLsbD_shiftLeft]
    simp; omega
  have key : ∀ z w : I64, imageWords none 32 128 false [x, y, z, w] =
      some [orAll [(x &&& mask 32) <<< (32 * 0), (y &&& mask 32) <<< (32 * 1), 0, 0]] := by
    intro z w
    simp only [imageWords]
    rw [if_neg (by simp), if_neg (by omega), if_neg (by simp), if_neg (by omega), if_neg (by omega), show cdiv 128 32 = 4 by decide,
      reshape, if_pos (by simp)]
    simp only [List.length_cons, List.length_nil, Nat.reduceAdd, Nat.reduceDiv, List.range_one, List.map_cons, List.map_nil,
      Nat.zero_mul, List.drop_zero, List.take_succ_cons, List.take_nil, Option.map_some, List.mapIdx_cons, List.mapIdx_nil]
    rw [hz z _ (by omega), hz w _ (by omega)]
  rw [toMemoryImage, toMemoryImage, key, key]

/-! ## Examples -/

namespace Ex90

/-- A 2 by 3 array of 16-bit elements. -/
def src : Arr := ⟨3, [[1, 2, 3], [4, -1, 6]]⟩

/-- Rows aligned to 4 elements in a memory of 32-bit words. -/
example : Layout (perWord 32 16) src.cols src.rows.length (some 4) 4 8 :=
  .align 4 4 (by omega) (by decide) ⟨1, rfl⟩ (by decide) (by decide) (by decide)

example : src.Ok := by
  intro r hr
  simp [src] at hr
  rcases hr with rfl | rfl <;> rfl

/-- The memory after `set_memory(mem, src, 32, 16, 4, num_align_words=4)`. -/
example : setMemory (List.replicate 6 7) src 32 16 4 (some 4) = some [7, 0x20001, 3, 0xffff0004, 6, 7] := by decide

/-- Words of one element each. -/
example : setMemory (List.replicate 3 7) ⟨2, [[5, -2]]⟩ 16 16 2 none = some [7, 5, 0xfffe] := by decide

/-- Elements of two words each. -/
example : setMemory (List.replicate 5 7) ⟨2, [[0x12345, -2]]⟩ 16 32 2 none = some [7, 0x2345, 1, 0xfffe, 0xffff] := by decide

/-- Without alignment the rows of this array do not fill words. -/
example : setMemory (List.replicate 6 7) src 32 16 4 none = none :=
  c90_not_pad _ _ 32 16 4 2 (by omega) (by omega) (by rfl) (by decide) (by decide)

/-- The text of an image and what is read from it. -/
example : (toMemoryImage none 16 8 false [0x1203, -2]).map Prod.fst = some "03\n12\nfe\nff\n".toList := by decide
example : readmemh "03\n12\nfe\nff\n".toList none = some [3, 0x12, 0xfe, 0xff] := by decide

/-- The sizes of the example `thread_matmul`: 16 by 16 elements of 32 bits take one block of 1024 elements. -/
example : memorySize [16, 16] 32 none 4096 = some 1024 := by decide
example : memorySize [3, 5] 8 (some 32) 4096 = some 4096 ∧ alignedShape [3, 5] 8 32 = some [3, 8] := by decide

/-- An element read back. -/
example (u : ℕ → ℕ) (hu : ∀ y, u y < 256) :
    ∃ mem' size M, setMemory (List.replicate 6 7) src 32 16 4 (some 4) = some mem' ∧
      initMem 4 32 (some (mem', none)) u = some (size, M) ∧ AxiWord.readWord M 5 4 16 = 0xffff := by
  obtain ⟨mem', size, M, h1, h2, h3⟩ := c90_read (mw := 32) (sw := 16) (n := 2) (c := 4) rfl (by omega) (by omega) (by omega)
    (by omega) (.inl rfl) (by omega) (List.replicate 6 7) src
    (by intro r hr; simp [src] at hr; rcases hr with rfl | rfl <;> rfl) 4
    (.align 4 4 (by omega) (by decide) ⟨1, rfl⟩ (by decide) (by decide) (by decide)) (by decide) (by decide) (by decide) 4 u hu
  exact ⟨mem', size, M, h1, h2, h3 1 1 (by decide) (by decide) (by omega)⟩

/-- Two different arrays of 24-bit elements give the same memory. -/
example : setMemory [0] ⟨2, [[1, 0x800002]]⟩ 32 24 0 none = setMemory [0] ⟨2, [[1, 2]]⟩ 32 24 0 none := by decide

end Ex90

end MemImg
