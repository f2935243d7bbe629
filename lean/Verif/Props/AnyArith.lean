import Verif.Lemmas.AnyArithMem
import Verif.Lemmas.NormIeee
import Mathlib.Data.List.GetD

/-! # C93: memory of the partitioned convolvers in any arithmetic, and what a NaN does to them -/

namespace Neo.Props

open Neo Spec

section any
variable {R C : Type} [Zero R] [Add R] [Mul R] [Zero C] [AddCommMagma C] [Sub C] [Mul C]

private theorem lens {α : Type} (d : α) {B : ℕ} {blocks : List (List α)} (hb : ∀ b ∈ blocks, b.length = B)
    (o : ℕ → ℕ → α) : (vec blocks.length (fun t => vec B (o t))).map List.length = blocks.map List.length := by
  have h := blocks_eq_vec d blocks hb
  rw [vec_const_len]
  conv_rhs => rw [h]
  rw [vec_const_len]

private theorem agree {B N t t' : ℕ} {blocks blocks' : List (List R)} (hb : ∀ b ∈ blocks, b.length = B)
    (hb' : ∀ b ∈ blocks', b.length = B) (ht : t < blocks.length) (ht' : t' < blocks'.length)
    (h : ∀ j ≤ N, j ≤ t → blocks.getD (t - j) [] = blocks'.getD (t' - j) []) :
    ∀ j ≤ N, j ≤ t → ∀ i < B,
      blocks.flatten.getD ((t - j) * B + i) 0 = blocks'.flatten.getD ((t' - j) * B + i) 0 := by
  intro j hj hjt i hi
  rw [flatten_getD 0 hb (by omega) hi, flatten_getD 0 hb' (by omega) hi, h j hj hjt]

/-- **C93** (overlap-add, memory).  Two runs of a fresh `upola_convolver` with the same filter of `N` partitions, over any
number types whatever their operations do (rounding, overflow, NaN).  If the last `N + 1` input blocks up to block `t` of
one run and block `t'` of the other agree, then so do the output blocks `t` and `t'`, bit for bit, provided `t = t'` or
both are past the first `N` blocks and in the same place of the delay line. -/
theorem C93_memory_upola (A : Arith R C) {a : ℕ} (ha : 1 ≤ a) (ha2 : a ≤ 26) {v : MatView} {data : List C}
    (hv : v.InRange data.length) (hr : 1 ≤ v.rows) (hc : v.cols = 2 ^ a + 1) (blocks blocks' : List (List R))
    (hb : ∀ b ∈ blocks, b.length = 2 ^ a) (hb' : ∀ b ∈ blocks', b.length = 2 ^ a) :
    ∃ outs outs', upolaRunG A v data blocks = .ok outs ∧ upolaRunG A v data blocks' = .ok outs' ∧
      outs.map List.length = blocks.map List.length ∧ outs'.map List.length = blocks'.map List.length ∧
      ∀ t t', t < blocks.length → t' < blocks'.length → t % v.rows = t' % v.rows →
        (t = t' ∨ (v.rows ≤ t ∧ v.rows ≤ t')) →
        (∀ j ≤ v.rows, j ≤ t → blocks.getD (t - j) [] = blocks'.getD (t' - j) []) →
        outs.getD t [] = outs'.getD t' [] := by
  refine ⟨_, _, upolaRunG_eq ha ha2 hv hr hc blocks hb, upolaRunG_eq ha ha2 hv hr hc blocks' hb',
    lens 0 hb _, lens 0 hb' _, ?_⟩
  intro t t' ht ht' hm hz h
  rw [getD_vec _ _ _ _ ht, getD_vec _ _ _ _ ht']
  exact vec_ext fun i _ => ola_memory _ hr hm hz (agree hb hb' ht ht' h) i

/-- **C93** (overlap-save, memory).  The same for `upols_convolver`. -/
theorem C93_memory_upols (A : Arith R C) {a : ℕ} (ha : 1 ≤ a) (ha2 : a ≤ 26) {v : MatView} {data : List C}
    (hv : v.InRange data.length) (hr : 1 ≤ v.rows) (hc : v.cols = 2 ^ a + 1) (blocks blocks' : List (List R))
    (hb : ∀ b ∈ blocks, b.length = 2 ^ a) (hb' : ∀ b ∈ blocks', b.length = 2 ^ a) :
    ∃ outs outs', upolsRunG A v data blocks = .ok outs ∧ upolsRunG A v data blocks' = .ok outs' ∧
      outs.map List.length = blocks.map List.length ∧ outs'.map List.length = blocks'.map List.length ∧
      ∀ t t', t < blocks.length → t' < blocks'.length → t % v.rows = t' % v.rows →
        (t = t' ∨ (v.rows ≤ t ∧ v.rows ≤ t')) →
        (∀ j ≤ v.rows, j ≤ t → blocks.getD (t - j) [] = blocks'.getD (t' - j) []) →
        outs.getD t [] = outs'.getD t' [] := by
  refine ⟨_, _, upolsRunG_eq ha ha2 hv hr hc blocks hb, upolsRunG_eq ha ha2 hv hr hc blocks' hb',
    lens 0 hb _, lens 0 hb' _, ?_⟩
  intro t t' ht ht' hm hz h
  rw [getD_vec _ _ _ _ ht, getD_vec _ _ _ _ ht']
  exact vec_ext fun i _ => ols_memory _ hr hm hz (agree hb hb' ht ht' h) i

end any

section nan
variable {f : Fmt}

private theorem getD_set_ne {α : Type} (l : List (List α)) (i t : ℕ) (b : List α) (h : i ≠ t) :
    (l.set i b).getD t [] = l.getD t [] := by
  rw [List.getD_eq_getElem?_getD, List.getD_eq_getElem?_getD, List.getElem?_set_ne h]

private theorem mem_set_len {α : Type} {l : List (List α)} {i n : ℕ} {c : List α} (hl : ∀ b ∈ l, b.length = n)
    (hc : c.length = n) : ∀ b ∈ l.set i c, b.length = n := by
  intro b hb
  rcases List.mem_or_eq_of_mem_set hb with h | h
  · exact hl b h
  · rw [h, hc]

private theorem nan_index {B : ℕ} {blocks : List (List (IR f))} (hb : ∀ b ∈ blocks, b.length = B) {i : ℕ}
    (hi : i < blocks.length) (h : (⟨.nan⟩ : IR f) ∈ blocks.getD i []) :
    ∃ i0 < B, blocks.flatten.getD (i * B + i0) 0 = ⟨.nan⟩ := by
  obtain ⟨i0, h0, e⟩ := List.getElem_of_mem h
  have hl : (blocks.getD i []).length = B := by
    rw [List.getD_eq_getElem _ _ hi]
    exact hb _ (List.getElem_mem _)
  refine ⟨i0, by omega, ?_⟩
  rw [flatten_getD 0 hb hi (by omega), List.getD_eq_getElem _ _ h0, e]

/-- **C93** (overlap-add, NaN).  `upola_convolver` in IEEE arithmetic of any binary format, with any filter and any
twiddle tables.  A NaN anywhere in input block `i` turns every sample of the output blocks `i, …, i + N` into NaN, the
samples before it included; every other output block is the one obtained had block `i` been anything else. -/
theorem C93_nan_upola (tw : ℕ → ℕ → Direction → IC f) {a : ℕ} (ha : 1 ≤ a) (ha2 : a ≤ 26) {v : MatView}
    {data : List (IC f)} (hv : v.InRange data.length) (hr : 1 ≤ v.rows) (hc : v.cols = 2 ^ a + 1)
    (blocks : List (List (IR f))) (hb : ∀ b ∈ blocks, b.length = 2 ^ a) (i : ℕ) (hi : i < blocks.length)
    (hnan : (⟨.nan⟩ : IR f) ∈ blocks.getD i []) :
    ∃ outs, upolaRunG (ieeeArith f tw) v data blocks = .ok outs ∧
      outs.map List.length = blocks.map List.length ∧
      (∀ t, i ≤ t → t ≤ i + v.rows → ∀ y ∈ outs.getD t [], y = ⟨.nan⟩) ∧
      ∀ b : List (IR f), b.length = 2 ^ a →
        ∃ outs', upolaRunG (ieeeArith f tw) v data (blocks.set i b) = .ok outs' ∧
          ∀ t < blocks.length, (t < i ∨ i + v.rows < t) → outs.getD t [] = outs'.getD t [] := by
  refine ⟨_, upolaRunG_eq ha ha2 hv hr hc blocks hb, lens 0 hb _, ?_, ?_⟩
  · intro t h1 h2 y hy
    obtain ⟨i0, h0, e⟩ := nan_index hb hi hnan
    by_cases ht : t < blocks.length
    · rw [getD_vec _ _ _ _ ht] at hy
      obtain ⟨n, hn, rfl⟩ := List.mem_map.1 hy
      exact ola_nan _ _ hr h0 e h1 h2 (List.mem_range.1 hn)
    · rw [List.getD_eq_default _ _ (by rw [length_vec]; omega)] at hy
      exact absurd hy List.not_mem_nil
  · intro b hbl
    have hset := mem_set_len (i := i) hb hbl
    refine ⟨_, upolaRunG_eq ha ha2 hv hr hc _ hset, ?_⟩
    intro t ht hout
    rw [getD_vec _ _ _ _ ht, getD_vec _ _ _ _ (by rw [List.length_set]; exact ht)]
    refine vec_ext fun n _ => ola_memory _ hr rfl (Or.inl rfl)
      (agree hb hset ht (by rw [List.length_set]; exact ht) fun j hj hjt => ?_) n
    rw [getD_set_ne _ _ _ _ (by omega)]

/-- **C93** (overlap-save, NaN).  The same for `upols_convolver`. -/
theorem C93_nan_upols (tw : ℕ → ℕ → Direction → IC f) {a : ℕ} (ha : 1 ≤ a) (ha2 : a ≤ 26) {v : MatView}
    {data : List (IC f)} (hv : v.InRange data.length) (hr : 1 ≤ v.rows) (hc : v.cols = 2 ^ a + 1)
    (blocks : List (List (IR f))) (hb : ∀ b ∈ blocks, b.length = 2 ^ a) (i : ℕ) (hi : i < blocks.length)
    (hnan : (⟨.nan⟩ : IR f) ∈ blocks.getD i []) :
    ∃ outs, upolsRunG (ieeeArith f tw) v data blocks = .ok outs ∧
      outs.map List.length = blocks.map List.length ∧
      (∀ t, i ≤ t → t ≤ i + v.rows → ∀ y ∈ outs.getD t [], y = ⟨.nan⟩) ∧
      ∀ b : List (IR f), b.length = 2 ^ a →
        ∃ outs', upolsRunG (ieeeArith f tw) v data (blocks.set i b) = .ok outs' ∧
          ∀ t < blocks.length, (t < i ∨ i + v.rows < t) → outs.getD t [] = outs'.getD t [] := by
  refine ⟨_, upolsRunG_eq ha ha2 hv hr hc blocks hb, lens 0 hb _, ?_, ?_⟩
  · intro t h1 h2 y hy
    obtain ⟨i0, h0, e⟩ := nan_index hb hi hnan
    by_cases ht : t < blocks.length
    · rw [getD_vec _ _ _ _ ht] at hy
      obtain ⟨n, hn, rfl⟩ := List.mem_map.1 hy
      exact ols_nan _ _ hr h0 e h1 h2 (List.mem_range.1 hn)
    · rw [List.getD_eq_default _ _ (by rw [length_vec]; omega)] at hy
      exact absurd hy List.not_mem_nil
  · intro b hbl
    have hset := mem_set_len (i := i) hb hbl
    refine ⟨_, upolsRunG_eq ha ha2 hv hr hc _ hset, ?_⟩
    intro t ht hout
    rw [getD_vec _ _ _ _ ht, getD_vec _ _ _ _ (by rw [List.length_set]; exact ht)]
    refine vec_ext fun n _ => ols_memory _ hr rfl (Or.inl rfl)
      (agree hb hset ht (by rw [List.length_set]; exact ht) fun j hj hjt => ?_) n
    rw [getD_set_ne _ _ _ _ (by omega)]

end nan

/-! ## The place in the delay line matters -/

section order

/-- `x + y i` in binary32. -/
private noncomputable def c32 (x y : ℝ) : IC binary32 := ⟨.fin x, .fin y⟩

/-- Exact twiddle tables for size 4. -/
private noncomputable def tw4 (_ : ℕ) (i : ℕ) (dir : Direction) : IC binary32 :=
  if i = 0 then c32 1 0 else c32 0 (if dir = .forward then -1 else 1)

/-- A filter of three partitions: `2 ^ 24`, `1` and `1` in bin 0. -/
private noncomputable def data3 : List (IC binary32) :=
  [c32 16777216 0, c32 0 0, c32 0 0, c32 1 0, c32 0 0, c32 0 0, c32 1 0, c32 0 0, c32 0 0]

private def view3 : MatView := { rows := 3, cols := 3, off := 0, s0 := 3, s1 := 1 }

private theorem r_int (m : ℤ) (k : ℤ) (hm : |m| < 2 ^ 24) (hk : -149 ≤ k) (hk2 : k ≤ 100) :
    binary32.round (.fin (m * (2 : ℝ) ^ k)) = .fin (m * (2 : ℝ) ^ k) := by
  apply round_mem ⟨m, k, hm, hk, rfl⟩
  rw [abs_mul, abs_of_pos (two_zpow_pos k)]
  have h1 : |(m : ℝ)| < 2 ^ 24 := by exact_mod_cast hm
  calc |(m : ℝ)| * (2 : ℝ) ^ k < 2 ^ 24 * (2 : ℝ) ^ k := mul_lt_mul_of_pos_right h1 (two_zpow_pos k)
    _ = (2 : ℝ) ^ (24 + k) := by rw [zpow_add₀ (by norm_num)]; norm_num
    _ ≤ (2 : ℝ) ^ (128 : ℤ) := zpow_le_zpow_right₀ (by norm_num) (by omega)

private theorem r0 : binary32.round (.fin 0) = .fin 0 := by
  have := r_int 0 0 (by norm_num) (by norm_num) (by norm_num); simpa using this
private theorem r1 : binary32.round (.fin 1) = .fin 1 := by
  have := r_int 1 0 (by norm_num) (by norm_num) (by norm_num); simpa using this
private theorem rn1 : binary32.round (.fin (-1)) = .fin (-1) := by
  have := r_int (-1) 0 (by norm_num) (by norm_num) (by norm_num); simpa using this
private theorem r2 : binary32.round (.fin 2) = .fin 2 := by
  have := r_int 2 0 (by norm_num) (by norm_num) (by norm_num); simpa using this
private theorem r4 : binary32.round (.fin 4) = .fin 4 := by
  have := r_int 4 0 (by norm_num) (by norm_num) (by norm_num); simpa using this
private theorem rq : binary32.round (.fin (1 / 4)) = .fin (1 / 4) := by
  have := r_int 1 (-2) (by norm_num) (by norm_num) (by norm_num); norm_num at this ⊢; exact this
private theorem r25 : binary32.round (.fin 33554432) = .fin 33554432 := by
  have := r_int 1 25 (by norm_num) (by norm_num) (by norm_num); norm_num at this; exact this
private theorem r254 : binary32.round (.fin 33554436) = .fin 33554436 := by
  have := r_int 8388609 2 (by norm_num) (by norm_num) (by norm_num); norm_num at this; exact this
private theorem r23 : binary32.round (.fin 8388608) = .fin 8388608 := by
  have := r_int 8388608 0 (by norm_num) (by norm_num) (by norm_num); norm_num at this; exact this
private theorem r231 : binary32.round (.fin 8388609) = .fin 8388609 := by
  have := r_int 8388609 0 (by norm_num) (by norm_num) (by norm_num); norm_num at this; exact this

/-- Half way between two numbers of the format, the even one below. -/
private theorem rtie : binary32.round (.fin 33554434) = .fin 33554432 := by
  have hl : Int.log 2 |(33554434 : ℝ)| = 25 := by
    rw [abs_of_pos (by norm_num)]
    have : (33554434 : ℝ) = ((33554434 : ℕ) : ℝ) := by norm_num
    rw [this, Int.log_natCast]
    decide +kernel
  have he : binary32.ulpExp 33554434 = 2 := by
    unfold Fmt.ulpExp
    rw [hl]
    decide +kernel
  have hr : rne (33554434 * (2 : ℝ) ^ (-(2 : ℤ))) = 8388608 := by
    have e : (33554434 : ℝ) * (2 : ℝ) ^ (-(2 : ℤ)) = ((8388608 : ℤ) : ℝ) + 1 / 2 := by norm_num
    have hf : ⌊((8388608 : ℤ) : ℝ) + 1 / 2⌋ = 8388608 := by
      rw [Int.floor_eq_iff]; norm_num
    have hfr : Int.fract (((8388608 : ℤ) : ℝ) + 1 / 2) = 1 / 2 := by
      unfold Int.fract; rw [hf]; ring
    rw [e]
    unfold rne
    rw [hfr, if_neg (lt_irrefl _), if_neg (lt_irrefl _), hf, if_pos (by decide)]
  have h : binary32.rndInf 33554434 = 33554432 := by
    unfold Fmt.rndInf
    rw [he, hr]
    norm_num
  have hlt : |binary32.rndInf 33554434| < (2 : ℝ) ^ binary32.emax := by
    rw [h]
    have : (2 : ℝ) ^ (26 : ℤ) ≤ (2 : ℝ) ^ (128 : ℤ) := zpow_le_zpow_right₀ (by norm_num) (by norm_num)
    refine lt_of_lt_of_le ?_ this
    norm_num [abs_of_pos]
  rw [round_fin_of_lt hlt, h]

private theorem c_add (a b c d : ℝ) : c32 a b + c32 c d = ⟨binary32.round (.fin (a + c)), binary32.round (.fin (b + d))⟩ := rfl
private theorem c_sub (a b c d : ℝ) : c32 a b - c32 c d = ⟨binary32.round (.fin (a - c)), binary32.round (.fin (b - d))⟩ := by
  rw [sub_eq_add_neg, sub_eq_add_neg]; rfl
private theorem c_mul (a b c d : ℝ) : c32 a b * c32 c d
    = ⟨binary32.round ((binary32.round (.fin (a * c))).sub (binary32.round (.fin (b * d)))),
      binary32.round ((binary32.round (.fin (a * d))).add (binary32.round (.fin (b * c))))⟩ := rfl

private theorem dit4 (A : Arith (IR binary32) (IC binary32)) (dir : Direction) (x : ℕ → IC binary32) :
    ditGn A 2 dir x 0 = (x 0 + x 2) + A.twiddle 4 0 dir * (x 1 + x 3) ∧
    ditGn A 2 dir x 1 = (x 0 - x 2) + A.twiddle 4 1 dir * (x 1 - x 3) ∧
    ditGn A 2 dir x 2 = (x 0 + x 2) - A.twiddle 4 0 dir * (x 1 + x 3) ∧
    ditGn A 2 dir x 3 = (x 0 - x 2) - A.twiddle 4 1 dir * (x 1 - x 3) :=
  ⟨rfl, rfl, rfl, rfl⟩

private noncomputable def A4 : Arith (IR binary32) (IC binary32) := ieeeArith binary32 tw4

private theorem mk_eq (a b : ℝ) : (⟨.fin a, .fin b⟩ : IC binary32) = c32 a b := rfl
private theorem zero_eq : (0 : IC binary32) = c32 0 0 := rfl

/-- The spectrum of the window `1, 0, 1, 0`. -/
private theorem spec4 {x : ℕ → IR binary32} (h0 : x 0 = ⟨.fin 1⟩) (h1 : x 1 = ⟨.fin 0⟩) (h2 : x 2 = ⟨.fin 1⟩)
    (h3 : x 3 = ⟨.fin 0⟩) :
    rfftGn A4 2 x 0 = c32 2 0 ∧ rfftGn A4 2 x 1 = c32 0 0 ∧ rfftGn A4 2 x 2 = c32 2 0 := by
  obtain ⟨e0, e1, e2, -⟩ := dit4 A4 .forward (fun i => A4.ofReal (x i))
  have o0 : A4.ofReal (x 0) = c32 1 0 := by rw [h0]; rfl
  have o1 : A4.ofReal (x 1) = c32 0 0 := by rw [h1]; rfl
  have o2 : A4.ofReal (x 2) = c32 1 0 := by rw [h2]; rfl
  have o3 : A4.ofReal (x 3) = c32 0 0 := by rw [h3]; rfl
  have w0 : A4.twiddle 4 0 .forward = c32 1 0 := by show tw4 4 0 .forward = _; simp [tw4]
  have w1 : A4.twiddle 4 1 .forward = c32 0 (-1) := by show tw4 4 1 .forward = _; simp [tw4]
  unfold rfftGn
  rw [e0, e1, e2, o0, o1, o2, o3, w0, w1]
  norm_num [c_add, c_sub, c_mul, FVal.sub, FVal.add, FVal.neg, r0, r1, r2, mk_eq]

/-- A spectrum with only bin 0. -/
private theorem out4 {Y : ℕ → IC binary32} {y q : ℝ} (h0 : Y 0 = c32 y 0) (h1 : Y 1 = c32 0 0) (h2 : Y 2 = c32 0 0)
    (hy : binary32.round (.fin y) = .fin y) (hq : binary32.round (.fin (y * (1 / 4))) = .fin q) :
    specOutG A4 2 Y 2 = ⟨.fin q⟩ := by
  obtain ⟨-, -, e2, -⟩ := dit4 A4 .backward (hermG A4 2 Y)
  have o0 : hermG A4 2 Y 0 = c32 y 0 := h0
  have o1 : hermG A4 2 Y 1 = c32 0 0 := h1
  have o2 : hermG A4 2 Y 2 = c32 0 0 := h2
  have o3 : hermG A4 2 Y 3 = c32 0 0 := by
    show A4.conj (Y 1) = _
    rw [h1]
    show IC.mk (.fin 0) (.fin (-0)) = _
    rw [neg_zero]; rfl
  have w0 : A4.twiddle 4 0 .backward = c32 1 0 := by show tw4 4 0 .backward = _; simp [tw4]
  have hi : A4.invSize (2 ^ 2) = ⟨.fin (1 / 4)⟩ := by
    show (⟨binary32.round (FVal.div (.fin 1) (binary32.round (.fin ((2 ^ 2 : ℕ) : ℝ))))⟩ : IR binary32) = _
    have : ((2 ^ 2 : ℕ) : ℝ) = 4 := by norm_num
    rw [this, r4]
    simp only [FVal.div]
    rw [if_neg (by norm_num), rq]
  have e : ditGn A4 2 .backward (hermG A4 2 Y) 2 = c32 y 0 := by
    rw [e2, o0, o1, o2, o3, w0]
    norm_num [c_add, c_sub, c_mul, FVal.sub, FVal.add, FVal.neg, r0, hy, mk_eq]
  unfold specOutG irfftGn
  rw [e, hi]
  show (⟨binary32.round (.fin (y * (1 / 4)))⟩ : IR binary32) = _
  rw [hq]

/-- The spectra of the windows of the steady input. -/
private noncomputable def X4 : ℕ → ℕ → IC binary32 :=
  winSpecG A4 1 (saveWindow (2 ^ 1))
    (fun i => (List.replicate 6 ([⟨.fin 1⟩, ⟨.fin 0⟩] : List (IR binary32))).flatten.getD i 0)

private theorem x4_eq (t : ℕ) (ht : 1 ≤ t ∧ t ≤ 5) :
    X4 t 0 = c32 2 0 ∧ X4 t 1 = c32 0 0 ∧ X4 t 2 = c32 2 0 := by
  obtain ⟨h1, h2⟩ := ht
  interval_cases t <;> exact spec4 rfl rfl rfl rfl

/-- **C93** (the sum is taken in the order of the slots).  A filter with three partitions, in binary32, fed with six times
the same block: the output blocks 3 and 5 have seen the same four input blocks and still differ.  So the agreement of
`t` and `t'` modulo the number of partitions cannot be dropped from `C93_memory_upols`: the output of a steady input need
not be steady. -/
theorem C93_slot_order : ∃ (tw : ℕ → ℕ → Direction → IC binary32) (v : MatView) (data : List (IC binary32))
    (outs : List (List (IR binary32))), v.InRange data.length ∧ v.rows = 3 ∧ v.cols = 3 ∧
      upolsRunG (ieeeArith binary32 tw) v data (List.replicate 6 [⟨.fin 1⟩, ⟨.fin 0⟩]) = .ok outs ∧
      (outs.getD 3 []).getD 0 0 = ⟨.fin 8388608⟩ ∧ (outs.getD 5 []).getD 0 0 = ⟨.fin 8388609⟩ := by
  refine ⟨tw4, view3, data3, _, ?_, rfl, rfl, upolsRunG_eq (a := 1) le_rfl (by norm_num) ?_ (by decide) rfl _ ?_, ?_, ?_⟩
  · intro r hr c hc
    have h1 : r < 3 := hr
    have h2 : c < 3 := hc
    show 0 + r * 3 + c * 1 < 9
    omega
  · intro r hr c hc
    have h1 : r < 3 := hr
    have h2 : c < 3 := hc
    show 0 + r * 3 + c * 1 < 9
    omega
  · intro b hb
    rw [List.eq_of_mem_replicate hb]
    rfl
  · show olsOutG A4 1 _ 3 0 = _
    refine out4 (y := 33554432) ?_ ?_ ?_ r25 (by norm_num [r23])
    · show ((0 + X4 3 0 * c32 16777216 0) + X4 1 0 * c32 1 0) + X4 2 0 * c32 1 0 = _
      rw [(x4_eq 3 (by decide)).1, (x4_eq 1 (by decide)).1, (x4_eq 2 (by decide)).1, zero_eq]
      norm_num [c_add, c_mul, FVal.sub, FVal.add, FVal.neg, r0, r2, r25, rtie, mk_eq]
    · show ((0 + X4 3 1 * c32 0 0) + X4 1 1 * c32 0 0) + X4 2 1 * c32 0 0 = _
      rw [(x4_eq 3 (by decide)).2.1, (x4_eq 1 (by decide)).2.1, (x4_eq 2 (by decide)).2.1, zero_eq]
      norm_num [c_add, c_mul, FVal.sub, FVal.add, FVal.neg, r0, mk_eq]
    · show ((0 + X4 3 2 * c32 0 0) + X4 1 2 * c32 0 0) + X4 2 2 * c32 0 0 = _
      rw [(x4_eq 3 (by decide)).2.2, (x4_eq 1 (by decide)).2.2, (x4_eq 2 (by decide)).2.2, zero_eq]
      norm_num [c_add, c_mul, FVal.sub, FVal.add, FVal.neg, r0, mk_eq]
  · show olsOutG A4 1 _ 5 0 = _
    refine out4 (y := 33554436) ?_ ?_ ?_ r254 (by norm_num [r231])
    · show ((0 + X4 3 0 * c32 1 0) + X4 4 0 * c32 1 0) + X4 5 0 * c32 16777216 0 = _
      rw [(x4_eq 3 (by decide)).1, (x4_eq 4 (by decide)).1, (x4_eq 5 (by decide)).1, zero_eq]
      norm_num [c_add, c_mul, FVal.sub, FVal.add, FVal.neg, r0, r2, r4, r25, r254, mk_eq]
    · show ((0 + X4 3 1 * c32 0 0) + X4 4 1 * c32 0 0) + X4 5 1 * c32 0 0 = _
      rw [(x4_eq 3 (by decide)).2.1, (x4_eq 4 (by decide)).2.1, (x4_eq 5 (by decide)).2.1, zero_eq]
      norm_num [c_add, c_mul, FVal.sub, FVal.add, FVal.neg, r0, mk_eq]
    · show ((0 + X4 3 2 * c32 0 0) + X4 4 2 * c32 0 0) + X4 5 2 * c32 0 0 = _
      rw [(x4_eq 3 (by decide)).2.2, (x4_eq 4 (by decide)).2.2, (x4_eq 5 (by decide)).2.2, zero_eq]
      norm_num [c_add, c_mul, FVal.sub, FVal.add, FVal.neg, r0, mk_eq]

/-- The hypotheses hold for the filter of `C93_slot_order`, with a NaN in the third of eight blocks. -/
example : (∀ b ∈ (List.replicate 8 [⟨.fin 1⟩, ⟨.fin 0⟩]).set 2 [(⟨.fin 1⟩ : IR binary32), ⟨.nan⟩], b.length = 2 ^ 1) ∧
    (⟨.nan⟩ : IR binary32) ∈ ((List.replicate 8 [⟨.fin 1⟩, ⟨.fin 0⟩]).set 2 [⟨.fin 1⟩, ⟨.nan⟩]).getD 2 [] ∧
    view3.InRange data3.length ∧ 1 ≤ view3.rows ∧ view3.cols = 2 ^ 1 + 1 := by
  refine ⟨?_, List.mem_cons_of_mem _ (List.mem_cons_self ..), ?_, by decide, rfl⟩
  · apply mem_set_len
    · intro b hb
      rw [List.eq_of_mem_replicate hb]
      rfl
    · rfl
  · intro r hr c hc
    have h1 : r < 3 := hr
    have h2 : c < 3 := hc
    show 0 + r * 3 + c * 1 < 9
    omega

/-- Exact arithmetic is one of the arithmetics of `C93_memory_upola`. -/
noncomputable example : Arith ℝ ℂ where
  ofReal x := x
  conj z := ⟨z.re, -z.im⟩
  realPart z := z.re
  invSize n := 1 / n
  twiddle n i dir := twiddle n i dir

end order

end Neo.Props
