import Verif.Model.PyDct
import Verif.Props.Dct
import Verif.Lemmas.DftLaws

/-! # C84: the DCT formulas of `dct.py` -/

namespace Neo.Props

open Neo Finset

theorem mapM_eq_ok {α β : Type} {l : List α} {f : α → Res β} {g : α → β} (h : ∀ a ∈ l, f a = .ok (g a)) :
    l.mapM f = .ok (l.map g) := by
  induction l with
  | nil => rfl
  | cons a l ih =>
    rw [List.mapM_cons, h a (by simp), bind_ok, ih (fun b hb => h b (by simp [hb])), bind_ok]
    rfl

theorem pySlice_vec {α : Type} {n m : ℕ} {f : ℕ → α} {s t : Option ℤ} {st : ℤ} (a : ℤ) (h0 : st ≠ 0)
    (ha : pySliceStart n st s = a) (hm : pySliceLen a (pySliceStop n st t) st = m)
    (hr : ∀ i : ℕ, i < m → 0 ≤ a + i * st ∧ a + i * st < n) :
    pySlice (vec n f) s t st = .ok (vec m (fun i => f (a + i * st).toNat)) := by
  unfold pySlice
  rw [if_neg h0]
  simp only [length_vec, ha, hm]
  rw [mapM_eq_ok (g := fun (i : ℕ) => f (a + i * st).toNat)]
  · rfl
  · intro i hi
    have := hr i (List.mem_range.1 hi)
    exact rd_vec_ok (by omega)

/-- The prefix `x[:h]`. -/
theorem pySlice_prefix {α : Type} {n h : ℕ} (hh : h ≤ n) (f : ℕ → α) :
    pySlice (vec n f) none (some h) 1 = .ok (vec h f) := by
  rw [pySlice_vec (m := h) 0 (by norm_num) rfl]
  · congr 1
    exact vec_ext (fun i _ => by congr 1; omega)
  · unfold pySliceLen pySliceStop
    dsimp only
    split_ifs <;> omega
  · intro i hi
    omega

/-- Assigning to `y[:h]`. -/
theorem npAssign_prefix {α : Type} {n h : ℕ} (hh : h ≤ n) (f g : ℕ → α) :
    npAssign (vec n f) none (some h) (vec h g) = .ok (vec n (fun i => if i < h then g i else f i)) := by
  unfold npAssign
  have e : pySliceLen 0 (pySliceStop n 1 (some h)) 1 = h := by
    unfold pySliceLen pySliceStop
    dsimp only
    split_ifs <;> omega
  have ea : pySliceStart n 1 none = 0 := rfl
  simp only [length_vec, ea, e, if_true]
  rw [Int.toNat_zero, wrSpan_vec (by omega)]
  congr 1
  exact vec_ext (fun i _ => by simp)

/-- Assigning to `y[h:]`. -/
theorem npAssign_suffix {α : Type} {n h : ℕ} (hh : h ≤ n) (f g : ℕ → α) :
    npAssign (vec n f) (some h) none (vec (n - h) g) = .ok (vec n (fun i => if i < h then f i else g (i - h))) := by
  unfold npAssign
  have ea : pySliceStart n 1 (some h) = h := by
    unfold pySliceStart
    dsimp only
    split_ifs <;> omega
  have e : pySliceLen h (pySliceStop n 1 none) 1 = n - h := by
    unfold pySliceLen pySliceStop
    dsimp only
    split_ifs <;> omega
  simp only [length_vec, ea, e, if_true]
  rw [Int.toNat_natCast, wrSpan_vec (by omega)]
  congr 1
  apply vec_ext
  intro i hi
  by_cases h1 : i < h
  · rw [if_neg (by omega), if_pos h1]
  · rw [if_pos (by omega), if_neg h1]

theorem npMulInPlace_vec {α : Type} [Mul α] {n : ℕ} (f g : ℕ → α) :
    npMulInPlace (vec n f) (vec n g) = .ok (vec n (fun i => f i * g i)) := by
  unfold npMulInPlace
  rw [if_pos (by simp)]
  congr 1
  rw [eq_vec_iff]
  refine ⟨by simp, fun i hi => ?_⟩
  rw [List.getElem?_zipWith, getElem?_vec, getElem?_vec, if_pos hi, if_pos hi]

/-- The documented effect of `scipy.fft.fft`: the DFT of a non-empty array; an empty array raises. -/
def ScipyFft (fft : PyFftFn) : Prop :=
  (∀ n : ℕ, 1 ≤ n → ∀ f : ℕ → ℂ, fft (vec n f) = .ok (vec n (Spec.dft n f))) ∧ fft [] = .error .exception

theorem twiddle_re {N : ℕ} (hN : 0 < N) (M : ℕ) (hM : 0 < M) (a c : ℝ) (m k : ℕ) :
    ((a : ℂ) * Complex.exp (-(2 * Real.pi * Complex.I * m * k / (M : ℕ))) *
      ((c : ℂ) * Complex.exp (-1 * Complex.I * (Real.pi : ℂ) * (k : ℂ) / (2 * (N : ℂ))))).re
      = c * (a * Real.cos (2 * Real.pi * m * k / M + Real.pi * k / (2 * N))) := by
  have hN' : (N : ℂ) ≠ 0 := by exact_mod_cast hN.ne'
  have hM' : (M : ℂ) ≠ 0 := by exact_mod_cast hM.ne'
  have e : (a : ℂ) * Complex.exp (-(2 * Real.pi * Complex.I * m * k / (M : ℕ))) *
      ((c : ℂ) * Complex.exp (-1 * Complex.I * (Real.pi : ℂ) * (k : ℂ) / (2 * (N : ℂ))))
      = ((c * a : ℝ) : ℂ) *
        Complex.exp (((-(2 * Real.pi * m * k / M + Real.pi * k / (2 * N)) : ℝ) : ℂ) * Complex.I) := by
    have : Complex.exp (((-(2 * Real.pi * m * k / M + Real.pi * k / (2 * N)) : ℝ) : ℂ) * Complex.I)
        = Complex.exp (-(2 * Real.pi * Complex.I * m * k / (M : ℕ))) *
          Complex.exp (-1 * Complex.I * (Real.pi : ℂ) * (k : ℂ) / (2 * (N : ℂ))) := by
      rw [← Complex.exp_add]
      congr 1
      push_cast
      field_simp
      ring
    rw [this]
    push_cast
    ring
  rw [e, Complex.re_ofReal_mul, Complex.exp_ofReal_mul_I_re, Real.cos_neg]
  ring

theorem dft_twiddle_re {N : ℕ} (hN : 0 < N) (M : ℕ) (hM : 0 < M) (x : ℕ → ℝ) (c : ℝ) (k : ℕ) :
    (Spec.dft M (fun i => (x i : ℂ)) k *
      ((c : ℂ) * Complex.exp (-1 * Complex.I * (Real.pi : ℂ) * (k : ℂ) / (2 * (N : ℂ))))).re
      = c * ∑ m ∈ range M, x m * Real.cos (2 * Real.pi * m * k / M + Real.pi * k / (2 * N)) := by
  unfold Spec.dft
  rw [sum_mul, Complex.re_sum, mul_sum]
  apply sum_congr rfl
  intro m _
  exact twiddle_re hN M hM (x m) c m k

theorem pyDctTwiddle_eq (N : ℕ) : pyDctTwiddle N
    = vec N (fun k => Complex.exp (-1 * Complex.I * (Real.pi : ℂ) * (k : ℂ) / (2 * (N : ℂ)))) := rfl

/-- The mirrored formula. -/
theorem mirror_dct {N : ℕ} (hN : 0 < N) (x : ℕ → ℝ) (k : ℕ) :
    ∑ m ∈ range (2 * N), (if m < N then x m else x (N - 1 - (m - N))) *
      Real.cos (2 * Real.pi * m * k / (2 * N : ℕ) + Real.pi * k / (2 * N)) = Spec.dct2 N x k := by
  have hN' : (N : ℝ) ≠ 0 := by positivity
  rw [sum_ends]
  unfold Spec.dct2
  rw [mul_sum]
  apply sum_congr rfl
  intro m hm
  have hm := mem_range.1 hm
  rw [if_pos hm, if_neg (by omega), show N - 1 - (2 * N - 1 - m - N) = m by omega]
  have hc : ((2 * N - 1 - m : ℕ) : ℝ) = 2 * N - 1 - m := by
    rw [Nat.cast_sub (by omega), Nat.cast_sub (by omega)]; push_cast; ring
  have e1 : Real.cos (2 * Real.pi * m * k / (2 * N : ℕ) + Real.pi * k / (2 * N))
      = Real.cos (Real.pi * k * (2 * m + 1) / (2 * N)) := by
    congr 1; push_cast; field_simp
  have e2 : Real.cos (2 * Real.pi * (2 * N - 1 - m : ℕ) * k / (2 * N : ℕ) + Real.pi * k / (2 * N))
      = Real.cos (Real.pi * k * (2 * m + 1) / (2 * N)) := by
    rw [hc, ← Real.cos_neg (Real.pi * k * (2 * m + 1) / (2 * N)),
      ← Real.cos_add_nat_mul_two_pi (-(Real.pi * k * (2 * m + 1) / (2 * N))) k]
    congr 1; push_cast; field_simp; ring
  rw [e1, e2]
  ring

/-- The zero-padded formula. -/
theorem padded_dct {N : ℕ} (hN : 0 < N) (x : ℕ → ℝ) (k : ℕ) :
    2 * ∑ m ∈ range (2 * N), (if m < N then x m else 0) *
      Real.cos (2 * Real.pi * m * k / (2 * N : ℕ) + Real.pi * k / (2 * N)) = Spec.dct2 N x k := by
  have hN' : (N : ℝ) ≠ 0 := by positivity
  unfold Spec.dct2
  congr 1
  rw [two_mul, sum_range_add]
  have z : ∑ j ∈ range N, (if N + j < N then x (N + j) else 0) *
      Real.cos (2 * Real.pi * (N + j : ℕ) * k / (N + N : ℕ) + Real.pi * k / (2 * N)) = 0 :=
    sum_eq_zero (fun j _ => by rw [if_neg (by omega), zero_mul])
  rw [z, add_zero]
  apply sum_congr rfl
  intro m hm
  rw [if_pos (mem_range.1 hm)]
  congr 2; push_cast; field_simp; ring

/-- Makhoul's formula, for odd lengths too. -/
theorem makhoul_dct_any {N : ℕ} (hN : 0 < N) (x : ℕ → ℝ) (k : ℕ) :
    2 * ∑ m ∈ range N, (if m < (N + 1) / 2 then x (2 * m) else x (2 * (N - 1 - m) + 1)) *
      Real.cos (2 * Real.pi * m * k / (N : ℕ) + Real.pi * k / (2 * N)) = Spec.dct2 N x k := by
  have hN' : (N : ℝ) ≠ 0 := by positivity
  unfold Spec.dct2
  congr 1
  apply sum_nbij' (fun m => if m < (N + 1) / 2 then 2 * m else 2 * (N - 1 - m) + 1)
    (fun n => if n % 2 = 0 then n / 2 else N - 1 - n / 2)
  · intro m hm
    have := mem_range.1 hm
    rw [mem_range]
    split_ifs <;> omega
  · intro n hn
    have := mem_range.1 hn
    rw [mem_range]
    split_ifs <;> omega
  · intro m hm
    have := mem_range.1 hm
    split_ifs <;> omega
  · intro n hn
    have := mem_range.1 hn
    split_ifs <;> omega
  · intro m hm
    have hm := mem_range.1 hm
    by_cases h : m < (N + 1) / 2
    · rw [if_pos h, if_pos h]
      congr 2; push_cast; field_simp
    · rw [if_neg h, if_neg h]
      congr 1
      have hc : ((N - 1 - m : ℕ) : ℝ) = N - 1 - m := by
        rw [Nat.cast_sub (by omega), Nat.cast_sub (by omega)]; push_cast; ring
      rw [← Real.cos_neg, ← Real.cos_add_nat_mul_two_pi _ k]
      congr 1
      push_cast
      rw [hc]
      field_simp
      ring

/-- **C84**, first formula: mirror image, `2N` points. -/
theorem C84_mirror (fft : PyFftFn) (hf : ScipyFft fft) (junk : ℕ → ℝ) (x : List ℝ) (h : x ≠ []) :
    pyDct2Mirror fft junk x = .ok (vec x.length (Spec.dct2 x.length (fun i => x.getD i 0))) := by
  have hN : 0 < x.length := List.length_pos_iff.2 h
  obtain ⟨N, hN'⟩ : ∃ N, x.length = N := ⟨_, rfl⟩
  rw [hN'] at hN ⊢
  have hx := list_eq_vec 0 hN'
  generalize (fun i => x.getD i 0) = g at hx
  subst hx
  unfold pyDct2Mirror
  simp only [length_vec]
  rw [npAssign_prefix (by omega), bind_ok]
  rw [pySlice_vec (m := N) (N - 1) (by norm_num) rfl (by
    unfold pySliceLen pySliceStop
    norm_num
    omega) (fun i hi => by omega), bind_ok]
  have e := npAssign_suffix (n := 2 * N) (h := N) (by omega) (fun i => if i < N then g i else junk i)
    (fun i => g ((N : ℤ) - 1 + i * -1).toNat)
  rw [show 2 * N - N = N by omega] at e
  rw [e, bind_ok, map_vec, hf.1 _ (by omega), bind_ok, pySlice_prefix (by omega), bind_ok,
    pyDctTwiddle_eq, npMulInPlace_vec, bind_ok, map_vec, pure_eq_ok]
  congr 1
  apply vec_ext
  intro k hk
  rw [← mirror_dct hN g k]
  have := dft_twiddle_re hN (2 * N) (by omega) (fun i => if i < N then g i else g (N - 1 - (i - N))) 1 k
  rw [one_mul, Complex.ofReal_one, one_mul] at this
  rw [← this]
  rw [dft_congr (y := fun i => ((if i < N then g i else g (N - 1 - (i - N)) : ℝ) : ℂ))]
  intro i hi
  by_cases h1 : i < N
  · simp only [if_pos h1]
  · simp only [if_neg h1]
    congr 2; omega

/-- **C84**, second formula: zero padding, `2N` points. -/
theorem C84_padded (fft : PyFftFn) (hf : ScipyFft fft) (x : List ℝ) (h : x ≠ []) :
    pyDct2Padded fft x = .ok (vec x.length (Spec.dct2 x.length (fun i => x.getD i 0))) := by
  have hN : 0 < x.length := List.length_pos_iff.2 h
  obtain ⟨N, hN'⟩ : ∃ N, x.length = N := ⟨_, rfl⟩
  rw [hN'] at hN ⊢
  have hx := list_eq_vec 0 hN'
  generalize (fun i => x.getD i 0) = g at hx
  subst hx
  unfold pyDct2Padded
  simp only [length_vec]
  rw [npAssign_prefix (by omega), bind_ok, map_vec, hf.1 _ (by omega), bind_ok, pySlice_prefix (by omega),
    bind_ok, pyDctTwiddle_eq, map_vec, npMulInPlace_vec, bind_ok, map_vec, pure_eq_ok]
  congr 1
  apply vec_ext
  intro k hk
  rw [← padded_dct hN g k]
  have := dft_twiddle_re hN (2 * N) (by omega) (fun i => if i < N then g i else 0) 2 k
  rw [← this]
  norm_num

/-- **C84**, third formula: Makhoul's reordering, `N` points, odd and even lengths. -/
theorem C84_makhoul (fft : PyFftFn) (hf : ScipyFft fft) (junk : ℕ → ℝ) (x : List ℝ) (h : x ≠ []) :
    pyDct2Makhoul fft junk x = .ok (vec x.length (Spec.dct2 x.length (fun i => x.getD i 0))) := by
  have hN : 0 < x.length := List.length_pos_iff.2 h
  obtain ⟨N, hN'⟩ : ∃ N, x.length = N := ⟨_, rfl⟩
  rw [hN'] at hN ⊢
  have hx := list_eq_vec 0 hN'
  generalize (fun i => x.getD i 0) = g at hx
  subst hx
  unfold pyDct2Makhoul
  simp only [length_vec]
  have hh : ((N : ℤ) - 1) / 2 + 1 = (((N + 1) / 2 : ℕ) : ℤ) := by omega
  rw [hh]
  rw [pySlice_vec (m := (N + 1) / 2) 0 (by norm_num) rfl (by
    unfold pySliceLen pySliceStop
    dsimp only
    split_ifs <;> omega) (fun i hi => by omega), bind_ok]
  rw [npAssign_prefix (by omega), bind_ok]
  have hs : pySliceStart N (-2) (if N % 2 ≠ 0 then some (-2) else none) = (N : ℤ) - 1 - N % 2 := by
    rcases Nat.mod_two_eq_zero_or_one N with h0 | h0
    · rw [if_neg (by omega)]
      unfold pySliceStart
      dsimp only
      split_ifs <;> omega
    · rw [if_pos (by omega)]
      unfold pySliceStart
      dsimp only
      split_ifs <;> omega
  rw [pySlice_vec (m := N - (N + 1) / 2) ((N : ℤ) - 1 - N % 2) (by norm_num) hs (by
    unfold pySliceLen pySliceStop
    norm_num only [neg_neg]
    split_ifs <;> omega) (fun i hi => by omega), bind_ok]
  rw [npAssign_suffix (by omega), bind_ok, map_vec, hf.1 _ (by omega), bind_ok, pyDctTwiddle_eq, map_vec,
    npMulInPlace_vec, bind_ok, map_vec, pure_eq_ok]
  congr 1
  apply vec_ext
  intro k hk
  rw [← makhoul_dct_any hN g k]
  have := dft_twiddle_re hN N hN (fun m => if m < (N + 1) / 2 then g (2 * m) else g (2 * (N - 1 - m) + 1)) 2 k
  rw [← this]
  rw [dft_congr (y := fun m => ((if m < (N + 1) / 2 then g (2 * m) else g (2 * (N - 1 - m) + 1) : ℝ) : ℂ))]
  · norm_num
  · intro i hi
    by_cases h1 : i < (N + 1) / 2
    · simp only [if_pos h1]
      congr 2; omega
    · simp only [if_neg h1]
      congr 2; omega

/-- An empty argument raises in all three. -/
theorem C84_empty (fft : PyFftFn) (hf : ScipyFft fft) (junk : ℕ → ℝ) :
    pyDct2Mirror fft junk [] = .error .exception ∧ pyDct2Padded fft [] = .error .exception ∧
    pyDct2Makhoul fft junk [] = .error .exception := by
  have e1 : npAssign ([] : List ℝ) none (some ((0 : ℕ) : ℤ)) [] = .ok [] := rfl
  have e2 : npAssign ([] : List ℝ) (some ((0 : ℕ) : ℤ)) none [] = .ok [] := rfl
  have e3 : ∀ st : ℤ, st ≠ 0 → pySlice ([] : List ℝ) none none st = .ok [] := by
    intro st hst
    have := pySlice_vec (n := 0) (m := 0) (f := fun _ => (0 : ℝ)) (s := none) (t := none) (st := st)
      (pySliceStart 0 st none) hst rfl (by
        unfold pySliceLen pySliceStop pySliceStart
        dsimp only
        split_ifs <;> omega) (fun i hi => by omega)
    exact this
  refine ⟨?_, ?_, ?_⟩
  · unfold pyDct2Mirror
    simp only [List.length_nil, Nat.mul_zero, vec_zero, e1, e2, e3 (-1) (by norm_num), bind_ok, List.map_nil,
      hf.2, bind_error]
  · unfold pyDct2Padded
    simp only [List.length_nil, Nat.mul_zero, vec_zero, e1, bind_ok, List.map_nil, hf.2, bind_error]
  · unfold pyDct2Makhoul
    have h0 : (((0 : ℕ) : ℤ) - 1) / 2 + 1 = ((0 : ℕ) : ℤ) := by norm_num
    simp only [List.length_nil, vec_zero, h0, e1, e2, e3 2 (by norm_num), bind_ok]
    rw [if_neg (by norm_num)]
    simp only [e2, e3 (-2) (by norm_num), bind_ok, List.map_nil, hf.2, bind_error]

/-- **C84**: for lengths `2^order` the formulas return what the library's DCT plan leaves in the buffer. -/
theorem C84_library (fft : PyFftFn) (hf : ScipyFft fft) (junk : ℕ → ℝ) (order : ℕ) (h1 : 1 ≤ order)
    (h2 : order ≤ 27) (p : Dct2Plan) (hp : Dct2Reachable order p) (x : List ℝ) (hx : x.length = 2 ^ order) :
    ∃ p' y, p.call x = .ok (p', y) ∧ pyDct2Mirror fft junk x = .ok y ∧ pyDct2Padded fft x = .ok y ∧
      pyDct2Makhoul fft junk x = .ok y := by
  obtain ⟨p', y, e, l, v⟩ := (C18_dct2 order h1 h2).2 p hp x hx
  have hne : x ≠ [] := by
    rintro rfl
    have : 0 < 2 ^ order := by positivity
    rw [List.length_nil] at hx
    omega
  have hy : y = vec x.length (Spec.dct2 x.length (fun i => x.getD i 0)) := by
    rw [hx]; exact eq_vec_iff.2 ⟨l, v⟩
  exact ⟨p', y, e, hy ▸ C84_mirror fft hf junk x hne, hy ▸ C84_padded fft hf x hne,
    hy ▸ C84_makhoul fft hf junk x hne⟩

/-- A function meeting the contract, and an odd length. -/
example : ∃ fft, ScipyFft fft ∧ ∃ y, pyDct2Makhoul fft (fun _ => 7) [1, 2, 4] = .ok y ∧ y[0]? = some 14 := by
  have hc : ScipyFft (fun l => if l = [] then .error .exception
      else .ok (vec l.length (Spec.dft l.length (fun i => l.getD i 0)))) := by
    refine ⟨fun n hn f => ?_, by simp⟩
    have : vec n f ≠ [] := by
      intro h
      have := congrArg List.length h
      rw [length_vec, List.length_nil] at this
      omega
    dsimp only
    rw [if_neg this, length_vec]
    congr 1
    apply vec_ext
    intro k _
    exact dft_congr (fun i hi => getD_vec n f 0 i hi) k
  refine ⟨_, hc, _, C84_makhoul _ hc _ _ (by simp), ?_⟩
  rw [getElem?_vec, if_pos (by simp)]
  simp [Spec.dct2, sum_range_succ]
  norm_num

end Neo.Props
