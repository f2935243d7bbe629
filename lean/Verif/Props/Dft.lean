import Verif.Model.NaiveDft
import Verif.Lemmas.DftLaws
import Verif.Lemmas.Algo
import Verif.Lemmas.Out

/-!
# Properties C12 (naive `dft`) and C56 (energy, linearity, circular convolution)
-/

namespace Neo

open Finset

theorem forN_sum {A : Type} [AddCommMonoid A] {n : ℕ} (t : ℕ → A) (a : A) :
    forN n (fun i acc => (pure (acc + t i) : Res A)) a = .ok (a + ∑ i ∈ range n, t i) := by
  apply forN_eq' (fun i => a + ∑ j ∈ range i, t j)
  · simp
  · rfl
  · intro i _
    rw [pure_eq_ok, sum_range_succ, add_assoc]

theorem sum_vec {A : Type} [AddCommMonoid A] (n : ℕ) (f : ℕ → A) :
    (vec n f).sum = ∑ k ∈ range n, f k := by
  induction n with
  | zero => simp [vec_zero]
  | succ n ih => rw [vec_succ, List.sum_append, ih, sum_range_succ]; simp

theorem naiveDft_vec {n : ℕ} (dir : Direction) (f g : ℕ → ℂ) :
    naiveDft (vec n f) (vec n g) dir = .ok (vec n (specDft dir n f)) := by
  unfold naiveDft
  simp only [length_vec, decide_true, check_true, bind_ok]
  refine forN_map g (fun k _ => specDft dir n f k) _ (fun k hk h _ => ?_)
  rw [forN_eq' (s' := ∑ i ∈ range n, f i * root n dir ^ (i * k))
    (fun i => ∑ j ∈ range i, f j * root n dir ^ (j * k)), bind_ok, wr_vec_ok hk]
  · rw [← dftRoot_dir]; rfl
  · simp
  · rfl
  · intro i hi
    rw [rd_vec_ok hi, bind_ok, pure_eq_ok, sum_range_succ, root_pow_eq, polar_eq_exp]
    congr 4
    cases dir <;> (simp; ring)

namespace Props

/-! ## C12 -/

/-- **C12**: the naive transform computes the defining sums for every length and both directions. -/
theorem C12_naive_dft (x out : List ℂ) (h : x.length = out.length) :
    Produces (naiveDft x out .forward) x.length (Spec.dft x.length (fun n => x.getD n 0)) ∧
    Produces (naiveDft x out .backward) x.length (Spec.idft x.length (fun n => x.getD n 0)) := by
  have ex := list_eq_vec (0 : ℂ) (rfl : x.length = x.length)
  have eo := list_eq_vec (0 : ℂ) h.symm
  constructor
  · rw [produces_iff]
    conv_lhs => rw [ex, eo]
    exact naiveDft_vec .forward _ _
  · rw [produces_iff]
    conv_lhs => rw [ex, eo]
    exact naiveDft_vec .backward _ _

/-- **C12**: composing both directions gives `N·x`. -/
theorem C12_roundtrip (x out out' : List ℂ) (h : x.length = out.length)
    (h' : x.length = out'.length) :
    (naiveDft x out .forward >>= fun X => naiveDft X out' .backward)
      = .ok (x.map ((x.length : ℂ) * ·)) ∧
    (naiveDft x out .backward >>= fun X => naiveDft X out' .forward)
      = .ok (x.map ((x.length : ℂ) * ·)) := by
  have ex := list_eq_vec (0 : ℂ) (rfl : x.length = x.length)
  have eo := list_eq_vec (0 : ℂ) h.symm
  have eo' := list_eq_vec (0 : ℂ) h'.symm
  constructor
  · conv_lhs => rw [ex, eo, eo', naiveDft_vec, bind_ok, naiveDft_vec]
    conv_rhs => rw [ex, map_vec]
    rw [length_vec]
    congr 1
    exact vec_ext (fun k hk => idft_dft _ hk)
  · conv_lhs => rw [ex, eo, eo', naiveDft_vec, bind_ok, naiveDft_vec]
    conv_rhs => rw [ex, map_vec]
    rw [length_vec]
    congr 1
    exact vec_ext (fun k hk => dft_idft _ hk)

/-- **C12**: mismatched sizes are an assertion failure. -/
theorem C12_mismatch (x out : List ℂ) (dir : Direction) (h : x.length ≠ out.length) :
    naiveDft x out dir = .error .assertion := by
  unfold naiveDft
  rw [decide_eq_false h]; rfl

example : naiveDft [1, 2, 3] [0, 0] .forward = .error .assertion := C12_mismatch _ _ _ (by decide)

example : ∃ X, naiveDft [1, 2, 3] [0, 0, 0] .forward = .ok X ∧
    naiveDft X [0, 0, 0] .backward = .ok [3, 6, 9] := by
  have h := (C12_roundtrip [1, 2, 3] [0, 0, 0] [0, 0, 0] rfl rfl).1
  obtain ⟨X, hX, -⟩ := (C12_naive_dft [1, 2, 3] [0, 0, 0] rfl).1
  rw [hX, bind_ok] at h
  refine ⟨X, hX, h.trans ?_⟩
  norm_num

/-! ## C56 -/

/-- **C56**: `∑ |X k|² = N ∑ |x n|²` for the output of the default plan. -/
theorem C56_parseval (order : ℕ) (h1 : 1 ≤ order) (h2 : order ≤ 27) (x : List ℂ)
    (hx : x.length = 2 ^ order) :
    ∃ p X, Dit2Plan.make order = .ok p ∧ fft p x = .ok X ∧
      (X.map Complex.normSq).sum = 2 ^ order * (x.map Complex.normSq).sum := by
  refine ⟨_, vec (2 ^ order) (Spec.dft (2 ^ order) (fun n => x.getD n 0)),
    dit2Plan_make_eq h2, ?_, ?_⟩
  · conv_lhs => rw [list_eq_vec 0 hx]
    exact dit2_call h1 _ .forward
  · have hs : ∀ (n : ℕ) (f : ℕ → ℂ), ((vec n f).map Complex.normSq).sum
        = ∑ k ∈ range n, Complex.normSq (f k) := by
      intro n f
      rw [map_vec, sum_vec]
    have hp := parseval (N := 2 ^ order) (fun n => x.getD n 0)
    conv_rhs => rw [list_eq_vec 0 hx]
    rw [hs, hs]
    simp only [Complex.mul_conj] at hp
    exact_mod_cast hp

/-- **C56**: `fft` and `ifft` are linear. -/
theorem C56_linear (order : ℕ) (h1 : 1 ≤ order) (h2 : order ≤ 27) (dir : Direction) (a b : ℂ)
    (x y : List ℂ) (hx : x.length = 2 ^ order) (hy : y.length = 2 ^ order) :
    ∃ p X Y, Dit2Plan.make order = .ok p ∧ p.call x dir = .ok X ∧ p.call y dir = .ok Y ∧
      p.call (List.zipWith (fun u v => a * u + b * v) x y) dir
        = .ok (List.zipWith (fun u v => a * u + b * v) X Y) := by
  have hz : ∀ (n : ℕ) (f g : ℕ → ℂ), List.zipWith (fun u v => a * u + b * v) (vec n f) (vec n g)
      = vec n (fun i => a * f i + b * g i) := by
    intro n f g
    simp [vec, List.zipWith_map, List.zipWith_self]
  refine ⟨_, vec (2 ^ order) (specDft dir (2 ^ order) (fun n => x.getD n 0)),
    vec (2 ^ order) (specDft dir (2 ^ order) (fun n => y.getD n 0)), dit2Plan_make_eq h2,
    ?_, ?_, ?_⟩
  · conv_lhs => rw [list_eq_vec 0 hx]
    exact dit2_call h1 _ _
  · conv_lhs => rw [list_eq_vec 0 hy]
    exact dit2_call h1 _ _
  · conv_lhs => rw [list_eq_vec 0 hx, list_eq_vec 0 hy, hz, dit2_call h1]
    rw [hz]
    congr 1
    apply vec_ext
    intro k _
    rw [specDft_add, specDft_smul, specDft_smul]

/-- **C56**: inverse transform of the product of two spectra is `N` times the circular
convolution of the inputs. -/
theorem C56_circular_convolution (order : ℕ) (h1 : 1 ≤ order) (h2 : order ≤ 27)
    (x y : List ℂ) (hx : x.length = 2 ^ order) (hy : y.length = 2 ^ order) :
    ∃ p X Y Z, Dit2Plan.make order = .ok p ∧ fft p x = .ok X ∧ fft p y = .ok Y ∧
      multiplyInPlace X Y = .ok Z ∧
      Produces (ifft p Z) (2 ^ order) (fun n => 2 ^ order *
        Spec.circConv (2 ^ order) (fun i => x.getD i 0) (fun i => y.getD i 0) n) := by
  refine ⟨_, _, _, _, dit2Plan_make_eq h2, ?_, ?_, multiplyInPlace_vec (n := 2 ^ order)
    (Spec.dft (2 ^ order) (fun n => x.getD n 0)) (Spec.dft (2 ^ order) (fun n => y.getD n 0)), ?_⟩
  · conv_lhs => rw [list_eq_vec 0 hx]
    exact dit2_call h1 _ .forward
  · conv_lhs => rw [list_eq_vec 0 hy]
    exact dit2_call h1 _ .forward
  · rw [produces_iff]
    refine (dit2_call h1 _ .backward).trans ?_
    congr 1
    apply vec_ext
    intro n hn
    show Spec.idft _ _ _ = _
    rw [idft_mul_dft _ _ hn]
    push_cast; rfl

/-- The hypotheses are met by the inputs `(1, 2)` and `(3, 4)`. -/
example : ∃ p X Y Z, Dit2Plan.make 1 = .ok p ∧ fft p [1, 2] = .ok X ∧ fft p [3, 4] = .ok Y ∧
    multiplyInPlace X Y = .ok Z ∧ ∃ r, ifft p Z = .ok r ∧ r[0]? = some 22 := by
  obtain ⟨p, X, Y, Z, a, b, c, d, r, e, -, h⟩ :=
    C56_circular_convolution 1 le_rfl (by norm_num) [1, 2] [3, 4] rfl rfl
  refine ⟨p, X, Y, Z, a, b, c, d, r, e, ?_⟩
  rw [h 0 (by norm_num)]
  simp [Spec.circConv, Finset.sum_range_succ]
  norm_num

end Props

end Neo
