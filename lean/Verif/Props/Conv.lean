import Verif.Lemmas.Direct
import Verif.Lemmas.FftConv
import Verif.Lemmas.Out

/-!
# One-shot convolution: C19, C20
-/

namespace Neo.Props

open Finset

variable {R : Type} [CommRing R]

/-! ## C19 -/

/-- **C19**: for non-empty inputs `direct_convolve` returns `n + l - 1` samples, sample `k` being
`∑_{m ≤ k} signal[m] · patch[k-m]` (zero outside the inputs), without any fault. -/
theorem C19_direct_convolve (signal patch : List R) (hs : signal ≠ []) (hp : patch ≠ []) :
    Produces (directConvolve signal patch) (signal.length + patch.length - 1)
      (Spec.conv (fun i => signal.getD i 0) (fun i => patch.getD i 0)) := by
  rw [produces_iff]
  have h1 : 1 ≤ signal.length := List.length_pos_iff.2 hs
  have h2 : 1 ≤ patch.length := List.length_pos_iff.2 hp
  unfold directConvolve outputSizeFull
  rw [if_neg (by omega)]
  conv_lhs => rw [list_eq_vec (0 : R) (rfl : signal.length = signal.length),
    list_eq_vec (0 : R) (rfl : patch.length = patch.length)]
  rw [length_vec, length_vec, directConvolveInto_vec _ _ _ h1 h2]
  congr 1
  apply vec_ext
  intro k _
  have e : ∀ l : List R, (fun i => if i < l.length then l.getD i 0 else 0) = fun i => l.getD i 0 := by
    intro l
    funext i
    split
    · rfl
    · next h => rw [List.getD_eq_getElem?_getD, List.getElem?_eq_none (by omega)]; rfl
  rw [e, e]

/-- **C19**: the caller-supplied output buffer must have the right size, and its old content is
irrelevant. -/
theorem C19_output_buffer (signal patch out : List R) (hs : signal ≠ []) (hp : patch ≠ []) :
    (out.length = signal.length + patch.length - 1 →
      directConvolveInto signal patch out = directConvolve signal patch) ∧
    (out.length ≠ signal.length + patch.length - 1 →
      directConvolveInto signal patch out = .error .assertion) := by
  have h1 : 1 ≤ signal.length := List.length_pos_iff.2 hs
  have h2 : 1 ≤ patch.length := List.length_pos_iff.2 hp
  constructor
  · intro h
    unfold directConvolve outputSizeFull
    rw [if_neg (by omega)]
    rw [list_eq_vec (0 : R) h]
    generalize hn : signal.length = n at *
    generalize hl : patch.length = l at *
    rw [list_eq_vec (0 : R) hn, list_eq_vec (0 : R) hl, directConvolveInto_vec _ _ _ h1 h2,
      directConvolveInto_vec _ _ _ h1 h2]
  · intro h
    unfold directConvolveInto outputSizeFull
    simp only []
    rw [decide_eq_false h]; rfl

/-- **C19**: the result is commutative in its arguments. -/
theorem C19_commutative (signal patch : List R) (hs : signal ≠ []) (hp : patch ≠ []) :
    directConvolve signal patch = directConvolve patch signal := by
  rw [produces_iff.1 (C19_direct_convolve signal patch hs hp),
    produces_iff.1 (C19_direct_convolve patch signal hp hs),
    show patch.length + signal.length - 1 = signal.length + patch.length - 1 by omega]
  congr 1
  exact vec_ext (fun k _ => conv_comm _ _ _)

example : directConvolve [1, 2, 3] [10, 1] = .ok ([10, 21, 32, 3] : List ℤ) := by decide +kernel

/-! ## C20 -/

theorem getD_zext {A : Type} [Zero A] (l : List A) : (zext l.length fun i => l.getD i 0)
    = fun i => l.getD i 0 := by
  funext i
  unfold zext
  split
  · rfl
  · next h => rw [List.getD_eq_getElem?_getD, List.getElem?_eq_none (by omega)]; rfl

/-- **C20** (part): for inputs of at least two samples each `fft_convolve` equals
`direct_convolve`; if either is empty the result is empty.

Missing for the full statement: an input of exactly one sample violates the assertions of the
`fft_convolver` constructor, see `C20_single_sample_asserts`. -/
theorem C20_fft_convolve_partial (signal patch : List ℝ) (hs : 2 ≤ signal.length)
    (hp : 2 ≤ patch.length) (hsize : signal.length + patch.length - 1 ≤ 2 ^ 27) :
    fftConvolve signal patch = directConvolve signal patch := by
  have hs0 : signal ≠ [] := by rintro rfl; simp at hs
  have hp0 : patch ≠ [] := by rintro rfl; simp at hp
  rw [produces_iff.1 (C19_direct_convolve signal patch hs0 hp0)]
  have hb : Nat.clog 2 (signal.length + patch.length - 1) ≤ 27 :=
    (Nat.clog_le_iff_le_pow (by norm_num)).2 hsize
  have hb1 : 1 ≤ Nat.clog 2 (signal.length + patch.length - 1) := Nat.clog_pos (by norm_num) (by omega)
  have hK := Nat.le_pow_clog (b := 2) (by norm_num) (signal.length + patch.length - 1)
  unfold fftConvolve FftConvolver.make
  rw [if_neg (by omega), fftConvolver_init_eq hb, bind_ok, check_decide_ok (by omega), bind_ok,
    check_decide_ok (by omega), bind_ok, pure_eq_ok, bind_ok]
  obtain ⟨f', tmp', ss', ps', e⟩ := fftConvolver_call (by omega) (by omega) hb1 hK (fun _ => 0)
    (fun _ => 0) (fun _ => 0) (fun _ => 0) (fun i => signal.getD i 0) (fun i => patch.getD i 0)
    (fun _ => 0)
  rw [← list_eq_vec (0 : ℝ) rfl, ← list_eq_vec (0 : ℝ) rfl] at e
  unfold outputSizeFull
  rw [e, bind_ok, getD_zext, getD_zext]
  rfl

/-- **C20**: the empty cases. -/
theorem C20_empty (signal : List ℝ) : fftConvolve signal [] = .ok [] ∧ fftConvolve [] signal = .ok [] := by
  constructor <;> simp [fftConvolve]

/-- The full statement of **C20** fails: a single-sample input trips an assertion. -/
theorem C20_single_sample_asserts (signal patch : List ℝ) (hs : signal ≠ []) (hp : patch ≠ [])
    (h1 : signal.length = 1 ∨ patch.length = 1)
    (hsize : signal.length + patch.length - 1 ≤ 2 ^ 27) :
    fftConvolve signal patch = .error .assertion := by
  have l1 : 1 ≤ signal.length := List.length_pos_iff.2 hs
  have l2 : 1 ≤ patch.length := List.length_pos_iff.2 hp
  have hb : Nat.clog 2 (signal.length + patch.length - 1) ≤ 27 :=
    (Nat.clog_le_iff_le_pow (by norm_num)).2 hsize
  unfold fftConvolve FftConvolver.make
  rw [if_neg (by omega), fftConvolver_init_eq hb, bind_ok]
  by_cases c : signal.length > 1
  · rw [check_decide_ok c, bind_ok, decide_eq_false (by omega), check_false]
    rfl
  · rw [decide_eq_false c, check_false]
    rfl

/-- **C20**: the engine itself (assertions of the constructor aside) is correct on every pair of
non-empty sizes but (1, 1), in every state left behind by earlier calls. -/
theorem C20_engine (n l : ℕ) (hn : 1 ≤ n) (hl : 1 ≤ l) (h3 : 3 ≤ n + l)
    (hsize : n + l - 1 ≤ 2 ^ 27) (calls : List (List ℝ × List ℝ))
    (hc : ∀ c ∈ calls, c.1.length = n ∧ c.2.length = l) :
    ∃ c0 c', FftConvolver.init n l = .ok c0 ∧
      runBlocks (fun c io => FftConvolver.call c io.1 io.2 (vec (n + l - 1) (fun _ => 0))) c0 calls
        = .ok (c', calls.map (fun io => vec (n + l - 1)
            (Spec.conv (fun i => io.1.getD i 0) (fun i => io.2.getD i 0)))) := by
  have hb : Nat.clog 2 (n + l - 1) ≤ 27 := (Nat.clog_le_iff_le_pow (by norm_num)).2 hsize
  have hb1 : 1 ≤ Nat.clog 2 (n + l - 1) := Nat.clog_pos (by norm_num) (by omega)
  have hK := Nat.le_pow_clog (b := 2) (by norm_num) (n + l - 1)
  generalize hbb : Nat.clog 2 (n + l - 1) = b at *
  suffices H : ∀ f tmp ss ps, ∃ c', runBlocks
      (fun c io => FftConvolver.call c io.1 io.2 (vec (n + l - 1) (fun _ => 0)))
        (fcOf n l b f tmp ss ps) calls
        = .ok (c', calls.map (fun io => vec (n + l - 1)
            (Spec.conv (fun i => io.1.getD i 0) (fun i => io.2.getD i 0)))) by
    obtain ⟨c', e⟩ := H (fun _ => 0) (fun _ => 0) (fun _ => 0) (fun _ => 0)
    refine ⟨_, c', fftConvolver_init_eq (by omega), ?_⟩
    rw [hbb]
    exact e
  induction calls with
  | nil => intro f tmp ss ps; exact ⟨_, rfl⟩
  | cons io ios ih =>
    intro f tmp ss ps
    obtain ⟨l1, l2⟩ := hc io (by simp)
    obtain ⟨f', tmp', ss', ps', e⟩ := fftConvolver_call hn hl hb1 hK f tmp ss ps
      (fun i => io.1.getD i 0) (fun i => io.2.getD i 0) (fun _ => 0)
    rw [← list_eq_vec (0 : ℝ) l1, ← list_eq_vec (0 : ℝ) l2] at e
    have z1 := getD_zext io.1
    have z2 := getD_zext io.2
    rw [l1] at z1
    rw [l2] at z2
    rw [z1, z2] at e
    obtain ⟨c', e'⟩ := ih (fun c hc' => hc c (by simp [hc'])) f' tmp' ss' ps'
    refine ⟨c', ?_⟩
    simp only [runBlocks]
    rw [e, bind_ok]
    simp only []
    rw [e', bind_ok]
    rfl

example : ∃ y, fftConvolve [1, 2, 3] [10, 1] = .ok y ∧ y[1]? = some 21 := by
  obtain ⟨y, h, -, hy⟩ := C19_direct_convolve ([1, 2, 3] : List ℝ) [10, 1] (by simp) (by simp)
  refine ⟨y, ?_, ?_⟩
  · rw [C20_fft_convolve_partial _ _ (by simp) (by simp) (by simp), h]
  · rw [hy 1 (by simp)]
    simp [Spec.conv, Finset.sum_range_succ]
    norm_num

end Neo.Props
