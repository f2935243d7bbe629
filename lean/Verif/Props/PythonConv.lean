import Verif.Model.PythonConv
import Verif.Props.Python
import Verif.Props.Conv
import Verif.Props.Units

/-! # C81: `neo.convolve` and `neo.fft.rfftfreq` on NumPy arrays -/

namespace Neo.Props

open Neo

/-- What NumPy means by "`A` is a one-dimensional array of the elements `x 0, …, x (n-1)`": element `i` is
stored `i` byte strides behind the data pointer, in storage with 64-bit addresses. -/
structure Holds {R : Type} (A : PyArray R) (n : ℕ) (s : ℤ) (x : ℕ → R) : Prop where
  shape : A.shape = [n]
  strides : A.strides = [s]
  item : 0 < A.itemsize
  elem : ∀ i < n, A.mem (A.data + i * s) = some (x i)
  low : ∀ a < 0, A.mem a = none
  high : ∀ a, 2 ^ 64 ≤ a → A.mem a = none

variable {R : Type}

theorem readView_eq (A : PyArray R) (p : ℤ) (n stride : ℕ) (x : ℕ → R)
    (h : ∀ i < n, A.mem (p + ((i * stride % 2 ^ 64 : ℕ) : ℤ) * A.itemsize) = some (x i)) :
    A.readView p n stride = .ok (vec n x) := by
  unfold PyArray.readView
  apply forN_eq' (fun i => vec i x) rfl rfl
  intro i hi
  unfold PyArray.access
  rw [h i hi]
  simp [bind_ok, pure_eq_ok, vec, List.range_succ]

/-- The view of a writeable array whose byte stride is a non-negative multiple `q` of the item size. -/
theorem offsets_eq {A : PyArray R} {n : ℕ} {q : ℕ} {x : ℕ → R}
    (h : Holds A n (q * A.itemsize) x) :
    ∀ i < n, A.mem (A.data + ((i * (q % 2 ^ 64) % 2 ^ 64 : ℕ) : ℤ) * A.itemsize) = some (x i) := by
  intro i hi
  have h0 := h.elem 0 (by omega)
  have hi' := h.elem i hi
  have hlow : 0 ≤ A.data := by
    by_contra hc
    rw [h.low _ (by push_cast; linarith)] at h0
    cases h0
  have hitem := h.item
  have hle : ((i * q : ℕ) : ℤ) ≤ ((i * q : ℕ) : ℤ) * A.itemsize := by nlinarith [Int.natCast_nonneg (i * q)]
  have hlt : ((i * q : ℕ) : ℤ) < 2 ^ 64 := by
    by_contra hc
    rw [h.high _ (by push_cast at hle hc ⊢; rw [← mul_assoc]; linarith)] at hi'
    cases hi'
  have hlt' : i * q < 2 ^ 64 := by exact_mod_cast hlt
  rw [Nat.mul_mod, Nat.mod_mod, ← Nat.mul_mod, Nat.mod_eq_of_lt hlt', ← hi']
  congr 1
  push_cast
  ring

theorem stride0_eq {A : PyArray R} {n q : ℕ} {x : ℕ → R} (h : Holds A n (q * A.itemsize) x) :
    A.stride0 = .ok (q % 2 ^ 64) := by
  unfold PyArray.stride0
  rw [h.strides]
  simp only [List.getElem?_cons_zero]
  rw [Int.mul_tdiv_cancel _ h.item.ne']
  congr 1

theorem toMdspanStride_eq {A : PyArray R} {n q : ℕ} {x : ℕ → R} (h : Holds A n (q * A.itemsize) x)
    (hw : A.writeable = true) : A.toMdspanStride = .ok (vec n x) := by
  unfold PyArray.toMdspanStride PyArray.extent0 PyArray.mutableData
  rw [stride0_eq h, bind_ok, h.shape]
  simp only [List.getElem?_cons_zero, bind_ok, hw, if_true]
  exact readView_eq _ _ _ _ _ (offsets_eq h)

/-- **C81**, views: whatever the contiguity flags say, a writeable one-dimensional array with a
non-negative stride that is a multiple of the item size reaches the library as its list of elements. -/
theorem C81_view {A : PyArray R} {n q : ℕ} {x : ℕ → R} (h : Holds A n (q * A.itemsize) x)
    (hw : A.writeable = true) :
    A.toMdspanStride = .ok (vec n x) ∧ A.asMdspan = .ok (vec n x) := by
  refine ⟨toMdspanStride_eq h hw, ?_⟩
  unfold PyArray.asMdspan PyArray.asMdspanImpl PyArray.stridesMatch
  have he : A.extent0 = .ok n := by unfold PyArray.extent0; rw [h.shape]; rfl
  have hm : A.mutableData = .ok A.data := by unfold PyArray.mutableData; rw [hw]; rfl
  rw [h.shape, if_pos (by rfl), he, bind_ok, stride0_eq h]
  simp only [bind_ok, pure_eq_ok, hm, toMdspanStride_eq h hw]
  by_cases h1 : 1 = q % 2 ^ 64
  · have hv : A.readView A.data n 1 = .ok (vec n x) := by
      apply readView_eq
      have := offsets_eq h
      rw [← h1] at this
      exact this
    rw [hv, decide_eq_true h1]
    cases A.cStyle <;> cases A.fStyle <;> rfl
  · rw [decide_eq_false h1]
    cases A.cStyle <;> cases A.fStyle <;> rfl

/-- **C81**, transforms: on such an array `fft`/`ifft` compute the normalised transform of its
elements, for every length `2^order`, `1 ≤ order ≤ 27`. -/
theorem C81_fft {b : ℕ} (h1 : 1 ≤ b) (h2 : b ≤ 27) (dir : Direction) (norm : Norm) {A : PyArray ℂ}
    {q : ℕ} {x : ℕ → ℂ} (h : Holds A (2 ^ b) (q * A.itemsize) x) (hw : A.writeable = true) :
    pyFftArray dir A none norm
      = .ok (vec (2 ^ b) (fun k => specDft dir (2 ^ b) x k * (npFactor dir norm (2 ^ b) : ℂ))) := by
  unfold pyFftArray
  rw [(C81_view h hw).2, bind_ok]
  exact pyFft_eq h1 h2 dir norm x none (by simp)

/-- Zero extension of the first `n` values of `x`. -/
def upto (n : ℕ) (x : ℕ → ℝ) (i : ℕ) : ℝ := if i < n then x i else 0

theorem getD_vec_upto (n : ℕ) (x : ℕ → ℝ) : (fun i => (vec n x).getD i 0) = upto n x := by
  funext i
  unfold upto
  split
  · next h => rw [getD_vec _ _ _ _ h]
  · next h => rw [List.getD_eq_getElem?_getD, List.getElem?_eq_none (by simpa using h)]; rfl

theorem vec_ne_nil {n : ℕ} (h : 1 ≤ n) (x : ℕ → R) : vec n x ≠ [] := by
  intro h'
  have := congrArg List.length h'
  rw [length_vec] at this
  simp at this
  omega

theorem ensure_self (rnd : DType → ℝ → ℝ) (A : PyArray ℝ) : A.ensure rnd A.dtype = A := by
  unfold PyArray.ensure
  rw [if_pos rfl]

theorem pyConvolve_eq (rnd : DType → ℝ → ℝ) (A B : PyArray ℝ) (method : String) :
    pyConvolve rnd A B "full" method
      = pyConvolveBound rnd (if method = "fft" then .fft else .direct) A B .full := by
  unfold pyConvolve convolutionMode
  by_cases h : method = "fft"
  · simp [h, bind_ok]
  · simp [h, bind_ok]

theorem pyConvolveT_eq {A B : PyArray ℝ} {n l q r : ℕ} {x y : ℕ → ℝ}
    (hA : Holds A n (q * A.itemsize) x) (hB : Holds B l (r * B.itemsize) y)
    (hAw : A.writeable = true) (hBw : B.writeable = true) (hnl : 1 ≤ n + l) (m : ConvMethod) :
    pyConvolveT m A B .full
      = match m with
        | .direct => directConvolveInto (vec n x) (vec l y) (vec (n + l - 1) (fun _ => 0))
        | .fft => (fftConvolve (vec n x) (vec l y)).bind (fun out => copyVec out (vec (n + l - 1) (fun _ => 0))) := by
  unfold pyConvolveT
  rw [if_neg (by rw [hA.shape]; simp), toMdspanStride_eq hA hAw, bind_ok, toMdspanStride_eq hB hBw,
    bind_ok]
  simp only [if_true, length_vec]
  rw [if_neg (by omega)]
  cases m <;> rfl

theorem pyConvolveT_conv {A B : PyArray ℝ} {n l q r : ℕ} {x y : ℕ → ℝ}
    (hA : Holds A n (q * A.itemsize) x) (hB : Holds B l (r * B.itemsize) y)
    (hAw : A.writeable = true) (hBw : B.writeable = true) (hn : 1 ≤ n) (hl : 1 ≤ l) (m : ConvMethod)
    (hm : m = .fft → 2 ≤ n ∧ 2 ≤ l ∧ n + l - 1 ≤ 2 ^ 27) :
    pyConvolveT m A B .full
      = .ok (vec (n + l - 1) (Spec.conv (upto n x) (upto l y))) := by
  rw [pyConvolveT_eq hA hB hAw hBw (by omega)]
  have hd := produces_iff.1 (C19_direct_convolve (vec n x) (vec l y) (vec_ne_nil hn x) (vec_ne_nil hl y))
  rw [length_vec, length_vec, getD_vec_upto, getD_vec_upto] at hd
  cases m with
  | direct =>
    rw [← hd]
    exact (C19_output_buffer (vec n x) (vec l y) _ (vec_ne_nil hn x) (vec_ne_nil hl y)).1
      (by simp [length_vec])
  | fft =>
    obtain ⟨h1, h2, h3⟩ := hm rfl
    have hf := C20_fft_convolve_partial (vec n x) (vec l y) (by rwa [length_vec]) (by rwa [length_vec])
      (by rwa [length_vec, length_vec])
    show (fftConvolve (vec n x) (vec l y)).bind _ = _
    rw [hf, hd]
    exact copyVec_vec _ _

/-- **C81**, what holds: for two writeable one-dimensional arrays of the same floating-point type, with
non-negative strides that are multiples of the item size, `convolve` in mode "full" returns the full
convolution of their elements: with every method but "fft" for all non-empty operands, with "fft" for operands of at
least two elements (and at most `2^27` results).

Missing for the full statement: see `C81_second_rank_unchecked`, `C81_fft_single_sample`,
`C81_empty`, `C81_negative_stride`, `C81_odd_stride`, `C81_read_only`, `C81_mixed_types`. -/
theorem C81_convolve_partial (rnd : DType → ℝ → ℝ) {A B : PyArray ℝ} {n l q r : ℕ} {x y : ℕ → ℝ}
    (hA : Holds A n (q * A.itemsize) x) (hB : Holds B l (r * B.itemsize) y)
    (hAw : A.writeable = true) (hBw : B.writeable = true)
    (hd : A.dtype = B.dtype) (hf : A.dtype ≠ .other) (hn : 1 ≤ n) (hl : 1 ≤ l) (method : String)
    (hm : method = "fft" → 2 ≤ n ∧ 2 ≤ l ∧ n + l - 1 ≤ 2 ^ 27) :
    pyConvolve rnd A B "full" method
      = .ok (vec (n + l - 1) (Spec.conv (upto n x) (upto l y))) := by
  rw [pyConvolve_eq]
  unfold pyConvolveBound
  have hov : pyOverload A.dtype B.dtype = A.dtype := by
    rw [← hd]
    unfold pyOverload
    cases h : A.dtype <;> simp_all
  dsimp only
  rw [hov, ensure_self]
  conv_lhs => rw [hd, ensure_self]
  apply pyConvolveT_conv hA hB hAw hBw hn hl
  intro h
  apply hm
  by_contra hc
  rw [if_neg hc] at h
  cases h

/-- **C81**: the modes "valid" and "same" raise, and so does every string that is not a mode, whatever the
arrays and the method. -/
theorem C81_other_modes (rnd : DType → ℝ → ℝ) (A B : PyArray ℝ) (mode method : String)
    (hm : mode ≠ "full") (hA : (A.shape.length = 1 → ∃ (n q : ℕ) (x : ℕ → ℝ), Holds A n (q * A.itemsize) x))
    (hB : ∃ (n q : ℕ) (x : ℕ → ℝ), Holds B n (q * B.itemsize) x)
    (hd : A.dtype = B.dtype) (hf : A.dtype ≠ .other) :
    pyConvolve rnd A B mode method = .error .exception := by
  have key : ∀ (m : ConvMethod) (md : ConvMode), md ≠ .full →
      pyConvolveBound rnd m A B md = .error .exception := by
    intro m md hmd
    unfold pyConvolveBound
    have hov : pyOverload A.dtype B.dtype = A.dtype := by
      rw [← hd]
      unfold pyOverload
      cases h : A.dtype <;> simp_all
    dsimp only
    rw [hov, ensure_self]
    conv_lhs => rw [hd, ensure_self]
    unfold pyConvolveT
    by_cases h1 : A.shape.length = 1
    · rw [if_neg (by simp [h1])]
      obtain ⟨n, q, x, hA⟩ := hA h1
      obtain ⟨n', q', x', hB⟩ := hB
      by_cases hAw : A.writeable = true
      · rw [toMdspanStride_eq hA hAw, bind_ok]
        by_cases hBw : B.writeable = true
        · rw [toMdspanStride_eq hB hBw, bind_ok, if_neg hmd]
        · unfold PyArray.toMdspanStride PyArray.extent0 PyArray.mutableData
          rw [stride0_eq hB, bind_ok, hB.shape, if_neg hBw]
          rfl
      · unfold PyArray.toMdspanStride PyArray.extent0 PyArray.mutableData
        rw [stride0_eq hA, bind_ok, hA.shape, if_neg hAw]
        rfl
    · rw [if_pos (by simp [h1])]
  unfold pyConvolve convolutionMode
  rw [if_neg hm]
  by_cases h2 : mode = "valid"
  · rw [if_pos h2]
    split
    · exact key .fft .valid (by decide)
    · exact key .direct .valid (by decide)
  · by_cases h3 : mode = "same"
    · rw [if_neg h2, if_pos h3]
      split
      · exact key .fft .same (by decide)
      · exact key .direct .same (by decide)
    · rw [if_neg h2, if_neg h3]
      split <;> rfl

/-- **C81**: a first operand that is not one-dimensional is rejected. -/
theorem C81_first_rank (rnd : DType → ℝ → ℝ) (A B : PyArray ℝ) (method : String)
    (h : A.shape.length ≠ 1) : pyConvolve rnd A B "full" method = .error .exception := by
  rw [pyConvolve_eq]
  have hs : ∀ d, (A.ensure rnd d).shape = A.shape := by
    intro d; unfold PyArray.ensure; split <;> rfl
  unfold pyConvolveBound pyConvolveT
  dsimp only
  rw [hs, if_pos (Or.inl h)]

/-- **C81** fails for the second operand: the check names `in1` twice.  A two-dimensional second operand
(`rows × cols`, of rank at least two in general) is accepted and only its first column is used. -/
theorem C81_second_rank_unchecked (rnd : DType → ℝ → ℝ) {A B B' : PyArray ℝ} {n l q r : ℕ} {x y : ℕ → ℝ}
    (rest : List ℕ) (srest : List ℤ)
    (hA : Holds A n (q * A.itemsize) x) (hAw : A.writeable = true)
    (hB : Holds B l (r * B.itemsize) y) (hBw : B.writeable = true)
    (hB' : B' = { B with shape := l :: rest, strides := r * B.itemsize :: srest })
    (hd : A.dtype = B.dtype) (hf : A.dtype ≠ .other) (hn : 1 ≤ n) (hl : 1 ≤ l) :
    pyConvolve rnd A B' "full" "auto"
      = .ok (vec (n + l - 1) (Spec.conv (upto n x) (upto l y))) := by
  have hview : B'.toMdspanStride = B.toMdspanStride := by
    subst hB'
    unfold PyArray.toMdspanStride PyArray.stride0 PyArray.extent0 PyArray.mutableData
      PyArray.readView PyArray.access
    rw [hB.strides, hB.shape]
    rfl
  have hdt : B'.dtype = B.dtype := by subst hB'; rfl
  have h := C81_convolve_partial rnd hA hB hAw hBw hd hf hn hl "auto"
    (fun h => absurd h (by decide))
  rw [pyConvolve_eq] at h ⊢
  rw [← h]
  have hov : pyOverload A.dtype B.dtype = A.dtype := by
    rw [← hd]
    unfold pyOverload
    cases h : A.dtype <;> simp_all
  unfold pyConvolveBound
  dsimp only
  rw [hdt, hov, ensure_self]
  have e1 : B'.ensure rnd A.dtype = B' := by rw [hd, ← hdt, ensure_self]
  have e2 : B.ensure rnd A.dtype = B := by rw [hd, ensure_self]
  rw [e1, e2]
  unfold pyConvolveT
  rw [hview]

/-- **C81** fails for "fft" with an operand of a single element: the process aborts in the assertion
of `fft_convolver`. -/
theorem C81_fft_single_sample (rnd : DType → ℝ → ℝ) {A B : PyArray ℝ} {n l q r : ℕ} {x y : ℕ → ℝ}
    (hA : Holds A n (q * A.itemsize) x) (hB : Holds B l (r * B.itemsize) y)
    (hAw : A.writeable = true) (hBw : B.writeable = true)
    (hd : A.dtype = B.dtype) (hf : A.dtype ≠ .other) (hn : 1 ≤ n) (hl : 1 ≤ l)
    (h1 : n = 1 ∨ l = 1) (hsize : n + l - 1 ≤ 2 ^ 27) :
    pyConvolve rnd A B "full" "fft" = .error .assertion := by
  rw [pyConvolve_eq, if_pos rfl]
  unfold pyConvolveBound
  have hov : pyOverload A.dtype B.dtype = A.dtype := by
    rw [← hd]
    unfold pyOverload
    cases h : A.dtype <;> simp_all
  dsimp only
  rw [hov, ensure_self]
  conv_lhs => rw [hd, ensure_self]
  rw [pyConvolveT_eq hA hB hAw hBw (by omega)]
  show (fftConvolve _ _).bind _ = _
  rw [C20_single_sample_asserts _ _ (vec_ne_nil hn x) (vec_ne_nil hl y) (by rwa [length_vec, length_vec])
    (by rwa [length_vec, length_vec])]
  rfl

/-- **C81**, an empty second operand: "fft" returns an empty result, which does not fit the output of `n - 1`
elements (an assertion, unless `n = 1`); the other methods return `n - 1` zeros; two empty operands raise. -/
theorem C81_empty (rnd : DType → ℝ → ℝ) {A B : PyArray ℝ} {n q r : ℕ} {x y : ℕ → ℝ}
    (hA : Holds A n (q * A.itemsize) x) (hB : Holds B 0 (r * B.itemsize) y)
    (hAw : A.writeable = true) (hBw : B.writeable = true)
    (hd : A.dtype = B.dtype) (hf : A.dtype ≠ .other) :
    (2 ≤ n → pyConvolve rnd A B "full" "fft" = .error .assertion) ∧
    (1 ≤ n → pyConvolve rnd A B "full" "auto" = .ok (vec (n - 1) (fun _ => 0))) ∧
    (n = 0 → ∀ method, pyConvolve rnd A B "full" method = .error .exception) := by
  have hov : pyOverload A.dtype B.dtype = A.dtype := by
    rw [← hd]
    unfold pyOverload
    cases h : A.dtype <;> simp_all
  have e2 : B.ensure rnd A.dtype = B := by rw [hd, ensure_self]
  have hred : ∀ method, pyConvolve rnd A B "full" method
      = pyConvolveT (if method = "fft" then .fft else .direct) A B .full := by
    intro method
    rw [pyConvolve_eq]
    unfold pyConvolveBound
    dsimp only
    rw [hov, ensure_self, e2]
  refine ⟨?_, ?_, ?_⟩
  · intro hn
    rw [hred, if_pos rfl, pyConvolveT_eq hA hB hAw hBw (by omega)]
    show (fftConvolve _ _).bind _ = _
    have : fftConvolve (vec n x) (vec 0 y) = .ok [] := (C20_empty _).1
    rw [this]
    show copyVec [] _ = _
    unfold copyVec
    rw [length_vec, decide_eq_false (by simp; omega), check_false]
    rfl
  · intro hn
    rw [hred, if_neg (by decide), pyConvolveT_eq hA hB hAw hBw (by omega)]
    show directConvolveInto (vec n x) (vec 0 y) (vec (n + 0 - 1) _) = _
    unfold directConvolveInto directLoops directInner outputSizeFull
    rw [length_vec, length_vec, length_vec]
    dsimp only
    rw [check_decide_ok (by omega), bind_ok, if_pos (by omega)]
    rw [forN_zero, bind_ok]
    rw [forR_eq' (s' := ((vec (n + 0 - 1) (fun _ => 0), n + 0 - 1) : List ℝ × ℕ))
      (fun k => ((vec (n + 0 - 1) (fun _ => 0), k) : List ℝ × ℕ)) (by omega) rfl rfl ?_]
    · simp
    · intro k _ hk
      dsimp only
      rw [wr_vec_ok hk, bind_ok]
      rw [show min (0 + (k + 1)) n = k + 1 by omega]
      unfold forR
      rw [Nat.sub_self, forN_zero, bind_ok, pure_eq_ok]
      congr 2
      apply vec_ext
      intro j _
      simp [Function.update_apply]
  · intro hn method
    subst hn
    rw [hred]
    unfold pyConvolveT
    rw [if_neg (by rw [hA.shape]; simp), toMdspanStride_eq hA hAw, bind_ok, toMdspanStride_eq hB hBw,
      bind_ok, if_pos rfl]
    simp [length_vec]

/-- A loop that faults in its second iteration faults. -/
theorem forN_fault_one {σ : Type} {body : ℕ → σ → Res σ} {s s1 : σ} {e : Fault}
    (h0 : body 0 s = .ok s1) (h1 : body 1 s1 = .error e) {n : ℕ} (hn : 2 ≤ n) :
    forN n body s = .error e := by
  induction n, hn using Nat.le_induction with
  | base =>
    rw [forN_succ, forN_succ, forN_zero, bind_ok, h0, bind_ok, h1]
  | succ n _ ih => rw [forN_succ, ih]; rfl

/-- **C81** fails for a negative stride (a reversed view `x[::-1]`): the stride becomes a huge unsigned
number and the second element is looked up outside every object. -/
theorem C81_negative_stride (rnd : DType → ℝ → ℝ) {A B : PyArray ℝ} {n q : ℕ} {x : ℕ → ℝ}
    (hA : Holds A n (-(q * A.itemsize)) x) (hAw : A.writeable = true) (hn : 2 ≤ n) (hq : 1 ≤ q)
    (hd : A.dtype = B.dtype) (hf : A.dtype ≠ .other) (method : String) :
    pyConvolve rnd A B "full" method = .error .oob := by
  have h0 := hA.elem 0 (by omega)
  have h1 := hA.elem 1 (by omega)
  have hpos : 0 ≤ A.data - q * A.itemsize := by
    by_contra hc
    rw [hA.low _ (by push_cast; linarith)] at h1
    cases h1
  have hlt : A.data < 2 ^ 64 := by
    by_contra hc
    rw [hA.high _ (by push_cast; linarith)] at h0
    cases h0
  have hitem := hA.item
  have hq64 : (q : ℤ) < 2 ^ 64 := by nlinarith
  have hstr : A.stride0 = .ok (2 ^ 64 - q) := by
    unfold PyArray.stride0
    rw [hA.strides]
    simp only [List.getElem?_cons_zero]
    rw [show -((q : ℤ) * A.itemsize) = (-(q : ℤ)) * A.itemsize by ring, Int.mul_tdiv_cancel _ hitem.ne']
    congr 1
    rw [show (-(q : ℤ)) % 2 ^ 64 = 2 ^ 64 - q by
      rw [← Int.add_emod_right, Int.emod_eq_of_lt] <;> omega]
    omega
  have hview : A.toMdspanStride = .error .oob := by
    unfold PyArray.toMdspanStride PyArray.extent0 PyArray.mutableData
    rw [hstr, bind_ok, hA.shape]
    simp only [List.getElem?_cons_zero, bind_ok, hAw, if_true]
    unfold PyArray.readView
    apply forN_fault_one (s1 := [x 0]) _ _ hn
    · unfold PyArray.access
      have : A.mem (A.data + ((0 * (2 ^ 64 - q) % 2 ^ 64 : ℕ) : ℤ) * A.itemsize) = some (x 0) := by
        rw [← h0]; simp
      rw [this]
      rfl
    · unfold PyArray.access
      have hm : 1 * (2 ^ 64 - q) % 2 ^ 64 = 2 ^ 64 - q := by omega
      have : A.mem (A.data + ((1 * (2 ^ 64 - q) % 2 ^ 64 : ℕ) : ℤ) * A.itemsize) = none := by
        apply hA.high
        rw [hm, Nat.cast_sub (by omega)]
        push_cast
        nlinarith
      rw [this]
      rfl
  rw [pyConvolve_eq]
  have hov : pyOverload A.dtype B.dtype = A.dtype := by
    rw [← hd]
    unfold pyOverload
    cases h : A.dtype <;> simp_all
  unfold pyConvolveBound
  dsimp only
  rw [hov, ensure_self]
  unfold pyConvolveT
  rw [if_neg (by rw [hA.shape]; simp), hview]
  rfl

/-- A contiguous array of 8-byte elements. -/
def contiguous (d : DType) (xs : List ℝ) : PyArray ℝ where
  mem a := if 0 ≤ a ∧ a % 8 = 0 then xs[(a / 8).toNat]? else none
  data := 0
  shape := [xs.length]
  strides := [8]
  itemsize := 8
  writeable := true
  cStyle := true
  fStyle := true
  dtype := d

theorem contiguous_holds (d : DType) (xs : List ℝ) (h : xs.length ≤ 2 ^ 32) :
    Holds (contiguous d xs) xs.length ((1 : ℕ) * (contiguous d xs).itemsize) (fun i => xs.getD i 0) where
  shape := rfl
  strides := rfl
  item := by show (0 : ℤ) < 8; decide
  elem i hi := by
    have e : (contiguous d xs).data + i * ((1 : ℕ) * (contiguous d xs).itemsize) = 8 * i := by
      show (0 : ℤ) + i * ((1 : ℕ) * 8) = 8 * i
      push_cast; ring
    rw [e]
    unfold contiguous
    dsimp only
    rw [if_pos (by omega), show ((8 * (i : ℤ)) / 8).toNat = i by omega]
    rw [List.getD_eq_getElem?_getD, List.getElem?_eq_getElem hi]
    rfl
  low a ha := if_neg (fun h => absurd h.1 (not_le.2 ha))
  high a ha := by
    have h' : (xs.length : ℤ) ≤ 2 ^ 32 := by exact_mod_cast h
    unfold contiguous
    dsimp only
    split
    · apply List.getElem?_eq_none
      norm_num at ha h'
      omega
    · rfl

/-- Every layout and every method: the hypotheses of `C81_convolve_partial` on a contiguous array and itself. -/
example (rnd : DType → ℝ → ℝ) :
    pyConvolve rnd (contiguous .double [1, 2, 3]) (contiguous .double [10, 1]) "full" "fft" = .ok [10, 21, 32, 3] := by
  rw [C81_convolve_partial rnd (contiguous_holds .double [1, 2, 3] (by norm_num))
    (contiguous_holds .double [10, 1] (by norm_num)) rfl rfl rfl
    (by simp [contiguous]) (by norm_num) (by norm_num) "fft" (by intro; norm_num)]
  norm_num [vec, List.range_succ, Spec.conv, upto, Finset.sum_range_succ]

/-- A view of one field of a packed record array: two doubles 12 bytes apart (`1` and `2`), with `7` to be
found at the byte address 8. -/
def fieldView : PyArray ℝ where
  mem a := if a = 0 then some 1 else if a = 8 then some 7 else if a = 12 then some 2 else none
  data := 0
  shape := [2]
  strides := [12]
  itemsize := 8
  writeable := true
  cStyle := false
  fStyle := false
  dtype := .double

/-- **C81** fails for a stride that is not a multiple of the item size (a field of a packed record array):
the division in `make_strides` truncates, the wrong memory is read, and no error is reported. -/
theorem C81_odd_stride (rnd : DType → ℝ → ℝ) :
    Holds fieldView 2 12 (fun i => [1, 2].getD i 0) ∧
    pyConvolve rnd fieldView (contiguous .double [1]) "full" "auto" = .ok [1, 7] := by
  constructor
  · refine ⟨rfl, rfl, by decide, ?_, ?_, ?_⟩
    · intro i hi
      interval_cases i <;> norm_num [fieldView]
    · intro a ha
      show (if a = 0 then _ else if a = 8 then _ else if a = 12 then _ else _) = _
      rw [if_neg (by omega), if_neg (by omega), if_neg (by omega)]
    · intro a ha
      show (if a = 0 then _ else if a = 8 then _ else if a = 12 then _ else _) = _
      rw [if_neg (by omega), if_neg (by omega), if_neg (by omega)]
  · have hv : fieldView.toMdspanStride = .ok (vec 2 (fun i => [1, 7].getD i 0)) := by
      unfold PyArray.toMdspanStride PyArray.extent0 PyArray.mutableData PyArray.stride0
      have : (((12 : ℤ).tdiv 8) % 2 ^ 64).toNat = 1 := by decide
      simp only [fieldView, List.getElem?_cons_zero, bind_ok, if_true, this]
      apply readView_eq
      intro i hi
      interval_cases i <;> norm_num
    have hc := toMdspanStride_eq (contiguous_holds .double [1] (by norm_num)) rfl
    have hd := produces_iff.1 (C19_direct_convolve (vec 2 (fun i => ([1, 7] : List ℝ).getD i 0))
      (vec 1 (fun i => ([1] : List ℝ).getD i 0)) (vec_ne_nil (by norm_num) _) (vec_ne_nil (by norm_num) _))
    rw [pyConvolve_eq, if_neg (by decide)]
    show pyConvolveT .direct (fieldView.ensure rnd .double) ((contiguous .double [1]).ensure rnd .double) .full = _
    rw [show fieldView.ensure rnd .double = fieldView from ensure_self rnd fieldView,
      show (contiguous .double [1]).ensure rnd .double = contiguous .double [1] from ensure_self rnd (contiguous .double [1])]
    unfold pyConvolveT
    rw [if_neg (by simp [fieldView]), hv, bind_ok, hc, bind_ok, if_pos rfl]
    simp only [length_vec, List.length_singleton]
    rw [if_neg (by norm_num)]
    have := (C19_output_buffer (vec 2 (fun i => ([1, 7] : List ℝ).getD i 0))
      (vec 1 (fun i => ([1] : List ℝ).getD i 0)) (vec (2 + 1 - 1) (fun _ => 0))
      (vec_ne_nil (by norm_num) _) (vec_ne_nil (by norm_num) _)).1 (by simp [length_vec])
    rw [this, hd, length_vec, length_vec, getD_vec_upto, getD_vec_upto]
    norm_num [vec, List.range_succ, Spec.conv, upto, Finset.sum_range_succ]

/-- **C81** fails for a read-only array (the result of `np.broadcast_to`, for instance): it raises,
although nothing is written to it. -/
theorem C81_read_only (rnd : DType → ℝ → ℝ) {A B : PyArray ℝ} {n q : ℕ} {x : ℕ → ℝ}
    (hA : Holds A n (q * A.itemsize) x) (hAw : A.writeable = false)
    (hd : A.dtype = B.dtype) (hf : A.dtype ≠ .other) (method : String) :
    pyConvolve rnd A B "full" method = .error .exception := by
  have hview : A.toMdspanStride = .error .exception := by
    unfold PyArray.toMdspanStride PyArray.extent0 PyArray.mutableData
    rw [stride0_eq hA, bind_ok, hA.shape, hAw]
    rfl
  rw [pyConvolve_eq]
  have hov : pyOverload A.dtype B.dtype = A.dtype := by
    rw [← hd]
    unfold pyOverload
    cases h : A.dtype <;> simp_all
  unfold pyConvolveBound
  dsimp only
  rw [hov, ensure_self]
  unfold pyConvolveT
  rw [if_neg (by rw [hA.shape]; simp), hview]
  rfl

/-- The element values after the conversion pybind11 performs for the overload of type `d`. -/
def converted (rnd : DType → ℝ → ℝ) (A : PyArray ℝ) (d : DType) (x : ℕ → ℝ) (i : ℕ) : ℝ :=
  if A.dtype = d then x i else rnd d (x i)

theorem ensure_holds (rnd : DType → ℝ → ℝ) {A : PyArray ℝ} {n q : ℕ} {x : ℕ → ℝ} (d : DType)
    (hA : Holds A n (q * A.itemsize) x) (hAw : A.writeable = true) (hn : A.itemsize * n ≤ 2 ^ 64) :
    ∃ q' : ℕ, Holds (A.ensure rnd d) n (q' * (A.ensure rnd d).itemsize) (converted rnd A d x) ∧
      (A.ensure rnd d).writeable = true := by
  by_cases h : A.dtype = d
  · subst h
    rw [ensure_self]
    refine ⟨q, ⟨hA.shape, hA.strides, hA.item, ?_, hA.low, hA.high⟩, hAw⟩
    intro i hi
    rw [hA.elem i hi]
    simp [converted]
  · refine ⟨1, ?_, by unfold PyArray.ensure; rw [if_neg h]; rfl⟩
    have hitem := hA.item
    have e : A.ensure rnd d = A.convert (rnd d) d := by unfold PyArray.ensure; rw [if_neg h]
    rw [e]
    unfold PyArray.convert
    rw [hA.shape, hA.strides]
    refine ⟨rfl, by simp, hitem, ?_, ?_, ?_⟩
    · intro i hi
      have hi' : (i : ℤ) < n := by exact_mod_cast hi
      have hi0 : (0 : ℤ) ≤ i := Int.natCast_nonneg i
      dsimp only
      rw [if_pos]
      · rw [show (0 : ℤ) + (i : ℤ) * (((1 : ℕ) : ℤ) * A.itemsize) = i * A.itemsize by push_cast; ring,
          Int.mul_ediv_cancel _ hitem.ne']
        simp only [List.getD_cons_zero]
        rw [hA.elem i hi]
        simp [converted, h]
      · simp only [List.getD_cons_zero]
        push_cast
        constructor
        · nlinarith
        · nlinarith
    · intro a ha
      dsimp only
      rw [if_neg (by omega)]
    · intro a ha
      dsimp only
      rw [if_neg]
      simp only [List.getD_cons_zero]
      rintro ⟨_, h2⟩
      linarith

/-- **C81** fails for operands of different element types, and for integers: the `float` overload is
registered first and takes every pair that does not match exactly, so the operands are first
rounded to single precision, even when one of them (or neither) is an array of floats. -/
theorem C81_mixed_types (rnd : DType → ℝ → ℝ) {A B : PyArray ℝ} {n l q r : ℕ} {x y : ℕ → ℝ}
    (hA : Holds A n (q * A.itemsize) x) (hB : Holds B l (r * B.itemsize) y)
    (hAw : A.writeable = true) (hBw : B.writeable = true)
    (hAn : A.itemsize * n ≤ 2 ^ 64) (hBn : B.itemsize * l ≤ 2 ^ 64)
    (hd : ¬(A.dtype = .double ∧ B.dtype = .double)) (hn : 1 ≤ n) (hl : 1 ≤ l) (method : String)
    (hm : method = "fft" → 2 ≤ n ∧ 2 ≤ l ∧ n + l - 1 ≤ 2 ^ 27) :
    pyConvolve rnd A B "full" method
      = .ok (vec (n + l - 1) (Spec.conv (upto n (converted rnd A .single x))
          (upto l (converted rnd B .single y)))) := by
  rw [pyConvolve_eq]
  have hov : pyOverload A.dtype B.dtype = .single := by
    unfold pyOverload
    rw [if_neg hd]
    simp
  unfold pyConvolveBound
  dsimp only
  rw [hov]
  obtain ⟨q', hA', hAw'⟩ := ensure_holds rnd .single hA hAw hAn
  obtain ⟨r', hB', hBw'⟩ := ensure_holds rnd .single hB hBw hBn
  apply pyConvolveT_conv hA' hB' hAw' hBw' hn hl
  intro h
  apply hm
  by_contra hc
  rw [if_neg hc] at h
  cases h

/-- **C81**: an integer operand makes the product `0.1 · 1` come out as the single-precision number, with a
double-precision first operand. -/
example (rnd : DType → ℝ → ℝ) :
    pyConvolve rnd (contiguous .double [0.1]) (contiguous .other [1]) "full" "auto"
      = .ok [rnd .single 0.1 * rnd .single 1] := by
  rw [C81_mixed_types rnd (contiguous_holds .double [0.1] (by norm_num))
    (contiguous_holds .other [1] (by norm_num)) rfl rfl
    (by norm_num [contiguous]) (by norm_num [contiguous]) (by simp [contiguous]) (by norm_num) (by norm_num) "auto"
    (fun h => absurd h (by decide))]
  have h1 : ¬ (DType.other = DType.single) := by decide
  have h2 : ¬ (DType.double = DType.single) := by decide
  simp [vec, List.range_succ, Spec.conv, upto, converted, contiguous, h1, h2]

/-- What NumPy documents for `numpy.fft.rfftfreq(n, d)`: `n/2 + 1` frequencies `i/(n d)`. -/
noncomputable def npRfftfreq (n : ℕ) (d : ℝ) : List ℝ := vec (n / 2 + 1) (fun i => (i : ℝ) / (n * d))

/-- **C81**, `rfftfreq(n, d)`: it returns the `n` frequencies `i/(n d)`.  It begins with the list that NumPy's function
of the same name returns and equals it only for `n = 1` and `n = 2`; from 3 on it is longer. -/
theorem C81_rfftfreq (n : ℕ) (d : ℝ) (hd : 0 < d) (hn : n < 2 ^ 31) :
    pyRfftfreq n d = .ok (vec n (fun i => (i : ℝ) / (n * d))) ∧
    (1 ≤ n → ∃ y, pyRfftfreq n d = .ok y ∧ y.take (n / 2 + 1) = npRfftfreq n d ∧
      (y = npRfftfreq n d ↔ n = 1 ∨ n = 2)) := by
  have h0 : pyRfftfreq n d = .ok (vec n (fun i => (i : ℝ) / (n * d))) := by
    unfold pyRfftfreq
    have := C53_vector (vec n (fun _ => (0 : ℝ))) d hd (by rwa [length_vec])
    rw [length_vec] at this
    exact this
  refine ⟨h0, fun h1 => ⟨_, h0, ?_, ?_⟩⟩
  · unfold npRfftfreq vec
    rw [← List.map_take, List.take_range, Nat.min_eq_left (by omega)]
  · constructor
    · intro h
      have := congrArg List.length h
      rw [npRfftfreq, length_vec, length_vec] at this
      omega
    · rintro (rfl | rfl) <;> rfl

example : pyRfftfreq 4 (1 / 2) = .ok (vec 4 (fun i => (i : ℝ) / ((4 : ℕ) * (1 / 2)))) :=
  (C81_rfftfreq 4 (1 / 2) (by norm_num) (by norm_num)).1

end Neo.Props
