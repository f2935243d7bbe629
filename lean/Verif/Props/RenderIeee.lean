import Verif.Model.RenderIeee
import Verif.Props.EndToEnd
import Verif.Props.StatsIeee

/-! # C118: rendering with a normalised impulse response in IEEE 754 arithmetic -/

namespace Neo.Props

open Neo Spec Finset

variable {f : Fmt}

private theorem sum_vec (n : ℕ) (g : ℕ → ℝ) : (vec n g).sum = ∑ i ∈ range n, g i := by
  unfold vec
  induction n with
  | zero => rfl
  | succ n ih => rw [List.range_succ, List.map_append, List.sum_append, ih, sum_range_succ]; simp

private theorem row_vec {v : MatView} {data : List ℝ} {r : ℕ} (h : ∀ c < v.cols, v.idx r c < data.length) :
    row v data r = vec v.cols (chanAt v data r) := by
  unfold row vec
  rw [← List.filterMap_eq_map]
  apply List.filterMap_congr
  intro c hc
  have hc := List.mem_range.1 hc
  rw [List.getElem?_eq_getElem (h c hc), Function.comp_apply, chanAt, if_pos hc, List.getD_eq_getElem _ _ (h c hc)]

private theorem row_fin (v : MatView) (data : List ℝ) (r : ℕ) :
    row v (data.map FVal.fin) r = (row v data r).map .fin := by
  unfold row
  rw [List.map_filterMap]
  apply List.filterMap_congr
  intro c _
  rw [List.getElem?_map]

private theorem all_fin (d : List FVal) (h : ∀ x ∈ d, ∃ z, x = .fin z) : ∃ d' : List ℝ, d = d'.map .fin := by
  induction d with
  | nil => exact ⟨[], rfl⟩
  | cons x l ih =>
    obtain ⟨z, rfl⟩ := h x List.mem_cons_self
    obtain ⟨l', rfl⟩ := ih fun y hy => h y (List.mem_cons_of_mem _ hy)
    exact ⟨z :: l', rfl⟩

private theorem blocks_cover {n B : ℕ} (hB : 0 < B) : n ≤ (n + B - 1) / B * B := by
  have h1 := Nat.div_add_mod (n + B - 1) B
  have h2 := Nat.mod_lt (n + B - 1) hB
  rw [mul_comm]
  omega

/-- The blocks of a channel as real numbers. -/
private noncomputable def blocksR (B : ℕ) (s : List ℝ) : List (List ℝ) :=
  vec ((s.length + B - 1) / B) fun t => vec B fun j => s.getD (t * B + j) 0

private theorem getD_sample (s : List ℝ) (i : ℕ) : (s.map (sample : ℝ → IR f)).getD i ⟨.fin 0⟩ = sample (s.getD i 0) :=
  List.getD_map s (0 : ℝ) (sample : ℝ → IR f)

private theorem blocks_sample (B : ℕ) (s : List ℝ) :
    blocksI B (s.map (sample : ℝ → IR f)) = (blocksR B s).map (·.map sample) := by
  unfold blocksI blocksR
  rw [map_vec, List.length_map]
  congr 1
  funext t
  rw [map_vec]
  congr 1
  funext j
  exact getD_sample s _

private theorem blocksR_flatten {B : ℕ} (hB : 0 < B) (s : List ℝ) :
    (blocksR B s).flatten.length = (s.length + B - 1) / B * B ∧ ∀ i, (blocksR B s).flatten.getD i 0 = s.getD i 0 := by
  have e : (blocksR B s).flatten = vec ((s.length + B - 1) / B * B) (fun i => s.getD i 0) :=
    flatten_vec _ (fun i => s.getD i 0)
  refine ⟨by rw [e, length_vec], fun i => ?_⟩
  rw [e]
  by_cases hi : i < (s.length + B - 1) / B * B
  · rw [getD_vec _ _ _ _ hi]
  · rw [List.getD_eq_default _ _ (by rw [length_vec]; omega),
      List.getD_eq_default _ _ (by have := blocks_cover (n := s.length) hB; omega)]

private theorem blocksR_mem {B : ℕ} {s : List ℝ} {X : ℝ} (h0 : 0 ≤ X) (hs : ∀ x ∈ s, |x| ≤ X) :
    (∀ b ∈ blocksR B s, b.length = B) ∧ ∀ b ∈ blocksR B s, ∀ x ∈ b, |x| ≤ X := by
  constructor <;> intro b hb <;> obtain ⟨t, -, rfl⟩ := List.mem_map.1 hb
  · exact length_vec _ _
  · intro x hx
    obtain ⟨j, -, rfl⟩ := List.mem_map.1 hx
    rw [List.getD_eq_getElem?_getD]
    rcases hg : s[t * B + j]? with _ | z
    · rw [Option.getD_none, abs_zero]; exact h0
    · exact hs z (List.mem_of_getElem? hg)

/-- The convolution with a filter close to a multiple of another one. -/
private theorem conv_close {n K : ℕ} {y w x : ℕ → ℝ} {g X E : ℝ} (hX0 : 0 ≤ X) (hx : ∀ i, |x i| ≤ X)
    (hz : ∀ i, K ≤ i → y i = 0 ∧ w i = 0) (hE : ∑ i ∈ range K, |y i - w i * g| ≤ E) :
    |Spec.conv y x n - g * Spec.conv w x n| ≤ X * E := by
  unfold Spec.conv
  rw [mul_sum, ← sum_sub_distrib]
  refine (abs_sum_le_sum_abs _ _).trans ?_
  calc _ ≤ ∑ m ∈ range (n + 1), X * |y m - w m * g| := sum_le_sum fun m _ => by
        rw [show y m * x (n - m) - g * (w m * x (n - m)) = x (n - m) * (y m - w m * g) by ring, abs_mul]
        exact mul_le_mul_of_nonneg_right (hx _) (abs_nonneg _)
    _ = X * ∑ m ∈ range (n + 1), |y m - w m * g| := (mul_sum _ _ _).symm
    _ ≤ X * ∑ m ∈ range (max (n + 1) K), |y m - w m * g| := mul_le_mul_of_nonneg_left
        (sum_le_sum_of_subset_of_nonneg (range_mono (le_max_left _ _)) fun _ _ _ => abs_nonneg _) hX0
    _ = X * ∑ m ∈ range K, |y m - w m * g| := by
        congr 1
        refine (sum_subset (range_mono (le_max_right _ _)) fun m _ hm => ?_).symm
        obtain ⟨h1, h2⟩ := hz m (not_lt.1 fun h => hm (mem_range.2 h))
        rw [h1, h2, zero_mul, sub_zero, abs_zero]
    _ ≤ X * E := mul_le_mul_of_nonneg_left hE hX0

/-- The normalised impulse response: all finite, a multiple of the given one, and of magnitudes that add to at most twice the
root of its length. -/
private theorem normalised (hf : f.Ieee) (h8 : 8 ≤ f.emax) (colMajor : Bool) (v : MatView) (ir : List ℝ)
    (hv : v.Valid ir.length) (hr : 1 ≤ v.rows)
    (hR : ∀ r < v.rows, (∀ a ∈ row v ir r, a = 0) ∨ EnergyRange f (row v ir r)) (hu : f.u ≤ 1 / 100)
    (hcν : v.cols * f.minNormal ≤ 1) :
    ∃ (imp : List ℝ) (g : ℝ), 0 < g ∧ normalizeImpulseMatI f colMajor v (ir.map .fin) = .ok (imp.map .fin) ∧
      imp.length = ir.length ∧ (∀ r < v.rows, List.Forall₂ (ScaledOut f g) (row v ir r) (row v imp r)) ∧
      (∀ r < v.rows, ∑ i ∈ range v.cols, |chanAt v imp r i| ≤ 2 * Real.sqrt v.cols) ∧
      ∀ r < v.rows, ∀ i < v.cols, ScaledOut f g (chanAt v ir r i) (chanAt v imp r i) := by
  have hu0 := u_pos f
  have hν := minNormal_pos f
  obtain ⟨d, y, g, e, hl, hg, hrow, -, hout⟩ := C108_impulse f hf h8 colMajor v (ir.map .fin)
    (by rw [List.length_map]; exact hv) hr (row v ir) (fun r _ => row_fin v ir r) hR
  rw [List.length_map] at hl
  obtain ⟨imp, rfl⟩ := all_fin d fun x hx => by
    obtain ⟨m, hm, rfl⟩ := List.getElem_of_mem hx
    by_cases h : ∃ r < v.rows, ∃ c < v.cols, v.idx r c = m
    · obtain ⟨r, hr, c, hc, rfl⟩ := h
      have : d[v.idx r c] ∈ row v d r := mem_row.2 ⟨c, hc, List.getElem?_eq_getElem hm⟩
      rw [(hrow r hr).1] at this
      obtain ⟨z, -, hz⟩ := List.mem_map.1 this
      exact ⟨z, hz.symm⟩
    · have := hout m fun r hr c hc he => h ⟨r, hr, c, hc, he⟩
      rw [List.getElem?_eq_getElem hm, List.getElem?_map, List.getElem?_eq_getElem (by omega), Option.map_some] at this
      exact ⟨_, Option.some.inj this⟩
  rw [List.length_map] at hl
  have hy : ∀ r < v.rows, y r = row v imp r := fun r h => by
    have := (hrow r h).1
    rw [row_fin] at this
    exact (List.map_injective_iff.2 (fun a b h => FVal.fin.inj h) this).symm
  have hvi : ∀ r < v.rows, ∀ c < v.cols, v.idx r c < imp.length := fun r h c h' => by rw [hl]; exact hv.1 r h c h'
  have hsc : ∀ r < v.rows, List.Forall₂ (ScaledOut f g) (row v ir r) (row v imp r) := fun r h => by
    rw [← hy r h]
    exact (hrow r h).2.1
  refine ⟨imp, g, hg, e, hl, hsc, fun r h => ?_, fun r h i hi => ?_⟩
  · have hk := (hrow r h).2.2
    rw [hy r h, row_vec (hvi r h)] at hk
    have hen : energy (vec v.cols (chanAt v imp r)) = ∑ i ∈ range v.cols, |chanAt v imp r i| ^ 2 := by
      unfold energy
      rw [map_vec, sum_vec]
      exact sum_congr rfl fun i _ => (sq_abs _).symm
    have hle : 1 + energyTol f (row v ir r) + Real.sqrt v.cols * (f.u * f.minNormal) ≤ 2 := by
      have h1 : energyErr f (row v ir r) ≤ 1 / 2 := by
        rcases hR r h with h0 | h0
        · have : energy (row v ir r) = 0 := by
            unfold energy
            apply List.sum_eq_zero
            intro x hx
            obtain ⟨z, hz, rfl⟩ := List.mem_map.1 hx
            rw [h0 z hz]; norm_num
          unfold energyErr
          rw [this, div_zero]
          norm_num
        · exact h0.2.1
      have h2 : Real.sqrt v.cols ≤ v.cols := by
        rcases Nat.eq_zero_or_pos v.cols with h0 | h0
        · rw [h0]; simp
        · have : (1 : ℝ) ≤ v.cols := by exact_mod_cast h0
          rw [Real.sqrt_le_left (by linarith)]
          nlinarith
      have h3 : Real.sqrt v.cols * (f.u * f.minNormal) ≤ f.u := by
        calc _ ≤ v.cols * (f.u * f.minNormal) := mul_le_mul_of_nonneg_right h2 (by positivity)
          _ = f.u * (v.cols * f.minNormal) := by ring
          _ ≤ f.u * 1 := mul_le_mul_of_nonneg_left hcν hu0.le
          _ = f.u := mul_one _
      unfold energyTol
      nlinarith
    have hcs := Real.sum_mul_le_sqrt_mul_sqrt (range v.cols) (fun _ => (1 : ℝ)) (fun i => |chanAt v imp r i|)
    rw [← hen] at hcs
    simp only [one_mul, one_pow, sum_const, card_range, nsmul_eq_mul, mul_one] at hcs
    calc _ ≤ _ := hcs
      _ ≤ Real.sqrt v.cols * 2 := mul_le_mul_of_nonneg_left (hk.trans hle) (Real.sqrt_nonneg _)
      _ = _ := mul_comm _ _
  · have := hsc r h
    rw [row_vec (hv.1 r h), row_vec (hvi r h)] at this
    unfold vec at this
    rw [List.forall₂_map_left_iff, List.forall₂_map_right_iff, List.forall₂_same] at this
    exact this i (List.mem_range.2 hi)

/-- **C118**.  `convolve` of the command line renderer on one channel, as it runs: `normalize_impulse`, `uniform_partition`
with the tables of `twiddle`, the signal in blocks of `B = 2^a` samples of which the last is filled up with zeros,
overlap-add or overlap-save, the output cut to the length of the signal.  Let every channel of the impulse response be silent
or have an energy in the range of the format (`EnergyRange`), let the cosine and sine of the library be within one unit
roundoff `u`, let `X ≥ 1` bound the samples of the signal, and let `2 · 2B X` and `2 (2B)² · 3 X √S` be below the overflow
threshold for impulse responses of `S` samples in `N` partitions.  There is one positive factor `g` for all channels such that
for every channel and every signal, of any length, all samples of the output are finite and within
`4 (159 (a + 1) + 2 N + 9) u · 2B · 3 X √S` (overlap-add) or `2 (159 (a + 1) + 2 N + 8) u · 2B · 3 X √S` (overlap-save) of `g` times
the convolution of the signal with the given impulse response.  No bound of the magnitude of the impulse response is needed.
The results are the same with `neo::scalar_complex` and `std::complex`. -/
theorem C118_render (hw : TwiddleFmt f) (h8 : 8 ≤ f.emax) {cos sin : FVal → FVal} (hc : CosOk f cos f.u) (hs : SinOk f sin f.u)
    {a : ℕ} (ha : 1 ≤ a) (ha2 : a ≤ 26) (hbe : ((a + 1 : ℕ) : ℤ) + 4 ≤ f.emax) (colMajor : Bool) (v : MatView) (ir : List ℝ)
    (hv : v.Valid ir.length) (hr : 1 ≤ v.rows) (hS : 1 ≤ v.cols) (hS2 : v.cols < 2 ^ 64)
    (hsz : v.rows * ((v.cols - 1) / 2 ^ a + 1) * (2 ^ a + 1) < 2 ^ 59) {N : ℕ} (hN : N = (v.cols - 1) / 2 ^ a + 1)
    (hE : (159 * (a + 1 : ℕ) + 2 * N + 7) * f.u ≤ 1 / 2) (hNν : N * (2 ^ (a + 1) * f.minNormal) ≤ 1)
    (hR : ∀ r < v.rows, (∀ a ∈ row v ir r, a = 0) ∨ EnergyRange f (row v ir r)) {X : ℝ} (hX : 1 ≤ X)
    (ho1 : 2 * (2 ^ (a + 1) * X) < (2 : ℝ) ^ f.emax)
    (ho : 2 * (4 ^ (a + 1) * (X * (3 * Real.sqrt v.cols))) < (2 : ℝ) ^ f.emax) :
    ∃ (g : ℝ) (imp : List ℝ), 0 < g ∧ normalizeImpulseMatI f colMajor v (ir.map .fin) = .ok (imp.map .fin) ∧
      (∀ r < v.rows, List.Forall₂ (ScaledOut f g) (row v ir r) (row v imp r)) ∧
      ∀ c < v.rows, ∀ s : List ℝ, (∀ x ∈ s, |x| ≤ X) →
        (∃ out : List ℝ,
          renderChannelI (ieeeArith f (twiddleI f cos sin)) (upolaRunG (ieeeArith f (twiddleI f cos sin))) colMajor v
            (ir.map .fin) (2 ^ a) c (s.map sample) = .ok (out.map sample) ∧
          renderChannelI (stdArith f (twiddleI f cos sin)) (upolaRunG (stdArith f (twiddleI f cos sin))) colMajor v
            (ir.map .fin) (2 ^ a) c (s.map sample) = .ok (out.map sample) ∧
          out.length = s.length ∧
          ∀ n < s.length, |out.getD n 0 - g * Spec.conv (chanAt v ir c) (fun i => s.getD i 0) n|
            ≤ 4 * ((159 * (a + 1 : ℕ) + 2 * N + 9) * f.u) * (2 ^ (a + 1) * (X * (3 * Real.sqrt v.cols)))) ∧
        ∃ out : List ℝ,
          renderChannelI (ieeeArith f (twiddleI f cos sin)) (upolsRunG (ieeeArith f (twiddleI f cos sin))) colMajor v
            (ir.map .fin) (2 ^ a) c (s.map sample) = .ok (out.map sample) ∧
          renderChannelI (stdArith f (twiddleI f cos sin)) (upolsRunG (stdArith f (twiddleI f cos sin))) colMajor v
            (ir.map .fin) (2 ^ a) c (s.map sample) = .ok (out.map sample) ∧
          out.length = s.length ∧
          ∀ n < s.length, |out.getD n 0 - g * Spec.conv (chanAt v ir c) (fun i => s.getD i 0) n|
            ≤ 2 * ((159 * (a + 1 : ℕ) + 2 * N + 8) * f.u) * (2 ^ (a + 1) * (X * (3 * Real.sqrt v.cols))) := by
  have hu0 := u_pos f
  have hν := minNormal_pos f
  have hX0 : 0 ≤ X := by linarith
  have hu : f.u ≤ 1 / 100 := by
    have h0 : (0 : ℝ) ≤ 159 * a + 2 * N := by positivity
    have : (166 : ℝ) * f.u ≤ (159 * (a + 1 : ℕ) + 2 * N + 7) * f.u := by
      apply mul_le_mul_of_nonneg_right _ hu0.le
      push_cast
      linarith
    linarith
  have hcols : v.cols ≤ N * 2 ^ a := by
    have h1 := Nat.div_add_mod (v.cols - 1) (2 ^ a)
    have h2 := Nat.mod_lt (v.cols - 1) (Nat.two_pow_pos a)
    rw [hN, add_mul, one_mul, mul_comm]
    omega
  have hcν2 : 2 * (v.cols * f.minNormal) ≤ 1 := by
    refine le_trans ?_ hNν
    have : (v.cols : ℝ) ≤ N * 2 ^ a := by exact_mod_cast hcols
    calc 2 * (v.cols * f.minNormal) ≤ 2 * (N * 2 ^ a * f.minNormal) := by gcongr
      _ = _ := by rw [pow_succ]; ring
  obtain ⟨imp, g, hg, e, hl, hsc, hsum, hpt⟩ := normalised hw.1 h8 colMajor v ir hv hr hR hu (by nlinarith)
  refine ⟨g, imp, hg, e, hsc, ?_⟩
  have hq1 : (1 : ℝ) ≤ Real.sqrt v.cols := by
    rw [Real.one_le_sqrt]
    exact_mod_cast hS
  set Q := Real.sqrt v.cols with hQ
  obtain ⟨bins, part, part', p1, p2, hall⟩ := C117_stream hw hc hs ha ha2 hbe v imp (by rw [hl]; exact hv.1) hS hS2 hsz hN hE
    (X := X) (L := 3 * Q) hX (fun c h => by linarith [hsum c h]) ho1 ho
  intro c hcr s hsX
  obtain ⟨hb1, hb2⟩ := blocksR_mem (B := 2 ^ a) hX0 hsX
  obtain ⟨hf1, hf2⟩ := blocksR_flatten (B := 2 ^ a) (Nat.two_pow_pos a) s
  have hcov := blocks_cover (n := s.length) (Nat.two_pow_pos a)
  have h2a : (1 : ℝ) ≤ 2 ^ (a + 1) := one_le_pow₀ (by norm_num)
  have hconv : ∀ n, |Spec.conv (chanAt v imp c) (fun i => s.getD i 0) n - g * Spec.conv (chanAt v ir c) (fun i => s.getD i 0) n|
      ≤ 2 * f.u * (2 ^ (a + 1) * (X * (3 * Q))) := by
    intro n
    refine (conv_close (K := v.cols) (E := f.u * (6 * Q)) hX0 (fun i => ?_) (fun i hi => ?_) ?_).trans ?_
    · rw [List.getD_eq_getElem?_getD]
      rcases hg : s[i]? with _ | z
      · rw [Option.getD_none, abs_zero]; exact hX0
      · exact hsX z (List.mem_of_getElem? hg)
    · unfold chanAt
      rw [if_neg (by omega), if_neg (by omega)]
      exact ⟨rfl, rfl⟩
    · calc _ ≤ ∑ i ∈ range v.cols, f.u * (2 * |chanAt v imp c i| + 2 * f.minNormal) := by
            refine sum_le_sum fun i hi => ?_
            have h := hpt c hcr i (mem_range.1 hi)
            unfold ScaledOut at h
            refine h.trans (mul_le_mul_of_nonneg_left ?_ hu0.le)
            have h1 := abs_sub_abs_le_abs_sub (chanAt v ir c i * g) (chanAt v imp c i)
            rw [abs_sub_comm, abs_mul, abs_of_pos hg] at h1
            have h2 : 0 ≤ |chanAt v ir c i| * g := by positivity
            have h3 : f.u * (|chanAt v ir c i| * g + f.minNormal) ≤ 1 / 100 * (|chanAt v ir c i| * g + f.minNormal) :=
              mul_le_mul_of_nonneg_right hu (by linarith)
            have h4 := abs_nonneg (chanAt v imp c i)
            linarith
        _ = f.u * (2 * ∑ i ∈ range v.cols, |chanAt v imp c i| + 2 * (v.cols * f.minNormal)) := by
            rw [← mul_sum, sum_add_distrib, ← mul_sum, sum_const, card_range, nsmul_eq_mul]
            ring
        _ ≤ f.u * (6 * Q) := mul_le_mul_of_nonneg_left (by linarith [hsum c hcr]) hu0.le
    · have : 0 ≤ X * (3 * Q) := by positivity
      have := le_mul_of_one_le_left this h2a
      nlinarith
  have hren : ∀ {C : Type} [Add C] [Sub C] [Mul C] [Zero C] (A : Arith (IR f) C)
      (run : MatView → List C → List (List (IR f)) → Res (List (List (IR f)))) (pt : List C) (outs : List (List ℝ)),
      uniformPartitionG A (sample 1) v (imp.map sample) (2 ^ a) = .ok (N, bins, pt) →
      run (partitionView N bins c) pt ((blocksR (2 ^ a) s).map (·.map sample)) = .ok (outs.map (·.map sample)) →
      renderChannelI A run colMajor v (ir.map .fin) (2 ^ a) c (s.map sample)
        = .ok ((outs.flatten.take s.length).map sample) := by
    intro C _ _ _ _ A run pt outs h1 h2
    unfold renderChannelI
    have e2 : (imp.map FVal.fin).map (IR.mk (f := f)) = imp.map sample := by rw [List.map_map]; rfl
    rw [e, bind_ok, e2, show (⟨.fin 1⟩ : IR f) = sample 1 from rfl, h1, bind_ok]
    simp only []
    rw [if_neg (by omega), bind_ok, blocks_sample, h2, bind_ok, List.length_map, ← List.map_flatten, List.map_take]
    rfl
  have hlen : ∀ outs : List (List ℝ), outs.map List.length = (blocksR (2 ^ a) s).map List.length →
      (outs.flatten.take s.length).length = s.length ∧
        ∀ n < s.length, (outs.flatten.take s.length).getD n 0 = outs.flatten.getD n 0 := by
    intro outs h
    have h1 : outs.flatten.length = (blocksR (2 ^ a) s).flatten.length := by
      rw [List.length_flatten, List.length_flatten, h]
    refine ⟨by rw [List.length_take, h1, hf1]; omega, fun n hn => ?_⟩
    rw [List.getD_eq_getElem?_getD, List.getD_eq_getElem?_getD, List.getElem?_take, if_pos hn]
  have hfun : (fun i => (blocksR (2 ^ a) s).flatten.getD i 0) = fun i => s.getD i 0 := funext hf2
  obtain ⟨⟨o1, r1, r2, r3, r4⟩, o2, q1, q2, q3, q4⟩ := hall c hcr _ hb1 hb2
  rw [hfun, hf1] at r4 q4
  constructor
  · refine ⟨_, hren _ _ part o2 p1 q1, hren _ _ part' o2 p2 q2, (hlen o2 q3).1, fun n hn => ?_⟩
    rw [(hlen o2 q3).2 n hn]
    have h1 := q4 n (by omega)
    have h2 := hconv n
    have h3 := abs_sub_le (o2.flatten.getD n 0) (Spec.conv (chanAt v imp c) (fun i => s.getD i 0) n)
      (g * Spec.conv (chanAt v ir c) (fun i => s.getD i 0) n)
    have h4 : 0 ≤ f.u * (2 ^ (a + 1) * (X * (3 * Q))) := by positivity
    linarith
  · refine ⟨_, hren _ _ part o1 p1 r1, hren _ _ part' o1 p2 r2, (hlen o1 r3).1, fun n hn => ?_⟩
    rw [(hlen o1 r3).2 n hn]
    have h1 := r4 n (by omega)
    have h2 := hconv n
    have h3 := abs_sub_le (o1.flatten.getD n 0) (Spec.conv (chanAt v imp c) (fun i => s.getD i 0) n)
      (g * Spec.conv (chanAt v ir c) (fun i => s.getD i 0) n)
    linarith

private theorem float_range (w : List ℝ) (hn : w.length ≤ 2 ^ 20) (h1 : (2 : ℝ) ^ (-60 : ℤ) ≤ energy w)
    (h2 : energy w ≤ (2 : ℝ) ^ (100 : ℤ)) : EnergyRange Spec.binary32 w := by
  have hu : Spec.binary32.u = 1 / 2 ^ 24 := by
    show (2 : ℝ) ^ (-((24 : ℕ) : ℤ)) = _
    norm_num
  have hν : Spec.binary32.minNormal ≤ 1 / 2 ^ 120 := by
    show (2 : ℝ) ^ ((-149 : ℤ) + ((24 : ℕ) : ℤ) - 1) ≤ _
    norm_num
  have hnR : (w.length : ℝ) ≤ 1048576 := by exact_mod_cast hn
  norm_num at h1 h2 hν hu
  have hE : 0 < energy w := by linarith
  have hM : energyMag Spec.binary32 w ≤ energy w * 2 := by
    unfold energyMag
    have := mul_le_mul hnR hν (minNormal_pos _).le (by norm_num)
    norm_num at this
    linarith
  have hM0 : 0 ≤ energyMag Spec.binary32 w := by
    unfold energyMag
    have := minNormal_pos Spec.binary32
    positivity
  have hg : (1 + Spec.binary32.u) ^ (w.length + 1) ≤ 5 / 4 := by
    have h := pow_le_pow_left₀ (by linarith [u_pos Spec.binary32]) (le_exp Spec.binary32.u) (w.length + 1)
    rw [← Real.exp_nat_mul] at h
    have hk : ((w.length + 1 : ℕ) : ℝ) * Spec.binary32.u ≤ 1 / 8 := by
      rw [hu]; push_cast; linarith
    have := exp_le (t := ((w.length + 1 : ℕ) : ℝ) * Spec.binary32.u)
      (mul_nonneg (Nat.cast_nonneg _) (u_pos _).le) (by linarith)
    linarith
  refine ⟨by linarith, ?_, ?_⟩
  · unfold energyErr
    rw [div_le_iff₀ hE]
    calc _ ≤ 1 / 4 * (energy w * 2) := mul_le_mul (by linarith) hM hM0 (by norm_num)
      _ = _ := by ring
  · refine lt_of_le_of_lt (mul_le_mul hg hM hM0 (by norm_num)) ?_
    show _ < (2 : ℝ) ^ (128 : ℤ)
    norm_num
    linarith

/-- **C118** (`float`).  In single precision, with blocks of at most 32768 samples (the command line program uses 32768) and impulse
responses of at most `2^20` samples, each channel silent or of energy between `2^-60` and `2^100`: every signal with samples in
`[-1, 1]`, of any length, is rendered without overflow, and up to one gain common to all channels the result is the convolution with
an error of at most `12 (159 (a + 1) + 2 N + 9) 2B √S / 2^24`. -/
theorem C118_float {cos sin : FVal → FVal} (hc : CosOk binary32 cos binary32.u) (hs : SinOk binary32 sin binary32.u) {a : ℕ}
    (ha : 1 ≤ a) (ha2 : a ≤ 15) (colMajor : Bool) (v : MatView) (ir : List ℝ) (hv : v.Valid ir.length) (hr : 1 ≤ v.rows)
    (hr2 : v.rows ≤ 2 ^ 16) (hS : 1 ≤ v.cols) (hS2 : v.cols ≤ 2 ^ 20)
    (hR : ∀ r < v.rows, (∀ a ∈ row v ir r, a = 0) ∨
      ((2 : ℝ) ^ (-60 : ℤ) ≤ energy (row v ir r) ∧ energy (row v ir r) ≤ (2 : ℝ) ^ (100 : ℤ))) :
    ∃ g : ℝ, 0 < g ∧ ∀ c < v.rows, ∀ s : List ℝ, (∀ x ∈ s, |x| ≤ 1) → ∃ out : List ℝ,
      renderChannelI (stdArith binary32 (twiddleI binary32 cos sin)) (upolaRunG (stdArith binary32 (twiddleI binary32 cos sin)))
        colMajor v (ir.map .fin) (2 ^ a) c (s.map sample) = .ok (out.map sample) ∧
      out.length = s.length ∧
      ∀ n < s.length, |out.getD n 0 - g * Spec.conv (chanAt v ir c) (fun i => s.getD i 0) n|
        ≤ 12 * (159 * (a + 1) + 2 * ((v.cols - 1) / 2 ^ a + 1 : ℕ) + 9) * 2 ^ (a + 1) * Real.sqrt v.cols / 2 ^ 24 := by
  have hf : binary32.Ieee := by unfold Fmt.Ieee binary32; norm_num
  have hu : binary32.u = 1 / 2 ^ 24 := by
    show (2 : ℝ) ^ (-((24 : ℕ) : ℤ)) = _
    norm_num
  have hν : binary32.minNormal ≤ 1 / 2 ^ 100 := by
    show (2 : ℝ) ^ ((-149 : ℤ) + ((24 : ℕ) : ℤ) - 1) ≤ _
    norm_num
  have hm : (2 : ℝ) ^ 50 ≤ (2 : ℝ) ^ binary32.emax := by
    rw [← zpow_natCast]
    exact zpow_le_zpow_right₀ (by norm_num) (by norm_num [binary32])
  have h2a : (2 : ℝ) ^ (a + 1) ≤ 2 ^ 16 := pow_le_pow_right₀ (by norm_num) (by omega)
  have h4a : (4 : ℝ) ^ (a + 1) ≤ 4 ^ 16 := pow_le_pow_right₀ (by norm_num) (by omega)
  have hN : (v.cols - 1) / 2 ^ a + 1 ≤ 2 ^ 19 := by
    have : (v.cols - 1) / 2 ^ a ≤ (2 ^ 20 - 1) / 2 ^ 1 :=
      (Nat.div_le_div_right (by omega)).trans (Nat.div_le_div_left (Nat.pow_le_pow_right (by norm_num) ha) (by norm_num))
    omega
  have hB : 2 ^ a + 1 ≤ 2 ^ 16 := by
    have : 2 ^ a ≤ 2 ^ 15 := Nat.pow_le_pow_right (by norm_num) ha2
    omega
  have hsq : Real.sqrt v.cols ≤ 1024 := by
    rw [Real.sqrt_le_left (by norm_num)]
    have : (v.cols : ℝ) ≤ 2 ^ 20 := by exact_mod_cast hS2
    norm_num at this ⊢
    exact this
  set N := (v.cols - 1) / 2 ^ a + 1 with hNd
  have hNR : (N : ℝ) ≤ 2 ^ 19 := by exact_mod_cast hN
  have haR : (a : ℝ) ≤ 15 := by exact_mod_cast ha2
  obtain ⟨g, imp, hg, -, -, hall⟩ := C118_render (f := binary32) ⟨hf, by norm_num [binary32], by norm_num [binary32]⟩
    (by norm_num [binary32]) hc hs ha (by omega) (by show ((a + 1 : ℕ) : ℤ) + 4 ≤ 128; omega) colMajor v ir hv hr hS
    (lt_of_le_of_lt hS2 (by norm_num))
    (lt_of_le_of_lt (Nat.mul_le_mul (Nat.mul_le_mul hr2 hN) hB) (by norm_num)) hNd
    (by
      have : (N : ℝ) ≤ 524288 := hNR.trans (by norm_num)
      rw [hu]; push_cast; norm_num; linarith)
    (by
      calc _ ≤ (2 : ℝ) ^ 19 * (2 ^ 16 * (1 / 2 ^ 100)) :=
            mul_le_mul hNR (mul_le_mul h2a hν (minNormal_pos _).le (by norm_num))
              (mul_nonneg (by positivity) (minNormal_pos _).le) (by norm_num)
        _ ≤ 1 := by norm_num)
    (fun r h => (hR r h).imp_right fun h' => float_range _ (by rw [row_length (hv.1 r h)]; exact hS2) h'.1 h'.2) (X := 1) le_rfl
    (by
      refine lt_of_lt_of_le ?_ hm
      norm_num at h2a ⊢
      linarith)
    (by
      refine lt_of_lt_of_le ?_ hm
      calc _ ≤ (2 : ℝ) * (4 ^ 16 * (1 * (3 * 1024))) := by gcongr
        _ < _ := by norm_num)
  refine ⟨g, hg, fun c hcr s hsX => ?_⟩
  obtain ⟨⟨out, -, h1, h2, h3⟩, -⟩ := hall c hcr s hsX
  refine ⟨out, h1, h2, fun n hn => (h3 n hn).trans (le_of_eq ?_)⟩
  rw [hu]
  push_cast
  ring

/-- One channel of 96000 ones, in the layout of the command line program, with correctly
rounded cosine and sine: the hypotheses of `C118_float` are met, for blocks of 32768 samples. -/
example : CosOk binary32 (cosR binary32) binary32.u ∧ SinOk binary32 (sinR binary32) binary32.u ∧
    (MatView.left 1 96000).Valid (List.replicate 96000 (1 : ℝ)).length ∧
    energy (row (MatView.left 1 96000) (List.replicate 96000 1) 0) = 96000 := by
  have hf : binary32.Ieee := by unfold Fmt.Ieee binary32; norm_num
  have hv : (MatView.left 1 96000).Valid (List.replicate 96000 (1 : ℝ)).length := by
    rw [List.length_replicate]
    exact MatView.left_valid 1 96000
  refine ⟨cosR_ok hf, sinR_ok hf, hv, ?_⟩
  have : ∀ x ∈ (row (MatView.left 1 96000) (List.replicate 96000 (1 : ℝ)) 0).map (fun z : ℝ => z ^ 2), x = 1 := by
    intro x hx
    obtain ⟨z, hz, rfl⟩ := List.mem_map.1 hx
    obtain ⟨c, -, hc⟩ := mem_row.1 hz
    rw [(List.mem_replicate.1 (List.mem_of_getElem? hc)).2]
    norm_num
  unfold energy
  rw [List.eq_replicate_of_mem this, List.length_map, row_length (hv.1 0 (by show 0 < 1; norm_num)), List.sum_replicate]
  show 96000 • (1 : ℝ) = 96000
  norm_num

end Neo.Props
