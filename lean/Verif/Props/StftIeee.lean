import Verif.Lemmas.StftIeee
import Verif.Props.EndToEnd
import Verif.Props.IeeeFft
import Verif.Props.WindowIeee

/-! # C119: the short-time Fourier transform in IEEE 754 arithmetic -/

namespace Neo.Props

open Neo Spec Finset

section any
variable {R C : Type} [Zero R] [Add R] [Mul R] [Zero C] [AddCommMagma C] [Sub C] [Mul C] {A : Arith R C}

/-- Options the transform supports: the frames advance, and the transform takes a frame. -/
structure StftOk (o : StftOptionsW R) : Prop where
  advance : o.overlapSize < o.frameSize
  fits : o.frameSize ≤ o.transformSize
  two : 2 ≤ o.transformSize
  plan : o.transformSize ≤ 2 ^ 27

/-- The number of frames of a signal of `S` samples: `S` divided by the hop, rounded up. -/
def stftFrames (o : StftOptionsW R) (S : ℕ) : ℕ :=
  (S + (o.frameSize - o.overlapSize - 1)) / (o.frameSize - o.overlapSize)

/-- The size of the transform: the next power of two. -/
def stftSize (o : StftOptionsW R) : ℕ := 2 ^ Nat.clog 2 o.transformSize

/-- A matrix of samples whose transform fits into memory. -/
structure StftInput (o : StftOptionsW R) (v : MatView) (data : List R) : Prop where
  range : v.InRange data.length
  pos : 1 ≤ v.cols
  word : v.cols < 2 ^ 64
  size : v.rows * stftFrames o v.cols * (stftSize o / 2 + 1) < 2 ^ 59

private theorem frames_eq {o : StftOptionsW R} (ho : StftOk o) {S : ℕ} (hS : 1 ≤ S) :
    stftFrames o S = (S - 1) / (o.frameSize - o.overlapSize) + 1 := by
  have hH : 0 < o.frameSize - o.overlapSize := by have := ho.advance; omega
  unfold stftFrames
  rw [show S + (o.frameSize - o.overlapSize - 1) = (S - 1) + (o.frameSize - o.overlapSize) by omega, Nat.add_div_right _ hH]

private theorem order_ok {o : StftOptionsW R} (ho : StftOk o) :
    1 ≤ Nat.clog 2 o.transformSize ∧ Nat.clog 2 o.transformSize ≤ 27 ∧ o.frameSize ≤ 2 ^ Nat.clog 2 o.transformSize :=
  ⟨Nat.clog_pos (by norm_num) ho.two, (Nat.clog_le_iff_le_pow (by norm_num)).2 ho.plan,
    ho.fits.trans (Nat.le_pow_clog (by norm_num) _)⟩

private theorem call_eq {o : StftOptionsW R} (ho : StftOk o) {v : MatView} {data : List R} (hi : StftInput o v data)
    (f : ℕ → C) (inp : ℕ → R) (out : ℕ → C) :
    ∃ f' inp' out', (stftPlanWOf A o (Nat.clog 2 o.transformSize) f inp out).call v data
      = .ok (stftPlanWOf A o (Nat.clog 2 o.transformSize) f' inp' out', stftFrames o v.cols, stftSize o / 2 + 1,
          vec (v.rows * stftFrames o v.cols * (stftSize o / 2 + 1)) (fun i =>
            binW A o (Nat.clog 2 o.transformSize) v data (i / (stftSize o / 2 + 1) / stftFrames o v.cols)
              (i / (stftSize o / 2 + 1) % stftFrames o v.cols) (i % (stftSize o / 2 + 1)))) := by
  obtain ⟨b1, b2, b3⟩ := order_ok ho
  exact stftW_call_eq b1 f inp out hi.range ho.advance
    (lt_of_le_of_lt (ho.fits.trans ho.plan) (by norm_num)) hi.pos hi.word b3 (frames_eq ho hi.pos) rfl hi.size

private theorem stft_eq {o : StftOptionsW R} (ho : StftOk o) {v : MatView} {data : List R} (hi : StftInput o v data) :
    stftW A v data o = .ok (stftFrames o v.cols, stftSize o / 2 + 1,
      vec (v.rows * stftFrames o v.cols * (stftSize o / 2 + 1)) (fun i =>
        binW A o (Nat.clog 2 o.transformSize) v data (i / (stftSize o / 2 + 1) / stftFrames o v.cols)
          (i / (stftSize o / 2 + 1) % stftFrames o v.cols) (i % (stftSize o / 2 + 1)))) := by
  obtain ⟨f', inp', out', e⟩ := call_eq (A := A) ho hi (fun _ => 0) (fun _ => 0) (fun _ => 0)
  unfold stftW
  rw [stftPlanW_make_eq (order_ok ho).2.1, bind_ok, e, bind_ok]
  rfl

private theorem elem_lt {rows N m c t k : ℕ} (hc : c < rows) (ht : t < N) (hk : k < m) :
    (c * N + t) * m + k < rows * N * m := by
  have h1 := row_end (C := N) hc
  have h2 : (c * N + t) * m + m ≤ rows * N * m := row_end (C := m) (by omega)
  omega

private theorem elem {rows N m c t k : ℕ} (hc : c < rows) (ht : t < N) (hk : k < m) {g : ℕ → ℕ → ℕ → C} :
    (vec (rows * N * m) (fun i => g (i / m / N) (i / m % N) (i % m))).getD ((c * N + t) * m + k) 0 = g c t k := by
  rw [getD_vec _ _ _ _ (elem_lt hc ht hk), mul_add_mod' hk, mul_add_div' hk, mul_add_mod' ht, mul_add_div' ht]

/-- **C119** (no memory).  In any arithmetic with commutative addition of complex numbers, any number of calls of one
`stft_plan` with matrices of different shapes, infinities and NaN included: no call faults, and each gives what a fresh
`stft` gives, `channels × frames × bins` coefficients. -/
theorem C119_no_memory {o : StftOptionsW R} (ho : StftOk o) :
    ∃ p, StftPlanW.make A o = .ok p ∧ ∀ calls : List (MatView × List R), (∀ c ∈ calls, StftInput o c.1 c.2) →
      ∃ outs, p.run calls = .ok outs ∧ calls.map (fun c => stftW A c.1 c.2 o) = outs.map .ok ∧
        outs.map (fun r => (r.1, r.2.1, r.2.2.length))
          = calls.map (fun c => (stftFrames o c.1.cols, stftSize o / 2 + 1,
              c.1.rows * stftFrames o c.1.cols * (stftSize o / 2 + 1))) := by
  refine ⟨_, stftPlanW_make_eq (order_ok ho).2.1, ?_⟩
  generalize (fun _ => 0 : ℕ → C) = f, (fun _ => 0 : ℕ → R) = inp
  intro calls
  suffices h : ∀ (f : ℕ → C) (inp : ℕ → R) (out : ℕ → C), (∀ c ∈ calls, StftInput o c.1 c.2) →
      ∃ outs, (stftPlanWOf A o (Nat.clog 2 o.transformSize) f inp out).run calls = .ok outs ∧
        calls.map (fun c => stftW A c.1 c.2 o) = outs.map .ok ∧
        outs.map (fun r => (r.1, r.2.1, r.2.2.length))
          = calls.map (fun c => (stftFrames o c.1.cols, stftSize o / 2 + 1,
              c.1.rows * stftFrames o c.1.cols * (stftSize o / 2 + 1))) from h f inp _
  induction calls with
  | nil => exact fun _ _ _ _ => ⟨[], rfl, rfl, rfl⟩
  | cons c calls ih =>
    intro f inp out hc
    have hi := hc c (List.mem_cons_self ..)
    obtain ⟨f', inp', out', e⟩ := call_eq (A := A) ho hi f inp out
    obtain ⟨outs, e1, e2, e3⟩ := ih f' inp' out' fun c h => hc c (List.mem_cons_of_mem _ h)
    refine ⟨(stftFrames o c.1.cols, stftSize o / 2 + 1,
      vec (c.1.rows * stftFrames o c.1.cols * (stftSize o / 2 + 1)) (fun i =>
        binW A o (Nat.clog 2 o.transformSize) c.1 c.2 (i / (stftSize o / 2 + 1) / stftFrames o c.1.cols)
          (i / (stftSize o / 2 + 1) % stftFrames o c.1.cols) (i % (stftSize o / 2 + 1)))) :: outs, ?_, ?_, ?_⟩
    rotate_left
    · rw [List.map_cons, List.map_cons, e2, stft_eq ho hi]
    · rw [List.map_cons, List.map_cons, e3]
      simp only [length_vec]
    · obtain ⟨v, data⟩ := c
      unfold StftPlanW.run
      rw [e, bind_ok]
      simp only []
      rw [e1, bind_ok]
      rfl

/-- **C119** (frames are separate).  In any arithmetic, if two matrices of samples of the same shape agree on the samples
`t H, …, t H + F - 1` of channel `c`, where `H` is the hop and `F` the frame size, all bins of frame `t` of channel `c` are
the same, whatever the other samples are, infinities and NaN included. -/
theorem C119_separate {o : StftOptionsW R} (ho : StftOk o) {v v' : MatView} {data data' : List R} (hi : StftInput o v data)
    (hi' : StftInput o v' data') (hr : v'.rows = v.rows) (hcol : v'.cols = v.cols) {c t : ℕ} (hc : c < v.rows)
    (ht : t < stftFrames o v.cols)
    (h : ∀ n < o.frameSize, t * (o.frameSize - o.overlapSize) + n < v.cols →
      data'.getD (v'.idx c (t * (o.frameSize - o.overlapSize) + n)) 0
        = data.getD (v.idx c (t * (o.frameSize - o.overlapSize) + n)) 0) :
    ∃ result result', stftW A v data o = .ok (stftFrames o v.cols, stftSize o / 2 + 1, result) ∧
      stftW A v' data' o = .ok (stftFrames o v.cols, stftSize o / 2 + 1, result') ∧
      ∀ k < stftSize o / 2 + 1, result'.getD ((c * stftFrames o v.cols + t) * (stftSize o / 2 + 1) + k) 0
        = result.getD ((c * stftFrames o v.cols + t) * (stftSize o / 2 + 1) + k) 0 := by
  have e' := stft_eq (A := A) ho hi'
  rw [hr, hcol] at e'
  refine ⟨_, _, stft_eq ho hi, e', fun k hk => ?_⟩
  rw [elem hc ht hk, elem hc ht hk]
  unfold binW
  refine congrFun (rfftGn_congr fun n _ => ?_) k
  unfold frameW
  rw [hcol]
  split
  · next hn =>
    unfold chanAtG
    rw [hcol, if_pos hn.2, if_pos hn.2, h n hn.1 hn.2]
  · rfl

end any

variable {f : Fmt}

/-- Sum of the magnitudes of the samples of frame `t` of channel `c`. -/
noncomputable def frameMag (o : StftOptionsW (IR f)) (v : MatView) (data : List ℝ) (c t : ℕ) : ℝ :=
  ∑ n ∈ range o.frameSize, if t * (o.frameSize - o.overlapSize) + n < v.cols then
    |data.getD (v.idx c (t * (o.frameSize - o.overlapSize) + n)) 0| else 0

/-- The discrete Fourier transform of frame `t` of channel `c` with the window `ω`, zero-padded. -/
noncomputable def frameDft (o : StftOptionsW (IR f)) (ω : ℕ → ℝ) (v : MatView) (data : List ℝ) (c t k : ℕ) : ℂ :=
  Spec.dft (stftSize o) (fun n => ((if n < o.frameSize ∧ t * (o.frameSize - o.overlapSize) + n < v.cols then
    data.getD (v.idx c (t * (o.frameSize - o.overlapSize) + n)) 0 * ω n else 0 : ℝ) : ℂ)) k

private theorem stft_growth (f : Fmt) (b : ℕ) {κ : ℝ} (hκ : 0 ≤ κ) (h : (53 * b + 1) * f.u + κ ≤ 1 / 2) :
    1 ≤ fftGrowth f (44 * f.u + 3 / 2 * f.u) b ∧
    (1 + (f.u + κ)) * fftGrowth f (44 * f.u + 3 / 2 * f.u) b ≤ 1 + 2 * ((53 * b + 1) * f.u + κ) := by
  have hu := u_pos f
  have hε : 0 ≤ 44 * f.u + 3 / 2 * f.u := by positivity
  refine ⟨one_le_fft hε b, ?_⟩
  have h1 : fftGrowth f (44 * f.u + 3 / 2 * f.u) b ≤ Real.exp (b * (53 * f.u)) := by
    unfold fftGrowth
    rw [Real.exp_nat_mul]
    apply pow_le_pow_left₀ (by positivity)
    rw [show 53 * f.u = 46 * f.u + 5 * f.u + 2 * f.u by ring, Real.exp_add, Real.exp_add]
    have := le_exp (46 * f.u)
    gcongr
    · linarith
    · exact le_exp _
    · exact le_exp _
  have h2 : (1 + (f.u + κ)) * fftGrowth f (44 * f.u + 3 / 2 * f.u) b ≤ Real.exp ((53 * b + 1) * f.u + κ) := by
    rw [show (53 * b + 1) * f.u + κ = (f.u + κ) + b * (53 * f.u) by ring, Real.exp_add]
    exact mul_le_mul (le_exp _) h1 (by linarith [one_le_fft (f := f) hε b]) (Real.exp_pos _).le
  have := exp_le (t := (53 * (b : ℝ) + 1) * f.u + κ) (by positivity) h
  linarith

/-- A sample times a value of the window. -/
private theorem windowed_near (hf : f.Ieee) {x y ω κ η : ℝ} (hy : |y| ≤ 1) (hω : |ω| ≤ 1) (hκ : |y - ω| ≤ κ)
    (hη : f.minNormal ≤ η) (ho : (1 + f.u) * (|x| + η) < (2 : ℝ) ^ f.emax) :
    NearR ((sample x : IR f) * sample y) (x * ω) (|x| + η) (1 + (f.u + κ)) := by
  have hν := minNormal_pos f
  have h1 : |x * y| ≤ |x| + η := by
    rw [abs_mul]
    have := mul_le_of_le_one_right (abs_nonneg x) hy
    linarith
  obtain ⟨r, er, hr⟩ := round_ok hf h1 (by linarith [abs_nonneg x]) ho
  refine ⟨r, congrArg IR.mk er, ?_, ?_⟩
  · rw [abs_mul]
    have := mul_le_of_le_one_right (abs_nonneg x) hω
    linarith
  · have e : r - x * ω = (r - x * y) + x * (y - ω) := by ring
    have h2 : |x * (y - ω)| ≤ (|x| + η) * κ := by
      rw [abs_mul]
      exact mul_le_mul (by linarith) hκ (abs_nonneg _) (by linarith [abs_nonneg x])
    rw [e]
    have := abs_add_le (r - x * y) (x * (y - ω))
    linarith [show (1 + (f.u + κ) - 1) * (|x| + η) = f.u * (|x| + η) + (|x| + η) * κ by ring]

private theorem size_ok {b : ℕ} (hbe : (b : ℤ) + 4 ≤ f.emax) : 16 * (((2 ^ b : ℕ) : ℝ)) ≤ (2 : ℝ) ^ f.emax := by
  have : (2 : ℝ) ^ ((b : ℤ) + 4) ≤ (2 : ℝ) ^ f.emax := zpow_le_zpow_right₀ (by norm_num) hbe
  rw [zpow_add₀ (by norm_num), zpow_natCast] at this
  push_cast
  norm_num at this ⊢
  linarith

/-- **C119** (any window).  `stft` in the IEEE format `f` with tables from `twiddle`, library cosine and sine within one unit
roundoff, and a window whose values are finite, at most one in magnitude and within `κ` of `ω`.  With
`E = (53 b + 1) u + κ ≤ 1/2` for transforms of `2^b` points: `stft` succeeds with `⌈S / (F - O)⌉` frames of `2^b / 2 + 1`
bins, and every frame the sum `M` of whose magnitudes plus `2^b` times the least normal number is below half the overflow
threshold has only finite coefficients, each within `2 E M` of the discrete Fourier transform of the frame under the exact
window `ω`, whatever the other frames are.  With `std::complex` those coefficients are the same numbers. -/
theorem C119_stft (hw : TwiddleFmt f) {cos sin : FVal → FVal} (hc : CosOk f cos f.u) (hs : SinOk f sin f.u)
    {o : StftOptionsW (IR f)} (ho : StftOk o) {b : ℕ} (hb : b = Nat.clog 2 o.transformSize) (hbe : (b : ℤ) + 4 ≤ f.emax)
    {ω : ℕ → ℝ} {κ : ℝ}
    (hwin : ∀ n < stftSize o, |ω n| ≤ 1 ∧ ∃ y, o.window n (stftSize o) = sample y ∧ |y| ≤ 1 ∧ |y - ω n| ≤ κ)
    (hE : (53 * b + 1) * f.u + κ ≤ 1 / 2) (v : MatView) (data : List ℝ) (hi : StftInput o v (data.map sample)) :
    ∃ result result',
      stftW (ieeeArith f (twiddleI f cos sin)) v (data.map sample) o
        = .ok (stftFrames o v.cols, stftSize o / 2 + 1, result) ∧
      stftW (stdArith f (twiddleI f cos sin)) v (data.map sample) o
        = .ok (stftFrames o v.cols, stftSize o / 2 + 1, result') ∧
      result.length = v.rows * stftFrames o v.cols * (stftSize o / 2 + 1) ∧ result'.length = result.length ∧
      ∀ c < v.rows, ∀ t < stftFrames o v.cols,
        2 * (frameMag o v data c t + stftSize o * f.minNormal) < (2 : ℝ) ^ f.emax →
        ∀ k < stftSize o / 2 + 1, ∃ z : ℂ,
          result.getD ((c * stftFrames o v.cols + t) * (stftSize o / 2 + 1) + k) 0 = point z ∧
          result'.getD ((c * stftFrames o v.cols + t) * (stftSize o / 2 + 1) + k) 0 = (point z : IC f).std ∧
          ‖z - frameDft o ω v data c t k‖
            ≤ 2 * ((53 * b + 1) * f.u + κ) * (frameMag o v data c t + stftSize o * f.minNormal) := by
  refine ⟨_, _, stft_eq ho hi, stft_eq ho hi, length_vec _ _, by rw [length_vec, length_vec], ?_⟩
  intro c hcr t ht hov k hk
  have hf := hw.1
  have hu := u_pos f
  have hν := minNormal_pos f
  obtain ⟨b1, b2, b3⟩ := order_ok ho
  rw [← hb] at b1 b2 b3
  have hK : stftSize o = 2 ^ b := by rw [hb]; rfl
  rw [hK] at hwin hov hk
  have hκ : 0 ≤ κ := by
    obtain ⟨-, y, -, -, h⟩ := hwin 0 (by positivity)
    exact (abs_nonneg _).trans h
  obtain ⟨g1, g2⟩ := stft_growth f b hκ hE
  set E := (53 * (b : ℝ) + 1) * f.u + κ with hEd
  set p := t * (o.frameSize - o.overlapSize) with hp
  set X : ℕ → ℝ := fun n => if n < o.frameSize ∧ p + n < v.cols then data.getD (v.idx c (p + n)) 0 else 0 with hX
  have hsum : ∑ n ∈ range (2 ^ b), (|X n| + f.minNormal) = frameMag o v data c t + 2 ^ b * f.minNormal := by
    rw [sum_add_distrib, sum_const, card_range, nsmul_eq_mul]
    push_cast
    refine congrArg (· + 2 ^ b * f.minNormal) ?_
    unfold frameMag
    rw [← sum_subset (range_mono b3) fun n _ hn => ?_]
    · refine sum_congr rfl fun n hn => ?_
      rw [mem_range] at hn
      simp only [hX, ← hp]
      by_cases h : p + n < v.cols
      · rw [if_pos ⟨hn, h⟩, if_pos h]
      · rw [if_neg (by omega), if_neg h, abs_zero]
    · rw [mem_range] at hn
      simp only [hX]
      rw [if_neg (by omega), abs_zero]
  push_cast at hov
  set M := frameMag o v data c t + 2 ^ b * f.minNormal with hM
  have hXM : ∀ n < 2 ^ b, |X n| + f.minNormal ≤ M := fun n hn => by
    rw [← hsum]
    exact single_le_sum (f := fun n => |X n| + f.minNormal) (fun i _ => by positivity) (mem_range.2 hn)
  have hM0 : 0 < M := by
    have := hXM 0 (by positivity)
    linarith [abs_nonneg (X 0)]
  have hG2 : (1 + (f.u + κ)) * fftGrowth f (44 * f.u + 3 / 2 * f.u) b ≤ 2 := by linarith
  have hu1 : 1 + f.u ≤ 2 := by
    have : 1 + (f.u + κ) ≤ (1 + (f.u + κ)) * fftGrowth f (44 * f.u + 3 / 2 * f.u) b :=
      le_mul_of_one_le_right (by linarith) g1
    linarith
  have htw := (C113_tables hw hc hs (N := 2 ^ b) Nat.one_le_two_pow (size_ok hbe)).2
  have hx : ∀ n < 2 ^ b, NearR (frameW o.frameSize v.cols (fun i => o.window i (2 ^ b)) (chanAtG v (data.map sample) c) p n)
      (X n * ω n) (|X n| + f.minNormal) (1 + (f.u + κ)) := by
    intro n hn
    obtain ⟨hω, y, ey, hy, hyω⟩ := hwin n hn
    have e : (if n < o.frameSize ∧ p + n < v.cols then chanAtG v (data.map sample) c (p + n) else (0 : IR f))
        = sample (X n) := by
      simp only [hX]
      split
      · next h =>
        unfold chanAtG
        rw [if_pos h.2]
        exact List.getD_map (d := (0 : ℝ)) ..
      · rfl
    unfold frameW
    beta_reduce
    rw [e, ey]
    refine windowed_near hf hy hω hyω le_rfl (lt_of_le_of_lt ?_ hov)
    exact mul_le_mul hu1 (hXM n hn) (by positivity) (by norm_num)
  have key := rfftGn_near hf b1 (by linarith : (1 : ℝ) ≤ 1 + (44 * f.u + 3 / 2 * f.u)) (tw_near b1 htw) (by linarith) hx
    (fun n _ => by linarith [abs_nonneg (X n)]) (by
      rw [hsum, growth_eq]
      exact lt_of_le_of_lt (mul_le_mul_of_nonneg_right hG2 hM0.le) hov) (k := k)
    (by have := half_lt b1; omega)
  rw [hsum, growth_eq] at key
  obtain ⟨z, ez, hz⟩ := nearC_val key
  have hrel := rfftGn_rel (std_rel (twiddleI f cos sin)) (b := b)
    (frameW o.frameSize v.cols (fun i => o.window i (2 ^ b)) (chanAtG v (data.map sample) c) p) (k := k)
    (by have := half_lt b1; omega)
  have hbin : ∀ {C : Type} [Zero C] [AddCommMagma C] [Sub C] [Mul C] (A : Arith (IR f) C),
      binW A o (Nat.clog 2 o.transformSize) v (data.map sample) c t k
        = rfftGn A b (frameW o.frameSize v.cols (fun i => o.window i (2 ^ b)) (chanAtG v (data.map sample) c) p) k :=
    fun A => by rw [← hb]; rfl
  refine ⟨z, ?_, ?_, ?_⟩
  · rw [elem hcr ht (by rw [hK]; exact hk), hbin]
    exact ez
  · rw [elem hcr ht (by rw [hK]; exact hk), hbin]
    rw [ez] at hrel
    rcases hrel with h | h
    · exact SameC.eq_std h
    · exact absurd rfl (h.1 _)
  · have e : frameDft o ω v data c t k = Spec.dft (2 ^ b) (fun n => ((X n * ω n : ℝ) : ℂ)) k := by
      unfold frameDft
      rw [hK]
      refine congrFun (congrArg _ (funext fun n => ?_)) k
      simp only [hX, ← hp]
      split
      · rfl
      · rw [zero_mul]
    rw [e, hK, Nat.cast_pow, Nat.cast_ofNat]
    refine hz.trans ?_
    exact mul_le_mul_of_nonneg_right (by linarith) hM0.le

/-- **C119** (the windows of the library).  The same for the rectangular window, the Hann window, which is the default, and
the Hamming window as the library computes them: `E = (53 b + 31) u`, against the exact window. -/
theorem C119_windows (hw : TwiddleFmt f) (hw' : WindowFmt f) {cos sin : FVal → FVal} (hc : CosOk f cos f.u)
    (hs : SinOk f sin f.u) (w : Window) {o : StftOptionsW (IR f)} (ho : StftOk o) (how : o.window = windowOptI f cos w) {b : ℕ}
    (hb : b = Nat.clog 2 o.transformSize) (hbe : (b : ℤ) + 4 ≤ f.emax) (hE : (53 * b + 31) * f.u ≤ 1 / 2) (v : MatView)
    (data : List ℝ) (hi : StftInput o v (data.map sample)) :
    ∃ result result',
      stftW (ieeeArith f (twiddleI f cos sin)) v (data.map sample) o
        = .ok (stftFrames o v.cols, stftSize o / 2 + 1, result) ∧
      stftW (stdArith f (twiddleI f cos sin)) v (data.map sample) o
        = .ok (stftFrames o v.cols, stftSize o / 2 + 1, result') ∧
      result.length = v.rows * stftFrames o v.cols * (stftSize o / 2 + 1) ∧ result'.length = result.length ∧
      ∀ c < v.rows, ∀ t < stftFrames o v.cols,
        2 * (frameMag o v data c t + stftSize o * f.minNormal) < (2 : ℝ) ^ f.emax →
        ∀ k < stftSize o / 2 + 1, ∃ z : ℂ,
          result.getD ((c * stftFrames o v.cols + t) * (stftSize o / 2 + 1) + k) 0 = point z ∧
          result'.getD ((c * stftFrames o v.cols + t) * (stftSize o / 2 + 1) + k) 0 = (point z : IC f).std ∧
          ‖z - frameDft o (fun n => windowValue w n (stftSize o)) v data c t k‖
            ≤ 2 * ((53 * b + 31) * f.u) * (frameMag o v data c t + stftSize o * f.minNormal) := by
  have hK : stftSize o = 2 ^ b := by rw [hb]; rfl
  obtain ⟨b1, -, -⟩ := order_ok ho
  rw [← hb] at b1
  have h2 : 2 ≤ 2 ^ b := by
    calc 2 = 2 ^ 1 := rfl
      _ ≤ 2 ^ b := Nat.pow_le_pow_right (by norm_num) b1
  obtain ⟨y, ey, hy1, hy2, -, -⟩ := C111_window hw' hc w h2 (size_ok hbe)
  have hval : ∀ i < 2 ^ b, windowI f cos w i (2 ^ b) = .fin (y i) := by
    have e : generateWindowI f cos w (2 ^ b) = .ok (vec (2 ^ b) fun i => windowI f cos w i (2 ^ b)) := by
      unfold generateWindowI fillWindowI
      rw [show List.replicate (2 ^ b) (FVal.fin 0) = vec (2 ^ b) (fun _ => FVal.fin 0) by
        unfold vec; rw [List.map_const', List.length_range]]
      simp only [length_vec]
      exact forN_map (fun _ => FVal.fin 0) (fun i _ => windowI f cos w i (2 ^ b)) _ (fun i hi h _ => by rw [wr_vec_ok hi])
    rw [e] at ey
    injection ey with ey
    intro i hi
    have := congrArg (fun l => l.getD i .nan) ey
    simpa only [getD_vec _ _ _ _ hi] using this
  have hu := u_pos f
  have hwv : ∀ n, |windowValue w n (2 ^ b)| ≤ 1 := fun n => by
    unfold windowValue
    have h1 := Real.neg_one_le_cos (2 * Real.pi * n / ((2 ^ b : ℕ) - 1))
    have h2 := Real.cos_le_one (2 * Real.pi * n / ((2 ^ b : ℕ) - 1))
    cases w
    · simp
    · rw [abs_le]; constructor <;> dsimp only <;> linarith
    · rw [abs_le]; constructor <;> dsimp only <;> linarith
  have e : (53 * (b : ℝ) + 31) * f.u = (53 * b + 1) * f.u + 30 * f.u := by ring
  rw [e]
  rw [e] at hE
  refine C119_stft hw hc hs ho hb hbe (ω := fun n => windowValue w n (stftSize o)) (κ := 30 * f.u) ?_ hE v data hi
  intro n hn
  rw [hK] at hn ⊢
  refine ⟨hwv n, y n, ?_, abs_le.2 ⟨by linarith [(hy1 n hn).1], (hy1 n hn).2⟩, ?_⟩
  · rw [how]
    exact congrArg IR.mk (hval n hn)
  · have := hy2 n hn
    linarith

/-- **C119** (single precision, default options).  `stft_plan<float>{T}` for any `T` from 2 to `2^20`: frames of `T` samples
under the Hann window, hop `T - T / 2`, and samples in `[-1, 1]`.  Every coefficient is finite and within
`2 (53 b + 31) (T + 1) / 2^24` of the discrete Fourier transform of the frame, where `2^b` is the size of the transform. -/
theorem C119_float {cos sin : FVal → FVal} (hc : CosOk binary32 cos binary32.u) (hs : SinOk binary32 sin binary32.u) {T : ℕ}
    (hT : 2 ≤ T) (hT2 : T ≤ 2 ^ 20) {o : StftOptionsW (IR binary32)}
    (ho : o = StftOptionsW.ofSize (windowOptI binary32 cos .hann) T) (v : MatView) (data : List ℝ)
    (hi : StftInput o v (data.map sample)) (hx : ∀ x ∈ data, |x| ≤ 1) :
    ∃ result, stftW (stdArith binary32 (twiddleI binary32 cos sin)) v (data.map sample) o
        = .ok (stftFrames o v.cols, stftSize o / 2 + 1, result) ∧
      result.length = v.rows * stftFrames o v.cols * (stftSize o / 2 + 1) ∧
      ∀ c < v.rows, ∀ t < stftFrames o v.cols, ∀ k < stftSize o / 2 + 1, ∃ z : ℂ,
        result.getD ((c * stftFrames o v.cols + t) * (stftSize o / 2 + 1) + k) 0 = ⟨.fin z.re, .fin z.im⟩ ∧
        ‖z - Spec.dft (2 ^ Nat.clog 2 T) (fun n => ((if n < T ∧ t * (T - T / 2) + n < v.cols then
            data.getD (v.idx c (t * (T - T / 2) + n)) 0
              * ((1 - Real.cos (2 * Real.pi * n / ((2 ^ Nat.clog 2 T : ℕ) - 1))) / 2) else 0 : ℝ) : ℂ)) k‖
          ≤ 2 * (53 * Nat.clog 2 T + 31) * (T + 1) / 2 ^ 24 := by
  have hf : binary32.Ieee := by unfold Fmt.Ieee binary32; norm_num
  have hu : binary32.u = 1 / 2 ^ 24 := by
    show (2 : ℝ) ^ (-((24 : ℕ) : ℤ)) = _
    norm_num
  have hν : binary32.minNormal ≤ 1 / 2 ^ 20 := by
    show (2 : ℝ) ^ ((-149 : ℤ) + ((24 : ℕ) : ℤ) - 1) ≤ _
    norm_num
  have hm : (2 : ℝ) ^ 50 ≤ (2 : ℝ) ^ binary32.emax := by
    rw [← zpow_natCast]
    exact zpow_le_zpow_right₀ (by norm_num) (by norm_num [binary32])
  have hb : Nat.clog 2 T ≤ 20 := (Nat.clog_le_iff_le_pow (by norm_num)).2 hT2
  have hbR : (Nat.clog 2 T : ℝ) ≤ 20 := by exact_mod_cast hb
  have hTR : (T : ℝ) ≤ 2 ^ 20 := by exact_mod_cast hT2
  have hok : StftOk o := by
    subst ho
    exact ⟨Nat.div_lt_self (by omega) (by norm_num), le_rfl, hT, hT2.trans (by norm_num)⟩
  have e1 : o.frameSize = T := by rw [ho]; rfl
  have e2 : o.overlapSize = T / 2 := by rw [ho]; rfl
  have e3 : o.transformSize = T := by rw [ho]; rfl
  have hK : stftSize o = 2 ^ Nat.clog 2 T := by unfold stftSize; rw [e3]
  obtain ⟨_, result, -, e, hl, hl', h⟩ := C119_windows (f := binary32) ⟨hf, by norm_num [binary32], by norm_num [binary32]⟩
    ⟨hf, by norm_num [binary32], Or.inl (by norm_num [binary32])⟩ hc hs .hann hok (by rw [ho]; rfl)
    (b := Nat.clog 2 T) (by rw [e3]) (by show ((Nat.clog 2 T : ℕ) : ℤ) + 4 ≤ 128; omega)
    (by rw [hu]; linarith) v data hi
  refine ⟨result, e, hl'.trans hl, fun c hcr t ht k hk => ?_⟩
  have hmag : frameMag o v data c t ≤ T := by
    unfold frameMag
    have : ∀ n ∈ range o.frameSize, (if t * (o.frameSize - o.overlapSize) + n < v.cols then
        |data.getD (v.idx c (t * (o.frameSize - o.overlapSize) + n)) 0| else 0) ≤ (1 : ℝ) := by
      intro n _
      split
      · rw [List.getD_eq_getElem?_getD]
        cases h : data[v.idx c (t * (o.frameSize - o.overlapSize) + n)]? with
        | none => simp
        | some x => exact hx x (List.mem_of_getElem? h)
      · norm_num
    refine (sum_le_sum this).trans ?_
    rw [sum_const, card_range, nsmul_eq_mul, mul_one, e1]
  have hKm : (stftSize o : ℝ) * binary32.minNormal ≤ 1 := by
    have h1 : (stftSize o : ℝ) ≤ 2 ^ 20 := by
      rw [hK]
      exact_mod_cast Nat.pow_le_pow_right (by norm_num) hb
    calc _ ≤ (2 : ℝ) ^ 20 * (1 / 2 ^ 20) := mul_le_mul h1 hν (minNormal_pos _).le (by norm_num)
      _ = 1 := by norm_num
  obtain ⟨z, -, ez, hz⟩ := h c hcr t ht (lt_of_lt_of_le (by
    calc _ ≤ 2 * ((2 : ℝ) ^ 20 + 1) := by linarith
      _ < (2 : ℝ) ^ 50 := by norm_num) hm) k hk
  refine ⟨z, ez, ?_⟩
  unfold frameDft at hz
  rw [hK, e1, e2] at hz
  refine hz.trans ?_
  rw [hu, ← hK]
  have : 2 * ((53 * (Nat.clog 2 T : ℝ) + 31) * (1 / 2 ^ 24)) * (frameMag o v data c t + stftSize o * binary32.minNormal)
      ≤ 2 * ((53 * (Nat.clog 2 T : ℝ) + 31) * (1 / 2 ^ 24)) * (T + 1) :=
    mul_le_mul_of_nonneg_left (by linarith) (by positivity)
  refine this.trans (le_of_eq ?_)
  ring

/-- Two channels of 96000 samples, frames of 1000 samples with the default options, correctly rounded cosine and sine: the
hypotheses of `C119_float` are met; there are 192 frames of 513 bins. -/
example : CosOk binary32 (cosR binary32) binary32.u ∧ SinOk binary32 (sinR binary32) binary32.u ∧
    StftInput (StftOptionsW.ofSize (windowOptI binary32 (cosR binary32) .hann) 1000) (MatView.left 2 96000)
      ((List.replicate 192000 (1 : ℝ)).map sample) ∧
    stftFrames (StftOptionsW.ofSize (windowOptI binary32 (cosR binary32) .hann) 1000) 96000 = 192 ∧
    stftSize (StftOptionsW.ofSize (windowOptI binary32 (cosR binary32) .hann) 1000) / 2 + 1 = 513 := by
  have hf : binary32.Ieee := by unfold Fmt.Ieee binary32; norm_num
  have hc : Nat.clog 2 1000 = 10 := by decide +kernel
  have hN : stftFrames (StftOptionsW.ofSize (windowOptI binary32 (cosR binary32) .hann) 1000) 96000 = 192 := rfl
  have hK : stftSize (StftOptionsW.ofSize (windowOptI binary32 (cosR binary32) .hann) 1000) / 2 + 1 = 513 := by
    show 2 ^ Nat.clog 2 1000 / 2 + 1 = 513
    rw [hc]
    norm_num
  refine ⟨cosR_ok hf, sinR_ok hf, ⟨?_, ?_, ?_, ?_⟩, hN, hK⟩
  · rw [List.length_map, List.length_replicate]
    exact (MatView.left_valid 2 96000).1
  · show 1 ≤ 96000
    norm_num
  · show 96000 < 2 ^ 64
    norm_num
  · show 2 * stftFrames _ 96000 * _ < 2 ^ 59
    rw [hN, hK]
    norm_num

/-- The hypotheses of `C119_no_memory` and `C119_separate` on the options hold with three quarters of overlap and zero-padding. -/
example : StftOk ({ frameSize := 1000, transformSize := 2000, overlapSize := 750, window := fun _ _ => ⟨.nan⟩ } :
    StftOptionsW (IR binary32)) := ⟨by norm_num, by norm_num, by norm_num, by norm_num⟩

end Neo.Props
