import Verif.Props.IeeeFft
import Verif.Lemmas.StockhamIeee

/-! # C110: finiteness and accuracy of the Stockham plans of radix 3, 4, 5 and 8 in IEEE 754 arithmetic -/

namespace Neo.Props

open Neo Spec Finset

variable {f : Fmt}

/-- The twiddles of size `N` are finite and within `ε` of `exp(∓2πik/N)`, for all `k < N`. -/
def TwFull (tw : ℕ → ℕ → Direction → IC f) (N : ℕ) (ε : ℝ) : Prop :=
  ∀ dir : Direction, ∀ k < N, ∃ c s : ℝ, tw N k dir = ⟨.fin c, .fin s⟩ ∧
    ‖(⟨c, s⟩ : ℂ) - Complex.exp ((if dir = .forward then -1 else 1) * (2 * Real.pi * Complex.I * k / N))‖ ≤ ε

/-- Error growth of one stage: the errors of the sums and products along the longest path through a butterfly, doubled as
intermediate results are bounded only by twice the sum of the magnitudes of the inputs. -/
noncomputable def stockGrowth (f : Fmt) (ε δ : ℝ) (q : StockRadix) : ℝ :=
  1 + 2 * ((1 + 2 * f.u) ^ q.sums * ((1 + ε + 3 * δ + f.u) * (1 + 5 * f.u)) ^ q.products - 1)

theorem fourier_eq' (dir : Direction) (N : ℕ) (x : List ℂ) (k : ℕ) :
    fourier dir N x k = specDft dir N (fun n => x.getD n 0) k := by
  unfold fourier specDft
  split
  · unfold Spec.dft
    refine sum_congr rfl fun n _ => ?_
    congr 2
    push_cast
    ring
  · unfold Spec.idft
    refine sum_congr rfl fun n _ => ?_
    congr 2
    push_cast
    ring

private theorem stockTw_of {tw : ℕ → ℕ → Direction → IC f} {N : ℕ} {ε : ℝ} (h : TwFull tw N ε) (dir : Direction) :
    StockTw tw dir ε N := by
  intro k hk
  obtain ⟨c, s, e, h'⟩ := h dir k hk
  refine ⟨⟨c, s⟩, e, ?_⟩
  rwa [twiddle_eq, root_pow_eq]

theorem sum_allow' (x : List ℂ) (N : ℕ) (η : ℝ) :
    ∑ i ∈ range N, (‖x.getD i 0‖ + η) = ∑ n ∈ range N, ‖x.getD n 0‖ + N * η := by
  rw [sum_add_distrib, sum_const, card_range, nsmul_eq_mul]

private theorem run_of {C : Type} [Add C] [Sub C] [Mul C] [Inhabited C] {inj : ℂ → C} {dir : Direction} {A : StockArith (IR f) C}
    (q : StockRadix) {p : ℕ} (hn : q.val ^ p < 2 ^ 32) {N : ℕ → Prop} (hN : ∀ e, 1 ≤ e → e ≤ p → N (q.val ^ e))
    {ε δ : ℝ} (S : StockNear f inj A dir N ((1 + ε + 3 * δ + f.u) * (1 + 5 * f.u))) (x : List ℂ) (work : List C)
    (hx : x.length = q.val ^ p) (hw : work.length = q.val ^ p) {η : ℝ} (hη : f.minNormal ≤ η)
    (ho : 2 * (stockGrowth f ε δ q ^ p * (∑ n ∈ range (q.val ^ p), ‖x.getD n 0‖ + (q.val ^ p : ℕ) * η))
      < (2 : ℝ) ^ f.emax) :
    ∃ (y : List ℂ) (work' : List C), stockhamDifG q A p (x.map inj) work = .ok (y.map inj, work') ∧
      y.length = q.val ^ p ∧ work'.length = q.val ^ p ∧
      ∀ i < q.val ^ p, ‖y.getD i 0 - fourier dir (q.val ^ p) x i‖
        ≤ (stockGrowth f ε δ q ^ p - 1) * (∑ n ∈ range (q.val ^ p), ‖x.getD n 0‖ + (q.val ^ p : ℕ) * η) := by
  have hν := minNormal_pos f
  obtain ⟨y, W', e, h⟩ := stockhamDifG_near q hn hN S (g := stockGrowth f ε δ q) rfl (Ξ := fun n => x.getD n 0)
    (m := fun n => ‖x.getD n 0‖ + η) (fun i => by linarith) (fun i => by linarith [norm_nonneg (x.getD i 0)])
    (by rw [sum_allow']; exact ho) (fun i => work.getD i default)
  rw [sum_allow'] at h
  have ex : x.map inj = vec (q.val ^ p) (fun n => inj (x.getD n 0)) := by
    conv_lhs => rw [eq_vec_getD x 0, map_vec, hx]
  refine ⟨vec (q.val ^ p) y, vec (q.val ^ p) W', ?_, length_vec _ _, length_vec _ _, fun i hi => ?_⟩
  · rw [map_vec, ex, list_eq_vec default hw]
    exact e
  · rw [getD_vec _ _ _ _ hi, fourier_eq']
    exact h i hi

instance : Inhabited (IC f) := ⟨0⟩
instance : Inhabited (SC f) := ⟨0⟩

/-- **C110** (transform).  The Stockham plans of radix 3, 4, 5 and 8 in the IEEE format `f`, with twiddles accurate to `ε`
and constants accurate to `δ`, in both directions, whatever the work buffer holds.  If twice `S = ∑ (‖xₙ‖ + η)`, where `η`
is at least the smallest normal number, stays below the overflow threshold after the growth of the errors, then both parts
of all bins are finite and every bin is within `(growth - 1) S` of the Fourier transform.  Nothing is assumed about overflow
or underflow of intermediate results. -/
theorem C110_fft (hf : f.Ieee) (q : StockRadix) {p : ℕ} (hn : q.val ^ p < 2 ^ 32) {tw : ℕ → ℕ → Direction → IC f}
    {k : StockConst} {ε δ : ℝ} (hε : 0 ≤ ε) (htw : ∀ e, 1 ≤ e → e ≤ p → TwFull tw (q.val ^ e) ε) (hk : k.Accurate δ)
    (hδ : δ ≤ 1 / 10) (dir : Direction) (x : List ℂ) (work : List (IC f)) (hx : x.length = q.val ^ p)
    (hw : work.length = q.val ^ p) {η : ℝ} (hη : f.minNormal ≤ η)
    (ho : 2 * (stockGrowth f ε δ q ^ p * (∑ n ∈ range (q.val ^ p), ‖x.getD n 0‖ + (q.val ^ p : ℕ) * η))
      < (2 : ℝ) ^ f.emax) :
    ∃ (y : List ℂ) (work' : List (IC f)),
      stockhamDifG q (ieeeStock f tw k dir) p (x.map point) work = .ok (y.map point, work') ∧
      y.length = q.val ^ p ∧ work'.length = q.val ^ p ∧
      ∀ i < q.val ^ p, ‖y.getD i 0 - fourier dir (q.val ^ p) x i‖
        ≤ (stockGrowth f ε δ q ^ p - 1) * (∑ n ∈ range (q.val ^ p), ‖x.getD n 0‖ + (q.val ^ p : ℕ) * η) :=
  run_of q hn (fun e h1 h2 => stockTw_of (htw e h1 h2) dir) (ieeeStock_near hf hk hδ hε) x work hx hw hη ho

/-- **C110** (`std::complex`).  The same with the default complex type, where products with real constants multiply both
parts and other products are those of Annex G. -/
theorem C110_std (hf : f.Ieee) (q : StockRadix) {p : ℕ} (hn : q.val ^ p < 2 ^ 32) {tw : ℕ → ℕ → Direction → IC f}
    {k : StockConst} {ε δ : ℝ} (hε : 0 ≤ ε) (htw : ∀ e, 1 ≤ e → e ≤ p → TwFull tw (q.val ^ e) ε) (hk : k.Accurate δ)
    (hδ : δ ≤ 1 / 10) (dir : Direction) (x : List ℂ) (work : List (SC f)) (hx : x.length = q.val ^ p)
    (hw : work.length = q.val ^ p) {η : ℝ} (hη : f.minNormal ≤ η)
    (ho : 2 * (stockGrowth f ε δ q ^ p * (∑ n ∈ range (q.val ^ p), ‖x.getD n 0‖ + (q.val ^ p : ℕ) * η))
      < (2 : ℝ) ^ f.emax) :
    ∃ (y : List ℂ) (work' : List (SC f)),
      stockhamDifG q (stdStock f tw k dir) p (x.map fun v => (point v).std) work
        = .ok (y.map fun v => (point v).std, work') ∧
      y.length = q.val ^ p ∧ work'.length = q.val ^ p ∧
      ∀ i < q.val ^ p, ‖y.getD i 0 - fourier dir (q.val ^ p) x i‖
        ≤ (stockGrowth f ε δ q ^ p - 1) * (∑ n ∈ range (q.val ^ p), ‖x.getD n 0‖ + (q.val ^ p : ℕ) * η) :=
  run_of q hn (fun e h1 h2 => stockTw_of (htw e h1 h2) dir) (stdStock_near hf hk hδ hε) x work hx hw hη ho

private theorem one_le_stock {ε δ : ℝ} (hε : 0 ≤ ε) (hδ : 0 ≤ δ) (q : StockRadix) : 1 ≤ stockGrowth f ε δ q := by
  have hu := u_pos f
  have hb : 1 ≤ (1 + ε + 3 * δ + f.u) * (1 + 5 * f.u) := one_le_mul_of_one_le_of_one_le (by linarith) (by linarith)
  have := one_le_ops (f := f) (i := q.sums) (j := q.products) hb
  unfold stockGrowth
  linarith

/-- Two transforms in opposite directions, from the accuracy of each. -/
theorem round_of {C : Type} {inj : ℂ → C} {F B : List C → List C → Res (List C × List C)} {N : ℕ} {dir : Direction}
    {G η k : ℝ} (hk : 0 ≤ k) (hG : 1 ≤ G) (hη : 0 < η) (hN : 1 ≤ N)
    (hF : ∀ (x : List ℂ) (w : List C), x.length = N → w.length = N →
      k * (G * (∑ n ∈ range N, ‖x.getD n 0‖ + N * η)) < (2 : ℝ) ^ f.emax → ∃ (y : List ℂ) (w' : List C),
      F (x.map inj) w = .ok (y.map inj, w') ∧ y.length = N ∧ w'.length = N ∧
      ∀ i < N, ‖y.getD i 0 - fourier dir N x i‖ ≤ (G - 1) * (∑ n ∈ range N, ‖x.getD n 0‖ + N * η))
    (hB : ∀ (x : List ℂ) (w : List C), x.length = N → w.length = N →
      k * (G * (∑ n ∈ range N, ‖x.getD n 0‖ + N * η)) < (2 : ℝ) ^ f.emax → ∃ (y : List ℂ) (w' : List C),
      B (x.map inj) w = .ok (y.map inj, w') ∧ y.length = N ∧ w'.length = N ∧
      ∀ i < N, ‖y.getD i 0 - fourier (opposite dir) N x i‖ ≤ (G - 1) * (∑ n ∈ range N, ‖x.getD n 0‖ + N * η))
    (x : List ℂ) (w : List C) (hx : x.length = N) (hw : w.length = N)
    (ho : k * (G ^ 2 * (N * (∑ n ∈ range N, ‖x.getD n 0‖ + (N + 1) * η))) < (2 : ℝ) ^ f.emax) :
    ∃ (y : List C) (w' : List C) (z : List ℂ) (w'' : List C), F (x.map inj) w = .ok (y, w') ∧
      B y w' = .ok (z.map inj, w'') ∧ z.length = N ∧
      ∀ i < N, ‖z.getD i 0 / N - x.getD i 0‖ ≤ (G ^ 2 - 1) * (∑ n ∈ range N, ‖x.getD n 0‖ + (N + 1) * η) := by
  have hNr : (1 : ℝ) ≤ N := by exact_mod_cast hN
  have hN0 : (0 : ℝ) < N := by linarith
  obtain ⟨S, hS⟩ : ∃ S, S = ∑ n ∈ range N, ‖x.getD n 0‖ + N * η := ⟨_, rfl⟩
  have hsum0 : 0 ≤ ∑ n ∈ range N, ‖x.getD n 0‖ := sum_nonneg fun _ _ => norm_nonneg _
  have hS0 : 0 ≤ S := by rw [hS]; positivity
  have hSη : ∑ n ∈ range N, ‖x.getD n 0‖ + (N + 1) * η = S + η := by rw [hS]; ring
  rw [hSη] at ho
  rw [hSη]
  have hG2 : G ≤ G ^ 2 := by nlinarith
  obtain ⟨y, w', e1, ly, lw, hy⟩ := hF x w hx hw (by
    rw [← hS]
    refine lt_of_le_of_lt ?_ ho
    have : G * S ≤ G ^ 2 * (N * (S + η)) :=
      mul_le_mul hG2 (le_trans (by linarith) (le_mul_of_one_le_left (by linarith) hNr)) hS0 (by positivity)
    exact mul_le_mul_of_nonneg_left this hk)
  rw [← hS] at hy
  have hfx : ∀ i, ‖fourier dir N x i‖ ≤ S := fun i => by
    unfold fourier
    refine (norm_sum_le _ _).trans ?_
    have : ∑ n ∈ range N, ‖x.getD n 0‖ ≤ S := by
      rw [hS]
      have : 0 ≤ N * η := by positivity
      linarith
    refine le_trans (sum_le_sum fun n _ => ?_) this
    rw [norm_mul]
    have h1 := norm_root N dir
    have e : Complex.exp ((if dir = .forward then -1 else 1) * (2 * Real.pi * Complex.I * n * i / N))
        = root N dir ^ (n * i) := by
      rw [root_pow_eq]
      congr 2
      push_cast
      ring
    rw [e, norm_pow, h1, one_pow, mul_one]
  have hyn : ∀ i < N, ‖y.getD i 0‖ + η ≤ G * (S + η) := fun i hi => by
    have := norm_le_norm_add_norm_sub' (y.getD i 0) (fourier dir N x i)
    have h1 := hfx i
    have h2 := hy i hi
    have h3 : η ≤ G * η := le_mul_of_one_le_left hη.le hG
    linarith
  have hys : ∑ n ∈ range N, ‖y.getD n 0‖ + N * η ≤ N * (G * (S + η)) := by
    rw [← sum_allow']
    refine (sum_le_sum fun i hi => hyn i (mem_range.1 hi)).trans (le_of_eq ?_)
    rw [sum_const, card_range, nsmul_eq_mul]
  obtain ⟨z, w'', e2, lz, -, hz⟩ := hB y w' ly lw (by
    refine lt_of_le_of_lt ?_ ho
    have : G * (∑ n ∈ range N, ‖y.getD n 0‖ + N * η) ≤ G * (N * (G * (S + η))) :=
      mul_le_mul_of_nonneg_left hys (by linarith)
    have e : G * (N * (G * (S + η))) = G ^ 2 * (N * (S + η)) := by ring
    rw [e] at this
    exact mul_le_mul_of_nonneg_left this hk)
  refine ⟨_, w', z, w'', e1, e2, lz, fun i hi => ?_⟩
  have hrt : fourier (opposite dir) N y i - N * x.getD i 0
      = ∑ n ∈ range N, (y.getD n 0 - fourier dir N x n) * root N (opposite dir) ^ (n * i) := by
    have h1 : specDft (opposite dir) N (specDft dir N fun n => x.getD n 0) i = N * x.getD i 0 := by
      cases dir
      · exact idft_dft _ hi
      · exact dft_idft _ hi
    rw [← h1, fourier_eq', ← dftRoot_dir, ← dftRoot_dir]
    unfold Spec.dftRoot
    rw [← sum_sub_distrib]
    refine sum_congr rfl fun n _ => ?_
    rw [fourier_eq']
    ring
  have hrt' : ‖fourier (opposite dir) N y i - N * x.getD i 0‖ ≤ N * ((G - 1) * S) := by
    rw [hrt]
    refine (norm_sum_le _ _).trans ?_
    refine (sum_le_sum fun n hn => ?_).trans (le_of_eq (by rw [sum_const, card_range, nsmul_eq_mul]))
    rw [norm_mul, norm_pow, norm_root, one_pow, mul_one]
    exact hy n (mem_range.1 hn)
  have hNc : (N : ℂ) ≠ 0 := by exact_mod_cast hN0.ne'
  have e : z.getD i 0 / N - x.getD i 0 = (z.getD i 0 - N * x.getD i 0) / N := by
    rw [sub_div, mul_div_cancel_left₀ _ hNc]
  rw [e, norm_div, Complex.norm_natCast, div_le_iff₀ hN0]
  have h1 := norm_sub_le_norm_sub_add_norm_sub (z.getD i 0) (fourier (opposite dir) N y i) (N * x.getD i 0)
  have h2 : (G - 1) * (∑ n ∈ range N, ‖y.getD n 0‖ + N * η) ≤ (G - 1) * (N * (G * (S + η))) :=
    mul_le_mul_of_nonneg_left hys (by linarith)
  have h3 := hz i hi
  have h4 : (N : ℝ) * ((G - 1) * S) ≤ N * ((G - 1) * (S + η)) :=
    mul_le_mul_of_nonneg_left (mul_le_mul_of_nonneg_left (by linarith) (by linarith)) hN0.le
  have e5 : (G ^ 2 - 1) * (S + η) * N = (G - 1) * (N * (G * (S + η))) + N * ((G - 1) * (S + η)) := by ring
  linarith

/-- **C110** (round trip).  Transforming the result back, with the work buffer the first transform left: if `2 N S` stays
below the overflow threshold after the growth of the errors in both transforms, all values are finite, and divided by `N`
each is within `(growth² - 1) S` of the number it comes from. -/
theorem C110_round_trip (hf : f.Ieee) (q : StockRadix) {p : ℕ} (hn : q.val ^ p < 2 ^ 32) {tw : ℕ → ℕ → Direction → IC f}
    {k : StockConst} {ε δ : ℝ} (hε : 0 ≤ ε) (htw : ∀ e, 1 ≤ e → e ≤ p → TwFull tw (q.val ^ e) ε) (hk : k.Accurate δ)
    (hδ : δ ≤ 1 / 10) (dir : Direction) (x : List ℂ) (hx : x.length = q.val ^ p) {η : ℝ} (hη : f.minNormal ≤ η)
    (ho : 2 * ((stockGrowth f ε δ q ^ p) ^ 2 * ((q.val ^ p : ℕ) *
      (∑ n ∈ range (q.val ^ p), ‖x.getD n 0‖ + ((q.val ^ p : ℕ) + 1) * η))) < (2 : ℝ) ^ f.emax) :
    (∀ work : List (IC f), work.length = q.val ^ p →
      ∃ (y w : List (IC f)) (z : List ℂ) (w' : List (IC f)),
        stockhamDifG q (ieeeStock f tw k dir) p (x.map point) work = .ok (y, w) ∧
        stockhamDifG q (ieeeStock f tw k (opposite dir)) p y w = .ok (z.map point, w') ∧ z.length = q.val ^ p ∧
        ∀ i < q.val ^ p, ‖z.getD i 0 / (q.val ^ p : ℕ) - x.getD i 0‖ ≤ ((stockGrowth f ε δ q ^ p) ^ 2 - 1) *
          (∑ n ∈ range (q.val ^ p), ‖x.getD n 0‖ + ((q.val ^ p : ℕ) + 1) * η)) ∧
    ∀ work : List (SC f), work.length = q.val ^ p →
      ∃ (y w : List (SC f)) (z : List ℂ) (w' : List (SC f)),
        stockhamDifG q (stdStock f tw k dir) p (x.map fun v => (point v).std) work = .ok (y, w) ∧
        stockhamDifG q (stdStock f tw k (opposite dir)) p y w = .ok (z.map fun v => (point v).std, w') ∧
        z.length = q.val ^ p ∧
        ∀ i < q.val ^ p, ‖z.getD i 0 / (q.val ^ p : ℕ) - x.getD i 0‖ ≤ ((stockGrowth f ε δ q ^ p) ^ 2 - 1) *
          (∑ n ∈ range (q.val ^ p), ‖x.getD n 0‖ + ((q.val ^ p : ℕ) + 1) * η) := by
  have hδ0 : 0 ≤ δ := by obtain ⟨⟨a, -, ha⟩, -⟩ := hk; exact (abs_nonneg _).trans ha
  have hG : 1 ≤ stockGrowth f ε δ q ^ p := one_le_pow₀ (one_le_stock hε hδ0 q)
  have hη0 : 0 < η := (minNormal_pos f).trans_le hη
  have hN : 1 ≤ q.val ^ p := Nat.one_le_pow _ _ (by have := q.two_le; omega)
  refine ⟨fun work hw => ?_, fun work hw => ?_⟩
  · obtain ⟨y, w', z, w'', h1, h2, h3, h4⟩ := round_of (f := f) (k := 2) (by norm_num) hG hη0 hN
      (F := fun a b => stockhamDifG q (ieeeStock f tw k dir) p a b)
      (B := fun a b => stockhamDifG q (ieeeStock f tw k (opposite dir)) p a b) (inj := point) (dir := dir)
      (fun x w hx hw ho => C110_fft hf q hn hε htw hk hδ dir x w hx hw hη ho)
      (fun x w hx hw ho => C110_fft hf q hn hε htw hk hδ (opposite dir) x w hx hw hη ho) x work hx hw ho
    exact ⟨y, w', z, w'', h1, h2, h3, h4⟩
  · obtain ⟨y, w', z, w'', h1, h2, h3, h4⟩ := round_of (f := f) (k := 2) (by norm_num) hG hη0 hN
      (F := fun a b => stockhamDifG q (stdStock f tw k dir) p a b)
      (B := fun a b => stockhamDifG q (stdStock f tw k (opposite dir)) p a b) (inj := fun v => (point v).std) (dir := dir)
      (fun x w hx hw ho => C110_std hf q hn hε htw hk hδ dir x w hx hw hη ho)
      (fun x w hx hw ho => C110_std hf q hn hε htw hk hδ (opposite dir) x w hx hw hη ho) x work hx hw ho
    exact ⟨y, w', z, w'', h1, h2, h3, h4⟩

/-! ## Tables and constants -/

/-- The exact constants, correctly rounded. -/
noncomputable def roundedConst (f : Fmt) : StockConst where
  sinPiBy3 := f.round (.fin (Real.sin (Real.pi / 3)))
  sqrt5By4 := f.round (.fin (Real.sqrt 5 / 4))
  sinPiBy5 := f.round (.fin (Real.sin (Real.pi / 5)))
  sin2PiBy5 := f.round (.fin (Real.sin (2 * Real.pi / 5)))
  sqrt2By2 := f.round (.fin (Real.sqrt 2 / 2))

private theorem round_unit (hf : f.Ieee) {t : ℝ} (ht : |t| ≤ 1) : ∃ c, f.round (.fin t) = .fin c ∧ |c - t| ≤ f.u := by
  have hν1 : f.minNormal ≤ 1 := by
    unfold Fmt.minNormal
    apply zpow_le_one_of_nonpos₀ (by norm_num)
    obtain ⟨h1, h2, h3⟩ := hf
    omega
  have ho : (1 + f.u) * 1 < (2 : ℝ) ^ f.emax := by
    have hu := u_le hf
    have : (2 : ℝ) ^ (3 : ℤ) ≤ (2 : ℝ) ^ f.emax := zpow_le_zpow_right₀ (by norm_num) hf.2.1
    have e8 : (2 : ℝ) ^ (3 : ℤ) = 8 := by norm_num
    linarith
  obtain ⟨c, e, h⟩ := round_ok hf ht hν1 ho
  exact ⟨c, e, by linarith⟩

/-- **C110** (constants and twiddles).  Correctly rounded constants are accurate to `u`, the unit roundoff, and correctly
rounded cosines and sines of the exact angles give twiddles of every size accurate to `2 u`. -/
theorem C110_tables (hf : f.Ieee) : (roundedConst f).Accurate f.u ∧
    ∀ θ : ℕ → ℕ → Direction → ℝ,
      (∀ N k dir, θ N k dir = (if dir = .forward then -1 else 1) * (2 * Real.pi * k / N)) → ∀ N,
      TwFull (fun N k dir => (⟨f.round (.fin (Real.cos (θ N k dir))), f.round (.fin (Real.sin (θ N k dir)))⟩ : IC f)) N
        (2 * f.u) := by
  have hu := u_pos f
  have h5 : |Real.sqrt 5 / 4| ≤ 1 := by
    rw [abs_of_nonneg (by positivity)]
    have : Real.sqrt 5 ≤ 4 := Real.sqrt_le_iff.2 ⟨by norm_num, by norm_num⟩
    linarith
  have h2 : |Real.sqrt 2 / 2| ≤ 1 := by
    rw [abs_of_nonneg (by positivity)]
    have : Real.sqrt 2 ≤ 2 := Real.sqrt_le_iff.2 ⟨by norm_num, by norm_num⟩
    linarith
  refine ⟨⟨round_unit hf (Real.abs_sin_le_one _), round_unit hf h5, round_unit hf (Real.abs_sin_le_one _),
    round_unit hf (Real.abs_sin_le_one _), round_unit hf h2⟩, fun θ hθ N dir k _ => ?_⟩
  obtain ⟨c, ec, hc⟩ := round_unit hf (Real.abs_cos_le_one (θ N k dir))
  obtain ⟨s, es, hs⟩ := round_unit hf (Real.abs_sin_le_one (θ N k dir))
  refine ⟨c, s, by beta_reduce; rw [ec, es], ?_⟩
  have e : Complex.exp ((if dir = .forward then -1 else 1) * (2 * Real.pi * Complex.I * k / N))
      = ⟨Real.cos (θ N k dir), Real.sin (θ N k dir)⟩ := by
    have : ((if dir = .forward then -1 else 1) * (2 * Real.pi * Complex.I * k / N) : ℂ)
        = (θ N k dir : ℂ) * Complex.I := by
      rw [hθ]
      split <;> push_cast <;> ring
    rw [this]
    apply Complex.ext
    · rw [Complex.exp_ofReal_mul_I_re]
    · rw [Complex.exp_ofReal_mul_I_im]
  rw [e]
  have := norm_le_of_parts_abs (z := (⟨c, s⟩ : ℂ) - ⟨Real.cos (θ N k dir), Real.sin (θ N k dir)⟩) (e := f.u) hc hs
  linarith

/-- **C110** (the constants).  With tables and constants as accurate as correctly rounded ones, the growth of the errors of a
transform of order `p` is at most `1 + 4 p (2 a + 11 m) u`, where `a` sums and `m` products are on the longest path through
a butterfly, as long as this is at most 2. -/
theorem C110_growth (f : Fmt) (q : StockRadix) (p : ℕ) (h : 4 * p * (2 * q.sums + 11 * q.products) * f.u ≤ 1) :
    1 ≤ stockGrowth f (2 * f.u) f.u q ^ p ∧
      stockGrowth f (2 * f.u) f.u q ^ p ≤ 1 + 4 * p * (2 * q.sums + 11 * q.products) * f.u := by
  have hu := u_pos f
  refine ⟨one_le_pow₀ (one_le_stock (by linarith) hu.le q), ?_⟩
  obtain ⟨t, ht⟩ : ∃ t : ℝ, t = (2 * q.sums + 11 * q.products) * f.u := ⟨_, rfl⟩
  have ht0 : 0 ≤ t := by rw [ht]; positivity
  have hβ : (1 + 2 * f.u) ^ q.sums * ((1 + 2 * f.u + 3 * f.u + f.u) * (1 + 5 * f.u)) ^ q.products ≤ Real.exp t := by
    have e : t = q.sums * (2 * f.u) + q.products * (6 * f.u + 5 * f.u) := by rw [ht]; ring
    rw [e, Real.exp_add, Real.exp_nat_mul, Real.exp_nat_mul, Real.exp_add]
    have a1 : 1 + 2 * f.u ≤ Real.exp (2 * f.u) := (add_comm _ _).trans_le (Real.add_one_le_exp _)
    have a2 : 1 + 2 * f.u + 3 * f.u + f.u ≤ Real.exp (6 * f.u) := by
      have := Real.add_one_le_exp (6 * f.u)
      linarith
    have a3 : 1 + 5 * f.u ≤ Real.exp (5 * f.u) := (add_comm _ _).trans_le (Real.add_one_le_exp _)
    gcongr
  have hg : stockGrowth f (2 * f.u) f.u q ≤ Real.exp (2 * t) := by
    unfold stockGrowth
    have e : Real.exp (2 * t) = Real.exp t ^ 2 := by rw [← Real.exp_nat_mul]; norm_num
    rw [e]
    nlinarith [sq_nonneg (Real.exp t - 1)]
  have hg0 := one_le_stock (f := f) (ε := 2 * f.u) (by linarith) hu.le q
  have h1 : stockGrowth f (2 * f.u) f.u q ^ p ≤ Real.exp (p * (2 * t)) := by
    rw [Real.exp_nat_mul]
    exact pow_le_pow_left₀ (by linarith) hg p
  have e4 : 4 * p * (2 * q.sums + 11 * q.products) * f.u = 2 * (p * (2 * t)) := by rw [ht]; ring
  rw [e4] at h ⊢
  have t0 : 0 ≤ (p : ℝ) * (2 * t) := by positivity
  refine h1.trans ?_
  have := Real.abs_exp_sub_one_sub_id_le (x := (p : ℝ) * (2 * t)) (by rw [abs_of_nonneg t0]; linarith)
  have := (abs_le.1 this).2
  nlinarith

/-- Radix 5 in binary32: the errors of the largest transform that indices of 32 bits allow are below `2e-4` of the sum. -/
example {p : ℕ} (h : 5 ^ p < 2 ^ 32) :
    stockGrowth Spec.binary32 (2 * Spec.binary32.u) Spec.binary32.u .five ^ p ≤ 1 + 2e-4 := by
  have hu : Spec.binary32.u = 1 / 16777216 := by
    show (2 : ℝ) ^ (-((24 : ℕ) : ℤ)) = _
    norm_num
  have hp : p < 14 := by
    by_contra hc
    have : 5 ^ 14 ≤ 5 ^ p := Nat.pow_le_pow_right (by norm_num) (by omega)
    norm_num at this h
    omega
  have hp' : (p : ℝ) ≤ 13 := by exact_mod_cast Nat.le_of_lt_succ hp
  have h5 : 4 * p * (2 * (StockRadix.five.sums : ℝ) + 11 * StockRadix.five.products) * Spec.binary32.u ≤ 2e-4 := by
    rw [hu]
    norm_num [StockRadix.sums, StockRadix.products]
    linarith
  exact (C110_growth _ _ _ (h5.trans (by norm_num))).2.trans (by linarith)

/-- The plans of `C16` are the same code in exact arithmetic. -/
example (p : ℕ) (x w : List ℂ) (dir : Direction) :
    stockhamDifG .three (exactStock dir) p x w = stockhamDif3 p x w dir ∧
    stockhamDifG .four (exactStock dir) p x w = stockhamDif4 p x w dir ∧
    stockhamDifG .five (exactStock dir) p x w = stockhamDif5 p x w dir ∧
    stockhamDifG .eight (exactStock dir) p x w = stockhamDif8 p x w dir := ⟨rfl, rfl, rfl, rfl⟩

/-- The hypotheses hold in binary16 for nine points, radix 3, with correctly rounded tables. -/
example : binary16.Ieee ∧ (roundedConst binary16).Accurate binary16.u ∧ binary16.u ≤ 1 / 10 ∧
    2 * ((stockGrowth binary16 (2 * binary16.u) binary16.u .three ^ 2) ^ 2 * ((3 ^ 2 : ℕ) * (∑ n ∈ range (3 ^ 2),
      ‖[(1 : ℂ), -200, Complex.I, 800 * Complex.I, 0, 0, 50, -3, 7].getD n 0‖ + ((3 ^ 2 : ℕ) + 1) * binary16.minNormal)))
        < (2 : ℝ) ^ binary16.emax := by
  have hu : binary16.u = 1 / 2048 := by
    show (2 : ℝ) ^ (-((11 : ℕ) : ℤ)) = _
    norm_num
  have hν : binary16.minNormal = 1 / 16384 := by
    show (2 : ℝ) ^ ((-24 : ℤ) + ((11 : ℕ) : ℤ) - 1) = _
    norm_num
  have hm : (2 : ℝ) ^ binary16.emax = 65536 := by
    show (2 : ℝ) ^ (16 : ℤ) = _
    norm_num
  have hf : binary16.Ieee := by unfold Fmt.Ieee binary16; norm_num
  refine ⟨hf, (C110_tables hf).1, by rw [hu]; norm_num, ?_⟩
  have hg := (C110_growth binary16 .three 2 (by rw [hu]; norm_num [StockRadix.sums, StockRadix.products])).2
  have hg1 := (C110_growth binary16 .three 2 (by rw [hu]; norm_num [StockRadix.sums, StockRadix.products])).1
  have hg' : stockGrowth binary16 (2 * binary16.u) binary16.u .three ^ 2 ≤ 6 / 5 := by
    refine hg.trans ?_
    rw [hu]
    norm_num [StockRadix.sums, StockRadix.products]
  have hs : ∑ n ∈ range (3 ^ 2), ‖[(1 : ℂ), -200, Complex.I, 800 * Complex.I, 0, 0, 50, -3, 7].getD n 0‖ = 1062 := by
    norm_num [sum_range_succ]
  rw [hs, hν, hm]
  have : (stockGrowth binary16 (2 * binary16.u) binary16.u .three ^ 2) ^ 2 ≤ (6 / 5) ^ 2 :=
    pow_le_pow_left₀ (by linarith) hg' 2
  norm_num at this ⊢
  nlinarith

end Neo.Props
