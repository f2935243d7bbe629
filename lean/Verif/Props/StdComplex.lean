import Verif.Lemmas.StdComplex
import Verif.Lemmas.AnyPartition
import Verif.Props.AnyArith
import Verif.Props.NonFinite
import Verif.Props.IeeeConv

/-!
# C101: `std::complex` and `neo::scalar_complex` give the same results

The two complex types differ only in products with infinities and NaN (`annexMul`).
-/

namespace Neo.Props

open Neo Spec Finset

variable {f : Fmt}

private theorem getD_std (x : List (IC f)) (i : ℕ) : (x.map IC.std).getD i 0 = (x.getD i 0).std := by
  rw [List.getD_eq_getElem?_getD, List.getD_eq_getElem?_getD, List.getElem?_map]
  cases x[i]? <;> rfl

private theorem mem_vec {α : Type} {n : ℕ} {g : ℕ → α} {u : α} (h : u ∈ vec n g) : ∃ i < n, g i = u := by
  obtain ⟨i, hi, rfl⟩ := List.mem_map.1 h
  exact ⟨i, List.mem_range.1 hi, rfl⟩

private theorem mem_vec' {α : Type} {n : ℕ} {g : ℕ → α} {i : ℕ} (h : i < n) : g i ∈ vec n g :=
  List.mem_map.2 ⟨i, List.mem_range.2 h, rfl⟩

/-- **C101** (complex transform).  In every format, for every order, kernel, direction, table and input: the transform
with `std::complex` gives the same numbers as that with `neo::scalar_complex`, or, in bins where they differ, neither
gives a finite part. -/
theorem C101_fft (tw : ℕ → ℕ → Direction → IC f) (order : ℕ) (h1 : 1 ≤ order) (h2 : order ≤ 27) (k : Kernel)
    (hk : k = .v4 → 2 ≤ order) :
    ∃ p p', Dit2Plan.makeG (ieeeArith f tw) order = .ok p ∧ Dit2Plan.makeG (stdArith f tw) order = .ok p' ∧
      ∀ (x : List (IC f)) (dir : Direction), x.length = 2 ^ order →
        ∃ y y', p.callWith k.runG x dir = .ok y ∧ p'.callWith k.runG (x.map IC.std) dir = .ok y' ∧
          y.length = 2 ^ order ∧ y'.length = 2 ^ order ∧
          ∀ i < 2 ^ order, FVal.Agree2 (y.getD i 0).re (y.getD i 0).im (y'.getD i 0).re (y'.getD i 0).im := by
  refine ⟨_, _, dit2Plan_makeG_eq _ h2, dit2Plan_makeG_eq _ h2, fun x dir hx =>
    ⟨vec (2 ^ order) (ditGn (ieeeArith f tw) order dir (fun i => x.getD i 0)),
      vec (2 ^ order) (ditGn (stdArith f tw) order dir (fun i => (x.map IC.std).getD i 0)), ?_, ?_,
      length_vec .., length_vec .., ?_⟩⟩
  · conv_lhs => rw [list_eq_vec 0 hx]
    exact kernelG_fn h1 k (fun _ => IC.mul_comm') hk _ dir
  · conv_lhs => rw [list_eq_vec 0 ((List.length_map ..).trans hx : (x.map IC.std).length = 2 ^ order)]
    exact kernelG_fn h1 k (fun _ => SC.mul_comm') hk _ dir
  · intro i hi
    rw [getD_vec _ _ _ _ hi, getD_vec _ _ _ _ hi]
    refine ditGn_rel (std_rel tw) dir (fun j _ => ?_) hi
    rw [getD_std]
    exact SameC.std _

/-- **C101** (real transform).  The same for `fallback_rfft_plan`, forwards. -/
theorem C101_rfft (tw : ℕ → ℕ → Direction → IC f) (order : ℕ) (h1 : 1 ≤ order) (h2 : order ≤ 27) :
    ∃ p p', RfftPlanG.make (ieeeArith f tw) order = .ok p ∧ RfftPlanG.make (stdArith f tw) order = .ok p' ∧
      ∀ (buf : List (IC f)) (buf' : List (SC f)) (x : List (IR f)) (out : List (IC f)) (out' : List (SC f)),
        buf.length = 2 ^ order → buf'.length = 2 ^ order → x.length = 2 ^ order →
        2 ^ order / 2 + 1 ≤ out.length → 2 ^ order / 2 + 1 ≤ out'.length →
        ∃ q q' y y', ({ p with buffer := buf } : RfftPlanG (ieeeArith f tw)).rfft x out = .ok (q, y) ∧
          ({ p' with buffer := buf' } : RfftPlanG (stdArith f tw)).rfft x out' = .ok (q', y') ∧
          ∀ k ≤ 2 ^ order / 2, FVal.Agree2 (y.getD k 0).re (y.getD k 0).im (y'.getD k 0).re (y'.getD k 0).im := by
  refine ⟨_, _, rfftPlanG_make_eq h2, rfftPlanG_make_eq h2, fun buf buf' x out out' hb hb' hx ho ho' => ?_⟩
  obtain ⟨g, e⟩ := rfftG_fn (A := ieeeArith f tw) h1 ho (fun i => buf.getD i 0) (fun i => x.getD i 0)
    (fun i => out.getD i 0)
  obtain ⟨g', e'⟩ := rfftG_fn (A := stdArith f tw) h1 ho' (fun i => buf'.getD i 0) (fun i => x.getD i 0)
    (fun i => out'.getD i 0)
  have hN : 2 ^ order / 2 < 2 ^ order := Nat.div_lt_self (by positivity) (by norm_num)
  rw [← list_eq_vec 0 hx, ← list_eq_vec 0 (rfl : out.length = out.length)] at e
  rw [← list_eq_vec 0 hx, ← list_eq_vec 0 (rfl : out'.length = out'.length)] at e'
  have hp : rfftPlanGOf (ieeeArith f tw) order (fun i => buf.getD i 0)
      = { rfftPlanGOf (ieeeArith f tw) order (fun _ => 0) with buffer := buf } := by
    unfold rfftPlanGOf
    rw [← list_eq_vec 0 hb]
  have hp' : rfftPlanGOf (stdArith f tw) order (fun i => buf'.getD i 0)
      = { rfftPlanGOf (stdArith f tw) order (fun _ => 0) with buffer := buf' } := by
    unfold rfftPlanGOf
    rw [← list_eq_vec 0 hb']
  rw [hp] at e
  rw [hp'] at e'
  refine ⟨_, _, _, _, e, e', fun k hk => ?_⟩
  rw [getD_vec _ _ _ _ (by omega), getD_vec _ _ _ _ (by omega), if_pos (by omega), if_pos (by omega)]
  exact rfftGn_rel (std_rel tw) _ (by omega)

/-- **C101** (inverse real transform).  Backwards: for spectra that agree in this sense, each sample is the same or neither
is finite. -/
theorem C101_irfft (tw : ℕ → ℕ → Direction → IC f) (order : ℕ) (h1 : 1 ≤ order) (h2 : order ≤ 27) :
    ∃ p p', RfftPlanG.make (ieeeArith f tw) order = .ok p ∧ RfftPlanG.make (stdArith f tw) order = .ok p' ∧
      ∀ (buf c : List (IC f)) (buf' c' : List (SC f)) (out out' : List (IR f)),
        buf.length = 2 ^ order → buf'.length = 2 ^ order → 2 ^ order / 2 + 1 ≤ c.length → c.length ≤ 2 ^ order →
        c'.length = c.length → 2 ^ order ≤ out.length → 2 ^ order ≤ out'.length →
        (∀ k ≤ 2 ^ order / 2, FVal.Agree2 (c.getD k 0).re (c.getD k 0).im (c'.getD k 0).re (c'.getD k 0).im) →
        ∃ q q' y y', ({ p with buffer := buf } : RfftPlanG (ieeeArith f tw)).irfft c out = .ok (q, y) ∧
          ({ p' with buffer := buf' } : RfftPlanG (stdArith f tw)).irfft c' out' = .ok (q', y') ∧
          ∀ n < 2 ^ order, FVal.Agree (y.getD n 0).val (y'.getD n 0).val := by
  refine ⟨_, _, rfftPlanG_make_eq h2, rfftPlanG_make_eq h2, fun buf c buf' c' out out' hb hb' hc hc2 hc' ho ho' h => ?_⟩
  obtain ⟨g, e⟩ := irfftG_fn (A := ieeeArith f tw) h1 hc hc2 ho (fun i => buf.getD i 0) (fun i => c.getD i 0)
    (fun i => out.getD i 0)
  obtain ⟨g', e'⟩ := irfftG_fn (A := stdArith f tw) h1 (l := c'.length) (by omega) (by omega) ho'
    (fun i => buf'.getD i 0) (fun i => c'.getD i 0) (fun i => out'.getD i 0)
  rw [← list_eq_vec 0 (rfl : c.length = c.length), ← list_eq_vec 0 (rfl : out.length = out.length)] at e
  rw [← list_eq_vec 0 (rfl : c'.length = c'.length), ← list_eq_vec 0 (rfl : out'.length = out'.length)] at e'
  have hp : rfftPlanGOf (ieeeArith f tw) order (fun i => buf.getD i 0)
      = { rfftPlanGOf (ieeeArith f tw) order (fun _ => 0) with buffer := buf } := by
    unfold rfftPlanGOf
    rw [← list_eq_vec 0 hb]
  have hp' : rfftPlanGOf (stdArith f tw) order (fun i => buf'.getD i 0)
      = { rfftPlanGOf (stdArith f tw) order (fun _ => 0) with buffer := buf' } := by
    unfold rfftPlanGOf
    rw [← list_eq_vec 0 hb']
  rw [hp] at e
  rw [hp'] at e'
  refine ⟨_, _, _, _, e, e', fun n hn => ?_⟩
  rw [getD_vec _ _ _ _ (by omega), getD_vec _ _ _ _ (by omega), if_pos hn, if_pos hn]
  exact irfftGn_rel (std_rel tw) h hn

/-! ## The convolvers -/

private theorem lens {α : Type} (d : α) {B : ℕ} {blocks : List (List α)} (hb : ∀ b ∈ blocks, b.length = B)
    (o : ℕ → ℕ → α) : (vec blocks.length (fun t => vec B (o t))).map List.length = blocks.map List.length := by
  have h := blocks_eq_vec d blocks hb
  rw [vec_const_len]
  conv_rhs => rw [h]
  rw [vec_const_len]

/-- What the theorems say about two runs: same shape, every sample agrees, and runs in which one is finite throughout
are equal. -/
private theorem outs_agree {B T : ℕ} {o o' : ℕ → ℕ → IR f} (h : ∀ t, ∀ i < B, SameR (o t i) (o' t i)) :
    (∀ t n, FVal.Agree (((vec T (fun t => vec B (o t))).getD t []).getD n 0).val
      (((vec T (fun t => vec B (o' t))).getD t []).getD n 0).val) ∧
    ((∀ b ∈ vec T (fun t => vec B (o t)), ∀ y ∈ b, ¬ y.val.NonFinite) →
      vec T (fun t => vec B (o' t)) = vec T (fun t => vec B (o t))) := by
  constructor
  · intro t n
    by_cases ht : t < T
    · rw [getD_vec _ _ _ _ ht, getD_vec _ _ _ _ ht]
      by_cases hn : n < B
      · rw [getD_vec _ _ _ _ hn, getD_vec _ _ _ _ hn]
        exact h t n hn
      · rw [List.getD_eq_default _ _ (by rw [length_vec]; omega), List.getD_eq_default _ _ (by rw [length_vec]; omega)]
        exact Or.inl rfl
    · rw [List.getD_eq_default (vec T fun t => vec B (o t)) _ (by rw [length_vec]; omega),
        List.getD_eq_default (vec T fun t => vec B (o' t)) _ (by rw [length_vec]; omega)]
      exact Or.inl rfl
  · intro hf
    refine vec_ext fun t ht => vec_ext fun i hi => ?_
    rcases h t i hi with e | e
    · exact (IR.ext e).symm
    · exact absurd e.1 (hf _ (mem_vec' ht) _ (mem_vec' hi))

/-- **C101** (overlap-add).  `upola_convolver` with `std::complex` and with `neo::scalar_complex`, with filters that agree
in the sense above: the same outputs for every input, except where neither is finite; and if one run has only finite
outputs then the other run is equal to it. -/
theorem C101_upola (tw : ℕ → ℕ → Direction → IC f) {a : ℕ} (ha : 1 ≤ a) (ha2 : a ≤ 26) {v : MatView}
    {data : List (IC f)} {data' : List (SC f)} (hv : v.InRange data.length) (hv' : v.InRange data'.length)
    (hr : 1 ≤ v.rows) (hc : v.cols = 2 ^ a + 1)
    (hd : ∀ r < v.rows, ∀ k < v.cols, FVal.Agree2 (matAt v data r k).re (matAt v data r k).im
      (matAt v data' r k).re (matAt v data' r k).im)
    (blocks : List (List (IR f))) (hb : ∀ b ∈ blocks, b.length = 2 ^ a) :
    ∃ outs outs', upolaRunG (ieeeArith f tw) v data blocks = .ok outs ∧
      upolaRunG (stdArith f tw) v data' blocks = .ok outs' ∧
      outs.map List.length = blocks.map List.length ∧ outs'.map List.length = blocks.map List.length ∧
      (∀ t n, FVal.Agree ((outs.getD t []).getD n 0).val ((outs'.getD t []).getD n 0).val) ∧
      ((∀ b ∈ outs, ∀ y ∈ b, ¬ y.val.NonFinite) → outs' = outs) := by
  refine ⟨_, _, upolaRunG_eq ha ha2 hv hr hc blocks hb, upolaRunG_eq ha ha2 hv' hr hc blocks hb,
    lens 0 hb _, lens 0 hb _, outs_agree fun t i hi => ?_⟩
  exact olaOutG_rel (std_rel tw) (fun t k hk => convY_rel (std_rel tw)
    (fun s hs k hk => hd s hs k (by omega)) _ _ t k hk) t hi

/-- **C101** (overlap-save).  The same for `upols_convolver`. -/
theorem C101_upols (tw : ℕ → ℕ → Direction → IC f) {a : ℕ} (ha : 1 ≤ a) (ha2 : a ≤ 26) {v : MatView}
    {data : List (IC f)} {data' : List (SC f)} (hv : v.InRange data.length) (hv' : v.InRange data'.length)
    (hr : 1 ≤ v.rows) (hc : v.cols = 2 ^ a + 1)
    (hd : ∀ r < v.rows, ∀ k < v.cols, FVal.Agree2 (matAt v data r k).re (matAt v data r k).im
      (matAt v data' r k).re (matAt v data' r k).im)
    (blocks : List (List (IR f))) (hb : ∀ b ∈ blocks, b.length = 2 ^ a) :
    ∃ outs outs', upolsRunG (ieeeArith f tw) v data blocks = .ok outs ∧
      upolsRunG (stdArith f tw) v data' blocks = .ok outs' ∧
      outs.map List.length = blocks.map List.length ∧ outs'.map List.length = blocks.map List.length ∧
      (∀ t n, FVal.Agree ((outs.getD t []).getD n 0).val ((outs'.getD t []).getD n 0).val) ∧
      ((∀ b ∈ outs, ∀ y ∈ b, ¬ y.val.NonFinite) → outs' = outs) := by
  refine ⟨_, _, upolsRunG_eq ha ha2 hv hr hc blocks hb, upolsRunG_eq ha ha2 hv' hr hc blocks hb,
    lens 0 hb _, lens 0 hb _, outs_agree fun t i hi => ?_⟩
  exact olsOutG_rel (std_rel tw) (fun t k hk => convY_rel (std_rel tw)
    (fun s hs k hk => hd s hs k (by omega)) _ _ t k hk) t hi

private theorem two_pow_half (a : ℕ) : 2 ^ (a + 1) / 2 = 2 ^ a := by rw [pow_succ]; omega

/-- **C101** (partitioned impulse response and convolver).  The whole chain: `uniform_partition` of any impulse response,
infinities and NaN included, and each convolver on any input, in both complex types. -/
theorem C101_partitioned (tw : ℕ → ℕ → Direction → IC f) {a : ℕ} (ha : 1 ≤ a) (ha2 : a ≤ 26) (one : IR f)
    (v : MatView) (data : List (IR f)) (hv : v.InRange data.length) (hS : 1 ≤ v.cols) (hS2 : v.cols < 2 ^ 64)
    (hsz : v.rows * ((v.cols - 1) / 2 ^ a + 1) * (2 ^ a + 1) < 2 ^ 59)
    {N : ℕ} (hN : N = (v.cols - 1) / 2 ^ a + 1) :
    ∃ bins part part', uniformPartitionG (ieeeArith f tw) one v data (2 ^ a) = .ok (N, bins, part) ∧
      uniformPartitionG (stdArith f tw) one v data (2 ^ a) = .ok (N, bins, part') ∧
      ∀ c < v.rows, ∀ blocks : List (List (IR f)), (∀ b ∈ blocks, b.length = 2 ^ a) →
        (∃ outs outs', upolaRunG (ieeeArith f tw) (partitionView N bins c) part blocks = .ok outs ∧
          upolaRunG (stdArith f tw) (partitionView N bins c) part' blocks = .ok outs' ∧
          outs.map List.length = blocks.map List.length ∧ outs'.map List.length = blocks.map List.length ∧
          (∀ t n, FVal.Agree ((outs.getD t []).getD n 0).val ((outs'.getD t []).getD n 0).val) ∧
          ((∀ b ∈ outs, ∀ y ∈ b, ¬ y.val.NonFinite) → outs' = outs)) ∧
        ∃ outs outs', upolsRunG (ieeeArith f tw) (partitionView N bins c) part blocks = .ok outs ∧
          upolsRunG (stdArith f tw) (partitionView N bins c) part' blocks = .ok outs' ∧
          outs.map List.length = blocks.map List.length ∧ outs'.map List.length = blocks.map List.length ∧
          (∀ t n, FVal.Agree ((outs.getD t []).getD n 0).val ((outs'.getD t []).getD n 0).val) ∧
          ((∀ b ∈ outs, ∀ y ∈ b, ¬ y.val.NonFinite) → outs' = outs) := by
  have hcl : Nat.clog 2 (2 ^ a * 2) = a + 1 := by rw [← pow_succ, Nat.clog_pow 2 _ (by norm_num)]
  have hpos : 0 < 2 ^ a := by positivity
  obtain ⟨part, e, hp⟩ := uniformPartitionG_eq (A := ieeeArith f tw) (one := one) hv Nat.one_le_two_pow hcl (by omega) hS
    hS2 (by rw [two_pow_half]; exact hsz)
  obtain ⟨part', e', hp'⟩ := uniformPartitionG_eq (A := stdArith f tw) (one := one) hv Nat.one_le_two_pow hcl (by omega)
    hS hS2 (by rw [two_pow_half]; exact hsz)
  rw [two_pow_half, ← hN] at e hp e' hp'
  refine ⟨2 ^ a + 1, part, part', e, e', ?_⟩
  intro c hc blocks hb
  obtain ⟨hr, hd⟩ := hp c hc
  obtain ⟨hr', hd'⟩ := hp' c hc
  have hN1 : 1 ≤ N := by rw [hN]; exact Nat.le_add_left 1 _
  have hrel : ∀ r < (partitionView N (2 ^ a + 1) c).rows, ∀ k < (partitionView N (2 ^ a + 1) c).cols,
      SameC (matAt (partitionView N (2 ^ a + 1) c) part r k) (matAt (partitionView N (2 ^ a + 1) c) part' r k) := by
    intro r hr k hk
    rw [hd r hr k hk, hd' r hr k hk]
    have hk' : k < 2 ^ a + 1 := hk
    exact rfftGn_rel (std_rel tw) _ (by rw [pow_succ]; omega)
  exact ⟨C101_upola tw ha ha2 hr hr' hN1 rfl hrel blocks hb, C101_upols tw ha ha2 hr hr' hN1 rfl hrel blocks hb⟩

private theorem finite_sample (outs : List (List ℝ)) :
    ∀ b ∈ outs.map (·.map (sample : ℝ → IR f)), ∀ y ∈ b, ¬ y.val.NonFinite := by
  intro b hb y hy
  obtain ⟨b', -, rfl⟩ := List.mem_map.1 hb
  obtain ⟨x, -, rfl⟩ := List.mem_map.1 hy
  exact fun h => h x rfl

/-- **C101** (accuracy).  So the error bounds of `C96_unit` hold for `std::complex` as they stand: tables rounded
correctly, input in `[-1, 1]`, no sample of the output overflows and every one is within the bound of the exact
convolution. -/
theorem C101_accuracy (hf : f.Ieee) {a : ℕ} (ha : 1 ≤ a) (ha2 : a ≤ 26) (hbe : (a : ℤ) + 2 < f.emax)
    {tw : ℕ → ℕ → Direction → IC f}
    (htw : ∀ k dir, tw (2 ^ (a + 1)) k dir
      = ⟨f.round (.fin (Real.cos ((if dir = .forward then -1 else 1) * (2 * Real.pi * k / (2 ^ (a + 1) : ℕ))))),
        f.round (.fin (Real.sin ((if dir = .forward then -1 else 1) * (2 * Real.pi * k / (2 ^ (a + 1) : ℕ)))))⟩)
    (v : MatView) (data : List ℝ) (hv : v.InRange data.length) (hS : 1 ≤ v.cols) (hS2 : v.cols < 2 ^ 64)
    (hsz : v.rows * ((v.cols - 1) / 2 ^ a + 1) * (2 ^ a + 1) < 2 ^ 59)
    {N : ℕ} (hN : N = (v.cols - 1) / 2 ^ a + 1) (hE : (27 * (a + 1 : ℕ) + 2 * N + 7) * f.u ≤ 1 / 2) {L : ℝ}
    (hL : ∀ c < v.rows, ∑ i ∈ range v.cols, |chanAt v data c i| + N * (2 ^ (a + 1) * f.minNormal) ≤ L)
    (ho : 2 * (4 ^ (a + 1) * L) < (2 : ℝ) ^ f.emax) :
    ∃ bins part, uniformPartitionG (stdArith f tw) (sample 1) v (data.map sample) (2 ^ a) = .ok (N, bins, part) ∧
      ∀ c < v.rows, ∀ blocks : List (List ℝ), (∀ b ∈ blocks, b.length = 2 ^ a) → (∀ b ∈ blocks, ∀ s ∈ b, |s| ≤ 1) →
        (∃ outs : List (List ℝ),
          upolsRunG (stdArith f tw) (partitionView N bins c) part (blocks.map (·.map sample))
            = .ok (outs.map (·.map sample)) ∧
          outs.map List.length = blocks.map List.length ∧
          ∀ n < blocks.flatten.length,
            |outs.flatten.getD n 0 - Spec.conv (chanAt v data c) (fun i => blocks.flatten.getD i 0) n|
              ≤ 2 * ((27 * (a + 1 : ℕ) + 2 * N + 7) * f.u) * (2 ^ (a + 1) * L)) ∧
        ∃ outs : List (List ℝ),
          upolaRunG (stdArith f tw) (partitionView N bins c) part (blocks.map (·.map sample))
            = .ok (outs.map (·.map sample)) ∧
          outs.map List.length = blocks.map List.length ∧
          ∀ n < blocks.flatten.length,
            |outs.flatten.getD n 0 - Spec.conv (chanAt v data c) (fun i => blocks.flatten.getD i 0) n|
              ≤ 4 * ((27 * (a + 1 : ℕ) + 2 * N + 8) * f.u) * (2 ^ (a + 1) * L) := by
  obtain ⟨bins, part, e, h⟩ := C96_unit hf ha ha2 hbe htw v data hv hS hS2 hsz hN hE hL ho
  obtain ⟨bins', part1, part', e1, e2, h'⟩ := C101_partitioned tw ha ha2 (sample 1) v (data.map sample)
    (by rwa [List.length_map]) hS hS2 hsz hN
  rw [e] at e1
  injection e1 with e1
  injection e1 with _ e1
  injection e1 with eb ep
  subst eb ep
  refine ⟨bins, part', e2, ?_⟩
  intro c hc blocks hb hx
  obtain ⟨⟨o1, r1, l1, q1⟩, o2, r2, l2, q2⟩ := h c hc blocks hb hx
  have hb' : ∀ b ∈ blocks.map (·.map (sample : ℝ → IR f)), b.length = 2 ^ a := by
    intro b hbm
    obtain ⟨b', hb', rfl⟩ := List.mem_map.1 hbm
    rw [List.length_map]
    exact hb b' hb'
  obtain ⟨⟨p, p', s1, s2, -, -, -, s3⟩, w, w', t1, t2, -, -, -, t3⟩ := h' c hc _ hb'
  rw [r2] at s1
  rw [r1] at t1
  injection s1 with s1
  injection t1 with t1
  subst s1 t1
  rw [s3 (finite_sample _)] at s2
  rw [t3 (finite_sample _)] at t2
  exact ⟨⟨o1, t2, l1, q1⟩, o2, s2, l2, q2⟩

/-- The filter of a convolver, read as `neo::scalar_complex`. -/
private def unstd (z : SC f) : IC f := ⟨z.re, z.im⟩

private theorem matAt_unstd (v : MatView) (data : List (SC f)) (r k : ℕ) :
    SameC (matAt v (data.map unstd) r k) (matAt v data r k) := by
  unfold matAt
  rw [List.getD_eq_getElem?_getD, List.getD_eq_getElem?_getD, List.getElem?_map]
  cases data[v.idx r k]? <;> exact Or.inl ⟨rfl, rfl⟩

private theorem nonFinite_of {v v' : FVal} (h : v.Agree v') (hv : v.NonFinite) : v'.NonFinite := by
  rcases h with rfl | h
  · exact hv
  · exact h.2

private theorem nonFinite_mem {outs outs' : List (List (IR f))} (hl : outs.map List.length = outs'.map List.length)
    (h : ∀ t n, FVal.Agree ((outs.getD t []).getD n 0).val ((outs'.getD t []).getD n 0).val) {t : ℕ}
    (ht : ∀ y ∈ outs.getD t [], y.val.NonFinite) : ∀ y ∈ outs'.getD t [], y.val.NonFinite := by
  intro y hy
  obtain ⟨n, hn, rfl⟩ := List.getElem_of_mem hy
  have hlen : (outs.getD t []).length = (outs'.getD t []).length := by
    have := congrArg (fun l => l.getD t 0) hl
    simp only [List.getD_eq_getElem?_getD, List.getElem?_map] at this ⊢
    cases h1 : outs[t]? <;> cases h2 : outs'[t]? <;> simpa [h1, h2] using this
  have e := h t n
  rw [List.getD_eq_getElem _ _ hn] at e
  refine nonFinite_of e (ht _ ?_)
  rw [List.getD_eq_getElem (outs.getD t []) _ (by rw [hlen]; exact hn)]
  exact List.getElem_mem _

/-- **C101** (infinities and NaN, overlap-add).  `C93_nonfinite_upola` holds for `std::complex` too: the recovery of
infinities never turns one back into a finite number. -/
theorem C101_nonfinite_upola (tw : ℕ → ℕ → Direction → IC f) {a : ℕ} (ha : 1 ≤ a) (ha2 : a ≤ 26) {v : MatView}
    {data : List (SC f)} (hv : v.InRange data.length) (hr : 1 ≤ v.rows) (hc : v.cols = 2 ^ a + 1)
    (blocks : List (List (IR f))) (hb : ∀ b ∈ blocks, b.length = 2 ^ a) :
    ∃ outs, upolaRunG (stdArith f tw) v data blocks = .ok outs ∧
      outs.map List.length = blocks.map List.length ∧
      (∀ i < blocks.length, ∀ z ∈ blocks.getD i [], z.val.NonFinite →
        ∀ t, i ≤ t → t ≤ i + v.rows → ∀ y ∈ outs.getD t [], y.val.NonFinite) ∧
      (∀ r < v.rows, ∀ k < v.cols, (data.getD (v.off + r * v.s0 + k * v.s1) 0).re.NonFinite ∨
          (data.getD (v.off + r * v.s0 + k * v.s1) 0).im.NonFinite →
        ∀ t, ∀ y ∈ outs.getD t [], y.val.NonFinite) := by
  have hv0 : v.InRange (data.map unstd).length := by rwa [List.length_map]
  obtain ⟨outs, e, l, h1, h2⟩ := C93_nonfinite_upola tw ha ha2 hv0 hr hc blocks hb
  obtain ⟨o, o', e1, e2, -, l2, ag, -⟩ := C101_upola tw ha ha2 hv0 hv hr hc (fun r _ k _ => matAt_unstd v data r k) blocks hb
  rw [e] at e1
  injection e1 with e1
  subst e1
  refine ⟨o', e2, l2, ?_, ?_⟩
  · exact fun i hi z hz hn t ht ht' => nonFinite_mem (l.trans l2.symm) ag (h1 i hi z hz hn t ht ht')
  · intro r hr' k hk hn t
    have hn' : ((data.map unstd).getD (v.off + r * v.s0 + k * v.s1) 0).re.NonFinite ∨
        ((data.map unstd).getD (v.off + r * v.s0 + k * v.s1) 0).im.NonFinite := by
      have : (data.map unstd).getD (v.off + r * v.s0 + k * v.s1) 0 = unstd (data.getD (v.off + r * v.s0 + k * v.s1) 0) := by
        rw [List.getD_eq_getElem?_getD, List.getD_eq_getElem?_getD, List.getElem?_map]
        cases data[v.off + r * v.s0 + k * v.s1]? <;> rfl
      rw [this]
      exact hn
    refine nonFinite_mem (l.trans l2.symm) ag ?_
    by_cases ht : t < outs.length
    · rw [List.getD_eq_getElem _ _ ht]
      exact h2 r hr' k hk hn' _ (List.getElem_mem _)
    · rw [List.getD_eq_default _ _ (by omega)]
      intro y hy
      exact absurd hy List.not_mem_nil

/-- **C101** (infinities and NaN, overlap-save).  The same for `upols_convolver`. -/
theorem C101_nonfinite_upols (tw : ℕ → ℕ → Direction → IC f) {a : ℕ} (ha : 1 ≤ a) (ha2 : a ≤ 26) {v : MatView}
    {data : List (SC f)} (hv : v.InRange data.length) (hr : 1 ≤ v.rows) (hc : v.cols = 2 ^ a + 1)
    (blocks : List (List (IR f))) (hb : ∀ b ∈ blocks, b.length = 2 ^ a) :
    ∃ outs, upolsRunG (stdArith f tw) v data blocks = .ok outs ∧
      outs.map List.length = blocks.map List.length ∧
      (∀ i < blocks.length, ∀ z ∈ blocks.getD i [], z.val.NonFinite →
        ∀ t, i ≤ t → t ≤ i + v.rows → ∀ y ∈ outs.getD t [], y.val.NonFinite) ∧
      (∀ r < v.rows, ∀ k < v.cols, (data.getD (v.off + r * v.s0 + k * v.s1) 0).re.NonFinite ∨
          (data.getD (v.off + r * v.s0 + k * v.s1) 0).im.NonFinite →
        ∀ t, ∀ y ∈ outs.getD t [], y.val.NonFinite) := by
  have hv0 : v.InRange (data.map unstd).length := by rwa [List.length_map]
  obtain ⟨outs, e, l, h1, h2⟩ := C93_nonfinite_upols tw ha ha2 hv0 hr hc blocks hb
  obtain ⟨o, o', e1, e2, -, l2, ag, -⟩ := C101_upols tw ha ha2 hv0 hv hr hc (fun r _ k _ => matAt_unstd v data r k) blocks hb
  rw [e] at e1
  injection e1 with e1
  subst e1
  refine ⟨o', e2, l2, ?_, ?_⟩
  · exact fun i hi z hz hn t ht ht' => nonFinite_mem (l.trans l2.symm) ag (h1 i hi z hz hn t ht ht')
  · intro r hr' k hk hn t
    have hn' : ((data.map unstd).getD (v.off + r * v.s0 + k * v.s1) 0).re.NonFinite ∨
        ((data.map unstd).getD (v.off + r * v.s0 + k * v.s1) 0).im.NonFinite := by
      have : (data.map unstd).getD (v.off + r * v.s0 + k * v.s1) 0 = unstd (data.getD (v.off + r * v.s0 + k * v.s1) 0) := by
        rw [List.getD_eq_getElem?_getD, List.getD_eq_getElem?_getD, List.getElem?_map]
        cases data[v.off + r * v.s0 + k * v.s1]? <;> rfl
      rw [this]
      exact hn
    refine nonFinite_mem (l.trans l2.symm) ag ?_
    by_cases ht : t < outs.length
    · rw [List.getD_eq_getElem _ _ ht]
      exact h2 r hr' k hk hn' _ (List.getElem_mem _)
    · rw [List.getD_eq_default _ _ (by omega)]
      intro y hy
      exact absurd hy List.not_mem_nil

/-! ## The types do differ -/

private theorem r0 : binary32.round (.fin 0) = .fin 0 :=
  round_mem ⟨0, 0, by norm_num [binary32], by norm_num [binary32], by norm_num⟩ (by norm_num [binary32])
private theorem r1 : binary32.round (.fin 1) = .fin 1 :=
  round_mem ⟨1, 0, by norm_num [binary32], by norm_num [binary32], by norm_num⟩ (by norm_num [binary32])

private theorem dit4 {C : Type} [Zero C] [AddCommMagma C] [Sub C] [Mul C] (A : Arith (IR binary32) C) (dir : Direction)
    (x : ℕ → C) : ditGn A 2 dir x 0 = (x 0 + x 2) + A.twiddle 4 0 dir * (x 1 + x 3) := rfl

/-- **C101** (the exception is real).  A transform of four points in binary32 in which the two types give different
results: the first bin is `inf + i NaN` with `std::complex` and `NaN + i NaN` with `neo::scalar_complex`. -/
theorem C101_differs (tw : ℕ → ℕ → Direction → IC binary32) (h : tw 4 0 .forward = ⟨.fin 1, .fin 0⟩) :
    ∃ p p' y y', Dit2Plan.makeG (ieeeArith binary32 tw) 2 = .ok p ∧ Dit2Plan.makeG (stdArith binary32 tw) 2 = .ok p' ∧
      p.callWith Kernel.v3.runG [0, ⟨.inf false, .nan⟩, 0, 0] .forward = .ok y ∧
      p'.callWith Kernel.v3.runG [0, ⟨.inf false, .nan⟩, 0, 0] .forward = .ok y' ∧
      y.getD 0 0 = ⟨.nan, .nan⟩ ∧ y'.getD 0 0 = ⟨.inf false, .nan⟩ := by
  have k1 := kernelG_fn (A := ieeeArith binary32 tw) (b := 2) (by norm_num) .v3 (by simp) (by simp)
    (fun i => ([0, ⟨.inf false, .nan⟩, 0, 0] : List (IC binary32)).getD i 0) .forward
  have k2 := kernelG_fn (A := stdArith binary32 tw) (b := 2) (by norm_num) .v3 (by simp) (by simp)
    (fun i => ([0, ⟨.inf false, .nan⟩, 0, 0] : List (SC binary32)).getD i 0) .forward
  refine ⟨_, _, _, _, dit2Plan_makeG_eq _ (by norm_num), dit2Plan_makeG_eq _ (by norm_num), k1, k2, ?_, ?_⟩
  · rw [getD_vec _ _ _ _ (by norm_num), dit4]
    have hw : (ieeeArith binary32 tw).twiddle 4 0 .forward = ⟨.fin 1, .fin 0⟩ := h
    rw [hw]
    have e1 : (([0, ⟨.inf false, .nan⟩, 0, 0] : List (IC binary32)).getD 1 0
        + ([0, ⟨.inf false, .nan⟩, 0, 0] : List (IC binary32)).getD 3 0) = ⟨.inf false, .nan⟩ := rfl
    have e0 : (([0, ⟨.inf false, .nan⟩, 0, 0] : List (IC binary32)).getD 0 0
        + ([0, ⟨.inf false, .nan⟩, 0, 0] : List (IC binary32)).getD 2 0) = ⟨.fin 0, .fin 0⟩ := by
      show (⟨binary32.round (.fin (0 + 0)), binary32.round (.fin (0 + 0))⟩ : IC binary32) = _
      rw [add_zero, r0]
    rw [e0, e1]
    have e2 : (⟨.fin 1, .fin 0⟩ : IC binary32) * ⟨.inf false, .nan⟩ = ⟨.nan, .nan⟩ := by
      apply IC.ext
      · rw [IC.mul_re]; simp [FVal.mul, FVal.add, FVal.sub, FVal.neg, Fmt.round_nan, round_inf]
      · rw [IC.mul_im]; simp [FVal.mul, FVal.add, Fmt.round_nan]
    rw [e2]
    rfl
  · rw [getD_vec _ _ _ _ (by norm_num), dit4]
    have hw : (stdArith binary32 tw).twiddle 4 0 .forward = ⟨.fin 1, .fin 0⟩ := congrArg IC.std h
    rw [hw]
    have e1 : (([0, ⟨.inf false, .nan⟩, 0, 0] : List (SC binary32)).getD 1 0
        + ([0, ⟨.inf false, .nan⟩, 0, 0] : List (SC binary32)).getD 3 0) = ⟨.inf false, .nan⟩ := rfl
    have e0 : (([0, ⟨.inf false, .nan⟩, 0, 0] : List (SC binary32)).getD 0 0
        + ([0, ⟨.inf false, .nan⟩, 0, 0] : List (SC binary32)).getD 2 0) = ⟨.fin 0, .fin 0⟩ := by
      show (⟨binary32.round (.fin (0 + 0)), binary32.round (.fin (0 + 0))⟩ : SC binary32) = _
      rw [add_zero, r0]
    rw [e0, e1]
    have e2 : (⟨.fin 1, .fin 0⟩ : SC binary32) * ⟨.inf false, .nan⟩ = ⟨.inf false, .nan⟩ := by
      show annexMul _ _ = _
      simp [annexMul, annexRecover, isNanF, isInfF, boxInf, dropNan, FVal.mul, FVal.add, FVal.sub, FVal.neg, Fmt.round_nan,
        round_inf, r0, r1]
    rw [e2]
    rfl

/-- A table with the entry used above: the correctly rounded one. -/
example : ∃ tw : ℕ → ℕ → Direction → IC binary32, tw 4 0 .forward = ⟨.fin 1, .fin 0⟩ := ⟨fun _ _ _ => ⟨.fin 1, .fin 0⟩, rfl⟩

/-- A filter of two partitions, one block of two samples, and an infinite coefficient that both types share. -/
example : ({ rows := 2, cols := 3, off := 0, s0 := 3, s1 := 1 } : MatView).InRange
      ([0, ⟨.fin 0, .inf true⟩, 0, 0, 0, 0] : List (SC f)).length ∧
    (([0, ⟨.fin 0, .inf true⟩, 0, 0, 0, 0] : List (SC f)).getD (0 + 0 * 3 + 1 * 1) 0).im.NonFinite ∧
    (∀ b ∈ [[(0 : IR f), 0]], b.length = 2 ^ 1) := by
  refine ⟨?_, FVal.nonFinite_inf true, ?_⟩
  · intro r hr c hc
    have h1 : r < 2 := hr
    have h2 : c < 3 := hc
    show 0 + r * 3 + c * 1 < 6
    omega
  · intro b hb
    rw [List.mem_singleton.1 hb]
    rfl

end Neo.Props
