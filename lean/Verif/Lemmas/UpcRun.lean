import Verif.Lemmas.UpcRel
import Verif.Lemmas.Stft

/-! # Output formulas of the partitioned convolvers -/

namespace Neo

open Finset

/-- The concatenated input. -/
noncomputable def streamOf (blocks : List (List ℝ)) (i : ℕ) : ℝ := blocks.flatten.getD i 0

theorem upc_run_gen {Ov R K : Type} [Zero R] [Zero K] [AddCommMagma K] [Mul K] {oo : OverlapOps Ov R K} {B : ℕ}
    {fwd : (ℕ → R) → ℕ → ℕ → K} {outF : (ℕ → ℕ → K) → ℕ → ℕ → R} {OI : (ℕ → R) → (ℕ → ℕ → K) → ℕ → Ov → Prop}
    (ho : OverlapLaw oo B fwd outF OI) (hmk : ∃ o, oo.make 1 1 = .ok o) {v : MatView}
    {data : List K} (hv : v.InRange data.length) (hr : 1 ≤ v.rows) (hc : v.cols = B + 1)
    {H : ℕ → ℕ → K} (hH : ∀ r < v.rows, ∀ c < v.cols, matAt v data r c = H r c) (f0 : Arr2 K)
    (blocks : List (List R)) (hlen : ∀ b ∈ blocks, b.length = B) :
    Upc.run oo denseFdlOps denseFilterOps f0 v data () blocks
      = .ok (vec blocks.length (fun t => vec B (outF
          (macY v.rows H (fwd (fun i => blocks.flatten.getD i 0))) t))) := by
  obtain ⟨o, eo⟩ := hmk
  unfold Upc.run Upc.make
  rw [eo, bind_ok, pure_eq_ok, bind_ok]
  obtain ⟨u0, e0, u', e'⟩ := upc_run (N := v.rows) hr ho (denseFdl_law v.rows (B + 1))
    (po := denseFilterOps) (Upc.mk o (denseFdlOps.make 0 0) (FdlIndex.make 0) f0
      (denseFilterOps.accMake 0)) v data () rfl hc (H := H)
    (AR := fun acc a => acc = vec (B + 1) a)
    (fun f0 => by
      have := denseFilter_law hv f0 hH
      rw [hc] at this
      exact this) blocks hlen
  rw [e0, bind_ok, e', bind_ok]
  rfl

theorem upc_run_eq {Ov : Type} {oo : OverlapOps Ov} {B : ℕ} {fwd : (ℕ → ℝ) → ℕ → ℕ → ℂ}
    {outF : (ℕ → ℕ → ℂ) → ℕ → ℕ → ℝ} {OI : (ℕ → ℝ) → (ℕ → ℕ → ℂ) → ℕ → Ov → Prop}
    (ho : OverlapLaw oo B fwd outF OI) (hmk : ∃ o, oo.make 1 1 = .ok o) {v : MatView}
    {data : List ℂ} (hv : v.InRange data.length) (hr : 1 ≤ v.rows) (hc : v.cols = B + 1)
    {H : ℕ → ℕ → ℂ} (hH : ∀ r < v.rows, ∀ c < v.cols, matAt v data r c = H r c) (f0 : Arr2 ℂ)
    (blocks : List (List ℝ)) (hlen : ∀ b ∈ blocks, b.length = B) :
    Upc.run oo denseFdlOps denseFilterOps f0 v data () blocks
      = .ok (vec blocks.length (fun t => vec B (outF
          (specY v.rows H (fwd (streamOf blocks))) t))) := by
  rw [upc_run_gen ho hmk hv hr hc hH f0 blocks hlen, macY_eq]
  rfl

theorem ola_make_one : ∃ o, olaOps.make 1 1 = .ok o := ⟨_, overlapAdd_make_eq (B := 1) (F := 1) (by norm_num)⟩
theorem ols_make_one : ∃ o, olsOps.make 1 1 = .ok o := ⟨_, overlapSave_make_eq (B := 1) (F := 1) (by norm_num)⟩

theorem upolaRun_eq {a : ℕ} (ha : 1 ≤ a) (ha2 : a ≤ 26) {v : MatView}
    {data : List ℂ} (hv : v.InRange data.length) (hr : 1 ≤ v.rows) (hc : v.cols = 2 ^ a + 1)
    {H : ℕ → ℕ → ℂ} (hH : ∀ r < v.rows, ∀ c < v.cols, matAt v data r c = H r c)
    (blocks : List (List ℝ)) (hlen : ∀ b ∈ blocks, b.length = 2 ^ a) :
    upolaRun v data blocks = .ok (vec blocks.length (fun t => vec (2 ^ a) (olaOut (2 ^ a)
          (specY v.rows H (winSpec (2 ^ a) (seg (2 ^ a)) (streamOf blocks))) t))) :=
  upc_run_eq (ola_law ha ha2) ola_make_one hv hr hc hH _ blocks hlen

theorem upolsRun_eq {a : ℕ} (ha : 1 ≤ a) (ha2 : a ≤ 26) {v : MatView}
    {data : List ℂ} (hv : v.InRange data.length) (hr : 1 ≤ v.rows) (hc : v.cols = 2 ^ a + 1)
    {H : ℕ → ℕ → ℂ} (hH : ∀ r < v.rows, ∀ c < v.cols, matAt v data r c = H r c)
    (blocks : List (List ℝ)) (hlen : ∀ b ∈ blocks, b.length = 2 ^ a) :
    upolsRun v data blocks = .ok (vec blocks.length (fun t => vec (2 ^ a) (olsOut (2 ^ a)
          (specY v.rows H (winSpec (2 ^ a) (saveWindow (2 ^ a)) (streamOf blocks))) t))) :=
  upc_run_eq (ols_law ha ha2) ols_make_one hv hr hc hH _ blocks hlen

/-! ## Partitioned filters convolve -/

theorem specOut_specY {B N : ℕ} (w h : ℕ → ℕ → ℝ) (t : ℕ) {n : ℕ} (hn : n < 2 * B) :
    specOut (2 * B) (specY N (fun j => Spec.dft (2 * B) (fun m => (h j m : ℂ)))
        (fun t => Spec.dft (2 * B) (fun m => (w t m : ℂ))) t) n
      = ∑ j ∈ range N, if j ≤ t then Spec.circConv (2 * B) (w (t - j)) (h j) n else 0 := by
  have := specOut_sum (range N) (K := 2 * B) (fun j m => if j ≤ t then w (t - j) m else 0) h hn
  rw [show specY N (fun j => Spec.dft (2 * B) (fun m => (h j m : ℂ)))
      (fun t => Spec.dft (2 * B) (fun m => (w t m : ℂ))) t
      = fun k => ∑ i ∈ range N, Spec.dft (2 * B)
          (fun m => (((if i ≤ t then w (t - i) m else 0) : ℝ) : ℂ)) k
          * Spec.dft (2 * B) (fun m => (h i m : ℂ)) k from ?_]
  · rw [this]
    apply sum_congr rfl
    intro j _
    by_cases c : j ≤ t
    · simp only [if_pos c]
    · simp only [if_neg c]
      unfold Spec.circConv
      exact sum_eq_zero (fun _ _ => zero_mul _)
  · funext k
    unfold specY
    apply sum_congr rfl
    intro j _
    by_cases c : j ≤ t
    · simp only [if_pos c]
    · simp only [if_neg c]
      congr 1
      unfold Spec.dft
      simp

theorem ola_conv {B N : ℕ} {h : ℕ → ℝ} (hh : ∀ m, N * B ≤ m → h m = 0) (x : ℕ → ℝ) (t : ℕ) {i : ℕ}
    (hi : i < B) :
    olaOut B (specY N (fun j => Spec.dft (2 * B) (fun m => ((seg B h j m : ℝ) : ℂ)))
      (winSpec B (seg B) x)) t i = Spec.conv h x (t * B + i) := by
  unfold olaOut winSpec
  rw [conv_partition hh x t hi, specOut_specY (fun t => seg B x t) (fun j => seg B h j) t (by omega)]
  have hcc : ∀ u j n, n < 2 * B → Spec.circConv (2 * B) (seg B x u) (seg B h j) n
      = Spec.conv (seg B h j) (seg B x u) n := fun u j n hn =>
    circConv_eq_conv (fun m hm => seg_zero hm) (fun m hm => seg_zero hm) (by omega) hn
  by_cases ht : 1 ≤ t
  · rw [if_pos ht, specOut_specY (fun t => seg B x t) (fun j => seg B h j) (t - 1) (by omega),
      ← sum_add_distrib]
    apply sum_congr rfl
    intro j _
    by_cases c : j ≤ t
    · rw [if_pos c, if_pos c, segTerm_add h x j (t - j) hi, hcc _ _ _ (by omega)]
      congr 1
      by_cases c2 : 1 ≤ t - j
      · rw [if_pos (by omega), if_pos c2, hcc _ _ _ (by omega), show t - 1 - j = t - j - 1 by omega]
      · rw [if_neg (by omega), if_neg c2]
    · rw [if_neg c, if_neg c, if_neg (by omega), add_zero]
  · rw [if_neg ht, add_zero]
    apply sum_congr rfl
    intro j _
    by_cases c : j ≤ t
    · rw [if_pos c, if_pos c, segTerm_add h x j (t - j) hi, hcc _ _ _ (by omega), if_neg (by omega),
        add_zero]
    · rw [if_neg c, if_neg c]

theorem ols_conv {B N : ℕ} {h : ℕ → ℝ} (hh : ∀ m, N * B ≤ m → h m = 0) (x : ℕ → ℝ) (t : ℕ) {i : ℕ}
    (hi : i < B) :
    olsOut B (specY N (fun j => Spec.dft (2 * B) (fun m => ((seg B h j m : ℝ) : ℂ)))
      (winSpec B (saveWindow B) x)) t i = Spec.conv h x (t * B + i) := by
  unfold olsOut winSpec
  rw [conv_partition hh x t hi,
    specOut_specY (fun t => saveWindow B x t) (fun j => seg B h j) t (by omega)]
  apply sum_congr rfl
  intro j _
  by_cases c : j ≤ t
  · rw [if_pos c, if_pos c, segTerm_save rfl h x j (t - j) hi]
  · rw [if_neg c, if_neg c]

/-- The concatenated output blocks are the convolution. -/
def IsConvOf (outs blocks : List (List ℝ)) (h : ℕ → ℝ) : Prop :=
  outs.map List.length = blocks.map List.length ∧
    ∀ n < blocks.flatten.length,
      outs.flatten[n]? = some (Spec.conv h (fun i => blocks.flatten.getD i 0) n)

theorem isConvOf_vec {B : ℕ} {blocks : List (List ℝ)} {h : ℕ → ℝ} {o : ℕ → ℕ → ℝ}
    (hlen : ∀ b ∈ blocks, b.length = B)
    (ho : ∀ t, ∀ i < B, o t i = Spec.conv h (streamOf blocks) (t * B + i)) :
    IsConvOf (vec blocks.length (fun t => vec B (o t))) blocks h := by
  have hb := blocks_eq_vec (0 : ℝ) blocks hlen
  have e : vec blocks.length (fun t => vec B (o t))
      = vec blocks.length (fun t => vec B (fun i => Spec.conv h (streamOf blocks) (t * B + i))) :=
    vec_ext (fun t _ => vec_ext (fun i hi => ho t i hi))
  rw [e]
  constructor
  · rw [vec_const_len]
    conv_rhs => rw [hb]
    rw [vec_const_len]
  · intro n hn
    have hl : blocks.flatten.length = blocks.length * B := by
      conv_lhs => rw [hb, flatten_vec (g := fun i => blocks.flatten.getD i 0)]
      rw [length_vec]
    rw [flatten_vec, getElem?_vec, if_pos (by omega)]
    rfl

/-! ## `uniform_partition` -/

/-- Element `(c, i)` of a real matrix, zero beyond its end. -/
noncomputable def chanAt (v : MatView) (data : List ℝ) (c i : ℕ) : ℝ :=
  if i < v.cols then data.getD (v.idx c i) 0 else 0

theorem rd_chanAt {v : MatView} {data : List ℝ} (hv : v.InRange data.length) {c i : ℕ}
    (hc : c < v.rows) (hi : i < v.cols) : rd data (v.idx c i) = .ok (chanAt v data c i) := by
  have := hv c hc i hi
  rw [rd_ok this]
  unfold chanAt
  rw [if_pos hi, List.getD_eq_getElem?_getD, List.getElem?_eq_getElem this, Option.getD_some]

/-- `uniform_partition` for an arbitrary block size `B ≥ 1`; the transform has `2 ^ b` points. -/
theorem uniformPartition_eq {v : MatView} {data : List ℝ} (hv : v.InRange data.length) {B b : ℕ}
    (hB : 1 ≤ B) (hb : Nat.clog 2 (B * 2) = b) (hb2 : b ≤ 27) (hS : 1 ≤ v.cols)
    (hS2 : v.cols < 2 ^ 64) (hsz : v.rows * ((v.cols - 1) / B + 1) * (2 ^ b / 2 + 1) < 2 ^ 59) :
    ∃ part, uniformPartition v data B = .ok ((v.cols - 1) / B + 1, 2 ^ b / 2 + 1, part) ∧
      ∀ c < v.rows,
        (partitionView ((v.cols - 1) / B + 1) (2 ^ b / 2 + 1) c).InRange part.length ∧
        ∀ t < (v.cols - 1) / B + 1, ∀ k < 2 ^ b / 2 + 1,
          matAt (partitionView ((v.cols - 1) / B + 1) (2 ^ b / 2 + 1) c) part t k
            = Spec.dft (2 ^ b) (fun n => ((seg B (chanAt v data c) t n : ℝ) : ℂ)) k := by
  have hBle : B * 2 ≤ 2 ^ b := by
    rw [← hb]; exact Nat.le_pow_clog (by norm_num) _
  have hpow : 2 ^ b ≤ 2 ^ 27 := Nat.pow_le_pow_right (by norm_num) hb2
  have hb1 : 1 ≤ b := by
    by_contra h
    obtain rfl : b = 0 := by omega
    simp at hBle
    omega
  have hw : w64 (B * 2) = B * 2 := w64_of_lt (lt_of_le_of_lt (le_trans hBle hpow) (by norm_num))
  have hB64 : B < 2 ^ 64 := lt_of_le_of_lt (by omega : B ≤ 2 ^ 27) (by norm_num)
  unfold uniformPartition stft
  rw [hw, stftPlan_make_eq (by simpa using hb.le.trans hb2), bind_ok]
  simp only [hb]
  obtain ⟨p', g, e, hg⟩ := stft_call_eq (v := v) (data := data)
    (o := { frameSize := B, transformSize := B * 2, overlapSize := 0, window := rectangularWindow })
    hb1 (fun _ => 0) (fun _ => 0) (fun _ => 0) (chanAt v data)
    (fun c hc i hi => rd_chanAt hv hc hi) hB hB64 hS hS2
    (le_trans (min_le_right _ _) (by simp only []; omega)) (by simpa using hsz)
  simp only [Nat.sub_zero] at e hg
  rw [e, bind_ok]
  refine ⟨_, rfl, ?_⟩
  intro c hc
  set N := (v.cols - 1) / B + 1 with hN
  set m := 2 ^ b / 2 + 1 with hm
  have hidx : ∀ t k, (partitionView N m c).idx t k = (c * N + t) * m + k := by
    intro t k
    simp only [partitionView, MatView.idx]
    ring
  have hlt : ∀ t < N, ∀ k < m, (c * N + t) * m + k < v.rows * N * m := by
    intro t ht k hk
    have h1 := row_end (C := N) hc
    have h2 : (c * N + t) * m + m ≤ v.rows * N * m := row_end (C := m) (by omega)
    omega
  refine ⟨?_, ?_⟩
  · intro t ht k hk
    rw [hidx, length_vec]
    exact hlt t ht k hk
  · intro t ht k hk
    unfold matAt
    rw [hidx, getD_vec _ _ _ _ (hlt t ht k hk), hg c hc t ht k hk]
    apply dft_congr
    intro n _
    refine congrArg (fun r : ℝ => (r : ℂ)) ?_
    unfold frameSamples seg rectangularWindow
    by_cases c1 : n < B
    · by_cases c2 : t * B + n < v.cols
      · rw [if_pos ⟨c1, c2⟩, if_pos c1, mul_one]
      · rw [if_neg (fun h => c2 h.2), if_pos c1, chanAt, if_neg c2]
    · rw [if_neg (fun h => c1 h.1), if_neg c1]

theorem chanAt_support {v : MatView} {data : List ℝ} {B c : ℕ} (hB : 1 ≤ B) :
    ∀ m, ((v.cols - 1) / B + 1) * B ≤ m → chanAt v data c m = 0 := by
  intro m hm
  unfold chanAt
  rw [if_neg]
  have h1 := Nat.div_add_mod (v.cols - 1) B
  have h2 := Nat.mod_lt (v.cols - 1) hB
  have h3 : ((v.cols - 1) / B + 1) * B = B * ((v.cols - 1) / B) + B := by ring
  omega

end Neo
