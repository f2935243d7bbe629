import Verif.Lemmas.PartitionRounding
import Verif.Props.ConvRounding

/-! # C73: rounding errors of the uniformly partitioned convolvers -/

namespace Neo.Props

open Neo Finset

/-- Channel `c` of an impulse response: its samples, then zeros. -/
noncomputable def chanVal {F : Rounding} (v : MatView) (data : List (FR F)) (c i : ℕ) : ℝ :=
  if i < v.cols then valsR data (v.idx c i) else 0

private theorem valsR_getD {F : Rounding} (x : List (FR F)) (n : ℕ) : valsR x n = (x.getD n 0).val := by
  unfold valsR
  rw [List.getD_eq_getElem?_getD, List.getD_eq_getElem?_getD, List.getElem?_map]
  cases x[n]? <;> rfl

private theorem chanVal_eq {F : Rounding} (v : MatView) (data : List (FR F)) (c i : ℕ) :
    (chanAtF v data c i).val = chanVal v data c i := by
  unfold chanAtF chanVal
  split
  · rw [valsR_getD]
  · rfl

private theorem chanVal_support {F : Rounding} {v : MatView} {data : List (FR F)} {B c : ℕ} (hB : 1 ≤ B) :
    ∀ m, ((v.cols - 1) / B + 1) * B ≤ m → chanVal v data c m = 0 := by
  intro m hm
  unfold chanVal
  rw [if_neg]
  have h1 := Nat.div_add_mod (v.cols - 1) B
  have h2 := Nat.mod_lt (v.cols - 1) hB
  have h3 : ((v.cols - 1) / B + 1) * B = B * ((v.cols - 1) / B) + B := by ring
  omega

private theorem segNorm_eq (x : ℕ → ℝ) {lo hi n : ℕ} (h : hi = lo + n) :
    Spec.segNorm x lo hi = Spec.l2 n (fun i => (x (lo + i) : ℂ)) := by
  subst h
  unfold Spec.segNorm Spec.l2
  rw [sum_Ico_eq_sum_range, Nat.add_sub_cancel_left]
  congr 1
  refine sum_congr rfl fun i _ => ?_
  rw [Complex.norm_real, Real.norm_eq_abs, sq_abs]

private theorem segNorm_nonneg (x : ℕ → ℝ) (lo hi : ℕ) : 0 ≤ Spec.segNorm x lo hi := Real.sqrt_nonneg _

private theorem l2_seg {B N : ℕ} (h : B ≤ N) (x : ℕ → ℝ) (j : ℕ) :
    Spec.l2 N (fun m => ((seg B x j m : ℝ) : ℂ)) = Spec.segNorm x (j * B) ((j + 1) * B) := by
  rw [segNorm_eq x (n := B) (by ring)]
  unfold Spec.l2
  congr 1
  rw [← sum_subset (range_subset_range.2 h) (fun i _ hi => by
    rw [mem_range] at hi
    beta_reduce
    rw [seg_zero (by omega)]; simp)]
  refine sum_congr rfl fun i hi => ?_
  rw [mem_range] at hi
  beta_reduce
  rw [seg_of_lt hi]

private theorem l2_save (B : ℕ) (x : ℕ → ℝ) (s : ℕ) :
    Spec.l2 (2 * B) (fun m => ((saveWindow B x s m : ℝ) : ℂ)) = Spec.segNorm x ((s - 1) * B) ((s + 1) * B) := by
  unfold Spec.l2 Spec.segNorm
  congr 1
  have hn : ∀ r : ℝ, ‖(r : ℂ)‖ ^ 2 = r ^ 2 := fun r => by rw [Complex.norm_real, Real.norm_eq_abs, sq_abs]
  simp only [hn]
  rw [two_mul, sum_range_add]
  have h2 : ∑ i ∈ range B, saveWindow B x s (B + i) ^ 2 = ∑ i ∈ range B, x (s * B + i) ^ 2 := by
    refine sum_congr rfl fun i _ => ?_
    unfold saveWindow
    rw [if_neg (by omega), Nat.add_sub_cancel_left]
  have h3 : ∑ i ∈ Ico (s * B) ((s + 1) * B), x i ^ 2 = ∑ i ∈ range B, x (s * B + i) ^ 2 := by
    rw [sum_Ico_eq_sum_range, show (s + 1) * B - s * B = B by rw [add_mul, one_mul]; omega]
  rw [h2]
  rcases Nat.eq_zero_or_pos s with rfl | hs'
  · have z : ∑ i ∈ range B, saveWindow B x 0 i ^ 2 = 0 := by
      refine sum_eq_zero fun i hi => ?_
      rw [mem_range] at hi
      unfold saveWindow
      rw [if_pos hi, if_neg (by omega)]
      norm_num
    rw [z, ← h3, zero_add]
  · have hs : 1 ≤ s := hs'
    have hs1 : (s - 1) * B + B = s * B := by
      rw [← Nat.succ_mul]; congr 1; omega
    rw [← sum_Ico_consecutive _ (by omega : (s - 1) * B ≤ s * B) (by rw [add_mul, one_mul]; omega), h3]
    congr 1
    rw [sum_Ico_eq_sum_range, show s * B - (s - 1) * B = B by omega]
    refine sum_congr rfl fun i hi => ?_
    rw [mem_range] at hi
    unfold saveWindow
    rw [if_pos hi, if_pos hs]

private theorem l2_second_half (B : ℕ) (f : ℕ → ℂ) : Spec.l2 B (fun i => f (B + i)) ≤ Spec.l2 (2 * B) f := by
  unfold Spec.l2
  apply Real.sqrt_le_sqrt
  rw [two_mul, sum_range_add]
  have : 0 ≤ ∑ i ∈ range B, ‖f i‖ ^ 2 := sum_nonneg fun _ _ => by positivity
  linarith

private theorem seg_val {F : Rounding} (B : ℕ) (x : ℕ → FR F) (s k : ℕ) :
    (seg B x s k).val = seg B (fun i => (x i).val) s k := by
  unfold seg; split <;> rfl

private theorem save_val {F : Rounding} (B : ℕ) (x : ℕ → FR F) (s k : ℕ) :
    (saveWindow B x s k).val = saveWindow B (fun i => (x i).val) s k := by
  unfold saveWindow
  split
  · split <;> rfl
  · rfl

/-- The bound of the step with number `t`: sum over the partitions of (norm of the input window of step `t - j`) ×
(norm of segment `j` of the impulse response). -/
noncomputable def stepSum (w : ℕ → ℝ) (h : ℕ → ℝ) (B N t : ℕ) : ℝ :=
  ∑ j ∈ range N, if j ≤ t then w (t - j) * Spec.segNorm h (j * B) ((j + 1) * B) else 0

private theorem sqrt_pow (b : ℕ) : Real.sqrt (2 ^ b) = Real.sqrt 2 ^ b := by
  rw [Real.sqrt_eq_iff_mul_self_eq (by positivity) (by positivity), ← mul_pow, Real.mul_self_sqrt (by norm_num)]

/-- Error of the samples of one inverse transform, in terms of the window function. -/
private theorem step_err {F : Rounding} {a N : ℕ} {H : ℕ → ℕ → FC F} {h : ℕ → ℝ}
    (hH : SpectraOf F (a + 1) N (1 + F.u) H (seg (2 ^ a) h)) (w : ℕ → ℕ → FR F) (wr : ℕ → ℕ → ℝ)
    (hw : ∀ s m, (w s m).val = wr s m) (W : ℕ → ℝ)
    (hW : ∀ s, Spec.l2 (2 ^ (a + 1)) (fun m => (wr s m : ℂ)) = W s) (t : ℕ) :
    Spec.l2 (2 ^ (a + 1)) (fun n => ((specOutF F (a + 1) (macY N H (fun t => rfftFn F (a + 1) (w t)) t) n).val : ℂ)
        - ((∑ j ∈ range N, if j ≤ t then Spec.circConv (2 ^ (a + 1)) (wr (t - j)) (seg (2 ^ a) h j) n else 0 : ℝ) : ℂ))
      ≤ Spec.partGain F.u F.ε (a + 1) N * (Real.sqrt (2 ^ (a + 1)) * stepSum W h (2 ^ a) N t) := by
  have hu := F.u_nonneg
  have k := macY_err (by omega : 1 ≤ a + 1) (by linarith : 1 ≤ 1 + F.u) hH w t
  rw [← sqrt_pow] at k
  have e : (∑ j ∈ range N, if j ≤ t then
      Spec.l2 (2 ^ (a + 1)) (fun m => ((w (t - j) m).val : ℂ))
        * Spec.l2 (2 ^ (a + 1)) (fun m => ((seg (2 ^ a) h j m : ℝ) : ℂ)) else 0) = stepSum W h (2 ^ a) N t := by
    unfold stepSum
    refine sum_congr rfl fun j _ => ?_
    rw [l2_seg (Nat.pow_le_pow_right (by norm_num) (Nat.le_succ a))]
    simp only [hw, hW]
  rw [e] at k
  simp only [hw] at k
  exact k

private theorem sum_save {a N : ℕ} {h : ℕ → ℝ} (hh : ∀ m, N * 2 ^ a ≤ m → h m = 0) (x : ℕ → ℝ) (t : ℕ) {i : ℕ}
    (hi : i < 2 ^ a) :
    (∑ j ∈ range N, if j ≤ t then
      Spec.circConv (2 ^ (a + 1)) (saveWindow (2 ^ a) x (t - j)) (seg (2 ^ a) h j) (2 ^ a + i) else 0)
      = Spec.conv h x (t * 2 ^ a + i) := by
  have := ols_conv hh x t hi
  unfold olsOut winSpec at this
  rw [specOut_specY (fun t => saveWindow (2 ^ a) x t) (fun j => seg (2 ^ a) h j) t (by omega)] at this
  rw [← this, ← two_mul_pow]

private theorem sum_add {a N : ℕ} {h : ℕ → ℝ} (hh : ∀ m, N * 2 ^ a ≤ m → h m = 0) (x : ℕ → ℝ) (t : ℕ) {i : ℕ}
    (hi : i < 2 ^ a) :
    (∑ j ∈ range N, if j ≤ t then
      Spec.circConv (2 ^ (a + 1)) (seg (2 ^ a) x (t - j)) (seg (2 ^ a) h j) i else 0)
      + (if 1 ≤ t then ∑ j ∈ range N, if j ≤ t - 1 then
          Spec.circConv (2 ^ (a + 1)) (seg (2 ^ a) x (t - 1 - j)) (seg (2 ^ a) h j) (2 ^ a + i) else 0 else 0)
      = Spec.conv h x (t * 2 ^ a + i) := by
  have := ola_conv hh x t hi
  unfold olaOut winSpec at this
  rw [specOut_specY (fun t => seg (2 ^ a) x t) (fun j => seg (2 ^ a) h j) t (by omega),
    specOut_specY (fun t => seg (2 ^ a) x t) (fun j => seg (2 ^ a) h j) (t - 1) (by omega)] at this
  rw [← this, ← two_mul_pow]

private theorem outs_val {F : Rounding} {B : ℕ} (T : ℕ) (o : ℕ → ℕ → FR F) {t i : ℕ} (ht : t < T) (hi : i < B) :
    valsR (vec T (fun t => vec B (o t))).flatten (t * B + i) = (o t i).val := by
  have e : vec T (fun t => vec B (o t)) = vec T (fun t => vec B (fun i =>
      (fun n => o (n / B) (n % B)) (t * B + i))) :=
    vec_ext fun t _ => vec_ext fun i hi => by beta_reduce; rw [mul_add_div' hi, mul_add_mod' hi]
  have hlt : t * B + i < T * B := by
    have := row_end (C := B) ht
    omega
  rw [e, flatten_vec (B := B) T (fun n => o (n / B) (n % B)), valsR_getD, getD_vec _ _ _ _ hlt, mul_add_div' hi,
    mul_add_mod' hi]

private theorem lengths {F : Rounding} {B : ℕ} {blocks : List (List (FR F))} (hb : ∀ b ∈ blocks, b.length = B)
    (o : ℕ → ℕ → FR F) : (vec blocks.length (fun t => vec B (o t))).map List.length = blocks.map List.length := by
  have h := blocks_eq_vec (0 : FR F) blocks hb
  rw [vec_const_len]
  conv_rhs => rw [h]
  rw [vec_const_len]

/-- **C73** (overlap-save).  An impulse response is partitioned with `uniform_partition(h, B)`, `B = 2 ^ a`, and
loaded into a fresh `upols_convolver`, everything in rounded arithmetic.  For every list of `B`-sample blocks, of any
number, the convolver returns blocks of the same lengths, and in every block `t` the distance to the exact
convolution is at most `partGain · √(2B) · ∑ⱼ ‖x‖(t - j) ‖h‖(j)`, where `‖h‖(j)` is the norm of segment `j` of the
impulse response and `‖x‖(s)` the norm of the input of the blocks `s - 1` and `s`.  The bound only depends on the last
`N + 1` input blocks: errors do not accumulate over time. -/
theorem C73_upols (F : Rounding) (v : MatView) (data : List (FR F)) (hv : v.InRange data.length) (a : ℕ) (ha : 1 ≤ a)
    (ha2 : a ≤ 26) (hS : 1 ≤ v.cols) (hS2 : v.cols < 2 ^ 64)
    (hsz : v.rows * ((v.cols - 1) / 2 ^ a + 1) * (2 ^ a + 1) < 2 ^ 59) :
    ∃ N bins part, uniformPartitionF v data (2 ^ a) = .ok (N, bins, part) ∧ N = (v.cols - 1) / 2 ^ a + 1 ∧
      ∀ c < v.rows, ∀ blocks : List (List (FR F)), (∀ b ∈ blocks, b.length = 2 ^ a) →
        ∃ outs, upolsRunF (partitionView N bins c) part blocks = .ok outs ∧
          outs.map List.length = blocks.map List.length ∧
          ∀ t < blocks.length,
            Spec.segNorm (fun n => valsR outs.flatten n - Spec.conv (chanVal v data c) (valsR blocks.flatten) n)
                (t * 2 ^ a) ((t + 1) * 2 ^ a)
              ≤ Spec.partGain F.u F.ε (a + 1) N * (Real.sqrt (2 ^ (a + 1)) * ∑ j ∈ range N, if j ≤ t then
                  Spec.segNorm (valsR blocks.flatten) ((t - j - 1) * 2 ^ a) ((t - j + 1) * 2 ^ a)
                    * Spec.segNorm (chanVal v data c) (j * 2 ^ a) ((j + 1) * 2 ^ a) else 0) := by
  have hcl : Nat.clog 2 (2 ^ a * 2) = a + 1 := by rw [← pow_succ, Nat.clog_pow 2 _ (by norm_num)]
  obtain ⟨part, e, hp⟩ := uniformPartitionF_eq hv Nat.one_le_two_pow hcl (by omega) hS hS2
    (by rw [two_pow_half]; exact hsz)
  rw [two_pow_half] at e hp
  refine ⟨_, _, part, e, rfl, ?_⟩
  intro c hc blocks hb
  obtain ⟨hr, hd⟩ := hp c hc
  have hH := spectraOf_partition (by omega : 1 ≤ a + 1) (chanAtF v data c)
    (fun t ht k hk => hd t ht k (by rwa [two_pow_half] at hk))
  simp only [chanVal_eq] at hH
  set N := (v.cols - 1) / 2 ^ a + 1 with hN
  refine ⟨_, upolsRunF_eq (v := partitionView N (2 ^ a + 1) c) ha ha2 hr (Nat.le_add_left 1 _) rfl blocks hb,
    lengths hb _, ?_⟩
  intro t ht
  have hx : valsR blocks.flatten = fun i => (blocks.flatten.getD i 0).val := funext fun i => valsR_getD _ _
  have k := step_err hH (saveWindow (2 ^ a) (fun i => blocks.flatten.getD i 0))
    (saveWindow (2 ^ a) (valsR blocks.flatten)) (fun s m => by rw [save_val, hx])
    (fun s => Spec.segNorm (valsR blocks.flatten) ((s - 1) * 2 ^ a) ((s + 1) * 2 ^ a))
    (fun s => by rw [← two_mul_pow, l2_save]) t
  refine le_trans ?_ k
  rw [segNorm_eq _ (n := 2 ^ a) (by ring), ← two_mul_pow]
  refine le_trans (le_of_eq ?_) (l2_second_half _ _)
  apply l2_congr
  intro i hi
  rw [outs_val _ _ ht hi, two_mul_pow, sum_save (chanVal_support Nat.one_le_two_pow) _ t hi, Complex.ofReal_sub]
  rfl

/-- **C73** (overlap-add): as for overlap-save; a block is the rounded sum of the first half of its own transform and
the second half of the previous one, and `‖x‖(s)` is the norm of block `s`. -/
theorem C73_upola (F : Rounding) (v : MatView) (data : List (FR F)) (hv : v.InRange data.length) (a : ℕ) (ha : 1 ≤ a)
    (ha2 : a ≤ 26) (hS : 1 ≤ v.cols) (hS2 : v.cols < 2 ^ 64)
    (hsz : v.rows * ((v.cols - 1) / 2 ^ a + 1) * (2 ^ a + 1) < 2 ^ 59) :
    ∃ N bins part, uniformPartitionF v data (2 ^ a) = .ok (N, bins, part) ∧ N = (v.cols - 1) / 2 ^ a + 1 ∧
      ∀ c < v.rows, ∀ blocks : List (List (FR F)), (∀ b ∈ blocks, b.length = 2 ^ a) →
        ∃ outs, upolaRunF (partitionView N bins c) part blocks = .ok outs ∧
          outs.map List.length = blocks.map List.length ∧
          ∀ t < blocks.length,
            Spec.segNorm (fun n => valsR outs.flatten n - Spec.conv (chanVal v data c) (valsR blocks.flatten) n)
                (t * 2 ^ a) ((t + 1) * 2 ^ a)
              ≤ (1 + F.u) * (Spec.partGain F.u F.ε (a + 1) N * (Real.sqrt (2 ^ (a + 1)) *
                  ((∑ j ∈ range N, if j ≤ t then
                      Spec.segNorm (valsR blocks.flatten) ((t - j) * 2 ^ a) ((t - j + 1) * 2 ^ a)
                        * Spec.segNorm (chanVal v data c) (j * 2 ^ a) ((j + 1) * 2 ^ a) else 0)
                    + ∑ j ∈ range N, if j + 1 ≤ t then
                      Spec.segNorm (valsR blocks.flatten) ((t - 1 - j) * 2 ^ a) ((t - 1 - j + 1) * 2 ^ a)
                        * Spec.segNorm (chanVal v data c) (j * 2 ^ a) ((j + 1) * 2 ^ a) else 0)))
                + F.u * Spec.segNorm (Spec.conv (chanVal v data c) (valsR blocks.flatten))
                    (t * 2 ^ a) ((t + 1) * 2 ^ a) := by
  have hu := F.u_nonneg
  have hcl : Nat.clog 2 (2 ^ a * 2) = a + 1 := by rw [← pow_succ, Nat.clog_pow 2 _ (by norm_num)]
  obtain ⟨part, e, hp⟩ := uniformPartitionF_eq hv Nat.one_le_two_pow hcl (by omega) hS hS2
    (by rw [two_pow_half]; exact hsz)
  rw [two_pow_half] at e hp
  refine ⟨_, _, part, e, rfl, ?_⟩
  intro c hc blocks hb
  obtain ⟨hr, hd⟩ := hp c hc
  have hH := spectraOf_partition (by omega : 1 ≤ a + 1) (chanAtF v data c)
    (fun t ht k hk => hd t ht k (by rwa [two_pow_half] at hk))
  simp only [chanVal_eq] at hH
  set N := (v.cols - 1) / 2 ^ a + 1 with hN
  refine ⟨_, upolaRunF_eq (v := partitionView N (2 ^ a + 1) c) ha ha2 hr (Nat.le_add_left 1 _) rfl blocks hb,
    lengths hb _, ?_⟩
  intro t ht
  have hx : valsR blocks.flatten = fun i => (blocks.flatten.getD i 0).val := funext fun i => valsR_getD _ _
  set x := valsR blocks.flatten with hxd
  set h := chanVal v data c with hhd
  have k := step_err hH (seg (2 ^ a) (fun i => blocks.flatten.getD i 0))
    (seg (2 ^ a) x) (fun s m => by rw [seg_val, hx])
    (fun s => Spec.segNorm x (s * 2 ^ a) ((s + 1) * 2 ^ a))
    (fun s => l2_seg (Nat.pow_le_pow_right (by norm_num) (Nat.le_succ a)) _ _)
  set Y := macY N (matAt (partitionView N (2 ^ a + 1) c) part)
    (winSpecF F a (seg (2 ^ a)) (fun i => blocks.flatten.getD i 0)) with hY
  set C := fun (t n : ℕ) => (∑ j ∈ range N, if j ≤ t then
    Spec.circConv (2 ^ (a + 1)) (seg (2 ^ a) x (t - j)) (seg (2 ^ a) h j) n else 0 : ℝ) with hC
  set e1 : ℕ → ℂ := fun i => ((specOutF F (a + 1) (Y t) i).val : ℂ) - (C t i : ℂ) with he1
  set e2 : ℕ → ℂ := fun i => if 1 ≤ t then
    ((specOutF F (a + 1) (Y (t - 1)) (2 ^ a + i)).val : ℂ) - (C (t - 1) (2 ^ a + i) : ℂ) else 0 with he2
  set G := Spec.partGain F.u F.ε (a + 1) N with hG
  set W := fun s => Spec.segNorm x (s * 2 ^ a) ((s + 1) * 2 ^ a) with hW
  have b1 : Spec.l2 (2 ^ a) e1 ≤ G * (Real.sqrt (2 ^ (a + 1)) * stepSum W h (2 ^ a) N t) :=
    (l2_le_range (Nat.pow_le_pow_right (by norm_num) (Nat.le_succ a)) _).trans (k t)
  have b2 : Spec.l2 (2 ^ a) e2 ≤ G * (Real.sqrt (2 ^ (a + 1)) * ∑ j ∈ range N, if j + 1 ≤ t then
      W (t - 1 - j) * Spec.segNorm h (j * 2 ^ a) ((j + 1) * 2 ^ a) else 0) := by
    rcases Nat.lt_or_ge t 1 with h0 | h0
    · obtain rfl : t = 0 := by omega
      have z : ∀ M, Spec.l2 M (fun _ => (0 : ℂ)) = 0 := fun M => by simp [Spec.l2]
      rw [he2]
      simp [z]
    · have k' := k (t - 1)
      have e3 : stepSum W h (2 ^ a) N (t - 1) = ∑ j ∈ range N, if j + 1 ≤ t then
          W (t - 1 - j) * Spec.segNorm h (j * 2 ^ a) ((j + 1) * 2 ^ a) else 0 := by
        unfold stepSum
        refine sum_congr rfl fun j _ => ?_
        by_cases c : j + 1 ≤ t
        · rw [if_pos c, if_pos (by omega)]
        · rw [if_neg c, if_neg (by omega)]
      rw [e3] at k'
      refine le_trans ?_ k'
      simp only [he2, if_pos h0]
      have := l2_second_half (2 ^ a)
        (fun i => ((specOutF F (a + 1) (Y (t - 1)) i).val : ℂ) - (C (t - 1) i : ℂ))
      rw [two_mul_pow] at this
      exact this
  rw [segNorm_eq _ (n := 2 ^ a) (by ring), segNorm_eq _ (n := 2 ^ a) (by ring)]
  set z : ℕ → ℂ := fun i => ((Spec.conv h x (t * 2 ^ a + i) : ℝ) : ℂ) with hz
  have pt : ∀ i < 2 ^ a, ‖((valsR (vec blocks.length (fun t => vec (2 ^ a) (olaOutF F a Y t))).flatten (t * 2 ^ a + i)
      - Spec.conv h x (t * 2 ^ a + i) : ℝ) : ℂ)‖
      ≤ ‖(((1 + F.u) * (‖e1 i‖ + ‖e2 i‖) + F.u * ‖z i‖ : ℝ) : ℂ)‖ := by
    intro i hi
    rw [outs_val _ _ ht hi]
    have hs := sum_add (chanVal_support (v := v) (data := data) (c := c) Nat.one_le_two_pow) x t hi
    rw [← hN] at hs
    have nn : 0 ≤ (1 + F.u) * (‖e1 i‖ + ‖e2 i‖) + F.u * ‖z i‖ := by positivity
    rw [Complex.norm_real, Complex.norm_real, Real.norm_eq_abs, Real.norm_eq_abs, abs_of_nonneg nn]
    set P : ℝ := (specOutF F (a + 1) (Y t) i).val with hP
    set Q : ℝ := if 1 ≤ t then (specOutF F (a + 1) (Y (t - 1)) (2 ^ a + i)).val else 0 with hQ
    have ho : (olaOutF F a Y t i).val = F.rnd (P + Q) := by
      rw [hP, hQ]
      unfold olaOutF
      by_cases c : 1 ≤ t
      · rw [if_pos c, if_pos c]; rfl
      · rw [if_neg c, if_neg c]; rfl
    set c1 := C t i with hc1
    set c2 : ℝ := if 1 ≤ t then C (t - 1) (2 ^ a + i) else 0 with hc2
    have hs' : c1 + c2 = Spec.conv h x (t * 2 ^ a + i) := hs
    have n1 : ‖e1 i‖ = |P - c1| := by
      rw [he1]
      beta_reduce
      rw [← Complex.ofReal_sub, Complex.norm_real, Real.norm_eq_abs]
    have n2 : ‖e2 i‖ = |Q - c2| := by
      rw [he2, hQ, hc2]
      beta_reduce
      by_cases c : 1 ≤ t
      · rw [if_pos c, if_pos c, if_pos c, ← Complex.ofReal_sub, Complex.norm_real, Real.norm_eq_abs]
      · rw [if_neg c, if_neg c, if_neg c]; simp
    have n3 : ‖z i‖ = |c1 + c2| := by
      rw [hz, hs']
      beta_reduce
      rw [Complex.norm_real, Real.norm_eq_abs]
    rw [ho, n1, n2, n3, ← hs']
    have r1 := F.rnd_err (P + Q)
    have r2 : |P + Q - (c1 + c2)| ≤ |P - c1| + |Q - c2| := by
      rw [show P + Q - (c1 + c2) = (P - c1) + (Q - c2) by ring]
      exact abs_add_le _ _
    have r3 : |P + Q| ≤ |P + Q - (c1 + c2)| + |c1 + c2| := by
      have := abs_add_le (P + Q - (c1 + c2)) (c1 + c2)
      rwa [sub_add_cancel] at this
    have r4 : |F.rnd (P + Q) - (c1 + c2)| ≤ |F.rnd (P + Q) - (P + Q)| + |P + Q - (c1 + c2)| := abs_sub_le _ _ _
    nlinarith
  refine (l2_mono pt).trans ?_
  have t1 : Spec.l2 (2 ^ a) (fun i => (((1 + F.u) * (‖e1 i‖ + ‖e2 i‖) + F.u * ‖z i‖ : ℝ) : ℂ))
      ≤ (1 + F.u) * (Spec.l2 (2 ^ a) e1 + Spec.l2 (2 ^ a) e2) + F.u * Spec.l2 (2 ^ a) z := by
    have q1 : Spec.l2 (2 ^ a) (fun i => (‖e1 i‖ : ℂ) + (‖e2 i‖ : ℂ)) ≤ Spec.l2 (2 ^ a) e1 + Spec.l2 (2 ^ a) e2 := by
      refine (l2_add_le _ _ _).trans ?_
      rw [l2_norm, l2_norm]
    have q2 : Spec.l2 (2 ^ a) (fun i => ((1 + F.u : ℝ) : ℂ) * ((‖e1 i‖ : ℂ) + (‖e2 i‖ : ℂ)))
        ≤ (1 + F.u) * (Spec.l2 (2 ^ a) e1 + Spec.l2 (2 ^ a) e2) := by
      rw [l2_smul, Complex.norm_real, Real.norm_eq_abs, abs_of_nonneg (by linarith)]
      exact mul_le_mul_of_nonneg_left q1 (by linarith)
    have q3 : Spec.l2 (2 ^ a) (fun i => (F.u : ℂ) * (‖z i‖ : ℂ)) = F.u * Spec.l2 (2 ^ a) z := by
      rw [l2_smul, Complex.norm_real, Real.norm_eq_abs, abs_of_nonneg hu, l2_norm]
    rw [l2_congr (g := fun i => ((1 + F.u : ℝ) : ℂ) * ((‖e1 i‖ : ℂ) + (‖e2 i‖ : ℂ)) + (F.u : ℂ) * (‖z i‖ : ℂ))
      (fun i _ => by push_cast; ring)]
    refine (l2_add_le _ _ _).trans ?_
    rw [q3]
    linarith
  refine t1.trans ?_
  have t2 : Spec.l2 (2 ^ a) e1 + Spec.l2 (2 ^ a) e2 ≤ G * (Real.sqrt (2 ^ (a + 1)) * (stepSum W h (2 ^ a) N t
      + ∑ j ∈ range N, if j + 1 ≤ t then W (t - 1 - j) * Spec.segNorm h (j * 2 ^ a) ((j + 1) * 2 ^ a) else 0)) := by
    rw [mul_add, mul_add]
    exact add_le_add b1 b2
  have t3 := mul_le_mul_of_nonneg_left t2 (by linarith : 0 ≤ 1 + F.u)
  exact add_le_add t3 le_rfl

/-- The constant of C73 for a unit roundoff of at most `2^-20` and `cos`/`sin` accurate to `2u`: it grows with the
number of stages and the number of partitions, not with the number of blocks. -/
theorem C73_gain (F : Rounding) (hu : F.u ≤ 2⁻¹ ^ 20) (hε : F.ε ≤ 2 * F.u) {b N : ℕ} (h1 : 1 ≤ b) (h2 : b ≤ 27)
    (hN : (2 * N + 6) * F.u ≤ 0.01) :
    Spec.partGain F.u F.ε b N ≤ (130 * b + 4 * N + 12) * F.u := by
  have hu0 := F.u_nonneg
  have hu6 : F.u ≤ 0.000001 := hu.trans (by norm_num)
  have hN0 : (0 : ℝ) ≤ N := Nat.cast_nonneg _
  have s2 : Real.sqrt 2 ≤ 1.4143 := Real.sqrt_le_iff.2 ⟨by norm_num, by norm_num⟩
  have s20 := Real.sqrt_nonneg 2
  have hv0 : 0 ≤ Real.sqrt 2 * (2 * F.u + F.u ^ 2) := by positivity
  have hv : Real.sqrt 2 * (2 * F.u + F.u ^ 2) ≤ 3 * F.u := by
    have : 2 * F.u + F.u ^ 2 ≤ 2.001 * F.u := by nlinarith
    have := mul_le_mul s2 this (by positivity) (by norm_num)
    linarith
  have hp := pow_sub_one_le hu0 (n := N + 1) (by push_cast; nlinarith)
  push_cast at hp
  have hp1 : 1 ≤ (1 + F.u) ^ (N + 1) := one_le_pow₀ (by linarith)
  have e : (1 + F.u) * Spec.macGain F.u N = (1 + F.u) ^ (N + 1) * (1 + Real.sqrt 2 * (2 * F.u + F.u ^ 2)) := by
    unfold Spec.macGain
    rw [pow_succ]
    ring
  have key := spectralGain_le F hu hε h1 h2 (Q := (1 + F.u) * Spec.macGain F.u N) (m := 2 * N + 6)
    (by
      rw [e]
      exact one_le_mul_of_one_le_of_one_le hp1 (by linarith))
    (by
      rw [e]
      have : (1 + F.u) ^ (N + 1) * (1 + Real.sqrt 2 * (2 * F.u + F.u ^ 2))
          ≤ (1 + 2 * ((N + 1) * F.u)) * (1 + 3 * F.u) :=
        mul_le_mul (by linarith) (by linarith) (by linarith) (by nlinarith)
      nlinarith)
    (by linarith) hN
  unfold Spec.partGain
  refine key.trans (le_of_eq ?_)
  ring

/-- **C73**, no drift: for an input with samples in `[-1, 1]` every output sample of `upols_convolver`, however long
the stream, differs from the exact convolution by at most
`(130 (a+1) + 4 N + 12) u · 2B · ∑ⱼ ‖h‖(j)`. -/
theorem C73_no_drift (F : Rounding) (hu : F.u ≤ 2⁻¹ ^ 20) (hε : F.ε ≤ 2 * F.u) (v : MatView) (data : List (FR F))
    (hv : v.InRange data.length) (a : ℕ) (ha : 1 ≤ a) (ha2 : a ≤ 26) (hS : 1 ≤ v.cols) (hS2 : v.cols < 2 ^ 64)
    (hsz : v.rows * ((v.cols - 1) / 2 ^ a + 1) * (2 ^ a + 1) < 2 ^ 59)
    (hN : (2 * (((v.cols - 1) / 2 ^ a + 1 : ℕ) : ℝ) + 6) * F.u ≤ 0.01) :
    ∃ N bins part, uniformPartitionF v data (2 ^ a) = .ok (N, bins, part) ∧ N = (v.cols - 1) / 2 ^ a + 1 ∧
      ∀ c < v.rows, ∀ blocks : List (List (FR F)), (∀ b ∈ blocks, b.length = 2 ^ a) →
        (∀ b ∈ blocks, ∀ s ∈ b, |s.val| ≤ 1) →
        ∃ outs, upolsRunF (partitionView N bins c) part blocks = .ok outs ∧
          outs.flatten.length = blocks.flatten.length ∧
          ∀ n < blocks.flatten.length,
            |valsR outs.flatten n - Spec.conv (chanVal v data c) (valsR blocks.flatten) n|
              ≤ (130 * (a + 1) + 4 * N + 12) * F.u * (2 ^ (a + 1)
                  * ∑ j ∈ range N, Spec.segNorm (chanVal v data c) (j * 2 ^ a) ((j + 1) * 2 ^ a)) := by
  obtain ⟨N, bins, part, e, hNe, h⟩ := C73_upols F v data hv a ha ha2 hS hS2 hsz
  refine ⟨N, bins, part, e, hNe, ?_⟩
  intro c hc blocks hb hx
  obtain ⟨outs, eo, hl, k⟩ := h c hc blocks hb
  have hfl : outs.flatten.length = blocks.flatten.length := by rw [List.length_flatten, List.length_flatten, hl]
  refine ⟨outs, eo, hfl, ?_⟩
  intro n hn
  have hlen : blocks.flatten.length = blocks.length * 2 ^ a := by
    conv_lhs => rw [blocks_eq_vec (0 : FR F) blocks hb, flatten_vec (g := fun i => blocks.flatten.getD i 0)]
    rw [length_vec]
  have hx1 : ∀ i, |valsR blocks.flatten i| ≤ 1 := by
    intro i
    rw [valsR_getD, List.getD_eq_getElem?_getD]
    rcases hg : blocks.flatten[i]? with _ | s
    · simp only [Option.getD_none]
      show |(0 : ℝ)| ≤ 1
      simp
    · obtain ⟨b, hb1, hb2⟩ := List.mem_flatten.1 (List.mem_of_getElem? hg)
      exact hx b hb1 s hb2
  have hB : 0 < 2 ^ a := by positivity
  have ht : n / 2 ^ a < blocks.length := by
    rw [Nat.div_lt_iff_lt_mul hB]; omega
  have hk := k _ ht
  set G := Spec.partGain F.u F.ε (a + 1) N with hG
  set t := n / 2 ^ a with htd
  have s1 : |valsR outs.flatten n - Spec.conv (chanVal v data c) (valsR blocks.flatten) n|
      ≤ Spec.segNorm (fun n => valsR outs.flatten n - Spec.conv (chanVal v data c) (valsR blocks.flatten) n)
                (t * 2 ^ a) ((t + 1) * 2 ^ a) := by
    unfold Spec.segNorm
    apply Real.abs_le_sqrt
    have hm : n ∈ Ico (t * 2 ^ a) ((t + 1) * 2 ^ a) := by
      have h1 := Nat.div_add_mod n (2 ^ a)
      rw [← htd] at h1
      have h2 := Nat.mod_lt n hB
      have h3 : (t + 1) * 2 ^ a = 2 ^ a * t + 2 ^ a := by ring
      rw [mem_Ico, h3, mul_comm t]
      omega
    exact single_le_sum (f := fun n => (valsR outs.flatten n
      - Spec.conv (chanVal v data c) (valsR blocks.flatten) n) ^ 2) (fun _ _ => sq_nonneg _) hm
  have s2 : ∀ s, Spec.segNorm (valsR blocks.flatten) ((s - 1) * 2 ^ a) ((s + 1) * 2 ^ a) ≤ Real.sqrt (2 ^ (a + 1)) := by
    intro s
    unfold Spec.segNorm
    apply Real.sqrt_le_sqrt
    have : ∑ n ∈ Ico ((s - 1) * 2 ^ a) ((s + 1) * 2 ^ a), valsR blocks.flatten n ^ 2
        ≤ ∑ _n ∈ Ico ((s - 1) * 2 ^ a) ((s + 1) * 2 ^ a), (1 : ℝ) :=
      sum_le_sum fun i _ => by
        have := hx1 i
        rw [← sq_abs]
        exact pow_le_one₀ (abs_nonneg _) this
    refine this.trans ?_
    rw [sum_const, nsmul_eq_mul, mul_one, Nat.card_Ico]
    have h4 : (s + 1) * 2 ^ a - (s - 1) * 2 ^ a ≤ 2 ^ (a + 1) := by
      rw [← Nat.sub_mul, pow_succ, mul_comm (2 ^ a) 2]
      exact Nat.mul_le_mul_right _ (by omega)
    exact_mod_cast h4
  have s3 : (∑ j ∈ range N, if j ≤ t then
      Spec.segNorm (valsR blocks.flatten) ((t - j - 1) * 2 ^ a) ((t - j + 1) * 2 ^ a)
        * Spec.segNorm (chanVal v data c) (j * 2 ^ a) ((j + 1) * 2 ^ a) else 0)
      ≤ Real.sqrt (2 ^ (a + 1)) * ∑ j ∈ range N, Spec.segNorm (chanVal v data c) (j * 2 ^ a) ((j + 1) * 2 ^ a) := by
    rw [mul_sum]
    refine sum_le_sum fun j _ => ?_
    split
    · exact mul_le_mul_of_nonneg_right (s2 _) (segNorm_nonneg _ _ _)
    · exact mul_nonneg (Real.sqrt_nonneg _) (segNorm_nonneg _ _ _)
  have s4 : Real.sqrt (2 ^ (a + 1)) * (∑ j ∈ range N, if j ≤ t then
      Spec.segNorm (valsR blocks.flatten) ((t - j - 1) * 2 ^ a) ((t - j + 1) * 2 ^ a)
        * Spec.segNorm (chanVal v data c) (j * 2 ^ a) ((j + 1) * 2 ^ a) else 0)
      ≤ 2 ^ (a + 1) * ∑ j ∈ range N, Spec.segNorm (chanVal v data c) (j * 2 ^ a) ((j + 1) * 2 ^ a) := by
    refine (mul_le_mul_of_nonneg_left s3 (Real.sqrt_nonneg _)).trans (le_of_eq ?_)
    rw [← mul_assoc, Real.mul_self_sqrt (by positivity)]
  have hg := C73_gain F hu hε (b := a + 1) (N := N) (by omega) (by omega) (by rw [hNe]; exact hN)
  have s0 : 0 ≤ ∑ j ∈ range N, if j ≤ t then
      Spec.segNorm (valsR blocks.flatten) ((t - j - 1) * 2 ^ a) ((t - j + 1) * 2 ^ a)
        * Spec.segNorm (chanVal v data c) (j * 2 ^ a) ((j + 1) * 2 ^ a) else 0 :=
    sum_nonneg fun j _ => by
      split
      · exact mul_nonneg (segNorm_nonneg _ _ _) (segNorm_nonneg _ _ _)
      · exact le_rfl
  have hu0 := F.u_nonneg
  push_cast at hg
  refine s1.trans (hk.trans ?_)
  exact mul_le_mul hg s4 (mul_nonneg (Real.sqrt_nonneg _) s0) (by positivity)

/-- A two-channel impulse response of a second at 44.1 kHz in single precision, blocks of 512 samples: 87 partitions;
every output sample for a full-scale input is accurate to `0.11 ∑ⱼ ‖h‖(j)`, and the hypotheses are met. -/
example (data : List (FR binary32)) (hd : data.length = 88200) :
    ∃ N bins part, uniformPartitionF (MatView.right 2 44100) data (2 ^ 9) = .ok (N, bins, part) ∧ N = 87 ∧
      ∀ c < 2, ∀ blocks : List (List (FR binary32)), (∀ b ∈ blocks, b.length = 2 ^ 9) →
        (∀ b ∈ blocks, ∀ s ∈ b, |s.val| ≤ 1) →
        ∃ outs, upolsRunF (partitionView N bins c) part blocks = .ok outs ∧
          ∀ n < blocks.flatten.length,
            |valsR outs.flatten n - Spec.conv (chanVal (MatView.right 2 44100) data c) (valsR blocks.flatten) n|
              ≤ 0.11 * ∑ j ∈ range 87, Spec.segNorm (chanVal (MatView.right 2 44100) data c) (j * 2 ^ 9)
                  ((j + 1) * 2 ^ 9) := by
  have hr : (MatView.right 2 44100).InRange data.length := by
    intro r hr c hc
    simp only [MatView.right, MatView.idx] at *
    omega
  have hc : (MatView.right 2 44100).cols = 44100 := rfl
  have hr2 : (MatView.right 2 44100).rows = 2 := rfl
  have hu : binary32.u = 2⁻¹ ^ 24 := rfl
  obtain ⟨N, bins, part, e, hN, h⟩ := C73_no_drift binary32 (by rw [hu]; norm_num)
    (by show (2⁻¹ : ℝ) ^ 24 ≤ 2 * 2⁻¹ ^ 24; norm_num) (MatView.right 2 44100) data hr 9 (by norm_num) (by norm_num)
    (by rw [hc]; norm_num) (by rw [hc]; norm_num) (by rw [hc, hr2]; norm_num) (by rw [hc, hu]; norm_num)
  rw [hc] at hN
  norm_num only at hN
  subst hN
  refine ⟨87, bins, part, e, rfl, ?_⟩
  intro c hc2 blocks hb hx
  obtain ⟨outs, eo, _, k⟩ := h c hc2 blocks hb hx
  refine ⟨outs, eo, fun n hn => (k n hn).trans ?_⟩
  rw [← mul_assoc]
  apply mul_le_mul_of_nonneg_right _ (sum_nonneg fun _ _ => segNorm_nonneg _ _ _)
  rw [hu]
  norm_num

end Neo.Props
