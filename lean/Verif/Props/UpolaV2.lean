import Verif.Lemmas.UpolaV2

/-! # C26, C27: `overlap_add_convolver` (`upola_convolver_v2`) -/

namespace Neo.Props

open Neo Finset

/-! ## C26 -/

/-- **C26** for histories in which every call but the last has a multiple of the block size; the
last call may have any accepted length.  The impulse response of `S ≥ 1` samples per channel is
partitioned with `uniform_partition(h, B)`, `B = 2 ^ a` (`a = 0` included).  Missing: histories with
an earlier call whose length is not a multiple of `B`, for which the property is false (below). -/
theorem C26_partial (v : MatView) (data : List ℝ) (hv : v.InRange data.length) (a : ℕ)
    (ha2 : a ≤ 26) (hS : 1 ≤ v.cols) (hS2 : v.cols < 2 ^ 64)
    (hsz : v.rows * ((v.cols - 1) / 2 ^ a + 1) * (2 ^ a + 1) < 2 ^ 59) :
    ∃ N bins part, uniformPartition v data (2 ^ a) = .ok (N, bins, part) ∧
      ∀ c < v.rows, ∀ calls : List (List ℝ), (∀ b ∈ calls, 2 ^ a ≤ b.length) →
        (∀ b ∈ calls.dropLast, 2 ^ a ∣ b.length) →
        ∃ outs, upolaV2Run (partitionView N bins c) part calls = .ok outs ∧
          IsConvOf outs calls (fun i => if i < v.cols then data.getD (v.idx c i) 0 else 0) := by
  have hcl : Nat.clog 2 (2 ^ a * 2) = a + 1 := by rw [← pow_succ, Nat.clog_pow 2 _ (by norm_num)]
  obtain ⟨part, e, hp⟩ := uniformPartition_eq hv Nat.one_le_two_pow hcl (by omega) hS hS2
    (by rw [two_pow_half]; exact hsz)
  rw [two_pow_half] at e hp
  refine ⟨_, _, part, e, ?_⟩
  intro c hc calls hlen hdvd
  obtain ⟨hr, hd⟩ := hp c hc
  obtain ⟨u0, e0, h1, h2⟩ := v2_make_eq
  obtain ⟨u, u', outs, e1, e2, h3, h4⟩ := v2_load_run ha2
    (v := partitionView ((v.cols - 1) / 2 ^ a + 1) (2 ^ a + 1) c) hr rfl
    (H := fun j => Spec.dft (2 * 2 ^ a) (fun m =>
      ((seg (2 ^ a) (chanAt v data c) j m : ℝ) : ℂ)))
    (fun t ht k hk => by rw [hd t ht k hk, two_mul_pow]) u0 h1
    (by rw [h2]; exact Nat.succ_pos _) calls hlen hdvd
  refine ⟨outs, ?_, h3, ?_⟩
  · unfold upolaV2Run
    rw [e0, bind_ok, e1, bind_ok, e2, bind_ok]
    rfl
  · intro n hn
    rw [h4, getElem?_vec, if_pos hn]
    congr 1
    exact olaSample_conv Nat.one_le_two_pow (chanAt_support Nat.one_le_two_pow) _ _

/-- Two-sample blocks; calls of four, two and three samples. -/
example : (∀ b ∈ [[(1 : ℝ), 2, 3, 4], [5, 6], [7, 8, 9]], 2 ^ 1 ≤ b.length) ∧
    (∀ b ∈ [[(1 : ℝ), 2, 3, 4], [5, 6], [7, 8, 9]].dropLast, 2 ^ 1 ∣ b.length) := by
  simp

/-- **C26** is false: with the impulse response `(0, 1)` (a delay of one sample), two-sample blocks
and calls of three and two samples, the sample received last in the first call is lost: every output
sample is 0, although the convolution is 1 at index 3. -/
theorem C26_lost_sample :
    ∃ N bins part, uniformPartition (MatView.right 1 2) [0, 1] 2 = .ok (N, bins, part) ∧
      upolaV2Run (partitionView N bins 0) part [[0, 0, 1], [0, 0]] = .ok [[0, 0, 0], [0, 0]] ∧
        Spec.conv (fun i => if i < 2 then [(0 : ℝ), 1].getD i 0 else 0)
          (fun i => [[(0 : ℝ), 0, 1], [0, 0]].flatten.getD i 0) 3 = 1 := by
  have hv : (MatView.right 1 2).InRange [(0 : ℝ), 1].length := by
    intro r hr c hc
    simp only [MatView.right, MatView.idx, List.length_cons, List.length_nil] at *
    omega
  have hcl : Nat.clog 2 (2 * 2) = 1 + 1 := by decide +kernel
  obtain ⟨part, e, hp⟩ := uniformPartition_eq (B := 2) hv (by norm_num) hcl (by omega)
    (by simp [MatView.right]) (by simp [MatView.right]) (by simp [MatView.right])
  refine ⟨_, _, part, e, ?_, ?_⟩
  swap
  · unfold Spec.conv
    simp [sum_range_succ]
  obtain ⟨hr, hd⟩ := hp 0 (by simp [MatView.right])
  obtain ⟨u0, e0, h1, h2⟩ := v2_make_eq
  set H : ℕ → ℕ → ℂ := fun j => Spec.dft (2 ^ (1 + 1)) (fun m =>
    ((seg 2 (chanAt (MatView.right 1 2) [0, 1] 0) j m : ℝ) : ℂ)) with hH
  obtain ⟨u1, e1, hu1⟩ := v2_load (N := 1) (a := 1) (by omega) hr rfl rfl (H := H) hd (fun _ => 0) 0
    (fun _ _ => rfl) u0 h1 (by rw [h2]; rfl)
  obtain ⟨ov, hone, hov⟩ := hu1.one
  have hspec : ∀ (w' : ℕ → ℝ) (i : ℕ), i < 4 →
      specOut (2 ^ (1 + 1)) (fun k => Spec.dft (2 ^ (1 + 1)) (fun i => ((w' i : ℝ) : ℂ)) k * H 0 k) i
        = w' ((i + 3) % 4) := by
    intro w' i hi
    rw [hH, specOut_mul (K := 2 ^ (1 + 1)) w' _ hi]
    unfold Spec.circConv
    have hh : ∀ m, seg 2 (chanAt (MatView.right 1 2) [0, 1] 0) 0 m = if m = 1 then 1 else 0 := by
      intro m
      unfold seg chanAt
      rcases m with _ | _ | m <;> simp [MatView.right, MatView.idx]
    simp only [hh]
    interval_cases i <;> simp [sum_range_succ]
  clear_value H
  have hl : ∀ fuel u (x : List ℝ) p, p < x.length → v2Loop (fuel + 1) u x p = (do
      let (u, inout, p) ← v2Chunk u x p
      v2Loop fuel u inout p) := fun fuel u x p h => by rw [v2Loop, if_pos h]
  have hend : ∀ fuel u (x : List ℝ) p, ¬ p < x.length → v2Loop (fuel + 1) u x p = .ok (u, x) :=
    fun fuel u x p h => by rw [v2Loop, if_neg h]
  -- first call
  obtain ⟨u2, e2, -, hu2⟩ := v2_chunk_one (by omega) hone (by norm_num) (M := 3) (p := 0) (n := 2)
    (by norm_num) (by norm_num) (fun i => [(0 : ℝ), 0, 1].getD i 0) _ _ rfl rfl
  have hu2 := hu2 rfl
  set W2 := specOut (2 ^ (1 + 1)) (fun k => Spec.dft (2 ^ (1 + 1)) (fun i => (((fun i =>
    if 0 ≤ i ∧ i < 0 + 2 then [(0 : ℝ), 0, 1].getD (0 + (i - 0)) 0 else 0) i : ℝ) : ℂ)) k * H 0 k)
    with hW2
  have hW2' : ∀ i < 4, W2 i = 0 := by
    intro i hi
    rw [hW2, hspec _ i hi]
    interval_cases i <;> simp
  obtain ⟨u3, e3, hu3, -⟩ := v2_chunk_one (by omega) hu2 (by norm_num) (M := 3) (p := 2) (n := 1)
    (by norm_num) (by norm_num) (fun i => [(0 : ℝ), 0, 1].getD i 0) _ _ rfl rfl
  have hu3 := hu3 (by norm_num)
  set W3 := specOut (2 ^ (1 + 1)) (fun k => Spec.dft (2 ^ (1 + 1)) (fun i => (((fun i =>
    if 0 ≤ i ∧ i < 0 + 1 then [(0 : ℝ), 0, 1].getD (2 + (i - 0)) 0 else 0) i : ℝ) : ℂ)) k * H 0 k)
    with hW3
  have hW3' : ∀ i < 4, W3 i = if i = 1 then 1 else 0 := by
    intro i hi
    rw [hW3, hspec _ i hi]
    interval_cases i <;> simp
  have hcall1 : u1.call [0, 0, 1] = .ok (u3, [0, 0, 0]) := by
    unfold UpolaV2.call
    rw [hone.blockSize, check_decide_ok (by simp), bind_ok]
    show v2Loop (4 + 1) u1 [0, 0, 1] 0 = _
    rw [hl _ _ _ _ (by simp), show ([0, 0, 1] : List ℝ) = vec 3 (fun i => [(0 : ℝ), 0, 1].getD i 0)
      from rfl, e2, bind_ok]
    simp only []
    rw [show (vec 3 fun i => if 0 ≤ i ∧ i < 0 + 2 then W2 (0 + (i - 0)) + ov (0 + (i - 0))
        else [(0 : ℝ), 0, 1].getD i 0) = vec 3 (fun i => [(0 : ℝ), 0, 1].getD i 0) from
      vec_ext (fun i hi => by
        interval_cases i
        · simp [hW2' 0 (by norm_num), hov 0 (by norm_num)]
        · simp [hW2' 1 (by norm_num), hov 1 (by norm_num)]
        · simp)]
    show v2Loop (3 + 1) _ _ 2 = _
    rw [hl _ _ _ _ (by rw [length_vec]; norm_num), e3, bind_ok]
    show v2Loop (2 + 1) _ _ 3 = _
    rw [hend _ _ _ _ (by rw [length_vec]; norm_num)]
    congr 2
    show [_, _, _] = _
    simp [hW3' 0 (by norm_num), hW2' 2 (by norm_num)]
  -- second call
  obtain ⟨u4, e4, -, hu4⟩ := v2_chunk_one (by omega) hu3 (by norm_num) (M := 2) (p := 0) (n := 1)
    (by norm_num) (by norm_num) (fun i => [(0 : ℝ), 0].getD i 0) _ _ rfl rfl
  have hu4 := hu4 rfl
  set W4 := specOut (2 ^ (1 + 1)) (fun k => Spec.dft (2 ^ (1 + 1)) (fun i => (((fun i =>
    if 0 + 1 ≤ i ∧ i < 0 + 1 + 1 then [(0 : ℝ), 0].getD (0 + (i - (0 + 1))) 0 else W3 i) i : ℝ) : ℂ)) k
      * H 0 k) with hW4
  have hW4' : ∀ i < 4, W4 i = 0 := by
    intro i hi
    rw [hW4, hspec _ i hi]
    interval_cases i
    · simp [hW3']
    · simp [hW3']
    · simp
    · simp [hW3']
  obtain ⟨u5, e5, -, -⟩ := v2_chunk_one (by omega) hu4 (by norm_num) (M := 2) (p := 1) (n := 1)
    (by norm_num) (by norm_num) (fun i => [(0 : ℝ), 0].getD i 0) _ _ rfl rfl
  set W5 := specOut (2 ^ (1 + 1)) (fun k => Spec.dft (2 ^ (1 + 1)) (fun i => (((fun i =>
    if 0 ≤ i ∧ i < 0 + 1 then [(0 : ℝ), 0].getD (1 + (i - 0)) 0 else 0) i : ℝ) : ℂ)) k * H 0 k)
    with hW5
  have hW5' : W5 0 = 0 := by
    rw [hW5, hspec _ 0 (by norm_num)]
    simp
  have hcall2 : u3.call [0, 0] = .ok (u5, [0, 0]) := by
    unfold UpolaV2.call
    rw [hu3.blockSize, check_decide_ok (by simp), bind_ok]
    simp only [Nat.zero_add] at e4 e5
    show v2Loop (3 + 1) u3 [0, 0] 0 = _
    rw [hl _ _ _ _ (by simp), show ([0, 0] : List ℝ) = vec 2 (fun i => [(0 : ℝ), 0].getD i 0)
      from rfl, e4, bind_ok]
    simp only []
    rw [show (vec 2 fun i => if 0 ≤ i ∧ i < 1 then W4 (1 + (i - 0)) +
          (if 0 ≤ 1 + (i - 0) ∧ 1 + (i - 0) < 2 ^ 1 then W2 (2 ^ 1 + (1 + (i - 0) - 0)) else ov (1 + (i - 0)))
        else [(0 : ℝ), 0].getD i 0) = vec 2 (fun i => [(0 : ℝ), 0].getD i 0) from
      vec_ext (fun i hi => by
        interval_cases i
        · simp [hW4' 1 (by norm_num), hW2' 3 (by norm_num)]
        · simp)]
    show v2Loop (2 + 1) _ _ 1 = _
    rw [hl _ _ _ _ (by rw [length_vec]; norm_num), e5, bind_ok]
    show v2Loop (1 + 1) _ _ 2 = _
    rw [hend _ _ _ _ (by rw [length_vec]; norm_num)]
    congr 2
    show [_, _] = _
    simp [hW4' 2 (by norm_num), hW5']
    rfl
  unfold upolaV2Run
  rw [e0, bind_ok, e1, bind_ok, runBlocks, hcall1, bind_ok]
  simp only []
  rw [runBlocks, hcall2]
  rfl

/-- **C26** (negation of the full statement). -/
theorem C26_false : ¬ ∀ (v : MatView) (data : List ℝ) (B : ℕ), v.InRange data.length →
    (∃ a, 1 ≤ a ∧ a ≤ 26 ∧ B = 2 ^ a) → 1 ≤ v.cols →
    ∃ N bins part, uniformPartition v data B = .ok (N, bins, part) ∧
      ∀ c < v.rows, ∀ calls : List (List ℝ), (∀ b ∈ calls, B ≤ b.length) →
        ∃ outs, upolaV2Run (partitionView N bins c) part calls = .ok outs ∧
          IsConvOf outs calls (fun i => if i < v.cols then data.getD (v.idx c i) 0 else 0) := by
  intro hall
  have hv : (MatView.right 1 2).InRange [(0 : ℝ), 1].length := by
    intro r hr c hc
    simp only [MatView.right, MatView.idx, List.length_cons, List.length_nil] at *
    omega
  obtain ⟨N, bins, part, e, h⟩ := hall (MatView.right 1 2) [0, 1] 2 hv ⟨1, by norm_num⟩
    (by simp [MatView.right])
  obtain ⟨N', bins', part', e', hrun, hconv⟩ := C26_lost_sample
  rw [e] at e'
  cases e'
  obtain ⟨outs, ho, -, hc⟩ := h 0 (by simp [MatView.right]) [[0, 0, 1], [0, 0]] (by simp)
  rw [hrun] at ho
  cases ho
  have := hc 3 (by simp)
  rw [show (fun i => if i < (MatView.right 1 2).cols then [(0 : ℝ), 1].getD ((MatView.right 1 2).idx 0 i) 0
      else 0) = fun i => if i < 2 then [(0 : ℝ), 1].getD i 0 else 0 from by
    funext i; simp [MatView.right, MatView.idx], hconv] at this
  simp at this

/-! ## C27 -/

/-- A v2 convolver in any state is loaded with a filter and then called. -/
noncomputable def v2LoadAndRun (u : UpolaV2) (v : MatView) (data : List ℂ) (calls : List (List ℝ)) :
    Res (List (List ℝ)) := do
  let u ← u.load v data
  let (_, outs) ← runBlocks UpolaV2.call u calls
  pure outs

/-- A session: a fresh v2 convolver is loaded, called, loaded again and called again; the second
output. -/
noncomputable def v2ReloadRun (v₁ : MatView) (data₁ : List ℂ) (calls₁ : List (List ℝ))
    (v₂ : MatView) (data₂ : List ℂ) (calls₂ : List (List ℝ)) : Res (List (List ℝ)) := do
  let u ← UpolaV2.make
  let u ← u.load v₁ data₁
  let (u, _) ← runBlocks UpolaV2.call u calls₁
  v2LoadAndRun u v₂ data₂ calls₂

/-- **C27** for `overlap_add_convolver`, the part that holds: a convolver stopped at a block
boundary whose current segment is inside the new filter behaves, on whole-block histories, like a
fresh one.  Missing: the other states; there the property is false (below). -/
theorem C27_v2_reload_partial (a : ℕ) (ha2 : a ≤ 26) (v : MatView) (data : List ℂ)
    (hv : v.InRange data.length) (hc : v.cols = 2 ^ a + 1) (u : UpolaV2) (h1 : u.inputPos = 0)
    (h2 : u.currentSegment < v.rows) (calls : List (List ℝ)) (hlen : ∀ c ∈ calls, 2 ^ a ≤ c.length)
    (hdvd : ∀ c ∈ calls.dropLast, 2 ^ a ∣ c.length) :
    ∃ outs, v2LoadAndRun u v data calls = .ok outs ∧ upolaV2Run v data calls = .ok outs := by
  obtain ⟨u1, u1', outs, e1, e2, h3, h4⟩ := v2_load_run ha2 hv hc (fun _ _ _ _ => rfl) u h1 h2 calls
    hlen hdvd
  obtain ⟨u0, e0, h1', h2'⟩ := v2_make_eq
  obtain ⟨u2, u2', outs', e1', e2', h3', h4'⟩ := v2_load_run ha2 hv hc (fun _ _ _ _ => rfl) u0 h1'
    (by rw [h2']; omega) calls hlen hdvd
  refine ⟨outs, ?_, ?_⟩
  · unfold v2LoadAndRun
    rw [e1, bind_ok, e2]; rfl
  · unfold upolaV2Run
    rw [e0, bind_ok, e1', bind_ok, e2', bind_ok]
    have : outs' = outs := List.eq_iff_flatten_eq.2 ⟨h4'.trans h4.symm, h3'.trans h3.symm⟩
    rw [this]; rfl

/-- **C27** fails for `overlap_add_convolver` whenever the current segment lies outside the new
filter: the first call indexes the delay line out of bounds. -/
theorem C27_v2_stale_segment (a : ℕ) (ha2 : a ≤ 26) (v : MatView) (data : List ℂ)
    (hv : v.InRange data.length) (hc : v.cols = 2 ^ a + 1) (u : UpolaV2) (h1 : u.inputPos = 0)
    (h2 : v.rows ≤ u.currentSegment) (x : List ℝ) (xs : List (List ℝ)) (hx : 2 ^ a ≤ x.length) :
    v2LoadAndRun u v data (x :: xs) = .error .oob := by
  obtain ⟨u', e, e'⟩ := v2_oob ha2 hv hc u h1 h2 x hx
  unfold v2LoadAndRun
  rw [e, bind_ok, runBlocks, e']
  rfl

/-- **C27** (negation for v2): a session with a two-segment filter, one block, and then a
one-segment filter faults, while a fresh convolver with the second filter does not. -/
theorem C27_v2_false :
    v2ReloadRun (MatView.right 2 3) [1, 1, 1, 0, 0, 0] [[0, 0]] (MatView.right 1 3) [1, 1, 1] [[0, 0]]
      = .error .oob ∧
    ∃ outs, upolaV2Run (MatView.right 1 3) [1, 1, 1] [[0, 0]] = .ok outs := by
  have hv1 : (MatView.right 2 3).InRange [(1 : ℂ), 1, 1, 0, 0, 0].length := by
    intro r hr c hc
    simp only [MatView.right, MatView.idx, List.length_cons, List.length_nil] at *
    omega
  have hv2 : (MatView.right 1 3).InRange [(1 : ℂ), 1, 1].length := by
    intro r hr c hc
    simp only [MatView.right, MatView.idx, List.length_cons, List.length_nil] at *
    omega
  obtain ⟨u0, e0, h1, h2⟩ := v2_make_eq
  constructor
  · obtain ⟨u1, e1, hu1⟩ := v2_load (N := 2) (a := 1) (by omega) hv1 rfl rfl
      (H := matAt (MatView.right 2 3) [1, 1, 1, 0, 0, 0]) (fun _ _ _ _ => rfl) (fun _ => 0) 0
      (fun _ _ => rfl) u0 h1 (by rw [h2]; rfl)
    obtain ⟨u2, e2, hu2⟩ := v2_call (by omega) (by omega) (M := 2) (by norm_num)
      (.inl (by norm_num)) hu1
    have hu2 := hu2 (by norm_num)
    unfold v2ReloadRun
    rw [e0, bind_ok, e1, bind_ok, runBlocks]
    rw [show ([0, 0] : List ℝ) = vec 2 (fun i => (fun _ => (0 : ℝ)) (0 * 2 ^ 1 + i)) from rfl, e2,
      bind_ok]
    simp only []
    rw [runBlocks, bind_ok, pure_eq_ok, bind_ok]
    refine C27_v2_stale_segment 1 (by omega) _ _ hv2 rfl u2 hu2.inputPos ?_ _ _ (by
      rw [length_vec]; norm_num)
    rw [hu2.current]
    decide
  · obtain ⟨u, u', outs, e1, e2, -, -⟩ := v2_load_run (a := 1) (by omega) hv2 rfl
      (H := matAt (MatView.right 1 3) [1, 1, 1]) (fun _ _ _ _ => rfl) u0 h1
      (by rw [h2]; simp [MatView.right]) [[0, 0]] (by simp) (by simp)
    refine ⟨outs, ?_⟩
    unfold upolaV2Run
    rw [e0, bind_ok, e1, bind_ok, e2]
    rfl

/-- The states of `C27_v2_reload_partial` occur: every state after whole blocks. -/
example (N a : ℕ) (hN : 1 ≤ N) (H : ℕ → ℕ → ℂ) (x : ℕ → ℝ) (t : ℕ) (u : UpolaV2)
    (hu : V2Inv N a H x t u) : u.inputPos = 0 ∧ u.currentSegment < N :=
  ⟨hu.inputPos, hu.current ▸ v2Cur_lt hN t⟩

end Neo.Props
