import Verif.Lemmas.UpolaV2

/-! # `upola_convolver_v2` reloaded in an arbitrary state -/

namespace Neo

open Finset

/-- Everything `filter(f)` assigns is silent; the input position and the current segment are kept. -/
structure V2Loaded (N a : ℕ) (H : ℕ → ℕ → ℂ) (u0 u : UpolaV2) : Prop where
  blockSize : u.blockSize = 2 ^ a
  numSegments : u.numSegments = N
  inputPos : u.inputPos = u0.inputPos
  current : u.currentSegment = u0.currentSegment
  rfft : ∃ f, u.rfft = rfftPlanOf (a + 1) f
  window : u.realWindow = vec (2 ^ (a + 1)) (fun _ => 0)
  overlap : u.overlap = vec (2 ^ (a + 1)) (fun _ => 0)
  complexWindow : u.complexWindow = vec (2 ^ a + 1) (fun _ => 0)
  fdl : Arr2Rep u.fdl N (2 ^ a + 1) (fun _ _ => 0)
  filter : FilterLaw denseFilterOps N (2 ^ a + 1) (fun row f => row = vec (2 ^ a + 1) f)
    (fun acc b => acc = vec (2 ^ a + 1) b) u.filter H
  accumulator : u.accumulator = vec (2 ^ a + 1) (fun _ => 0)
  tmp : u.tmpAccumulator = vec (2 ^ a + 1) (fun _ => 0)

theorem v2_loaded {N a : ℕ} (ha2 : a ≤ 26) {v : MatView} {data : List ℂ}
    (hv : v.InRange data.length) (hr : v.rows = N) (hc : v.cols = 2 ^ a + 1)
    {H : ℕ → ℕ → ℂ} (hH : ∀ r < v.rows, ∀ c < v.cols, matAt v data r c = H r c) (u0 : UpolaV2) :
    ∃ u, u0.load v data = .ok u ∧ V2Loaded N a H u0 u := by
  obtain ⟨filt, ef, hf⟩ := denseFilter_law hv u0.filter hH
  rw [hr, hc] at hf
  have hord : nextOrder (2 ^ a * 2) = a + 1 := by
    rw [nextOrder_eq, ← pow_succ, Nat.clog_pow 2 _ (by norm_num)]
  unfold UpolaV2.load
  simp only []
  rw [if_neg (c := v.cols = 0) (by rw [hc]; exact Nat.succ_ne_zero _), bind_ok]
  simp only [hc, Nat.add_sub_cancel, hord, hr]
  rw [rfftPlan_make_eq (b := a + 1) (by omega), bind_ok, ef, bind_ok, pure_eq_ok]
  refine ⟨_, rfl, ?_⟩
  refine ⟨rfl, rfl, rfl, rfl, ⟨_, rfl⟩, ?_, ?_, ?_, (denseFdl_law (K := ℂ) N (2 ^ a + 1)).make, hf, rfl,
    rfl⟩
  · rw [rfftPlanOf_size]
  · rw [rfftPlanOf_size]
  · rw [rfftPlanOf_size, two_pow_half]

/-- The first chunk of a reloaded convolver with `0 < q ≤ B` pending samples: the block is completed as
if it had begun with `q` samples of silence, after `t` silent blocks. -/
theorem v2_chunk_pending {N a : ℕ} (hN : 1 ≤ N) (ha2 : a ≤ 26) {H : ℕ → ℕ → ℂ} {x : ℕ → ℝ} {t q : ℕ}
    {u0 u : UpolaV2} (hu : V2Loaded N a H u0 u) (hq0 : 0 < q) (hqB : q ≤ 2 ^ a)
    (h3 : u0.inputPos = q) (h4 : u0.currentSegment = v2Cur N t)
    (hx : ∀ i < t * 2 ^ a + q, x i = 0) {M : ℕ} (hM : 2 ^ a ≤ M)
    (g : ℕ → ℝ) (hg : ∀ i < 2 ^ a - q, g i = x (t * 2 ^ a + q + i)) :
    ∃ u', v2Chunk u (vec M g) 0 = .ok (u', vec M (fun i => if i < 2 ^ a - q then
        olaForm N (2 ^ a) H x t (q + i) else g i), 2 ^ a - q) ∧ V2Inv N a H x (t + 1) u' := by
  obtain ⟨h1, h2, h3', h4', ⟨f, h5⟩, h6, h7, h8, h9, h10, h11, htmp⟩ := hu
  rw [h3] at h3'
  rw [h4] at h4'
  have hpow : 1 ≤ 2 ^ a := Nat.one_le_two_pow
  have hK : 2 ^ (a + 1) = 2 ^ a + 2 ^ a := by rw [pow_succ]; ring
  have h64 : 2 ^ a < 2 ^ 64 := Nat.pow_lt_pow_right (by norm_num) (by omega)
  have hn : min M (2 ^ a - q) = 2 ^ a - q := by omega
  set X := winSpec (2 ^ a) (seg (2 ^ a)) x with hX
  have hX0 : ∀ u < t, ∀ k, X u k = 0 := by
    intro u hu k
    rw [hX]
    unfold winSpec Spec.dft
    apply sum_eq_zero
    intro n _
    beta_reduce
    have : seg (2 ^ a) x u n = 0 := by
      unfold seg
      by_cases c : n < 2 ^ a
      · rw [if_pos c]
        apply hx
        have : (u + 1) * 2 ^ a ≤ t * 2 ^ a := Nat.mul_le_mul_right _ hu
        rw [add_mul] at this
        omega
      · rw [if_neg c]
    rw [this]
    simp
  have h9' : Arr2Rep u.fdl N (2 ^ a + 1) (v2Slot X N t) := by
    have e : v2Slot X N t = fun _ _ => 0 := by
      funext s k
      exact v2Slot_zero _ _ _ _ _ (fun u hu => hX0 u hu k)
    rw [e]
    exact h9
  unfold v2Chunk
  simp only [length_vec, h1, h2, h3', h4', h5, h6, h7, h8, h11, Nat.sub_zero,
    wsub_eq hqB (by omega : 2 ^ a - q < 2 ^ 64), hn, Nat.zero_add]
  rw [rdSpan_vec (Nat.zero_le _) (by omega), bind_ok, Nat.sub_zero, copyInto_vec _ _ (by omega), bind_ok]
  obtain ⟨f1, e1⟩ := rfft_vec (b := a + 1) (by omega) le_rfl f
    (fun i => if q ≤ i ∧ i < q + (2 ^ a - q) then g (0 + (i - q)) else 0) (fun _ => 0)
  rw [two_pow_half] at e1
  have hXt : (vec (2 ^ a + 1) fun k => if k < 2 ^ a + 1 then Spec.dft (2 ^ (a + 1)) (fun i =>
      ((if q ≤ i ∧ i < q + (2 ^ a - q) then g (0 + (i - q)) else 0 : ℝ) : ℂ)) k else 0)
      = vec (2 ^ a + 1) (X t) := by
    apply vec_ext
    intro k hk
    rw [if_pos hk, hX]
    unfold winSpec
    rw [two_mul_pow]
    apply dft_congr
    intro i hi
    refine congrArg (fun r : ℝ => (r : ℂ)) ?_
    unfold seg
    by_cases c : q ≤ i ∧ i < q + (2 ^ a - q)
    · rw [if_pos c, if_pos (by omega), Nat.zero_add, hg _ (by omega)]
      congr 1; omega
    · rw [if_neg c]
      by_cases c2 : i < 2 ^ a
      · rw [if_pos c2, hx _ (by omega)]
      · rw [if_neg c2]
  rw [hXt] at e1
  rw [e1, bind_ok]
  simp only []
  obtain ⟨fdl, e2, hfdl⟩ := (denseFdl_law N (2 ^ a + 1)).insert _ _ (X t) (v2Cur N t) h9' (v2Cur_lt hN t)
  have hfdl' : Arr2Rep fdl N (2 ^ a + 1) (v2Slot X N (t + 1)) := hfdl
  have htail : v2Tail u fdl = .ok (vec (2 ^ a + 1) (fun _ => 0)) := by
    unfold v2Tail
    rw [if_neg (by omega), htmp]
  rw [e2, bind_ok, htail, bind_ok, copyVec_vec, bind_ok]
  obtain ⟨row, er, hr⟩ := (denseFdl_law N (2 ^ a + 1)).row _ _ (v2Cur N t) hfdl' (v2Cur_lt hN t)
  rw [er, bind_ok]
  obtain ⟨acc', em, hm⟩ := h10.mac row _ 0 _ _ hr (by omega) rfl
  rw [em, bind_ok]
  have hacc : acc' = vec (2 ^ a + 1) (specY N H X t) := by
    rw [hm]
    apply vec_ext
    intro k _
    unfold specY
    obtain ⟨M', rfl⟩ : ∃ M', N = M' + 1 := ⟨N - 1, by omega⟩
    rw [sum_range_succ', sum_eq_zero, v2Slot, if_pos rfl]
    · simp
    · intro j _
      split
      · rw [hX0 _ (by omega), zero_mul]
      · rw [zero_mul]
  rw [hacc, copyVec_vec, bind_ok]
  obtain ⟨f2, e3⟩ := irfft_vec (b := a + 1) (l := 2 ^ a + 1) (by omega) (two_pow_half a).le
    (by omega) (le_refl (2 ^ (a + 1))) f1 (specY N H X t)
    (fun i => if q ≤ i ∧ i < q + (2 ^ a - q) then g (0 + (i - q)) else 0)
  rw [e3, bind_ok]
  simp only [rfftPlanOf_size]
  rw [scaleVec_vec, bind_ok]
  have hout : (vec (2 ^ (a + 1)) fun i => (if i < 2 ^ (a + 1) then
      (Spec.idft (2 ^ (a + 1)) (Spec.hermitian (2 ^ (a + 1)) (specY N H X t)) i).re
        else if q ≤ i ∧ i < q + (2 ^ a - q) then g (0 + (i - q)) else 0)
        * (1 / ((2 ^ (a + 1) : ℕ) : ℝ))) = vec (2 ^ (a + 1)) (specOut (2 ^ (a + 1)) (specY N H X t)) :=
    vec_ext (fun i hi => by rw [if_pos hi]; rfl)
  rw [hout, rdSpan_vec (by omega) (by omega), bind_ok, rdSpan_vec (by omega) (by omega),
    bind_ok, Nat.add_sub_cancel_left, addVec_vec, bind_ok, wrSpan_vec (by omega), bind_ok]
  have hY : 1 ≤ t → specY N H X (t - 1) = fun _ => 0 := by
    intro ht
    funext k
    unfold specY
    apply sum_eq_zero
    intro j _
    rw [hX0 _ (by omega) k, ite_self, zero_mul]
  have hfin : (vec M fun i => if 0 ≤ i ∧ i < 0 + (2 ^ a - q) then
      specOut (2 ^ (a + 1)) (specY N H X t) (q + (i - 0)) + 0 else g i)
      = vec M (fun i => if i < 2 ^ a - q then olaForm N (2 ^ a) H x t (q + i) else g i) := by
    apply vec_ext
    intro i _
    by_cases c : i < 2 ^ a - q
    · rw [if_pos (by omega), if_pos c, Nat.sub_zero]
      unfold olaForm olaOut
      rw [two_mul_pow]
      congr 1
      by_cases c2 : 1 ≤ t
      · rw [if_pos c2, ← hX, hY c2, specOut_zero]
      · rw [if_neg c2]
    · rw [if_neg (by omega), if_neg c]
  rw [hfin]
  unfold v2Finish
  simp only [h1]
  rw [if_pos (by omega), rdSpan_vec (by omega) (by omega), bind_ok,
    show 2 ^ a * 2 - 2 ^ a = 2 ^ a by omega, copyInto_vec _ _ (by omega), bind_ok, fillVec_vec,
    bind_ok, pure_eq_ok, bind_ok, pure_eq_ok]
  refine ⟨_, rfl, ⟨rfl, rfl, rfl, ?_, ⟨f2, rfl⟩, rfl, ⟨_, rfl, ?_⟩, ⟨_, rfl⟩, hfdl', h10,
    ⟨_, rfl⟩, ⟨_, rfl⟩⟩⟩
  · rw [v2Cur_succ hN]
  · intro i hi
    rw [if_pos ⟨Nat.zero_le _, by omega⟩, if_pos (by omega), Nat.add_sub_cancel, Nat.sub_zero,
      two_mul_pow]

/-- The first call of a reloaded convolver with `0 < q ≤ B` pending samples. -/
theorem v2_call_pending {N a : ℕ} (hN : 1 ≤ N) (ha2 : a ≤ 26) {H : ℕ → ℕ → ℂ} {x : ℕ → ℝ} {t q : ℕ}
    {u0 u : UpolaV2} (hu : V2Loaded N a H u0 u) (hq0 : 0 < q) (hqB : q ≤ 2 ^ a)
    (h3 : u0.inputPos = q) (h4 : u0.currentSegment = v2Cur N t)
    (hx : ∀ i < t * 2 ^ a + q, x i = 0) {M : ℕ} (hM : 2 ^ a ≤ M)
    (hend : 2 ^ a ∣ q + M ∨ ∀ i, t * 2 ^ a + q + M ≤ i → x i = 0) :
    ∃ u', u.call (vec M (fun i => x (t * 2 ^ a + q + i)))
        = .ok (u', vec M (fun i => olaSample N (2 ^ a) H x (t * 2 ^ a + q + i))) ∧
      (2 ^ a ∣ q + M → V2Inv N a H x ((t * 2 ^ a + q + M) / 2 ^ a) u') := by
  have hpow : 1 ≤ 2 ^ a := Nat.one_le_two_pow
  obtain ⟨u1, e1, h1⟩ := v2_chunk_pending hN ha2 hu hq0 hqB h3 h4 hx hM
    (fun i => x (t * 2 ^ a + q + i)) (fun _ _ => rfl)
  obtain ⟨u', e, h⟩ := v2_loop hN ha2 (H := H) (x := x) M (t * 2 ^ a + q)
    (hend.imp (fun h => by
      rw [Nat.add_assoc]; exact (Nat.dvd_add_right (Dvd.intro_left _ rfl)).2 h) id)
    (M + 1) (t + 1) (2 ^ a - q) u1 h1 (by rw [add_mul]; omega) (by omega) (by omega)
  refine ⟨u', ?_, fun hd => h (by
    rw [Nat.add_assoc]; exact (Nat.dvd_add_right (Dvd.intro_left _ rfl)).2 hd)⟩
  unfold UpolaV2.call
  rw [hu.blockSize, length_vec, check_decide_ok hM, bind_ok, v2Loop, length_vec, if_pos (by omega), e1,
    bind_ok]
  simp only []
  rw [← e]
  congr 1
  apply vec_ext
  intro i hi
  by_cases c : i < 2 ^ a - q
  · rw [if_pos c, if_pos c, add_assoc, olaSample_at H x t (by omega)]
  · rw [if_neg c, if_neg c]

/-- A current segment outside the filter, or more pending samples than a block: the first call
faults. -/
theorem v2_loaded_oob {N a : ℕ} (ha2 : a ≤ 26) {H : ℕ → ℕ → ℂ} {u0 u : UpolaV2}
    (hu : V2Loaded N a H u0 u) (hq : u0.inputPos < 2 ^ 63)
    (hbad : N ≤ u0.currentSegment ∨ 2 ^ a < u0.inputPos) (x : List ℝ) (hx : 2 ^ a ≤ x.length) :
    u.call x = .error .oob := by
  obtain ⟨h1, h2, h3, h4, ⟨f, h5⟩, h6, h7, h8, h9, h10, h11, htmp⟩ := hu
  have hpow : 1 ≤ 2 ^ a := Nat.one_le_two_pow
  have hpow2 : 2 ^ a ≤ 2 ^ 26 := Nat.pow_le_pow_right (by norm_num) ha2
  have hK : 2 ^ (a + 1) = 2 ^ a + 2 ^ a := by rw [pow_succ]; ring
  unfold UpolaV2.call
  rw [h1, check_decide_ok hx, bind_ok, v2Loop, if_pos (by omega)]
  unfold v2Chunk
  simp only [h1, h3, h4, h5, h6, h8, Nat.sub_zero, Nat.zero_add]
  obtain ⟨n, hn⟩ : ∃ n, n = min x.length (wsub (2 ^ a) u0.inputPos) := ⟨_, rfl⟩
  rw [← hn, show rdSpan x 0 n = .ok (vec n (fun i => x.getD (0 + i) 0)) by
    conv_lhs => rw [eq_vec_getD x (0 : ℝ)]
    rw [rdSpan_vec (Nat.zero_le _) (by omega), Nat.sub_zero], bind_ok]
  rcases Nat.lt_or_ge (2 ^ a) u0.inputPos with hc | hc
  · have hw : 2 ^ a ≤ wsub (2 ^ a) u0.inputPos := by
      unfold wsub w64
      generalize 2 ^ a = B at *
      norm_num at hq hpow2 ⊢
      omega
    unfold copyInto rdSpan
    rw [length_vec, if_neg (by omega), bind_error, bind_error, bind_error]
  · have hs : N ≤ u0.currentSegment := hbad.resolve_right (by omega)
    have hw : wsub (2 ^ a) u0.inputPos = 2 ^ a - u0.inputPos := wsub_eq hc (by
      generalize 2 ^ a = B at *
      norm_num at hpow2 ⊢
      omega)
    rw [hw] at hn
    rw [copyInto_vec _ _ (by omega), bind_ok]
    obtain ⟨f1, e1⟩ := rfft_vec (b := a + 1) (by omega) le_rfl f
      (fun i => if u0.inputPos ≤ i ∧ i < u0.inputPos + n then x.getD (0 + (i - u0.inputPos)) 0 else 0)
      (fun _ => 0)
    rw [two_pow_half] at e1
    rw [e1, bind_ok]
    obtain ⟨hr, hcs, d, hd, -⟩ := h9
    simp only [denseFdlOps, Arr2.row]
    unfold rdSpan
    rw [hd, hcs, length_vec, if_neg, bind_error, bind_error, bind_error]
    intro h
    have := Nat.mul_le_mul_right (2 ^ a + 1) hs
    omega

end Neo
