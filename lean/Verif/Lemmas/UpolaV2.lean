import Verif.Model.UpolaV2
import Verif.Lemmas.UpcLti

/-! # `upola_convolver_v2` -/

namespace Neo

open Finset

/-- The slot written at step `t`. -/
def v2Cur (N t : ℕ) : ℕ := (N - t % N) % N

theorem v2Cur_lt {N : ℕ} (hN : 1 ≤ N) (t : ℕ) : v2Cur N t < N := Nat.mod_lt _ (by omega)

theorem v2Cur_succ {N : ℕ} (hN : 1 ≤ N) (t : ℕ) :
    v2Cur N (t + 1) = if v2Cur N t > 0 then v2Cur N t - 1 else N - 1 := by
  unfold v2Cur
  rw [succ_mod hN]
  have h1 : t % N < N := Nat.mod_lt _ (by omega)
  by_cases h0 : t % N = 0
  · rw [h0, Nat.sub_zero, Nat.mod_self, if_neg (c := (0 : ℕ) > 0) (by omega)]
    by_cases c : 0 + 1 ≥ N
    · rw [if_pos c, Nat.sub_zero, Nat.mod_self]; omega
    · rw [if_neg c, Nat.mod_eq_of_lt (by omega)]
  · rw [Nat.mod_eq_of_lt (a := N - t % N) (by omega), if_pos (c := N - t % N > 0) (by omega)]
    by_cases c : t % N + 1 ≥ N
    · rw [if_pos c, Nat.sub_zero, Nat.mod_self]; omega
    · rw [if_neg c, Nat.mod_eq_of_lt (by omega)]; omega

/-- Content of the delay line before step `t`. -/
def v2Slot (X : ℕ → ℕ → ℂ) (N : ℕ) : ℕ → ℕ → ℕ → ℂ
  | 0, _, _ => 0
  | t + 1, s, k => if s = v2Cur N t then X t k else v2Slot X N t s k

theorem v2Slot_eq (X : ℕ → ℕ → ℂ) {N : ℕ} (hN : 1 ≤ N) (t s : ℕ) (hs : s < N) (k : ℕ) :
    v2Slot X N t s k = slotAt X N t ((N - s) % N) k := by
  induction t with
  | zero => rfl
  | succ t ih =>
    rw [v2Slot, slotAt, ih]
    have h1 : t % N < N := Nat.mod_lt _ (by omega)
    have : s = v2Cur N t ↔ (N - s) % N = t % N := by
      unfold v2Cur
      by_cases c1 : s = 0
      · subst c1
        rw [Nat.sub_zero, Nat.mod_self]
        by_cases c2 : t % N = 0
        · rw [c2, Nat.sub_zero, Nat.mod_self]
        · rw [Nat.mod_eq_of_lt (a := N - t % N) (by omega)]; omega
      · rw [Nat.mod_eq_of_lt (a := N - s) (by omega)]
        by_cases c2 : t % N = 0
        · rw [c2, Nat.sub_zero, Nat.mod_self]; omega
        · rw [Nat.mod_eq_of_lt (a := N - t % N) (by omega)]; omega
    simp only [this]

/-- The slot `j` places after the current one holds the block stored `j` steps ago. -/
theorem v2Slot_age (X : ℕ → ℕ → ℂ) {N : ℕ} (t j : ℕ) (hj : j < N) (k : ℕ) :
    v2Slot X N (t + 1) ((v2Cur N t + j) % N) k = if j ≤ t then X (t - j) k else 0 := by
  have hN : 1 ≤ N := by omega
  rw [v2Slot_eq X hN _ _ (Nat.mod_lt _ (by omega)), ← slotAt_age X t j hj k]
  congr 1
  have h1 : t % N < N := Nat.mod_lt _ (by omega)
  have hb := v2Cur_lt hN t
  unfold v2Cur at *
  by_cases c0 : t % N = 0
  · rw [c0, Nat.sub_zero, Nat.mod_self, Nat.zero_add, Nat.zero_add, Nat.mod_eq_of_lt hj]
  · rw [Nat.mod_eq_of_lt (a := N - t % N) (by omega)]
    by_cases c1 : N - t % N + j < N
    · rw [Nat.mod_eq_of_lt c1]
      rw [show N - (N - t % N + j) = t % N - j by omega,
        show t % N + N - j = t % N - j + N by omega, Nat.add_mod_right]
    · rw [show N - t % N + j = (j - t % N) + N by omega, Nat.add_mod_right,
        Nat.mod_eq_of_lt (a := j - t % N) (by omega)]
      congr 1
      omega

/-- Output sample `m` of the overlap-add formula. -/
noncomputable def olaSample (N B : ℕ) (H : ℕ → ℕ → ℂ) (x : ℕ → ℝ) (m : ℕ) : ℝ :=
  olaForm N B H x (m / B) (m % B)

theorem olaSample_at {N B : ℕ} (H : ℕ → ℕ → ℂ) (x : ℕ → ℝ) (t : ℕ) {i : ℕ} (hi : i < B) :
    olaSample N B H x (t * B + i) = olaForm N B H x t i := by
  unfold olaSample
  rw [mul_add_div' hi, mul_add_mod' hi]

/-- Invariant before block `t` of the stream `x`. -/
structure V2Inv (N a : ℕ) (H : ℕ → ℕ → ℂ) (x : ℕ → ℝ) (t : ℕ) (u : UpolaV2) : Prop where
  blockSize : u.blockSize = 2 ^ a
  numSegments : u.numSegments = N
  inputPos : u.inputPos = 0
  current : u.currentSegment = v2Cur N t
  rfft : ∃ f, u.rfft = rfftPlanOf (a + 1) f
  window : u.realWindow = vec (2 ^ (a + 1)) (fun _ => 0)
  overlap : ∃ ov, u.overlap = vec (2 ^ (a + 1)) ov ∧ ∀ i < 2 ^ a, ov i
    = if 1 ≤ t then specOut (2 * 2 ^ a) (specY N H (winSpec (2 ^ a) (seg (2 ^ a)) x) (t - 1))
        (2 ^ a + i) else 0
  complexWindow : ∃ c, u.complexWindow = vec (2 ^ a + 1) c
  fdl : Arr2Rep u.fdl N (2 ^ a + 1) (v2Slot (winSpec (2 ^ a) (seg (2 ^ a)) x) N t)
  filter : FilterLaw denseFilterOps N (2 ^ a + 1) (fun row f => row = vec (2 ^ a + 1) f)
    (fun acc b => acc = vec (2 ^ a + 1) b) u.filter H
  accumulator : ∃ c, u.accumulator = vec (2 ^ a + 1) c
  tmp : ∃ c, u.tmpAccumulator = vec (2 ^ a + 1) c

theorem v2_tail {N a : ℕ} (hN : 1 ≤ N) {H X : ℕ → ℕ → ℂ} {t : ℕ} {u : UpolaV2} {fdl : Arr2 ℂ}
    (hn : u.numSegments = N) (hp : u.inputPos = 0) (hc : u.currentSegment = v2Cur N t)
    (hf : Arr2Rep fdl N (2 ^ a + 1) (v2Slot X N (t + 1)))
    (hfilt : FilterLaw denseFilterOps N (2 ^ a + 1) (fun row f => row = vec (2 ^ a + 1) f)
      (fun acc b => acc = vec (2 ^ a + 1) b) u.filter H)
    (ht : ∃ c, u.tmpAccumulator = vec (2 ^ a + 1) c) :
    v2Tail u fdl = .ok (vec (2 ^ a + 1) (fun k => ∑ j ∈ range (N - 1),
      (if j + 1 ≤ t then X (t - (j + 1)) k else 0) * H (j + 1) k)) := by
  obtain ⟨c, htmp⟩ := ht
  unfold v2Tail
  obtain ⟨acc0, e0, hacc0⟩ := hfilt.accZero _ _ htmp
  subst hacc0
  rw [if_pos hp, e0, bind_ok, hn, hc]
  have key : forR 1 N (v2Segment N fdl u.filter) (v2Cur N t, vec (2 ^ a + 1) (fun _ => 0))
      = .ok ((v2Cur N t + (N - 1)) % N, vec (2 ^ a + 1) (fun k => ∑ j ∈ range (N - 1),
          (if j + 1 ≤ t then X (t - (j + 1)) k else 0) * H (j + 1) k)) := by
    unfold forR
    apply forN_eq' (fun n => ((v2Cur N t + n) % N, vec (2 ^ a + 1) (fun k => ∑ j ∈ range n,
          (if j + 1 ≤ t then X (t - (j + 1)) k else 0) * H (j + 1) k)))
    · rw [Nat.add_zero, Nat.mod_eq_of_lt (v2Cur_lt hN t)]
      simp
    · rfl
    · intro i hi
      unfold v2Segment
      have hidx : (if (v2Cur N t + i) % N + 1 ≥ N then (v2Cur N t + i) % N + 1 - N
          else (v2Cur N t + i) % N + 1) = (v2Cur N t + (i + 1)) % N := by
        rw [← Nat.add_assoc, succ_mod hN]
        have := Nat.mod_lt (v2Cur N t + i) hN
        split_ifs <;> omega
      simp only [hidx]
      obtain ⟨row, er, hr⟩ := (denseFdl_law N (2 ^ a + 1)).row _ _ ((v2Cur N t + (i + 1)) % N) hf
        (Nat.mod_lt _ (by omega))
      rw [er, bind_ok]
      obtain ⟨acc', em, hm⟩ := hfilt.mac row _ (1 + i) _ _ hr (by omega) rfl
      rw [em, bind_ok, pure_eq_ok]
      subst hm
      congr 2
      apply vec_ext
      intro k _
      rw [sum_range_succ, v2Slot_age X t (i + 1) (by omega), Nat.add_comm 1 i]
  rw [key]
  rfl

theorem v2_chunk {N a : ℕ} (hN : 1 ≤ N) (ha2 : a ≤ 26) {H : ℕ → ℕ → ℂ} {x : ℕ → ℝ} {t : ℕ}
    {u : UpolaV2} (hu : V2Inv N a H x t u) {M p n : ℕ} (hp : p < M) (hn : n = min (M - p) (2 ^ a))
    (g : ℕ → ℝ) (hg : ∀ i < n, g (p + i) = x (t * 2 ^ a + i))
    (hz : ∀ i, n ≤ i → i < 2 ^ a → x (t * 2 ^ a + i) = 0) :
    ∃ u', v2Chunk u (vec M g) p = .ok (u', vec M (fun i => if p ≤ i ∧ i < p + n then
        olaForm N (2 ^ a) H x t (i - p) else g i), p + n) ∧
      (n = 2 ^ a → V2Inv N a H x (t + 1) u') := by
  obtain ⟨h1, h2, h3, h4, ⟨f, h5⟩, h6, ⟨ov, h7, hov⟩, ⟨cw, h8⟩, h9, h10, ⟨acc, h11⟩, htmp⟩ := hu
  have hpow : 1 ≤ 2 ^ a := Nat.one_le_two_pow
  have hK : 2 ^ (a + 1) = 2 ^ a + 2 ^ a := by rw [pow_succ]; ring
  have h64 : 2 ^ a < 2 ^ 64 := Nat.pow_lt_pow_right (by norm_num) (by omega)
  have hnM : p + n ≤ M := by omega
  have hnB : n ≤ 2 ^ a := by omega
  set X := winSpec (2 ^ a) (seg (2 ^ a)) x with hX
  unfold v2Chunk
  simp only [length_vec, h1, h2, h3, h4, h5, h6, h7, h8, h11, wsub_eq (Nat.zero_le _) (by omega : 2 ^ a - 0 < 2 ^ 64),
    Nat.sub_zero, ← hn, Nat.zero_add]
  rw [rdSpan_vec (by omega) hnM, bind_ok, Nat.add_sub_cancel_left, copyInto_vec _ _ (by omega), bind_ok]
  obtain ⟨f1, e1⟩ := rfft_vec (b := a + 1) (by omega) le_rfl f
    (fun i => if 0 ≤ i ∧ i < 0 + n then g (p + (i - 0)) else 0) cw
  rw [two_pow_half] at e1
  have hXt : (vec (2 ^ a + 1) fun k => if k < 2 ^ a + 1 then Spec.dft (2 ^ (a + 1)) (fun i =>
      ((if 0 ≤ i ∧ i < 0 + n then g (p + (i - 0)) else 0 : ℝ) : ℂ)) k else cw k)
      = vec (2 ^ a + 1) (X t) := by
    apply vec_ext
    intro k hk
    rw [if_pos hk, hX]
    unfold winSpec
    rw [two_mul_pow]
    apply dft_congr
    intro i hi
    refine congrArg (fun r : ℝ => (r : ℂ)) ?_
    unfold seg
    by_cases c : i < n
    · rw [if_pos (by omega), if_pos (by omega), Nat.sub_zero, hg i c]
    · rw [if_neg (by omega)]
      by_cases c2 : i < 2 ^ a
      · rw [if_pos c2, hz i (by omega) c2]
      · rw [if_neg c2]
  rw [hXt] at e1
  rw [e1, bind_ok]
  simp only []
  obtain ⟨fdl, e2, hfdl⟩ := (denseFdl_law N (2 ^ a + 1)).insert _ _ (X t) (v2Cur N t) h9 (v2Cur_lt hN t)
  have hfdl' : Arr2Rep fdl N (2 ^ a + 1) (v2Slot X N (t + 1)) := hfdl
  rw [e2, bind_ok, v2_tail hN h2 h3 h4 hfdl' h10 htmp, bind_ok, copyVec_vec, bind_ok]
  obtain ⟨row, er, hr⟩ := (denseFdl_law N (2 ^ a + 1)).row _ _ (v2Cur N t) hfdl' (v2Cur_lt hN t)
  rw [er, bind_ok]
  obtain ⟨acc', em, hm⟩ := h10.mac row _ 0 _ _ hr (by omega) rfl
  rw [em, bind_ok]
  have hacc : acc' = vec (2 ^ a + 1) (specY N H X t) := by
    rw [hm]
    apply vec_ext
    intro k _
    unfold specY
    obtain ⟨M', rfl⟩ : ∃ M', N = M' + 1 := ⟨N - 1, by omega⟩
    rw [sum_range_succ']
    simp only [Nat.add_sub_cancel, Nat.zero_le, if_true, Nat.sub_zero]
    congr 2
    rw [v2Slot, if_pos rfl]
  rw [hacc, copyVec_vec, bind_ok]
  obtain ⟨f2, e3⟩ := irfft_vec (b := a + 1) (l := 2 ^ a + 1) (by omega) (two_pow_half a).le
    (by omega) (le_refl (2 ^ (a + 1))) f1 (specY N H X t)
    (fun i => if 0 ≤ i ∧ i < 0 + n then g (p + (i - 0)) else 0)
  rw [e3, bind_ok]
  simp only [rfftPlanOf_size]
  rw [scaleVec_vec, bind_ok]
  have hout : (vec (2 ^ (a + 1)) fun i => (if i < 2 ^ (a + 1) then
      (Spec.idft (2 ^ (a + 1)) (Spec.hermitian (2 ^ (a + 1)) (specY N H X t)) i).re
        else if 0 ≤ i ∧ i < 0 + n then g (p + (i - 0)) else 0)
        * (1 / ((2 ^ (a + 1) : ℕ) : ℝ))) = vec (2 ^ (a + 1)) (specOut (2 ^ (a + 1)) (specY N H X t)) :=
    vec_ext (fun i hi => by rw [if_pos hi]; rfl)
  rw [hout, rdSpan_vec (Nat.zero_le _) (by omega), bind_ok, rdSpan_vec (Nat.zero_le _) (by omega),
    bind_ok, Nat.sub_zero, addVec_vec, bind_ok, wrSpan_vec (by omega), bind_ok]
  have hfin : (vec M fun i => if p ≤ i ∧ i < p + n then
      specOut (2 ^ (a + 1)) (specY N H X t) (0 + (i - p)) + ov (0 + (i - p)) else g i)
      = vec M (fun i => if p ≤ i ∧ i < p + n then olaForm N (2 ^ a) H x t (i - p) else g i) := by
    apply vec_ext
    intro i _
    by_cases c : p ≤ i ∧ i < p + n
    · rw [if_pos c, if_pos c, Nat.zero_add, hov _ (by omega)]
      unfold olaForm olaOut
      rw [two_mul_pow]
    · rw [if_neg c, if_neg c]
  rw [hfin]
  unfold v2Finish
  simp only [h1]
  by_cases c : n = 2 ^ a
  · rw [if_pos c, rdSpan_vec (by omega) (by omega), bind_ok,
      show 2 ^ a * 2 - 2 ^ a = 2 ^ a by omega, copyInto_vec _ _ (by omega), bind_ok, fillVec_vec,
      bind_ok, pure_eq_ok, bind_ok, pure_eq_ok]
    refine ⟨_, rfl, fun _ => ⟨rfl, rfl, rfl, ?_, ⟨f2, rfl⟩, rfl, ⟨_, rfl, ?_⟩, ⟨_, rfl⟩, hfdl', h10,
      ⟨_, rfl⟩, ⟨_, rfl⟩⟩⟩
    · rw [v2Cur_succ hN]
    · intro i hi
      rw [if_pos ⟨Nat.zero_le _, by omega⟩, if_pos (by omega), Nat.add_sub_cancel, Nat.sub_zero,
        two_mul_pow]
  · rw [if_neg c, bind_ok, pure_eq_ok]
    exact ⟨_, rfl, fun h => absurd h c⟩

/-- The loop, from processed position `p`. -/
theorem v2_loop {N a : ℕ} (hN : 1 ≤ N) (ha2 : a ≤ 26) {H : ℕ → ℕ → ℂ} {x : ℕ → ℝ} (M T0 : ℕ)
    (hend : 2 ^ a ∣ T0 + M ∨ ∀ i, T0 + M ≤ i → x i = 0) :
    ∀ fuel t p (u : UpolaV2), V2Inv N a H x t u → t * 2 ^ a = T0 + p → p ≤ M → M - p < fuel →
      ∃ u', v2Loop fuel u (vec M (fun i => if i < p then olaSample N (2 ^ a) H x (T0 + i)
          else x (T0 + i))) p = .ok (u', vec M (fun i => olaSample N (2 ^ a) H x (T0 + i))) ∧
        (2 ^ a ∣ T0 + M → V2Inv N a H x ((T0 + M) / 2 ^ a) u') := by
  have hpow : 1 ≤ 2 ^ a := Nat.one_le_two_pow
  intro fuel
  induction fuel with
  | zero => intro t p u _ _ _ h; omega
  | succ fuel ih =>
    intro t p u hu hp hpM hfuel
    rw [v2Loop, length_vec]
    by_cases c : p < M
    · rw [if_pos c]
      set n := min (M - p) (2 ^ a) with hn
      obtain ⟨u', e, hu'⟩ := v2_chunk hN ha2 hu (M := M) (p := p) c hn
        (fun i => if i < p then olaSample N (2 ^ a) H x (T0 + i) else x (T0 + i))
        (fun i hi => by
          beta_reduce
          rw [if_neg (by omega), hp]; congr 1; omega)
        (fun i h1 h2 => by
          rcases hend with hd | hz
          · exfalso
            have hlt : M - p < 2 ^ a := by omega
            have h3 : 2 ^ a ∣ T0 + p := hp ▸ Dvd.intro_left _ rfl
            have h4 : 2 ^ a ∣ M - p := by
              have := Nat.dvd_sub hd h3
              rwa [show T0 + M - (T0 + p) = M - p by omega] at this
            have := Nat.le_of_dvd (by omega) h4
            omega
          · apply hz
            omega)
      rw [e, bind_ok]
      simp only []
      have hbuf : (vec M fun i => if p ≤ i ∧ i < p + n then olaForm N (2 ^ a) H x t (i - p)
          else if i < p then olaSample N (2 ^ a) H x (T0 + i) else x (T0 + i))
          = vec M (fun i => if i < p + n then olaSample N (2 ^ a) H x (T0 + i) else x (T0 + i)) := by
        apply vec_ext
        intro i _
        by_cases c1 : p ≤ i ∧ i < p + n
        · rw [if_pos c1, if_pos c1.2, ← olaSample_at H x t (show i - p < 2 ^ a by omega), hp]
          congr 1; omega
        · rw [if_neg c1]
          by_cases c2 : i < p
          · rw [if_pos c2, if_pos (by omega)]
          · rw [if_neg c2, if_neg (by omega)]
      rw [hbuf]
      by_cases hfull : n = 2 ^ a
      · obtain ⟨u'', e'', h''⟩ := ih (t + 1) (p + n) u' (hu' hfull) (by rw [add_mul, hp, hfull]; omega)
          (by omega) (by omega)
        exact ⟨u'', e'', h''⟩
      · -- the last, partial chunk
        have hlast : p + n = M := by omega
        rw [hlast]
        have hnd : ¬ 2 ^ a ∣ T0 + M := by
          intro hd
          have h3 : 2 ^ a ∣ T0 + p := hp ▸ Dvd.intro_left _ rfl
          have h4 : 2 ^ a ∣ M - p := by
            have := Nat.dvd_sub hd h3
            rwa [show T0 + M - (T0 + p) = M - p by omega] at this
          have := Nat.le_of_dvd (by omega) h4
          omega
        obtain ⟨fuel, rfl⟩ : ∃ g, fuel = g + 1 := ⟨fuel - 1, by omega⟩
        rw [v2Loop, length_vec, if_neg (by omega)]
        refine ⟨u', ?_, fun h => absurd h hnd⟩
        congr 2
        exact vec_ext (fun i hi => by rw [if_pos hi])
    · obtain rfl : p = M := by omega
      rw [if_neg c]
      refine ⟨u, ?_, fun _ => ?_⟩
      · congr 2
        exact vec_ext (fun i hi => by rw [if_pos hi])
      · rw [← hp, Nat.mul_div_cancel _ hpow]
        exact hu

theorem v2_call {N a : ℕ} (hN : 1 ≤ N) (ha2 : a ≤ 26) {H : ℕ → ℕ → ℂ} {x : ℕ → ℝ} {M t : ℕ}
    (hM : 2 ^ a ≤ M) (hend : 2 ^ a ∣ M ∨ ∀ i, t * 2 ^ a + M ≤ i → x i = 0) {u : UpolaV2}
    (hu : V2Inv N a H x t u) :
    ∃ u', u.call (vec M (fun i => x (t * 2 ^ a + i)))
        = .ok (u', vec M (fun i => olaSample N (2 ^ a) H x (t * 2 ^ a + i))) ∧
      (2 ^ a ∣ M → V2Inv N a H x (t + M / 2 ^ a) u') := by
  have hpow : 1 ≤ 2 ^ a := Nat.one_le_two_pow
  obtain ⟨u', e, h⟩ := v2_loop hN ha2 (H := H) (x := x) M (t * 2 ^ a)
    (hend.imp (fun h => (Nat.dvd_add_right (Dvd.intro_left _ rfl)).2 h) id) (M + 2) t 0 u hu rfl
    (Nat.zero_le _) (by omega)
  refine ⟨u', ?_, ?_⟩
  · unfold UpolaV2.call
    rw [hu.blockSize, length_vec, check_decide_ok hM, bind_ok]
    simpa using e
  · intro hd
    have := h ((Nat.dvd_add_right (Dvd.intro_left _ rfl)).2 hd)
    rwa [Nat.add_comm (t * 2 ^ a) M, Nat.add_mul_div_right _ _ (by omega), Nat.add_comm] at this

/-- All calls but the last have a multiple of the block size. -/
theorem v2_run {N a : ℕ} (hN : 1 ≤ N) (ha2 : a ≤ 26) {H : ℕ → ℕ → ℂ} :
    ∀ (calls : List (List ℝ)) (x : ℕ → ℝ) (t : ℕ) (u : UpolaV2), V2Inv N a H x t u →
      (∀ c ∈ calls, 2 ^ a ≤ c.length) → (∀ c ∈ calls.dropLast, 2 ^ a ∣ c.length) →
      (∀ i, x (t * 2 ^ a + i) = calls.flatten.getD i 0) →
      ∃ u' outs, runBlocks UpolaV2.call u calls = .ok (u', outs) ∧
        outs.map List.length = calls.map List.length ∧
        outs.flatten = vec calls.flatten.length (fun i => olaSample N (2 ^ a) H x (t * 2 ^ a + i)) := by
  intro calls
  induction calls with
  | nil => intro x t u _ _ _ _; exact ⟨u, [], rfl, rfl, rfl⟩
  | cons c cs ih =>
    intro x t u hu hlen hdvd hx
    have hc : c = vec c.length (fun i => x (t * 2 ^ a + i)) := by
      rw [eq_vec_getD c (0 : ℝ), length_vec]
      apply vec_ext
      intro i hi
      rw [hx, List.flatten_cons, List.getD_eq_getElem?_getD, List.getD_eq_getElem?_getD,
        List.getElem?_append_left hi]
    have hend : 2 ^ a ∣ c.length ∨ ∀ i, t * 2 ^ a + c.length ≤ i → x i = 0 := by
      cases cs with
      | nil =>
        right
        intro i hi
        obtain ⟨j, rfl⟩ : ∃ j, i = t * 2 ^ a + j := ⟨i - t * 2 ^ a, by omega⟩
        rw [hx, List.getD_eq_getElem?_getD, List.getElem?_eq_none (by simp; omega)]
        rfl
      | cons d ds => exact .inl (hdvd c (by simp))
    obtain ⟨u1, e1, h1⟩ := v2_call hN ha2 (hlen c (by simp)) hend hu
    rw [← hc] at e1
    rw [runBlocks, e1, bind_ok]
    simp only []
    cases cs with
    | nil =>
      refine ⟨u1, [_], rfl, by simp, by simp⟩
    | cons d ds =>
      have hd := hdvd c (by simp)
      obtain ⟨u2, outs, e2, h2, h3⟩ := ih x (t + c.length / 2 ^ a) u1 (h1 hd)
        (fun e he => hlen e (List.mem_cons_of_mem _ he))
        (fun e he => hdvd e (by
          rw [List.dropLast_cons_of_ne_nil (by simp)]
          exact List.mem_cons_of_mem _ he))
        (fun i => by
          rw [add_mul, Nat.div_mul_cancel hd, add_assoc, hx, List.flatten_cons,
            List.getD_eq_getElem?_getD, List.getD_eq_getElem?_getD,
            List.getElem?_append_right (by omega), Nat.add_sub_cancel_left])
      rw [e2, bind_ok]
      refine ⟨u2, _, rfl, by simpa using h2, ?_⟩
      rw [List.flatten_cons, h3, List.flatten_cons (l := c), List.length_append, vec_append]
      congr 1
      apply vec_ext
      intro i _
      rw [add_mul, Nat.div_mul_cancel hd, add_assoc]

theorem v2Slot_zero (X : ℕ → ℕ → ℂ) (N t s k : ℕ) (h : ∀ u < t, X u k = 0) : v2Slot X N t s k = 0 := by
  induction t with
  | zero => rfl
  | succ t ih =>
    rw [v2Slot, ih (fun u hu => h u (by omega)), h t (by omega), ite_self]

/-- Loading a filter while the input position is 0 and the current segment `v2Cur N t` is in range:
the convolver behaves as after `t` blocks of silence. -/
theorem v2_load {N a : ℕ} (ha2 : a ≤ 26) {v : MatView} {data : List ℂ}
    (hv : v.InRange data.length) (hr : v.rows = N) (hc : v.cols = 2 ^ a + 1)
    {H : ℕ → ℕ → ℂ} (hH : ∀ r < v.rows, ∀ c < v.cols, matAt v data r c = H r c) (x : ℕ → ℝ) (t : ℕ)
    (hx : ∀ i < t * 2 ^ a, x i = 0)
    (u0 : UpolaV2) (h1 : u0.inputPos = 0) (h2 : u0.currentSegment = v2Cur N t) :
    ∃ u, u0.load v data = .ok u ∧ V2Inv N a H x t u := by
  obtain ⟨filt, ef, hf⟩ := denseFilter_law hv u0.filter hH
  rw [hr, hc] at hf
  have hord : nextOrder (2 ^ a * 2) = a + 1 := by
    rw [nextOrder_eq, ← pow_succ, Nat.clog_pow 2 _ (by norm_num)]
  have hX : ∀ u < t, ∀ k, winSpec (2 ^ a) (seg (2 ^ a)) x u k = 0 := by
    intro u hu k
    unfold winSpec Spec.dft
    apply sum_eq_zero
    intro n _
    beta_reduce
    have : seg (2 ^ a) x u n = 0 := by
      unfold seg
      by_cases c : n < 2 ^ a
      · rw [if_pos c]
        apply hx
        have : (u + 1) * 2 ^ a ≤ t * 2 ^ a := Nat.mul_le_mul_right _ hu
        rw [add_mul] at this
        omega
      · rw [if_neg c]
    rw [this]
    simp
  unfold UpolaV2.load
  simp only []
  rw [if_neg (c := v.cols = 0) (by rw [hc]; exact Nat.succ_ne_zero _), bind_ok]
  simp only [hc, Nat.add_sub_cancel, hord, hr]
  rw [rfftPlan_make_eq (b := a + 1) (by omega), bind_ok, ef, bind_ok, pure_eq_ok]
  refine ⟨_, rfl, ?_⟩
  refine ⟨rfl, rfl, h1, h2, ⟨_, rfl⟩, ?_, ⟨fun _ => 0, ?_, ?_⟩, ⟨fun _ => 0, ?_⟩, ?_, hf, ⟨_, rfl⟩, ⟨_, rfl⟩⟩
  · rw [rfftPlanOf_size]
  · rw [rfftPlanOf_size]
  · intro i _
    have hY : specY N H (winSpec (2 ^ a) (seg (2 ^ a)) x) (t - 1) = (fun _ => 0) ∨ t = 0 := by
      by_cases c : t = 0
      · exact .inr c
      · left
        funext k
        unfold specY
        apply sum_eq_zero
        intro j _
        rw [hX _ (by omega) k, ite_self, zero_mul]
    rcases hY with e | e
    · rw [e, specOut_zero, ite_self]
    · rw [e]; rfl
  · rw [rfftPlanOf_size, two_pow_half]
  · have := (denseFdl_law (K := ℂ) N (2 ^ a + 1)).make
    have e : v2Slot (winSpec (2 ^ a) (seg (2 ^ a)) x) N t = fun _ _ => 0 := by
      funext s k
      exact v2Slot_zero _ _ _ _ _ (fun u hu => hX u hu k)
    rw [e]
    exact this

theorem v2_make_eq : ∃ u, UpolaV2.make = .ok u ∧ u.inputPos = 0 ∧ u.currentSegment = 0 := by
  unfold UpolaV2.make
  rw [show nextOrder 4 = 2 by rw [nextOrder_eq]; decide +kernel, rfftPlan_make_eq (b := 2) (by omega),
    bind_ok, pure_eq_ok]
  exact ⟨_, rfl, rfl, rfl⟩

theorem v2Cur_surj {N c : ℕ} (hc : c < N) : ∃ t, v2Cur N t = c := by
  refine ⟨N - c, ?_⟩
  unfold v2Cur
  by_cases h : c = 0
  · subst h
    rw [Nat.sub_zero, Nat.mod_self, Nat.sub_zero, Nat.mod_self]
  · rw [Nat.mod_eq_of_lt (a := N - c) (by omega), Nat.mod_eq_of_lt (by omega)]
    omega

/-- Load in a state with input position 0 and current segment in range, then run. -/
theorem v2_load_run {a : ℕ} (ha2 : a ≤ 26) {v : MatView} {data : List ℂ}
    (hv : v.InRange data.length) (hc : v.cols = 2 ^ a + 1)
    {H : ℕ → ℕ → ℂ} (hH : ∀ r < v.rows, ∀ c < v.cols, matAt v data r c = H r c)
    (u0 : UpolaV2) (h1 : u0.inputPos = 0) (h2 : u0.currentSegment < v.rows)
    (calls : List (List ℝ)) (hlen : ∀ c ∈ calls, 2 ^ a ≤ c.length)
    (hdvd : ∀ c ∈ calls.dropLast, 2 ^ a ∣ c.length) :
    ∃ u u' outs, u0.load v data = .ok u ∧ runBlocks UpolaV2.call u calls = .ok (u', outs) ∧
      outs.map List.length = calls.map List.length ∧
      outs.flatten = vec calls.flatten.length (fun i =>
        olaSample v.rows (2 ^ a) H (fun i => calls.flatten.getD i 0) i) := by
  have hpow : 1 ≤ 2 ^ a := Nat.one_le_two_pow
  obtain ⟨t, ht⟩ := v2Cur_surj h2
  have hd : ∀ i, (fun n => if n < t * 2 ^ a then 0 else calls.flatten.getD (n - t * 2 ^ a) 0)
      (t * 2 ^ a + i) = calls.flatten.getD i 0 := by
    intro i
    beta_reduce
    rw [if_neg (by omega), Nat.add_sub_cancel_left]
  obtain ⟨u, e, hu⟩ := v2_load ha2 hv rfl hc hH
    (fun n => if n < t * 2 ^ a then 0 else calls.flatten.getD (n - t * 2 ^ a) 0) t
    (fun i hi => if_pos hi) u0 h1 ht.symm
  obtain ⟨u', outs, e', h3, h4⟩ := v2_run (by omega) ha2 calls _ t u hu hlen hdvd hd
  refine ⟨u, u', outs, e, e', h3, ?_⟩
  rw [h4]
  apply vec_ext
  intro i _
  unfold olaSample
  rw [show t * 2 ^ a + i = i + t * 2 ^ a by ring, Nat.add_mul_div_right _ _ (by omega),
    Nat.add_mul_mod_self_right]
  have := olaForm_delay v.rows (2 ^ a) H t (fun i => calls.flatten.getD i 0) (i / 2 ^ a + t) (i % 2 ^ a)
    (Nat.mod_lt _ (by omega))
  rw [if_neg (Nat.not_lt.2 (Nat.le_add_left _ _)), Nat.add_sub_cancel] at this
  exact this

theorem olaSample_conv {B N : ℕ} (hB : 1 ≤ B) {h : ℕ → ℝ} (hh : ∀ m, N * B ≤ m → h m = 0) (x : ℕ → ℝ)
    (i : ℕ) : olaSample N B (fun j => Spec.dft (2 * B) (fun m => ((seg B h j m : ℝ) : ℂ))) x i
      = Spec.conv h x i := by
  unfold olaSample olaForm
  rw [ola_conv hh x _ (Nat.mod_lt _ (by omega)), Nat.div_add_mod']

/-! ## Only the first segment is not silent, any input position -/

/-- The spectra of a filter whose segments but the first are silent. -/
def firstOnly (H : ℕ → ℂ) (j : ℕ) : ℕ → ℂ := if j = 0 then H else fun _ => 0

/-- A convolver of `N` segments, of which only the first is not silent, with `q` samples of the current
block received. -/
structure V2One (N a : ℕ) (H : ℕ → ℂ) (q : ℕ) (w ov : ℕ → ℝ) (u : UpolaV2) : Prop where
  blockSize : u.blockSize = 2 ^ a
  numSegments : u.numSegments = N
  inputPos : u.inputPos = q
  current : u.currentSegment < N
  rfft : ∃ f, u.rfft = rfftPlanOf (a + 1) f
  window : u.realWindow = vec (2 ^ (a + 1)) w
  overlap : u.overlap = vec (2 ^ (a + 1)) ov
  complexWindow : ∃ c, u.complexWindow = vec (2 ^ a + 1) c
  fdl : ∃ X, Arr2Rep u.fdl N (2 ^ a + 1) X
  filter : FilterLaw denseFilterOps N (2 ^ a + 1) (fun row f => row = vec (2 ^ a + 1) f)
    (fun acc b => acc = vec (2 ^ a + 1) b) u.filter (firstOnly H)
  accumulator : ∃ c, u.accumulator = vec (2 ^ a + 1) c
  tmp : ∃ c, u.tmpAccumulator = vec (2 ^ a + 1) c ∧ (q ≠ 0 → c = fun _ => 0)

theorem V2Inv.one {a : ℕ} {H : ℕ → ℕ → ℂ} {x : ℕ → ℝ} {u : UpolaV2} (h : V2Inv 1 a H x 0 u) :
    ∃ ov, V2One 1 a (H 0) 0 (fun _ => 0) ov u ∧ ∀ i < 2 ^ a, ov i = 0 := by
  obtain ⟨h1, h2, h3, h4, h5, h6, ⟨ov, h7, hov⟩, h8, h9, h10, h11, ⟨c, hc⟩⟩ := h
  refine ⟨ov, ⟨h1, h2, h3, h4 ▸ v2Cur_lt le_rfl 0, h5, h6, h7, h8, ⟨_, h9⟩, ?_, h11,
    ⟨c, hc, fun h => absurd rfl h⟩⟩, fun i hi => hov i hi⟩
  refine ⟨?_, h10.accMake, h10.accZero, h10.accOut⟩
  intro row f j acc b hr hj hb
  obtain rfl : j = 0 := by omega
  exact h10.mac row f 0 acc b hr hj hb

/-- The loop over the silent segments adds nothing. -/
theorem v2_tail_zero {N a : ℕ} {H : ℕ → ℂ} {X : ℕ → ℕ → ℂ} {s : ℕ} (hs : s < N) {fdl filt : Arr2 ℂ}
    (hf : Arr2Rep fdl N (2 ^ a + 1) X)
    (hfilt : FilterLaw denseFilterOps N (2 ^ a + 1) (fun row f => row = vec (2 ^ a + 1) f)
      (fun acc b => acc = vec (2 ^ a + 1) b) filt (firstOnly H)) :
    forR 1 N (v2Segment N fdl filt) (s, vec (2 ^ a + 1) (fun _ => 0))
      = .ok ((s + (N - 1)) % N, vec (2 ^ a + 1) (fun _ => 0)) := by
  unfold forR
  apply forN_eq' (fun n => ((s + n) % N, vec (2 ^ a + 1) (fun _ => (0 : ℂ))))
  · rw [Nat.add_zero, Nat.mod_eq_of_lt hs]
  · rfl
  · intro i hi
    unfold v2Segment
    have hidx : (if (s + i) % N + 1 ≥ N then (s + i) % N + 1 - N
        else (s + i) % N + 1) = (s + (i + 1)) % N := by
      rw [← Nat.add_assoc, succ_mod (by omega)]
      have := Nat.mod_lt (s + i) (show N > 0 by omega)
      split_ifs <;> omega
    simp only [hidx]
    obtain ⟨row, er, hr⟩ := (denseFdl_law N (2 ^ a + 1)).row _ _ ((s + (i + 1)) % N) hf
      (Nat.mod_lt _ (by omega))
    rw [er, bind_ok]
    obtain ⟨acc', em, hm⟩ := hfilt.mac row _ (1 + i) _ _ hr (by omega) rfl
    rw [em, bind_ok, pure_eq_ok]
    subst hm
    congr 2
    apply vec_ext
    intro k _
    unfold firstOnly
    rw [if_neg (by omega), mul_zero, add_zero]

theorem v2_chunk_one {N a : ℕ} (ha2 : a ≤ 26) {H : ℕ → ℂ} {q : ℕ} {w ov : ℕ → ℝ}
    {u : UpolaV2} (hu : V2One N a H q w ov u) (hq : q ≤ 2 ^ a) {M p n : ℕ} (hp : p < M)
    (hn : n = min (M - p) (2 ^ a - q)) (g w' W : ℕ → ℝ)
    (hw' : w' = fun i => if q ≤ i ∧ i < q + n then g (p + (i - q)) else w i)
    (hW : W = specOut (2 ^ (a + 1)) (fun k => Spec.dft (2 ^ (a + 1)) (fun i => ((w' i : ℝ) : ℂ)) k * H k)) :
    ∃ u', v2Chunk u (vec M g) p = .ok (u', vec M (fun i => if p ≤ i ∧ i < p + n then
        W (q + (i - p)) + ov (q + (i - p)) else g i), p + n) ∧
      (q + n < 2 ^ a → V2One N a H (q + n) W ov u') ∧
      (q + n = 2 ^ a → V2One N a H 0 (fun _ => 0)
        (fun i => if 0 ≤ i ∧ i < 0 + 2 ^ a then W (2 ^ a + (i - 0)) else ov i) u') := by
  obtain ⟨h1, h2, h3, h4, ⟨f, h5⟩, h6, h7, ⟨cw, h8⟩, ⟨X, h9⟩, h10, ⟨acc, h11⟩, ⟨tm, htmp, htz⟩⟩ := hu
  have hpow : 1 ≤ 2 ^ a := Nat.one_le_two_pow
  have hK : 2 ^ (a + 1) = 2 ^ a + 2 ^ a := by rw [pow_succ]; ring
  have h64 : 2 ^ a < 2 ^ 64 := Nat.pow_lt_pow_right (by norm_num) (by omega)
  have hnM : p + n ≤ M := by omega
  have hnB : q + n ≤ 2 ^ a := by omega
  unfold v2Chunk
  simp only [length_vec, h1, h2, h3, h5, h6, h7, h8, h11,
    wsub_eq hq (by omega : 2 ^ a - q < 2 ^ 64), ← hn]
  rw [rdSpan_vec (by omega) hnM, bind_ok, Nat.add_sub_cancel_left, copyInto_vec _ _ (by omega), bind_ok,
    ← hw']
  obtain ⟨f1, e1⟩ := rfft_vec (b := a + 1) (by omega) le_rfl f w' cw
  rw [two_pow_half] at e1
  set S : ℕ → ℂ := fun k => if k < 2 ^ a + 1 then
    Spec.dft (2 ^ (a + 1)) (fun i => ((w' i : ℝ) : ℂ)) k else cw k with hS
  rw [e1, bind_ok]
  simp only []
  obtain ⟨fdl, e2, hfdl⟩ := (denseFdl_law N (2 ^ a + 1)).insert _ _ S u.currentSegment h9 h4
  have htail : v2Tail u fdl = .ok (vec (2 ^ a + 1) (fun _ => 0)) := by
    unfold v2Tail
    by_cases c : u.inputPos = 0
    · obtain ⟨acc0, e0, hacc0⟩ := h10.accZero _ _ htmp
      rw [if_pos c, e0, bind_ok, h2, hacc0, v2_tail_zero h4 hfdl h10, bind_ok, pure_eq_ok]
    · rw [if_neg c, htmp, htz (by omega)]
  rw [e2, bind_ok, htail, bind_ok, copyVec_vec, bind_ok]
  obtain ⟨row, er, hr⟩ := (denseFdl_law N (2 ^ a + 1)).row _ _ u.currentSegment hfdl h4
  rw [er, bind_ok]
  obtain ⟨acc', em, hm⟩ := h10.mac row _ 0 _ _ hr (by omega) rfl
  rw [em, bind_ok]
  have hacc : acc' = vec (2 ^ a + 1) (fun k => S k * H k) := by
    rw [hm]
    apply vec_ext
    intro k _
    simp [firstOnly]
  rw [hacc, copyVec_vec, bind_ok]
  obtain ⟨f2, e3⟩ := irfft_vec (b := a + 1) (l := 2 ^ a + 1) (by omega) (two_pow_half a).le
    (by omega) (le_refl (2 ^ (a + 1))) f1 (fun k => S k * H k) w'
  rw [e3, bind_ok]
  simp only [rfftPlanOf_size]
  rw [scaleVec_vec, bind_ok]
  have hout : (vec (2 ^ (a + 1)) fun i => (if i < 2 ^ (a + 1) then
      (Spec.idft (2 ^ (a + 1)) (Spec.hermitian (2 ^ (a + 1)) (fun k => S k * H k)) i).re
        else w' i) * (1 / ((2 ^ (a + 1) : ℕ) : ℝ))) = vec (2 ^ (a + 1)) W := by
    apply vec_ext
    intro i hi
    rw [if_pos hi, hW]
    show specOut _ _ _ = _
    apply specOut_congr
    intro k hk
    have := two_pow_half a
    rw [hS]
    beta_reduce
    rw [if_pos (by omega)]
  rw [hout, rdSpan_vec (by omega) (by omega), bind_ok, rdSpan_vec (by omega) (by omega),
    bind_ok, Nat.add_sub_cancel_left, addVec_vec, bind_ok, wrSpan_vec (by omega), bind_ok]
  unfold v2Finish
  simp only [h1]
  by_cases c : q + n = 2 ^ a
  · rw [if_pos c, rdSpan_vec (by omega) (by omega), bind_ok,
      show 2 ^ a * 2 - 2 ^ a = 2 ^ a by omega, copyInto_vec _ _ (by omega), bind_ok, fillVec_vec,
      bind_ok, pure_eq_ok, bind_ok, pure_eq_ok]
    exact ⟨_, rfl, fun h => absurd c (by omega), fun _ => ⟨rfl, rfl, rfl, by dsimp only; split_ifs <;> omega, ⟨f2, rfl⟩, rfl,
      rfl, ⟨_, rfl⟩, ⟨_, hfdl⟩, h10, ⟨_, rfl⟩, ⟨_, rfl, fun h => absurd rfl h⟩⟩⟩
  · rw [if_neg c, bind_ok, pure_eq_ok]
    exact ⟨_, rfl, fun _ => ⟨rfl, rfl, rfl, h4, ⟨f2, rfl⟩, rfl, rfl,
      ⟨_, rfl⟩, ⟨_, hfdl⟩, h10, ⟨_, rfl⟩, ⟨_, rfl, fun _ => rfl⟩⟩, fun h => absurd h c⟩

/-- A current segment outside the filter: the first call faults. -/
theorem v2_oob {a : ℕ} (ha2 : a ≤ 26) {v : MatView} {data : List ℂ}
    (hv : v.InRange data.length) (hc : v.cols = 2 ^ a + 1) (u0 : UpolaV2) (h1 : u0.inputPos = 0)
    (h2 : v.rows ≤ u0.currentSegment) (x : List ℝ) (hx : 2 ^ a ≤ x.length) :
    ∃ u, u0.load v data = .ok u ∧ u.call x = .error .oob := by
  have hpow : 1 ≤ 2 ^ a := Nat.one_le_two_pow
  have hK : 2 ^ (a + 1) = 2 ^ a + 2 ^ a := by rw [pow_succ]; ring
  have h64 : 2 ^ a < 2 ^ 64 := Nat.pow_lt_pow_right (by norm_num) (by omega)
  obtain ⟨filt, ef, -⟩ := denseFilter_law hv u0.filter (fun _ _ _ _ => rfl)
  have hord : nextOrder (2 ^ a * 2) = a + 1 := by
    rw [nextOrder_eq, ← pow_succ, Nat.clog_pow 2 _ (by norm_num)]
  unfold UpolaV2.load
  simp only []
  rw [if_neg (c := v.cols = 0) (by rw [hc]; exact Nat.succ_ne_zero _), bind_ok]
  simp only [hc, Nat.add_sub_cancel, hord]
  rw [rfftPlan_make_eq (b := a + 1) (by omega), bind_ok, ef, bind_ok, pure_eq_ok]
  refine ⟨_, rfl, ?_⟩
  unfold UpolaV2.call
  simp only []
  rw [check_decide_ok hx, bind_ok, v2Loop, if_pos (by omega)]
  unfold v2Chunk
  simp only [h1, wsub_eq (Nat.zero_le _) (by omega : 2 ^ a - 0 < 2 ^ 64), Nat.sub_zero, Nat.zero_add,
    rfftPlanOf_size, two_pow_half]
  rw [min_eq_right hx]
  rw [show rdSpan x 0 (2 ^ a) = .ok (vec (2 ^ a) (fun i => x.getD (0 + i) 0)) by
    conv_lhs => rw [eq_vec_getD x (0 : ℝ)]
    rw [rdSpan_vec (Nat.zero_le _) hx, Nat.sub_zero], bind_ok, copyInto_vec _ _ (by omega), bind_ok]
  obtain ⟨f1, e1⟩ := rfft_vec (b := a + 1) (by omega) le_rfl (fun _ => 0)
    (fun i => if 0 ≤ i ∧ i < 0 + 2 ^ a then x.getD (0 + (i - 0)) 0 else 0) (fun _ => 0)
  rw [two_pow_half] at e1
  rw [e1, bind_ok]
  simp only [denseFdlOps, Arr2.row]
  unfold rdSpan
  rw [length_vec, if_neg, bind_error, bind_error, bind_error]
  intro h
  have := Nat.mul_le_mul_right (2 ^ a + 1) h2
  omega

end Neo
