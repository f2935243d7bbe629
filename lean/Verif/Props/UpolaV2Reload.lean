import Verif.Props.UpolaV2Exact
import Verif.Lemmas.UpolaV2Reload

/-!
# Exactly in which states `overlap_add_convolver` may be given a new filter: C27

`filter()` keeps the input position and the current segment.  For every state, every number of segments
and every sequence of call lengths this file says whether the outputs after `filter()` are the linear
convolution.
-/

namespace Neo.Props

open Neo Finset

/-- The convolution does not notice silence in front of the signal. -/
theorem conv_after_silence (h y : ℕ → ℝ) (T i : ℕ) :
    Spec.conv h (fun n => if n < T then 0 else y (n - T)) (T + i) = Spec.conv h y i := by
  unfold Spec.conv
  rw [show T + i + 1 = (i + 1) + T by ring, sum_range_add]
  have h0 : ∑ j ∈ range T, h (i + 1 + j) * (if T + i - (i + 1 + j) < T then 0
      else y (T + i - (i + 1 + j) - T)) = 0 :=
    sum_eq_zero fun j hj => by
      have := mem_range.1 hj
      rw [if_pos (by omega), mul_zero]
  rw [h0, add_zero]
  refine sum_congr rfl fun j hj => ?_
  have := mem_range.1 hj
  beta_reduce
  rw [if_neg (by omega)]
  congr 2
  omega

/-- The outputs after loading the segments of `h`, in a state with at most one block pending and the
current segment inside the filter, if all calls but the last end at block boundaries. -/
theorem v2_reload_run {N a : ℕ} (ha2 : a ≤ 26) {v : MatView} {data : List ℂ}
    (hv : v.InRange data.length) (hr : v.rows = N) (hc : v.cols = 2 ^ a + 1) {h : ℕ → ℝ}
    (hh : ∀ m, N * 2 ^ a ≤ m → h m = 0)
    (hH : ∀ r < v.rows, ∀ c < v.cols, matAt v data r c
      = Spec.dft (2 * 2 ^ a) (fun m => ((seg (2 ^ a) h r m : ℝ) : ℂ)) c)
    (u0 : UpolaV2) (h1 : u0.inputPos ≤ 2 ^ a) (h2 : u0.currentSegment < N)
    (c : List ℝ) (cs : List (List ℝ)) (hlen : ∀ b ∈ c :: cs, 2 ^ a ≤ b.length)
    (hal : cs = [] ∨ (2 ^ a ∣ u0.inputPos + c.length ∧ ∀ b ∈ cs.dropLast, 2 ^ a ∣ b.length)) :
    ∃ outs, v2LoadAndRun u0 v data (c :: cs) = .ok outs ∧ IsConvOf outs (c :: cs) h := by
  have hpow : 1 ≤ 2 ^ a := Nat.one_le_two_pow
  rcases Nat.eq_zero_or_pos u0.inputPos with hq | hq
  · obtain ⟨u, u', outs, e1, e2, h3, h4⟩ := v2_load_run ha2 hv hc
      (H := fun j => Spec.dft (2 * 2 ^ a) (fun m => ((seg (2 ^ a) h j m : ℝ) : ℂ))) hH u0 hq
      (by omega) (c :: cs) hlen (by
        rcases hal with rfl | ⟨g1, g2⟩
        · simp
        · rcases cs with _ | ⟨d, ds⟩
          · simp
          · rw [List.dropLast_cons_of_ne_nil (by simp)]
            intro b hb
            rcases List.mem_cons.1 hb with rfl | hb
            · rwa [hq, Nat.zero_add] at g1
            · exact g2 b hb)
    refine ⟨outs, ?_, h3, ?_⟩
    · unfold v2LoadAndRun
      rw [e1, bind_ok, e2, bind_ok]
      rfl
    · intro n hn
      rw [h4, getElem?_vec, if_pos hn, hr]
      congr 1
      exact olaSample_conv Nat.one_le_two_pow hh _ _
  · obtain ⟨t, ht⟩ := v2Cur_surj h2
    obtain ⟨u, e1, hu⟩ := v2_loaded ha2 hv hr hc
      (H := fun j => Spec.dft (2 * 2 ^ a) (fun m => ((seg (2 ^ a) h j m : ℝ) : ℂ))) hH u0
    set y : ℕ → ℝ := fun i => (c :: cs).flatten.getD i 0 with hy
    set T := t * 2 ^ a + u0.inputPos with hT
    set x : ℕ → ℝ := fun n => if n < T then 0 else y (n - T) with hxd
    have hxy : ∀ i, x (T + i) = y i := by
      intro i
      rw [hxd]
      beta_reduce
      rw [if_neg (by omega), Nat.add_sub_cancel_left]
    have hcv : c = vec c.length (fun i => x (T + i)) := by
      rw [eq_vec_getD c (0 : ℝ), length_vec]
      apply vec_ext
      intro i hi
      rw [hxy, hy]
      beta_reduce
      rw [List.flatten_cons, List.getD_eq_getElem?_getD, List.getD_eq_getElem?_getD,
        List.getElem?_append_left hi]
    have hend : 2 ^ a ∣ u0.inputPos + c.length ∨ ∀ i, T + c.length ≤ i → x i = 0 := by
      rcases hal with rfl | ⟨g1, -⟩
      · right
        intro i hi
        obtain ⟨j, rfl⟩ : ∃ j, i = T + j := ⟨i - T, by omega⟩
        rw [hxy, hy]
        beta_reduce
        rw [List.getD_eq_getElem?_getD, List.getElem?_eq_none (by simp; omega)]
        rfl
      · exact .inl g1
    obtain ⟨u1, e2, h5⟩ := v2_call_pending (by omega) ha2 hu hq h1 rfl ht.symm (x := x)
      (fun i hi => if_pos hi) (hlen c (by simp)) hend
    rw [← hT, ← hcv] at e2
    have hconv : ∀ i, olaSample N (2 ^ a) (fun j => Spec.dft (2 * 2 ^ a) (fun m =>
        ((seg (2 ^ a) h j m : ℝ) : ℂ))) x (T + i) = Spec.conv h y i := by
      intro i
      rw [olaSample_conv hpow hh, hxd, conv_after_silence]
    unfold v2LoadAndRun
    rw [e1, bind_ok, runBlocks, e2, bind_ok]
    simp only []
    rcases cs with _ | ⟨d, ds⟩
    · refine ⟨[_], rfl, by simp, ?_⟩
      intro n hn
      simp only [List.flatten_cons, List.flatten_nil, List.append_nil, List.length_append,
        List.length_nil, Nat.add_zero] at hn
      rw [List.flatten_cons, List.flatten_nil, List.append_nil, getElem?_vec, if_pos hn, hconv]
    · obtain ⟨g1, g2⟩ := hal.resolve_left (by simp)
      have hdT : 2 ^ a ∣ T + c.length := by
        rw [hT, Nat.add_assoc]; exact (Nat.dvd_add_right (Dvd.intro_left _ rfl)).2 g1
      obtain ⟨u2, outs, e3, h6, h7⟩ := v2_run (by omega) ha2 (d :: ds) x _ u1 (h5 g1)
        (fun b hb => hlen b (List.mem_cons_of_mem _ hb)) g2 (fun i => by
          rw [Nat.div_mul_cancel hdT, add_assoc, hxy, hy]
          beta_reduce
          rw [List.flatten_cons, List.getD_eq_getElem?_getD, List.getD_eq_getElem?_getD,
            List.getElem?_append_right (by omega), Nat.add_sub_cancel_left])
      rw [e3, bind_ok]
      refine ⟨_, rfl, by simpa using h6, ?_⟩
      intro n hn
      rw [List.flatten_cons, List.length_append] at hn
      rw [List.flatten_cons, h7]
      rcases Nat.lt_or_ge n c.length with hlt | hge
      · rw [List.getElem?_append_left (by rw [length_vec]; exact hlt), getElem?_vec, if_pos hlt, hconv]
      · rw [List.getElem?_append_right (by rw [length_vec]; exact hge), length_vec, getElem?_vec,
          if_pos (by omega), Nat.div_mul_cancel hdT, add_assoc, hconv]
        congr 2
        omega

/-! ### Silent histories with a pending input position -/

/-- A loop step with a full pending block. -/
theorem silent_full {N a : ℕ} (ha2 : a ≤ 26) {u : UpolaV2} (hu : V2Silent N a (2 ^ a) u) {M : ℕ}
    (hM : 0 < M) (g : ℕ → ℝ) {fuel : ℕ} :
    ∃ u', v2Loop (fuel + 1) u (vec M g) 0 = v2Loop fuel u' (vec M g) 0 ∧ V2Silent N a 0 u' := by
  obtain ⟨w, ov, h, hw, hov⟩ := hu
  have hK : 2 ^ (a + 1) = 2 ^ a + 2 ^ a := by rw [pow_succ]; ring
  obtain ⟨u', e, -, h2⟩ := v2_chunk_one ha2 h le_rfl hM (n := 0) (by omega) g _ _ rfl rfl
  refine ⟨u', ?_, ⟨_, _, h2 (by omega), fun _ _ => rfl, fun i hi => ?_⟩⟩
  · rw [v2Loop_step (by rw [length_vec]; exact hM) e]
    congr 1
  · rw [if_pos (by omega)]
    refine delay_zero (fun i hi => ?_) (by omega)
    beta_reduce
    rw [if_neg (by omega)]
    exact hw i hi

/-- A silent call in a state with at most one block pending. -/
theorem silent_call_le {N a q : ℕ} (ha2 : a ≤ 26) {u : UpolaV2} (hu : V2Silent N a q u)
    (hq : q ≤ 2 ^ a) {M : ℕ} (hM : 2 ^ a ≤ M) :
    ∃ u', u.call (vec M fun _ => 0) = .ok (u', vec M fun _ => 0) ∧
      V2Silent N a ((q + M) % 2 ^ a) u' := by
  have hpow : 1 ≤ 2 ^ a := Nat.one_le_two_pow
  rcases Nat.lt_or_ge q (2 ^ a) with hlt | hge
  · exact silent_call ha2 hu hlt hM
  · obtain rfl : q = 2 ^ a := by omega
    obtain ⟨w, ov, h, -⟩ := id hu
    obtain ⟨u1, e1, h1⟩ := silent_full ha2 hu (show 0 < M by omega) (fun _ => 0) (fuel := M + 1)
    obtain ⟨u2, e2, h2⟩ := silent_loop ha2 (M := M) (g := fun _ => 0) (M + 1) 0 0 u1 h1 (by omega)
      (by omega) (by omega) (fun _ _ _ => rfl)
    refine ⟨u2, ?_, ?_⟩
    · unfold UpolaV2.call
      rw [h.blockSize, check_decide_ok (by rw [length_vec]; exact hM), bind_ok, length_vec]
      rw [e1, e2]
    · rwa [Nat.add_comm, Nat.add_mod_right, ← Nat.zero_add M]

/-- Silence up to a block boundary at `m`. -/
theorem silent_to {N a : ℕ} (ha2 : a ≤ 26) {M m : ℕ} (hm : m ≤ M) {g : ℕ → ℝ} :
    ∀ fuel p q (u : UpolaV2), V2Silent N a q u → q < 2 ^ a → p ≤ m → 2 ^ a ∣ q + (m - p) →
      M - p < fuel → (∀ i, p ≤ i → i < m → g i = 0) →
      ∃ u' fuel', v2Loop fuel u (vec M g) p = v2Loop fuel' u' (vec M g) m ∧ V2Silent N a 0 u' ∧
        M - m < fuel' := by
  have hpow : 1 ≤ 2 ^ a := Nat.one_le_two_pow
  intro fuel
  induction fuel with
  | zero => intro p q u _ _ _ _ h; omega
  | succ fuel ih =>
    intro p q u hu hq hp hd hf hg
    rcases Nat.lt_or_ge p m with hlt | hge
    · have hle : 2 ^ a ≤ q + (m - p) := Nat.le_of_dvd (by omega) hd
      obtain ⟨u1, e, -, h2⟩ := silent_chunk ha2 hu hq (show p < M by omega)
        (n := 2 ^ a - q) (by omega) g (fun i c1 c2 => hg i c1 (by omega))
      rw [v2Loop_step (by rw [length_vec]; omega) e]
      refine ih (p + (2 ^ a - q)) 0 u1 (h2 (by omega)) (by omega) (by omega) ?_ (by omega)
        (fun i c1 c2 => hg i (by omega) c2)
      have := Nat.dvd_sub hd (dvd_refl (2 ^ a))
      rwa [show q + (m - p) - 2 ^ a = 0 + (m - (p + (2 ^ a - q))) by omega] at this
    · obtain rfl : p = m := by omega
      have : q = 0 := by
        rw [Nat.sub_self, Nat.add_zero] at hd
        exact Nat.eq_zero_of_dvd_of_lt hd hq
      subst this
      exact ⟨u, _, rfl, hu, hf⟩

/-- A call that ends inside a block and whose last sample is a unit, in a state with `q` pending
samples. -/
theorem pending_call_le {N a : ℕ} (ha : 1 ≤ a) (ha2 : a ≤ 26) {q : ℕ} {u : UpolaV2}
    (hu : V2Silent N a q u) (hq : q ≤ 2 ^ a) {M : ℕ} (hM : 2 ^ a ≤ M) (hnd : ¬ 2 ^ a ∣ q + M) :
    ∃ u' r w ov, u.call (vec M (unitAt (M - 1))) = .ok (u', vec M fun _ => 0) ∧
      r < 2 ^ a ∧ V2One N a (delaySpec a) r w ov u' ∧
      (∀ i < 2 ^ (a + 1), w i = unitAt r i) ∧ ∀ i < 2 ^ a, ov i = 0 := by
  have hpow : 1 ≤ 2 ^ a := Nat.one_le_two_pow
  have hK : 2 ^ (a + 1) = 2 ^ a + 2 ^ a := by rw [pow_succ]; ring
  obtain ⟨r, hrd⟩ : ∃ r, r = (q + M) % 2 ^ a := ⟨_, rfl⟩
  have hr2 : r < 2 ^ a := hrd ▸ Nat.mod_lt _ (by omega)
  have hr1 : 1 ≤ r := by
    rw [Nat.one_le_iff_ne_zero]
    exact fun h => hnd (Nat.dvd_of_mod_eq_zero (hrd ▸ h))
  have hdm : 2 ^ a ∣ q + M - r := hrd ▸ Nat.dvd_sub_mod _
  obtain ⟨w0, ov0, h, -⟩ := id hu
  unfold UpolaV2.call
  rw [h.blockSize, check_decide_ok (by rw [length_vec]; omega), bind_ok, length_vec]
  have hg : ∀ i, 0 ≤ i → i < M - r → unitAt (M - 1) i = 0 := fun i _ c => by
    unfold unitAt; rw [if_neg (by omega)]
  obtain ⟨u1, fuel, e1, hu1, hf⟩ : ∃ u' fuel', v2Loop (M + 2) u (vec M (unitAt (M - 1))) 0
      = v2Loop fuel' u' (vec M (unitAt (M - 1))) (M - r) ∧ V2Silent N a 0 u' ∧ M - (M - r) < fuel' := by
    rcases Nat.lt_or_ge q (2 ^ a) with hlt | hge
    · exact silent_to ha2 (by omega) (M + 2) 0 q u hu hlt (by omega)
        (by rwa [Nat.sub_zero, show q + (M - r) = q + M - r by omega]) (by omega) hg
    · obtain rfl : q = 2 ^ a := by omega
      obtain ⟨u1, e1, h1⟩ := silent_full ha2 hu (show 0 < M by omega) (unitAt (M - 1)) (fuel := M + 1)
      rw [e1]
      refine silent_to ha2 (by omega) (M + 1) 0 0 u1 h1 (by omega) (by omega) ?_ (by omega) hg
      have := Nat.dvd_sub hdm (dvd_refl (2 ^ a))
      rwa [show 2 ^ a + M - r - 2 ^ a = 0 + (M - r - 0) by omega] at this
  rw [e1]
  obtain ⟨m, hm⟩ : ∃ m, m = M - r := ⟨_, rfl⟩
  have hrM : M = m + r := by omega
  rw [← hm] at hf hg ⊢
  clear e1 hm
  subst hrM
  obtain ⟨w, ov, h1, hw, hov⟩ := hu1
  obtain ⟨fuel, rfl⟩ : ∃ f, fuel = f + 1 := ⟨fuel - 1, by omega⟩
  obtain ⟨fuel, rfl⟩ : ∃ f, fuel = f + 1 := ⟨fuel - 1, by omega⟩
  obtain ⟨W, hWd⟩ : ∃ W, W = specOut (2 ^ (a + 1)) (fun k => Spec.dft (2 ^ (a + 1)) (fun i =>
      (((fun i => if 0 ≤ i ∧ i < 0 + r then unitAt (m + r - 1) (m + (i - 0)) else w i) i : ℝ) : ℂ)) k
      * delaySpec a k) := ⟨_, rfl⟩
  obtain ⟨u', e, h2, -⟩ := v2_chunk_one ha2 h1 (by omega) (show m < m + r by omega) (n := r)
    (by omega) (unitAt (m + r - 1)) _ W rfl hWd
  have hW : ∀ i < 2 ^ (a + 1), W i = unitAt r i := by
    intro i hi
    have := delay_unit (q := r - 1) ha (by omega) (w := fun i => if 0 ≤ i ∧ i < 0 + r then
      unitAt (m + r - 1) (m + (i - 0)) else w i) (fun i hi => by
        beta_reduce
        split
        · unfold unitAt
          congr 1
          simp only [eq_iff_iff]
          omega
        · rw [hw i hi]; unfold unitAt; rw [if_neg (by omega)]) hi
    rw [hWd, this, show r - 1 + 1 = r by omega]
  simp only [Nat.zero_add] at h2 e
  refine ⟨u', r, W, ov, ?_, hr2, h2 hr2, hW, hov⟩
  rw [v2Loop_step (by rw [length_vec]; omega) e, v2Loop, if_neg (by rw [length_vec]; omega)]
  congr 2
  apply vec_ext
  intro i hi
  split
  · rw [hW _ (by omega), hov _ (by omega)]
    unfold unitAt; rw [if_neg (by omega), add_zero]
  · unfold unitAt; rw [if_neg (by omega)]

/-- From a silent state with `q` pending samples: a call that ends inside a block and whose last sample
is a unit, and silent calls after it: silence. -/
theorem unit_lost {N a : ℕ} (ha : 1 ≤ a) (ha2 : a ≤ 26) {q : ℕ} {u : UpolaV2}
    (hu : V2Silent N a q u) (hq : q ≤ 2 ^ a) {l l2 : ℕ} {post : List ℕ} (hl : 2 ^ a ≤ l)
    (hl2 : 2 ^ a ≤ l2) (hpost : ∀ k ∈ post, 2 ^ a ≤ k) (hnd : ¬ 2 ^ a ∣ q + l) :
    ∃ u', runBlocks UpolaV2.call u (vec l (unitAt (l - 1)) :: (vec l2 fun _ => 0) ::
        post.map (fun l => vec l fun _ => (0 : ℝ)))
      = .ok (u', (vec l fun _ => 0) :: (vec l2 fun _ => 0) ::
        post.map (fun l => vec l fun _ => (0 : ℝ))) := by
  obtain ⟨u3, r, w3, ov3, e3, hr2, h3, hw3, hov3⟩ := pending_call_le ha ha2 hu hq hl hnd
  obtain ⟨u4, q4, e4, h4, hq4⟩ := lost_call ha2 h3 hw3 hov3 hr2 hl2
  obtain ⟨u5, e5, -⟩ := silent_calls ha2 post q4 u4 h4 hq4 hpost
  refine ⟨u5, ?_⟩
  rw [runBlocks, e3, bind_ok]
  simp only []
  rw [runBlocks, e4, bind_ok]
  simp only []
  rw [e5]
  rfl

/-- Where the boundaries are missed. -/
theorem misaligned {B q l : ℕ} {ls : List ℕ}
    (hbad : ¬ (ls = [] ∨ (B ∣ q + l ∧ ∀ k ∈ ls.dropLast, B ∣ k))) :
    ∃ pre k k2 post, l :: ls = pre ++ k :: k2 :: post ∧
      ((pre = [] ∧ ¬ B ∣ q + k) ∨
        ∃ pre', pre = l :: pre' ∧ B ∣ q + l ∧ (∀ x ∈ pre', B ∣ x) ∧ ¬ B ∣ k) := by
  push Not at hbad
  obtain ⟨h1, h2⟩ := hbad
  by_cases c : B ∣ q + l
  · obtain ⟨pre, k, k2, post, e, g1, g2⟩ := first_bad (P := fun k => B ∣ k) ls (fun h => by
      obtain ⟨k, hk, hn⟩ := h2 c
      exact hn (h k hk))
    exact ⟨l :: pre, k, k2, post, by rw [e]; rfl, .inr ⟨pre, rfl, c, g1, g2⟩⟩
  · rcases ls with _ | ⟨k2, post⟩
    · exact absurd rfl h1
    · exact ⟨[], l, k2, post, rfl, .inl ⟨rfl, c⟩⟩

/-- The one-sample delay as an impulse response of `K` segments of `2 ^ a` samples. -/
noncomputable def delayData (a K : ℕ) : List ℝ := vec ((K - 1) * 2 ^ a + 2) (unitAt 1)

/-- **C27** for `overlap_add_convolver`, exactly.  The convolver is in any state; it is loaded with a
response of `K` segments of `2 ^ a` samples and called with buffers of the lengths `l :: ls`, all
accepted.  The outputs are the linear convolution for **every** response of `K` segments and **every**
signal of these lengths **if and only if** the current segment is inside the new filter, at most one
block was pending, and every call but the last ends, counted from the pending position, at a block
boundary. -/
theorem C27_v2_exact (a : ℕ) (ha2 : a ≤ 26) (K : ℕ) (hK : 1 ≤ K) (hsz : K * (2 ^ a + 1) < 2 ^ 59)
    (u : UpolaV2) (hq : u.inputPos < 2 ^ 63) (l : ℕ) (ls : List ℕ) (hlen : ∀ k ∈ l :: ls, 2 ^ a ≤ k) :
    (∀ (v : MatView) (data : List ℝ), v.InRange data.length → v.rows = 1 → 1 ≤ v.cols →
      v.cols < 2 ^ 64 → (v.cols - 1) / 2 ^ a + 1 = K →
      ∃ bins part, uniformPartition v data (2 ^ a) = .ok (K, bins, part) ∧
        ∀ calls : List (List ℝ), calls.map List.length = l :: ls →
          ∃ outs, v2LoadAndRun u (partitionView K bins 0) part calls = .ok outs ∧
            IsConvOf outs calls (fun i => if i < v.cols then data.getD (v.idx 0 i) 0 else 0))
    ↔ u.currentSegment < K ∧ u.inputPos ≤ 2 ^ a ∧
      (ls = [] ∨ (2 ^ a ∣ u.inputPos + l ∧ ∀ k ∈ ls.dropLast, 2 ^ a ∣ k)) := by
  have hpow : 1 ≤ 2 ^ a := Nat.one_le_two_pow
  have hB2 : 2 ^ a ≤ 2 ^ 26 := Nat.pow_le_pow_right (by norm_num) ha2
  have hcl : Nat.clog 2 (2 ^ a * 2) = a + 1 := by rw [← pow_succ, Nat.clog_pow 2 _ (by norm_num)]
  constructor
  · intro hall
    -- the one-sample delay
    have hd1 : (((K - 1) * 2 ^ a + 2) - 1) / 2 ^ a + 1 = K ∨ a = 0 := by
      rcases Nat.eq_zero_or_pos a with h | h
      · exact .inr h
      · left
        have : 2 ≤ 2 ^ a := by
          calc 2 = 2 ^ 1 := rfl
            _ ≤ _ := Nat.pow_le_pow_right (by norm_num) h
        rw [show (K - 1) * 2 ^ a + 2 - 1 = 1 + (K - 1) * 2 ^ a by omega,
          Nat.add_mul_div_right _ _ (by omega), Nat.div_eq_of_lt (by omega)]
        omega
    have hKB : (K - 1) * 2 ^ a < 2 ^ 59 := by
      have h1 : (K - 1) * 2 ^ a ≤ K * (2 ^ a + 1) := Nat.mul_le_mul (by omega) (by omega)
      omega
    rw [← and_assoc]
    have hst : u.currentSegment < K ∧ u.inputPos ≤ 2 ^ a := by
      by_contra hbad
      -- any response: the silent one with K segments
      set S := (K - 1) * 2 ^ a + 1 with hS
      have hv : (MatView.right 1 S).InRange (vec S fun _ => (0 : ℝ)).length := by
        intro r hr c hc
        simp only [MatView.right, MatView.idx, length_vec] at *
        have : r = 0 := by omega
        subst this
        omega
      have hn : ((MatView.right 1 S).cols - 1) / 2 ^ a + 1 = K := by
        simp only [MatView.right, hS, Nat.add_sub_cancel]
        rw [Nat.mul_div_cancel _ (by omega)]
        omega
      have hS64 : (MatView.right 1 S).cols < 2 ^ 64 := by
        simp only [MatView.right]
        omega
      obtain ⟨bins, part, e, h⟩ := hall (MatView.right 1 S) _ hv rfl (by simp [MatView.right, hS]) hS64 hn
      obtain ⟨part', e', hp⟩ := uniformPartition_eq hv hpow hcl (by omega)
        (by simp [MatView.right, hS]) hS64 (by
          rw [hn, two_pow_half]; simp only [MatView.right, Nat.one_mul]; exact hsz)
      rw [hn, two_pow_half] at e' hp
      rw [e] at e'
      cases e'
      obtain ⟨hr, -⟩ := hp 0 (by simp [MatView.right])
      obtain ⟨u1, e1, hu1⟩ := v2_loaded (N := K) ha2 hr rfl rfl (fun _ _ _ _ => rfl) u
      obtain ⟨outs, ho, -⟩ := h ((l :: ls).map fun k => vec k fun _ => 0) (by
        rw [List.map_map]
        conv_rhs => rw [← List.map_id (l :: ls)]
        exact List.map_congr_left fun x _ => length_vec _ _)
      unfold v2LoadAndRun at ho
      rw [e1, bind_ok, List.map_cons, runBlocks, v2_loaded_oob ha2 hu1 hq (by
        by_contra c
        push Not at c
        exact hbad ⟨by omega, by omega⟩) _ (by rw [length_vec]; exact hlen l (by simp))] at ho
      cases ho
    refine ⟨hst, ?_⟩
    by_contra hbad
    have ha : 1 ≤ a := by
      rcases a with _ | a
      · exact absurd (.inr ⟨by simp, fun _ _ => by simp⟩) hbad
      · omega
    have hB : 2 ≤ 2 ^ a := by
      calc 2 = 2 ^ 1 := rfl
        _ ≤ _ := Nat.pow_le_pow_right (by norm_num) ha
    have hn := hd1.resolve_right (by omega)
    set S := (K - 1) * 2 ^ a + 2 with hS
    have hdl : (delayData a K).length = S := length_vec _ _
    have hv : (MatView.right 1 S).InRange (delayData a K).length := by
      intro r hr c hc
      rw [hdl]
      simp only [MatView.right, MatView.idx] at *
      have : r = 0 := by omega
      subst this
      omega
    have hS64 : (MatView.right 1 S).cols < 2 ^ 64 := by
      simp only [MatView.right]
      omega
    obtain ⟨bins, part, e, h⟩ := hall (MatView.right 1 S) _ hv rfl (by simp [MatView.right, hS]) hS64 hn
    obtain ⟨part', e', hp⟩ := uniformPartition_eq hv hpow hcl (by omega)
      (by simp [MatView.right, hS]) hS64 (by
        rw [show (MatView.right 1 S).cols = S from rfl, hn, two_pow_half]
        simp only [MatView.right, Nat.one_mul]; exact hsz)
    rw [show (MatView.right 1 S).cols = S from rfl, hn, two_pow_half] at e' hp
    rw [e] at e'
    cases e'
    obtain ⟨hr, hd⟩ := hp 0 (by simp [MatView.right])
    have hresp : ∀ i, (if i < (MatView.right 1 S).cols then
        (delayData a K).getD ((MatView.right 1 S).idx 0 i) 0 else 0) = unitAt 1 i := by
      intro i
      by_cases c : i < (MatView.right 1 S).cols
      · rw [if_pos c]
        simp only [MatView.right, MatView.idx] at c ⊢
        unfold delayData
        rw [getD_vec _ _ _ _ (by omega)]
        congr 1
        omega
      · rw [if_neg c]
        simp only [MatView.right] at c
        unfold unitAt
        rw [if_neg (by omega)]
    have hseg : ∀ j m, seg (2 ^ a) (chanAt (MatView.right 1 S) (delayData a K) 0) j m
        = if j = 0 then unitAt 1 m else 0 := by
      intro j m
      unfold seg chanAt
      by_cases c : m < 2 ^ a
      · rw [if_pos c, hresp]
        rcases j with _ | j
        · rw [if_pos rfl, Nat.zero_mul, Nat.zero_add]
        · have : 2 ^ a ≤ (j + 1) * 2 ^ a := Nat.le_mul_of_pos_left _ (by omega)
          unfold unitAt
          rw [if_neg (by omega), if_neg (by omega)]
      · rw [if_neg c]
        unfold unitAt
        rw [if_neg (c := m = 1) (by omega), ite_self]
    obtain ⟨u1, e1, hu1⟩ := v2_loaded (N := K) ha2 hr rfl rfl (H := firstOnly (delaySpec a))
      (fun r hr c hc => by
        rw [hd r (by simpa [partitionView] using hr) c (by simpa [partitionView] using hc)]
        unfold firstOnly delaySpec
        by_cases c0 : r = 0
        · rw [if_pos c0]
          congr 1
          funext m
          rw [hseg, if_pos c0]
        · rw [if_neg c0]
          unfold Spec.dft
          apply sum_eq_zero
          intro m _
          beta_reduce
          rw [hseg, if_neg c0]
          simp) u
    have hs : V2Silent K a u.inputPos u1 := by
      obtain ⟨g1, g2, g3, g4, g5, g6, g7, g8, g9, g10, g11, g12⟩ := hu1
      exact ⟨_, _, ⟨g1, g2, g3, by rw [g4]; exact hst.1, g5, g6, g7, ⟨_, g8⟩, ⟨_, g9⟩, g10, ⟨_, g11⟩,
        ⟨_, g12, fun _ => rfl⟩⟩, fun _ _ => rfl, fun _ _ => rfl⟩
    obtain ⟨pre, k, k2, post, hl, hcase⟩ := misaligned hbad
    rw [hl] at hlen h
    obtain ⟨u2, q2, e2, hs2, hq2, hnd2⟩ : ∃ u2 q2, runBlocks UpolaV2.call u1
        (pre.map fun l => vec l fun _ => (0 : ℝ)) = .ok (u2, pre.map fun l => vec l fun _ => (0 : ℝ)) ∧
        V2Silent K a q2 u2 ∧ q2 ≤ 2 ^ a ∧ ¬ 2 ^ a ∣ q2 + k := by
      rcases hcase with ⟨rfl, hnd⟩ | ⟨pre', rfl, hd1, hd2, hnd⟩
      · exact ⟨u1, _, rfl, hs, hst.2, hnd⟩
      · obtain ⟨u2, e2, h2⟩ := silent_call_le ha2 hs hst.2 (hlen l (by simp))
        rw [Nat.mod_eq_zero_of_dvd hd1] at h2
        obtain ⟨u3, e3, h3⟩ := silent_calls ha2 pre' 0 u2 h2 (by omega) (fun x hx => hlen x (by simp [hx]))
        refine ⟨u3, 0, ?_, h3 hd2, by omega, by rwa [Nat.zero_add]⟩
        rw [List.map_cons, runBlocks, e2, bind_ok]
        simp only []
        rw [e3]
        rfl
    obtain ⟨u5, e5⟩ := unit_lost ha ha2 hs2 hq2 (hlen k (by simp)) (hlen k2 (by simp)) (post := post)
      (fun x hx => hlen x (by simp [hx])) hnd2
    have hrun := runBlocks_cat e2 e5
    have hmaplen : ∀ ls : List ℕ, (ls.map fun l => vec l fun _ => (0 : ℝ)).map List.length = ls := by
      intro ls
      rw [List.map_map]
      conv_rhs => rw [← List.map_id ls]
      exact List.map_congr_left fun x _ => length_vec _ _
    obtain ⟨outs, ho, -, hc⟩ := h (pre.map (fun l => vec l fun _ => (0 : ℝ)) ++
      vec k (unitAt (k - 1)) :: (vec k2 fun _ => 0) :: post.map (fun l => vec l fun _ => (0 : ℝ))) (by
        rw [List.map_append, hmaplen, List.map_cons, List.map_cons, hmaplen, length_vec, length_vec])
    unfold v2LoadAndRun at ho
    rw [e1, bind_ok, hrun, bind_ok] at ho
    cases ho
    have hk := hlen k (by simp)
    have hk2 := hlen k2 (by simp)
    set z := (pre.map fun l => vec l fun _ => (0 : ℝ)).flatten with hz
    have hconv := hc (z.length + k) (by
      rw [List.flatten_append, List.length_append, List.flatten_cons, List.length_append, length_vec,
        List.flatten_cons, List.length_append, length_vec, ← hz]
      omega)
    have hzero : ∀ x ∈ (pre.map (fun l => vec l fun _ => (0 : ℝ)) ++ (vec k fun _ => 0) ::
        (vec k2 fun _ => 0) :: post.map (fun l => vec l fun _ => (0 : ℝ))).flatten, x = 0 := by
      intro x hx
      rw [List.mem_flatten] at hx
      obtain ⟨b, hb, hx⟩ := hx
      have hvz : ∃ m, b = vec m fun _ => (0 : ℝ) := by
        simp only [List.mem_append, List.mem_map, List.mem_cons] at hb
        rcases hb with ⟨m, -, rfl⟩ | rfl | rfl | ⟨m, -, rfl⟩
        exacts [⟨_, rfl⟩, ⟨_, rfl⟩, ⟨_, rfl⟩, ⟨_, rfl⟩]
      obtain ⟨m, rfl⟩ := hvz
      unfold vec at hx
      obtain ⟨_, -, rfl⟩ := List.mem_map.1 hx
      rfl
    have h0 := hzero _ (List.mem_of_getElem? hconv)
    rw [show (fun i => if i < (MatView.right 1 S).cols then
        (delayData a K).getD ((MatView.right 1 S).idx 0 i) 0 else 0) = unitAt 1 from funext hresp] at h0
    have h1 : Spec.conv (unitAt 1) (fun i => (pre.map (fun l => vec l fun _ => (0 : ℝ)) ++
        vec k (unitAt (k - 1)) :: (vec k2 fun _ => 0) ::
          post.map (fun l => vec l fun _ => (0 : ℝ))).flatten.getD i 0) (z.length + k) = 1 := by
      unfold Spec.conv
      rw [sum_eq_single 1]
      · beta_reduce
        rw [List.flatten_append, ← hz, List.getD_eq_getElem?_getD,
          List.getElem?_append_right (by omega), List.flatten_cons,
          List.getElem?_append_left (by rw [length_vec]; omega), getElem?_vec, if_pos (by omega)]
        unfold unitAt
        rw [if_pos rfl, if_pos (by omega)]
        simp
      · intro j _ hj
        unfold unitAt
        rw [if_neg hj, zero_mul]
      · intro h; exact absurd (mem_range.2 (by omega)) h
    rw [h1] at h0
    exact one_ne_zero h0
  · rintro ⟨hs, hqB, hal⟩ v data hv hrow hS hS2 hn
    obtain ⟨part, e, hp⟩ := uniformPartition_eq hv hpow hcl (by omega) hS hS2
      (by rw [hn, two_pow_half, hrow, Nat.one_mul]; exact hsz)
    rw [hn, two_pow_half] at e hp
    refine ⟨_, part, e, ?_⟩
    intro calls hcl
    obtain ⟨hr, hd⟩ := hp 0 (by omega)
    rcases calls with _ | ⟨c, cs⟩
    · simp at hcl
    rw [List.map_cons, List.cons.injEq] at hcl
    obtain ⟨rfl, rfl⟩ := hcl
    refine v2_reload_run (N := K) ha2 hr rfl rfl (h := chanAt v data 0) ?_ ?_ u hqB hs c cs ?_ ?_
    · rw [← hn]; exact chanAt_support hpow
    · intro r hr' k hk
      rw [hd r hr' k hk, two_mul_pow]
    · intro b hb
      exact hlen b.length (List.mem_map_of_mem (f := List.length) hb)
    · refine hal.imp (fun h => List.map_eq_nil_iff.1 h) (fun h => ⟨h.1, fun b hb => h.2 b.length ?_⟩)
      rw [← List.map_dropLast]
      exact List.mem_map_of_mem hb

/-- **C27** for `overlap_add_convolver` and whole blocks: with at least two calls, all of them multiples
of the block size, the outputs after `filter()` are right for every response of `K` segments exactly if
the current segment is inside the new filter and no sample or one whole (new) block was pending. -/
theorem C27_v2_exact_blocks (a : ℕ) (ha2 : a ≤ 26) (K : ℕ) (hK : 1 ≤ K) (hsz : K * (2 ^ a + 1) < 2 ^ 59)
    (u : UpolaV2) (hq : u.inputPos < 2 ^ 63) (l k : ℕ) (ls : List ℕ)
    (hlen : ∀ m ∈ l :: k :: ls, 2 ^ a ≤ m ∧ 2 ^ a ∣ m) :
    (∀ (v : MatView) (data : List ℝ), v.InRange data.length → v.rows = 1 → 1 ≤ v.cols →
      v.cols < 2 ^ 64 → (v.cols - 1) / 2 ^ a + 1 = K →
      ∃ bins part, uniformPartition v data (2 ^ a) = .ok (K, bins, part) ∧
        ∀ calls : List (List ℝ), calls.map List.length = l :: k :: ls →
          ∃ outs, v2LoadAndRun u (partitionView K bins 0) part calls = .ok outs ∧
            IsConvOf outs calls (fun i => if i < v.cols then data.getD (v.idx 0 i) 0 else 0))
    ↔ u.currentSegment < K ∧ (u.inputPos = 0 ∨ u.inputPos = 2 ^ a) := by
  have hpow : 1 ≤ 2 ^ a := Nat.one_le_two_pow
  rw [C27_v2_exact a ha2 K hK hsz u hq l (k :: ls) (fun m hm => (hlen m hm).1)]
  have hl := (hlen l (by simp)).2
  constructor
  · rintro ⟨h1, h2, h3⟩
    obtain ⟨h4, -⟩ := h3.resolve_left (by simp)
    rw [Nat.dvd_add_left hl] at h4
    refine ⟨h1, ?_⟩
    rcases Nat.eq_zero_or_pos u.inputPos with h | h
    · exact .inl h
    · exact .inr (le_antisymm h2 (Nat.le_of_dvd h h4))
  · rintro ⟨h1, h2⟩
    refine ⟨h1, by omega, .inr ⟨?_, fun m hm => (hlen m (by
      simp only [List.mem_cons]; right
      exact List.mem_cons.1 (List.mem_of_mem_dropLast hm))).2⟩⟩
    rcases h2 with h | h
    · rwa [h, Nat.zero_add]
    · rw [h]; exact (Nat.dvd_add_right (dvd_refl _)).2 hl

/-- Two-sample blocks, three segments: calls of three, four and five samples after one pending sample
meet the condition. -/
example : (1 : ℕ) ≤ 2 ^ 1 ∧ ([4, 5] = [] ∨ (2 ^ 1 ∣ 1 + 3 ∧ ∀ k ∈ ([4, 5] : List ℕ).dropLast, 2 ^ 1 ∣ k)) := by
  decide

/-- A state with a pending sample occurs: the one-sample delay with two-sample blocks after a call of
three samples. -/
example : ∃ u u' y, UpolaV2.make >>= (fun u => u.load (MatView.right 1 3) (vec 3 (delaySpec 1))) = .ok u ∧
    u.call [0, 0, 0] = .ok (u', y) ∧ u'.inputPos = 1 ∧ u'.currentSegment < 1 := by
  obtain ⟨u0, e0, h1, h2⟩ := v2_make_eq
  have hv : (MatView.right 1 3).InRange (vec 3 (delaySpec 1)).length := by
    intro r hr c hc
    simp only [MatView.right, MatView.idx, length_vec] at *
    omega
  obtain ⟨u, e, hu⟩ := v2_loaded (N := 1) (a := 1) (by omega) hv rfl rfl (H := firstOnly (delaySpec 1))
    (fun r hr c hc => by
      obtain rfl : r = 0 := by simp only [MatView.right] at hr; omega
      simp only [MatView.right] at hc
      unfold matAt
      simp only [MatView.right, MatView.idx]
      rw [getD_vec _ _ _ _ (by omega)]
      unfold firstOnly
      rw [if_pos rfl]
      congr 1
      omega) u0
  have hs : V2Silent 1 1 0 u := by
    obtain ⟨g1, g2, g3, g4, g5, g6, g7, g8, g9, g10, g11, g12⟩ := hu
    exact ⟨_, _, ⟨g1, g2, by rw [g3, h1], by rw [g4, h2]; omega, g5, g6, g7, ⟨_, g8⟩, ⟨_, g9⟩, g10,
      ⟨_, g11⟩, ⟨_, g12, fun _ => rfl⟩⟩, fun _ _ => rfl, fun _ _ => rfl⟩
  obtain ⟨u', e', w, ov, h', -⟩ := silent_call (a := 1) (by omega) hs (by norm_num) (M := 3) (by norm_num)
  refine ⟨u, u', _, ?_, e', h'.inputPos, h'.current⟩
  rw [e0, bind_ok, e]

end Neo.Props
