import Verif.Lemmas.UpcRounding

/-! # `uniform_partition` in rounded arithmetic -/

namespace Neo

open Finset

variable {F : Rounding}

/-- Element `(c, i)` of a matrix of samples, zero beyond its end. -/
noncomputable def chanAtF (v : MatView) (data : List (FR F)) (c i : ℕ) : FR F :=
  if i < v.cols then data.getD (v.idx c i) 0 else 0

theorem rd_chanAtF {v : MatView} {data : List (FR F)} (hv : v.InRange data.length) {c i : ℕ}
    (hc : c < v.rows) (hi : i < v.cols) : rd data (v.idx c i) = .ok (chanAtF v data c i) := by
  have := hv c hc i hi
  rw [rd_ok this]
  unfold chanAtF
  rw [if_pos hi, List.getD_eq_getElem?_getD, List.getElem?_eq_getElem this, Option.getD_some]

/-- A plan in a generic state. -/
noncomputable def stftPlanFOf (F : Rounding) (B b : ℕ) (f : ℕ → FC F) (inp : ℕ → FR F) (out : ℕ → FC F) :
    StftPlanF F where
  frameSize := B
  rfft := rfftPlanFOf F b f
  input := vec (2 ^ b) inp
  output := vec (2 ^ b) out
  window := vec (2 ^ b) (fun _ => ⟨1⟩)

theorem stftPlanF_make_eq {B K : ℕ} (h : Nat.clog 2 K ≤ 27) :
    StftPlanF.make F B K = .ok (stftPlanFOf F B (Nat.clog 2 K) (fun _ => 0) (fun _ => 0) (fun _ => 0)) := by
  unfold StftPlanF.make
  rw [nextOrder_eq, rfftPlanF_make_eq h, bind_ok, rfftPlanFOf_size,
    forN_map (fun _ => (0 : FR F)) (fun _ _ => (⟨1⟩ : FR F)) _ (fun i hi h _ => by rw [wr_vec_ok hi]), bind_ok,
    pure_eq_ok]
  rfl

/-- The windowed, zero-padded samples of segment `t`, as computed. -/
noncomputable def segF (B : ℕ) (x : ℕ → FR F) (t n : ℕ) : FR F := seg B x t n * ⟨1⟩

theorem stftFrameF_eq {v : MatView} {data : List (FR F)} {B b N ch t n : ℕ} (hb : 1 ≤ b)
    (f : ℕ → FC F) (inp : ℕ → FR F) (out r : ℕ → FC F) (hv : v.InRange data.length) (hch : ch < v.rows)
    (hS : v.cols < 2 ^ 64) (ht : t * B < v.cols) (hK : B ≤ 2 ^ b)
    (hn : (ch * N + t) * (2 ^ b / 2 + 1) + (2 ^ b / 2 + 1) ≤ n) :
    ∃ f' inp' out', stftFrameF v data N (2 ^ b / 2 + 1) ch t (stftPlanFOf F B b f inp out, vec n r)
      = .ok (stftPlanFOf F B b f' inp' out', vec n (fun i =>
          if (ch * N + t) * (2 ^ b / 2 + 1) ≤ i
            ∧ i < (ch * N + t) * (2 ^ b / 2 + 1) + (2 ^ b / 2 + 1) then
            rfftFn F b (segF B (chanAtF v data ch) t) (i - (ch * N + t) * (2 ^ b / 2 + 1))
          else r i)) := by
  have h1 : wsub (t * B) (t * 0) = t * B := by
    rw [wsub_eq (by omega) (by omega)]; omega
  set p := t * B with hp
  have h2 : wsub v.cols p = v.cols - p := wsub_eq ht.le (by omega)
  set m := min (v.cols - p) B with hm
  have hm1 : m ≤ v.cols - p := Nat.min_le_left _ _
  set x := chanAtF v data ch with hx
  have hcopy : forN m (fun i input => do
      let a ← rd data (v.idx ch (p + i))
      wr input i a) (vec (2 ^ b) (fun _ => 0))
      = .ok (vec (2 ^ b) (fun i => if i < m then x (p + i) else 0)) := by
    apply forN_eq' (fun j => vec (2 ^ b) (fun i => if i < j then x (p + i) else 0))
    · exact vec_ext (fun i _ => by simp)
    · rfl
    · intro i hi
      beta_reduce
      rw [rd_chanAtF hv hch (by omega), bind_ok, wr_vec_ok (by omega)]
      refine congrArg Except.ok (vec_ext ?_)
      intro k _
      by_cases c : k = i
      · subst c; simp [hx]
      · have : k < i + 1 ↔ k < i := by omega
        simp [c, this]
  obtain ⟨f', er⟩ := rfftF_fn hb (half_lt hb) f (fun i => (if i < m then x (p + i) else 0) * ⟨1⟩) (fun _ => 0)
  unfold stftFrameF
  have e1 : (stftPlanFOf F B b f inp out).frameSize = B := rfl
  have e2 : (stftPlanFOf F B b f inp out).input = vec (2 ^ b) inp := rfl
  have e3 : (stftPlanFOf F B b f inp out).output = vec (2 ^ b) out := rfl
  have e4 : (stftPlanFOf F B b f inp out).rfft = rfftPlanFOf F b f := rfl
  have e5 : (stftPlanFOf F B b f inp out).window = vec (2 ^ b) (fun _ => ⟨1⟩) := rfl
  simp only [e1, e2, e3, e4, e5, ← hp, h1, h2, length_vec]
  rw [if_pos ⟨by omega, by omega⟩, bind_ok, fillVec_vec, bind_ok, fillVec_vec, bind_ok, hcopy, bind_ok,
    multiplyInPlace_vec, bind_ok, er, bind_ok]
  simp only []
  rw [rdSpan_vec (Nat.zero_le _) (half_lt hb), bind_ok, Nat.sub_zero]
  have hc := copyInto_vec r (fun k => rfftFn F b (segF B x t) k) hn
  have hsrc : (vec (2 ^ b / 2 + 1) (fun i => (fun k => if k < 2 ^ b / 2 + 1 then
        rfftFn F b (fun i => (if i < m then x (p + i) else 0) * ⟨1⟩) k else 0) (0 + i)))
      = vec (2 ^ b / 2 + 1) (fun k => rfftFn F b (segF B x t) k) := by
    apply vec_ext
    intro k hk
    beta_reduce
    rw [if_pos (by omega), Nat.zero_add, rfftFn_congr]
    intro n _
    unfold segF seg
    refine congrArg (fun a : FR F => a * ⟨1⟩) ?_
    by_cases c : n < m
    · rw [if_pos c, if_pos (by omega)]
    · rw [if_neg c]
      by_cases c2 : n < B
      · rw [if_pos c2, hx, chanAtF, if_neg (by omega)]
      · rw [if_neg c2]
  rw [hsrc, hc, bind_ok, pure_eq_ok]
  exact ⟨f', _, _, rfl⟩

theorem uniformPartitionF_eq {v : MatView} {data : List (FR F)} (hv : v.InRange data.length) {B b : ℕ}
    (hB : 1 ≤ B) (hb : Nat.clog 2 (B * 2) = b) (hb2 : b ≤ 27) (hS : 1 ≤ v.cols)
    (hS2 : v.cols < 2 ^ 64) (hsz : v.rows * ((v.cols - 1) / B + 1) * (2 ^ b / 2 + 1) < 2 ^ 59) :
    ∃ part, uniformPartitionF v data B = .ok ((v.cols - 1) / B + 1, 2 ^ b / 2 + 1, part) ∧
      ∀ c < v.rows,
        (partitionView ((v.cols - 1) / B + 1) (2 ^ b / 2 + 1) c).InRange part.length ∧
        ∀ t < (v.cols - 1) / B + 1, ∀ k < 2 ^ b / 2 + 1,
          matAt (partitionView ((v.cols - 1) / B + 1) (2 ^ b / 2 + 1) c) part t k
            = rfftFn F b (segF B (chanAtF v data c) t) k := by
  have hBle : B * 2 ≤ 2 ^ b := by
    rw [← hb]; exact Nat.le_pow_clog (by norm_num) _
  have hpow : 2 ^ b ≤ 2 ^ 27 := Nat.pow_le_pow_right (by norm_num) hb2
  have hb1 : 1 ≤ b := by
    by_contra h
    obtain rfl : b = 0 := by omega
    simp at hBle
    omega
  have hw : w64 (B * 2) = B * 2 := w64_of_lt (lt_of_le_of_lt (le_trans hBle hpow) (by norm_num))
  have hB64 : B < 2 ^ 64 := lt_of_le_of_lt (by omega : B ≤ 2 ^ 27) (by norm_num)
  unfold uniformPartitionF
  rw [hw, stftPlanF_make_eq (by simpa using hb.le.trans hb2), bind_ok, hb]
  set N := (v.cols - 1) / B + 1 with hN
  set m := 2 ^ b / 2 + 1 with hm
  unfold StftPlanF.call
  have e1 : (stftPlanFOf F B b (fun _ => 0) (fun _ => 0) (fun _ => 0)).frameSize = B := rfl
  have e2 : (stftPlanFOf F B b (fun _ => 0) (fun _ => 0) (fun _ => 0)).rfft = rfftPlanFOf F b (fun _ => 0) := rfl
  simp only [e1, e2, rfftPlanFOf_size]
  have hnf := numStftFrames_eq hS hS2 (by omega : 0 < B) hB64
  rw [Nat.sub_zero] at hnf
  rw [hnf, bind_ok]
  simp only [← hN, ← hm]
  rw [w64_of_lt (by omega), if_pos hsz, bind_ok]
  set spec : ℕ → ℕ → FC F := fun q k => rfftFn F b (segF B (chanAtF v data (q / N)) (q % N)) k with hspec
  let P : ℕ → StftPlanF F × List (FC F) → Prop := fun q s => ∃ f inp out g,
    s = (stftPlanFOf F B b f inp out, vec (v.rows * N * m) g) ∧ ∀ q' < q, ∀ k < m, g (q' * m + k) = spec q' k
  obtain ⟨s', e, f', inp', out', g, hs, hg⟩ := forN_inv (n := v.rows)
    (body := fun chIdx s => forN N (fun frameIdx s => stftFrameF v data N m chIdx frameIdx s) s)
    (s := (stftPlanFOf F B b (fun _ => 0) (fun _ => 0) (fun _ => 0), vec (v.rows * N * m) (fun _ => 0)))
    (fun c s => P (c * N) s)
    ⟨_, _, _, _, rfl, by omega⟩ (by
      intro c hc s hP
      obtain ⟨s'', e'', h''⟩ := forN_inv (n := N)
        (body := fun frameIdx s => stftFrameF v data N m c frameIdx s) (s := s)
        (fun t s => P (c * N + t) s) (by simpa using hP) (by
          rintro t ht _ ⟨f, inp, out, g, rfl, hg⟩
          have hq : c * N + t + 1 ≤ v.rows * N := by
            have := row_end (C := N) hc
            omega
          have hqm : (c * N + t) * m + m ≤ v.rows * N * m := row_end (C := m) hq
          have htc : t * B < v.cols := frames_bound hS ht
          obtain ⟨f', inp', out', e⟩ := stftFrameF_eq (N := N) (n := v.rows * N * m) hb1 f inp out g hv hc hS2 htc
            (by omega) hqm
          simp only [← hm] at e
          refine ⟨_, e, f', inp', out', _, rfl, ?_⟩
          intro q' hq' k hk
          beta_reduce
          rcases Nat.lt_or_ge q' (c * N + t) with h | h
          · have : q' * m + m ≤ (c * N + t) * m := row_end (C := m) h
            rw [if_neg (by omega), hg q' h k hk]
          · obtain rfl : q' = c * N + t := by omega
            rw [if_pos ⟨by omega, by omega⟩, Nat.add_sub_cancel_left]
            simp only [hspec]
            rw [mul_add_mod' ht, mul_add_div' ht])
      refine ⟨s'', e'', ?_⟩
      rw [add_mul, one_mul]
      exact h'')
  rw [e, bind_ok, hs]
  refine ⟨vec (v.rows * N * m) g, rfl, ?_⟩
  intro c hc
  have hidx : ∀ t k, (partitionView N m c).idx t k = (c * N + t) * m + k := by
    intro t k
    simp only [partitionView, MatView.idx]
    ring
  have hq : ∀ t < N, c * N + t < v.rows * N := by
    intro t ht
    have := row_end (C := N) hc
    omega
  have hlt : ∀ t < N, ∀ k < m, (c * N + t) * m + k < v.rows * N * m := by
    intro t ht k hk
    have h2 : (c * N + t) * m + m ≤ v.rows * N * m := row_end (C := m) (hq t ht)
    omega
  refine ⟨?_, ?_⟩
  · intro t ht k hk
    rw [hidx, length_vec]
    exact hlt t ht k hk
  · intro t ht k hk
    unfold matAt
    rw [hidx, getD_vec _ _ _ _ (hlt t ht k hk), hg _ (hq t ht) k hk]
    simp only [hspec]
    rw [mul_add_mod' ht, mul_add_div' ht]

theorem rnd_zero (F : Rounding) : F.rnd 0 = 0 := by
  have := F.rnd_err 0
  rw [abs_zero, mul_zero, sub_zero] at this
  exact abs_nonpos_iff.1 this

/-- The multiplication by the rectangular window costs one rounding. -/
theorem segF_err (B N : ℕ) (x : ℕ → FR F) (t : ℕ) :
    Spec.l2 N (fun n => ((segF B x t n).val : ℂ) - ((seg B (fun i => (x i).val) t n : ℝ) : ℂ))
      ≤ F.u * Spec.l2 N (fun n => ((seg B (fun i => (x i).val) t n : ℝ) : ℂ)) := by
  have hu := F.u_nonneg
  have e : F.u * Spec.l2 N (fun n => ((seg B (fun i => (x i).val) t n : ℝ) : ℂ))
      = Spec.l2 N (fun n => (F.u : ℂ) * ((seg B (fun i => (x i).val) t n : ℝ) : ℂ)) := by
    rw [l2_smul, Complex.norm_real, Real.norm_eq_abs, abs_of_nonneg hu]
  rw [e]
  apply l2_mono
  intro n _
  have e1 : (segF B x t n).val = F.rnd (seg B (fun i => (x i).val) t n) := by
    show F.rnd ((seg B x t n).val * 1) = _
    rw [mul_one]
    unfold seg
    split <;> rfl
  rw [e1, ← Complex.ofReal_sub, ← Complex.ofReal_mul, Complex.norm_real, Complex.norm_real, Real.norm_eq_abs,
    Real.norm_eq_abs, abs_mul, abs_of_nonneg hu]
  exact F.rnd_err _

/-- The partition of a rounded impulse response approximates the spectra of its segments. -/
theorem spectraOf_partition {b B N : ℕ} (hb : 1 ≤ b) (x : ℕ → FR F) {H : ℕ → ℕ → FC F}
    (hH : ∀ t < N, ∀ k < 2 ^ b / 2 + 1, H t k = rfftFn F b (segF B x t) k) :
    SpectraOf F b N (1 + F.u) H (seg B (fun i => (x i).val)) := by
  intro j hj
  have hu := F.u_nonneg
  set g := Spec.fftGain F.u F.ε b with hg
  have hg1 : 1 ≤ g := one_le_fftGain F b
  set r := Real.sqrt 2 ^ b with hr
  have hr0 : 0 < r := by positivity
  set s : ℕ → ℂ := fun n => ((seg B (fun i => (x i).val) j n : ℝ) : ℂ) with hs
  have k1 := segF_err B (2 ^ b) x j
  have k2 := rfftFn_err hb (segF B x j)
  rw [← hg, ← hr] at k2
  have k3 : Spec.l2 (2 ^ b) (fun n => ((segF B x j n).val : ℂ)) ≤ (1 + F.u) * Spec.l2 (2 ^ b) s := by
    rw [l2_congr (g := fun n => (((segF B x j n).val : ℂ) - s n) + s n) (fun n _ => by ring)]
    refine (l2_add_le _ _ _).trans ?_
    linarith
  have k4 : Spec.l2 (2 ^ b / 2 + 1) (fun k => Spec.dft (2 ^ b) (fun n => ((segF B x j n).val : ℂ)) k
      - Spec.dft (2 ^ b) s k) ≤ r * (F.u * Spec.l2 (2 ^ b) s) := by
    refine (l2_le_range (half_lt hb) _).trans ?_
    have := l2_dft hb (fun n => ((segF B x j n).val : ℂ) - s n)
    have hd : ∀ k, Spec.dft (2 ^ b) (fun n => ((segF B x j n).val : ℂ)) k - Spec.dft (2 ^ b) s k
        = Spec.dft (2 ^ b) (fun n => ((segF B x j n).val : ℂ) - s n) k :=
      fun k => specDft_sub .forward _ _ _ _
    rw [l2_congr (fun k _ => hd k), this]
    exact mul_le_mul_of_nonneg_left k1 hr0.le
  have k5 : (g - 1) * (r * Spec.l2 (2 ^ b) (fun n => ((segF B x j n).val : ℂ)))
      ≤ (g - 1) * (r * ((1 + F.u) * Spec.l2 (2 ^ b) s)) := by
    have : 0 ≤ g - 1 := by linarith
    gcongr
  rw [l2_congr (g := fun k => (rfftFn F b (segF B x j) k).val - Spec.dft (2 ^ b) s k)
    (fun k hk => by rw [hH j hj k hk])]
  refine (l2_sub_le _ _ (fun k => Spec.dft (2 ^ b) (fun n => ((segF B x j n).val : ℂ)) k) _).trans ?_
  calc _ ≤ (g - 1) * (r * ((1 + F.u) * Spec.l2 (2 ^ b) s)) + r * (F.u * Spec.l2 (2 ^ b) s) :=
        add_le_add (k2.trans k5) k4
    _ = _ := by ring

end Neo
