import Verif.Model.Backend
import Verif.Lemmas.UpcInst
import Verif.Lemmas.SplitFft
import Verif.Lemmas.Out

/-! # Vendor-backed plans on `vec`s -/

namespace Neo

variable {v : Vendor}

theorem Vendor.Contract.c2c_vec (hv : v.Contract) (dir : Direction) (n : ℕ) (f : ℕ → ℂ) :
    v.c2c dir n (vec n f) = vec n (specDft dir n f) := by
  obtain ⟨hl, h⟩ := hv.c2c dir n (vec n f) (by simp)
  rw [eq_vec_iff]
  refine ⟨hl, fun k hk => ?_⟩
  rw [h k hk]
  congr 1
  have e : ∀ i < n, (vec n f).getD i 0 = f i := fun i hi => by rw [getD_vec _ _ _ _ hi]
  cases dir
  · simp only [specDft, if_true]
    exact Finset.sum_congr rfl (fun i hi => by beta_reduce; rw [e i (Finset.mem_range.1 hi)])
  · simp only [specDft, reduceCtorEq, if_false]
    exact Finset.sum_congr rfl (fun i hi => by beta_reduce; rw [e i (Finset.mem_range.1 hi)])

theorem rdSpan_full {n : ℕ} (f : ℕ → α) : rdSpan (vec n f) 0 n = .ok (vec n f) := by
  rw [rdSpan_vec (Nat.zero_le _) le_rfl]
  simp

theorem wrSpan_full {n : ℕ} (f g : ℕ → α) : wrSpan (vec n f) 0 (vec n g) = .ok (vec n g) := by
  rw [wrSpan_vec (by omega)]
  congr 1
  exact vec_ext (fun i hi => by simp [hi])

theorem inPlace_vec (hv : v.Contract) (dir : Direction) (n : ℕ) (f : ℕ → ℂ) :
    v.inPlace dir n (vec n f) = .ok (vec n (specDft dir n f)) := by
  unfold Vendor.inPlace
  rw [rdSpan_full, bind_ok, hv.c2c_vec, wrSpan_full]

theorem outOfPlace_vec (hv : v.Contract) (dir : Direction) (n : ℕ) (f g : ℕ → ℂ) :
    v.outOfPlace dir n (vec n f) (vec n g) = .ok (vec n (specDft dir n f)) := by
  unfold Vendor.outOfPlace
  rw [rdSpan_full, bind_ok, hv.c2c_vec, wrSpan_full]

theorem zipWith_vec_b {β γ : Type} {n : ℕ} (op : α → β → γ) (f : ℕ → α) (g : ℕ → β) :
    List.zipWith op (vec n f) (vec n g) = vec n (fun i => op (f i) (g i)) := by
  rw [eq_vec_iff]
  refine ⟨by simp, fun i hi => ?_⟩
  rw [List.getElem?_zipWith, getElem?_vec, getElem?_vec, if_pos hi, if_pos hi]

theorem splitCall_vec (hv : v.Contract) (dir : Direction) (n : ℕ) (a b c d : ℕ → ℝ) :
    v.splitCall dir n (vec n a, vec n b) (vec n c, vec n d)
      = .ok (vec n (fun k => (specDft dir n (joined a b) k).re),
          vec n (fun k => (specDft dir n (joined a b) k).im)) := by
  unfold Vendor.splitCall
  simp only []
  rw [rdSpan_full, bind_ok, rdSpan_full, bind_ok, zipWith_vec_b, hv.c2c_vec, map_vec, map_vec,
    wrSpan_full, bind_ok, wrSpan_full, bind_ok, pure_eq_ok]
  rfl

theorem sizeOfOrder_ok {b : ℕ} (hb : b < 64) : sizeOfOrder b = .ok (2 ^ b) := by
  unfold sizeOfOrder
  rw [if_neg (by omega), fftSize_eq]

theorem one_shl (b : ℕ) : 1 <<< b = 2 ^ b := by simp [Nat.shiftLeft_eq]

/-! ## vDSP -/

/-- The plan of order `b` with these buffer contents. -/
def appleOf (b : ℕ) (f : Fin 4 → ℕ → ℝ) : AppleFftPlan where
  order := b
  size := 2 ^ b
  input := (vec (2 ^ b) (f 0), vec (2 ^ b) (f 1))
  output := (vec (2 ^ b) (f 2), vec (2 ^ b) (f 3))

theorem apple_call (hv : v.Contract) (b : ℕ) (f : Fin 4 → ℕ → ℝ) (x : ℕ → ℂ) (dir : Direction) :
    ∃ f', (appleOf b f).call v (vec (2 ^ b) x) dir
      = .ok (appleOf b f', vec (2 ^ b) (specDft dir (2 ^ b) x)) := by
  refine ⟨![fun k => (x k).re, fun k => (x k).im, fun k => (specDft dir (2 ^ b) x k).re,
    fun k => (specDft dir (2 ^ b) x k).im], ?_⟩
  unfold AppleFftPlan.call
  have e0 : (appleOf b f).size = 2 ^ b := rfl
  have e1 : (appleOf b f).input = (vec (2 ^ b) (f 0), vec (2 ^ b) (f 1)) := rfl
  have e2 : (appleOf b f).output = (vec (2 ^ b) (f 2), vec (2 ^ b) (f 3)) := rfl
  have e3 : (appleOf b f).order = b := rfl
  rw [e0, e1, e2, e3, length_vec, check_decide_ok rfl, bind_ok,
    forN_map2 (F := fun k => (x k).re) (G := fun k => (x k).im), bind_ok, one_shl, splitCall_vec hv,
    bind_ok, forN_map x (fun i _ => specDft dir (2 ^ b) x i), bind_ok, pure_eq_ok]
  · rfl
  · intro i hi h _
    simp only []
    rw [rd_vec_ok hi, bind_ok, rd_vec_ok hi, bind_ok, wr_vec_ok hi]
    rfl
  · intro i hi f' g' _ _
    simp only []
    rw [rd_vec_ok hi, bind_ok, wr_vec_ok hi, bind_ok, wr_vec_ok hi, bind_ok, pure_eq_ok]

theorem apple_make {b : ℕ} (hb : b ≤ 27) (hs : v.setup b = true) :
    AppleFftPlan.make v b = .ok (appleOf b (fun _ _ => 0)) := by
  unfold AppleFftPlan.make
  rw [sizeOfOrder_ok (by omega), bind_ok, if_neg (by omega), hs, check_true, bind_ok, pure_eq_ok]
  rfl

/-! ## MKL -/

/-- The plan of order `b` with this buffer content. -/
def mklOf (b : ℕ) (f : ℕ → ℂ) : MklFftPlan := { order := b, buffer := vec (2 ^ b) f }

theorem mkl_make {b : ℕ} (hb : b ≤ 27) : MklFftPlan.make b = .ok (mklOf b (fun _ => 0)) := by
  unfold MklFftPlan.make
  rw [if_neg (by omega), fftSize_eq]
  rfl

theorem mkl_call (hv : v.Contract) (vz : Bool) (b : ℕ) (f x : ℕ → ℂ) (dir : Direction) :
    ∃ f', (mklOf b f).call v vz (vec (2 ^ b) x) dir
      = .ok (mklOf b f', vec (2 ^ b) (specDft dir (2 ^ b) x)) := by
  unfold MklFftPlan.call
  have e1 : (mklOf b f).buffer = vec (2 ^ b) f := rfl
  have e3 : (mklOf b f).order = b := rfl
  rw [e1, e3, fftSize_eq, length_vec, check_decide_ok rfl, bind_ok]
  cases vz
  · refine ⟨specDft dir (2 ^ b) x, ?_⟩
    rw [if_neg (by simp), copyVec_vec, bind_ok, inPlace_vec hv, bind_ok, copyVec_vec, bind_ok,
      pure_eq_ok]
    rfl
  · exact ⟨f, by rw [if_pos rfl, inPlace_vec hv, bind_ok, pure_eq_ok]⟩

/-! ## IPP -/

/-- The plan of order `b` with this buffer content. -/
def ippOf (b : ℕ) (f : ℕ → ℂ) : IppFftPlan := { order := b, buffer := vec (2 ^ b) f }

theorem ipp_make {b : ℕ} (hb : b < 64) (hs : v.setup (castInt b) = true) :
    IppFftPlan.make v b = .ok (ippOf b (fun _ => 0)) := by
  unfold IppFftPlan.make ippHandle
  rw [hs, if_pos rfl, bind_ok, sizeOfOrder_ok hb, bind_ok, pure_eq_ok]
  rfl

theorem ipp_call (hv : v.Contract) (vz : Bool) {b : ℕ} (hb : b < 64) (f x : ℕ → ℂ) (dir : Direction) :
    ∃ f', (ippOf b f).call v vz (vec (2 ^ b) x) dir
      = .ok (ippOf b f', vec (2 ^ b) (specDft dir (2 ^ b) x)) := by
  unfold IppFftPlan.call
  have e1 : (ippOf b f).buffer = vec (2 ^ b) f := rfl
  have e3 : (ippOf b f).order = b := rfl
  rw [e1, e3, sizeOfOrder_ok hb, bind_ok, one_shl, length_vec, check_decide_ok rfl, bind_ok]
  cases vz
  · refine ⟨specDft dir (2 ^ b) x, ?_⟩
    rw [if_neg (by simp), copyVec_vec, bind_ok, inPlace_vec hv, bind_ok, copyVec_vec, bind_ok,
      pure_eq_ok]
    rfl
  · exact ⟨f, by rw [if_pos rfl, inPlace_vec hv, bind_ok, pure_eq_ok]⟩

theorem ipp_callOut (hv : v.Contract) (vz : Bool) {b : ℕ} (hb : b < 64) (f x o : ℕ → ℂ)
    (dir : Direction) :
    ∃ f', (ippOf b f).callOut v vz (vec (2 ^ b) x) (vec (2 ^ b) o) dir
      = .ok (ippOf b f', vec (2 ^ b) (specDft dir (2 ^ b) x)) := by
  unfold IppFftPlan.callOut
  have e1 : (ippOf b f).buffer = vec (2 ^ b) f := rfl
  have e3 : (ippOf b f).order = b := rfl
  rw [e1, e3, sizeOfOrder_ok hb, bind_ok, one_shl, length_vec, check_decide_ok rfl, bind_ok, length_vec,
    check_decide_ok rfl, bind_ok]
  cases vz
  · refine ⟨specDft dir (2 ^ b) x, ?_⟩
    obtain ⟨f', h⟩ := ipp_call hv true hb f x dir
    rw [if_neg (by simp), copyVec_vec, bind_ok, h, bind_ok]
    simp only []
    rw [copyVec_vec, bind_ok, pure_eq_ok]
    rfl
  · exact ⟨f, by rw [if_pos rfl, outOfPlace_vec hv, bind_ok, pure_eq_ok]⟩

/-- The plan of size `n` with these buffer contents. -/
def ippDftOf (n : ℕ) (f g : ℕ → ℂ) : IppDftPlan := { size := n, tmpIn := vec n f, tmpOut := vec n g }

theorem ippDft_callOut (hv : v.Contract) (vz : Bool) (n : ℕ) (f g x o : ℕ → ℂ) (dir : Direction) :
    ∃ f' g', (ippDftOf n f g).callOut v vz (vec n x) (vec n o) dir
      = .ok (ippDftOf n f' g', vec n (specDft dir n x)) := by
  unfold IppDftPlan.callOut
  have e1 : (ippDftOf n f g).tmpIn = vec n f := rfl
  have e2 : (ippDftOf n f g).tmpOut = vec n g := rfl
  have e3 : (ippDftOf n f g).size = n := rfl
  rw [e1, e2, e3, length_vec, check_decide_ok rfl, bind_ok, length_vec, check_decide_ok rfl, bind_ok]
  cases vz
  · refine ⟨x, specDft dir n x, ?_⟩
    rw [if_neg (by simp), copyVec_vec, bind_ok, outOfPlace_vec hv, bind_ok, copyVec_vec, bind_ok,
      pure_eq_ok]
    rfl
  · exact ⟨f, g, by rw [if_pos rfl, outOfPlace_vec hv, bind_ok, pure_eq_ok]⟩

theorem ippDft_call (hv : v.Contract) (n : ℕ) (f g x : ℕ → ℂ) (dir : Direction) :
    ∃ f' g', (ippDftOf n f g).call v (vec n x) dir
      = .ok (ippDftOf n f' g', vec n (specDft dir n x)) := by
  unfold IppDftPlan.call
  have e1 : (ippDftOf n f g).tmpIn = vec n f := rfl
  have e2 : (ippDftOf n f g).tmpOut = vec n g := rfl
  have e3 : (ippDftOf n f g).size = n := rfl
  rw [e1, e2, e3, length_vec, check_decide_ok rfl, bind_ok, copyVec_vec, bind_ok]
  refine ⟨x, specDft dir n x, ?_⟩
  obtain ⟨f', g', h⟩ := ippDft_callOut hv true n x g x g dir
  have e4 : (IppDftPlan.mk n (vec n x) (vec n g)) = ippDftOf n x g := rfl
  rw [e4, h, bind_ok]
  simp only []
  rw [copyVec_vec, bind_ok, pure_eq_ok]
  rfl

/-! ## IPP real transforms -/

theorem asReals_vec {m : ℕ} (z : ℕ → ℂ) :
    asReals (vec m z) = vec (2 * m) (fun j => if j % 2 = 0 then (z (j / 2)).re else (z (j / 2)).im) := by
  unfold asReals
  rw [length_vec]
  apply vec_ext
  intro j hj
  rw [getD_vec _ _ _ _ (by omega)]

theorem asComplex_vec {m : ℕ} (r : ℕ → ℝ) :
    asComplex (vec (2 * m) r) = vec m (fun i => ⟨r (2 * i), r (2 * i + 1)⟩) := by
  unfold asComplex
  rw [length_vec, Nat.mul_div_cancel_left _ (by omega)]
  apply vec_ext
  intro j hj
  rw [getD_vec _ _ _ _ (by omega), getD_vec _ _ _ _ (by omega)]

theorem Vendor.Contract.ccs_vec (hv : v.Contract) {n : ℕ} (h2 : n % 2 = 0) (h0 : 0 < n) (x : ℕ → ℝ) :
    v.ccs n (vec n x) = vec (n + 2) (fun j =>
      if j % 2 = 0 then (Spec.dft n (fun i => (x i : ℂ)) (j / 2)).re
      else (Spec.dft n (fun i => (x i : ℂ)) (j / 2)).im) := by
  obtain ⟨hl, h⟩ := hv.ccs n (vec n x) h2 h0 (by simp)
  rw [eq_vec_iff]
  refine ⟨hl, fun j hj => ?_⟩
  have e : ∀ k, Spec.dft n (fun i => ((vec n x).getD i 0 : ℂ)) k = Spec.dft n (fun i => (x i : ℂ)) k :=
    fun k => Finset.sum_congr rfl (fun i hi => by
      have hi := Finset.mem_range.1 hi
      beta_reduce
      rw [getD_vec _ _ _ _ hi])
  obtain ⟨ha, hb⟩ := h (j / 2) (by omega)
  rw [e] at ha hb
  rcases Nat.mod_two_eq_zero_or_one j with hj' | hj'
  · rw [if_pos hj', ← ha]; congr 1; omega
  · rw [if_neg (by omega), ← hb]; congr 1; omega

theorem Vendor.Contract.ccsInv_vec (hv : v.Contract) {n : ℕ} (h2 : n % 2 = 0) (h0 : 0 < n) (c : ℕ → ℂ)
    (hc0 : (c 0).im = 0) (hcn : (c (n / 2)).im = 0) (y : ℕ → ℝ)
    (hy : ∀ j < n + 2, y j = if j % 2 = 0 then (c (j / 2)).re else (c (j / 2)).im) :
    v.ccsInv n (vec (n + 2) y)
      = vec n (fun i => (Spec.idft n (Spec.hermitian n c) i).re) := by
  have g : ∀ j < n + 2, (vec (n + 2) y).getD j 0
      = if j % 2 = 0 then (c (j / 2)).re else (c (j / 2)).im := fun j hj => by
    rw [getD_vec _ _ _ _ hj, hy j hj]
  obtain ⟨hl, h⟩ := hv.ccsInv n (vec (n + 2) y) h2 h0 (by simp)
    (by rw [g 1 (by omega)]; simpa using hc0)
    (by
      rw [g (n + 1) (by omega), if_neg (by omega)]
      have : (n + 1) / 2 = n / 2 := by omega
      rw [this, hcn])
  rw [eq_vec_iff]
  refine ⟨hl, fun i hi => ?_⟩
  rw [h i hi]
  congr 2
  refine Finset.sum_congr rfl (fun k hk => ?_)
  have hk := Finset.mem_range.1 hk
  congr 1
  unfold Spec.hermitian
  beta_reduce
  have g1 : ∀ k ≤ n / 2, (vec (n + 2) y).getD (2 * k) 0 = (c k).re := fun k hk => by
    rw [g _ (by omega), if_pos (by omega)]; congr 2; omega
  have g2 : ∀ k ≤ n / 2, (vec (n + 2) y).getD (2 * k + 1) 0 = (c k).im := fun k hk => by
    rw [g _ (by omega), if_neg (by omega)]; congr 2; omega
  split_ifs with hk'
  · rw [g1 k hk', g2 k hk']
  · rw [g1 _ (by omega), g2 _ (by omega)]
    apply Complex.ext <;> simp

theorem pow_even {b : ℕ} (hb : 1 ≤ b) : 2 ^ b % 2 = 0 ∧ 0 < 2 ^ b := by
  obtain ⟨c, rfl⟩ : ∃ c, b = c + 1 := ⟨b - 1, by omega⟩
  exact ⟨by rw [pow_succ]; omega, by positivity⟩

/-- The plan of order `b` with this buffer content. -/
def ippRfftOf (b : ℕ) (f : ℕ → ℝ) : IppRfftPlan := { order := b, buffer := vec (2 ^ b * 2) f }

theorem ippRfft_make {b : ℕ} (hb : b < 64) (hs : v.setup (castInt b) = true) :
    IppRfftPlan.make v b = .ok (ippRfftOf b (fun _ => 0)) := by
  unfold IppRfftPlan.make ippHandle
  rw [sizeOfOrder_ok hb, bind_ok, hs, if_pos rfl, bind_ok, pure_eq_ok]
  rfl

theorem ippRfft_rfft (hv : v.Contract) (vz : Bool) {b m : ℕ} (h1 : 1 ≤ b) (hb : b < 64)
    (hm : 2 ^ b / 2 + 1 ≤ m) (f x : ℕ → ℝ) (o : ℕ → ℂ) :
    ∃ f', (ippRfftOf b f).rfft v vz (vec (2 ^ b) x) (vec m o) = .ok (ippRfftOf b f',
      vec m (fun k => if k < 2 ^ b / 2 + 1 then Spec.dft (2 ^ b) (fun n => (x n : ℂ)) k
        else o k)) := by
  obtain ⟨he, hp⟩ := pow_even h1
  suffices h : ∃ f', (ippRfftOf b f).rfft v vz (vec (2 ^ b) x) (vec m o)
      = .ok (IppRfftPlan.mk b (vec (2 ^ b * 2) f'),
        vec m (fun k => if k < 2 ^ b / 2 + 1 then Spec.dft (2 ^ b) (fun n => (x n : ℂ)) k
        else o k)) from h
  unfold IppRfftPlan.rfft
  have e1 : (ippRfftOf b f).buffer = vec (2 ^ b * 2) f := rfl
  have e3 : (ippRfftOf b f).order = b := rfl
  rw [e1, e3, sizeOfOrder_ok hb, bind_ok, one_shl, length_vec, check_decide_ok rfl, bind_ok]
  have e5 : ippRfftOf b f = IppRfftPlan.mk b (vec (2 ^ b * 2) f) := rfl
  rw [e5]
  clear e1 e3 e5
  generalize 2 ^ b = n at *
  cases vz
  · rw [if_neg (by simp), copyInto_vec _ _ (by omega), bind_ok,
      rdSpan_vec (Nat.zero_le _) (by omega), bind_ok]
    have e4 : vec (n - 0) (fun i => (fun i => if 0 ≤ i ∧ i < 0 + n then x (i - 0) else f i) (0 + i))
        = vec n x := by
      rw [Nat.sub_zero]
      exact vec_ext (fun i hi => by simp [hi])
    rw [e4, hv.ccs_vec he hp, wrSpan_vec (by omega), bind_ok]
    apply Exists.intro
    rw [forN_eq' (s' := vec m (fun k => if k < n / 2 + 1 then Spec.dft n (fun n => (x n : ℂ)) k
        else o k))
      (fun i => vec m (fun k => if k < i then Spec.dft n (fun n => (x n : ℂ)) k else o k)), bind_ok,
      pure_eq_ok]
    · exact vec_ext (fun k _ => by simp)
    · rfl
    · intro i hi
      rw [rd_vec_ok (by omega), bind_ok, rd_vec_ok (by omega), bind_ok, wr_vec_ok (by omega)]
      congr 1
      apply vec_ext
      intro k hk
      rcases eq_or_ne k i with rfl | hki
      · have a1 : 0 ≤ k * 2 ∧ k * 2 < 0 + (n + 2) := by omega
        have a2 : 0 ≤ k * 2 + 1 ∧ k * 2 + 1 < 0 + (n + 2) := by omega
        have a3 : (k * 2 - 0) % 2 = 0 := by omega
        have a4 : ¬(k * 2 + 1 - 0) % 2 = 0 := by omega
        rw [Function.update_self, if_pos a1, if_pos a2, if_pos a3, if_neg a4, if_pos (by omega)]
        apply Complex.ext <;> simp only [] <;> congr 2 <;> omega
      · rw [Function.update_of_ne hki]
        congr 1
        rw [eq_iff_iff]; omega
  · refine ⟨f, ?_⟩
    rw [if_pos rfl, rdSpan_full, bind_ok, hv.ccs_vec he hp, asReals_vec, wrSpan_vec (by omega), bind_ok,
      pure_eq_ok, asComplex_vec]
    congr 2
    apply vec_ext
    intro k hk
    by_cases hk' : k < n / 2 + 1
    · rw [if_pos (by omega), if_pos (by omega), if_pos hk', if_pos (by omega), if_neg (by omega)]
      apply Complex.ext <;> simp only [] <;> congr 2 <;> omega
    · have a1 : ¬(0 ≤ 2 * k ∧ 2 * k < 0 + (n + 2)) := by omega
      have a2 : ¬(0 ≤ 2 * k + 1 ∧ 2 * k + 1 < 0 + (n + 2)) := by omega
      rw [if_neg a1, if_neg a2, if_neg hk', if_pos (by omega), if_neg (by omega)]
      apply Complex.ext <;> simp only [] <;> congr 2 <;> omega

theorem ippRfft_irfft (hv : v.Contract) (vz : Bool) {b l : ℕ} (h1 : 1 ≤ b) (hb : b < 64)
    (hl : 2 ^ b / 2 + 1 ≤ l) (hl2 : l ≤ 2 ^ b) (f : ℕ → ℝ) (c : ℕ → ℂ) (o : ℕ → ℝ)
    (hc0 : (c 0).im = 0) (hcn : (c (2 ^ b / 2)).im = 0) :
    ∃ f', (ippRfftOf b f).irfft v vz (vec l c) (vec (2 ^ b) o) = .ok (ippRfftOf b f',
      vec (2 ^ b) (fun n => (Spec.idft (2 ^ b) (Spec.hermitian (2 ^ b) c) n).re)) := by
  obtain ⟨he, hp⟩ := pow_even h1
  suffices h : ∃ f', (ippRfftOf b f).irfft v vz (vec l c) (vec (2 ^ b) o)
      = .ok (IppRfftPlan.mk b (vec (2 ^ b * 2) f'),
        vec (2 ^ b) (fun n => (Spec.idft (2 ^ b) (Spec.hermitian (2 ^ b) c) n).re)) from h
  unfold IppRfftPlan.irfft
  have e1 : (ippRfftOf b f).buffer = vec (2 ^ b * 2) f := rfl
  have e3 : (ippRfftOf b f).order = b := rfl
  rw [e1, e3, one_shl, length_vec, sizeOfOrder_ok hb]
  have e5 : ippRfftOf b f = IppRfftPlan.mk b (vec (2 ^ b * 2) f) := rfl
  rw [e5]
  clear e1 e3 e5
  generalize 2 ^ b = n at *
  cases vz
  · rw [if_neg (by simp)]
    rw [forN_eq' (s' := vec (n * 2) (fun j => if j < 2 * l then
          (if j % 2 = 0 then (c (j / 2)).re else (c (j / 2)).im) else f j))
      (fun i => vec (n * 2) (fun j => if j < 2 * i then
          (if j % 2 = 0 then (c (j / 2)).re else (c (j / 2)).im) else f j)), bind_ok,
      rdSpan_vec (Nat.zero_le _) (by omega), bind_ok, Nat.sub_zero,
      hv.ccsInv_vec he hp c hc0 hcn, wrSpan_vec (by omega), bind_ok, bind_ok,
      rdSpan_vec (Nat.zero_le _) (by omega), bind_ok, Nat.sub_zero, copyVec_vec, bind_ok, pure_eq_ok]
    · apply Exists.intro
      exact congrArg (fun r => Except.ok (IppRfftPlan.mk b (vec (n * 2) _), r))
        (vec_ext (fun i hi => by simp [hi]))
    · intro j hj
      rw [Nat.zero_add, if_pos (by omega)]
    · exact vec_ext (fun k _ => by simp)
    · rfl
    · intro i hi
      rw [rd_vec_ok hi, bind_ok, wr_vec_ok (by omega), bind_ok, wr_vec_ok (by omega)]
      congr 1
      apply vec_ext
      intro j hj
      rcases eq_or_ne j (i * 2 + 1) with rfl | h1
      · rw [Function.update_self, if_pos (by omega), if_neg (by omega)]
        congr 2; omega
      · rw [Function.update_of_ne h1]
        rcases eq_or_ne j (i * 2) with rfl | h2
        · rw [Function.update_self, if_pos (by omega), if_pos (by omega)]
          congr 2; omega
        · rw [Function.update_of_ne h2]
          congr 1
          rw [eq_iff_iff]; omega
  · refine ⟨f, ?_⟩
    rw [if_pos rfl, asReals_vec, rdSpan_vec (Nat.zero_le _) (by omega), bind_ok, Nat.sub_zero,
      hv.ccsInv_vec he hp c hc0 hcn _ (fun j _ => by rw [Nat.zero_add]), wrSpan_full, bind_ok,
      pure_eq_ok]

end Neo
