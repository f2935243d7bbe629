import Verif.Model.ExpRfft
import Verif.Lemmas.SplitFft
import Verif.Lemmas.Out

/-! # The experimental interleaved transforms -/

namespace Neo

open Finset ComplexConjugate

/-- Interleaved buffer holding the complex numbers `f 0, …, f (n-1)`. -/
def interC (n : ℕ) (f : ℕ → ℂ) : List ℝ :=
  pairVec n (fun i c => if c = 0 then (f i).re else (f i).im)

theorem interC_ext {n : ℕ} {f g : ℕ → ℂ} (h : ∀ i < n, f i = g i) : interC n f = interC n g :=
  pairVec_ext (fun i hi => by rw [h i hi])

@[simp] theorem length_interC (n : ℕ) (f : ℕ → ℂ) : (interC n f).length = 2 * n := by
  simp [interC, pairVec]

theorem rd_interC_re {n : ℕ} (f : ℕ → ℂ) {i m : ℕ} (hi : i < n) (hm : m = 2 * i) :
    rd (interC n f) m = .ok (f i).re := by
  subst hm
  unfold interC pairVec
  rw [rd_vec_ok (by omega)]
  simp [show 2 * i / 2 = i by omega]

theorem rd_interC_im {n : ℕ} (f : ℕ → ℂ) {i m : ℕ} (hi : i < n) (hm : m = 2 * i + 1) :
    rd (interC n f) m = .ok (f i).im := by
  subst hm
  unfold interC pairVec
  rw [rd_vec_ok (by omega)]
  simp [show (2 * i + 1) / 2 = i by omega, show (2 * i + 1) % 2 = 1 by omega]

/-- Writing both parts of one number. -/
theorem wr_interC {n : ℕ} (f : ℕ → ℂ) {i m m' : ℕ} (hi : i < n) (hm : m = 2 * i)
    (hm' : m' = 2 * i + 1) (a b : ℝ) {β : Type} (k : List ℝ → Res β) :
    (wr (interC n f) m a >>= fun x => wr x m' b >>= k) = k (interC n (Function.update f i ⟨a, b⟩)) := by
  subst hm hm'
  unfold interC pairVec
  rw [wr_vec_ok (by omega), bind_ok, wr_vec_ok (by omega), bind_ok]
  congr 1
  apply vec_ext
  intro j hj
  by_cases h1 : j = 2 * i + 1
  · subst h1
    simp [show (2 * i + 1) / 2 = i by omega, show (2 * i + 1) % 2 = 1 by omega]
  · by_cases h2 : j = 2 * i
    · subst h2
      simp [show 2 * i / 2 = i by omega]
    · have h3 : ¬ j / 2 = i := by omega
      simp [Function.update_of_ne h1, Function.update_of_ne h2, Function.update_of_ne h3]

theorem wr_interC' {n : ℕ} (f : ℕ → ℂ) {i m m' : ℕ} (hi : i < n) (hm : m = 2 * i)
    (hm' : m' = 2 * i + 1) (a b : ℝ) :
    (wr (interC n f) m a >>= fun x => wr x m' b) = .ok (interC n (Function.update f i ⟨a, b⟩)) := by
  have := wr_interC f hi hm hm' a b (fun x => .ok x)
  rw [← this]
  cases wr (interC n f) m a with
  | error e => rfl
  | ok x => rw [bind_ok, bind_ok]; cases wr x m' b <;> rfl

theorem expButterfly0_interC {n : ℕ} (f : ℕ → ℂ) {i1 i2 : ℕ} (h1 : i1 < n) (h2 : i2 < n)
    (h3 : i1 ≠ i2) : expButterfly0 (interC n f) i1 i2
      = .ok (interC n (Function.update (Function.update f i1 (f i1 + f i2)) i2 (f i1 - f i2))) := by
  unfold expButterfly0
  dsimp only
  rw [rd_interC_re f h1 (by ring), bind_ok, rd_interC_im f h1 (by ring), bind_ok,
    rd_interC_re f h2 (by ring), bind_ok, rd_interC_im f h2 (by ring), bind_ok,
    wr_interC f h1 (by ring) (by ring), wr_interC' _ h2 (by ring) (by ring)]
  rfl

theorem expButterflyTw_interC {n : ℕ} (f : ℕ → ℂ) (tw : ℂ) {i1 i2 : ℕ} (h1 : i1 < n) (h2 : i2 < n)
    (h3 : i1 ≠ i2) : expButterflyTw (interC n f) tw i1 i2
      = .ok (interC n
          (Function.update (Function.update f i1 (f i1 + tw * f i2)) i2 (f i1 - tw * f i2))) := by
  unfold expButterflyTw
  dsimp only
  rw [rd_interC_re f h1 (by ring), bind_ok, rd_interC_im f h1 (by ring), bind_ok,
    rd_interC_re f h2 (by ring), bind_ok, rd_interC_im f h2 (by ring), bind_ok,
    wr_interC f h1 (by ring) (by ring), wr_interC' _ h2 (by ring) (by ring)]

/-- Interleaved form of a complex buffer. -/
def interZ (z : List ℂ) : List ℝ := interC z.length (fun i => z.getD i 0)

theorem interZ_vec (n : ℕ) (f : ℕ → ℂ) : interZ (vec n f) = interC n f := by
  unfold interZ
  rw [length_vec]
  exact interC_ext (fun i hi => getD_vec n f 0 i hi)

/-- A loop over `vec` buffers is simulated by a loop over interleaved buffers. -/
theorem forN_interC {n m : ℕ} {body : ℕ → List ℂ → Res (List ℂ)} {body' : ℕ → List ℝ → Res (List ℝ)}
    (hb : ∀ i < m, ∀ g z, body i (vec n g) = .ok z → body' i (interC n g) = .ok (interZ z) ∧
      z.length = n) {f : ℕ → ℂ} {z : List ℂ} (h : forN m body (vec n f) = .ok z) :
    forN m body' (interC n f) = .ok (interZ z) ∧ z.length = n := by
  induction m generalizing z with
  | zero =>
    rw [forN_zero] at h
    injection h with h
    subst h
    rw [interZ_vec]
    exact ⟨rfl, length_vec _ _⟩
  | succ k ih =>
    rw [forN_succ] at h ⊢
    cases hy : forN k body (vec n f) with
    | error e => rw [hy] at h; exact absurd h (by simp)
    | ok y =>
      rw [hy, bind_ok] at h
      obtain ⟨e1, l1⟩ := ih (fun i hi => hb i (by omega)) hy
      have ey := list_eq_vec 0 l1
      rw [e1, bind_ok]
      have : interZ y = interC n (fun i => y.getD i 0) := by unfold interZ; rw [l1]
      rw [this]
      rw [ey] at h
      exact hb k (by omega) _ z h

theorem butterfly0_ok {n : ℕ} {g : ℕ → ℂ} {i1 i2 : ℕ} {z : List ℂ} (h3 : i1 ≠ i2)
    (h : butterfly0 (vec n g) i1 i2 = .ok z) : i1 < n ∧ i2 < n ∧
      z = vec n (Function.update (Function.update g i1 (g i1 + g i2)) i2 (g i1 - g i2)) := by
  unfold butterfly0 at h
  by_cases h1 : i1 < n
  · by_cases h2 : i2 < n
    · simp only [rd_vec_ok h1, rd_vec_ok h2, bind_ok, wr_vec_ok h1, wr_vec_ok h2] at h
      injection h with h
      refine ⟨h1, h2, ?_⟩
      rw [← h, Function.update_comm h3]
    · simp only [rd_vec_ok h1, rd_vec, if_neg h2, bind_ok, bind_error] at h
      exact absurd h (by simp)
  · simp only [rd_vec, if_neg h1, bind_error] at h
    exact absurd h (by simp)

theorem butterflyTw_ok {n : ℕ} {g : ℕ → ℂ} {tw : ℂ} {i1 i2 : ℕ} {z : List ℂ} (h3 : i1 ≠ i2)
    (h : butterflyTw (vec n g) tw i1 i2 = .ok z) : i1 < n ∧ i2 < n ∧
      z = vec n (Function.update (Function.update g i1 (g i1 + tw * g i2)) i2 (g i1 - tw * g i2)) := by
  unfold butterflyTw at h
  by_cases h1 : i1 < n
  · by_cases h2 : i2 < n
    · simp only [rd_vec_ok h1, rd_vec_ok h2, bind_ok, wr_vec_ok h1, wr_vec_ok h2] at h
      injection h with h
      refine ⟨h1, h2, ?_⟩
      rw [← h, Function.update_comm h3]
    · simp only [rd_vec_ok h1, rd_vec, if_neg h2, bind_ok, bind_error] at h
      exact absurd h (by simp)
  · simp only [rd_vec, if_neg h1, bind_error] at h
    exact absurd h (by simp)

/-- The kernel on bit-reversed interleaved data. -/
theorem expKernel_vec {b : ℕ} (hb : 1 ≤ b) (hb' : b ≤ 29) {ω : ℂ} (hω : ω ^ 2 ^ (b - 1) = -1)
    (X : ℕ → ℂ) :
    expKernel (interC (2 ^ b) (fun i => X (digitRev 2 b i))) (twVec b ω)
      = .ok (interC (2 ^ b) (Spec.dftRoot (2 ^ b) ω X)) := by
  unfold expKernel
  have e : interC (2 ^ b) (fun i => X (digitRev 2 b i)) = interC (2 ^ b) (ditPartial 2 b 0 ω X) :=
    interC_ext (fun i _ => (ditPartial_zero 2 b ω X i).symm)
  have hl : 2 * 2 ^ b / 2 = 2 ^ b := by omega
  have h0 : forStep (2 ^ b) 2 (fun k x => expButterfly0 x k (k + 1))
      (interC (2 ^ b) (ditPartial 2 b 0 ω X)) = .ok (interC (2 ^ b) (ditPartial 2 b 1 ω X)) := by
    have h := dit2Stage0_vec hb hω X
    unfold dit2Stage0 at h
    rw [length_vec] at h
    unfold forStep at h ⊢
    obtain ⟨r, _⟩ := forN_interC (body' := fun i x => expButterfly0 x (i * 2) (i * 2 + 1)) (by
      intro i _ g z hz
      obtain ⟨h1, h2, rfl⟩ := butterfly0_ok (by omega) hz
      rw [interZ_vec, expButterfly0_interC g h1 h2 (by omega)]
      exact ⟨rfl, length_vec _ _⟩) h
    rw [interZ_vec] at r
    exact r
  simp only [e, length_interC, hl, bitLog2_two_pow, h0, bind_ok]
  rw [forR_eq' (s := (interC (2 ^ b) (ditPartial 2 b 1 ω X), 2, 4))
    (s' := (interC (2 ^ b) (ditPartial 2 b b ω X), 2 ^ b, 2 * 2 ^ b))
    (fun s => (interC (2 ^ b) (ditPartial 2 b s ω X), 2 ^ s, 2 * 2 ^ s)) hb rfl rfl]
  · simp only [bind_ok, pure_eq_ok]
    congr 1
    exact interC_ext (fun i hi => ditPartial_last 2 b ω X hi)
  · intro s h1 h2
    simp only [ipow_eq]
    have h := dit2_tw_stage h2 hω X
    unfold forStep at h ⊢
    obtain ⟨r, _⟩ := forN_interC (body' := fun i x => forN (2 ^ s) (fun pair x => do
        let tw ← rd (twVec b ω) (pair * 2 ^ (b - s - 1))
        expButterflyTw x tw (i * (2 * 2 ^ s) + pair) (i * (2 * 2 ^ s) + pair + 2 ^ s)) x) (by
      intro i _ g z hz
      refine forN_interC ?_ hz
      intro p _ g z hz
      cases htw : rd (twVec b ω) (p * 2 ^ (b - s - 1)) with
      | error e => rw [htw] at hz; exact absurd hz (by simp)
      | ok tw =>
        rw [htw, bind_ok] at hz
        have hpos : 0 < 2 ^ s := by positivity
        obtain ⟨h1, h2, rfl⟩ := butterflyTw_ok (by omega) hz
        rw [interZ_vec, bind_ok, expButterflyTw_interC g tw h1 h2 (by omega)]
        exact ⟨rfl, length_vec _ _⟩) h
    rw [interZ_vec] at r
    rw [r, bind_ok]
    have hlt : 2 * 2 ^ s * 2 < 2 ^ 31 := by
      have : 2 ^ s ≤ 2 ^ 28 := Nat.pow_le_pow_right (by norm_num) (by omega)
      omega
    rw [if_pos hlt, pure_eq_ok, pow_succ]
    congr 3
    ring

/-- The inner plan of order `b`. -/
noncomputable def expC2cPlanOf (b : ℕ) : ExpC2cPlan where
  order := b
  rev := vec (2 ^ b) (digitRev 2 b)
  wf := makeTwiddleLutRadix2 (2 ^ b) .forward
  wb := makeTwiddleLutRadix2 (2 ^ b) .backward

theorem expC2c_make_eq (b : ℕ) : ExpC2cPlan.make b = .ok (expC2cPlanOf b) := by
  unfold ExpC2cPlan.make
  simp only [Nat.one_shiftLeft, bitrevMake_eq, bind_ok, pure_eq_ok]
  rfl

theorem expC2c_call {b : ℕ} (hb : 1 ≤ b) (hb' : b ≤ 29) (f : ℕ → ℂ) (dir : Direction) :
    (expC2cPlanOf b).call (interC (2 ^ b) f) dir
      = .ok (interC (2 ^ b) (specDft dir (2 ^ b) f)) := by
  unfold ExpC2cPlan.call ExpC2cPlan.size
  have e : interC (2 ^ b) (specDft dir (2 ^ b) f)
      = interC (2 ^ b) (Spec.dftRoot (2 ^ b) (root (2 ^ b) dir) f) :=
    interC_ext (fun i _ => (dftRoot_dir _ _ _ _).symm)
  have hs : (expC2cPlanOf b).order = b := rfl
  have hr : (expC2cPlanOf b).rev = vec (2 ^ b) (digitRev 2 b) := rfl
  have hwf : (expC2cPlanOf b).wf = twVec b (root (2 ^ b) .forward) := makeTwiddleLutRadix2_eq hb _
  have hwb : (expC2cPlanOf b).wb = twVec b (root (2 ^ b) .backward) := makeTwiddleLutRadix2_eq hb _
  rw [hs, hr, hwf, hwb, check_decide_ok (by rw [length_interC, Nat.one_shiftLeft]; omega), bind_ok, e]
  have hrev := bitrevApplyInterleaved_vec (n := 2 ^ b) (fun i _ => digitRev_lt (by norm_num) b i)
        (fun _ hi => digitRev_invol (by norm_num) hi) (fun i c => if c = 0 then (f i).re else (f i).im)
  have hrev' : bitrevApplyInterleaved (vec (2 ^ b) (digitRev 2 b)) (interC (2 ^ b) f)
      = .ok (interC (2 ^ b) (fun i => f (digitRev 2 b i))) := hrev
  rw [hrev', bind_ok]
  cases dir
  · rw [if_pos rfl]; exact expKernel_vec hb hb' (root_two_pow hb .forward) f
  · rw [if_neg (by decide)]; exact expKernel_vec hb hb' (root_two_pow hb .backward) f

end Neo
