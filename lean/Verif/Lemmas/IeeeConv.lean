import Verif.Lemmas.IeeeError
import Verif.Lemmas.AnyPartition

/-! # The transforms and the partitioned convolvers in IEEE 754 arithmetic -/

namespace Neo

open Spec Finset

variable {f : Fmt}

/-- Growth of the error in one stage of a transform whose twiddles have the accuracy `τ`. -/
noncomputable def Spec.Fmt.stageGrowth (f : Fmt) (τ : ℝ) : ℝ := τ * (1 + 5 * f.u) * (1 + 2 * f.u)

theorem one_le_growth {τ : ℝ} (hτ : 1 ≤ τ) : 1 ≤ f.stageGrowth τ := by
  have := u_pos f
  unfold Fmt.stageGrowth
  exact one_le_mul_of_one_le_of_one_le (one_le_mul_of_one_le_of_one_le hτ (by linarith)) (by linarith)

/-- Sum of the bounds of the values that stage `s` has combined. -/
def magRun (m : ℕ → ℝ) : ℕ → ℕ → ℝ
  | 0 => m
  | s + 1 => pairStage (2 ^ s) (fun _ a b => a + b) (fun _ a b => a + b) (magRun m s)

theorem magRun_eq (m : ℕ → ℝ) (s i : ℕ) : magRun m s i = ∑ j ∈ range (2 ^ s), m (i / 2 ^ s * 2 ^ s + j) := by
  induction s generalizing i with
  | zero => simp [magRun]
  | succ s ih =>
    have hpos : 0 < 2 ^ s := by positivity
    have h2 : i / 2 ^ (s + 1) = i / 2 ^ s / 2 := by rw [pow_succ, Nat.div_div_eq_div_mul]
    have e : range (2 ^ (s + 1)) = range (2 ^ s + 2 ^ s) := by rw [pow_succ]; congr 1; ring
    have hup : (i + 2 ^ s) / 2 ^ s = i / 2 ^ s + 1 := Nat.add_div_right _ hpos
    have hdn : (i - 2 ^ s) / 2 ^ s = i / 2 ^ s - 1 := by
      have := Nat.sub_mul_div i (2 ^ s) 1
      rwa [mul_one] at this
    have hq : i / 2 ^ s / 2 * 2 ^ (s + 1) = i / 2 ^ s / 2 * 2 * 2 ^ s := by rw [pow_succ]; ring
    rw [e, sum_range_add, h2, hq]
    unfold magRun pairStage
    split
    · rename_i c
      rw [ih, ih, hup, show i / 2 ^ s / 2 * 2 = i / 2 ^ s by omega]
      refine congrArg₂ (· + ·) rfl (sum_congr rfl fun j _ => ?_)
      rw [add_mul, one_mul, add_assoc]
    · rename_i c
      rw [ih, ih, hdn, show i / 2 ^ s / 2 * 2 = i / 2 ^ s - 1 by omega]
      refine congrArg₂ (· + ·) rfl (sum_congr rfl fun j _ => ?_)
      rw [← add_assoc]
      refine congrArg (fun a => m (a + j)) ?_
      generalize i / 2 ^ s = q at *
      obtain ⟨q', rfl⟩ : ∃ q', q = q' + 1 := ⟨q - 1, by omega⟩
      rw [Nat.add_sub_cancel, add_mul, one_mul]

theorem sum_digitRev (m : ℕ → ℝ) (b : ℕ) : ∑ j ∈ range (2 ^ b), m (digitRev 2 b j) = ∑ j ∈ range (2 ^ b), m j :=
  sum_nbij' (digitRev 2 b) (digitRev 2 b) (fun _ _ => mem_range.2 (digitRev_lt (by norm_num) b _))
    (fun _ _ => mem_range.2 (digitRev_lt (by norm_num) b _))
    (fun _ hj => digitRev_invol (by norm_num) (mem_range.1 hj)) (fun _ hj => digitRev_invol (by norm_num) (mem_range.1 hj))
    (fun _ _ => rfl)

/-- All values combined. -/
theorem magRun_all (m : ℕ → ℝ) {b i : ℕ} (hi : i < 2 ^ b) :
    magRun (fun j => m (digitRev 2 b j)) b i = ∑ j ∈ range (2 ^ b), m j := by
  rw [magRun_eq, Nat.div_eq_of_lt hi, zero_mul, ← sum_digitRev m]
  refine sum_congr rfl fun j _ => ?_
  rw [zero_add]

theorem magRun_nonneg {m : ℕ → ℝ} (hm : ∀ i, 0 ≤ m i) (s i : ℕ) : 0 ≤ magRun m s i := by
  rw [magRun_eq]
  exact sum_nonneg fun j _ => hm _

theorem magRun_mono {m : ℕ → ℝ} (hm : ∀ i, 0 ≤ m i) {r s : ℕ} (h : r ≤ s) (i : ℕ) : magRun m r i ≤ magRun m s i := by
  induction s, h using Nat.le_induction with
  | base => exact le_rfl
  | succ s _ ih =>
    refine ih.trans ?_
    conv_rhs => unfold magRun pairStage
    split
    · linarith [magRun_nonneg hm s (i + 2 ^ s)]
    · linarith [magRun_nonneg hm s (i - 2 ^ s)]

theorem pair_up_lt {b s i : ℕ} (hs : s < b) (hi : i < 2 ^ b) (h : i / 2 ^ s % 2 = 0) : i + 2 ^ s < 2 ^ b := by
  have e := two_pow_split hs
  have hpos : 0 < 2 ^ s := by positivity
  have h1 : i / 2 ^ s < 2 ^ (b - s - 1) * 2 := by
    rw [Nat.div_lt_iff_lt_mul hpos]
    calc i < 2 ^ b := hi
      _ = _ := by rw [e]; ring
  have h2 : i / 2 ^ s + 1 < 2 ^ (b - s - 1) * 2 := by omega
  have h3 : (i + 2 ^ s) / 2 ^ s < 2 ^ (b - s - 1) * 2 := by rw [Nat.add_div_right _ hpos]; exact h2
  rw [Nat.div_lt_iff_lt_mul hpos] at h3
  calc i + 2 ^ s < _ := h3
    _ = 2 ^ b := by rw [e]; ring

/-- The stages of a transform. -/
theorem ditRun_near (hf : f.Ieee) {b : ℕ} {w : ℕ → IC f} {ω : ℂ} {τ : ℝ} (hτ : 1 ≤ τ)
    (hw : ∀ i < 2 ^ (b - 1), NearC (w i) (ω ^ i) 1 τ) {x : ℕ → IC f} {X : ℕ → ℂ} {m : ℕ → ℝ} {γ : ℝ} (hγ : 1 ≤ γ)
    (hx : ∀ i < 2 ^ b, NearC (x i) (X i) (m i) γ) (hm : ∀ i < 2 ^ b, f.minNormal ≤ m i) :
    ∀ s ≤ b, (∀ r ≤ s, ∀ i < 2 ^ b, γ * f.stageGrowth τ ^ r * magRun m r i < (2 : ℝ) ^ f.emax) →
      ∀ i < 2 ^ b, NearC (ditRun b w x s i) (ditRun b (fun i => ω ^ i) X s i) (magRun m s i) (γ * f.stageGrowth τ ^ s) ∧
        f.minNormal ≤ magRun m s i := by
  have hu := u_pos f
  have hg : 1 ≤ f.stageGrowth τ := one_le_growth hτ
  have hν := minNormal_pos f
  intro s
  induction s with
  | zero =>
    intro _ _ i hi
    rw [pow_zero, mul_one]
    exact ⟨hx i hi, hm i hi⟩
  | succ s ih =>
    intro hs ho i hi
    have hup := fun c => pair_up_lt (s := s) (i := i) (by omega : s < b) hi c
    have hdn : ∀ r, i - r < 2 ^ b := fun r => by omega
    have ih' := ih (by omega) (fun r hr => ho r (by omega))
    set G := γ * f.stageGrowth τ ^ s with hG
    have hG1 : 1 ≤ G := one_le_mul_of_one_le_of_one_le hγ (one_le_pow₀ hg)
    have hG2 : γ * f.stageGrowth τ ^ (s + 1) = τ * G * (1 + 5 * f.u) * (1 + 2 * f.u) := by
      rw [pow_succ, hG]
      unfold Fmt.stageGrowth
      ring
    have o := ho (s + 1) le_rfl i hi
    have hle : G * (1 + 2 * f.u) ≤ τ * G * (1 + 5 * f.u) * (1 + 2 * f.u) := by
      apply mul_le_mul_of_nonneg_right _ (by linarith)
      have h1 : G ≤ τ * G := le_mul_of_one_le_left (by linarith) hτ
      exact h1.trans (le_mul_of_one_le_right (by linarith) (by linarith))
    rw [hG2] at o ⊢
    rcases Nat.eq_zero_or_pos s with rfl | h0
    · have e1 : ∀ x : ℕ → IC f, ditRun b w x (0 + 1) = pairStage 1 (fun _ a b => a + b) (fun _ a b => a - b) x :=
        fun _ => rfl
      have e2 : ditRun b (fun i => ω ^ i) X (0 + 1) = pairStage 1 (fun _ a b => a + b) (fun _ a b => a - b) X := rfl
      have e3 : magRun m (0 + 1) = pairStage 1 (fun _ a b => a + b) (fun _ a b => a + b) m := rfl
      rw [e3] at o
      rw [e1, e2, e3]
      have e4 : G = γ := by rw [hG, pow_zero, mul_one]
      unfold pairStage at o ⊢
      split at o
      · rename_i c
        rw [if_pos c, if_pos c, if_pos c]
        have hi1 : i + 1 < 2 ^ b := hup c
        have hn : f.minNormal ≤ m i + m (i + 1) := by linarith [hm i hi, hm (i + 1) hi1]
        refine ⟨(NearC.add hf (hx i hi) (hx (i + 1) hi1) hγ hn (lt_of_le_of_lt ?_ o)).mono (by rw [← e4]; exact hle), hn⟩
        rw [← e4]
        exact mul_le_mul_of_nonneg_right hle (by linarith)
      · rename_i c
        rw [if_neg c, if_neg c, if_neg c]
        have hn : f.minNormal ≤ m (i - 1) + m i := by linarith [hm i hi, hm (i - 1) (hdn 1)]
        refine ⟨(NearC.sub hf (hx (i - 1) (hdn 1)) (hx i hi) hγ hn (lt_of_le_of_lt ?_ o)).mono (by rw [← e4]; exact hle), hn⟩
        rw [← e4]
        exact mul_le_mul_of_nonneg_right hle (by linarith)
    · have e3 : magRun m (s + 1) = pairStage (2 ^ s) (fun _ a b => a + b) (fun _ a b => a + b) (magRun m s) := rfl
      rw [e3] at o
      rw [ditRun_succ h0, ditRun_succ h0, e3]
      have hwi := hw _ (tw_index_lt (s := s) (p := i % 2 ^ s) (by omega) (Nat.mod_lt _ (by positivity)))
      have hτG : 1 ≤ τ * G * (1 + 5 * f.u) :=
        one_le_mul_of_one_le_of_one_le (one_le_mul_of_one_le_of_one_le hτ hG1) (by linarith)
      have hGτ : G ≤ τ * G * (1 + 5 * f.u) :=
        (le_mul_of_one_le_left (by linarith) hτ).trans (le_mul_of_one_le_right (by nlinarith) (by linarith))
      have main : ∀ p q : ℕ, p < 2 ^ b → q < 2 ^ b → τ * G * (1 + 5 * f.u) * (1 + 2 * f.u) * (magRun m s p + magRun m s q) < (2 : ℝ) ^ f.emax →
          NearC (w (i % 2 ^ s * 2 ^ (b - s - 1)) * ditRun b w x s q)
            (ω ^ (i % 2 ^ s * 2 ^ (b - s - 1)) * ditRun b (fun i => ω ^ i) X s q) (magRun m s q)
            (τ * G * (1 + 5 * f.u)) := by
        intro p q hpl hql hpq
        have hq := ih' q hql
        have hp := (ih' p hpl).2
        have k := NearC.mul hf hwi hq.1 hτ hG1 (by rw [one_mul]; exact hq.2) (by
          rw [one_mul]
          refine lt_of_le_of_lt ?_ hpq
          have a1 : magRun m s q ≤ magRun m s p + magRun m s q := by linarith
          have a2 : τ * G * (1 + 5 * f.u) ≤ τ * G * (1 + 5 * f.u) * (1 + 2 * f.u) :=
            le_mul_of_one_le_right (by linarith) (by linarith)
          exact mul_le_mul a2 a1 (by linarith [hq.2]) (by linarith))
        rwa [one_mul] at k
      unfold pairStage at o ⊢
      split at o
      · rename_i c
        rw [if_pos c, if_pos c, if_pos c]
        have hn : f.minNormal ≤ magRun m s i + magRun m s (i + 2 ^ s) := by linarith [(ih' i hi).2, (ih' (i + 2 ^ s) (hup c)).2]
        exact ⟨NearC.add hf ((ih' i hi).1.mono hGτ) (main i _ hi (hup c) o) hτG hn o, hn⟩
      · rename_i c
        rw [if_neg c, if_neg c, if_neg c]
        have hn : f.minNormal ≤ magRun m s (i - 2 ^ s) + magRun m s i := by linarith [(ih' i hi).2, (ih' (i - 2 ^ s) (hdn _)).2]
        exact ⟨NearC.sub hf ((ih' (i - 2 ^ s) (hdn _)).1.mono hGτ) (main _ i (hdn _) hi o) hτG hn o, hn⟩

/-- The twiddles of size `2 ^ b` have the accuracy `τ`. -/
def TwNear (tw : ℕ → ℕ → Direction → IC f) (b : ℕ) (τ : ℝ) : Prop :=
  ∀ dir, ∀ i < 2 ^ (b - 1), NearC (tw (2 ^ b) i dir) (root (2 ^ b) dir ^ i) 1 τ

/-- The transform, given bounds of the inputs. -/
theorem ditGn_near (hf : f.Ieee) {b : ℕ} (hb : 1 ≤ b) {tw : ℕ → ℕ → Direction → IC f} {τ : ℝ} (hτ : 1 ≤ τ)
    (hw : TwNear tw b τ) {x : ℕ → IC f} {X : ℕ → ℂ} {m : ℕ → ℝ} {γ : ℝ} (hγ : 1 ≤ γ)
    (hx : ∀ i < 2 ^ b, NearC (x i) (X i) (m i) γ) (hm : ∀ i < 2 ^ b, f.minNormal ≤ m i)
    (ho : γ * f.stageGrowth τ ^ b * ∑ i ∈ range (2 ^ b), m i < (2 : ℝ) ^ f.emax) (dir : Direction) {k : ℕ}
    (hk : k < 2 ^ b) :
    NearC (ditGn (ieeeArith f tw) b dir x k) (specDft dir (2 ^ b) X k) (∑ i ∈ range (2 ^ b), m i)
      (γ * f.stageGrowth τ ^ b) := by
  have hg : 1 ≤ f.stageGrowth τ := one_le_growth hτ
  have hν := minNormal_pos f
  have hm' : ∀ i, f.minNormal ≤ m (digitRev 2 b i) := fun i => hm _ (digitRev_lt (by norm_num) b i)
  have key := ditRun_near hf (b := b) (w := fun i => tw (2 ^ b) i dir) (ω := root (2 ^ b) dir) hτ (hw dir)
    (x := fun i => x (digitRev 2 b i)) (X := fun i => X (digitRev 2 b i)) (m := fun i => m (digitRev 2 b i)) hγ
    (fun i _ => hx _ (digitRev_lt (by norm_num) b i)) (fun i _ => hm' i) b le_rfl (fun r hr i hi => by
      refine lt_of_le_of_lt ?_ ho
      have hm0 : ∀ i, 0 ≤ m (digitRev 2 b i) := fun i => hν.le.trans (hm' i)
      have h1 := magRun_mono (m := fun i => m (digitRev 2 b i)) hm0 hr i
      rw [magRun_all m hi] at h1
      exact mul_le_mul (mul_le_mul_of_nonneg_left (pow_le_pow_right₀ hg hr) (by linarith)) h1 (magRun_nonneg hm0 r i)
        (by positivity)) k hk
  have hω : root (2 ^ b) dir ^ 2 ^ (b - 1) = -1 := by
    have h2 : 2 ^ b = 2 * 2 ^ (b - 1) := by rw [← pow_succ']; congr 1; omega
    rw [h2]
    exact root_half (by positivity) dir
  rw [ditRun_exact hb hω X hk, dftRoot_dir, magRun_all m hk] at key
  exact key.1


/-! ## Real samples -/

theorem NearR.mono {z : IR f} {ζ M γ γ' : ℝ} (h : NearR z ζ M γ) (hγ : γ ≤ γ') : NearR z ζ M γ' := by
  obtain ⟨a, e, h1, h2⟩ := h
  have hM : 0 ≤ M := (abs_nonneg _).trans h1
  exact ⟨a, e, h1, h2.trans (mul_le_mul_of_nonneg_right (by linarith) hM)⟩

theorem NearR.ofReal {z : IR f} {ζ M γ : ℝ} (tw : ℕ → ℕ → Direction → IC f) (h : NearR z ζ M γ) :
    NearC ((ieeeArith f tw).ofReal z) (ζ : ℂ) M γ := by
  obtain ⟨a, rfl, h1, h2⟩ := h
  refine ⟨a, 0, rfl, by rwa [Complex.norm_real, Real.norm_eq_abs], ?_⟩
  have : (⟨a, 0⟩ : ℂ) - (ζ : ℂ) = ((a - ζ : ℝ) : ℂ) := by apply Complex.ext <;> simp
  rw [this, Complex.norm_real, Real.norm_eq_abs]
  exact h2

theorem NearC.realPart {z : IC f} {ζ : ℂ} {M γ : ℝ} (tw : ℕ → ℕ → Direction → IC f) (h : NearC z ζ M γ) :
    NearR ((ieeeArith f tw).realPart z) ζ.re M γ := by
  obtain ⟨a, b, rfl, h1, h2⟩ := h
  exact ⟨a, rfl, (Complex.abs_re_le_norm _).trans h1,
    (Complex.abs_re_le_norm ((⟨a, b⟩ : ℂ) - ζ)).trans h2⟩

theorem NearC.conj {z : IC f} {ζ : ℂ} {M γ : ℝ} (tw : ℕ → ℕ → Direction → IC f) (h : NearC z ζ M γ) :
    NearC ((ieeeArith f tw).conj z) ((starRingEnd ℂ) ζ) M γ := by
  obtain ⟨a, b, rfl, h1, h2⟩ := h
  refine ⟨a, -b, rfl, by rwa [Complex.norm_conj], ?_⟩
  have : (⟨a, -b⟩ : ℂ) - (starRingEnd ℂ) ζ = (starRingEnd ℂ) (⟨a, b⟩ - ζ) := by
    apply Complex.ext <;> simp [sub_eq_add_neg]
  rwa [this, Complex.norm_conj]

theorem NearR.abs_le {ζ M γ a : ℝ} (h1 : |ζ| ≤ M) (h2 : |a - ζ| ≤ (γ - 1) * M) : |a| ≤ γ * M := by
  have := abs_sub_abs_le_abs_sub a ζ
  linarith

theorem NearR.zero {M γ : ℝ} (hM : 0 ≤ M) (hγ : 1 ≤ γ) : NearR (0 : IR f) 0 M γ :=
  ⟨0, rfl, by rwa [abs_zero], by
    rw [sub_zero, abs_zero]
    exact mul_nonneg (by linarith) hM⟩

theorem NearR.add {z w : IR f} {ζ ξ M K γ : ℝ} (hf : f.Ieee) (hz : NearR z ζ M γ) (hw : NearR w ξ K γ) (hγ : 1 ≤ γ)
    (hn : f.minNormal ≤ M + K) (ho : γ * (1 + f.u) * (M + K) < (2 : ℝ) ^ f.emax) :
    NearR (z + w) (ζ + ξ) (M + K) (γ * (1 + f.u)) := by
  obtain ⟨a, rfl, z1, z2⟩ := hz
  obtain ⟨c, rfl, w1, w2⟩ := hw
  have hS : |a + c| ≤ γ * (M + K) := by
    have := NearR.abs_le z1 z2
    have := NearR.abs_le w1 w2
    have := abs_add_le a c
    linarith
  have hMK : 0 < M + K := (minNormal_pos f).trans_le hn
  have hT : f.minNormal ≤ γ * (M + K) := hn.trans (le_mul_of_one_le_left hMK.le hγ)
  obtain ⟨r, er, hr⟩ := round_ok hf hS hT (by linarith [show (1 + f.u) * (γ * (M + K)) = γ * (1 + f.u) * (M + K) by ring])
  refine ⟨r, congrArg IR.mk er, (abs_add_le _ _).trans (add_le_add z1 w1), ?_⟩
  have e : r - (ζ + ξ) = (r - (a + c)) + ((a - ζ) + (c - ξ)) := by ring
  rw [e]
  have := abs_add_le (r - (a + c)) ((a - ζ) + (c - ξ))
  have := abs_add_le (a - ζ) (c - ξ)
  linarith [show (γ * (1 + f.u) - 1) * (M + K) = f.u * (γ * (M + K)) + ((γ - 1) * M + (γ - 1) * K) by ring]

/-- Product with an exact factor `c`. -/
theorem NearR.scale {z : IR f} {ζ M γ c : ℝ} (hf : f.Ieee) (hz : NearR z ζ M γ) (hγ : 1 ≤ γ) (hc : 0 < c)
    (hn : f.minNormal ≤ M * c) (ho : γ * (1 + f.u) * (M * c) < (2 : ℝ) ^ f.emax) :
    NearR (z * ⟨.fin c⟩) (ζ * c) (M * c) (γ * (1 + f.u)) := by
  obtain ⟨a, rfl, z1, z2⟩ := hz
  have hS : |a * c| ≤ γ * (M * c) := by
    rw [abs_mul, abs_of_pos hc, ← mul_assoc]
    exact mul_le_mul_of_nonneg_right (NearR.abs_le z1 z2) hc.le
  have hMc : 0 < M * c := (minNormal_pos f).trans_le hn
  have hT : f.minNormal ≤ γ * (M * c) := hn.trans (le_mul_of_one_le_left hMc.le hγ)
  obtain ⟨r, er, hr⟩ := round_ok hf hS hT (by linarith [show (1 + f.u) * (γ * (M * c)) = γ * (1 + f.u) * (M * c) by ring])
  refine ⟨r, congrArg IR.mk er, by rw [abs_mul, abs_of_pos hc]; exact mul_le_mul_of_nonneg_right z1 hc.le, ?_⟩
  have e : r - ζ * c = (r - a * c) + (a - ζ) * c := by ring
  rw [e]
  have := abs_add_le (r - a * c) ((a - ζ) * c)
  have k : |(a - ζ) * c| ≤ (γ - 1) * M * c := by
    rw [abs_mul, abs_of_pos hc]
    exact mul_le_mul_of_nonneg_right z2 hc.le
  linarith [show (γ * (1 + f.u) - 1) * (M * c) = f.u * (γ * (M * c)) + (γ - 1) * M * c by ring]

/-! ## The real transforms -/

theorem rfftGn_near (hf : f.Ieee) {b : ℕ} (hb : 1 ≤ b) {tw : ℕ → ℕ → Direction → IC f} {τ : ℝ} (hτ : 1 ≤ τ)
    (hw : TwNear tw b τ) {x : ℕ → IR f} {X m : ℕ → ℝ} {γ : ℝ} (hγ : 1 ≤ γ)
    (hx : ∀ i < 2 ^ b, NearR (x i) (X i) (m i) γ) (hm : ∀ i < 2 ^ b, f.minNormal ≤ m i)
    (ho : γ * f.stageGrowth τ ^ b * ∑ i ∈ range (2 ^ b), m i < (2 : ℝ) ^ f.emax) {k : ℕ} (hk : k < 2 ^ b) :
    NearC (rfftGn (ieeeArith f tw) b x k) (Spec.dft (2 ^ b) (fun n => (X n : ℂ)) k) (∑ i ∈ range (2 ^ b), m i)
      (γ * f.stageGrowth τ ^ b) :=
  ditGn_near hf hb hτ hw hγ (fun i hi => (hx i hi).ofReal tw) hm ho .forward hk

theorem irfftGn_near (hf : f.Ieee) {b : ℕ} (hb : 1 ≤ b) {tw : ℕ → ℕ → Direction → IC f} {τ : ℝ} (hτ : 1 ≤ τ)
    (hw : TwNear tw b τ) {Y : ℕ → IC f} {Z : ℕ → ℂ} {M γ : ℝ} (hγ : 1 ≤ γ)
    (hY : ∀ k ≤ 2 ^ b / 2, NearC (Y k) (Z k) M γ) (hM : f.minNormal ≤ M)
    (ho : γ * f.stageGrowth τ ^ b * (2 ^ b * M) < (2 : ℝ) ^ f.emax) {n : ℕ} (hn : n < 2 ^ b) :
    NearR (irfftGn (ieeeArith f tw) b Y n) (Spec.idft (2 ^ b) (Spec.hermitian (2 ^ b) Z) n).re (2 ^ b * M)
      (γ * f.stageGrowth τ ^ b) := by
  have hs : ∑ _i ∈ range (2 ^ b), M = 2 ^ b * M := by
    rw [sum_const, card_range, nsmul_eq_mul]
    push_cast
    ring
  have key := ditGn_near hf hb hτ hw (x := hermG (ieeeArith f tw) b Y) (X := Spec.hermitian (2 ^ b) Z) (m := fun _ => M) hγ
    (fun i hi => by
      unfold hermG Spec.hermitian
      split
      · exact hY i ‹_›
      · exact (hY _ (by omega)).conj tw) (fun _ _ => hM) (by rw [hs]; exact ho) .backward hn
  rw [hs] at key
  exact key.realPart tw

/-- `Float(1) / Float(size)` is exact. -/
theorem invSize_ieee (hf : f.Ieee) (tw : ℕ → ℕ → Direction → IC f) {b : ℕ} (hb : (b : ℤ) < f.emax) :
    (ieeeArith f tw).invSize (2 ^ b) = ⟨.fin (1 / (2 : ℝ) ^ b)⟩ := by
  have hp : 1 ≤ f.p := by have := hf.1; omega
  have e1 : (((2 ^ b : ℕ) : ℝ)) = (2 : ℝ) ^ (b : ℤ) := by push_cast; rw [zpow_natCast]
  have e2 : (1 : ℝ) / (2 : ℝ) ^ (b : ℤ) = (2 : ℝ) ^ (-(b : ℤ)) := by rw [zpow_neg, one_div]
  have hr := hf.2.2
  have h3 := hf.1
  have r1 : f.round (.fin ((2 : ℝ) ^ (b : ℤ))) = .fin ((2 : ℝ) ^ (b : ℤ)) :=
    round_mem (two_zpow_onGrid hp (by have := hf.2.1; omega)) (by
      rw [abs_of_pos (two_zpow_pos _)]; exact zpow_lt_zpow_right₀ (by norm_num) hb)
  have r2 : f.round (.fin ((2 : ℝ) ^ (-(b : ℤ)))) = .fin ((2 : ℝ) ^ (-(b : ℤ))) :=
    round_mem (two_zpow_onGrid hp (by omega)) (by
      rw [abs_of_pos (two_zpow_pos _)]; exact zpow_lt_zpow_right₀ (by norm_num) (by have := hf.2.1; omega))
  show (⟨f.round (FVal.div (.fin 1) (f.round (.fin ((2 ^ b : ℕ) : ℝ))))⟩ : IR f) = _
  rw [e1, r1]
  simp only [FVal.div]
  rw [if_neg (two_zpow_pos _).ne', e2, r2, ← e2, zpow_natCast]

/-- The scaled samples. -/
theorem specOutG_near (hf : f.Ieee) {b : ℕ} (hb : 1 ≤ b) (hbe : (b : ℤ) < f.emax) {tw : ℕ → ℕ → Direction → IC f} {τ : ℝ}
    (hτ : 1 ≤ τ) (hw : TwNear tw b τ) {Y : ℕ → IC f} {Z : ℕ → ℂ} {M γ : ℝ} (hγ : 1 ≤ γ)
    (hY : ∀ k ≤ 2 ^ b / 2, NearC (Y k) (Z k) M γ) (hM : f.minNormal ≤ M)
    (ho : γ * f.stageGrowth τ ^ b * (2 ^ b * M) < (2 : ℝ) ^ f.emax) {n : ℕ} (hn : n < 2 ^ b) :
    NearR (specOutG (ieeeArith f tw) b Y n) (specOut (2 ^ b) Z n) M (γ * f.stageGrowth τ ^ b * (1 + f.u)) := by
  have hu := u_le hf
  have hg : 1 ≤ f.stageGrowth τ := one_le_growth hτ
  have hG : 1 ≤ γ * f.stageGrowth τ ^ b := one_le_mul_of_one_le_of_one_le hγ (one_le_pow₀ hg)
  have hM0 : 0 < M := (minNormal_pos f).trans_le hM
  have h2 : (2 : ℝ) ≤ 2 ^ b := by
    calc (2 : ℝ) = 2 ^ 1 := by norm_num
      _ ≤ 2 ^ b := pow_le_pow_right₀ (by norm_num) hb
  have k := irfftGn_near hf hb hτ hw hγ hY hM ho hn
  have hc : (0 : ℝ) < 1 / 2 ^ b := by positivity
  have e : 2 ^ b * M * (1 / 2 ^ b) = M := by field_simp
  have k2 := NearR.scale hf k hG hc (by rw [e]; exact hM) (by
    rw [e]
    refine lt_of_le_of_lt ?_ ho
    rw [mul_assoc]
    exact mul_le_mul_of_nonneg_left (mul_le_mul_of_nonneg_right (by linarith) hM0.le) (by linarith))
  rw [e] at k2
  unfold specOutG specOut
  rw [invSize_ieee hf tw hbe]
  push_cast
  exact k2

/-! ## The sum over the partitions -/

theorem slotAt_near {X : ℕ → ℕ → IC f} {Z : ℕ → ℕ → ℂ} {M γ : ℝ} (hM : 0 ≤ M) (hγ : 1 ≤ γ) (N : ℕ) {k : ℕ}
    (h : ∀ t, NearC (X t k) (Z t k) M γ) (t s : ℕ) : NearC (slotAt X N t s k) (slotAt Z N t s k) M γ := by
  induction t with
  | zero => exact NearC.zero hM hγ
  | succ t ih =>
    unfold slotAt
    split
    · exact h t
    · exact ih

theorem accum_near (hf : f.Ieee) {g : ℕ → IC f} {G : ℕ → ℂ} {m : ℕ → ℝ} {γ : ℝ} (hγ : 1 ≤ γ) {N : ℕ}
    (h : ∀ s < N, NearC (g s) (G s) (m s) γ) (hm : ∀ s < N, f.minNormal ≤ m s)
    (ho : γ * (1 + 2 * f.u) ^ N * ∑ s ∈ range N, m s < (2 : ℝ) ^ f.emax) :
    ∀ n ≤ N, NearC (accum g 0 0 n) (accum G 0 0 n) (∑ s ∈ range n, m s) (γ * (1 + 2 * f.u) ^ n) := by
  have hu := u_pos f
  have hν := minNormal_pos f
  intro n
  induction n with
  | zero =>
    intro _
    rw [sum_range_zero, pow_zero, mul_one]
    exact NearC.zero le_rfl hγ
  | succ n ih =>
    intro hn
    have ih' := ih (by omega)
    have hpow : 1 ≤ (1 + 2 * f.u) ^ n := one_le_pow₀ (by linarith)
    have hs0 : 0 ≤ ∑ s ∈ range n, m s := sum_nonneg fun s hs => hν.le.trans (hm s (by have := mem_range.1 hs; omega))
    have hmn := hm n (by omega)
    rw [accum, accum, sum_range_succ, pow_succ, ← mul_assoc, Nat.zero_add]
    refine NearC.add hf ih' ((h n (by omega)).mono (le_mul_of_one_le_right (by linarith) hpow))
      (one_le_mul_of_one_le_of_one_le hγ hpow) (by linarith) (lt_of_le_of_lt ?_ ho)
    rw [mul_assoc γ, ← pow_succ, ← sum_range_succ]
    apply mul_le_mul
    · exact mul_le_mul_of_nonneg_left (pow_le_pow_right₀ (by linarith) hn) (by linarith)
    · exact sum_le_sum_of_subset_of_nonneg (range_mono hn) fun s hs _ => hν.le.trans (hm s (mem_range.1 hs))
    · rw [sum_range_succ]; linarith
    · positivity

theorem macY_near (hf : f.Ieee) {N : ℕ} {H X : ℕ → ℕ → IC f} {H' X' : ℕ → ℕ → ℂ} {M γ κ : ℝ} {m : ℕ → ℝ} {k : ℕ}
    (hγ : 1 ≤ γ) (hκ : 1 ≤ κ) (hX : ∀ t, NearC (X t k) (X' t k) M γ) (hH : ∀ j < N, NearC (H j k) (H' j k) (m j) κ)
    (hM : 0 ≤ M) (hn : ∀ j < N, f.minNormal ≤ M * m j)
    (ho : γ * κ * (1 + 5 * f.u) * (1 + 2 * f.u) ^ N * (M * ∑ j ∈ range N, m j) < (2 : ℝ) ^ f.emax) (t : ℕ) :
    NearC (macY N H X t k) (specY N H' X' t k) (M * ∑ j ∈ range N, m j) (γ * κ * (1 + 5 * f.u) * (1 + 2 * f.u) ^ N) := by
  have hu := u_pos f
  have hν := minNormal_pos f
  have hj : ∀ s, s < N → (t % N + N - s) % N < N := fun s hs => Nat.mod_lt _ (by omega)
  have hperm : ∑ s ∈ range N, M * m ((t % N + N - s) % N) = M * ∑ j ∈ range N, m j := by
    rw [mul_sum]
    exact sum_slots_gen (fun _ _ => (0 : ℝ)) (fun j _ => m j) (fun _ b => M * b) t 0
  have hpow : 1 ≤ (1 + 2 * f.u) ^ N := one_le_pow₀ (by linarith)
  have hG : 1 ≤ γ * κ * (1 + 5 * f.u) :=
    one_le_mul_of_one_le_of_one_le (one_le_mul_of_one_le_of_one_le hγ hκ) (by linarith)
  have hterm : ∀ s < N, M * m ((t % N + N - s) % N) ≤ M * ∑ j ∈ range N, m j := fun s hs => by
    rw [← hperm]
    exact single_le_sum (f := fun s => M * m ((t % N + N - s) % N))
      (fun s hs => hν.le.trans (hn _ (hj s (mem_range.1 hs)))) (mem_range.2 hs)
  have key := accum_near hf hG (N := N) (g := fun s => slotAt X N (t + 1) s k * H ((t % N + N - s) % N) k)
    (G := fun s => slotAt X' N (t + 1) s k * H' ((t % N + N - s) % N) k) (m := fun s => M * m ((t % N + N - s) % N))
    (fun s hs => by
      refine NearC.mul hf (slotAt_near hM hγ N hX _ _) (hH _ (hj s hs)) hγ hκ (hn _ (hj s hs)) (lt_of_le_of_lt ?_ ho)
      have h0 := hν.le.trans (hn _ (hj s hs))
      exact mul_le_mul (le_mul_of_one_le_right (by linarith) hpow) (hterm s hs) h0 (by positivity))
    (fun s hs => hn _ (hj s hs)) (by rw [hperm]; exact ho) N le_rfl
  rw [hperm] at key
  rw [← macY_eq]
  exact key

end Neo
