import Verif.Model.AnyConv
import Verif.Lemmas.AnyArith
import Verif.Lemmas.FftConv
import Verif.Lemmas.DirectRounding
import Verif.Lemmas.IeeeConv
import Verif.Lemmas.NonFinite

/-! # `fft_convolver` over any arithmetic, and both one-shot convolutions in IEEE arithmetic -/

namespace Neo

open Spec Finset

section any
variable {R C : Type} [Zero R] [Add R] [Mul R] [Zero C] [AddCommMagma C] [Sub C] [Mul C] {A : Arith R C}

/-- An `fft_convolver` with transform size `2 ^ b`. -/
def fcGOf (A : Arith R C) (n l b : ℕ) (f : ℕ → C) (tmp : ℕ → R) (ss ps : ℕ → C) : FftConvolverG A where
  signalSize := n
  patchSize := l
  plan := rfftPlanGOf A b f
  tmp := vec (2 ^ b) tmp
  signalSpectrum := vec (2 ^ b / 2 + 1) ss
  patchSpectrum := vec (2 ^ b / 2 + 1) ps

theorem fftConvolverG_make_eq {n l : ℕ} (hn : 1 < n) (hl : 1 < l) (hb : Nat.clog 2 (n + l - 1) ≤ 27) :
    FftConvolverG.make A n l = .ok (fcGOf A n l (Nat.clog 2 (n + l - 1)) (fun _ => 0) (fun _ => 0)
      (fun _ => 0) (fun _ => 0)) := by
  unfold FftConvolverG.make outputSizeFull
  rw [if_neg (by omega), bind_ok, nextOrder_eq, rfftPlanG_make_eq hb, bind_ok, check_decide_ok hn, bind_ok,
    check_decide_ok hl, bind_ok, pure_eq_ok]
  simp only [rfftPlanGOf_size]
  rfl

theorem zeroPadForwardG_vec {b n : ℕ} (hb : 1 ≤ b) (hn : n ≤ 2 ^ b) (f : ℕ → C) (tmp x : ℕ → R) (o : ℕ → C) :
    ∃ f' : ℕ → C, zeroPadForwardG (rfftPlanGOf A b f) (vec (2 ^ b) tmp) (vec n x) (vec (2 ^ b / 2 + 1) o)
      = .ok (rfftPlanGOf A b f', vec (2 ^ b) (zext n x), vec (2 ^ b / 2 + 1) (rfftGn A b (zext n x))) := by
  obtain ⟨f1, e1⟩ := rfftG_fn (A := A) hb le_rfl f (zext n x) o
  refine ⟨f1, ?_⟩
  unfold zeroPadForwardG
  rw [length_vec, copyInto_vec _ _ (by omega), bind_ok, length_vec, rdSpan_vec hn le_rfl, bind_ok,
    fillVec_vec, bind_ok, wrSpan_vec (by omega), bind_ok]
  have e : (vec (2 ^ b) fun i => if n ≤ i ∧ i < n + (2 ^ b - n) then (0 : R)
      else if 0 ≤ i ∧ i < 0 + n then x (i - 0) else tmp i) = vec (2 ^ b) (zext n x) := by
    apply vec_ext
    intro i hi
    unfold zext
    by_cases c : i < n
    · rw [if_neg (by omega), if_pos (by omega), if_pos c, Nat.sub_zero]
    · rw [if_pos (by omega), if_neg c]
  rw [e, e1, bind_ok]
  simp only [pure_eq_ok]
  congr 3
  exact vec_ext (fun k hk => by rw [if_pos hk])

/-- Output sample `k` of `fft_convolve`, as computed. -/
def fcOut (A : Arith R C) (n l b : ℕ) (x h : ℕ → R) (k : ℕ) : R :=
  specOutG A b (fun k => rfftGn A b (zext n x) k * rfftGn A b (zext l h) k) k

theorem fftConvolverG_call {n l b : ℕ} (hn : 1 ≤ n) (hl : 1 ≤ l) (hb : 1 ≤ b)
    (hK : n + l - 1 ≤ 2 ^ b) (f : ℕ → C) (tmp : ℕ → R) (ss ps : ℕ → C) (x h o : ℕ → R) :
    ∃ f' tmp' ss' ps', (fcGOf A n l b f tmp ss ps).call (vec n x) (vec l h) (vec (n + l - 1) o)
        = .ok (fcGOf A n l b f' tmp' ss' ps', vec (n + l - 1) (fcOut A n l b x h)) := by
  obtain ⟨f1, e1⟩ := zeroPadForwardG_vec (A := A) hb (by omega : n ≤ 2 ^ b) f tmp x ss
  obtain ⟨f2, e2⟩ := zeroPadForwardG_vec (A := A) hb (by omega : l ≤ 2 ^ b) f1 (zext n x) h ps
  set Y : ℕ → C := fun k => rfftGn A b (zext n x) k * rfftGn A b (zext l h) k with hY
  obtain ⟨f3, e3⟩ := irfftG_fn (A := A) hb le_rfl (half_lt hb) (le_refl (2 ^ b)) f2 Y (zext l h)
  refine ⟨f3, specOutG A b Y, Y, rfftGn A b (zext l h), ?_⟩
  unfold FftConvolverG.call
  have h1 : (fcGOf A n l b f tmp ss ps).signalSize = n := rfl
  have h2 : (fcGOf A n l b f tmp ss ps).patchSize = l := rfl
  have h3 : (fcGOf A n l b f tmp ss ps).plan = rfftPlanGOf A b f := rfl
  have h4 : (fcGOf A n l b f tmp ss ps).tmp = vec (2 ^ b) tmp := rfl
  have h5 : (fcGOf A n l b f tmp ss ps).signalSpectrum = vec (2 ^ b / 2 + 1) ss := rfl
  have h6 : (fcGOf A n l b f tmp ss ps).patchSpectrum = vec (2 ^ b / 2 + 1) ps := rfl
  simp only [h1, h2, h3, h4, h5, h6, length_vec, outputSizeFull, decide_true, check_true, bind_ok]
  rw [e1, bind_ok]
  simp only []
  rw [e2, bind_ok]
  simp only []
  rw [multiplyInPlace_vec, bind_ok]
  unfold transformBackwardG
  rw [e3, bind_ok]
  simp only [rfftPlanGOf_size]
  rw [scaleVec_vec, bind_ok]
  have hout : (vec (2 ^ b) fun i => (if i < 2 ^ b then irfftGn A b Y i else zext l h i) * A.invSize (2 ^ b))
      = vec (2 ^ b) (specOutG A b Y) := vec_ext (fun i hi => by rw [if_pos hi]; rfl)
  rw [hout, rdSpan_vec (Nat.zero_le _) hK, bind_ok, Nat.sub_zero, copyVec_vec, bind_ok, pure_eq_ok, bind_ok]
  simp only [pure_eq_ok, Nat.zero_add]
  rfl

theorem clog_bounds {n l : ℕ} (hn : 2 ≤ n) (hl : 2 ≤ l) (hs : n + l - 1 ≤ 2 ^ 27) :
    1 ≤ Nat.clog 2 (n + l - 1) ∧ Nat.clog 2 (n + l - 1) ≤ 27 ∧ n + l - 1 ≤ 2 ^ Nat.clog 2 (n + l - 1) := by
  refine ⟨Nat.clog_pos (by norm_num) (by omega), (Nat.clog_le_iff_le_pow (by norm_num)).2 hs, Nat.le_pow_clog (by norm_num) _⟩

theorem fftConvolveG_eq {n l : ℕ} (hn : 2 ≤ n) (hl : 2 ≤ l) (hs : n + l - 1 ≤ 2 ^ 27) (x h : ℕ → R) :
    fftConvolveG A (vec n x) (vec l h) = .ok (vec (n + l - 1) (fcOut A n l (Nat.clog 2 (n + l - 1)) x h)) := by
  obtain ⟨b1, b2, b3⟩ := clog_bounds hn hl hs
  obtain ⟨f', tmp', ss', ps', e⟩ := fftConvolverG_call (A := A) (by omega : 1 ≤ n) (by omega : 1 ≤ l) b1 b3
    (fun _ => 0) (fun _ => 0) (fun _ => 0) (fun _ => 0) x h (fun _ => 0)
  unfold fftConvolveG
  rw [length_vec, length_vec, if_neg (by omega), fftConvolverG_make_eq (by omega) (by omega) b2, bind_ok]
  unfold outputSizeFull
  rw [e, bind_ok]
  rfl

/-- Every call of a convolver, whatever happened before, gives the result of a fresh one. -/
theorem fftConvolverG_run {n l b : ℕ} (hn : 1 ≤ n) (hl : 1 ≤ l) (hb : 1 ≤ b) (hK : n + l - 1 ≤ 2 ^ b)
    (calls : List (List R × List R × List R))
    (hc : ∀ c ∈ calls, c.1.length = n ∧ c.2.1.length = l ∧ c.2.2.length = n + l - 1) :
    ∀ (f : ℕ → C) (tmp : ℕ → R) (ss ps : ℕ → C), (fcGOf A n l b f tmp ss ps).run calls
      = .ok (calls.map fun c => vec (n + l - 1) (fcOut A n l b (fun i => c.1.getD i 0) fun i => c.2.1.getD i 0)) := by
  induction calls with
  | nil => intros; rfl
  | cons c calls ih =>
    intro f tmp ss ps
    obtain ⟨x, y, o⟩ := c
    obtain ⟨h1, h2, h3⟩ := hc (x, y, o) (List.mem_cons_self)
    simp only at h1 h2 h3
    obtain ⟨f', tmp', ss', ps', e⟩ := fftConvolverG_call (A := A) hn hl hb hK f tmp ss ps (fun i => x.getD i 0)
      (fun i => y.getD i 0) (fun i => o.getD i 0)
    rw [← list_eq_vec 0 h1, ← list_eq_vec 0 h2, ← list_eq_vec 0 h3] at e
    unfold FftConvolverG.run
    rw [e, bind_ok]
    dsimp only
    rw [ih (fun c h => hc c (List.mem_cons_of_mem _ h)), bind_ok]
    rfl

end any

/-! ## IEEE arithmetic -/

variable {f : Fmt} {tw : ℕ → ℕ → Direction → IC f}

/-- A non-finite sample in either operand spoils every output. -/
theorem fcOut_nonFinite {n l b : ℕ} {x h : ℕ → IR f} (hn : n ≤ 2 ^ b) (hl : l ≤ 2 ^ b)
    (hx : (∃ i < n, (x i).val.NonFinite) ∨ ∃ i < l, (h i).val.NonFinite) {k : ℕ} (hk : k < 2 ^ b) :
    (fcOut (ieeeArith f tw) n l b x h k).val.NonFinite := by
  have key : ∀ {m : ℕ} {z : ℕ → IR f}, m ≤ 2 ^ b → (∃ i < m, (z i).val.NonFinite) →
      (rfftGn (ieeeArith f tw) b (zext m z) 0).Inf := by
    rintro m z hm ⟨i, hi, h0⟩
    refine Or.inl (ditGn_re .forward _ (i0 := i) (by omega) ?_ (by positivity))
    show (zext m z i).val.NonFinite
    rw [zext_of_lt _ hi]
    exact h0
  refine specOutG_nonFinite (k := 0) (Nat.zero_le _) ?_ hk
  rcases hx with h | h
  · exact IC.mul_inf_left (key hn h)
  · exact IC.mul_inf_right (key hl h)

/-- Sum of products, one of which is not finite. -/
theorem accum_nonFinite {g : ℕ → IR f} {lo m : ℕ} (n : ℕ) (h1 : lo ≤ m) (h2 : m < lo + n) (hg : (g m).val.NonFinite) :
    (accum g 0 lo n).val.NonFinite := by
  induction n with
  | zero => omega
  | succ n ih =>
    by_cases c : m = lo + n
    · subst c
      exact Fmt.round_nonFinite (FVal.add_nonFinite_right hg _)
    · exact Fmt.round_nonFinite (FVal.add_nonFinite_left (ih (by omega)) _)

theorem accum_congr' {R : Type} [Add R] {g g' : ℕ → R} {z : R} {lo : ℕ} (n : ℕ)
    (h : ∀ m, lo ≤ m → m < lo + n → g m = g' m) : accum g z lo n = accum g' z lo n := by
  induction n with
  | zero => rfl
  | succ n ih =>
    unfold accum
    rw [ih fun m h1 h2 => h m h1 (by omega), h (lo + n) (by omega) (by omega)]

/-- Sum of rounded products. -/
theorem accumR_near (hf : f.Ieee) {g : ℕ → IR f} {G : ℕ → ℝ} {m : ℕ → ℝ} {γ : ℝ} (hγ : 1 ≤ γ) {lo N : ℕ}
    (h : ∀ s, lo ≤ s → s < lo + N → NearR (g s) (G s) (m s) γ) (hm : ∀ s, lo ≤ s → s < lo + N → f.minNormal ≤ m s)
    (ho : γ * (1 + f.u) ^ N * ∑ s ∈ Ico lo (lo + N), m s < (2 : ℝ) ^ f.emax) :
    ∀ n ≤ N, NearR (accum g 0 lo n) (∑ s ∈ Ico lo (lo + n), G s) (∑ s ∈ Ico lo (lo + n), m s) (γ * (1 + f.u) ^ n) := by
  have hu := u_pos f
  have hν := minNormal_pos f
  intro n
  induction n with
  | zero =>
    intro _
    rw [Nat.add_zero, Ico_self, sum_empty, sum_empty, pow_zero, mul_one]
    exact NearR.zero le_rfl hγ
  | succ n ih =>
    intro hn
    have ih' := ih (by omega)
    have hpow : 1 ≤ (1 + f.u) ^ n := one_le_pow₀ (by linarith)
    have hs0 : 0 ≤ ∑ s ∈ Ico lo (lo + n), m s := sum_nonneg fun s hs => by
      have := mem_Ico.1 hs
      exact hν.le.trans (hm s this.1 (by omega))
    have hmn := hm (lo + n) (by omega) (by omega)
    have e1 : ∀ q : ℕ → ℝ, ∑ s ∈ Ico lo (lo + (n + 1)), q s = ∑ s ∈ Ico lo (lo + n), q s + q (lo + n) := fun q => by
      rw [← Nat.add_assoc, sum_Ico_succ_top (by omega)]
    rw [accum, e1, e1, pow_succ, ← mul_assoc]
    refine NearR.add hf ih' ((h (lo + n) (by omega) (by omega)).mono (le_mul_of_one_le_right (by linarith) hpow))
      (one_le_mul_of_one_le_of_one_le hγ hpow) (by linarith) (lt_of_le_of_lt ?_ ho)
    rw [mul_assoc γ, ← pow_succ, ← e1]
    apply mul_le_mul
    · exact mul_le_mul_of_nonneg_left (pow_le_pow_right₀ (by linarith) hn) (by linarith)
    · exact sum_le_sum_of_subset_of_nonneg (Ico_subset_Ico_right (by omega)) fun s hs _ => by
        have := mem_Ico.1 hs
        exact hν.le.trans (hm s this.1 this.2)
    · rw [e1]; linarith
    · positivity

/-- One rounded product of finite numbers. -/
theorem NearR.prod (hf : f.Ieee) (a b : ℝ) {η : ℝ} (hη : f.minNormal ≤ η)
    (ho : (1 + f.u) * (|a| * |b| + η) < (2 : ℝ) ^ f.emax) :
    NearR ((⟨.fin a⟩ : IR f) * ⟨.fin b⟩) (a * b) (|a| * |b| + η) (1 + f.u) := by
  have hν := minNormal_pos f
  have h0 : 0 ≤ |a| * |b| := by positivity
  obtain ⟨r, er, hr⟩ := round_ok hf (t := a * b) (T := |a| * |b| + η) (by rw [abs_mul]; linarith) (by linarith) ho
  refine ⟨r, congrArg IR.mk er, by rw [abs_mul]; linarith, ?_⟩
  rw [add_sub_cancel_left]
  exact hr

end Neo
