import Verif.Model.SnippetRfft
import Verif.Lemmas.ExpPlan
import Verif.Lemmas.BitRevInterleaved
import Verif.Lemmas.BackendReach

/-! # The real transform snippet -/

namespace Neo

open Finset ComplexConjugate

theorem nrButterfly_interC {n : ℕ} (f : ℕ → ℂ) (w : ℂ) {i1 i2 mmax i : ℕ} (h1 : i1 < i2) (h2 : i2 < n)
    (hi : i = 2 * i1 + 1) (hm : mmax = 2 * (i2 - i1)) :
    nrButterfly (interC n f) w.re w.im mmax i
      = .ok (interC n (Function.update (Function.update f i2 (f i1 - w * f i2)) i1
          (f i1 + w * f i2))) := by
  have ej : i + mmax = 2 * i2 + 1 := by omega
  subst hi
  unfold nrButterfly
  dsimp only
  rw [ej, show 2 * i2 + 1 - 1 = 2 * i2 by omega, show 2 * i1 + 1 - 1 = 2 * i1 by omega]
  unfold interC pairVec
  have a1 : 2 * i1 < 2 * n := by omega
  have a2 : 2 * i1 + 1 < 2 * n := by omega
  have a3 : 2 * i2 < 2 * n := by omega
  have a4 : 2 * i2 + 1 < 2 * n := by omega
  simp only [rd_vec_ok a1, rd_vec_ok a2, rd_vec_ok a3, rd_vec_ok a4, wr_vec_ok a1, wr_vec_ok a2,
    wr_vec_ok a3, wr_vec_ok a4, bind_ok]
  congr 1
  apply vec_ext
  intro k _
  have b1 : 2 * i1 / 2 = i1 := by omega
  have b2 : (2 * i1 + 1) / 2 = i1 := by omega
  have b3 : 2 * i2 / 2 = i2 := by omega
  have b4 : (2 * i2 + 1) / 2 = i2 := by omega
  have c1 : (2 * i1 + 1) % 2 = 1 := by omega
  have c2 : (2 * i2 + 1) % 2 = 1 := by omega
  have c3 : 2 * i1 % 2 = 0 := by omega
  have c4 : 2 * i2 % 2 = 0 := by omega
  have d1 : 2 * i1 ≠ 2 * i2 := by omega
  have d2 : 2 * i1 ≠ 2 * i2 + 1 := by omega
  have d3 : 2 * i1 + 1 ≠ 2 * i2 := by omega
  have d4 : 2 * i1 + 1 ≠ 2 * i2 + 1 := by omega
  have d5 : 2 * i1 + 1 ≠ 2 * i1 := by omega
  have d6 : i2 ≠ i1 := by omega
  by_cases e1 : k = 2 * i1 + 1
  · subst e1
    simp [b1, b2, b3, b4, c1, c2, c3, c4, Function.update_of_ne d4, Function.update_of_ne d3,
      Function.update_of_ne d5]
  by_cases e2 : k = 2 * i1
  · subst e2
    simp [b1, b2, b3, b4, c1, c2, c3, c4, Function.update_of_ne d1, Function.update_of_ne d2, e1]
  by_cases e3 : k = 2 * i2 + 1
  · subst e3
    simp [b1, b2, b3, b4, c1, c2, c3, c4, Function.update_of_ne d4, Function.update_of_ne d3,
      Function.update_of_ne e1, Function.update_of_ne e2, Function.update_of_ne d6]
  by_cases e4 : k = 2 * i2
  · subst e4
    simp [b1, b2, b3, b4, c1, c2, c3, c4, Function.update_of_ne e1, Function.update_of_ne e2,
      Function.update_of_ne e3, Function.update_of_ne d6]
  · have g1 : k / 2 ≠ i1 := by omega
    have g2 : k / 2 ≠ i2 := by omega
    simp [Function.update_of_ne e1, Function.update_of_ne e2, Function.update_of_ne e3,
      Function.update_of_ne e4, Function.update_of_ne g1, Function.update_of_ne g2]

/-- State inside a pass: pairs `< p` are done, of pair `p` the first `q` blocks. -/
noncomputable def nrPart (L : ℕ) (w f : ℕ → ℂ) (p q i : ℕ) : ℂ :=
  if i % L < p ∨ (i % L = p ∧ i / (2 * L) < q) then stage2 L w f i else f i

theorem nrPart_step {L p q : ℕ} (hp : p < L) (w f : ℕ → ℂ) :
    Function.update (Function.update (nrPart L w f p q) (q * (2 * L) + p + L)
        (nrPart L w f p q (q * (2 * L) + p) - w p * nrPart L w f p q (q * (2 * L) + p + L)))
        (q * (2 * L) + p)
        (nrPart L w f p q (q * (2 * L) + p) + w p * nrPart L w f p q (q * (2 * L) + p + L))
      = nrPart L w f p (q + 1) := by
  have hL : 0 < L := by omega
  have m1 : (q * (2 * L) + p) % L = p := by
    rw [← mul_assoc, Nat.add_comm, Nat.add_mul_mod_self_right, Nat.mod_eq_of_lt hp]
  have m2 : (q * (2 * L) + p + L) % L = p := by rw [Nat.add_mod_right, m1]
  have q1 : (q * (2 * L) + p) / (2 * L) = q := by
    rw [Nat.add_comm, Nat.add_mul_div_right _ _ (by omega), Nat.div_eq_of_lt (by omega), zero_add]
  have q2 : (q * (2 * L) + p + L) / (2 * L) = q := by
    rw [add_assoc, Nat.add_comm, Nat.add_mul_div_right _ _ (by omega), Nat.div_eq_of_lt (by omega),
      zero_add]
  have r1 : (q * (2 * L) + p) / L % 2 = 0 := by
    rw [show q * (2 * L) + p = p + (2 * q) * L by ring, Nat.add_mul_div_right _ _ hL,
      Nat.div_eq_of_lt hp]
    omega
  have r2 : (q * (2 * L) + p + L) / L % 2 = 1 := by
    rw [show q * (2 * L) + p + L = p + (2 * q + 1) * L by ring, Nat.add_mul_div_right _ _ hL,
      Nat.div_eq_of_lt hp]
    omega
  have e1 : nrPart L w f p q (q * (2 * L) + p) = f (q * (2 * L) + p) := by
    unfold nrPart; rw [m1, q1, if_neg (by omega)]
  have e2 : nrPart L w f p q (q * (2 * L) + p + L) = f (q * (2 * L) + p + L) := by
    unfold nrPart; rw [m2, q2, if_neg (by omega)]
  rw [e1, e2]
  funext i
  by_cases h1 : i = q * (2 * L) + p
  · subst h1
    rw [Function.update_self]
    unfold nrPart stage2
    rw [m1, q1, if_pos (by omega), if_pos r1]
  · rw [Function.update_of_ne h1]
    by_cases h2 : i = q * (2 * L) + p + L
    · subst h2
      rw [Function.update_self]
      unfold nrPart stage2
      rw [m2, q2, if_pos (by omega), if_neg (by omega), Nat.add_sub_cancel]
    · rw [Function.update_of_ne h2]
      unfold nrPart
      have hne : ¬ (i % L = p ∧ i / (2 * L) = q) := by
        rintro ⟨ha, hb⟩
        have hbb := block_base (L := L) (R := 2) (i := i) hL (by norm_num)
        have h2' : i / L % 2 < 2 := Nat.mod_lt _ (by norm_num)
        rw [hb, ha] at hbb
        rcases (by omega : i / L % 2 = 0 ∨ i / L % 2 = 1) with hc | hc <;> rw [hc] at hbb <;> omega
      by_cases hc : i % L < p ∨ (i % L = p ∧ i / (2 * L) < q)
      · rw [if_pos hc, if_pos (by omega)]
      · rw [if_neg hc, if_neg (by omega)]

/-- One pass on interleaved data. -/
theorem nrStage_interC {n L B : ℕ} (hL : 0 < L) (hB : 0 < B) (hn : n = B * (2 * L)) {isign : ℤ} {w : ℂ}
    (hw : w = Complex.exp (((isign * (2 * Real.pi / ((2 * L : ℕ) : ℝ)) : ℝ) : ℂ) * Complex.I))
    (f : ℕ → ℂ) :
    nrStage (2 * n) isign (2 * L) (interC n f) = .ok (interC n (stage2 L (fun p => w ^ p) f)) := by
  unfold nrStage
  dsimp only
  generalize hθ : (isign : ℝ) * (2 * Real.pi / ((2 * L : ℕ) : ℝ)) = θ at *
  have hre : w.re = Real.cos θ := by rw [hw, Complex.exp_ofReal_mul_I_re]
  have him : w.im = Real.sin θ := by rw [hw, Complex.exp_ofReal_mul_I_im]
  rw [sin_half_sq, ← hre, ← him, show 2 * L / 2 = L by omega]
  rw [forN_eq' (s := (⟨interC n f, 1, 0⟩ : ExpState))
    (s' := (⟨interC n (stage2 L (fun p => w ^ p) f), (w ^ L).re, (w ^ L).im⟩ : ExpState))
    (fun p => (⟨interC n (nrPart L (fun p => w ^ p) f p 0), (w ^ p).re, (w ^ p).im⟩ : ExpState))]
  · rfl
  · have : interC n (nrPart L (fun p => w ^ p) f 0 0) = interC n f :=
      interC_ext (fun i _ => by
        unfold nrPart
        rw [if_neg (by rintro (h | ⟨_, h⟩) <;> exact Nat.not_lt_zero _ h)])
    simp [this]
  · have : interC n (nrPart L (fun p => w ^ p) f L 0) = interC n (stage2 L (fun p => w ^ p) f) :=
      interC_ext (fun i _ => by unfold nrPart; rw [if_pos (Or.inl (Nat.mod_lt _ hL))])
    simp [this]
  · intro p hp
    dsimp only
    have hcnt : (2 * n - (2 * p + 1)) / (2 * L * 2) + 1 = B := by
      obtain ⟨B', rfl⟩ : ∃ B', B = B' + 1 := ⟨B - 1, by omega⟩
      congr 1
      have e : 2 * n - (2 * p + 1) = (4 * L - (2 * p + 1)) + B' * (2 * L * 2) := by
        have : 2 * n = 4 * L + B' * (2 * L * 2) := by rw [hn]; ring
        omega
      rw [e, Nat.add_mul_div_right _ _ (by omega), Nat.div_eq_of_lt (by omega), zero_add]
    rw [hcnt, forN_eq' (s' := interC n (nrPart L (fun p => w ^ p) f p B))
      (fun q => interC n (nrPart L (fun p => w ^ p) f p q)) rfl rfl]
    · rw [bind_ok, pure_eq_ok]
      have e1 : interC n (nrPart L (fun p => w ^ p) f p B)
          = interC n (nrPart L (fun p => w ^ p) f (p + 1) 0) := by
        apply interC_ext
        intro i hi
        have hq : i / (2 * L) < B := by rw [Nat.div_lt_iff_lt_mul (by omega)]; omega
        unfold nrPart
        by_cases h : i % L < p + 1
        · rw [if_pos (by omega), if_pos (Or.inl h)]
        · rw [if_neg (by omega), if_neg (by rintro (h' | ⟨_, h'⟩); exacts [h h', Nat.not_lt_zero _ h'])]
      rw [e1, pow_succ, Complex.mul_re, Complex.mul_im]
      congr 2 <;> ring
    · intro q hq
      have hb' : (q + 1) * (2 * L) ≤ B * (2 * L) := Nat.mul_le_mul_right _ hq
      rw [Nat.add_mul, one_mul] at hb'
      rw [nrButterfly_interC _ (w ^ p) (i1 := q * (2 * L) + p) (i2 := q * (2 * L) + p + L) (by omega)
        (by omega) (by ring) (by omega), nrPart_step hp (fun p => w ^ p) f]

/-- `+1` and `-1`. -/
def nrSign (dir : Direction) : ℤ := if dir = .forward then -1 else 1

theorem nrTwiddle {b s : ℕ} (hs : s < b) (dir : Direction) :
    Complex.exp ((((nrSign dir : ℤ) * (2 * Real.pi / ((2 * 2 ^ s : ℕ) : ℝ)) : ℝ) : ℂ) * Complex.I)
      = root (2 ^ b) dir ^ 2 ^ (b - s - 1) := by
  unfold root
  rw [← Complex.exp_nat_mul]
  congr 1
  have hb : (2 : ℂ) ^ b = 2 ^ (b - s - 1) * (2 * 2 ^ s) := by
    rw [← pow_succ', ← pow_add]; congr 1; omega
  push_cast
  rw [hb]
  cases dir <;> simp [nrSign] <;> field_simp

theorem nrStages_interC {b : ℕ} (dir : Direction) (X : ℕ → ℂ) {s fuel : ℕ} (hs : s ≤ b)
    (hf : b - s < fuel) :
    nrStages (2 * 2 ^ b) (nrSign dir) fuel (2 * 2 ^ s)
        (interC (2 ^ b) (ditPartial 2 b s (root (2 ^ b) dir) X))
      = .ok (interC (2 ^ b) (Spec.dftRoot (2 ^ b) (root (2 ^ b) dir) X)) := by
  induction fuel generalizing s with
  | zero => omega
  | succ fuel ih =>
    unfold nrStages
    rcases Nat.lt_or_ge s b with h | h
    · have hlt : 2 ^ s < 2 ^ b := Nat.pow_lt_pow_right (by norm_num) h
      rw [if_pos (by omega), nrStage_interC (L := 2 ^ s) (B := 2 ^ (b - s - 1)) (by positivity)
        (by positivity) (two_pow_split h) (nrTwiddle h dir).symm, bind_ok]
      have e : interC (2 ^ b) (stage2 (2 ^ s) (fun p => (root (2 ^ b) dir ^ 2 ^ (b - s - 1)) ^ p)
          (ditPartial 2 b s (root (2 ^ b) dir) X))
          = interC (2 ^ b) (ditPartial 2 b (s + 1) (root (2 ^ b) dir) X) := by
        apply interC_ext
        intro i _
        rw [← stage2_ditPartial h (root_two_pow (by omega) dir)]
        simp only [← pow_mul, Nat.mul_comm]
      rw [e, show 2 * 2 ^ s * 2 = 2 * 2 ^ (s + 1) by rw [pow_succ]; ring]
      exact ih (by omega) (by omega)
    · have : s = b := by omega
      subst this
      rw [if_neg (by omega), pure_eq_ok]
      congr 1
      exact interC_ext (fun i hi => ditPartial_last 2 s _ X hi)

theorem nrFft_interC {b : ℕ} (hb : b ≤ 29) (dir : Direction) (X : ℕ → ℂ) :
    nrFft (interC (2 ^ b) X) (nrSign dir) = .ok (interC (2 ^ b) (specDft dir (2 ^ b) X)) := by
  unfold nrFft
  dsimp only
  have hp : 2 ^ b ≤ 2 ^ 29 := Nat.pow_le_pow_right (by norm_num) hb
  have hrev : bitrevorderInterleaved (interC (2 ^ b) X)
      = .ok (interC (2 ^ b) (fun i => X (digitRev 2 b i))) := bitrevorderInterleaved_vec b _
  have hlog : b < 2 ^ b := Nat.lt_two_pow_self
  rw [length_interC, show 2 * 2 ^ b / 2 * 2 = 2 * 2 ^ b by omega, if_neg (by omega), hrev, bind_ok,
    interC_ext (fun i _ => (ditPartial_zero 2 b (root (2 ^ b) dir) X i).symm)]
  have := nrStages_interC (b := b) dir X (s := 0) (fuel := 2 * 2 ^ b + 1) (by omega) (by omega)
  rw [pow_zero, mul_one] at this
  rw [this]
  congr 1
  exact interC_ext (fun i _ => dftRoot_dir _ _ _ _)

/-! ### The real transform -/

theorem nrLoop_one (c θ : ℝ) (Z : ℕ → ℂ) : expLoop 2 0.5 c θ (interC 1 Z) = .ok (interC 1 Z) := by
  unfold expLoop
  rfl

theorem nrRfft_forward {b : ℕ} (h1 : 1 ≤ b) (h2 : b ≤ 30) (z : ℕ → ℂ) :
    nrRfft (interC (2 ^ (b - 1)) z) 1
      = .ok (interC (2 ^ (b - 1)) (packZ (2 ^ (b - 1)) (Spec.idft (2 ^ (b - 1)) z))) := by
  have hM : 1 ≤ 2 ^ (b - 1) := Nat.one_le_two_pow
  unfold nrRfft
  dsimp only
  have hf : nrFft (interC (2 ^ (b - 1)) z) 1
      = .ok (interC (2 ^ (b - 1)) (Spec.idft (2 ^ (b - 1)) z)) :=
    nrFft_interC (b := b - 1) (by omega) .backward z
  rw [if_pos rfl, if_pos rfl, hf, bind_ok, length_interC,
    show (2 * 2 ^ (b - 1)) >>> 1 = 2 ^ (b - 1) by rw [Nat.shiftRight_eq_div_pow]; omega]
  have hl : expLoop (2 * 2 ^ (b - 1)) 0.5 (-0.5) (Real.pi / ((2 ^ (b - 1) : ℕ) : ℝ))
      (interC (2 ^ (b - 1)) (Spec.idft (2 ^ (b - 1)) z))
      = .ok (interC (2 ^ (b - 1)) (fun k => if k = 0 then Spec.idft (2 ^ (b - 1)) z 0 else
          recomb (2 ^ (b - 1)) (-0.5) (halfRoot (2 ^ (b - 1))) (Spec.idft (2 ^ (b - 1)) z) k)) := by
    rcases Nat.lt_or_ge b 2 with h | h
    · have : b = 1 := by omega
      subst this
      exact nrLoop_one _ _ _
    · have hpos : 1 ≤ 2 ^ (b - 2) := Nat.one_le_two_pow
      have hq := halfRoot_quarter hpos
      rw [← pow_split h] at hq
      have hl := expLoop_interC (Q := 2 ^ (b - 2)) hpos (c := -0.5)
        (θ := Real.pi / ((2 ^ (b - 1) : ℕ) : ℝ)) (w := halfRoot (2 ^ (b - 1))) rfl
        (by rw [hq]; push_cast; ring) (by norm_num) (Spec.idft (2 ^ (b - 1)) z)
      rw [← pow_split h] at hl
      exact hl
  rw [hl, bind_ok, rd_interC_re _ (i := 0) (by omega) rfl, bind_ok,
    rd_interC_im _ (i := 0) (by omega) rfl, bind_ok, wr_interC' _ (i := 0) (by omega) rfl rfl,
    wr_pair_zero hM]
  congr 1
  apply interC_ext
  intro k _
  unfold packZ
  by_cases h : k = 0
  · rw [if_pos h, if_pos h, if_pos rfl]
  · rw [if_neg h, if_neg h, if_neg h]

theorem nrRfft_backward {b : ℕ} (h1 : 1 ≤ b) (h2 : b ≤ 30) (P : ℕ → ℂ) :
    nrRfft (interC (2 ^ (b - 1)) P) (-1)
      = .ok (interC (2 ^ (b - 1)) (Spec.dft (2 ^ (b - 1)) (unpackZ (2 ^ (b - 1)) P))) := by
  have hM : 1 ≤ 2 ^ (b - 1) := Nat.one_le_two_pow
  unfold nrRfft
  dsimp only
  rw [if_neg (by decide), if_neg (by decide), length_interC,
    show (2 * 2 ^ (b - 1)) >>> 1 = 2 ^ (b - 1) by rw [Nat.shiftRight_eq_div_pow]; omega]
  have hl : expLoop (2 * 2 ^ (b - 1)) 0.5 0.5 (-(Real.pi / ((2 ^ (b - 1) : ℕ) : ℝ)))
      (interC (2 ^ (b - 1)) P)
      = .ok (interC (2 ^ (b - 1)) (fun k => if k = 0 then P 0 else
          recomb (2 ^ (b - 1)) 0.5 (conj (halfRoot (2 ^ (b - 1)))) P k)) := by
    rcases Nat.lt_or_ge b 2 with h | h
    · have : b = 1 := by omega
      subst this
      exact nrLoop_one _ _ _
    · have hpos : 1 ≤ 2 ^ (b - 2) := Nat.one_le_two_pow
      have hq := halfRoot_quarter hpos
      rw [← pow_split h] at hq
      have hl := expLoop_interC (Q := 2 ^ (b - 2)) hpos (c := 0.5)
        (θ := -(Real.pi / ((2 ^ (b - 1) : ℕ) : ℝ))) (w := conj (halfRoot (2 ^ (b - 1))))
        (conj_halfRoot _) (by rw [← map_pow, hq, Complex.conj_I]; push_cast; ring) (by norm_num) P
      rw [← pow_split h] at hl
      exact hl
  have hw := wr_interC (n := 2 ^ (b - 1)) (fun k => if k = 0 then P 0 else
    recomb (2 ^ (b - 1)) 0.5 (conj (halfRoot (2 ^ (b - 1)))) P k) (i := 0) (by omega) rfl rfl
    (0.5 * ((P 0).re + (P 0).im)) (0.5 * ((P 0).re - (P 0).im))
    (fun x => nrFft x (-1))
  rw [hl, bind_ok, rd_interC_re _ (i := 0) (by omega) rfl, bind_ok,
    rd_interC_im _ (i := 0) (by omega) rfl, bind_ok]
  rw [if_pos rfl]
  refine hw.trans ?_
  rw [wr_pair_zero hM]
  refine (nrFft_interC (b := b - 1) (by omega) .forward _).trans ?_
  congr 1
  apply interC_ext
  intro k _
  apply specDft_congr (dir := .forward)
  intro j _
  unfold unpackZ
  by_cases h : j = 0
  · rw [if_pos h, if_pos h]
  · rw [if_neg h, if_neg h, if_neg h]

theorem idft_reflect {N : ℕ} (x : ℕ → ℂ) {k : ℕ} (hk : k ≤ N) :
    Spec.idft N x (N - k) = Spec.dft N x k := by
  have := dft_reflect (N := N) x (k := N - k) (by omega)
  rw [Nat.sub_sub_self hk] at this
  exact this.symm

theorem recomb_idft {M : ℕ} (c : ℝ) (w : ℂ) (x : ℕ → ℝ) {k : ℕ} (hk : k ≤ M) :
    recomb M c w (Spec.idft M (pairUp x)) k
      = Spec.idft M (fun m => (x (2 * m) : ℂ)) k
        - 2 * c * w ^ k * Spec.idft M (fun m => (x (2 * m + 1) : ℂ)) k := by
  have e1 : conj (Spec.idft M (pairUp x) (M - k)) = Spec.idft M (fun m => conj (pairUp x m)) k := by
    rw [idft_reflect _ hk, conj_dft]
  have e2 : pairUp x = fun m => (x (2 * m) : ℂ) + Complex.I * (x (2 * m + 1) : ℂ) := by
    funext m; apply Complex.ext <;> simp [pairUp]
  have e3 : (fun m => conj (pairUp x m))
      = fun m => (x (2 * m) : ℂ) + (-Complex.I) * (x (2 * m + 1) : ℂ) := by
    funext m; apply Complex.ext <;> simp [pairUp]
  have f2 : Spec.idft M (pairUp x) k = Spec.idft M (fun m => (x (2 * m) : ℂ)) k
      + Complex.I * Spec.idft M (fun m => (x (2 * m + 1) : ℂ)) k := by
    rw [e2, idft_add, idft_smul]
  have f3 : Spec.idft M (fun m => conj (pairUp x m)) k = Spec.idft M (fun m => (x (2 * m) : ℂ)) k
      + (-Complex.I) * Spec.idft M (fun m => (x (2 * m + 1) : ℂ)) k := by
    rw [e3, idft_add, idft_smul]
  unfold recomb
  rw [e1, f2, f3]
  generalize Spec.idft M (fun m => (x (2 * m) : ℂ)) k = E
  generalize Spec.idft M (fun m => (x (2 * m + 1) : ℂ)) k = O
  linear_combination (2 * c * w ^ k * O) * Complex.I_mul_I

theorem idft_even_odd {M : ℕ} (hM : 1 ≤ M) (x : ℕ → ℝ) (k : ℕ) :
    Spec.idft (2 * M) (fun n => (x n : ℂ)) k = Spec.idft M (fun m => (x (2 * m) : ℂ)) k
      + halfRoot M ^ k * Spec.idft M (fun m => (x (2 * m + 1) : ℂ)) k := by
  have h := congrArg (starRingEnd ℂ) (dft_even_odd hM x k)
  simpa [conj_dft] using h

/-! ### Sizes that are not a power of two -/

theorem bind_ok_iff {α β : Type} {m : Res α} {f : α → Res β} {b : β} :
    (m >>= f) = .ok b ↔ ∃ a, m = .ok a ∧ f a = .ok b := by
  cases m with
  | error e => rw [bind_error]; simp
  | ok a => rw [bind_ok]; simp

theorem nrButterfly_length {x y : List ℝ} {a b : ℝ} {m i : ℕ} (h : nrButterfly x a b m i = .ok y) :
    y.length = x.length ∧ i + m < x.length := by
  unfold nrButterfly at h
  simp only [bind_ok_iff] at h
  obtain ⟨_, -, _, hb, _, -, x1, h1, _, -, x2, h2, _, -, x3, h3, _, -, h4⟩ := h
  refine ⟨by rw [wr_length h4, wr_length h3, wr_length h2, wr_length h1], ?_⟩
  rw [← wr_length h1]
  unfold Neo.wr at h2
  split at h2
  · assumption
  · exact absurd h2 (by simp)

theorem nrStage_length {x y : List ℝ} {nn mmax : ℕ} {isign : ℤ}
    (h : nrStage nn isign mmax x = .ok y) : y.length = x.length := by
  unfold nrStage at h
  simp only [bind_ok_iff] at h
  obtain ⟨r, hr, h⟩ := h
  rw [pure_eq_ok] at h
  injection h with h
  rw [← h]
  refine forN_pres (fun s : ExpState => s.x.length = x.length) ?_ _ _ _ rfl hr
  intro t s s' hl hs
  simp only [bind_ok_iff] at hs
  obtain ⟨y, hy, hs⟩ := hs
  rw [pure_eq_ok] at hs
  injection hs with hs
  rw [← hs]
  refine forN_pres (fun y : List ℝ => y.length = x.length) ?_ _ _ _ hl hy
  intro q y y' h2 h1
  rw [(nrButterfly_length h1).1, h2]

/-- A pass that is not followed by a full one reaches beyond the end. -/
theorem nrStage_oob {x y : List ℝ} {nn mmax : ℕ} {isign : ℤ} (h0 : 2 ≤ mmax) (h1 : mmax < nn)
    (he : mmax % 2 = 0) (h2 : x.length < 2 * mmax) (h : nrStage nn isign mmax x = .ok y) : False := by
  unfold nrStage at h
  simp only [bind_ok_iff] at h
  obtain ⟨r, hr, -⟩ := h
  obtain ⟨k, hk⟩ : ∃ k, mmax / 2 = k + 1 := ⟨mmax / 2 - 1, by omega⟩
  rw [hk, forN_succ, bind_ok_iff] at hr
  obtain ⟨s, hs, hb⟩ := hr
  have hl : s.x.length = x.length := by
    refine forN_pres (fun s : ExpState => s.x.length = x.length) ?_ _ _ _ rfl hs
    intro t s s' hl hs
    simp only [bind_ok_iff] at hs
    obtain ⟨y, hy, hs⟩ := hs
    rw [pure_eq_ok] at hs
    injection hs with hs
    rw [← hs]
    refine forN_pres (fun y : List ℝ => y.length = x.length) ?_ _ _ _ hl hy
    intro q y y' h2 h1
    rw [(nrButterfly_length h1).1, h2]
  simp only [bind_ok_iff] at hb
  obtain ⟨z, hz, -⟩ := hb
  rw [forN_succ, bind_ok_iff] at hz
  obtain ⟨y', hy', hz⟩ := hz
  have hl' : y'.length = x.length := by
    refine forN_pres (fun y : List ℝ => y.length = x.length) ?_ _ _ _ hl hy'
    intro q y y' h2 h1
    rw [(nrButterfly_length h1).1, h2]
  have := (nrButterfly_length hz).2
  omega

theorem nrStages_oob {nn : ℕ} {isign : ℤ} (hn : ¬ ∃ k, nn = 2 ^ k) {fuel s : ℕ} {x y : List ℝ}
    (hx : x.length ≤ nn + 1) (he : nn % 2 = 0) (h1 : 2 ^ (s + 1) < nn)
    (h : nrStages nn isign fuel (2 ^ (s + 1)) x = .ok y) : False := by
  induction fuel generalizing s x with
  | zero => unfold nrStages at h; exact absurd h (by simp)
  | succ fuel ih =>
    unfold nrStages at h
    rw [if_pos h1, bind_ok_iff] at h
    obtain ⟨z, hz, h⟩ := h
    have e : 2 ^ (s + 1) * 2 = 2 ^ (s + 1 + 1) := (pow_succ _ _).symm
    have hge : 2 ≤ 2 ^ (s + 1) := by
      calc 2 = 2 ^ 1 := rfl
        _ ≤ 2 ^ (s + 1) := Nat.pow_le_pow_right (by norm_num) (by omega)
    have hm : 2 ^ (s + 1) % 2 = 0 := by rw [pow_succ]; omega
    rcases Nat.lt_trichotomy nn (2 ^ (s + 1 + 1)) with h2 | h2 | h2
    · exact nrStage_oob hge h1 hm (by omega) hz
    · exact hn ⟨_, h2⟩
    · rw [e] at h
      exact ih (by rw [nrStage_length hz]; exact hx) h2 h

theorem nrFft_oob {x y : List ℝ} {isign : ℤ} (h2 : 1 ≤ x.length / 2)
    (hn : ¬ ∃ k, x.length / 2 = 2 ^ k) (h : nrFft x isign = .ok y) : False := by
  unfold nrFft at h
  dsimp only at h
  split at h
  · exact absurd h (by simp)
  rw [bind_ok_iff] at h
  obtain ⟨z, hz, h⟩ := h
  have hl : z.length = x.length := by
    unfold bitrevorderInterleaved at hz
    simp only [bind_ok_iff] at hz
    obtain ⟨r, hr, hz⟩ := hz
    rw [pure_eq_ok] at hz
    injection hz with hz
    rw [← hz]
    refine forN_pres (fun s : List ℝ × ℕ => s.1.length = x.length) ?_ _ _ _ rfl hr
    intro t s s' hl hs
    simp only [bind_ok_iff] at hs
    obtain ⟨y, hy, _, -, hs⟩ := hs
    rw [pure_eq_ok] at hs
    injection hs with hs
    rw [← hs]
    dsimp only
    have hsw : ∀ {u v : List ℝ} {i j : ℕ}, swap u i j = .ok v → v.length = u.length := by
      intro u v i j h
      unfold swap at h
      simp only [bind_ok_iff] at h
      obtain ⟨_, -, _, -, w, hw, h⟩ := h
      rw [wr_length h, wr_length hw]
    unfold swapPairIf at hy
    split at hy
    · rw [bind_ok_iff] at hy
      obtain ⟨w, hw, hy⟩ := hy
      rw [hsw hy, hsw hw, hl]
    · rw [pure_eq_ok] at hy
      injection hy with hy
      rw [← hy, hl]
  have hn' : ¬ ∃ k, x.length / 2 * 2 = 2 ^ k := by
    rintro ⟨k, hk⟩
    apply hn
    cases k with
    | zero => omega
    | succ k => exact ⟨k, by rw [pow_succ] at hk; omega⟩
  have h1 : x.length / 2 ≠ 1 := fun h => hn ⟨0, h⟩
  refine nrStages_oob (s := 0) hn' (x := z) (by omega) (by omega) ?_ h
  rw [zero_add, pow_one]
  omega

end Neo
