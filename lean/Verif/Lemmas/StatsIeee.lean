import Verif.Model.StatsIeee
import Verif.Lemmas.IeeeConv
import Verif.Lemmas.Stats
import Mathlib.Analysis.Complex.Norm

/-! # Sums, quotients and roots in IEEE 754 arithmetic -/

namespace Neo

open Spec

variable {f : Fmt}

/-- A rounded sum of a list: every term costs one rounding. -/
theorem sumNear {α : Type} (hf : f.Ieee) (c : α → IR f) (π m : α → ℝ) (γ0 : ℝ) (hγ0 : 1 ≤ γ0) (l : List α)
    (h : ∀ x ∈ l, NearR (c x) (π x) (m x) γ0 ∧ f.minNormal ≤ m x) :
    ∀ (a : IR f) (A K γ : ℝ), NearR a A K γ → γ0 ≤ γ → 0 ≤ K →
      γ * (1 + f.u) ^ l.length * (K + (l.map m).sum) < (2 : ℝ) ^ f.emax →
      NearR (l.foldl (fun s x => s + c x) a) (A + (l.map π).sum) (K + (l.map m).sum) (γ * (1 + f.u) ^ l.length) := by
  have hu := u_pos f
  have hν := minNormal_pos f
  induction l with
  | nil => intro a A K γ ha _ _ _; simpa using ha
  | cons x l ih =>
    intro a A K γ ha hγ hK ho
    obtain ⟨hx, hm⟩ := h x List.mem_cons_self
    have hl : 0 ≤ (l.map m).sum := List.sum_nonneg fun y hy => by
      obtain ⟨z, hz, rfl⟩ := List.mem_map.1 hy
      exact hν.le.trans (h z (List.mem_cons_of_mem _ hz)).2
    have h1 : (1 : ℝ) ≤ (1 + f.u) ^ l.length := one_le_pow₀ (by linarith)
    rw [List.map_cons, List.sum_cons, List.length_cons, pow_succ] at ho
    have hs : γ * (1 + f.u) * (K + m x) ≤ γ * ((1 + f.u) ^ l.length * (1 + f.u)) * (K + (m x + (l.map m).sum)) := by
      have e : γ * ((1 + f.u) ^ l.length * (1 + f.u)) = (1 + f.u) ^ l.length * (γ * (1 + f.u)) := by ring
      rw [e]
      have p : 0 ≤ γ * (1 + f.u) := mul_nonneg (by linarith) (by linarith)
      refine mul_le_mul (le_mul_of_one_le_left p h1) (by linarith) (by linarith) (mul_nonneg (by linarith) p)
    have step := NearR.add hf ha (hx.mono hγ) (by linarith) (by linarith) (hs.trans_lt ho)
    have := ih (fun y hy => h y (List.mem_cons_of_mem _ hy)) _ _ _ _ step
      (hγ.trans (le_mul_of_one_le_right (by linarith) (by linarith))) (by linarith) (by
        refine lt_of_eq_of_lt ?_ ho
        ring)
    rw [List.foldl_cons, List.map_cons, List.map_cons, List.sum_cons, List.sum_cons, List.length_cons, pow_succ]
    convert this using 1 <;> ring

/-- The count as a value of the format. -/
theorem count_near (hf : f.Ieee) {n : ℕ} (hn : 1 ≤ n) (ho : (1 + f.u) * n < (2 : ℝ) ^ f.emax) :
    ∃ r, f.round (.fin (n : ℝ)) = .fin r ∧ |r - n| ≤ f.u * n := by
  have h1 : (1 : ℝ) ≤ n := by exact_mod_cast hn
  have hν : f.minNormal ≤ 1 := zpow_le_one_of_nonpos₀ (by norm_num) (by obtain ⟨a, b, c⟩ := hf; omega)
  exact round_ok hf (by rw [abs_of_nonneg (by linarith)]) (by linarith) ho

/-- A sum divided by the count. -/
theorem divCount_near (hf : f.Ieee) {n : ℕ} (hn : 1 ≤ n) (hc : (1 + f.u) * n < (2 : ℝ) ^ f.emax) {s : IR f} {S B γ : ℝ}
    (hs : NearR s S B γ) (hγ : 1 ≤ γ) (hB : n * f.minNormal ≤ B) (ho : 2 * γ * B < (2 : ℝ) ^ f.emax) :
    ∃ r, divCountI f s.val n = .fin r ∧ |r - S / n| ≤ (γ * (1 + f.u) / (1 - f.u) - 1) * (B / n) := by
  obtain ⟨a, rfl, s1, s2⟩ := hs
  obtain ⟨c, hc1, hc2⟩ := count_near hf hn hc
  have hu := u_pos f
  have hu8 := u_le hf
  have hν := minNormal_pos f
  have h1 : (1 : ℝ) ≤ n := by exact_mod_cast hn
  have hn0 : (0 : ℝ) < n := by linarith
  have hB0 : 0 < B := lt_of_lt_of_le (by positivity) hB
  have hcl : (1 - f.u) * n ≤ c := by have := (abs_le.1 hc2).1; linarith
  have hp : 0 < (1 - f.u) * n := mul_pos (by linarith) hn0
  have hc0 : 0 < c := hp.trans_le hcl
  have ha : |a| ≤ γ * B := NearR.abs_le s1 s2
  set T := γ * B / ((1 - f.u) * n) with hT
  have hq : |a / c| ≤ T := by
    rw [abs_div, abs_of_pos hc0, hT]
    exact div_le_div₀ (by positivity) ha hp hcl
  have hTn : f.minNormal ≤ T := by
    rw [hT, le_div_iff₀ hp]
    have : f.minNormal * ((1 - f.u) * n) ≤ n * f.minNormal := by nlinarith [mul_pos hν hn0]
    nlinarith
  have hTo : (1 + f.u) * T < (2 : ℝ) ^ f.emax := by
    have : T ≤ γ * B / (1 - f.u) := by
      rw [hT]
      exact div_le_div_of_nonneg_left (by positivity) (by linarith) (by nlinarith)
    have h2 : (1 + f.u) * (γ * B / (1 - f.u)) ≤ 2 * γ * B := by
      rw [← mul_div_assoc, div_le_iff₀ (by linarith)]
      have : 0 ≤ γ * B := by positivity
      nlinarith
    have h3 : (1 + f.u) * T ≤ (1 + f.u) * (γ * B / (1 - f.u)) := mul_le_mul_of_nonneg_left this (by linarith)
    linarith
  obtain ⟨r, er, hr⟩ := round_ok hf hq hTn hTo
  refine ⟨r, ?_, ?_⟩
  · unfold divCountI
    rw [hc1]
    show f.round (FVal.div (.fin a) (.fin c)) = _
    unfold FVal.div
    dsimp only
    rw [if_neg hc0.ne', er]
  · have e1 : |a / c - S / n| ≤ ((γ - 1) * B + f.u * B) / ((1 - f.u) * n) := by
      have e : a / c - S / n = ((a - S) + S * (n - c) / n) / c := by field_simp; ring
      rw [e, abs_div, abs_of_pos hc0]
      refine div_le_div₀ (by nlinarith) ?_ hp hcl
      refine (abs_add_le _ _).trans (add_le_add s2 ?_)
      rw [abs_div, abs_mul, abs_of_pos hn0, div_le_iff₀ hn0, abs_sub_comm]
      calc |S| * |c - n| ≤ B * (f.u * n) := mul_le_mul s1 hc2 (abs_nonneg _) hB0.le
        _ = f.u * B * n := by ring
    have e2 := abs_add_le (r - a / c) (a / c - S / n)
    rw [show r - a / c + (a / c - S / n) = r - S / n by ring] at e2
    refine e2.trans ((add_le_add hr e1).trans (le_of_eq ?_))
    have p1 : (1 - f.u) ≠ 0 := by linarith
    rw [hT]
    field_simp
    ring

/-- The square of a finite number. -/
theorem square_near (hf : f.Ieee) (w : ℝ) (ho : (1 + f.u) * (w ^ 2 + f.minNormal) < (2 : ℝ) ^ f.emax) :
    NearR ((⟨.fin w⟩ : IR f) * ⟨.fin w⟩) (w ^ 2) (w ^ 2 + f.minNormal) (1 + f.u) := by
  have hν := minNormal_pos f
  have hle : |w * w| ≤ w ^ 2 + f.minNormal := by rw [abs_of_nonneg (mul_self_nonneg w)]; nlinarith
  obtain ⟨r, er, hr⟩ := round_ok hf hle (by nlinarith [sq_nonneg w]) ho
  refine ⟨r, congrArg IR.mk er, by rw [abs_of_nonneg (sq_nonneg w)]; linarith, ?_⟩
  rw [sq, add_sub_cancel_left, ← sq]
  rw [← sq] at hr
  exact hr

/-- The square of a rounded difference. -/
theorem sqDiff_near (hf : f.Ieee) (a b : ℝ)
    (ho : (1 + f.u) ^ 3 * ((|a - b| + f.minNormal) ^ 2 + f.minNormal) < (2 : ℝ) ^ f.emax)
    (ho' : (1 + f.u) * (|a - b| + f.minNormal) < (2 : ℝ) ^ f.emax) :
    NearR ((⟨f.round (FVal.sub (.fin a) (.fin b))⟩ : IR f) * ⟨f.round (FVal.sub (.fin a) (.fin b))⟩) ((a - b) ^ 2)
      ((|a - b| + f.minNormal) ^ 2 + f.minNormal) ((1 + f.u) ^ 3) := by
  have hν := minNormal_pos f
  have hu := u_pos f
  obtain ⟨d, ed, hd⟩ := round_ok hf (t := a - b) (T := |a - b| + f.minNormal) (by linarith)
    (by linarith [abs_nonneg (a - b)]) ho'
  have es : FVal.sub (.fin a) (.fin b) = .fin (a - b) := by
    show FVal.fin (a + -b) = _
    rw [← sub_eq_add_neg]
  rw [es, ed]
  set P := |a - b| + f.minNormal with hP
  have hP0 : 0 < P := by have := abs_nonneg (a - b); linarith
  have hdP : |d| ≤ (1 + f.u) * P := by
    have := abs_sub_abs_le_abs_sub d (a - b)
    linarith
  have hd2 : |d * d| ≤ (1 + f.u) ^ 2 * (P ^ 2 + f.minNormal) := by
    rw [abs_mul]
    have := mul_le_mul hdP hdP (abs_nonneg _) (by positivity)
    nlinarith [mul_pos (pow_pos (by linarith : 0 < 1 + f.u) 2) hν]
  have hq : (1 : ℝ) ≤ (1 + f.u) ^ 2 := one_le_pow₀ (by linarith)
  obtain ⟨r, er, hr⟩ := round_ok hf hd2 (by nlinarith [sq_nonneg P]) (by
    refine lt_of_eq_of_lt ?_ ho
    ring)
  refine ⟨r, congrArg IR.mk er, ?_, ?_⟩
  · rw [abs_of_nonneg (sq_nonneg _), ← sq_abs]
    nlinarith [abs_nonneg (a - b)]
  · have e1 : |d * d - (a - b) ^ 2| ≤ ((1 + f.u) ^ 2 - 1) * (P ^ 2 + f.minNormal) := by
      have e : d * d - (a - b) ^ 2 = (d - (a - b)) * (d - (a - b) + 2 * (a - b)) := by ring
      rw [e, abs_mul]
      have h1 : |d - (a - b) + 2 * (a - b)| ≤ f.u * P + 2 * P := by
        refine (abs_add_le _ _).trans (add_le_add hd ?_)
        rw [abs_mul, abs_two]
        linarith
      have h2 := mul_le_mul hd h1 (abs_nonneg _) (by positivity)
      have h3 : f.u * P * (f.u * P + 2 * P) = ((1 + f.u) ^ 2 - 1) * P ^ 2 := by ring
      have h4 : 0 ≤ ((1 + f.u) ^ 2 - 1) * f.minNormal := mul_nonneg (by linarith) hν.le
      linarith [show ((1 + f.u) ^ 2 - 1) * (P ^ 2 + f.minNormal) =
        ((1 + f.u) ^ 2 - 1) * P ^ 2 + ((1 + f.u) ^ 2 - 1) * f.minNormal by ring]
    have e2 := abs_add_le (r - d * d) (d * d - (a - b) ^ 2)
    rw [show r - d * d + (d * d - (a - b) ^ 2) = r - (a - b) ^ 2 by ring] at e2
    refine e2.trans ((add_le_add hr e1).trans (le_of_eq ?_))
    ring

/-! ## Norms -/

theorem sqrt_add_le (p q r s : ℝ) :
    Real.sqrt ((p + r) ^ 2 + (q + s) ^ 2) ≤ Real.sqrt (p ^ 2 + q ^ 2) + Real.sqrt (r ^ 2 + s ^ 2) := by
  have := norm_add_le (⟨p, q⟩ : ℂ) ⟨r, s⟩
  rwa [Complex.norm_eq_sqrt_sq_add_sq, Complex.norm_eq_sqrt_sq_add_sq, Complex.norm_eq_sqrt_sq_add_sq] at this

/-- A bound on all samples gives a bound on the norm. -/
theorem norm_le_of_samples {a b : List ℝ} {c d β : ℝ} (hc : 0 ≤ c) (hd : 0 ≤ d) (hβ : 0 ≤ β)
    (h : List.Forall₂ (fun x y => c * |x| ≤ d * |y| + β) a b) :
    c * Real.sqrt (energy a) ≤ d * Real.sqrt (energy b) + Real.sqrt a.length * β := by
  unfold energy
  induction h with
  | nil => simp
  | @cons x y a b hxy hl ih =>
    simp only [List.map_cons, List.sum_cons, List.length_cons]
    have nn : ∀ l : List ℝ, 0 ≤ (l.map fun v => v ^ 2).sum := fun l => List.sum_nonneg fun z hz => by
      obtain ⟨w, -, rfl⟩ := List.mem_map.1 hz
      exact sq_nonneg w
    set A := (a.map fun v => v ^ 2).sum
    set B := (b.map fun v => v ^ 2).sum
    have hA := nn a
    have hB := nn b
    have k1 : c * Real.sqrt (x ^ 2 + A) = Real.sqrt ((c * |x|) ^ 2 + (c * Real.sqrt A) ^ 2) := by
      rw [mul_pow, mul_pow, Real.sq_sqrt hA, sq_abs, ← mul_add, Real.sqrt_mul (sq_nonneg c), Real.sqrt_sq hc]
    have k2 : d * Real.sqrt (y ^ 2 + B) = Real.sqrt ((d * |y|) ^ 2 + (d * Real.sqrt B) ^ 2) := by
      rw [mul_pow, mul_pow, Real.sq_sqrt hB, sq_abs, ← mul_add, Real.sqrt_mul (sq_nonneg d), Real.sqrt_sq hd]
    have k3 : Real.sqrt ((a.length + 1 : ℕ) : ℝ) * β = Real.sqrt (β ^ 2 + (Real.sqrt a.length * β) ^ 2) := by
      rw [mul_pow, Real.sq_sqrt (Nat.cast_nonneg _), show β ^ 2 + a.length * β ^ 2 = ((a.length + 1 : ℕ) : ℝ) * β ^ 2 by
        push_cast; ring, Real.sqrt_mul (Nat.cast_nonneg _), Real.sqrt_sq hβ]
    rw [k1, k2, k3]
    refine le_trans (Real.sqrt_le_sqrt ?_) (sqrt_add_le _ _ _ _)
    have p1 : 0 ≤ c * |x| := by positivity
    have p2 : 0 ≤ c * Real.sqrt A := by positivity
    exact add_le_add (pow_le_pow_left₀ p1 hxy 2) (pow_le_pow_left₀ p2 ih 2)

theorem sq_le_energy {l : List ℝ} {v : ℝ} (h : v ∈ l) : v ^ 2 ≤ energy l := by
  unfold energy
  refine List.single_le_sum ?_ _ (List.mem_map_of_mem h)
  intro z hz
  obtain ⟨w, -, rfl⟩ := List.mem_map.1 hz
  exact sq_nonneg w

/-! ## The factor of `normalize_energy` -/

/-- Combining relative errors. -/
theorem relErr_mul {x y α β : ℝ} (hx : |x - 1| ≤ α) (hy : |y - 1| ≤ β) : |x * y - 1| ≤ (1 + α) * (1 + β) - 1 := by
  have e : x * y - 1 = (x - 1) * (y - 1) + (x - 1) + (y - 1) := by ring
  have := mul_le_mul hx hy (abs_nonneg _) ((abs_nonneg _).trans hx)
  rw [e]
  have h1 := abs_add_le ((x - 1) * (y - 1) + (x - 1)) (y - 1)
  have h2 := abs_add_le ((x - 1) * (y - 1)) (x - 1)
  rw [abs_mul] at h2
  nlinarith

/-- Relative error of the reciprocal root. -/
theorem recip_sqrt_rel {E e ρ : ℝ} (hE : 0 < E) (hρ : ρ ≤ 1 / 2) (h : |e - E| ≤ ρ * E) :
    |Real.sqrt E / Real.sqrt e - 1| ≤ ρ := by
  have hρ0 : 0 ≤ ρ := by
    by_contra hc
    have := (abs_nonneg _).trans h
    nlinarith
  obtain ⟨h1, h2⟩ := abs_le.1 h
  have he : 0 < e := by nlinarith
  have hs : 0 < Real.sqrt e := Real.sqrt_pos.2 he
  have e1 : Real.sqrt E ≤ (1 + ρ) * Real.sqrt e := by
    rw [← Real.sqrt_sq (by linarith : 0 ≤ 1 + ρ), ← Real.sqrt_mul (sq_nonneg _)]
    apply Real.sqrt_le_sqrt
    have : (1 + ρ) ^ 2 * ((1 - ρ) * E) ≤ (1 + ρ) ^ 2 * e := mul_le_mul_of_nonneg_left (by linarith) (sq_nonneg _)
    have k : (1 : ℝ) ≤ (1 + ρ) ^ 2 * (1 - ρ) := by nlinarith [mul_nonneg hρ0 hρ0]
    nlinarith
  have e2 : (1 - ρ) * Real.sqrt e ≤ Real.sqrt E := by
    rw [← Real.sqrt_sq (by linarith : 0 ≤ 1 - ρ), ← Real.sqrt_mul (sq_nonneg _)]
    apply Real.sqrt_le_sqrt
    have : (1 - ρ) ^ 2 * e ≤ (1 - ρ) ^ 2 * ((1 + ρ) * E) := mul_le_mul_of_nonneg_left (by linarith) (sq_nonneg _)
    have k : (1 - ρ) ^ 2 * (1 + ρ) ≤ (1 : ℝ) := by nlinarith [mul_nonneg hρ0 hρ0]
    nlinarith
  rw [abs_le]
  constructor
  · have := (le_div_iff₀ hs).2 e2; linarith
  · have := (div_le_iff₀ hs).2 e1; linarith

theorem rndInf_onGrid (hp : 1 ≤ f.p) (t : ℝ) : f.OnGrid (f.rndInf t) := (rndInf_nearest f hp t).1

/-- Relative error of the computed factor `1 / sqrt(e)`. -/
theorem energyFactor_near (hf : f.Ieee) (h8 : 8 ≤ f.emax) {E e ρ : ℝ} (hE : f.minNormal ≤ E) (hρ : ρ ≤ 1 / 2)
    (h : |e - E| ≤ ρ * E) (he : e < (2 : ℝ) ^ f.emax) :
    ∃ g, energyFactorI f (.fin e) = .fin g ∧ 0 < g ∧ |g * Real.sqrt E - 1| ≤ (1 + ρ) * (1 + 3 * f.u) - 1 := by
  have hν := minNormal_pos f
  have hu := u_pos f
  have hu8 := u_le hf
  have hE0 : 0 < E := hν.trans_le hE
  have hrel := recip_sqrt_rel hE0 hρ h
  obtain ⟨h1, h2⟩ := abs_le.1 h
  have he2 : E / 2 ≤ e := by nlinarith
  have he0 : 0 < e := by linarith
  have hs0 : 0 < Real.sqrt e := Real.sqrt_pos.2 he0
  obtain ⟨q1, q2, q3⟩ := id hf
  -- the root is a normal number
  have hνs : f.minNormal ≤ Real.sqrt e := by
    apply Real.le_sqrt_of_sq_le
    have : f.minNormal ≤ 1 / 2 := by
      have : f.minNormal ≤ (2 : ℝ) ^ (-1 : ℤ) := zpow_le_zpow_right₀ (by norm_num) (by omega)
      norm_num at this ⊢; exact this
    nlinarith
  -- and far from overflow
  have hsq : Real.sqrt e ≤ (2 : ℝ) ^ (f.emax - 3) := by
    rw [Real.sqrt_le_left (two_zpow_pos _).le, ← zpow_natCast, ← zpow_mul]
    exact he.le.trans (zpow_le_zpow_right₀ (by norm_num) (by push_cast; omega))
  have hpow : ∀ k : ℤ, (2 : ℝ) ^ (k + 1) = 2 * (2 : ℝ) ^ k := fun k => by
    rw [zpow_add_one₀ (by norm_num)]; ring
  obtain ⟨s, es, hs⟩ := round_ok hf (t := Real.sqrt e) (T := Real.sqrt e) (by rw [abs_of_pos hs0]) hνs (by
    have := hpow (f.emax - 1)
    rw [show f.emax - 1 + 1 = f.emax by ring] at this
    have := hpow (f.emax - 2)
    rw [show f.emax - 2 + 1 = f.emax - 1 by ring] at this
    have := hpow (f.emax - 3)
    rw [show f.emax - 3 + 1 = f.emax - 2 by ring] at this
    have := two_zpow_pos (f.emax - 3)
    nlinarith)
  have hsr : s = f.rndInf (Real.sqrt e) := by
    unfold Fmt.round at es
    dsimp only at es
    split at es
    · injection es with es; exact es.symm
    · cases es
  obtain ⟨s1, s2⟩ := abs_le.1 hs
  have hspos : 0 < s := by nlinarith
  have hsle : s ≤ (2 : ℝ) ^ (f.emax - 2) := by
    have := hpow (f.emax - 3)
    rw [show f.emax - 3 + 1 = f.emax - 2 by ring] at this
    have := two_zpow_pos (f.emax - 3)
    nlinarith
  have hsgt : (2 : ℝ) ^ (-f.emax) < s := by
    have : (2 : ℝ) ^ (-f.emax) * 2 ≤ f.minNormal := by
      rw [← zpow_add_one₀ (by norm_num)]
      exact zpow_le_zpow_right₀ (by norm_num) (by omega)
    have := two_zpow_pos (-f.emax)
    nlinarith
  have hm := recip_mul hf hspos hsle
  obtain ⟨g0, g1⟩ := recip_finite hf (by rw [hsr]; exact rndInf_onGrid (by omega) _) hsgt
  have hfac : energyFactorI f (.fin e) = .fin (f.rndInf (1 / s)) := by
    unfold energyFactorI
    rw [if_neg (by intro hc; injection hc with hc; linarith)]
    have : (FVal.fin e).sqrt = .fin (Real.sqrt e) := by
      unfold FVal.sqrt
      dsimp only
      rw [if_neg (by linarith)]
    rw [this, es]
    unfold FVal.div
    dsimp only
    rw [if_neg hspos.ne', round_fin_of_lt (by rwa [abs_of_nonneg g0])]
  set g := f.rndInf (1 / s)
  change |s * g - 1| < f.u at hm
  obtain ⟨m1, m2⟩ := abs_lt.1 hm
  have hg : 0 < g := by
    rcases g0.eq_or_lt with h0 | h0
    · rw [← h0] at m1; linarith
    · exact h0
  refine ⟨g, hfac, hg, ?_⟩
  have hy : |g * Real.sqrt e - 1| ≤ 3 * f.u := by
    -- s g within u of 1, s within u of sqrt e
    have k1 : (1 - f.u) * Real.sqrt e ≤ s := by linarith
    have k2 : s ≤ (1 + f.u) * Real.sqrt e := by linarith
    have t1 : (1 - f.u) * (g * Real.sqrt e) ≤ 1 + f.u := by nlinarith
    have t2 : 1 - f.u ≤ (1 + f.u) * (g * Real.sqrt e) := by nlinarith
    have hX : 0 < g * Real.sqrt e := by positivity
    rw [abs_le]
    constructor <;> nlinarith
  have e1 : g * Real.sqrt E = (Real.sqrt E / Real.sqrt e) * (g * Real.sqrt e) := by field_simp
  rw [e1]
  exact relErr_mul hrel hy

end Neo
