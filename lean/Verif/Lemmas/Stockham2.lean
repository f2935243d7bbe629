import Verif.Lemmas.Stockham
import Verif.Lemmas.DftLaws

/-! # The radix-2 Stockham plans -/

namespace Neo

open Finset

theorem stockham2Lut_eq (n : ℕ) (dir : Direction) :
    stockham2Lut n dir = vec (n / 2) (fun i => root n dir ^ i) := by
  unfold stockham2Lut vec
  simp only [twiddle_eq]

theorem root_two_eq (dir : Direction) : root 2 dir = -1 := by
  have := root_half (N := 1) (by norm_num) dir
  rwa [pow_one, mul_one] at this

/-- One butterfly of a radix-2 stage, with the index expressions left open. -/
theorem stock2_butterfly {l m j k : ℕ} (hj : j < l) (hk : k < m) (dir : Direction) (Y g : ℕ → ℂ)
    {q0 q1 p0 p1 : ℕ} (eq0 : q0 = k + j * m) (eq1 : q1 = k + j * m + l * m)
    (ep0 : p0 = j * (2 * m) + k) (ep1 : p1 = j * (2 * m) + k + m) :
    (do
      let a ← rd (vec (2 * l * m) Y) q0
      let b ← rd (vec (2 * l * m) Y) q1
      let x ← wr (vec (2 * l * m) g) p0 (a + b)
      wr x p1 ((a - b) * root (2 * l) dir ^ j) : Res (List ℂ))
    = .ok (vec (2 * l * m) (fun i => if i / (2 * m) = j ∧ i % m = k then
        stockF 2 l m (root (2 * l) dir) (root 2 dir) Y i else g i)) := by
  subst eq0 eq1 ep0 ep1
  obtain ⟨P, hP⟩ : ∃ P : ℕ → ℕ, P = fun u => j * (2 * m) + k + u * m := ⟨_, rfl⟩
  obtain ⟨V, hV⟩ : ∃ V : ℕ → ℂ, V = fun u =>
    (∑ v ∈ range 2, Y (k + j * m + v * l * m) * root 2 dir ^ (v * u)) * root (2 * l) dir ^ (u * j) :=
    ⟨_, rfl⟩
  have hPb : ∀ u < 2, P u < 2 * l * m := by
    intro u hu
    rw [hP]
    exact stock_write_bound (R := 2) hj hk hu
  have hq0 := stock_read_bound (R := 2) (v := 0) hj hk (by norm_num)
  have hq1 := stock_read_bound (R := 2) (v := 1) hj hk (by norm_num)
  rw [zero_mul, zero_mul, add_zero] at hq0
  rw [one_mul] at hq1
  have e0 : j * (2 * m) + k = P 0 := by rw [hP]; ring
  have e1 : j * (2 * m) + k + m = P 1 := by rw [hP]; ring
  have hw := stock_writes (R := 2) (n := 2 * l * m) hk (by norm_num) (j := j) g V
  rw [← hP] at hw
  have goal_eq : vec (2 * l * m) (fun i => if i / (2 * m) = j ∧ i % m = k then
      stockF 2 l m (root (2 * l) dir) (root 2 dir) Y i else g i) = vec (2 * l * m) (updN g P V 2) := by
    rw [hw, hV]
    apply vec_ext
    intro i _
    by_cases h : i / (2 * m) = j ∧ i % m = k
    · rw [if_pos h, if_pos h]
      unfold stockF
      rw [h.1, h.2]
    · rw [if_neg h, if_neg h]
  rw [goal_eq, rd_vec_ok hq0, bind_ok, rd_vec_ok hq1, bind_ok, e1, e0,
    wr_updN_first g P V rfl _ (hPb 0 (by norm_num)), bind_ok,
    wr_updN g P V rfl _ (hPb 1 (by norm_num))]
  all_goals simp only [hV, sum_range_succ, sum_range_zero, mul_zero, zero_mul, mul_one, one_mul,
      pow_zero, pow_one, zero_add, add_zero, root_two_eq]
  all_goals ring

theorem stockham2Lut_rd {l m j : ℕ} (hj : j < l) (hm : 0 < m) (dir : Direction) :
    rd (stockham2Lut (2 * l * m) dir) (j * m) = .ok (root (2 * l) dir ^ j) := by
  have h1 : 2 * l * m / 2 = l * m := by
    rw [mul_assoc]; exact Nat.mul_div_cancel_left _ (by norm_num)
  rw [stockham2Lut_eq, h1, rd_vec_ok (by exact Nat.mul_lt_mul_of_pos_right hj hm)]
  congr 1
  rw [root_pow_eq, root_pow_eq]
  have hm0 : (m : ℂ) ≠ 0 := by exact_mod_cast hm.ne'
  congr 2
  push_cast
  rw [← mul_assoc, mul_div_mul_right _ _ hm0]

theorem fft0Pass_vec {l m : ℕ} (hm : 0 < m) (dir : Direction) (Y g : ℕ → ℂ) :
    fft0Pass (stockham2Lut (2 * l * m) dir) (2 * l) m (vec (2 * l * m) Y) (vec (2 * l * m) g)
      = .ok (vec (2 * l * m) (stockF 2 l m (root (2 * l) dir) (root 2 dir) Y)) := by
  unfold fft0Pass
  dsimp only
  rw [Nat.mul_div_cancel_left l (by norm_num)]
  have h2m : 0 < 2 * m := by omega
  rw [forN_congr (body' := fun j work => forN m (fun k work => do
      let a ← rd (vec (2 * l * m) Y) (k + m * (j + 0))
      let b ← rd (vec (2 * l * m) Y) (k + m * (j + l))
      let work ← wr work (k + m * (2 * j + 0)) (a + b)
      wr work (k + m * (2 * j + 1)) ((a - b) * root (2 * l) dir ^ j)) work)]
  · apply keyedLoop (k1 := fun i => i / (2 * m)) (k2 := fun i => i % m)
      (F := fun _ => stockF 2 l m (root (2 * l) dir) (root 2 dir) Y) g
    · intro i hi
      rw [Nat.div_lt_iff_lt_mul h2m]
      calc i < 2 * l * m := hi
        _ = l * (2 * m) := by ring
    · intro i _
      exact Nat.mod_lt _ hm
    · intros; rfl
    · intro j hj k hk f
      exact stock2_butterfly hj hk dir Y f (by ring) (by ring) (by ring) (by ring)
  · intro j hj work
    rw [stockham2Lut_rd hj hm, bind_ok]

theorem dif2iButterfly_vec {l m : ℕ} (hm : 0 < m) (dir : Direction) (Y g : ℕ → ℂ) :
    dif2iButterfly (vec (2 * l * m) Y) (vec (2 * l * m) g) (stockham2Lut (2 * l * m) dir) l m (l * m)
      = .ok (vec (2 * l * m) (stockF 2 l m (root (2 * l) dir) (root 2 dir) Y)) := by
  unfold dif2iButterfly
  dsimp only
  have h2m : 0 < 2 * m := by omega
  rw [forN_congr (body' := fun j work => forN m (fun k work => do
      let a ← rd (vec (2 * l * m) Y) (k + j * m)
      let b ← rd (vec (2 * l * m) Y) (k + j * m + l * m)
      let work ← wr work (k + j * m * 2) (a + b)
      wr work (k + j * m * 2 + m) ((a - b) * root (2 * l) dir ^ j)) work)]
  · apply keyedLoop (k1 := fun i => i / (2 * m)) (k2 := fun i => i % m)
      (F := fun _ => stockF 2 l m (root (2 * l) dir) (root 2 dir) Y) g
    · intro i hi
      rw [Nat.div_lt_iff_lt_mul h2m]
      calc i < 2 * l * m := hi
        _ = l * (2 * m) := by ring
    · intro i _
      exact Nat.mod_lt _ hm
    · intros; rfl
    · intro j hj k hk f
      exact stock2_butterfly hj hk dir Y f rfl rfl (by ring) (by ring)
  · intro j hj work
    rw [stockham2Lut_rd hj hm, bind_ok]

theorem fft0Copy_vec (n : ℕ) (f g : ℕ → ℂ) :
    fft0Copy n (vec n f) (vec n g) = .ok (vec n f) := by
  unfold fft0Copy
  apply forN_eq' (fun k => vec n (fun i => if i < k then f i else g i))
  · exact vec_ext (fun i _ => by simp)
  · exact vec_ext (fun i hi => by simp [hi])
  · intro k hk
    rw [rd_vec_ok hk, bind_ok, wr_vec_ok hk]
    congr 1
    apply vec_ext
    intro i _
    rcases Nat.lt_trichotomy i k with h | h | h
    · rw [Function.update_of_ne (by omega), if_pos h, if_pos (by omega)]
    · subst h; rw [Function.update_self, if_pos (by omega)]
    · rw [Function.update_of_ne (by omega), if_neg (by omega), if_neg (by omega)]

/-- `fft0` from stage `s` on: the buffer named output holds the last state. -/
theorem fft0_vec {p : ℕ} (dir : Direction) (X : ℕ → ℂ) (q : ℕ) : ∀ s fuel, s + q = p → q < fuel →
    ∀ (flag : Bool) (g : ℕ → ℂ), ∃ f' g' : ℕ → ℂ,
      fft0 (stockham2Lut (2 ^ p) dir) fuel (2 ^ q) (2 ^ s) flag
        (vec (2 ^ p) (stockPartial 2 p s (root (2 ^ p) dir) X)) (vec (2 ^ p) g)
        = .ok (vec (2 ^ p) f', vec (2 ^ p) g') ∧
      (if flag then g' else f') = stockPartial 2 p p (root (2 ^ p) dir) X := by
  induction q with
  | zero =>
    intro s fuel hs hf flag g
    obtain ⟨fuel, rfl⟩ : ∃ f, fuel = f + 1 := ⟨fuel - 1, by omega⟩
    obtain rfl : s = p := by omega
    unfold fft0
    rw [pow_zero, if_pos rfl]
    cases flag
    · exact ⟨_, g, rfl, rfl⟩
    · refine ⟨stockPartial 2 s s (root (2 ^ s) dir) X, stockPartial 2 s s (root (2 ^ s) dir) X, ?_, rfl⟩
      simp only [if_true]
      rw [fft0Copy_vec, bind_ok]; rfl
  | succ q ih =>
    intro s fuel hs hf flag g
    obtain ⟨fuel, rfl⟩ : ∃ f, fuel = f + 1 := ⟨fuel - 1, by omega⟩
    have hsp : s < p := by omega
    have hq : p - s - 1 = q := by omega
    have hn : 2 ^ p = 2 * 2 ^ q * 2 ^ s := by
      rw [← pow_succ', ← pow_add]; congr 1; omega
    have h1 : (2 : ℕ) ^ (q + 1) = 2 * 2 ^ q := pow_succ' _ _
    unfold fft0
    have hne : ¬ (2 : ℕ) ^ (q + 1) = 1 := by
      have : 0 < 2 ^ q := by positivity
      omega
    rw [if_neg hne]
    have hpass := fft0Pass_vec (l := 2 ^ q) (m := 2 ^ s) (by positivity) dir
      (stockPartial 2 p s (root (2 ^ p) dir) X) g
    rw [← hn, ← h1] at hpass
    rw [hpass, bind_ok]
    have hst : vec (2 ^ p) (stockF 2 (2 ^ q) (2 ^ s) (root (2 ^ (q + 1)) dir) (root 2 dir)
        (stockPartial 2 p s (root (2 ^ p) dir) X))
        = vec (2 ^ p) (stockPartial 2 p (s + 1) (root (2 ^ p) dir) X) := by
      apply vec_ext
      intro i _
      have := stockF_stockPartial (R := 2) (by norm_num) hsp dir X i
      rw [hq, ← h1] at this
      exact this
    rw [hst]
    have h2 : (2 : ℕ) ^ (q + 1) / 2 = 2 ^ q := by
      rw [h1]; exact Nat.mul_div_cancel_left _ (by norm_num)
    rw [h2, ← pow_succ]
    obtain ⟨f', g', e, hfin⟩ := ih (s + 1) fuel (by omega) (by omega) (!flag)
      (stockPartial 2 p s (root (2 ^ p) dir) X)
    refine ⟨g', f', ?_, ?_⟩
    · rw [e, bind_ok]; rfl
    · rw [← hfin]
      cases flag <;> rfl

theorem conjugateVec_vec (n : ℕ) (f : ℕ → ℂ) :
    conjugateVec n (vec n f) = .ok (vec n (fun i => (starRingEnd ℂ) (f i))) := by
  unfold conjugateVec
  apply forN_eq' (fun k => vec n (fun i => if i < k then (starRingEnd ℂ) (f i) else f i))
  · exact vec_ext (fun i _ => by simp)
  · exact vec_ext (fun i hi => by simp [hi])
  · intro k hk
    rw [rd_vec_ok hk, bind_ok, wr_vec_ok hk]
    congr 1
    apply vec_ext
    intro i _
    rcases Nat.lt_trichotomy i k with h | h | h
    · rw [Function.update_of_ne (by omega), if_pos h, if_pos (by omega)]
    · subst h; rw [Function.update_self, if_neg (by omega), if_pos (by omega)]
    · rw [Function.update_of_ne (by omega), if_neg (by omega), if_neg (by omega)]

/-- The opposite direction. -/
def Direction.flip : Direction → Direction
  | .forward => .backward
  | .backward => .forward

theorem fft0_run (p : ℕ) (dir : Direction) (X W : ℕ → ℂ) : ∃ W' : ℕ → ℂ,
    fft0 (stockham2Lut (2 ^ p) dir) (p + 1) (2 ^ p) 1 false (vec (2 ^ p) X) (vec (2 ^ p) W)
      = .ok (vec (2 ^ p) (specDft dir (2 ^ p) X), vec (2 ^ p) W') := by
  obtain ⟨f', g', e, hfin⟩ := fft0_vec (p := p) dir X p 0 (p + 1) (by omega) (by omega) false W
  refine ⟨g', ?_⟩
  rw [pow_zero, vec_ext (fun i _ => stockPartial_zero 2 p (root (2 ^ p) dir) X i)] at e
  rw [e]
  simp only [Bool.false_eq_true, if_false] at hfin
  rw [hfin, vec_ext (fun i (hi : i < 2 ^ p) =>
      (stockPartial_last 2 p (root (2 ^ p) dir) X hi).trans (dftRoot_dir (2 ^ p) dir X i))]

/-- The recursive plan computes the transform of the opposite direction. -/
theorem stockhamDif2r_vec (p : ℕ) (dir : Direction) (X W : ℕ → ℂ) : ∃ W' : ℕ → ℂ,
    stockhamDif2r p (vec (2 ^ p) X) (vec (2 ^ p) W) dir
      = .ok (vec (2 ^ p) (specDft dir.flip (2 ^ p) X), vec (2 ^ p) W') := by
  unfold stockhamDif2r
  dsimp only
  rw [ipow_eq]
  cases dir with
  | forward =>
    rw [if_pos rfl]
    exact fft0_run p .backward X W
  | backward =>
    rw [if_neg (by decide), conjugateVec_vec, bind_ok]
    obtain ⟨W', e⟩ := fft0_run p .backward (fun i => (starRingEnd ℂ) (X i)) W
    refine ⟨W', ?_⟩
    rw [e, bind_ok]
    dsimp only
    rw [conjugateVec_vec, bind_ok, pure_eq_ok]
    congr 2
    apply vec_ext
    intro k _
    show (starRingEnd ℂ) (Spec.idft (2 ^ p) (fun i => (starRingEnd ℂ) (X i)) k) = Spec.dft (2 ^ p) X k
    rw [conj_idft]
    simp

/-- The iterative plan computes the transform of the opposite direction. -/
theorem stockhamDif2i_vec {p : ℕ} (hp : p ≤ 30) (dir : Direction) (X W : ℕ → ℂ) : ∃ W' : ℕ → ℂ,
    stockhamDif2i p (vec (2 ^ p) X) (vec (2 ^ p) W) dir
      = .ok (vec (2 ^ p) (specDft dir.flip (2 ^ p) X), vec (2 ^ p) W') := by
  unfold stockhamDif2i
  rw [if_neg (by omega)]
  dsimp only
  rw [ipow_eq]
  have hw : (if dir = .forward then stockham2Lut (2 ^ p) .backward else stockham2Lut (2 ^ p) .forward)
      = stockham2Lut (2 ^ p) dir.flip := by cases dir <;> rfl
  rw [hw]
  generalize dir.flip = dir
  have key := forN_inv (n := p) (body := fun stage (s : List ℂ × List ℂ) => (do
    let stride := ipow 2 stage
    let stageLen := 2 ^ p / (stride * 2)
    let offset := stageLen * stride
    if stage % 2 = 0 then do
      let y ← dif2iButterfly s.1 s.2 (stockham2Lut (2 ^ p) dir) stageLen stride offset
      pure (s.1, y)
    else do
      let x ← dif2iButterfly s.2 s.1 (stockham2Lut (2 ^ p) dir) stageLen stride offset
      pure (x, s.2) : Res (List ℂ × List ℂ))) (s := (vec (2 ^ p) X, vec (2 ^ p) W))
    (fun s σ => ∃ W' : ℕ → ℂ, if s % 2 = 0
      then σ = (vec (2 ^ p) (stockPartial 2 p s (root (2 ^ p) dir) X), vec (2 ^ p) W')
      else σ = (vec (2 ^ p) W', vec (2 ^ p) (stockPartial 2 p s (root (2 ^ p) dir) X))) ?_ ?_
  · obtain ⟨s', e, W', hs'⟩ := key
    have hlast := vec_ext (fun i (hi : i < 2 ^ p) =>
      (stockPartial_last 2 p (root (2 ^ p) dir) X hi).trans (dftRoot_dir (2 ^ p) dir X i))
    rw [hlast] at hs'
    dsimp only at e ⊢
    rw [e, bind_ok]
    by_cases h : p % 2 = 0
    · rw [if_pos h] at hs'
      rw [if_neg (by omega), hs']
      exact ⟨W', rfl⟩
    · rw [if_neg h] at hs'
      rw [if_pos (by omega), hs', copyVec_eq (by simp), bind_ok]
      exact ⟨_, rfl⟩
  · refine ⟨W, ?_⟩
    rw [if_pos rfl, vec_ext (fun i _ => stockPartial_zero 2 p (root (2 ^ p) dir) X i)]
  · rintro s hs σ ⟨W', hσ⟩
    have hn : 2 ^ p = 2 * 2 ^ (p - s - 1) * 2 ^ s := by
      rw [← pow_succ', ← pow_add]; congr 1; omega
    have hl : 2 ^ p / (2 ^ s * 2) = 2 ^ (p - s - 1) := by
      rw [← pow_succ, Nat.pow_div (by omega) (by norm_num)]; congr 1
    have hb := fun g => dif2iButterfly_vec (l := 2 ^ (p - s - 1)) (m := 2 ^ s) (by positivity) dir
      (stockPartial 2 p s (root (2 ^ p) dir) X) g
    rw [← hn] at hb
    have hst : vec (2 ^ p) (stockF 2 (2 ^ (p - s - 1)) (2 ^ s) (root (2 * 2 ^ (p - s - 1)) dir)
        (root 2 dir) (stockPartial 2 p s (root (2 ^ p) dir) X))
        = vec (2 ^ p) (stockPartial 2 p (s + 1) (root (2 ^ p) dir) X) :=
      vec_ext (fun i _ => stockF_stockPartial (R := 2) (by norm_num) hs dir X i)
    dsimp only
    rw [ipow_eq, hl]
    by_cases h : s % 2 = 0
    · rw [if_pos h] at hσ ⊢
      subst hσ
      dsimp only
      rw [hb, bind_ok, hst]
      refine ⟨_, rfl, stockPartial 2 p s (root (2 ^ p) dir) X, ?_⟩
      rw [if_neg (by omega)]
    · rw [if_neg h] at hσ ⊢
      subst hσ
      dsimp only
      rw [hb, bind_ok, hst]
      refine ⟨_, rfl, stockPartial 2 p s (root (2 ^ p) dir) X, ?_⟩
      rw [if_pos (by omega)]

end Neo
