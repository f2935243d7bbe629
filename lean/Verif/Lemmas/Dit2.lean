import Verif.Lemmas.BitRev
import Verif.Lemmas.Dit
import Verif.Lemmas.Stage
import Mathlib.Tactic.LinearCombination

/-! # The radix-2 kernels compute the DFT of the bit-reversed input -/

namespace Neo

open Finset

variable {R : Type} [CommRing R]

theorem sq_root {b : ℕ} (hb : 1 ≤ b) {ω : R} (hω : ω ^ 2 ^ (b - 1) = -1) : ω ^ 2 ^ b = 1 := by
  have : 2 ^ b = 2 ^ (b - 1) * 2 := by rw [← pow_succ]; congr 1; omega
  rw [this, pow_mul, hω]; ring

/-- A radix-2 stage advances the decimation-in-time state. -/
theorem stage2_ditPartial {b s : ℕ} (hs : s < b) {ω : R} (hω : ω ^ 2 ^ (b - 1) = -1)
    (X : ℕ → R) (i : ℕ) :
    stage2 (2 ^ s) (fun p => ω ^ (p * 2 ^ (b - s - 1))) (ditPartial 2 b s ω X) i
      = ditPartial 2 b (s + 1) ω X i := by
  have hL : 0 < 2 ^ s := by positivity
  rw [ditPartial_succ (by norm_num) hs (sq_root (by omega) hω)]
  have hb' := block_base (L := 2 ^ s) (R := 2) (i := i) hL (by norm_num)
  have hpw : 2 ^ (s + 1) = 2 * 2 ^ s := by rw [pow_succ]; ring
  have hmod : i % (2 * 2 ^ s) = i % 2 ^ s + 2 ^ s * (i / 2 ^ s % 2) := by
    rw [Nat.mul_comm 2, Nat.mod_mul]
  rw [sum_range_succ, sum_range_one, hpw, hmod]
  have hM : 2 ^ s * 2 ^ (b - s - 1) = 2 ^ (b - 1) := by rw [← pow_add]; congr 1; omega
  unfold stage2
  have h2 : i / 2 ^ s % 2 < 2 := Nat.mod_lt _ (by norm_num)
  generalize hq : i / (2 * 2 ^ s) * (2 * 2 ^ s) = Q at *
  by_cases h : i / 2 ^ s % 2 = 0
  · rw [if_pos h, h]
    rw [h] at hb'
    have e0 : Q + 0 * 2 ^ s + i % 2 ^ s = i := by omega
    have e1 : Q + 1 * 2 ^ s + i % 2 ^ s = i + 2 ^ s := by omega
    rw [e0, e1]
    simp
  · have h1 : i / 2 ^ s % 2 = 1 := by omega
    rw [if_neg h, h1]
    rw [h1] at hb'
    have e0 : Q + 0 * 2 ^ s + i % 2 ^ s = i - 2 ^ s := by omega
    have e1 : Q + 1 * 2 ^ s + i % 2 ^ s = i := by omega
    rw [e0, e1]
    have e2 : (i % 2 ^ s + 2 ^ s * 1) * 1 * 2 ^ (b - s - 1)
        = i % 2 ^ s * 2 ^ (b - s - 1) + 2 ^ (b - 1) := by rw [← hM]; ring
    rw [e2, pow_add, hω]
    simp
    ring

theorem stage2_congr {n L m : ℕ} (hn : n = m * (2 * L)) (hL : 0 < L) {w w' f f' : ℕ → R}
    (hw : ∀ p < L, w p = w' p) (hf : ∀ i < n, f i = f' i) :
    ∀ i < n, stage2 L w f i = stage2 L w' f' i := by
  intro i hi
  unfold stage2
  have hb' := block_base (L := L) (R := 2) (i := i) hL (by norm_num)
  have h2 : i / L % 2 < 2 := Nat.mod_lt _ (by norm_num)
  have hq : i / (2 * L) < m := by rw [Nat.div_lt_iff_lt_mul (by omega)]; omega
  have hq' : (i / (2 * L) + 1) * (2 * L) ≤ m * (2 * L) := Nat.mul_le_mul_right _ hq
  rw [Nat.add_mul, one_mul] at hq'
  have hp := Nat.mod_lt i hL
  rw [hw _ hp]
  by_cases h : i / L % 2 = 0
  · rw [if_pos h, if_pos h, hf i hi, hf (i + L)]
    rw [h] at hb'; omega
  · rw [if_neg h, if_neg h, hf i hi, hf (i - L) (by omega)]

/-- The twiddle table expected by the kernels: `tw[i] = ω^i` for `i < 2^(b-1)`. -/
def twVec (b : ℕ) (ω : R) : List R := vec (2 ^ (b - 1)) (fun i => ω ^ i)

theorem two_pow_split {b s : ℕ} (hs : s < b) : 2 ^ b = 2 ^ (b - s - 1) * (2 * 2 ^ s) := by
  rw [← pow_succ', ← pow_add]; congr 1; omega

theorem tw_index_lt {b s p : ℕ} (hs : s < b) (hp : p < 2 ^ s) :
    p * 2 ^ (b - s - 1) < 2 ^ (b - 1) := by
  have : 2 ^ (b - 1) = 2 ^ s * 2 ^ (b - s - 1) := by rw [← pow_add]; congr 1; omega
  rw [this]
  exact Nat.mul_lt_mul_of_pos_right hp (by positivity)

theorem dit2Stage0_vec {b : ℕ} (hb : 1 ≤ b) {ω : R} (hω : ω ^ 2 ^ (b - 1) = -1) (X : ℕ → R) :
    dit2Stage0 (vec (2 ^ b) (ditPartial 2 b 0 ω X)) = .ok (vec (2 ^ b) (ditPartial 2 b 1 ω X)) := by
  unfold dit2Stage0
  rw [length_vec]
  have hn : 2 ^ b = 2 ^ (b - 1) * (2 * 1) := two_pow_split (s := 0) (by omega)
  have key := stage2_loop (R := R) (n := 2 ^ b) (L := 1) hn (by norm_num) (fun _ => 1)
    (fun k _ x => butterfly0 x k (k + 1)) ?_ (ditPartial 2 b 0 ω X)
  · have e : ∀ k (x : List R), forN 1 (fun _ x => butterfly0 x k (k + 1)) x
        = butterfly0 x k (k + 1) := fun k x => rfl
    simp only [e] at key
    rw [key]
    congr 1
    apply vec_ext
    intro i hi
    rw [← stage2_ditPartial (s := 0) (by omega) hω]
    refine stage2_congr (m := 2 ^ (b - 1)) hn (by norm_num) ?_ (fun _ _ => rfl) i hi
    intro p hp
    have : p = 0 := by omega
    subst this; simp
  · intro k p f hp hlt
    have : p = 0 := by omega
    subst this
    have h1 : k < 2 ^ b := by omega
    unfold butterfly0
    simp only [rd_vec_ok h1, rd_vec_ok (show k + 1 < 2 ^ b by omega), bind_ok,
      wr_vec_ok h1, wr_vec_ok (show k + 1 < 2 ^ b by omega), add_zero, one_mul]
    congr 1
    apply vec_ext
    intro m hm
    by_cases h3 : m = k
    · subst h3; simp
    · by_cases h4 : m = k + 1
      · subst h4; simp
      · simp [h3, h4]

/-- Generic twiddled stage as written in kernels v1, v3 and v4. -/
theorem dit2_tw_stage {b s : ℕ} (hs : s < b) {ω : R} (hω : ω ^ 2 ^ (b - 1) = -1) (X : ℕ → R) :
    forStep (2 ^ b) (2 * 2 ^ s) (fun k x => forN (2 ^ s) (fun p x => do
        let tw ← rd (twVec b ω) (p * 2 ^ (b - s - 1))
        butterflyTw x tw (k + p) (k + p + 2 ^ s)) x) (vec (2 ^ b) (ditPartial 2 b s ω X))
      = .ok (vec (2 ^ b) (ditPartial 2 b (s + 1) ω X)) := by
  have hn := two_pow_split hs
  rw [stage2_loop (R := R) hn (by positivity) (fun p => ω ^ (p * 2 ^ (b - s - 1)))
    (fun k p x => do
        let tw ← rd (twVec b ω) (p * 2 ^ (b - s - 1))
        butterflyTw x tw (k + p) (k + p + 2 ^ s))]
  · congr 1
    apply vec_ext
    intro i _
    rw [stage2_ditPartial hs hω]
  · intro k p f hp hlt
    unfold twVec
    rw [rd_vec_ok (tw_index_lt hs hp), bind_ok, butterflyTw_vec (by omega) hlt]

theorem dit2Stage_vec {b s : ℕ} (hs : s < b) {ω : R} (hω : ω ^ 2 ^ (b - 1) = -1) (X : ℕ → R) :
    dit2Stage (twVec b ω) (2 ^ b) b s (vec (2 ^ b) (ditPartial 2 b s ω X))
      = .ok (vec (2 ^ b) (ditPartial 2 b (s + 1) ω X)) := by
  unfold dit2Stage
  simp only [ipow_eq]
  rw [show 2 ^ (s + 1) = 2 * 2 ^ s by rw [pow_succ]; ring]
  exact dit2_tw_stage hs hω X

/-- Kernel v3 on bit-reversed data. -/
theorem dit2V3_vec {b : ℕ} (hb : 1 ≤ b) {ω : R} (hω : ω ^ 2 ^ (b - 1) = -1) (X : ℕ → R) :
    dit2V3 (vec (2 ^ b) (fun i => X (digitRev 2 b i))) (twVec b ω)
      = .ok (vec (2 ^ b) (Spec.dftRoot (2 ^ b) ω X)) := by
  unfold dit2V3
  have e : vec (2 ^ b) (fun i => X (digitRev 2 b i)) = vec (2 ^ b) (ditPartial 2 b 0 ω X) :=
    vec_ext (fun i _ => (ditPartial_zero 2 b ω X i).symm)
  simp only [e, length_vec, bitLog2_two_pow, dit2Stage0_vec hb hω, bind_ok]
  apply forR_eq' (fun s => vec (2 ^ b) (ditPartial 2 b s ω X)) hb rfl
  · exact vec_ext (fun i hi => ditPartial_last 2 b ω X hi)
  · intro s h1 h2
    exact dit2Stage_vec h2 hω X

/-- Kernel v1 on bit-reversed data. -/
theorem dit2V1_vec {b : ℕ} (hb : 1 ≤ b) {ω : R} (hω : ω ^ 2 ^ (b - 1) = -1) (X : ℕ → R) :
    dit2V1 (vec (2 ^ b) (fun i => X (digitRev 2 b i))) (twVec b ω)
      = .ok (vec (2 ^ b) (Spec.dftRoot (2 ^ b) ω X)) := by
  unfold dit2V1
  have e : vec (2 ^ b) (fun i => X (digitRev 2 b i)) = vec (2 ^ b) (ditPartial 2 b 0 ω X) :=
    vec_ext (fun i _ => (ditPartial_zero 2 b ω X i).symm)
  simp only [e, length_vec, bitLog2_two_pow, dit2Stage0_vec hb hω, bind_ok]
  rw [forR_eq' (s := (vec (2 ^ b) (ditPartial 2 b 1 ω X), 2, 4))
    (s' := (vec (2 ^ b) (ditPartial 2 b b ω X), 2 ^ b, 2 * 2 ^ b))
    (fun s => (vec (2 ^ b) (ditPartial 2 b s ω X), 2 ^ s, 2 * 2 ^ s)) hb rfl rfl]
  · simp only [bind_ok, pure_eq_ok]
    congr 1
    exact vec_ext (fun i hi => ditPartial_last 2 b ω X hi)
  · intro s h1 h2
    simp only [ipow_eq]
    rw [dit2_tw_stage h2 hω X]
    simp only [bind_ok, pure_eq_ok]
    rw [pow_succ]
    congr 3
    ring

/-- The `while` loop of kernel v2. -/
theorem dit2V2Loop_vec {b : ℕ} {ω : R} (hω : ω ^ 2 ^ (b - 1) = -1) (X : ℕ → R)
    (fuel s : ℕ) (hs1 : 1 ≤ s) (hs : s ≤ b) (hf : b - s < fuel) :
    dit2V2Loop (twVec b ω) (2 ^ b) fuel (2 * 2 ^ s) (vec (2 ^ b) (ditPartial 2 b s ω X))
      = .ok (vec (2 ^ b) (ditPartial 2 b b ω X)) := by
  induction fuel generalizing s with
  | zero => omega
  | succ fuel ih =>
    unfold dit2V2Loop
    by_cases h : s = b
    · subst h
      have : 0 < 2 ^ s := by positivity
      rw [if_neg (by omega)]; rfl
    · have hlt : s < b := by omega
      have hle : 2 * 2 ^ s ≤ 2 ^ b := by
        rw [← pow_succ']; exact Nat.pow_le_pow_right (by norm_num) hlt
      rw [if_pos hle]
      have hh : 2 * 2 ^ s / 2 = 2 ^ s := by omega
      have hk : 2 ^ b / (2 * 2 ^ s) = 2 ^ (b - s - 1) := by
        rw [two_pow_split hlt, Nat.mul_div_cancel _ (by positivity)]
      simp only [hh, hk]
      have hn := two_pow_split hlt
      have key := stage2_loop (R := R) hn (by positivity) (fun p => ω ^ (p * 2 ^ (b - s - 1)))
        (fun k p x => do
          let tw ← rd (twVec b ω) ((k + p - k) * 2 ^ (b - s - 1))
          let even ← rd x (k + p)
          let odd ← rd x (k + p + 2 ^ s)
          let x ← wr x (k + p) (even + odd * tw)
          wr x (k + p + 2 ^ s) (even - odd * tw)) ?_ (ditPartial 2 b s ω X)
      · have e : ∀ k, k + 2 ^ s - k = 2 ^ s := fun k => by omega
        simp only [forR, e]
        rw [key, bind_ok]
        have e2 : vec (2 ^ b) (stage2 (2 ^ s) (fun p => ω ^ (p * 2 ^ (b - s - 1)))
            (ditPartial 2 b s ω X)) = vec (2 ^ b) (ditPartial 2 b (s + 1) ω X) :=
          vec_ext (fun i _ => stage2_ditPartial hlt hω X i)
        rw [e2, show 2 * 2 ^ s * 2 = 2 * 2 ^ (s + 1) by rw [pow_succ]; ring]
        exact ih (s + 1) (by omega) (by omega) (by omega)
      · intro k p f hp hl
        have h1 : k + p < 2 ^ b := by omega
        unfold twVec
        simp only [Nat.add_sub_cancel_left]
        rw [rd_vec_ok (tw_index_lt hlt hp)]
        simp only [bind_ok, rd_vec_ok h1, rd_vec_ok hl, wr_vec_ok h1, wr_vec_ok hl]
        congr 1
        apply vec_ext
        intro m hm
        by_cases h3 : m = k + p
        · subst h3
          have : k + p ≠ k + p + 2 ^ s := by have : 0 < 2 ^ s := by positivity
                                             omega
          rw [Function.update_of_ne this, Function.update_self, if_pos rfl]; ring
        · by_cases h4 : m = k + p + 2 ^ s
          · subst h4; simp [mul_comm]
          · simp [h3, h4]

/-- Kernel v2 on bit-reversed data. -/
theorem dit2V2_vec {b : ℕ} (hb : 1 ≤ b) {ω : R} (hω : ω ^ 2 ^ (b - 1) = -1) (X : ℕ → R) :
    dit2V2 (vec (2 ^ b) (fun i => X (digitRev 2 b i))) (twVec b ω)
      = .ok (vec (2 ^ b) (Spec.dftRoot (2 ^ b) ω X)) := by
  unfold dit2V2
  have e : vec (2 ^ b) (fun i => X (digitRev 2 b i)) = vec (2 ^ b) (ditPartial 2 b 0 ω X) :=
    vec_ext (fun i _ => (ditPartial_zero 2 b ω X i).symm)
  have hf : b < 2 ^ b := Nat.lt_two_pow_self
  simp only [e, length_vec, dit2Stage0_vec hb hω, bind_ok]
  have := dit2V2Loop_vec hω X (2 ^ b + 1) 1 le_rfl hb (by omega)
  rw [show (4 : ℕ) = 2 * 2 ^ 1 by norm_num, this]
  congr 1
  exact vec_ext (fun i hi => ditPartial_last 2 b ω X hi)

/-- Kernel v4 on bit-reversed data; needs at least two stages. -/
theorem dit2V4_vec {b : ℕ} (hb : 2 ≤ b) {ω : R} (hω : ω ^ 2 ^ (b - 1) = -1) (X : ℕ → R) :
    dit2V4 (vec (2 ^ b) (fun i => X (digitRev 2 b i))) (twVec b ω)
      = .ok (vec (2 ^ b) (Spec.dftRoot (2 ^ b) ω X)) := by
  unfold dit2V4
  have e : vec (2 ^ b) (fun i => X (digitRev 2 b i)) = vec (2 ^ b) (ditPartial 2 b 0 ω X) :=
    vec_ext (fun i _ => (ditPartial_zero 2 b ω X i).symm)
  simp only [e, length_vec, bitLog2_two_pow, dit2Stage0_vec (by omega : 1 ≤ b) hω, bind_ok]
  rw [if_neg (by omega), forR_eq' (s' := vec (2 ^ b) (ditPartial 2 b (b - 1) ω X))
    (fun s => vec (2 ^ b) (ditPartial 2 b s ω X)) (by omega) rfl rfl]
  · rw [bind_ok]
    have hlast := dit2_tw_stage (b := b) (s := b - 1) (by omega) hω X
    have h1 : b - (b - 1) - 1 = 0 := by omega
    have h2 : 2 ^ b = 2 * 2 ^ (b - 1) := by rw [← pow_succ']; congr 1; omega
    have h3 : 2 ^ b / 2 = 2 ^ (b - 1) := by omega
    have h4 : b - 1 + 1 = b := by omega
    rw [h1, h4] at hlast
    have hstep : ∀ (body : ℕ → List R → Res (List R)) (x : List R),
        forStep (2 ^ b) (2 * 2 ^ (b - 1)) body x = body 0 x := by
      intro body x
      rw [← h2]
      have := forStep_mul 1 (2 ^ b) (by positivity) body x
      rw [one_mul] at this
      rw [this, forN_succ, forN_zero, bind_ok, zero_mul]
    rw [hstep] at hlast
    simp only [pow_zero, mul_one, zero_add] at hlast
    rw [h3, hlast]
    congr 1
    exact vec_ext (fun i hi => ditPartial_last 2 b ω X hi)
  · intro s h1 h2
    exact dit2Stage_vec (by omega) hω X

end Neo
