import Verif.Lemmas.Radix4

/-! # The Stockham plan of radix 4, decimation in time -/

namespace Neo

open Finset

theorem mod_mul_iff {l r i j k : ℕ} (hk : k < r) : i % (l * r) = j * r + k ↔ i / r % l = j ∧ i % r = k := by
  have hr : 0 < r := by omega
  have h := Nat.mod_mul (x := i) (a := r) (b := l)
  rw [Nat.mul_comm l r, h]
  constructor
  · intro e
    have h1 : (i % r + r * (i / r % l)) / r = (j * r + k) / r := by rw [e]
    have h2 : (i % r + r * (i / r % l)) % r = (j * r + k) % r := by rw [e]
    rw [Nat.add_mul_div_left _ _ hr, Nat.div_eq_of_lt (Nat.mod_lt _ hr), Nat.mul_comm j r,
      Nat.mul_add_div hr, Nat.div_eq_of_lt hk] at h1
    rw [Nat.add_mul_mod_self_left, Nat.mod_mod, Nat.mul_comm j r, Nat.mul_add_mod, Nat.mod_eq_of_lt hk] at h2
    omega
  · rintro ⟨rfl, rfl⟩
    ring

theorem stockhamDit4Body_vec {l r j k : ℕ} (hj : j < l) (hk : k < r) (hn : 4 * l * r < 2 ^ 32) (dir : Direction)
    (Y g : ℕ → ℂ) :
    stockhamDit4Body dir (4 * l) r j k (vec (4 * l * r) Y) (vec (4 * l * r) g)
      = .ok (vec (4 * l * r) (fun i => if i / r % l = j ∧ i % r = k then
          stockDitF 4 l r (root (4 * l) dir) (root 4 dir ^ 3) Y i else g i)) := by
  have hjk : j * r + k < l * r := by
    have : (j + 1) * r ≤ l * r := Nat.mul_le_mul_right _ hj
    have e : (j + 1) * r = j * r + r := by ring
    omega
  have hN : (0 + 1) * (4 * (l * r)) ≤ 4 * l * r := by rw [zero_add, one_mul, mul_assoc]
  obtain ⟨P, hP⟩ : ∃ P : ℕ → ℕ, P = fun u => 0 * (4 * (l * r)) + (j * r + k) + u * (l * r) := ⟨_, rfl⟩
  have hPb : ∀ u < 4, P u < 4 * l * r := by
    intro u hu
    rw [hP]
    exact block_bound hjk hN hu
  obtain ⟨Q, hQ⟩ : ∃ Q : ℕ → ℕ, Q = fun v => j * (4 * r) + r * v + k := ⟨_, rfl⟩
  have hQb : ∀ v < 4, Q v < 4 * l * r := by
    intro v hv
    rw [hQ]
    have h1 : (j + 1) * (4 * r) ≤ l * (4 * r) := Nat.mul_le_mul_right _ hj
    have h2 : (j + 1) * (4 * r) = j * (4 * r) + 4 * r := by ring
    have h3 : r * (v + 1) ≤ r * 4 := Nat.mul_le_mul_left _ hv
    have h4 : r * (v + 1) = r * v + r := by ring
    have h5 : 4 * l * r = l * (4 * r) := by ring
    dsimp only
    omega
  obtain ⟨V, hV⟩ : ∃ V : ℕ → ℂ, V = fun u => ∑ v ∈ range 4, Y (Q v) * (root (4 * l) dir ^ j) ^ v
      * (root 4 dir ^ 3) ^ (v * u) := ⟨_, rfl⟩
  have hw : vec (4 * l * r) (updN g P V 4) = vec (4 * l * r) (fun i => if i / r % l = j ∧ i % r = k then
          stockDitF 4 l r (root (4 * l) dir) (root 4 dir ^ 3) Y i else g i) := by
    rw [hP, butterfly_writes hjk (by norm_num), hV, hQ]
    apply vec_ext
    intro i hi
    have hi0 : i / (4 * (l * r)) = 0 := Nat.div_eq_of_lt (by rw [← mul_assoc]; exact hi)
    have hi4 : i / (l * r) % 4 = i / (l * r) := by
      apply Nat.mod_eq_of_lt
      rw [Nat.div_lt_iff_lt_mul (by omega), ← mul_assoc]
      exact hi
    by_cases h : i / r % l = j ∧ i % r = k
    · rw [if_pos h, if_pos ⟨(mod_mul_iff hk).2 h, hi0⟩]
      unfold stockDitF
      rw [h.1, h.2, hi4]
    · rw [if_neg h, if_neg (fun e => h ((mod_mul_iff hk).1 e.1))]
  rw [← hw]
  have hl : 4 * l / 4 = l := Nat.mul_div_cancel_left _ (by norm_num)
  have p0 : (j + l * 0) * r + k = P 0 := by rw [hP]; ring
  have p1 : (j + l * 1) * r + k = P 1 := by rw [hP]; ring
  have p2 : (j + l * 2) * r + k = P 2 := by rw [hP]; ring
  have p3 : (j + l * 3) * r + k = P 3 := by rw [hP]; ring
  have hr : 1 ≤ r := by omega
  have hlr : 4 * l ≤ 4 * l * r := Nat.le_mul_of_pos_right _ hr
  have t1 : u32 (1 * j) = 1 * j := Nat.mod_eq_of_lt (by omega)
  have t2 : u32 (2 * j) = 2 * j := Nat.mod_eq_of_lt (by omega)
  have t3 : u32 (3 * j) = 3 * j := Nat.mod_eq_of_lt (by omega)
  have q0 : j * (4 * r) + r * 0 + k = Q 0 := by rw [hQ]
  have q1 : j * (4 * r) + r * 1 + k = Q 1 := by rw [hQ]
  have q2 : j * (4 * r) + r * 2 + k = Q 2 := by rw [hQ]
  have q3 : j * (4 * r) + r * 3 + k = Q 3 := by rw [hQ]
  have hz : signedI dir = root 4 dir := (root4_eq dir).symm
  obtain ⟨z1, z2, z3, z4, z6, z9⟩ := root4_pows dir
  unfold stockhamDit4Body
  dsimp only
  rw [q0, q1, q2, q3, rd_vec_ok (hQb 0 (by norm_num)), rd_vec_ok (hQb 1 (by norm_num)),
    rd_vec_ok (hQb 2 (by norm_num)), rd_vec_ok (hQb 3 (by norm_num))]
  simp only [bind_ok, twiddle_eq, t1, t2, t3, hl, hz, p0, p1, p2, p3]
  rw [wr_updN_first g P V rfl _ (hPb 0 (by norm_num)), bind_ok, wr_updN g P V rfl _ (hPb 1 (by norm_num)),
    bind_ok, wr_updN g P V rfl _ (hPb 2 (by norm_num)), bind_ok, wr_updN g P V rfl _ (hPb 3 (by norm_num))]
  all_goals simp only [hV, sum_range_succ, sum_range_zero, Nat.reduceMul, mul_zero,
        zero_mul, mul_one, one_mul, pow_zero, zero_add, z1, z2, z3, z4, z6, z9]
  all_goals ring

theorem stockhamDit4Stage_vec {l r : ℕ} (hl : 0 < l) (hr : 0 < r) (hn : 4 * l * r < 2 ^ 32) (dir : Direction)
    (Y g : ℕ → ℂ) :
    forUInt (4 * l / 4) (fun j x => forUInt r (fun k x =>
        stockhamDit4Body dir (4 * l) r j k (vec (4 * l * r) Y) x) x) (vec (4 * l * r) g)
      = .ok (vec (4 * l * r) (stockDitF 4 l r (root (4 * l) dir) (root 4 dir ^ 3) Y)) := by
  have h1 : 4 * l ≤ 4 * l * r := Nat.le_mul_of_pos_right _ hr
  have h2 : 1 * r ≤ 4 * l * r := Nat.mul_le_mul_right _ (by omega)
  rw [Nat.mul_div_cancel_left _ (by norm_num : 0 < 4), forUInt_eq (by omega)]
  have hin : (fun j (x : List ℂ) => forUInt r (fun k x =>
        stockhamDit4Body dir (4 * l) r j k (vec (4 * l * r) Y) x) x)
      = fun j x => forN r (fun k x => stockhamDit4Body dir (4 * l) r j k (vec (4 * l * r) Y) x) x := by
    funext j x
    exact forUInt_eq (by omega) _ _
  rw [hin]
  apply keyedLoop (k1 := fun i => i / r % l) (k2 := fun i => i % r)
    (F := fun _ => stockDitF 4 l r (root (4 * l) dir) (root 4 dir ^ 3) Y) g
  · intro i _
    exact Nat.mod_lt _ hl
  · intro i _
    exact Nat.mod_lt _ hr
  · intros; rfl
  · intro j hj k hk f
    exact stockhamDit4Body_vec hj hk hn dir Y f

theorem stockhamDit4_vec {p : ℕ} (hn : 4 ^ p < 2 ^ 32) (dir : Direction) (X W : ℕ → ℂ) : ∃ W' : ℕ → ℂ,
    stockhamDit4 p (vec (4 ^ p) X) (vec (4 ^ p) W) dir
      = .ok (vec (4 ^ p) (fun k => specDft dir (4 ^ p) (Spec.digitSigned p k X) k), vec (4 ^ p) W') := by
  unfold stockhamDit4
  dsimp only
  rw [ipow_eq]
  have hp32 : p < 2 ^ 32 := by
    have : p < 4 ^ p := Nat.lt_pow_self (by omega)
    omega
  rw [forUInt_eq hp32]
  have key := forN_inv (n := p) (body := fun q (s : List ℂ × List ℂ) => do
    let y ← copyVec s.1 s.2
    let x ← forUInt (ipow 4 (q + 1) / 4) (fun j x => forUInt (4 ^ p / ipow 4 (q + 1)) (fun k x =>
      stockhamDit4Body dir (ipow 4 (q + 1)) (4 ^ p / ipow 4 (q + 1)) j k y x) x) s.1
    pure (x, y)) (s := (vec (4 ^ p) X, vec (4 ^ p) W))
    (fun s σ => ∃ W' : ℕ → ℂ, σ = (vec (4 ^ p) (r4Stock dir p s X), vec (4 ^ p) W')) ?_ ?_
  · obtain ⟨s', e, W', rfl⟩ := key
    refine ⟨W', ?_⟩
    rw [e, vec_ext (fun i (_ : i < 4 ^ p) => r4Stock_last dir p X i)]
  · exact ⟨W, by rw [vec_ext (fun i (hi : i < 4 ^ p) => r4Stock_zero dir X hi)]⟩
  · rintro s hs σ ⟨W', rfl⟩
    refine ⟨_, ?_, r4Stock dir p s X, rfl⟩
    dsimp only
    have hN : 4 * 4 ^ s * 4 ^ (p - s - 1) = 4 ^ p := by
      rw [← pow_succ', ← pow_add]; congr 1; omega
    have hr : 4 ^ p / 4 ^ (s + 1) = 4 ^ (p - s - 1) := by
      rw [Nat.pow_div (by omega) (by norm_num)]; congr 1
    have hst := stockhamDit4Stage_vec (l := 4 ^ s) (r := 4 ^ (p - s - 1)) (by positivity) (by positivity)
      (by rw [hN]; exact hn) dir (r4Stock dir p s X) (r4Stock dir p s X)
    rw [hN, ← pow_succ'] at hst
    rw [copyVec_eq (by simp), bind_ok, ipow_eq, hr, hst, bind_ok, pure_eq_ok,
      vec_ext (fun i (hi : i < 4 ^ p) => r4Stock_succ hs dir X hi)]

end Neo
