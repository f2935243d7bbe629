import Verif.Lemmas.Radix4Sum
import Verif.Lemmas.Stockham

/-! # The radix-4 plans -/

namespace Neo

open Finset

/-! ## The table -/

/-- The rows of the table of twiddles. -/
noncomputable def r4Table (b : ℕ) (dir : Direction) : List ℂ :=
  vec (4 ^ b) (fun i => if i < 3 * (4 ^ (b - 1) - 1) + 1 then root (4 ^ b) dir ^ i else 0)

theorem radix4Lut_eq {b : ℕ} (hb1 : 1 ≤ b) (hb : b ≤ 16) (dir : Direction) :
    radix4Lut (4 ^ b) dir = .ok (r4Table b dir) := by
  have h4 : 4 ^ b = 4 * 4 ^ (b - 1) := by rw [← pow_succ']; congr 1; omega
  have hpos : 0 < 4 ^ (b - 1) := by positivity
  have hle : 4 ^ (b - 1) ≤ 4 ^ 15 := Nat.pow_le_pow_right (by norm_num) (by omega)
  have h15 : (4 : ℕ) ^ 15 = 1073741824 := by norm_num
  unfold radix4Lut
  rw [if_neg (by omega)]
  dsimp only
  have hdiv : 4 ^ b / 4 = 4 ^ (b - 1) := by rw [h4]; exact Nat.mul_div_cancel_left _ (by norm_num)
  rw [hdiv, forUInt_eq (by omega)]
  apply forN_eq' (fun j => vec (4 ^ b) (fun i => if i < j then root (4 ^ b) dir ^ i else 0))
  · simp only [Nat.not_lt_zero, if_false]
    exact (List.eq_replicate_iff.2 ⟨by simp, by
      intro c hc
      obtain ⟨i, -, rfl⟩ := List.mem_map.1 hc
      rfl⟩)
  · rfl
  · intro j hj
    have hjn : j < 4 ^ b := by omega
    rw [wr_vec_ok hjn, twiddle_eq]
    congr 1
    apply vec_ext
    intro i _
    rcases Nat.lt_trichotomy i j with h | h | h
    · rw [Function.update_of_ne (by omega), if_pos h, if_pos (by omega)]
    · subst h; rw [Function.update_self, if_pos (by omega)]
    · rw [Function.update_of_ne (by omega), if_neg (by omega), if_neg (by omega)]

theorem r4Table_rd {b s k c : ℕ} (hs : s < b) (hk : k < 4 ^ s) (hc : c ≤ 3) (dir : Direction) :
    rd (r4Table b dir) (c * k * 4 ^ (b - s - 1)) = .ok (root (4 ^ (s + 1)) dir ^ (c * k)) := by
  have h4 : 4 ^ b = 4 * 4 ^ (b - 1) := by rw [← pow_succ']; congr 1; omega
  have hpos : 0 < 4 ^ (b - 1) := by positivity
  have hM : 4 ^ (b - 1) = 4 ^ s * 4 ^ (b - s - 1) := by rw [← pow_add]; congr 1; omega
  have hMpos : 0 < 4 ^ (b - s - 1) := by positivity
  have h1 : (k + 1) * 4 ^ (b - s - 1) ≤ 4 ^ s * 4 ^ (b - s - 1) := Nat.mul_le_mul_right _ hk
  have h2 : c * k * 4 ^ (b - s - 1) ≤ 3 * (k * 4 ^ (b - s - 1)) := by
    rw [mul_assoc]; exact Nat.mul_le_mul_right _ hc
  have h3 : (k + 1) * 4 ^ (b - s - 1) = k * 4 ^ (b - s - 1) + 4 ^ (b - s - 1) := by ring
  have hlt : c * k * 4 ^ (b - s - 1) < 3 * (4 ^ (b - 1) - 1) + 1 := by omega
  unfold r4Table
  rw [rd_vec_ok (by omega), if_pos hlt]
  have hw := root_pow_sub (R := 4) (b := b) (s := s + 1) (by norm_num) (by omega) dir
  rw [hw, ← pow_mul, show b - (s + 1) = b - s - 1 by omega]
  congr 2
  ring

/-! ## Decimation in time -/

theorem root4_pows (dir : Direction) :
    (root 4 dir ^ 3) ^ 1 = - root 4 dir ∧ (root 4 dir ^ 3) ^ 2 = -1 ∧ (root 4 dir ^ 3) ^ 3 = root 4 dir ∧
    (root 4 dir ^ 3) ^ 4 = 1 ∧ (root 4 dir ^ 3) ^ 6 = -1 ∧ (root 4 dir ^ 3) ^ 9 = - root 4 dir := by
  have hsq := root_four_sq dir
  generalize root 4 dir = i at *
  have h3 : i ^ 3 = -i := by rw [pow_succ, hsq]; ring
  rw [h3]
  have h4 : i ^ 4 = 1 := by rw [show (4 : ℕ) = 2 * 2 by norm_num, pow_mul, hsq]; norm_num
  have h6 : i ^ 6 = -1 := by rw [show (6 : ℕ) = 2 * 3 by norm_num, pow_mul, hsq]; norm_num
  have h9 : i ^ 9 = i := by
    rw [show (9 : ℕ) = 2 * 4 + 1 by norm_num, pow_succ, pow_mul, hsq]; norm_num
  refine ⟨by ring, ?_, ?_, ?_, ?_, ?_⟩
  · rw [neg_pow, hsq]; norm_num
  · rw [neg_pow, h3]; norm_num
  · rw [neg_pow, h4]; norm_num
  · rw [neg_pow, h6]; norm_num
  · rw [neg_pow, h9]; norm_num

theorem dit4Store_vec {n L k q : ℕ} (hk : k < L) (hq : (q + 1) * (4 * L) ≤ n) (dir : Direction) (wi : ℂ)
    (g : ℕ → ℂ) {i0 i1 i2 i3 : ℕ} {c0 c1 c2 c3 : ℂ}
    (e0 : i0 = q * (4 * L) + k + 0 * L) (e1 : i1 = q * (4 * L) + k + 1 * L)
    (e2 : i2 = q * (4 * L) + k + 2 * L) (e3 : i3 = q * (4 * L) + k + 3 * L)
    (f0 : c0 = g i0) (f1 : c1 = g i1 * wi) (f2 : c2 = g i2 * wi ^ 2) (f3 : c3 = g i3 * wi ^ 3) :
    dit4Store (root 4 dir) i0 i1 i2 i3 c0 c1 c2 c3 (vec n g)
      = .ok (vec n (fun t => if t / (4 * L) = q ∧ t % L = k
      then ∑ v ∈ range 4, g (q * (4 * L) + k + v * L) * wi ^ v * (root 4 dir ^ 3) ^ (v * (t / L % 4))
      else g t)) := by
  obtain ⟨P, hP⟩ : ∃ P : ℕ → ℕ, P = fun u => q * (4 * L) + k + u * L := ⟨_, rfl⟩
  have hPb : ∀ u < 4, P u < n := by
    intro u hu
    rw [hP]
    exact block_bound hk hq hu
  obtain ⟨V, hV⟩ : ∃ V : ℕ → ℂ, V = fun u =>
      ∑ v ∈ range 4, g (P v) * wi ^ v * (root 4 dir ^ 3) ^ (v * u) := ⟨_, rfl⟩
  have hw : vec n (updN g P V 4) = vec n (fun t => if t / (4 * L) = q ∧ t % L = k
      then ∑ v ∈ range 4, g (q * (4 * L) + k + v * L) * wi ^ v * (root 4 dir ^ 3) ^ (v * (t / L % 4))
      else g t) := by
    rw [hP, butterfly_writes hk (by norm_num), hV, hP]
    exact vec_ext (fun t _ => by simp only [and_comm])
  rw [← hw]
  have p0 : i0 = P 0 := by rw [e0, hP]
  have p1 : i1 = P 1 := by rw [e1, hP]
  have p2 : i2 = P 2 := by rw [e2, hP]
  have p3 : i3 = P 3 := by rw [e3, hP]
  rw [p0] at f0
  rw [p1] at f1
  rw [p2] at f2
  rw [p3] at f3
  obtain ⟨z1, z2, z3, z4, z6, z9⟩ := root4_pows dir
  unfold dit4Store
  dsimp only
  rw [wr_updN_first g P V p0 _ (hPb 0 (by norm_num)), bind_ok,
    wr_updN g P V p1 _ (hPb 1 (by norm_num)), bind_ok, wr_updN g P V p2 _ (hPb 2 (by norm_num)), bind_ok,
    wr_updN g P V p3 _ (hPb 3 (by norm_num))]
  all_goals simp only [hV, f0, f1, f2, f3, sum_range_succ, sum_range_zero, Nat.reduceMul, mul_zero,
      zero_mul, mul_one, one_mul, pow_zero, zero_add, z1, z2, z3, z4, z6, z9]
  all_goals ring

theorem dit4Tw_vec {b s k q : ℕ} (hs : s < b) (hk : k < 4 ^ s) (hq : (q + 1) * (4 * 4 ^ s) ≤ 4 ^ b)
    (dir : Direction) (g : ℕ → ℂ) :
    dit4Tw (root 4 dir) (r4Table b dir) (4 ^ (b - s - 1)) (q * (4 * 4 ^ s)) (4 ^ s) k (vec (4 ^ b) g)
      = .ok (vec (4 ^ b) (fun t => if t / (4 * 4 ^ s) = q ∧ t % 4 ^ s = k
      then ditF 4 (4 ^ s) (root (4 ^ (s + 1)) dir) (root 4 dir ^ 3) g t else g t)) := by
  have hb := fun u (hu : u < 4) => block_bound (n := 4 ^ b) hk hq hu
  have b0 := hb 0 (by norm_num)
  rw [zero_mul, add_zero] at b0
  unfold dit4Tw
  rw [r4Table_rd hs hk (by norm_num), bind_ok, r4Table_rd hs hk (by norm_num), bind_ok,
    r4Table_rd hs hk (by norm_num), bind_ok, rd_vec_ok b0, bind_ok, rd_vec_ok (hb 1 (by norm_num)), bind_ok,
    rd_vec_ok (hb 2 (by norm_num)), bind_ok, rd_vec_ok (hb 3 (by norm_num)), bind_ok,
    dit4Store_vec hk hq dir (root (4 ^ (s + 1)) dir ^ k) g (by ring) rfl rfl rfl rfl
      (by rw [Nat.one_mul k]) (by rw [← pow_mul, Nat.mul_comm k]) (by rw [← pow_mul, Nat.mul_comm k])]
  congr 1
  apply vec_ext
  intro t _
  by_cases h : t / (4 * 4 ^ s) = q ∧ t % 4 ^ s = k
  · rw [if_pos h, if_pos h]
    unfold ditF
    rw [h.1, h.2]
  · rw [if_neg h, if_neg h]

/-- The first butterfly of a block is the twiddled one with `k = 0`. -/
theorem dit4First_vec {b s q : ℕ} (hs : s < b) (hq : (q + 1) * (4 * 4 ^ s) ≤ 4 ^ b)
    (dir : Direction) (g : ℕ → ℂ) :
    dit4First (root 4 dir) (q * (4 * 4 ^ s)) (4 ^ s) (vec (4 ^ b) g)
      = dit4Tw (root 4 dir) (r4Table b dir) (4 ^ (b - s - 1)) (q * (4 * 4 ^ s)) (4 ^ s) 0 (vec (4 ^ b) g) := by
  have hk : 0 < 4 ^ s := by positivity
  rw [dit4Tw_vec hs hk hq]
  have hb := fun u (hu : u < 4) => block_bound (n := 4 ^ b) hk hq hu
  have b0 := hb 0 (by norm_num)
  simp only [zero_mul, add_zero] at b0
  have b1 := hb 1 (by norm_num)
  have b2 := hb 2 (by norm_num)
  have b3 := hb 3 (by norm_num)
  rw [add_zero] at b1 b2 b3
  unfold dit4First
  rw [rd_vec_ok b0, bind_ok, rd_vec_ok b1, bind_ok, rd_vec_ok b2, bind_ok, rd_vec_ok b3, bind_ok,
    dit4Store_vec hk hq dir 1 g (by ring) (by ring) (by ring) (by ring) rfl
      (by ring) (by ring) (by ring)]
  congr 1
  apply vec_ext
  intro t _
  by_cases h : t / (4 * 4 ^ s) = q ∧ t % 4 ^ s = 0
  · rw [if_pos h, if_pos h]
    unfold ditF
    rw [h.1, h.2, pow_zero]
  · rw [if_neg h, if_neg h]

theorem four_block {b s h : ℕ} (hs : s < b) (hh : h < 4 ^ (b - s - 1)) : (h + 1) * (4 * 4 ^ s) ≤ 4 ^ b := by
  have hn : 4 ^ b = 4 ^ (b - s - 1) * (4 * 4 ^ s) := by
    rw [← pow_succ', ← pow_add]; congr 1; omega
  rw [hn]
  exact Nat.mul_le_mul_right _ hh

theorem ditF_local {b s : ℕ} (hs : s < b) (w ζ : ℂ) (f g : ℕ → ℂ) (t : ℕ) (ht : t < 4 ^ b)
    (h : ∀ i' < 4 ^ b, i' / (4 * 4 ^ s) = t / (4 * 4 ^ s) → i' % 4 ^ s = t % 4 ^ s → f i' = g i') (v : ℕ)
    (hv : v ∈ range 4) :
    f (t / (4 * 4 ^ s) * (4 * 4 ^ s) + t % 4 ^ s + v * 4 ^ s)
      = g (t / (4 * 4 ^ s) * (4 * 4 ^ s) + t % 4 ^ s + v * 4 ^ s) := by
  have hL : 0 < 4 ^ s := by positivity
  have hv := mem_range.1 hv
  have d := (index_decomp (i := t / (4 * 4 ^ s) * (4 * 4 ^ s) + t % 4 ^ s + v * 4 ^ s)
    (L := 4 ^ s) (q := t / (4 * 4 ^ s)) (Nat.mod_lt t hL) hv).1 rfl
  refine h _ (block_bound (Nat.mod_lt t hL) ?_ hv) d.1 d.2.1
  apply four_block hs
  rw [Nat.div_lt_iff_lt_mul (by positivity)]
  have hn : 4 ^ b = 4 ^ (b - s - 1) * (4 * 4 ^ s) := by
    rw [← pow_succ', ← pow_add]; congr 1; omega
  omega

theorem four_div_lt {b s : ℕ} (hs : s < b) (t : ℕ) (ht : t < 4 ^ b) : t / (4 * 4 ^ s) < 4 ^ (b - s - 1) := by
  rw [Nat.div_lt_iff_lt_mul (by positivity)]
  have hn : 4 ^ b = 4 ^ (b - s - 1) * (4 * 4 ^ s) := by
    rw [← pow_succ', ← pow_add]; congr 1; omega
  omega

theorem dit4Stage_vec {b s : ℕ} (hs : s < b) (dir : Direction) (g : ℕ → ℂ) :
    dit4Stage (root 4 dir) (r4Table b dir)
      { x := vec (4 ^ b) g, length := 4 * 4 ^ s, wStride := 4 ^ (b - s - 1), krange := 4 ^ s,
        block := 4 ^ (b - s - 1) }
    = .ok { x := vec (4 ^ b) (ditF 4 (4 ^ s) (root (4 ^ (s + 1)) dir) (root 4 dir ^ 3) g),
            length := 4 * (4 * 4 ^ s), wStride := 4 ^ (b - s - 1) / 4, krange := 4 * 4 ^ s,
            block := 4 ^ (b - s - 1) / 4 } := by
  unfold dit4Stage
  dsimp only
  rw [Nat.mul_div_cancel_left _ (by norm_num : 0 < 4)]
  have hL : 0 < 4 ^ s := by positivity
  rw [forN_eq' (s' := (vec (4 ^ b) (ditF 4 (4 ^ s) (root (4 ^ (s + 1)) dir) (root 4 dir ^ 3) g),
      4 ^ (b - s - 1) * (4 * 4 ^ s)))
    (fun h => (vec (4 ^ b) (keyedSt (fun t => t / (4 * 4 ^ s)) (fun t => t % 4 ^ s)
      (ditF 4 (4 ^ s) (root (4 ^ (s + 1)) dir) (root 4 dir ^ 3)) g h 0), h * (4 * 4 ^ s)))]
  · rfl
  · rw [keyedSt_start, Nat.zero_mul]
  · rw [keyedSt_end _ _ _ (four_div_lt hs)]
  · intro h hh
    dsimp only
    have hq := four_block hs hh
    rw [dit4First_vec hs hq]
    have e := forN_succ_left (4 ^ s - 1) (fun k x => dit4Tw (root 4 dir) (r4Table b dir) (4 ^ (b - s - 1))
      (h * (4 * 4 ^ s)) (4 ^ s) k x) (vec (4 ^ b) (keyedSt (fun t => t / (4 * 4 ^ s))
        (fun t => t % 4 ^ s) (ditF 4 (4 ^ s) (root (4 ^ (s + 1)) dir) (root 4 dir ^ 3)) g h 0))
    rw [show 4 ^ s - 1 + 1 = 4 ^ s by omega] at e
    have hin := keyedInner (n := 4 ^ b) (B := 4 ^ s) (k1 := fun t => t / (4 * 4 ^ s)) (k2 := fun t => t % 4 ^ s)
      (F := ditF 4 (4 ^ s) (root (4 ^ (s + 1)) dir) (root 4 dir ^ 3)) g h (fun t _ => Nat.mod_lt _ hL)
      (fun f g t ht hfg => by
        unfold ditF
        exact sum_congr rfl (fun v hv => by rw [ditF_local hs 0 0 f g t ht hfg v hv]))
      (fun k hk f => dit4Tw_vec hs hk hq dir f)
    rw [e] at hin
    unfold forR
    simp only [Nat.add_comm 1]
    rw [← bind_assoc, hin, bind_ok, pure_eq_ok]
    congr 2
    ring

theorem dit4Kernel_vec {b : ℕ} (hb : 1 ≤ b) (dir : Direction) (X : ℕ → ℂ) :
    dit4Kernel (vec (4 ^ b) (fun i => X (digitRev 4 b i))) (r4Table b dir) b
      (if dir = .forward then -1 else 1)
      = .ok (vec (4 ^ b) (r4Dit dir b b X)) := by
  unfold dit4Kernel
  dsimp only
  rw [ipow_eq, length_vec]
  have hz : (⟨0, if dir = .forward then -1 else 1⟩ : ℂ) = root 4 dir := by
    rw [root4_eq]; rfl
  rw [hz, vec_ext (fun i _ => (r4Dit_zero dir b X i).symm)]
  have h4 : 4 ^ b / 4 = 4 ^ (b - 1) := by
    rw [show b = b - 1 + 1 by omega, pow_succ, Nat.mul_div_cancel _ (by norm_num)]; rfl
  rw [forN_eq' (fun s => Radix4State.mk (vec (4 ^ b) (r4Dit dir b s X)) (4 * 4 ^ s) (4 ^ (b - 1) / 4 ^ s)
      (4 ^ s) (4 ^ (b - 1) / 4 ^ s))
    (s' := Radix4State.mk (vec (4 ^ b) (r4Dit dir b b X)) (4 * 4 ^ b) (4 ^ (b - 1) / 4 ^ b) (4 ^ b)
      (4 ^ (b - 1) / 4 ^ b)) _ rfl]
  · rfl
  · intro s hs
    have hd : 4 ^ (b - 1) / 4 ^ s = 4 ^ (b - s - 1) := by
      rw [Nat.pow_div (by omega) (by norm_num)]; congr 1; omega
    have hst := dit4Stage_vec hs dir (r4Dit dir b s X)
    rw [← hd] at hst
    rw [hst]
    rw [Nat.div_div_eq_div_mul, ← pow_succ, ← pow_succ', vec_ext (fun i _ => r4Dit_succ hs dir X i)]
  · rw [h4]; simp

/-! ## Decimation in frequency -/

theorem dif4Butterfly_vec {b s k q : ℕ} (hs : s < b) (hk : k < 4 ^ s) (hq : (q + 1) * (4 * 4 ^ s) ≤ 4 ^ b)
    (dir : Direction) (g : ℕ → ℂ) :
    dif4Butterfly (root 4 dir) (r4Table b dir) (4 ^ (b - s - 1)) (q * (4 * 4 ^ s)) (4 ^ s) k (vec (4 ^ b) g)
      = .ok (vec (4 ^ b) (fun t => if t / (4 * 4 ^ s) = q ∧ t % 4 ^ s = k
      then difF 4 (4 ^ s) (root (4 ^ (s + 1)) dir) (root 4 dir ^ 3) g t else g t)) := by
  obtain ⟨P, hP⟩ : ∃ P : ℕ → ℕ, P = fun u => q * (4 * 4 ^ s) + k + u * 4 ^ s := ⟨_, rfl⟩
  have hPb : ∀ u < 4, P u < 4 ^ b := by
    intro u hu
    rw [hP]
    exact block_bound hk hq hu
  obtain ⟨V, hV⟩ : ∃ V : ℕ → ℂ, V = fun u => (∑ v ∈ range 4, g (P v) * (root 4 dir ^ 3) ^ (v * u))
      * root (4 ^ (s + 1)) dir ^ (u * k) := ⟨_, rfl⟩
  have hw : vec (4 ^ b) (updN g P V 4) = vec (4 ^ b) (fun t => if t / (4 * 4 ^ s) = q ∧ t % 4 ^ s = k
      then difF 4 (4 ^ s) (root (4 ^ (s + 1)) dir) (root 4 dir ^ 3) g t else g t) := by
    rw [hP, butterfly_writes hk (by norm_num), hV, hP]
    apply vec_ext
    intro t _
    by_cases h : t / (4 * 4 ^ s) = q ∧ t % 4 ^ s = k
    · rw [if_pos h, if_pos h.symm]
      unfold difF
      rw [h.1, h.2]
    · rw [if_neg h, if_neg (fun e => h e.symm)]
  rw [← hw]
  have p0 : q * (4 * 4 ^ s) + k = P 0 := by rw [hP]; ring
  have p1 : q * (4 * 4 ^ s) + k + 4 ^ s = P 1 := by rw [hP]; ring
  have p2 : q * (4 * 4 ^ s) + k + 2 * 4 ^ s = P 2 := by rw [hP]
  have p3 : q * (4 * 4 ^ s) + k + 3 * 4 ^ s = P 3 := by rw [hP]
  obtain ⟨z1, z2, z3, z4, z6, z9⟩ := root4_pows dir
  unfold dif4Butterfly
  dsimp only
  rw [p1, p2, p3, p0, rd_vec_ok (hPb 0 (by norm_num)), bind_ok, rd_vec_ok (hPb 1 (by norm_num)), bind_ok,
    rd_vec_ok (hPb 2 (by norm_num)), bind_ok, rd_vec_ok (hPb 3 (by norm_num)), bind_ok,
    wr_updN_first g P V rfl _ (hPb 0 (by norm_num)), bind_ok]
  · by_cases hk0 : k = 0
    · rw [if_pos hk0, wr_updN g P V rfl _ (hPb 1 (by norm_num)), bind_ok,
        wr_updN g P V rfl _ (hPb 2 (by norm_num)), bind_ok, wr_updN g P V rfl _ (hPb 3 (by norm_num))]
      all_goals simp only [hV, hk0, sum_range_succ, sum_range_zero, Nat.reduceMul, mul_zero,
        zero_mul, mul_one, one_mul, pow_zero, zero_add, z1, z2, z3, z4, z6, z9]
      all_goals ring
    · rw [if_neg hk0, r4Table_rd hs hk (by norm_num), bind_ok, r4Table_rd hs hk (by norm_num), bind_ok,
        r4Table_rd hs hk (by norm_num), bind_ok, wr_updN g P V rfl _ (hPb 1 (by norm_num)), bind_ok,
        wr_updN g P V rfl _ (hPb 2 (by norm_num)), bind_ok, wr_updN g P V rfl _ (hPb 3 (by norm_num))]
      all_goals simp only [hV, sum_range_succ, sum_range_zero, Nat.reduceMul, mul_zero,
        zero_mul, mul_one, one_mul, pow_zero, zero_add, z1, z2, z3, z4, z6, z9]
      all_goals ring
  · simp only [hV, sum_range_succ, sum_range_zero, Nat.reduceMul, mul_zero,
      zero_mul, mul_one, one_mul, pow_zero, zero_add]
    ring

theorem dif4Stage_vec {b s : ℕ} (hs : s < b) (dir : Direction) (g : ℕ → ℂ) :
    dif4Stage (root 4 dir) (r4Table b dir)
      { x := vec (4 ^ b) g, length := 4 * 4 ^ s, wStride := 4 ^ (b - s - 1), krange := 4 ^ s,
        block := 4 ^ (b - s - 1) }
    = .ok { x := vec (4 ^ b) (difF 4 (4 ^ s) (root (4 ^ (s + 1)) dir) (root 4 dir ^ 3) g),
            length := 4 ^ s, wStride := 4 ^ (b - s - 1) * 4, krange := 4 ^ s / 4,
            block := 4 ^ (b - s - 1) * 4 } := by
  unfold dif4Stage
  dsimp only
  rw [Nat.mul_div_cancel_left _ (by norm_num : 0 < 4)]
  have hL : 0 < 4 ^ s := by positivity
  rw [forN_eq' (s' := (vec (4 ^ b) (difF 4 (4 ^ s) (root (4 ^ (s + 1)) dir) (root 4 dir ^ 3) g),
      4 ^ (b - s - 1) * (4 * 4 ^ s)))
    (fun h => (vec (4 ^ b) (keyedSt (fun t => t / (4 * 4 ^ s)) (fun t => t % 4 ^ s)
      (difF 4 (4 ^ s) (root (4 ^ (s + 1)) dir) (root 4 dir ^ 3)) g h 0), h * (4 * 4 ^ s)))]
  · rfl
  · rw [keyedSt_start, Nat.zero_mul]
  · rw [keyedSt_end _ _ _ (four_div_lt hs)]
  · intro h hh
    dsimp only
    have hq := four_block hs hh
    have hin := keyedInner (n := 4 ^ b) (B := 4 ^ s) (k1 := fun t => t / (4 * 4 ^ s)) (k2 := fun t => t % 4 ^ s)
      (F := difF 4 (4 ^ s) (root (4 ^ (s + 1)) dir) (root 4 dir ^ 3)) g h (fun t _ => Nat.mod_lt _ hL)
      (fun f g t ht hfg => by
        unfold difF
        congr 1
        exact sum_congr rfl (fun v hv => by rw [ditF_local hs 0 0 f g t ht hfg v hv]))
      (fun k hk f => dif4Butterfly_vec hs hk hq dir f)
    rw [hin, bind_ok, pure_eq_ok]
    congr 2
    ring

theorem dif4Kernel_vec {b : ℕ} (hb : 1 ≤ b) (dir : Direction) (X : ℕ → ℂ) :
    dif4Kernel (vec (4 ^ b) X) (r4Table b dir) b (if dir = .forward then -1 else 1)
      = .ok (vec (4 ^ b) (r4Dif dir b b X)) := by
  unfold dif4Kernel
  dsimp only
  rw [ipow_eq]
  have hz : (⟨0, if dir = .forward then -1 else 1⟩ : ℂ) = root 4 dir := by
    rw [root4_eq]; rfl
  rw [hz, vec_ext (fun i (hi : i < 4 ^ b) => (r4Dif_zero dir X hi).symm)]
  have h4 : 4 ^ b / 4 = 4 ^ (b - 1) := by
    rw [show b = b - 1 + 1 by omega, pow_succ, Nat.mul_div_cancel _ (by norm_num)]; rfl
  rw [forN_eq' (fun s => Radix4State.mk (vec (4 ^ b) (r4Dif dir b s X)) (4 ^ (b - s)) (4 ^ s)
      (4 ^ (b - s) / 4) (4 ^ s))
    (s' := Radix4State.mk (vec (4 ^ b) (r4Dif dir b b X)) (4 ^ (b - b)) (4 ^ b) (4 ^ (b - b) / 4)
      (4 ^ b)) _ rfl]
  · rfl
  · intro s hs
    have hst := dif4Stage_vec (b := b) (s := b - s - 1) (by omega) dir (r4Dif dir b s X)
    have e1 : b - (b - s - 1) - 1 = s := by omega
    have e2 : 4 * 4 ^ (b - s - 1) = 4 ^ (b - s) := by rw [← pow_succ']; congr 1; omega
    have e3 : 4 ^ (b - s) / 4 = 4 ^ (b - s - 1) := by
      rw [← e2]; exact Nat.mul_div_cancel_left _ (by norm_num)
    have e4 : b - s - 1 + 1 = b - s := by omega
    rw [e1, e2, e4] at hst
    rw [e3, hst, vec_ext (fun i _ => r4Dif_succ hs dir X i), ← pow_succ]
    rfl
  · simp

/-! ## The plan -/

/-- The plan built by the constructor. -/
noncomputable def radix4PlanOf (b : ℕ) : Radix4Plan :=
  { order := b, reorder := vec (4 ^ b) (fun i => if i < 4 ^ b - 1 then digitRev 4 b i else 0),
    wFwd := r4Table b .forward, wBwd := r4Table b .backward }

theorem radix4Plan_make_eq {b : ℕ} (hb1 : 1 ≤ b) (hb : b ≤ 16) :
    Radix4Plan.make b = .ok (radix4PlanOf b) := by
  unfold Radix4Plan.make
  rw [ipow_eq, digitrevMake_eq (by norm_num), bind_ok, radix4Lut_eq hb1 hb, bind_ok, radix4Lut_eq hb1 hb,
    bind_ok]
  rfl

theorem radix4_call {b : ℕ} (hb1 : 1 ≤ b) (useDIT : Bool) (dir : Direction) (X : ℕ → ℂ) :
    (radix4PlanOf b).call useDIT (vec (4 ^ b) X) dir
      = .ok (vec (4 ^ b) (fun k => specDft dir (4 ^ b) (Spec.digitSigned b k X) k)) := by
  unfold Radix4Plan.call
  dsimp only
  have hw : (if dir = .forward then (radix4PlanOf b).wFwd else (radix4PlanOf b).wBwd) = r4Table b dir := by
    cases dir <;> rfl
  rw [hw]
  show (if useDIT = true then _ else _) = _
  cases useDIT with
  | true =>
    rw [if_pos rfl]
    show (digitrevApply (vec (4 ^ b) (fun i => if i < 4 ^ b - 1 then digitRev 4 b i else 0)) _ >>= _) = _
    rw [digitrev_plan (by norm_num), bind_ok]
    show dit4Kernel _ _ b _ = _
    rw [dit4Kernel_vec hb1, vec_ext (fun i hi => r4Dit_last dir b X hi)]
  | false =>
    rw [if_neg (by decide)]
    show (dif4Kernel _ _ b _ >>= _) = _
    rw [dif4Kernel_vec hb1, bind_ok]
    show digitrevApply (vec (4 ^ b) (fun i => if i < 4 ^ b - 1 then digitRev 4 b i else 0)) _ = _
    rw [digitrev_plan (by norm_num)]
    congr 1
    apply vec_ext
    intro i hi
    rw [r4Dif_last, digitRev_invol (by norm_num) hi]

end Neo
