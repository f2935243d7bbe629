import Verif.Spec.Radix4
import Verif.Lemmas.Radix

/-! # The transform computed by the radix-4 plans -/

namespace Neo

open Finset Spec

theorem digitDot_succ {s k t d u : ℕ} (hk : k < 4 ^ s) (hd : d < 4) (hu : u < 4) :
    digitDot (s + 1) (k + 4 ^ s * d) (t * 4 + u) = digitDot s k t + d * u := by
  unfold digitDot
  rw [sum_range_succ]
  congr 1
  · apply sum_congr rfl
    intro a ha
    have ha := mem_range.1 ha
    have h1 : (k + 4 ^ s * d) / 4 ^ a % 4 = k / 4 ^ a % 4 := by
      have e : 4 ^ s * d = 4 ^ a * (4 * (4 ^ (s - a - 1) * d)) := by
        rw [← mul_assoc, ← mul_assoc, ← pow_succ, ← pow_add]; congr 2; omega
      rw [e, Nat.add_mul_div_left _ _ (by positivity), Nat.add_mul_mod_self_left]
    have h2 : (t * 4 + u) / 4 ^ (s + 1 - 1 - a) % 4 = t / 4 ^ (s - 1 - a) % 4 := by
      have e : s + 1 - 1 - a = (s - 1 - a) + 1 := by omega
      rw [e, pow_succ', ← Nat.div_div_eq_div_mul]
      congr 2
      omega
    rw [h1, h2]
  · have h1 : (k + 4 ^ s * d) / 4 ^ s % 4 = d := by
      rw [Nat.add_mul_div_left _ _ (by positivity), Nat.div_eq_of_lt hk, zero_add,
        Nat.mod_eq_of_lt hd]
    rw [h1, show s + 1 - 1 - s = 0 by omega, pow_zero, Nat.div_one]
    congr 1
    omega

theorem digitDot_comm (b k n : ℕ) : digitDot b k n = digitDot b n k := by
  unfold digitDot
  rw [← sum_range_reflect]
  apply sum_congr rfl
  intro a ha
  have ha := mem_range.1 ha
  rw [show b - 1 - (b - 1 - a) = a by omega, mul_comm]

/-- Coefficient of sample `t` in bin `k` of a transform of `4 ^ s` samples. -/
noncomputable def r4c (dir : Direction) (s k t : ℕ) : ℂ :=
  root (4 ^ s) dir ^ (k * t) * (-1) ^ digitDot s k t

theorem r4c_zero (dir : Direction) (k : ℕ) : r4c dir 0 k 0 = 1 := by
  simp [r4c, digitDot]

theorem root_four_sq (dir : Direction) : root 4 dir ^ 2 = -1 :=
  root_half (N := 2) (by norm_num) dir

theorem r4c_succ (dir : Direction) {s k t d u : ℕ} (hk : k < 4 ^ s) (hd : d < 4) (hu : u < 4) :
    r4c dir (s + 1) (k + 4 ^ s * d) (t * 4 + u)
      = r4c dir s k t * root (4 ^ (s + 1)) dir ^ (k * u) * (root 4 dir ^ 3) ^ (d * u) := by
  unfold r4c
  rw [digitDot_succ hk hd hu]
  have h1 : root (4 ^ s) dir = root (4 ^ (s + 1)) dir ^ 4 := by
    have := root_pow_sub (R := 4) (b := s + 1) (s := s) (by norm_num) (by omega) dir
    rwa [show s + 1 - s = 1 by omega, pow_one] at this
  have h2 : root 4 dir = root (4 ^ (s + 1)) dir ^ 4 ^ s := by
    have := root_pow_sub (R := 4) (b := s + 1) (s := 1) (by norm_num) (by omega) dir
    rwa [pow_one, show s + 1 - 1 = s by omega] at this
  have h3 : root (4 ^ (s + 1)) dir ^ 4 ^ (s + 1) = 1 := root_pow_self (by positivity) dir
  have e : (k + 4 ^ s * d) * (t * 4 + u) = 4 * (k * t) + k * u + 4 ^ (s + 1) * (d * t) + 4 ^ s * (d * u) := by
    rw [pow_succ]; ring
  rw [e, pow_add, pow_add, pow_add, pow_mul _ 4 (k * t), ← h1, pow_mul _ (4 ^ (s + 1)), h3, one_pow, mul_one,
    pow_mul _ (4 ^ s), ← h2, pow_add, pow_succ (root 4 dir) 2, root_four_sq, mul_pow (-1)]
  ring

/-! ## Decimation in time -/

/-- State after `s` stages of decimation in time. -/
noncomputable def r4Dit (dir : Direction) (b s : ℕ) (X : ℕ → ℂ) (i : ℕ) : ℂ :=
  ∑ t ∈ range (4 ^ s), X (digitRev 4 (b - s) (i / 4 ^ s) + t * 4 ^ (b - s)) * r4c dir s (i % 4 ^ s) t

theorem r4Dit_zero (dir : Direction) (b : ℕ) (X : ℕ → ℂ) (i : ℕ) :
    r4Dit dir b 0 X i = X (digitRev 4 b i) := by
  simp [r4Dit, r4c_zero]

theorem r4_last (dir : Direction) (b : ℕ) (X : ℕ → ℂ) (k : ℕ) :
    ∑ t ∈ range (4 ^ b), X t * r4c dir b k t = specDft dir (4 ^ b) (digitSigned b k X) k := by
  rw [← dftRoot_dir]
  unfold Spec.dftRoot
  apply sum_congr rfl
  intro t _
  unfold r4c digitSigned
  rw [Nat.mul_comm k t]
  ring

theorem r4Dit_last (dir : Direction) (b : ℕ) (X : ℕ → ℂ) {i : ℕ} (hi : i < 4 ^ b) :
    r4Dit dir b b X i = specDft dir (4 ^ b) (digitSigned b i X) i := by
  rw [← r4_last]
  unfold r4Dit
  apply sum_congr rfl
  intro t _
  rw [Nat.mod_eq_of_lt hi]
  simp [digitRev]

theorem r4Dit_succ {b s : ℕ} (hs : s < b) (dir : Direction) (X : ℕ → ℂ) (i : ℕ) :
    ditF 4 (4 ^ s) (root (4 ^ (s + 1)) dir) (root 4 dir ^ 3) (r4Dit dir b s X) i
      = r4Dit dir b (s + 1) X i := by
  unfold ditF r4Dit
  have hL : 0 < 4 ^ s := by positivity
  rw [pow_succ 4 s, sum_range_mul', sum_comm]
  apply sum_congr rfl
  intro u hu
  have hu : u < 4 := mem_range.1 hu
  rw [sum_mul, sum_mul]
  apply sum_congr rfl
  intro t _
  have hk : i % (4 ^ s * 4) = i % 4 ^ s + 4 ^ s * (i / 4 ^ s % 4) := Nat.mod_mul
  rw [hk, r4c_succ dir (Nat.mod_lt _ hL) (Nat.mod_lt _ (by norm_num)) hu, Nat.mul_comm 4 (4 ^ s)]
  set L := 4 ^ s with hLdef
  set q := i / (L * 4) with hq
  have hM : 4 ^ (b - s) = 4 * 4 ^ (b - s - 1) := by
    rw [← pow_succ']; congr 1; omega
  have hM' : b - (s + 1) = b - s - 1 := by omega
  have e1 : (q * (L * 4) + i % L + u * L) / L = q * 4 + u := by
    rw [show q * (L * 4) + i % L + u * L = L * (q * 4 + u) + i % L by ring,
      Nat.mul_add_div hL, Nat.div_eq_of_lt (Nat.mod_lt _ hL), add_zero]
  have e2 : (q * (L * 4) + i % L + u * L) % L = i % L := by
    rw [show q * (L * 4) + i % L + u * L = L * (q * 4 + u) + i % L by ring,
      Nat.mul_add_mod, Nat.mod_mod]
  have e3 : digitRev 4 (b - s) (q * 4 + u) + t * 4 ^ (b - s)
      = digitRev 4 (b - (s + 1)) q + (t * 4 + u) * 4 ^ (b - (s + 1)) := by
    rw [show b - s = (b - s - 1) + 1 by omega, digitRev_mul_add _ _ _ hu, hM', pow_succ]
    ring
  rw [e1, e2, e3, pow_succ 4 s, ← pow_mul]
  ring

/-! ## Decimation in frequency -/

/-- What one decimation-in-frequency stage leaves at index `t`. -/
noncomputable def difF (R L : ℕ) (w ζ : ℂ) (g : ℕ → ℂ) (t : ℕ) : ℂ :=
  (∑ v ∈ range R, g (t / (R * L) * (R * L) + t % L + v * L) * ζ ^ (v * (t / L % R)))
    * w ^ ((t / L % R) * (t % L))

/-- State after `s` stages of decimation in frequency. -/
noncomputable def r4Dif (dir : Direction) (b s : ℕ) (X : ℕ → ℂ) (i : ℕ) : ℂ :=
  root (4 ^ b) dir ^ (digitRev 4 s (i / 4 ^ (b - s)) * (i % 4 ^ (b - s))) *
    ∑ v ∈ range (4 ^ s), X (i % 4 ^ (b - s) + v * 4 ^ (b - s)) * r4c dir s (digitRev 4 s (i / 4 ^ (b - s))) v

theorem r4Dif_zero (dir : Direction) {b : ℕ} (X : ℕ → ℂ) {i : ℕ} (hi : i < 4 ^ b) :
    r4Dif dir b 0 X i = X i := by
  simp [r4Dif, digitRev, r4c_zero, Nat.mod_eq_of_lt hi]

theorem r4Dif_last (dir : Direction) (b : ℕ) (X : ℕ → ℂ) (i : ℕ) :
    r4Dif dir b b X i = specDft dir (4 ^ b) (digitSigned b (digitRev 4 b i) X) (digitRev 4 b i) := by
  rw [← r4_last]
  simp [r4Dif, Nat.mod_one]

theorem r4Dif_succ {b s : ℕ} (hs : s < b) (dir : Direction) (X : ℕ → ℂ) (i : ℕ) :
    difF 4 (4 ^ (b - s - 1)) (root (4 ^ (b - s)) dir) (root 4 dir ^ 3) (r4Dif dir b s X) i
      = r4Dif dir b (s + 1) X i := by
  unfold difF r4Dif
  set M := 4 ^ (b - s - 1) with hM
  have hMpos : 0 < M := by positivity
  have h4M : 4 ^ (b - s) = 4 * M := by rw [hM, ← pow_succ']; congr 1; omega
  have hM' : 4 ^ (b - (s + 1)) = M := by rw [hM]; congr 1
  have hwb : root (4 ^ (b - s)) dir = root (4 ^ b) dir ^ 4 ^ s := by
    have := root_pow_sub (R := 4) (b := b) (s := b - s) (by norm_num) (by omega) dir
    rwa [show b - (b - s) = s by omega] at this
  have hws : root (4 ^ (s + 1)) dir = root (4 ^ b) dir ^ M := by
    have := root_pow_sub (R := 4) (b := b) (s := s + 1) (by norm_num) (by omega) dir
    rwa [show b - (s + 1) = b - s - 1 by omega] at this
  set t := i % M with ht
  set u := i / M % 4 with hu
  set h := i / (4 * M) with hh
  have hu4 : u < 4 := Nat.mod_lt _ (by norm_num)
  have htM : t < M := Nat.mod_lt _ hMpos
  have hiM : i / M = h * 4 + u := by
    have h2 : i / M / 4 = h := by rw [hh, Nat.div_div_eq_div_mul, Nat.mul_comm]
    omega
  have hK : digitRev 4 (s + 1) (i / M) = digitRev 4 s h + 4 ^ s * u := by
    rw [hiM, digitRev_mul_add _ _ _ hu4]; ring
  have hKlt : digitRev 4 s h < 4 ^ s := digitRev_lt (by norm_num) s h
  rw [hwb, hM', ← ht, hK, h4M]
  set K := digitRev 4 s h with hKdef
  set ω := root (4 ^ b) dir with hω
  have hpos : ∀ v < 4, (h * (4 * M) + t + v * M) / (4 * M) = h ∧
      (h * (4 * M) + t + v * M) % (4 * M) = t + v * M := by
    intro v hv
    have h1 : t + v * M < 4 * M := by
      have : (v + 1) * M ≤ 4 * M := Nat.mul_le_mul_right _ hv
      have e : (v + 1) * M = v * M + M := by ring
      omega
    have e : h * (4 * M) + t + v * M = 4 * M * h + (t + v * M) := by ring
    rw [e]
    exact ⟨by rw [Nat.mul_add_div (by omega), Nat.div_eq_of_lt h1, add_zero],
      by rw [Nat.mul_add_mod, Nat.mod_eq_of_lt h1]⟩
  rw [pow_succ 4 s, sum_range_mul', sum_comm, sum_mul, mul_sum]
  apply sum_congr rfl
  intro v hv
  have hv := mem_range.1 hv
  rw [(hpos v hv).1, (hpos v hv).2, mul_sum, mul_sum, sum_mul, sum_mul]
  apply sum_congr rfl
  intro n _
  rw [r4c_succ dir hKlt hu4 hv, hws]
  have e1 : t + v * M + n * (4 * M) = t + (n * 4 + v) * M := by ring
  rw [e1, ← pow_mul, ← pow_mul ω, Nat.mul_comm v u]
  have e2 : (K + 4 ^ s * u) * t = K * t + 4 ^ s * (u * t) := by ring
  have e3 : K * (t + v * M) = K * t + M * (K * v) := by ring
  rw [e2, e3, pow_add, pow_add]
  ring

/-! ## Stockham, decimation in time -/

/-- What one stage leaves at index `i`; `l` is the number of transforms merged. -/
noncomputable def stockDitF (R l r : ℕ) (w ζ : ℂ) (Y : ℕ → ℂ) (i : ℕ) : ℂ :=
  ∑ v ∈ range R, Y (i / r % l * (R * r) + r * v + i % r) * (w ^ (i / r % l)) ^ v
    * ζ ^ (v * (i / (l * r)))

/-- State after `s` stages. -/
noncomputable def r4Stock (dir : Direction) (b s : ℕ) (X : ℕ → ℂ) (i : ℕ) : ℂ :=
  ∑ t ∈ range (4 ^ s), X (t * 4 ^ (b - s) + i % 4 ^ (b - s)) * r4c dir s (i / 4 ^ (b - s)) t

theorem r4Stock_zero (dir : Direction) {b : ℕ} (X : ℕ → ℂ) {i : ℕ} (hi : i < 4 ^ b) :
    r4Stock dir b 0 X i = X i := by
  simp [r4Stock, r4c_zero, Nat.mod_eq_of_lt hi]

theorem r4Stock_last (dir : Direction) (b : ℕ) (X : ℕ → ℂ) (i : ℕ) :
    r4Stock dir b b X i = specDft dir (4 ^ b) (digitSigned b i X) i := by
  rw [← r4_last]
  simp [r4Stock, Nat.mod_one]

theorem r4Stock_succ {b s : ℕ} (hs : s < b) (dir : Direction) (X : ℕ → ℂ) {i : ℕ} (hi : i < 4 ^ b) :
    stockDitF 4 (4 ^ s) (4 ^ (b - s - 1)) (root (4 ^ (s + 1)) dir) (root 4 dir ^ 3) (r4Stock dir b s X) i
      = r4Stock dir b (s + 1) X i := by
  unfold stockDitF r4Stock
  set r := 4 ^ (b - s - 1) with hr
  have hrpos : 0 < r := by positivity
  have h4r : 4 ^ (b - s) = 4 * r := by rw [hr, ← pow_succ']; congr 1; omega
  have hr' : 4 ^ (b - (s + 1)) = r := by rw [hr]; congr 1
  have hL : 0 < 4 ^ s := by positivity
  rw [hr', h4r, pow_succ 4 s, sum_range_mul', sum_comm]
  apply sum_congr rfl
  intro u hu
  have hu : u < 4 := mem_range.1 hu
  set j := i / r % 4 ^ s with hj
  set k := i % r with hk
  have hd : i / (4 ^ s * r) < 4 := by
    rw [Nat.div_lt_iff_lt_mul (by positivity)]
    have : 4 ^ b = 4 * (4 ^ s * r) := by
      rw [hr, ← pow_add, ← pow_succ']; congr 1; omega
    omega
  have hir : i / r = j + 4 ^ s * (i / (4 ^ s * r)) := by
    rw [Nat.mul_comm (4 ^ s) r, ← Nat.div_div_eq_div_mul]
    exact (Nat.mod_add_div _ _).symm
  set d := i / (4 ^ s * r) with hdd
  have hkr : k < r := Nat.mod_lt _ hrpos
  have hb : r * u + k < 4 * r := by
    have : r * (u + 1) ≤ r * 4 := Nat.mul_le_mul_left _ hu
    have e : r * (u + 1) = r * u + r := by ring
    omega
  have e1 : (j * (4 * r) + r * u + k) / (4 * r) = j := by
    rw [show j * (4 * r) + r * u + k = 4 * r * j + (r * u + k) by ring, Nat.mul_add_div (by omega),
      Nat.div_eq_of_lt hb, add_zero]
  have e2 : (j * (4 * r) + r * u + k) % (4 * r) = r * u + k := by
    rw [show j * (4 * r) + r * u + k = 4 * r * j + (r * u + k) by ring, Nat.mul_add_mod,
      Nat.mod_eq_of_lt hb]
  rw [e1, e2, sum_mul, sum_mul]
  apply sum_congr rfl
  intro t _
  rw [hir, r4c_succ dir (Nat.mod_lt _ hL) hd hu, ← pow_mul]
  have e3 : t * (4 * r) + (r * u + k) = (t * 4 + u) * r + k := by ring
  rw [e3, Nat.mul_comm u d, pow_succ 4 s]
  ring

/-! ## Round trips -/

theorem r4c_orthogonal (b : ℕ) : ∀ m < 4 ^ b, ∀ n < 4 ^ b,
    ∑ k ∈ range (4 ^ b), r4c .backward b k m * r4c .forward b k n = if m = n then (4 : ℂ) ^ b else 0 := by
  induction b with
  | zero =>
    intro m hm n hn
    have hm : m = 0 := by simpa using hm
    have hn : n = 0 := by simpa using hn
    subst hm hn
    simp [r4c_zero]
  | succ s ih =>
    intro m hm n hn
    have hm' : m / 4 < 4 ^ s := by rw [pow_succ] at hm; omega
    have hn' : n / 4 < 4 ^ s := by rw [pow_succ] at hn; omega
    have em : m = m / 4 * 4 + m % 4 := by omega
    have en : n = n / 4 * 4 + n % 4 := by omega
    have hL : 0 < 4 ^ s := by positivity
    obtain ⟨m', hm0⟩ : ∃ m', m' = m / 4 := ⟨_, rfl⟩
    obtain ⟨n', hn0⟩ : ∃ n', n' = n / 4 := ⟨_, rfl⟩
    obtain ⟨u, hu0⟩ : ∃ u, u = m % 4 := ⟨_, rfl⟩
    obtain ⟨v, hv0⟩ : ∃ v, v = n % 4 := ⟨_, rfl⟩
    rw [← hm0] at em hm'
    rw [← hn0] at en hn'
    rw [← hu0] at em
    rw [← hv0] at en
    have hu : u < 4 := by omega
    have hv : v < 4 := by omega
    rw [pow_succ' 4 s, sum_range_mul']
    have hterm : ∀ d ∈ range 4, ∀ k ∈ range (4 ^ s),
        r4c .backward (s + 1) (d * 4 ^ s + k) m * r4c .forward (s + 1) (d * 4 ^ s + k) n
        = ((root 4 .backward ^ 3) ^ u * (root 4 .forward ^ 3) ^ v) ^ d *
          (r4c .backward s k m' * r4c .forward s k n' *
            (root (4 ^ (s + 1)) .backward ^ (k * u) * root (4 ^ (s + 1)) .forward ^ (k * v))) := by
      intro d hd k hk
      have hk := mem_range.1 hk
      have hd := mem_range.1 hd
      rw [show d * 4 ^ s + k = k + 4 ^ s * d by ring, em, en, r4c_succ _ hk hd hu, r4c_succ _ hk hd hv,
        mul_pow, ← pow_mul (root 4 .backward ^ 3), ← pow_mul (root 4 .forward ^ 3), Nat.mul_comm u d,
        Nat.mul_comm v d]
      ring
    rw [sum_congr rfl (fun d hd => sum_congr rfl (hterm d hd))]
    simp only [← mul_sum]
    rw [← sum_mul]
    by_cases huv : u = v
    · subst huv
      have h1 : ∀ k, root (4 ^ (s + 1)) .backward ^ (k * u) * root (4 ^ (s + 1)) .forward ^ (k * u) = 1 := by
        intro k
        rw [← mul_pow, mul_comm, root_forward_mul_backward, one_pow]
      have h2 : (root 4 .backward ^ 3) ^ u * (root 4 .forward ^ 3) ^ u = 1 := by
        rw [← mul_pow, ← mul_pow, mul_comm (root 4 .backward), root_forward_mul_backward, one_pow, one_pow]
      simp only [h1, h2, one_pow, mul_one]
      rw [ih m' hm' n' hn']
      by_cases hmn : m' = n'
      · rw [if_pos hmn, if_pos (by omega), pow_succ]
        simp [mul_comm]
      · rw [if_neg hmn, if_neg (by omega), mul_zero]
    · have hz : ∑ d ∈ range 4, ((root 4 .backward ^ 3) ^ u * (root 4 .forward ^ 3) ^ v) ^ d = 0 := by
        set i4 := root 4 .backward with hi4
        have hf : root 4 .forward ^ 3 = i4 := by
          have := root_pow_backward (R := 4) (k := 3) (by norm_num) (by norm_num)
          simpa using this
        have hsq : i4 ^ 2 = -1 := root_four_sq .backward
        have h3 : i4 ^ 3 = -i4 := by rw [pow_succ, hsq]; ring
        have h4 : i4 ^ 4 = 1 := by rw [show (4 : ℕ) = 2 * 2 by norm_num, pow_mul, hsq]; norm_num
        have p (k : ℕ) (r : ℕ) (hr : k % 4 = r) : i4 ^ k = i4 ^ r := by
          rw [← hr]; exact pow_eq_pow_mod k h4
        have p5 := (p 5 1 rfl).trans (pow_one _)
        have p6 := (p 6 2 rfl).trans hsq
        have p7 := (p 7 3 rfl).trans h3
        have p8 := (p 8 0 rfl).trans (pow_zero _)
        have p9 := (p 9 1 rfl).trans (pow_one _)
        have p10 := (p 10 2 rfl).trans hsq
        have p12 := (p 12 0 rfl).trans (pow_zero _)
        have p15 := (p 15 3 rfl).trans h3
        rw [hf, h3]
        simp only [sum_range_succ, sum_range_zero]
        interval_cases u <;> interval_cases v <;> first | omega | skip
        all_goals ring_nf
        all_goals simp only [p5, p6, p7, p8, p9, p10, p12, p15, h4, h3, hsq]
        all_goals ring
      rw [hz, zero_mul, if_neg]
      intro e
      apply huv
      omega

end Neo
