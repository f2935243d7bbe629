import Verif.Model.PyRadix4
import Verif.Lemmas.BitRev
import Verif.Lemmas.Radix4

/-! # Lemmas for `extra/snippet/radix4.py` -/

namespace Neo

open Finset

/-! ## The digit reversal with a seed table -/

/-- With the highest of `b + 1` digits zero, the lowest digit of the reversal is zero. -/
theorem digitRev_low {R : ℕ} (hR : 0 < R) (b i : ℕ) (h : i < R ^ b) : digitRev R (b + 1) i = R * digitRev R b i := by
  induction b generalizing i with
  | zero =>
    have : i = 0 := by simpa using h
    subst this
    simp [digitRev]
  | succ b ih =>
    have h1 : i / R < R ^ b := by
      rw [Nat.div_lt_iff_lt_mul hR, ← pow_succ]; exact h
    rw [digitRev, ih _ h1, digitRev, pow_succ]
    ring

theorem digitRev_low_pow {R : ℕ} (hR : 0 < R) (m d i : ℕ) (h : i < R ^ m) :
    digitRev R (m + d) i = R ^ d * digitRev R m i := by
  induction d with
  | zero => simp
  | succ d ih =>
    rw [← Nat.add_assoc, digitRev_low hR _ _ (lt_of_lt_of_le h (Nat.pow_le_pow_right hR (by omega))), ih, pow_succ]
    ring

theorem digitRev_append {R : ℕ} (hR : 0 < R) (b c q u : ℕ) (hu : u < R ^ c) :
    digitRev R (b + c) (q * R ^ c + u) = digitRev R c u * R ^ b + digitRev R b q := by
  induction c generalizing u with
  | zero =>
    have : u = 0 := by simpa using hu
    subst this
    simp [digitRev]
  | succ c ih =>
    have h1 : u / R < R ^ c := by
      rw [Nat.div_lt_iff_lt_mul hR, ← pow_succ]; exact hu
    have e : q * R ^ (c + 1) + u = (q * R ^ c + u / R) * R + u % R := by
      have := Nat.div_add_mod u R
      calc q * R ^ (c + 1) + u = q * R ^ (c + 1) + (R * (u / R) + u % R) := by rw [this]
        _ = _ := by rw [pow_succ]; ring
    rw [e, ← Nat.add_assoc, digitRev_mul_add _ _ _ (Nat.mod_lt _ hR), ih _ h1, digitRev, pow_add]
    ring

/-- The table that the two inner loops make of the entries below `R`. -/
def seedG (R : ℕ) (f : ℕ → ℕ) (i : ℕ) : ℕ :=
  if h : R ≤ 1 ∨ i < R then f i
  else seedG R f (i / R) / R + if i % R = 0 then 0 else f (i % R)
termination_by i
decreasing_by exact Nat.div_lt_self (by omega) (by omega)

theorem seedG_small {R : ℕ} (f : ℕ → ℕ) {i : ℕ} (h : i < R) : seedG R f i = f i := by
  rw [seedG, dif_pos (Or.inr h)]

theorem seedG_big {R : ℕ} (hR : 2 ≤ R) (f : ℕ → ℕ) {i j : ℕ} (hi : 1 ≤ i) (hj : j < R) :
    seedG R f (R * i + j) = seedG R f i / R + if j = 0 then 0 else f j := by
  have : R ≤ R * i := Nat.le_mul_of_pos_right R hi
  rw [seedG, dif_neg (by omega), Nat.mul_add_div (by omega), Nat.div_eq_of_lt hj, Nat.mul_add_mod,
    Nat.mod_eq_of_lt hj, Nat.add_zero]

theorem seedG_digitRev {R : ℕ} (hR : 2 ≤ R) (b : ℕ) (f : ℕ → ℕ) (hf : ∀ j < R, f j = j * R ^ b) (i : ℕ) :
    i < R ^ (b + 1) → seedG R f i = digitRev R (b + 1) i := by
  induction i using Nat.strong_induction_on with
  | _ i ih =>
    intro hi
    by_cases hs : i < R
    · rw [seedG_small f hs, hf i hs, digitRev, Nat.mod_eq_of_lt hs, Nat.div_eq_of_lt hs]
      have : ∀ c, digitRev R c 0 = 0 := by
        intro c
        induction c with
        | zero => rfl
        | succ c ihc => simp [digitRev, ihc]
      rw [this, Nat.add_zero]
    · have h1 : 1 ≤ i / R := (Nat.one_le_div_iff (by omega)).2 (by omega)
      have h2 : i / R < R ^ b := by
        rw [Nat.div_lt_iff_lt_mul (by omega), ← pow_succ]; exact hi
      have h3 : i / R < i := Nat.div_lt_self (by omega) (by omega)
      have h4 : i % R < R := Nat.mod_lt _ (by omega)
      have key := seedG_big hR f h1 h4
      rw [Nat.div_add_mod] at key
      rw [key, ih _ h3 (lt_of_lt_of_le h2 (Nat.pow_le_pow_right (by omega) (by omega))),
        digitRev_low (by omega) b _ h2, Nat.mul_div_cancel_left _ (by omega), digitRev, Nat.add_comm]
      congr 1
      split
      · rename_i h0; rw [h0, Nat.zero_mul]
      · exact hf _ h4

/-- The innermost loop. -/
theorem pySeedInner_vec {R n i : ℕ} (hi : 1 ≤ i) (hn : R * i + R ≤ n) (f : ℕ → ℕ) :
    pySeedInner R i (vec n f) = .ok (vec n (fun k =>
      if R * i < k ∧ k < R * i + R then f (R * i) + f (k - R * i) else f k)) := by
  unfold pySeedInner
  rcases Nat.lt_or_ge R 2 with h2 | h2
  · rw [forR, show R - 1 = 0 by omega, forN_zero]
    congr 1
    apply vec_ext
    intro k hk
    rw [if_neg (by omega)]
  have hRi : R ≤ R * i := Nat.le_mul_of_pos_right R hi
  apply forR_eq' (fun j => vec n (fun k => if R * i < k ∧ k < R * i + j then f (R * i) + f (k - R * i) else f k))
    (by omega)
  · apply vec_ext
    intro k hk
    rw [if_neg (by omega)]
  · rfl
  · intro j hj1 hj2
    rw [rd_vec_ok (by omega), bind_ok, rd_vec_ok (by omega), bind_ok, wr_vec_ok (by omega)]
    congr 1
    apply vec_ext
    intro k hk
    by_cases h : k = R * i + j
    · subst h
      rw [Function.update_self, if_neg (show ¬(R * i < R * i ∧ R * i < R * i + j) by omega),
        if_neg (show ¬(R * i < j ∧ j < R * i + j) by omega), if_pos (by omega), Nat.add_sub_cancel_left]
    · rw [Function.update_of_ne h]
      by_cases h3 : R * i < k ∧ k < R * i + j
      · rw [if_pos h3, if_pos (by omega)]
      · rw [if_neg h3, if_neg (by omega)]

/-- The loop over `i`. -/
theorem pySeedMiddle_vec {R n m : ℕ} (hR : 2 ≤ R) (hn : n = R * m) (hm : 1 ≤ m) (f : ℕ → ℕ) :
    forR 1 (n / R) (fun i rev => do
      let c ← rd rev i
      let rev ← wr rev (R * i) (c / R)
      pySeedInner R i rev) (vec n f) = .ok (vec n (seedG R f)) := by
  subst hn
  rw [Nat.mul_div_cancel_left _ (by omega)]
  apply forR_eq' (fun i => vec (R * m) (fun k => if k < R * i then seedG R f k else f k)) hm
  · apply vec_ext
    intro k hk
    split
    · rename_i h; rw [seedG_small f (by omega)]
    · rfl
  · apply vec_ext
    intro k hk
    rw [if_pos hk]
  · intro i hi1 hi2
    have hb : R * i + R ≤ R * m := by
      rw [← Nat.mul_succ]; exact Nat.mul_le_mul_left R hi2
    have hlt : i < R * i := by nlinarith
    have hR1 : R ≤ R * i := Nat.le_mul_of_pos_right R hi1
    rw [rd_vec_ok (by omega), bind_ok, wr_vec_ok (by omega), bind_ok, pySeedInner_vec hi1 hb]
    congr 1
    apply vec_ext
    intro k hk
    rw [if_pos hlt]
    by_cases h1 : k < R * i
    · rw [if_neg (by omega), Function.update_of_ne (by omega), if_pos h1, if_pos (by nlinarith)]
    · by_cases h2 : k < R * i + R
      · obtain ⟨j, rfl⟩ : ∃ j, k = R * i + j := ⟨k - R * i, by omega⟩
        have hj : j < R := by omega
        rw [if_pos (show R * i + j < R * (i + 1) by rw [Nat.mul_succ]; omega), seedG_big hR f hi1 hj,
          Function.update_self, Nat.add_sub_cancel_left]
        by_cases h0 : j = 0
        · subst h0
          rw [if_neg (by omega), if_pos rfl, Nat.add_zero, Nat.add_zero, Function.update_self]
        · rw [if_pos (by omega), if_neg h0, Function.update_of_ne (by omega), if_pos (by omega),
            seedG_small f hj]
      · rw [if_neg (by omega), Function.update_of_ne (by omega), if_neg h1,
          if_neg (by rw [Nat.mul_succ]; omega)]

/-- The seed table holds the reversals of the numbers below `R^m`. -/
theorem pySeedTable_vec {R : ℕ} (hR : 2 ≤ R) (m L : ℕ) (hm : 1 ≤ m) (hL : m ≤ L) :
    pySeedTable R (R ^ L) (R ^ m) = .ok (vec (R ^ m) (digitRev R L)) := by
  obtain ⟨b, rfl⟩ : ∃ b, L = b + 1 := ⟨L - 1, by omega⟩
  have hpos : R ≤ R ^ m := by
    calc R = R ^ 1 := (pow_one R).symm
      _ ≤ R ^ m := Nat.pow_le_pow_right (by omega) hm
  have hnm : R ^ m = R * R ^ (m - 1) := by rw [← pow_succ']; congr 1; omega
  have hdiv : R ^ (b + 1) / R = R ^ b := by rw [pow_succ, Nat.mul_div_cancel _ (by omega)]
  unfold pySeedTable
  dsimp only
  rw [hdiv, wr_vec_ok (by omega), bind_ok]
  have key := forN_inv (n := R - 1) (body := fun t rev => (do
      let a ← rd rev (1 + t - 1)
      let b ← rd rev 1
      let rev ← wr rev (1 + t) (a + b)
      forR 1 (R ^ m / R) (fun i rev => do
        let c ← rd rev i
        let rev ← wr rev (R * i) (c / R)
        pySeedInner R i rev) rev : Res (List ℕ)))
    (I := fun t rev => ∃ f : ℕ → ℕ, rev = vec (R ^ m) f ∧ f 0 = 0 ∧ f 1 = R ^ b ∧
      (∀ j ≤ t, j < R → f j = j * R ^ b) ∧ (t = R - 1 → ∀ i < R ^ m, f i = digitRev R (b + 1) i))
    (s := vec (R ^ m) (Function.update (fun _ => 0) 1 (R ^ b))) ?_ ?_
  · obtain ⟨r, hr, f, rfl, -, -, -, h5⟩ := key
    refine Eq.trans hr ?_
    congr 1
    exact vec_ext (h5 rfl)
  · refine ⟨_, rfl, by simp, by simp, ?_, by omega⟩
    intro j hj _
    have : j = 0 := by omega
    subst this
    simp
  · rintro t ht rev ⟨f, rfl, h0, h1, h2, -⟩
    rw [rd_vec_ok (by omega), bind_ok, rd_vec_ok (by omega), bind_ok, wr_vec_ok (by omega), bind_ok,
      pySeedMiddle_vec hR hnm (Nat.one_le_pow _ _ (by omega))]
    have hval : f (1 + t - 1) + f 1 = (1 + t) * R ^ b := by
      rw [h1, h2 _ (by omega) (by omega), Nat.add_sub_cancel_left]; ring
    have hsm : ∀ j ≤ t + 1, j < R → Function.update f (1 + t) (f (1 + t - 1) + f 1) j = j * R ^ b := by
      intro j hj hjR
      by_cases h : j = 1 + t
      · rw [h, Function.update_self, hval]
      · rw [Function.update_of_ne h, h2 j (by omega) hjR]
    refine ⟨_, rfl, _, rfl, ?_, ?_, ?_, ?_⟩
    · rw [seedG_small _ (by omega), hsm 0 (by omega) (by omega), Nat.zero_mul]
    · rw [seedG_small _ (by omega), hsm 1 (by omega) (by omega), Nat.one_mul]
    · intro j hj hjR
      rw [seedG_small _ hjR, hsm j hj hjR]
    · intro e i hi
      apply seedG_digitRev hR b _ (fun j hj => hsm j (by omega) hj)
      exact lt_of_lt_of_le hi (Nat.pow_le_pow_right (by omega) hL)

/-- With a table of one entry, the first assignment raises. -/
theorem pySeedTable_short (R length : ℕ) : pySeedTable R length 1 = .error .oob := by
  unfold pySeedTable
  rfl

/-! ### The swaps -/

/-- The position with low digits `i`, middle digits `z` and high digits the reversal of `j`. -/
def revPos (R m c : ℕ) (i j z : ℕ) : ℕ := i + R ^ m * (z + R ^ c * digitRev R m j)

theorem revPos_lt {R m c i j z : ℕ} (hR : 0 < R) (hi : i < R ^ m) (hz : z < R ^ c) :
    revPos R m c i j z < R ^ (m + c + m) := by
  have h1 := digitRev_lt hR m j
  have h2 : z + R ^ c * digitRev R m j < R ^ c * R ^ m := by
    calc z + R ^ c * digitRev R m j < R ^ c + R ^ c * digitRev R m j := by omega
      _ = R ^ c * (digitRev R m j + 1) := by ring
      _ ≤ R ^ c * R ^ m := Nat.mul_le_mul_left _ h1
  calc revPos R m c i j z < R ^ m + R ^ m * (z + R ^ c * digitRev R m j) := by unfold revPos; omega
    _ = R ^ m * (z + R ^ c * digitRev R m j + 1) := by ring
    _ ≤ R ^ m * (R ^ c * R ^ m) := Nat.mul_le_mul_left _ h2
    _ = R ^ (m + c + m) := by rw [pow_add, pow_add]; ring

/-- Coordinates of a position. -/
theorem revPos_coords {R m c i j z : ℕ} (hR : 0 < R) (hi : i < R ^ m) (hj : j < R ^ m) (hz : z < R ^ c) :
    revPos R m c i j z % R ^ m = i ∧ revPos R m c i j z / R ^ m % R ^ c = z ∧
    digitRev R m (revPos R m c i j z / R ^ m / R ^ c) = j := by
  have hp : 0 < R ^ m := by positivity
  have hc : 0 < R ^ c := by positivity
  unfold revPos
  have e : (i + R ^ m * (z + R ^ c * digitRev R m j)) / R ^ m = z + R ^ c * digitRev R m j := by
    rw [Nat.add_mul_div_left _ _ hp, Nat.div_eq_of_lt hi, Nat.zero_add]
  refine ⟨?_, ?_, ?_⟩
  · rw [Nat.add_mul_mod_self_left, Nat.mod_eq_of_lt hi]
  · rw [e, Nat.add_mul_mod_self_left, Nat.mod_eq_of_lt hz]
  · rw [e, Nat.add_mul_div_left _ _ hc, Nat.div_eq_of_lt hz, Nat.zero_add, digitRev_invol hR hj]

theorem revPos_surj {R m c p : ℕ} (hR : 0 < R) (hp : p < R ^ (m + c + m)) :
    p = revPos R m c (p % R ^ m) (digitRev R m (p / R ^ m / R ^ c)) (p / R ^ m % R ^ c) := by
  have h : p / R ^ m / R ^ c < R ^ m := by
    rw [Nat.div_div_eq_div_mul, Nat.div_lt_iff_lt_mul (by positivity), ← pow_add, ← pow_add]
    calc p < R ^ (m + c + m) := hp
      _ = R ^ (m + (m + c)) := by congr 1; omega
  unfold revPos
  rw [digitRev_invol hR h, Nat.mod_add_div, Nat.mod_add_div]

/-- Reversal exchanges the outer coordinates; the middle part has at most one digit. -/
theorem digitRev_revPos {R m c i j z : ℕ} (hR : 0 < R) (hc : c ≤ 1) (hi : i < R ^ m) (hj : j < R ^ m) (hz : z < R ^ c) :
    digitRev R (m + c + m) (revPos R m c i j z) = revPos R m c j i z := by
  have e : revPos R m c i j z = (digitRev R m j * R ^ c + z) * R ^ m + i := by unfold revPos; ring
  rw [e, digitRev_append hR _ _ _ _ hi, digitRev_append hR _ _ _ _ hz, digitRev_invol hR hj]
  have hz' : digitRev R c z = z := by
    rcases Nat.le_one_iff_eq_zero_or_eq_one.1 hc with rfl | rfl
    · have : z = 0 := by simpa using hz
      subst this; rfl
    · rw [pow_one] at hz
      simp [digitRev, Nat.mod_eq_of_lt hz]
  rw [hz']
  unfold revPos
  rw [pow_add]
  ring

/-- The swaps for one pair `(i, j)`. -/
theorem revPair_vec {α : Type} {R m c i j : ℕ} (hR : 0 < R) (hc : c ≤ 1) (hij : i < j) (hj : j < R ^ m)
    (f : ℕ → α) :
    forN (R ^ c) (fun z x => swap x (revPos R m c i j z) (revPos R m c j i z)) (vec (R ^ (m + c + m)) f)
      = .ok (vec (R ^ (m + c + m)) (fun p =>
        if min (p % R ^ m) (digitRev R m (p / R ^ m / R ^ c)) = i ∧
          max (p % R ^ m) (digitRev R m (p / R ^ m / R ^ c)) = j
        then f (digitRev R (m + c + m) p) else f p)) := by
  have hi : i < R ^ m := by omega
  apply forN_eq' (fun t => vec (R ^ (m + c + m)) (fun p =>
        if (min (p % R ^ m) (digitRev R m (p / R ^ m / R ^ c)) = i ∧
          max (p % R ^ m) (digitRev R m (p / R ^ m / R ^ c)) = j) ∧ p / R ^ m % R ^ c < t
        then f (digitRev R (m + c + m) p) else f p))
  · apply vec_ext
    intro p hp
    rw [if_neg (fun h => Nat.not_lt_zero _ h.2)]
  · apply vec_ext
    intro p hp
    have : p / R ^ m % R ^ c < R ^ c := Nat.mod_lt _ (by positivity)
    simp only [this, and_true]
  · intro z hz
    have hu := revPos_lt (j := j) hR hi hz
    have hv := revPos_lt (j := i) hR hj hz
    obtain ⟨u1, u2, u3⟩ := revPos_coords hR hi hj hz
    obtain ⟨v1, v2, v3⟩ := revPos_coords hR hj hi hz
    rw [swap_vec hu hv]
    congr 1
    apply vec_ext
    intro p hp
    by_cases hpv : p = revPos R m c j i z
    · rw [if_pos hpv, if_neg (by rw [u1, u2, u3]; omega), hpv, if_pos (by rw [v1, v2, v3]; omega),
        digitRev_revPos hR hc hj hi hz]
    · rw [if_neg hpv]
      by_cases hpu : p = revPos R m c i j z
      · rw [if_pos hpu, if_neg (by rw [v1, v2, v3]; omega), hpu, if_pos (by rw [u1, u2, u3]; omega),
          digitRev_revPos hR hc hi hj hz]
      · rw [if_neg hpu]
        have hs := revPos_surj hR hp
        by_cases h : (min (p % R ^ m) (digitRev R m (p / R ^ m / R ^ c)) = i ∧
          max (p % R ^ m) (digitRev R m (p / R ^ m / R ^ c)) = j) ∧ p / R ^ m % R ^ c < z
        · rw [if_pos h, if_pos (by omega)]
        · rw [if_neg h, if_neg]
          rintro ⟨⟨h1, h2⟩, h3⟩
          have h4 : p / R ^ m % R ^ c = z := by omega
          rw [h4] at hs
          rcases Nat.le_total (p % R ^ m) (digitRev R m (p / R ^ m / R ^ c)) with h5 | h5
          · rw [min_eq_left h5] at h1
            rw [max_eq_right h5] at h2
            rw [h1, h2] at hs
            exact hpu hs
          · rw [min_eq_right h5] at h1
            rw [max_eq_left h5] at h2
            rw [h1, h2] at hs
            exact hpv hs

/-- The double loop over all pairs. -/
theorem revSwaps_vec {α : Type} {R m c : ℕ} (hR : 0 < R) (hc : c ≤ 1)
    {body : ℕ → ℕ → List α → Res (List α)}
    (hbody : ∀ i j, i < j → j < R ^ m → ∀ f : ℕ → α, body i j (vec (R ^ (m + c + m)) f) =
      forN (R ^ c) (fun z x => swap x (revPos R m c i j z) (revPos R m c j i z)) (vec (R ^ (m + c + m)) f))
    (f : ℕ → α) :
    forN (R ^ m - 1) (fun i x => forR (i + 1) (R ^ m) (fun j x => body i j x) x) (vec (R ^ (m + c + m)) f)
      = .ok (vec (R ^ (m + c + m)) (fun p => f (digitRev R (m + c + m) p))) := by
  -- positions with equal outer coordinates are fixed
  have hfix : ∀ p < R ^ (m + c + m), p % R ^ m = digitRev R m (p / R ^ m / R ^ c) →
      digitRev R (m + c + m) p = p := by
    intro p hp h
    have hs := revPos_surj hR hp
    have h1 : p % R ^ m < R ^ m := Nat.mod_lt _ (by positivity)
    have h2 : p / R ^ m % R ^ c < R ^ c := Nat.mod_lt _ (by positivity)
    rw [← h] at hs
    have := digitRev_revPos hR hc h1 h1 h2
    rw [← hs] at this
    exact this
  apply forN_eq' (fun i => vec (R ^ (m + c + m)) (fun p =>
    if min (p % R ^ m) (digitRev R m (p / R ^ m / R ^ c)) < i then f (digitRev R (m + c + m) p) else f p))
  · apply vec_ext
    intro p hp
    rw [if_neg (Nat.not_lt_zero _)]
  · apply vec_ext
    intro p hp
    have h1 : p % R ^ m < R ^ m := Nat.mod_lt _ (by positivity)
    have h2 := digitRev_lt hR m (p / R ^ m / R ^ c)
    by_cases h : min (p % R ^ m) (digitRev R m (p / R ^ m / R ^ c)) < R ^ m - 1
    · rw [if_pos h]
    · rw [if_neg h, hfix p hp (by omega)]
  · intro i hi
    apply forR_eq' (fun j => vec (R ^ (m + c + m)) (fun p =>
      if min (p % R ^ m) (digitRev R m (p / R ^ m / R ^ c)) < i ∨
        (min (p % R ^ m) (digitRev R m (p / R ^ m / R ^ c)) = i ∧
          max (p % R ^ m) (digitRev R m (p / R ^ m / R ^ c)) < j)
      then f (digitRev R (m + c + m) p) else f p)) (by omega)
    · apply vec_ext
      intro p hp
      by_cases h : min (p % R ^ m) (digitRev R m (p / R ^ m / R ^ c)) < i
      · rw [if_pos h, if_pos (Or.inl h)]
      · rw [if_neg h]
        split
        · rw [hfix p hp (by omega)]
        · rfl
    · apply vec_ext
      intro p hp
      have h1 : p % R ^ m < R ^ m := Nat.mod_lt _ (by positivity)
      have h2 := digitRev_lt hR m (p / R ^ m / R ^ c)
      by_cases h : min (p % R ^ m) (digitRev R m (p / R ^ m / R ^ c)) < i + 1
      · rw [if_pos h, if_pos (by omega)]
      · rw [if_neg h, if_neg (by omega)]
    · intro j hj1 hj2
      rw [hbody i j (by omega) hj2, revPair_vec hR hc (by omega) hj2]
      congr 1
      apply vec_ext
      intro p hp
      by_cases h : min (p % R ^ m) (digitRev R m (p / R ^ m / R ^ c)) = i ∧
          max (p % R ^ m) (digitRev R m (p / R ^ m / R ^ c)) = j
      · have h1 : p % R ^ m < R ^ m := Nat.mod_lt _ (by positivity)
        have h2 := digitRev_lt hR m (p / R ^ m / R ^ c)
        have h3 : p / R ^ m % R ^ c < R ^ c := Nat.mod_lt _ (by positivity)
        have hs := digitRev_revPos hR hc h1 h2 h3
        rw [← revPos_surj hR hp] at hs
        obtain ⟨w1, w2, w3⟩ := revPos_coords (c := c) hR h2 h1 h3
        have hL : ¬(min (digitRev R (m + c + m) p % R ^ m)
              (digitRev R m (digitRev R (m + c + m) p / R ^ m / R ^ c)) < i ∨
            (min (digitRev R (m + c + m) p % R ^ m)
                (digitRev R m (digitRev R (m + c + m) p / R ^ m / R ^ c)) = i ∧
              max (digitRev R (m + c + m) p % R ^ m)
                (digitRev R m (digitRev R (m + c + m) p / R ^ m / R ^ c)) < j)) := by
          rw [hs, w1, w3]
          omega
        rw [if_pos h, if_neg hL, if_pos (by omega)]
      · rw [if_neg h]
        by_cases h5 : min (p % R ^ m) (digitRev R m (p / R ^ m / R ^ c)) < i ∨
          (min (p % R ^ m) (digitRev R m (p / R ^ m / R ^ c)) = i ∧
            max (p % R ^ m) (digitRev R m (p / R ^ m / R ^ c)) < j)
        · rw [if_pos h5, if_pos (by omega)]
        · rw [if_neg h5, if_neg (by omega)]

theorem pyDigitReversal_vec {α : Type} {R : ℕ} (hR : 2 ≤ R) (L : ℕ) (hL : 2 ≤ L) (f : ℕ → α) :
    pyDigitReversal (vec (R ^ L) f) R L (R ^ L) = .ok (vec (R ^ L) (fun i => f (digitRev R L i))) := by
  have hR0 : 0 < R := by omega
  obtain ⟨m, c, hm, hc, rfl, hpar⟩ : ∃ m c, 1 ≤ m ∧ c ≤ 1 ∧ L = m + c + m ∧ L % 2 = c := by
    exact ⟨L / 2, L % 2, by omega, by omega, by omega, rfl⟩
  have hn1 : (if (m + c + m) % 2 = 0 then Nat.sqrt (R ^ (m + c + m)) else Nat.sqrt (R ^ (m + c + m) / R)) = R ^ m := by
    rcases Nat.le_one_iff_eq_zero_or_eq_one.1 hc with rfl | rfl
    · rw [if_pos hpar, Nat.add_zero, pow_add, Nat.sqrt_eq]
    · rw [if_neg (by omega), show m + 1 + m = m + m + 1 by omega, pow_succ, Nat.mul_div_cancel _ hR0, pow_add,
        Nat.sqrt_eq]
  unfold pyDigitReversal
  simp only [length_vec, hn1]
  rw [check_decide_ok trivial, bind_ok, pySeedTable_vec hR m _ hm (by omega), bind_ok]
  apply revSwaps_vec hR0 hc
  intro i j hij hj g
  have hpos : ∀ a < R ^ m, ∀ b z, a + digitRev R (m + c + m) b + z * R ^ m = revPos R m c a b z ∨ R ^ m ≤ b := by
    intro a ha b z
    rcases Nat.lt_or_ge b (R ^ m) with hb | hb
    · left
      rw [show m + c + m = m + (m + c) by omega, digitRev_low_pow hR0 _ _ _ hb]
      unfold revPos
      rw [pow_add]; ring
    · exact Or.inr hb
  have hi : i < R ^ m := by omega
  have e1 : ∀ z, i + digitRev R (m + c + m) j + z * R ^ m = revPos R m c i j z := fun z =>
    (hpos i hi j z).resolve_right (by omega)
  have e2 : ∀ z, j + digitRev R (m + c + m) i + z * R ^ m = revPos R m c j i z := fun z =>
    (hpos j hj i z).resolve_right (by omega)
  have e10 := e1 0
  have e20 := e2 0
  rw [Nat.zero_mul, Nat.add_zero] at e10 e20
  simp only [rd_vec_ok hi, rd_vec_ok hj, bind_ok, e1, e2, e10, e20, hpar]
  rcases Nat.le_one_iff_eq_zero_or_eq_one.1 hc with rfl | rfl
  · rw [pow_zero, show (1 : ℕ) = 0 + 1 from rfl, forN_succ_left]
    apply bind_congr
    intro x
    rw [if_neg (by omega), forN_zero]
    rfl
  · simp only [if_true]
    obtain ⟨r, hr⟩ : ∃ r, R = r + 1 := ⟨R - 1, by omega⟩
    unfold forR
    rw [pow_one]
    conv_rhs => rw [show forN R = forN (R - 1 + 1) by congr 1; omega]
    rw [forN_succ_left]
    apply bind_congr
    intro x
    apply forN_congr
    intro z _ x
    have e3 : ∀ a b z, revPos R m 1 a b 0 + z * R ^ m = revPos R m 1 a b z := by
      intro a b z
      unfold revPos
      ring
    dsimp only
    rw [Nat.add_comm 1 z, e3, e3]

theorem pyDigitReversal_short {α : Type} {R : ℕ} (hR : 2 ≤ R) (L : ℕ) (hL : L ≤ 1) (x : List α)
    (hx : x.length = R ^ L) : pyDigitReversal x R L (R ^ L) = .error .oob := by
  have hn1 : (if L % 2 = 0 then Nat.sqrt (R ^ L) else Nat.sqrt (R ^ L / R)) = 1 := by
    rcases Nat.le_one_iff_eq_zero_or_eq_one.1 hL with rfl | rfl
    · simp
    · rw [if_neg (by norm_num), pow_one, Nat.div_self (by omega)]; rfl
  unfold pyDigitReversal
  simp only [hn1]
  rw [check_decide_ok hx, bind_ok, pySeedTable_short]
  rfl

/-! ## Passes -/

/-- The loop over the blocks of a pass, with the running base. -/
theorem passLoop {n R L m : ℕ} (hn : n = m * (R * L)) (hL : 0 < L) (hR : 0 < R) {F : (ℕ → ℂ) → ℕ → ℂ}
    (hF : ∀ (f g : ℕ → ℂ) (i : ℕ), i < n →
      (∀ i' < n, i' / (R * L) = i / (R * L) → i' % L = i % L → f i' = g i') → F f i = F g i)
    {bf : ℕ → ℕ → List ℂ → Res (List ℂ)}
    (hbf : ∀ q < m, ∀ k < L, ∀ f : ℕ → ℂ, bf (q * (R * L)) k (vec n f)
      = .ok (vec n (fun t => if t / (R * L) = q ∧ t % L = k then F f t else f t))) (g : ℕ → ℂ) :
    forN m (fun _ (xb : List ℂ × ℕ) => do
      let x ← forN L (fun k x => bf xb.2 k x) xb.1
      pure (x, xb.2 + R * L)) (vec n g, 0) = .ok (vec n (F g), m * (R * L)) := by
  have hRL : 0 < R * L := Nat.mul_pos hR hL
  apply forN_eq' (fun q => (vec n (keyedSt (fun t => t / (R * L)) (fun t => t % L) F g q 0), q * (R * L)))
  · rw [keyedSt_start, Nat.zero_mul]
  · rw [keyedSt_end]
    intro i hi
    rw [Nat.div_lt_iff_lt_mul hRL]; omega
  · intro q hq
    dsimp only
    rw [keyedInner (k1 := fun t => t / (R * L)) g q (fun i _ => Nat.mod_lt _ hL) hF (hbf q hq), bind_ok, pure_eq_ok]
    congr 2
    ring

/-- Both kinds of stage read only the elements of their own butterfly. -/
theorem stage_local {n R L m : ℕ} (hn : n = m * (R * L)) (hL : 0 < L) (hR : 0 < R) {f g : ℕ → ℂ} {t : ℕ} (ht : t < n)
    (h : ∀ i' < n, i' / (R * L) = t / (R * L) → i' % L = t % L → f i' = g i') {v : ℕ} (hv : v < R) :
    f (t / (R * L) * (R * L) + t % L + v * L) = g (t / (R * L) * (R * L) + t % L + v * L) := by
  have d := (index_decomp (i := t / (R * L) * (R * L) + t % L + v * L) (L := L) (q := t / (R * L))
    (Nat.mod_lt t hL) hv).1 rfl
  refine h _ (block_bound (Nat.mod_lt t hL) ?_ hv) d.1 d.2.1
  rw [hn]
  apply Nat.mul_le_mul_right
  have : t / (R * L) < m := by
    rw [Nat.div_lt_iff_lt_mul (Nat.mul_pos hR hL)]; omega
  exact this

theorem ditF_local' {n R L m : ℕ} (hn : n = m * (R * L)) (hL : 0 < L) (hR : 0 < R) (w ζ : ℂ) (f g : ℕ → ℂ) (t : ℕ)
    (ht : t < n) (h : ∀ i' < n, i' / (R * L) = t / (R * L) → i' % L = t % L → f i' = g i') :
    ditF R L w ζ f t = ditF R L w ζ g t := by
  unfold ditF
  exact sum_congr rfl (fun v hv => by rw [stage_local hn hL hR ht h (mem_range.1 hv)])

theorem difF_local' {n R L m : ℕ} (hn : n = m * (R * L)) (hL : 0 < L) (hR : 0 < R) (w ζ : ℂ) (f g : ℕ → ℂ) (t : ℕ)
    (ht : t < n) (h : ∀ i' < n, i' / (R * L) = t / (R * L) → i' % L = t % L → f i' = g i') :
    difF R L w ζ f t = difF R L w ζ g t := by
  unfold difF
  congr 1
  exact sum_congr rfl (fun v hv => by rw [stage_local hn hL hR ht h (mem_range.1 hv)])

/-- State after `s` stages of decimation in frequency. -/
noncomputable def difPartial (R b s : ℕ) (ω : ℂ) (X : ℕ → ℂ) (i : ℕ) : ℂ :=
  ∑ t ∈ range (R ^ s), X (i % R ^ (b - s) + t * R ^ (b - s)) *
    ω ^ ((i % R ^ (b - s) + t * R ^ (b - s)) * digitRev R s (i / R ^ (b - s)))

theorem difPartial_zero {R b : ℕ} (ω : ℂ) (X : ℕ → ℂ) {i : ℕ} (hi : i < R ^ b) : difPartial R b 0 ω X i = X i := by
  simp [difPartial, digitRev, Nat.mod_eq_of_lt hi]

theorem difPartial_last (R b : ℕ) (ω : ℂ) (X : ℕ → ℂ) (i : ℕ) :
    difPartial R b b ω X i = Spec.dftRoot (R ^ b) ω X (digitRev R b i) := by
  unfold difPartial Spec.dftRoot
  simp [Nat.mod_one]

/-- One stage of decimation in frequency. -/
theorem difF_difPartial {R b s : ℕ} (hR : 0 < R) (hs : s < b) (dir : Direction) (X : ℕ → ℂ) (i : ℕ) :
    difF R (R ^ (b - s - 1)) (root (R ^ (b - s)) dir) (root R dir) (difPartial R b s (root (R ^ b) dir) X) i
      = difPartial R b (s + 1) (root (R ^ b) dir) X i := by
  have hN : R ^ b ≠ 0 := by positivity
  have hω := root_pow_self hN dir
  unfold difF difPartial
  set M := R ^ (b - s - 1) with hM
  have hMpos : 0 < M := by positivity
  have hRM : R ^ (b - s) = R * M := by rw [hM, ← pow_succ']; congr 1; omega
  have hM' : R ^ (b - (s + 1)) = M := by rw [hM]; congr 1
  have hNM : R ^ b = R ^ s * (R * M) := by rw [← hRM, ← pow_add]; congr 1; omega
  have hw : root (R ^ (b - s)) dir = root (R ^ b) dir ^ R ^ s := by
    have := root_pow_sub (R := R) (b := b) (s := b - s) hR (by omega) dir
    rwa [show b - (b - s) = s by omega] at this
  have hζ : root R dir = root (R ^ b) dir ^ (R ^ s * M) := by
    have := root_pow_sub (b := b) (s := 1) hR (by omega) dir
    rw [pow_one] at this
    rw [this, hM, ← pow_add]
    congr 2; omega
  rw [hw, hζ, hM', hRM]
  set ω := root (R ^ b) dir with hωdef
  set t := i % M with ht
  set u := i / M % R with hu
  set h := i / (R * M) with hh
  have huR : u < R := Nat.mod_lt _ hR
  have htM : t < M := Nat.mod_lt _ hMpos
  have hiM : i / M = h * R + u := by
    have h2 : i / M / R = h := by rw [hh, Nat.div_div_eq_div_mul, Nat.mul_comm]
    rw [← h2, hu, Nat.mul_comm, Nat.div_add_mod]
  rw [hiM, digitRev_mul_add _ _ _ huR]
  have hpos : ∀ v < R, (h * (R * M) + t + v * M) / (R * M) = h ∧
      (h * (R * M) + t + v * M) % (R * M) = t + v * M := by
    intro v hv
    have h1 : t + v * M < R * M := by
      have : (v + 1) * M ≤ R * M := Nat.mul_le_mul_right _ hv
      rw [Nat.add_mul] at this
      omega
    constructor
    · rw [Nat.add_assoc, Nat.mul_comm h, Nat.mul_add_div (by positivity), Nat.div_eq_of_lt h1, Nat.add_zero]
    · rw [Nat.add_assoc, Nat.mul_comm h, Nat.mul_add_mod, Nat.mod_eq_of_lt h1]
  rw [pow_succ R s, sum_range_mul', sum_comm, sum_mul]
  apply sum_congr rfl
  intro v hv
  obtain ⟨p1, p2⟩ := hpos v (mem_range.1 hv)
  rw [p1, p2, sum_mul, sum_mul]
  apply sum_congr rfl
  intro a _
  have e1 : t + v * M + a * (R * M) = t + (a * R + v) * M := by ring
  rw [e1, ← pow_mul, ← pow_mul, mul_assoc, mul_assoc, ← pow_add, ← pow_add]
  congr 1
  have e2 : (t + (a * R + v) * M) * (u * R ^ s + digitRev R s h)
      = ((t + (a * R + v) * M) * digitRev R s h + (R ^ s * M * (v * u) + R ^ s * (u * t))) + R ^ b * (a * u) := by
    rw [hNM]; ring
  rw [e2, pow_add _ _ (R ^ b * (a * u)), pow_mul ω (R ^ b), hω, one_pow, mul_one]

/-! ## Tables -/

theorem pyTwiddles_eq (kmax length : ℕ) :
    pyTwiddles kmax length = vec (kmax + 1) (fun k => root length .forward ^ k) := by
  unfold pyTwiddles
  apply vec_ext
  intro k _
  rw [root_pow_eq]
  congr 1
  simp
  ring

theorem pyTwiddles4_rd {b s k c : ℕ} (hs : s < b) (hk : k < 4 ^ s) (hc : c ≤ 3) :
    rd (pyTwiddles4 (4 ^ b)) (c * k * 4 ^ (b - s - 1)) = .ok ((root (4 ^ (s + 1)) .forward ^ k) ^ c) := by
  have h4 : 4 ^ b = 4 * 4 ^ (b - 1) := by rw [← pow_succ']; congr 1; omega
  have hpos : 0 < 4 ^ (b - 1) := by positivity
  have hM : 4 ^ (b - 1) = 4 ^ s * 4 ^ (b - s - 1) := by rw [← pow_add]; congr 1; omega
  have hMpos : 0 < 4 ^ (b - s - 1) := by positivity
  have h1 : (k + 1) * 4 ^ (b - s - 1) ≤ 4 ^ s * 4 ^ (b - s - 1) := Nat.mul_le_mul_right _ hk
  have h2 : c * k * 4 ^ (b - s - 1) ≤ 3 * (k * 4 ^ (b - s - 1)) := by
    rw [mul_assoc]; exact Nat.mul_le_mul_right _ hc
  have h3 : (k + 1) * 4 ^ (b - s - 1) = k * 4 ^ (b - s - 1) + 4 ^ (b - s - 1) := by ring
  have hq : 4 ^ b / 4 = 4 ^ (b - 1) := by omega
  unfold pyTwiddles4
  rw [pyTwiddles_eq, hq, rd_vec_ok (by omega)]
  have hw := root_pow_sub (R := 4) (b := b) (s := s + 1) (by norm_num) (by omega) .forward
  rw [hw, ← pow_mul, ← pow_mul, show b - (s + 1) = b - s - 1 by omega]
  congr 2
  ring

theorem pyTwTimes_eq {b s k : ℕ} (hs : s < b) (hk : k < 2 ^ s) (v : ℂ) :
    pyTwTimes (pyTwiddles2 (2 ^ b)) (2 ^ (b - s - 1)) k v = .ok (v * root (2 ^ (s + 1)) .forward ^ k) := by
  have h4 : 2 ^ b = 2 * 2 ^ (b - 1) := by rw [← pow_succ']; congr 1; omega
  have hpos : 0 < 2 ^ (b - 1) := by positivity
  have hM : 2 ^ (b - 1) = 2 ^ s * 2 ^ (b - s - 1) := by rw [← pow_add]; congr 1; omega
  have hMpos : 0 < 2 ^ (b - s - 1) := by positivity
  have h1 : (k + 1) * 2 ^ (b - s - 1) ≤ 2 ^ s * 2 ^ (b - s - 1) := Nat.mul_le_mul_right _ hk
  have h3 : (k + 1) * 2 ^ (b - s - 1) = k * 2 ^ (b - s - 1) + 2 ^ (b - s - 1) := by ring
  have hq : 2 ^ b / 2 = 2 ^ (b - 1) := by omega
  unfold pyTwTimes pyTwiddles2
  by_cases h0 : k = 0
  · rw [if_pos h0, h0, pow_zero, mul_one]; rfl
  · rw [if_neg h0, pyTwiddles_eq, hq, rd_vec_ok (by omega), bind_ok, pure_eq_ok]
    have hw := root_pow_sub (R := 2) (b := b) (s := s + 1) (by norm_num) (by omega) .forward
    rw [hw, ← pow_mul, show b - (s + 1) = b - s - 1 by omega]
    congr 3
    ring

/-! ## Butterflies -/

theorem root4_forward : root 4 .forward = -Complex.I := by
  rw [root4_eq]
  apply Complex.ext <;> simp [signedI]

theorem root2_forward : root 2 .forward = -1 := by
  have := root_half (N := 1) (by norm_num) .forward
  simpa using this

theorem negI_pows : (-Complex.I) ^ 1 = -Complex.I ∧ (-Complex.I) ^ 2 = -1 ∧ (-Complex.I) ^ 3 = Complex.I ∧
    (-Complex.I) ^ 4 = 1 ∧ (-Complex.I) ^ 6 = -1 ∧ (-Complex.I) ^ 9 = -Complex.I := by
  have h2 : (-Complex.I) ^ 2 = -1 := by rw [neg_sq, Complex.I_sq]
  have h4 : (-Complex.I) ^ 4 = 1 := by rw [show (4 : ℕ) = 2 * 2 by norm_num, pow_mul, h2]; norm_num
  refine ⟨pow_one _, h2, ?_, h4, ?_, ?_⟩
  · rw [show (3 : ℕ) = 2 + 1 by norm_num, pow_succ, h2]; ring
  · rw [show (6 : ℕ) = 4 + 2 by norm_num, pow_add, h4, h2]; ring
  · rw [show (9 : ℕ) = 4 + 4 + 1 by norm_num, pow_add, pow_add, h4]; ring

theorem pyDif4Butterfly_vec {b s k q : ℕ} (hs : s < b) (hk : k < 4 ^ s) (hq : (q + 1) * (4 * 4 ^ s) ≤ 4 ^ b)
    (g : ℕ → ℂ) :
    pyDif4Butterfly (pyTwiddles4 (4 ^ b)) (4 ^ (b - s - 1)) (4 * 4 ^ s) (q * (4 * 4 ^ s)) k (vec (4 ^ b) g)
      = .ok (vec (4 ^ b) (fun t => if t / (4 * 4 ^ s) = q ∧ t % 4 ^ s = k
      then difF 4 (4 ^ s) (root (4 ^ (s + 1)) .forward) (root 4 .forward) g t else g t)) := by
  obtain ⟨P, hP⟩ : ∃ P : ℕ → ℕ, P = fun u => q * (4 * 4 ^ s) + k + u * 4 ^ s := ⟨_, rfl⟩
  have hPb : ∀ u < 4, P u < 4 ^ b := by
    intro u hu
    rw [hP]
    exact block_bound hk hq hu
  obtain ⟨w, hw'⟩ : ∃ w, w = root (4 ^ (s + 1)) .forward := ⟨_, rfl⟩
  obtain ⟨V, hV⟩ : ∃ V : ℕ → ℂ, V = fun u => (∑ v ∈ range 4, g (P v) * (-Complex.I) ^ (v * u))
      * w ^ (u * k) := ⟨_, rfl⟩
  have hw : vec (4 ^ b) (updN g P V 4) = vec (4 ^ b) (fun t => if t / (4 * 4 ^ s) = q ∧ t % 4 ^ s = k
      then difF 4 (4 ^ s) (root (4 ^ (s + 1)) .forward) (root 4 .forward) g t else g t) := by
    rw [hP, butterfly_writes hk (by norm_num), hV, hP]
    apply vec_ext
    intro t _
    by_cases h : t / (4 * 4 ^ s) = q ∧ t % 4 ^ s = k
    · rw [if_pos h, if_pos h.symm]
      unfold difF
      rw [h.1, h.2, root4_forward, hw']
    · rw [if_neg h, if_neg (fun e => h e.symm)]
  rw [← hw]
  have p0 : q * (4 * 4 ^ s) + k = P 0 := by rw [hP]; ring
  have p1 : q * (4 * 4 ^ s) + k + 4 ^ s = P 1 := by rw [hP]; ring
  have p2 : q * (4 * 4 ^ s) + k + 2 * 4 ^ s = P 2 := by rw [hP]
  have p3 : q * (4 * 4 ^ s) + k + 3 * 4 ^ s = P 3 := by rw [hP]
  obtain ⟨z1, z2, z3, z4, z6, z9⟩ := negI_pows
  unfold pyDif4Butterfly
  dsimp only
  rw [Nat.mul_div_cancel_left _ (by norm_num : 0 < 4), p1, p2, p3, p0, rd_vec_ok (hPb 0 (by norm_num)), bind_ok,
    rd_vec_ok (hPb 2 (by norm_num)), bind_ok, rd_vec_ok (hPb 1 (by norm_num)), bind_ok,
    rd_vec_ok (hPb 3 (by norm_num)), bind_ok, wr_updN_first g P V rfl _ (hPb 0 (by norm_num)), bind_ok]
  · by_cases hk0 : k = 0
    · rw [if_pos hk0, wr_updN g P V rfl _ (hPb 1 (by norm_num)), bind_ok,
        wr_updN g P V rfl _ (hPb 2 (by norm_num)), bind_ok, wr_updN g P V rfl _ (hPb 3 (by norm_num))]
      all_goals simp only [hV, hk0, sum_range_succ, sum_range_zero, Nat.reduceMul, mul_zero,
        zero_mul, mul_one, one_mul, pow_zero, zero_add, z1, z2, z3, z4, z6, z9]
      all_goals ring
    · have r1 := pyTwiddles4_rd hs hk (c := 1) (by norm_num)
      rw [Nat.one_mul] at r1
      rw [if_neg hk0, r1, bind_ok, pyTwiddles4_rd hs hk (by norm_num), bind_ok,
        pyTwiddles4_rd hs hk (by norm_num), bind_ok, ← hw', wr_updN g P V rfl _ (hPb 1 (by norm_num)), bind_ok,
        wr_updN g P V rfl _ (hPb 2 (by norm_num)), bind_ok, wr_updN g P V rfl _ (hPb 3 (by norm_num))]
      all_goals simp only [hV, sum_range_succ, sum_range_zero, Nat.reduceMul, mul_zero,
        zero_mul, mul_one, one_mul, pow_zero, zero_add, z1, z2, z3, z4, z6, z9]
      all_goals ring
  · simp only [hV, sum_range_succ, sum_range_zero, Nat.reduceMul, mul_zero,
      zero_mul, mul_one, one_mul, pow_zero, zero_add]
    ring

theorem pyDit4Butterfly_vec {b s k q : ℕ} (hs : s < b) (hk : k < 4 ^ s) (hq : (q + 1) * (4 * 4 ^ s) ≤ 4 ^ b)
    (g : ℕ → ℂ) :
    pyDit4Butterfly (pyTwiddles4 (4 ^ b)) (4 ^ (b - s - 1)) (4 * 4 ^ s) (q * (4 * 4 ^ s)) k (vec (4 ^ b) g)
      = .ok (vec (4 ^ b) (fun t => if t / (4 * 4 ^ s) = q ∧ t % 4 ^ s = k
      then ditF 4 (4 ^ s) (root (4 ^ (s + 1)) .forward) (root 4 .forward) g t else g t)) := by
  obtain ⟨P, hP⟩ : ∃ P : ℕ → ℕ, P = fun u => q * (4 * 4 ^ s) + k + u * 4 ^ s := ⟨_, rfl⟩
  have hPb : ∀ u < 4, P u < 4 ^ b := by
    intro u hu
    rw [hP]
    exact block_bound hk hq hu
  obtain ⟨w, hw'⟩ : ∃ w, w = root (4 ^ (s + 1)) .forward := ⟨_, rfl⟩
  obtain ⟨V, hV⟩ : ∃ V : ℕ → ℂ, V = fun u => ∑ v ∈ range 4, g (P v) * (w ^ k) ^ v * (-Complex.I) ^ (v * u) :=
    ⟨_, rfl⟩
  have hw : vec (4 ^ b) (updN g P V 4) = vec (4 ^ b) (fun t => if t / (4 * 4 ^ s) = q ∧ t % 4 ^ s = k
      then ditF 4 (4 ^ s) (root (4 ^ (s + 1)) .forward) (root 4 .forward) g t else g t) := by
    rw [hP, butterfly_writes hk (by norm_num), hV, hP]
    apply vec_ext
    intro t _
    by_cases h : t / (4 * 4 ^ s) = q ∧ t % 4 ^ s = k
    · rw [if_pos h, if_pos h.symm]
      unfold ditF
      rw [h.1, h.2, root4_forward, hw']
    · rw [if_neg h, if_neg (fun e => h e.symm)]
  rw [← hw]
  have p0 : q * (4 * 4 ^ s) + k = P 0 := by rw [hP]; ring
  have p1 : q * (4 * 4 ^ s) + k + 4 ^ s = P 1 := by rw [hP]; ring
  have p2 : q * (4 * 4 ^ s) + k + 2 * 4 ^ s = P 2 := by rw [hP]
  have p3 : q * (4 * 4 ^ s) + k + 3 * 4 ^ s = P 3 := by rw [hP]
  obtain ⟨z1, z2, z3, z4, z6, z9⟩ := negI_pows
  have hop : pyDit4Operands (pyTwiddles4 (4 ^ b)) (4 ^ (b - s - 1)) k (P 1) (P 2) (P 3) (vec (4 ^ b) g)
      = .ok (g (P 1) * w ^ k, g (P 2) * (w ^ k) ^ 2, g (P 3) * (w ^ k) ^ 3) := by
    unfold pyDit4Operands
    by_cases hk0 : k = 0
    · rw [if_pos hk0, rd_vec_ok (hPb 1 (by norm_num)), bind_ok, rd_vec_ok (hPb 2 (by norm_num)), bind_ok,
        rd_vec_ok (hPb 3 (by norm_num)), bind_ok, pure_eq_ok]
      simp [hk0]
    · have r1 := pyTwiddles4_rd hs hk (c := 1) (by norm_num)
      rw [Nat.one_mul] at r1
      rw [if_neg hk0, r1, bind_ok, pyTwiddles4_rd hs hk (by norm_num), bind_ok,
        pyTwiddles4_rd hs hk (by norm_num), bind_ok, ← hw', rd_vec_ok (hPb 1 (by norm_num)), bind_ok,
        rd_vec_ok (hPb 2 (by norm_num)), bind_ok, rd_vec_ok (hPb 3 (by norm_num)), bind_ok, pure_eq_ok, pow_one]
  unfold pyDit4Butterfly
  dsimp only
  rw [Nat.mul_div_cancel_left _ (by norm_num : 0 < 4), p1, p2, p3, p0, hop, bind_ok,
    rd_vec_ok (hPb 0 (by norm_num)), bind_ok, wr_updN_first g P V rfl _ (hPb 0 (by norm_num)), bind_ok,
    wr_updN g P V rfl _ (hPb 1 (by norm_num)), bind_ok, wr_updN g P V rfl _ (hPb 2 (by norm_num)), bind_ok,
    wr_updN g P V rfl _ (hPb 3 (by norm_num))]
  all_goals simp only [hV, sum_range_succ, sum_range_zero, Nat.reduceMul, mul_zero,
      zero_mul, mul_one, one_mul, pow_zero, zero_add, z1, z2, z3, z4, z6, z9]
  all_goals ring

theorem pyDif2Butterfly_vec {b s k q : ℕ} (hs : s < b) (hk : k < 2 ^ s) (hq : (q + 1) * (2 * 2 ^ s) ≤ 2 ^ b)
    (g : ℕ → ℂ) :
    pyDif2Butterfly (pyTwiddles2 (2 ^ b)) (2 ^ (b - s - 1)) (q * (2 * 2 ^ s)) (q * (2 * 2 ^ s) + 2 ^ s) k
      (vec (2 ^ b) g)
      = .ok (vec (2 ^ b) (fun t => if t / (2 * 2 ^ s) = q ∧ t % 2 ^ s = k
      then difF 2 (2 ^ s) (root (2 ^ (s + 1)) .forward) (root 2 .forward) g t else g t)) := by
  obtain ⟨P, hP⟩ : ∃ P : ℕ → ℕ, P = fun u => q * (2 * 2 ^ s) + k + u * 2 ^ s := ⟨_, rfl⟩
  have hPb : ∀ u < 2, P u < 2 ^ b := by
    intro u hu
    rw [hP]
    exact block_bound hk hq hu
  obtain ⟨w, hw'⟩ : ∃ w, w = root (2 ^ (s + 1)) .forward := ⟨_, rfl⟩
  obtain ⟨V, hV⟩ : ∃ V : ℕ → ℂ, V = fun u => (∑ v ∈ range 2, g (P v) * (-1) ^ (v * u)) * w ^ (u * k) := ⟨_, rfl⟩
  have hw : vec (2 ^ b) (updN g P V 2) = vec (2 ^ b) (fun t => if t / (2 * 2 ^ s) = q ∧ t % 2 ^ s = k
      then difF 2 (2 ^ s) (root (2 ^ (s + 1)) .forward) (root 2 .forward) g t else g t) := by
    rw [hP, butterfly_writes hk (by norm_num), hV, hP]
    apply vec_ext
    intro t _
    by_cases h : t / (2 * 2 ^ s) = q ∧ t % 2 ^ s = k
    · rw [if_pos h, if_pos h.symm]
      unfold difF
      rw [h.1, h.2, root2_forward, hw']
    · rw [if_neg h, if_neg (fun e => h e.symm)]
  rw [← hw]
  have p0 : q * (2 * 2 ^ s) + k = P 0 := by rw [hP]; ring
  have p1 : q * (2 * 2 ^ s) + 2 ^ s + k = P 1 := by rw [hP]; ring
  unfold pyDif2Butterfly
  dsimp only
  rw [p1, p0, rd_vec_ok (hPb 0 (by norm_num)), bind_ok, rd_vec_ok (hPb 1 (by norm_num)), bind_ok,
    pyTwTimes_eq hs hk, bind_ok, wr_updN_first g P V rfl _ (hPb 0 (by norm_num)), bind_ok, ← hw',
    wr_updN g P V rfl _ (hPb 1 (by norm_num))]
  all_goals simp only [hV, sum_range_succ, sum_range_zero, Nat.reduceMul, mul_zero,
      zero_mul, mul_one, one_mul, pow_zero, zero_add, pow_one]
  all_goals ring

theorem pyDit2Butterfly_vec {b s k q : ℕ} (hs : s < b) (hk : k < 2 ^ s) (hq : (q + 1) * (2 * 2 ^ s) ≤ 2 ^ b)
    (g : ℕ → ℂ) :
    pyDit2Butterfly (pyTwiddles2 (2 ^ b)) (2 ^ (b - s - 1)) (q * (2 * 2 ^ s)) (q * (2 * 2 ^ s) + 2 ^ s) k
      (vec (2 ^ b) g)
      = .ok (vec (2 ^ b) (fun t => if t / (2 * 2 ^ s) = q ∧ t % 2 ^ s = k
      then ditF 2 (2 ^ s) (root (2 ^ (s + 1)) .forward) (root 2 .forward) g t else g t)) := by
  obtain ⟨P, hP⟩ : ∃ P : ℕ → ℕ, P = fun u => q * (2 * 2 ^ s) + k + u * 2 ^ s := ⟨_, rfl⟩
  have hPb : ∀ u < 2, P u < 2 ^ b := by
    intro u hu
    rw [hP]
    exact block_bound hk hq hu
  obtain ⟨w, hw'⟩ : ∃ w, w = root (2 ^ (s + 1)) .forward := ⟨_, rfl⟩
  obtain ⟨V, hV⟩ : ∃ V : ℕ → ℂ, V = fun u => ∑ v ∈ range 2, g (P v) * (w ^ k) ^ v * (-1) ^ (v * u) := ⟨_, rfl⟩
  have hw : vec (2 ^ b) (updN g P V 2) = vec (2 ^ b) (fun t => if t / (2 * 2 ^ s) = q ∧ t % 2 ^ s = k
      then ditF 2 (2 ^ s) (root (2 ^ (s + 1)) .forward) (root 2 .forward) g t else g t) := by
    rw [hP, butterfly_writes hk (by norm_num), hV, hP]
    apply vec_ext
    intro t _
    by_cases h : t / (2 * 2 ^ s) = q ∧ t % 2 ^ s = k
    · rw [if_pos h, if_pos h.symm]
      unfold ditF
      rw [h.1, h.2, root2_forward, hw']
    · rw [if_neg h, if_neg (fun e => h e.symm)]
  rw [← hw]
  have p0 : q * (2 * 2 ^ s) + k = P 0 := by rw [hP]; ring
  have p1 : q * (2 * 2 ^ s) + 2 ^ s + k = P 1 := by rw [hP]; ring
  unfold pyDit2Butterfly
  rw [p1, p0, rd_vec_ok (hPb 1 (by norm_num)), bind_ok, pyTwTimes_eq hs hk, bind_ok,
    rd_vec_ok (hPb 0 (by norm_num)), bind_ok, wr_updN_first g P V rfl _ (hPb 0 (by norm_num)), bind_ok, ← hw',
    wr_updN g P V rfl _ (hPb 1 (by norm_num))]
  all_goals simp only [hV, ← hw', sum_range_succ, sum_range_zero, Nat.reduceMul, mul_zero,
      zero_mul, mul_one, one_mul, pow_zero, zero_add, pow_one]
  all_goals ring

/-! ## The transforms -/

/-- The four passes on a block size `R·L`. -/
theorem pyDif4Pass_vec {b s : ℕ} (hs : s < b) (g : ℕ → ℂ) :
    pyDif4Pass (pyTwiddles4 (4 ^ b)) ⟨vec (4 ^ b) g, 4 * 4 ^ s, 4 ^ (b - s - 1), 4 ^ s, 4 ^ (b - s - 1)⟩
      = .ok ⟨vec (4 ^ b) (difF 4 (4 ^ s) (root (4 ^ (s + 1)) .forward) (root 4 .forward) g), 4 ^ s,
        4 ^ (b - s - 1) * 4, 4 ^ s / 4, 4 ^ (b - s - 1) * 4⟩ := by
  have hn : 4 ^ b = 4 ^ (b - s - 1) * (4 * 4 ^ s) := by rw [← pow_succ', ← pow_add]; congr 1; omega
  unfold pyDif4Pass
  dsimp only
  rw [passLoop (F := difF 4 (4 ^ s) (root (4 ^ (s + 1)) .forward) (root 4 .forward)) hn (by positivity) (by norm_num)
    (difF_local' hn (by positivity) (by norm_num) _ _), bind_ok, pure_eq_ok,
    Nat.mul_div_cancel_left _ (by norm_num : 0 < 4)]
  intro q hq k hk f
  apply pyDif4Butterfly_vec hs hk
  rw [hn]
  exact Nat.mul_le_mul_right _ hq

theorem pyDit4Pass_vec {b s : ℕ} (hs : s < b) (g : ℕ → ℂ) :
    pyDit4Pass (pyTwiddles4 (4 ^ b)) ⟨vec (4 ^ b) g, 4 * 4 ^ s, 4 ^ (b - s - 1), 4 ^ s, 4 ^ (b - s - 1)⟩
      = .ok ⟨vec (4 ^ b) (ditF 4 (4 ^ s) (root (4 ^ (s + 1)) .forward) (root 4 .forward) g), 4 * (4 * 4 ^ s),
        4 ^ (b - s - 1) / 4, 4 * 4 ^ s, 4 ^ (b - s - 1) / 4⟩ := by
  have hn : 4 ^ b = 4 ^ (b - s - 1) * (4 * 4 ^ s) := by rw [← pow_succ', ← pow_add]; congr 1; omega
  unfold pyDit4Pass
  dsimp only
  rw [passLoop (F := ditF 4 (4 ^ s) (root (4 ^ (s + 1)) .forward) (root 4 .forward)) hn (by positivity) (by norm_num)
    (ditF_local' hn (by positivity) (by norm_num) _ _), bind_ok, pure_eq_ok]
  intro q hq k hk f
  apply pyDit4Butterfly_vec hs hk
  rw [hn]
  exact Nat.mul_le_mul_right _ hq

theorem pyDif2Pass_vec {b s : ℕ} (hs : s < b) (c : ℕ) (g : ℕ → ℂ) :
    pyDif2Pass (pyTwiddles2 (2 ^ b)) ⟨vec (2 ^ b) g, 2 * 2 ^ s, 2 ^ (b - s - 1), c, 2 ^ (b - s - 1)⟩
      = .ok ⟨vec (2 ^ b) (difF 2 (2 ^ s) (root (2 ^ (s + 1)) .forward) (root 2 .forward) g), 2 ^ s,
        2 * 2 ^ (b - s - 1), c, 2 ^ (b - s - 1) * 2⟩ := by
  have hn : 2 ^ b = 2 ^ (b - s - 1) * (2 * 2 ^ s) := by rw [← pow_succ', ← pow_add]; congr 1; omega
  unfold pyDif2Pass
  dsimp only
  rw [Nat.mul_div_cancel_left _ (by norm_num : 0 < 2)]
  rw [passLoop (F := difF 2 (2 ^ s) (root (2 ^ (s + 1)) .forward) (root 2 .forward))
    (bf := fun base k x => pyDif2Butterfly (pyTwiddles2 (2 ^ b)) (2 ^ (b - s - 1)) base (base + 2 ^ s) k x)
    hn (by positivity) (by norm_num)
    (difF_local' hn (by positivity) (by norm_num) _ _), bind_ok, pure_eq_ok]
  intro q hq k hk f
  apply pyDif2Butterfly_vec hs hk
  rw [hn]
  exact Nat.mul_le_mul_right _ hq

theorem pyDit2Pass_vec {b s : ℕ} (hs : s < b) (c : ℕ) (g : ℕ → ℂ) :
    pyDit2Pass (pyTwiddles2 (2 ^ b)) ⟨vec (2 ^ b) g, 2 * 2 ^ s, 2 ^ (b - s - 1), c, 2 ^ (b - s - 1)⟩
      = .ok ⟨vec (2 ^ b) (ditF 2 (2 ^ s) (root (2 ^ (s + 1)) .forward) (root 2 .forward) g), 2 * 2 ^ s * 2,
        2 ^ (b - s - 1) / 2, c, 2 ^ (b - s - 1) / 2⟩ := by
  have hn : 2 ^ b = 2 ^ (b - s - 1) * (2 * 2 ^ s) := by rw [← pow_succ', ← pow_add]; congr 1; omega
  unfold pyDit2Pass
  dsimp only
  rw [Nat.mul_div_cancel_left _ (by norm_num : 0 < 2)]
  rw [passLoop (F := ditF 2 (2 ^ s) (root (2 ^ (s + 1)) .forward) (root 2 .forward))
    (bf := fun base k x => pyDit2Butterfly (pyTwiddles2 (2 ^ b)) (2 ^ (b - s - 1)) base (base + 2 ^ s) k x)
    hn (by positivity) (by norm_num)
    (ditF_local' hn (by positivity) (by norm_num) _ _), bind_ok, pure_eq_ok]
  intro q hq k hk f
  apply pyDit2Butterfly_vec hs hk
  rw [hn]
  exact Nat.mul_le_mul_right _ hq

theorem difStage_next {R b j : ℕ} (hR : 0 < R) (hj : j < b) (X : ℕ → ℂ) :
    difF R (R ^ (b - j - 1)) (root (R ^ (b - j - 1 + 1)) .forward) (root R .forward)
      (difPartial R b j (root (R ^ b) .forward) X) = difPartial R b (j + 1) (root (R ^ b) .forward) X := by
  funext i
  rw [show b - j - 1 + 1 = b - j by omega]
  exact difF_difPartial hR hj .forward X i

theorem pyDifFft4_vec (b : ℕ) (X : ℕ → ℂ) :
    pyDifFft4 (vec (4 ^ b) X) (pyTwiddles4 (4 ^ b)) b
      = .ok (vec (4 ^ b) (fun i => Spec.dftRoot (4 ^ b) (root (4 ^ b) .forward) X (digitRev 4 b i))) := by
  unfold pyDifFft4
  dsimp only
  rw [forN_eq' (fun j => (⟨vec (4 ^ b) (difPartial 4 b j (root (4 ^ b) .forward) X), 4 ^ (b - j), 4 ^ j,
    4 ^ (b - j) / 4, 4 ^ j⟩ : PyPass)) ?_ rfl ?_, bind_ok, pure_eq_ok]
  · exact congrArg _ (vec_ext (fun i _ => difPartial_last 4 b _ X i))
  · rw [vec_ext (fun i hi => difPartial_zero (root (4 ^ b) .forward) X hi), Nat.sub_zero, pow_zero]
  · intro j hj
    have e : 4 ^ (b - j) = 4 * 4 ^ (b - j - 1) := by rw [← pow_succ']; congr 1; omega
    have e2 : b - (b - j - 1) - 1 = j := by omega
    have := pyDif4Pass_vec (b := b) (s := b - j - 1) (by omega) (difPartial 4 b j (root (4 ^ b) .forward) X)
    rw [e2, difStage_next (by norm_num) hj] at this
    rw [e, Nat.mul_div_cancel_left _ (by norm_num : 0 < 4), this, pow_succ, show b - (j + 1) = b - j - 1 by omega]

theorem pyFft4_vec (b : ℕ) (X : ℕ → ℂ) :
    pyFft4 (vec (4 ^ b) (fun i => X (digitRev 4 b i))) (pyTwiddles4 (4 ^ b)) b
      = .ok (vec (4 ^ b) (Spec.dftRoot (4 ^ b) (root (4 ^ b) .forward) X)) := by
  unfold pyFft4
  rw [length_vec]
  rw [forN_eq' (fun s => (⟨vec (4 ^ b) (ditPartial 4 b s (root (4 ^ b) .forward) X), 4 * 4 ^ s,
    if s < b then 4 ^ (b - s - 1) else if b = 0 then 1 else 0, 4 ^ s,
    if s < b then 4 ^ (b - s - 1) else 0⟩ : PyPass)) ?_ rfl ?_, bind_ok, pure_eq_ok]
  · exact congrArg _ (vec_ext (fun i hi => ditPartial_last 4 b _ X hi))
  · rw [vec_ext (fun i _ => ditPartial_zero 4 b (root (4 ^ b) .forward) X i)]
    rcases Nat.eq_zero_or_pos b with h | h
    · subst h; rfl
    · have e : 4 ^ b = 4 * 4 ^ (b - 1) := by rw [← pow_succ']; congr 1; omega
      rw [if_pos h, if_pos h, Nat.sub_zero, pow_zero, show 4 ^ b / 4 = 4 ^ (b - 1) by omega, Nat.mul_one]
  · intro s hs
    rw [if_pos hs, if_pos hs, pyDit4Pass_vec hs]
    congr 2
    · exact vec_ext (fun i _ => ditF_ditPartial (by norm_num) hs .forward X i)
    · rw [pow_succ']
    · split_ifs with h1 h2
      · have e : 4 ^ (b - s - 1) = 4 * 4 ^ (b - (s + 1) - 1) := by rw [← pow_succ']; congr 1; omega
        omega
      · omega
      · rw [show b - s - 1 = 0 by omega]; rfl
    · rw [pow_succ']
    · split_ifs with h1
      · have e : 4 ^ (b - s - 1) = 4 * 4 ^ (b - (s + 1) - 1) := by rw [← pow_succ']; congr 1; omega
        omega
      · rw [show b - s - 1 = 0 by omega]; rfl

theorem pyDifFft2_vec (b : ℕ) (X : ℕ → ℂ) :
    pyDifFft2 (vec (2 ^ b) X) (pyTwiddles2 (2 ^ b)) b
      = .ok (vec (2 ^ b) (fun i => Spec.dftRoot (2 ^ b) (root (2 ^ b) .forward) X (digitRev 2 b i))) := by
  unfold pyDifFft2
  rw [length_vec]
  rw [forN_eq' (fun j => (⟨vec (2 ^ b) (difPartial 2 b j (root (2 ^ b) .forward) X), 2 ^ (b - j), 2 ^ j,
    0, 2 ^ j⟩ : PyPass)) ?_ rfl ?_, bind_ok, pure_eq_ok]
  · exact congrArg _ (vec_ext (fun i _ => difPartial_last 2 b _ X i))
  · rw [vec_ext (fun i hi => difPartial_zero (root (2 ^ b) .forward) X hi), Nat.sub_zero, pow_zero]
  · intro j hj
    have e : 2 ^ (b - j) = 2 * 2 ^ (b - j - 1) := by rw [← pow_succ']; congr 1; omega
    have e2 : b - (b - j - 1) - 1 = j := by omega
    have := pyDif2Pass_vec (b := b) (s := b - j - 1) (by omega) 0 (difPartial 2 b j (root (2 ^ b) .forward) X)
    rw [e2, difStage_next (by norm_num) hj] at this
    rw [e, this, pow_succ, show b - (j + 1) = b - j - 1 by omega, Nat.mul_comm 2]

theorem pyFft2_vec {b : ℕ} (hb : 0 < b) (X : ℕ → ℂ) :
    pyFft2 (vec (2 ^ b) (fun i => X (digitRev 2 b i))) (pyTwiddles2 (2 ^ b)) b
      = .ok (vec (2 ^ b) (Spec.dftRoot (2 ^ b) (root (2 ^ b) .forward) X)) := by
  unfold pyFft2
  rw [length_vec]
  rw [forN_eq' (fun s => (⟨vec (2 ^ b) (ditPartial 2 b s (root (2 ^ b) .forward) X), 2 * 2 ^ s,
    if s < b then 2 ^ (b - s - 1) else 0, 0,
    if s < b then 2 ^ (b - s - 1) else 0⟩ : PyPass)) ?_ rfl ?_, bind_ok, pure_eq_ok]
  · exact congrArg _ (vec_ext (fun i hi => ditPartial_last 2 b _ X hi))
  · rw [vec_ext (fun i _ => ditPartial_zero 2 b (root (2 ^ b) .forward) X i)]
    have e : 2 ^ b = 2 * 2 ^ (b - 1) := by rw [← pow_succ']; congr 1; omega
    rw [if_pos hb, Nat.sub_zero, pow_zero, show 2 ^ b / 2 = 2 ^ (b - 1) by omega, Nat.mul_one]
  · intro s hs
    have e3 : 2 ^ (b - s - 1) / 2 = if s + 1 < b then 2 ^ (b - (s + 1) - 1) else 0 := by
      split_ifs with h1
      · have e : 2 ^ (b - s - 1) = 2 * 2 ^ (b - (s + 1) - 1) := by rw [← pow_succ']; congr 1; omega
        omega
      · rw [show b - s - 1 = 0 by omega]; rfl
    rw [if_pos hs, pyDit2Pass_vec hs, e3]
    congr 2
    · exact vec_ext (fun i _ => ditF_ditPartial (by norm_num) hs .forward X i)
    · rw [pow_succ]; ring

end Neo
