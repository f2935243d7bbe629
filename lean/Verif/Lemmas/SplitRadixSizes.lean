import Verif.Lemmas.SplitRadix

/-! # The split-radix recursion for sizes that are not powers of two -/

namespace Neo

open Complex

/-- One butterfly, for any size: what it leaves alone, and the sums it preserves. -/
theorem splitRadixButterfly_gen {Lo oo n k : ℕ} (hn : 4 ≤ n) (hk : k < n / 4) (hL : oo + n ≤ Lo) (f g : ℂ → ℂ)
    (o : ℕ → ℂ) :
    ∃ o', splitRadixButterfly oo n (3 * n / 4) k f g (vec Lo o) = .ok (vec Lo o') ∧
      o' (oo + k) + o' (oo + (k + n / 2)) = 2 * o (oo + k) ∧
      o' (oo + (k + n / 4)) + o' (oo + (k + 3 * n / 4)) = 2 * o (oo + (k + n / 4)) ∧
      ∀ i, i ≠ oo + k → i ≠ oo + (k + n / 2) → i ≠ oo + (k + n / 4) → i ≠ oo + (k + 3 * n / 4) → o' i = o i := by
  obtain ⟨q, hq⟩ : ∃ q, q = n / 4 := ⟨_, rfl⟩
  obtain ⟨h, hh⟩ : ∃ h, h = n / 2 := ⟨_, rfl⟩
  obtain ⟨r, hr⟩ : ∃ r, r = 3 * n / 4 := ⟨_, rfl⟩
  have h1 : 1 ≤ q := by omega
  have h2 : 2 * q ≤ h := by omega
  have h3 : h + q ≤ r := by omega
  have h4 : r + q ≤ n := by omega
  rw [← hq] at hk
  unfold splitRadixButterfly
  rw [← hq, ← hh, ← hr, rd_vec_ok (by omega), bind_ok,
    rd_vec_ok (by omega), bind_ok, rd_vec_ok (by omega), bind_ok, rd_vec_ok (by omega), bind_ok,
    wr_vec_ok (by omega), bind_ok, wr_vec_ok (by omega), bind_ok, wr_vec_ok (by omega), bind_ok,
    wr_vec_ok (by omega)]
  refine ⟨_, rfl, ?_, ?_, ?_⟩
  · simp only [Function.update_apply]
    rw [if_neg (by omega), if_neg (by omega), if_neg (by omega), if_pos trivial, if_neg (by omega), if_neg (by omega),
      if_pos trivial]
    ring
  · simp only [Function.update_apply]
    rw [if_neg (by omega), if_pos trivial, if_pos trivial]
    ring
  · intro i e0 e1 e2 e3
    simp only [Function.update_apply]
    rw [if_neg e3, if_neg e2, if_neg e1, if_neg e0]

/-- All butterflies of one level, for any size. -/
theorem splitRadix_level_gen {Lo oo n ls : ℕ} (hn : 4 ≤ n) (hL : oo + n ≤ Lo) {lut1 lut3 : List ℂ}
    (h1 : ∀ k < n / 4, k * 2 ^ ls < lut1.length) (h3 : ∀ k < n / 4, k * 2 ^ ls < lut3.length) (o : ℕ → ℂ) :
    ∃ o', (do
      let out ← splitRadixButterfly oo n (3 * n / 4) 0 id id (vec Lo o)
      forR 1 (n / 4) (fun k out => do
        let w1 ← rd lut1 (k * 2 ^ ls)
        let w3 ← rd lut3 (k * 2 ^ ls)
        splitRadixButterfly oo n (3 * n / 4) k (fun z => w1 * z) (fun z => w3 * z) out) out)
      = .ok (vec Lo o') ∧
      (∀ k < n / 4, o' (oo + k) + o' (oo + (k + n / 2)) = 2 * o (oo + k) ∧
        o' (oo + (k + n / 4)) + o' (oo + (k + 3 * n / 4)) = 2 * o (oo + (k + n / 4))) ∧
      ∀ i, (∀ k < n / 4, i ≠ oo + k ∧ i ≠ oo + (k + n / 2) ∧ i ≠ oo + (k + n / 4) ∧ i ≠ oo + (k + 3 * n / 4)) →
        o' i = o i := by
  let Inv : ℕ → List ℂ → Prop := fun t s => ∃ o', s = vec Lo o' ∧
      (∀ k < t, o' (oo + k) + o' (oo + (k + n / 2)) = 2 * o (oo + k) ∧
        o' (oo + (k + n / 4)) + o' (oo + (k + 3 * n / 4)) = 2 * o (oo + (k + n / 4))) ∧
      ∀ i, (∀ k < t, i ≠ oo + k ∧ i ≠ oo + (k + n / 2) ∧ i ≠ oo + (k + n / 4) ∧ i ≠ oo + (k + 3 * n / 4)) →
        o' i = o i
  have hstep : ∀ t < n / 4, ∀ f g : ℂ → ℂ, ∀ s, Inv t s →
      ∃ s', splitRadixButterfly oo n (3 * n / 4) t f g s = .ok s' ∧ Inv (t + 1) s' := by
    rintro t ht f g s ⟨o1, rfl, k1, k2⟩
    obtain ⟨o2, e, b1, b2, b3⟩ := splitRadixButterfly_gen hn ht hL f g o1
    refine ⟨_, e, o2, rfl, ?_, ?_⟩
    · intro k hk
      rcases Nat.lt_succ_iff_lt_or_eq.1 hk with hk | rfl
      · rw [b3 (oo + k) (by omega) (by omega) (by omega) (by omega),
          b3 (oo + (k + n / 2)) (by omega) (by omega) (by omega) (by omega),
          b3 (oo + (k + n / 4)) (by omega) (by omega) (by omega) (by omega),
          b3 (oo + (k + 3 * n / 4)) (by omega) (by omega) (by omega) (by omega)]
        exact k1 k hk
      · rw [b1, b2, k2 (oo + k) (fun k' hk' => by omega), k2 (oo + (k + n / 4)) (fun k' hk' => by omega)]
        exact ⟨rfl, rfl⟩
    · intro i hi
      have ht' := hi t (by omega)
      rw [b3 i ht'.1 ht'.2.1 ht'.2.2.1 ht'.2.2.2]
      exact k2 i (fun k hk => hi k (by omega))
  obtain ⟨s1, e1, i1⟩ := hstep 0 (by omega) id id (vec Lo o) ⟨o, rfl, by intro k hk; omega, fun _ _ => rfl⟩
  rw [e1, bind_ok]
  unfold forR
  obtain ⟨r, e, o', rfl, hr1, hr2⟩ := forN_inv (n := n / 4 - 1) (body := fun i out => do
      let w1 ← rd lut1 ((1 + i) * 2 ^ ls)
      let w3 ← rd lut3 ((1 + i) * 2 ^ ls)
      splitRadixButterfly oo n (3 * n / 4) (1 + i) (fun z => w1 * z) (fun z => w3 * z) out) (s := s1)
    (fun i s => Inv (1 + i) s) i1 (by
      intro i hi s hs
      rw [rd_ok (h1 _ (by omega)), bind_ok, rd_ok (h3 _ (by omega)), bind_ok]
      exact hstep (1 + i) (by omega) _ _ s hs)
  rw [show 1 + (n / 4 - 1) = n / 4 by omega] at hr1 hr2
  exact ⟨o', e, hr1, hr2⟩

/-- The call for `n` points runs without a fault inside its part of the output. -/
def SplitSafe (fi : ℕ → ℂ) (L Lo N : ℕ) (lut1 lut3 : List ℂ) (n : ℕ) : Prop :=
  ∀ fuel, n < fuel → ∀ io oo ls, 2 ^ ls * n ≤ N → io + (n - 1) * 2 ^ ls < L → oo + n ≤ Lo → ∀ o : ℕ → ℂ,
    ∃ o', splitfft (vec L fi) lut1 lut3 fuel io oo ls (2 ^ ls) n (vec Lo o) = .ok (vec Lo o') ∧
      ∀ i, ¬(oo ≤ i ∧ i < oo + n) → o' i = o i

/-- One step of the recursion. -/
theorem splitfft_step {fi : ℕ → ℂ} {L Lo N : ℕ} {lut1 lut3 : List ℂ} (hl1 : lut1.length = N / 4)
    (hl3 : lut3.length = N / 4) {n : ℕ} (hn : 4 ≤ n) (hn3 : 3 * n < 2 ^ 31)
    (s2 : SplitSafe fi L Lo N lut1 lut3 (n / 2)) (s4 : SplitSafe fi L Lo N lut1 lut3 (n / 4)) {fuel : ℕ} (hf : n ≤ fuel)
    {io oo ls : ℕ} (hN : 2 ^ ls * n ≤ N) (hi : io + (n - 1) * 2 ^ ls < L) (ho : oo + n ≤ Lo) (o : ℕ → ℂ) :
    ∃ u o', splitfft (vec L fi) lut1 lut3 fuel io oo (ls + 1) (2 ^ (ls + 1)) (n / 2) (vec Lo o) = .ok (vec Lo u) ∧
      splitfft (vec L fi) lut1 lut3 (fuel + 1) io oo ls (2 ^ ls) n (vec Lo o) = .ok (vec Lo o') ∧
      (∀ k < n / 4, o' (oo + k) + o' (oo + (k + n / 2)) = 2 * u (oo + k) ∧
        o' (oo + (k + n / 4)) + o' (oo + (k + 3 * n / 4)) = 2 * u (oo + (k + n / 4))) ∧
      (∀ i, n / 4 * 2 ≤ i → i < n / 2 → o' (oo + i) = u (oo + i)) ∧
      (∀ i, ¬(oo ≤ i ∧ i < oo + n / 2) → u i = o i) ∧
      (∀ i, ¬(oo ≤ i ∧ i < oo + (3 * n / 4 + n / 4)) → o' i = o i) := by
  have hp : 0 < 2 ^ ls := Nat.two_pow_pos ls
  obtain ⟨c, hc⟩ : ∃ c, c = 2 ^ ls := ⟨_, rfl⟩
  have hp1 : 2 ^ (ls + 1) = 2 * c := by rw [pow_succ, hc, mul_comm]
  have hp2 : 2 ^ (ls + 2) = 4 * c := by rw [pow_add, hc]; ring
  rw [← hc] at hp hN hi
  have hmul : ∀ a b, a ≤ b → c * a ≤ c * b := fun a b h => Nat.mul_le_mul_left c h
  have hidx : ∀ a, a ≤ n - 1 → io + a * c < L := by
    intro a ha
    have := hmul a (n - 1) ha
    rw [mul_comm c, mul_comm c] at this
    omega
  obtain ⟨u, e1, l1⟩ := s2 fuel (by omega) io oo (ls + 1)
    (by
      rw [hp1, mul_comm 2 c, mul_assoc]
      exact (hmul (2 * (n / 2)) n (by omega)).trans hN)
    (by
      rw [hp1, ← mul_assoc]
      exact hidx ((n / 2 - 1) * 2) (by omega)) (by omega) o
  obtain ⟨z, e2, l2⟩ := s4 fuel (by omega) (io + c) (oo + n / 2) (ls + 2)
    (by
      rw [hp2, mul_comm 4 c, mul_assoc]
      exact (hmul (4 * (n / 4)) n (by omega)).trans hN)
    (by
      rw [hp2, ← mul_assoc, add_assoc]
      have := hidx (1 + (n / 4 - 1) * 4) (by omega)
      rw [add_mul, one_mul] at this
      exact this) (by omega) u
  obtain ⟨z', e3, l3⟩ := s4 fuel (by omega) (io + 3 * c) (oo + 3 * n / 4) (ls + 2)
    (by
      rw [hp2, mul_comm 4 c, mul_assoc]
      exact (hmul (4 * (n / 4)) n (by omega)).trans hN)
    (by
      rw [hp2, ← mul_assoc, add_assoc]
      have := hidx (3 + (n / 4 - 1) * 4) (by omega)
      rw [add_mul] at this
      exact this) (by omega) z
  have hlut : ∀ k < n / 4, k * 2 ^ ls < N / 4 := by
    intro k hk
    rw [← hc]
    have h1 : c * (4 * (k + 1)) ≤ c * n := hmul _ _ (by omega)
    have h2 : c * (4 * (k + 1)) = 4 * (k * c) + 4 * c := by ring
    omega
  obtain ⟨o', e4, h1, h2⟩ := splitRadix_level_gen (ls := ls) hn ho (lut1 := lut1) (lut3 := lut3)
    (by rw [hl1]; exact hlut) (by rw [hl3]; exact hlut) z'
  refine ⟨u, o', e1, ?_, ?_, ?_, l1, ?_⟩
  · rw [splitfft.eq_def]
    dsimp only
    rw [if_neg (by omega), if_neg (by omega), ← hc, show c * 2 = 2 ^ (ls + 1) by rw [hp1, mul_comm], e1, bind_ok,
      show c * 4 = 2 ^ (ls + 2) by rw [hp2, mul_comm], e2, bind_ok]
    unfold intProd
    rw [if_pos hn3, bind_ok, e3, bind_ok, hc]
    exact e4
  · intro k hk
    have a := h1 k hk
    rw [l3 (oo + k) (by omega), l2 (oo + k) (by omega), l3 (oo + (k + n / 4)) (by omega),
      l2 (oo + (k + n / 4)) (by omega)] at a
    exact a
  · intro i hi1 hi2
    rw [h2 (oo + i) (fun k hk => by omega), l3 (oo + i) (by omega), l2 (oo + i) (by omega)]
  · intro i hi'
    rw [h2 i (fun k hk => by omega), l3 i (by omega), l2 i (by omega), l1 i (by omega)]

theorem splitSafe_one {fi : ℕ → ℂ} {L Lo N : ℕ} {lut1 lut3 : List ℂ} : SplitSafe fi L Lo N lut1 lut3 1 := by
  intro fuel hf io oo ls _ hi ho o
  obtain ⟨fuel, rfl⟩ : ∃ g, fuel = g + 1 := ⟨fuel - 1, by omega⟩
  refine ⟨Function.update o oo (fi io), ?_, ?_⟩
  · rw [splitfft.eq_def]
    dsimp only
    rw [if_pos rfl, rd_vec_ok (by omega), bind_ok, wr_vec_ok (by omega)]
  · intro i h
    rw [Function.update_of_ne (by omega)]

theorem splitSafe_two {fi : ℕ → ℂ} {L Lo N : ℕ} {lut1 lut3 : List ℂ} : SplitSafe fi L Lo N lut1 lut3 2 := by
  intro fuel hf io oo ls _ hi ho o
  obtain ⟨fuel, rfl⟩ : ∃ g, fuel = g + 1 := ⟨fuel - 1, by omega⟩
  refine ⟨Function.update (Function.update o oo (fi io + fi (io + 2 ^ ls))) (oo + 2 / 2) (fi io - fi (io + 2 ^ ls)), ?_, ?_⟩
  · rw [splitfft.eq_def]
    dsimp only
    rw [if_neg (by norm_num), if_pos rfl, rd_vec_ok (by omega), bind_ok, rd_vec_ok (by omega), bind_ok,
      wr_vec_ok (by omega), bind_ok, bind_ok, bind_ok, wr_vec_ok (by omega)]
  · intro i h
    rw [Function.update_of_ne (by omega), Function.update_of_ne (by omega)]

/-- The leading binary digits of `n ≥ 2` are `10`. -/
def Lead10 (n : ℕ) : Prop := ∃ p, n / 2 ^ p = 2

theorem Lead10.half {n : ℕ} (h : Lead10 n) (hn : 4 ≤ n) : Lead10 (n / 2) := by
  obtain ⟨p, hp⟩ := h
  rcases p with _ | p
  · rw [pow_zero, Nat.div_one] at hp; omega
  · exact ⟨p, by rw [Nat.div_div_eq_div_mul, mul_comm, ← pow_succ]; exact hp⟩

theorem Lead10.quarter {n : ℕ} (h : Lead10 n) (hn : 4 ≤ n) : n / 4 = 1 ∨ Lead10 (n / 4) := by
  by_cases h8 : n < 8
  · left; omega
  · right
    have := (h.half hn).half (by omega)
    rwa [Nat.div_div_eq_div_mul] at this

theorem Lead10.ne_three {n : ℕ} (h : Lead10 n) : n ≠ 3 := by
  rintro rfl
  obtain ⟨p, hp⟩ := h
  rcases p with _ | _ | p
  · norm_num at hp
  · norm_num at hp
  · have : 4 * 2 ^ p ≥ 4 := by have := Nat.two_pow_pos p; omega
    rw [show 2 ^ (p + 1 + 1) = 4 * 2 ^ p by ring, Nat.div_eq_of_lt (by omega)] at hp
    omega

theorem Lead10.two_le {n : ℕ} (h : Lead10 n) : 2 ≤ n := by
  obtain ⟨p, hp⟩ := h
  rw [← hp]
  exact Nat.div_le_self _ _

/-- The recursion is safe for all sizes that begin with `10` and do not overflow. -/
theorem splitSafe_of {fi : ℕ → ℂ} {L Lo N : ℕ} {lut1 lut3 : List ℂ} (hl1 : lut1.length = N / 4)
    (hl3 : lut3.length = N / 4) : ∀ n, (n = 1 ∨ Lead10 n) → 3 * n < 2 ^ 31 → SplitSafe fi L Lo N lut1 lut3 n := by
  intro n
  induction n using Nat.strong_induction_on with
  | _ n ih =>
  intro hn h3
  rcases hn with rfl | hn
  · exact splitSafe_one
  have h2 := hn.two_le
  have hne := hn.ne_three
  by_cases h4 : n = 2
  · rw [h4]; exact splitSafe_two
  have hn4 : 4 ≤ n := by omega
  intro fuel hf io oo ls hN hi ho o
  obtain ⟨fuel, rfl⟩ : ∃ g, fuel = g + 1 := ⟨fuel - 1, by omega⟩
  obtain ⟨u, o', -, e, -, -, -, hloc⟩ := splitfft_step hl1 hl3 hn4 h3
    (ih (n / 2) (by omega) (Or.inr (hn.half hn4)) (by omega))
    (ih (n / 4) (by omega) (hn.quarter hn4) (by omega)) (fuel := fuel) (by omega) hN hi ho o
  exact ⟨o', e, fun i h => hloc i (by omega)⟩

/-- The recursion overflows for larger sizes that begin with `10`. -/
theorem splitfft_overflow {fi : ℕ → ℂ} {L Lo N : ℕ} {lut1 lut3 : List ℂ} (hl1 : lut1.length = N / 4)
    (hl3 : lut3.length = N / 4) : ∀ n, Lead10 n → 2 ^ 31 ≤ 3 * n → n < 2 ^ 31 → ∀ fuel, n < fuel →
      ∀ io oo ls, 2 ^ ls * n ≤ N → io + (n - 1) * 2 ^ ls < L → oo + n ≤ Lo → ∀ o : ℕ → ℂ,
        splitfft (vec L fi) lut1 lut3 fuel io oo ls (2 ^ ls) n (vec Lo o) = .error .overflow := by
  intro n
  induction n using Nat.strong_induction_on with
  | _ n ih =>
  intro hn h3 hmax fuel hf io oo ls hN hi ho o
  have hn4 : 4 ≤ n := by omega
  obtain ⟨fuel, rfl⟩ : ∃ g, fuel = g + 1 := ⟨fuel - 1, by omega⟩
  have hp : 0 < 2 ^ ls := Nat.two_pow_pos ls
  obtain ⟨c, hc⟩ : ∃ c, c = 2 ^ ls := ⟨_, rfl⟩
  have hp1 : 2 ^ (ls + 1) = 2 * c := by rw [pow_succ, hc, mul_comm]
  have hp2 : 2 ^ (ls + 2) = 4 * c := by rw [pow_add, hc]; ring
  have hmul : ∀ a b, a ≤ b → c * a ≤ c * b := fun a b h => Nat.mul_le_mul_left c h
  rw [← hc] at hp hN hi
  have hidx : ∀ a, a ≤ n - 1 → io + a * c < L := by
    intro a ha
    have := hmul a (n - 1) ha
    rw [mul_comm c, mul_comm c] at this
    omega
  have g1 : 2 ^ (ls + 1) * (n / 2) ≤ N := by
    rw [hp1, mul_comm 2 c, mul_assoc]
    exact (hmul (2 * (n / 2)) n (by omega)).trans hN
  have g2 : io + (n / 2 - 1) * 2 ^ (ls + 1) < L := by
    rw [hp1, ← mul_assoc]
    exact hidx ((n / 2 - 1) * 2) (by omega)
  rw [splitfft.eq_def]
  dsimp only
  rw [if_neg (by omega), if_neg (by omega), ← hc, show c * 2 = 2 ^ (ls + 1) by rw [hp1, mul_comm]]
  by_cases hh : 2 ^ 31 ≤ 3 * (n / 2)
  · rw [ih (n / 2) (by omega) (hn.half hn4) hh (by omega) fuel (by omega) io oo (ls + 1) g1 g2 (by omega) o]
    rfl
  · obtain ⟨u, e1, -⟩ := splitSafe_of (Lo := Lo) hl1 hl3 (n / 2) (Or.inr (hn.half hn4)) (by omega) fuel (by omega) io oo (ls + 1) g1 g2
      (by omega) o
    obtain ⟨z, e2, -⟩ := splitSafe_of (Lo := Lo) hl1 hl3 (n / 4) (hn.quarter hn4) (by omega) fuel (by omega) (io + c) (oo + n / 2)
      (ls + 2)
      (by
        rw [hp2, mul_comm 4 c, mul_assoc]
        exact (hmul (4 * (n / 4)) n (by omega)).trans hN)
      (by
        rw [hp2, ← mul_assoc, add_assoc]
        have := hidx (1 + (n / 4 - 1) * 4) (by omega)
        rw [add_mul, one_mul] at this
        exact this) (by omega) u
    rw [e1, bind_ok, show c * 4 = 2 ^ (ls + 2) by rw [hp2, mul_comm], e2, bind_ok]
    unfold intProd
    rw [if_neg (by omega)]
    rfl

/-- The leading binary digits of `n` are `11`. -/
def Lead11 (n : ℕ) : Prop := ∃ p, n / 2 ^ p = 3

theorem lead_cases (n : ℕ) : n = 0 ∨ n = 1 ∨ Lead10 n ∨ Lead11 n := by
  induction n using Nat.strong_induction_on with
  | _ n ih =>
  by_cases h : n < 4
  · have : n = 0 ∨ n = 1 ∨ n = 2 ∨ n = 3 := by omega
    rcases this with h | h | h | h
    · exact Or.inl h
    · exact Or.inr (Or.inl h)
    · exact Or.inr (Or.inr (Or.inl ⟨0, by rw [h]; norm_num⟩))
    · exact Or.inr (Or.inr (Or.inr ⟨0, by rw [h]; norm_num⟩))
  · rcases ih (n / 2) (by omega) with h | h | ⟨p, h⟩ | ⟨p, h⟩
    · omega
    · omega
    · exact Or.inr (Or.inr (Or.inl ⟨p + 1, by rw [pow_succ, mul_comm, ← Nat.div_div_eq_div_mul]; exact h⟩))
    · exact Or.inr (Or.inr (Or.inr ⟨p + 1, by rw [pow_succ, mul_comm, ← Nat.div_div_eq_div_mul]; exact h⟩))

theorem lead_pow (P : ℕ) : 2 ^ P = 1 ∨ Lead10 (2 ^ P) := by
  rcases P with _ | P
  · exact Or.inl rfl
  · exact Or.inr ⟨P, by rw [pow_succ, Nat.mul_div_cancel_left _ (Nat.two_pow_pos P)]⟩

theorem Lead10.odd_part {m : ℕ} : ∀ s, Lead10 (2 ^ s * m) → m = 1 ∨ Lead10 m := by
  intro s
  induction s with
  | zero => intro h; rw [pow_zero, one_mul] at h; exact Or.inr h
  | succ s ih =>
    intro h
    rcases Nat.lt_or_ge (2 ^ (s + 1) * m) 4 with h4 | h4
    · have h2 := h.two_le
      have h3 := h.ne_three
      have e : 2 ^ s * m = 1 := by
        rw [pow_succ] at h4 h2 h3
        have : 2 ^ s * 2 * m = 2 * (2 ^ s * m) := by ring
        omega
      exact Or.inl (Nat.eq_one_of_mul_eq_one_left e)
    · have := h.half h4
      rw [show 2 ^ (s + 1) * m / 2 = 2 ^ s * m by
        rw [show 2 ^ (s + 1) * m = 2 * (2 ^ s * m) by ring]; omega] at this
      exact ih this

/-- In a call for `2 ^ s * m` points, `m` odd, the first output value at index `m - 1` is never overwritten: it can be
recovered from the result. -/
theorem splitfft_keeps {m : ℕ} (hodd : m % 2 = 1) (hm : Lead10 m) : ∀ s, 3 * (2 ^ s * m) < 2 ^ 31 →
    Lead10 (2 ^ s * m) → ∃ φ : (ℕ → ℂ) → ℂ, (∀ f g : ℕ → ℂ, (∀ i < 2 ^ s * m, f i = g i) → φ f = φ g) ∧
      ∀ (fi : ℕ → ℂ) (L Lo N : ℕ) (lut1 lut3 : List ℂ), lut1.length = N / 4 → lut3.length = N / 4 →
      ∀ fuel, 2 ^ s * m < fuel → ∀ io oo ls, 2 ^ ls * (2 ^ s * m) ≤ N → io + (2 ^ s * m - 1) * 2 ^ ls < L →
      oo + 2 ^ s * m ≤ Lo → ∀ o : ℕ → ℂ, ∃ o',
        splitfft (vec L fi) lut1 lut3 fuel io oo ls (2 ^ ls) (2 ^ s * m) (vec Lo o) = .ok (vec Lo o') ∧
        φ (fun i => o' (oo + i)) = o (oo + (m - 1)) := by
  have hm5 : 5 ≤ m := by
    have := hm.two_le
    have := hm.ne_three
    omega
  intro s
  induction s with
  | zero =>
    intro h3 hg
    refine ⟨fun f => f (m - 1), fun f g h => h _ (by rw [pow_zero]; omega), ?_⟩
    intro fi L Lo N lut1 lut3 hl1 hl3 fuel hf io oo ls hN hi ho o
    rw [pow_zero, one_mul] at *
    obtain ⟨fuel, rfl⟩ : ∃ g, fuel = g + 1 := ⟨fuel - 1, by omega⟩
    obtain ⟨u, o', -, e, -, -, -, hloc⟩ := splitfft_step hl1 hl3 (by omega : 4 ≤ m) h3
      (splitSafe_of hl1 hl3 _ (Or.inr (hm.half (by omega))) (by omega))
      (splitSafe_of hl1 hl3 _ (hm.quarter (by omega)) (by omega)) (fuel := fuel) (by omega) hN hi ho o
    exact ⟨o', e, hloc _ (by omega)⟩
  | succ s ih =>
    intro h3 hg
    have e2 : 2 ^ (s + 1) * m = 2 * (2 ^ s * m) := by ring
    have hge : m ≤ 2 ^ s * m := Nat.le_mul_of_pos_left m (Nat.two_pow_pos s)
    have hs4 : s ≠ 0 → ∃ M, 2 ^ s * m = 2 * M := by
      intro h
      obtain ⟨t, rfl⟩ := Nat.exists_eq_succ_of_ne_zero h
      exact ⟨2 ^ t * m, by rw [pow_succ]; ring⟩
    have hs0 : s = 0 → 2 ^ s * m = m := by rintro rfl; rw [pow_zero, one_mul]
    rw [e2] at h3 hg ⊢
    generalize 2 ^ s * m = M at *
    have hgh : Lead10 M := by
      have := hg.half (by omega)
      rwa [Nat.mul_div_cancel_left _ (by norm_num)] at this
    obtain ⟨φ, hφ, hrec⟩ := ih (by omega) hgh
    have hd2 : 2 * M / 2 = M := by omega
    by_cases h0 : s = 0
    · have hMm := hs0 h0
      subst hMm
      refine ⟨fun f => f (M - 1), fun f g h => h _ (by omega), ?_⟩
      intro fi L Lo N lut1 lut3 hl1 hl3 fuel hf io oo ls hN hi ho o
      obtain ⟨fuel, rfl⟩ : ∃ g, fuel = g + 1 := ⟨fuel - 1, by omega⟩
      obtain ⟨u, o', eu, e, -, hkeep, -, -⟩ := splitfft_step hl1 hl3 (by omega : 4 ≤ 2 * M) h3
        (splitSafe_of hl1 hl3 _ (Or.inr (hg.half (by omega))) (by omega))
        (splitSafe_of hl1 hl3 _ (hg.quarter (by omega)) (by omega)) (fuel := fuel) (by omega) hN hi ho o
      refine ⟨o', e, ?_⟩
      rw [hd2] at eu
      have hp1 : 2 ^ (ls + 1) = 2 ^ ls * 2 := pow_succ _ _
      obtain ⟨fuel, rfl⟩ : ∃ g, fuel = g + 1 := ⟨fuel - 1, by omega⟩
      obtain ⟨-, u', -, eu', -, -, -, hloc⟩ := splitfft_step (fi := fi) (L := L) (Lo := Lo) hl1 hl3 (by omega : 4 ≤ M)
        (by omega) (splitSafe_of hl1 hl3 _ (Or.inr (hm.half (by omega))) (by omega))
        (splitSafe_of hl1 hl3 _ (hm.quarter (by omega)) (by omega)) (fuel := fuel) (by omega) (io := io) (oo := oo)
        (ls := ls + 1) (by rw [hp1, mul_assoc]; exact hN)
        (by
          have : (M - 1) * 2 ^ (ls + 1) ≤ (2 * M - 1) * 2 ^ ls := by
            rw [hp1, mul_comm (2 ^ ls) 2, ← mul_assoc]
            exact Nat.mul_le_mul_right _ (by omega)
          omega) (by omega) o
      have huu : ∀ i < Lo, u i = u' i := vec_inj.1 (by
        have := eu.symm.trans eu'
        exact Except.ok.inj this)
      beta_reduce
      rw [hkeep (M - 1) (by omega) (by omega), huu _ (by omega)]
      exact hloc _ (by omega)
    · obtain ⟨K, hK⟩ := hs4 h0
      refine ⟨fun f => φ (fun i => (f i + f (i + M)) / 2), fun f g h => hφ _ _ (fun i hi => by
        rw [h i (by omega), h (i + M) (by omega)]), ?_⟩
      intro fi L Lo N lut1 lut3 hl1 hl3 fuel hf io oo ls hN hi ho o
      obtain ⟨fuel, rfl⟩ : ∃ g, fuel = g + 1 := ⟨fuel - 1, by omega⟩
      obtain ⟨u, o', eu, e, hsum, -, -, -⟩ := splitfft_step hl1 hl3 (by omega : 4 ≤ 2 * M) h3
        (splitSafe_of hl1 hl3 _ (Or.inr (hg.half (by omega))) (by omega))
        (splitSafe_of hl1 hl3 _ (hg.quarter (by omega)) (by omega)) (fuel := fuel) (by omega) hN hi ho o
      refine ⟨o', e, ?_⟩
      rw [hd2] at eu
      have hp1 : 2 ^ (ls + 1) = 2 ^ ls * 2 := pow_succ _ _
      obtain ⟨u', eu', hu'⟩ := hrec fi L Lo N lut1 lut3 hl1 hl3 fuel (by omega) io oo (ls + 1)
        (by rw [hp1, mul_assoc]; exact hN)
        (by
          have : (M - 1) * 2 ^ (ls + 1) ≤ (2 * M - 1) * 2 ^ ls := by
            rw [hp1, mul_comm (2 ^ ls) 2, ← mul_assoc]
            exact Nat.mul_le_mul_right _ (by omega)
          omega) (by omega) o
      have huu : ∀ i < Lo, u i = u' i := vec_inj.1 (by
        have := eu.symm.trans eu'
        exact Except.ok.inj this)
      rw [← hu']
      apply hφ
      intro i hi'
      beta_reduce
      rw [← huu (oo + i) (by omega)]
      by_cases hiK : i < K
      · have := (hsum i (by omega)).1
        rw [hd2, ← add_assoc] at this
        rw [← add_assoc, this]
        ring
      · obtain ⟨k, rfl⟩ : ∃ k, i = k + K := ⟨i - K, by omega⟩
        have := (hsum k (by omega)).2
        rw [show 2 * M / 4 = K by omega, show 3 * (2 * M) / 4 = K + M by omega] at this
        rw [show oo + (k + K + M) = oo + (k + (K + M)) by ring, this]
        ring

end Neo
