import Verif.Model.SplitRadix
import Verif.Lemmas.Root

/-! # The split-radix recursion -/

namespace Neo

open Finset Complex

/-- Splitting a Fourier sum of `4 M` terms into the even terms and the two classes of odd terms. -/
theorem dftRoot_split4 (M : ℕ) (ω : ℂ) (f : ℕ → ℂ) (k : ℕ) :
    Spec.dftRoot (4 * M) ω f k = Spec.dftRoot (2 * M) (ω ^ 2) (fun j => f (j * 2)) k
      + (ω ^ k * Spec.dftRoot M (ω ^ 4) (fun j => f (1 + j * 4)) k
        + ω ^ (3 * k) * Spec.dftRoot M (ω ^ 4) (fun j => f (3 + j * 4)) k) := by
  unfold Spec.dftRoot
  induction M with
  | zero => simp
  | succ M ih =>
    rw [show 4 * (M + 1) = 4 * M + 1 + 1 + 1 + 1 by ring, show 2 * (M + 1) = 2 * M + 1 + 1 by ring]
    simp only [sum_range_succ]
    rw [ih]
    rw [show 2 * M * 2 = 4 * M by ring, show (2 * M + 1) * 2 = 4 * M + 1 + 1 by ring,
      show 1 + M * 4 = 4 * M + 1 by ring, show 3 + M * 4 = 4 * M + 1 + 1 + 1 by ring]
    simp only [← pow_mul]
    ring

theorem dftRoot_shift {N : ℕ} {ω : ℂ} (h : ω ^ N = 1) (f : ℕ → ℂ) (k : ℕ) :
    Spec.dftRoot N ω f (k + N) = Spec.dftRoot N ω f k := by
  unfold Spec.dftRoot
  apply sum_congr rfl
  intro n _
  rw [show n * (k + N) = n * k + N * n by ring, pow_add, pow_mul ω N, h, one_pow, mul_one]

/-- The four outputs of the split-radix butterfly. -/
theorem dftRoot_quarter {M : ℕ} {ω : ℂ} (hω : ω ^ M = -I) (f : ℕ → ℂ) (k : ℕ) :
    let U := Spec.dftRoot (2 * M) (ω ^ 2) (fun j => f (j * 2))
    let Z := Spec.dftRoot M (ω ^ 4) (fun j => f (1 + j * 4))
    let Z' := Spec.dftRoot M (ω ^ 4) (fun j => f (3 + j * 4))
    let S := Spec.dftRoot (4 * M) ω f
    S k = U k + (ω ^ k * Z k + ω ^ (3 * k) * Z' k) ∧
    S (k + 2 * M) = U k - (ω ^ k * Z k + ω ^ (3 * k) * Z' k) ∧
    S (k + M) = U (k + M) - I * (ω ^ k * Z k - ω ^ (3 * k) * Z' k) ∧
    S (k + 3 * M) = U (k + M) + I * (ω ^ k * Z k - ω ^ (3 * k) * Z' k) := by
  have h2 : ω ^ (2 * M) = -1 := by rw [mul_comm, pow_mul, hω]; simp
  have h3 : ω ^ (3 * M) = I := by rw [show 3 * M = 2 * M + M by ring, pow_add, h2, hω]; simp
  have h4 : ω ^ (4 * M) = 1 := by rw [show 4 * M = 2 * M + 2 * M by ring, pow_add, h2]; simp
  have hU : ∀ k, Spec.dftRoot (2 * M) (ω ^ 2) (fun j => f (j * 2)) (k + 2 * M)
      = Spec.dftRoot (2 * M) (ω ^ 2) (fun j => f (j * 2)) k :=
    fun k => dftRoot_shift (by rw [← pow_mul, ← h4]; congr 1; ring) _ k
  have hZ : ∀ (g : ℕ → ℂ) k, Spec.dftRoot M (ω ^ 4) g (k + M) = Spec.dftRoot M (ω ^ 4) g k :=
    fun g k => dftRoot_shift (by rw [← pow_mul, ← h4]) _ k
  have hZ2 : ∀ (g : ℕ → ℂ) k, Spec.dftRoot M (ω ^ 4) g (k + 2 * M) = Spec.dftRoot M (ω ^ 4) g k :=
    fun g k => by rw [two_mul, ← add_assoc, hZ, hZ]
  have hZ3 : ∀ (g : ℕ → ℂ) k, Spec.dftRoot M (ω ^ 4) g (k + 3 * M) = Spec.dftRoot M (ω ^ 4) g k :=
    fun g k => by rw [show k + 3 * M = k + 2 * M + M by ring, hZ, hZ2]
  intro U Z Z' S
  refine ⟨dftRoot_split4 M ω f k, ?_, ?_, ?_⟩
  · show Spec.dftRoot (4 * M) ω f (k + 2 * M) = _
    rw [dftRoot_split4, hU, hZ2, hZ2, pow_add, h2, show 3 * (k + 2 * M) = 3 * k + 3 * (2 * M) by ring, pow_add ω (3 * k),
      mul_comm 3 (2 * M), pow_mul ω (2 * M), h2]
    ring
  · show Spec.dftRoot (4 * M) ω f (k + M) = _
    rw [dftRoot_split4, hZ, hZ, pow_add, hω, Nat.mul_add, pow_add ω (3 * k), h3]
    ring
  · show Spec.dftRoot (4 * M) ω f (k + 3 * M) = _
    rw [dftRoot_split4, hZ3, hZ3, show k + 3 * M = k + M + 2 * M by ring, hU, show k + M + 2 * M = k + 3 * M by ring,
      pow_add, h3, Nat.mul_add, pow_add ω (3 * k), show 3 * (3 * M) = 3 * M * 3 by ring, pow_mul ω (3 * M), h3]
    have : I ^ 3 = -I := by rw [pow_succ, I_sq]; ring
    rw [this]
    ring

/-- One butterfly. -/
theorem splitRadixButterfly_vec {L oo M k : ℕ} (hk : k < M) (hL : oo + 4 * M ≤ L) (f g : ℂ → ℂ) (o : ℕ → ℂ) :
    splitRadixButterfly oo (4 * M) (3 * M) k f g (vec L o) = .ok (vec L (fun i =>
      if i = oo + (k + 3 * M) then o (oo + (k + M)) + I * (f (o (oo + (k + 2 * M))) - g (o (oo + (k + 3 * M))))
      else if i = oo + (k + M) then o (oo + (k + M)) - I * (f (o (oo + (k + 2 * M))) - g (o (oo + (k + 3 * M))))
      else if i = oo + (k + 2 * M) then o (oo + k) - (f (o (oo + (k + 2 * M))) + g (o (oo + (k + 3 * M))))
      else if i = oo + k then o (oo + k) + (f (o (oo + (k + 2 * M))) + g (o (oo + (k + 3 * M))))
      else o i)) := by
  unfold splitRadixButterfly
  rw [show 4 * M / 2 = 2 * M by omega, show 4 * M / 4 = M by omega, rd_vec_ok (by omega), bind_ok,
    rd_vec_ok (by omega), bind_ok, rd_vec_ok (by omega), bind_ok, rd_vec_ok (by omega), bind_ok,
    wr_vec_ok (by omega), bind_ok, wr_vec_ok (by omega), bind_ok, wr_vec_ok (by omega), bind_ok,
    wr_vec_ok (by omega)]
  congr 1
  apply vec_ext
  intro i _
  simp only [Function.update_apply]

/-- All butterflies of one level. -/
theorem splitRadix_level {L oo M ls : ℕ} (hM : 1 ≤ M) (hL : oo + 4 * M ≤ L) {lut1 lut3 : List ℂ} {ω : ℂ}
    (h1 : ∀ k < M, rd lut1 (k * 2 ^ ls) = .ok (ω ^ k)) (h3 : ∀ k < M, rd lut3 (k * 2 ^ ls) = .ok (ω ^ (3 * k)))
    (pre : ℕ → ℂ) (F : ℕ → ℂ)
    (hF : ∀ k < M,
      F k = pre (oo + k) + (ω ^ k * pre (oo + (k + 2 * M)) + ω ^ (3 * k) * pre (oo + (k + 3 * M))) ∧
      F (k + 2 * M) = pre (oo + k) - (ω ^ k * pre (oo + (k + 2 * M)) + ω ^ (3 * k) * pre (oo + (k + 3 * M))) ∧
      F (k + M) = pre (oo + (k + M))
        - I * (ω ^ k * pre (oo + (k + 2 * M)) - ω ^ (3 * k) * pre (oo + (k + 3 * M))) ∧
      F (k + 3 * M) = pre (oo + (k + M))
        + I * (ω ^ k * pre (oo + (k + 2 * M)) - ω ^ (3 * k) * pre (oo + (k + 3 * M)))) :
    (do
      let out ← splitRadixButterfly oo (4 * M) (3 * M) 0 id id (vec L pre)
      forR 1 M (fun k out => do
        let w1 ← rd lut1 (k * 2 ^ ls)
        let w3 ← rd lut3 (k * 2 ^ ls)
        splitRadixButterfly oo (4 * M) (3 * M) k (fun z => w1 * z) (fun z => w3 * z) out) out)
    = .ok (vec L (fun i => if oo ≤ i ∧ i < oo + 4 * M then F (i - oo) else pre i)) := by
  let st : ℕ → ℕ → ℂ := fun t i =>
    if oo ≤ i ∧ i < oo + 4 * M ∧ (i - oo) % M < t then F (i - oo) else pre i
  have hmod : ∀ k < M, ∀ q < 4, (oo + (k + q * M) - oo) % M = k := by
    intro k hk q _
    rw [Nat.add_sub_cancel_left, Nat.add_mul_mod_self_right, Nat.mod_eq_of_lt hk]
  have hpre : ∀ k < M, ∀ q < 4, st k (oo + (k + q * M)) = pre (oo + (k + q * M)) := by
    intro k hk q hq
    show (if _ then _ else _) = _
    rw [if_neg]
    rintro ⟨-, -, h⟩
    rw [hmod k hk q hq] at h
    exact lt_irrefl _ h
  have hstep : ∀ k < M, splitRadixButterfly oo (4 * M) (3 * M) k (fun z => ω ^ k * z) (fun z => ω ^ (3 * k) * z)
      (vec L (st k)) = .ok (vec L (st (k + 1))) := by
    intro k hk
    rw [splitRadixButterfly_vec hk hL]
    have p0 := hpre k hk 0 (by omega)
    have p1 := hpre k hk 1 (by omega)
    have p2 := hpre k hk 2 (by omega)
    have p3 := hpre k hk 3 (by omega)
    rw [zero_mul, add_zero] at p0
    rw [one_mul] at p1
    rw [p0, p1, p2, p3]
    obtain ⟨f0, f2, f1, f3⟩ := hF k hk
    rw [← f0, ← f1, ← f2, ← f3]
    congr 1
    apply vec_ext
    intro i _
    show _ = if oo ≤ i ∧ i < oo + 4 * M ∧ (i - oo) % M < k + 1 then F (i - oo) else pre i
    have key : ∀ q < 4, i = oo + (k + q * M) → F (k + q * M)
        = if oo ≤ i ∧ i < oo + 4 * M ∧ (i - oo) % M < k + 1 then F (i - oo) else pre i := by
      rintro q hq rfl
      have : q * M ≤ 3 * M := Nat.mul_le_mul_right _ (by omega)
      rw [if_pos ⟨by omega, by omega, by rw [hmod k hk q hq]; omega⟩, Nat.add_sub_cancel_left]
    by_cases e3 : i = oo + (k + 3 * M)
    · rw [if_pos e3]; exact key 3 (by omega) e3
    rw [if_neg e3]
    by_cases e1 : i = oo + (k + M)
    · rw [if_pos e1]
      have := key 1 (by omega) (by rw [one_mul]; exact e1)
      rw [one_mul] at this; exact this
    rw [if_neg e1]
    by_cases e2 : i = oo + (k + 2 * M)
    · rw [if_pos e2]; exact key 2 (by omega) e2
    rw [if_neg e2]
    by_cases e0 : i = oo + k
    · rw [if_pos e0]
      have := key 0 (by omega) (by rw [zero_mul, add_zero]; exact e0)
      rw [zero_mul, add_zero] at this; exact this
    rw [if_neg e0]
    show (if oo ≤ i ∧ i < oo + 4 * M ∧ (i - oo) % M < k then F (i - oo) else pre i) = _
    have hne : oo ≤ i → i < oo + 4 * M → (i - oo) % M ≠ k := by
      intro ha hb hm
      have hd := Nat.div_add_mod (i - oo) M
      rw [hm] at hd
      have hq : (i - oo) / M < 4 := by
        rw [Nat.div_lt_iff_lt_mul (by omega)]; omega
      generalize (i - oo) / M = q at hd hq
      obtain rfl | rfl | rfl | rfl : q = 0 ∨ q = 1 ∨ q = 2 ∨ q = 3 := by omega
      all_goals omega
    by_cases c : oo ≤ i ∧ i < oo + 4 * M
    · have := hne c.1 c.2
      have hiff : (i - oo) % M < k + 1 ↔ (i - oo) % M < k := by omega
      simp only [hiff]
    · rw [if_neg (fun h => c ⟨h.1, h.2.1⟩), if_neg (fun h => c ⟨h.1, h.2.1⟩)]
  have h0 : st 0 = pre := by
    funext i
    show (if _ then _ else _) = _
    rw [if_neg (fun h => Nat.not_lt_zero _ h.2.2)]
  have hfirst : splitRadixButterfly oo (4 * M) (3 * M) 0 id id (vec L pre) = .ok (vec L (st 1)) := by
    have := hstep 0 (by omega)
    rw [h0] at this
    rw [← this]
    congr 1
    · funext z; simp
    · funext z; simp
  rw [hfirst, bind_ok]
  refine forR_eq' (fun t => vec L (st t)) hM rfl ?_ ?_
  · apply vec_ext
    intro i _
    show (if oo ≤ i ∧ i < oo + 4 * M ∧ (i - oo) % M < M then F (i - oo) else pre i) = _
    have : (i - oo) % M < M := Nat.mod_lt _ (by omega)
    simp only [this, and_true]
  · intro k _ hk
    rw [h1 k hk, bind_ok, h3 k hk, bind_ok]
    exact hstep k hk

/-- Tables of powers of `W`, as read by the recursion. -/
def PowTables (P : ℕ) (W : ℂ) (lut1 lut3 : List ℂ) : Prop :=
  ∀ i < 2 ^ P / 4, rd lut1 i = .ok (W ^ i) ∧ rd lut3 i = .ok (W ^ (3 * i))

/-- `S p ls io` satisfies the recursion of the split-radix butterflies with twiddle factors `W`. -/
structure SplitRec (P : ℕ) (W : ℂ) (fi : ℕ → ℂ) (S : ℕ → ℕ → ℕ → ℕ → ℂ) : Prop where
  zero : ∀ ls io, S 0 ls io 0 = fi io
  one : ∀ ls io, ls + 1 = P → S 1 ls io 0 = fi io + fi (io + 2 ^ ls) ∧ S 1 ls io 1 = fi io - fi (io + 2 ^ ls)
  step : ∀ p ls io, ls + (p + 2) = P → ∀ k < 2 ^ p,
    let U := S (p + 1) (ls + 1) io
    let Z := S p (ls + 2) (io + 2 ^ ls)
    let Z' := S p (ls + 2) (io + 3 * 2 ^ ls)
    S (p + 2) ls io k = U k + ((W ^ 2 ^ ls) ^ k * Z k + (W ^ 2 ^ ls) ^ (3 * k) * Z' k) ∧
    S (p + 2) ls io (k + 2 * 2 ^ p) = U k - ((W ^ 2 ^ ls) ^ k * Z k + (W ^ 2 ^ ls) ^ (3 * k) * Z' k) ∧
    S (p + 2) ls io (k + 2 ^ p)
      = U (k + 2 ^ p) - I * ((W ^ 2 ^ ls) ^ k * Z k - (W ^ 2 ^ ls) ^ (3 * k) * Z' k) ∧
    S (p + 2) ls io (k + 3 * 2 ^ p)
      = U (k + 2 ^ p) + I * ((W ^ 2 ^ ls) ^ k * Z k - (W ^ 2 ^ ls) ^ (3 * k) * Z' k)

/-- The recursion of the code computes every `S` of that kind. -/
theorem splitfft_gen {P L Lo : ℕ} {W : ℂ} {lut1 lut3 : List ℂ} (ht : PowTables P W lut1 lut3)
    (fi : ℕ → ℂ) {S : ℕ → ℕ → ℕ → ℕ → ℂ} (hS : SplitRec P W fi S) :
    ∀ p ls, ls + p = P → p ≤ 29 → ∀ fuel, p + 1 ≤ fuel → ∀ io oo, io + (2 ^ p - 1) * 2 ^ ls < L →
      oo + 2 ^ p ≤ Lo → ∀ o : ℕ → ℂ,
      splitfft (vec L fi) lut1 lut3 fuel io oo ls (2 ^ ls) (2 ^ p) (vec Lo o)
        = .ok (vec Lo (fun i => if oo ≤ i ∧ i < oo + 2 ^ p then
            S p ls io (i - oo) else o i)) := by
  intro p
  induction p using Nat.strong_induction_on with
  | _ p ih =>
  intro ls hP hp fuel hfuel io oo hio hoo o
  obtain ⟨fuel, rfl⟩ : ∃ f, fuel = f + 1 := ⟨fuel - 1, by omega⟩
  rw [splitfft.eq_def]
  dsimp only
  match p, ih, hP, hp, hfuel, hio, hoo with
  | 0, _, _, _, _, hio, hoo =>
    rw [pow_zero] at hio hoo
    rw [if_pos (by norm_num), rd_vec_ok (by omega), bind_ok, wr_vec_ok (by omega)]
    congr 1
    apply vec_ext
    intro i _
    by_cases e : i = oo
    · subst e; simp [hS.zero]
    · rw [Function.update_of_ne e, if_neg (by rw [pow_zero]; omega)]
  | 1, _, hP, _, _, hio, hoo =>
    rw [pow_one] at hio hoo
    rw [if_neg (by norm_num), if_pos (by norm_num), rd_vec_ok (by omega), bind_ok, rd_vec_ok (by omega), bind_ok,
      wr_vec_ok (by omega), bind_ok, bind_ok, bind_ok, wr_vec_ok (by omega)]
    congr 1
    apply vec_ext
    intro i _
    rw [show oo + 2 ^ 1 / 2 = oo + 1 by norm_num]
    by_cases e1 : i = oo + 1
    · subst e1
      rw [Function.update_self, if_pos (by omega), Nat.add_sub_cancel_left]
      exact ((hS.one ls io hP).2).symm
    · rw [Function.update_of_ne e1]
      by_cases e0 : i = oo
      · subst e0
        rw [Function.update_self, if_pos (by omega), Nat.sub_self]
        exact ((hS.one ls io hP).1).symm
      · rw [Function.update_of_ne e0, if_neg (by omega)]
  | p + 2, ih, hP, hp, hfuel, hio, hoo =>
    set M := 2 ^ p with hM
    have hM1 : 1 ≤ M := Nat.one_le_two_pow
    have h4 : 2 ^ (p + 2) = 4 * M := by rw [pow_add, hM]; ring
    have h2 : 2 ^ (p + 1) = 2 * M := by rw [pow_add, hM]; ring
    have hMb : M ≤ 2 ^ 27 := Nat.pow_le_pow_right (by norm_num) (by omega)
    have hs1 : 1 ≤ 2 ^ ls := Nat.one_le_two_pow
    set s := 2 ^ ls with hs
    rw [h4] at hio hoo
    have hs2 : s * 2 = 2 ^ (ls + 1) := by rw [pow_succ, hs]
    have hs4 : s * 4 = 2 ^ (ls + 2) := by rw [pow_add, ← hs]; norm_num
    have hio' : io + (4 * M - 1) * s < L := hio
    have hbig : (4 * M - 1) * s = 4 * (M * s) - s := by
      rw [Nat.sub_mul, one_mul, mul_assoc]
    have hMs : s ≤ M * s := Nat.le_mul_of_pos_left _ hM1
    rw [h4, if_neg (by omega), if_neg (by omega), show 4 * M / 2 = 2 * M by omega, show 4 * M / 4 = M by omega,
      ← h2, hs2, ih (p + 1) (by omega) (ls + 1) (by omega) (by omega) fuel (by omega) io oo
        (by
          rw [h2, ← hs2]
          have : (2 * M - 1) * (s * 2) = 4 * (M * s) - 2 * s := by
            rw [Nat.sub_mul, one_mul]; ring_nf
          omega) (by rw [h2]; omega) o, bind_ok, h2]
    rw [hs4, hM, ih p (by omega) (ls + 2) (by omega) (by omega) fuel (by omega) (io + s) (oo + 2 * 2 ^ p)
        (by
          rw [← hs4, ← hM]
          have : (M - 1) * (s * 4) = 4 * (M * s) - 4 * s := by
            rw [Nat.sub_mul, one_mul]; ring_nf
          omega) (by rw [← hM]; omega) _, bind_ok]
    rw [← hM]
    have hprod : intProd 3 (4 * M) = .ok (12 * M) := by
      unfold intProd
      rw [if_pos (by omega)]
      congr 1; ring
    rw [hprod, bind_ok, show 12 * M / 4 = 3 * M by omega, hM, ih p (by omega) (ls + 2) (by omega) (by omega) fuel (by omega)
        (io + 3 * s) (oo + 3 * 2 ^ p)
        (by
          rw [← hs4, ← hM]
          have : (M - 1) * (s * 4) = 4 * (M * s) - 4 * s := by
            rw [Nat.sub_mul, one_mul]; ring_nf
          omega) (by rw [← hM]; omega) _, bind_ok]
    rw [← hM]
    have hlut : ∀ k < M, rd lut1 (k * 2 ^ ls) = .ok ((W ^ s) ^ k) ∧ rd lut3 (k * 2 ^ ls) = .ok ((W ^ s) ^ (3 * k)) := by
      intro k hk
      have hlt : k * s < 2 ^ P / 4 := by
        have : 2 ^ P = 4 * (M * s) := by rw [← hP, hM, hs, pow_add, pow_add]; ring
        rw [this, Nat.mul_div_cancel_left _ (by norm_num)]
        exact Nat.mul_lt_mul_of_pos_right hk hs1
      obtain ⟨a, b⟩ := ht _ hlt
      rw [← hs, a, b, ← pow_mul, ← pow_mul]
      refine ⟨by rw [mul_comm k s], ?_⟩
      congr 2; ring
    rw [splitRadix_level hM1 hoo (fun k hk => (hlut k hk).1) (fun k hk => (hlut k hk).2) _
      (S (p + 2) ls io)]
    · congr 1
      apply vec_ext
      intro i _
      by_cases c : oo ≤ i ∧ i < oo + 4 * M
      · rw [if_pos c, if_pos c]
      · rw [if_neg c, if_neg c, if_neg (by omega), if_neg (by omega), if_neg (by omega)]
    · intro k hk
      have hq := hS.step p ls io hP k (by rw [← hM]; exact hk)
      rw [← hM, ← hs] at hq
      have c1 : oo + (k + 2 * M) - (oo + 2 * M) = k := by omega
      have c2 : oo + (k + 3 * M) - (oo + 3 * M) = k := by omega
      have c3 : oo + k - oo = k := by omega
      have c4 : oo + (k + M) - oo = k + M := by omega
      rw [if_neg (show ¬ (oo + 3 * M ≤ oo + k ∧ oo + k < oo + 3 * M + M) by omega),
        if_neg (show ¬ (oo + 2 * M ≤ oo + k ∧ oo + k < oo + 2 * M + M) by omega),
        if_pos (show oo ≤ oo + k ∧ oo + k < oo + 2 * M by omega), c3]
      rw [if_pos (show oo + 3 * M ≤ oo + (k + 3 * M) ∧ oo + (k + 3 * M) < oo + 3 * M + M by omega), c2]
      rw [if_neg (show ¬ (oo + 3 * M ≤ oo + (k + 2 * M) ∧ oo + (k + 2 * M) < oo + 3 * M + M) by omega),
        if_pos (show oo + 2 * M ≤ oo + (k + 2 * M) ∧ oo + (k + 2 * M) < oo + 2 * M + M by omega), c1]
      rw [if_neg (show ¬ (oo + 3 * M ≤ oo + (k + M) ∧ oo + (k + M) < oo + 3 * M + M) by omega),
        if_neg (show ¬ (oo + 2 * M ≤ oo + (k + M) ∧ oo + (k + M) < oo + 2 * M + M) by omega),
        if_pos (show oo ≤ oo + (k + M) ∧ oo + (k + M) < oo + 2 * M by omega), c4]
      exact hq

/-- Fourier sums satisfy the recursion when `W ^ (n / 4) = -i`. -/
theorem splitRec_dft {P : ℕ} {W : ℂ} (hW4 : 2 ≤ P → W ^ 2 ^ (P - 2) = -I) (hW2 : P = 1 → W = -1) (fi : ℕ → ℂ) :
    SplitRec P W fi (fun p ls io => Spec.dftRoot (2 ^ p) (W ^ 2 ^ ls) (fun j => fi (io + j * 2 ^ ls))) where
  zero := fun ls io => by simp [Spec.dftRoot]
  one := fun ls io hP => by
    have hroot : W ^ 2 ^ ls = -1 := by
      rcases Nat.lt_or_ge P 2 with h | h
      · obtain rfl : ls = 0 := by omega
        rw [pow_zero, pow_one]; exact hW2 (by omega)
      · have := hW4 h
        rw [show 2 ^ ls = 2 ^ (P - 2) * 2 by rw [← pow_succ]; congr 1; omega, pow_mul, this]
        simp
    constructor
    · simp [Spec.dftRoot, sum_range_succ]
    · simp [Spec.dftRoot, sum_range_succ, hroot]
      ring
  step := fun p ls io hP k _ => by
    dsimp only
    have hω : (W ^ 2 ^ ls) ^ 2 ^ p = -I := by
      rw [← pow_mul, ← pow_add, show ls + p = P - 2 by omega]
      exact hW4 (by omega)
    have hq := dftRoot_quarter hω (fun j => fi (io + j * 2 ^ ls)) k
    have hr2 : W ^ 2 ^ (ls + 1) = (W ^ 2 ^ ls) ^ 2 := by rw [← pow_mul, pow_succ]
    have hr4 : W ^ 2 ^ (ls + 2) = (W ^ 2 ^ ls) ^ 4 := by rw [← pow_mul, pow_add]; norm_num
    have g0 : (fun j => fi (io + j * 2 ^ (ls + 1))) = fun j => fi (io + j * 2 * 2 ^ ls) := by
      funext j; congr 1; ring
    have g1 : (fun j => fi (io + 2 ^ ls + j * 2 ^ (ls + 2))) = fun j => fi (io + (1 + j * 4) * 2 ^ ls) := by
      funext j; congr 1; ring
    have g3 : (fun j => fi (io + 3 * 2 ^ ls + j * 2 ^ (ls + 2))) = fun j => fi (io + (3 + j * 4) * 2 ^ ls) := by
      funext j; congr 1; ring
    rw [g0, g1, g3, hr2, hr4, show 2 ^ (p + 2) = 4 * 2 ^ p by ring, show 2 ^ (p + 1) = 2 * 2 ^ p by ring]
    exact hq

/-- The recursion solved by definition, for any `W`. -/
def splitSol (W : ℂ) (fi : ℕ → ℂ) : ℕ → ℕ → ℕ → ℕ → ℂ
  | 0, _, io, _ => fi io
  | 1, ls, io, k => if k = 0 then fi io + fi (io + 2 ^ ls) else fi io - fi (io + 2 ^ ls)
  | p + 2, ls, io, k =>
    let r := k % 2 ^ p
    let a := (W ^ 2 ^ ls) ^ r * splitSol W fi p (ls + 2) (io + 2 ^ ls) r
    let b := (W ^ 2 ^ ls) ^ (3 * r) * splitSol W fi p (ls + 2) (io + 3 * 2 ^ ls) r
    if k / 2 ^ p = 0 then splitSol W fi (p + 1) (ls + 1) io r + (a + b)
    else if k / 2 ^ p = 1 then splitSol W fi (p + 1) (ls + 1) io (r + 2 ^ p) - I * (a - b)
    else if k / 2 ^ p = 2 then splitSol W fi (p + 1) (ls + 1) io r - (a + b)
    else splitSol W fi (p + 1) (ls + 1) io (r + 2 ^ p) + I * (a - b)

theorem splitRec_sol (P : ℕ) (W : ℂ) (fi : ℕ → ℂ) : SplitRec P W fi (splitSol W fi) where
  zero := fun ls io => rfl
  one := fun ls io _ => ⟨rfl, rfl⟩
  step := fun p ls io _ k hk => by
    dsimp only
    have hp : 0 < 2 ^ p := Nat.two_pow_pos p
    have hd : ∀ q, (k + q * 2 ^ p) / 2 ^ p = q := fun q => by
      rw [Nat.add_mul_div_right _ _ hp, Nat.div_eq_of_lt hk, zero_add]
    have hm : ∀ q, (k + q * 2 ^ p) % 2 ^ p = k := fun q => by
      rw [Nat.add_mul_mod_self_right, Nat.mod_eq_of_lt hk]
    refine ⟨?_, ?_, ?_, ?_⟩
    · have h1 := hd 0
      have h2 := hm 0
      rw [zero_mul, add_zero] at h1 h2
      rw [splitSol]
      simp only [h1, h2, if_true]
    · rw [splitSol]
      simp [hd 2, hm 2]
    · have h1 := hd 1
      have h2 := hm 1
      rw [one_mul] at h1 h2
      rw [splitSol]
      simp [h1, h2]
    · rw [splitSol]
      simp [hd 3, hm 3]

/-- A lone first sample gives a constant, whatever the twiddle factors are. -/
theorem splitSol_delta (W a : ℂ) : ∀ p ls io (fi : ℕ → ℂ),
    (∀ j < 2 ^ p, fi (io + j * 2 ^ ls) = if j = 0 then a else 0) → ∀ k, splitSol W fi p ls io k = a := by
  intro p
  induction p using Nat.strong_induction_on generalizing a with
  | _ p ih =>
  intro ls io fi h k
  match p, ih, h with
  | 0, _, h =>
    have := h 0 (by norm_num)
    simp only [zero_mul, add_zero, if_true] at this
    rw [splitSol, this]
  | 1, _, h =>
    have h0 := h 0 (by norm_num)
    have h1 := h 1 (by norm_num)
    simp at h0 h1
    rw [splitSol]
    simp [h0, h1]
  | p + 2, ih, h =>
    have h4 : 2 ^ (p + 2) = 4 * 2 ^ p := by ring
    have h2 : 2 ^ (p + 1) = 2 * 2 ^ p := by ring
    have hU : ∀ k, splitSol W fi (p + 1) (ls + 1) io k = a := by
      refine ih (p + 1) (by omega) a (ls + 1) io fi (fun j hj => ?_)
      rw [show io + j * 2 ^ (ls + 1) = io + (2 * j) * 2 ^ ls by ring, h (2 * j) (by omega)]
      simp
    have hZ : ∀ k, splitSol W fi p (ls + 2) (io + 2 ^ ls) k = 0 := by
      refine ih p (by omega) 0 (ls + 2) _ fi (fun j hj => ?_)
      rw [show io + 2 ^ ls + j * 2 ^ (ls + 2) = io + (4 * j + 1) * 2 ^ ls by ring, h (4 * j + 1) (by omega)]
      simp
    have hZ' : ∀ k, splitSol W fi p (ls + 2) (io + 3 * 2 ^ ls) k = 0 := by
      refine ih p (by omega) 0 (ls + 2) _ fi (fun j hj => ?_)
      rw [show io + 3 * 2 ^ ls + j * 2 ^ (ls + 2) = io + (4 * j + 3) * 2 ^ ls by ring, h (4 * j + 3) (by omega)]
      simp
    rw [splitSol]
    simp [hU, hZ, hZ']

end Neo
