import Verif.Lemmas.DigitRev
import Verif.Lemmas.Sums

/-!
# Decimation in time for an arbitrary radix

`ditPartial R b s ω X i` is the value at index `i` after `s` stages of a radix-`R`
decimation-in-time transform of size `R^b` whose input was digit reversed.
-/

namespace Neo

open Finset

variable {A : Type} [CommRing A]

/-- State after `s` decimation-in-time stages. -/
def ditPartial (R b s : ℕ) (ω : A) (X : ℕ → A) (i : ℕ) : A :=
  ∑ t ∈ range (R ^ s),
    X (digitRev R (b - s) (i / R ^ s) + t * R ^ (b - s)) * ω ^ ((i % R ^ s) * t * R ^ (b - s))

theorem ditPartial_zero (R b : ℕ) (ω : A) (X : ℕ → A) (i : ℕ) :
    ditPartial R b 0 ω X i = X (digitRev R b i) := by
  simp [ditPartial]

theorem ditPartial_last (R b : ℕ) (ω : A) (X : ℕ → A) {i : ℕ} (hi : i < R ^ b) :
    ditPartial R b b ω X i = Spec.dftRoot (R ^ b) ω X i := by
  unfold ditPartial Spec.dftRoot
  apply sum_congr rfl
  intro t _
  rw [Nat.mod_eq_of_lt hi]
  simp [digitRev, Nat.mul_comm]

/-- One decimation-in-time stage is an `R`-point transform of twiddled values. -/
theorem ditPartial_succ {R b s : ℕ} (hR : 0 < R) (hs : s < b) {ω : A} (hω : ω ^ R ^ b = 1)
    (X : ℕ → A) (i : ℕ) :
    ditPartial R b (s + 1) ω X i =
      ∑ u ∈ range R, ω ^ ((i % R ^ (s + 1)) * u * R ^ (b - s - 1)) *
        ditPartial R b s ω X (i / R ^ (s + 1) * R ^ (s + 1) + u * R ^ s + i % R ^ s) := by
  unfold ditPartial
  have hL : 0 < R ^ s := by positivity
  rw [pow_succ R s, sum_range_mul', sum_comm]
  apply sum_congr rfl
  intro u hu
  have hu : u < R := mem_range.1 hu
  rw [mul_sum]
  apply sum_congr rfl
  intro t _
  set L := R ^ s with hLdef
  set q := i / (L * R) with hq
  have hM : R ^ (b - s) = R * R ^ (b - s - 1) := by
    rw [← pow_succ']; congr 1; omega
  have hM' : b - (s + 1) = b - s - 1 := by omega
  set M := R ^ (b - s - 1) with hMdef
  have hN : R ^ b = L * (R * M) := by
    rw [hLdef, hMdef, ← pow_succ', ← pow_add]; congr 1; omega
  have e1 : (q * (L * R) + u * L + i % L) / L = q * R + u := by
    rw [show q * (L * R) + u * L + i % L = L * (q * R + u) + i % L by ring,
      Nat.mul_add_div hL, Nat.div_eq_of_lt (Nat.mod_lt _ hL), add_zero]
  have e2 : (q * (L * R) + u * L + i % L) % L = i % L := by
    rw [show q * (L * R) + u * L + i % L = L * (q * R + u) + i % L by ring,
      Nat.mul_add_mod, Nat.mod_mod]
  rw [e1, e2, hM', hM]
  have e3 : digitRev R (b - s) (q * R + u) = u * M + digitRev R (b - s - 1) q := by
    have : b - s = (b - s - 1) + 1 := by omega
    rw [this, digitRev_mul_add _ _ _ hu]; rfl
  rw [e3]
  -- exponents
  obtain ⟨p, hp⟩ : ∃ p, i % (L * R) = i % L + L * p :=
    ⟨i / L % R, by rw [Nat.mod_mul]⟩
  rw [hp]
  have e4 : digitRev R (b - s - 1) q + (t * R + u) * M
      = u * M + digitRev R (b - s - 1) q + t * (R * M) := by ring
  rw [e4]
  have e5 : (i % L + L * p) * (t * R + u) * M
      = (i % L + L * p) * u * M + i % L * t * (R * M) + (L * (R * M)) * (p * t) := by ring
  rw [e5, pow_add, pow_add, ← hN, pow_mul ω (R ^ b), hω, one_pow]
  ring

end Neo
