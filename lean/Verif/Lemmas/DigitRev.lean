import Verif.Spec.Dft
import Mathlib.Tactic.Ring
import Mathlib.Tactic.NormNum

/-!
# Digit reversal: recursive description and its properties
-/

namespace Neo

/-- Reversal of the `b` low base-`R` digits of `i` (lowest digit becomes the highest). -/
def digitRev (R : ℕ) : ℕ → ℕ → ℕ
  | 0, _ => 0
  | b + 1, i => (i % R) * R ^ b + digitRev R b (i / R)

theorem digitRev_lt {R : ℕ} (hR : 0 < R) (b i : ℕ) : digitRev R b i < R ^ b := by
  induction b generalizing i with
  | zero => simp [digitRev]
  | succ b ih =>
    have h1 := ih (i / R)
    have h2 : i % R ≤ R - 1 := by have := Nat.mod_lt i hR; omega
    have h3 : (i % R) * R ^ b ≤ (R - 1) * R ^ b := Nat.mul_le_mul_right _ h2
    have h4 : (R - 1) * R ^ b + R ^ b = R ^ (b + 1) := by
      rw [pow_succ, mul_comm (R ^ b) R, ← Nat.succ_mul]; congr 1; omega
    simp only [digitRev]; omega

theorem digitRev_spec {R : ℕ} (hR : 0 < R) (b i : ℕ) : Spec.IsDigitRev R b i (digitRev R b i) := by
  refine ⟨digitRev_lt hR b i, ?_⟩
  induction b generalizing i with
  | zero => intro j hj; omega
  | succ b ih =>
    intro j hj
    simp only [digitRev]
    by_cases hjb : j = b
    · subst hjb
      rw [Nat.mul_comm, Nat.mul_add_div (by positivity), Nat.div_eq_of_lt (digitRev_lt hR _ _)]
      simp
    · have hj' : j < b := by omega
      have e : R ^ b = R ^ j * (R * R ^ (b - 1 - j)) := by
        rw [← pow_succ', ← pow_add]; congr 1; omega
      have : i % R * R ^ b + digitRev R b (i / R)
          = R ^ j * (R * (R ^ (b - 1 - j) * (i % R))) + digitRev R b (i / R) := by
        rw [e]; ring
      rw [this, Nat.mul_add_div (by positivity), Nat.mul_add_mod, ih _ j hj',
        Nat.div_div_eq_div_mul, ← pow_succ']
      congr 3; omega

/-- Numbers below `R^b` are determined by their digits. -/
theorem eq_of_digits {R : ℕ} (hR : 0 < R) {b x y : ℕ} (hx : x < R ^ b) (hy : y < R ^ b)
    (h : ∀ j < b, x / R ^ j % R = y / R ^ j % R) : x = y := by
  induction b generalizing x y with
  | zero => simp at hx hy; omega
  | succ b ih =>
    have h0 : x % R = y % R := by simpa using h 0 (by omega)
    have h1 : x / R = y / R := by
      apply ih
      · rw [Nat.div_lt_iff_lt_mul hR]; rwa [pow_succ] at hx
      · rw [Nat.div_lt_iff_lt_mul hR]; rwa [pow_succ] at hy
      · intro j hj
        have := h (j + 1) (by omega)
        rw [pow_succ', ← Nat.div_div_eq_div_mul, ← Nat.div_div_eq_div_mul] at this
        exact this
    rw [← Nat.div_add_mod x R, ← Nat.div_add_mod y R, h0, h1]

/-- The specification determines the reversal uniquely. -/
theorem digitRev_unique {R : ℕ} (hR : 0 < R) {b i r : ℕ} (h : Spec.IsDigitRev R b i r) :
    r = digitRev R b i := by
  refine eq_of_digits hR h.1 (digitRev_lt hR b i) (fun j hj => ?_)
  rw [h.2 j hj, (digitRev_spec hR b i).2 j hj]

theorem digitRev_invol {R : ℕ} (hR : 0 < R) {b i : ℕ} (hi : i < R ^ b) :
    digitRev R b (digitRev R b i) = i := by
  symm
  apply digitRev_unique hR
  refine ⟨hi, fun j hj => ?_⟩
  rw [(digitRev_spec hR b i).2 (b - 1 - j) (by omega)]
  congr 3; omega

theorem digitRev_mul_add {R : ℕ} (b q u : ℕ) (hu : u < R) :
    digitRev R (b + 1) (q * R + u) = u * R ^ b + digitRev R b q := by
  have hR : 0 < R := by omega
  simp only [digitRev]
  rw [Nat.mul_comm q R, Nat.mul_add_mod, Nat.mod_eq_of_lt hu, Nat.mul_add_div hR,
    Nat.div_eq_of_lt hu]
  simp

end Neo
