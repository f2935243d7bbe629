import Verif.Lemmas.PyRadix4
import Verif.Lemmas.Backend

/-! # C85: the FFTs of `radix4.py` -/

namespace Neo.Props

open Neo

/-- For two or more digits `digitreversal` moves the element at `i` to the reversal of the digits of `i`, in any
radix from 2. -/
theorem C85_digitreversal {α : Type} {R L : ℕ} (hR : 2 ≤ R) (hL : 2 ≤ L) (x : List α) (hx : x.length = R ^ L) :
    ∃ y, pyDigitReversal x R L (R ^ L) = .ok y ∧ y.length = R ^ L ∧
      ∀ i r, i < R ^ L → Spec.IsDigitRev R L i r → y[r]? = x[i]? := by
  have hR0 : 0 < R := by omega
  have h0 : 0 < x.length := by rw [hx]; positivity
  obtain ⟨d⟩ : Nonempty α := ⟨x[0]⟩
  rw [list_eq_vec d hx]
  refine ⟨_, pyDigitReversal_vec hR L hL _, length_vec .., ?_⟩
  intro i r hi hr
  rw [digitRev_unique hR0 hr, getElem?_vec, getElem?_vec, if_pos (digitRev_lt hR0 L i),
    if_pos hi, digitRev_invol hR0 hi]

/-- With no or one digit there is nothing to do, but the seed table has one entry and its entry 1 is
assigned: the function raises. -/
theorem C85_short {α : Type} {R L : ℕ} (hR : 2 ≤ R) (hL : L ≤ 1) (x : List α) (hx : x.length = R ^ L) :
    pyDigitReversal x R L (R ^ L) = .error .oob :=
  pyDigitReversal_short hR L hL x hx

theorem dftRoot_root_forward (n : ℕ) (X : ℕ → ℂ) : Spec.dftRoot n (root n .forward) X = Spec.dft n X :=
  funext (dftRoot_forward n X)

/-- Radix 4, decimation in frequency (`testr4dif`, `foo`). -/
theorem C85_radix4_dif {L : ℕ} (hL : 2 ≤ L) (X : ℕ → ℂ) :
    pyRadix4Dif (vec (4 ^ L) X) L = .ok (vec (4 ^ L) (Spec.dft (4 ^ L) X)) := by
  unfold pyRadix4Dif
  dsimp only
  rw [pyDifFft4_vec, bind_ok, pyDigitReversal_vec (by norm_num) L hL, ← dftRoot_root_forward]
  congr 1
  exact vec_ext (fun i hi => by rw [digitRev_invol (by norm_num) hi])

/-- Radix 4, decimation in time (`testr4`). -/
theorem C85_radix4_dit {L : ℕ} (hL : 2 ≤ L) (X : ℕ → ℂ) :
    pyRadix4Dit (vec (4 ^ L) X) L = .ok (vec (4 ^ L) (Spec.dft (4 ^ L) X)) := by
  unfold pyRadix4Dit
  dsimp only
  rw [pyDigitReversal_vec (by norm_num) L hL, bind_ok, pyFft4_vec, dftRoot_root_forward]

/-- Radix 2, decimation in frequency (`testr2dif`). -/
theorem C85_radix2_dif {L : ℕ} (hL : 2 ≤ L) (X : ℕ → ℂ) :
    pyRadix2Dif (vec (2 ^ L) X) L = .ok (vec (2 ^ L) (Spec.dft (2 ^ L) X)) := by
  unfold pyRadix2Dif
  dsimp only
  rw [pyDifFft2_vec, bind_ok, pyDigitReversal_vec (by norm_num) L hL, ← dftRoot_root_forward]
  congr 1
  exact vec_ext (fun i hi => by rw [digitRev_invol (by norm_num) hi])

/-- Radix 2, decimation in time (`testr2`). -/
theorem C85_radix2_dit {L : ℕ} (hL : 2 ≤ L) (X : ℕ → ℂ) :
    pyRadix2Dit (vec (2 ^ L) X) L = .ok (vec (2 ^ L) (Spec.dft (2 ^ L) X)) := by
  unfold pyRadix2Dit
  dsimp only
  rw [pyDigitReversal_vec (by norm_num) L hL, bind_ok, pyFft2_vec (by omega), dftRoot_root_forward]

/-- The transforms without the permutation work for every length, `4` and `2` included. -/
theorem C85_no_permutation (L : ℕ) (X : ℕ → ℂ) :
    (∀ i r, i < 4 ^ L → Spec.IsDigitRev 4 L i r → ∃ y, pyDifFft4 (vec (4 ^ L) X) (pyTwiddles4 (4 ^ L)) L = .ok y ∧
      y[i]? = some (Spec.dft (4 ^ L) X r)) ∧
    (∀ i r, i < 2 ^ L → Spec.IsDigitRev 2 L i r → ∃ y, pyDifFft2 (vec (2 ^ L) X) (pyTwiddles2 (2 ^ L)) L = .ok y ∧
      y[i]? = some (Spec.dft (2 ^ L) X r)) := by
  refine ⟨fun i r hi hr => ⟨_, pyDifFft4_vec L X, ?_⟩, fun i r hi hr => ⟨_, pyDifFft2_vec L X, ?_⟩⟩
  · rw [getElem?_vec, if_pos hi, dftRoot_root_forward, digitRev_unique (by norm_num) hr]
  · rw [getElem?_vec, if_pos hi, dftRoot_root_forward, digitRev_unique (by norm_num) hr]

/-- The four drivers fail on the shortest inputs. -/
theorem C85_drivers_short {L : ℕ} (hL : L ≤ 1) (X : ℕ → ℂ) :
    pyRadix4Dif (vec (4 ^ L) X) L = .error .oob ∧ pyRadix4Dit (vec (4 ^ L) X) L = .error .oob ∧
    pyRadix2Dif (vec (2 ^ L) X) L = .error .oob ∧ pyRadix2Dit (vec (2 ^ L) X) L = .error .oob := by
  unfold pyRadix4Dif pyRadix4Dit pyRadix2Dif pyRadix2Dit
  dsimp only
  rw [pyDifFft4_vec, bind_ok, pyDifFft2_vec, bind_ok, C85_short (by norm_num) hL _ (length_vec ..),
    C85_short (by norm_num) hL _ (length_vec ..), C85_short (by norm_num) hL _ (length_vec ..),
    C85_short (by norm_num) hL _ (length_vec ..)]
  exact ⟨rfl, rfl, rfl, rfl⟩

/-- Eight elements in radix 2: an odd number of digits. -/
example : pyDigitReversal [0, 1, 2, 3, 4, 5, 6, 7] 2 3 8 = .ok [0, 4, 2, 6, 1, 5, 3, 7] := by decide +kernel

/-- Sixteen elements in radix 4: an even number of digits. -/
example : pyDigitReversal (List.range 16) 4 2 16 = .ok [0, 4, 8, 12, 1, 5, 9, 13, 2, 6, 10, 14, 3, 7, 11, 15] := by
  decide +kernel

/-- The smallest radix-4 transform the script can do has 16 points. -/
example : pyRadix4Dif (vec (4 ^ 2) (fun n => n)) 2 = .ok (vec (4 ^ 2) (Spec.dft (4 ^ 2) (fun n => n))) :=
  C85_radix4_dif le_rfl _

end Neo.Props
