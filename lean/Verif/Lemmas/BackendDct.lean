import Verif.Model.BackendDct
import Verif.Lemmas.BackendReach
import Verif.Lemmas.DctOrtho

/-! # States of the IPP cosine plans -/

namespace Neo

variable {v : DctVendor}

/-- Plans after any number of successful calls, starting with the result of a constructor. -/
def IppDctReachable (v : DctVendor) (start : Res IppDctPlan) : IppDctPlan → Prop :=
  Reach (fun p => start = .ok p) (fun p p' => ∃ x y, p.call v x = .ok (p', y))

/-- The transform of a direction. -/
noncomputable def dctOf (dir : Direction) (N : ℕ) (x : ℕ → ℝ) : ℕ → ℝ :=
  if dir = .forward then Spec.dct2Ortho N x else Spec.dct3Ortho N x

theorem castInt_pow {b : ℕ} (hb : b < 31) : castInt (2 ^ b) = (2 ^ b : ℕ) := by
  have h : 2 ^ b < 2 ^ 31 := Nat.pow_lt_pow_right (by norm_num) hb
  unfold castInt
  rw [Nat.mod_eq_of_lt (lt_trans h (by norm_num)), if_pos h]

theorem castInt_pow_big {b : ℕ} (hb : 31 ≤ b) : castInt (2 ^ b) ≤ 0 := by
  obtain ⟨c, rfl⟩ := Nat.exists_eq_add_of_le hb
  unfold castInt
  rcases c with _ | c
  · norm_num
  · have : 2 ^ (31 + (c + 1)) % 2 ^ 32 = 0 := by
      rw [show 31 + (c + 1) = 32 + c by ring, pow_add]
      exact Nat.mul_mod_right _ _
    rw [this]
    norm_num

noncomputable def ippDctOf (dir : Direction) (b : ℕ) (f : ℕ → ℝ) : IppDctPlan :=
  { dir := dir, order := b, buffer := vec (2 ^ b) f, handle := (2 ^ b : ℕ) }

theorem ippDct_make_eq {dir : Direction} {b : ℕ} (hb : b < 31) (hs : v.setup dir (2 ^ b : ℕ) = true) :
    IppDctPlan.make v dir b = .ok (ippDctOf dir b (fun _ => 0)) := by
  unfold IppDctPlan.make ippDctHandle
  rw [sizeOfOrder_ok (by omega), bind_ok, bind_ok, castInt_pow hb]
  dsimp only
  rw [if_pos hs, bind_ok]
  rfl

theorem ippDct_make_ok (hv : v.Contract) {dir : Direction} {b : ℕ} {p : IppDctPlan}
    (h : IppDctPlan.make v dir b = .ok p) : b < 31 ∧ p = ippDctOf dir b (fun _ => 0) := by
  unfold IppDctPlan.make ippDctHandle at h
  obtain ⟨n, hn, h⟩ := bind_eq_ok h
  obtain ⟨hb, rfl⟩ := sizeOfOrder_eq_ok hn
  obtain ⟨l, hl, h⟩ := bind_eq_ok h
  rw [hn, bind_ok] at hl
  dsimp only at hl
  split at hl
  · rename_i hs
    have hp := hv.setup _ _ hs
    have hb' : b < 31 := by
      by_contra hc
      have := castInt_pow_big (not_lt.1 hc)
      omega
    injection hl with hl
    rw [pure_eq_ok] at h
    injection h with h
    refine ⟨hb', ?_⟩
    rw [← h, ← hl, castInt_pow hb']
    rfl
  · cases hl

theorem run_vec (hv : v.Contract) (dir : Direction) (n : ℕ) (f : ℕ → ℝ) :
    v.run dir n (vec n f) = vec n (dctOf dir n f) := by
  obtain ⟨hl, h⟩ := hv.run dir n (vec n f) (by simp)
  rw [list_eq_vec 0 hl]
  refine vec_ext (fun k hk => ?_)
  rw [List.getD_eq_getElem?_getD, h k hk]
  have hf : ∀ i < n, (vec n f).getD i 0 = f i := fun i hi => by rw [List.getD_eq_getElem?_getD, getElem?_vec, if_pos hi]; rfl
  unfold dctOf
  split_ifs
  · rw [Option.getD_some]; exact dct2Ortho_congr hf k
  · rw [Option.getD_some]; exact dct3Ortho_congr hf k

theorem ippDct_call (hv : v.Contract) (dir : Direction) (b : ℕ) (f x : ℕ → ℝ) :
    (ippDctOf dir b f).call v (vec (2 ^ b) x) =
      .ok (ippDctOf dir b (dctOf dir (2 ^ b) x), vec (2 ^ b) (dctOf dir (2 ^ b) x)) := by
  unfold IppDctPlan.call ippDctOf
  dsimp only
  rw [copyVec_vec, bind_ok, Int.toNat_natCast, rdSpan_full, bind_ok, run_vec hv, wrSpan_full, bind_ok,
    copyVec_vec, bind_ok, pure_eq_ok]

theorem ippDctReachable_form (hv : v.Contract) {dir : Direction} {b : ℕ} {p : IppDctPlan}
    (h : IppDctReachable v (IppDctPlan.make v dir b) p) : b < 31 ∧ ∃ f, p = ippDctOf dir b f := by
  induction h with
  | init h => exact ⟨(ippDct_make_ok hv h).1, _, (ippDct_make_ok hv h).2⟩
  | step _ h ih =>
    obtain ⟨hb, f, rfl⟩ := ih
    obtain ⟨x, y, h⟩ := h
    have hx : x.length = 2 ^ b := by
      by_contra hc
      unfold IppDctPlan.call at h
      rw [copyVec_bad (by rw [ippDctOf]; simpa using hc), bind_error] at h
      cases h
    have e := ippDct_call hv dir b f (fun i => x.getD i 0)
    rw [← list_eq_vec 0 hx, h] at e
    exact ⟨hb, _, (ok_fst e.symm)⟩

end Neo
