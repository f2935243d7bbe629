import Verif.Lemmas.SplitRadix
import Verif.Lemmas.Out

/-! # C70: the recursive split-radix FFT of the snippets -/

namespace Neo.Props

open Neo Finset Complex

theorem splitRadixW_eq (n i : ℕ) : splitRadixW n i = root n .forward ^ i := by
  unfold splitRadixW
  rw [polar_eq_exp, root_pow_eq]
  congr 1
  simp
  ring

theorem conj_root (n i : ℕ) : starRingEnd ℂ (root n .forward ^ i) = root n .backward ^ i := by
  rw [root_pow_eq, root_pow_eq, ← Complex.exp_conj]
  congr 1
  simp [Complex.conj_ofNat]
  ring

/-- The tables of the constructor. -/
theorem splitRadix_make (n : ℕ) : SplitRadixPlan.make n = .ok
    (SplitRadixPlan.mk n (vec (n / 4) (fun i => root n .forward ^ i)) (vec (n / 4) (fun i => root n .forward ^ (3 * i)))
      (vec (n / 4) (fun i => root n .backward ^ i)) (vec (n / 4) (fun i => root n .backward ^ (3 * i)))) := by
  unfold SplitRadixPlan.make
  simp only []
  have hz : (List.replicate (n / 4) (0 : ℂ)) = vec (n / 4) (fun _ => 0) := by simp [vec]
  let st : (ℕ → ℂ) → ℕ → List ℂ := fun f t => vec (n / 4) (fun i => if i < t then f i else 0)
  have hst0 : ∀ f, st f 0 = List.replicate (n / 4) 0 := by
    intro f; rw [hz]; exact vec_ext (fun i _ => by rw [if_neg (Nat.not_lt_zero _)])
  have hstn : ∀ f, st f (n / 4) = vec (n / 4) f := by
    intro f; exact vec_ext (fun i hi => by rw [if_pos hi])
  have hup : ∀ f t, t < n / 4 → wr (st f t) t (f t) = .ok (st f (t + 1)) := by
    intro f t ht
    show wr (vec _ _) t _ = _
    rw [wr_vec_ok ht]
    congr 1
    apply vec_ext
    intro i _
    by_cases e : i = t
    · subst e; simp
    · rw [Function.update_of_ne e]
      have : i < t + 1 ↔ i < t := by omega
      simp only [this]
  have hrd : ∀ f t, t < n / 4 → rd (st f (t + 1)) t = .ok (f t) := by
    intro f t ht
    show rd (vec _ _) t = _
    rw [rd_vec_ok ht, if_pos (by omega)]
  refine forN_eq' (fun t => SplitRadixPlan.mk n (st (fun i => root n .forward ^ i) t)
    (st (fun i => root n .forward ^ (3 * i)) t) (st (fun i => root n .backward ^ i) t)
    (st (fun i => root n .backward ^ (3 * i)) t)) ?_ ?_ ?_
  · simp only [hst0]
  · simp only [hstn]
  · intro t ht
    simp only []
    rw [splitRadixW_eq, splitRadixW_eq]
    have h1 := hup (fun i => root n .forward ^ i) t ht
    have h2 := hup (fun i => root n .forward ^ (3 * i)) t ht
    have h3 := hup (fun i => root n .backward ^ i) t ht
    have h4 := hup (fun i => root n .backward ^ (3 * i)) t ht
    have r1 := hrd (fun i => root n .forward ^ i) t ht
    have r2 := hrd (fun i => root n .forward ^ (3 * i)) t ht
    rw [h1, bind_ok, h2, bind_ok, r1, bind_ok, conj_root, h3, bind_ok, r2, bind_ok, conj_root, h4, bind_ok]
    rfl

theorem powTables (P : ℕ) (dir : Direction) :
    PowTables P (root (2 ^ P) dir) (vec (2 ^ P / 4) (fun i => root (2 ^ P) dir ^ i))
      (vec (2 ^ P / 4) (fun i => root (2 ^ P) dir ^ (3 * i))) :=
  fun _ hi => ⟨rd_vec_ok hi, rd_vec_ok hi⟩

theorem root_quarter {P : ℕ} (hP : 2 ≤ P) : root (2 ^ P) .forward ^ 2 ^ (P - 2) = -I := by
  rw [root_pow_eq]
  have h : ((2 ^ P : ℕ) : ℂ) = 4 * ((2 ^ (P - 2) : ℕ) : ℂ) := by
    have : 2 ^ P = 4 * 2 ^ (P - 2) := by
      rw [show (4 : ℕ) = 2 ^ 2 by norm_num, ← pow_add]; congr 1; omega
    rw [this]; push_cast; ring
  have hne : ((2 ^ (P - 2) : ℕ) : ℂ) ≠ 0 := by exact_mod_cast (Nat.two_pow_pos _).ne'
  rw [h]
  rw [show (if Direction.forward = Direction.forward then (-1 : ℂ) else 1)
      * (2 * Real.pi * I * ((2 ^ (P - 2) : ℕ) : ℂ) / (4 * ((2 ^ (P - 2) : ℕ) : ℂ))) = -(Real.pi / 2 * I) by
    rw [if_pos rfl]; field_simp; ring]
  rw [Complex.exp_neg, Complex.exp_pi_div_two_mul_I, inv_I]

/-- **C70** (forward): for every power of two up to `2 ^ 29` and every input, the forward call leaves the DFT of the
input in the output buffer; nothing is accessed out of bounds and the recursion ends (at depth `P + 1`). -/
theorem C70_forward_partial (P : ℕ) (hP : P ≤ 29) (x : List ℂ) (hx : x.length = 2 ^ P) (out : List ℂ)
    (ho : out.length = 2 ^ P) (fuel : ℕ) (hf : P + 1 ≤ fuel) :
    ∃ plan y, SplitRadixPlan.make (2 ^ P) = .ok plan ∧ plan.call fuel x out .forward = .ok y ∧
      y.length = 2 ^ P ∧ ∀ k < 2 ^ P, y[k]? = some (Spec.dft (2 ^ P) (fun n => x.getD n 0) k) := by
  refine ⟨_, vec (2 ^ P) (Spec.dft (2 ^ P) (fun n => x.getD n 0)), splitRadix_make _, ?_, length_vec _ _,
    fun k hk => by rw [getElem?_vec, if_pos hk]⟩
  unfold SplitRadixPlan.call
  rw [if_pos rfl]
  dsimp only
  have hxv := list_eq_vec (0 : ℂ) hx
  have hov := list_eq_vec (0 : ℂ) ho
  rw [hov]
  conv_lhs => rw [hxv]
  have := splitfft_gen (P := P) (L := 2 ^ P) (Lo := 2 ^ P) (powTables P .forward) (fun i => x.getD i 0)
    (splitRec_dft (fun h => root_quarter h) (fun h => by
      subst h
      have := root_two_pow (b := 1) le_rfl .forward
      simpa using this) (fun i => x.getD i 0)) P 0 (Nat.zero_add _) hP fuel hf 0 0
      (by have := Nat.two_pow_pos P; simp) (by simp) (fun i => out.getD i 0)
  rw [pow_zero] at this
  rw [this]
  congr 1
  apply vec_ext
  intro i hi
  rw [if_pos ⟨Nat.zero_le _, by omega⟩, ← dftRoot_forward]
  simp

/-- Sixteen samples. -/
example : ∃ plan y, SplitRadixPlan.make (2 ^ 4) = .ok plan ∧
    plan.call 5 ((List.range 16).map (fun i => (i : ℂ))) (List.replicate 16 7) .forward = .ok y ∧ y.length = 16 := by
  obtain ⟨plan, y, h1, h2, h3, -⟩ := C70_forward_partial 4 (by norm_num) ((List.range 16).map (fun i => (i : ℂ)))
    (by simp) (List.replicate 16 7) (by simp) 5 (by norm_num)
  exact ⟨plan, y, h1, h2, h3⟩

/-- **C70** (backward): for one and two samples the backward call is the unnormalised inverse DFT. -/
theorem C70_backward_partial (P : ℕ) (hP : P ≤ 1) (x : List ℂ) (hx : x.length = 2 ^ P) (out : List ℂ)
    (ho : out.length = 2 ^ P) (fuel : ℕ) (hf : P + 1 ≤ fuel) :
    ∃ plan y, SplitRadixPlan.make (2 ^ P) = .ok plan ∧ plan.call fuel x out .backward = .ok y ∧
      y.length = 2 ^ P ∧ ∀ k < 2 ^ P, y[k]? = some (Spec.idft (2 ^ P) (fun n => x.getD n 0) k) := by
  refine ⟨_, vec (2 ^ P) (Spec.idft (2 ^ P) (fun n => x.getD n 0)), splitRadix_make _, ?_, length_vec _ _,
    fun k hk => by rw [getElem?_vec, if_pos hk]⟩
  unfold SplitRadixPlan.call
  rw [if_neg (by decide)]
  dsimp only
  have hxv := list_eq_vec (0 : ℂ) hx
  have hov := list_eq_vec (0 : ℂ) ho
  rw [hov]
  conv_lhs => rw [hxv]
  have := splitfft_gen (P := P) (L := 2 ^ P) (Lo := 2 ^ P) (powTables P .backward) (fun i => x.getD i 0)
    (splitRec_dft (fun h => by omega) (fun h => by
      subst h
      have := root_two_pow (b := 1) le_rfl .backward
      simpa using this) (fun i => x.getD i 0)) P 0 (Nat.zero_add _) (by omega) fuel hf 0 0
      (by have := Nat.two_pow_pos P; simp) (by simp) (fun i => out.getD i 0)
  rw [pow_zero] at this
  rw [this]
  congr 1
  apply vec_ext
  intro i hi
  rw [if_pos ⟨Nat.zero_le _, by omega⟩, ← dftRoot_backward]
  simp

/-- What the backward call computes, as far as memory safety goes: it always succeeds, and it agrees with the
recursion over the conjugated tables. -/
theorem splitRadix_backward (P : ℕ) (hP : P ≤ 29) (f o : ℕ → ℂ) (fuel : ℕ) (hf : P + 1 ≤ fuel) :
    ∃ plan, SplitRadixPlan.make (2 ^ P) = .ok plan ∧
      plan.call fuel (vec (2 ^ P) f) (vec (2 ^ P) o) .backward
        = .ok (vec (2 ^ P) (splitSol (root (2 ^ P) .backward) f P 0 0)) := by
  refine ⟨_, splitRadix_make _, ?_⟩
  unfold SplitRadixPlan.call
  rw [if_neg (by decide)]
  dsimp only
  have := splitfft_gen (P := P) (L := 2 ^ P) (Lo := 2 ^ P) (powTables P .backward) f
    (splitRec_sol P _ f) P 0 (Nat.zero_add _) hP fuel hf 0 0
      (by have := Nat.two_pow_pos P; simp) (by simp) o
  rw [pow_zero] at this
  rw [this]
  congr 1
  apply vec_ext
  intro i hi
  rw [if_pos ⟨Nat.zero_le _, by omega⟩, Nat.sub_zero]

/-- **C70** is false backwards: for every size from 4 on, the backward transform of a unit impulse at index 1 is wrong.
It has `-i` at index `n / 4`, where the inverse DFT has `i`. -/
theorem C70_backward_false (P : ℕ) (h2 : 2 ≤ P) (hP : P ≤ 29) (out : List ℂ) (ho : out.length = 2 ^ P) (fuel : ℕ)
    (hf : P + 1 ≤ fuel) :
    ∃ plan y, SplitRadixPlan.make (2 ^ P) = .ok plan ∧
      plan.call fuel (vec (2 ^ P) (fun i => if i = 1 then 1 else 0)) out .backward = .ok y ∧
      y[2 ^ P / 4]? = some (-I) ∧ Spec.idft (2 ^ P) (fun i => if i = 1 then 1 else 0) (2 ^ P / 4) = I := by
  have hov := list_eq_vec (0 : ℂ) ho
  obtain ⟨plan, e1, e2⟩ := splitRadix_backward P hP (fun i => if i = 1 then 1 else 0) (fun i => out.getD i 0) fuel hf
  obtain ⟨p, rfl⟩ : ∃ p, P = p + 2 := ⟨P - 2, by omega⟩
  have hpos : 0 < 2 ^ p := Nat.two_pow_pos p
  have h4 : 2 ^ (p + 2) = 4 * 2 ^ p := by ring
  have hq : 2 ^ (p + 2) / 4 = 2 ^ p := by rw [h4]; omega
  refine ⟨plan, _, e1, by rw [hov]; exact e2, ?_, ?_⟩
  · rw [getElem?_vec, if_pos (by omega), hq]
    congr 1
    have hst := (splitRec_sol (p + 2) (root (2 ^ (p + 2)) .backward) (fun i => if i = 1 then (1 : ℂ) else 0)).step p 0 0
      (Nat.zero_add _) 0 hpos
    have h := hst.2.2.1
    rw [zero_add] at h
    rw [h]
    rw [splitSol_delta _ 0 (p + 1) _ _ _ (fun j _ => by rw [if_neg (by omega)]; simp),
      splitSol_delta _ 1 p _ _ _ (fun j _ => by
        by_cases e : j = 0
        · subst e; simp
        · rw [if_neg e, if_neg]
          have := Nat.mul_pos (Nat.pos_of_ne_zero e) (Nat.two_pow_pos (0 + 2))
          simp at this ⊢
          omega),
      splitSol_delta _ 0 p _ _ _ (fun j _ => by
        rw [if_neg (by simp; omega)]; simp)]
    simp
  · rw [← dftRoot_backward]
    unfold Spec.dftRoot
    rw [sum_eq_single 1]
    · have hb : root (2 ^ (p + 2)) .backward ^ 2 ^ p = I := by
        have h1 := root_quarter (P := p + 2) (by omega)
        rw [show p + 2 - 2 = p by omega] at h1
        have h3 : root (2 ^ (p + 2)) .forward ^ 2 ^ p * root (2 ^ (p + 2)) .backward ^ 2 ^ p = 1 := by
          rw [← mul_pow, root_forward_mul_backward, one_pow]
        rw [h1] at h3
        have : I * (-I * root (2 ^ (p + 2)) .backward ^ 2 ^ p) = I * 1 := by rw [h3]
        rw [← mul_assoc, mul_neg, I_mul_I, neg_neg, one_mul, mul_one] at this
        exact this
      rw [hq, one_mul, hb]
      simp
    · intro n _ hn
      beta_reduce
      rw [if_neg hn, zero_mul]
    · intro h; exfalso; apply h; rw [mem_range]; omega

example : ∃ plan y, SplitRadixPlan.make (2 ^ 3) = .ok plan ∧
    plan.call 4 (vec (2 ^ 3) (fun i => if i = 1 then 1 else 0)) (List.replicate 8 0) .backward = .ok y ∧
    y[2]? = some (-I) := by
  obtain ⟨plan, y, h1, h2, h3, -⟩ := C70_backward_false 3 (by norm_num) (by norm_num) (List.replicate 8 0) (by simp) 4
    (by norm_num)
  exact ⟨plan, y, h1, h2, h3⟩

/-- **C70** stops at `2 ^ 29`: for `2 ^ 30` points the `int` product `3 * N` overflows. -/
theorem C70_overflow (f o : ℕ → ℂ) (fuel : ℕ) (hf : 31 ≤ fuel) (dir : Direction) :
    ∃ plan, SplitRadixPlan.make (2 ^ 30) = .ok plan ∧
      plan.call fuel (vec (2 ^ 30) f) (vec (2 ^ 30) o) dir = .error .overflow := by
  refine ⟨_, splitRadix_make _, ?_⟩
  have key : ∀ d, splitfft (vec (2 ^ 30) f) (vec (2 ^ 30 / 4) (fun i => root (2 ^ 30) d ^ i))
      (vec (2 ^ 30 / 4) (fun i => root (2 ^ 30) d ^ (3 * i))) fuel 0 0 0 1 (2 ^ 30) (vec (2 ^ 30) o)
      = .error .overflow := by
    intro d
    obtain ⟨fuel, rfl⟩ : ∃ g, fuel = g + 1 := ⟨fuel - 1, by omega⟩
    have hg := splitfft_gen (P := 30) (L := 2 ^ 30) (Lo := 2 ^ 30) (powTables 30 d) f (splitRec_sol 30 _ f)
    rw [splitfft.eq_def]
    dsimp only
    rw [if_neg (by norm_num), if_neg (by norm_num), show 2 ^ 30 / 2 = 2 ^ 29 by norm_num,
      show 1 * 2 = 2 ^ (0 + 1) by norm_num,
      hg 29 (0 + 1) (by norm_num) (by norm_num) fuel (by omega) 0 0 (by norm_num) (by norm_num), bind_ok,
      show 1 * 4 = 2 ^ (0 + 2) by norm_num]
    have h28 : 2 ^ 30 / 4 = 2 ^ 28 := by norm_num
    have := hg 28 (0 + 2) (by norm_num) (by norm_num) fuel (by omega) (0 + 1) (0 + 2 ^ 29) (by norm_num) (by norm_num)
    rw [← h28] at this
    rw [this, bind_ok]
    rfl
  unfold SplitRadixPlan.call
  cases dir
  · rw [if_pos rfl]; dsimp only; exact key .forward
  · rw [if_neg (by decide)]; dsimp only; exact key .backward

/-- A call for zero points never ends. -/
theorem splitfft_zero (inp lut1 lut3 : List ℂ) : ∀ (fuel io oo ls s : ℕ) (out : List ℂ),
    splitfft inp lut1 lut3 fuel io oo ls s 0 out = .error .diverge := by
  intro fuel
  induction fuel with
  | zero => intros; rfl
  | succ fuel ih =>
    intro io oo ls s out
    rw [splitfft.eq_def]
    dsimp only
    rw [if_neg (by norm_num), if_neg (by norm_num), show 0 / 2 = 0 by norm_num, ih]
    rfl

/-- **C70**: the size is not checked.  For zero and for three points the recursion does not end, however deep it may
go. -/
theorem C70_other_sizes_diverge (fuel : ℕ) (dir : Direction) :
    (∃ plan, SplitRadixPlan.make 0 = .ok plan ∧ plan.call fuel [] [] dir = .error .diverge) ∧
    ∀ f o : ℕ → ℂ, ∃ plan, SplitRadixPlan.make 3 = .ok plan ∧
      plan.call fuel (vec 3 f) (vec 3 o) dir = .error .diverge := by
  constructor
  · refine ⟨_, splitRadix_make _, ?_⟩
    unfold SplitRadixPlan.call
    split
    · exact splitfft_zero _ _ _ _ _ _ _ _ _
    · exact splitfft_zero _ _ _ _ _ _ _ _ _
  · intro f o
    have key : ∀ l1 l3, splitfft (vec 3 f) l1 l3 fuel 0 0 0 1 3 (vec 3 o) = .error .diverge := by
      intro l1 l3
      match fuel with
      | 0 => rfl
      | 1 => rfl
      | fuel + 2 =>
        rw [splitfft.eq_def]
        dsimp only
        rw [if_neg (by norm_num), if_neg (by norm_num), show 3 / 2 = 1 by norm_num, show 3 / 4 = 0 by norm_num]
        have h1 : splitfft (vec 3 f) l1 l3 (fuel + 1) 0 0 (0 + 1) (1 * 2) 1 (vec 3 o)
            = .ok (vec 3 (Function.update o 0 (f 0))) := by
          rw [splitfft.eq_def]
          dsimp only
          rw [if_pos rfl, rd_vec_ok (by norm_num), bind_ok, wr_vec_ok (by norm_num)]
        rw [h1, bind_ok, splitfft_zero]
        rfl
    refine ⟨_, splitRadix_make _, ?_⟩
    unfold SplitRadixPlan.call
    split
    · exact key _ _
    · exact key _ _

end Neo.Props
