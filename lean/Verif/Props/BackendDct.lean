import Verif.Lemmas.BackendDct
import Verif.Props.Dct

/-!
# Properties of the cosine transforms on top of Intel IPP: C99

`v : DctVendor` is an arbitrary library and `v.Contract` what its documentation promises.
`IppDctReachable v start p`: `p` is the plan `start`, as constructed, after any number of calls.
-/

namespace Neo.Props

open Finset

variable {v : DctVendor}

/-- **C99**: in every plan state, `intel_ipp_dct2_plan` leaves the orthonormal DCT-II of the vector. -/
theorem C99_dct2 (hv : v.Contract) (order : ℕ) (p : IppDctPlan) (hp : IppDctReachable v (ippDct2 v order) p)
    (x : List ℝ) (hx : x.length = 2 ^ order) :
    ∃ p' y, p.call v x = .ok (p', y) ∧ y.length = 2 ^ order ∧
      ∀ k < 2 ^ order, y[k]? = some (Spec.dct2Ortho (2 ^ order) (fun i => x.getD i 0) k) := by
  obtain ⟨-, f, rfl⟩ := ippDctReachable_form hv hp
  have e := ippDct_call hv .forward order f (fun i => x.getD i 0)
  rw [← list_eq_vec 0 hx] at e
  exact ⟨_, _, e, by simp, fun k hk => by rw [getElem?_vec, if_pos hk]; rfl⟩

/-- **C99**: in every plan state, `intel_ipp_dct3_plan` leaves the orthonormal DCT-III. -/
theorem C99_dct3 (hv : v.Contract) (order : ℕ) (p : IppDctPlan) (hp : IppDctReachable v (ippDct3 v order) p)
    (x : List ℝ) (hx : x.length = 2 ^ order) :
    ∃ p' y, p.call v x = .ok (p', y) ∧ y.length = 2 ^ order ∧
      ∀ k < 2 ^ order, y[k]? = some (Spec.dct3Ortho (2 ^ order) (fun i => x.getD i 0) k) := by
  obtain ⟨-, f, rfl⟩ := ippDctReachable_form hv hp
  have e := ippDct_call hv .backward order f (fun i => x.getD i 0)
  rw [← list_eq_vec 0 hx] at e
  exact ⟨_, _, e, by simp, fun k hk => by rw [getElem?_vec, if_pos hk]; rfl⟩

/-- **C99**: the two plans of one order undo each other, in both orders and in every state, with no
scaling left over. -/
theorem C99_roundtrip (hv : v.Contract) (order : ℕ) (p q : IppDctPlan)
    (hp : IppDctReachable v (ippDct2 v order) p) (hq : IppDctReachable v (ippDct3 v order) q)
    (x : List ℝ) (hx : x.length = 2 ^ order) :
    (∃ p' y q', p.call v x = .ok (p', y) ∧ q.call v y = .ok (q', x)) ∧
    (∃ q' y p', q.call v x = .ok (q', y) ∧ p.call v y = .ok (p', x)) := by
  obtain ⟨-, f, rfl⟩ := ippDctReachable_form hv hp
  obtain ⟨-, g, rfl⟩ := ippDctReachable_form hv hq
  have e1 := ippDct_call hv .forward order f (fun i => x.getD i 0)
  have e2 := ippDct_call hv .backward order g (fun i => x.getD i 0)
  have e3 := ippDct_call hv .backward order g (dctOf .forward (2 ^ order) (fun i => x.getD i 0))
  have e4 := ippDct_call hv .forward order f (dctOf .backward (2 ^ order) (fun i => x.getD i 0))
  have h3 : vec (2 ^ order) (dctOf .backward (2 ^ order)
      (dctOf .forward (2 ^ order) (fun i => x.getD i 0))) = x := by
    rw [list_eq_vec 0 hx]
    refine vec_ext (fun i hi => ?_)
    rw [← list_eq_vec 0 hx]
    exact dct3_dct2 hi _
  have h4 : vec (2 ^ order) (dctOf .forward (2 ^ order)
      (dctOf .backward (2 ^ order) (fun i => x.getD i 0))) = x := by
    rw [list_eq_vec 0 hx]
    refine vec_ext (fun i hi => ?_)
    rw [← list_eq_vec 0 hx]
    exact dct2_dct3 hi _
  rw [← list_eq_vec 0 hx] at e1 e2
  rw [h3] at e3
  rw [h4] at e4
  exact ⟨⟨_, _, _, e1, e3⟩, ⟨_, _, _, e2, e4⟩⟩

/-- **C99**: both plans preserve the energy of the vector. -/
theorem C99_energy (hv : v.Contract) (dir : Direction) (order : ℕ) (p : IppDctPlan)
    (hp : IppDctReachable v (IppDctPlan.make v dir order) p) (x : List ℝ) (hx : x.length = 2 ^ order)
    (p' : IppDctPlan) (y : List ℝ) (h : p.call v x = .ok (p', y)) :
    (y.map (· ^ 2)).sum = (x.map (· ^ 2)).sum := by
  obtain ⟨-, f, rfl⟩ := ippDctReachable_form hv hp
  have e := ippDct_call hv dir order f (fun i => x.getD i 0)
  rw [← list_eq_vec 0 hx, h] at e
  injection e with e
  injection e with _ e
  have hsum : ∀ (n : ℕ) (g : ℕ → ℝ), ((vec n g).map (· ^ 2)).sum = ∑ i ∈ range n, g i ^ 2 := by
    intro n g
    rw [map_vec]
    induction n with
    | zero => rfl
    | succ n ih => rw [vec_succ, List.sum_append, ih, sum_range_succ]; simp
  have hx' := list_eq_vec (0 : ℝ) hx
  rw [e, hsum]
  conv_rhs => rw [hx', hsum]
  unfold dctOf
  split_ifs
  · exact dct2Ortho_energy _ _
  · exact dct3Ortho_energy _ _

/-- **C99**: on the same vector, `intel_ipp_dct2_plan` and `fallback_dct2_plan` give spectra that differ
by the factor `1/(2√N)` in bin 0 and `1/√(2N)` in all others; they are equal exactly for silence. -/
theorem C99_fallback (hv : v.Contract) (order : ℕ) (h1 : 1 ≤ order) (h2 : order ≤ 27)
    (p : IppDctPlan) (hp : IppDctReachable v (ippDct2 v order) p) (q : Dct2Plan) (hq : Dct2Reachable order q)
    (x : List ℝ) (hx : x.length = 2 ^ order) :
    ∃ p' y q' z, p.call v x = .ok (p', y) ∧ q.call x = .ok (q', z) ∧
      (∀ k < 2 ^ order, y.getD k 0 =
        (if k = 0 then 1 / (2 * √(2 ^ order)) else 1 / √(2 * 2 ^ order)) * z.getD k 0) ∧
      (y = z ↔ ∀ a ∈ x, a = 0) := by
  obtain ⟨p', y, ep, hyl, hy⟩ := C99_dct2 hv order p hp x hx
  obtain ⟨q', z, eq, hzl, hz⟩ := (C18_dct2 order h1 h2).2 q hq x hx
  refine ⟨p', y, q', z, ep, eq, ?_, ?_⟩
  · intro k hk
    rw [List.getD_eq_getElem?_getD, List.getD_eq_getElem?_getD, hy k hk, hz k hk, Option.getD_some,
      Option.getD_some, dct2Ortho_eq]
    congr 1
    have hN : (0 : ℝ) < 2 ^ order := by positivity
    unfold Spec.dctWeight
    push_cast
    split_ifs
    · rw [Real.sqrt_div (by norm_num), Real.sqrt_one]
      field_simp
    · rw [Real.sqrt_div (by norm_num), Real.sqrt_mul (by norm_num), div_div, div_eq_div_iff (by positivity)
        (by positivity), one_mul, ← mul_assoc, Real.mul_self_sqrt (by norm_num), mul_comm]
  · have hyz : y = z ↔ ∀ k < 2 ^ order, Spec.dct2Ortho (2 ^ order) (fun i => x.getD i 0) k =
        Spec.dct2 (2 ^ order) (fun i => x.getD i 0) k := by
      constructor
      · intro h k hk
        have := hy k hk
        rw [h, hz k hk] at this
        injection this with this
        exact this.symm
      · intro h
        refine List.ext_getElem? (fun k => ?_)
        by_cases hk : k < 2 ^ order
        · rw [hy k hk, hz k hk, h k hk]
        · rw [List.getElem?_eq_none (by omega), List.getElem?_eq_none (by omega)]
    rw [hyz, dct2_eq_ortho_iff (by positivity)]
    constructor
    · intro h a ha
      obtain ⟨i, hi, rfl⟩ := List.mem_iff_getElem.1 ha
      have := h i (by omega)
      rwa [List.getD_eq_getElem?_getD, List.getElem?_eq_getElem hi] at this
    · intro h n hn
      rw [List.getD_eq_getElem?_getD, List.getElem?_eq_getElem (by omega), Option.getD_some]
      exact h _ (List.getElem_mem _)

/-- **C99**: which orders can be constructed.  `len` is narrowed to `int`, so from order 31 on IPP is
asked for a length that is not positive and the constructor throws; from 64 on the shift is undefined. -/
theorem C99_orders (hv : v.Contract) (dir : Direction) (order : ℕ) :
    ((∃ p, IppDctPlan.make v dir order = .ok p) ↔ order < 31 ∧ v.setup dir (2 ^ order : ℕ) = true) ∧
    (order < 31 → v.setup dir (2 ^ order : ℕ) = false → IppDctPlan.make v dir order = .error .exception) ∧
    (31 ≤ order → order < 64 → IppDctPlan.make v dir order = .error .exception) ∧
    (64 ≤ order → IppDctPlan.make v dir order = .error .overflow) := by
  have hbad : order < 64 → v.setup dir (castInt (2 ^ order)) ≠ true →
      IppDctPlan.make v dir order = .error .exception := by
    intro h64 hs
    unfold IppDctPlan.make ippDctHandle
    rw [sizeOfOrder_ok h64, bind_ok, bind_ok]
    dsimp only
    rw [if_neg hs, bind_error]
  have hbig : 31 ≤ order → order < 64 → IppDctPlan.make v dir order = .error .exception := by
    intro h31 h64
    refine hbad h64 (fun hs => ?_)
    have := hv.setup _ _ hs
    have := castInt_pow_big h31
    omega
  have hsmall : order < 31 → v.setup dir (2 ^ order : ℕ) = false →
      IppDctPlan.make v dir order = .error .exception := by
    intro h31 hs
    refine hbad (by omega) ?_
    rw [castInt_pow h31, hs]
    decide
  refine ⟨⟨?_, fun ⟨h, hs⟩ => ⟨_, ippDct_make_eq h hs⟩⟩, hsmall, hbig, ?_⟩
  · rintro ⟨p, hp⟩
    have h := (ippDct_make_ok hv hp).1
    refine ⟨h, ?_⟩
    by_contra hs
    rw [hsmall h (by simpa using hs)] at hp
    cases hp
  · intro h
    unfold IppDctPlan.make sizeOfOrder
    rw [if_pos h, bind_error]

/-- A vector of any other length trips the assertion of `copy`. -/
theorem C99_wrong_length (hv : v.Contract) (dir : Direction) (order : ℕ) (p : IppDctPlan)
    (hp : IppDctReachable v (IppDctPlan.make v dir order) p) (x : List ℝ) (hx : x.length ≠ 2 ^ order) :
    p.call v x = .error .assertion := by
  obtain ⟨-, f, rfl⟩ := ippDctReachable_form hv hp
  unfold IppDctPlan.call
  rw [copyVec_bad (by rw [ippDctOf]; simpa using hx), bind_error]

/-- A library that does what the contract says. -/
noncomputable def referenceDct : DctVendor where
  setup _ len := decide (0 < len)
  run dir n x := vec n (if dir = .forward then Spec.dct2Ortho n (fun i => x.getD i 0)
    else Spec.dct3Ortho n (fun i => x.getD i 0))

theorem referenceDct_contract : referenceDct.Contract where
  setup _ len h := by simpa [referenceDct] using h
  run dir n x _ := ⟨by simp [referenceDct], fun k hk => by
    simp only [referenceDct]; rw [getElem?_vec, if_pos hk]; split_ifs <;> rfl⟩

/-- The hypotheses are met: used plans of order 2 on a conforming library take `(1, 2, 3, 4)` to its
spectrum and back. -/
example : ∃ p q, IppDctReachable referenceDct (ippDct2 referenceDct 2) p ∧ IppDctReachable referenceDct (ippDct3 referenceDct 2) q ∧
    ∃ p' y q', p.call referenceDct [1, 2, 3, 4] = .ok (p', y) ∧ y[0]? = some 5 ∧
      q.call referenceDct y = .ok (q', [1, 2, 3, 4]) := by
  have hp0 : IppDctReachable referenceDct (ippDct2 referenceDct 2) _ :=
    .init (ippDct_make_eq (by norm_num) (by simp [referenceDct]))
  have hq0 : IppDctReachable referenceDct (ippDct3 referenceDct 2) _ :=
    .init (ippDct_make_eq (by norm_num) (by simp [referenceDct]))
  obtain ⟨p, _, e, -⟩ := C99_dct2 referenceDct_contract 2 _ hp0 [7, 0, 0, 1] rfl
  have hp : IppDctReachable referenceDct (ippDct2 referenceDct 2) p := .step hp0 ⟨_, _, e⟩
  obtain ⟨p', y, q', e1, e2⟩ := (C99_roundtrip referenceDct_contract 2 p _ hp hq0 [1, 2, 3, 4] rfl).1
  refine ⟨p, _, hp, hq0, p', y, q', e1, ?_, e2⟩
  obtain ⟨p'', y', e3, -, hy⟩ := C99_dct2 referenceDct_contract 2 p hp [1, 2, 3, 4] rfl
  rw [e1] at e3
  injection e3 with e3
  injection e3 with _ e3
  rw [e3, hy 0 (by norm_num)]
  unfold Spec.dct2Ortho Spec.dctWeight
  have : √((1 : ℝ) / (2 ^ 2 : ℕ)) = 1 / 2 := by
    rw [show (1 : ℝ) / (2 ^ 2 : ℕ) = (1 / 2) ^ 2 by norm_num]
    exact Real.sqrt_sq (by norm_num)
  rw [if_pos rfl, this]
  norm_num [sum_range_succ]

end Neo.Props
