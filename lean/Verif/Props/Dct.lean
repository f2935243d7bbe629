import Verif.Lemmas.Dct
import Verif.Lemmas.Bluestein

/-!
# Properties of the Bluestein DFT plan (C11) and the DCT plan (C18)

`BluesteinReachable n p` / `Dct2Reachable order p`: `p` is a plan after any number of successful calls.
-/

namespace Neo.Props

open Finset

/-! ## C11 -/

/-- **C11**: for every size `n ≥ 1` whose internal FFT exists (`2n + 1 ≤ 2^27`), the plan can be
constructed, and in every reachable state it leaves the `n`-point DFT (forward) or unnormalised inverse
DFT (backward) of the buffer in the buffer, without any out-of-bounds access. -/
theorem C11_bluestein (n : ℕ) (h1 : 1 ≤ n) (h2 : 2 * n + 1 ≤ 2 ^ 27) :
    (∃ p, BluesteinPlan.make n = .ok p) ∧
    ∀ p, BluesteinReachable n p → ∀ x : List ℂ, x.length = n →
      (∃ p' y, p.call x .forward = .ok (p', y) ∧ y.length = n ∧
        ∀ k < n, y[k]? = some (Spec.dft n (fun i => x.getD i 0) k)) ∧
      (∃ p' y, p.call x .backward = .ok (p', y) ∧ y.length = n ∧
        ∀ k < n, y[k]? = some (Spec.idft n (fun i => x.getD i 0) k)) := by
  refine ⟨⟨_, bluesteinPlan_make_eq (by omega)⟩, ?_⟩
  intro p hp x hx
  obtain ⟨f, g, rfl⟩ := bluesteinReachable_form h1 (by omega) hp
  obtain ⟨f1, g1, e1⟩ := bluestein_call_vec h1 f g (fun i => x.getD i 0) .forward
  obtain ⟨f2, g2, e2⟩ := bluestein_call_vec h1 f g (fun i => x.getD i 0) .backward
  rw [← list_eq_vec 0 hx] at e1 e2
  exact ⟨⟨_, _, e1, by simp, fun k hk => by rw [getElem?_vec, if_pos hk]; rfl⟩,
    ⟨_, _, e2, by simp, fun k hk => by rw [getElem?_vec, if_pos hk]; rfl⟩⟩

/-- **C11**: the out-of-place `dft(plan, in, out)` / `idft(plan, in, out)` leave the transform of `in`
in `out`, whatever `out` held. -/
theorem C11_out_of_place (n : ℕ) (h1 : 1 ≤ n) (h2 : 2 * n + 1 ≤ 2 ^ 27) (p : BluesteinPlan)
    (hp : BluesteinReachable n p) (x out : List ℂ) (hx : x.length = n) (ho : out.length = n) :
    (∃ p' y, dftOutOfPlace p x out .forward = .ok (p', y) ∧ y.length = n ∧
        ∀ k < n, y[k]? = some (Spec.dft n (fun i => x.getD i 0) k)) ∧
    (∃ p' y, dftOutOfPlace p x out .backward = .ok (p', y) ∧ y.length = n ∧
        ∀ k < n, y[k]? = some (Spec.idft n (fun i => x.getD i 0) k)) := by
  unfold dftOutOfPlace dftInPlace
  rw [copyVec_eq (by omega)]
  exact (C11_bluestein n h1 h2).2 p hp x hx

/-- **C11**: transforming there and back gives `n` times the input. -/
theorem C11_roundtrip (n : ℕ) (h1 : 1 ≤ n) (h2 : 2 * n + 1 ≤ 2 ^ 27) (p : BluesteinPlan)
    (hp : BluesteinReachable n p) (x : List ℂ) (hx : x.length = n) :
    ∃ p' X p'', p.call x .forward = .ok (p', X) ∧
      p'.call X .backward = .ok (p'', x.map ((n : ℂ) * ·)) := by
  obtain ⟨p', X, e1, l1, v1⟩ := ((C11_bluestein n h1 h2).2 p hp x hx).1
  obtain ⟨p'', y, e2, l2, v2⟩ := ((C11_bluestein n h1 h2).2 p' (hp.call e1) X l1).2
  refine ⟨p', X, p'', e1, ?_⟩
  rw [e2]
  congr 2
  rw [eq_vec_iff.2 ⟨l2, v2⟩]
  conv_rhs => rw [list_eq_vec 0 hx, map_vec]
  apply vec_ext
  intro k hk
  rw [← idft_dft (fun i => x.getD i 0) hk]
  apply idft_congr
  intro j hj
  rw [List.getD_eq_getElem?_getD, v1 j hj]; rfl

/-- Above the limit, the constructor throws (the inner power-of-two plan is too large). -/
theorem C11_too_large (n : ℕ) (h : 2 ^ 27 < 2 * n + 1) :
    BluesteinPlan.make n = .error .exception := by
  unfold BluesteinPlan.make
  rw [nextOrder_eq]
  unfold Dit2Plan.make dit2CheckOrder dit2MaxOrder
  rw [if_pos ((Nat.lt_clog_iff_pow_lt (by norm_num)).2 (by omega))]
  rfl

/-- Size 0 (outside the property): construction succeeds, but a call reads `w[0]` out of bounds. -/
theorem C11_size_zero_out_of_bounds (dir : Direction) :
    ∃ p, BluesteinPlan.make 0 = .ok p ∧ p.call [] dir = .error .oob := by
  refine ⟨_, bluesteinPlan_make_eq (by norm_num), ?_⟩
  unfold BluesteinPlan.call
  have hw : (if dir = .forward then (bluesteinPlanOf 0 (fun _ => 0) (fun _ => 0)).wf
      else (bluesteinPlanOf 0 (fun _ => 0) (fun _ => 0)).wb) = [] := by cases dir <;> rfl
  have ha : (bluesteinPlanOf 0 (fun _ => 0) (fun _ => 0)).a = vec 1 (fun _ => 0) := by
    simp [bluesteinPlanOf]
  have hb : (bluesteinPlanOf 0 (fun _ => 0) (fun _ => 0)).b = vec 1 (fun _ => 0) := by
    simp [bluesteinPlanOf]
  have hs : (bluesteinPlanOf 0 (fun _ => 0) (fun _ => 0)).size = 0 := rfl
  simp only [hw, ha, hb, hs, List.length_nil, decide_true, check_true, bind_ok, fillVec_vec]
  rw [rdSpan_vec le_rfl (by norm_num), bind_ok]
  have : multiplyVec ([] : List ℂ) [] (vec (0 - 0) fun _ => 0) = .ok [] := rfl
  rw [this, bind_ok]
  rfl

/-- The hypotheses are met by the prime size 3, on a plan that has been used before. -/
example : ∃ p p' : BluesteinPlan, ∃ y, BluesteinReachable 3 p ∧ p.call [1, 2, 3] .forward = .ok (p', y) ∧
    ∃ q Y, p'.call [1, 0, 0] .forward = .ok (q, Y) ∧ Y[2]? = some 1 := by
  have hr := BluesteinReachable.make (bluesteinPlan_make_eq (n := 3) (by norm_num))
  obtain ⟨p', y, e, -⟩ := ((C11_bluestein 3 (by norm_num) (by norm_num)).2 _ hr [1, 2, 3] rfl).1
  obtain ⟨q, Y, e', -, hv⟩ :=
    ((C11_bluestein 3 (by norm_num) (by norm_num)).2 _ (hr.call e) [1, 0, 0] rfl).1
  refine ⟨_, p', y, hr, e, q, Y, e', ?_⟩
  rw [hv 2 (by norm_num)]
  simp [Spec.dft, sum_range_succ]

/-! ## C18 -/

/-- **C18**: for every order `1 ≤ order ≤ 27` and every real buffer of `2^order` samples, in every
reachable plan state, the DCT plan leaves the unnormalised DCT-II in the buffer. -/
theorem C18_dct2 (order : ℕ) (h1 : 1 ≤ order) (h2 : order ≤ 27) :
    (∃ p, Dct2Plan.make order = .ok p) ∧
    ∀ p, Dct2Reachable order p → ∀ x : List ℝ, x.length = 2 ^ order →
      ∃ p' y, p.call x = .ok (p', y) ∧ y.length = 2 ^ order ∧
        ∀ k < 2 ^ order, y[k]? = some (Spec.dct2 (2 ^ order) (fun i => x.getD i 0) k) := by
  refine ⟨⟨_, dct2Plan_make_eq h2⟩, ?_⟩
  intro p hp x hx
  obtain ⟨f, rfl⟩ := dct2Reachable_form h1 h2 hp
  obtain ⟨f', e⟩ := dct2_call_vec h1 f (fun i => x.getD i 0)
  rw [← list_eq_vec 0 hx] at e
  exact ⟨_, _, e, by simp, fun k hk => by rw [getElem?_vec, if_pos hk]⟩

/-- A buffer of any other length trips the assertion. -/
theorem C18_wrong_length (order : ℕ) (h1 : 1 ≤ order) (h2 : order ≤ 27) (p : Dct2Plan)
    (hp : Dct2Reachable order p) (x : List ℝ) (hx : x.length ≠ 2 ^ order) :
    p.call x = .error .assertion := by
  obtain ⟨f, rfl⟩ := dct2Reachable_form h1 h2 hp
  unfold Dct2Plan.call
  have : check (decide (x.length = (dct2PlanOf order f).size)) = .error .assertion := by
    rw [decide_eq_false (show ¬ x.length = (dct2PlanOf order f).size from hx)]; rfl
  simp only [this, bind_error]

/-- Order 0 (outside the property): the inner FFT of size 1 reads out of bounds. -/
theorem C18_order_zero_out_of_bounds (a : ℝ) :
    ∃ p, Dct2Plan.make 0 = .ok p ∧ p.call [a] = .error .oob := by
  refine ⟨_, dct2Plan_make_eq (by norm_num), ?_⟩
  unfold Dct2Plan.call
  have hb : (dct2PlanOf 0 (fun _ => 0)).buffer = [0] := by simp [dct2PlanOf, vec]
  have hf : (dct2PlanOf 0 (fun _ => 0)).fft = dit2PlanOf 0 := rfl
  have hs : (dct2PlanOf 0 (fun _ => 0)).size = 1 := rfl
  simp only [hb, hf, hs, List.length_cons, List.length_nil, zero_add, decide_true, check_true, bind_ok]
  rw [show 1 / 2 = 0 from rfl, forN_zero, bind_ok]
  have : (dit2PlanOf 0).call [(0 : ℂ)] .forward = .error .oob := by
    unfold Dit2Plan.call Dit2Plan.callWith
    have h1 : (dit2PlanOf 0).size = 1 := rfl
    have h2 : (dit2PlanOf 0).reorder = [0] := by simp [dit2PlanOf, vec, digitRev]
    simp only [h1, h2, List.length_cons, List.length_nil, zero_add, decide_true, check_true, bind_ok]
    rfl
  rw [this, bind_error]

/-- The hypotheses are met: order 1, where the DCT of `(3, 1)` starts with `2·(3+1) = 8`. -/
example : ∃ p, Dct2Reachable 1 p ∧ ∃ p' y, p.call [3, 1] = .ok (p', y) ∧ y[0]? = some 8 := by
  have hr := Dct2Reachable.make (dct2Plan_make_eq (b := 1) (by norm_num))
  obtain ⟨p', y, e, -, hv⟩ := (C18_dct2 1 le_rfl (by norm_num)).2 _ hr [3, 1] rfl
  refine ⟨_, hr, p', y, e, ?_⟩
  rw [hv 0 (by norm_num)]
  simp [Spec.dct2, sum_range_succ]
  norm_num

end Neo.Props
