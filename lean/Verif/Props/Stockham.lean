import Verif.Lemmas.Stockham2
import Verif.Lemmas.Out

/-! # Properties of the Stockham plans: C14, C16 -/

namespace Neo.Props

open Finset

theorem stockham_out {N : ℕ} {x work : List ℂ} (hx : x.length = N) (hw : work.length = N)
    {call : List ℂ → List ℂ → Res (List ℂ × List ℂ)} {G : (ℕ → ℂ) → ℕ → ℂ}
    (h : ∀ X W : ℕ → ℂ, ∃ W', call (vec N X) (vec N W) = .ok (vec N (G X), vec N W')) :
    ∃ y work', call x work = .ok (y, work') ∧ y.length = N ∧ work'.length = N ∧
      ∀ k < N, y[k]? = some (G (fun n => x.getD n 0) k) := by
  obtain ⟨W', e⟩ := h (fun i => x.getD i 0) (fun i => work.getD i 0)
  rw [← list_eq_vec 0 hx, ← list_eq_vec 0 hw] at e
  exact ⟨_, _, e, by simp, by simp, fun k hk => by rw [getElem?_vec, if_pos hk]⟩

/-! ## C16 -/

/-- **C16**, radix 3 (`max_order()` is 11): forward gives the DFT, backward the unscaled inverse; the
previous content of `_work` does not matter, and the plan can be called again with the new one. -/
theorem C16_dif3 (order : ℕ) (h : order ≤ 20) (x work : List ℂ) (hx : x.length = 3 ^ order)
    (hw : work.length = 3 ^ order) :
    (∃ y work', stockhamDif3 order x work .forward = .ok (y, work') ∧
      y.length = 3 ^ order ∧ work'.length = 3 ^ order ∧
      ∀ k < 3 ^ order, y[k]? = some (Spec.dft (3 ^ order) (fun n => x.getD n 0) k)) ∧
    (∃ y work', stockhamDif3 order x work .backward = .ok (y, work') ∧
      y.length = 3 ^ order ∧ work'.length = 3 ^ order ∧
      ∀ k < 3 ^ order, y[k]? = some (Spec.idft (3 ^ order) (fun n => x.getD n 0) k)) := by
  have hn : 3 ^ order < 2 ^ 32 := lt_of_le_of_lt (Nat.pow_le_pow_right (by norm_num) h) (by norm_num)
  exact ⟨stockham_out hx hw (fun X W => stockhamLoop_vec (by norm_num) hn .forward
      (stockham3_butterfly .forward) X W),
    stockham_out hx hw (fun X W => stockhamLoop_vec (by norm_num) hn .backward
      (stockham3_butterfly .backward) X W)⟩

/-- **C16**, radix 4, decimation in frequency (`max_order()` is 11). -/
theorem C16_dif4 (order : ℕ) (h : order ≤ 15) (x work : List ℂ) (hx : x.length = 4 ^ order)
    (hw : work.length = 4 ^ order) :
    (∃ y work', stockhamDif4 order x work .forward = .ok (y, work') ∧
      y.length = 4 ^ order ∧ work'.length = 4 ^ order ∧
      ∀ k < 4 ^ order, y[k]? = some (Spec.dft (4 ^ order) (fun n => x.getD n 0) k)) ∧
    (∃ y work', stockhamDif4 order x work .backward = .ok (y, work') ∧
      y.length = 4 ^ order ∧ work'.length = 4 ^ order ∧
      ∀ k < 4 ^ order, y[k]? = some (Spec.idft (4 ^ order) (fun n => x.getD n 0) k)) := by
  have hn : 4 ^ order < 2 ^ 32 := lt_of_le_of_lt (Nat.pow_le_pow_right (by norm_num) h) (by norm_num)
  exact ⟨stockham_out hx hw (fun X W => stockhamLoop_vec (by norm_num) hn .forward
      (stockham4_butterfly .forward) X W),
    stockham_out hx hw (fun X W => stockhamLoop_vec (by norm_num) hn .backward
      (stockham4_butterfly .backward) X W)⟩

/-- **C16**, radix 5 (`max_order()` is 11). -/
theorem C16_dif5 (order : ℕ) (h : order ≤ 13) (x work : List ℂ) (hx : x.length = 5 ^ order)
    (hw : work.length = 5 ^ order) :
    (∃ y work', stockhamDif5 order x work .forward = .ok (y, work') ∧
      y.length = 5 ^ order ∧ work'.length = 5 ^ order ∧
      ∀ k < 5 ^ order, y[k]? = some (Spec.dft (5 ^ order) (fun n => x.getD n 0) k)) ∧
    (∃ y work', stockhamDif5 order x work .backward = .ok (y, work') ∧
      y.length = 5 ^ order ∧ work'.length = 5 ^ order ∧
      ∀ k < 5 ^ order, y[k]? = some (Spec.idft (5 ^ order) (fun n => x.getD n 0) k)) := by
  have hn : 5 ^ order < 2 ^ 32 := lt_of_le_of_lt (Nat.pow_le_pow_right (by norm_num) h) (by norm_num)
  exact ⟨stockham_out hx hw (fun X W => stockhamLoop_vec (by norm_num) hn .forward
      (stockham5_butterfly .forward) X W),
    stockham_out hx hw (fun X W => stockhamLoop_vec (by norm_num) hn .backward
      (stockham5_butterfly .backward) X W)⟩

/-- **C16**, radix 8 (`max_order()` is 9). -/
theorem C16_dif8 (order : ℕ) (h : order ≤ 10) (x work : List ℂ) (hx : x.length = 8 ^ order)
    (hw : work.length = 8 ^ order) :
    (∃ y work', stockhamDif8 order x work .forward = .ok (y, work') ∧
      y.length = 8 ^ order ∧ work'.length = 8 ^ order ∧
      ∀ k < 8 ^ order, y[k]? = some (Spec.dft (8 ^ order) (fun n => x.getD n 0) k)) ∧
    (∃ y work', stockhamDif8 order x work .backward = .ok (y, work') ∧
      y.length = 8 ^ order ∧ work'.length = 8 ^ order ∧
      ∀ k < 8 ^ order, y[k]? = some (Spec.idft (8 ^ order) (fun n => x.getD n 0) k)) := by
  have hn : 8 ^ order < 2 ^ 32 := lt_of_le_of_lt (Nat.pow_le_pow_right (by norm_num) h) (by norm_num)
  exact ⟨stockham_out hx hw (fun X W => stockhamLoop_vec (by norm_num) hn .forward
      (stockham8_butterfly .forward) X W),
    stockham_out hx hw (fun X W => stockhamLoop_vec (by norm_num) hn .backward
      (stockham8_butterfly .backward) X W)⟩

/-- The hypotheses are met: a unit impulse of 9 samples, garbage in `_work`. -/
example : ∃ (y w : List ℂ), stockhamDif3 2 [1, 0, 0, 0, 0, 0, 0, 0, 0] [5, 5, 5, 5, 5, 5, 5, 5, 5]
    .forward = .ok (y, w) ∧ y[7]? = some (1 : ℂ) := by
  obtain ⟨⟨y, w, e, -, -, hv⟩, -⟩ := C16_dif3 2 (by norm_num) [1, 0, 0, 0, 0, 0, 0, 0, 0]
    [5, 5, 5, 5, 5, 5, 5, 5, 5] rfl rfl
  refine ⟨y, w, e, ?_⟩
  rw [hv 7 (by norm_num)]
  simp [Spec.dft, sum_range_succ]

/-! ## C14 -/

/-- **C14** (partial): the recursive radix-2 plan runs without a fault at every order, but it exchanges
the two directions: forward gives the unscaled inverse transform and backward the forward transform.
Missing: the forward DFT itself, which is false (`C14_false`). -/
theorem C14_dif2r_partial (order : ℕ) (x work : List ℂ) (hx : x.length = 2 ^ order)
    (hw : work.length = 2 ^ order) :
    (∃ y work', stockhamDif2r order x work .forward = .ok (y, work') ∧
      y.length = 2 ^ order ∧ work'.length = 2 ^ order ∧
      ∀ k < 2 ^ order, y[k]? = some (Spec.idft (2 ^ order) (fun n => x.getD n 0) k)) ∧
    (∃ y work', stockhamDif2r order x work .backward = .ok (y, work') ∧
      y.length = 2 ^ order ∧ work'.length = 2 ^ order ∧
      ∀ k < 2 ^ order, y[k]? = some (Spec.dft (2 ^ order) (fun n => x.getD n 0) k)) :=
  ⟨stockham_out (call := fun x w => stockhamDif2r order x w .forward) (G := Spec.idft (2 ^ order)) hx hw
      (fun X W => stockhamDif2r_vec order .forward X W),
    stockham_out (call := fun x w => stockhamDif2r order x w .backward) (G := Spec.dft (2 ^ order)) hx hw
      (fun X W => stockhamDif2r_vec order .backward X W)⟩

/-- **C14** (partial): the same for the iterative plan, for orders up to 30 (`max_order()` is 20). -/
theorem C14_dif2i_partial (order : ℕ) (h : order ≤ 30) (x work : List ℂ) (hx : x.length = 2 ^ order)
    (hw : work.length = 2 ^ order) :
    (∃ y work', stockhamDif2i order x work .forward = .ok (y, work') ∧
      y.length = 2 ^ order ∧ work'.length = 2 ^ order ∧
      ∀ k < 2 ^ order, y[k]? = some (Spec.idft (2 ^ order) (fun n => x.getD n 0) k)) ∧
    (∃ y work', stockhamDif2i order x work .backward = .ok (y, work') ∧
      y.length = 2 ^ order ∧ work'.length = 2 ^ order ∧
      ∀ k < 2 ^ order, y[k]? = some (Spec.dft (2 ^ order) (fun n => x.getD n 0) k)) :=
  ⟨stockham_out (call := fun x w => stockhamDif2i order x w .forward) (G := Spec.idft (2 ^ order)) hx hw
      (fun X W => stockhamDif2i_vec h .forward X W),
    stockham_out (call := fun x w => stockhamDif2i order x w .backward) (G := Spec.dft (2 ^ order)) hx hw
      (fun X W => stockhamDif2i_vec h .backward X W)⟩

theorem delta_dft_ne {N : ℕ} (h : 3 ≤ N) {x : ℕ → ℂ} (hx : ∀ n < N, x n = if n = 1 then 1 else 0) :
    Spec.idft N x 1 ≠ Spec.dft N x 1 := by
  rw [← dftRoot_forward, ← dftRoot_backward]
  have hs : ∀ ω : ℂ, Spec.dftRoot N ω x 1 = ω := by
    intro ω
    unfold Spec.dftRoot
    rw [sum_eq_single_of_mem 1 (mem_range.2 (by omega))]
    · rw [hx 1 (by omega)]; simp
    · intro n hn hne
      rw [hx n (mem_range.1 hn), if_neg hne, zero_mul]
  rw [hs, hs]
  intro e
  have hp := root_primitive (N := N) (by omega) .forward
  have h1 := root_forward_mul_backward N
  rw [e] at h1
  have := hp.pow_eq_one_iff_dvd 2 |>.1 (by rw [sq]; exact h1)
  have := Nat.le_of_dvd (by norm_num) this
  omega

/-- **C14 is false** at every order from 2 on, for both plans: the forward spectrum of the unit impulse
at sample 1 is wrong in bin 1. -/
theorem C14_false (order : ℕ) (h2 : 2 ≤ order) (h : order ≤ 30) (work : List ℂ)
    (hw : work.length = 2 ^ order) :
    ∃ x : List ℂ, x.length = 2 ^ order ∧
      (∃ y w, stockhamDif2r order x work .forward = .ok (y, w) ∧
        y[1]? ≠ some (Spec.dft (2 ^ order) (fun n => x.getD n 0) 1)) ∧
      (∃ y w, stockhamDif2i order x work .forward = .ok (y, w) ∧
        y[1]? ≠ some (Spec.dft (2 ^ order) (fun n => x.getD n 0) 1)) := by
  have hN : 4 ≤ 2 ^ order := by
    calc 4 = 2 ^ 2 := by norm_num
      _ ≤ 2 ^ order := Nat.pow_le_pow_right (by norm_num) h2
  have hne := delta_dft_ne (N := 2 ^ order) (by omega)
    (x := fun n => (vec (2 ^ order) (fun n => if n = 1 then (1 : ℂ) else 0)).getD n 0) (by
      intro n hn
      rw [List.getD_eq_getElem?_getD, getElem?_vec, if_pos hn, Option.getD_some])
  refine ⟨vec (2 ^ order) (fun n => if n = 1 then 1 else 0), by simp, ?_, ?_⟩
  · obtain ⟨⟨y, w, e, -, -, hv⟩, -⟩ := C14_dif2r_partial order
      (vec (2 ^ order) (fun n => if n = 1 then 1 else 0)) work (by simp) hw
    refine ⟨y, w, e, ?_⟩
    rw [hv 1 (by omega)]
    exact fun e => hne (Option.some.inj e)
  · obtain ⟨⟨y, w, e, -, -, hv⟩, -⟩ := C14_dif2i_partial order h
      (vec (2 ^ order) (fun n => if n = 1 then 1 else 0)) work (by simp) hw
    refine ⟨y, w, e, ?_⟩
    rw [hv 1 (by omega)]
    exact fun e => hne (Option.some.inj e)

/-- At order 1 the two directions agree, so the forward DFT is computed (both plans). -/
theorem C14_order_1 (x work : List ℂ) (hx : x.length = 2) (hw : work.length = 2) :
    (∃ y w, stockhamDif2r 1 x work .forward = .ok (y, w) ∧
      ∀ k < 2, y[k]? = some (Spec.dft 2 (fun n => x.getD n 0) k)) ∧
    (∃ y w, stockhamDif2i 1 x work .forward = .ok (y, w) ∧
      ∀ k < 2, y[k]? = some (Spec.dft 2 (fun n => x.getD n 0) k)) := by
  have hsame : ∀ (f : ℕ → ℂ) (k : ℕ), Spec.idft 2 f k = Spec.dft 2 f k := by
    intro f k
    rw [← dftRoot_forward, ← dftRoot_backward, root_two_eq, root_two_eq]
  obtain ⟨⟨y, w, e, -, -, hv⟩, -⟩ := C14_dif2r_partial 1 x work hx hw
  obtain ⟨⟨y', w', e', -, -, hv'⟩, -⟩ := C14_dif2i_partial 1 (by norm_num) x work hx hw
  exact ⟨⟨y, w, e, fun k hk => by rw [hv k hk, pow_one, hsame]⟩,
    ⟨y', w', e', fun k hk => by rw [hv' k hk, pow_one, hsame]⟩⟩

/-- What the tests check: forward then backward gives `2 ^ order` times the input (both plans; `_work` is
carried over from one call to the next). -/
theorem C14_roundtrip (order : ℕ) (h : order ≤ 30) (x work : List ℂ) (hx : x.length = 2 ^ order)
    (hw : work.length = 2 ^ order) :
    (∃ y w z w', stockhamDif2r order x work .forward = .ok (y, w) ∧
      stockhamDif2r order y w .backward = .ok (z, w') ∧
      ∀ k < 2 ^ order, z[k]? = some (2 ^ order * x.getD k 0)) ∧
    (∃ y w z w', stockhamDif2i order x work .forward = .ok (y, w) ∧
      stockhamDif2i order y w .backward = .ok (z, w') ∧
      ∀ k < 2 ^ order, z[k]? = some (2 ^ order * x.getD k 0)) := by
  have hfin : ∀ (y : List ℂ), (∀ k < 2 ^ order, y[k]? = some (Spec.idft (2 ^ order)
      (fun n => x.getD n 0) k)) → ∀ k < 2 ^ order,
      Spec.dft (2 ^ order) (fun n => y.getD n 0) k = 2 ^ order * x.getD k 0 := by
    intro y hy k hk
    have := dft_idft (fun n => x.getD n 0) hk
    rw [← dftRoot_forward] at this ⊢
    unfold Spec.dftRoot at this ⊢
    rw [← show ((2 ^ order : ℕ) : ℂ) = 2 ^ order by push_cast; rfl, ← this]
    apply sum_congr rfl
    intro n hn
    dsimp only
    rw [List.getD_eq_getElem?_getD, hy n (mem_range.1 hn), Option.getD_some]
  constructor
  · obtain ⟨⟨y, w, e, hyl, hwl, hv⟩, -⟩ := C14_dif2r_partial order x work hx hw
    obtain ⟨-, ⟨z, w', e', -, -, hz⟩⟩ := C14_dif2r_partial order y w hyl hwl
    exact ⟨y, w, z, w', e, e', fun k hk => by rw [hz k hk, hfin y hv k hk]⟩
  · obtain ⟨⟨y, w, e, hyl, hwl, hv⟩, -⟩ := C14_dif2i_partial order h x work hx hw
    obtain ⟨-, ⟨z, w', e', -, -, hz⟩⟩ := C14_dif2i_partial order h y w hyl hwl
    exact ⟨y, w, z, w', e, e', fun k hk => by rw [hz k hk, hfin y hv k hk]⟩

/-- Outside the property: from order 31 on the iterative plan overflows an `int`. -/
theorem C14_dif2i_order_31_overflow (order : ℕ) (h : 31 ≤ order) (x work : List ℂ) (dir : Direction) :
    stockhamDif2i order x work dir = .error .overflow := by
  unfold stockhamDif2i
  rw [if_pos h]

end Neo.Props
