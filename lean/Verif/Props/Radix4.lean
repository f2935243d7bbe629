import Verif.Lemmas.StockhamDit4
import Verif.Props.Stockham

/-! # Properties of the radix-4 plans: C15, and the decimation-in-time part of C16 -/

namespace Neo.Props

open Finset

/-- **C15** (partial): for orders 1 to 16 (`max_order()` is 11) both radix-4 plans run without a fault, but
bin `k` is the DFT of the input with the sign of sample `n` flipped wherever `Spec.digitDot order k n` is
odd.  Missing: the DFT itself, which is false (`C15_false`). -/
theorem C15_partial (order : ℕ) (h1 : 1 ≤ order) (h : order ≤ 16) (useDIT : Bool) :
    ∃ p, Radix4Plan.make order = .ok p ∧ ∀ x : List ℂ, x.length = 4 ^ order →
      (∃ y, p.call useDIT x .forward = .ok y ∧ y.length = 4 ^ order ∧ ∀ k < 4 ^ order,
        y[k]? = some (Spec.dft (4 ^ order) (Spec.digitSigned order k (fun n => x.getD n 0)) k)) ∧
      (∃ y, p.call useDIT x .backward = .ok y ∧ y.length = 4 ^ order ∧ ∀ k < 4 ^ order,
        y[k]? = some (Spec.idft (4 ^ order) (Spec.digitSigned order k (fun n => x.getD n 0)) k)) := by
  refine ⟨_, radix4Plan_make_eq h1 h, fun x hx => ?_⟩
  have ef := radix4_call h1 useDIT .forward (fun i => x.getD i 0)
  have eb := radix4_call h1 useDIT .backward (fun i => x.getD i 0)
  rw [← list_eq_vec 0 hx] at ef eb
  exact ⟨⟨_, ef, by simp, fun k hk => by rw [getElem?_vec, if_pos hk]; rfl⟩,
    ⟨_, eb, by simp, fun k hk => by rw [getElem?_vec, if_pos hk]; rfl⟩⟩

theorem digitDot_one {b : ℕ} (hb : 1 ≤ b) : Spec.digitDot b 1 (4 ^ (b - 1)) = 1 := by
  unfold Spec.digitDot
  rw [sum_eq_single_of_mem 0 (mem_range.2 (by omega))]
  · rw [pow_zero, Nat.sub_zero, Nat.div_self (by norm_num), Nat.div_self (by positivity)]
  · intro a ha h0
    have h4 : 1 < 4 ^ a := Nat.one_lt_pow h0 (by norm_num)
    rw [Nat.div_eq_of_lt h4, Nat.zero_mod, zero_mul]

/-- The unit impulse at sample `4 ^ (b - 1)`. -/
noncomputable def impulse4 (b : ℕ) : List ℂ :=
  vec (4 ^ b) (fun n => if n = 4 ^ (b - 1) then 1 else 0)

theorem impulse4_signed_ne {b : ℕ} (hb : 1 ≤ b) :
    Spec.dft (4 ^ b) (Spec.digitSigned b 1 (fun n => (impulse4 b).getD n 0)) 1
      ≠ Spec.dft (4 ^ b) (fun n => (impulse4 b).getD n 0) 1 := by
  have hlt : 4 ^ (b - 1) < 4 ^ b := Nat.pow_lt_pow_right (by norm_num) (by omega)
  have hval : ∀ n < 4 ^ b, (impulse4 b).getD n 0 = if n = 4 ^ (b - 1) then 1 else 0 := by
    intro n hn
    unfold impulse4
    rw [List.getD_eq_getElem?_getD, getElem?_vec, if_pos hn, Option.getD_some]
  rw [← dftRoot_forward, ← dftRoot_forward]
  unfold Spec.dftRoot Spec.digitSigned
  rw [sum_eq_single_of_mem (4 ^ (b - 1)) (mem_range.2 hlt),
    sum_eq_single_of_mem (4 ^ (b - 1)) (mem_range.2 hlt)]
  · dsimp only
    rw [digitDot_one hb, hval _ hlt, if_pos rfl]
    intro e
    have h0 : root (4 ^ b) .forward ≠ 0 := by unfold root; exact Complex.exp_ne_zero _
    have h1 : root (4 ^ b) .forward ^ (4 ^ (b - 1) * 1) ≠ 0 := pow_ne_zero _ h0
    have h2 : (2 : ℂ) * root (4 ^ b) .forward ^ (4 ^ (b - 1) * 1) = 0 := by linear_combination -e
    rcases mul_eq_zero.1 h2 with h | h
    · norm_num at h
    · exact h1 h
  · intro n hn hne
    dsimp only
    rw [hval n (mem_range.1 hn), if_neg hne, zero_mul]
  · intro n hn hne
    dsimp only
    rw [hval n (mem_range.1 hn), if_neg hne, mul_zero, zero_mul]

/-- **C15 is false** at every order the plans can be built for up to 16, for both plans: bin 1 of the
forward transform of a unit impulse at sample `4 ^ (order - 1)` has the wrong sign. -/
theorem C15_false (order : ℕ) (h1 : 1 ≤ order) (h : order ≤ 16) (useDIT : Bool) :
    ∃ (p : Radix4Plan) (x y : List ℂ), Radix4Plan.make order = .ok p ∧ x.length = 4 ^ order ∧
      p.call useDIT x .forward = .ok y ∧
      y[1]? ≠ some (Spec.dft (4 ^ order) (fun n => x.getD n 0) 1) := by
  obtain ⟨p, hp, hc⟩ := C15_partial order h1 h useDIT
  obtain ⟨⟨y, e, -, hv⟩, -⟩ := hc (impulse4 order) (by simp [impulse4])
  refine ⟨p, impulse4 order, y, hp, by simp [impulse4], e, ?_⟩
  rw [hv 1 (Nat.one_lt_pow (by omega) (by norm_num))]
  exact fun e => impulse4_signed_ne h1 (Option.some.inj e)

/-- Bins all of whose base-4 digits are even are right (for example bin 0, the mean). -/
theorem C15_even_bins_partial (order : ℕ) (h1 : 1 ≤ order) (h : order ≤ 16) (useDIT : Bool) (x : List ℂ)
    (hx : x.length = 4 ^ order) (k : ℕ) (hk : k < 4 ^ order) (heven : ∀ a < order, Even (k / 4 ^ a % 4)) :
    ∃ p y, Radix4Plan.make order = .ok p ∧ p.call useDIT x .forward = .ok y ∧
      y[k]? = some (Spec.dft (4 ^ order) (fun n => x.getD n 0) k) := by
  obtain ⟨p, hp, hc⟩ := C15_partial order h1 h useDIT
  obtain ⟨⟨y, e, -, hv⟩, -⟩ := hc x hx
  refine ⟨p, y, hp, e, ?_⟩
  rw [hv k hk]
  congr 2
  funext n
  unfold Spec.digitSigned
  have : Even (Spec.digitDot order k n) := by
    unfold Spec.digitDot
    exact Finset.even_sum _ (fun a ha => (heven a (mem_range.1 ha)).mul_right _)
  rw [this.neg_one_pow, one_mul]

theorem r4_roundtrip {b : ℕ} {x y : List ℂ} {m : ℕ} (hm : m < 4 ^ b)
    (hy : ∀ k < 4 ^ b, y[k]? = some (Spec.dft (4 ^ b) (Spec.digitSigned b k (fun n => x.getD n 0)) k)) :
    Spec.idft (4 ^ b) (Spec.digitSigned b m (fun n => y.getD n 0)) m = 4 ^ b * x.getD m 0 := by
  have h1 := r4_last .backward b (fun n => y.getD n 0) m
  change _ = Spec.idft (4 ^ b) (Spec.digitSigned b m (fun n => y.getD n 0)) m at h1
  rw [← h1]
  have h2 : ∀ k ∈ range (4 ^ b), y.getD k 0 * r4c .backward b m k
      = ∑ n ∈ range (4 ^ b), x.getD n 0 * (r4c .backward b k m * r4c .forward b k n) := by
    intro k hk
    have hk := mem_range.1 hk
    have h3 := r4_last .forward b (fun n => x.getD n 0) k
    change _ = Spec.dft (4 ^ b) (Spec.digitSigned b k (fun n => x.getD n 0)) k at h3
    rw [List.getD_eq_getElem?_getD, hy k hk, Option.getD_some, ← h3, sum_mul]
    apply sum_congr rfl
    intro n _
    have h4 : r4c .backward b m k = r4c .backward b k m := by
      unfold r4c; rw [Nat.mul_comm, digitDot_comm]
    rw [h4]
    ring
  rw [sum_congr rfl h2, sum_comm]
  simp only [← mul_sum]
  rw [sum_eq_single_of_mem m (mem_range.2 hm)]
  · rw [r4c_orthogonal b m hm m hm, if_pos rfl, mul_comm]
  · intro n hn hne
    rw [r4c_orthogonal b m hm n (mem_range.1 hn), if_neg (Ne.symm hne), mul_zero]

/-- What the tests check: forward then backward gives `4 ^ order` times the input. -/
theorem C15_roundtrip (order : ℕ) (h1 : 1 ≤ order) (h : order ≤ 16) (useDIT : Bool) (x : List ℂ)
    (hx : x.length = 4 ^ order) :
    ∃ p y z, Radix4Plan.make order = .ok p ∧ p.call useDIT x .forward = .ok y ∧
      p.call useDIT y .backward = .ok z ∧ ∀ k < 4 ^ order, z[k]? = some (4 ^ order * x.getD k 0) := by
  obtain ⟨p, hp, hc⟩ := C15_partial order h1 h useDIT
  obtain ⟨⟨y, e, hyl, hv⟩, -⟩ := hc x hx
  obtain ⟨-, ⟨z, e', -, hz⟩⟩ := hc y hyl
  exact ⟨p, y, z, hp, e, e', fun k hk => by rw [hz k hk, r4_roundtrip hk hv]⟩

/-- Outside the property: at order 0 the constructor leaves its table. -/
theorem C15_order_zero_out_of_bounds : Radix4Plan.make 0 = .error .oob := by
  unfold Radix4Plan.make
  rw [ipow_eq, digitrevMake_eq (by norm_num), bind_ok]
  unfold radix4Lut
  rw [if_pos (by norm_num)]
  rfl

/-- A concrete instance of the hypotheses and of the failure: the forward transform of `(0, 1, 0, 0)` is that of
the wrong direction. -/
example : ∃ (p : Radix4Plan) (y : List ℂ), Radix4Plan.make 1 = .ok p ∧
    p.call true [0, 1, 0, 0] .forward = .ok y ∧ y[1]? = some Complex.I := by
  obtain ⟨p, hp, hc⟩ := C15_partial 1 (by norm_num) (by norm_num) true
  obtain ⟨⟨y, e, -, hv⟩, -⟩ := hc [0, 1, 0, 0] rfl
  refine ⟨p, y, hp, e, ?_⟩
  rw [hv 1 (by norm_num), ← dftRoot_forward, pow_one]
  have hr : root 4 .forward = -Complex.I := by
    rw [root4_eq]
    apply Complex.ext <;> simp [signedI]
  simp [Spec.dftRoot, sum_range_succ, Spec.digitSigned, Spec.digitDot, hr]

/-! ## C16, decimation in time -/

/-- **C16** (partial), radix 4, decimation in time: the same sign pattern.  Missing: the DFT itself, which is
false (`C16_dit4_false`). -/
theorem C16_dit4_partial (order : ℕ) (h : order ≤ 15) (x work : List ℂ) (hx : x.length = 4 ^ order)
    (hw : work.length = 4 ^ order) :
    (∃ y work', stockhamDit4 order x work .forward = .ok (y, work') ∧
      y.length = 4 ^ order ∧ work'.length = 4 ^ order ∧ ∀ k < 4 ^ order,
        y[k]? = some (Spec.dft (4 ^ order) (Spec.digitSigned order k (fun n => x.getD n 0)) k)) ∧
    (∃ y work', stockhamDit4 order x work .backward = .ok (y, work') ∧
      y.length = 4 ^ order ∧ work'.length = 4 ^ order ∧ ∀ k < 4 ^ order,
        y[k]? = some (Spec.idft (4 ^ order) (Spec.digitSigned order k (fun n => x.getD n 0)) k)) := by
  have hn : 4 ^ order < 2 ^ 32 := lt_of_le_of_lt (Nat.pow_le_pow_right (by norm_num) h) (by norm_num)
  exact ⟨stockham_out (call := fun x w => stockhamDit4 order x w .forward)
      (G := fun X k => Spec.dft (4 ^ order) (Spec.digitSigned order k X) k) hx hw
      (fun X W => stockhamDit4_vec hn .forward X W),
    stockham_out (call := fun x w => stockhamDit4 order x w .backward)
      (G := fun X k => Spec.idft (4 ^ order) (Spec.digitSigned order k X) k) hx hw
      (fun X W => stockhamDit4_vec hn .backward X W)⟩

/-- **C16 is false** of the decimation-in-time plan at every order from 1 to 15. -/
theorem C16_dit4_false (order : ℕ) (h1 : 1 ≤ order) (h : order ≤ 15) (work : List ℂ)
    (hw : work.length = 4 ^ order) :
    ∃ x y w, x.length = 4 ^ order ∧ stockhamDit4 order x work .forward = .ok (y, w) ∧
      y[1]? ≠ some (Spec.dft (4 ^ order) (fun n => x.getD n 0) 1) := by
  obtain ⟨⟨y, w, e, -, -, hv⟩, -⟩ := C16_dit4_partial order h (impulse4 order) work (by simp [impulse4]) hw
  refine ⟨impulse4 order, y, w, by simp [impulse4], e, ?_⟩
  rw [hv 1 (Nat.one_lt_pow (by omega) (by norm_num))]
  exact fun e => impulse4_signed_ne h1 (Option.some.inj e)

/-- What the tests check: forward then backward gives `4 ^ order` times the input. -/
theorem C16_dit4_roundtrip (order : ℕ) (h : order ≤ 15) (x work : List ℂ) (hx : x.length = 4 ^ order)
    (hw : work.length = 4 ^ order) :
    ∃ y w z w', stockhamDit4 order x work .forward = .ok (y, w) ∧
      stockhamDit4 order y w .backward = .ok (z, w') ∧
      ∀ k < 4 ^ order, z[k]? = some (4 ^ order * x.getD k 0) := by
  obtain ⟨⟨y, w, e, hyl, hwl, hv⟩, -⟩ := C16_dit4_partial order h x work hx hw
  obtain ⟨-, ⟨z, w', e', -, -, hz⟩⟩ := C16_dit4_partial order h y w hyl hwl
  exact ⟨y, w, z, w', e, e', fun k hk => by rw [hz k hk, r4_roundtrip hk hv]⟩

end Neo.Props
