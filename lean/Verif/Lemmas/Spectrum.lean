import Verif.Model.Spectrum
import Verif.Spec.Levels
import Verif.Lemmas.SparseRender
import Verif.Lemmas.Stockham

/-! # Level statistics of a spectrogram -/

namespace Neo

open Finset

/-! ## Maximum loops -/

/-- `f` replaces `m` by the greatest element of `{m} ∪ S`. -/
def MaxOf (S : Set ℝ) (f : ℝ → Res ℝ) : Prop := ∀ m, ∃ m', f m = .ok m' ∧ IsGreatest (insert m S) m'

theorem maxOf_forN {n : ℕ} {S : ℕ → Set ℝ} {body : ℕ → ℝ → Res ℝ} (h : ∀ i < n, MaxOf (S i) (body i)) :
    MaxOf {p | ∃ i < n, p ∈ S i} (forN n body) := by
  intro m
  refine forN_inv (n := n) (body := body) (s := m)
    (fun t m' => IsGreatest (insert m {p | ∃ i < t, p ∈ S i}) m')
    ⟨Set.mem_insert _ _, ?_⟩ ?_
  · rintro p (rfl | ⟨i, hi, -⟩)
    · exact le_rfl
    · omega
  · intro t ht m1 ⟨g1, g2⟩
    obtain ⟨m2, e2, g3, g4⟩ := h t ht m1
    refine ⟨m2, e2, ?_, ?_⟩
    · rcases g3 with rfl | g3
      · rcases g1 with rfl | ⟨i, hi, g1⟩
        · exact Set.mem_insert _ _
        · exact Or.inr ⟨i, by omega, g1⟩
      · exact Or.inr ⟨t, by omega, g3⟩
    · rintro p (rfl | ⟨i, hi, hp⟩)
      · exact (g2 (Set.mem_insert _ _)).trans (g4 (Set.mem_insert _ _))
      · rcases Nat.lt_succ_iff_lt_or_eq.1 hi with hi | rfl
        · exact (g2 (Or.inr ⟨i, hi, hp⟩)).trans (g4 (Set.mem_insert _ _))
        · exact g4 (Or.inr hp)

theorem maxOf_forUInt {n : ℕ} {S : ℕ → Set ℝ} {body : ℕ → ℝ → Res ℝ} (hn : n < 2 ^ 32)
    (h : ∀ i < n, MaxOf (S i) (body i)) : MaxOf {p | ∃ i < n, p ∈ S i} (forUInt n body) := by
  intro m
  rw [forUInt_eq hn]
  exact maxOf_forN h m

theorem maxOf_power {data : List ℂ} {i : ℕ} (h : i < data.length) :
    MaxOf {p | p = ‖data.getD i 0‖ ^ 2} (fun m => do
      let z ← rd data i
      let bin := ‖z‖
      pure (max m (bin * bin))) := by
  intro m
  refine ⟨max m (‖data.getD i 0‖ ^ 2), ?_, ?_, ?_⟩
  · dsimp only
    rw [rd_ok h, bind_ok, pure_eq_ok, List.getD_eq_getElem?_getD, List.getElem?_eq_getElem h,
      Option.getD_some, sq]
  · rcases le_total m (‖data.getD i 0‖ ^ 2) with c | c
    · rw [max_eq_right c]; exact Or.inr rfl
    · rw [max_eq_left c]; exact Set.mem_insert _ _
  · rintro p (rfl | rfl)
    · exact le_max_left _ _
    · exact le_max_right _ _

theorem greatest_of_insert_zero {S : Set ℝ} {m : ℝ} (h : IsGreatest (insert 0 S) m) (hne : S.Nonempty)
    (hnn : ∀ p ∈ S, 0 ≤ p) : IsGreatest S m := by
  obtain ⟨h1, h2⟩ := h
  refine ⟨?_, fun p hp => h2 (Or.inr hp)⟩
  rcases h1 with rfl | h1
  · obtain ⟨p, hp⟩ := hne
    have : p ≤ 0 := h2 (Or.inr hp)
    rwa [← le_antisymm this (hnn p hp)]
  · exact h1

/-- Powers of the elements of a matrix. -/
def powers (v : MatView) (data : List ℂ) : Set ℝ :=
  {p | ∃ j < v.rows, ∃ k < v.cols, p = ‖matAt v data j k‖ ^ 2}

theorem spectrumScale_eq {v : MatView} {data : List ℂ} (hv : v.InRange data.length)
    (hr : 1 ≤ v.rows) (hc : 1 ≤ v.cols) (hr2 : v.rows < 2 ^ 32) (hc2 : v.cols < 2 ^ 32) :
    ∃ pk, IsGreatest (powers v data) pk ∧
      spectrumScale v data = .ok (if pk = 0 then none else some (1 / pk)) := by
  obtain ⟨m, e, g⟩ := maxOf_forUInt hr2 (S := fun j => {p | ∃ k < v.cols, p ∈ {p | p = ‖matAt v data j k‖ ^ 2}})
    (body := fun j => forUInt v.cols (fun k (m : ℝ) => do
      let z ← rd data (v.idx j k)
      let bin := ‖z‖
      pure (max m (bin * bin)))) (fun j hj => maxOf_forUInt hc2 fun k hk => maxOf_power (hv j hj k hk)) 0
  refine ⟨m, greatest_of_insert_zero g ⟨_, 0, hr, 0, hc, rfl⟩ ?_, ?_⟩
  · rintro p ⟨j, hj, k, hk, rfl⟩
    positivity
  · unfold spectrumScale
    rw [e, bind_ok, pure_eq_ok]

theorem partitionsScale_eq {C N K : ℕ} {part : List ℂ}
    (hv : ∀ c < C, (partitionView N K c).InRange part.length)
    (hC : 1 ≤ C) (hN : 1 ≤ N) (hK : 1 ≤ K) (hC2 : C < 2 ^ 32) (hN2 : N < 2 ^ 32) (hK2 : K < 2 ^ 32) :
    ∃ pk, IsGreatest {p | ∃ c < C, p ∈ powers (partitionView N K c) part} pk ∧
      partitionsScale C N K part = .ok (if pk = 0 then none else some (1 / pk)) := by
  obtain ⟨m, e, g⟩ := maxOf_forUInt hC2 (S := fun c => {p | ∃ j < N, p ∈ {p | ∃ k < K,
      p ∈ {p | p = ‖matAt (partitionView N K c) part j k‖ ^ 2}}})
    (body := fun c => forUInt N (fun j => forUInt K (fun k (m : ℝ) => do
      let z ← rd part ((partitionView N K c).idx j k)
      let bin := ‖z‖
      pure (max m (bin * bin)))))
    (fun c hc => maxOf_forUInt hN2 fun j hj => maxOf_forUInt hK2 fun k hk =>
      maxOf_power (hv c hc j hj k hk)) 0
  refine ⟨m, greatest_of_insert_zero g ⟨_, 0, hC, 0, hN, 0, hK, rfl⟩ ?_, ?_⟩
  · rintro p ⟨c, hc, j, hj, k, hk, rfl⟩
    positivity
  · unfold partitionsScale
    rw [e, bind_ok, pure_eq_ok]

/-! ## Rounding and limiting -/

theorem roundToInt_nearest (x : ℝ) : Spec.Nearest x (roundToInt x) := by
  have h1 := Int.floor_le x
  have h2 := Int.lt_floor_add_one x
  unfold roundToInt Spec.Nearest
  split_ifs with a b c
  · left; rw [abs_of_nonneg (by linarith)]; exact a
  · left; push_cast; rw [abs_of_nonpos (by linarith)]; linarith
  · right; refine ⟨?_, c⟩; rw [abs_of_nonneg (by linarith)]; linarith
  · right
    push_cast
    refine ⟨?_, ?_⟩
    · rw [abs_of_nonpos (by linarith)]; linarith
    · rw [Int.not_even_iff_odd] at c; exact c.add_one

theorem nearest_unique {x : ℝ} {i j : ℤ} (hi : Spec.Nearest x i) (hj : Spec.Nearest x j) : i = j := by
  have hij : |(i : ℝ) - j| ≤ |x - i| + |x - j| := by
    rw [abs_sub_comm x i]
    exact abs_sub_le _ _ _
  have hle : ∀ {k : ℤ}, Spec.Nearest x k → |x - k| ≤ 1 / 2 := by
    rintro k (h | h)
    · exact h.le
    · exact h.1.le
  have hi' := hle hi
  have hj' := hle hj
  have hcast : ((|i - j| : ℤ) : ℝ) = |(i : ℝ) - j| := by push_cast; rfl
  by_cases c : |i - j| < 1
  · have := Int.abs_lt_one_iff.1 c
    omega
  · have h1 : (1 : ℝ) ≤ |(i : ℝ) - j| := by
      rw [← hcast]; exact_mod_cast not_lt.1 c
    have ei : |x - i| = 1 / 2 := by linarith
    have ej : |x - j| = 1 / 2 := by linarith
    have h2 : |(i : ℝ) - j| ≤ 1 := by linarith
    rw [← hcast] at h2
    have h3 : |i - j| ≤ 1 := by exact_mod_cast h2
    rcases hi with q | ⟨-, evi⟩
    · linarith
    rcases hj with q | ⟨-, evj⟩
    · linarith
    have h4 := abs_le.1 h3
    obtain ⟨a, rfl⟩ := evi
    obtain ⟨b, rfl⟩ := evj
    omega

theorem clampE_abs (l : ℝ) : |clampE (l : EReal) (-143) 0| = Spec.attenuation l := by
  unfold clampE Spec.attenuation
  simp only [EReal.coe_lt_coe_iff, EReal.toReal_coe]
  split_ifs with a b
  · rw [max_eq_right (by linarith), min_eq_left (by linarith)]; norm_num
  · rw [max_eq_left (by linarith), min_eq_right (by norm_num)]; norm_num
  · rw [max_eq_right (by linarith), min_eq_right (by linarith), abs_of_nonpos (by linarith)]

/-- The histogram index of a weighted level. -/
theorem index_spec (l : ℝ) : ∃ i : ℕ, i < 144 ∧ (roundToInt |clampE (l : EReal) (-143) 0|).toNat = i ∧
    ∀ j : ℕ, Spec.Nearest (Spec.attenuation l) j ↔ j = i := by
  rw [clampE_abs]
  have h0 : 0 ≤ Spec.attenuation l := le_min (by norm_num) (le_max_left _ _)
  have h1 : Spec.attenuation l ≤ 143 := min_le_left _ _
  set a := Spec.attenuation l
  have hn := roundToInt_nearest a
  have hb : |a - roundToInt a| ≤ 1 / 2 := by
    rcases hn with h | h
    · exact h.le
    · exact h.1.le
  have hb' := abs_le.1 hb
  have l1 : (-1 : ℝ) < roundToInt a := by linarith [hb'.2]
  have l2 : (roundToInt a : ℝ) < 144 := by linarith [hb'.1]
  have l1' : -1 < roundToInt a := by exact_mod_cast l1
  have l2' : roundToInt a < 144 := by exact_mod_cast l2
  refine ⟨(roundToInt a).toNat, by omega, rfl, fun j => ⟨fun h => ?_, ?_⟩⟩
  · have := nearest_unique h hn
    omega
  · rintro rfl
    rw [Int.toNat_of_nonneg (by omega)]
    exact hn

theorem weightedDb_eq {z : ℂ} {pk w : ℝ} (h : ‖z‖ ^ 2 ≤ pk) :
    weightedDb ‖z‖ (if pk = 0 then none else some (1 / pk)) (w : EReal)
      = ((Spec.level pk (‖z‖ ^ 2) + w : ℝ) : EReal) := by
  unfold weightedDb
  dsimp only
  rw [← sq, scaledDb_eq (by positivity) h, EReal.coe_add]

/-! ## Counting loops -/

theorem card_filter_range_succ (n : ℕ) (p : ℕ → Prop) [DecidablePred p] :
    #{i ∈ range (n + 1) | p i} = #{i ∈ range n | p i} + if p n then 1 else 0 := by
  rw [range_add_one, filter_insert]
  split_ifs with h
  · rw [card_insert_of_notMem (by simp)]
  · rfl

theorem card_filter_product (R C : ℕ) (p : ℕ → ℕ → Prop) [∀ a b, Decidable (p a b)] :
    #{q ∈ range R ×ˢ range C | p q.1 q.2} = ∑ r ∈ range R, #{c ∈ range C | p r c} := by
  simp only [card_filter]
  rw [sum_product]

/-- `f` adds `m ≤ cap` to a counter, if the counter stays an `int`. -/
def CountOf (m cap : ℕ) (f : ℤ → Res ℤ) : Prop :=
  m ≤ cap ∧ ∀ n : ℕ, n + cap < 2 ^ 31 → f n = .ok ((n + m : ℕ) : ℤ)

theorem countOf_forN {n cap : ℕ} {m : ℕ → ℕ} {body : ℕ → ℤ → Res ℤ} (h : ∀ i < n, CountOf (m i) cap (body i)) :
    CountOf (∑ i ∈ range n, m i) (n * cap) (forN n body) := by
  have hle : ∀ t ≤ n, ∑ i ∈ range t, m i ≤ t * cap := by
    intro t ht
    calc _ ≤ ∑ i ∈ range t, cap := sum_le_sum fun i hi => (h i (by rw [mem_range] at hi; omega)).1
      _ = t * cap := by simp
  refine ⟨hle n le_rfl, fun a ha => ?_⟩
  refine forN_eq' (fun t => ((a + ∑ i ∈ range t, m i : ℕ) : ℤ)) (by simp) rfl ?_
  intro i hi
  have h1 := hle i hi.le
  have h2 : (i + 1) * cap ≤ n * cap := Nat.mul_le_mul_right _ hi
  have h3 : (i + 1) * cap = i * cap + cap := by ring
  rw [(h i hi).2 _ (by omega), sum_range_succ, add_assoc]

theorem countOf_forUInt {n cap : ℕ} {m : ℕ → ℕ} {body : ℕ → ℤ → Res ℤ} (hn : n < 2 ^ 32)
    (h : ∀ i < n, CountOf (m i) cap (body i)) :
    CountOf (∑ i ∈ range n, m i) (n * cap) (forUInt n body) := by
  refine ⟨(countOf_forN h).1, fun a ha => ?_⟩
  rw [forUInt_eq hn]
  exact (countOf_forN h).2 a ha

/-! ## The table of weights -/

theorem frequencyWeights_eq {size : ℕ} {sr : ℝ} (hs : 1 ≤ size) (hsr : sr ≠ 0) :
    frequencyWeights size sr = .ok (vec size (fun i =>
      (((if i = 0 then 0 else Spec.aWeight (i * sr / size) : ℝ)) : EReal))) := by
  classical
  unfold frequencyWeights
  refine forN_eq' (fun t => vec size (fun i => if i < t then
    (((if i = 0 then 0 else Spec.aWeight (i * sr / size) : ℝ)) : EReal) else 0)) ?_ ?_ ?_
  · symm
    rw [eq_vec_iff]
    refine ⟨List.length_replicate, fun i hi => ?_⟩
    rw [List.getElem?_replicate, if_pos hi, if_neg (by omega)]
  · apply vec_ext
    intro i hi
    rw [if_pos hi]
  · intro t ht
    have hKr : ((size : ℤ) : ℝ) ≠ 0 := by
      exact_mod_cast (by omega : size ≠ 0)
    have hfd : fdiv 1 sr = .ok (1 / sr) := by unfold fdiv; rw [if_neg hsr]
    have hrf : rfftfreq (size : ℤ) (t : ℤ) (1 / sr) = .ok ((t : ℝ) * sr / size) := by
      unfold rfftfreq fdiv
      rw [if_neg (one_div_ne_zero hsr), bind_ok, if_neg hKr, bind_ok, pure_eq_ok]
      congr 1
      push_cast
      field_simp
    rw [hfd, bind_ok, hrf, bind_ok, wr_vec_ok (by omega)]
    congr 1
    apply vec_ext
    intro i hi
    by_cases c : i = t
    · subst c
      rw [Function.update_self, if_pos (show i < i + 1 by omega)]
      by_cases z : i = 0
      · subst z
        simp
      · have hne : (i : ℝ) * sr / size ≠ 0 := by
          have : (size : ℝ) ≠ 0 := by exact_mod_cast (by omega : size ≠ 0)
          have : (i : ℝ) ≠ 0 := by exact_mod_cast z
          positivity
        rw [if_neg hne, if_neg z, aWeighting_eq hne]
    · rw [Function.update_of_ne c]
      by_cases c2 : i < t
      · rw [if_pos c2, if_pos (show i < t + 1 by omega)]
      · rw [if_neg c2, if_neg (show ¬ i < t + 1 by omega)]

end Neo
