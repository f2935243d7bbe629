import Verif.Model.Overlap
import Verif.Spec.Signal
import Verif.Lemmas.Sums
import Mathlib.Algebra.BigOperators.Ring.Finset
import Mathlib.Algebra.BigOperators.Intervals

/-! # Linear convolution: circular convolution without aliasing, block decompositions -/

namespace Neo

open Finset

variable {R : Type} [CommRing R]

theorem conv_comm (h x : ℕ → R) (n : ℕ) : Spec.conv h x n = Spec.conv x h n := by
  unfold Spec.conv
  rw [← sum_range_reflect]
  apply sum_congr rfl
  intro m hm
  rw [mem_range] at hm
  rw [show n + 1 - 1 - m = n - m by omega, show n - (n - m) = m by omega]
  ring

/-- Convolution as a sum over the support of `h`. -/
theorem conv_support {h : ℕ → R} {Q : ℕ} (hh : ∀ m, Q ≤ m → h m = 0) (x : ℕ → R) (n : ℕ) :
    Spec.conv h x n = ∑ m ∈ range Q, if m ≤ n then h m * x (n - m) else 0 := by
  unfold Spec.conv
  have h1 : ∑ m ∈ range (n + 1), h m * x (n - m)
      = ∑ m ∈ range (max Q (n + 1)), if m ≤ n then h m * x (n - m) else 0 := by
    rw [← sum_subset (range_subset_range.2 (le_max_right Q (n + 1)))]
    · exact sum_congr rfl (fun m hm => by rw [mem_range] at hm; rw [if_pos (by omega)])
    · intro m _ hm
      rw [mem_range] at hm
      rw [if_neg (by omega)]
  rw [h1]
  symm
  apply sum_subset (range_subset_range.2 (le_max_left Q (n + 1)))
  intro m _ hm
  rw [mem_range] at hm
  rw [hh m (by omega), zero_mul, ite_self]

/-- Circular convolution as a sum over the support of the second factor, when no index wraps. -/
theorem circConv_no_wrap {x h : ℕ → R} {K Q n : ℕ} (hQ : Q ≤ n + 1) (hn : n < K)
    (hh : ∀ m, Q ≤ m → h m = 0) :
    Spec.circConv K x h n = ∑ m ∈ range Q, h m * x (n - m) := by
  unfold Spec.circConv
  symm
  rw [← sum_subset (range_subset_range.2 (by omega : n + 1 ≤ K))]
  · rw [← sum_range_reflect (fun j => x j * h ((n + K - j) % K)) (n + 1)]
    rw [sum_subset (range_subset_range.2 hQ)]
    · apply sum_congr rfl
      intro m hm
      rw [mem_range] at hm
      rw [show n + 1 - 1 - m = n - m by omega, show n + K - (n - m) = m + K by omega,
        Nat.add_mod_right, Nat.mod_eq_of_lt (by omega)]
      ring
    · intro m _ hm
      rw [mem_range] at hm
      rw [hh m (by omega), zero_mul]
  · intro j hj hj'
    rw [mem_range] at hj hj'
    rw [Nat.mod_eq_of_lt (by omega), hh _ (by omega), mul_zero]

/-- Circular convolution of zero-padded signals is linear convolution. -/
theorem circConv_eq_conv {x h : ℕ → R} {K P Q n : ℕ} (hx : ∀ m, P ≤ m → x m = 0)
    (hh : ∀ m, Q ≤ m → h m = 0) (hK : P + Q ≤ K + 1) (hn : n < K) :
    Spec.circConv K x h n = Spec.conv h x n := by
  rw [conv_comm]
  unfold Spec.circConv Spec.conv
  symm
  rw [← sum_subset (range_subset_range.2 (by omega : n + 1 ≤ K))]
  · apply sum_congr rfl
    intro j hj
    rw [mem_range] at hj
    rw [show n + K - j = n - j + K by omega, Nat.add_mod_right, Nat.mod_eq_of_lt (by omega)]
  · intro j hj hj'
    rw [mem_range] at hj hj'
    rw [Nat.mod_eq_of_lt (by omega)]
    by_cases c : P ≤ j
    · rw [hx j c, zero_mul]
    · rw [hh _ (by omega), mul_zero]

/-- Block `u` of length `B` of a signal, zero-padded. -/
def seg {R : Type} [Zero R] (B : ℕ) (f : ℕ → R) (u k : ℕ) : R := if k < B then f (u * B + k) else 0

theorem seg_zero {B : ℕ} {f : ℕ → R} {u k : ℕ} (h : B ≤ k) : seg B f u k = 0 := by
  unfold seg; rw [if_neg (by omega)]

theorem seg_of_lt {B : ℕ} {f : ℕ → R} {u k : ℕ} (h : k < B) : seg B f u k = f (u * B + k) := by
  unfold seg; rw [if_pos h]

/-- Contribution of filter segment `j` to output sample `t*B+i`, where `u = t - j`. -/
def segTerm (B : ℕ) (h x : ℕ → R) (j u i : ℕ) : R :=
  ∑ r ∈ range B, if r ≤ u * B + i then h (j * B + r) * x (u * B + i - r) else 0

/-- Partitioned convolution: output sample `t*B+i` is the sum of the contributions of the
segments. -/
theorem conv_partition {B N : ℕ} {h : ℕ → R} (hh : ∀ m, N * B ≤ m → h m = 0) (x : ℕ → R)
    (t : ℕ) {i : ℕ} (hi : i < B) :
    Spec.conv h x (t * B + i)
      = ∑ j ∈ range N, if j ≤ t then segTerm B h x j (t - j) i else 0 := by
  rw [conv_support hh, sum_range_mul']
  apply sum_congr rfl
  intro j _
  by_cases hj : j ≤ t
  · rw [if_pos hj]
    unfold segTerm
    apply sum_congr rfl
    intro r hr
    rw [mem_range] at hr
    have e : t * B = j * B + (t - j) * B := by rw [← add_mul]; congr 1; omega
    by_cases c : r ≤ (t - j) * B + i
    · rw [if_pos c, if_pos (by omega)]
      congr 2 <;> omega
    · rw [if_neg c, if_neg (by omega)]
  · rw [if_neg hj]
    apply sum_eq_zero
    intro r hr
    have : (t + 1) * B ≤ j * B := Nat.mul_le_mul_right _ (by omega)
    rw [add_mul, one_mul] at this
    rw [if_neg (by omega)]

/-- The contribution of a segment, as needed by overlap-add: the linear convolutions of the current
and the previous input block with the segment. -/
theorem segTerm_add {B : ℕ} (h x : ℕ → R) (j u : ℕ) {i : ℕ} (hi : i < B) :
    segTerm B h x j u i = Spec.conv (seg B h j) (seg B x u) i
      + if 1 ≤ u then Spec.conv (seg B h j) (seg B x (u - 1)) (B + i) else 0 := by
  have e1 : Spec.conv (seg B h j) (seg B x u) i
      = ∑ r ∈ range B, if r ≤ i then h (j * B + r) * x (u * B + (i - r)) else 0 := by
    rw [conv_support (Q := B) (fun m hm => seg_zero hm)]
    apply sum_congr rfl
    intro r hr
    rw [mem_range] at hr
    rw [seg_of_lt hr]
    split
    · rw [seg_of_lt (by omega)]
    · rfl
  have e2 : ∀ v, Spec.conv (seg B h j) (seg B x v) (B + i)
      = ∑ r ∈ range B, if i < r then h (j * B + r) * x (v * B + (B + i - r)) else 0 := by
    intro v
    rw [conv_support (Q := B) (fun m hm => seg_zero hm)]
    apply sum_congr rfl
    intro r hr
    rw [mem_range] at hr
    rw [seg_of_lt hr, if_pos (by omega)]
    split
    · rw [seg_of_lt (by omega)]
    · rw [seg_zero (by omega), mul_zero]
  rw [e1]
  by_cases hu : 1 ≤ u
  · rw [if_pos hu, e2, ← sum_add_distrib]
    unfold segTerm
    apply sum_congr rfl
    intro r hr
    rw [mem_range] at hr
    have e : u * B = (u - 1) * B + B := by
      rw [← Nat.succ_mul]; congr 1; omega
    by_cases c : r ≤ i
    · rw [if_pos c, if_pos (by omega), if_neg (by omega), add_zero]
      congr 2; omega
    · rw [if_neg c, if_pos (by omega), if_pos (by omega), zero_add]
      congr 2; omega
  · rw [if_neg hu, add_zero]
    have : u = 0 := by omega
    subst this
    unfold segTerm
    apply sum_congr rfl
    intro r _
    simp

/-- A filter of at most `B + 1` taps only reaches into the previous block. -/
theorem conv_two_blocks {B : ℕ} {h : ℕ → R} (hh : ∀ m, B + 1 ≤ m → h m = 0) (x : ℕ → R)
    (t : ℕ) {i : ℕ} (hi : i < B) :
    Spec.conv h x (t * B + i) = Spec.conv h (seg B x t) i
      + if 1 ≤ t then Spec.conv h (seg B x (t - 1)) (B + i) else 0 := by
  rw [conv_support hh, conv_support hh, conv_support hh]
  by_cases ht : 1 ≤ t
  · rw [if_pos ht, ← sum_add_distrib]
    apply sum_congr rfl
    intro m hm
    rw [mem_range] at hm
    have e : t * B = (t - 1) * B + B := by
      rw [← Nat.succ_mul]; congr 1; omega
    by_cases c : m ≤ i
    · rw [if_pos (by omega), if_pos c, if_pos (by omega), seg_of_lt (by omega),
        seg_zero (by omega), mul_zero, add_zero]
      congr 2; omega
    · rw [if_pos (by omega), if_neg c, if_pos (by omega), seg_of_lt (by omega), zero_add]
      congr 2; omega
  · rw [if_neg ht, add_zero]
    have : t = 0 := by omega
    subst this
    apply sum_congr rfl
    intro m hm
    rw [Nat.zero_mul, Nat.zero_add]
    split
    · rw [seg_of_lt (by omega), Nat.zero_mul, Nat.zero_add]
    · rfl

theorem conv_eq_zero {x h : ℕ → R} {P Q n : ℕ} (hx : ∀ m, P ≤ m → x m = 0)
    (hh : ∀ m, Q ≤ m → h m = 0) (hn : P + Q ≤ n + 1) : Spec.conv h x n = 0 := by
  rw [conv_support hh]
  apply sum_eq_zero
  intro m hm
  rw [mem_range] at hm
  rw [hx (n - m) (by omega), mul_zero, ite_self]

/-- The window of overlap-save after block `u`: the previous and the current input block. -/
def saveWindow {R : Type} [Zero R] (B : ℕ) (x : ℕ → R) (u k : ℕ) : R :=
  if k < B then (if 1 ≤ u then x ((u - 1) * B + k) else 0) else x (u * B + (k - B))

/-- The contribution of a segment, as needed by overlap-save. -/
theorem segTerm_save {B K : ℕ} (hK : K = 2 * B) (h x : ℕ → R) (j u : ℕ) {i : ℕ} (hi : i < B) :
    segTerm B h x j u i = Spec.circConv K (saveWindow B x u) (seg B h j) (B + i) := by
  rw [circConv_no_wrap (Q := B) (by omega) (by omega) (fun m hm => seg_zero hm)]
  unfold segTerm
  apply sum_congr rfl
  intro r hr
  rw [mem_range] at hr
  rw [seg_of_lt hr]
  unfold saveWindow
  by_cases c : r ≤ i
  · rw [if_pos (by omega), if_neg (by omega)]
    congr 2; omega
  · rw [if_pos (by omega : B + i - r < B)]
    by_cases hu : 1 ≤ u
    · have e : u * B = (u - 1) * B + B := by
        rw [← Nat.succ_mul]; congr 1; omega
      rw [if_pos hu, if_pos (by omega)]
      congr 2; omega
    · have : u = 0 := by omega
      subst this
      rw [if_neg hu, if_neg (by omega), mul_zero]

/-! ## Running blocks -/

theorem vec_cons {α : Type} (n : ℕ) (f : ℕ → α) :
    vec (n + 1) f = f 0 :: vec n (fun i => f (i + 1)) := by
  simp [vec, List.range_succ_eq_map, Function.comp_def]

theorem runBlocks_inv {S β γ : Type} {step : S → β → Res (S × γ)} (Inv : ℕ → S → Prop)
    (blk : ℕ → β) (out : ℕ → γ)
    (hstep : ∀ t s, Inv t s → ∃ s', step s (blk t) = .ok (s', out t) ∧ Inv (t + 1) s') (T : ℕ) :
    ∀ t s, Inv t s → ∃ s', runBlocks step s (vec T (fun i => blk (t + i)))
      = .ok (s', vec T (fun i => out (t + i))) ∧ Inv (t + T) s' := by
  induction T with
  | zero => intro t s h; exact ⟨s, rfl, h⟩
  | succ T ih =>
    intro t s h
    obtain ⟨s1, e1, h1⟩ := hstep t s h
    obtain ⟨s2, e2, h2⟩ := ih (t + 1) s1 h1
    refine ⟨s2, ?_, by rwa [show t + (T + 1) = t + 1 + T by omega]⟩
    rw [vec_cons, vec_cons]
    simp only [runBlocks, Nat.add_zero]
    rw [e1, bind_ok]
    have a1 : (fun i => blk (t + (i + 1))) = fun i => blk (t + 1 + i) := by
      funext i; congr 1; omega
    have a2 : (fun i => out (t + (i + 1))) = fun i => out (t + 1 + i) := by
      funext i; congr 1; omega
    rw [a1, a2, e2, bind_ok, pure_eq_ok]

theorem flatten_vec {α : Type} {B : ℕ} (T : ℕ) (g : ℕ → α) :
    (vec T (fun t => vec B (fun i => g (t * B + i)))).flatten = vec (T * B) g := by
  induction T with
  | zero => simp
  | succ T ih =>
    rw [vec_succ, List.flatten_append, ih]
    simp only [List.flatten_cons, List.flatten_nil, List.append_nil]
    rw [add_mul, one_mul, eq_vec_iff]
    refine ⟨by simp, fun k hk => ?_⟩
    rw [List.getElem?_append]
    by_cases c : k < T * B
    · rw [if_pos (by simpa using c), getElem?_vec, if_pos c]
    · rw [if_neg (by simpa using c), getElem?_vec, length_vec, if_pos (by omega)]
      congr 2; omega

/-- Blocks of equal length are the blocks of their concatenation. -/
theorem blocks_eq_vec {α : Type} {B : ℕ} (d : α) (blocks : List (List α)) (h : ∀ b ∈ blocks, b.length = B) :
    blocks = vec blocks.length
      (fun t => vec B (fun i => blocks.flatten.getD (t * B + i) d)) := by
  induction blocks with
  | nil => rfl
  | cons b bs ih =>
    rw [List.length_cons, vec_cons]
    have hb : b.length = B := h b (by simp)
    congr 1
    · rw [eq_vec_iff]
      refine ⟨hb, fun i hi => ?_⟩
      rw [List.flatten_cons, Nat.zero_mul, Nat.zero_add, List.getD_eq_getElem?_getD,
        List.getElem?_append_left (by omega)]
      simp [List.getElem?_eq_getElem (show i < b.length by omega)]
    · conv_lhs => rw [ih (fun b' hb' => h b' (by simp [hb']))]
      apply vec_ext
      intro t _
      apply vec_ext
      intro i _
      rw [List.flatten_cons, List.getD_eq_getElem?_getD, List.getD_eq_getElem?_getD,
        List.getElem?_append_right (by rw [hb, add_mul, one_mul]; omega)]
      congr 2
      rw [hb, add_mul, one_mul]; omega

end Neo
