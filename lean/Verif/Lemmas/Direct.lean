import Verif.Lemmas.Conv

/-! # `direct_convolve` computes the linear convolution -/

namespace Neo

open Finset

variable {R : Type} [CommRing R]

theorem directInner_vec {n l M k lo hi : ℕ} (a b f : ℕ → R) (h1 : lo ≤ hi) (h2 : hi ≤ n)
    (hk : k < M) (hm : ∀ m, lo ≤ m → m < hi → m ≤ k ∧ k - m < l) :
    directInner (vec n a) (vec l b) k lo hi (vec M f)
      = .ok (vec M (Function.update f k (f k + ∑ m ∈ Ico lo hi, a m * b (k - m)))) := by
  unfold directInner
  apply forR_eq' (fun i => vec M (Function.update f k (f k + ∑ m ∈ Ico lo i, a m * b (k - m)))) h1
  · simp
  · rfl
  · intro i hi1 hi2
    obtain ⟨c1, c2⟩ := hm i hi1 hi2
    rw [rd_vec_ok hk, bind_ok, rd_vec_ok (by omega), bind_ok]
    simp only [subIdx, if_pos c1, bind_ok]
    rw [rd_vec_ok c2, bind_ok, wr_vec_ok hk]
    congr 1
    rw [Function.update_self, Function.update_idem, sum_Ico_succ_top hi1, add_assoc]

theorem directLoops_vec {n l : ℕ} (a b o : ℕ → R) (hl : 1 ≤ l) (hln : l ≤ n) :
    directLoops (vec n a) (vec l b) n l (n + l - 1) (vec (n + l - 1) o)
      = .ok (vec (n + l - 1) (Spec.conv (fun i => if i < n then a i else 0)
          (fun i => if i < l then b i else 0))) := by
  set c := Spec.conv (fun i => if i < n then a i else 0) (fun i => if i < l then b i else 0) with hc
  unfold directLoops
  rw [forN_eq' (s' := vec (n + l - 1) (fun k => if k < l then c k else o k))
    (fun i => vec (n + l - 1) (fun k => if k < i then c k else o k)), bind_ok]
  · rw [forR_eq' (s' := (vec (n + l - 1) c, n - 1))
      (fun i => (vec (n + l - 1) (fun k => if k < i then c k else o k), i - l)) (by omega),
      bind_ok, pure_eq_ok]
    · simp
    · rw [Prod.mk.injEq]
      exact ⟨vec_ext (fun k hk => by rw [if_pos hk]), by omega⟩
    · intro k hk1 hk2
      simp only []
      rw [wr_vec_ok hk2, bind_ok, directInner_vec _ _ _ (by omega) (by omega) hk2
        (fun m _ _ => by omega), bind_ok, pure_eq_ok]
      congr 2
      · apply vec_ext
        intro m _
        by_cases h : m = k
        · subst h
          rw [Function.update_self, Function.update_self, zero_add, if_pos (by omega), hc]
          unfold Spec.conv
          symm
          rw [← Nat.Ico_zero_eq_range]
          symm
          apply sum_subset_zero_on_sdiff
          · intro j hj
            rw [mem_Ico] at hj ⊢
            omega
          · intro j hj
            rw [mem_sdiff, mem_Ico, mem_Ico] at hj
            beta_reduce
            by_cases c1 : j < n
            · rw [if_neg (by omega : ¬ m - j < l), mul_zero]
            · rw [if_neg c1, zero_mul]
          · intro j hj
            rw [mem_Ico] at hj
            beta_reduce
            rw [if_pos (by omega), if_pos (by omega)]
        · rw [Function.update_of_ne h, Function.update_of_ne h]
          have : m < k + 1 ↔ m < k := by omega
          simp only [this]
      · omega
  · exact vec_ext (fun k _ => by simp)
  · rfl
  · intro k hk
    rw [wr_vec_ok (by omega), bind_ok, directInner_vec _ _ _ (by omega) (by omega) (by omega)
      (fun m _ _ => by omega)]
    congr 1
    apply vec_ext
    intro m _
    by_cases h : m = k
    · subst h
      rw [Function.update_self, Function.update_self, zero_add, if_pos (by omega), hc]
      unfold Spec.conv
      rw [Nat.Ico_zero_eq_range]
      apply sum_congr rfl
      intro j hj
      rw [mem_range] at hj
      beta_reduce
      rw [if_pos (by omega), if_pos (by omega)]
    · rw [Function.update_of_ne h, Function.update_of_ne h]
      have : m < k + 1 ↔ m < k := by omega
      simp only [this]

theorem directConvolveInto_vec {n l : ℕ} (a b o : ℕ → R) (hn : 1 ≤ n) (hl : 1 ≤ l) :
    directConvolveInto (vec n a) (vec l b) (vec (n + l - 1) o)
      = .ok (vec (n + l - 1) (Spec.conv (fun i => if i < n then a i else 0)
          (fun i => if i < l then b i else 0))) := by
  unfold directConvolveInto outputSizeFull
  simp only [length_vec, decide_true, check_true, bind_ok]
  by_cases h : n ≥ l
  · rw [if_pos h]; exact directLoops_vec a b o hl h
  · rw [if_neg h]
    have := directLoops_vec b a o hn (by omega : n ≤ l)
    rw [show l + n - 1 = n + l - 1 by omega] at this
    rw [this]
    congr 1
    exact vec_ext (fun k _ => conv_comm _ _ _)

end Neo
