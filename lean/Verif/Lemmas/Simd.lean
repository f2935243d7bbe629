import Verif.Model.Simd
import Verif.Lemmas.Algo

/-! # Strided loops and batched kernels -/

namespace Neo

variable {α σ : Type}

/-- Loop rule for a strided loop with an explicit state at each iteration. -/
theorem forBatch_eq {step n : ℕ} {body : ℕ → σ → Res σ} : ∀ (K : ℕ) (st : ℕ → σ) (lo fuel : ℕ),
    (∀ k < K, lo + k * step < n ∧ body (lo + k * step) (st k) = .ok (st (k + 1))) →
    n ≤ lo + K * step → K ≤ fuel → forBatch step n body fuel lo (st 0) = .ok (st K) := by
  intro K
  induction K with
  | zero =>
    intro st lo fuel _ h2 _
    have : ¬ lo < n := by omega
    cases fuel <;> rw [forBatch, if_neg this]
  | succ K ih =>
    intro st lo fuel h1 h2 hf
    obtain ⟨f, rfl⟩ : ∃ f, fuel = f + 1 := ⟨fuel - 1, by omega⟩
    have h0 := h1 0 (by omega)
    rw [Nat.zero_mul, Nat.add_zero] at h0
    rw [forBatch, if_pos h0.1, h0.2, bind_ok]
    refine ih (fun k => st (k + 1)) (lo + step) f (fun k hk => ?_) ?_ (by omega)
    · have := h1 (k + 1) (by omega)
      rw [Nat.succ_mul, Nat.add_comm (k * step), ← Nat.add_assoc] at this
      exact this
    · rw [Nat.succ_mul] at h2
      omega

/-- `apply_kernel` with a scalar and a vector operation that may differ: the first `n % V` elements
come from the scalar one. -/
theorem applyKernel_vec2 {V n : ℕ} (hV : 1 ≤ V) (P : α → Prop) (f g o : ℕ → α) (op opv : α → α → α)
    (scalar : α → α → Res α) (vector : List α → List α → List α)
    (hf : ∀ i < n, P (f i)) (hg : ∀ i < n, P (g i))
    (hs : ∀ a b, P a → P b → scalar a b = .ok (op a b))
    (hv : ∀ f g : ℕ → α, (∀ i < V, P (f i)) → (∀ i < V, P (g i)) →
      vector (vec V f) (vec V g) = vec V (fun i => opv (f i) (g i))) :
    applyKernel V (vec n f) (vec n g) (vec n o) scalar vector
      = .ok (vec n (fun i => if i < n % V then op (f i) (g i) else opv (f i) (g i))) := by
  unfold applyKernel
  rw [length_vec]
  have hdm := Nat.div_add_mod n V
  have hr : n % V ≤ n := Nat.mod_le n V
  have e1 : forN (n % V) (fun i out => do
      let a ← rd (vec n f) i
      let b ← rd (vec n g) i
      let v ← scalar a b
      wr out i v) (vec n o)
      = .ok (vec n (fun i => if i < n % V then op (f i) (g i) else o i)) := by
    apply forN_eq' (fun i => vec n (fun m => if m < i then op (f m) (g m) else o m))
    · exact vec_ext (fun m _ => by simp)
    · rfl
    · intro i hi
      have hin : i < n := by omega
      rw [rd_vec_ok hin, bind_ok, rd_vec_ok hin, bind_ok, hs _ _ (hf i hin) (hg i hin), bind_ok,
        wr_vec_ok hin]
      congr 1
      apply vec_ext
      intro m _
      by_cases hm : m = i
      · subst hm; rw [Function.update_self, if_pos (by omega)]
      · rw [Function.update_of_ne hm]
        by_cases h : m < i
        · rw [if_pos h, if_pos (by omega)]
        · rw [if_neg h, if_neg (by omega)]
  rw [e1, bind_ok]
  have key := forBatch_eq (step := V) (n := n) (body := fun i out => do
      let l ← rdSpan (vec n f) i (i + V)
      let r ← rdSpan (vec n g) i (i + V)
      wrSpan out i (vector l r)) (n / V)
    (fun k => vec n (fun i => if i < n % V then op (f i) (g i)
      else if i < n % V + k * V then opv (f i) (g i) else o i)) (n % V) n ?_ ?_
    (Nat.div_le_self n V)
  · have e2 : (vec n (fun i => if i < n % V then op (f i) (g i) else o i))
        = vec n (fun i => if i < n % V then op (f i) (g i)
            else if i < n % V + 0 * V then opv (f i) (g i) else o i) := by
      apply vec_ext
      intro i _
      by_cases c : i < n % V
      · rw [if_pos c, if_pos c]
      · rw [if_neg c, if_neg c, if_neg (by omega)]
    rw [e2]
    rw [Nat.zero_mul, Nat.add_zero] at key
    rw [Nat.zero_mul, Nat.add_zero, key]
    congr 1
    apply vec_ext
    intro i hi
    rw [Nat.mul_comm] at hdm
    rw [if_pos (show i < n % V + n / V * V by omega)]
  · intro k hk
    have h1 : (k + 1) * V ≤ n / V * V := Nat.mul_le_mul_right V hk
    rw [Nat.mul_comm V] at hdm
    rw [Nat.succ_mul] at h1
    refine ⟨by omega, ?_⟩
    rw [rdSpan_vec (by omega) (by omega), bind_ok, rdSpan_vec (by omega) (by omega), bind_ok,
      Nat.add_sub_cancel_left, hv _ _ (fun i hi => hf _ (by omega)) (fun i hi => hg _ (by omega)),
      wrSpan_vec (by omega)]
    congr 1
    apply vec_ext
    intro i hi
    rw [Nat.succ_mul]
    by_cases c : n % V + k * V ≤ i ∧ i < n % V + k * V + V
    · rw [if_pos c, if_neg (by omega), if_pos (by omega), Nat.add_sub_cancel' c.1]
    · rw [if_neg c]
      by_cases c0 : i < n % V
      · rw [if_pos c0, if_pos c0]
      rw [if_neg c0, if_neg c0]
      by_cases c' : i < n % V + k * V
      · rw [if_pos c', if_pos (by omega)]
      · rw [if_neg c', if_neg (by omega)]
  · rw [Nat.mul_comm] at hdm
    omega

/-- A batched kernel is the element-wise operation on every element. -/
theorem applyKernel_vec {V n : ℕ} (hV : 1 ≤ V) (P : α → Prop) (f g o : ℕ → α) (op : α → α → α)
    (scalar : α → α → Res α) (vector : List α → List α → List α)
    (hf : ∀ i < n, P (f i)) (hg : ∀ i < n, P (g i))
    (hs : ∀ a b, P a → P b → scalar a b = .ok (op a b))
    (hv : ∀ f g : ℕ → α, (∀ i < V, P (f i)) → (∀ i < V, P (g i)) →
      vector (vec V f) (vec V g) = vec V (fun i => op (f i) (g i))) :
    applyKernel V (vec n f) (vec n g) (vec n o) scalar vector
      = .ok (vec n (fun i => op (f i) (g i))) := by
  rw [applyKernel_vec2 hV P f g o op op scalar vector hf hg hs hv]
  congr 1
  exact vec_ext (fun i _ => ite_self _)

end Neo
