import Verif.Core
import Mathlib.Data.List.Perm.Subperm
import Mathlib.Data.List.Nodup

/-! # Turning `vec` results into element-wise statements -/

namespace Neo

variable {α : Type}

/-- `r` is a successful call that produced `n` elements, the `k`-th being `g k`.
(Used in property statements: readable without knowing `vec`.) -/
def Produces (r : Res (List α)) (n : ℕ) (g : ℕ → α) : Prop :=
  ∃ y, r = .ok y ∧ y.length = n ∧ ∀ k < n, y[k]? = some (g k)

theorem produces_iff {r : Res (List α)} {n : ℕ} {g : ℕ → α} :
    Produces r n g ↔ r = .ok (vec n g) := by
  constructor
  · rintro ⟨y, rfl, h1, h2⟩
    congr 1
    exact eq_vec_iff.2 ⟨h1, h2⟩
  · rintro rfl
    exact ⟨_, rfl, eq_vec_iff.1 rfl⟩

theorem list_eq_vec {x : List α} {n : ℕ} (d : α) (h : x.length = n) :
    x = vec n (fun i => x.getD i d) := by
  rw [← h]; exact eq_vec_getD x d

theorem perm_vec_comp {n : ℕ} {σ : ℕ → ℕ} (hσ : ∀ i < n, σ i < n)
    (hinv : ∀ i < n, σ (σ i) = i) (f : ℕ → α) : (vec n (fun i => f (σ i))).Perm (vec n f) := by
  have h : ((List.range n).map σ).Perm (List.range n) := by
    have hnd : ((List.range n).map σ).Nodup := by
      refine List.Nodup.map_on ?_ List.nodup_range
      intro a ha b hb h
      rw [← hinv a (List.mem_range.1 ha), ← hinv b (List.mem_range.1 hb), h]
    refine (List.subperm_of_subset hnd ?_).perm_of_length_le (by simp)
    intro a ha
    obtain ⟨b, hb, rfl⟩ := List.mem_map.1 ha
    exact List.mem_range.2 (hσ b (List.mem_range.1 hb))
  have := h.map f
  rw [List.map_map] at this
  exact this

end Neo
