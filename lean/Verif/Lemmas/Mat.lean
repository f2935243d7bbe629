import Verif.Model.Mat
import Verif.Lemmas.Algo
import Mathlib.Tactic.Ring

/-! # Nested element-wise loops -/

namespace Neo

variable {α : Type}

theorem forN2_update {n R C : ℕ} (idx : ℕ → ℕ → ℕ) (f : ℕ → α) (new : ℕ → ℕ → α)
    (hinj : ∀ r < R, ∀ c < C, ∀ r' < R, ∀ c' < C, idx r c = idx r' c' → r = r' ∧ c = c')
    (body : ℕ → ℕ → List α → Res (List α))
    (hbody : ∀ r < R, ∀ c < C, ∀ g : ℕ → α, g (idx r c) = f (idx r c) →
      body r c (vec n g) = .ok (vec n (Function.update g (idx r c) (new r c)))) :
    ∃ g, forN R (fun r s => forN C (fun c s => body r c s) s) (vec n f) = .ok (vec n g) ∧
      (∀ r < R, ∀ c < C, g (idx r c) = new r c) ∧
      (∀ m, (∀ r < R, ∀ c < C, idx r c ≠ m) → g m = f m) := by
  have outer := forN_inv (n := R) (body := fun r s => forN C (fun c s => body r c s) s)
    (s := vec n f)
    (fun i s => ∃ g, s = vec n g ∧ (∀ r < i, ∀ c < C, g (idx r c) = new r c) ∧
      (∀ r < R, i ≤ r → ∀ c < C, g (idx r c) = f (idx r c)) ∧
      (∀ m, (∀ r < R, ∀ c < C, idx r c ≠ m) → g m = f m))
    ⟨f, rfl, by omega, fun _ _ _ _ _ => rfl, fun _ _ => rfl⟩ ?_
  · obtain ⟨s', h, g, rfl, h1, -, h2⟩ := outer
    exact ⟨g, h, h1, h2⟩
  · rintro i hi s ⟨g, rfl, h1, h2, h3⟩
    have inner := forN_inv (n := C) (body := fun c s => body i c s) (s := vec n g)
      (fun j s => ∃ g', s = vec n g' ∧ (∀ c < j, g' (idx i c) = new i c) ∧
        (∀ c < C, j ≤ c → g' (idx i c) = f (idx i c)) ∧
        (∀ m, (∀ c < C, idx i c ≠ m) → g' m = g m))
      ⟨g, rfl, by omega, fun c hc _ => h2 i hi le_rfl c hc, fun _ _ => rfl⟩ ?_
    · obtain ⟨s', h, g', rfl, k1, -, k2⟩ := inner
      refine ⟨_, h, g', rfl, ?_, ?_, ?_⟩
      · intro r hr c hc
        rcases Nat.lt_succ_iff_lt_or_eq.1 hr with h | rfl
        · rw [k2, h1 r h c hc]
          intro c' hc' e
          have := (hinj i hi c' hc' r (by omega) c hc e).1
          omega
        · exact k1 c hc
      · intro r hr hir c hc
        rw [k2, h2 r hr (by omega) c hc]
        intro c' hc' e
        have := (hinj i hi c' hc' r (by omega) c hc e).1
        omega
      · intro m hm
        rw [k2 m (fun c hc => hm i hi c hc), h3 m hm]
    · rintro j hj s ⟨g', rfl, k1, k2, k3⟩
      refine ⟨_, hbody i hi j hj g' (k2 j hj le_rfl), _, rfl, ?_, ?_, ?_⟩
      · intro c hc
        rcases Nat.lt_succ_iff_lt_or_eq.1 hc with h | rfl
        · rw [Function.update_of_ne, k1 c h]
          intro e
          have := (hinj i hi c (by omega) i hi j hj e).2
          omega
        · simp
      · intro c hc hjc
        rw [Function.update_of_ne, k2 c hc (by omega)]
        intro e
        have := (hinj i hi c hc i hi j hj e).2
        omega
      · intro m hm
        rw [Function.update_of_ne (hm j hj).symm, k3 m hm]

/-- The view addresses distinct elements inside a buffer of `n` elements. -/
def MatView.Valid (v : MatView) (n : ℕ) : Prop :=
  (∀ r < v.rows, ∀ c < v.cols, v.idx r c < n) ∧
  (∀ r < v.rows, ∀ c < v.cols, ∀ r' < v.rows, ∀ c' < v.cols,
    v.idx r c = v.idx r' c' → r = r' ∧ c = c')

theorem MatView.right_valid (R C : ℕ) : (MatView.right R C).Valid (R * C) := by
  constructor
  · intro r hr c hc
    simp only [MatView.right, MatView.idx] at *
    calc 0 + r * C + c * 1 < r * C + C := by omega
      _ = (r + 1) * C := by ring
      _ ≤ R * C := Nat.mul_le_mul_right _ hr
  · intro r hr c hc r' hr' c' hc' h
    simp only [MatView.right, MatView.idx, mul_one, Nat.zero_add] at *
    have hC : 0 < C := by omega
    have h1 : r = r' := by
      have e1 : (r * C + c) / C = r := by
        rw [mul_comm, Nat.mul_add_div hC, Nat.div_eq_of_lt hc, Nat.add_zero]
      have e2 : (r' * C + c') / C = r' := by
        rw [mul_comm, Nat.mul_add_div hC, Nat.div_eq_of_lt hc', Nat.add_zero]
      rw [← e1, ← e2, h]
    subst h1
    exact ⟨rfl, by omega⟩

theorem MatView.left_valid (R C : ℕ) : (MatView.left R C).Valid (R * C) := by
  have h := MatView.right_valid C R
  have e : ∀ r c, (MatView.left R C).idx r c = (MatView.right C R).idx c r := by
    intro r c; simp only [MatView.left, MatView.right, MatView.idx]; ring
  constructor
  · intro r hr c hc
    rw [e, mul_comm]; exact h.1 c hc r hr
  · intro r hr c hc r' hr' c' hc' heq
    rw [e, e] at heq
    exact (h.2 c hc r hr c' hc' r' hr' heq).symm

end Neo
