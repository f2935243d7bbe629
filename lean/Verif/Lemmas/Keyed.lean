import Verif.Core

/-!
# Loops whose iterations own disjoint groups of elements

Every element `i` of a buffer has two keys; iteration `(a, b)` of a double loop rewrites exactly the
elements with keys `(a, b)`, reading at most those.  The double loop then rewrites every element once.
-/

namespace Neo

variable {α : Type}

/-- The buffer before iteration `(a, b)`. -/
def keyedSt (k1 k2 : ℕ → ℕ) (F : (ℕ → α) → ℕ → α) (f : ℕ → α) (a b : ℕ) (i : ℕ) : α :=
  if k1 i < a ∨ (k1 i = a ∧ k2 i < b) then F f i else f i

theorem keyedInner {n B : ℕ} {k1 k2 : ℕ → ℕ} {F : (ℕ → α) → ℕ → α} (f : ℕ → α) (a : ℕ)
    (h2 : ∀ i < n, k2 i < B)
    (hF : ∀ (f g : ℕ → α) (i : ℕ), i < n →
      (∀ i' < n, k1 i' = k1 i → k2 i' = k2 i → f i' = g i') → F f i = F g i)
    {body : ℕ → List α → Res (List α)}
    (hbody : ∀ b < B, ∀ g : ℕ → α, body b (vec n g)
      = .ok (vec n (fun i => if k1 i = a ∧ k2 i = b then F g i else g i))) :
    forN B body (vec n (keyedSt k1 k2 F f a 0)) = .ok (vec n (keyedSt k1 k2 F f (a + 1) 0)) := by
  apply forN_eq' (fun b => vec n (keyedSt k1 k2 F f a b)) rfl
  · apply vec_ext
    intro i hi
    have := h2 i hi
    unfold keyedSt
    by_cases h : k1 i < a + 1
    · rw [if_pos (by omega), if_pos (by omega)]
    · rw [if_neg (by omega), if_neg (by omega)]
  · intro b hb
    rw [hbody b hb]
    congr 1
    apply vec_ext
    intro i hi
    by_cases h : k1 i = a ∧ k2 i = b
    · rw [if_pos h]
      have : keyedSt k1 k2 F f a (b + 1) i = F f i := by
        unfold keyedSt; rw [if_pos (by omega)]
      rw [this]
      apply hF _ _ _ hi
      intro i' _ e1 e2
      unfold keyedSt
      rw [if_neg (by omega)]
    · rw [if_neg h]
      unfold keyedSt
      by_cases h4 : k1 i < a ∨ k1 i = a ∧ k2 i < b
      · rw [if_pos h4, if_pos (by omega)]
      · rw [if_neg h4, if_neg (by omega)]

theorem keyedSt_start (n : ℕ) (k1 k2 : ℕ → ℕ) (F : (ℕ → α) → ℕ → α) (f : ℕ → α) :
    vec n (keyedSt k1 k2 F f 0 0) = vec n f :=
  vec_ext (fun i _ => by simp [keyedSt])

theorem keyedSt_end {n A : ℕ} {k1 : ℕ → ℕ} (k2 : ℕ → ℕ) (F : (ℕ → α) → ℕ → α) (f : ℕ → α)
    (h1 : ∀ i < n, k1 i < A) : vec n (keyedSt k1 k2 F f A 0) = vec n (F f) :=
  vec_ext (fun i hi => by simp [keyedSt, h1 i hi])

theorem keyedLoop {n A B : ℕ} {k1 k2 : ℕ → ℕ} {F : (ℕ → α) → ℕ → α} (f : ℕ → α)
    (h1 : ∀ i < n, k1 i < A) (h2 : ∀ i < n, k2 i < B)
    (hF : ∀ (f g : ℕ → α) (i : ℕ), i < n →
      (∀ i' < n, k1 i' = k1 i → k2 i' = k2 i → f i' = g i') → F f i = F g i)
    {body : ℕ → ℕ → List α → Res (List α)}
    (hbody : ∀ a < A, ∀ b < B, ∀ g : ℕ → α, body a b (vec n g)
      = .ok (vec n (fun i => if k1 i = a ∧ k2 i = b then F g i else g i))) :
    forN A (fun a x => forN B (fun b x => body a b x) x) (vec n f) = .ok (vec n (F f)) := by
  apply forN_eq' (fun a => vec n (keyedSt k1 k2 F f a 0)) (keyedSt_start n k1 k2 F f)
    (keyedSt_end k2 F f h1)
  intro a ha
  exact keyedInner f a h2 hF (hbody a ha)

/-- `R` writes at the positions `pos 0, …, pos (R-1)`, in this order. -/
def updN (f : ℕ → α) (pos : ℕ → ℕ) (val : ℕ → α) : ℕ → ℕ → α
  | 0 => f
  | u + 1 => Function.update (updN f pos val u) (pos u) (val u)

theorem updN_eq (f : ℕ → α) (pos : ℕ → ℕ) (val : ℕ → α) (k3 : ℕ → ℕ) (P : ℕ → Prop)
    [DecidablePred P] (R i : ℕ) (hpos : ∀ u < R, (i = pos u ↔ P i ∧ k3 i = u)) :
    updN f pos val R i = if P i ∧ k3 i < R then val (k3 i) else f i := by
  induction R with
  | zero => simp [updN]
  | succ R ih =>
    have hR := hpos R (by omega)
    unfold updN
    by_cases h : i = pos R
    · obtain ⟨h1, h2⟩ := hR.1 h
      rw [if_pos ⟨h1, by omega⟩, h2, h, Function.update_self]
    · rw [Function.update_of_ne h, ih (fun u hu => hpos u (by omega))]
      by_cases h1 : P i
      · have : k3 i ≠ R := fun e => h (hR.2 ⟨h1, e⟩)
        by_cases h2 : k3 i < R
        · rw [if_pos ⟨h1, h2⟩, if_pos ⟨h1, by omega⟩]
        · rw [if_neg (fun e => h2 e.2), if_neg (fun e => h2 (by omega))]
      · rw [if_neg (fun e => h1 e.1), if_neg (fun e => h1 e.1)]

/-- The `R` writes of one iteration. -/
theorem vec_updN {n R : ℕ} (f : ℕ → α) (pos : ℕ → ℕ) (val : ℕ → α) (k3 : ℕ → ℕ) (P : ℕ → Prop)
    [DecidablePred P] (hk : ∀ i < n, k3 i < R)
    (hpos : ∀ i < n, ∀ u < R, (i = pos u ↔ P i ∧ k3 i = u)) :
    vec n (updN f pos val R) = vec n (fun i => if P i then val (k3 i) else f i) := by
  apply vec_ext
  intro i hi
  rw [updN_eq f pos val k3 P R i (hpos i hi)]
  have := hk i hi
  simp [this]

theorem wr_updN {n u : ℕ} (f : ℕ → α) (pos : ℕ → ℕ) (val : ℕ → α) {p : ℕ} {v : α} (hp : p = pos u)
    (hv : v = val u) (h : pos u < n) :
    wr (vec n (updN f pos val u)) p v = .ok (vec n (updN f pos val (u + 1))) := by
  subst hp hv
  rw [wr_vec_ok h]; rfl

theorem wr_updN_first {n : ℕ} (f : ℕ → α) (pos : ℕ → ℕ) (val : ℕ → α) {p : ℕ} {v : α} (hp : p = pos 0)
    (hv : v = val 0) (h : pos 0 < n) :
    wr (vec n f) p v = .ok (vec n (updN f pos val 1)) := wr_updN f pos val hp hv h

end Neo
