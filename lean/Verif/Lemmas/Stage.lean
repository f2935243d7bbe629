import Verif.Model.Fft2
import Mathlib.Algebra.Order.Ring.Nat

/-!
# In-place butterfly stages

A generic loop rule for `for (k = 0; k < n; k += R*L) for (pair = 0; pair < L; ++pair) body`
where `body` replaces the `R` elements `k + pair + u*L` by functions of their old values.
-/

namespace Neo

theorem forStep_mul {σ : Type} (m step : ℕ) (hs : 0 < step) (body : ℕ → σ → Res σ) (s : σ) :
    forStep (m * step) step body s = forN m (fun i => body (i * step)) s := by
  unfold forStep
  congr 1
  rw [Nat.add_sub_assoc hs, Nat.mul_comm, Nat.mul_add_div hs, Nat.div_eq_of_lt (by omega)]
  simp

/-- Decomposition of an index into block, digit and offset. -/
theorem index_decomp {L R i q p u : ℕ} (hp : p < L) (hu : u < R)  :
    i = q * (R * L) + p + u * L ↔ i / (R * L) = q ∧ i % L = p ∧ i / L % R = u := by
  have hL : 0 < L := by omega
  have hR : 0 < R := by omega
  constructor
  · rintro rfl
    have e1 : q * (R * L) + p + u * L = L * (R * q + u) + p := by ring
    have h2 : (L * (R * q + u) + p) / L = R * q + u := by
      rw [Nat.mul_add_div hL, Nat.div_eq_of_lt hp, add_zero]
    refine ⟨?_, ?_, ?_⟩
    · rw [e1, Nat.mul_comm R L, ← Nat.div_div_eq_div_mul, h2, Nat.mul_add_div hR,
        Nat.div_eq_of_lt hu, add_zero]
    · rw [e1, Nat.mul_add_mod, Nat.mod_eq_of_lt hp]
    · rw [e1, h2, Nat.mul_add_mod, Nat.mod_eq_of_lt hu]
  · rintro ⟨h1, h2, h3⟩
    have a := Nat.div_add_mod i L
    have b := Nat.div_add_mod (i / L) R
    rw [Nat.div_div_eq_div_mul, Nat.mul_comm L R, h1, h3] at b
    rw [h2, ← b] at a
    rw [← a]; ring

theorem block_base {L R i : ℕ} (hL : 0 < L) (hR : 0 < R) :
    i = i / (R * L) * (R * L) + i % L + i / L % R * L :=
  (index_decomp (Nat.mod_lt _ hL) (Nat.mod_lt _ hR)).2 ⟨rfl, rfl, rfl⟩

/-- Value at `i` once all blocks `< q` and, in block `q`, all offsets `< pr` are done. -/
def stageSt {α : Type} (L R : ℕ) (G : ℕ → ℕ → (ℕ → α) → α) (f : ℕ → α) (q pr i : ℕ) : α :=
  if i / (R * L) < q ∨ (i / (R * L) = q ∧ i % L < pr) then
    G (i % L) (i / L % R) (fun v => f (i / (R * L) * (R * L) + i % L + v * L))
  else f i

/-- Loop rule for in-place stages.  `mk` builds the loop state from the element function. -/
theorem blockStage {σ α : Type} {n L R m : ℕ} (mk : (ℕ → α) → σ)
    (hext : ∀ f g : ℕ → α, (∀ i < n, f i = g i) → mk f = mk g)
    (hn : n = m * (R * L)) (hL : 0 < L) (hR : 0 < R)
    (body : ℕ → ℕ → σ → Res σ) (G : ℕ → ℕ → (ℕ → α) → α)
    (hG : ∀ p u v w, (∀ t < R, v t = w t) → G p u v = G p u w)
    (hbody : ∀ q < m, ∀ p < L, ∀ f : ℕ → α, body (q * (R * L)) p (mk f) =
      .ok (mk (fun i => if i / (R * L) = q ∧ i % L = p
        then G p (i / L % R) (fun v => f (q * (R * L) + p + v * L)) else f i)))
    (f : ℕ → α) :
    forStep n (R * L) (fun k s => forN L (fun p s => body k p s) s) (mk f) =
      .ok (mk (fun i => G (i % L) (i / L % R)
        (fun v => f (i / (R * L) * (R * L) + i % L + v * L)))) := by
  have hRL : 0 < R * L := Nat.mul_pos hR hL
  rw [hn, forStep_mul m (R * L) hRL]
  apply forN_eq' (fun q => mk (stageSt L R G f q 0))
  · exact hext _ _ (fun i _ => by simp [stageSt])
  · apply hext
    intro i hi
    have : i / (R * L) < m := by
      rw [Nat.div_lt_iff_lt_mul hRL]; omega
    simp [stageSt, this]
  · intro q hq
    apply forN_eq' (fun p => mk (stageSt L R G f q p)) rfl
    · apply hext
      intro i hi
      have := Nat.mod_lt i hL
      unfold stageSt
      by_cases h : i / (R * L) < q + 1
      · rw [if_pos (by omega), if_pos (by omega)]
      · rw [if_neg (by omega), if_neg (by omega)]
    · intro p hp
      rw [hbody q hq p hp]
      congr 1
      apply hext
      intro i hi
      by_cases h : i / (R * L) = q ∧ i % L = p
      · rw [if_pos h]
        have : stageSt L R G f q (p + 1) i
            = G (i % L) (i / L % R) (fun v => f (i / (R * L) * (R * L) + i % L + v * L)) := by
          unfold stageSt; rw [if_pos (by omega)]
        rw [this, h.2, h.1]
        apply hG
        intro t ht
        obtain ⟨h1, h2, h3⟩ := (index_decomp (q := q) hp ht).1 rfl
        unfold stageSt
        rw [if_neg (by omega)]
      · rw [if_neg h]
        unfold stageSt
        by_cases h4 : i / (R * L) < q ∨ i / (R * L) = q ∧ i % L < p
        · rw [if_pos h4, if_pos (by omega)]
        · rw [if_neg h4, if_neg (by omega)]

/-- Result of a radix-2 stage with half length `L` and twiddles `w`. -/
def stage2 {R : Type} [Add R] [Sub R] [Mul R] (L : ℕ) (w : ℕ → R) (f : ℕ → R) (i : ℕ) : R :=
  if i / L % 2 = 0 then f i + w (i % L) * f (i + L) else f (i - L) - w (i % L) * f i

section
variable {R : Type} [Add R] [Sub R] [Mul R]

theorem butterflyTw_vec {n i1 i2 : ℕ} (h1 : i1 < n) (h2 : i2 < n) (tw : R) (f : ℕ → R) :
    butterflyTw (vec n f) tw i1 i2 = .ok (vec n (fun i =>
      if i = i1 then f i1 + tw * f i2 else if i = i2 then f i1 - tw * f i2 else f i)) := by
  unfold butterflyTw
  simp only [rd_vec_ok h1, rd_vec_ok h2, bind_ok, wr_vec_ok h1, wr_vec_ok h2]
  congr 1
  apply vec_ext
  intro m hm
  by_cases h3 : m = i1
  · subst h3; simp
  · by_cases h4 : m = i2
    · subst h4; simp [h3]
    · simp [h3, h4]

/-- Result of a stage of two-point operations at distance `L`: `g p` gives the new lower and `h p` the new upper
element. -/
def pairStage {α : Type} (L : ℕ) (g h : ℕ → α → α → α) (f : ℕ → α) (i : ℕ) : α :=
  if i / L % 2 = 0 then g (i % L) (f i) (f (i + L)) else h (i % L) (f (i - L)) (f i)

/-- Loop rule for a stage of two-point operations. -/
theorem pair_loop {α : Type} {n L m : ℕ} (hn : n = m * (2 * L)) (hL : 0 < L) (g h : ℕ → α → α → α)
    (body : ℕ → ℕ → List α → Res (List α))
    (hbody : ∀ k p f, p < L → k + p + L < n → body k p (vec n f) = .ok (vec n (fun i =>
      if i = k + p then g p (f (k + p)) (f (k + p + L))
      else if i = k + p + L then h p (f (k + p)) (f (k + p + L)) else f i)))
    (f : ℕ → α) :
    forStep n (2 * L) (fun k x => forN L (fun p x => body k p x) x) (vec n f)
      = .ok (vec n (pairStage L g h f)) := by
  have key := blockStage (n := n) (L := L) (R := 2) (m := m) (mk := vec n)
    (fun f g e => vec_ext e) hn hL (by norm_num) body
    (fun p u v => if u = 0 then g p (v 0) (v 1) else h p (v 0) (v 1))
    (fun p u v w' e => by simp only [e 0 (by norm_num), e 1 (by norm_num)]) ?_ f
  · rw [key]
    congr 1
    apply vec_ext
    intro i hi
    have hb := block_base (L := L) (R := 2) (i := i) hL (by norm_num)
    unfold pairStage
    by_cases c0 : i / L % 2 = 0
    · rw [if_pos c0, if_pos c0]
      rw [c0] at hb
      have e0 : i / (2 * L) * (2 * L) + i % L + 0 * L = i := by omega
      have e1 : i / (2 * L) * (2 * L) + i % L + 1 * L = i + L := by omega
      beta_reduce; rw [e0, e1]
    · rw [if_neg c0, if_neg c0]
      have h' : i / L % 2 = 1 := by omega
      rw [h'] at hb
      have e0 : i / (2 * L) * (2 * L) + i % L + 0 * L = i - L := by omega
      have e1 : i / (2 * L) * (2 * L) + i % L + 1 * L = i := by omega
      beta_reduce; rw [e0, e1]
  · intro q hq p hp f
    have hlt : q * (2 * L) + p + L < n := by
      have h1 : (q + 1) * (2 * L) ≤ m * (2 * L) := Nat.mul_le_mul_right _ hq
      have h2 : (q + 1) * (2 * L) = q * (2 * L) + 2 * L := by ring
      omega
    rw [hbody _ p f hp hlt]
    congr 1
    apply vec_ext
    intro i hi
    have d0 := index_decomp (i := i) (q := q) hp (by norm_num : 0 < 2)
    have d1 := index_decomp (i := i) (q := q) hp (by norm_num : 1 < 2)
    have hlt2 : i / L % 2 < 2 := Nat.mod_lt _ (by norm_num)
    simp only [zero_mul, add_zero, one_mul] at d0 d1 ⊢
    by_cases c : i / (2 * L) = q ∧ i % L = p
    · rw [if_pos c]
      by_cases c0 : i / L % 2 = 0
      · rw [if_pos (d0.2 ⟨c.1, c.2, c0⟩), if_pos c0]
      · have h1 : i / L % 2 = 1 := by omega
        have hi1 := d1.2 ⟨c.1, c.2, h1⟩
        rw [if_neg (by omega), if_pos hi1, if_neg c0]
    · rw [if_neg c, if_neg, if_neg]
      · intro h; exact c ⟨(d1.1 h).1, (d1.1 h).2.1⟩
      · intro h; exact c ⟨(d0.1 h).1, (d0.1 h).2.1⟩

/-- A radix-2 stage whose body is a butterfly with twiddle `w p`. -/
theorem stage2_loop {n L m : ℕ} (hn : n = m * (2 * L)) (hL : 0 < L) (w : ℕ → R)
    (body : ℕ → ℕ → List R → Res (List R))
    (hbody : ∀ k p f, p < L → k + p + L < n → body k p (vec n f) = .ok (vec n (fun i =>
      if i = k + p then f (k + p) + w p * f (k + p + L)
      else if i = k + p + L then f (k + p) - w p * f (k + p + L) else f i)))
    (f : ℕ → R) :
    forStep n (2 * L) (fun k x => forN L (fun p x => body k p x) x) (vec n f)
      = .ok (vec n (stage2 L w f)) :=
  pair_loop hn hL (fun p a b => a + w p * b) (fun p a b => a - w p * b) body hbody f

end
end Neo
