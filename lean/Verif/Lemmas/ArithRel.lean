import Verif.Lemmas.AnyArithMem

/-! # Two arithmetics that are related operation by operation give related results -/

namespace Neo

variable {R C C' : Type} [Zero R] [Add R] [Mul R] [Zero C] [AddCommMagma C] [Sub C] [Mul C]
  [Zero C'] [AddCommMagma C'] [Sub C'] [Mul C']

/-- The relation `c` of complex and `r` of real numbers is preserved by all operations. -/
structure ArithRel (A : Arith R C) (A' : Arith R C') (r : R → R → Prop) (c : C → C' → Prop) : Prop where
  zeroR : r 0 0
  zeroC : c 0 0
  addR : ∀ x x' y y', r x x' → r y y' → r (x + y) (x' + y')
  mulR : ∀ x x' y, r x x' → r (x * y) (x' * y)
  add : ∀ x x' y y', c x x' → c y y' → c (x + y) (x' + y')
  sub : ∀ x x' y y', c x x' → c y y' → c (x - y) (x' - y')
  mul : ∀ x x' y y', c x x' → c y y' → c (x * y) (x' * y')
  ofReal : ∀ x, c (A.ofReal x) (A'.ofReal x)
  conj : ∀ x x', c x x' → c (A.conj x) (A'.conj x')
  realPart : ∀ x x', c x x' → r (A.realPart x) (A'.realPart x')
  invSize : ∀ n, A.invSize n = A'.invSize n
  twiddle : ∀ n i dir, c (A.twiddle n i dir) (A'.twiddle n i dir)

variable {A : Arith R C} {A' : Arith R C'} {r : R → R → Prop} {c : C → C' → Prop}

theorem ditRun_rel (h : ArithRel A A' r c) {b : ℕ} {w f : ℕ → C} {w' f' : ℕ → C'} (hw : ∀ i, c (w i) (w' i))
    (s : ℕ) (hsb : s ≤ b) (hf : ∀ n < 2 ^ b, c (f n) (f' n)) :
    ∀ n < 2 ^ b, c (ditRun b w f s n) (ditRun b w' f' s n) := by
  induction s with
  | zero => exact hf
  | succ s ih =>
    intro n hn
    have ih := ih (by omega)
    have hpow : 2 ^ b = 2 ^ (b - s - 1) * (2 * 2 ^ s) := two_pow_split (by omega)
    have hpos : 0 < 2 ^ s := by positivity
    have hin : n / 2 ^ s % 2 = 0 → n + 2 ^ s < 2 ^ b := by
      intro c
      have h3 := Nat.div_add_mod n (2 ^ s)
      have h4 := Nat.mod_lt n hpos
      have h5 : n / 2 ^ s < 2 ^ (b - s - 1) * 2 := by
        rw [Nat.div_lt_iff_lt_mul hpos]
        calc n < 2 ^ b := hn
          _ = _ := by rw [hpow]; ring
      have h6 : n / 2 ^ s + 2 ≤ 2 ^ (b - s - 1) * 2 := by omega
      calc n + 2 ^ s < 2 ^ s * (n / 2 ^ s) + 2 ^ s + 2 ^ s := by omega
        _ = 2 ^ s * (n / 2 ^ s + 2) := by ring
        _ ≤ 2 ^ s * (2 ^ (b - s - 1) * 2) := Nat.mul_le_mul_left _ h6
        _ = 2 ^ b := by rw [hpow]; ring
    by_cases h0 : s = 0
    · subst h0
      unfold ditRun
      rw [if_pos rfl, if_pos rfl]
      unfold pairStage
      split
      · exact h.add _ _ _ _ (hf n hn) (hf _ (hin ‹_›))
      · exact h.sub _ _ _ _ (hf _ (by omega)) (hf n hn)
    · rw [ditRun_succ (by omega), ditRun_succ (by omega)]
      unfold pairStage
      split
      · exact h.add _ _ _ _ (ih n hn) (h.mul _ _ _ _ (hw _) (ih _ (hin ‹_›)))
      · exact h.sub _ _ _ _ (ih _ (by omega)) (h.mul _ _ _ _ (hw _) (ih n hn))

theorem ditGn_rel (h : ArithRel A A' r c) {b : ℕ} (dir : Direction) {x : ℕ → C} {x' : ℕ → C'}
    (hx : ∀ i < 2 ^ b, c (x i) (x' i)) {k : ℕ} (hk : k < 2 ^ b) :
    c (ditGn A b dir x k) (ditGn A' b dir x' k) :=
  ditRun_rel h (fun i => h.twiddle _ i dir) b le_rfl
    (fun n _ => hx _ (digitRev_lt (by norm_num) b n)) k hk

theorem rfftGn_rel (h : ArithRel A A' r c) {b : ℕ} (x : ℕ → R) {k : ℕ} (hk : k < 2 ^ b) :
    c (rfftGn A b x k) (rfftGn A' b x k) :=
  ditGn_rel h .forward (fun _ _ => h.ofReal _) hk

theorem irfftGn_rel (h : ArithRel A A' r c) {b : ℕ} {Y : ℕ → C} {Y' : ℕ → C'}
    (hY : ∀ k ≤ 2 ^ b / 2, c (Y k) (Y' k)) {n : ℕ} (hn : n < 2 ^ b) : r (irfftGn A b Y n) (irfftGn A' b Y' n) := by
  refine h.realPart _ _ (ditGn_rel h .backward (fun i hi => ?_) hn)
  unfold hermG
  split
  · exact hY _ ‹_›
  · exact h.conj _ _ (hY _ (by omega))

theorem specOutG_rel (h : ArithRel A A' r c) {b : ℕ} {Y : ℕ → C} {Y' : ℕ → C'}
    (hY : ∀ k ≤ 2 ^ b / 2, c (Y k) (Y' k)) {n : ℕ} (hn : n < 2 ^ b) : r (specOutG A b Y n) (specOutG A' b Y' n) := by
  unfold specOutG
  rw [← h.invSize]
  exact h.mulR _ _ _ (irfftGn_rel h hY hn)

theorem slotAt_rel (h : ArithRel A A' r c) {X : ℕ → ℕ → C} {X' : ℕ → ℕ → C'} {k : ℕ} (hX : ∀ t, c (X t k) (X' t k))
    (N t s : ℕ) : c (slotAt X N t s k) (slotAt X' N t s k) := by
  induction t with
  | zero => exact h.zeroC
  | succ t ih =>
    unfold slotAt
    split
    · exact hX t
    · exact ih

theorem accum_rel (h : ArithRel A A' r c) {g : ℕ → C} {g' : ℕ → C'} (n : ℕ) (hg : ∀ s < n, c (g s) (g' s)) :
    c (accum g 0 0 n) (accum g' 0 0 n) := by
  induction n with
  | zero => exact h.zeroC
  | succ n ih =>
    exact h.add _ _ _ _ (ih fun s hs => hg s (by omega)) (by rw [Nat.zero_add]; exact hg n (by omega))

theorem macY_rel (h : ArithRel A A' r c) {N : ℕ} {H X : ℕ → ℕ → C} {H' X' : ℕ → ℕ → C'} {k : ℕ}
    (hH : ∀ s < N, c (H s k) (H' s k)) (hX : ∀ t, c (X t k) (X' t k)) (t : ℕ) : c (macY N H X t k) (macY N H' X' t k) :=
  accum_rel h N fun s hs => h.mul _ _ _ _ (slotAt_rel h hX N _ s) (hH _ (Nat.mod_lt _ (by omega)))

/-- Related filters, the same input: related spectra of the output. -/
theorem convY_rel (h : ArithRel A A' r c) {a N : ℕ} {H : ℕ → ℕ → C} {H' : ℕ → ℕ → C'}
    (hH : ∀ s < N, ∀ k ≤ 2 ^ a, c (H s k) (H' s k)) (win : (ℕ → R) → ℕ → ℕ → R) (x : ℕ → R) (t k : ℕ)
    (hk : k ≤ 2 ^ (a + 1) / 2) :
    c (macY N H (winSpecG A a win x) t k) (macY N H' (winSpecG A' a win x) t k) := by
  have hp : 2 ^ (a + 1) = 2 ^ a + 2 ^ a := by rw [pow_succ]; ring
  have h0 : 0 < 2 ^ a := by positivity
  exact macY_rel h (fun s hs => hH s hs k (by omega)) (fun t => rfftGn_rel h _ (by omega)) t

theorem olaOutG_rel (h : ArithRel A A' r c) {a : ℕ} {Y : ℕ → ℕ → C} {Y' : ℕ → ℕ → C'}
    (hY : ∀ t, ∀ k ≤ 2 ^ (a + 1) / 2, c (Y t k) (Y' t k)) (t : ℕ) {i : ℕ} (hi : i < 2 ^ a) :
    r (olaOutG A a Y t i) (olaOutG A' a Y' t i) := by
  have hp : 2 ^ (a + 1) = 2 ^ a + 2 ^ a := by rw [pow_succ]; ring
  refine h.addR _ _ _ _ (specOutG_rel h (hY t) (by omega)) ?_
  split
  · exact specOutG_rel h (hY _) (by omega)
  · exact h.zeroR

theorem olsOutG_rel (h : ArithRel A A' r c) {a : ℕ} {Y : ℕ → ℕ → C} {Y' : ℕ → ℕ → C'}
    (hY : ∀ t, ∀ k ≤ 2 ^ (a + 1) / 2, c (Y t k) (Y' t k)) (t : ℕ) {i : ℕ} (hi : i < 2 ^ a) :
    r (olsOutG A a Y t i) (olsOutG A' a Y' t i) := by
  have hp : 2 ^ (a + 1) = 2 ^ a + 2 ^ a := by rw [pow_succ]; ring
  exact specOutG_rel h (hY t) (by omega)

end Neo
