import Verif.Lemmas.AnyArith
import Verif.Lemmas.Stream

/-! # Memory of the partitioned convolvers, and the spreading of NaN -/

namespace Neo

open Spec

section memory
variable {R C : Type} [Zero R] [Add R] [Mul R] [Zero C] [AddCommMagma C] [Sub C] [Mul C] {A : Arith R C}

theorem slot_invol {N : ℕ} (t : ℕ) {s : ℕ} (hs : s < N) : (t % N + N - (t % N + N - s) % N) % N = s := by
  have ht : t % N < N := Nat.mod_lt _ (by omega)
  by_cases c : s ≤ t % N
  · rw [show t % N + N - s = t % N - s + N by omega, Nat.add_mod_right, Nat.mod_eq_of_lt (a := t % N - s) (by omega),
      show t % N + N - (t % N - s) = s + N by omega, Nat.add_mod_right, Nat.mod_eq_of_lt hs]
  · rw [Nat.mod_eq_of_lt (a := t % N + N - s) (by omega), show t % N + N - (t % N + N - s) = s by omega,
      Nat.mod_eq_of_lt hs]

/-- What slot `s` holds at step `t`. -/
theorem slotAt_eq {K : Type} [Zero K] (X : ℕ → ℕ → K) {N : ℕ} (t : ℕ) {s : ℕ} (hs : s < N) (k : ℕ) :
    slotAt X N (t + 1) s k
      = if (t % N + N - s) % N ≤ t then X (t - (t % N + N - s) % N) k else 0 := by
  have h := slotAt_age X t ((t % N + N - s) % N) (Nat.mod_lt _ (by omega)) k
  rwa [slot_invol t hs] at h

theorem accum_congr {K : Type} [Add K] {g g' : ℕ → K} {z : K} {n : ℕ} (h : ∀ s < n, g s = g' s) :
    accum g z 0 n = accum g' z 0 n := by
  induction n with
  | zero => rfl
  | succ n ih => rw [accum, accum, ih (fun s hs => h s (by omega)), Nat.zero_add, h n (by omega)]

theorem macY_congr {K : Type} [Zero K] [Add K] [Mul K] {N : ℕ} (H : ℕ → ℕ → K) {X X' : ℕ → ℕ → K} {t t' : ℕ}
    (ht : t % N = t' % N) (hz : ∀ j < N, j ≤ t ↔ j ≤ t') (hX : ∀ j < N, j ≤ t → X (t - j) = X' (t' - j)) :
    macY N H X t = macY N H X' t' := by
  funext k
  unfold macY
  apply accum_congr
  intro s hs
  rw [slotAt_eq X t hs, slotAt_eq X' t' hs, ← ht]
  have hj : (t % N + N - s) % N < N := Nat.mod_lt _ (by omega)
  by_cases c : (t % N + N - s) % N ≤ t
  · rw [if_pos c, if_pos ((hz _ hj).1 c), hX _ hj c]
  · rw [if_neg c, if_neg (fun h => c ((hz _ hj).2 h))]

/-- A sample of the concatenated input, from the block it belongs to. -/
theorem flatten_getD {α : Type} (d : α) {B : ℕ} {blocks : List (List α)} (h : ∀ b ∈ blocks, b.length = B) {t i : ℕ}
    (ht : t < blocks.length) (hi : i < B) : blocks.flatten.getD (t * B + i) d = (blocks.getD t []).getD i d := by
  conv_rhs => rw [blocks_eq_vec d blocks h, getD_vec _ _ _ _ ht, getD_vec _ _ _ _ hi]

theorem sub_one_mod {N t t' : ℕ} (h : t % N = t' % N) (ht : 1 ≤ t) (ht' : 1 ≤ t') : (t - 1) % N = (t' - 1) % N := by
  have h1 : t - 1 + 1 ≡ t' - 1 + 1 [MOD N] := by
    rw [Nat.sub_add_cancel ht, Nat.sub_add_cancel ht']
    exact h
  exact Nat.ModEq.add_right_cancel' 1 h1

theorem ola_memory {a N : ℕ} (H : ℕ → ℕ → C) {x x' : ℕ → R} {t t' : ℕ} (hN : 1 ≤ N) (ht : t % N = t' % N)
    (hz : t = t' ∨ (N ≤ t ∧ N ≤ t'))
    (hx : ∀ j ≤ N, j ≤ t → ∀ i < 2 ^ a, x ((t - j) * 2 ^ a + i) = x' ((t' - j) * 2 ^ a + i)) (i : ℕ) :
    olaOutG A a (macY N H (winSpecG A a (seg (2 ^ a)) x)) t i
      = olaOutG A a (macY N H (winSpecG A a (seg (2 ^ a)) x')) t' i := by
  have key : ∀ j ≤ N, j ≤ t → winSpecG A a (seg (2 ^ a)) x (t - j) = winSpecG A a (seg (2 ^ a)) x' (t' - j) := by
    intro j hj hjt
    apply rfftGn_congr
    intro n _
    unfold seg
    split
    · exact hx j hj hjt n ‹_›
    · rfl
  have e1 : macY N H (winSpecG A a (seg (2 ^ a)) x) t = macY N H (winSpecG A a (seg (2 ^ a)) x') t' :=
    macY_congr H ht (fun j hj => by omega) (fun j hj hjt => key j hj.le hjt)
  unfold olaOutG
  rw [e1]
  by_cases c : 1 ≤ t
  · have c' : 1 ≤ t' := by omega
    have e2 : macY N H (winSpecG A a (seg (2 ^ a)) x) (t - 1) = macY N H (winSpecG A a (seg (2 ^ a)) x') (t' - 1) :=
      macY_congr H (sub_one_mod ht c c') (fun j hj => by omega) (fun j hj hjt => by
        have := key (j + 1) (by omega) (by omega)
        rwa [show t - (j + 1) = t - 1 - j by omega, show t' - (j + 1) = t' - 1 - j by omega] at this)
    rw [if_pos c, if_pos c', e2]
  · rw [if_neg c, if_neg (by omega)]

theorem ols_memory {a N : ℕ} (H : ℕ → ℕ → C) {x x' : ℕ → R} {t t' : ℕ} (hN : 1 ≤ N) (ht : t % N = t' % N)
    (hz : t = t' ∨ (N ≤ t ∧ N ≤ t'))
    (hx : ∀ j ≤ N, j ≤ t → ∀ i < 2 ^ a, x ((t - j) * 2 ^ a + i) = x' ((t' - j) * 2 ^ a + i)) (i : ℕ) :
    olsOutG A a (macY N H (winSpecG A a (saveWindow (2 ^ a)) x)) t i
      = olsOutG A a (macY N H (winSpecG A a (saveWindow (2 ^ a)) x')) t' i := by
  have e1 : macY N H (winSpecG A a (saveWindow (2 ^ a)) x) t = macY N H (winSpecG A a (saveWindow (2 ^ a)) x') t' := by
    refine macY_congr H ht (fun j hj => by omega) (fun j hj hjt => ?_)
    apply rfftGn_congr
    intro n hn
    have hp : 2 ^ (a + 1) = 2 ^ a + 2 ^ a := by rw [pow_succ]; ring
    unfold saveWindow
    by_cases c : n < 2 ^ a
    · rw [if_pos c, if_pos c]
      by_cases c2 : 1 ≤ t - j
      · rw [if_pos c2, if_pos (by omega)]
        have := hx (j + 1) (by omega) (by omega) n c
        rwa [show t - (j + 1) = t - j - 1 by omega, show t' - (j + 1) = t' - j - 1 by omega] at this
      · rw [if_neg c2, if_neg (by omega)]
    · rw [if_neg c, if_neg c]
      exact hx j hj.le hjt _ (by omega)
  unfold olsOutG
  rw [e1]

end memory

/-! ## Absorbing values -/

section absorb
variable {C : Type} [Add C] [Sub C] [Mul C]

/-- A set of values no operation of the radix-2 kernels leads out of. -/
structure Absorbing (bad : C → Prop) : Prop where
  add_left : ∀ x y, bad x → bad (x + y)
  add_right : ∀ x y, bad y → bad (x + y)
  sub_left : ∀ x y, bad x → bad (x - y)
  sub_right : ∀ x y, bad y → bad (x - y)
  mul_right : ∀ x y, bad y → bad (x * y)

/-- After `s` stages, one bad value has spoilt its whole group of `2 ^ s` values. -/
theorem ditRun_bad {bad : C → Prop} (h : Absorbing bad) {b : ℕ} (w f : ℕ → C) {i0 : ℕ} (h0 : bad (f i0)) (s : ℕ) :
    ∀ n, n / 2 ^ s = i0 / 2 ^ s → bad (ditRun b w f s n) := by
  induction s with
  | zero =>
    intro n hn
    rw [pow_zero, Nat.div_one, Nat.div_one] at hn
    subst hn
    exact h0
  | succ s ih =>
    intro n hn
    have h2 : ∀ m, m / 2 ^ (s + 1) = m / 2 ^ s / 2 := fun m => by rw [pow_succ, Nat.div_div_eq_div_mul]
    rw [h2, h2] at hn
    have hpos : 0 < 2 ^ s := by positivity
    have hup : (n + 2 ^ s) / 2 ^ s = n / 2 ^ s + 1 := Nat.add_div_right _ hpos
    have hdn : n / 2 ^ s % 2 ≠ 0 → (n - 2 ^ s) / 2 ^ s = n / 2 ^ s - 1 := fun _ => by
      have := Nat.sub_mul_div n (2 ^ s) 1
      rwa [mul_one] at this
    by_cases hs : s = 0
    · subst hs
      unfold ditRun
      rw [if_pos rfl]
      rw [pow_zero] at hn hup hdn ih
      unfold pairStage
      split
      · rename_i c
        by_cases e : n / 1 = i0 / 1
        · exact h.add_left _ _ (ih _ e)
        · exact h.add_right _ _ (ih _ (by rw [hup]; omega))
      · rename_i c
        by_cases e : n / 1 = i0 / 1
        · exact h.sub_right _ _ (ih _ e)
        · exact h.sub_left _ _ (ih _ (by rw [hdn c]; omega))
    · rw [ditRun_succ (by omega)]
      unfold pairStage
      split
      · rename_i c
        by_cases e : n / 2 ^ s = i0 / 2 ^ s
        · exact h.add_left _ _ (ih _ e)
        · exact h.add_right _ _ (h.mul_right _ _ (ih _ (by rw [hup]; revert c e hn; generalize n / 2 ^ s = p; generalize i0 / 2 ^ s = q; intros; omega)))
      · rename_i c
        by_cases e : n / 2 ^ s = i0 / 2 ^ s
        · exact h.sub_right _ _ (h.mul_right _ _ (ih _ e))
        · exact h.sub_left _ _ (ih _ (by rw [hdn c]; revert c e hn; generalize n / 2 ^ s = p; generalize i0 / 2 ^ s = q; intros; omega))

theorem ditGn_bad {R : Type} {A : Arith R C} {bad : C → Prop} (h : Absorbing bad) {b : ℕ} (dir : Direction)
    (x : ℕ → C) {i0 : ℕ} (hi : i0 < 2 ^ b) (h0 : bad (x i0)) {k : ℕ} (hk : k < 2 ^ b) :
    bad (ditRun b (fun i => A.twiddle (2 ^ b) i dir) (fun i => x (digitRev 2 b i)) b k) := by
  refine ditRun_bad h _ _ (i0 := digitRev 2 b i0) ?_ b k ?_
  · beta_reduce
    rw [digitRev_invol (by norm_num) hi]
    exact h0
  · rw [Nat.div_eq_of_lt hk, Nat.div_eq_of_lt (digitRev_lt (by norm_num) b i0)]

theorem accum_bad {bad : C → Prop} (h : Absorbing bad) (g : ℕ → C) (z : C) {n s : ℕ} (hs : s < n) (h0 : bad (g s)) :
    bad (accum g z 0 n) := by
  induction n with
  | zero => omega
  | succ n ih =>
    rw [accum, Nat.zero_add]
    by_cases e : s = n
    · subst e; exact h.add_right _ _ h0
    · exact h.add_left _ _ (ih (by omega))

end absorb

/-! ## NaN -/

section nan
variable {f : Fmt}

theorem FVal.add_nan (x : FVal) : x.add .nan = .nan := by cases x <;> rfl
theorem FVal.nan_add (x : FVal) : FVal.nan.add x = .nan := by cases x <;> rfl
theorem FVal.sub_nan (x : FVal) : x.sub .nan = .nan := FVal.add_nan x
theorem FVal.nan_sub (x : FVal) : FVal.nan.sub x = .nan := FVal.nan_add _
theorem FVal.mul_nan (x : FVal) : x.mul .nan = .nan := by cases x <;> rfl
theorem FVal.nan_mul (x : FVal) : FVal.nan.mul x = .nan := by cases x <;> rfl
theorem Fmt.round_nan (f : Fmt) : f.round .nan = .nan := rfl

theorem FVal.add_comm' (x y : FVal) : x.add y = y.add x := by
  cases x <;> cases y <;> try rfl
  · simp only [FVal.add, _root_.add_comm]
  · rename_i s t
    simp only [FVal.add]
    by_cases e : s = t
    · rw [if_pos e, if_pos e.symm, e]
    · rw [if_neg e, if_neg (Ne.symm e)]

noncomputable instance : AddCommMagma (IC f) where
  add_comm a b := by
    show (⟨f.round (a.re.add b.re), f.round (a.im.add b.im)⟩ : IC f) = ⟨f.round (b.re.add a.re), f.round (b.im.add a.im)⟩
    rw [FVal.add_comm' a.re, FVal.add_comm' a.im]

/-- One part is NaN. -/
def IC.Bad (z : IC f) : Prop := z.re = .nan ∨ z.im = .nan

/-- Both parts are NaN. -/
def IC.Full (z : IC f) : Prop := z.re = .nan ∧ z.im = .nan

theorem IC.add_re (a b : IC f) : (a + b).re = f.round (a.re.add b.re) := rfl
theorem IC.add_im (a b : IC f) : (a + b).im = f.round (a.im.add b.im) := rfl
theorem IC.sub_re (a b : IC f) : (a - b).re = f.round (a.re.sub b.re) := rfl
theorem IC.sub_im (a b : IC f) : (a - b).im = f.round (a.im.sub b.im) := rfl
theorem IC.mul_re (a b : IC f) :
    (a * b).re = f.round ((f.round (a.re.mul b.re)).sub (f.round (a.im.mul b.im))) := rfl
theorem IC.mul_im (a b : IC f) :
    (a * b).im = f.round ((f.round (a.re.mul b.im)).add (f.round (a.im.mul b.re))) := rfl

theorem IC.mul_full_right {a b : IC f} (h : b.Bad) : (a * b).Full := by
  unfold IC.Full
  rw [IC.mul_re, IC.mul_im]
  rcases h with h | h <;> rw [h] <;>
    simp only [FVal.mul_nan, Fmt.round_nan, FVal.add_nan, FVal.nan_add, FVal.sub_nan, FVal.nan_sub, and_self]

theorem IC.mul_full_left {a b : IC f} (h : a.Bad) : (a * b).Full := by
  unfold IC.Full
  rw [IC.mul_re, IC.mul_im]
  rcases h with h | h <;> rw [h] <;>
    simp only [FVal.nan_mul, Fmt.round_nan, FVal.add_nan, FVal.nan_add, FVal.sub_nan, FVal.nan_sub, and_self]

theorem IC.bad_absorbing : Absorbing (IC.Bad (f := f)) where
  add_left x y h := by
    unfold IC.Bad at *
    rw [IC.add_re, IC.add_im]
    rcases h with h | h <;> rw [h] <;> simp only [FVal.nan_add, Fmt.round_nan, true_or, or_true]
  add_right x y h := by
    unfold IC.Bad at *
    rw [IC.add_re, IC.add_im]
    rcases h with h | h <;> rw [h] <;> simp only [FVal.add_nan, Fmt.round_nan, true_or, or_true]
  sub_left x y h := by
    unfold IC.Bad at *
    rw [IC.sub_re, IC.sub_im]
    rcases h with h | h <;> rw [h] <;> simp only [FVal.nan_sub, Fmt.round_nan, true_or, or_true]
  sub_right x y h := by
    unfold IC.Bad at *
    rw [IC.sub_re, IC.sub_im]
    rcases h with h | h <;> rw [h] <;> simp only [FVal.sub_nan, Fmt.round_nan, true_or, or_true]
  mul_right x y h := Or.inl (IC.mul_full_right h).1

theorem IC.full_absorbing : Absorbing (IC.Full (f := f)) where
  add_left x y h := by
    unfold IC.Full at *
    rw [IC.add_re, IC.add_im, h.1, h.2]
    simp only [FVal.nan_add, Fmt.round_nan, and_self]
  add_right x y h := by
    unfold IC.Full at *
    rw [IC.add_re, IC.add_im, h.1, h.2]
    simp only [FVal.add_nan, Fmt.round_nan, and_self]
  sub_left x y h := by
    unfold IC.Full at *
    rw [IC.sub_re, IC.sub_im, h.1, h.2]
    simp only [FVal.nan_sub, Fmt.round_nan, and_self]
  sub_right x y h := by
    unfold IC.Full at *
    rw [IC.sub_re, IC.sub_im, h.1, h.2]
    simp only [FVal.sub_nan, Fmt.round_nan, and_self]
  mul_right x y h := IC.mul_full_right (Or.inl h.1)

variable {tw : ℕ → ℕ → Direction → IC f}

/-- One NaN sample spoils every bin. -/
theorem rfftGn_nan {b : ℕ} {x : ℕ → IR f} {i0 : ℕ} (hi : i0 < 2 ^ b) (h0 : x i0 = ⟨.nan⟩) {k : ℕ} (hk : k < 2 ^ b) :
    (rfftGn (ieeeArith f tw) b x k).Bad :=
  ditGn_bad IC.bad_absorbing .forward (fun i => (ieeeArith f tw).ofReal (x i)) hi
    (by beta_reduce; rw [h0]; exact Or.inl rfl) hk

/-- A spectrum spoilt in bin 0 gives NaN everywhere. -/
theorem specOutG_nan {b : ℕ} {Y : ℕ → IC f} (hY : (Y 0).Full) {n : ℕ} (hn : n < 2 ^ b) :
    specOutG (ieeeArith f tw) b Y n = ⟨.nan⟩ := by
  have h : IC.Full (ditGn (ieeeArith f tw) b .backward (hermG (ieeeArith f tw) b Y) n) := by
    refine ditGn_bad IC.full_absorbing .backward (hermG (ieeeArith f tw) b Y) (i0 := 0) (by positivity) ?_ hn
    unfold hermG
    rw [if_pos (Nat.zero_le _)]
    exact hY
  show (⟨f.round ((ditGn (ieeeArith f tw) b .backward (hermG (ieeeArith f tw) b Y) n).re.mul _)⟩ : IR f) = _
  rw [h.1, FVal.nan_mul]
  rfl

/-- A window with a NaN in step `u` spoils the sums of the steps `u … u + N - 1`. -/
theorem macY_nan {a N : ℕ} (H : ℕ → ℕ → IC f) (win : (ℕ → IR f) → ℕ → ℕ → IR f) (x : ℕ → IR f) {u t i0 : ℕ}
    (hi : i0 < 2 ^ (a + 1)) (h0 : win x u i0 = ⟨.nan⟩) (h1 : u ≤ t) (h2 : t < u + N) :
    (macY N H (winSpecG (ieeeArith f tw) a win x) t 0).Full := by
  have hlt : ∀ m, m % N < N := fun m => Nat.mod_lt _ (by omega)
  unfold macY
  refine accum_bad IC.full_absorbing _ _ (hlt (t % N + N - (t - u))) ?_
  rw [slotAt_age _ t (t - u) (by omega), if_pos (by omega), show t - (t - u) = u by omega]
  exact IC.mul_full_left (rfftGn_nan hi h0 (by positivity))

theorem ola_nan {a N : ℕ} (H : ℕ → ℕ → IC f) (x : ℕ → IR f) {u t i0 i : ℕ} (hN : 1 ≤ N) (hi : i0 < 2 ^ a)
    (h0 : x (u * 2 ^ a + i0) = ⟨.nan⟩) (h1 : u ≤ t) (h2 : t ≤ u + N) (h : i < 2 ^ a) :
    olaOutG (ieeeArith f tw) a (macY N H (winSpecG (ieeeArith f tw) a (seg (2 ^ a)) x)) t i = ⟨.nan⟩ := by
  have hp : 2 ^ (a + 1) = 2 ^ a + 2 ^ a := by rw [pow_succ]; ring
  have hw : seg (2 ^ a) x u i0 = ⟨.nan⟩ := by unfold seg; rw [if_pos hi, h0]
  unfold olaOutG
  by_cases c : t < u + N
  · rw [specOutG_nan (macY_nan H _ x (by omega) hw h1 c) (by omega)]
    exact congrArg IR.mk (by rw [FVal.nan_add]; rfl)
  · rw [if_pos (by omega), specOutG_nan (n := 2 ^ a + i) (macY_nan H _ x (by omega) hw (by omega) (by omega)) (by omega)]
    exact congrArg IR.mk (by rw [FVal.add_nan]; rfl)

theorem ols_nan {a N : ℕ} (H : ℕ → ℕ → IC f) (x : ℕ → IR f) {u t i0 i : ℕ} (hN : 1 ≤ N) (hi : i0 < 2 ^ a)
    (h0 : x (u * 2 ^ a + i0) = ⟨.nan⟩) (h1 : u ≤ t) (h2 : t ≤ u + N) (h : i < 2 ^ a) :
    olsOutG (ieeeArith f tw) a (macY N H (winSpecG (ieeeArith f tw) a (saveWindow (2 ^ a)) x)) t i = ⟨.nan⟩ := by
  have hp : 2 ^ (a + 1) = 2 ^ a + 2 ^ a := by rw [pow_succ]; ring
  unfold olsOutG
  by_cases c : t < u + N
  · have hw : saveWindow (2 ^ a) x u (2 ^ a + i0) = ⟨.nan⟩ := by
      unfold saveWindow
      rw [if_neg (by omega), Nat.add_sub_cancel_left, h0]
    exact specOutG_nan (macY_nan H _ x (by omega) hw h1 c) (by omega)
  · have hw : saveWindow (2 ^ a) x (u + 1) i0 = ⟨.nan⟩ := by
      unfold saveWindow
      rw [if_pos hi, if_pos (by omega), Nat.add_sub_cancel, h0]
    exact specOutG_nan (macY_nan H _ x (by omega) hw (by omega) (by omega)) (by omega)

end nan

end Neo
