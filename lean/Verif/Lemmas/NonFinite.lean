import Verif.Lemmas.AnyArithMem
import Verif.Spec.NonFinite

/-! # Infinities and NaN in the transforms and in the convolvers -/

namespace Neo

open Spec

section absorb
variable {C : Type} [Add C] [Sub C] [Mul C]

/-- One more stage spreads a bad group to the group twice as large. -/
theorem ditRun_bad_step {bad : C → Prop} (h : Absorbing bad) {b : ℕ} (w f : ℕ → C) {i0 s : ℕ}
    (ih : ∀ n, n / 2 ^ s = i0 / 2 ^ s → bad (ditRun b w f s n)) :
    ∀ n, n / 2 ^ (s + 1) = i0 / 2 ^ (s + 1) → bad (ditRun b w f (s + 1) n) := by
  intro n hn
  have h2 : ∀ m, m / 2 ^ (s + 1) = m / 2 ^ s / 2 := fun m => by rw [pow_succ, Nat.div_div_eq_div_mul]
  rw [h2, h2] at hn
  have hpos : 0 < 2 ^ s := by positivity
  have hup : (n + 2 ^ s) / 2 ^ s = n / 2 ^ s + 1 := Nat.add_div_right _ hpos
  have hdn : n / 2 ^ s % 2 ≠ 0 → (n - 2 ^ s) / 2 ^ s = n / 2 ^ s - 1 := fun _ => by
    have := Nat.sub_mul_div n (2 ^ s) 1
    rwa [mul_one] at this
  by_cases hs : s = 0
  · subst hs
    unfold ditRun
    rw [if_pos rfl]
    rw [pow_zero] at hn hup hdn ih
    unfold pairStage
    split
    · rename_i c
      by_cases e : n / 1 = i0 / 1
      · exact h.add_left _ _ (ih _ e)
      · exact h.add_right _ _ (ih _ (by rw [hup]; omega))
    · rename_i c
      by_cases e : n / 1 = i0 / 1
      · exact h.sub_right _ _ (ih _ e)
      · exact h.sub_left _ _ (ih _ (by rw [hdn c]; omega))
  · rw [ditRun_succ (by omega)]
    unfold pairStage
    split
    · rename_i c
      by_cases e : n / 2 ^ s = i0 / 2 ^ s
      · exact h.add_left _ _ (ih _ e)
      · exact h.add_right _ _ (h.mul_right _ _ (ih _ (by rw [hup]; revert c e hn; generalize n / 2 ^ s = p; generalize i0 / 2 ^ s = q; intros; omega)))
    · rename_i c
      by_cases e : n / 2 ^ s = i0 / 2 ^ s
      · exact h.sub_right _ _ (h.mul_right _ _ (ih _ e))
      · exact h.sub_left _ _ (ih _ (by rw [hdn c]; revert c e hn; generalize n / 2 ^ s = p; generalize i0 / 2 ^ s = q; intros; omega))

theorem ditRun_bad_from {bad : C → Prop} (h : Absorbing bad) {b : ℕ} (w f : ℕ → C) {i0 s0 : ℕ}
    (h0 : ∀ n, n / 2 ^ s0 = i0 / 2 ^ s0 → bad (ditRun b w f s0 n)) (s : ℕ) (hs : s0 ≤ s) :
    ∀ n, n / 2 ^ s = i0 / 2 ^ s → bad (ditRun b w f s n) := by
  induction s with
  | zero =>
    obtain rfl : s0 = 0 := by omega
    exact h0
  | succ s ih =>
    by_cases e : s0 = s + 1
    · subst e; exact h0
    · exact ditRun_bad_step h w f (ih (by omega))

/-- A bad value that is multiplied by a twiddle factor at some stage becomes worse, together with its
group. -/
theorem ditRun_worse {bad worse : C → Prop} (hb : Absorbing bad) (hw : Absorbing worse)
    (hmul : ∀ x y, bad y → worse (x * y)) {b : ℕ} (w f : ℕ → C) {i0 s : ℕ} (h0 : bad (f i0)) (hs : 1 ≤ s)
    (hbit : i0 / 2 ^ s % 2 = 1) :
    ∀ n, n / 2 ^ (s + 1) = i0 / 2 ^ (s + 1) → worse (ditRun b w f (s + 1) n) := by
  intro n hn
  have h2 : ∀ m, m / 2 ^ (s + 1) = m / 2 ^ s / 2 := fun m => by rw [pow_succ, Nat.div_div_eq_div_mul]
  rw [h2, h2] at hn
  have hpos : 0 < 2 ^ s := by positivity
  have hup : (n + 2 ^ s) / 2 ^ s = n / 2 ^ s + 1 := Nat.add_div_right _ hpos
  rw [ditRun_succ hs]
  unfold pairStage
  split
  · rename_i c
    refine hw.add_right _ _ (hmul _ _ (ditRun_bad hb w f h0 s _ ?_))
    rw [hup]
    revert c hn hbit; generalize n / 2 ^ s = p; generalize i0 / 2 ^ s = q; intros; omega
  · rename_i c
    refine hw.sub_right _ _ (hmul _ _ (ditRun_bad hb w f h0 s _ ?_))
    revert c hn hbit; generalize n / 2 ^ s = p; generalize i0 / 2 ^ s = q; intros; omega

end absorb

/-- Some bit above the lowest one is set. -/
theorem exists_bit {b j : ℕ} (h2 : 2 ≤ j) (hj : j < 2 ^ b) : ∃ s, 1 ≤ s ∧ s < b ∧ j / 2 ^ s % 2 = 1 := by
  refine ⟨Nat.log 2 j, Nat.log_pos (by norm_num) h2, Nat.log_lt_of_lt_pow (by omega) hj, ?_⟩
  have h1 := Nat.pow_log_le_self 2 (show j ≠ 0 by omega)
  have h3 := Nat.lt_pow_succ_log_self (b := 2) (by norm_num) j
  have : j / 2 ^ Nat.log 2 j = 1 := by
    rw [Nat.div_eq_iff (by positivity)]
    rw [pow_succ] at h3
    constructor <;> omega
  rw [this]

theorem digitRev_zero' (R b : ℕ) : digitRev R b 0 = 0 := by
  induction b with
  | zero => rfl
  | succ b ih => simp [digitRev, ih]

theorem digitRev_one' (b : ℕ) : digitRev 2 (b + 1) 1 = 2 ^ b := by
  simp [digitRev, digitRev_zero']

/-- The positions 0 and 1 after bit reversal hold the samples 0 and `N/2`. -/
theorem digitRev_inner {b j : ℕ} (hb : 1 ≤ b) (hj : j < 2 ^ b) : (j ≠ 0 ∧ j ≠ 2 ^ b / 2) ↔ 2 ≤ digitRev 2 b j := by
  obtain ⟨c, rfl⟩ : ∃ c, b = c + 1 := ⟨b - 1, by omega⟩
  have hh : 2 ^ (c + 1) / 2 = 2 ^ c := by rw [pow_succ]; omega
  rw [hh]
  have hi := digitRev_invol (R := 2) (by norm_num) hj
  constructor
  · rintro ⟨h1, h2⟩
    by_contra hc
    have hcase : digitRev 2 (c + 1) j = 0 ∨ digitRev 2 (c + 1) j = 1 := by omega
    rcases hcase with e | e
    · rw [e, digitRev_zero'] at hi
      omega
    · rw [e, digitRev_one'] at hi
      omega
  · intro h
    constructor
    · rintro rfl
      rw [digitRev_zero'] at h
      omega
    · rintro rfl
      have h1 : 1 < 2 ^ (c + 1) := by
        have : 0 < 2 ^ c := by positivity
        rw [pow_succ]
        omega
      have := digitRev_invol (R := 2) (b := c + 1) (i := 1) (by norm_num) h1
      rw [digitRev_one'] at this
      omega

section nonfin
variable {f : Fmt}

theorem FVal.nonFinite_inf (s : Bool) : (FVal.inf s).NonFinite := fun _ h => by cases h
theorem FVal.nonFinite_nan : FVal.nan.NonFinite := fun _ h => by cases h

theorem FVal.not_nonFinite (x : ℝ) : ¬ (FVal.fin x).NonFinite := fun h => h x rfl

theorem Fmt.round_nonFinite {v : FVal} (h : v.NonFinite) : (f.round v).NonFinite := by
  cases v with
  | fin x => exact absurd rfl (h x)
  | inf s => exact FVal.nonFinite_inf s
  | nan => exact FVal.nonFinite_nan

theorem FVal.add_nonFinite_left {a : FVal} (h : a.NonFinite) (b : FVal) : (a.add b).NonFinite := by
  cases a with
  | fin x => exact absurd rfl (h x)
  | inf s =>
    cases b with
    | fin y => exact FVal.nonFinite_inf s
    | inf t =>
      unfold FVal.add
      dsimp only
      split
      · exact FVal.nonFinite_inf s
      · exact FVal.nonFinite_nan
    | nan => exact FVal.nonFinite_nan
  | nan => rw [FVal.nan_add]; exact FVal.nonFinite_nan

theorem FVal.add_nonFinite_right {b : FVal} (h : b.NonFinite) (a : FVal) : (a.add b).NonFinite := by
  rw [FVal.add_comm']; exact FVal.add_nonFinite_left h a

theorem FVal.neg_nonFinite {a : FVal} : a.neg.NonFinite ↔ a.NonFinite := by
  cases a with
  | fin x => exact ⟨fun h => absurd rfl (h (-x)), fun h => absurd rfl (h x)⟩
  | inf s => exact ⟨fun _ => FVal.nonFinite_inf s, fun _ => FVal.nonFinite_inf _⟩
  | nan => exact ⟨fun _ => FVal.nonFinite_nan, fun _ => FVal.nonFinite_nan⟩

theorem FVal.sub_nonFinite_left {a : FVal} (h : a.NonFinite) (b : FVal) : (a.sub b).NonFinite :=
  FVal.add_nonFinite_left h _

theorem FVal.sub_nonFinite_right {b : FVal} (h : b.NonFinite) (a : FVal) : (a.sub b).NonFinite :=
  FVal.add_nonFinite_right (FVal.neg_nonFinite.2 h) a

theorem FVal.mul_comm' (x y : FVal) : x.mul y = y.mul x := by
  cases x <;> cases y <;> try rfl
  · simp only [FVal.mul, _root_.mul_comm]
  · simp only [FVal.mul, Bool.xor_comm]

theorem FVal.mul_nonFinite_left {a : FVal} (h : a.NonFinite) (b : FVal) : (a.mul b).NonFinite := by
  cases a with
  | fin x => exact absurd rfl (h x)
  | inf s =>
    cases b with
    | fin y =>
      unfold FVal.mul
      dsimp only
      split
      · exact FVal.nonFinite_nan
      · exact FVal.nonFinite_inf _
    | inf t => exact FVal.nonFinite_inf _
    | nan => exact FVal.nonFinite_nan
  | nan => rw [FVal.nan_mul]; exact FVal.nonFinite_nan

theorem FVal.mul_nonFinite_right {b : FVal} (h : b.NonFinite) (a : FVal) : (a.mul b).NonFinite := by
  rw [FVal.mul_comm']; exact FVal.mul_nonFinite_left h a

/-- Products of complex numbers do not depend on the order of the factors. -/
theorem IC.mul_comm' (a b : IC f) : a * b = b * a := by
  refine IC.ext ?_ ?_
  · rw [IC.mul_re, IC.mul_re, FVal.mul_comm' a.re, FVal.mul_comm' a.im]
  · rw [IC.mul_im, IC.mul_im, FVal.add_comm', FVal.mul_comm' a.re, FVal.mul_comm' a.im]

/-- One part is not finite. -/
def IC.Inf (z : IC f) : Prop := z.re.NonFinite ∨ z.im.NonFinite

/-- Both parts are not finite. -/
def IC.Inf2 (z : IC f) : Prop := z.re.NonFinite ∧ z.im.NonFinite

theorem IC.mul_inf_right {a b : IC f} (h : b.Inf) : (a * b).Inf2 := by
  unfold IC.Inf2
  rw [IC.mul_re, IC.mul_im]
  rcases h with h | h
  · exact ⟨Fmt.round_nonFinite (FVal.sub_nonFinite_left (Fmt.round_nonFinite (FVal.mul_nonFinite_right h _)) _),
      Fmt.round_nonFinite (FVal.add_nonFinite_right (Fmt.round_nonFinite (FVal.mul_nonFinite_right h _)) _)⟩
  · exact ⟨Fmt.round_nonFinite (FVal.sub_nonFinite_right (Fmt.round_nonFinite (FVal.mul_nonFinite_right h _)) _),
      Fmt.round_nonFinite (FVal.add_nonFinite_left (Fmt.round_nonFinite (FVal.mul_nonFinite_right h _)) _)⟩

theorem IC.mul_inf_left {a b : IC f} (h : a.Inf) : (a * b).Inf2 := by
  rw [IC.mul_comm']; exact IC.mul_inf_right h

theorem IC.re_absorbing : Absorbing (fun z : IC f => z.re.NonFinite) where
  add_left _ _ h := Fmt.round_nonFinite (FVal.add_nonFinite_left h _)
  add_right _ _ h := Fmt.round_nonFinite (FVal.add_nonFinite_right h _)
  sub_left _ _ h := Fmt.round_nonFinite (FVal.sub_nonFinite_left h _)
  sub_right _ _ h := Fmt.round_nonFinite (FVal.sub_nonFinite_right h _)
  mul_right _ _ h := (IC.mul_inf_right (Or.inl h)).1

theorem IC.im_absorbing : Absorbing (fun z : IC f => z.im.NonFinite) where
  add_left _ _ h := Fmt.round_nonFinite (FVal.add_nonFinite_left h _)
  add_right _ _ h := Fmt.round_nonFinite (FVal.add_nonFinite_right h _)
  sub_left _ _ h := Fmt.round_nonFinite (FVal.sub_nonFinite_left h _)
  sub_right _ _ h := Fmt.round_nonFinite (FVal.sub_nonFinite_right h _)
  mul_right _ _ h := (IC.mul_inf_right (Or.inr h)).2

theorem IC.reNan_absorbing : Absorbing (fun z : IC f => z.re = .nan) where
  add_left a b h := by
    have h : a.re = .nan := h
    show (a + b).re = .nan
    rw [IC.add_re, h, FVal.nan_add]; rfl
  add_right a b h := by
    have h : b.re = .nan := h
    show (a + b).re = .nan
    rw [IC.add_re, h, FVal.add_nan]; rfl
  sub_left a b h := by
    have h : a.re = .nan := h
    show (a - b).re = .nan
    rw [IC.sub_re, h, FVal.nan_sub]; rfl
  sub_right a b h := by
    have h : b.re = .nan := h
    show (a - b).re = .nan
    rw [IC.sub_re, h, FVal.sub_nan]; rfl
  mul_right _ _ h := (IC.mul_full_right (Or.inl h)).1

theorem IC.imNan_absorbing : Absorbing (fun z : IC f => z.im = .nan) where
  add_left a b h := by
    have h : a.im = .nan := h
    show (a + b).im = .nan
    rw [IC.add_im, h, FVal.nan_add]; rfl
  add_right a b h := by
    have h : b.im = .nan := h
    show (a + b).im = .nan
    rw [IC.add_im, h, FVal.add_nan]; rfl
  sub_left a b h := by
    have h : a.im = .nan := h
    show (a - b).im = .nan
    rw [IC.sub_im, h, FVal.nan_sub]; rfl
  sub_right a b h := by
    have h : b.im = .nan := h
    show (a - b).im = .nan
    rw [IC.sub_im, h, FVal.sub_nan]; rfl
  mul_right _ _ h := (IC.mul_full_right (Or.inr h)).2

theorem IC.inf_absorbing : Absorbing (IC.Inf (f := f)) where
  add_left _ _ h := h.imp (IC.re_absorbing.add_left _ _) (IC.im_absorbing.add_left _ _)
  add_right _ _ h := h.imp (IC.re_absorbing.add_right _ _) (IC.im_absorbing.add_right _ _)
  sub_left _ _ h := h.imp (IC.re_absorbing.sub_left _ _) (IC.im_absorbing.sub_left _ _)
  sub_right _ _ h := h.imp (IC.re_absorbing.sub_right _ _) (IC.im_absorbing.sub_right _ _)
  mul_right _ _ h := Or.inl (IC.mul_inf_right h).1

theorem IC.inf2_absorbing : Absorbing (IC.Inf2 (f := f)) where
  add_left _ _ h := ⟨IC.re_absorbing.add_left _ _ h.1, IC.im_absorbing.add_left _ _ h.2⟩
  add_right _ _ h := ⟨IC.re_absorbing.add_right _ _ h.1, IC.im_absorbing.add_right _ _ h.2⟩
  sub_left _ _ h := ⟨IC.re_absorbing.sub_left _ _ h.1, IC.im_absorbing.sub_left _ _ h.2⟩
  sub_right _ _ h := ⟨IC.re_absorbing.sub_right _ _ h.1, IC.im_absorbing.sub_right _ _ h.2⟩
  mul_right _ _ h := IC.mul_inf_right (Or.inl h.1)

variable {tw : ℕ → ℕ → Direction → IC f}

/-- A non-finite real part anywhere makes all real parts non-finite. -/
theorem ditGn_re {b : ℕ} (dir : Direction) (x : ℕ → IC f) {i0 : ℕ} (hi : i0 < 2 ^ b) (h0 : (x i0).re.NonFinite)
    {k : ℕ} (hk : k < 2 ^ b) : (ditGn (ieeeArith f tw) b dir x k).re.NonFinite :=
  ditGn_bad (A := ieeeArith f tw) IC.re_absorbing dir x hi h0 hk

/-- A non-finite imaginary part anywhere makes all imaginary parts non-finite. -/
theorem ditGn_im {b : ℕ} (dir : Direction) (x : ℕ → IC f) {i0 : ℕ} (hi : i0 < 2 ^ b) (h0 : (x i0).im.NonFinite)
    {k : ℕ} (hk : k < 2 ^ b) : (ditGn (ieeeArith f tw) b dir x k).im.NonFinite :=
  ditGn_bad (A := ieeeArith f tw) IC.im_absorbing dir x hi h0 hk

/-- Anywhere but in the samples `0` and `N/2`, either part spoils both. -/
theorem ditGn_inner {b : ℕ} (hb : 1 ≤ b) (dir : Direction) (x : ℕ → IC f) {i0 : ℕ} (hi : i0 < 2 ^ b)
    (h1 : i0 ≠ 0) (h2 : i0 ≠ 2 ^ b / 2) (h0 : (x i0).Inf) {k : ℕ} (hk : k < 2 ^ b) :
    (ditGn (ieeeArith f tw) b dir x k).Inf2 := by
  have hlt := digitRev_lt (R := 2) (by norm_num) b i0
  obtain ⟨s, hs1, hsb, hbit⟩ := exists_bit ((digitRev_inner hb hi).1 ⟨h1, h2⟩) hlt
  have hw := ditRun_worse (b := b) IC.inf_absorbing IC.inf2_absorbing (fun _ _ => IC.mul_inf_right)
    (fun i => (ieeeArith f tw).twiddle (2 ^ b) i dir) (fun i => x (digitRev 2 b i)) (i0 := digitRev 2 b i0)
    (by beta_reduce; rw [digitRev_invol (by norm_num) hi]; exact h0) hs1 hbit
  exact ditRun_bad_from IC.inf2_absorbing _ _ hw b (by omega) k
    (by rw [Nat.div_eq_of_lt hk, Nat.div_eq_of_lt hlt])

/-- One part of the result does not depend on the other part at the positions 0 and 1. -/
theorem ditRun_edge {C V : Type} [Add C] [Sub C] [Mul C] {P : C → V}
    (hadd : ∀ a a' b b', P a = P a' → P b = P b' → P (a + b) = P (a' + b'))
    (hsub : ∀ a a' b b', P a = P a' → P b = P b' → P (a - b) = P (a' - b'))
    {b : ℕ} (w X X' : ℕ → C) (hre : ∀ n < 2 ^ b, P (X n) = P (X' n))
    (heq : ∀ n < 2 ^ b, 2 ≤ n → X n = X' n) (s : ℕ) (hs : 1 ≤ s) (hsb : s ≤ b) :
    (∀ n < 2 ^ b, P (ditRun b w X s n) = P (ditRun b w X' s n)) ∧
      ∀ n < 2 ^ b, 2 ^ s ≤ n → ditRun b w X s n = ditRun b w X' s n := by
  induction s with
  | zero => omega
  | succ s ih =>
    have hpow : 2 ^ b = 2 ^ (b - s - 1) * (2 * 2 ^ s) := two_pow_split (by omega)
    have hpos : 0 < 2 ^ s := by positivity
    have hin : ∀ n < 2 ^ b, n / 2 ^ s % 2 = 0 → n + 2 ^ s < 2 ^ b := by
      intro n hn c
      have h3 := Nat.div_add_mod n (2 ^ s)
      have h4 := Nat.mod_lt n hpos
      have h5 : n / 2 ^ s < 2 ^ (b - s - 1) * 2 := by
        rw [Nat.div_lt_iff_lt_mul hpos]
        calc n < 2 ^ b := hn
          _ = _ := by rw [hpow]; ring
      have h6 : n / 2 ^ s + 2 ≤ 2 ^ (b - s - 1) * 2 := by omega
      calc n + 2 ^ s < 2 ^ s * (n / 2 ^ s) + 2 ^ s + 2 ^ s := by omega
        _ = 2 ^ s * (n / 2 ^ s + 2) := by ring
        _ ≤ 2 ^ s * (2 ^ (b - s - 1) * 2) := Nat.mul_le_mul_left _ h6
        _ = 2 ^ b := by rw [hpow]; ring
    have hge : ∀ n, n / 2 ^ s % 2 ≠ 0 → 2 ^ s ≤ n := by
      intro n c
      by_contra h
      rw [Nat.div_eq_of_lt (by omega)] at c
      exact c rfl
    by_cases h0 : s = 0
    · subst h0
      unfold ditRun
      rw [if_pos rfl, if_pos rfl]
      rw [pow_zero] at hin hge
      unfold pairStage
      constructor
      · intro n hn
        split
        · rename_i c
          exact hadd _ _ _ _ (hre n hn) (hre _ (hin n hn c))
        · rename_i c
          have := hge n c
          exact hsub _ _ _ _ (hre _ (by omega)) (hre n hn)
      · intro n hn h2
        split
        · rename_i c
          rw [heq n hn (by omega), heq _ (hin n hn c) (by omega)]
        · rename_i c
          rw [heq n hn (by omega), heq (n - 1) (by omega) (by
            rw [Nat.div_one] at c
            have : 2 ^ (0 + 1) = 2 := by norm_num
            omega)]
    · obtain ⟨ihr, ihe⟩ := ih (by omega) (by omega)
      rw [ditRun_succ (by omega), ditRun_succ (by omega)]
      unfold pairStage
      constructor
      · intro n hn
        split
        · rename_i c
          rw [ihe (n + 2 ^ s) (hin n hn c) (by omega)]
          exact hadd _ _ _ _ (ihr n hn) rfl
        · rename_i c
          have := hge n c
          rw [ihe n hn this]
          exact hsub _ _ _ _ (ihr (n - 2 ^ s) (by omega)) rfl
      · intro n hn h2
        have h2' : 2 * 2 ^ s ≤ n := by rw [pow_succ] at h2; omega
        split
        · rename_i c
          rw [ihe n hn (by omega), ihe _ (hin n hn c) (by omega)]
        · rename_i c
          rw [ihe n hn (by omega), ihe (n - 2 ^ s) (by omega) (by omega)]

/-- One part of the transform does not depend on the other part of the samples `0` and `N/2`. -/
theorem ditGn_edge {R C V : Type} [Zero R] [Add R] [Mul R] [Zero C] [AddCommMagma C] [Sub C] [Mul C] {A : Arith R C} {P : C → V}
    (hadd : ∀ a a' b b', P a = P a' → P b = P b' → P (a + b) = P (a' + b'))
    (hsub : ∀ a a' b b', P a = P a' → P b = P b' → P (a - b) = P (a' - b'))
    {b : ℕ} (hb : 1 ≤ b) (dir : Direction) (x x' : ℕ → C)
    (hre : ∀ i < 2 ^ b, P (x i) = P (x' i))
    (heq : ∀ i < 2 ^ b, i ≠ 0 → i ≠ 2 ^ b / 2 → x i = x' i) {k : ℕ} (hk : k < 2 ^ b) :
    P (ditGn A b dir x k) = P (ditGn A b dir x' k) := by
  have hlt := fun n => digitRev_lt (R := 2) (by norm_num) b n
  refine (ditRun_edge hadd hsub _ _ _ (fun n _ => hre _ (hlt n)) (fun n hn h2 => ?_) b hb le_rfl).1 k hk
  have hin := (digitRev_inner hb (hlt n)).2 (by rw [digitRev_invol (by norm_num) hn]; exact h2)
  exact heq _ (hlt n) hin.1 hin.2

theorem IC.re_add_congr (a a' b b' : IC f) (h : a.re = a'.re) (h' : b.re = b'.re) : (a + b).re = (a' + b').re := by
  rw [IC.add_re, IC.add_re, h, h']
theorem IC.re_sub_congr (a a' b b' : IC f) (h : a.re = a'.re) (h' : b.re = b'.re) : (a - b).re = (a' - b').re := by
  rw [IC.sub_re, IC.sub_re, h, h']
theorem IC.im_add_congr (a a' b b' : IC f) (h : a.im = a'.im) (h' : b.im = b'.im) : (a + b).im = (a' + b').im := by
  rw [IC.add_im, IC.add_im, h, h']
theorem IC.im_sub_congr (a a' b b' : IC f) (h : a.im = a'.im) (h' : b.im = b'.im) : (a - b).im = (a' - b').im := by
  rw [IC.sub_im, IC.sub_im, h, h']

/-! ## The convolvers -/

/-- A spectrum with a bin whose parts are both non-finite gives no finite sample. -/
theorem specOutG_nonFinite {b k : ℕ} {Y : ℕ → IC f} (hk : k ≤ 2 ^ b / 2) (hY : (Y k).Inf2) {n : ℕ}
    (hn : n < 2 ^ b) : (specOutG (ieeeArith f tw) b Y n).val.NonFinite := by
  have hpos : 0 < 2 ^ b := by positivity
  have h : (ditGn (ieeeArith f tw) b .backward (hermG (ieeeArith f tw) b Y) n).re.NonFinite := by
    refine ditGn_re .backward _ (i0 := k) (by omega) ?_ hn
    unfold hermG
    rw [if_pos hk]
    exact hY.1
  exact Fmt.round_nonFinite (FVal.mul_nonFinite_left h _)

/-- A window with a non-finite sample in step `u` spoils the sums of the steps `u … u + N - 1`. -/
theorem macY_nonFinite {a N : ℕ} (H : ℕ → ℕ → IC f) (win : (ℕ → IR f) → ℕ → ℕ → IR f) (x : ℕ → IR f)
    {u t i0 : ℕ} (hi : i0 < 2 ^ (a + 1)) (h0 : (win x u i0).val.NonFinite) (h1 : u ≤ t) (h2 : t < u + N) :
    (macY N H (winSpecG (ieeeArith f tw) a win x) t 0).Inf2 := by
  have hlt : ∀ m, m % N < N := fun m => Nat.mod_lt _ (by omega)
  unfold macY
  refine accum_bad IC.inf2_absorbing _ _ (hlt (t % N + N - (t - u))) ?_
  rw [slotAt_age _ t (t - u) (by omega), if_pos (by omega), show t - (t - u) = u by omega]
  exact IC.mul_inf_left (Or.inl (ditGn_re .forward _ hi h0 (by positivity)))

/-- A non-finite coefficient spoils its bin in every step, also before any input has arrived. -/
theorem macY_filter {N : ℕ} (H X : ℕ → ℕ → IC f) {s k : ℕ} (hs : s < N) (h0 : (H s k).Inf) (t : ℕ) :
    (macY N H X t k).Inf2 := by
  have hlt : ∀ m, m % N < N := fun m => Nat.mod_lt _ (by omega)
  unfold macY
  refine accum_bad IC.inf2_absorbing _ _ (hlt (t % N + N - s)) ?_
  rw [slot_invol t hs]
  exact IC.mul_inf_right h0

theorem ola_nonFinite {a N : ℕ} (H : ℕ → ℕ → IC f) (x : ℕ → IR f) {u t i0 i : ℕ} (hN : 1 ≤ N) (hi : i0 < 2 ^ a)
    (h0 : (x (u * 2 ^ a + i0)).val.NonFinite) (h1 : u ≤ t) (h2 : t ≤ u + N) (h : i < 2 ^ a) :
    (olaOutG (ieeeArith f tw) a (macY N H (winSpecG (ieeeArith f tw) a (seg (2 ^ a)) x)) t i).val.NonFinite := by
  have hp : 2 ^ (a + 1) = 2 ^ a + 2 ^ a := by rw [pow_succ]; ring
  have hw : (seg (2 ^ a) x u i0).val.NonFinite := by unfold seg; rw [if_pos hi]; exact h0
  unfold olaOutG
  by_cases c : t < u + N
  · exact Fmt.round_nonFinite (FVal.add_nonFinite_left
      (specOutG_nonFinite (Nat.zero_le _) (macY_nonFinite H _ x (by omega) hw h1 c) (by omega)) _)
  · rw [if_pos (by omega)]
    exact Fmt.round_nonFinite (FVal.add_nonFinite_right
      (specOutG_nonFinite (n := 2 ^ a + i) (Nat.zero_le _)
        (macY_nonFinite H _ x (by omega) hw (by omega) (by omega)) (by omega)) _)

theorem ols_nonFinite {a N : ℕ} (H : ℕ → ℕ → IC f) (x : ℕ → IR f) {u t i0 i : ℕ} (hN : 1 ≤ N) (hi : i0 < 2 ^ a)
    (h0 : (x (u * 2 ^ a + i0)).val.NonFinite) (h1 : u ≤ t) (h2 : t ≤ u + N) (h : i < 2 ^ a) :
    (olsOutG (ieeeArith f tw) a (macY N H (winSpecG (ieeeArith f tw) a (saveWindow (2 ^ a)) x)) t i).val.NonFinite := by
  have hp : 2 ^ (a + 1) = 2 ^ a + 2 ^ a := by rw [pow_succ]; ring
  unfold olsOutG
  by_cases c : t < u + N
  · have hw : (saveWindow (2 ^ a) x u (2 ^ a + i0)).val.NonFinite := by
      unfold saveWindow
      rw [if_neg (by omega), Nat.add_sub_cancel_left]
      exact h0
    exact specOutG_nonFinite (Nat.zero_le _) (macY_nonFinite H _ x (by omega) hw h1 c) (by omega)
  · have hw : (saveWindow (2 ^ a) x (u + 1) i0).val.NonFinite := by
      unfold saveWindow
      rw [if_pos hi, if_pos (by omega), Nat.add_sub_cancel]
      exact h0
    exact specOutG_nonFinite (Nat.zero_le _) (macY_nonFinite H _ x (by omega) hw (by omega) (by omega)) (by omega)

theorem ola_filter {a N : ℕ} (H X : ℕ → ℕ → IC f) {s k : ℕ} (hs : s < N) (hk : k ≤ 2 ^ a) (h0 : (H s k).Inf)
    (t : ℕ) {i : ℕ} (h : i < 2 ^ a) : (olaOutG (ieeeArith f tw) a (macY N H X) t i).val.NonFinite := by
  have hp : 2 ^ (a + 1) = 2 ^ a + 2 ^ a := by rw [pow_succ]; ring
  exact Fmt.round_nonFinite (FVal.add_nonFinite_left
    (specOutG_nonFinite (k := k) (by omega) (macY_filter H X hs h0 t) (by omega)) _)

theorem ols_filter {a N : ℕ} (H X : ℕ → ℕ → IC f) {s k : ℕ} (hs : s < N) (hk : k ≤ 2 ^ a) (h0 : (H s k).Inf)
    (t : ℕ) {i : ℕ} (h : i < 2 ^ a) : (olsOutG (ieeeArith f tw) a (macY N H X) t i).val.NonFinite := by
  have hp : 2 ^ (a + 1) = 2 ^ a + 2 ^ a := by rw [pow_succ]; ring
  exact specOutG_nonFinite (k := k) (by omega) (macY_filter H X hs h0 t) (by omega)

end nonfin

end Neo
