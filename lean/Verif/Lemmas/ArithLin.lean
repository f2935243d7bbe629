import Verif.Lemmas.ArithRel
import Verif.Lemmas.AnyConv
import Verif.Lemmas.AnySplit
import Verif.Lemmas.StdComplex

/-! # Relations preserved by sums and by products with coefficients -/

namespace Neo

open Spec

variable {R C : Type} [Zero R] [Add R] [Mul R] [Zero C] [AddCommMagma C] [Sub C] [Mul C]

/-- The relations `c` of complex and `r` of real numbers are preserved by sums, differences, and products with the
coefficients `k`, `kr`. -/
structure LinRel (A : Arith R C) (k : C → Prop) (kr : R → Prop) (r : R → R → Prop) (c : C → C → Prop) : Prop where
  zeroR : r 0 0
  zeroC : c 0 0
  addR : ∀ x x' y y', r x x' → r y y' → r (x + y) (x' + y')
  mulR : ∀ x x' y, kr y → r x x' → r (x * y) (x' * y)
  add : ∀ x x' y y', c x x' → c y y' → c (x + y) (x' + y')
  sub : ∀ x x' y y', c x x' → c y y' → c (x - y) (x' - y')
  mul : ∀ w x x', k w → c x x' → c (w * x) (w * x')
  mul' : ∀ w x x', k w → c x x' → c (x * w) (x' * w)
  ofReal : ∀ x x', r x x' → c (A.ofReal x) (A.ofReal x')
  conj : ∀ x x', c x x' → c (A.conj x) (A.conj x')
  realPart : ∀ x x', c x x' → r (A.realPart x) (A.realPart x')

variable {A : Arith R C} {k : C → Prop} {kr : R → Prop} {r : R → R → Prop} {c : C → C → Prop}

theorem ditRun_lin (h : LinRel A k kr r c) {b : ℕ} {w f f' : ℕ → C} (hw : ∀ i < 2 ^ (b - 1), k (w i))
    (s : ℕ) (hsb : s ≤ b) (hf : ∀ n < 2 ^ b, c (f n) (f' n)) :
    ∀ n < 2 ^ b, c (ditRun b w f s n) (ditRun b w f' s n) := by
  induction s with
  | zero => exact hf
  | succ s ih =>
    intro n hn
    have ih := ih (by omega)
    have hpow : 2 ^ b = 2 ^ (b - s - 1) * (2 * 2 ^ s) := two_pow_split (by omega)
    have hpos : 0 < 2 ^ s := by positivity
    have hin : n / 2 ^ s % 2 = 0 → n + 2 ^ s < 2 ^ b := by
      intro c
      have h3 := Nat.div_add_mod n (2 ^ s)
      have h4 := Nat.mod_lt n hpos
      have h5 : n / 2 ^ s < 2 ^ (b - s - 1) * 2 := by
        rw [Nat.div_lt_iff_lt_mul hpos]
        calc n < 2 ^ b := hn
          _ = _ := by rw [hpow]; ring
      have h6 : n / 2 ^ s + 2 ≤ 2 ^ (b - s - 1) * 2 := by omega
      calc n + 2 ^ s < 2 ^ s * (n / 2 ^ s) + 2 ^ s + 2 ^ s := by omega
        _ = 2 ^ s * (n / 2 ^ s + 2) := by ring
        _ ≤ 2 ^ s * (2 ^ (b - s - 1) * 2) := Nat.mul_le_mul_left _ h6
        _ = 2 ^ b := by rw [hpow]; ring
    have hwi : k (w (n % 2 ^ s * 2 ^ (b - s - 1))) := by
      apply hw
      have e : 2 ^ (b - 1) = 2 ^ s * 2 ^ (b - s - 1) := by rw [← pow_add]; congr 1; omega
      rw [e]
      exact Nat.mul_lt_mul_of_pos_right (Nat.mod_lt n hpos) (by positivity)
    by_cases h0 : s = 0
    · subst h0
      unfold ditRun
      rw [if_pos rfl, if_pos rfl]
      unfold pairStage
      split
      · exact h.add _ _ _ _ (hf n hn) (hf _ (hin ‹_›))
      · exact h.sub _ _ _ _ (hf _ (by omega)) (hf n hn)
    · rw [ditRun_succ (by omega), ditRun_succ (by omega)]
      unfold pairStage
      split
      · exact h.add _ _ _ _ (ih n hn) (h.mul _ _ _ hwi (ih _ (hin ‹_›)))
      · exact h.sub _ _ _ _ (ih _ (by omega)) (h.mul _ _ _ hwi (ih n hn))

/-- The tables of size `2 ^ b` are coefficients. -/
def TwCoef (A : Arith R C) (k : C → Prop) (b : ℕ) : Prop := ∀ dir, ∀ i < 2 ^ (b - 1), k (A.twiddle (2 ^ b) i dir)

theorem ditGn_lin (h : LinRel A k kr r c) {b : ℕ} (hw : TwCoef A k b) (dir : Direction) {x x' : ℕ → C}
    (hx : ∀ i < 2 ^ b, c (x i) (x' i)) {i : ℕ} (hi : i < 2 ^ b) : c (ditGn A b dir x i) (ditGn A b dir x' i) :=
  ditRun_lin h (hw dir) b le_rfl (fun n _ => hx _ (digitRev_lt (by norm_num) b n)) i hi

theorem rfftGn_lin (h : LinRel A k kr r c) {b : ℕ} (hw : TwCoef A k b) {x x' : ℕ → R}
    (hx : ∀ i < 2 ^ b, r (x i) (x' i)) {i : ℕ} (hi : i < 2 ^ b) : c (rfftGn A b x i) (rfftGn A b x' i) :=
  ditGn_lin h hw .forward (fun j hj => h.ofReal _ _ (hx j hj)) hi

theorem irfftGn_lin (h : LinRel A k kr r c) {b : ℕ} (hw : TwCoef A k b) {Y Y' : ℕ → C}
    (hY : ∀ i ≤ 2 ^ b / 2, c (Y i) (Y' i)) {n : ℕ} (hn : n < 2 ^ b) : r (irfftGn A b Y n) (irfftGn A b Y' n) := by
  refine h.realPart _ _ (ditGn_lin h hw .backward (fun i hi => ?_) hn)
  unfold hermG
  split
  · exact hY _ ‹_›
  · exact h.conj _ _ (hY _ (by omega))

theorem specOutG_lin (h : LinRel A k kr r c) {b : ℕ} (hw : TwCoef A k b) (hs : kr (A.invSize (2 ^ b))) {Y Y' : ℕ → C}
    (hY : ∀ i ≤ 2 ^ b / 2, c (Y i) (Y' i)) {n : ℕ} (hn : n < 2 ^ b) : r (specOutG A b Y n) (specOutG A b Y' n) :=
  h.mulR _ _ _ hs (irfftGn_lin h hw hY hn)

theorem slotAt_lin (h : LinRel A k kr r c) {X X' : ℕ → ℕ → C} {i : ℕ} (N : ℕ) : ∀ t, (∀ u < t, t ≤ u + N → c (X u i) (X' u i)) →
    ∀ s < N, c (slotAt X N t s i) (slotAt X' N t s i) := by
  intro t hX s hs
  by_cases ht : ∃ u < t, t ≤ u + N ∧ u % N = s
  · obtain ⟨u, hu, h1, h2⟩ := ht
    obtain ⟨t', rfl⟩ : ∃ t', t = t' + 1 := ⟨t - 1, by omega⟩
    have e1 := slotAt_young X t' (t' - u) (N := N) (by omega) (by omega) i
    have e2 := slotAt_young X' t' (t' - u) (N := N) (by omega) (by omega) i
    rw [show t' - (t' - u) = u by omega, h2] at e1 e2
    rw [e1, e2]
    exact hX u hu h1
  · have z : ∀ Z : ℕ → ℕ → C, slotAt Z N t s i = 0 := by
      intro Z
      have hlt : ∀ u < t, u % N ≠ s := by
        intro u hu e
        -- the last `u' < t` in the class of `s`
        apply ht
        refine ⟨s + N * ((t - 1 - s) / N), ?_, ?_, ?_⟩
        · have hsu : s ≤ u := by rw [← e]; exact Nat.mod_le _ _
          have := Nat.mul_div_le (t - 1 - s) N
          omega
        · have hsu : s ≤ u := by rw [← e]; exact Nat.mod_le _ _
          have := Nat.lt_mul_div_succ (t - 1 - s) (b := N) (by omega)
          have e2 : N * ((t - 1 - s) / N + 1) = N * ((t - 1 - s) / N) + N := by ring
          omega
        · rw [Nat.add_mul_mod_self_left, Nat.mod_eq_of_lt hs]
      clear ht hX
      induction t with
      | zero => rfl
      | succ t ih =>
        unfold slotAt
        rw [if_neg (fun e => hlt t (by omega) e.symm)]
        exact ih fun u hu => hlt u (by omega)
    rw [z, z]
    exact h.zeroC

theorem accum_lin (h : LinRel A k kr r c) {g g' : ℕ → C} (n : ℕ) (hg : ∀ s < n, c (g s) (g' s)) :
    c (accum g 0 0 n) (accum g' 0 0 n) := by
  induction n with
  | zero => exact h.zeroC
  | succ n ih =>
    exact h.add _ _ _ _ (ih fun s hs => hg s (by omega)) (by rw [Nat.zero_add]; exact hg n (by omega))

/-- Related inputs, the same filter of coefficients. -/
theorem macY_lin (h : LinRel A k kr r c) {N : ℕ} {H X X' : ℕ → ℕ → C} {i : ℕ} (hH : ∀ s < N, k (H s i)) (t : ℕ)
    (hX : ∀ u ≤ t, t < u + N → c (X u i) (X' u i)) : c (macY N H X t i) (macY N H X' t i) :=
  accum_lin h N fun s hs => h.mul' _ _ _ (hH _ (Nat.mod_lt _ (by omega)))
    (slotAt_lin h N (t + 1) (fun u hu hu2 => hX u (by omega) (by omega)) s hs)

/-- Related filters, the same input, all numbers being coefficients. -/
theorem macY_lin' (h : LinRel A k kr r c) (hk : ∀ z, k z) {N : ℕ} {H H' X : ℕ → ℕ → C} {i : ℕ}
    (hH : ∀ s < N, c (H s i) (H' s i)) (t : ℕ) : c (macY N H X t i) (macY N H' X t i) :=
  accum_lin h N fun s hs => h.mul _ _ _ (hk _) (hH _ (Nat.mod_lt _ (by omega)))

theorem olaOutG_lin (h : LinRel A k kr r c) {a : ℕ} (hw : TwCoef A k (a + 1)) (hs : kr (A.invSize (2 ^ (a + 1))))
    {Y Y' : ℕ → ℕ → C} {t : ℕ} (hY : ∀ u ≤ t, t ≤ u + 1 → ∀ i ≤ 2 ^ (a + 1) / 2, c (Y u i) (Y' u i)) {i : ℕ}
    (hi : i < 2 ^ a) : r (olaOutG A a Y t i) (olaOutG A a Y' t i) := by
  have hp : 2 ^ (a + 1) = 2 ^ a + 2 ^ a := by rw [pow_succ]; ring
  refine h.addR _ _ _ _ (specOutG_lin h hw hs (hY t le_rfl (by omega)) (by omega)) ?_
  split
  · exact specOutG_lin h hw hs (hY _ (by omega) (by omega)) (by omega)
  · exact h.zeroR

theorem olsOutG_lin (h : LinRel A k kr r c) {a : ℕ} (hw : TwCoef A k (a + 1)) (hs : kr (A.invSize (2 ^ (a + 1))))
    {Y Y' : ℕ → ℕ → C} {t : ℕ} (hY : ∀ i ≤ 2 ^ (a + 1) / 2, c (Y t i) (Y' t i)) {i : ℕ} (hi : i < 2 ^ a) :
    r (olsOutG A a Y t i) (olsOutG A a Y' t i) := by
  have hp : 2 ^ (a + 1) = 2 ^ a + 2 ^ a := by rw [pow_succ]; ring
  exact specOutG_lin h hw hs hY (by omega)

/-! ## Negation -/

variable {f : Fmt}

theorem FVal.neg_add' (a b : FVal) : a.neg.add b.neg = (a.add b).neg := by
  cases a <;> cases b <;> simp only [FVal.neg, FVal.add]
  · congr 1; ring
  · rename_i s t
    cases s <;> cases t <;> rfl

theorem FVal.neg_sub' (a b : FVal) : a.neg.sub b.neg = (a.sub b).neg := FVal.neg_add' a b.neg

theorem FVal.mul_neg' (a b : FVal) : a.mul b.neg = (a.mul b).neg := by
  rw [FVal.mul_comm', FVal.neg_mul, FVal.mul_comm']

/-- Both parts with the opposite sign. -/
noncomputable def IC.opp (z : IC f) : IC f := ⟨z.re.neg, z.im.neg⟩
/-- The opposite sign. -/
noncomputable def IR.opp (x : IR f) : IR f := ⟨x.val.neg⟩
/-- Both parts with the opposite sign. -/
noncomputable def SC.opp (z : SC f) : SC f := ⟨z.re.neg, z.im.neg⟩

theorem FVal.neg_zero' : (FVal.fin 0).neg = .fin 0 := congrArg FVal.fin neg_zero

theorem IC.mul_opp (w z : IC f) : w * z.opp = (w * z).opp := by
  show IC.mk (f.round ((f.round (w.re.mul z.re.neg)).sub (f.round (w.im.mul z.im.neg))))
    (f.round ((f.round (w.re.mul z.im.neg)).add (f.round (w.im.mul z.re.neg))))
    = IC.mk (f.round ((f.round (w.re.mul z.re)).sub (f.round (w.im.mul z.im)))).neg
      (f.round ((f.round (w.re.mul z.im)).add (f.round (w.im.mul z.re)))).neg
  rw [FVal.mul_neg', FVal.mul_neg', FVal.mul_neg', FVal.mul_neg', Fmt.round_neg, Fmt.round_neg, Fmt.round_neg, Fmt.round_neg,
    FVal.neg_sub', FVal.neg_add', Fmt.round_neg, Fmt.round_neg]

theorem ieee_opp (tw : ℕ → ℕ → Direction → IC f) :
    LinRel (ieeeArith f tw) (fun _ => True) (fun _ => True) (fun x x' => x' = x.opp) (fun z z' => z' = z.opp) where
  zeroR := IR.ext FVal.neg_zero'.symm
  zeroC := IC.ext FVal.neg_zero'.symm FVal.neg_zero'.symm
  addR x x' y y' hx hy := by
    rw [hx, hy]
    exact IR.ext ((congrArg f.round (FVal.neg_add' _ _)).trans (Fmt.round_neg _))
  mulR x x' y _ hx := by
    rw [hx]
    exact IR.ext ((congrArg f.round (FVal.neg_mul _ _)).trans (Fmt.round_neg _))
  add x x' y y' hx hy := by
    rw [hx, hy]
    exact IC.ext ((congrArg f.round (FVal.neg_add' _ _)).trans (Fmt.round_neg _))
      ((congrArg f.round (FVal.neg_add' _ _)).trans (Fmt.round_neg _))
  sub x x' y y' hx hy := by
    rw [hx, hy]
    exact IC.ext ((congrArg f.round (FVal.neg_sub' _ _)).trans (Fmt.round_neg _))
      ((congrArg f.round (FVal.neg_sub' _ _)).trans (Fmt.round_neg _))
  mul w x x' _ hx := by rw [hx, IC.mul_opp]
  mul' w x x' _ hx := by rw [hx, IC.mul_comm', IC.mul_opp, IC.mul_comm']
  ofReal x x' hx := by
    rw [hx]
    exact IC.ext rfl FVal.neg_zero'.symm
  conj x x' hx := by rw [hx]; rfl
  realPart x x' hx := by rw [hx]; rfl

theorem boxInf_neg (v : FVal) : boxInf v.neg = (boxInf v).neg := by
  cases v with
  | inf s => cases s <;> simp [boxInf, FVal.neg]
  | fin x => exact FVal.neg_zero'.symm
  | nan => exact FVal.neg_zero'.symm

theorem dropNan_neg (v : FVal) : dropNan v.neg = (dropNan v).neg := by
  cases v with
  | inf s => rfl
  | fin x => rfl
  | nan => exact FVal.neg_zero'.symm

theorem isInfF_neg (v : FVal) : isInfF v.neg = isInfF v := by cases v <;> rfl
theorem isNanF_neg (v : FVal) : isNanF v.neg = isNanF v := by cases v <;> rfl

theorem annexRecover_opp (w z : SC f) : annexRecover f w z.opp = (annexRecover f w z).opp := by
  unfold annexRecover
  have e1 : ∀ p : Bool, (if p then boxInf z.opp.re else dropNan z.opp.re) = (if p then boxInf z.re else dropNan z.re).neg := by
    intro p
    cases p
    · exact dropNan_neg _
    · exact boxInf_neg _
  have e2 : ∀ p : Bool, (if p then boxInf z.opp.im else dropNan z.opp.im) = (if p then boxInf z.im else dropNan z.im).neg := by
    intro p
    cases p
    · exact dropNan_neg _
    · exact boxInf_neg _
  have i1 : isInfF z.opp.re = isInfF z.re := isInfF_neg _
  have i2 : isInfF z.opp.im = isInfF z.im := isInfF_neg _
  dsimp only
  rw [e1, e2, i1, i2]
  simp only [FVal.mul_neg', Fmt.round_neg, FVal.neg_sub', FVal.neg_add']
  rfl

theorem SC.mul_opp (w z : SC f) : w * z.opp = (w * z).opp := by
  show annexMul w z.opp = (annexMul w z).opp
  unfold annexMul
  have e1 : z.opp.re = z.re.neg := rfl
  have e2 : z.opp.im = z.im.neg := rfl
  dsimp only
  rw [annexRecover_opp, e1, e2]
  simp only [FVal.mul_neg', Fmt.round_neg, FVal.neg_sub', FVal.neg_add', isInfF_neg, isNanF_neg]
  split
  · split <;> rfl
  · rfl

theorem std_opp (tw : ℕ → ℕ → Direction → IC f) :
    LinRel (stdArith f tw) (fun _ => True) (fun _ => True) (fun x x' => x' = x.opp) (fun z z' => z' = z.opp) where
  zeroR := IR.ext FVal.neg_zero'.symm
  zeroC := SC.ext FVal.neg_zero'.symm FVal.neg_zero'.symm
  addR := (ieee_opp tw).addR
  mulR := (ieee_opp tw).mulR
  add x x' y y' hx hy := by
    rw [hx, hy]
    exact SC.ext ((congrArg f.round (FVal.neg_add' _ _)).trans (Fmt.round_neg _))
      ((congrArg f.round (FVal.neg_add' _ _)).trans (Fmt.round_neg _))
  sub x x' y y' hx hy := by
    rw [hx, hy]
    exact SC.ext ((congrArg f.round (FVal.neg_sub' _ _)).trans (Fmt.round_neg _))
      ((congrArg f.round (FVal.neg_sub' _ _)).trans (Fmt.round_neg _))
  mul w x x' _ hx := by rw [hx, SC.mul_opp]
  mul' w x x' _ hx := by rw [hx, SC.mul_comm', SC.mul_opp, SC.mul_comm']
  ofReal x x' hx := by
    rw [hx]
    exact SC.ext rfl FVal.neg_zero'.symm
  conj x x' hx := by rw [hx]; rfl
  realPart x x' hx := by rw [hx]; rfl

/-! ## Zero -/

theorem round_zero' (f : Fmt) : f.round (.fin 0) = .fin 0 := by
  rw [round_fin_of_lt (by rw [rndInf_zero, abs_zero]; positivity), rndInf_zero]

/-- Both parts are finite. -/
def IC.Finite (z : IC f) : Prop := (∃ x, z.re = .fin x) ∧ ∃ y, z.im = .fin y

theorem ieee_zero (tw : ℕ → ℕ → Direction → IC f) :
    LinRel (ieeeArith f tw) IC.Finite (fun x => ∃ y, x.val = .fin y) (fun x _ => x = 0) (fun z _ => z = 0) where
  zeroR := rfl
  zeroC := rfl
  addR x x' y y' hx hy := by
    rw [hx, hy]
    exact IR.ext ((congrArg f.round (congrArg FVal.fin (add_zero (0 : ℝ)))).trans (round_zero' f) :
      f.round (FVal.add (.fin 0) (.fin 0)) = .fin 0)
  mulR x x' y hy hx := by
    obtain ⟨v, hv⟩ := hy
    rw [hx]
    refine IR.ext ((congrArg f.round ?_).trans (round_zero' f))
    show FVal.mul (.fin 0) y.val = _
    rw [hv]
    exact congrArg FVal.fin (zero_mul v)
  add x x' y y' hx hy := by
    rw [hx, hy]
    have e : f.round (FVal.add (.fin 0) (.fin 0)) = .fin 0 :=
      (congrArg f.round (congrArg FVal.fin (add_zero 0))).trans (round_zero' f)
    exact IC.ext e e
  sub x x' y y' hx hy := by
    rw [hx, hy]
    have e : f.round (FVal.sub (.fin 0) (.fin 0)) = .fin 0 := by
      show f.round (.fin (0 + -0)) = _
      rw [neg_zero, add_zero, round_zero']
    exact IC.ext e e
  mul w x x' hw hx := by
    obtain ⟨⟨a, ha⟩, ⟨b, hb⟩⟩ := hw
    rw [hx]
    show IC.mk (f.round ((f.round (w.re.mul (.fin 0))).sub (f.round (w.im.mul (.fin 0)))))
      (f.round ((f.round (w.re.mul (.fin 0))).add (f.round (w.im.mul (.fin 0))))) = ⟨.fin 0, .fin 0⟩
    rw [ha, hb]
    show IC.mk (f.round ((f.round (.fin (a * 0))).sub (f.round (.fin (b * 0)))))
      (f.round ((f.round (.fin (a * 0))).add (f.round (.fin (b * 0))))) = ⟨.fin 0, .fin 0⟩
    rw [mul_zero, mul_zero, round_zero']
    show IC.mk (f.round (.fin (0 + -0))) (f.round (.fin (0 + 0))) = ⟨.fin 0, .fin 0⟩
    rw [neg_zero, add_zero, round_zero']
  mul' w x x' hw hx := by
    rw [IC.mul_comm', hx]
    obtain ⟨⟨a, ha⟩, ⟨b, hb⟩⟩ := hw
    show IC.mk (f.round ((f.round (w.re.mul (.fin 0))).sub (f.round (w.im.mul (.fin 0)))))
      (f.round ((f.round (w.re.mul (.fin 0))).add (f.round (w.im.mul (.fin 0))))) = ⟨.fin 0, .fin 0⟩
    rw [ha, hb]
    show IC.mk (f.round ((f.round (.fin (a * 0))).sub (f.round (.fin (b * 0)))))
      (f.round ((f.round (.fin (a * 0))).add (f.round (.fin (b * 0))))) = ⟨.fin 0, .fin 0⟩
    rw [mul_zero, mul_zero, round_zero']
    show IC.mk (f.round (.fin (0 + -0))) (f.round (.fin (0 + 0))) = ⟨.fin 0, .fin 0⟩
    rw [neg_zero, add_zero, round_zero']
  ofReal x x' hx := by rw [hx]; rfl
  conj x x' hx := by
    rw [hx]
    exact IC.ext rfl FVal.neg_zero'
  realPart x x' hx := by rw [hx]; rfl

/-- Both parts are finite. -/
def SC.Finite (z : SC f) : Prop := (∃ x, z.re = .fin x) ∧ ∃ y, z.im = .fin y

theorem SC.mul_zero_finite {w : SC f} (hw : w.Finite) : w * 0 = 0 := by
  obtain ⟨⟨a, ha⟩, ⟨b, hb⟩⟩ := hw
  have r1 : f.round (w.re.mul (.fin 0)) = .fin 0 := by
    rw [ha]
    exact (congrArg f.round (congrArg FVal.fin (mul_zero a))).trans (round_zero' f)
  have r2 : f.round (w.im.mul (.fin 0)) = .fin 0 := by
    rw [hb]
    exact (congrArg f.round (congrArg FVal.fin (mul_zero b))).trans (round_zero' f)
  have s1 : f.round ((FVal.fin 0).sub (.fin 0)) = .fin 0 := by
    show f.round (.fin (0 + -0)) = _
    rw [neg_zero, add_zero, round_zero']
  have s2 : f.round ((FVal.fin 0).add (.fin 0)) = .fin 0 :=
    (congrArg f.round (congrArg FVal.fin (add_zero 0))).trans (round_zero' f)
  have z1 : (0 : SC f).re = .fin 0 := rfl
  have z2 : (0 : SC f).im = .fin 0 := rfl
  show annexMul w 0 = 0
  unfold annexMul
  dsimp only
  rw [z1, z2, r1, r2, s1, s2]
  rfl

theorem std_zero (tw : ℕ → ℕ → Direction → IC f) :
    LinRel (stdArith f tw) SC.Finite (fun x => ∃ y, x.val = .fin y) (fun x _ => x = 0) (fun z _ => z = 0) where
  zeroR := rfl
  zeroC := rfl
  addR := (ieee_zero tw).addR
  mulR := (ieee_zero tw).mulR
  add x x' y y' hx hy := by
    rw [hx, hy]
    have e : f.round (FVal.add (.fin 0) (.fin 0)) = .fin 0 :=
      (congrArg f.round (congrArg FVal.fin (add_zero 0))).trans (round_zero' f)
    exact SC.ext e e
  sub x x' y y' hx hy := by
    rw [hx, hy]
    have e : f.round (FVal.sub (.fin 0) (.fin 0)) = .fin 0 := by
      show f.round (.fin (0 + -0)) = _
      rw [neg_zero, add_zero, round_zero']
    exact SC.ext e e
  mul w x x' hw hx := by rw [hx, SC.mul_zero_finite hw]
  mul' w x x' hw hx := by rw [SC.mul_comm', hx, SC.mul_zero_finite hw]
  ofReal x x' hx := by rw [hx]; rfl
  conj x x' hx := by
    rw [hx]
    exact SC.ext rfl FVal.neg_zero'
  realPart x x' hx := by rw [hx]; rfl

/-! ## Real bins -/

/-- Zero or not finite. -/
def Spec.FVal.ZeroOrBad (v : FVal) : Prop := v = .fin 0 ∨ v.NonFinite

theorem Spec.FVal.ZeroOrBad.add {a b : FVal} (ha : a.ZeroOrBad) (hb : b.ZeroOrBad) : (f.round (a.add b)).ZeroOrBad := by
  rcases ha with rfl | ha
  · rcases hb with rfl | hb
    · exact .inl ((congrArg f.round (congrArg FVal.fin (add_zero 0))).trans (round_zero' f))
    · exact .inr (Fmt.round_nonFinite (FVal.add_nonFinite_right hb _))
  · exact .inr (Fmt.round_nonFinite (FVal.add_nonFinite_left ha _))

theorem Spec.FVal.ZeroOrBad.neg {a : FVal} (ha : a.ZeroOrBad) : a.neg.ZeroOrBad := by
  rcases ha with rfl | ha
  · exact .inl FVal.neg_zero'
  · exact .inr (FVal.neg_nonFinite.2 ha)

theorem IC.one_mul_im {z : IC f} (hz : z.im.ZeroOrBad) : ((⟨.fin 1, .fin 0⟩ : IC f) * z).im.ZeroOrBad := by
  show (f.round ((f.round ((FVal.fin 1).mul z.im)).add (f.round ((FVal.fin 0).mul z.re)))).ZeroOrBad
  apply FVal.ZeroOrBad.add
  · rcases hz with h | h
    · rw [h]
      exact .inl ((congrArg f.round (congrArg FVal.fin (mul_zero 1))).trans (round_zero' f))
    · exact .inr (Fmt.round_nonFinite (FVal.mul_nonFinite_right h _))
  · by_cases h : ∃ x, z.re = .fin x
    · obtain ⟨x, hx⟩ := h
      rw [hx]
      exact .inl ((congrArg f.round (congrArg FVal.fin (zero_mul x))).trans (round_zero' f))
    · exact .inr (Fmt.round_nonFinite (FVal.mul_nonFinite_right (fun x hx => h ⟨x, hx⟩) _))

theorem ditRun_real {b : ℕ} {w x : ℕ → IC f} (hw : w 0 = ⟨.fin 1, .fin 0⟩) (hx : ∀ n, (x n).im.ZeroOrBad) (s : ℕ) :
    ∀ n, n % 2 ^ s = 0 → (ditRun b w x (s + 1) n).im.ZeroOrBad := by
  induction s with
  | zero =>
    intro n _
    unfold ditRun
    rw [if_pos rfl]
    unfold pairStage
    split
    · exact (hx _).add (hx _)
    · exact (hx _).add (hx _).neg
  | succ s ih =>
    intro n hn
    have hd : 2 ^ s ∣ 2 ^ (s + 1) := pow_dvd_pow 2 (Nat.le_succ s)
    have hn' : n % 2 ^ s = 0 := by
      rw [← Nat.mod_mod_of_dvd n hd, hn, Nat.zero_mod]
    have e : n % 2 ^ (s + 1) * 2 ^ (b - (s + 1) - 1) = 0 := by rw [hn, zero_mul]
    rw [ditRun_succ (by omega)]
    unfold pairStage
    split
    · beta_reduce
      rw [e, hw]
      refine (ih n hn').add (IC.one_mul_im (ih _ ?_))
      rw [Nat.add_mod, hn', (Nat.dvd_iff_mod_eq_zero).1 hd]
      rfl
    · beta_reduce
      rw [e, hw]
      refine (ih _ ?_).add (IC.one_mul_im (ih n hn')).neg
      exact (Nat.dvd_iff_mod_eq_zero).1 (Nat.dvd_sub ((Nat.dvd_iff_mod_eq_zero).2 hn') hd)

end Neo
