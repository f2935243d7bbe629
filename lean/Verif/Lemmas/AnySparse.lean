import Verif.Model.AnySparse
import Verif.Lemmas.ArithRel
import Verif.Lemmas.NonFinite
import Verif.Lemmas.IeeeConv

/-! # Sparse convolvers over any arithmetic -/

namespace Neo

open Spec

/-! ## Closed form -/

section any
variable {R C : Type} [Zero R] [Add R] [Mul R] [Zero C] [AddCommMagma C] [Sub C] [Mul C] {A : Arith R C}

/-- How a sparse filter updates the accumulator: rejected coefficients are skipped. -/
def sparseM (p : ℕ → ℕ → C → Bool) (H : ℕ → ℕ → C) (j k : ℕ) (x a : C) : C :=
  if p j k (H j k) then x * H j k + a else a

theorem sparseMac_law {v : MatView} {data : List C} (hv : v.InRange data.length) (f0 : Csr C) (p : ℕ → ℕ → C → Bool) :
    ∃ filt, sparseFilterOps.load f0 v data p = .ok filt ∧
      MacLaw sparseFilterOps v.rows v.cols (fun row f => row = vec v.cols f)
        (fun acc a => ∃ a', acc = vec v.cols a' ∧ ∀ k < v.cols, a' k = a k) filt (sparseM p (matAt v data)) := by
  obtain ⟨d, e, hd⟩ := copyMat_right hv
  obtain ⟨M, eM, -⟩ := CsrRep.ofDense v.rows v.cols
    (fun r c => (vec (v.rows * v.cols) d).getD (r * v.cols + c) 0) p
  refine ⟨M, ?_, ?_, ?_, ?_, ?_⟩
  · simp only [sparseFilterOps]
    rw [e, bind_ok, eM]
  · rintro _ f j _ a rfl hj ⟨a', rfl, ha⟩
    refine ⟨_, ?_, _, rfl, fun k _ => rfl⟩
    simp only [sparseFilterOps]
    rw [ofDense_macc_gen _ _ _ _ eM hj]
    congr 1
    apply vec_ext
    intro k hk
    have : j * v.cols + k < v.rows * v.cols := by
      have := row_end (C := v.cols) hj
      omega
    rw [getD_vec _ _ _ _ this, hd j hj k hk, sparseM, ha k hk]
  · exact ⟨_, rfl, fun _ _ => rfl⟩
  · rintro _ a ⟨a', rfl, -⟩
    exact ⟨_, fillVec_vec _ _, _, rfl, fun _ _ => rfl⟩
  · rintro _ a g ⟨a', rfl, ha⟩
    simp only [sparseFilterOps]
    rw [copyVec_vec]
    exact congrArg _ (vec_ext ha)

theorem sparse_run_gen {Ov : Type} {oo : OverlapOps Ov R C} {B : ℕ}
    {fwd : (ℕ → R) → ℕ → ℕ → C} {outF : (ℕ → ℕ → C) → ℕ → ℕ → R} {OI : (ℕ → R) → (ℕ → ℕ → C) → ℕ → Ov → Prop}
    (ho : OverlapLaw oo B fwd outF OI) (hmk : ∃ o, oo.make 1 1 = .ok o) {v : MatView}
    {data : List C} (hv : v.InRange data.length) (hr : 1 ≤ v.rows) (hc : v.cols = B + 1)
    (p : ℕ → ℕ → C → Bool) (f0 : Csr C) (blocks : List (List R)) (hlen : ∀ b ∈ blocks, b.length = B) :
    Upc.run oo denseFdlOps sparseFilterOps f0 v data p blocks
      = .ok (vec blocks.length (fun t => vec B (outF
          (macM v.rows (sparseM p (matAt v data)) (fwd (fun i => blocks.flatten.getD i 0))) t))) := by
  obtain ⟨o, eo⟩ := hmk
  unfold Upc.run Upc.make
  rw [eo, bind_ok, pure_eq_ok, bind_ok]
  obtain ⟨u0, e0, u', e'⟩ := upc_run_mac (N := v.rows) hr ho (denseFdl_law v.rows (B + 1))
    (po := sparseFilterOps) (Upc.mk o (denseFdlOps.make 0 0) (FdlIndex.make 0) f0
      (sparseFilterOps.accMake 0)) v data p rfl hc (m := sparseM p (matAt v data))
    (AR := fun acc a => ∃ a', acc = vec (B + 1) a' ∧ ∀ k < B + 1, a' k = a k)
    (fun f0 => by
      have := sparseMac_law hv f0 p
      rw [hc] at this
      exact this) blocks hlen
  rw [e0, bind_ok, e', bind_ok]
  rfl

theorem sparseUpolaRunG_eq {a : ℕ} (ha : 1 ≤ a) (ha2 : a ≤ 26) {v : MatView} {data : List C}
    (hv : v.InRange data.length) (hr : 1 ≤ v.rows) (hc : v.cols = 2 ^ a + 1) (p : ℕ → ℕ → C → Bool)
    (blocks : List (List R)) (hlen : ∀ b ∈ blocks, b.length = 2 ^ a) :
    sparseUpolaRunG A v data p blocks = .ok (vec blocks.length (fun t => vec (2 ^ a) (olaOutG A a
      (macM v.rows (sparseM p (matAt v data))
        (winSpecG A a (seg (2 ^ a)) (fun i => blocks.flatten.getD i 0))) t))) :=
  sparse_run_gen (olaG_law ha ha2) ⟨_, overlapAddG_make_eq (B := 1) (L := 1) (by norm_num)⟩ hv hr hc p _ blocks hlen

theorem sparseUpolsRunG_eq {a : ℕ} (ha : 1 ≤ a) (ha2 : a ≤ 26) {v : MatView} {data : List C}
    (hv : v.InRange data.length) (hr : 1 ≤ v.rows) (hc : v.cols = 2 ^ a + 1) (p : ℕ → ℕ → C → Bool)
    (blocks : List (List R)) (hlen : ∀ b ∈ blocks, b.length = 2 ^ a) :
    sparseUpolsRunG A v data p blocks = .ok (vec blocks.length (fun t => vec (2 ^ a) (olsOutG A a
      (macM v.rows (sparseM p (matAt v data))
        (winSpecG A a (saveWindow (2 ^ a)) (fun i => blocks.flatten.getD i 0))) t))) :=
  sparse_run_gen (olsG_law ha ha2) ⟨_, overlapSaveG_make_eq (B := 1) (L := 1) (by norm_num)⟩ hv hr hc p _ blocks hlen

/-! ## Memory -/

/-- Two filters that keep the same coefficients of a bin, and inputs that agree wherever one is kept, give the same sum. -/
theorem macM_sparse_congr {N : ℕ} {p p' : ℕ → ℕ → C → Bool} {H H' X X' : ℕ → ℕ → C} {t k : ℕ}
    (hp : ∀ j < N, p j k (H j k) = p' j k (H' j k)) (hH : ∀ j < N, p j k (H j k) → H j k = H' j k)
    (hX : ∀ j < N, j ≤ t → p j k (H j k) → X (t - j) k = X' (t - j) k) :
    macM N (sparseM p H) X t k = macM N (sparseM p' H') X' t k := by
  have h : ∀ n ≤ N, macFold N (sparseM p H) X t k n = macFold N (sparseM p' H') X' t k n := by
    intro n
    induction n with
    | zero => intro _; rfl
    | succ n ih =>
      intro hn
      have hj : (t % N + N - n) % N < N := Nat.mod_lt _ (by omega)
      simp only [macFold]
      rw [ih (by omega), slotAt_eq X t (by omega), slotAt_eq X' t (by omega)]
      unfold sparseM
      rw [← hp _ hj]
      split
      · rename_i c
        rw [← hH _ hj c]
        split
        · rename_i c2
          rw [hX _ hj c2 c]
        · rfl
      · rfl
  exact h N le_rfl

/-- Everything kept: the dense sum. -/
theorem macM_sparse_all {N : ℕ} {p : ℕ → ℕ → C → Bool} {H X : ℕ → ℕ → C} {t k : ℕ}
    (hp : ∀ j < N, p j k (H j k) = true) : macM N (sparseM p H) X t k = macY N H X t k := by
  rw [← macM_eq_macY]
  have h : ∀ n ≤ N, macFold N (sparseM p H) X t k n = macFold N (fun j k x a => a + x * H j k) X t k n := by
    intro n
    induction n with
    | zero => intro _; rfl
    | succ n ih =>
      intro hn
      have hj : (t % N + N - n) % N < N := Nat.mod_lt _ (by omega)
      simp only [macFold]
      rw [ih (by omega)]
      unfold sparseM
      rw [if_pos (hp _ hj), add_comm]
  exact h N le_rfl

theorem specOutG_congr {b : ℕ} {Y Y' : ℕ → C} (h : ∀ k ≤ 2 ^ b / 2, Y k = Y' k) {n : ℕ} (hn : n < 2 ^ b) :
    specOutG A b Y n = specOutG A b Y' n :=
  specOutG_rel (A := A) (A' := A) (r := Eq) (c := Eq)
    { zeroR := rfl, zeroC := rfl, addR := by intros; simp_all, mulR := by intros; simp_all, add := by intros; simp_all,
      sub := by intros; simp_all, mul := by intros; simp_all, ofReal := fun _ => rfl, conj := by intros; simp_all,
      realPart := by intros; simp_all, invSize := fun _ => rfl, twiddle := fun _ _ _ => rfl } h hn

theorem olaOutG_congr {a : ℕ} {Y Y' : ℕ → ℕ → C} {t : ℕ} (h : ∀ k ≤ 2 ^ a, Y t k = Y' t k)
    (h' : 1 ≤ t → ∀ k ≤ 2 ^ a, Y (t - 1) k = Y' (t - 1) k) {i : ℕ} (hi : i < 2 ^ a) :
    olaOutG A a Y t i = olaOutG A a Y' t i := by
  have hp : 2 ^ (a + 1) = 2 ^ a + 2 ^ a := by rw [pow_succ]; ring
  unfold olaOutG
  rw [specOutG_congr (Y := Y t) (Y' := Y' t) (fun k hk => h k (by omega)) (by omega)]
  split
  · rename_i c
    rw [specOutG_congr (Y := Y (t - 1)) (Y' := Y' (t - 1)) (fun k hk => h' c k (by omega)) (by omega)]
  · rfl

theorem olsOutG_congr {a : ℕ} {Y Y' : ℕ → ℕ → C} {t : ℕ} (h : ∀ k ≤ 2 ^ a, Y t k = Y' t k) {i : ℕ} (hi : i < 2 ^ a) :
    olsOutG A a Y t i = olsOutG A a Y' t i := by
  have hp : 2 ^ (a + 1) = 2 ^ a + 2 ^ a := by rw [pow_succ]; ring
  exact specOutG_congr (Y := Y t) (Y' := Y' t) (fun k hk => h k (by omega)) (by omega)

end any


/-! ## Infinities and NaN -/

section nonfin
variable {f : Fmt} {tw : ℕ → ℕ → Direction → IC f}

/-- A bad product of a kept coefficient spoils its bin. -/
theorem macM_sparse_bad {bad : IC f → Prop} (h : Absorbing bad) {N : ℕ} {p : ℕ → ℕ → IC f → Bool} {H X : ℕ → ℕ → IC f}
    {t s k : ℕ} (hs : s < N) (hk : p ((t % N + N - s) % N) k (H ((t % N + N - s) % N) k) = true)
    (h0 : bad (slotAt X N (t + 1) s k * H ((t % N + N - s) % N) k)) : bad (macM N (sparseM p H) X t k) := by
  have key : ∀ n, s < n → bad (macFold N (sparseM p H) X t k n) := by
    intro n
    induction n with
    | zero => omega
    | succ n ih =>
      intro hn
      simp only [macFold]
      unfold sparseM
      by_cases c : s = n
      · subst c
        rw [if_pos hk]
        exact h.add_left _ _ h0
      · have := ih (by omega)
        split
        · exact h.add_right _ _ this
        · exact this
  exact key N hs

/-- A spectrum with a bin of which both parts are NaN gives NaN everywhere. -/
theorem specOutG_nan_bin {b k : ℕ} {Y : ℕ → IC f} (hk : k ≤ 2 ^ b / 2) (hY : (Y k).Full) {n : ℕ} (hn : n < 2 ^ b) :
    specOutG (ieeeArith f tw) b Y n = ⟨.nan⟩ := by
  have hpos : 0 < 2 ^ b := by positivity
  have h : IC.Full (ditGn (ieeeArith f tw) b .backward (hermG (ieeeArith f tw) b Y) n) := by
    refine ditGn_bad IC.full_absorbing .backward (hermG (ieeeArith f tw) b Y) (i0 := k) (by omega) ?_ hn
    unfold hermG
    rw [if_pos hk]
    exact hY
  show (⟨f.round ((ditGn (ieeeArith f tw) b .backward (hermG (ieeeArith f tw) b Y) n).re.mul _)⟩ : IR f) = _
  rw [h.1, FVal.nan_mul]
  rfl

variable {a N : ℕ} {p : ℕ → ℕ → IC f → Bool} {H : ℕ → ℕ → IC f}

/-- A window with a non-finite sample in step `u` spoils the kept bins of partition `j` in step `u + j`. -/
theorem macM_sparse_nonFinite {win : (ℕ → IR f) → ℕ → ℕ → IR f} {x : ℕ → IR f} {u j k i0 : ℕ} (hj : j < N)
    (hk : k ≤ 2 ^ a) (hp : p j k (H j k) = true) (hi : i0 < 2 ^ (a + 1)) (h0 : (win x u i0).val.NonFinite) :
    (macM N (sparseM p H) (winSpecG (ieeeArith f tw) a win x) (u + j) k).Inf2 := by
  have hlt : ∀ m, m % N < N := fun m => Nat.mod_lt _ (by omega)
  have hpow : 2 ^ (a + 1) = 2 ^ a + 2 ^ a := by rw [pow_succ]; ring
  have hpos : 0 < 2 ^ a := by positivity
  refine macM_sparse_bad IC.inf2_absorbing (s := ((u + j) % N + N - j) % N) (hlt _) ?_ ?_
  · rw [slot_invol (u + j) hj]; exact hp
  · rw [slot_invol (u + j) hj, slotAt_age _ (u + j) j hj, if_pos (by omega), Nat.add_sub_cancel]
    exact IC.mul_inf_left (Or.inl (ditGn_re .forward _ hi h0 (by omega)))

theorem macM_sparse_nan {win : (ℕ → IR f) → ℕ → ℕ → IR f} {x : ℕ → IR f} {u j k i0 : ℕ} (hj : j < N)
    (hk : k ≤ 2 ^ a) (hp : p j k (H j k) = true) (hi : i0 < 2 ^ (a + 1)) (h0 : win x u i0 = ⟨.nan⟩) :
    (macM N (sparseM p H) (winSpecG (ieeeArith f tw) a win x) (u + j) k).Full := by
  have hlt : ∀ m, m % N < N := fun m => Nat.mod_lt _ (by omega)
  have hpow : 2 ^ (a + 1) = 2 ^ a + 2 ^ a := by rw [pow_succ]; ring
  have hpos : 0 < 2 ^ a := by positivity
  refine macM_sparse_bad IC.full_absorbing (s := ((u + j) % N + N - j) % N) (hlt _) ?_ ?_
  · rw [slot_invol (u + j) hj]; exact hp
  · rw [slot_invol (u + j) hj, slotAt_age _ (u + j) j hj, if_pos (by omega), Nat.add_sub_cancel]
    exact IC.mul_full_left (rfftGn_nan hi h0 (by omega))

/-- A kept coefficient that is not finite spoils its bin in every step. -/
theorem macM_sparse_filter {X : ℕ → ℕ → IC f} {j k : ℕ} (hj : j < N) (hp : p j k (H j k) = true) (h0 : (H j k).Inf)
    (t : ℕ) : (macM N (sparseM p H) X t k).Inf2 := by
  refine macM_sparse_bad IC.inf2_absorbing (s := (t % N + N - j) % N) (Nat.mod_lt _ (by omega)) ?_ ?_
  · rw [slot_invol t hj]; exact hp
  · rw [slot_invol t hj]; exact IC.mul_inf_right h0

/-- Overlap-add: a bin without finite parts in step `t` spoils the blocks `t` and `t + 1`. -/
theorem olaOutG_inf2 {Y : ℕ → ℕ → IC f} {t k : ℕ} (hk : k ≤ 2 ^ a) (hY : (Y t k).Inf2) {i : ℕ} (hi : i < 2 ^ a) :
    (olaOutG (ieeeArith f tw) a Y t i).val.NonFinite ∧ (olaOutG (ieeeArith f tw) a Y (t + 1) i).val.NonFinite := by
  have hpow : 2 ^ (a + 1) = 2 ^ a + 2 ^ a := by rw [pow_succ]; ring
  constructor
  · exact Fmt.round_nonFinite (FVal.add_nonFinite_left (specOutG_nonFinite (k := k) (by omega) hY (by omega)) _)
  · unfold olaOutG
    rw [if_pos (by omega)]
    exact Fmt.round_nonFinite (FVal.add_nonFinite_right
      (specOutG_nonFinite (k := k) (Y := Y t) (n := 2 ^ a + i) (by omega) hY (by omega)) _)

theorem olaOutG_full {Y : ℕ → ℕ → IC f} {t k : ℕ} (hk : k ≤ 2 ^ a) (hY : (Y t k).Full) {i : ℕ} (hi : i < 2 ^ a) :
    olaOutG (ieeeArith f tw) a Y t i = ⟨.nan⟩ ∧ olaOutG (ieeeArith f tw) a Y (t + 1) i = ⟨.nan⟩ := by
  have hpow : 2 ^ (a + 1) = 2 ^ a + 2 ^ a := by rw [pow_succ]; ring
  unfold olaOutG
  constructor
  · rw [specOutG_nan_bin (k := k) (by omega) hY (by omega)]
    exact congrArg IR.mk (by rw [FVal.nan_add]; rfl)
  · rw [if_pos (by omega), Nat.add_sub_cancel,
      specOutG_nan_bin (k := k) (Y := Y t) (n := 2 ^ a + i) (by omega) hY (by omega)]
    exact congrArg IR.mk (by rw [FVal.add_nan]; rfl)

/-! ## Comparison with the thresholded dense filter -/

/-- The same value wherever the first one is finite. -/
def OneR (x x' : IR f) : Prop := x.val = x'.val ∨ x.val.NonFinite

/-- The same parts wherever the first one is finite. -/
def OneC (z z' : IC f) : Prop := (z.re = z'.re ∨ z.re.NonFinite) ∧ (z.im = z'.im ∨ z.im.NonFinite)

theorem OneC.refl (z : IC f) : OneC z z := ⟨Or.inl rfl, Or.inl rfl⟩

theorem one_add {x x' y y' : FVal} (hx : x = x' ∨ x.NonFinite) (hy : y = y' ∨ y.NonFinite) :
    f.round (x.add y) = f.round (x'.add y') ∨ (f.round (x.add y)).NonFinite := by
  rcases hx with rfl | hx
  · rcases hy with rfl | hy
    · exact Or.inl rfl
    · exact Or.inr (Fmt.round_nonFinite (FVal.add_nonFinite_right hy _))
  · exact Or.inr (Fmt.round_nonFinite (FVal.add_nonFinite_left hx _))

theorem one_neg {x x' : FVal} (hx : x = x' ∨ x.NonFinite) : x.neg = x'.neg ∨ x.neg.NonFinite := by
  rcases hx with rfl | hx
  · exact Or.inl rfl
  · exact Or.inr (FVal.neg_nonFinite.2 hx)

theorem OneC.mul {x x' y y' : IC f} (hx : OneC x x') (hy : OneC y y') : OneC (x * y) (x' * y') := by
  by_cases c : x.Inf ∨ y.Inf
  · have h : (x * y).Inf2 := c.elim IC.mul_inf_left IC.mul_inf_right
    exact ⟨Or.inr h.1, Or.inr h.2⟩
  · have c1 : ¬ x.Inf := fun h => c (Or.inl h)
    have c2 : ¬ y.Inf := fun h => c (Or.inr h)
    have ex : x = x' := IC.ext (hx.1.resolve_right fun h => c1 (Or.inl h)) (hx.2.resolve_right fun h => c1 (Or.inr h))
    have ey : y = y' := IC.ext (hy.1.resolve_right fun h => c2 (Or.inl h)) (hy.2.resolve_right fun h => c2 (Or.inr h))
    rw [ex, ey]
    exact OneC.refl _

theorem one_rel (tw : ℕ → ℕ → Direction → IC f) : ArithRel (ieeeArith f tw) (ieeeArith f tw) OneR OneC where
  zeroR := Or.inl rfl
  zeroC := OneC.refl _
  addR _ _ _ _ hx hy := one_add hx hy
  mulR x x' y hx := by
    rcases hx with hx | hx
    · rw [IR.ext hx]; exact Or.inl rfl
    · exact Or.inr (Fmt.round_nonFinite (FVal.mul_nonFinite_left hx _))
  add _ _ _ _ hx hy := ⟨one_add hx.1 hy.1, one_add hx.2 hy.2⟩
  sub _ _ _ _ hx hy := ⟨one_add hx.1 (one_neg hy.1), one_add hx.2 (one_neg hy.2)⟩
  mul _ _ _ _ := OneC.mul
  ofReal _ := OneC.refl _
  conj _ _ h := ⟨h.1, one_neg h.2⟩
  realPart _ _ h := h.1
  invSize _ := rfl
  twiddle _ _ _ := OneC.refl _

theorem Fmt.round_idem (hf : f.Ieee) (v : FVal) : f.round (f.round v) = f.round v := by
  cases v with
  | fin x =>
    by_cases c : |f.rndInf x| < (2 : ℝ) ^ f.emax
    · rw [round_fin_of_lt c]
      exact round_mem (rndInf_nearest f (by have := hf.1; omega) x).1 c
    · have e : f.round (.fin x) = .inf (decide (f.rndInf x < 0)) := if_neg c
      rw [e]
      rfl
  | inf s => rfl
  | nan => rfl

theorem Fmt.round_zero (hf : f.Ieee) : f.round (.fin 0) = .fin 0 :=
  round_mem (onGrid_zero f) (by rw [abs_zero]; positivity)

/-- A finite number times zero is zero. -/
theorem IC.mul_zero' (hf : f.Ieee) {x : IC f} (h : ¬ x.Inf) : x * 0 = 0 := by
  obtain ⟨xr, xi⟩ := x
  have h1 : ∃ y, xr = .fin y := by
    by_contra c
    exact h (Or.inl fun y e => c ⟨y, e⟩)
  have h2 : ∃ y, xi = .fin y := by
    by_contra c
    exact h (Or.inr fun y e => c ⟨y, e⟩)
  obtain ⟨y, rfl⟩ := h1
  obtain ⟨z, rfl⟩ := h2
  have e : ∀ u : ℝ, f.round ((FVal.fin u).mul (.fin 0)) = .fin 0 := by
    intro u
    show f.round (.fin (u * 0)) = _
    rw [mul_zero, Fmt.round_zero hf]
  refine IC.ext ?_ ?_
  · rw [IC.mul_re]
    show f.round ((f.round ((FVal.fin y).mul (.fin 0))).sub (f.round ((FVal.fin z).mul (.fin 0)))) = .fin 0
    rw [e, e]
    show f.round (.fin (0 + -0)) = _
    rw [neg_zero, add_zero, Fmt.round_zero hf]
  · rw [IC.mul_im]
    show f.round ((f.round ((FVal.fin y).mul (.fin 0))).add (f.round ((FVal.fin z).mul (.fin 0)))) = .fin 0
    rw [e, e]
    show f.round (.fin (0 + 0)) = _
    rw [add_zero, Fmt.round_zero hf]

theorem one_add_zero {x x' : FVal} (hx : x = x' ∨ x.NonFinite) (hr : f.round x' = x') :
    f.round (x.add (.fin 0)) = x' ∨ (f.round (x.add (.fin 0))).NonFinite := by
  rcases hx with rfl | hx
  · refine Or.inl ?_
    cases x with
    | fin y =>
      show f.round (.fin (y + 0)) = _
      rw [add_zero, hr]
    | inf s => exact hr
    | nan => rfl
  · exact Or.inr (Fmt.round_nonFinite (FVal.add_nonFinite_left hx _))

/-- Where the sum with the rejected coefficients set to zero is finite, it is the sparse sum. -/
theorem macY_sparse_rel (hf : f.Ieee) (X : ℕ → ℕ → IC f) {H' : ℕ → ℕ → IC f} {k : ℕ}
    (hH : ∀ j < N, H' j k = sparsified p H j k) (t : ℕ) : OneC (macY N H' X t k) (macM N (sparseM p H) X t k) := by
  have key : ∀ n ≤ N, OneC (macFold N (fun j k x a => a + x * H' j k) X t k n) (macFold N (sparseM p H) X t k n) ∧
      f.round (macFold N (sparseM p H) X t k n).re = (macFold N (sparseM p H) X t k n).re ∧
      f.round (macFold N (sparseM p H) X t k n).im = (macFold N (sparseM p H) X t k n).im := by
    intro n
    induction n with
    | zero => intro _; exact ⟨OneC.refl _, Fmt.round_zero hf, Fmt.round_zero hf⟩
    | succ n ih =>
      intro hn
      obtain ⟨i1, i2, i3⟩ := ih (by omega)
      have hj : (t % N + N - n) % N < N := Nat.mod_lt _ (by omega)
      simp only [macFold]
      rw [hH _ hj]
      unfold sparseM sparsified
      split
      · rw [add_comm]
        exact ⟨(one_rel (f := f) (fun _ _ _ => 0)).add _ _ _ _ (OneC.refl _) i1,
          Fmt.round_idem hf _, Fmt.round_idem hf _⟩
      · refine ⟨?_, i2, i3⟩
        by_cases c : (slotAt X N (t + 1) n k).Inf
        · have h2 := IC.mul_inf_left (b := (0 : IC f)) c
          exact ⟨Or.inr (Fmt.round_nonFinite (FVal.add_nonFinite_right h2.1 _)),
            Or.inr (Fmt.round_nonFinite (FVal.add_nonFinite_right h2.2 _))⟩
        · rw [IC.mul_zero' hf c]
          exact ⟨one_add_zero i1.1 i2, one_add_zero i1.2 i3⟩
  rw [← macM_eq_macY]
  exact (key N le_rfl).1

/-! ## Silence -/

theorem ditRun_zero {C : Type} [Zero C] [Add C] [Sub C] [Mul C] (h1 : (0 : C) + 0 = 0) (h2 : (0 : C) - 0 = 0) {w : ℕ → C}
    (h3 : ∀ i, w i * 0 = 0) {b : ℕ} {x : ℕ → C} (hx : ∀ n, x n = 0) (s n : ℕ) : ditRun b w x s n = 0 := by
  induction s generalizing n with
  | zero => exact hx n
  | succ s ih =>
    by_cases c : s = 0
    · subst c
      unfold ditRun
      rw [if_pos rfl]
      unfold pairStage
      split
      · rw [hx, hx]; exact h1
      · rw [hx, hx]; exact h2
    · rw [ditRun_succ (by omega)]
      unfold pairStage
      split
      · rw [ih, ih]; beta_reduce; rw [h3, h1]
      · rw [ih, ih]; beta_reduce; rw [h3, h2]

theorem specOutG_zero (hf : f.Ieee) {b : ℕ} (hb : (b : ℤ) < f.emax) (htw : ∀ n i dir, ¬ (tw n i dir).Inf) {Y : ℕ → IC f}
    (hY : ∀ k ≤ 2 ^ b / 2, Y k = 0) {n : ℕ} (hn : n < 2 ^ b) : specOutG (ieeeArith f tw) b Y n = 0 := by
  rw [specOutG_congr (Y' := fun _ => 0) hY hn]
  have z1 : (0 : IC f) + 0 = 0 := by
    refine IC.ext ?_ ?_ <;>
    · show f.round (.fin (0 + 0)) = _
      rw [add_zero, Fmt.round_zero hf]; rfl
  have z2 : (0 : IC f) - 0 = 0 := by
    refine IC.ext ?_ ?_ <;>
    · show f.round (.fin (0 + -0)) = _
      rw [neg_zero, add_zero, Fmt.round_zero hf]; rfl
  have hz : ∀ m, hermG (ieeeArith f tw) b (fun _ => 0) m = 0 := by
    intro m
    unfold hermG
    split
    · rfl
    · refine IC.ext rfl ?_
      show FVal.fin (-0) = .fin 0
      rw [neg_zero]
  have e : ditGn (ieeeArith f tw) b .backward (hermG (ieeeArith f tw) b (fun _ => 0)) n = 0 :=
    ditRun_zero z1 z2 (fun i => IC.mul_zero' hf (htw _ _ _)) (fun m => hz _) b n
  show (⟨f.round ((ditGn (ieeeArith f tw) b .backward (hermG (ieeeArith f tw) b (fun _ => 0)) n).re.mul
    ((ieeeArith f tw).invSize (2 ^ b)).val)⟩ : IR f) = _
  rw [e, invSize_ieee hf tw hb]
  show (⟨f.round (.fin (0 * _))⟩ : IR f) = _
  rw [zero_mul, Fmt.round_zero hf]
  rfl

end nonfin

end Neo
