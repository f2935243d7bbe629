import Verif.Model.StaticFft
import Verif.Lemmas.SimdFft
import Verif.Lemmas.Root

/-! # Lemmas for the compile-time FFT plans -/

namespace Neo

theorem shl_one_eq (b : ℕ) : 1 <<< b = 2 ^ b := by rw [Nat.shiftLeft_eq, one_mul]

section interleaved
variable {R : Type} [CommRing R]

theorem staticDit2Rest_vec {b : ℕ} {ω : R} (hω : ω ^ 2 ^ (b - 1) = -1) (X : ℕ → R) :
    ∀ left, left < b → staticDit2Rest b (twVec b ω) left (vec (2 ^ b) (ditPartial 2 b (b - left) ω X))
      = .ok (vec (2 ^ b) (Spec.dftRoot (2 ^ b) ω X)) := by
  intro left
  induction left with
  | zero =>
    intro _
    exact congrArg _ (vec_ext (fun i hi => ditPartial_last 2 b ω X hi))
  | succ left ih =>
    intro h
    unfold staticDit2Rest
    dsimp only
    have hs : b - (left + 1) < b := by omega
    have key := dit2_tw_stage hs hω X
    simp only [ipow_eq, shl_one_eq]
    rw [show 2 ^ (b - (left + 1) + 1) = 2 * 2 ^ (b - (left + 1)) by rw [pow_succ]; ring]
    rw [key, bind_ok]
    rw [show b - (left + 1) + 1 = b - left by omega]
    exact ih (by omega)

/-- The compile-time kernel on bit-reversed data. -/
theorem staticDit2_vec {b : ℕ} (hb : 1 ≤ b) {ω : R} (hω : ω ^ 2 ^ (b - 1) = -1) (X : ℕ → R) :
    staticDit2 b (vec (2 ^ b) (fun i => X (digitRev 2 b i))) (twVec b ω)
      = .ok (vec (2 ^ b) (Spec.dftRoot (2 ^ b) ω X)) := by
  have e : vec (2 ^ b) (fun i => X (digitRev 2 b i)) = vec (2 ^ b) (ditPartial 2 b 0 ω X) :=
    vec_ext (fun i _ => (ditPartial_zero 2 b ω X i).symm)
  have h0 := dit2Stage0_vec hb hω X
  unfold dit2Stage0 at h0
  rw [length_vec] at h0
  unfold staticDit2
  rw [e, shl_one_eq, h0, bind_ok]
  have := staticDit2Rest_vec hω X (b - 1) (by omega)
  rwa [show b - (b - 1) = 1 by omega] at this

end interleaved

theorem bitrevorderIdx_eq {α : Type} (table : List ℕ) (x : List α) (h : x.length = table.length) :
    bitrevorderIdx x table = bitrevApply table x := by
  unfold bitrevorderIdx bitrevApply
  rw [h]

theorem bitrevorderIdxSplit_eq {α : Type} (table : List ℕ) (x : List α × List α)
    (h : x.1.length = table.length) : bitrevorderIdxSplit x table = bitrevApplySplit table x := by
  unfold bitrevorderIdxSplit bitrevApplySplit
  rw [h]

theorem simul_bind {α β γ δ : Type} (φ : α → β) {x : Res α} {x' : Res β} {k : α → Res γ} {k' : β → Res δ}
    {ψ : γ → δ} (hk : ∀ a, k' (φ a) = (k a).map ψ) (hx : x' = x.map φ) :
    x' >>= k' = x >>= fun a => (k a).map ψ := by
  rw [hx, bind_res_map]
  congr 1
  funext a
  exact hk a

/-- Split and interleaved data: the split kernel simulates the interleaved one. -/
theorem staticSplit_eq (order : ℕ) (tw x : List ℂ) :
    staticSplit order (splitOf x) (splitOf tw).1 (splitOf tw).2 = (staticDit2 order x tw).map splitOf := by
  unfold staticSplit staticDit2
  have h0 : forStep (1 <<< order) 2 (fun k x => splitButterfly0 x k (k + 1)) (splitOf x)
      = (forStep (1 <<< order) 2 (fun k x => butterfly0 x k (k + 1)) x).map splitOf :=
    forN_simul splitOf (fun i s => butterfly0_split s (by omega)) x
  rw [h0, bind_res_map, res_map_bind]
  congr 1
  funext y
  have : ∀ left y, staticSplitRest order (splitOf tw).1 (splitOf tw).2 left (splitOf y)
      = (staticDit2Rest order tw left y).map splitOf := by
    intro left
    induction left with
    | zero => intro y; rfl
    | succ left ih =>
      intro y
      unfold staticSplitRest staticDit2Rest
      dsimp only
      rw [res_map_bind, simul_bind splitOf (x := forStep (1 <<< order)
        (ipow 2 (order - (left + 1) + 1)) _ y)]
      · intro z
        exact ih z
      · apply forN_simul
        intro k s
        apply forN_simul
        intro p s
        obtain ⟨n, f, rfl⟩ := exists_vec tw
        rw [splitOf_vec]
        generalize hj : p * ipow 2 (order - (order - (left + 1)) - 1) = j
        by_cases h : j < n
        · rw [rd_vec_ok h, rd_vec_ok h, rd_vec_ok h, bind_ok, bind_ok, bind_ok]
          apply butterflyTw_split
          have : 0 < ipow 2 (order - (left + 1)) := by simp [ipow, Nat.shiftLeft_eq]
          omega
        · simp only [rd_vec, if_neg h, bind_error]; rfl
  exact this _ y

/-- The plan of order `b`. -/
noncomputable def staticPlanOf (b : ℕ) : StaticFftPlan :=
  { order := b
    wf := makeTwiddleLutRadix2 (2 ^ b) .forward
    wb := makeTwiddleLutRadix2 (2 ^ b) .backward
    rev := vec (2 ^ b) (digitRev 2 b) }

theorem staticPlan_make_eq (b : ℕ) : StaticFftPlan.make b = .ok (staticPlanOf b) := by
  unfold StaticFftPlan.make
  rw [shl_one_eq, bitrevMake_eq, bind_ok]
  rfl

theorem static_call_vec {b : ℕ} (hb : 1 ≤ b) (f : ℕ → ℂ) (dir : Direction) :
    (staticPlanOf b).call (vec (2 ^ b) f) dir = .ok (vec (2 ^ b) (specDft dir (2 ^ b) f)) := by
  unfold StaticFftPlan.call
  have e : ∀ d, staticDit2 b (vec (2 ^ b) (fun i => f (digitRev 2 b i)))
      (makeTwiddleLutRadix2 (2 ^ b) d) = .ok (vec (2 ^ b) (specDft d (2 ^ b) f)) := by
    intro d
    rw [makeTwiddleLutRadix2_eq hb, staticDit2_vec hb (root_two_pow hb d)]
    exact congrArg _ (vec_ext (fun k _ => dftRoot_dir _ _ _ _))
  rw [show (staticPlanOf b).rev = vec (2 ^ b) (digitRev 2 b) from rfl,
    bitrevorderIdx_eq _ _ (by simp), bitrevApply_digitRev, bind_ok]
  cases dir
  · exact (if_pos rfl).trans (e .forward)
  · exact (if_neg (by decide)).trans (e .backward)

/-- The split plan of order `b`. -/
noncomputable def staticSplitPlanOf (b : ℕ) : StaticSplitPlan :=
  { order := b
    wfre := (splitOf (makeTwiddleLutRadix2 (2 ^ b) .forward)).1
    wfim := (splitOf (makeTwiddleLutRadix2 (2 ^ b) .forward)).2
    wbre := (splitOf (makeTwiddleLutRadix2 (2 ^ b) .backward)).1
    wbim := (splitOf (makeTwiddleLutRadix2 (2 ^ b) .backward)).2
    rev := vec (2 ^ b) (digitRev 2 b) }

theorem root_backward_conj (N : ℕ) : root N .backward = (starRingEnd ℂ) (root N .forward) := by
  unfold root
  rw [← Complex.exp_conj]
  congr 1
  simp [Complex.conj_ofNat, neg_div]

theorem staticSplitPlan_make_eq {b : ℕ} (hb : 1 ≤ b) :
    StaticSplitPlan.make b = .ok (staticSplitPlanOf b) := by
  unfold StaticSplitPlan.make staticSplitPlanOf
  rw [shl_one_eq, bitrevMake_eq, bind_ok]
  dsimp only
  rw [makeTwiddleLutRadix2_eq hb, makeTwiddleLutRadix2_eq hb, root_backward_conj]
  unfold twVec splitOf
  simp only [map_vec, ← map_pow, Complex.conj_re, Complex.conj_im]
  rfl

theorem staticSplit_call_vec {b : ℕ} (hb : 1 ≤ b) (f : ℕ → ℂ) (dir : Direction) :
    (staticSplitPlanOf b).call (splitOf (vec (2 ^ b) f)) dir
      = .ok (splitOf (vec (2 ^ b) (specDft dir (2 ^ b) f))) := by
  have hlt : ∀ i < 2 ^ b, digitRev 2 b i < 2 ^ b := fun i _ => digitRev_lt (by norm_num) b i
  have hinv : ∀ i < 2 ^ b, digitRev 2 b (digitRev 2 b i) = i :=
    fun _ hi => digitRev_invol (by norm_num) hi
  unfold StaticSplitPlan.call
  rw [show (staticSplitPlanOf b).rev = vec (2 ^ b) (digitRev 2 b) from rfl, splitOf_vec,
    bitrevorderIdxSplit_eq _ _ (by simp), bitrevApplySplit_vec hlt hinv, bind_ok, ← splitOf_vec]
  have e : ∀ d, staticSplit b (splitOf (vec (2 ^ b) (fun i => f (digitRev 2 b i))))
      (splitOf (makeTwiddleLutRadix2 (2 ^ b) d)).1 (splitOf (makeTwiddleLutRadix2 (2 ^ b) d)).2
      = .ok (splitOf (vec (2 ^ b) (specDft d (2 ^ b) f))) := by
    intro d
    rw [staticSplit_eq, makeTwiddleLutRadix2_eq hb, staticDit2_vec hb (root_two_pow hb d)]
    show Except.ok (splitOf _) = _
    exact congrArg (fun z => Except.ok (splitOf z)) (vec_ext (fun k _ => dftRoot_dir _ _ _ _))
  cases dir
  · exact (if_pos rfl).trans (e .forward)
  · exact (if_neg (by decide)).trans (e .backward)

/-! ## Accesses outside of the buffer -/

/-- The computation can only fail with an access outside of a buffer. -/
def OnlyOob {α : Type} (x : Res α) : Prop := ∀ e, x = .error e → e = .oob

section onlyOob
variable {α β : Type}

theorem onlyOob_ok (a : α) : OnlyOob (.ok a : Res α) := fun _ h => by cases h

theorem onlyOob_pure (a : α) : OnlyOob (pure a : Res α) := onlyOob_ok a

theorem onlyOob_bind {x : Res α} {k : α → Res β} (hx : OnlyOob x) (hk : ∀ a, OnlyOob (k a)) :
    OnlyOob (x >>= k) := by
  cases x with
  | error e => intro e' h; rw [bind_error] at h; injection h with h; exact hx e' (by rw [h])
  | ok a => exact hk a

theorem onlyOob_rd (x : List α) (i : ℕ) : OnlyOob (rd x i) := by
  unfold rd
  intro e h
  split at h
  · cases h
  · injection h with h; exact h.symm

theorem onlyOob_wr (x : List α) (i : ℕ) (a : α) : OnlyOob (wr x i a) := by
  unfold wr
  intro e h
  split at h
  · cases h
  · injection h with h; exact h.symm

theorem onlyOob_forN {n : ℕ} {body : ℕ → α → Res α} (h : ∀ i s, OnlyOob (body i s)) (s : α) :
    OnlyOob (forN n body s) := by
  induction n with
  | zero => rw [forN_zero]; exact onlyOob_ok s
  | succ n ih => rw [forN_succ]; exact onlyOob_bind ih (fun a => h n a)

theorem onlyOob_forStep {hi st : ℕ} {body : ℕ → α → Res α} (h : ∀ i s, OnlyOob (body i s)) (s : α) :
    OnlyOob (forStep hi st body s) := onlyOob_forN (fun _ _ => h _ _) s

theorem onlyOob_swap (x : List α) (i j : ℕ) : OnlyOob (swap x i j) :=
  onlyOob_bind (onlyOob_rd _ _) fun _ => onlyOob_bind (onlyOob_rd _ _) fun _ =>
    onlyOob_bind (onlyOob_wr _ _ _) fun _ => onlyOob_wr _ _ _

theorem onlyOob_not_ok {x : Res α} (h : OnlyOob x) (hn : ∀ a, x ≠ .ok a) : x = .error .oob := by
  cases x with
  | error e => rw [h e rfl]
  | ok a => exact absurd rfl (hn a)

theorem ok_of_bind {x : Res α} {k : α → Res β} {b : β} (h : x >>= k = .ok b) :
    ∃ a, x = .ok a ∧ k a = .ok b := by
  cases x with
  | error e => rw [bind_error] at h; cases h
  | ok a => exact ⟨a, rfl, h⟩

/-- A successful loop executed each of its iterations on a state satisfying the invariant. -/
theorem forN_ok_at {n : ℕ} {body : ℕ → α → Res α} {s s' : α} (P : α → Prop) (h0 : P s)
    (hp : ∀ i t t', P t → body i t = .ok t' → P t') (h : forN n body s = .ok s') {i : ℕ} (hi : i < n) :
    ∃ t t', P t ∧ body i t = .ok t' := by
  induction n generalizing s' with
  | zero => omega
  | succ n ih =>
    rw [forN_succ] at h
    obtain ⟨t, ht, hb⟩ := ok_of_bind h
    by_cases hin : i < n
    · exact ih ht hin
    · have : i = n := by omega
      subst this
      refine ⟨t, s', ?_, hb⟩
      clear h hb ih hin hi
      induction i generalizing t with
      | zero => rw [forN_zero] at ht; injection ht with ht; exact ht ▸ h0
      | succ i ih2 =>
        rw [forN_succ] at ht
        obtain ⟨u, hu, hb⟩ := ok_of_bind ht
        exact hp i u t (ih2 u hu) hb

end onlyOob

end Neo
