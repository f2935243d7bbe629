import Verif.Model.Dct
import Verif.Lemmas.Bits
import Verif.Lemmas.Algo
import Verif.Lemmas.Out
import Verif.Lemmas.DftLaws

/-! # The Bluestein plan -/

namespace Neo

open Finset ComplexConjugate

/-- Sign of the exponent of the transform in direction `dir`. -/
def dirSign (dir : Direction) : ℝ := if dir = .forward then -1 else 1

/-- The chirp `exp(± iπ i²/n)`. -/
noncomputable def chirp (n : ℕ) (dir : Direction) (i : ℕ) : ℂ := bluesteinChirp n i (dirSign dir)

theorem chirp_eq {n : ℕ} (hn : 0 < n) (dir : Direction) (i : ℕ) :
    chirp n dir i = root (2 * n) dir ^ (i * i) := by
  have hr : root (2 * n) dir ^ (i * i) = root (2 * n) dir ^ (i * i % (n * 2)) := by
    conv_lhs => rw [← Nat.div_add_mod (i * i) (n * 2), pow_add, pow_mul, Nat.mul_comm n 2,
      root_pow_self (by omega), one_pow, one_mul]
    rw [Nat.mul_comm n 2]
  rw [hr, root_pow_eq]
  unfold chirp bluesteinChirp
  dsimp only
  rw [polar_eq_exp]
  congr 1
  have : (n : ℂ) ≠ 0 := by exact_mod_cast hn.ne'
  cases dir <;> simp [dirSign] <;> field_simp

/-- The plan for size `n` with work buffers `f`, `g`. -/
noncomputable def bluesteinPlanOf (n : ℕ) (f g : ℕ → ℂ) : BluesteinPlan :=
  { size := n
    plan := dit2PlanOf (Nat.clog 2 (n * 2 + 1))
    wf := vec n (chirp n .forward)
    wb := vec n (chirp n .backward)
    a := vec (2 ^ Nat.clog 2 (n * 2 + 1)) f
    b := vec (2 ^ Nat.clog 2 (n * 2 + 1)) g }

theorem bluesteinPlan_make_eq {n : ℕ} (hn : n * 2 + 1 ≤ 2 ^ 27) :
    BluesteinPlan.make n = .ok (bluesteinPlanOf n (fun _ => 0) (fun _ => 0)) := by
  unfold BluesteinPlan.make
  rw [nextOrder_eq, dit2Plan_make_eq ((Nat.clog_le_iff_le_pow (by norm_num)).2 hn), bind_ok]
  have hl : forN n (fun i (w : List ℂ × List ℂ) => do
      let wf ← wr w.1 i (bluesteinChirp n i (-1))
      let wb ← wr w.2 i (bluesteinChirp n i 1)
      pure (wf, wb)) (vec n (fun _ => (0 : ℂ)), vec n (fun _ => (0 : ℂ)))
      = .ok (vec n (chirp n .forward), vec n (chirp n .backward)) := by
    apply forN_eq' (fun t => (vec n (fun i => if i < t then chirp n .forward i else 0),
      vec n (fun i => if i < t then chirp n .backward i else 0)))
    · simp
    · refine Prod.ext ?_ ?_ <;> exact vec_ext (fun i hi => by simp [hi])
    · intro t ht
      dsimp only
      rw [wr_vec_ok ht, bind_ok, wr_vec_ok ht, bind_ok, pure_eq_ok]
      congr 1
      refine Prod.ext ?_ ?_ <;>
      · apply vec_ext
        intro i hi
        by_cases h : i = t
        · subst h; simp [chirp, dirSign]
        · have : i < t + 1 ↔ i < t := by omega
          simp [h, this]
  rw [hl, bind_ok]
  rfl

/-- The symmetric chirp that the input is convolved with. -/
noncomputable def chirpSym (n m : ℕ) (dir : Direction) (i : ℕ) : ℂ :=
  if i < n then conj (chirp n dir i) else if m - i < n then conj (chirp n dir (m - i)) else 0

theorem chirp_zero (n : ℕ) (dir : Direction) : chirp n dir 0 = 1 := by
  unfold chirp bluesteinChirp polar
  apply Complex.ext <;> simp

theorem chirpSym_loop {n m : ℕ} (hn : 0 < n) (hm : n * 2 + 1 ≤ m) (dir : Direction) :
    forR 1 n (fun i b => do
      let m := b.length
      let wi ← rd (vec n (chirp n dir)) i
      let c := conj wi
      let b ← wr b i c
      wr b (m - i) c) (vec m (Function.update (fun _ => 0) 0 (chirp n dir 0)))
      = .ok (vec m (chirpSym n m dir)) := by
  apply forR_eq' (fun t => vec m (fun i => if i < t then conj (chirp n dir i)
    else if m - i < t then conj (chirp n dir (m - i)) else 0)) hn
  · apply vec_ext
    intro i hi
    by_cases h : i = 0
    · subst h; simp [chirp_zero]
    · rw [Function.update_of_ne h, if_neg (by omega), if_neg (by omega)]
  · rfl
  · intro t h1 ht
    simp only [length_vec]
    rw [rd_vec_ok ht, bind_ok, wr_vec_ok (by omega), bind_ok, wr_vec_ok (by omega)]
    congr 1
    apply vec_ext
    intro i hi
    by_cases h : i = m - t
    · subst h
      rw [Function.update_self, if_neg (by omega), if_pos (by omega),
        show m - (m - t) = t by omega]
    · rw [Function.update_of_ne h]
      by_cases h2 : i = t
      · subst h2; rw [Function.update_self, if_pos (by omega)]
      · rw [Function.update_of_ne h2]
        by_cases h3 : i < t
        · rw [if_pos h3, if_pos (by omega)]
        · rw [if_neg h3, if_neg (show ¬ i < t + 1 by omega)]
          by_cases h4 : m - i < t
          · rw [if_pos h4, if_pos (by omega)]
          · rw [if_neg h4, if_neg (by omega)]

/-- Conjugated chirps are inverse chirps. -/
theorem chirp_mul_conj {n : ℕ} (hn : 0 < n) (dir : Direction) (j k d : ℕ)
    (hd : d = k - j ∨ d = j - k) (hd' : j ≤ k → d = k - j) (hd'' : k ≤ j → d = j - k) :
    chirp n dir j * conj (chirp n dir d) * chirp n dir k = root n dir ^ (j * k) := by
  have hn2 : 2 * n ≠ 0 := by omega
  have hroot : root n dir = root (2 * n) dir ^ 2 := by
    rw [root_pow_eq]
    unfold root
    congr 1
    have : (n : ℂ) ≠ 0 := by exact_mod_cast hn.ne'
    push_cast
    field_simp
  rw [chirp_eq hn, chirp_eq hn, chirp_eq hn, map_pow, conj_root, hroot, ← pow_mul]
  have hne : root (2 * n) dir ≠ 0 := (root_primitive hn2 dir).ne_zero hn2
  rw [inv_pow, mul_right_comm, mul_inv_eq_iff_eq_mul₀ (pow_ne_zero _ hne), ← pow_add, ← pow_add]
  congr 1
  rcases le_total j k with h | h
  · obtain ⟨e, rfl⟩ := Nat.exists_eq_add_of_le h
    rw [hd' h, Nat.add_sub_cancel_left]
    ring
  · obtain ⟨e, rfl⟩ := Nat.exists_eq_add_of_le h
    rw [hd'' h, Nat.add_sub_cancel_left]
    ring

theorem chirpSym_at {n m j k : ℕ} (hm : n * 2 + 1 ≤ m) (hj : j < n) (hk : k < n)
    (dir : Direction) :
    chirpSym n m dir ((k + m - j) % m) = conj (chirp n dir (if j ≤ k then k - j else j - k)) := by
  unfold chirpSym
  by_cases h : j ≤ k
  · rw [show (k + m - j) % m = k - j by
      rw [show k + m - j = (k - j) + m by omega, Nat.add_mod_right, Nat.mod_eq_of_lt (by omega)],
      if_pos (by omega), if_pos h]
  · rw [Nat.mod_eq_of_lt (by omega), if_neg (by omega), if_pos (by omega), if_neg h]
    congr 2
    omega

/-- Bluestein's identity. -/
theorem bluestein_sum {n m : ℕ} (hn : 0 < n) (hm : n * 2 + 1 ≤ m) (dir : Direction) (x : ℕ → ℂ)
    {k : ℕ} (hk : k < n) :
    Spec.circConv m (fun i => if i < n then x i * chirp n dir i else 0) (chirpSym n m dir) k
      * chirp n dir k = specDft dir n x k := by
  rw [← dftRoot_dir]
  unfold Spec.circConv Spec.dftRoot
  obtain ⟨e, rfl⟩ : ∃ e, m = n + e := ⟨m - n, by omega⟩
  rw [sum_range_add, sum_mul_aux, sum_mul]
  · apply sum_congr rfl
    intro j hj
    have hj := mem_range.1 hj
    rw [if_pos hj, chirpSym_at hm hj hk, ← chirp_mul_conj hn dir j k (if j ≤ k then k - j else j - k)]
    · ring
    · split_ifs <;> simp
    · intro h; rw [if_pos h]
    · intro h; split_ifs <;> omega
where
  sum_mul_aux {n e k : ℕ} {x y : ℕ → ℂ} :
      (∑ j ∈ range n, (fun i => if i < n then x i else 0) j * y ((k + (n + e) - j) % (n + e)) +
        ∑ j ∈ range e, (fun i => if i < n then x i else 0) (n + j)
          * y ((k + (n + e) - (n + j)) % (n + e)))
      = ∑ j ∈ range n, (if j < n then x j else 0) * y ((k + (n + e) - j) % (n + e)) := by
    rw [add_eq_left]
    apply sum_eq_zero
    intro j _
    simp

theorem bluestein_call_vec {n : ℕ} (hn : 0 < n) (f g : ℕ → ℂ) (x : ℕ → ℂ) (dir : Direction) :
    ∃ f' g', (bluesteinPlanOf n f g).call (vec n x) dir
      = .ok (bluesteinPlanOf n f' g', vec n (specDft dir n x)) := by
  have hb : 1 ≤ Nat.clog 2 (n * 2 + 1) := Nat.clog_pos (by norm_num) (by omega)
  have hm : n * 2 + 1 ≤ 2 ^ Nat.clog 2 (n * 2 + 1) := Nat.le_pow_clog (by norm_num) _
  have hp : (bluesteinPlanOf n f g).plan = dit2PlanOf (Nat.clog 2 (n * 2 + 1)) := rfl
  have hsz : (bluesteinPlanOf n f g).size = n := rfl
  have ha : (bluesteinPlanOf n f g).a = vec (2 ^ Nat.clog 2 (n * 2 + 1)) f := rfl
  have hb' : (bluesteinPlanOf n f g).b = vec (2 ^ Nat.clog 2 (n * 2 + 1)) g := rfl
  have hw : (if dir = .forward then (bluesteinPlanOf n f g).wf else (bluesteinPlanOf n f g).wb)
      = vec n (chirp n dir) := by cases dir <;> rfl
  have hps : (dit2PlanOf (Nat.clog 2 (n * 2 + 1))).size = 2 ^ Nat.clog 2 (n * 2 + 1) := rfl
  generalize hbb : Nat.clog 2 (n * 2 + 1) = b at *
  set m := 2 ^ b with hmdef
  have hmpos : 0 < m := by omega
  let A : ℕ → ℂ := fun i => if i < n then x i * chirp n dir i else 0
  let B := chirpSym n m dir
  let P : ℕ → ℂ := fun k => Spec.dft m A k * Spec.dft m B k
  let C : ℕ → ℂ := fun i => Spec.idft m P i * ((1 / (m : ℝ) : ℝ) : ℂ)
  refine ⟨C, Spec.dft m B, ?_⟩
  unfold BluesteinPlan.call
  simp only [hp, hsz, ha, hb', hw, hps]
  rw [check_decide_ok (length_vec n x), bind_ok, fillVec_vec, bind_ok, fillVec_vec, bind_ok,
    rdSpan_vec (Nat.zero_le _) (by omega), bind_ok, Nat.sub_zero, multiplyVec_vec, bind_ok,
    wrSpan_vec (by omega), bind_ok, rd_vec_ok hn, bind_ok, wr_vec_ok hmpos, bind_ok,
    chirpSym_loop hn hm dir, bind_ok]
  have hA : vec m (fun i => if 0 ≤ i ∧ i < 0 + n then x (i - 0) * chirp n dir (i - 0) else 0)
      = vec m A := vec_ext (fun i _ => by simp [A])
  have hfft : ∀ h : ℕ → ℂ, fft (dit2PlanOf b) (vec m h) = .ok (vec m (Spec.dft m h)) :=
    fun h => dit2_call hb h .forward
  have hifft : ∀ h : ℕ → ℂ, ifft (dit2PlanOf b) (vec m h) = .ok (vec m (Spec.idft m h)) :=
    fun h => dit2_call hb h .backward
  rw [hA, hfft, bind_ok, hfft, bind_ok, multiplyInPlace_vec, bind_ok, hifft, bind_ok,
    scaleVec_vec, bind_ok, rdSpan_vec (Nat.zero_le _) (by omega), bind_ok, Nat.sub_zero,
    multiplyVec_vec, bind_ok, pure_eq_ok]
  congr 1
  refine Prod.ext ?_ ?_
  · unfold bluesteinPlanOf
    rw [hbb]
  · apply vec_ext
    intro k hk
    have hm0 : (m : ℂ) ≠ 0 := by exact_mod_cast hmpos.ne'
    rw [Nat.zero_add, idft_mul_dft _ _ (by omega), ← bluestein_sum hn hm dir x hk]
    congr 1
    push_cast
    field_simp
    rfl

/-- Plans that can occur: freshly constructed, or after any number of successful calls. -/
inductive BluesteinReachable (n : ℕ) : BluesteinPlan → Prop
  | make {p} : BluesteinPlan.make n = .ok p → BluesteinReachable n p
  | call {p p' x dir y} : BluesteinReachable n p → p.call x dir = .ok (p', y) →
      BluesteinReachable n p'

theorem bluesteinReachable_form {n : ℕ} (h1 : 0 < n) (h2 : n * 2 + 1 ≤ 2 ^ 27) {p : BluesteinPlan}
    (h : BluesteinReachable n p) : ∃ f g, p = bluesteinPlanOf n f g := by
  induction h with
  | make h =>
    rw [bluesteinPlan_make_eq h2] at h
    injection h with h
    exact ⟨_, _, h.symm⟩
  | @call p p' x dir y _ h ih =>
    obtain ⟨f, g, rfl⟩ := ih
    by_cases hx : x.length = n
    · obtain ⟨f', g', e⟩ := bluestein_call_vec h1 f g (fun i => x.getD i 0) dir
      rw [← list_eq_vec 0 hx, h] at e
      injection e with e
      exact ⟨f', g', (Prod.ext_iff.1 e).1⟩
    · unfold BluesteinPlan.call at h
      have : check (decide (x.length = (bluesteinPlanOf n f g).size)) = .error .assertion := by
        rw [decide_eq_false (show ¬ x.length = (bluesteinPlanOf n f g).size from hx)]; rfl
      simp only [this, bind_error] at h
      simp at h

end Neo
