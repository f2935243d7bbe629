import Verif.Model.SnippetFft
import Verif.Lemmas.Radix4
import Verif.Lemmas.Stockham2
import Verif.Lemmas.DigitRevPlan

/-! # Lemmas for the transforms of `extra/snippet/radix4.cpp` and `stockham.cpp` -/

namespace Neo

open Finset

/-- The table-free in-place digit reversal. -/
theorem digitrevorder_vec {α : Type} {R : ℕ} (hR : 2 ≤ R) (b : ℕ) (f : ℕ → α) :
    digitrevorder R (vec (R ^ b) f) = .ok (vec (R ^ b) (fun i => f (digitRev R b i))) := by
  have hR0 : 0 < R := by omega
  have hpos : 0 < R ^ b := by positivity
  unfold digitrevorder
  dsimp only
  rw [length_vec, if_neg (by omega)]
  have hz : digitRev R b 0 = 0 := by
    clear hpos
    induction b with
    | zero => rfl
    | succ b ih => simp [digitRev, ih]
  have hinv : ∀ i < R ^ b, digitRev R b (digitRev R b i) = i := fun i hi => digitRev_invol hR0 hi
  have hlt' : ∀ i, digitRev R b i < R ^ b := digitRev_lt hR0 b
  rw [forN_eq' (s' := (vec (R ^ b) (swapSt (digitRev R b) f (R ^ b - 1)), digitRev R b (R ^ b - 1)))
    (fun i => (vec (R ^ b) (swapSt (digitRev R b) f i), digitRev R b i)) ?_ rfl]
  · simp only [bind_ok, pure_eq_ok]
    congr 1
    apply vec_ext
    intro m hm
    have hs := swapSt_succ hinv f (i := R ^ b - 1) (m := m) (by omega) hm
    rw [if_neg (by have := hlt' (R ^ b - 1); omega)] at hs
    rw [← hs]
    unfold swapSt
    rw [if_pos (by omega)]
  · intro i hi
    have hb : 1 ≤ b := by
      rcases Nat.eq_zero_or_pos b with rfl | h
      · simp at hi
      · exact h
    have hi' : i < R ^ b := by omega
    have hk : (R - 1) * R ^ b / R = (R - 1) * R ^ (b - 1) := by
      have : R ^ b = R ^ (b - 1) * R := by rw [← pow_succ]; congr 1; omega
      rw [this, ← mul_assoc, Nat.mul_div_cancel _ (by omega)]
    have hlt := lt_pow_self' hR b
    obtain ⟨j, k, e1, e2⟩ := revCarry_digitRev hR b i (R ^ b + 1) hb (by omega) (by omega)
    have hsw : (if i < digitRev R b i then swap (vec (R ^ b) (swapSt (digitRev R b) f i)) i
        (digitRev R b i) else pure (vec (R ^ b) (swapSt (digitRev R b) f i)))
        = (.ok (vec (R ^ b) (swapSt (digitRev R b) f (i + 1))) : Res (List α)) := by
      split
      · rename_i h
        rw [swap_vec hi' (hlt' i)]
        congr 1
        apply vec_ext
        intro m hm
        rw [swapSt_succ hinv f hi' hm, if_pos h]
      · rename_i h
        rw [pure_eq_ok]
        congr 1
        apply vec_ext
        intro m hm
        rw [swapSt_succ hinv f hi' hm, if_neg h]
    by_cases hc : i < digitRev R b i
    · rw [if_pos hc] at hsw
      simp only [if_pos hc, hsw, bind_ok, hk, e1, pure_eq_ok, e2]
    · rw [if_neg hc] at hsw
      simp only [if_neg hc, hsw, bind_ok, hk, e1, pure_eq_ok, e2]
  · rw [hz]
    congr 1

/-! ## Radix 4 -/

theorem snipDit4Butterfly_eq (z w1 w2 w3 : ℂ) (L LR j k : ℕ) (x : List ℂ) :
    snipDit4Butterfly z w1 w2 w3 L LR j k x = (do
      let a ← rd x (k * L + LR * 0 + j)
      let b ← rd x (k * L + LR * 1 + j)
      let c ← rd x (k * L + LR * 2 + j)
      let d ← rd x (k * L + LR * 3 + j)
      dit4Store z (k * L + LR * 0 + j) (k * L + LR * 1 + j) (k * L + LR * 2 + j) (k * L + LR * 3 + j)
        a (b * w1) (c * w2) (d * w3) x) := by
  unfold snipDit4Butterfly dit4Store
  simp only [sub_eq_neg_add, add_comm]

theorem snipDit4Butterfly_vec {b s k q : ℕ} (hk : k < 4 ^ s)
    (hq : (q + 1) * (4 * 4 ^ s) ≤ 4 ^ b) (dir : Direction) (w : ℂ) {w1 w2 w3 : ℂ} (h1 : w1 = w ^ k)
    (h2 : w2 = (w ^ k) ^ 2) (h3 : w3 = (w ^ k) ^ 3) (g : ℕ → ℂ) :
    snipDit4Butterfly (root 4 dir) w1 w2 w3 (4 * 4 ^ s) (4 ^ s) k q (vec (4 ^ b) g)
      = .ok (vec (4 ^ b) (fun t => if t % 4 ^ s = k ∧ t / (4 * 4 ^ s) = q
      then ditF 4 (4 ^ s) w (root 4 dir ^ 3) g t else g t)) := by
  have hb := fun u (hu : u < 4) => block_bound (n := 4 ^ b) hk hq hu
  have e : ∀ u, q * (4 * 4 ^ s) + 4 ^ s * u + k = q * (4 * 4 ^ s) + k + u * 4 ^ s := fun u => by ring
  rw [snipDit4Butterfly_eq]
  simp only [e]
  rw [rd_vec_ok (hb 0 (by norm_num)), bind_ok, rd_vec_ok (hb 1 (by norm_num)), bind_ok,
    rd_vec_ok (hb 2 (by norm_num)), bind_ok, rd_vec_ok (hb 3 (by norm_num)), bind_ok,
    dit4Store_vec hk hq dir (w ^ k) g rfl rfl rfl rfl rfl (by rw [h1]) (by rw [h2]) (by rw [h3])]
  congr 1
  apply vec_ext
  intro t _
  by_cases h : t / (4 * 4 ^ s) = q ∧ t % 4 ^ s = k
  · rw [if_pos h, if_pos h.symm]
    unfold ditF
    rw [h.1, h.2]
  · rw [if_neg h, if_neg (fun e => h e.symm)]

/-- One stage; the twiddles of row `j` are given by `body`. -/
theorem snipDit4Stage_vec {b s : ℕ} (hs : s < b) (dir : Direction) (w : ℂ) (g : ℕ → ℂ)
    {body : ℕ → List ℂ → Res (List ℂ)}
    (hbody : ∀ j < 4 ^ s, ∃ w1 w2 w3, w1 = w ^ j ∧ w2 = (w ^ j) ^ 2 ∧ w3 = (w ^ j) ^ 3 ∧ ∀ x,
      body j x = forN (4 ^ (b - s - 1)) (fun k x =>
        snipDit4Butterfly (root 4 dir) w1 w2 w3 (4 * 4 ^ s) (4 ^ s) j k x) x) :
    forN (4 ^ s) body (vec (4 ^ b) g) = .ok (vec (4 ^ b) (ditF 4 (4 ^ s) w (root 4 dir ^ 3) g)) := by
  have hL : 0 < 4 ^ s := by positivity
  rw [forN_congr (body' := fun j x => forN (4 ^ (b - s - 1)) (fun k x =>
      snipDit4Butterfly (root 4 dir) (w ^ j) ((w ^ j) ^ 2) ((w ^ j) ^ 3) (4 * 4 ^ s) (4 ^ s) j k x) x)]
  · apply keyedLoop (k1 := fun t => t % 4 ^ s) (k2 := fun t => t / (4 * 4 ^ s))
      (F := ditF 4 (4 ^ s) w (root 4 dir ^ 3)) g
    · intro t _; exact Nat.mod_lt _ hL
    · intro t ht; exact four_div_lt hs t ht
    · intro f g t ht hfg
      unfold ditF
      exact sum_congr rfl (fun v hv => by
        rw [ditF_local hs 0 0 f g t ht (fun i hi a c => hfg i hi c a) v hv])
    · intro k hk q hq f
      exact snipDit4Butterfly_vec hk (four_block hs hq) dir w rfl rfl rfl f
  · intro j hj x
    obtain ⟨w1, w2, w3, h1, h2, h3, h⟩ := hbody j hj
    rw [h, h1, h2, h3]

/-- The sign passed by the callers. -/
def snipSign (dir : Direction) : ℝ := if dir = .forward then -1 else 1

theorem dirSign_I (dir : Direction) : (⟨0, snipSign dir⟩ : ℂ) = root 4 dir := by
  rw [root4_eq]; rfl

theorem polar_dir (N j c : ℕ) (dir : Direction) {θ : ℝ}
    (h : θ = snipSign dir * (2 * Real.pi) * j / N * c) : polar 1 θ = (root N dir ^ j) ^ c := by
  rw [h, polar_eq_exp]
  unfold root snipSign
  rw [← Complex.exp_nat_mul, ← Complex.exp_nat_mul]
  congr 1
  cases dir <;> simp <;> ring

theorem snipDit4_vec (b : ℕ) (dir : Direction) (X : ℕ → ℂ) :
    snipDit4 (vec (4 ^ b) X) b (snipSign dir) = .ok (vec (4 ^ b) (r4Dit dir b b X)) := by
  unfold snipDit4
  dsimp only
  rw [digitrevorder_vec (by norm_num), bind_ok, length_vec, dirSign_I]
  unfold forR
  rw [show b + 1 - 1 = b by omega, vec_ext (fun i _ => (r4Dit_zero dir b X i).symm)]
  apply forN_eq' (fun s => vec (4 ^ b) (r4Dit dir b s X)) rfl rfl
  intro s hs
  dsimp only
  rw [ipow_eq, show 4 ^ (1 + s) = 4 * 4 ^ s by rw [pow_add, pow_one], Nat.mul_div_cancel_left _ (by norm_num)]
  have hr : 4 ^ b / (4 * 4 ^ s) = 4 ^ (b - s - 1) := by
    rw [← pow_succ', Nat.pow_div (by omega) (by norm_num)]; congr 1
  rw [hr, snipDit4Stage_vec hs dir (root (4 ^ (s + 1)) dir), vec_ext (fun i _ => r4Dit_succ hs dir X i)]
  intro j _
  refine ⟨_, _, _, ?_, ?_, ?_, fun x => rfl⟩
  · rw [polar_dir (4 ^ (s + 1)) j 1 dir, pow_one]
    push_cast [pow_succ']; ring
  · rw [polar_dir (4 ^ (s + 1)) j 2 dir]
    push_cast [pow_succ']; ring
  · rw [polar_dir (4 ^ (s + 1)) j 3 dir]
    push_cast [pow_succ']; ring

/-! ### The version with a table -/

theorem snipDit4Lut_eq (N : ℕ) (dir : Direction) :
    snipDit4Lut N (snipSign dir) = vec (N / 4) (fun i => root N dir ^ i) := by
  unfold snipDit4Lut vec
  apply List.map_congr_left
  intro i _
  have := polar_dir N i 1 dir (θ := snipSign dir * (2 * Real.pi * i / N)) (by push_cast; ring)
  rw [this, pow_one]

/-- The states of the version with a table: every stage uses the powers of the primitive root of the full
size. -/
noncomputable def r4Tab (dir : Direction) (b : ℕ) (X : ℕ → ℂ) : ℕ → ℕ → ℂ
  | 0 => fun i => X (digitRev 4 b i)
  | s + 1 => ditF 4 (4 ^ s) (root (4 ^ b) dir) (root 4 dir ^ 3) (r4Tab dir b X s)

theorem snipDit4Table_vec (b : ℕ) (dir : Direction) (X : ℕ → ℂ) :
    snipDit4Table (vec (4 ^ b) X) (snipDit4Lut (4 ^ b) (snipSign dir)) b (snipSign dir)
      = .ok (vec (4 ^ b) (r4Tab dir b X b)) := by
  unfold snipDit4Table
  dsimp only
  rw [digitrevorder_vec (by norm_num), bind_ok, length_vec, dirSign_I, snipDit4Lut_eq]
  unfold forR
  rw [show b + 1 - 1 = b by omega]
  apply forN_eq' (fun s => vec (4 ^ b) (r4Tab dir b X s)) rfl rfl
  intro s hs
  dsimp only
  rw [ipow_eq, show 4 ^ (1 + s) = 4 * 4 ^ s by rw [pow_add, pow_one], Nat.mul_div_cancel_left _ (by norm_num)]
  have hr : 4 ^ b / (4 * 4 ^ s) = 4 ^ (b - s - 1) := by
    rw [← pow_succ', Nat.pow_div (by omega) (by norm_num)]; congr 1
  rw [hr, snipDit4Stage_vec hs dir (root (4 ^ b) dir)]
  · rfl
  · intro j hj
    have hj' : j < 4 ^ b / 4 := by
      have h1 : 4 ^ s ≤ 4 ^ (b - 1) := Nat.pow_le_pow_right (by norm_num) (by omega)
      have h2 : 4 ^ b = 4 * 4 ^ (b - 1) := by rw [← pow_succ']; congr 1; omega
      omega
    have h2 : root (4 ^ b) dir ^ j * root (4 ^ b) dir ^ j = (root (4 ^ b) dir ^ j) ^ 2 := (sq _).symm
    refine ⟨_, _, _, rfl, h2, (pow_succ _ 2).symm.trans rfl, fun x => ?_⟩
    rw [rd_vec_ok hj', bind_ok, h2]

/-! ## Stockham -/

theorem snipStockhamPass_vec {l m : ℕ} (hm : 0 < m) (dir : Direction) (Y g : ℕ → ℂ) :
    snipStockhamPass l m (snipSign dir) (vec (2 * l * m) Y) (vec (2 * l * m) g)
      = .ok (vec (2 * l * m) (stockF 2 l m (root (2 * l) dir) (root 2 dir) Y)) := by
  unfold snipStockhamPass
  dsimp only
  have h2m : 0 < 2 * m := by omega
  apply keyedLoop (k1 := fun i => i / (2 * m)) (k2 := fun i => i % m)
    (F := fun _ => stockF 2 l m (root (2 * l) dir) (root 2 dir) Y) g
  · intro i hi
    rw [Nat.div_lt_iff_lt_mul h2m]
    calc i < 2 * l * m := hi
      _ = l * (2 * m) := by ring
  · intro i _
    exact Nat.mod_lt _ hm
  · intros; rfl
  · intro j hj k hk f
    rw [polar_dir (2 * l) j 1 dir (by push_cast; ring), pow_one]
    exact stock2_butterfly hj hk dir Y f rfl rfl (by ring) (by ring)

theorem rangesCopy_vec (n : ℕ) (f g : ℕ → ℂ) : rangesCopy (vec n f) (vec n g) = .ok (vec n f) := by
  unfold rangesCopy
  rw [length_vec]
  exact fft0Copy_vec n f g

theorem snipStockham_vec (p : ℕ) (dir : Direction) (X W : ℕ → ℂ) : ∃ W' : ℕ → ℂ,
    snipStockham (vec (2 ^ p) X) (vec (2 ^ p) W) p (snipSign dir)
      = .ok (vec (2 ^ p) (specDft dir (2 ^ p) X), vec (2 ^ p) W') := by
  unfold snipStockham
  dsimp only
  rw [ipow_eq]
  have key := forN_inv (n := p) (body := fun _ (s : ((List ℂ × List ℂ) × Bool) × ℕ × ℕ) => (do
      let work ← snipStockhamPass s.2.1 s.2.2 (snipSign dir) s.1.1.1 s.1.1.2
      pure (((work, s.1.1.1), !s.1.2), s.2.1 / 2, s.2.2 * 2) : Res (((List ℂ × List ℂ) × Bool) × ℕ × ℕ)))
    (I := fun s st => ∃ g : ℕ → ℂ, st = (((vec (2 ^ p) (stockPartial 2 p s (root (2 ^ p) dir) X),
      vec (2 ^ p) g), decide (s % 2 = 1)), 2 ^ p / 2 / 2 ^ s, 2 ^ s))
    (s := (((vec (2 ^ p) X, vec (2 ^ p) W), false), 2 ^ p / 2, 1)) ?_ ?_
  · obtain ⟨st, hst, g, rfl⟩ := key
    rw [hst, bind_ok]
    have hlast : vec (2 ^ p) (stockPartial 2 p p (root (2 ^ p) dir) X) = vec (2 ^ p) (specDft dir (2 ^ p) X) :=
      vec_ext (fun i hi => (stockPartial_last 2 p (root (2 ^ p) dir) X hi).trans (dftRoot_dir (2 ^ p) dir X i))
    dsimp only
    rw [hlast, Nat.and_one_is_mod]
    by_cases hp : p % 2 = 1
    · rw [if_pos (by omega), rangesCopy_vec, bind_ok, if_pos (decide_eq_true hp)]
      exact ⟨_, rfl⟩
    · rw [if_neg (by omega), pure_eq_ok, bind_ok, if_neg (by simpa using hp)]
      exact ⟨_, rfl⟩
  · refine ⟨W, ?_⟩
    rw [pow_zero, Nat.div_one, vec_ext (fun i _ => stockPartial_zero 2 p (root (2 ^ p) dir) X i)]
    rfl
  · rintro s hs _ ⟨g, rfl⟩
    have hn : 2 ^ p = 2 * 2 ^ (p - s - 1) * 2 ^ s := by
      rw [← pow_succ', ← pow_add]; congr 1; omega
    have hl : 2 ^ p / 2 / 2 ^ s = 2 ^ (p - s - 1) := by
      rw [Nat.div_div_eq_div_mul, ← pow_succ', Nat.pow_div (by omega) (by norm_num)]; congr 1
    have hpass := snipStockhamPass_vec (l := 2 ^ (p - s - 1)) (m := 2 ^ s) (by positivity) dir
      (stockPartial 2 p s (root (2 ^ p) dir) X) g
    rw [← hn] at hpass
    refine ⟨_, ?_, stockPartial 2 p s (root (2 ^ p) dir) X, rfl⟩
    dsimp only
    rw [hl, hpass, bind_ok, pure_eq_ok]
    congr 3
    · congr 1
      apply vec_ext
      intro i _
      exact stockF_stockPartial (R := 2) (by norm_num) hs dir X i
    · rcases Nat.mod_two_eq_zero_or_one s with h | h <;> simp [Nat.add_mod, h]
    · rw [← hl, Nat.div_div_eq_div_mul, pow_succ]

/-! ## `stockham.cpp` -/

theorem stockSnip_make_eq (p : ℕ) : StockSnipPlan.make (2 ^ p)
    = { w := stockham2Lut (2 ^ p) .backward, work := vec (2 ^ p) (fun _ => 0) } := by
  unfold StockSnipPlan.make
  congr 1
  · rw [stockham2Lut_eq]
    unfold vec
    apply List.map_congr_left
    intro i _
    have := polar_dir (2 ^ p) i 1 .backward (θ := i * (2 * Real.pi / (2 ^ p : ℕ))) (by
      simp only [snipSign]; push_cast; simp; ring)
    rw [this, pow_one]
  · rw [eq_vec_iff]
    exact ⟨by simp, fun i hi => by simp [hi]⟩

end Neo
