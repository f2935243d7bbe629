import Verif.Lemmas.Radix

/-! # The in-place plans of radix 3 and 5 over any arithmetic

No law of the operations is used: the loops visit every butterfly once, with the products of the twiddle computed so far. -/

namespace Neo

open Finset

variable {C : Type} [Add C] [Mul C]

/-- The constant that the plan of radix `R` uses for `exp(∓2πik/R)`. -/
def radixCst (tw : ℕ → ℕ → Direction → C) (R : ℕ) (dir : Direction) (k : ℕ) : C :=
  if dir = .forward then tw R k .forward else tw R (R - k) .forward

/-- The results of the radix-3 butterfly with the twiddle `wi` on the values `c`. -/
def dif3Val (tw : ℕ → ℕ → Direction → C) (dir : Direction) (wi : C) (c : ℕ → C) (u : ℕ) : C :=
  let w := radixCst tw 3 dir
  let t1 := c 1 * wi
  let t2 := c 2 * (wi * wi)
  match u with
  | 0 => c 0 + (t1 + t2)
  | 1 => c 0 + t1 * w 1 + t2 * w 2
  | _ => c 0 + t1 * w 2 + t2 * w 1

/-- The results of the radix-5 butterfly with the twiddle `wi` on the values `c`. -/
def dif5Val (tw : ℕ → ℕ → Direction → C) (dir : Direction) (wi : C) (c : ℕ → C) (u : ℕ) : C :=
  let w := radixCst tw 5 dir
  let t1 := c 1 * wi
  let t2 := c 2 * (wi * wi)
  let t3 := c 3 * (wi * wi * wi)
  let t4 := c 4 * (wi * wi * wi * wi)
  match u with
  | 0 => c 0 + (t1 + t2 + t3 + t4)
  | 1 => c 0 + t1 * w 1 + t2 * w 2 + t3 * w 3 + t4 * w 4
  | 2 => c 0 + t1 * w 2 + t2 * w 4 + t3 * w 1 + t4 * w 3
  | 3 => c 0 + t1 * w 3 + t2 * w 1 + t3 * w 4 + t4 * w 2
  | _ => c 0 + t1 * w 4 + t2 * w 3 + t3 * w 2 + t4 * w 1

omit [Add C] in
/-- The product of `i` factors `w`, as the loop over `i` computes it. -/
def wseq (one w : C) : ℕ → C
  | 0 => one
  | i + 1 => wseq one w i * w

/-- What one stage leaves at index `t`. -/
def radixF (R L : ℕ) (one w : C) (val : C → (ℕ → C) → ℕ → C) (g : ℕ → C) (t : ℕ) : C :=
  val (wseq one w (t % L)) (fun v => g (t / (R * L) * (R * L) + t % L + v * L)) (t / L % R)

/-- The state after `s` stages. -/
def radixSt (tw : ℕ → ℕ → Direction → C) (one : C) (R b : ℕ) (dir : Direction) (val : C → (ℕ → C) → ℕ → C) (X : ℕ → C) :
    ℕ → ℕ → C
  | 0 => fun t => X (digitRev R b t)
  | s + 1 => radixF R (R ^ s) one (tw (R ^ (s + 1)) 1 dir) val (radixSt tw one R b dir val X s)

/-- The butterfly rewrites its `R` elements by `val`. -/
def IsRadixButterfly (R n L : ℕ) (val : C → (ℕ → C) → ℕ → C) (bf : ℕ → ℕ → C → List C → Res (List C)) : Prop :=
  ∀ i < L, ∀ q, (q + 1) * (R * L) ≤ n → ∀ (wi : C) (g : ℕ → C),
    bf i (q * (R * L)) wi (vec n g) = .ok (vec n (fun t => if t % L = i ∧ t / (R * L) = q
      then val wi (fun v => g (q * (R * L) + i + v * L)) (t / L % R) else g t))

/-- `val` reads its first `R` inputs only. -/
def ReadsFirst (R : ℕ) (val : C → (ℕ → C) → ℕ → C) : Prop :=
  ∀ (wi : C) (c c' : ℕ → C), (∀ v < R, c v = c' v) → ∀ u, val wi c u = val wi c' u

theorem difStageG_vec {R b s : ℕ} (hR : 2 ≤ R) (hs : s < b) (hb : R ^ b < 2 ^ 31) (tw : ℕ → ℕ → Direction → C) (one : C)
    (dir : Direction) {val : C → (ℕ → C) → ℕ → C} (hval : ReadsFirst R val) (bf : (mr i j : ℕ) → C → List C → Res (List C))
    (hbf : IsRadixButterfly R (R ^ b) (R ^ s) val (bf (R ^ s))) (g : ℕ → C) :
    difStageG tw one R (R ^ b) dir bf (R ^ (s + 1)) (vec (R ^ b) g)
      = .ok (vec (R ^ b) (radixF R (R ^ s) one (tw (R ^ (s + 1)) 1 dir) val g)) := by
  unfold difStageG
  dsimp only
  have hL : 0 < R ^ s := by positivity
  have hp : R ^ (s + 1) = R * R ^ s := by rw [pow_succ]; ring
  have hmr : R ^ (s + 1) / R = R ^ s := by rw [hp, Nat.mul_div_cancel_left _ (by omega)]
  have hn : R ^ b = R ^ (b - s - 1) * R ^ (s + 1) := by rw [← pow_add]; congr 1; omega
  have hpos : 0 < R ^ (s + 1) := by positivity
  set w := tw (R ^ (s + 1)) 1 dir with hw
  rw [hmr, forN_eq' (s' := (vec (R ^ b) (radixF R (R ^ s) one w val g), wseq one w (R ^ s)))
    (fun i => (vec (R ^ b) (keyedSt (fun t => t % R ^ s) (fun t => t / (R * R ^ s))
      (radixF R (R ^ s) one w val) g i 0), wseq one w i))]
  · rfl
  · rw [keyedSt_start]; rfl
  · rw [keyedSt_end _ _ _ (fun t _ => Nat.mod_lt _ hL)]
  · intro i hi
    dsimp only
    have e1 := forIntStep_mul (m := R ^ (s + 1)) (B := R ^ (b - s - 1)) hpos (by omega)
      (fun j x => bf (R ^ s) i j (wseq one w i) x) (R ^ (b - s - 1)) (R ^ b) 0
      (vec (R ^ b) (keyedSt (fun t => t % R ^ s) (fun t => t / (R * R ^ s))
        (radixF R (R ^ s) one w val) g i 0)) (by rw [hn]; exact Nat.le_mul_of_pos_right _ hpos) (by omega)
    rw [← hn] at e1
    simp only [Nat.zero_mul, Nat.zero_add] at e1
    rw [e1, keyedInner (k1 := fun t => t % R ^ s) (k2 := fun t => t / (R * R ^ s))
      (F := radixF R (R ^ s) one w val) g i, bind_ok, pure_eq_ok]
    · rfl
    · intro t ht
      rw [Nat.div_lt_iff_lt_mul (by rw [← hp]; exact hpos), ← hp, ← hn]
      exact ht
    · intro f f' t ht h
      unfold radixF
      apply hval
      intro v hv
      have d := (index_decomp (i := t / (R * R ^ s) * (R * R ^ s) + t % R ^ s + v * R ^ s)
        (L := R ^ s) (q := t / (R * R ^ s)) (Nat.mod_lt t hL) hv).1 rfl
      refine h _ ?_ d.2.1 d.1
      have hq : t / (R * R ^ s) + 1 ≤ R ^ (b - s - 1) := by
        rw [Nat.add_one_le_iff, Nat.div_lt_iff_lt_mul (by rw [← hp]; exact hpos), ← hp, ← hn]
        exact ht
      exact block_bound (Nat.mod_lt t hL) (by
        calc _ ≤ R ^ (b - s - 1) * (R * R ^ s) := Nat.mul_le_mul_right _ hq
          _ = R ^ b := by rw [← hp, ← hn]) hv
    · intro q hq f
      rw [hp]
      have hq' : (q + 1) * (R * R ^ s) ≤ R ^ b := by
        calc _ ≤ R ^ (b - s - 1) * (R * R ^ s) := Nat.mul_le_mul_right _ hq
          _ = R ^ b := by rw [← hp, ← hn]
      rw [hbf i hi q hq']
      congr 1
      apply vec_ext
      intro t _
      by_cases h : t % R ^ s = i ∧ t / (R * R ^ s) = q
      · rw [if_pos h, if_pos h]
        unfold radixF
        rw [h.1, h.2]
      · rw [if_neg h, if_neg h]

theorem radixG_call {R b : ℕ} (hR : 2 ≤ R) (hb : R ^ (b + 1) < 2 ^ 31) (tw : ℕ → ℕ → Direction → C) (one : C)
    (dir : Direction) {val : C → (ℕ → C) → ℕ → C} (hval : ReadsFirst R val) (bf : (mr i j : ℕ) → C → List C → Res (List C))
    (hbf : ∀ s < b, IsRadixButterfly R (R ^ b) (R ^ s) val (bf (R ^ s))) (X : ℕ → C) :
    (do let x ← digitrevApply (vec (R ^ b) (fun i => if i < R ^ b - 1 then digitRev R b i else 0))
          (vec (R ^ b) X)
        forIntMul R (R ^ b) (difStageG tw one R (R ^ b) dir bf) 32 R x)
      = .ok (vec (R ^ b) (radixSt tw one R b dir val X b)) := by
  rw [digitrev_plan hR, bind_ok]
  have hb32 : b ≤ 32 := by
    by_contra h
    have h1 : 2 ^ 33 ≤ 2 ^ b := Nat.pow_le_pow_right (by norm_num) (by omega)
    have h2 : 2 ^ b ≤ R ^ b := Nat.pow_le_pow_left hR b
    have h3 : R ^ b ≤ R ^ (b + 1) := Nat.pow_le_pow_right (by omega) (by omega)
    omega
  have hlt : R ^ b < 2 ^ 31 := lt_of_le_of_lt (Nat.pow_le_pow_right (by omega) (by omega)) hb
  have key := forIntMul_pow hR hb (difStageG tw one R (R ^ b) dir bf)
    (fun s => vec (R ^ b) (radixSt tw one R b dir val X s))
    (fun s hs => difStageG_vec hR hs hlt tw one dir hval bf (hbf s hs) _) b 32 0 hb32 (by omega)
  rw [zero_add, pow_one] at key
  exact key

/-! ## The butterflies -/

theorem dif3_reads (tw : ℕ → ℕ → Direction → C) (dir : Direction) : ReadsFirst 3 (dif3Val tw dir) := by
  intro wi c c' h u
  unfold dif3Val
  rw [h 0 (by norm_num), h 1 (by norm_num), h 2 (by norm_num)]

theorem dif5_reads (tw : ℕ → ℕ → Direction → C) (dir : Direction) : ReadsFirst 5 (dif5Val tw dir) := by
  intro wi c c' h u
  unfold dif5Val
  rw [h 0 (by norm_num), h 1 (by norm_num), h 2 (by norm_num), h 3 (by norm_num), h 4 (by norm_num)]

theorem dif3_any {n L : ℕ} (tw : ℕ → ℕ → Direction → C) (dir : Direction) :
    IsRadixButterfly 3 n L (dif3Val tw dir) (dif3ButterflyG tw dir L) := by
  intro i hi q hq wi g
  have hb := fun u (hu : u < 3) => block_bound hi hq hu
  set P := fun u => q * (3 * L) + i + u * L with hP
  have p0 : i + q * (3 * L) = P 0 := by simp [hP]; ring
  have p1 : i + q * (3 * L) + L = P 1 := by simp [hP]; ring
  have p2 : i + q * (3 * L) + 2 * L = P 2 := by simp [hP]; ring
  have b0 : P 0 < n := hb 0 (by norm_num)
  have b1 : P 1 < n := hb 1 (by norm_num)
  have b2 : P 2 < n := hb 2 (by norm_num)
  unfold dif3ButterflyG
  rw [p2, p1, p0, rd_vec_ok b0, rd_vec_ok b1, rd_vec_ok b2]
  simp only [bind_ok]
  rw [← butterfly_writes hi (by norm_num) g (dif3Val tw dir wi (fun v => g (P v)))]
  obtain ⟨V, hV⟩ : ∃ V, V = dif3Val tw dir wi (fun v => g (P v)) := ⟨_, rfl⟩
  rw [← hV, wr_updN_first g P V rfl (by rw [hV]; rfl) b0, bind_ok]
  cases dir with
  | forward =>
    rw [if_pos rfl, wr_updN g P V rfl (by rw [hV]; rfl) b1, bind_ok, wr_updN g P V rfl (by rw [hV]; rfl) b2]
  | backward =>
    rw [if_neg (by simp), wr_updN g P V rfl (by rw [hV]; rfl) b1, bind_ok, wr_updN g P V rfl (by rw [hV]; rfl) b2]

theorem dif5_any {n L : ℕ} (tw : ℕ → ℕ → Direction → C) (dir : Direction) :
    IsRadixButterfly 5 n L (dif5Val tw dir) (dif5ButterflyG tw dir L) := by
  intro i hi q hq wi g
  have hb := fun u (hu : u < 5) => block_bound hi hq hu
  set P := fun u => q * (5 * L) + i + u * L with hP
  have p0 : i + q * (5 * L) = P 0 := by simp [hP]; ring
  have p1 : i + q * (5 * L) + L = P 1 := by simp [hP]; ring
  have p2 : i + q * (5 * L) + 2 * L = P 2 := by simp [hP]; ring
  have p3 : i + q * (5 * L) + 3 * L = P 3 := by simp [hP]; ring
  have p4 : i + q * (5 * L) + 4 * L = P 4 := by simp [hP]; ring
  have b0 : P 0 < n := hb 0 (by norm_num)
  have b1 : P 1 < n := hb 1 (by norm_num)
  have b2 : P 2 < n := hb 2 (by norm_num)
  have b3 : P 3 < n := hb 3 (by norm_num)
  have b4 : P 4 < n := hb 4 (by norm_num)
  unfold dif5ButterflyG
  rw [p4, p3, p2, p1, p0, rd_vec_ok b0, rd_vec_ok b1, rd_vec_ok b2, rd_vec_ok b3, rd_vec_ok b4]
  simp only [bind_ok]
  rw [← butterfly_writes hi (by norm_num) g (dif5Val tw dir wi (fun v => g (P v)))]
  obtain ⟨V, hV⟩ : ∃ V, V = dif5Val tw dir wi (fun v => g (P v)) := ⟨_, rfl⟩
  rw [← hV, wr_updN_first g P V rfl (by rw [hV]; rfl) b0, bind_ok]
  cases dir with
  | forward =>
    rw [if_pos rfl, wr_updN g P V rfl (by rw [hV]; rfl) b1, bind_ok, wr_updN g P V rfl (by rw [hV]; rfl) b2, bind_ok,
      wr_updN g P V rfl (by rw [hV]; rfl) b3, bind_ok, wr_updN g P V rfl (by rw [hV]; rfl) b4]
  | backward =>
    rw [if_neg (by simp), wr_updN g P V rfl (by rw [hV]; rfl) b1, bind_ok, wr_updN g P V rfl (by rw [hV]; rfl) b2, bind_ok,
      wr_updN g P V rfl (by rw [hV]; rfl) b3, bind_ok, wr_updN g P V rfl (by rw [hV]; rfl) b4]

theorem dif3G_call {b : ℕ} (hb : b ≤ 18) (tw : ℕ → ℕ → Direction → C) (one : C) (dir : Direction) (X : ℕ → C) :
    (radixPlanOf 3 b).dif3G tw one (vec (3 ^ b) X) dir
      = .ok (vec (3 ^ b) (radixSt tw one 3 b dir (dif3Val tw dir) X b)) := by
  have h1 : 3 ^ (b + 1) < 2 ^ 31 :=
    lt_of_le_of_lt (Nat.pow_le_pow_right (by norm_num) (by omega : b + 1 ≤ 19)) (by norm_num)
  have h0 : 3 ^ b < 2 ^ 31 := lt_of_le_of_lt (Nat.pow_le_pow_right (by norm_num) (by omega)) h1
  unfold RadixPlan.dif3G
  dsimp only
  rw [length_vec, intBound_eq h0]
  exact radixG_call (by norm_num) h1 tw one dir (dif3_reads tw dir) _ (fun s _ => dif3_any tw dir) X

theorem dif5G_call {b : ℕ} (hb : b ≤ 12) (tw : ℕ → ℕ → Direction → C) (one : C) (dir : Direction) (X : ℕ → C) :
    (radixPlanOf 5 b).dif5G tw one (vec (5 ^ b) X) dir
      = .ok (vec (5 ^ b) (radixSt tw one 5 b dir (dif5Val tw dir) X b)) := by
  have h1 : 5 ^ (b + 1) < 2 ^ 31 :=
    lt_of_le_of_lt (Nat.pow_le_pow_right (by norm_num) (by omega : b + 1 ≤ 13)) (by norm_num)
  have h0 : 5 ^ b < 2 ^ 31 := lt_of_le_of_lt (Nat.pow_le_pow_right (by norm_num) (by omega)) h1
  unfold RadixPlan.dif5G
  dsimp only
  rw [length_vec, intBound_eq h0]
  exact radixG_call (by norm_num) h1 tw one dir (dif5_reads tw dir) _ (fun s _ => dif5_any tw dir) X

end Neo
