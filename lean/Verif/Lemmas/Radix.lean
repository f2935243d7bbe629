import Verif.Model.Radix
import Verif.Lemmas.Keyed
import Verif.Lemmas.DigitRevPlan
import Verif.Lemmas.Root
import Verif.Lemmas.Bits

/-! # The in-place radix-3 and radix-5 plans compute the DFT -/

namespace Neo

open Finset

theorem forN_succ_left {σ : Type} (n : ℕ) (body : ℕ → σ → Res σ) (s : σ) :
    forN (n + 1) body s = (body 0 s >>= fun s => forN n (fun i => body (i + 1)) s) := by
  induction n with
  | zero =>
    show (.ok s >>= body 0) = _
    cases h : body 0 s <;> simp [h]
  | succ n ih =>
    rw [forN_succ, ih]
    cases h : body 0 s with
    | error e => rfl
    | ok v => rfl

theorem forIntStep_mul {σ : Type} {m B : ℕ} (hm : 0 < m) (hB : B * m < 2 ^ 31) (body : ℕ → σ → Res σ) :
    ∀ (c fuel t : ℕ) (s : σ), c ≤ fuel → t + c = B →
      forIntStep m (B * m) body fuel (t * m) s = forN c (fun i => body ((t + i) * m)) s := by
  intro c
  induction c with
  | zero =>
    intro fuel t s _ ht
    have : ¬ t * m < B * m := by rw [← ht]; simp
    cases fuel <;> simp [forIntStep, this]
  | succ c ih =>
    intro fuel t s hf ht
    cases fuel with
    | zero => omega
    | succ fuel =>
      have h1 : (t + 1) * m ≤ B * m := Nat.mul_le_mul_right _ (by omega)
      have h2 : (t + 1) * m = t * m + m := by ring
      rw [forIntStep, if_pos (by omega), forN_succ_left]
      simp only [add_zero]
      congr 1
      funext s'
      rw [if_pos (by omega), ← h2, ih fuel (t + 1) s' (by omega) (by omega)]
      congr 1
      funext i
      congr 2
      omega

theorem forIntMul_pow {σ : Type} {R b : ℕ} (hR : 2 ≤ R) (hb : R ^ (b + 1) < 2 ^ 31)
    (body : ℕ → σ → Res σ) (st : ℕ → σ)
    (hbody : ∀ s < b, body (R ^ (s + 1)) (st s) = .ok (st (s + 1))) :
    ∀ (c fuel s : ℕ), c ≤ fuel → s + c = b →
      forIntMul R (R ^ b) body fuel (R ^ (s + 1)) (st s) = .ok (st b) := by
  intro c
  induction c with
  | zero =>
    intro fuel s _ hs
    have hs : s = b := by omega
    subst hs
    have : ¬ R ^ (s + 1) ≤ R ^ s := by
      have := Nat.pow_lt_pow_right (a := R) (by omega) (Nat.lt_succ_self s)
      exact Nat.not_le.2 this
    cases fuel <;> simp [forIntMul, this]
  | succ c ih =>
    intro fuel s hf hs
    cases fuel with
    | zero => omega
    | succ fuel =>
      have h1 : R ^ (s + 1) ≤ R ^ b := Nat.pow_le_pow_right (by omega) (by omega)
      have h2 : R ^ (s + 1) * R = R ^ (s + 1 + 1) := (pow_succ R (s + 1)).symm
      have h3 : R ^ (s + 1 + 1) ≤ R ^ (b + 1) := Nat.pow_le_pow_right (by omega) (by omega)
      rw [forIntMul, if_pos h1, hbody s (by omega), bind_ok, h2, if_pos (by omega)]
      exact ih fuel (s + 1) (by omega) (by omega)

/-- The loop over `m` overflows once `R ^ (b + 1)` leaves `int`. -/
theorem forIntMul_overflow {σ : Type} {R b : ℕ} (hR : 2 ≤ R) (hb0 : R ^ b < 2 ^ 31)
    (hb : 2 ^ 31 ≤ R ^ (b + 1)) (body : ℕ → σ → Res σ) (st : ℕ → σ)
    (hbody : ∀ s < b, body (R ^ (s + 1)) (st s) = .ok (st (s + 1))) :
    ∀ (c fuel s : ℕ), c + 1 ≤ fuel → s + (c + 1) = b →
      forIntMul R (R ^ b) body fuel (R ^ (s + 1)) (st s) = .error .overflow := by
  intro c
  induction c with
  | zero =>
    intro fuel s hf hs
    cases fuel with
    | zero => omega
    | succ fuel =>
      have h2 : R ^ (s + 1) * R = R ^ (b + 1) := by rw [← hs, ← pow_succ]
      rw [forIntMul, if_pos (by rw [← hs]), hbody s (by omega), bind_ok, h2, if_neg (by omega)]
  | succ c ih =>
    intro fuel s hf hs
    cases fuel with
    | zero => omega
    | succ fuel =>
      have h1 : R ^ (s + 1) ≤ R ^ b := Nat.pow_le_pow_right (by omega) (by omega)
      have h2 : R ^ (s + 1) * R = R ^ (s + 1 + 1) := (pow_succ R (s + 1)).symm
      have h3 : R ^ (s + 1 + 1) ≤ R ^ b := Nat.pow_le_pow_right (by omega) (by omega)
      rw [forIntMul, if_pos h1, hbody s (by omega), bind_ok, h2, if_pos (by omega)]
      exact ih fuel (s + 1) (by omega) (by omega)

theorem intBound_eq {n : ℕ} (h : n < 2 ^ 31) : intBound n = n := by
  unfold intBound IntT.conv
  simp only [if_true]
  omega

/-! ## The stage -/

/-- What one decimation-in-time stage leaves at index `t`. -/
noncomputable def ditF (R L : ℕ) (w ζ : ℂ) (g : ℕ → ℂ) (t : ℕ) : ℂ :=
  ∑ v ∈ range R, g (t / (R * L) * (R * L) + t % L + v * L) * (w ^ (t % L)) ^ v * ζ ^ (v * (t / L % R))

theorem root_pow_sub {R b s : ℕ} (hR : 0 < R) (hs : s ≤ b) (dir : Direction) :
    root (R ^ s) dir = root (R ^ b) dir ^ R ^ (b - s) := by
  rw [root_pow_eq]
  unfold root
  congr 2
  have h1 : (R : ℂ) ^ b = R ^ s * R ^ (b - s) := by rw [← pow_add]; congr 1; omega
  have h2 : (R : ℂ) ≠ 0 := by exact_mod_cast hR.ne'
  push_cast
  rw [h1]
  field_simp

/-- One stage advances the decimation-in-time state. -/
theorem ditF_ditPartial {R b s : ℕ} (hR : 0 < R) (hs : s < b) (dir : Direction) (X : ℕ → ℂ) (t : ℕ) :
    ditF R (R ^ s) (root (R ^ (s + 1)) dir) (root R dir) (ditPartial R b s (root (R ^ b) dir) X) t
      = ditPartial R b (s + 1) (root (R ^ b) dir) X t := by
  have hN : R ^ b ≠ 0 := by positivity
  rw [ditPartial_succ hR hs (root_pow_self hN dir)]
  unfold ditF
  apply sum_congr rfl
  intro v _
  have hw : root (R ^ (s + 1)) dir = root (R ^ b) dir ^ R ^ (b - s - 1) := by
    rw [root_pow_sub (b := b) (s := s + 1) hR (by omega) dir]; congr 2
  have hζ : root R dir = root (R ^ b) dir ^ R ^ (b - 1) := by
    have := root_pow_sub (b := b) (s := 1) hR (by omega) dir
    rwa [pow_one] at this
  have hp : R ^ (s + 1) = R * R ^ s := by rw [pow_succ]; ring
  have hmod : t % (R * R ^ s) = t % R ^ s + R ^ s * (t / R ^ s % R) := by
    rw [Nat.mul_comm R, Nat.mod_mul]
  have hM : R ^ (b - 1) = R ^ s * R ^ (b - s - 1) := by rw [← pow_add]; congr 1; omega
  rw [hw, hζ, hp, hmod, hM]
  have e : t / (R * R ^ s) * (R * R ^ s) + v * R ^ s + t % R ^ s
      = t / (R * R ^ s) * (R * R ^ s) + t % R ^ s + v * R ^ s := by ring
  rw [e, ← pow_mul, ← pow_mul, ← pow_mul, mul_assoc, ← pow_add, mul_comm]
  congr 2
  ring

/-- The butterfly at `(i, q)` rewrites its `R` elements as the stage should. -/
def IsDitButterfly (R n L : ℕ) (ζ : ℂ) (bf : ℕ → ℕ → ℂ → List ℂ → Res (List ℂ)) : Prop :=
  ∀ i < L, ∀ q, (q + 1) * (R * L) ≤ n → ∀ (wi : ℂ) (g : ℕ → ℂ),
    bf i (q * (R * L)) wi (vec n g) = .ok (vec n (fun t => if t % L = i ∧ t / (R * L) = q
      then ∑ v ∈ range R, g (q * (R * L) + i + v * L) * wi ^ v * ζ ^ (v * (t / L % R)) else g t))

theorem difStage_vec {R b s : ℕ} (hR : 2 ≤ R) (hs : s < b) (hb : R ^ b < 2 ^ 31) (dir : Direction)
    (bf : (mr i j : ℕ) → ℂ → List ℂ → Res (List ℂ))
    (hbf : IsDitButterfly R (R ^ b) (R ^ s) (root R dir) (bf (R ^ s))) (g : ℕ → ℂ) :
    difStageG twiddle 1 R (R ^ b) dir bf (R ^ (s + 1)) (vec (R ^ b) g)
      = .ok (vec (R ^ b) (ditF R (R ^ s) (root (R ^ (s + 1)) dir) (root R dir) g)) := by
  unfold difStageG
  dsimp only
  rw [twiddle_eq, pow_one]
  have hL : 0 < R ^ s := by positivity
  have hp : R ^ (s + 1) = R * R ^ s := by rw [pow_succ]; ring
  have hmr : R ^ (s + 1) / R = R ^ s := by rw [hp, Nat.mul_div_cancel_left _ (by omega)]
  have hn : R ^ b = R ^ (b - s - 1) * R ^ (s + 1) := by rw [← pow_add]; congr 1; omega
  have hpos : 0 < R ^ (s + 1) := by positivity
  set w := root (R ^ (s + 1)) dir with hw
  set ζ := root R dir with hζ
  rw [hmr, forN_eq' (s' := (vec (R ^ b) (ditF R (R ^ s) w ζ g), w ^ R ^ s))
    (fun i => (vec (R ^ b) (keyedSt (fun t => t % R ^ s) (fun t => t / (R * R ^ s))
      (ditF R (R ^ s) w ζ) g i 0), w ^ i))]
  · rfl
  · rw [keyedSt_start, pow_zero]
  · rw [keyedSt_end _ _ _ (fun t _ => Nat.mod_lt _ hL)]
  · intro i hi
    dsimp only
    have e1 := forIntStep_mul (m := R ^ (s + 1)) (B := R ^ (b - s - 1)) hpos (by omega)
      (fun j x => bf (R ^ s) i j (w ^ i) x) (R ^ (b - s - 1)) (R ^ b) 0
      (vec (R ^ b) (keyedSt (fun t => t % R ^ s) (fun t => t / (R * R ^ s))
        (ditF R (R ^ s) w ζ) g i 0)) (by rw [hn]; exact Nat.le_mul_of_pos_right _ hpos) (by omega)
    rw [← hn] at e1
    simp only [Nat.zero_mul, Nat.zero_add] at e1
    rw [e1, keyedInner (k1 := fun t => t % R ^ s) (k2 := fun t => t / (R * R ^ s))
      (F := ditF R (R ^ s) w ζ) g i, bind_ok, pure_eq_ok, ← pow_succ]
    · intro t ht
      rw [Nat.div_lt_iff_lt_mul (by rw [← hp]; exact hpos), ← hp, ← hn]
      exact ht
    · intro f f' t ht h
      unfold ditF
      apply sum_congr rfl
      intro v hv
      have hv := mem_range.1 hv
      have d := (index_decomp (i := t / (R * R ^ s) * (R * R ^ s) + t % R ^ s + v * R ^ s)
        (L := R ^ s) (q := t / (R * R ^ s)) (Nat.mod_lt t hL) hv).1 rfl
      rw [h _ _ d.2.1 d.1]
      have hq : t / (R * R ^ s) + 1 ≤ R ^ (b - s - 1) := by
        rw [Nat.add_one_le_iff, Nat.div_lt_iff_lt_mul (by rw [← hp]; exact hpos), ← hp, ← hn]
        exact ht
      have h1 : (t / (R * R ^ s) + 1) * (R * R ^ s) ≤ R ^ b := by
        calc _ ≤ R ^ (b - s - 1) * (R * R ^ s) := Nat.mul_le_mul_right _ hq
          _ = R ^ b := by rw [← hp, ← hn]
      have h2 : (v + 1) * R ^ s ≤ R * R ^ s := Nat.mul_le_mul_right _ hv
      have h3 := Nat.mod_lt t hL
      have h4 : (t / (R * R ^ s) + 1) * (R * R ^ s) = t / (R * R ^ s) * (R * R ^ s) + R * R ^ s := by ring
      have h5 : (v + 1) * R ^ s = v * R ^ s + R ^ s := by ring
      omega
    · intro q hq f
      rw [hp]
      have hq' : (q + 1) * (R * R ^ s) ≤ R ^ b := by
        calc _ ≤ R ^ (b - s - 1) * (R * R ^ s) := Nat.mul_le_mul_right _ hq
          _ = R ^ b := by rw [← hp, ← hn]
      rw [hbf i hi q hq']
      congr 1
      apply vec_ext
      intro t _
      by_cases h : t % R ^ s = i ∧ t / (R * R ^ s) = q
      · rw [if_pos h, if_pos h]
        unfold ditF
        rw [h.1, h.2]
      · rw [if_neg h, if_neg h]

/-- The plans with a correct butterfly compute the DFT. -/
theorem radix_call {R b : ℕ} (hR : 2 ≤ R) (hb : R ^ (b + 1) < 2 ^ 31) (dir : Direction)
    (bf : (mr i j : ℕ) → ℂ → List ℂ → Res (List ℂ))
    (hbf : ∀ s < b, IsDitButterfly R (R ^ b) (R ^ s) (root R dir) (bf (R ^ s))) (X : ℕ → ℂ) :
    (do let x ← digitrevApply (vec (R ^ b) (fun i => if i < R ^ b - 1 then digitRev R b i else 0))
          (vec (R ^ b) X)
        forIntMul R (R ^ b) (difStageG twiddle 1 R (R ^ b) dir bf) 32 R x)
      = .ok (vec (R ^ b) (specDft dir (R ^ b) X)) := by
  rw [digitrev_plan hR, bind_ok]
  have hb32 : b ≤ 32 := by
    by_contra h
    have h1 : 2 ^ 33 ≤ 2 ^ b := Nat.pow_le_pow_right (by norm_num) (by omega)
    have h2 : 2 ^ b ≤ R ^ b := Nat.pow_le_pow_left hR b
    have h3 : R ^ b ≤ R ^ (b + 1) := Nat.pow_le_pow_right (by omega) (by omega)
    omega
  have hlt : R ^ b < 2 ^ 31 := lt_of_le_of_lt (Nat.pow_le_pow_right (by omega) (by omega)) hb
  have key := forIntMul_pow hR hb (difStageG twiddle 1 R (R ^ b) dir bf)
    (fun s => vec (R ^ b) (ditPartial R b s (root (R ^ b) dir) X)) (by
      intro s hs
      rw [difStage_vec hR hs hlt dir bf (hbf s hs)]
      congr 1
      exact vec_ext (fun t _ => ditF_ditPartial (by omega) hs dir X t)) b 32 0 hb32 (by omega)
  rw [zero_add, pow_one] at key
  have h0 : vec (R ^ b) (fun i => X (digitRev R b i))
      = vec (R ^ b) (ditPartial R b 0 (root (R ^ b) dir) X) :=
    vec_ext (fun i _ => (ditPartial_zero R b _ X i).symm)
  rw [h0, key]
  congr 1
  exact vec_ext (fun i hi => by rw [ditPartial_last _ _ _ _ hi, dftRoot_dir])

theorem radix_call_overflow {R b : ℕ} (hR : 2 ≤ R) (hb1 : 1 ≤ b) (hb0 : R ^ b < 2 ^ 31)
    (hb : 2 ^ 31 ≤ R ^ (b + 1)) (dir : Direction) (bf : (mr i j : ℕ) → ℂ → List ℂ → Res (List ℂ))
    (hbf : ∀ s < b, IsDitButterfly R (R ^ b) (R ^ s) (root R dir) (bf (R ^ s))) (X : ℕ → ℂ) :
    (do let x ← digitrevApply (vec (R ^ b) (fun i => if i < R ^ b - 1 then digitRev R b i else 0))
          (vec (R ^ b) X)
        forIntMul R (R ^ b) (difStageG twiddle 1 R (R ^ b) dir bf) 32 R x) = .error .overflow := by
  rw [digitrev_plan hR, bind_ok]
  have hb32 : b ≤ 32 := by
    by_contra h
    have h1 : 2 ^ 33 ≤ 2 ^ b := Nat.pow_le_pow_right (by norm_num) (by omega)
    have h2 : 2 ^ b ≤ R ^ b := Nat.pow_le_pow_left hR b
    omega
  have key := forIntMul_overflow hR hb0 hb (difStageG twiddle 1 R (R ^ b) dir bf)
    (fun s => vec (R ^ b) (ditPartial R b s (root (R ^ b) dir) X)) (by
      intro s hs
      rw [difStage_vec hR hs hb0 dir bf (hbf s hs)]
      congr 1
      exact vec_ext (fun t _ => ditF_ditPartial (by omega) hs dir X t)) (b - 1) 32 0 (by omega)
      (by omega)
  rw [zero_add, pow_one] at key
  have h0 : vec (R ^ b) (fun i => X (digitRev R b i))
      = vec (R ^ b) (ditPartial R b 0 (root (R ^ b) dir) X) :=
    vec_ext (fun i _ => (ditPartial_zero R b _ X i).symm)
  rw [h0, key]

/-! ## The butterflies -/

theorem root_pow_backward {R : ℕ} (hR : 0 < R) {k : ℕ} (hk : k ≤ R) :
    root R .forward ^ k = root R .backward ^ (R - k) := by
  have h1 := root_pow_self hR.ne' .backward
  have h2 : root R .backward ^ k * root R .backward ^ (R - k) = 1 := by
    rw [← pow_add, show k + (R - k) = R by omega, h1]
  have h3 : root R .forward ^ k * root R .backward ^ k = 1 := by
    rw [← mul_pow, root_forward_mul_backward, one_pow]
  calc root R .forward ^ k = root R .forward ^ k * (root R .backward ^ k * root R .backward ^ (R - k)) := by
        rw [h2, mul_one]
    _ = _ := by rw [← mul_assoc, h3, one_mul]

theorem block_bound {R L n i q u : ℕ} (hi : i < L) (hq : (q + 1) * (R * L) ≤ n) (hu : u < R) :
    q * (R * L) + i + u * L < n := by
  have h1 : (q + 1) * (R * L) = q * (R * L) + R * L := by ring
  have h2 : (u + 1) * L ≤ R * L := Nat.mul_le_mul_right _ hu
  have h3 : (u + 1) * L = u * L + L := by ring
  omega

/-- The writes of a butterfly, described by keys. -/
theorem butterfly_writes {α : Type} {R L n i q : ℕ} (hi : i < L) (hR : 0 < R) (g val : ℕ → α) :
    vec n (updN g (fun u => q * (R * L) + i + u * L) val R)
      = vec n (fun t => if t % L = i ∧ t / (R * L) = q then val (t / L % R) else g t) := by
  refine vec_updN g _ val (fun t => t / L % R) (fun t => t % L = i ∧ t / (R * L) = q)
    (fun t _ => Nat.mod_lt _ hR) ?_
  intro t _ u hu
  rw [index_decomp hi hu]
  tauto

theorem dif3_butterfly {n L : ℕ} (dir : Direction) :
    IsDitButterfly 3 n L (root 3 dir) (dif3ButterflyG twiddle dir L) := by
  intro i hi q hq wi g
  have hb := fun u (hu : u < 3) => block_bound hi hq hu
  set P := fun u => q * (3 * L) + i + u * L with hP
  have p0 : i + q * (3 * L) = P 0 := by simp [hP]; ring
  have p1 : i + q * (3 * L) + L = P 1 := by simp [hP]; ring
  have p2 : i + q * (3 * L) + 2 * L = P 2 := by simp [hP]; ring
  have b0 : P 0 < n := hb 0 (by norm_num)
  have b1 : P 1 < n := hb 1 (by norm_num)
  have b2 : P 2 < n := hb 2 (by norm_num)
  unfold dif3ButterflyG
  rw [p2, p1, p0, rd_vec_ok b0, rd_vec_ok b1, rd_vec_ok b2]
  simp only [bind_ok, twiddle_eq]
  obtain ⟨V, hV⟩ : ∃ V : ℕ → ℂ, V = fun u => ∑ v ∈ range 3, g (P v) * wi ^ v * root 3 dir ^ (v * u) :=
    ⟨_, rfl⟩
  rw [← butterfly_writes hi (by norm_num) g
    (fun u => ∑ v ∈ range 3, g (P v) * wi ^ v * root 3 dir ^ (v * u)), ← hV]
  have hz := root_pow_self (N := 3) (by norm_num) dir
  have z4 : root 3 dir ^ 4 = root 3 dir := by rw [pow_succ, hz, one_mul]
  rw [wr_updN_first g P V rfl _ b0, bind_ok]
  · cases dir with
    | forward =>
      rw [if_pos rfl, wr_updN g P V rfl _ b1, bind_ok, wr_updN g P V rfl _ b2]
      · simp only [hV, sum_range_succ, sum_range_zero, Nat.reduceMul, Nat.reduceSub, mul_zero, zero_mul,
          mul_one, pow_zero, pow_one, zero_add, z4]; ring
      · simp only [hV, sum_range_succ, sum_range_zero, Nat.reduceMul, Nat.reduceSub, mul_zero, zero_mul,
          mul_one, pow_zero, pow_one, zero_add]; ring
    | backward =>
      rw [if_neg (by simp), wr_updN g P V rfl _ b1, bind_ok, wr_updN g P V rfl _ b2]
      · rw [root_pow_backward (R := 3) (k := 1) (by norm_num) (by norm_num),
          root_pow_backward (R := 3) (k := 2) (by norm_num) (by norm_num)]
        simp only [hV, sum_range_succ, sum_range_zero, Nat.reduceMul, Nat.reduceSub, mul_zero, zero_mul,
          mul_one, pow_zero, pow_one, zero_add, z4]; ring
      · rw [root_pow_backward (R := 3) (k := 1) (by norm_num) (by norm_num),
          root_pow_backward (R := 3) (k := 2) (by norm_num) (by norm_num)]
        simp only [hV, sum_range_succ, sum_range_zero, Nat.reduceMul, Nat.reduceSub, mul_zero, zero_mul,
          mul_one, pow_zero, pow_one, zero_add]; ring
  · simp only [hV, sum_range_succ, sum_range_zero, Nat.reduceMul, Nat.reduceSub, mul_zero, zero_mul,
          mul_one, pow_zero, pow_one, zero_add]; ring

theorem dif5_butterfly {n L : ℕ} (dir : Direction) :
    IsDitButterfly 5 n L (root 5 dir) (dif5ButterflyG twiddle dir L) := by
  intro i hi q hq wi g
  have hb := fun u (hu : u < 5) => block_bound hi hq hu
  set P := fun u => q * (5 * L) + i + u * L with hP
  have p0 : i + q * (5 * L) = P 0 := by simp [hP]; ring
  have p1 : i + q * (5 * L) + L = P 1 := by simp [hP]; ring
  have p2 : i + q * (5 * L) + 2 * L = P 2 := by simp [hP]; ring
  have p3 : i + q * (5 * L) + 3 * L = P 3 := by simp [hP]; ring
  have p4 : i + q * (5 * L) + 4 * L = P 4 := by simp [hP]; ring
  have b0 : P 0 < n := hb 0 (by norm_num)
  have b1 : P 1 < n := hb 1 (by norm_num)
  have b2 : P 2 < n := hb 2 (by norm_num)
  have b3 : P 3 < n := hb 3 (by norm_num)
  have b4 : P 4 < n := hb 4 (by norm_num)
  unfold dif5ButterflyG
  rw [p4, p3, p2, p1, p0, rd_vec_ok b0, rd_vec_ok b1, rd_vec_ok b2, rd_vec_ok b3, rd_vec_ok b4]
  simp only [bind_ok, twiddle_eq]
  obtain ⟨V, hV⟩ : ∃ V : ℕ → ℂ, V = fun u => ∑ v ∈ range 5, g (P v) * wi ^ v * root 5 dir ^ (v * u) :=
    ⟨_, rfl⟩
  rw [← butterfly_writes hi (by norm_num) g
    (fun u => ∑ v ∈ range 5, g (P v) * wi ^ v * root 5 dir ^ (v * u)), ← hV]
  have hz := root_pow_self (N := 5) (by norm_num) dir
  have hp : ∀ k, root 5 dir ^ (k + 5) = root 5 dir ^ k := fun k => by rw [pow_add, hz, mul_one]
  have z6 : root 5 dir ^ 6 = root 5 dir := by rw [hp 1, pow_one]
  have z8 : root 5 dir ^ 8 = root 5 dir ^ 3 := hp 3
  have z9 : root 5 dir ^ 9 = root 5 dir ^ 4 := hp 4
  have z12 : root 5 dir ^ 12 = root 5 dir ^ 2 := by rw [hp 7, hp 2]
  have z16 : root 5 dir ^ 16 = root 5 dir := by rw [hp 11, hp 6, z6]
  rw [wr_updN_first g P V rfl _ b0, bind_ok]
  · cases dir with
    | forward =>
      rw [if_pos rfl, wr_updN g P V rfl _ b1, bind_ok, wr_updN g P V rfl _ b2, bind_ok,
        wr_updN g P V rfl _ b3, bind_ok, wr_updN g P V rfl _ b4]
      all_goals (simp only [hV, sum_range_succ, sum_range_zero, Nat.reduceMul, Nat.reduceSub, mul_zero, zero_mul,
          mul_one, pow_zero, pow_one, zero_add, z6, z8, z9, z12, z16]; ring)
    | backward =>
      rw [if_neg (by simp), wr_updN g P V rfl _ b1, bind_ok, wr_updN g P V rfl _ b2, bind_ok,
        wr_updN g P V rfl _ b3, bind_ok, wr_updN g P V rfl _ b4]
      all_goals
        rw [root_pow_backward (R := 5) (k := 1) (by norm_num) (by norm_num),
          root_pow_backward (R := 5) (k := 2) (by norm_num) (by norm_num),
          root_pow_backward (R := 5) (k := 3) (by norm_num) (by norm_num),
          root_pow_backward (R := 5) (k := 4) (by norm_num) (by norm_num)]
        simp only [hV, sum_range_succ, sum_range_zero, Nat.reduceMul, Nat.reduceSub, mul_zero, zero_mul,
          mul_one, pow_zero, pow_one, zero_add, z6, z8, z9, z12, z16]; ring
  · simp only [hV, sum_range_succ, sum_range_zero, Nat.reduceMul, Nat.reduceSub, mul_zero, zero_mul,
          mul_one, pow_zero, pow_one, zero_add]; ring

end Neo

namespace Neo

/-- The plan object of order `b`. -/
def radixPlanOf (R b : ℕ) : RadixPlan :=
  { order := b, reorder := vec (R ^ b) (fun i => if i < R ^ b - 1 then digitRev R b i else 0) }

theorem radixPlan_make_eq {R : ℕ} (hR : 2 ≤ R) (b : ℕ) :
    RadixPlan.make R b = .ok (radixPlanOf R b) := by
  unfold RadixPlan.make
  rw [ipow_eq, digitrevMake_eq hR, bind_ok]
  rfl

theorem dif3_call {b : ℕ} (hb : b ≤ 18) (dir : Direction) (X : ℕ → ℂ) :
    (radixPlanOf 3 b).dif3 (vec (3 ^ b) X) dir = .ok (vec (3 ^ b) (specDft dir (3 ^ b) X)) := by
  have h1 : 3 ^ (b + 1) < 2 ^ 31 :=
    lt_of_le_of_lt (Nat.pow_le_pow_right (by norm_num) (by omega : b + 1 ≤ 19)) (by norm_num)
  have h0 : 3 ^ b < 2 ^ 31 := lt_of_le_of_lt (Nat.pow_le_pow_right (by norm_num) (by omega)) h1
  unfold RadixPlan.dif3 RadixPlan.dif3G
  dsimp only
  rw [length_vec, intBound_eq h0]
  exact radix_call (by norm_num) h1 dir _ (fun s _ => dif3_butterfly dir) X

theorem dif5_call {b : ℕ} (hb : b ≤ 12) (dir : Direction) (X : ℕ → ℂ) :
    (radixPlanOf 5 b).dif5 (vec (5 ^ b) X) dir = .ok (vec (5 ^ b) (specDft dir (5 ^ b) X)) := by
  have h1 : 5 ^ (b + 1) < 2 ^ 31 :=
    lt_of_le_of_lt (Nat.pow_le_pow_right (by norm_num) (by omega : b + 1 ≤ 13)) (by norm_num)
  have h0 : 5 ^ b < 2 ^ 31 := lt_of_le_of_lt (Nat.pow_le_pow_right (by norm_num) (by omega)) h1
  unfold RadixPlan.dif5 RadixPlan.dif5G
  dsimp only
  rw [length_vec, intBound_eq h0]
  exact radix_call (by norm_num) h1 dir _ (fun s _ => dif5_butterfly dir) X

end Neo
