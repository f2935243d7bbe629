import Verif.Props.UpolaV2
import Verif.Props.OverlapExact
import Verif.Lemmas.UpcOk

/-!
# Exactly which call lengths `overlap_add_convolver` accepts correctly: C26

For every sequence of call lengths in which some call but the last is not a multiple of the block size
there are an impulse response and a signal for which the output is wrong.
-/

namespace Neo.Props

open Neo Finset

/-- The spectrum of the one-sample delay. -/
noncomputable def delaySpec (a : ℕ) (k : ℕ) : ℂ :=
  Spec.dft (2 ^ (a + 1)) (fun m => ((unitAt 1 m : ℝ) : ℂ)) k

/-- A one-segment delay whose window and overlap are silent, `q` samples into a block. -/
def V2Silent (N a q : ℕ) (u : UpolaV2) : Prop :=
  ∃ w ov, V2One N a (delaySpec a) q w ov u ∧ (∀ i < 2 ^ (a + 1), w i = 0) ∧ ∀ i < 2 ^ a, ov i = 0

theorem delay_zero {a : ℕ} {w : ℕ → ℝ} (hw : ∀ i < 2 ^ (a + 1), w i = 0) {i : ℕ}
    (hi : i < 2 ^ (a + 1)) :
    specOut (2 ^ (a + 1)) (fun k => Spec.dft (2 ^ (a + 1)) (fun i => ((w i : ℝ) : ℂ)) k
      * delaySpec a k) i = 0 := by
  unfold delaySpec
  rw [specOut_mul w _ hi]
  unfold Spec.circConv
  exact sum_eq_zero fun j hj => by rw [hw j (mem_range.1 hj), zero_mul]

theorem delay_unit {a q : ℕ} (ha : 1 ≤ a) {w : ℕ → ℝ} (hq : q + 1 < 2 ^ (a + 1))
    (hw : ∀ i < 2 ^ (a + 1), w i = unitAt q i) {i : ℕ} (hi : i < 2 ^ (a + 1)) :
    specOut (2 ^ (a + 1)) (fun k => Spec.dft (2 ^ (a + 1)) (fun i => ((w i : ℝ) : ℂ)) k
      * delaySpec a k) i = unitAt (q + 1) i := by
  unfold delaySpec
  rw [specOut_mul w _ hi]
  have : Spec.circConv (2 ^ (a + 1)) w (unitAt 1) i
      = Spec.circConv (2 ^ (a + 1)) (unitAt q) (unitAt 1) i := by
    unfold Spec.circConv
    exact sum_congr rfl fun j hj => by rw [hw j (mem_range.1 hj)]
  have h2 : 2 ≤ 2 ^ (a + 1) := by
    calc 2 = 2 ^ 1 := rfl
      _ ≤ _ := Nat.pow_le_pow_right (by norm_num) (by omega)
  rw [this, circConv_unit (by omega) (by omega) hi, Nat.mod_eq_of_lt hq]

/-- One chunk of silence. -/
theorem silent_chunk {N a q : ℕ} (ha2 : a ≤ 26) {u : UpolaV2} (hu : V2Silent N a q u) (hq : q < 2 ^ a)
    {M p n : ℕ} (hp : p < M) (hn : n = min (M - p) (2 ^ a - q)) (g : ℕ → ℝ)
    (hg : ∀ i, p ≤ i → i < p + n → g i = 0) :
    ∃ u', v2Chunk u (vec M g) p = .ok (u', vec M g, p + n) ∧
      (q + n < 2 ^ a → V2Silent N a (q + n) u') ∧ (q + n = 2 ^ a → V2Silent N a 0 u') := by
  obtain ⟨w, ov, h, hw, hov⟩ := hu
  have hK : 2 ^ (a + 1) = 2 ^ a + 2 ^ a := by rw [pow_succ]; ring
  obtain ⟨u', e, h1, h2⟩ := v2_chunk_one ha2 h hq.le hp hn g _ _ rfl rfl
  have hw' : ∀ i < 2 ^ (a + 1), (fun i => if q ≤ i ∧ i < q + n then g (p + (i - q)) else w i) i = 0 := by
    intro i hi
    beta_reduce
    split
    · exact hg _ (by omega) (by omega)
    · exact hw i hi
  have hz : ∀ i < 2 ^ (a + 1), specOut (2 ^ (a + 1)) (fun k => Spec.dft (2 ^ (a + 1)) (fun i =>
      (((fun i => if q ≤ i ∧ i < q + n then g (p + (i - q)) else w i) i : ℝ) : ℂ)) k
      * delaySpec a k) i = 0 := fun i hi => delay_zero hw' hi
  refine ⟨u', ?_, fun hlt => ⟨_, _, h1 hlt, hz, hov⟩, fun heq => ⟨_, _, h2 heq, fun _ _ => rfl, ?_⟩⟩
  · rw [e]
    congr 3
    apply vec_ext
    intro i hi
    split
    · rename_i c
      rw [hz _ (by omega), hov _ (by omega), hg i c.1 c.2, add_zero]
    · rfl
  · intro i hi
    rw [if_pos (by omega)]
    exact hz _ (by omega)

theorem v2Loop_step {fuel : ℕ} {u u' : UpolaV2} {x x' : List ℝ} {p p' : ℕ} (hp : p < x.length)
    (e : v2Chunk u x p = .ok (u', x', p')) : v2Loop (fuel + 1) u x p = v2Loop fuel u' x' p' := by
  rw [v2Loop, if_pos hp, e, bind_ok]

/-- The loop over a silent rest of the buffer. -/
theorem silent_loop {N a : ℕ} (ha2 : a ≤ 26) {M : ℕ} {g : ℕ → ℝ} :
    ∀ fuel p q (u : UpolaV2), V2Silent N a q u → q < 2 ^ a → p ≤ M → M - p < fuel →
      (∀ i, p ≤ i → i < M → g i = 0) →
      ∃ u', v2Loop fuel u (vec M g) p = .ok (u', vec M g) ∧ V2Silent N a ((q + (M - p)) % 2 ^ a) u' := by
  intro fuel
  induction fuel with
  | zero => intro p q u _ _ _ h; omega
  | succ fuel ih =>
    intro p q u hu hq hpM hf hg
    rcases Nat.lt_or_ge p M with hp | hp
    · obtain ⟨u1, e, h1, h2⟩ := silent_chunk ha2 hu hq hp rfl g (fun i c1 c2 => hg i c1 (by omega))
      rw [v2Loop_step (by rw [length_vec]; exact hp) e]
      set n := min (M - p) (2 ^ a - q) with hn
      rcases Nat.lt_or_ge (q + n) (2 ^ a) with hlt | hge
      · obtain ⟨u', e', hs⟩ := ih (p + n) (q + n) u1 (h1 hlt) hlt (by omega) (by omega)
          (fun i c1 c2 => hg i (by omega) c2)
        refine ⟨u', e', ?_⟩
        rwa [show q + n + (M - (p + n)) = q + (M - p) by omega] at hs
      · obtain ⟨u', e', hs⟩ := ih (p + n) 0 u1 (h2 (by omega)) (by omega) (by omega) (by omega)
          (fun i c1 c2 => hg i (by omega) c2)
        refine ⟨u', e', ?_⟩
        rwa [show q + (M - p) = 0 + (M - (p + n)) + 2 ^ a by omega, Nat.add_mod_right]
    · obtain rfl : p = M := by omega
      refine ⟨u, by rw [v2Loop, if_neg (by rw [length_vec]; omega)], ?_⟩
      rwa [Nat.sub_self, Nat.add_zero, Nat.mod_eq_of_lt hq]

/-- Whole blocks of silence in front of sample `m`. -/
theorem silent_prefix {N a : ℕ} (ha2 : a ≤ 26) {M m : ℕ} (hm : m ≤ M) {g : ℕ → ℝ} :
    ∀ k p fuel (u : UpolaV2), V2Silent N a 0 u → p + k * 2 ^ a = m → M - p < fuel →
      (∀ i, p ≤ i → i < m → g i = 0) →
      ∃ u' fuel', v2Loop fuel u (vec M g) p = v2Loop fuel' u' (vec M g) m ∧ V2Silent N a 0 u' ∧
        M - m < fuel' := by
  have hpow : 1 ≤ 2 ^ a := Nat.one_le_two_pow
  intro k
  induction k with
  | zero =>
    intro p fuel u hu hp hf _
    obtain rfl : p = m := by omega
    exact ⟨u, fuel, rfl, hu, hf⟩
  | succ k ih =>
    intro p fuel u hu hp hf hg
    rw [Nat.succ_mul] at hp
    obtain ⟨fuel, rfl⟩ : ∃ f, fuel = f + 1 := ⟨fuel - 1, by omega⟩
    obtain ⟨u1, e, -, h2⟩ := silent_chunk ha2 hu (by omega) (show p < M by omega)
      (n := 2 ^ a) (by omega) g (fun i c1 c2 => hg i c1 (by omega))
    rw [v2Loop_step (by rw [length_vec]; omega) e]
    exact ih (p + 2 ^ a) fuel u1 (h2 (by omega)) (by omega) (by omega)
      (fun i c1 c2 => hg i (by omega) c2)

/-- A silent call. -/
theorem silent_call {N a q : ℕ} (ha2 : a ≤ 26) {u : UpolaV2} (hu : V2Silent N a q u) (hq : q < 2 ^ a)
    {M : ℕ} (hM : 2 ^ a ≤ M) :
    ∃ u', u.call (vec M fun _ => 0) = .ok (u', vec M fun _ => 0) ∧ V2Silent N a ((q + M) % 2 ^ a) u' := by
  obtain ⟨w, ov, h, -⟩ := id hu
  unfold UpolaV2.call
  rw [h.blockSize, check_decide_ok (by rw [length_vec]; exact hM), bind_ok, length_vec]
  exact silent_loop ha2 (M + 2) 0 q u hu hq (by omega) (by omega) (fun _ _ _ => rfl)

/-- Silent calls, from any silent state. -/
theorem silent_calls {N a : ℕ} (ha2 : a ≤ 26) :
    ∀ (lens : List ℕ) (q : ℕ) (u : UpolaV2), V2Silent N a q u → q < 2 ^ a → (∀ l ∈ lens, 2 ^ a ≤ l) →
      ∃ u', runBlocks UpolaV2.call u (lens.map fun l => vec l fun _ => (0 : ℝ))
          = .ok (u', lens.map fun l => vec l fun _ => (0 : ℝ)) ∧
        ((∀ l ∈ lens, 2 ^ a ∣ l) → V2Silent N a q u') := by
  intro lens
  induction lens with
  | nil => intro q u hu _ _; exact ⟨u, rfl, fun _ => hu⟩
  | cons l lens ih =>
    intro q u hu hq hl
    obtain ⟨u1, e1, h1⟩ := silent_call ha2 hu hq (hl l (by simp))
    obtain ⟨u2, e2, h2⟩ := ih _ u1 h1 (Nat.mod_lt _ (by positivity)) (fun l h => hl l (by simp [h]))
    refine ⟨u2, ?_, fun hd => ?_⟩
    · rw [List.map_cons, runBlocks, e1, bind_ok]
      simp only []
      rw [e2]; rfl
    · have := h2 (fun l h => hd l (by simp [h]))
      obtain ⟨c, hc⟩ := hd l (by simp)
      rwa [hc, Nat.add_mul_mod_self_left, Nat.mod_eq_of_lt hq] at this

/-- A call of `k` whole blocks and `r` samples more, `0 < r < B`, whose last sample is a unit: all
output samples are 0, and the pending unit is at position `r` of the window, where the next input
sample goes. -/
theorem pending_call {N a : ℕ} (ha : 1 ≤ a) (ha2 : a ≤ 26) {u : UpolaV2} (hu : V2Silent N a 0 u)
    {k r : ℕ} (hk : 1 ≤ k) (hr : 1 ≤ r) (hr2 : r < 2 ^ a) :
    ∃ u' w ov, u.call (vec (k * 2 ^ a + r) (unitAt (k * 2 ^ a + r - 1)))
        = .ok (u', vec (k * 2 ^ a + r) fun _ => 0) ∧ V2One N a (delaySpec a) r w ov u' ∧
      (∀ i < 2 ^ (a + 1), w i = unitAt r i) ∧ ∀ i < 2 ^ a, ov i = 0 := by
  have hK : 2 ^ (a + 1) = 2 ^ a + 2 ^ a := by rw [pow_succ]; ring
  have hkB : 2 ^ a ≤ k * 2 ^ a := Nat.le_mul_of_pos_left _ hk
  obtain ⟨w0, ov0, h, -⟩ := id hu
  unfold UpolaV2.call
  rw [h.blockSize, check_decide_ok (by rw [length_vec]; omega), bind_ok, length_vec]
  generalize hm : k * 2 ^ a = m at *
  obtain ⟨u1, fuel, e1, hu1, hf⟩ := silent_prefix ha2 (M := m + r) (m := m) (by omega)
    (g := unitAt (m + r - 1)) k 0 (m + r + 2) u hu (by omega) (by omega) (fun i _ c => by
      unfold unitAt; rw [if_neg (by omega)])
  rw [e1]
  obtain ⟨w, ov, h1, hw, hov⟩ := hu1
  obtain ⟨fuel, rfl⟩ : ∃ f, fuel = f + 1 := ⟨fuel - 1, by omega⟩
  obtain ⟨fuel, rfl⟩ : ∃ f, fuel = f + 1 := ⟨fuel - 1, by omega⟩
  obtain ⟨W, hWd⟩ : ∃ W, W = specOut (2 ^ (a + 1)) (fun k => Spec.dft (2 ^ (a + 1)) (fun i =>
      (((fun i => if 0 ≤ i ∧ i < 0 + r then unitAt (m + r - 1) (m + (i - 0)) else w i) i : ℝ) : ℂ)) k
      * delaySpec a k) := ⟨_, rfl⟩
  obtain ⟨u', e, h2, -⟩ := v2_chunk_one ha2 h1 (by omega) (show m < m + r by omega) (n := r)
    (by omega) (unitAt (m + r - 1)) _ W rfl hWd
  have hW : ∀ i < 2 ^ (a + 1), W i = unitAt r i := by
    intro i hi
    have := delay_unit (q := r - 1) ha (by omega) (w := fun i => if 0 ≤ i ∧ i < 0 + r then
      unitAt (m + r - 1) (m + (i - 0)) else w i) (fun i hi => by
        beta_reduce
        split
        · unfold unitAt
          congr 1
          simp only [eq_iff_iff]
          omega
        · rw [hw i hi]; unfold unitAt; rw [if_neg (by omega)]) hi
    rw [hWd, this, show r - 1 + 1 = r by omega]
  simp only [Nat.zero_add] at h2 e
  refine ⟨u', W, ov, ?_, h2 hr2, hW, hov⟩
  rw [v2Loop_step (by rw [length_vec]; omega) e, v2Loop, if_neg (by rw [length_vec]; omega)]
  congr 2
  apply vec_ext
  intro i hi
  split
  · rw [hW _ (by omega), hov _ (by omega)]
    unfold unitAt; rw [if_neg (by omega), add_zero]
  · unfold unitAt; rw [if_neg (by omega)]

/-- A silent call after that: the pending unit is overwritten, and everything is silent. -/
theorem lost_call {N a : ℕ} (ha2 : a ≤ 26) {u : UpolaV2} {r : ℕ} {w ov : ℕ → ℝ}
    (hu : V2One N a (delaySpec a) r w ov u) (hw : ∀ i < 2 ^ (a + 1), w i = unitAt r i)
    (hov : ∀ i < 2 ^ a, ov i = 0) (hr2 : r < 2 ^ a) {M : ℕ} (hM : 2 ^ a ≤ M) :
    ∃ u' q, u.call (vec M fun _ => 0) = .ok (u', vec M fun _ => 0) ∧ V2Silent N a q u' ∧ q < 2 ^ a := by
  have hK : 2 ^ (a + 1) = 2 ^ a + 2 ^ a := by rw [pow_succ]; ring
  unfold UpolaV2.call
  rw [hu.blockSize, check_decide_ok (by rw [length_vec]; exact hM), bind_ok, length_vec]
  obtain ⟨u', e, -, h2⟩ := v2_chunk_one ha2 hu hr2.le (show 0 < M by omega) (n := 2 ^ a - r)
    (by omega) (fun _ => 0) _ _ rfl rfl
  have hz : ∀ i < 2 ^ (a + 1), specOut (2 ^ (a + 1)) (fun k => Spec.dft (2 ^ (a + 1)) (fun i =>
      (((fun i => if r ≤ i ∧ i < r + (2 ^ a - r) then (fun _ => (0 : ℝ)) (0 + (i - r)) else w i) i
        : ℝ) : ℂ)) k * delaySpec a k) i = 0 := fun i hi => delay_zero (fun i hi => by
      beta_reduce
      split
      · rfl
      · rw [hw i hi]; unfold unitAt; rw [if_neg (by omega)]) hi
  have hs : V2Silent N a 0 u' := ⟨_, _, h2 (by omega), fun _ _ => rfl, fun i hi => by
    rw [if_pos (by omega)]; exact hz _ (by omega)⟩
  obtain ⟨u2, e2, hs2⟩ := silent_loop ha2 (M := M) (g := fun _ => 0) (M + 1) (0 + (2 ^ a - r)) 0 u' hs
    (by omega) (by omega) (by omega) (fun _ _ _ => rfl)
  refine ⟨u2, _, ?_, hs2, Nat.mod_lt _ (by positivity)⟩
  rw [v2Loop_step (by rw [length_vec]; omega) e, ← e2]
  congr 1
  apply vec_ext
  intro i hi
  split
  · rw [hz _ (by omega), hov _ (by omega), add_zero]
  · rfl

theorem runBlocks_cat {S β γ : Type} {step : S → β → Res (S × γ)} {bs cs : List β} :
    ∀ {s s1 s2 : S} {o1 o2 : List γ}, runBlocks step s bs = .ok (s1, o1) →
      runBlocks step s1 cs = .ok (s2, o2) → runBlocks step s (bs ++ cs) = .ok (s2, o1 ++ o2) := by
  induction bs with
  | nil =>
    intro s s1 s2 o1 o2 h1 h2
    cases h1
    simpa using h2
  | cons b bs ih =>
    intro s s1 s2 o1 o2 h1 h2
    rw [runBlocks] at h1
    obtain ⟨⟨t, y⟩, e1, h1⟩ := bind_eq_ok h1
    obtain ⟨⟨t', ys⟩, e2, h1⟩ := bind_eq_ok h1
    cases h1
    rw [List.cons_append, runBlocks, e1, bind_ok]
    simp only []
    rw [ih e2 h2, bind_ok]
    rfl

theorem first_bad {P : ℕ → Prop} : ∀ lens : List ℕ, (¬ ∀ l ∈ lens.dropLast, P l) →
    ∃ pre l l2 post, lens = pre ++ l :: l2 :: post ∧ (∀ x ∈ pre, P x) ∧ ¬ P l := by
  intro lens
  induction lens with
  | nil => intro h; exact absurd (by simp) h
  | cons l lens ih =>
    intro h
    rcases lens with _ | ⟨l2, post⟩
    · exact absurd (by simp) h
    by_cases hl : P l
    · obtain ⟨pre, k, k2, post', e, h1, h2⟩ := ih (fun hc => h (by
        rw [List.dropLast_cons_of_ne_nil (by simp)]
        intro x hx
        rcases List.mem_cons.1 hx with rfl | hx
        · exact hl
        · exact hc x hx))
      exact ⟨l :: pre, k, k2, post', by rw [e]; rfl, by simpa using ⟨hl, h1⟩, h2⟩
    · exact ⟨[], l, l2, post, rfl, by simp, hl⟩

/-- **C26** fails for **every** block size `2 ^ a ≥ 2` and **every** sequence of accepted call lengths in
which some call but the last is not a multiple of the block size: there is a signal for which the
one-sample delay returns silence, although the convolution contains a 1. -/
theorem C26_every_partial_call_fails (a : ℕ) (ha : 1 ≤ a) (ha2 : a ≤ 26) (lens : List ℕ)
    (hlen : ∀ l ∈ lens, 2 ^ a ≤ l) (hbad : ¬ ∀ l ∈ lens.dropLast, 2 ^ a ∣ l) :
    ∃ N bins part, uniformPartition (MatView.right 1 2) [0, 1] (2 ^ a) = .ok (N, bins, part) ∧
      ∃ calls : List (List ℝ), calls.map List.length = lens ∧
        upolaV2Run (partitionView N bins 0) part calls
          = .ok (lens.map fun l => List.replicate l 0) ∧
        ∃ n < calls.flatten.length, Spec.conv (fun i => [(0 : ℝ), 1].getD i 0)
          (fun i => calls.flatten.getD i 0) n = 1 := by
  have hB : 2 ≤ 2 ^ a := by
    calc 2 = 2 ^ 1 := rfl
      _ ≤ _ := Nat.pow_le_pow_right (by norm_num) ha
  have hB2 : 2 ^ a ≤ 2 ^ 26 := Nat.pow_le_pow_right (by norm_num) ha2
  have hK : 2 ^ (a + 1) = 2 ^ a + 2 ^ a := by rw [pow_succ]; ring
  have hv : (MatView.right 1 2).InRange [(0 : ℝ), 1].length := by
    intro r hr c hc
    simp only [MatView.right, MatView.idx, List.length_cons, List.length_nil] at *
    omega
  have hcl : Nat.clog 2 (2 ^ a * 2) = a + 1 := by rw [← pow_succ, Nat.clog_pow 2 _ (by norm_num)]
  have hN : ((MatView.right 1 2).cols - 1) / 2 ^ a + 1 = 1 := by
    simp only [MatView.right]
    rw [Nat.div_eq_of_lt (by omega)]
  obtain ⟨part, e, hp⟩ := uniformPartition_eq hv Nat.one_le_two_pow hcl (by omega)
    (by simp [MatView.right]) (by simp [MatView.right]) (by
      rw [hN, two_pow_half]; simp only [MatView.right]; omega)
  rw [hN, two_pow_half] at e hp
  refine ⟨_, _, part, e, ?_⟩
  obtain ⟨hr, hd⟩ := hp 0 (by simp [MatView.right])
  obtain ⟨u0, e0, h1, h2⟩ := v2_make_eq
  have hseg : ∀ m, seg (2 ^ a) (chanAt (MatView.right 1 2) [0, 1] 0) 0 m = unitAt 1 m := by
    intro m
    unfold seg chanAt unitAt
    rcases m with _ | _ | m
    · simp [MatView.right, MatView.idx]
    · rw [if_pos (by omega)]; simp [MatView.right, MatView.idx]
    · simp [MatView.right, MatView.idx]
  obtain ⟨u1, e1, hu1⟩ := v2_load (N := 1) (a := a) ha2 hr rfl rfl (H := fun _ => delaySpec a)
    (fun r hr c hc => by
      obtain rfl : r = 0 := by
        simp only [partitionView] at hr; omega
      rw [hd 0 (by omega) c (by simpa [partitionView] using hc)]
      unfold delaySpec
      congr 1
      funext m
      rw [hseg]) (fun _ => 0) 0 (fun _ _ => rfl) u0 h1 (by rw [h2]; rfl)
  obtain ⟨ov, hone, hov⟩ := hu1.one
  have hs : V2Silent 1 a 0 u1 := ⟨_, _, hone, fun _ _ => rfl, hov⟩
  obtain ⟨pre, l, l2, post, hl, hpre, hnd⟩ := first_bad lens hbad
  subst hl
  obtain ⟨u2, e2, hs2⟩ := silent_calls ha2 pre 0 u1 hs (by omega) (fun x hx => hlen x (by simp [hx]))
  have hs2 := hs2 hpre
  have hlB := hlen l (by simp)
  set k := l / 2 ^ a with hk
  set r := l % 2 ^ a with hr'
  have hlk : k * 2 ^ a + r = l := by rw [hk, hr', Nat.mul_comm]; exact Nat.div_add_mod l (2 ^ a)
  have hk1 : 1 ≤ k := (Nat.one_le_div_iff (by omega)).2 hlB
  have hr1 : 1 ≤ r := by
    rw [Nat.one_le_iff_ne_zero]
    exact fun h => hnd (Nat.dvd_of_mod_eq_zero h)
  have hr2 : r < 2 ^ a := Nat.mod_lt _ (by omega)
  obtain ⟨u3, w3, ov3, e3, h3, hw3, hov3⟩ := pending_call ha ha2 hs2 hk1 hr1 hr2
  rw [hlk] at e3
  obtain ⟨u4, q4, e4, h4, hq4⟩ := lost_call ha2 h3 hw3 hov3 hr2 (hlen l2 (by simp))
  obtain ⟨u5, e5, -⟩ := silent_calls ha2 post q4 u4 h4 hq4 (fun x hx => hlen x (by simp [hx]))
  have hrun : runBlocks UpolaV2.call u1 (pre.map (fun l => vec l fun _ => (0 : ℝ)) ++
      vec l (unitAt (l - 1)) :: (vec l2 fun _ => 0) :: post.map (fun l => vec l fun _ => (0 : ℝ)))
      = .ok (u5, pre.map (fun l => vec l fun _ => (0 : ℝ)) ++
        (vec l fun _ => 0) :: (vec l2 fun _ => 0) :: post.map (fun l => vec l fun _ => (0 : ℝ))) := by
    refine runBlocks_cat e2 ?_
    rw [runBlocks, e3, bind_ok]
    simp only []
    rw [runBlocks, e4, bind_ok]
    simp only []
    rw [e5]
    rfl
  have hrep : ∀ n : ℕ, (vec n fun _ => (0 : ℝ)) = List.replicate n 0 := by
    intro n; unfold vec; rw [List.map_const', List.length_range]
  have hmaplen : ∀ ls : List ℕ, (ls.map fun l => vec l fun _ => (0 : ℝ)).map List.length = ls := by
    intro ls
    rw [List.map_map]
    conv_rhs => rw [← List.map_id ls]
    exact List.map_congr_left fun x _ => length_vec _ _
  refine ⟨pre.map (fun l => vec l fun _ => (0 : ℝ)) ++
      vec l (unitAt (l - 1)) :: (vec l2 fun _ => 0) :: post.map (fun l => vec l fun _ => (0 : ℝ)),
    ?_, ?_, (pre.map fun l => vec l fun _ => (0 : ℝ)).flatten.length + l, ?_, ?_⟩
  · rw [List.map_append, hmaplen, List.map_cons, List.map_cons, hmaplen, length_vec, length_vec]
  · unfold upolaV2Run
    rw [e0, bind_ok, e1, bind_ok, hrun, bind_ok]
    simp only []
    rw [pure_eq_ok]
    congr 1
    simp only [hrep, List.map_append, List.map_cons]
  · have := hlen l2 (by simp)
    rw [List.flatten_append, List.length_append, List.flatten_cons, List.length_append, length_vec,
      List.flatten_cons, List.length_append, length_vec]
    omega
  · set z := (pre.map fun l => vec l fun _ => (0 : ℝ)).flatten with hz
    have hget : ∀ i, (pre.map (fun l => vec l fun _ => (0 : ℝ)) ++ vec l (unitAt (l - 1)) ::
        (vec l2 fun _ => 0) :: post.map (fun l => vec l fun _ => (0 : ℝ))).flatten.getD
          (z.length + l - 1) 0 = i → i = 1 := by
      rintro _ rfl
      rw [List.flatten_append, ← hz, List.getD_eq_getElem?_getD,
        List.getElem?_append_right (by omega), List.flatten_cons,
        List.getElem?_append_left (by rw [length_vec]; omega), getElem?_vec, if_pos (by omega)]
      unfold unitAt
      rw [if_pos (by omega)]
      rfl
    unfold Spec.conv
    rw [sum_eq_single 1]
    · beta_reduce
      rw [hget _ rfl]
      simp
    · intro j _ hj
      rcases j with _ | _ | j
      · simp
      · exact absurd rfl hj
      · simp
    · intro h; exact absurd (mem_range.2 (by omega)) h

/-- **C26**, exactly: with blocks of `2 ^ a` samples and a given sequence of accepted call lengths,
`upola_convolver_v2` computes the linear convolution for every impulse response and every signal cut
into calls of these lengths **if and only if** every call but the last is a multiple of the block
size. -/
theorem C26_exact_shapes (a : ℕ) (ha2 : a ≤ 26) (lens : List ℕ) (hlen : ∀ l ∈ lens, 2 ^ a ≤ l) :
    (∀ (v : MatView) (data : List ℝ), v.InRange data.length → 1 ≤ v.cols → v.cols < 2 ^ 64 →
      v.rows * ((v.cols - 1) / 2 ^ a + 1) * (2 ^ a + 1) < 2 ^ 59 →
      ∃ N bins part, uniformPartition v data (2 ^ a) = .ok (N, bins, part) ∧
        ∀ c < v.rows, ∀ calls : List (List ℝ), calls.map List.length = lens →
          ∃ outs, upolaV2Run (partitionView N bins c) part calls = .ok outs ∧
            IsConvOf outs calls (fun i => if i < v.cols then data.getD (v.idx c i) 0 else 0))
    ↔ ∀ l ∈ lens.dropLast, 2 ^ a ∣ l := by
  constructor
  · intro H
    by_contra hbad
    have ha : 1 ≤ a := by
      rcases a with _ | a
      · exact absurd (fun l _ => by simp) hbad
      · omega
    have hB2 : 2 ^ a ≤ 2 ^ 26 := Nat.pow_le_pow_right (by norm_num) ha2
    obtain ⟨N, bins, part, e, calls, hc, hrun, n, hn, hconv⟩ :=
      C26_every_partial_call_fails a ha ha2 lens hlen hbad
    have hv : (MatView.right 1 2).InRange [(0 : ℝ), 1].length := by
      intro r hr c hc
      simp only [MatView.right, MatView.idx, List.length_cons, List.length_nil] at *
      omega
    have hB : 2 ≤ 2 ^ a := by
      calc 2 = 2 ^ 1 := rfl
        _ ≤ _ := Nat.pow_le_pow_right (by norm_num) ha
    obtain ⟨N', bins', part', e', h⟩ := H (MatView.right 1 2) [0, 1] hv (by simp [MatView.right])
      (by simp [MatView.right]) (by
        simp only [MatView.right]
        rw [Nat.div_eq_of_lt (by omega)]
        omega)
    rw [e] at e'
    cases e'
    obtain ⟨outs, ho, -, hv⟩ := h 0 (by simp [MatView.right]) calls hc
    rw [hrun] at ho
    cases ho
    have h1 := hv n hn
    rw [show (fun i => if i < (MatView.right 1 2).cols then
        [(0 : ℝ), 1].getD ((MatView.right 1 2).idx 0 i) 0 else 0) = fun i => [(0 : ℝ), 1].getD i 0 from by
      funext i
      rcases i with _ | _ | i <;> simp [MatView.right, MatView.idx], hconv] at h1
    have h0 := List.mem_of_getElem? h1
    rw [List.mem_flatten] at h0
    obtain ⟨x, hx, h0⟩ := h0
    obtain ⟨l, -, rfl⟩ := List.mem_map.1 hx
    have := List.eq_of_mem_replicate h0
    norm_num at this
  · intro hd v data hv hS hS2 hsz
    obtain ⟨N, bins, part, e, h⟩ := C26_partial v data hv a ha2 hS hS2 hsz
    refine ⟨N, bins, part, e, fun c hc calls hcl => h c hc calls ?_ ?_⟩
    · intro b hb
      exact hlen _ (hcl ▸ List.mem_map_of_mem hb)
    · intro b hb
      refine hd _ ?_
      rw [← hcl, ← List.map_dropLast]
      exact List.mem_map_of_mem hb

/-- A sequence of lengths on each side: blocks of four samples, calls of 8, 5 and of 5, 8 samples. -/
example : (∀ l ∈ [8, 5].dropLast, 2 ^ 2 ∣ l) ∧ ¬ (∀ l ∈ [5, 8].dropLast, 2 ^ 2 ∣ l) := by
  constructor <;> simp <;> decide

end Neo.Props
