import Verif.Lemmas.Cola
import Mathlib.Algebra.Ring.CharZero
import Mathlib.Algebra.Module.BigOperators
import Mathlib.Tactic.FieldSimp
import Mathlib.Tactic.NormNum
import Mathlib.Data.Rat.Cast.Defs

/-!
# C58: the plugin's frame buffer

`frameSize = 2 ^ p`, `hopSize = 2 ^ (p - d)`.  After `prepare` and `reset` the stream of output blocks is
the overlap-add of the processed frames, `frameSize - 1` samples late, for every processor and every
slicing of the stream into blocks of at most the announced size.  The factor of `createWindow` makes
the gain 2 instead of 1, so the claim about an identity processor is false as stated.
-/

namespace Neo.Props
open Neo

section
variable {σ K M : Type} [Field K] [CharZero K] [AddCommGroup M] [Module K M]

/-- The configuration reached by constructor, `prepare` and `reset`. -/
theorem cola_setup (s₀ : σ) {p d B : ℕ} (hp : p < 31) (hd : d ≤ p) (hB : 1 ≤ B) (g₁ g₂ g₃ : ℕ → M) :
    ∃ s : Cola σ K M, (Cola.make p d s₀ >>= fun s => s.prepare g₁ g₂ g₃ B) = .ok s ∧
      s.frameSize = 2 ^ p ∧ s.hopSize = 2 ^ (p - d) ∧
      s.window = vec (2 ^ p) (fun _ => (2 / 2 ^ d : K)) ∧ s.frame = vec (2 ^ p) g₂ ∧
      s.unusedInput = vec (2 ^ p - 1) g₁ ∧ (∃ S, s.output = vec S g₃ ∧ 2 ^ p + B ≤ S + 1) ∧
      s.proc = s₀ ∧ s.outputOffset = 2 ^ p - 1 ∧ s.unusedCount = 0 := by
  have hdiv : 2 ^ p / 2 ^ d = 2 ^ (p - d) := Nat.pow_div hd (by norm_num)
  have hH : 0 < 2 ^ (p - d) := Nat.two_pow_pos _
  have hw : (1 * (1 / (((2 ^ p : ℕ) : K) / ((2 ^ (p - d) : ℕ) : K) / 2)) : K) = 2 / 2 ^ d := by
    have h2 : (2 : K) ≠ 0 := two_ne_zero
    have : (2 : K) ^ p = 2 ^ (p - d) * 2 ^ d := by rw [← pow_add, Nat.sub_add_cancel hd]
    push_cast
    rw [this]
    field_simp
  unfold Cola.make
  rw [if_pos ⟨hp, by omega⟩, bind_ok]
  unfold Cola.prepare colaWindow
  dsimp only
  rw [hdiv, if_neg (by omega), bind_ok]
  refine ⟨_, rfl, rfl, rfl, ?_, rfl, rfl, ⟨_, rfl, ?_⟩, rfl, by push_cast; rfl, rfl⟩
  · exact vec_ext (fun _ _ => hw)
  · have h1 : (0 : ℤ) ≤ ((B : ℤ) - 1) / ((2 ^ (p - d) : ℕ) : ℤ) := Int.ediv_nonneg (by omega) (by omega)
    generalize ((B : ℤ) - 1) / ((2 ^ (p - d) : ℕ) : ℤ) = k at h1
    generalize 2 ^ (p - d) = H at *
    generalize 2 ^ p = F at *
    have h2 : (0 : ℤ) ≤ k * H := mul_nonneg h1 (by omega)
    have h3 : (1 + k) * (H : ℤ) = H + k * H := by ring
    omega

/-- The output of the frame buffer for every frame processor (`step` is `processFrame`, with a state of
its own): the processed frames, overlap-added, `frameSize - 1` samples late.  Every output block has
the length of its input block. -/
theorem C58_overlap_add (step : σ → List M → σ × List M) (s₀ : σ) (p d B : ℕ) (hp : p < 31) (hd : d ≤ p)
    (hB : 1 ≤ B) (hstep : ∀ s b, b.length = 2 ^ p → (step s b).2.length = 2 ^ p) (g₁ g₂ g₃ : ℕ → M)
    (blocks : List (List M)) (hblocks : ∀ b ∈ blocks, b.length ≤ B) :
    ∃ (s s' : Cola σ K M) (outs : List (List M)),
      (Cola.make p d s₀ >>= fun s => s.prepare g₁ g₂ g₃ B) = .ok s ∧
      Cola.stream (fun a b => .ok (step a b)) s.reset blocks = .ok (s', outs) ∧
      outs.map List.length = blocks.map List.length ∧
      outs.flatten = vec blocks.flatten.length (fun n =>
        if n < 2 ^ p - 1 then 0 else
          Spec.overlapAdded (2 ^ p) (2 ^ (p - d))
            (Spec.frameOut step s₀ (fun a => (2 / 2 ^ d : K) • a) (2 ^ p) (2 ^ (p - d))
              (fun i => blocks.flatten.getD i 0)) (n - (2 ^ p - 1))) := by
  obtain ⟨s, e, h1, h2, h3, h4, h5, ⟨S, h6, hS⟩, h7, -, -⟩ :=
    cola_setup (K := K) s₀ hp hd hB g₁ g₂ g₃
  let q : ColaCfg σ K M :=
    { F := 2 ^ p, H := 2 ^ (p - d), S := S, B := B, w := 2 / 2 ^ d
      x := fun i => blocks.flatten.getD i 0
      proc := fun a b => .ok (step a b)
      st := Spec.frameState step s₀ (fun a => (2 / 2 ^ d : K) • a) (2 ^ p) (2 ^ (p - d))
              (fun i => blocks.flatten.getD i 0)
      P := Spec.frameOut step s₀ (fun a => (2 / 2 ^ d : K) • a) (2 ^ p) (2 ^ (p - d))
              (fun i => blocks.flatten.getD i 0)
      hH := Nat.one_le_two_pow
      hF := Nat.pow_le_pow_right (by norm_num) (by omega)
      hS := hS
      N := blocks.flatten.length
      hproc := fun j _ => rfl
      hlen := fun j => hstep _ _ (length_vec _ _)
      G := fun _ => 0
      hG := Or.inl (fun _ => rfl) }
  have hinv : ColaInv q 0 0 s.reset :=
    cola_inv_init q h1 h2 h3 (by rw [h4, length_vec]) (by rw [h5, length_vec])
      (by rw [h6, length_vec]) h7 (fun _ => rfl)
  obtain ⟨s', c, outs, e', -, hl, hf⟩ := cola_stream q blocks hblocks (Nat.zero_add _).le hinv (by
    intro i hi
    show _ = blocks.flatten.getD (0 + i) 0
    rw [Nat.zero_add, List.getD, List.getElem?_eq_getElem hi]; rfl)
  refine ⟨s, s', outs, e, e', hl, ?_⟩
  rw [hf]
  apply vec_ext
  intro n hn
  rw [Nat.zero_add, q.junk_zero (fun _ => rfl), zero_add]; rfl

/-- Two slicings of the same stream give the same output stream, for every frame processor. -/
theorem C58_slicing (step : σ → List M → σ × List M) (s₀ : σ) (p d B B' : ℕ) (hp : p < 31) (hd : d ≤ p)
    (hB : 1 ≤ B) (hB' : 1 ≤ B') (hstep : ∀ s b, b.length = 2 ^ p → (step s b).2.length = 2 ^ p)
    (g₁ g₂ g₃ g₁' g₂' g₃' : ℕ → M)
    (blocks blocks' : List (List M)) (hblocks : ∀ b ∈ blocks, b.length ≤ B)
    (hblocks' : ∀ b ∈ blocks', b.length ≤ B') (heq : blocks.flatten = blocks'.flatten) :
    ∃ (s s₁ s' s₁' : Cola σ K M) (outs outs' : List (List M)),
      (Cola.make p d s₀ >>= fun s => s.prepare g₁ g₂ g₃ B) = .ok s ∧
      Cola.stream (fun a b => .ok (step a b)) s.reset blocks = .ok (s', outs) ∧
      (Cola.make p d s₀ >>= fun s => s.prepare g₁' g₂' g₃' B') = .ok s₁ ∧
      Cola.stream (fun a b => .ok (step a b)) s₁.reset blocks' = .ok (s₁', outs') ∧
      outs.flatten = outs'.flatten := by
  obtain ⟨s, s', outs, e1, e2, -, e3⟩ :=
    C58_overlap_add (K := K) step s₀ p d B hp hd hB hstep g₁ g₂ g₃ blocks hblocks
  obtain ⟨s₁, s₁', outs', e1', e2', -, e3'⟩ :=
    C58_overlap_add (K := K) step s₀ p d B' hp hd hB' hstep g₁' g₂' g₃' blocks' hblocks'
  exact ⟨s, s₁, s', s₁', outs, outs', e1, e2, e1', e2', by rw [e3, e3', heq]⟩

/-- Number of frames over a sample, for frames of `m * H` samples every `H` samples. -/
theorem frames_over (m H t : ℕ) (hH : 0 < H) :
    ((Finset.range (t + 1)).filter (fun j => j * H ≤ t ∧ t < j * H + m * H)).card
      = if t < (m - 1) * H then t / H + 1 else m := by
  have hset : (Finset.range (t + 1)).filter (fun j => j * H ≤ t ∧ t < j * H + m * H)
      = Finset.Ico (t / H + 1 - m) (t / H + 1) := by
    ext j
    simp only [Finset.mem_filter, Finset.mem_range, Finset.mem_Ico]
    have h1 : j * H ≤ t ↔ j ≤ t / H := (Nat.le_div_iff_mul_le hH).symm
    have h2 : t < j * H + m * H ↔ t / H < j + m := by
      rw [← Nat.add_mul, Nat.div_lt_iff_lt_mul hH]
    have h3 : t / H ≤ t := Nat.div_le_self _ _
    rw [h1, h2]
    omega
  rw [hset, Nat.card_Ico]
  have h4 : t < (m - 1) * H ↔ t / H < m - 1 := (Nat.div_lt_iff_lt_mul hH).symm
  generalize t / H = r at *
  by_cases h : t < (m - 1) * H
  · have := h4.mp h
    rw [if_pos h]; omega
  · have := mt h4.mpr h
    rw [if_neg h]; omega

/-- **C58, partial.**  For a processor that leaves frames unchanged the output is the input delayed by
`frameSize - 1` samples, independently of the slicing, but with gain 2 instead of 1 (and during the
first `frameSize - hopSize` samples with the gain `(t / hopSize + 1) * 2 / 2 ^ d`, since fewer frames
overlap there).  Missing: unit gain, which is false, see `C58_false`. -/
theorem C58_partial (p d B : ℕ) (hp : p < 31) (hd : d ≤ p) (hB : 1 ≤ B) (g₁ g₂ g₃ : ℕ → M)
    (blocks : List (List M)) (hblocks : ∀ b ∈ blocks, b.length ≤ B) :
    ∃ (s s' : Cola Unit K M) (outs : List (List M)),
      (Cola.make p d () >>= fun s => s.prepare g₁ g₂ g₃ B) = .ok s ∧
      Cola.stream (fun a b => .ok (a, b)) s.reset blocks = .ok (s', outs) ∧
      outs.map List.length = blocks.map List.length ∧
      outs.flatten = vec blocks.flatten.length (fun n =>
        if n < 2 ^ p - 1 then 0 else
          (if n - (2 ^ p - 1) < 2 ^ p - 2 ^ (p - d)
            then (((n - (2 ^ p - 1)) / 2 ^ (p - d) + 1 : ℕ) : K) * 2 / 2 ^ d
            else 2) • blocks.flatten.getD (n - (2 ^ p - 1)) 0) := by
  obtain ⟨s, s', outs, e1, e2, e3, e4⟩ :=
    C58_overlap_add (K := K) (fun a b => (a, b)) () p d B hp hd hB (fun _ _ h => h) g₁ g₂ g₃ blocks
      hblocks
  refine ⟨s, s', outs, e1, e2, e3, ?_⟩
  rw [e4]
  apply vec_ext
  intro n hn
  split
  · rfl
  · rename_i hn'
    generalize n - (2 ^ p - 1) = t
    have hF : 2 ^ p = 2 ^ d * 2 ^ (p - d) := by rw [← pow_add, Nat.add_sub_cancel' hd]
    have hH : 0 < 2 ^ (p - d) := Nat.two_pow_pos _
    have hterm : ∀ j, (if j * 2 ^ (p - d) ≤ t ∧ t < j * 2 ^ (p - d) + 2 ^ p then
        (Spec.frameOut (fun (a : Unit) b => (a, b)) () (fun a => (2 / 2 ^ d : K) • a) (2 ^ p) (2 ^ (p - d))
          (fun i => blocks.flatten.getD i 0) j).getD (t - j * 2 ^ (p - d)) 0 else 0)
        = if j * 2 ^ (p - d) ≤ t ∧ t < j * 2 ^ (p - d) + 2 ^ d * 2 ^ (p - d) then
          (2 / 2 ^ d : K) • blocks.flatten.getD t 0 else 0 := by
      intro j
      rw [← hF]
      split
      · rename_i h
        unfold Spec.frameOut
        dsimp only
        rw [getD_vec _ _ _ _ (by omega), Nat.add_sub_cancel' h.1]
      · rfl
    unfold Spec.overlapAdded
    simp only [hterm]
    rw [← Finset.sum_filter, Finset.sum_const, frames_over _ _ _ hH]
    have hFH : 2 ^ p - 2 ^ (p - d) = (2 ^ d - 1) * 2 ^ (p - d) := by
      rw [Nat.sub_mul, ← hF, Nat.one_mul]
    rw [hFH, ← Nat.cast_smul_eq_nsmul K, smul_smul]
    congr 1
    split
    · ring
    · have h2 : (2 : K) ≠ 0 := two_ne_zero
      push_cast
      field_simp

/-- With hop divider 0, as `DenseConvolution` uses it, the gain is 2 from the first sample on. -/
theorem C58_divider_zero (p B : ℕ) (hp : p < 31) (hB : 1 ≤ B) (g₁ g₂ g₃ : ℕ → M)
    (blocks : List (List M)) (hblocks : ∀ b ∈ blocks, b.length ≤ B) :
    ∃ (s s' : Cola Unit K M) (outs : List (List M)),
      (Cola.make p 0 () >>= fun s => s.prepare g₁ g₂ g₃ B) = .ok s ∧
      Cola.stream (fun a b => .ok (a, b)) s.reset blocks = .ok (s', outs) ∧
      outs.flatten = vec blocks.flatten.length (fun n =>
        if n < 2 ^ p - 1 then 0 else (2 : K) • blocks.flatten.getD (n - (2 ^ p - 1)) 0) := by
  obtain ⟨s, s', outs, e1, e2, -, e4⟩ := C58_partial (K := K) p 0 B hp (by omega) hB g₁ g₂ g₃ blocks hblocks
  refine ⟨s, s', outs, e1, e2, ?_⟩
  rw [e4]
  apply vec_ext
  intro n hn
  simp

/-- **C58 is false**: for every frame size and every hop divider there is a stream for which the output
of an identity processor is not the input delayed by `frameSize - 1` samples. -/
theorem C58_false [Nontrivial M] (p d B : ℕ) (hp : p < 31) (hd : d ≤ p) (hB : 1 ≤ B) (g₁ g₂ g₃ : ℕ → M) :
    ∃ blocks : List (List M), (∀ b ∈ blocks, b.length ≤ B) ∧
      ∃ (s s' : Cola Unit K M) (outs : List (List M)),
        (Cola.make p d () >>= fun s => s.prepare g₁ g₂ g₃ B) = .ok s ∧
        Cola.stream (fun a b => .ok (a, b)) s.reset blocks = .ok (s', outs) ∧
        outs.flatten ≠ vec blocks.flatten.length (fun n =>
          if n < 2 ^ p - 1 then 0 else blocks.flatten.getD (n - (2 ^ p - 1)) 0) := by
  obtain ⟨a, ha⟩ := exists_ne (0 : M)
  refine ⟨List.replicate (2 * 2 ^ p) [a], fun b hb => ?_, ?_⟩
  · rw [List.eq_of_mem_replicate hb]; exact hB
  have hflat : (List.replicate (2 * 2 ^ p) [a]).flatten = List.replicate (2 * 2 ^ p) a := by
    generalize 2 * 2 ^ p = n
    induction n with
    | zero => rfl
    | succ n ih => rw [List.replicate_succ, List.flatten_cons, ih]; rfl
  obtain ⟨s, s', outs, e1, e2, -, e4⟩ := C58_partial (K := K) p d B hp hd hB g₁ g₂ g₃
    (List.replicate (2 * 2 ^ p) [a]) (fun b hb => by rw [List.eq_of_mem_replicate hb]; exact hB)
  refine ⟨s, s', outs, e1, e2, ?_⟩
  rw [e4, hflat, List.length_replicate]
  intro h
  have hF : 0 < 2 ^ p := Nat.two_pow_pos _
  have hH : 0 < 2 ^ (p - d) := Nat.two_pow_pos _
  have hle : 2 ^ (p - d) ≤ 2 ^ p := Nat.pow_le_pow_right (by norm_num) (by omega)
  have := (vec_inj.mp h) (2 * 2 ^ p - 1) (by omega)
  rw [if_neg (by omega), if_neg (by omega), if_neg (by omega), List.getD, List.getElem?_replicate, if_pos (by omega)] at this
  rw [two_smul] at this
  exact ha (by simpa using this)

omit [CharZero K] in
/-- Without a `reset` after `prepare` — as `PerceptualConvolution::prepare` and `BenchmarkTab` use
the class — the first output sample is whatever the freshly allocated memory held. -/
theorem C58_uninitialised [CharZero K] (proc : σ → List M → Res (σ × List M)) (s₀ : σ) (p d B : ℕ)
    (hp0 : 1 ≤ p) (hp : p < 31) (hd : d ≤ p) (hB : 1 ≤ B) (g₁ g₂ g₃ : ℕ → M) (a : M) :
    ∃ s s' : Cola σ K M, (Cola.make p d s₀ >>= fun s => s.prepare g₁ g₂ g₃ B) = .ok s ∧
      s.process proc [a] = .ok (s', [g₃ 0]) := by
  obtain ⟨s, e, h1, h2, h3, h4, h5, ⟨S, h6, hS⟩, h7, h8, h9⟩ :=
    cola_setup (K := K) s₀ hp hd hB g₁ g₂ g₃
  have hF2 : 2 ≤ 2 ^ p := by
    calc 2 = 2 ^ 1 := rfl
      _ ≤ 2 ^ p := Nat.pow_le_pow_right (by norm_num) hp0
  have hle : 2 ^ (p - d) ≤ 2 ^ p := Nat.pow_le_pow_right (by norm_num) (by omega)
  have hFz : (2 : ℤ) ^ p = ((2 ^ p : ℕ) : ℤ) := by push_cast; rfl
  rw [hFz] at h8
  generalize hFe : 2 ^ p = F at *
  generalize 2 ^ (p - d) = H at *
  refine ⟨s, ?_⟩
  have hrest : Cola.rest proc [a] 0 s = .ok { s with
      unusedInput := vec (F - 1) (fun m => if 0 ≤ m ∧ m < 0 + 1 then a else g₁ m), unusedCount := 1 } := by
    unfold Cola.rest
    rw [if_neg (by rw [h9]; omega)]
    simp only [List.length_singleton]
    unfold whileFuel
    rw [if_neg (by simp [h1, h9]; omega), bind_ok]
    dsimp only
    rw [h5]
    have : ([a] : List M) = vec 1 (fun _ => a) := rfl
    rw [this, copyN_vec (d := 0) (s := 0) (n := 1) _ _ (by simp) (by rw [h9]; simp) (by rw [h9]; simp)
      (by omega) (by omega), bind_ok, h9]
    rfl
  have hpr : s.process proc [a] = Cola.emit ((1 : ℕ) : ℤ) { s with
      unusedInput := vec (F - 1) (fun m => if 0 ≤ m ∧ m < 0 + 1 then a else g₁ m), unusedCount := 1 } := by
    unfold Cola.process
    unfold whileFuel
    rw [if_neg (by simp [h9]), bind_ok, h9, hrest, bind_ok]
    rfl
  rw [e, hpr]
  unfold Cola.emit
  simp only [h6, length_vec, Int.toNat_natCast, h1, h2, h8]
  rw [forN_succ, forN_zero, bind_ok, rdZ_vec (i := 0) rfl (by omega), bind_ok]
  have hshift : ∃ n : ℕ, (if ((1 : ℕ) : ℤ) + ((F : ℤ) - 1 + F - H - (1 : ℕ)) - S > 0 then
      (F : ℤ) - 1 + F - H - (1 : ℕ) - (((1 : ℕ) : ℤ) + ((F : ℤ) - 1 + F - H - (1 : ℕ)) - S)
      else (F : ℤ) - 1 + F - H - (1 : ℕ)) = n ∧ 1 + n ≤ S := by
    split
    · exact ⟨S - 1, by omega, by omega⟩
    · exact ⟨F - 1 + F - H - 1, by omega, by omega⟩
  obtain ⟨n, en, hn⟩ := hshift
  rw [pure_eq_ok, bind_ok, moveN_vec (s := 1) (n := n) _ rfl en hn, bind_ok]
  exact ⟨_, trivial, rfl⟩

omit [CharZero K] in
/-- A hop divider above the frame order makes the hop size 0, and `prepare` divides by it. -/
theorem C58_hop_zero (s₀ : σ) (p d B : ℕ) (hp : p < 31) (hd : p < d) (hd' : d < 32) (g₁ g₂ g₃ : ℕ → M) :
    (Cola.make p d s₀ >>= fun s : Cola σ K M => s.prepare g₁ g₂ g₃ B) = .error .divZero := by
  unfold Cola.make
  rw [if_pos ⟨hp, hd'⟩, bind_ok]
  unfold Cola.prepare colaWindow
  dsimp only
  rw [if_pos (Nat.div_eq_of_lt (Nat.pow_lt_pow_right (by norm_num) hd))]
  rfl

end

/-- A concrete stream: frames of 4 samples every 2 samples, blocks of 1, 3, 0 and 2 samples. -/
example : (do
    let s ← (Cola.make 2 1 () : Res (Cola Unit ℚ ℚ))
    let s ← s.prepare (fun _ => 9) (fun _ => 8) (fun _ => 7) 3
    let (_, outs) ← Cola.stream (fun a b => .ok (a, b)) s.reset [[1], [2, 3, 4], [], [5, 6]]
    pure outs) = .ok [[0], [0, 0, 1], [], [2, 6]] := by
  decide +kernel

end Neo.Props
