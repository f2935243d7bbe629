import Verif.Lemmas.FftConv

/-! # Streaming convolution -/

namespace Neo

open Finset

/-- Feeding `blocks` to the block processor `step` started in `s0` succeeds and yields blocks of
the same lengths; sample `n` of the concatenated output is
`∑_{m ≤ n} h m · x (n - m)`, `x` being the concatenated input. -/
def StreamsConv {S : Type} (step : S → List ℝ → Res (S × List ℝ)) (s0 : S)
    (blocks : List (List ℝ)) (h : ℕ → ℝ) : Prop :=
  ∃ s' outs, runBlocks step s0 blocks = .ok (s', outs) ∧
    outs.map List.length = blocks.map List.length ∧
    ∀ n < blocks.flatten.length,
      outs.flatten[n]? = some (Spec.conv h (fun i => blocks.flatten.getD i 0) n)

theorem vec_const_len {α : Type} {B T : ℕ} {g : ℕ → ℕ → α} :
    (vec T (fun t => vec B (g t))).map List.length = List.replicate T B := by
  induction T with
  | zero => rfl
  | succ T ih => rw [vec_succ, List.map_append, ih, List.replicate_succ']; simp

/-- Streaming proof from an invariant. -/
theorem streamsConv_of_inv {S : Type} {step : S → List ℝ → Res (S × List ℝ)} {s0 : S} {B : ℕ}
    {blocks : List (List ℝ)} {h : ℕ → ℝ} (hlen : ∀ b ∈ blocks, b.length = B)
    (Inv : (ℕ → ℝ) → ℕ → S → Prop) (h0 : ∀ x, Inv x 0 s0)
    (hstep : ∀ x t s, Inv x t s → ∃ s', step s (vec B (fun i => x (t * B + i)))
      = .ok (s', vec B (fun i => Spec.conv h x (t * B + i))) ∧ Inv x (t + 1) s') :
    StreamsConv step s0 blocks h := by
  set x : ℕ → ℝ := fun i => blocks.flatten.getD i 0 with hx
  obtain ⟨s', e, -⟩ := runBlocks_inv (Inv x) (fun t => vec B (fun i => x (t * B + i)))
    (fun t => vec B (fun i => Spec.conv h x (t * B + i))) (hstep x) blocks.length 0 s0 (h0 x)
  simp only [Nat.zero_add] at e
  have hb := blocks_eq_vec (0 : ℝ) blocks hlen
  rw [← hb] at e
  refine ⟨s', _, e, ?_, ?_⟩
  · rw [vec_const_len]
    conv_rhs => rw [hb]
    rw [vec_const_len]
  · intro n hn
    have hl : blocks.flatten.length = blocks.length * B := by
      conv_lhs => rw [hb, flatten_vec (g := x)]
      rw [length_vec]
    rw [flatten_vec, getElem?_vec, if_pos (by omega)]

/-- A callback multiplying the spectrum by a fixed one: `multiply(inout, filter, inout)`. -/
def mulCallback (H : List ℂ) : Callback Unit := fun sp s => do
  let r ← multiplyInPlace sp H
  pure (r, s)

theorem mulCallback_vec {n : ℕ} (f g : ℕ → ℂ) (s : Unit) :
    mulCallback (vec n g) (vec n f) s = .ok (vec n (fun i => f i * g i), s) := by
  unfold mulCallback
  rw [multiplyInPlace_vec, bind_ok, pure_eq_ok]

/-- `overlap_add` with a fixed callback as a block processor. -/
noncomputable def oaProc (H : List ℂ) (o : OverlapAdd) (block : List ℝ) :
    Res (OverlapAdd × List ℝ) := do
  let (o, block, _) ← o.call block (mulCallback H) ()
  pure (o, block)

/-- `overlap_save` with a fixed callback as a block processor. -/
noncomputable def osProc (H : List ℂ) (o : OverlapSave) (block : List ℝ) :
    Res (OverlapSave × List ℝ) := do
  let (o, block, _) ← o.call block (mulCallback H) ()
  pure (o, block)

/-- Half spectrum of `h`, zero padded to `K` samples. -/
noncomputable def halfSpectrum (K : ℕ) (h : List ℝ) : List ℂ :=
  (List.range (K / 2 + 1)).map (Spec.dft K (fun i => ((h.getD i 0 : ℝ) : ℂ)))

theorem halfSpectrum_eq (K : ℕ) (h : List ℝ) :
    halfSpectrum K h = vec (K / 2 + 1) (Spec.dft K (fun i => ((h.getD i 0 : ℝ) : ℂ))) := rfl

theorem oaProc_step {B F b : ℕ} (hb : 1 ≤ b) (hK : B * 2 ≤ 2 ^ b) (f : ℕ → ℂ) (w : ℕ → ℝ)
    (sp : ℕ → ℂ) (ov x g h : ℕ → ℝ) (hg : ∀ k < 2 ^ b, oaWindow B x w k = g k) :
    ∃ f' sp', oaProc (vec (2 ^ b / 2 + 1) (Spec.dft (2 ^ b) (fun i => (h i : ℂ))))
        (oaOf B F b f w sp ov) (vec B x)
      = .ok (oaOf B F b f' (fun n => Spec.circConv (2 ^ b) g h n) sp'
          (fun i => Spec.circConv (2 ^ b) g h (B + i)),
          vec B (fun i => Spec.circConv (2 ^ b) g h i + ov i)) := by
  set Y : ℕ → ℂ := fun k => Spec.dft (2 ^ b) (fun n => (g n : ℂ)) k
    * Spec.dft (2 ^ b) (fun i => (h i : ℂ)) k with hY
  have hd : ∀ k, Spec.dft (2 ^ b) (fun n => (oaWindow B x w n : ℂ)) k
      = Spec.dft (2 ^ b) (fun n => (g n : ℂ)) k := fun k => dft_congr (fun n hn => by rw [hg n hn]) k
  obtain ⟨f', e⟩ := oa_step (F := F) hb hK f w sp ov x
    (mulCallback (vec (2 ^ b / 2 + 1) (Spec.dft (2 ^ b) (fun i => (h i : ℂ))))) () () Y (by
      rw [mulCallback_vec]
      congr 2
      exact vec_ext (fun k _ => by rw [hd]))
  refine ⟨f', Y, ?_⟩
  unfold oaProc
  rw [e, bind_ok]
  simp only [pure_eq_ok]
  congr 2
  · unfold oaOf
    congr 1
    · exact vec_ext (fun n hn => specOut_mul g h hn)
    · exact vec_ext (fun i hi => specOut_mul g h (by omega))
  · exact vec_ext (fun i hi => by rw [specOut_mul g h (by omega)])

theorem osProc_step {B F b : ℕ} (hb : 1 ≤ b) (hB : 1 ≤ B) (hBK : B ≤ 2 ^ b) (f : ℕ → ℂ)
    (w rb : ℕ → ℝ) (cbuf : ℕ → ℂ) (x g h : ℕ → ℝ)
    (hg : ∀ k < 2 ^ b, osWindow (2 ^ b) B x w k = g k) :
    ∃ f' rb' cbuf', osProc (vec (2 ^ b / 2 + 1) (Spec.dft (2 ^ b) (fun i => (h i : ℂ))))
        (osOf B F b f w rb cbuf) (vec B x)
      = .ok (osOf B F b f' g rb' cbuf',
          vec B (fun i => Spec.circConv (2 ^ b) g h (2 ^ b - B + i))) := by
  set Y : ℕ → ℂ := fun k => Spec.dft (2 ^ b) (fun n => (g n : ℂ)) k
    * Spec.dft (2 ^ b) (fun i => (h i : ℂ)) k with hY
  have hd : ∀ k, Spec.dft (2 ^ b) (fun n => (osWindow (2 ^ b) B x w n : ℂ)) k
      = Spec.dft (2 ^ b) (fun n => (g n : ℂ)) k := fun k => dft_congr (fun n hn => by rw [hg n hn]) k
  obtain ⟨f', rb', cbuf', e⟩ := os_step (F := F) hb hB hBK f w rb cbuf x
    (mulCallback (vec (2 ^ b / 2 + 1) (Spec.dft (2 ^ b) (fun i => (h i : ℂ))))) () () Y (by
      rw [mulCallback_vec]
      congr 2
      exact vec_ext (fun k _ => by rw [hd]))
  refine ⟨f', rb', cbuf', ?_⟩
  unfold osProc
  rw [e, bind_ok]
  simp only [pure_eq_ok]
  congr 2
  · unfold osOf
    congr 1
    exact vec_ext (fun n hn => hg n hn)
  · exact vec_ext (fun i hi => by rw [specOut_mul g h (by omega)])

end Neo
