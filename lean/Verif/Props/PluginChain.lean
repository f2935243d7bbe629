import Verif.Model.PluginChain
import Verif.Props.DensePlugin

/-!
# C87: the plugin as the host sees it
-/

namespace Neo.Props
open Neo

/-! ## Specification -/

/-- A value which is constant during every block, as a function of time. -/
def heldOver (f : Knobs → ℝ) (ins : List (Knobs × List (ℕ → ℝ))) (n : ℕ) : ℝ :=
  ((ins.map (fun a => List.replicate a.2.length (f a.1))).flatten).getD n 0

/-- A value given for every sample of every block, as a function of time. -/
def sampledOver (f : Knobs → ℕ → ℝ) (ins : List (Knobs × List (ℕ → ℝ))) (n : ℕ) : ℝ :=
  ((ins.map (fun a => vec a.2.length (f a.1))).flatten).getD n 0

/-- The input of a channel as a function of time. -/
def inputOver (ins : List (Knobs × List (ℕ → ℝ))) (c n : ℕ) : ℝ :=
  ((ins.map Prod.snd).flatten.getD n 0) c

/-- The steady state of the mixing rule `balanced`. -/
noncomputable def steady (inGain wet outGain : ℝ) : Knobs :=
  { inGain := inGain, outGain := outGain, dryGain := fun _ => 2 * min (1 / 2) (1 - wet),
    wetGain := fun _ => 2 * min (1 / 2) wet }

/-! ## The chain is the convolution between two gains and a mixer -/

theorem mixWet_vec (q : Knobs) {l : ℕ} (f g : ℕ → ℕ → ℝ) :
    mixWet q (vec l f) (vec l g) = .ok (vec l (fun i => q.wetGain i • g i + q.dryGain i • f i)) := by
  unfold mixWet
  rw [length_vec]
  refine forN_eq' (fun i => vec i (fun i => q.wetGain i • g i + q.dryGain i • f i)) rfl rfl ?_
  intro i hi
  rw [rd_vec_ok hi, bind_ok, rd_vec_ok hi, bind_ok, vec_succ]
  rfl

theorem layout_size {input output : ChannelSet} (h : layoutSupported input output = true) :
    output = input ∧ (output.size = 1 ∨ output.size = 2) := by
  unfold layoutSupported at h
  split at h
  · cases h
  · rename_i h1
    split at h
    · cases h
    · rename_i h2
      refine ⟨not_not.1 h2, ?_⟩
      by_cases hm : output = .mono
      · subst hm; exact Or.inl rfl
      · have : output = .stereo := by
          by_contra hs; exact h1 ⟨hm, hs⟩
        subst this; exact Or.inr rfl

theorem layout_clear {input output : ChannelSet} (h : layoutSupported input output = true)
    (buffer : List (ℕ → ℝ)) :
    buffer.map (fun a c => if input.size ≤ c ∧ c < output.size then 0 else a c) = buffer := by
  obtain ⟨rfl, -⟩ := layout_size h
  conv_rhs => rw [← List.map_id buffer]
  apply List.map_congr_left
  intro a _
  funext c
  rw [if_neg (by omega)]
  rfl

/-- What the mixer and the gains make of the blocks of the wet stream. -/
def mixed (a : Knobs × List (ℕ → ℝ)) (o : List (ℕ → ℝ)) : List (ℕ → ℝ) :=
  vec a.2.length (fun i => a.1.outGain •
    (a.1.wetGain i • o.getD i 0 + a.1.dryGain i • (a.1.inGain • a.2.getD i 0)))

theorem hostStream_eq {σ : Type} (proc : σ → List (ℕ → ℝ) → Res (σ × List (ℕ → ℝ)))
    {input output : ChannelSet} (hl : layoutSupported input output = true) :
    ∀ (ins : List (Knobs × List (ℕ → ℝ))) (s s' : Cola σ ℝ (ℕ → ℝ)) (outs : List (List (ℕ → ℝ))),
      Cola.stream proc s (ins.map (fun a => a.2.map (fun x => a.1.inGain • x))) = .ok (s', outs) →
      outs.map List.length = (ins.map (fun a => a.2.map (fun x => a.1.inGain • x))).map List.length →
      hostStream proc input output (some s) ins = .ok (some s', List.zipWith mixed ins outs) := by
  intro ins
  induction ins with
  | nil =>
    intro s s' outs h _
    obtain ⟨rfl, rfl⟩ : s = s' ∧ [] = outs := by
      have : (Except.ok (s, []) : Res _) = .ok (s', outs) := h
      injection this with this
      exact Prod.mk.inj this
    rfl
  | cons a ins ih =>
    intro s s' outs h hlen
    obtain ⟨⟨s1, o⟩, e1, h⟩ := bind_eq_ok h
    obtain ⟨⟨s2, os⟩, e2, h⟩ := bind_eq_ok h
    obtain ⟨rfl, rfl⟩ : s2 = s' ∧ o :: os = outs := by
      have : (Except.ok (s2, o :: os) : Res _) = .ok (s', outs) := h
      injection this with this
      exact Prod.mk.inj this
    obtain ⟨q, b⟩ := a
    simp only [List.map_cons, List.length_map, List.cons.injEq] at hlen
    have hb : b.map (fun a => q.inGain • a) = vec b.length (fun i => q.inGain • b.getD i 0) := by
      rw [eq_vec_iff]
      refine ⟨by simp, fun i hi => ?_⟩
      rw [List.getElem?_map, List.getElem?_eq_getElem hi]
      simp [List.getD, List.getElem?_eq_getElem hi]
    have ho : o = vec b.length (fun i => o.getD i 0) := by
      conv_lhs => rw [eq_vec_getD o 0, hlen.1]
    have hblock : hostBlock proc input output (some s) q b
        = .ok (some s1, mixed (q, b) o) := by
      unfold hostBlock
      dsimp only
      rw [layout_clear hl]
      unfold chainProcess
      dsimp only
      rw [e1, bind_ok]
      dsimp only
      rw [hb]
      conv_lhs => rw [ho]
      rw [mixWet_vec, bind_ok]
      unfold mixed vec
      rw [List.map_map]
      rfl
    show (hostBlock proc input output (some s) q b >>= _) = _
    rw [hblock, bind_ok]
    dsimp only
    rw [ih s1 _ os e2 hlen.2, bind_ok]
    rfl

theorem flatten_getD_cons {α : Type} (a : List α) (l : List (List α)) (n : ℕ) (d : α) :
    (a :: l).flatten.getD n d = if n < a.length then a.getD n d else l.flatten.getD (n - a.length) d := by
  rw [List.flatten_cons]
  split
  · rename_i h; rw [List.getD, List.getElem?_append_left h]; rfl
  · rename_i h; rw [List.getD, List.getElem?_append_right (by omega)]; rfl

theorem mixed_flatten : ∀ (ins : List (Knobs × List (ℕ → ℝ))) (outs : List (List (ℕ → ℝ))),
    outs.map List.length = ins.map (fun a => a.2.length) →
    ∀ n < (ins.map Prod.snd).flatten.length, ∀ c,
      ((List.zipWith mixed ins outs).flatten.getD n 0) c
        = heldOver Knobs.outGain ins n * (sampledOver Knobs.wetGain ins n * (outs.flatten.getD n 0) c
            + sampledOver Knobs.dryGain ins n * (heldOver Knobs.inGain ins n * inputOver ins c n)) := by
  intro ins
  induction ins with
  | nil => intro outs _ n hn; simp at hn
  | cons a ins ih =>
    intro outs hlen n hn c
    cases outs with
    | nil => simp at hlen
    | cons o outs =>
      simp only [List.map_cons, List.cons.injEq] at hlen
      unfold heldOver sampledOver inputOver
      simp only [List.map_cons, List.zipWith_cons_cons, flatten_getD_cons, length_vec, List.length_replicate,
        hlen.1]
      have hm : (mixed a o).length = a.2.length := length_vec _ _
      rw [hm]
      by_cases h : n < a.2.length
      · simp only [if_pos h]
        unfold mixed
        rw [getD_vec _ _ _ _ h, getD_vec _ _ _ _ h, getD_vec _ _ _ _ h]
        have hr : ∀ v : ℝ, (List.replicate a.2.length v).getD n 0 = v := by
          intro v; simp [List.getD, h]
        rw [hr, hr]
        simp [mul_add]
      · simp only [if_neg h]
        have := ih outs hlen.2 (n - a.2.length) (by
          simp only [List.map_cons, List.flatten_cons, List.length_append] at hn
          omega) c
        unfold heldOver sampledOver inputOver at this
        exact this

theorem scaled_flatten : ∀ (ins : List (Knobs × List (ℕ → ℝ))) (n c : ℕ),
    ((ins.map (fun a : Knobs × List (ℕ → ℝ) => a.2.map (fun x => a.1.inGain • x))).flatten.getD n 0) c
      = heldOver Knobs.inGain ins n * inputOver ins c n := by
  intro ins
  induction ins with
  | nil => intro n c; simp [heldOver]
  | cons a ins ih =>
    intro n c
    unfold heldOver inputOver
    simp only [List.map_cons, flatten_getD_cons, List.length_map, List.length_replicate]
    by_cases h : n < a.2.length
    · simp only [if_pos h]
      simp [List.getD, h]
    · simp only [if_neg h]
      exact ih _ c

theorem scaled_length (ins : List (Knobs × List (ℕ → ℝ))) :
    (ins.map (fun a => a.2.map (fun x => a.1.inGain • x))).flatten.length
      = (ins.map Prod.snd).flatten.length := by
  induction ins with
  | nil => rfl
  | cons a ins ih => simp only [List.map_cons, List.flatten_cons, List.length_append, List.length_map, ih]

/-- The output of the plugin in terms of the output of the convolution for the amplified input. -/
theorem plugin_of_wet {σ : Type} {proc : σ → List (ℕ → ℝ) → Res (σ × List (ℕ → ℝ))}
    {input output : ChannelSet} (hl : layoutSupported input output = true)
    (ins : List (Knobs × List (ℕ → ℝ))) (s s' : Cola σ ℝ (ℕ → ℝ)) (outs : List (List (ℕ → ℝ)))
    (h5 : Cola.stream proc s (ins.map (fun a => a.2.map (fun x => a.1.inGain • x))) = .ok (s', outs))
    (h6 : outs.map List.length = (ins.map (fun a => a.2.map (fun x => a.1.inGain • x))).map List.length) :
    hostStream proc input output (some s) ins = .ok (some s', List.zipWith mixed ins outs) ∧
    (List.zipWith mixed ins outs).map List.length = ins.map (fun a => a.2.length) ∧
    ∀ n < (ins.map Prod.snd).flatten.length, ∀ c,
      ((List.zipWith mixed ins outs).flatten.getD n 0) c
        = heldOver Knobs.outGain ins n * (sampledOver Knobs.wetGain ins n * (outs.flatten.getD n 0) c
            + sampledOver Knobs.dryGain ins n * (heldOver Knobs.inGain ins n * inputOver ins c n)) := by
  have hlen : outs.map List.length = ins.map (fun a => a.2.length) := by
    rw [h6, List.map_map]
    apply List.map_congr_left
    intro a _
    exact List.length_map _
  refine ⟨hostStream_eq _ hl ins s s' outs h5 h6, ?_, mixed_flatten ins outs hlen⟩
  have : ∀ (ins : List (Knobs × List (ℕ → ℝ))) (outs : List (List (ℕ → ℝ))),
      outs.map List.length = ins.map (fun a => a.2.length) →
      (List.zipWith mixed ins outs).map List.length = ins.map (fun a => a.2.length) := by
    intro ins
    induction ins with
    | nil => intro outs _; rfl
    | cons a ins ih =>
      intro outs h
      cases outs with
      | nil => simp at h
      | cons o outs =>
        simp only [List.map_cons, List.cons.injEq] at h
        simp only [List.zipWith_cons_cons, List.map_cons, ih outs h.2]
        congr 1
        exact length_vec _ _
  exact this ins outs hlen

/-! ## The theorems -/

/-- **C87** (layouts).  Exactly mono to mono and stereo to stereo are accepted. -/
theorem C87_layouts (input output : ChannelSet) : layoutSupported input output = true ↔
    (input = .mono ∧ output = .mono) ∨ (input = .stereo ∧ output = .stereo) := by
  constructor
  · intro h
    obtain ⟨rfl, -⟩ := layout_size h
    cases output with
    | mono => exact Or.inl ⟨rfl, rfl⟩
    | stereo => exact Or.inr ⟨rfl, rfl⟩
    | other n => simp [layoutSupported] at h
  · rintro (⟨rfl, rfl⟩ | ⟨rfl, rfl⟩) <;> rfl

/-- **C87** (partial: the output is not what the parameters say, see the theorems below).  The impulse
response file exists and the host streams after `prepareToPlay`: for every stream of blocks of at most `B` samples
and every sequence of parameters, the output is `outGain * (wetGain * wet + dryGain * dry)`, where `dry` is the
amplified input and `wet` its convolution with the normalised impulse response, at twice the amplitude
and `F - 1` samples late, preceded by `F - 1` samples of whatever was in memory. -/
theorem C87_stream_partial (fb : Bool) (k : RenderConv) (input output : ChannelSet)
    (hlay : layoutSupported input output = true) (impChannels impSize B : ℕ)
    (filter : List (List ℝ)) (hfl : filter.length = impChannels)
    (hfilt : ∀ s ∈ filter, s.length = impSize) (hch : output.size ≤ impChannels)
    (hB : 2 ≤ B) (hB2 : B ≤ 2 ^ 26) (hS : 1 ≤ impSize) (hS2 : impSize < 2 ^ 64)
    (hsz : impChannels * ((impSize - 1) / 2 ^ Nat.clog 2 B + 1) * (2 ^ Nat.clog 2 B + 1) < 2 ^ 59)
    (g₁ g₂ g₃ : ℕ → ℕ → ℝ) (ins : List (Knobs × List (ℕ → ℝ))) (hins : ∀ a ∈ ins, a.2.length ≤ B) :
    ∃ mat imp s s' outs, mat.length = impChannels * impSize ∧
      (∀ c < impChannels, ∀ i < impSize, mat[c * impSize + i]? = some ((filter.getD c []).getD i 0)) ∧
      normalizeImpulseMat false (MatView.right impChannels impSize) mat = .ok imp ∧
      chainPrepare fb k.ops output B (some (impChannels, impSize, filter)) g₁ g₂ g₃ = .ok s ∧
      hostStream (denseFrame k.ops output.size) input output s ins = .ok (s', outs) ∧
      outs.map List.length = ins.map (fun a => a.2.length) ∧
      ∀ n < (ins.map Prod.snd).flatten.length, ∀ c < output.size, (outs.flatten.getD n 0) c
        = heldOver Knobs.outGain ins n *
          (sampledOver Knobs.wetGain ins n * (if n < 2 ^ Nat.clog 2 B - 1 then g₃ n c else
            2 * Spec.conv (fun i => if i < impSize then imp.getD (c * impSize + i) 0 else 0)
              (fun i => heldOver Knobs.inGain ins i * inputOver ins c i) (n - (2 ^ Nat.clog 2 B - 1)))
          + sampledOver Knobs.dryGain ins n * (heldOver Knobs.inGain ins n * inputOver ins c n)) := by
  obtain ⟨mat, imp, s, s', outs, h1, h2, h3, h4, h5, h6, h7⟩ := dense_stream_start false fb k output.size
    impChannels impSize B filter hfl hfilt hch hB hB2 hS hS2 hsz g₁ g₂ g₃
    (ins.map (fun a => a.2.map (fun x => a.1.inGain • x))) (by
      intro b hb
      obtain ⟨a, ha, rfl⟩ := List.mem_map.1 hb
      rw [List.length_map]; exact hins a ha)
  obtain ⟨hlen, houts⟩ := plugin_of_wet hlay ins s s' outs h5 h6
  refine ⟨mat, imp, some s, some s', _, h1, h2, h3, ?_, hlen, houts.1, ?_⟩
  · unfold chainPrepare
    dsimp only
    rw [h4]; rfl
  · intro n hn c hc
    rw [houts.2 n hn c, h7 n (by rw [scaled_length]; exact hn) c hc]
    simp only [scaled_flatten]
    rfl

/-- **C87** (partial).  Where the impulse response file does not exist: the same with the amplified input itself in
place of the convolution. -/
theorem C87_no_file_partial (fb : Bool) (k : RenderConv) (input output : ChannelSet)
    (hlay : layoutSupported input output = true) (B : ℕ) (hB : 2 ≤ B) (hB2 : B ≤ 2 ^ 26)
    (g₁ g₂ g₃ : ℕ → ℕ → ℝ) (ins : List (Knobs × List (ℕ → ℝ))) (hins : ∀ a ∈ ins, a.2.length ≤ B) :
    ∃ s s' outs, chainPrepare fb k.ops output B none g₁ g₂ g₃ = .ok s ∧
      hostStream (denseFrame k.ops output.size) input output s ins = .ok (s', outs) ∧
      outs.map List.length = ins.map (fun a => a.2.length) ∧
      ∀ n < (ins.map Prod.snd).flatten.length, ∀ c < output.size, (outs.flatten.getD n 0) c
        = heldOver Knobs.outGain ins n *
          (sampledOver Knobs.wetGain ins n * (if n < 2 ^ Nat.clog 2 B - 1 then g₃ n c else
            2 * (heldOver Knobs.inGain ins (n - (2 ^ Nat.clog 2 B - 1))
              * inputOver ins c (n - (2 ^ Nat.clog 2 B - 1))))
          + sampledOver Knobs.dryGain ins n * (heldOver Knobs.inGain ins n * inputOver ins c n)) := by
  obtain ⟨s, s', outs, h4, h5, h6, h7⟩ := dense_none_start false fb k output.size B hB hB2 g₁ g₂ g₃
    (ins.map (fun a => a.2.map (fun x => a.1.inGain • x))) (by
      intro b hb
      obtain ⟨a, ha, rfl⟩ := List.mem_map.1 hb
      rw [List.length_map]; exact hins a ha)
  obtain ⟨hrun, hlen, houts⟩ := plugin_of_wet hlay ins s s' outs h5 h6
  refine ⟨some s, some s', _, ?_, hrun, hlen, ?_⟩
  · unfold chainPrepare
    dsimp only
    rw [h4]; rfl
  · intro n hn c hc
    rw [houts n hn c, h7 n (by rw [scaled_length]; exact hn) c hc]
    simp only [scaled_flatten]
    rfl

/-- **C87** (partial, `releaseResources`).  A host that calls `releaseResources` between `prepareToPlay` and the first
block gets silence in place of the memory content; the level, the delay and the alignment are as before. -/
theorem C87_reset_partial (fb : Bool) (k : RenderConv) (input output : ChannelSet)
    (hlay : layoutSupported input output = true) (impChannels impSize B : ℕ)
    (filter : List (List ℝ)) (hfl : filter.length = impChannels)
    (hfilt : ∀ s ∈ filter, s.length = impSize) (hch : output.size ≤ impChannels)
    (hB : 2 ≤ B) (hB2 : B ≤ 2 ^ 26) (hS : 1 ≤ impSize) (hS2 : impSize < 2 ^ 64)
    (hsz : impChannels * ((impSize - 1) / 2 ^ Nat.clog 2 B + 1) * (2 ^ Nat.clog 2 B + 1) < 2 ^ 59)
    (g₁ g₂ g₃ : ℕ → ℕ → ℝ) (ins : List (Knobs × List (ℕ → ℝ))) (hins : ∀ a ∈ ins, a.2.length ≤ B) :
    ∃ mat imp s s' outs, mat.length = impChannels * impSize ∧
      (∀ c < impChannels, ∀ i < impSize, mat[c * impSize + i]? = some ((filter.getD c []).getD i 0)) ∧
      normalizeImpulseMat false (MatView.right impChannels impSize) mat = .ok imp ∧
      chainPrepare fb k.ops output B (some (impChannels, impSize, filter)) g₁ g₂ g₃ = .ok s ∧
      hostStream (denseFrame k.ops output.size) input output (chainReset s) ins = .ok (s', outs) ∧
      outs.map List.length = ins.map (fun a => a.2.length) ∧
      ∀ n < (ins.map Prod.snd).flatten.length, ∀ c < output.size, (outs.flatten.getD n 0) c
        = heldOver Knobs.outGain ins n *
          (sampledOver Knobs.wetGain ins n * (if n < 2 ^ Nat.clog 2 B - 1 then 0 else
            2 * Spec.conv (fun i => if i < impSize then imp.getD (c * impSize + i) 0 else 0)
              (fun i => heldOver Knobs.inGain ins i * inputOver ins c i) (n - (2 ^ Nat.clog 2 B - 1)))
          + sampledOver Knobs.dryGain ins n * (heldOver Knobs.inGain ins n * inputOver ins c n)) := by
  obtain ⟨mat, imp, s, s', outs, h1, h2, h3, h4, h5, h6, h7⟩ := dense_stream_start true fb k output.size
    impChannels impSize B filter hfl hfilt hch hB hB2 hS hS2 hsz g₁ g₂ g₃
    (ins.map (fun a => a.2.map (fun x => a.1.inGain • x))) (by
      intro b hb
      obtain ⟨a, ha, rfl⟩ := List.mem_map.1 hb
      rw [List.length_map]; exact hins a ha)
  obtain ⟨hlen, houts⟩ := plugin_of_wet hlay ins _ s' outs h5 h6
  refine ⟨mat, imp, some s, some s', _, h1, h2, h3, ?_, hlen, houts.1, ?_⟩
  · unfold chainPrepare
    dsimp only
    rw [h4]; rfl
  · intro n hn c hc
    rw [houts.2 n hn c, h7 n (by rw [scaled_length]; exact hn) c hc]
    simp only [scaled_flatten]
    rfl

/-- **C87** (not prepared).  Before `prepareToPlay` the two gains are applied and nothing else. -/
theorem C87_unprepared {σ : Type} (proc : σ → List (ℕ → ℝ) → Res (σ × List (ℕ → ℝ)))
    (input output : ChannelSet) (hlay : layoutSupported input output = true) (q : Knobs)
    (b : List (ℕ → ℝ)) :
    hostBlock proc input output none q b
      = .ok (none, b.map (fun a c => q.outGain * (q.inGain * a c))) := by
  unfold hostBlock
  dsimp only
  rw [layout_clear hlay]
  unfold chainProcess
  simp only [List.map_map]
  rfl

theorem held_const {f : Knobs → ℝ} (q : Knobs) (bs : List (List (ℕ → ℝ))) (n : ℕ)
    (hn : n < bs.flatten.length) : heldOver f (bs.map (fun b => (q, b))) n = f q := by
  induction bs generalizing n with
  | nil => simp at hn
  | cons b bs ih =>
    unfold heldOver
    simp only [List.map_cons, flatten_getD_cons, List.length_replicate]
    by_cases h : n < b.length
    · rw [if_pos h]; simp [List.getD, h]
    · rw [if_neg h]
      exact ih _ (by rw [List.flatten_cons, List.length_append] at hn; omega)

theorem sampled_const {f : Knobs → ℕ → ℝ} (q : Knobs) {v : ℝ} (hf : ∀ i, f q i = v) (bs : List (List (ℕ → ℝ)))
    (n : ℕ) (hn : n < bs.flatten.length) : sampledOver f (bs.map (fun b => (q, b))) n = v := by
  induction bs generalizing n with
  | nil => simp at hn
  | cons b bs ih =>
    unfold sampledOver
    simp only [List.map_cons, flatten_getD_cons, length_vec]
    by_cases h : n < b.length
    · rw [if_pos h, getD_vec _ _ _ _ h, hf]
    · rw [if_neg h]
      exact ih _ (by rw [List.flatten_cons, List.length_append] at hn; omega)

theorem input_const (q : Knobs) (bs : List (List (ℕ → ℝ))) (c n : ℕ) :
    inputOver (bs.map (fun b => (q, b))) c n = (bs.flatten.getD n 0) c := by
  unfold inputOver
  rw [List.map_map]
  have : (Prod.snd ∘ fun b : List (ℕ → ℝ) => (q, b)) = id := rfl
  rw [this, List.map_id]

/-- The stream of `C87_no_file_partial` with all parameters in their steady state. -/
theorem no_file_steady (fb : Bool) (k : RenderConv) (input output : ChannelSet)
    (hlay : layoutSupported input output = true) (B : ℕ) (hB : 2 ≤ B) (hB2 : B ≤ 2 ^ 26)
    (g₁ g₂ g₃ : ℕ → ℕ → ℝ) (a w o : ℝ) (bs : List (List (ℕ → ℝ))) (hbs : ∀ b ∈ bs, b.length ≤ B) :
    ∃ s s' outs, chainPrepare fb k.ops output B none g₁ g₂ g₃ = .ok s ∧
      hostStream (denseFrame k.ops output.size) input output s (bs.map (fun b => (steady a w o, b)))
        = .ok (s', outs) ∧
      outs.map List.length = bs.map List.length ∧
      ∀ n < bs.flatten.length, ∀ c < output.size, (outs.flatten.getD n 0) c
        = o * (2 * min (1 / 2) w * (if n < 2 ^ Nat.clog 2 B - 1 then g₃ n c else
            2 * (a * (bs.flatten.getD (n - (2 ^ Nat.clog 2 B - 1)) 0) c))
          + 2 * min (1 / 2) (1 - w) * (a * (bs.flatten.getD n 0) c)) := by
  obtain ⟨s, s', outs, h1, h2, h3, h4⟩ := C87_no_file_partial fb k input output hlay B hB hB2 g₁ g₂ g₃
    (bs.map (fun b => (steady a w o, b))) (by
      intro x hx
      obtain ⟨b, hb, rfl⟩ := List.mem_map.1 hx
      exact hbs b hb)
  have hsnd : (bs.map (fun b => (steady a w o, b))).map Prod.snd = bs := by
    rw [List.map_map]
    exact List.map_id bs
  rw [hsnd] at h4
  refine ⟨s, s', outs, h1, h2, by rw [h3, List.map_map]; rfl, ?_⟩
  intro n hn c hc
  rw [h4 n hn c hc, held_const _ _ _ hn, held_const _ _ _ hn, held_const _ _ _ (by omega),
    sampled_const (v := 2 * min (1 / 2) w) _ (fun _ => rfl) _ _ hn,
    sampled_const (v := 2 * min (1 / 2) (1 - w)) _ (fun _ => rfl) _ _ hn, input_const, input_const]
  rfl

/-- **C87 is false** (garbage).  With the default parameters the first `F - 1` output samples after `prepareToPlay`
do not depend on the input: they are whatever was in the memory of the output buffer, because nothing calls
`reset` on the newly created convolution. -/
theorem C87_garbage_false (fb : Bool) (k : RenderConv) (input output : ChannelSet)
    (hlay : layoutSupported input output = true) (B : ℕ) (hB : 2 ≤ B) (hB2 : B ≤ 2 ^ 26)
    (g₁ g₂ g₃ : ℕ → ℕ → ℝ) (bs : List (List (ℕ → ℝ))) (hbs : ∀ b ∈ bs, b.length ≤ B) :
    ∃ s s' outs, chainPrepare fb k.ops output B none g₁ g₂ g₃ = .ok s ∧
      hostStream (denseFrame k.ops output.size) input output s (bs.map (fun b => (steady 1 1 1, b)))
        = .ok (s', outs) ∧
      ∀ n < bs.flatten.length, n < 2 ^ Nat.clog 2 B - 1 → ∀ c < output.size,
        (outs.flatten.getD n 0) c = g₃ n c := by
  obtain ⟨s, s', outs, h1, h2, -, h4⟩ := no_file_steady fb k input output hlay B hB hB2 g₁ g₂ g₃ 1 1 1 bs hbs
  refine ⟨s, s', outs, h1, h2, ?_⟩
  intro n hn hF c hc
  rw [h4 n hn c hc, if_pos hF]
  have e1 : min (1 / 2 : ℝ) 1 = 1 / 2 := min_eq_left (by norm_num)
  have e2 : min (1 / 2 : ℝ) (1 - 1) = 0 := by rw [sub_self]; exact min_eq_right (by norm_num)
  rw [e1, e2]
  ring

/-- A unit impulse, then silence, sample by sample. -/
def clickThenSilence (m : ℕ) : List (List (ℕ → ℝ)) := [fun _ => 1] :: List.replicate m [fun _ => 0]

theorem clickThenSilence_flatten (m : ℕ) :
    (clickThenSilence m).flatten = (fun _ => 1) :: List.replicate m (fun _ => 0) := by
  unfold clickThenSilence
  rw [List.flatten_cons]
  have : (List.replicate m [fun _ : ℕ => (0 : ℝ)]).flatten = List.replicate m (fun _ => 0) := by
    induction m with
    | zero => rfl
    | succ m ih => rw [List.replicate_succ, List.flatten_cons, ih]; rfl
  rw [this]; rfl

/-- **C87 is false** (latency, level, alignment and tail).  For every block size, without the impulse response
file and even with all memory zero: a unit impulse at time 0 comes out of the wet path at time `F - 1` — the plugin
reports a latency of 0 and a tail of 0 seconds — with amplitude 2.  With the Wet parameter at one half the
listener hears two copies, the dry one of amplitude 1 at time 0 and the wet one of amplitude 2 at time `F - 1`. -/
theorem C87_click_false (fb : Bool) (k : RenderConv) (input output : ChannelSet)
    (hlay : layoutSupported input output = true) (B : ℕ) (hB : 2 ≤ B) (hB2 : B ≤ 2 ^ 26) (w : ℝ)
    (hw : w = 1 ∨ w = 1 / 2) :
    ∃ s s' outs, chainPrepare fb k.ops output B none 0 0 0 = .ok s ∧
      hostStream (denseFrame k.ops output.size) input output s
        ((clickThenSilence (2 ^ Nat.clog 2 B)).map (fun b => (steady 1 w 1, b))) = .ok (s', outs) ∧
      1 ≤ 2 ^ Nat.clog 2 B - 1 ∧
      ∀ n < 2 ^ Nat.clog 2 B, ∀ c < output.size, (outs.flatten.getD n 0) c
        = (if n = 0 ∧ w = 1 / 2 then 1 else 0) + (if n = 2 ^ Nat.clog 2 B - 1 then 2 else 0) := by
  have hp1 : 1 ≤ Nat.clog 2 B := Nat.clog_pos (by norm_num) hB
  have hF2 : 2 ≤ 2 ^ Nat.clog 2 B := by
    calc 2 = 2 ^ 1 := rfl
      _ ≤ 2 ^ Nat.clog 2 B := Nat.pow_le_pow_right (by norm_num) hp1
  obtain ⟨s, s', outs, h1, h2, -, h4⟩ := no_file_steady fb k input output hlay B hB hB2 0 0 0 1 w 1
    (clickThenSilence (2 ^ Nat.clog 2 B)) (by
      intro b hb
      unfold clickThenSilence at hb
      rcases List.mem_cons.1 hb with rfl | hb
      · simp; omega
      · rw [List.eq_of_mem_replicate hb]; simp; omega)
  refine ⟨s, s', outs, h1, h2, by omega, ?_⟩
  intro n hn c hc
  have hget : ∀ m, (((clickThenSilence (2 ^ Nat.clog 2 B)).flatten.getD m 0) c : ℝ) = if m = 0 then 1 else 0 := by
    intro m
    rw [clickThenSilence_flatten]
    cases m with
    | zero => rfl
    | succ m =>
      rw [List.getD_cons_succ, List.getD, List.getElem?_replicate]
      split <;> rfl
  rw [h4 n (by rw [clickThenSilence_flatten]; simp; omega) c hc, hget, hget]
  have e1 : 2 * min (1 / 2 : ℝ) w = 1 := by
    rcases hw with rfl | rfl
    · rw [min_eq_left (by norm_num)]; norm_num
    · rw [min_self]; norm_num
  have e2 : 2 * min (1 / 2 : ℝ) (1 - w) = if w = 1 / 2 then 1 else 0 := by
    rcases hw with rfl | rfl
    · rw [sub_self, min_eq_right (by norm_num), if_neg (by norm_num)]; norm_num
    · rw [if_pos rfl, min_eq_left (by norm_num)]; norm_num
  rw [e1, e2]
  by_cases hA : n < 2 ^ Nat.clog 2 B - 1
  · rw [if_pos hA, if_neg (show n ≠ 2 ^ Nat.clog 2 B - 1 by omega)]
    by_cases h0 : n = 0 <;> by_cases h5 : w = 1 / 2 <;> simp [h0, h5]
  · have hn' : n = 2 ^ Nat.clog 2 B - 1 := by omega
    rw [if_neg hA, if_pos hn', if_pos (by omega), if_neg (show ¬ n = 0 by omega),
      if_neg (show ¬ (n = 0 ∧ w = 1 / 2) by omega)]
    ring

/-- Stereo, blocks of 3 and 2 samples, the Wet parameter turned from one half to 1 in between. -/
example (g : ℕ → ℕ → ℝ) : ∃ s s' outs,
    chainPrepare true RenderConv.upols.ops .stereo 3 (some (2, 3, [[1, 0, 0], [1, 2, 2]])) g g g = .ok s ∧
    hostStream (denseFrame RenderConv.upols.ops 2) .stereo .stereo s
      [(steady 1 (1 / 2) 1, [fun _ => 1, fun c => c, fun _ => 3]), (steady 2 1 3, [fun _ => 4, fun _ => 5])]
      = .ok (s', outs) ∧ outs.map List.length = [3, 2] := by
  have hc : Nat.clog 2 3 = 2 := by decide
  obtain ⟨mat, imp, s, s', outs, -, -, -, h1, h2, h3, -⟩ := C87_stream_partial true .upols .stereo .stereo rfl
    2 3 3 [[1, 0, 0], [1, 2, 2]] rfl (by simp) le_rfl (by norm_num) (by norm_num) (by norm_num) (by norm_num)
    (by rw [hc]; norm_num) g g g
    [(steady 1 (1 / 2) 1, [fun _ => 1, fun c => c, fun _ => 3]), (steady 2 1 3, [fun _ => 4, fun _ => 5])]
    (by simp)
  exact ⟨s, s', outs, h1, h2, by simpa using h3⟩

example : layoutSupported .stereo .stereo = true ∧ layoutSupported .mono .stereo = false := by decide

end Neo.Props
