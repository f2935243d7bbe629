import Verif.Model.DensePlugin
import Verif.Props.Cola
import Verif.Props.Render
import Verif.Lemmas.IntT

/-! # C61: the plugin's streaming convolution -/

namespace Neo.Props
open Neo

theorem denseFrame_vec {S : Type} {ops : ConvOps S} {C F : ℕ} (u u' : ℕ → S) (f : ℕ → ℕ → ℝ)
    (y : ℕ → ℕ → ℝ) (h : ∀ c < C, ops.call (u c) (vec F (fun i => f i c)) = .ok (u' c, vec F (y c))) :
    denseFrame ops C (vec C u) (vec F f)
      = .ok (vec C u', vec F (fun i c => if c < C then y c i else f i c)) := by
  unfold denseFrame
  apply forN_eq' (fun k => (vec C (fun c => if c < k then u' c else u c),
    vec F (fun i c => if c < k then y c i else f i c)))
  · simp
  · congr 1
    exact vec_ext (fun c hc => by rw [if_pos hc])
  · intro k hk
    dsimp only
    rw [rd_vec_ok hk, bind_ok, map_vec]
    simp only [lt_irrefl, if_false]
    rw [h k hk, bind_ok]
    dsimp only
    rw [wr_vec_ok hk, bind_ok, pure_eq_ok]
    congr 2
    · apply vec_ext
      intro c hc
      by_cases e : c = k
      · subst e; simp
      · rw [Function.update_of_ne e]
        have : c < k + 1 ↔ c < k := by omega
        simp only [this]
    · rw [eq_vec_iff]
      refine ⟨by simp, fun i hi => ?_⟩
      rw [List.getElem?_zipWith, getElem?_vec, getElem?_vec, if_pos hi, if_pos hi]
      simp only [Option.some.injEq]
      funext c
      by_cases e : c = k
      · subst e; simp
      · rw [Function.update_of_ne e]
        have : c < k + 1 ↔ c < k := by omega
        simp only [this]

/-- Frames that do not overlap: at every time one frame contributes. -/
theorem overlapAdded_disjoint {M : Type} [AddCommMonoid M] {F : ℕ} (hF : 1 ≤ F) (P : ℕ → List M) (t : ℕ) :
    Spec.overlapAdded F F P t = (P (t / F)).getD (t % F) 0 := by
  unfold Spec.overlapAdded
  have hd : t / F * F + t % F = t := Nat.div_add_mod' t F
  have hm : t % F < F := Nat.mod_lt _ hF
  rw [Finset.sum_eq_single (t / F)]
  · rw [if_pos (by omega)]
    congr 1; omega
  · intro j _ hj
    rw [if_neg]
    rintro ⟨h1, h2⟩
    apply hj
    have h3 : j ≤ t / F := (Nat.le_div_iff_mul_le hF).2 h1
    have h4 : t / F < j + 1 := by
      rw [Nat.div_lt_iff_lt_mul hF, Nat.add_mul, Nat.one_mul]; exact h2
    omega
  · intro h
    rw [Finset.mem_range, not_lt] at h
    have := Nat.div_le_self t F
    omega

theorem conv_two_mul (h x : ℕ → ℝ) (n : ℕ) :
    Spec.conv h (fun i => 2 * x i) n = 2 * Spec.conv h x n := by
  unfold Spec.conv
  rw [Finset.mul_sum]
  exact Finset.sum_congr rfl (fun m _ => by ring)

/-- The object when the stream starts: prepared, with or without a call of `reset`. -/
def startFrom {σ K M : Type} [Zero M] (rst : Bool) (s : Cola σ K M) : Cola σ K M :=
  if rst then s.reset else s

/-- The frame loop over convolvers that convolve: whatever the convolvers `u c` of the channels were loaded
with, if they convolve with `h c` then the stream is that convolution, `2 ^ p - 1` samples late and at twice the
amplitude; the first `2 ^ p - 1` samples are zero or, without `reset`, what was in the output buffer. -/
theorem dense_core (rst fb : Bool) (k : RenderConv) (channels B : ℕ) (hB : 2 ≤ B) (hB2 : B ≤ 2 ^ 26)
    (g₁ g₂ g₃ : ℕ → ℕ → ℝ) (blocks : List (List (ℕ → ℝ))) (hblocks : ∀ b ∈ blocks, b.length ≤ B)
    (u : ℕ → k.State) (h : ℕ → ℕ → ℝ)
    (htr : ∀ c < channels, Traces k.ops (u c) (2 ^ Nat.clog 2 B) blocks.flatten.length
      (fun i => 2 * (blocks.flatten.getD i 0) c)
      (Spec.conv (h c) (fun i => 2 * (blocks.flatten.getD i 0) c))) :
    ∃ s1 s s' outs, nextOrderT fb i32 B = .ok ((Nat.clog 2 B : ℕ) : ℤ) ∧
      (Cola.make (Nat.clog 2 B) 0 ([] : List k.State) : Res (Cola (List k.State) ℝ (ℕ → ℝ))) = .ok s1 ∧
      s1.prepare g₁ g₂ g₃ B = .ok s ∧ s.frameSize = 2 ^ Nat.clog 2 B ∧
      Cola.stream (denseFrame k.ops channels) (startFrom rst { s with proc := vec channels u }) blocks
        = .ok (s', outs) ∧
      outs.map List.length = blocks.map List.length ∧
      ∀ n < blocks.flatten.length, ∀ c < channels, (outs.flatten.getD n 0) c
        = if n < 2 ^ Nat.clog 2 B - 1 then (if rst then 0 else g₃ n c) else
          2 * Spec.conv (h c) (fun i => (blocks.flatten.getD i 0) c) (n - (2 ^ Nat.clog 2 B - 1)) := by
  set p := Nat.clog 2 B with hp
  have hp1 : 1 ≤ p := Nat.clog_pos (by norm_num) hB
  have hp26 : p ≤ 26 := (Nat.clog_le_iff_le_pow (by norm_num)).2 hB2
  have hF1 : 1 ≤ 2 ^ p := Nat.one_le_two_pow
  let x : ℕ → ℕ → ℝ := fun c i => (blocks.flatten.getD i 0) c
  have htr' : ∀ c, ∃ st : ℕ → k.State, c < channels → st 0 = u c ∧ ∀ t < blocks.flatten.length,
        k.ops.call (st t) (vec (2 ^ p) (fun i => 2 * x c (t * 2 ^ p + i)))
        = .ok (st (t + 1), vec (2 ^ p) (fun i => Spec.conv (h c) (fun i => 2 * x c i) (t * 2 ^ p + i))) := by
    intro c
    by_cases hc : c < channels
    · obtain ⟨st, h1, h2⟩ := htr c hc
      exact ⟨st, fun _ => ⟨h1, h2⟩⟩
    · exact ⟨fun _ => u c, fun h => absurd h hc⟩
  choose st hst using htr'
  obtain ⟨s, e, h1, h2, h3, h4, h5, ⟨Sz, h6, hSz⟩, h7, h8, h9⟩ :=
    cola_setup (K := ℝ) ([] : List k.State) (p := p) (d := 0) (B := B) (by omega) (by omega) (by omega)
      g₁ g₂ g₃
  have hord : nextOrderT fb i32 B = .ok (p : ℤ) := by
    refine nextOrderT_ok fb (by unfold IntT.Std; decide) (by omega) ?_
    have : (2 : ℤ) ^ Nat.clog 2 B = ((2 ^ p : ℕ) : ℤ) := by push_cast; rfl
    rw [this]
    exact i32_fits_nat (Nat.pow_lt_pow_right (by norm_num) (by omega))
  obtain ⟨s1, e1, e2⟩ : ∃ s1, Cola.make p 0 ([] : List k.State) = .ok s1 ∧
      s1.prepare g₁ g₂ g₃ B = .ok s := by
    cases hmk : (Cola.make p 0 ([] : List k.State) : Res (Cola (List k.State) ℝ (ℕ → ℝ))) with
    | error er => rw [hmk] at e; cases e
    | ok s1 => rw [hmk, bind_ok] at e; exact ⟨s1, rfl, e⟩
  let q : ColaCfg (List k.State) ℝ (ℕ → ℝ) :=
    { F := 2 ^ p, H := 2 ^ (p - 0), S := Sz, B := B, w := 2 / 2 ^ 0
      x := fun i => blocks.flatten.getD i 0
      proc := denseFrame k.ops channels
      st := fun j => vec channels (fun c => st c j)
      P := fun j => vec (2 ^ p) (fun i c => if c < channels then
        Spec.conv (h c) (fun i => 2 * x c i) (j * 2 ^ p + i) else 2 * x c (j * 2 ^ p + i))
      hH := Nat.one_le_two_pow
      hF := le_rfl
      hS := hSz
      N := blocks.flatten.length
      hproc := by
        intro j hj
        have hjN : j < blocks.flatten.length := by
          have := Nat.le_mul_of_pos_right j (show 0 < 2 ^ (p - 0) from Nat.two_pow_pos _)
          omega
        have hv : (vec (2 ^ p) fun i => ((2 : ℝ) / 2 ^ 0) • blocks.flatten.getD (j * 2 ^ (p - 0) + i) 0)
            = vec (2 ^ p) (fun i c => 2 * x c (j * 2 ^ p + i)) := by
          apply vec_ext
          intro i _
          funext c
          simp [x]
        rw [hv]
        exact denseFrame_vec _ _ _ (fun c i => Spec.conv (h c) (fun i => 2 * x c i) (j * 2 ^ p + i))
          (fun c hc => (hst c hc).2 j hjN)
      hlen := fun j => length_vec _ _
      G := if rst then fun _ => 0 else g₃
      hG := Or.inr (by show 2 * 2 ^ p ≤ Sz + 2 ^ p + 1; omega) }
  have hinv : ColaInv q 0 0 (startFrom rst { s with proc := vec channels u }) := by
    unfold startFrom
    by_cases hr : rst = true
    · rw [if_pos hr]
      exact cola_inv_init q h1 h2 h3 (by dsimp only; rw [h4, length_vec]) (by dsimp only; rw [h5, length_vec])
        (by dsimp only; rw [h6, length_vec]) (vec_ext (fun c hc => ((hst c hc).1).symm))
        (fun n => by show (if rst then fun _ => (0 : ℕ → ℝ) else g₃) n = 0; rw [if_pos hr])
    · rw [if_neg hr]
      exact cola_inv_fresh q h1 h2 h3 ⟨_, h4⟩ ⟨_, h5⟩
        (by show s.output = vec Sz (if rst then fun _ => 0 else g₃); rw [if_neg hr]; exact h6)
        (vec_ext (fun c hc => ((hst c hc).1).symm))
        (by show s.outputOffset = ((2 ^ p : ℕ) : ℤ) - 1; rw [h8]; push_cast; rfl) h9
  obtain ⟨s', c, outs, e', -, hl', hf⟩ := cola_stream q blocks hblocks (Nat.zero_add _).le hinv (by
    intro i hi
    show _ = blocks.flatten.getD (0 + i) 0
    rw [Nat.zero_add, List.getD, List.getElem?_eq_getElem hi]; rfl)
  refine ⟨s1, s, s', outs, hord, e1, e2, h1, e', hl', ?_⟩
  intro n hn' c hc
  rw [hf, getD_vec _ _ _ _ hn', Nat.zero_add]
  show (q.junk n + colaOut (2 ^ p) (2 ^ p) q.P n) c = _
  unfold colaOut ColaCfg.junk
  show ((if n + 2 ^ p + 1 < 2 * 2 ^ p then (if rst then fun _ => 0 else g₃) n else 0) + _) c = _
  by_cases hnF : n < 2 ^ p - 1
  · rw [if_pos (by omega), if_pos hnF, if_pos hnF, add_zero]
    cases rst <;> rfl
  · rw [if_neg (by omega), if_neg hnF, if_neg hnF, zero_add, overlapAdded_disjoint hF1]
    have hmod : (n - (2 ^ p - 1)) % 2 ^ p < 2 ^ p := Nat.mod_lt _ hF1
    have hP : ∀ j, q.P j = vec (2 ^ p) (fun i c => if c < channels then
        Spec.conv (h c) (fun i => 2 * x c i) (j * 2 ^ p + i) else 2 * x c (j * 2 ^ p + i)) := fun _ => rfl
    rw [hP, getD_vec _ _ _ _ hmod, if_pos hc, Nat.div_add_mod', conv_two_mul]

/-- `C61_dense_stream` with or without `reset`. -/
theorem dense_stream_start (rst fb : Bool) (k : RenderConv) (channels impChannels impSize B : ℕ)
    (filter : List (List ℝ)) (hfl : filter.length = impChannels)
    (hfilt : ∀ s ∈ filter, s.length = impSize) (hch : channels ≤ impChannels)
    (hB : 2 ≤ B) (hB2 : B ≤ 2 ^ 26) (hS : 1 ≤ impSize) (hS2 : impSize < 2 ^ 64)
    (hsz : impChannels * ((impSize - 1) / 2 ^ Nat.clog 2 B + 1) * (2 ^ Nat.clog 2 B + 1) < 2 ^ 59)
    (g₁ g₂ g₃ : ℕ → ℕ → ℝ) (blocks : List (List (ℕ → ℝ))) (hblocks : ∀ b ∈ blocks, b.length ≤ B) :
    ∃ mat imp s s' outs, mat.length = impChannels * impSize ∧
      (∀ c < impChannels, ∀ i < impSize, mat[c * impSize + i]? = some ((filter.getD c []).getD i 0)) ∧
      normalizeImpulseMat false (MatView.right impChannels impSize) mat = .ok imp ∧
      densePrepare fb k.ops channels impChannels impSize filter B g₁ g₂ g₃ = .ok s ∧
      Cola.stream (denseFrame k.ops channels) (startFrom rst s) blocks = .ok (s', outs) ∧
      outs.map List.length = blocks.map List.length ∧
      ∀ n < blocks.flatten.length, ∀ c < channels, (outs.flatten.getD n 0) c
        = if n < 2 ^ Nat.clog 2 B - 1 then (if rst then 0 else g₃ n c) else
          2 * Spec.conv (fun i => if i < impSize then imp.getD (c * impSize + i) 0 else 0)
            (fun i => (blocks.flatten.getD i 0) c) (n - (2 ^ Nat.clog 2 B - 1)) := by
  set p := Nat.clog 2 B with hp
  have hp1 : 1 ≤ p := Nat.clog_pos (by norm_num) hB
  have hp26 : p ≤ 26 := (Nat.clog_le_iff_le_pow (by norm_num)).2 hB2
  have hF1 : 1 ≤ 2 ^ p := Nat.one_le_two_pow
  -- the filter
  have hval := MatView.right_valid impChannels impSize
  obtain ⟨mat, hm, hml, hmv⟩ := toMdarray_ok (C := impChannels) (L := impSize) hfl hfilt
  obtain ⟨imp, f, hn, -, hl, -⟩ := C48_normalize_impulse_partial false
    (MatView.right impChannels impSize) mat (by rw [hml]; exact hval)
  have hvi : (MatView.right impChannels impSize).InRange imp.length := by
    rw [hl, hml]; exact hval.1
  obtain ⟨N, bins, part, hpart, hr⟩ := renderConv_run k (MatView.right impChannels impSize) imp hvi p hp1
    hp26 hS hS2 hsz
  obtain ⟨u0, hu0⟩ := renderConv_make k
  have hidx : ∀ R L c n, (MatView.right R L).idx c n = c * L + n := by
    intro R L c n; simp only [MatView.right, MatView.idx]; ring
  -- the convolvers of the channels
  let x : ℕ → ℕ → ℝ := fun c i => (blocks.flatten.getD i 0) c
  let h : ℕ → ℕ → ℝ := fun c => chanAt (MatView.right impChannels impSize) imp c
  have htr : ∀ c, ∃ u, c < channels →
      k.ops.load u0 (partitionView N bins c) part = .ok u ∧
      Traces k.ops u (2 ^ p) blocks.flatten.length (fun i => 2 * x c i)
        (Spec.conv (h c) (fun i => 2 * x c i)) := by
    intro c
    by_cases hc : c < channels
    · obtain ⟨outs, hr, hcv⟩ := hr c (lt_of_lt_of_le hc hch)
        (vec blocks.flatten.length (fun t => vec (2 ^ p) (fun i => 2 * x c (t * 2 ^ p + i)))) (by
          intro b hb
          unfold vec at hb
          obtain ⟨t, -, rfl⟩ := List.mem_map.1 hb
          simp [length_vec])
      obtain ⟨u0', u, hm, hl, hst⟩ := traces_of_run (x := fun i => 2 * x c i) hr hcv
      rw [hu0] at hm
      obtain rfl : u0 = u0' := by injection hm
      exact ⟨u, fun _ => ⟨hl, hst⟩⟩
    · exact ⟨u0, fun h => absurd h hc⟩
  choose u htr using htr
  have hload := forN_eq' (n := channels) (body := fun ch convs => do
      if impChannels ≤ ch then .error .oob else .ok ()
      let conv ← rd convs ch
      let conv ← k.ops.load conv (partitionView N bins ch) part
      wr convs ch conv) (s := List.replicate channels u0) (s' := vec channels u)
    (fun t => vec channels (fun c => if c < t then u c else u0)) (by
      symm
      rw [eq_vec_iff]
      refine ⟨by simp, fun i hi => by simp [hi]⟩) (by
      apply vec_ext
      intro i hi
      rw [if_pos hi]) (by
      intro t ht
      rw [if_neg (by omega)]
      simp only [rd_vec_ok ht, bind_ok, lt_irrefl, if_false, (htr t ht).1, wr_vec_ok ht]
      congr 1
      apply vec_ext
      intro i hi
      by_cases e : i = t
      · subst e; simp
      · rw [Function.update_of_ne e]
        by_cases c2 : i < t
        · rw [if_pos c2, if_pos (by omega)]
        · rw [if_neg c2, if_neg (by omega)])
  have hupd : denseUpdate k.ops channels impChannels impSize filter (2 ^ p) = .ok (vec channels u) := by
    unfold denseUpdate
    rw [hu0, bind_ok, hm, bind_ok, hn, bind_ok, hpart, bind_ok]
    exact hload
  -- the stream
  obtain ⟨s1, s, s', outs, hord, e1, e2, h1, e', hl', hf⟩ := dense_core rst fb k channels B hB hB2 g₁ g₂ g₃ blocks
    hblocks u h (fun c hc => (htr c hc).2)
  have hprep : densePrepare fb k.ops channels impChannels impSize filter B g₁ g₂ g₃
      = .ok { s with proc := vec channels u } := by
    unfold densePrepare
    rw [hord, bind_ok, Int.toNat_natCast, e1, bind_ok, e2, bind_ok, h1, hupd]
    rfl
  refine ⟨mat, imp, _, s', outs, hml,
    fun c hc i hi => by rw [← hidx impChannels]; exact hmv c hc i hi, hn, hprep, e', hl', ?_⟩
  intro n hn' c hc
  rw [hf n hn' c hc]
  split
  · rfl
  · congr 2
    funext i
    show chanAt _ _ _ _ = _
    unfold chanAt
    rw [hidx]
    rfl

/-- **C61**.  `DenseConvolution` prepared for host blocks of at most `B` samples (`2 ≤ B ≤ 2^26`, frames
of `F = 2 ^ ⌈log₂ B⌉` samples) and reset: for every stream of host blocks, however it is sliced, the
output is channel by channel the linear convolution with the normalised impulse response, `F - 1`
samples late — at twice its amplitude. -/
theorem C61_dense_stream (fb : Bool) (k : RenderConv) (channels impChannels impSize B : ℕ)
    (filter : List (List ℝ)) (hfl : filter.length = impChannels)
    (hfilt : ∀ s ∈ filter, s.length = impSize) (hch : channels ≤ impChannels)
    (hB : 2 ≤ B) (hB2 : B ≤ 2 ^ 26) (hS : 1 ≤ impSize) (hS2 : impSize < 2 ^ 64)
    (hsz : impChannels * ((impSize - 1) / 2 ^ Nat.clog 2 B + 1) * (2 ^ Nat.clog 2 B + 1) < 2 ^ 59)
    (g₁ g₂ g₃ : ℕ → ℕ → ℝ) (blocks : List (List (ℕ → ℝ))) (hblocks : ∀ b ∈ blocks, b.length ≤ B) :
    ∃ mat imp s s' outs, mat.length = impChannels * impSize ∧
      (∀ c < impChannels, ∀ i < impSize, mat[c * impSize + i]? = some ((filter.getD c []).getD i 0)) ∧
      normalizeImpulseMat false (MatView.right impChannels impSize) mat = .ok imp ∧
      densePrepare fb k.ops channels impChannels impSize filter B g₁ g₂ g₃ = .ok s ∧
      Cola.stream (denseFrame k.ops channels) s.reset blocks = .ok (s', outs) ∧
      outs.map List.length = blocks.map List.length ∧
      ∀ n < blocks.flatten.length, ∀ c < channels, (outs.flatten.getD n 0) c
        = if n < 2 ^ Nat.clog 2 B - 1 then 0 else
          2 * Spec.conv (fun i => if i < impSize then imp.getD (c * impSize + i) 0 else 0)
            (fun i => (blocks.flatten.getD i 0) c) (n - (2 ^ Nat.clog 2 B - 1)) := by
  simpa [startFrom] using dense_stream_start true fb k channels impChannels impSize B filter hfl hfilt hch hB hB2 hS
    hS2 hsz g₁ g₂ g₃ blocks hblocks

/-- Two channels, host blocks of 3, 1 and 2 samples, three-tap impulses; frames have 4 samples. -/
example (g : ℕ → ℕ → ℝ) : ∃ s s' outs,
    densePrepare true RenderConv.upols.ops 2 2 3 [[1, 0, 0], [1, 2, 2]] 3 g g g = .ok s ∧
    Cola.stream (denseFrame RenderConv.upols.ops 2) s.reset
      [[fun _ => 1, fun c => c, fun _ => 3], [fun _ => 4], [fun _ => 5, fun _ => 6]] = .ok (s', outs) ∧
    outs.map List.length = [3, 1, 2] := by
  have hc : Nat.clog 2 3 = 2 := by decide
  obtain ⟨mat, imp, s, s', outs, -, -, -, h1, h2, h3, -⟩ := C61_dense_stream true .upols 2 2 3 3
    [[1, 0, 0], [1, 2, 2]] rfl (by simp) le_rfl (by norm_num) (by norm_num) (by norm_num) (by norm_num)
    (by rw [hc]; norm_num) g g g
    [[fun _ => 1, fun c => c, fun _ => 3], [fun _ => 4], [fun _ => 5, fun _ => 6]] (by simp)
  exact ⟨s, s', outs, h1, h2, by simpa using h3⟩

/-- The unit impulse. -/
def unitImpulse (i : ℕ) : ℝ := if i = 0 then 1 else 0

theorem conv_unitImpulse (x : ℕ → ℝ) (n : ℕ) : Spec.conv unitImpulse x n = x n := by
  unfold Spec.conv
  rw [Finset.sum_eq_single 0]
  · simp [unitImpulse]
  · intro m _ hm; simp [unitImpulse, hm]
  · simp

theorem generateIdentityImpulse_eq (B : ℕ) : generateIdentityImpulse B 2
    = .ok (vec (2 * (B + 1)) (fun i => if i < B + 1 then 1 else 0)) := by
  unfold generateIdentityImpulse
  have : (List.replicate (2 * (B + 1)) (0 : ℂ)) = vec (2 * (B + 1)) (fun _ => 0) := by simp [vec]
  dsimp only
  rw [this, rdSpan_vec (by omega) (by omega), bind_ok, fillVec_vec, bind_ok, wrSpan_vec (by omega)]
  congr 1
  apply vec_ext
  intro i _
  simp

/-- A convolver loaded with the spectra of the segments of `h` convolves with `h`. -/
theorem renderConv_part (k : RenderConv) {a : ℕ} (ha : 1 ≤ a) (ha2 : a ≤ 26) {v : MatView} {data : List ℂ}
    (hv : v.InRange data.length) (hr : 1 ≤ v.rows) (hc : v.cols = 2 ^ a + 1) {h : ℕ → ℝ}
    (hh : ∀ m, v.rows * 2 ^ a ≤ m → h m = 0)
    (hH : ∀ r < v.rows, ∀ c < v.cols, matAt v data r c
      = Spec.dft (2 * 2 ^ a) (fun m => ((seg (2 ^ a) h r m : ℝ) : ℂ)) c)
    (blocks : List (List ℝ)) (hb : ∀ b ∈ blocks, b.length = 2 ^ a) :
    ∃ outs, runOps k.ops v data blocks = .ok outs ∧ IsConvOf outs blocks h := by
  have h1 : ∃ outs, upolaRun v data blocks = .ok outs ∧ IsConvOf outs blocks h :=
    ⟨_, upolaRun_eq ha ha2 hv hr hc hH blocks hb, isConvOf_vec hb (fun t i hi => ola_conv hh _ t hi)⟩
  have h2 : ∃ outs, upolsRun v data blocks = .ok outs ∧ IsConvOf outs blocks h :=
    ⟨_, upolsRun_eq ha ha2 hv hr hc hH blocks hb, isConvOf_vec hb (fun t i hi => ols_conv hh _ t hi)⟩
  cases k
  · exact h1
  · exact h2
  · obtain ⟨outs, e, ho⟩ := h1
    rw [← C24_split_upola _ _ hv] at e
    exact ⟨outs, e, ho⟩
  · obtain ⟨outs, e, ho⟩ := h2
    rw [← C24_split_upols _ _ hv] at e
    exact ⟨outs, e, ho⟩

/-- Row `r` of the identity filter is the spectrum of segment `r` of the unit impulse. -/
theorem dft_seg_unitImpulse {F : ℕ} (hF : 1 ≤ F) {r : ℕ} (c : ℕ) :
    Spec.dft (2 * F) (fun m => ((seg F unitImpulse r m : ℝ) : ℂ)) c = if r = 0 then 1 else 0 := by
  unfold Spec.dft
  by_cases hr : r = 0
  · subst hr
    rw [if_pos rfl, Finset.sum_eq_single 0]
    · beta_reduce
      rw [seg_of_lt (by omega)]; simp [unitImpulse]
    · intro m _ hm
      have : seg F unitImpulse 0 m = 0 := by
        unfold seg unitImpulse
        split
        · rw [if_neg (by omega)]
        · rfl
      beta_reduce
      rw [this]; simp
    · intro h; simp at h; omega
  · rw [if_neg hr]
    apply Finset.sum_eq_zero
    intro m _
    have : seg F unitImpulse r m = 0 := by
      unfold seg unitImpulse
      split
      · rw [if_neg]
        have := Nat.mul_pos (Nat.pos_of_ne_zero hr) hF
        omega
      · rfl
    beta_reduce
    rw [this]; simp

/-- `C61_no_impulse` with or without `reset`. -/
theorem dense_none_start (rst fb : Bool) (k : RenderConv) (channels B : ℕ) (hB : 2 ≤ B) (hB2 : B ≤ 2 ^ 26)
    (g₁ g₂ g₃ : ℕ → ℕ → ℝ) (blocks : List (List (ℕ → ℝ))) (hblocks : ∀ b ∈ blocks, b.length ≤ B) :
    ∃ s s' outs, densePrepareNone fb k.ops channels B g₁ g₂ g₃ = .ok s ∧
      Cola.stream (denseFrame k.ops channels) (startFrom rst s) blocks = .ok (s', outs) ∧
      outs.map List.length = blocks.map List.length ∧
      ∀ n < blocks.flatten.length, ∀ c < channels, (outs.flatten.getD n 0) c
        = if n < 2 ^ Nat.clog 2 B - 1 then (if rst then 0 else g₃ n c) else
          2 * (blocks.flatten.getD (n - (2 ^ Nat.clog 2 B - 1)) 0) c := by
  set p := Nat.clog 2 B with hp
  have hp1 : 1 ≤ p := Nat.clog_pos (by norm_num) hB
  have hp26 : p ≤ 26 := (Nat.clog_le_iff_le_pow (by norm_num)).2 hB2
  have hF1 : 1 ≤ 2 ^ p := Nat.one_le_two_pow
  obtain ⟨u0, hu0⟩ := renderConv_make k
  let x : ℕ → ℕ → ℝ := fun c i => (blocks.flatten.getD i 0) c
  let Inv : ℕ → List ℂ × List k.State → Prop := fun t s =>
    s.1.length = channels * 2 * (2 ^ p + 1) ∧ ∃ u : ℕ → k.State,
      s.2 = vec channels (fun c => if c < t then u c else u0) ∧
      ∀ c < t, Traces k.ops (u c) (2 ^ p) blocks.flatten.length (fun i => 2 * x c i)
        (Spec.conv unitImpulse (fun i => 2 * x c i))
  have hload : ∃ s, forN channels (fun ch (q : List ℂ × List k.State) => do
      let filter ← copyMat (MatView.right 2 (2 ^ p + 1))
        (vec (2 * (2 ^ p + 1)) (fun i => if i < 2 ^ p + 1 then 1 else 0)) (partitionView 2 (2 ^ p + 1) ch) q.1
      let conv ← rd q.2 ch
      let conv ← k.ops.load conv (partitionView 2 (2 ^ p + 1) ch) filter
      let convs ← wr q.2 ch conv
      pure (filter, convs)) (List.replicate (channels * 2 * (2 ^ p + 1)) 0, List.replicate channels u0)
      = .ok s ∧ Inv channels s := by
    refine forN_inv Inv ?_ ?_
    · refine ⟨by simp, fun _ => u0, ?_, fun c hc => absurd hc (Nat.not_lt_zero _)⟩
      simp [vec]
    · rintro t ht ⟨buf, cs⟩ ⟨hl, u, hcs, hu⟩
      dsimp only at hcs
      subst hcs
      dsimp only at hl ⊢
      have hfit : t * 2 * (2 ^ p + 1) + 2 * (2 ^ p + 1) ≤ channels * 2 * (2 ^ p + 1) := by
        have := Nat.mul_le_mul_right (2 * (2 ^ p + 1)) (show t + 1 ≤ channels from ht)
        nlinarith
      have hvo : (partitionView 2 (2 ^ p + 1) t).Valid buf.length := by
        rw [hl]
        constructor
        · intro r hr c hc
          simp only [partitionView, MatView.idx] at *
          have : r * (2 ^ p + 1) ≤ 1 * (2 ^ p + 1) := Nat.mul_le_mul_right _ (by omega)
          omega
        · intro r hr c hc r' hr' c' hc' h
          simp only [partitionView, MatView.idx] at *
          obtain rfl | rfl : r = 0 ∨ r = 1 := by omega
          all_goals obtain rfl | rfl : r' = 0 ∨ r' = 1 := by omega
          all_goals exact ⟨by omega, by omega⟩
      obtain ⟨d, e, hdl, hd, -⟩ := C60_matrix_copy (MatView.right 2 (2 ^ p + 1))
        (partitionView 2 (2 ^ p + 1) t)
        (vec (2 * (2 ^ p + 1)) (fun i => if i < 2 ^ p + 1 then (1 : ℂ) else 0)) buf rfl rfl
        (by rw [length_vec]; exact MatView.right_valid _ _) hvo
      obtain ⟨outs, hr, hcv⟩ := renderConv_part k hp1 hp26 (v := partitionView 2 (2 ^ p + 1) t) (data := d)
        (by rw [hdl]; exact hvo.1) (by show 1 ≤ 2; omega) rfl (h := unitImpulse)
        (fun m hm => by
          unfold unitImpulse
          rw [if_neg]
          have : 2 * 2 ^ p ≤ m := hm
          omega)
        (fun r hr c hc => by
          rw [dft_seg_unitImpulse hF1]
          unfold matAt
          have hr' : r < 2 := hr
          have hc' : c < 2 ^ p + 1 := hc
          have hi : (MatView.right 2 (2 ^ p + 1)).idx r c = r * (2 ^ p + 1) + c := by
            simp only [MatView.right, MatView.idx]; ring
          rw [List.getD_eq_getElem?_getD, hd r hr c hc, hi, getElem?_vec, if_pos (by nlinarith)]
          simp only [Option.getD_some]
          by_cases e0 : r = 0
          · subst e0; rw [if_pos (by omega), if_pos rfl]
          · rw [if_neg (by nlinarith [Nat.pos_of_ne_zero e0]), if_neg e0])
        (vec blocks.flatten.length (fun j => vec (2 ^ p) (fun i => 2 * x t (j * 2 ^ p + i)))) (by
          intro b hb
          unfold vec at hb
          obtain ⟨j, -, rfl⟩ := List.mem_map.1 hb
          simp [length_vec])
      obtain ⟨u0', ut, hm, hlo, hst⟩ := traces_of_run (x := fun i => 2 * x t i) hr hcv
      rw [hu0] at hm
      obtain rfl : u0 = u0' := by injection hm
      refine ⟨(d, vec channels (fun c => if c < t + 1 then Function.update u t ut c else u0)), ?_,
        by show d.length = _; rw [hdl, hl], Function.update u t ut, rfl, ?_⟩
      · rw [e, bind_ok, rd_vec_ok ht, bind_ok]
        simp only [lt_irrefl, if_false]
        rw [hlo, bind_ok, wr_vec_ok ht, bind_ok, pure_eq_ok]
        congr 2
        apply vec_ext
        intro c hc
        by_cases ec : c = t
        · subst ec; simp
        · rw [Function.update_of_ne ec, Function.update_of_ne ec]
          have : c < t + 1 ↔ c < t := by omega
          simp only [this]
      · intro c hc
        by_cases ec : c = t
        · subst ec; rw [Function.update_self]; exact hst
        · rw [Function.update_of_ne ec]; exact hu c (by omega)
  obtain ⟨⟨buf, cs⟩, hrun, -, u, hcs, hu⟩ := hload
  dsimp only at hcs
  have hcs' : cs = vec channels u := by
    rw [hcs]; exact vec_ext (fun c hc => by rw [if_pos hc])
  obtain ⟨s1, s, s', outs, hord, e1, e2, h1, e', hl', hf⟩ := dense_core rst fb k channels B hB hB2 g₁ g₂ g₃ blocks
    hblocks u (fun _ => unitImpulse) hu
  have hprep : densePrepareNone fb k.ops channels B g₁ g₂ g₃ = .ok { s with proc := vec channels u } := by
    unfold densePrepareNone denseUpdateNone
    rw [hord, bind_ok, Int.toNat_natCast, e1, bind_ok, e2, bind_ok, h1, generateIdentityImpulse_eq, bind_ok,
      hu0, bind_ok, hrun, bind_ok, pure_eq_ok, bind_ok, hcs']
    rfl
  refine ⟨_, s', outs, hprep, e', hl', fun n hn c hc => ?_⟩
  rw [hf n hn c hc, conv_unitImpulse]

/-- **C61** (no impulse response loaded).  The stream comes out unfiltered, `F - 1` samples late — at twice its
amplitude. -/
theorem C61_no_impulse (fb : Bool) (k : RenderConv) (channels B : ℕ) (hB : 2 ≤ B) (hB2 : B ≤ 2 ^ 26)
    (g₁ g₂ g₃ : ℕ → ℕ → ℝ) (blocks : List (List (ℕ → ℝ))) (hblocks : ∀ b ∈ blocks, b.length ≤ B) :
    ∃ s s' outs, densePrepareNone fb k.ops channels B g₁ g₂ g₃ = .ok s ∧
      Cola.stream (denseFrame k.ops channels) s.reset blocks = .ok (s', outs) ∧
      outs.map List.length = blocks.map List.length ∧
      ∀ n < blocks.flatten.length, ∀ c < channels, (outs.flatten.getD n 0) c
        = if n < 2 ^ Nat.clog 2 B - 1 then 0 else
          2 * (blocks.flatten.getD (n - (2 ^ Nat.clog 2 B - 1)) 0) c := by
  simpa [startFrom] using dense_none_start true fb k channels B hB hB2 g₁ g₂ g₃ blocks hblocks

/-- Three channels, host blocks of 3 and 2 samples. -/
example (g : ℕ → ℕ → ℝ) : ∃ s s' outs,
    densePrepareNone false RenderConv.upola.ops 3 3 g g g = .ok s ∧
    Cola.stream (denseFrame RenderConv.upola.ops 3) s.reset
      [[fun _ => 1, fun c => c, fun _ => 3], [fun _ => 4, fun c => 5 * c]] = .ok (s', outs) ∧
    (outs.flatten.getD 4 0) 2 = 4 := by
  have hc : Nat.clog 2 3 = 2 := by decide
  obtain ⟨s, s', outs, h1, h2, -, h4⟩ := C61_no_impulse false .upola 3 3 (by norm_num) (by norm_num) g g g
    [[fun _ => 1, fun c => c, fun _ => 3], [fun _ => 4, fun c => 5 * c]] (by simp)
  refine ⟨s, s', outs, h1, h2, ?_⟩
  rw [h4 4 (by decide) 2 (by norm_num), hc]
  norm_num

end Neo.Props
