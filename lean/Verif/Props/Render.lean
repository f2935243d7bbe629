import Verif.Lemmas.Render
import Verif.Props.Upc
import Verif.Props.Stats

/-! # C57: whole-file convolution in the command-line tool and in the plugin -/

namespace Neo.Props

open Neo

/-- The `Convolver` template arguments the renderers are instantiated with. -/
inductive RenderConv where
  | upola
  | upols
  | splitUpola
  | splitUpols

/-- Type of the convolver objects. -/
def RenderConv.State : RenderConv → Type
  | .upola => Upc OverlapAdd (Arr2 ℂ) (Arr2 ℂ) (List ℂ)
  | .upols => Upc OverlapSave (Arr2 ℂ) (Arr2 ℂ) (List ℂ)
  | .splitUpola => Upc OverlapAdd Split2 Split2 (List ℝ × List ℝ)
  | .splitUpols => Upc OverlapSave Split2 Split2 (List ℝ × List ℝ)

/-- The convolver classes, `src/neo/convolution/dense_convolver.hpp:20-42`. -/
noncomputable def RenderConv.ops : (k : RenderConv) → ConvOps k.State
  | .upola => upcConvOps olaOps denseFdlOps denseFilterOps { rows := 0, cols := 0, data := [] }
  | .upols => upcConvOps olsOps denseFdlOps denseFilterOps { rows := 0, cols := 0, data := [] }
  | .splitUpola => upcConvOps olaOps splitFdlOps splitFilterOps emptySplit
  | .splitUpols => upcConvOps olsOps splitFdlOps splitFilterOps emptySplit

theorem upc_make_ok {Ov Fdl Row Filt Acc : Type} {oo : OverlapOps Ov} {fo : FdlOps Fdl Row}
    {po : FilterOps Filt Row Acc Unit} {f0 : Filt} (h : ∃ o, oo.make 1 1 = .ok o) :
    ∃ u, (upcConvOps oo fo po f0).make = .ok u := by
  obtain ⟨o, ho⟩ := h
  refine ⟨{ overlap := o, fdl := fo.make 0 0, indexer := FdlIndex.make 0, filter := f0,
            accumulator := po.accMake 0 }, ?_⟩
  show Upc.make oo fo po f0 = _
  unfold Upc.make
  rw [ho]
  rfl

theorem renderConv_make (k : RenderConv) : ∃ u, k.ops.make = .ok u := by
  cases k
  · exact upc_make_ok ola_make_one
  · exact upc_make_ok ols_make_one
  · exact upc_make_ok ola_make_one
  · exact upc_make_ok ols_make_one

/-- What every convolver does with the partitions of channel `c` (C23, C24). -/
theorem renderConv_run (k : RenderConv) (v : MatView) (data : List ℝ) (hv : v.InRange data.length)
    (a : ℕ) (ha : 1 ≤ a) (ha2 : a ≤ 26) (hS : 1 ≤ v.cols) (hS2 : v.cols < 2 ^ 64)
    (hsz : v.rows * ((v.cols - 1) / 2 ^ a + 1) * (2 ^ a + 1) < 2 ^ 59) :
    ∃ N bins part, uniformPartition v data (2 ^ a) = .ok (N, bins, part) ∧
      ∀ c < v.rows, ∀ blocks : List (List ℝ), (∀ b ∈ blocks, b.length = 2 ^ a) →
        ∃ outs, runOps k.ops (partitionView N bins c) part blocks = .ok outs ∧
          IsConvOf outs blocks (chanAt v data c) := by
  have hcl : Nat.clog 2 (2 ^ a * 2) = a + 1 := by rw [← pow_succ, Nat.clog_pow 2 _ (by norm_num)]
  obtain ⟨part, e, hp⟩ := uniformPartition_eq hv Nat.one_le_two_pow hcl (by omega) hS hS2
    (by rw [two_pow_half]; exact hsz)
  obtain ⟨N, bins, part', e1, h1⟩ := C23_upola v data hv a ha ha2 hS hS2 hsz
  obtain ⟨N', bins', part'', e2, h2⟩ := C23_upols v data hv a ha ha2 hS hS2 hsz
  rw [e] at e1 e2
  cases e1
  cases e2
  refine ⟨_, _, part, e, fun c hc blocks hb => ?_⟩
  cases k
  · exact h1 c hc blocks hb
  · exact h2 c hc blocks hb
  · obtain ⟨outs, e, ho⟩ := h1 c hc blocks hb
    rw [← C24_split_upola _ _ (hp c hc).1] at e
    exact ⟨outs, e, ho⟩
  · obtain ⟨outs, e, ho⟩ := h2 c hc blocks hb
    rw [← C24_split_upols _ _ (hp c hc).1] at e
    exact ⟨outs, e, ho⟩

/-- **C57** (command-line tool): for every number of channels, signal length, power-of-two block size
`≥ 2` and impulse response, `convolve` returns, channel by channel, the first `size` samples of the
linear convolution of the signal (continued by zeros) with the normalised impulse.  The
hypothesis `size + 2^a ≤ 2^31` keeps the `int` counter of the loop from overflowing. -/
theorem C57_cli (k : RenderConv) (channels size impSize a : ℕ) (impChannels : ℕ)
    (signal impulse : List ℝ) (hsig : signal.length = channels * size)
    (himp : impulse.length = impChannels * impSize) (hch : channels ≤ impChannels)
    (hC : channels < 2 ^ 31) (ha : 1 ≤ a) (ha2 : a ≤ 26) (hsize : size + 2 ^ a ≤ 2 ^ 31)
    (hS : 1 ≤ impSize) (hS2 : impSize < 2 ^ 64)
    (hsz : impChannels * ((impSize - 1) / 2 ^ a + 1) * (2 ^ a + 1) < 2 ^ 59) :
    ∃ imp out, normalizeImpulseMat true (MatView.left impChannels impSize) impulse = .ok imp ∧
      cliConvolve k.ops channels size signal impChannels impSize impulse (2 ^ a) = .ok out ∧
      out.length = channels * size ∧
      ∀ c < channels, ∀ n < size, out[n * channels + c]?
        = some (Spec.conv (fun i => if i < impSize then imp.getD (i * impChannels + c) 0 else 0)
            (fun i => if i < size then signal.getD (i * channels + c) 0 else 0) n) := by
  have hval := MatView.left_valid impChannels impSize
  obtain ⟨imp, f, hn, -, hl, -⟩ := C48_normalize_impulse_partial true (MatView.left impChannels impSize)
    impulse (by rw [himp]; exact hval)
  have hvi : (MatView.left impChannels impSize).InRange imp.length := by
    rw [hl, himp]; exact hval.1
  obtain ⟨N, bins, part, hp, hr⟩ := renderConv_run k (MatView.left impChannels impSize) imp hvi a ha ha2
    hS hS2 hsz
  obtain ⟨out, e, h1, h2⟩ := cliConvolve_ok (ops := k.ops)
    (fun c => chanAt (MatView.left impChannels impSize) imp c) hsig Nat.one_le_two_pow hsize hC hch hn hp
    (fun c hc => hr c (lt_of_lt_of_le hc hch))
  have hidx : ∀ R L c n, (MatView.left R L).idx c n = n * R + c := by
    intro R L c n; simp only [MatView.left, MatView.idx]; ring
  refine ⟨imp, out, hn, e, h1, fun c hc n hn' => ?_⟩
  have := h2 c hc n hn'
  rw [hidx] at this
  rw [this]
  congr 2
  · funext i
    unfold chanAt
    rw [hidx]
    rfl
  · funext i
    unfold chanAt
    rw [hidx]
    rfl

/-- **C57** (plugin): the same for `dense_convolve`, where the loop over the channels is inside the
loop over the blocks. -/
theorem C57_plugin (k : RenderConv) (channels size impSize a : ℕ) (impChannels : ℕ)
    (signal filter : List (List ℝ)) (hsl : signal.length = channels)
    (hsig : ∀ s ∈ signal, s.length = size) (hfl : filter.length = impChannels)
    (hfilt : ∀ s ∈ filter, s.length = impSize) (hch : channels ≤ impChannels)
    (hC : channels < 2 ^ 31) (ha : 1 ≤ a) (ha2 : a ≤ 26) (hsize : size + 2 ^ a ≤ 2 ^ 31)
    (hS : 1 ≤ impSize) (hS2 : impSize < 2 ^ 64)
    (hsz : impChannels * ((impSize - 1) / 2 ^ a + 1) * (2 ^ a + 1) < 2 ^ 59) :
    ∃ mat imp out, mat.length = impChannels * impSize ∧
      (∀ c < impChannels, ∀ i < impSize, mat[c * impSize + i]? = some ((filter.getD c []).getD i 0)) ∧
      normalizeImpulseMat false (MatView.right impChannels impSize) mat = .ok imp ∧
      denseConvolve k.ops channels size signal impChannels impSize filter (2 ^ a) = .ok out ∧
      out.length = channels ∧ ∀ c < channels, ∃ o, out[c]? = some o ∧ o.length = size ∧
        ∀ n < size, o[n]?
          = some (Spec.conv (fun i => if i < impSize then imp.getD (c * impSize + i) 0 else 0)
              (fun i => if i < size then (signal.getD c []).getD i 0 else 0) n) := by
  have hval := MatView.right_valid impChannels impSize
  obtain ⟨mat, hm, hml, hmv⟩ := toMdarray_ok (C := impChannels) (L := impSize) hfl hfilt
  obtain ⟨imp, f, hn, -, hl, -⟩ := C48_normalize_impulse_partial false
    (MatView.right impChannels impSize) mat (by rw [hml]; exact hval)
  have hvi : (MatView.right impChannels impSize).InRange imp.length := by
    rw [hl, hml]; exact hval.1
  obtain ⟨N, bins, part, hp, hr⟩ := renderConv_run k (MatView.right impChannels impSize) imp hvi a ha ha2
    hS hS2 hsz
  obtain ⟨u0, hu0⟩ := renderConv_make k
  obtain ⟨out, e, h1, h2⟩ := denseConvolve_ok (ops := k.ops)
    (fun c => chanAt (MatView.right impChannels impSize) imp c) hsl hsig Nat.one_le_two_pow hsize hC hch
    hu0 hm hn hp (fun c hc => hr c (lt_of_lt_of_le hc hch))
  have hidx : ∀ R L c n, (MatView.right R L).idx c n = c * L + n := by
    intro R L c n; simp only [MatView.right, MatView.idx]; ring
  refine ⟨mat, imp, out, hml, fun c hc i hi => by rw [← hidx impChannels]; exact hmv c hc i hi, hn, e, h1,
    fun c hc => ?_⟩
  obtain ⟨o, k1, k2, k3⟩ := h2 c hc
  refine ⟨o, k1, k2, fun n hn' => ?_⟩
  rw [k3 n hn']
  congr 2
  funext i
  unfold chanAt
  rw [hidx]
  rfl

/-- Two channels, five samples, blocks of four, three-tap impulses: the last block is short. -/
example : ∃ out, cliConvolve RenderConv.upola.ops 2 5 [1, 2, 3, 4, 5, 6, 7, 8, 9, 10] 2 3
    [1, 0, 0, 1, 2, 2] 4 = .ok out ∧ out.length = 10 := by
  obtain ⟨imp, out, -, e, h, -⟩ := C57_cli .upola 2 5 3 2 2 [1, 2, 3, 4, 5, 6, 7, 8, 9, 10]
    [1, 0, 0, 1, 2, 2] rfl rfl le_rfl (by norm_num) (by norm_num) (by norm_num) (by norm_num) (by norm_num)
    (by norm_num) (by norm_num)
  exact ⟨out, e, h⟩

example : ∃ out, denseConvolve RenderConv.upols.ops 2 5 [[1, 2, 3, 4, 5], [6, 7, 8, 9, 10]] 2 3
    [[1, 0, 0], [1, 2, 2]] 4 = .ok out ∧ out.length = 2 := by
  obtain ⟨mat, imp, out, -, -, -, e, h, -⟩ := C57_plugin .upols 2 5 3 2 2 [[1, 2, 3, 4, 5], [6, 7, 8, 9, 10]]
    [[1, 0, 0], [1, 2, 2]] rfl (by simp) rfl (by simp) le_rfl (by norm_num) (by norm_num) (by norm_num)
    (by norm_num) (by norm_num) (by norm_num) (by norm_num)
  exact ⟨out, e, h⟩

end Neo.Props
