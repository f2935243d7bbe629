import Verif.Lemmas.UpcOk
import Verif.Lemmas.UpcLti

/-! # C23–C25, C27, C28, C30: uniformly partitioned convolvers -/

namespace Neo.Props

open Neo Finset

/-! ## C23 -/

/-- **C23** (overlap-add).  An impulse response of `S ≥ 1` samples per channel is partitioned with
`uniform_partition(h, B)`, `B = 2 ^ a`, `a ≥ 1`.  A fresh `upola_convolver` loaded with the
partitions of channel `c` and fed with any list of `B`-sample blocks outputs, sample for sample, the
linear convolution of the concatenated blocks with channel `c`.

Technical bounds: plan orders up to 27 and sizes below the machine limits. -/
theorem C23_upola (v : MatView) (data : List ℝ) (hv : v.InRange data.length) (a : ℕ) (ha : 1 ≤ a)
    (ha2 : a ≤ 26) (hS : 1 ≤ v.cols) (hS2 : v.cols < 2 ^ 64)
    (hsz : v.rows * ((v.cols - 1) / 2 ^ a + 1) * (2 ^ a + 1) < 2 ^ 59) :
    ∃ N bins part, uniformPartition v data (2 ^ a) = .ok (N, bins, part) ∧
      ∀ c < v.rows, ∀ blocks : List (List ℝ), (∀ b ∈ blocks, b.length = 2 ^ a) →
        ∃ outs, upolaRun (partitionView N bins c) part blocks = .ok outs ∧
          IsConvOf outs blocks (fun i => if i < v.cols then data.getD (v.idx c i) 0 else 0) := by
  have hcl : Nat.clog 2 (2 ^ a * 2) = a + 1 := by rw [← pow_succ, Nat.clog_pow 2 _ (by norm_num)]
  obtain ⟨part, e, hp⟩ := uniformPartition_eq hv Nat.one_le_two_pow hcl (by omega) hS hS2
    (by rw [two_pow_half]; exact hsz)
  rw [two_pow_half] at e hp
  refine ⟨_, _, part, e, ?_⟩
  intro c hc blocks hb
  obtain ⟨hr, hd⟩ := hp c hc
  refine ⟨_, upolaRun_eq (v := partitionView ((v.cols - 1) / 2 ^ a + 1) (2 ^ a + 1) c) ha ha2 hr
    (Nat.le_add_left 1 _) rfl (H := fun j => Spec.dft (2 * 2 ^ a) (fun m =>
      ((seg (2 ^ a) (chanAt v data c) j m : ℝ) : ℂ)))
    (fun t ht k hk => by rw [hd t ht k hk, two_mul_pow]) blocks hb, ?_⟩
  exact isConvOf_vec hb (fun t i hi => ola_conv (chanAt_support Nat.one_le_two_pow) _ t hi)

/-- **C23** (overlap-save). -/
theorem C23_upols (v : MatView) (data : List ℝ) (hv : v.InRange data.length) (a : ℕ) (ha : 1 ≤ a)
    (ha2 : a ≤ 26) (hS : 1 ≤ v.cols) (hS2 : v.cols < 2 ^ 64)
    (hsz : v.rows * ((v.cols - 1) / 2 ^ a + 1) * (2 ^ a + 1) < 2 ^ 59) :
    ∃ N bins part, uniformPartition v data (2 ^ a) = .ok (N, bins, part) ∧
      ∀ c < v.rows, ∀ blocks : List (List ℝ), (∀ b ∈ blocks, b.length = 2 ^ a) →
        ∃ outs, upolsRun (partitionView N bins c) part blocks = .ok outs ∧
          IsConvOf outs blocks (fun i => if i < v.cols then data.getD (v.idx c i) 0 else 0) := by
  have hcl : Nat.clog 2 (2 ^ a * 2) = a + 1 := by rw [← pow_succ, Nat.clog_pow 2 _ (by norm_num)]
  obtain ⟨part, e, hp⟩ := uniformPartition_eq hv Nat.one_le_two_pow hcl (by omega) hS hS2
    (by rw [two_pow_half]; exact hsz)
  rw [two_pow_half] at e hp
  refine ⟨_, _, part, e, ?_⟩
  intro c hc blocks hb
  obtain ⟨hr, hd⟩ := hp c hc
  refine ⟨_, upolsRun_eq (v := partitionView ((v.cols - 1) / 2 ^ a + 1) (2 ^ a + 1) c) ha ha2 hr
    (Nat.le_add_left 1 _) rfl (H := fun j => Spec.dft (2 * 2 ^ a) (fun m =>
      ((seg (2 ^ a) (chanAt v data c) j m : ℝ) : ℂ)))
    (fun t ht k hk => by rw [hd t ht k hk, two_mul_pow]) blocks hb, ?_⟩
  exact isConvOf_vec hb (fun t i hi => ols_conv (chanAt_support Nat.one_le_two_pow) _ t hi)

/-- A two-channel impulse response of five samples, blocks of two samples. -/
example : (MatView.right 2 5).InRange [(1 : ℝ), 2, 3, 4, 5, 6, 7, 8, 9, 10].length ∧
    (1 : ℕ) ≤ 1 ∧ (MatView.right 2 5).rows * (((MatView.right 2 5).cols - 1) / 2 ^ 1 + 1)
      * (2 ^ 1 + 1) < 2 ^ 59 ∧ ∀ b ∈ [[(1 : ℝ), 2], [3, 4], [5, 6]], b.length = 2 ^ 1 := by
  refine ⟨?_, le_rfl, by decide, by simp⟩
  intro r hr c hc
  simp only [MatView.right, MatView.idx, List.length_cons, List.length_nil] at *
  omega

/-! ## C24 -/

/-- **C24** (overlap-add): for every filter matrix (any sizes, any strides) and every list of blocks
(any lengths) the split-complex convolver returns exactly what the interleaved one returns, output
blocks or fault. -/
theorem C24_split_upola (v : MatView) (data : List ℂ) (hv : v.InRange data.length)
    (blocks : List (List ℝ)) : splitUpolaRun v data blocks = upolaRun v data blocks :=
  run_rel ola_param rfl rfl (splitFdl_law _ _) (denseFdl_law _ _) (fun h => splitFdl_bad h)
    (fun h => denseFdl_bad h) data data () () (H := matAt v data)
    (fun f0 => splitFilter_law hv f0 (fun _ _ _ _ => rfl))
    (fun f0 => denseFilter_law hv f0 (fun _ _ _ _ => rfl)) blocks

/-- **C24** (overlap-save). -/
theorem C24_split_upols (v : MatView) (data : List ℂ) (hv : v.InRange data.length)
    (blocks : List (List ℝ)) : splitUpolsRun v data blocks = upolsRun v data blocks :=
  run_rel ols_param rfl rfl (splitFdl_law _ _) (denseFdl_law _ _) (fun h => splitFdl_bad h)
    (fun h => denseFdl_bad h) data data () () (H := matAt v data)
    (fun f0 => splitFilter_law hv f0 (fun _ _ _ _ => rfl))
    (fun f0 => denseFilter_law hv f0 (fun _ _ _ _ => rfl)) blocks

/-- **C24** does not compare faults only: with two-sample blocks both convolvers produce output. -/
theorem C24_not_vacuous (a : ℕ) (ha : 1 ≤ a) (ha2 : a ≤ 26) (v : MatView) (data : List ℂ)
    (hv : v.InRange data.length) (hr : 1 ≤ v.rows) (hc : v.cols = 2 ^ a + 1)
    (blocks : List (List ℝ)) (hb : ∀ b ∈ blocks, b.length = 2 ^ a) :
    (∃ outs, splitUpolaRun v data blocks = .ok outs ∧ outs.length = blocks.length) ∧
    (∃ outs, splitUpolsRun v data blocks = .ok outs ∧ outs.length = blocks.length) := by
  rw [C24_split_upola v data hv, C24_split_upols v data hv,
    upolaRun_eq ha ha2 hv hr hc (fun _ _ _ _ => rfl) blocks hb,
    upolsRun_eq ha ha2 hv hr hc (fun _ _ _ _ => rfl) blocks hb]
  exact ⟨⟨_, rfl, length_vec _ _⟩, ⟨_, rfl, length_vec _ _⟩⟩

/-- One partition of three bins, as needed for two-sample blocks. -/
example : (MatView.right 1 3).InRange [(1 : ℂ), Complex.I, 2].length ∧
    (MatView.right 1 3).cols = 2 ^ 1 + 1 := by
  refine ⟨?_, rfl⟩
  intro r hr c hc
  simp only [MatView.right, MatView.idx, List.length_cons, List.length_nil] at *
  omega

/-! ## C25 -/

/-- `data'` read through `v'` is `data` read through `v` with the rejected entries replaced by 0. -/
def Thresholded (p : ℕ → ℕ → ℂ → Bool) (v : MatView) (data : List ℂ) (v' : MatView)
    (data' : List ℂ) : Prop :=
  v'.rows = v.rows ∧ v'.cols = v.cols ∧ v'.InRange data'.length ∧
  ∀ r < v.rows, ∀ c < v.cols, data'.getD (v'.idx r c) 0
    = if p r c (data.getD (v.idx r c) 0) then data.getD (v.idx r c) 0 else 0

/-- **C25** (overlap-add): for every filter matrix, predicate and list of blocks the sparse
convolver returns exactly what the dense convolver returns for the thresholded matrix. -/
theorem C25_sparse_upola (p : ℕ → ℕ → ℂ → Bool) (v : MatView) (data : List ℂ)
    (hv : v.InRange data.length) (v' : MatView) (data' : List ℂ) (ht : Thresholded p v data v' data')
    (blocks : List (List ℝ)) : sparseUpolaRun v data p blocks = upolaRun v' data' blocks := by
  obtain ⟨h1, h2, h3, h4⟩ := ht
  refine run_rel ola_param h1.symm h2.symm (denseFdl_law _ _) (denseFdl_law _ _)
    (fun h => denseFdl_bad h) (fun h => denseFdl_bad h) data data' p ()
    (H := sparsified p (matAt v data)) (AR₂ := fun acc a => acc = vec v.cols a)
    (fun f0 => sparseFilter_law hv f0 p (fun _ _ _ _ => rfl))
    (fun f0 => ?_) blocks
  have := denseFilter_law (v := v') h3 f0 (H := sparsified p (matAt v data))
    (fun r hr c hc => h4 r (h1 ▸ hr) c (h2 ▸ hc))
  rwa [h1, h2] at this

/-- **C25** (overlap-save). -/
theorem C25_sparse_upols (p : ℕ → ℕ → ℂ → Bool) (v : MatView) (data : List ℂ)
    (hv : v.InRange data.length) (v' : MatView) (data' : List ℂ) (ht : Thresholded p v data v' data')
    (blocks : List (List ℝ)) : sparseUpolsRun v data p blocks = upolsRun v' data' blocks := by
  obtain ⟨h1, h2, h3, h4⟩ := ht
  refine run_rel ols_param h1.symm h2.symm (denseFdl_law _ _) (denseFdl_law _ _)
    (fun h => denseFdl_bad h) (fun h => denseFdl_bad h) data data' p ()
    (H := sparsified p (matAt v data)) (AR₂ := fun acc a => acc = vec v.cols a)
    (fun f0 => sparseFilter_law hv f0 p (fun _ _ _ _ => rfl))
    (fun f0 => ?_) blocks
  have := denseFilter_law (v := v') h3 f0 (H := sparsified p (matAt v data))
    (fun r hr c hc => h4 r (h1 ▸ hr) c (h2 ▸ hc))
  rwa [h1, h2] at this

/-- The thresholded matrix exists for every matrix and predicate. -/
theorem C25_thresholded_exists (p : ℕ → ℕ → ℂ → Bool) (v : MatView) (data : List ℂ) :
    Thresholded p v data (MatView.right v.rows v.cols) (vec (v.rows * v.cols) (fun i =>
      sparsified p (matAt v data) (i / v.cols) (i % v.cols))) := by
  have hlt : ∀ r < v.rows, ∀ c < v.cols, r * v.cols + c < v.rows * v.cols := by
    intro r hr c hc
    have := row_end (C := v.cols) hr
    omega
  have hidx : ∀ r c, (MatView.right v.rows v.cols).idx r c = r * v.cols + c := by
    intro r c; simp only [MatView.right, MatView.idx]; ring
  refine ⟨rfl, rfl, ?_, ?_⟩
  · intro r hr c hc
    rw [hidx, length_vec]
    exact hlt r hr c hc
  · intro r hr c hc
    rw [hidx, getD_vec _ _ _ _ (hlt r hr c hc), mul_add_mod' hc, mul_add_div' hc]
    rfl

/-- **C25**: with a predicate accepting everything the sparse convolvers equal the dense ones. -/
theorem C25_accept_all (v : MatView) (data : List ℂ) (hv : v.InRange data.length)
    (blocks : List (List ℝ)) :
    sparseUpolaRun v data (fun _ _ _ => true) blocks = upolaRun v data blocks ∧
    sparseUpolsRun v data (fun _ _ _ => true) blocks = upolsRun v data blocks :=
  ⟨C25_sparse_upola _ v data hv v data ⟨rfl, rfl, hv, fun _ _ _ _ => by simp⟩ blocks,
   C25_sparse_upols _ v data hv v data ⟨rfl, rfl, hv, fun _ _ _ _ => by simp⟩ blocks⟩

/-! ## C27 -/

section Reload
variable {Ov Fdl Row Filt Acc Arg : Type}

/-- A convolver in any state `u` is loaded with a filter and then fed with blocks. -/
def loadAndRun (oo : OverlapOps Ov) (fo : FdlOps Fdl Row) (po : FilterOps Filt Row Acc Arg)
    (u : Upc Ov Fdl Filt Acc) (v : MatView) (data : List ℂ) (arg : Arg) (blocks : List (List ℝ)) :
    Res (List (List ℝ)) := do
  let u ← u.load oo fo po v data arg
  let (_, outs) ← runBlocks (fun u b => u.call oo fo po b) u blocks
  pure outs

/-- A session: a fresh convolver is loaded, fed, loaded again and fed again; the second output. -/
def reloadRun (oo : OverlapOps Ov) (fo : FdlOps Fdl Row) (po : FilterOps Filt Row Acc Arg) (f0 : Filt)
    (v₁ : MatView) (data₁ : List ℂ) (arg₁ : Arg) (blocks₁ : List (List ℝ))
    (v₂ : MatView) (data₂ : List ℂ) (arg₂ : Arg) (blocks₂ : List (List ℝ)) :
    Res (List (List ℝ)) := do
  let u ← Upc.make oo fo po f0
  let u ← u.load oo fo po v₁ data₁ arg₁
  let (u, _) ← runBlocks (fun u b => u.call oo fo po b) u blocks₁
  loadAndRun oo fo po u v₂ data₂ arg₂ blocks₂

theorem loadAndRun_fresh (oo : OverlapOps Ov) (fo : FdlOps Fdl Row)
    (po : FilterOps Filt Row Acc Arg) (f0 : Filt) (hmk : ∃ o, oo.make 1 1 = .ok o)
    (hpo : ∀ f f' v data arg, po.load f v data arg = po.load f' v data arg)
    (u : Upc Ov Fdl Filt Acc) (v : MatView) (data : List ℂ) (arg : Arg) (blocks : List (List ℝ)) :
    loadAndRun oo fo po u v data arg blocks = Upc.run oo fo po f0 v data arg blocks := by
  obtain ⟨o, e⟩ := hmk
  unfold Upc.run Upc.make
  rw [e, bind_ok, pure_eq_ok, bind_ok]
  unfold loadAndRun Upc.load
  simp only []
  by_cases hc : v.cols = 0
  · rw [if_pos hc, if_pos hc]; rfl
  · rw [if_neg hc, if_neg hc, bind_ok, bind_ok]
    cases oo.make (v.cols - 1) (v.cols - 1) with
    | error e => rfl
    | ok o' => simp only [bind_ok]; rw [hpo u.filter f0]

end Reload

/-- **C27** for the six aliases of `uniform_partitioned_convolver`: whatever state `u` the convolver
is in (in particular after any history), loading a filter and processing blocks gives exactly the
result of a freshly constructed convolver.  `overlap_add_convolver` (v2) is refuted in
`Props/UpolaV2.lean`, hence `_partial`. -/
theorem C27_reload_partial (v : MatView) (data : List ℂ) (p : ℕ → ℕ → ℂ → Bool)
    (blocks : List (List ℝ)) :
    (∀ u, loadAndRun olaOps denseFdlOps denseFilterOps u v data () blocks = upolaRun v data blocks) ∧
    (∀ u, loadAndRun olsOps denseFdlOps denseFilterOps u v data () blocks = upolsRun v data blocks) ∧
    (∀ u, loadAndRun olaOps splitFdlOps splitFilterOps u v data () blocks
      = splitUpolaRun v data blocks) ∧
    (∀ u, loadAndRun olsOps splitFdlOps splitFilterOps u v data () blocks
      = splitUpolsRun v data blocks) ∧
    (∀ u, loadAndRun olaOps denseFdlOps sparseFilterOps u v data p blocks
      = sparseUpolaRun v data p blocks) ∧
    (∀ u, loadAndRun olsOps denseFdlOps sparseFilterOps u v data p blocks
      = sparseUpolsRun v data p blocks) :=
  ⟨fun u => loadAndRun_fresh _ _ _ _ ola_make_one (fun _ _ _ _ _ => rfl) u v data () blocks,
   fun u => loadAndRun_fresh _ _ _ _ ols_make_one (fun _ _ _ _ _ => rfl) u v data () blocks,
   fun u => loadAndRun_fresh _ _ _ _ ola_make_one (fun _ _ _ _ _ => rfl) u v data () blocks,
   fun u => loadAndRun_fresh _ _ _ _ ols_make_one (fun _ _ _ _ _ => rfl) u v data () blocks,
   fun u => loadAndRun_fresh _ _ _ _ ola_make_one (fun _ _ _ _ _ => rfl) u v data p blocks,
   fun u => loadAndRun_fresh _ _ _ _ ols_make_one (fun _ _ _ _ _ => rfl) u v data p blocks⟩

/-- **C27** as a session of `upola_convolver`: two filters, two histories; the first history being
processed without a fault, the second output is that of a fresh convolver. -/
theorem C27_reload_session (v₁ v₂ : MatView) (data₁ data₂ : List ℂ) (blocks₁ blocks₂ outs₁)
    (h : upolaRun v₁ data₁ blocks₁ = .ok outs₁) :
    reloadRun olaOps denseFdlOps denseFilterOps { rows := 0, cols := 0, data := [] } v₁ data₁ ()
      blocks₁ v₂ data₂ () blocks₂ = upolaRun v₂ data₂ blocks₂ := by
  unfold upolaRun Upc.run at h
  unfold reloadRun
  obtain ⟨u0, e0, h⟩ := bind_eq_ok h
  rw [e0, bind_ok]
  obtain ⟨u1, e1, h⟩ := bind_eq_ok h
  rw [e1, bind_ok]
  obtain ⟨⟨u2, o2⟩, e2, h⟩ := bind_eq_ok h
  rw [e2, bind_ok]
  exact (C27_reload_partial v₂ data₂ (fun _ _ _ => true) blocks₂).1 u2

/-! ## C28 -/

/-- **C28** for powers of two `B ≥ 2` (both overlap schemes).  Missing: the other block sizes, for
which the property is false (below). -/
theorem C28_power_of_two_partial (v : MatView) (data : List ℝ) (hv : v.InRange data.length) (B : ℕ)
    (hB : ∃ a, 1 ≤ a ∧ a ≤ 26 ∧ B = 2 ^ a) (hS : 1 ≤ v.cols) (hS2 : v.cols < 2 ^ 64)
    (hsz : v.rows * ((v.cols - 1) / B + 1) * (B + 1) < 2 ^ 59) :
    ∃ N bins part, uniformPartition v data B = .ok (N, bins, part) ∧
      ∀ c < v.rows, ∀ blocks : List (List ℝ), (∀ b ∈ blocks, b.length = B) →
        (∃ outs, upolaRun (partitionView N bins c) part blocks = .ok outs ∧
          IsConvOf outs blocks (fun i => if i < v.cols then data.getD (v.idx c i) 0 else 0)) ∧
        (∃ outs, upolsRun (partitionView N bins c) part blocks = .ok outs ∧
          IsConvOf outs blocks (fun i => if i < v.cols then data.getD (v.idx c i) 0 else 0)) := by
  obtain ⟨a, h1, h2, rfl⟩ := hB
  obtain ⟨N, bins, part, e, h⟩ := C23_upola v data hv a h1 h2 hS hS2 hsz
  obtain ⟨N', bins', part', e', h'⟩ := C23_upols v data hv a h1 h2 hS hS2 hsz
  rw [e] at e'
  cases e'
  exact ⟨N, bins, part, e, fun c hc blocks hb => ⟨h c hc blocks hb, h' c hc blocks hb⟩⟩

example : ∃ a, 1 ≤ a ∧ a ≤ 26 ∧ 128 = 2 ^ a := ⟨7, by norm_num⟩

/-- **C28** is false for every other block size: for `B = 1` and for every `B` that is not a power
of two, partitioning succeeds but the convolver loaded with the result processes no non-empty
history of `B`-sample blocks without a fault, whatever the impulse response is. -/
theorem C28_other_block_sizes_fault (v : MatView) (data : List ℝ) (hv : v.InRange data.length)
    (B : ℕ) (hB1 : 1 ≤ B) (hB : ¬ ∃ a, 1 ≤ a ∧ B = 2 ^ a) (hB2 : B ≤ 2 ^ 26) (hS : 1 ≤ v.cols)
    (hS2 : v.cols < 2 ^ 64)
    (hsz : v.rows * ((v.cols - 1) / B + 1) * (2 ^ Nat.clog 2 (B * 2) / 2 + 1) < 2 ^ 59) :
    ∃ N bins part, uniformPartition v data B = .ok (N, bins, part) ∧
      ∀ c < v.rows, ∀ blocks : List (List ℝ), (∀ b ∈ blocks, b.length = B) → blocks ≠ [] →
        (∀ outs, upolaRun (partitionView N bins c) part blocks ≠ .ok outs) ∧
        (∀ outs, upolsRun (partitionView N bins c) part blocks ≠ .ok outs) := by
  have hcl : Nat.clog 2 (B * 2) ≤ 27 := (Nat.clog_le_iff_le_pow (by norm_num)).2 (by omega)
  obtain ⟨part, e, hp⟩ := uniformPartition_eq hv hB1 rfl hcl hS hS2 hsz
  refine ⟨_, _, part, e, ?_⟩
  intro c hc blocks hb hne
  obtain ⟨hr, -⟩ := hp c hc
  obtain ⟨b, hbm⟩ := List.exists_mem_of_ne_nil _ hne
  constructor
  · intro outs h
    obtain ⟨-, a, ha1, -, -, hl⟩ := dense_run_ok ola_ok hr hne h
    exact hB ⟨a, ha1, (hb b hbm).symm.trans (hl b hbm)⟩
  · intro outs h
    obtain ⟨-, a, ha1, -, -, hl⟩ := dense_run_ok ols_ok hr hne h
    exact hB ⟨a, ha1, (hb b hbm).symm.trans (hl b hbm)⟩

/-- Three-sample blocks. -/
example : ¬ ∃ a, 1 ≤ a ∧ 3 = 2 ^ a := by
  rintro ⟨a, ha, h⟩
  have : 2 ∣ 2 ^ a := dvd_pow_self 2 (by omega)
  omega

/-- **C28** (negation of the full statement): there is an impulse response and a block size for
which partition and convolver disagree. -/
theorem C28_false : ¬ ∀ (v : MatView) (data : List ℝ) (B : ℕ), v.InRange data.length → 1 ≤ B →
    1 ≤ v.cols → ∃ N bins part, uniformPartition v data B = .ok (N, bins, part) ∧
      ∀ c < v.rows, ∀ blocks : List (List ℝ), (∀ b ∈ blocks, b.length = B) →
        ∃ outs, upolaRun (partitionView N bins c) part blocks = .ok outs ∧
          IsConvOf outs blocks (fun i => if i < v.cols then data.getD (v.idx c i) 0 else 0) := by
  intro hall
  have hv : (MatView.right 1 1).InRange [(1 : ℝ)].length := by
    intro r hr c hc
    simp only [MatView.right, MatView.idx, List.length_cons, List.length_nil] at *
    omega
  have h3 : ¬ ∃ a, 1 ≤ a ∧ 3 = 2 ^ a := by
    rintro ⟨a, ha, h⟩
    have : 2 ∣ 2 ^ a := dvd_pow_self 2 (by omega)
    omega
  have hcl : Nat.clog 2 (3 * 2) = 3 := by decide +kernel
  obtain ⟨N, bins, part, e, h⟩ := hall (MatView.right 1 1) [1] 3 hv (by norm_num) le_rfl
  obtain ⟨N', bins', part', e', h'⟩ := C28_other_block_sizes_fault (MatView.right 1 1) [1] hv 3
    (by norm_num) h3 (by norm_num) le_rfl (by simp [MatView.right]) (by
      rw [hcl]; simp [MatView.right])
  rw [e] at e'
  cases e'
  obtain ⟨outs, ho, -⟩ := h 0 (by simp [MatView.right]) [[1, 0, 0]] (by simp)
  exact (h' 0 (by simp [MatView.right]) [[1, 0, 0]] (by simp) (by simp)).1 outs ho

/-! ## C30 -/

/-- The six aliases of `uniform_partitioned_convolver`, run on a filter matrix. -/
inductive Conv6 | upola | upols | splitUpola | splitUpols
  | sparseUpola (p : ℕ → ℕ → ℂ → Bool) | sparseUpols (p : ℕ → ℕ → ℂ → Bool)

/-- A fresh convolver of the given kind is loaded with a filter matrix and fed with blocks. -/
noncomputable def Conv6.run (k : Conv6) (v : MatView) (data : List ℂ) (blocks : List (List ℝ)) :
    Res (List (List ℝ)) :=
  match k with
  | .upola => upolaRun v data blocks
  | .upols => upolsRun v data blocks
  | .splitUpola => splitUpolaRun v data blocks
  | .splitUpols => splitUpolsRun v data blocks
  | .sparseUpola p => sparseUpolaRun v data p blocks
  | .sparseUpols p => sparseUpolsRun v data p blocks

/-- Every kind behaves like a dense convolver on some matrix of the same size. -/
theorem Conv6.dense (k : Conv6) (v : MatView) (data : List ℂ) (hv : v.InRange data.length) :
    ∃ (v' : MatView) (data' : List ℂ), v'.InRange data'.length ∧
      ((∀ bs, k.run v data bs = upolaRun v' data' bs) ∨
        (∀ bs, k.run v data bs = upolsRun v' data' bs)) := by
  cases k with
  | upola => exact ⟨v, data, hv, .inl fun _ => rfl⟩
  | upols => exact ⟨v, data, hv, .inr fun _ => rfl⟩
  | splitUpola => exact ⟨v, data, hv, .inl (C24_split_upola v data hv)⟩
  | splitUpols => exact ⟨v, data, hv, .inr (C24_split_upols v data hv)⟩
  | sparseUpola p =>
    have h := C25_thresholded_exists p v data
    exact ⟨_, _, h.2.2.1, .inl (C25_sparse_upola p v data hv _ _ h)⟩
  | sparseUpols p =>
    have h := C25_thresholded_exists p v data
    exact ⟨_, _, h.2.2.1, .inr (C25_sparse_upols p v data hv _ _ h)⟩

/-- A kind that processes one non-empty history without a fault accepts exactly blocks of one size
`B` and its outputs follow a linear, time-invariant formula. -/
theorem Conv6.form (k : Conv6) (v : MatView) (data : List ℂ) (hv : v.InRange data.length)
    {bs outs : List (List ℝ)} (hne : bs ≠ []) (h : k.run v data bs = .ok outs) :
    ∃ B F, RunsAs B (k.run v data) F ∧ LinForm F ∧ DelayForm B F ∧
      ∀ cs os, k.run v data cs = .ok os → ∀ b ∈ cs, b.length = B := by
  obtain ⟨v', data', hv', hd | hd⟩ := k.dense v data hv
  · rw [hd] at h
    obtain ⟨hr, a, ha1, ha2, hc, -⟩ := dense_run_ok ola_ok hv' hne h
    refine ⟨2 ^ a, olaForm v'.rows (2 ^ a) (matAt v' data'), ?_, olaForm_lin _ _ _,
      olaForm_delay _ _ _, ?_⟩
    · intro cs hcs
      rw [hd]
      exact upolaRun_eq ha1 ha2 hv' hr hc (fun _ _ _ _ => rfl) cs hcs
    · intro cs os hcs b hb
      rw [hd] at hcs
      obtain ⟨-, a', -, -, hc', hl⟩ := dense_run_ok ola_ok hv' (List.ne_nil_of_mem hb) hcs
      rw [hl b hb]; omega
  · rw [hd] at h
    obtain ⟨hr, a, ha1, ha2, hc, -⟩ := dense_run_ok ols_ok hv' hne h
    refine ⟨2 ^ a, olsForm v'.rows (2 ^ a) (matAt v' data'), ?_, olsForm_lin _ _ _,
      olsForm_delay _ _ _, ?_⟩
    · intro cs hcs
      rw [hd]
      exact upolsRun_eq ha1 ha2 hv' hr hc (fun _ _ _ _ => rfl) cs hcs
    · intro cs os hcs b hb
      rw [hd] at hcs
      obtain ⟨-, a', -, -, hc', hl⟩ := dense_run_ok ols_ok hv' (List.ne_nil_of_mem hb) hcs
      rw [hl b hb]; omega

/-- **C30** (causal): two histories that agree on their first blocks have the same first outputs;
in particular the outputs for `bs` are already determined by `bs`.  For every filter matrix. -/
theorem C30_causal (k : Conv6) (v : MatView) (data : List ℂ) (bs cs₁ cs₂ outs₁ outs₂ : List (List ℝ))
    (h₁ : k.run v data (bs ++ cs₁) = .ok outs₁) (h₂ : k.run v data (bs ++ cs₂) = .ok outs₂) :
    k.run v data bs = .ok (outs₁.take bs.length) ∧
      outs₁.take bs.length = outs₂.take bs.length := by
  have key : ∀ cs outs, k.run v data (bs ++ cs) = .ok outs →
      k.run v data bs = .ok (outs.take bs.length) := by
    intro cs outs h
    cases k <;> exact upc_run_append _ _ _ _ _ _ _ _ _ _ h
  have e1 := key _ _ h₁
  have e2 := key _ _ h₂
  refine ⟨e1, ?_⟩
  rw [e1] at e2
  exact Except.ok.inj e2

/-- **C30** (linear): if the convolver processes two histories of the same length, it processes
`a · x + b · y` and the output is `a · out(x) + b · out(y)`.  For every filter matrix. -/
theorem C30_linear (k : Conv6) (v : MatView) (data : List ℂ) (hv : v.InRange data.length) (a b : ℝ)
    (xs ys ox oy : List (List ℝ)) (hl : xs.length = ys.length) (hx : k.run v data xs = .ok ox)
    (hy : k.run v data ys = .ok oy) :
    k.run v data (mixBlocks a b xs ys) = .ok (mixBlocks a b ox oy) := by
  by_cases hne : xs = []
  · subst hne
    obtain rfl : ys = [] := List.eq_nil_of_length_eq_zero hl.symm
    have hnil : mixBlocks a b [] [] = [] := rfl
    rw [hx] at hy
    cases hy
    have : ox = [] := by
      have h1 := (C30_causal k v data [] [] [] ox ox hx hx).1
      rw [hx] at h1
      simpa using Except.ok.inj h1
    subst this
    rw [hnil]; exact hx
  · obtain ⟨B, F, hF, hlin, -, hlen⟩ := k.form v data hv hne hx
    obtain ⟨ox', oy', e1, e2, e3⟩ := hF.linear hlin a b (hlen _ _ hx) (hlen _ _ hy) hl
    rw [hx] at e1
    rw [hy] at e2
    cases e1
    cases e2
    exact e3

/-- **C30** (time-invariant): if the convolver processes a non-empty history, then prepending `d`
blocks of silence prepends `d` blocks of silence to the output.  For every filter matrix. -/
theorem C30_time_invariant (k : Conv6) (v : MatView) (data : List ℂ) (hv : v.InRange data.length)
    (d B : ℕ) (xs ox : List (List ℝ)) (hne : xs ≠ []) (hB : ∀ b ∈ xs, b.length = B)
    (hx : k.run v data xs = .ok ox) :
    k.run v data (silence d B ++ xs) = .ok (silence d B ++ ox) := by
  obtain ⟨B', F, hF, -, hdel, hlen⟩ := k.form v data hv hne hx
  obtain ⟨b, hb⟩ := List.exists_mem_of_ne_nil _ hne
  obtain rfl : B = B' := (hB b hb).symm.trans (hlen _ _ hx b hb)
  obtain ⟨ox', e1, e2⟩ := hF.delay hdel d hB
  rw [hx] at e1
  cases e1
  exact e2

/-- The hypotheses of **C30** are met: every kind processes two-sample blocks with one partition. -/
theorem C30_not_vacuous (k : Conv6) : ∃ outs, k.run (MatView.right 1 3) [1, Complex.I, 2]
    [[1, 2], [3, 4], [0, 0]] = .ok outs := by
  have hv : (MatView.right 1 3).InRange [(1 : ℂ), Complex.I, 2].length := by
    intro r hr c hc
    simp only [MatView.right, MatView.idx, List.length_cons, List.length_nil] at *
    omega
  have hb : ∀ b ∈ [[(1 : ℝ), 2], [3, 4], [0, 0]], b.length = 2 ^ 1 := by simp
  have go : ∀ (v' : MatView) (data' : List ℂ), v'.InRange data'.length → v'.rows = 1 → v'.cols = 3 →
      (∃ outs, upolaRun v' data' [[1, 2], [3, 4], [0, 0]] = .ok outs) ∧
      (∃ outs, upolsRun v' data' [[1, 2], [3, 4], [0, 0]] = .ok outs) := by
    intro v' data' h1 h2 h3
    exact ⟨⟨_, upolaRun_eq (a := 1) le_rfl (by norm_num) h1 (by omega) (by omega) (fun _ _ _ _ => rfl) _ hb⟩,
      ⟨_, upolsRun_eq (a := 1) le_rfl (by norm_num) h1 (by omega) (by omega) (fun _ _ _ _ => rfl) _ hb⟩⟩
  cases k with
  | upola => exact (go _ _ hv rfl rfl).1
  | upols => exact (go _ _ hv rfl rfl).2
  | splitUpola => rw [Conv6.run, C24_split_upola _ _ hv]; exact (go _ _ hv rfl rfl).1
  | splitUpols => rw [Conv6.run, C24_split_upols _ _ hv]; exact (go _ _ hv rfl rfl).2
  | sparseUpola p =>
    have h := C25_thresholded_exists p (MatView.right 1 3) [(1 : ℂ), Complex.I, 2]
    rw [Conv6.run, C25_sparse_upola p _ _ hv _ _ h]
    exact (go _ _ h.2.2.1 rfl rfl).1
  | sparseUpols p =>
    have h := C25_thresholded_exists p (MatView.right 1 3) [(1 : ℂ), Complex.I, 2]
    rw [Conv6.run, C25_sparse_upols p _ _ hv _ _ h]
    exact (go _ _ h.2.2.1 rfl rfl).2

end Neo.Props
