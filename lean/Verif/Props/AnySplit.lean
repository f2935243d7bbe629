import Verif.Lemmas.AnySplit
import Verif.Props.StdComplex

/-! # C103: split-complex code gives the bits of the interleaved code, infinities and NaN included -/

namespace Neo.Props

open Neo Spec

/-! ## Any arithmetic -/

section any
variable {R C : Type} [Zero R] [Add R] [Mul R] [Sub R] [Zero C] [AddCommMagma C] [Sub C] [Mul C] [CplxParts R C]

/-- **C103** (convolvers).  In any arithmetic whose complex product and sum are formed from the parts by the textbook
formulas: for every filter matrix and every list of blocks, of any lengths, the split-complex convolvers return bit for bit
what the interleaved ones return, or the same fault. -/
theorem C103_convolvers [LawfulParts R C] (A : Arith R C) (v : MatView) (data : List C) (hv : v.InRange data.length)
    (blocks : List (List R)) :
    splitUpolaRunG A v data blocks = upolaRunG A v data blocks ∧
    splitUpolsRunG A v data blocks = upolsRunG A v data blocks :=
  ⟨run_rel (olaG_param A) rfl rfl (splitFdl_law _ _) (denseFdl_law _ _) (fun h => splitFdl_bad h)
    (fun h => denseFdl_bad h) data data () () (H := matAt v data)
    (fun f0 => splitFilter_law hv f0 (fun _ _ _ _ => rfl))
    (fun f0 => denseFilter_law hv f0 (fun _ _ _ _ => rfl)) blocks,
  run_rel (olsG_param A) rfl rfl (splitFdl_law _ _) (denseFdl_law _ _) (fun h => splitFdl_bad h)
    (fun h => denseFdl_bad h) data data () () (H := matAt v data)
    (fun f0 => splitFilter_law hv f0 (fun _ _ _ _ => rfl))
    (fun f0 => denseFilter_law hv f0 (fun _ _ _ _ => rfl)) blocks⟩

/-- **C103** (forward transform).  `split_fft_plan` on the planes of a buffer, of any length, gives the planes of what the
interleaved plan gives, bit for bit, or the same fault. -/
theorem C103_forward [SplitArith R C] (A : Arith R C) (order : ℕ) (h : order ≤ 27) :
    ∃ p q, SplitFftPlan.makeG A order = .ok p ∧ Dit2Plan.makeG A order = .ok q ∧
      ∀ x : List C, p.call (x.map CplxParts.re, x.map CplxParts.im) .forward
        = (q.call x .forward).map fun y => (y.map CplxParts.re, y.map CplxParts.im) := by
  refine ⟨_, _, splitPlan_makeG_eq A order, dit2Plan_makeG_eq A h, fun x => ?_⟩
  by_cases hx : x.length = 2 ^ order
  · obtain ⟨f, rfl⟩ : ∃ f, x = vec (2 ^ order) f := ⟨_, list_eq_vec 0 hx⟩
    exact splitG_call A (by omega) f
  · rw [splitG_wrong A _ _ (by
      rintro ⟨h1, -⟩
      exact hx (by rwa [List.length_map] at h1))]
    have : (dit2PlanGOf A order).call x .forward = .error .assertion := by
      unfold Dit2Plan.call Dit2Plan.callWith
      have hs : (dit2PlanGOf A order).size = 2 ^ order := rfl
      simp only [hs, hx, decide_false]
      rfl
    rw [this]
    rfl

/-- **C103** (backward transform).  Bit for bit the forward transform of the exchanged planes, exchanged. -/
theorem C103_backward (A : Arith R C) (order : ℕ) :
    ∃ p, SplitFftPlan.makeG A order = .ok p ∧
      ∀ re im : List R, p.call (re, im) .backward = (p.call (im, re) .forward).map Prod.swap := by
  refine ⟨_, splitPlan_makeG_eq A order, fun re im => ?_⟩
  by_cases h : re.length = 2 ^ order ∧ im.length = 2 ^ order
  · exact splitG_backward A re im h.1 h.2
  · rw [splitG_wrong A (re, im) _ h, splitG_wrong A (im, re) _ (fun c => h ⟨c.2, c.1⟩)]
    rfl

end any

/-! ## IEEE arithmetic -/

section ieee
variable {f : Fmt}

/-- The planes of an interleaved buffer. -/
def planesI (x : List (IC f)) : List (IR f) × List (IR f) := (x.map fun z => ⟨z.re⟩, x.map fun z => ⟨z.im⟩)

/-- **C103** (IEEE arithmetic, both directions).  If the backward tables are the conjugates of the forward tables, the split
plan gives, on every buffer and in both directions, the planes of what the interleaved plan gives, bit for bit, infinities
and NaN included, or the same fault. -/
theorem C103_ieee (tw : ℕ → ℕ → Direction → IC f)
    (htw : ∀ n i, tw n i .forward = ⟨(tw n i .backward).re, (tw n i .backward).im.neg⟩) (order : ℕ) (h1 : 1 ≤ order)
    (h : order ≤ 27) :
    ∃ p q, SplitFftPlan.makeG (ieeeArith f tw) order = .ok p ∧ Dit2Plan.makeG (ieeeArith f tw) order = .ok q ∧
      ∀ (x : List (IC f)) (dir : Direction), p.call (planesI x) dir = (q.call x dir).map planesI := by
  refine ⟨_, _, splitPlan_makeG_eq _ order, dit2Plan_makeG_eq _ h, fun x dir => ?_⟩
  by_cases hx : x.length = 2 ^ order
  · obtain ⟨g, rfl⟩ : ∃ g, x = vec (2 ^ order) g := ⟨_, list_eq_vec 0 hx⟩
    cases dir
    · exact splitG_call _ (by omega) g
    · exact splitG_call_backward htw h1 (by omega) g
  · rw [splitG_wrong _ _ _ (by
      rintro ⟨h1, -⟩
      exact hx (by rwa [planesI, List.length_map] at h1))]
    have : (dit2PlanGOf (ieeeArith f tw) order).call x dir = .error .assertion := by
      unfold Dit2Plan.call Dit2Plan.callWith
      have hs : (dit2PlanGOf (ieeeArith f tw) order).size = 2 ^ order := rfl
      simp only [hs, hx, decide_false]
      rfl
    rw [this]
    rfl

/-- **C103** (the hypothesis on the tables is met).  Cosines and sines rounded correctly give conjugate tables, in every
format. -/
theorem C103_tables (θ : ℕ → ℕ → ℝ) (n i : ℕ) :
    let tw : ℕ → ℕ → Direction → IC f := fun n i dir =>
      ⟨f.round (.fin (Real.cos ((if dir = .forward then -1 else 1) * θ n i))),
        f.round (.fin (Real.sin ((if dir = .forward then -1 else 1) * θ n i)))⟩
    tw n i .forward = ⟨(tw n i .backward).re, (tw n i .backward).im.neg⟩ := by
  intro tw
  refine IC.ext ?_ ?_
  · show f.round (.fin (Real.cos ((if (Direction.forward = .forward) then -1 else 1) * θ n i)))
      = f.round (.fin (Real.cos ((if (Direction.backward = .forward) then -1 else 1) * θ n i)))
    rw [if_pos rfl, if_neg (by simp), one_mul, neg_one_mul, Real.cos_neg]
  · show f.round (.fin (Real.sin ((if (Direction.forward = .forward) then -1 else 1) * θ n i)))
      = (f.round (.fin (Real.sin ((if (Direction.backward = .forward) then -1 else 1) * θ n i)))).neg
    rw [if_pos rfl, if_neg (by simp), one_mul, neg_one_mul, Real.sin_neg, ← Fmt.round_neg]
    rfl

/-- **C103** (against `std::complex`).  The split convolvers form products by the textbook formula, the interleaved ones
with `std::complex` recover infinities.  All output samples agree that are finite in one of them, and a run of the split
convolver without infinities and NaN in the output is a run of the `std::complex` convolver. -/
theorem C103_std (tw : ℕ → ℕ → Direction → IC f) {a : ℕ} (ha : 1 ≤ a) (ha2 : a ≤ 26) {v : MatView}
    {data : List (IC f)} {data' : List (SC f)} (hv : v.InRange data.length) (hv' : v.InRange data'.length)
    (hr : 1 ≤ v.rows) (hc : v.cols = 2 ^ a + 1)
    (hd : ∀ r < v.rows, ∀ k < v.cols,
      FVal.Agree2 (data.getD (v.idx r k) 0).re (data.getD (v.idx r k) 0).im
        (data'.getD (v.idx r k) 0).re (data'.getD (v.idx r k) 0).im)
    (blocks : List (List (IR f))) (hb : ∀ b ∈ blocks, b.length = 2 ^ a) :
    (∃ outs outs', splitUpolaRunG (ieeeArith f tw) v data blocks = .ok outs ∧
      upolaRunG (stdArith f tw) v data' blocks = .ok outs' ∧
      outs.map List.length = blocks.map List.length ∧ outs'.map List.length = blocks.map List.length ∧
      (∀ t n, FVal.Agree ((outs.getD t []).getD n 0).val ((outs'.getD t []).getD n 0).val) ∧
      ((∀ b ∈ outs, ∀ y ∈ b, ¬ y.val.NonFinite) → outs' = outs)) ∧
    (∃ outs outs', splitUpolsRunG (ieeeArith f tw) v data blocks = .ok outs ∧
      upolsRunG (stdArith f tw) v data' blocks = .ok outs' ∧
      outs.map List.length = blocks.map List.length ∧ outs'.map List.length = blocks.map List.length ∧
      (∀ t n, FVal.Agree ((outs.getD t []).getD n 0).val ((outs'.getD t []).getD n 0).val) ∧
      ((∀ b ∈ outs, ∀ y ∈ b, ¬ y.val.NonFinite) → outs' = outs)) := by
  obtain ⟨e1, e2⟩ := C103_convolvers (ieeeArith f tw) v data hv blocks
  rw [e1, e2]
  exact ⟨C101_upola tw ha ha2 hv hv' hr hc hd blocks hb, C101_upols tw ha ha2 hv hv' hr hc hd blocks hb⟩

/-- A filter and an input with infinities and NaN for which both sides of `C103_convolvers` are not faults. -/
example (tw : ℕ → ℕ → Direction → IC f) :
    ∃ outs, splitUpolaRunG (ieeeArith f tw) (MatView.right 1 3) [⟨.inf true, .nan⟩, 0, ⟨.fin 1, .fin 2⟩]
        [[⟨.inf false⟩, ⟨.fin 1⟩], [⟨.nan⟩, 0]] = .ok outs ∧ outs.map List.length = [2, 2] := by
  have hv : (MatView.right 1 3).InRange ([⟨.inf true, .nan⟩, 0, ⟨.fin 1, .fin 2⟩] : List (IC f)).length := by
    intro r hr c hc
    simp only [MatView.right, MatView.idx, List.length_cons, List.length_nil] at *
    omega
  have hb : ∀ b ∈ [[(⟨.inf false⟩ : IR f), ⟨.fin 1⟩], [⟨.nan⟩, 0]], b.length = 2 ^ 1 := by
    intro b h
    simp only [List.mem_cons, List.not_mem_nil, or_false] at h
    rcases h with rfl | rfl <;> rfl
  rw [(C103_convolvers (ieeeArith f tw) _ _ hv _).1]
  obtain ⟨outs, e, hl, -⟩ := C93_nonfinite_upola tw (a := 1) le_rfl (by norm_num) hv le_rfl rfl _ hb
  exact ⟨outs, e, hl⟩

end ieee

end Neo.Props
