import Verif.Lemmas.BackendReach
import Verif.Props.Rfft
import Verif.Props.SplitFft
import Verif.Props.Fft

/-!
# Properties of the plans on top of vendor libraries: C75

`v : Vendor` is an arbitrary library and `v.Contract` what its documentation promises.
`…Reachable v order p`: `p` is a plan of this order after any number of successful calls.
-/

namespace Neo.Props

open Finset ComplexConjugate

variable {v : Vendor}

/-- `y` is the unnormalised transform of `x` in direction `dir`. -/
def IsTransform (dir : Direction) (N : ℕ) (x : ℕ → ℂ) (y : List ℂ) : Prop :=
  y.length = N ∧ ∀ k < N, y[k]? = some (if dir = .forward then Spec.dft N x k else Spec.idft N x k)

theorem isTransform_vec (dir : Direction) (N : ℕ) (x : ℕ → ℂ) :
    IsTransform dir N x (vec N (specDft dir N x)) :=
  ⟨by simp, fun k hk => by rw [getElem?_vec, if_pos hk]; rfl⟩

/-- **C75**: `apple_vdsp_fft_plan` computes the DFT, in both directions, in every plan state. -/
theorem C75_apple (hv : v.Contract) (order : ℕ) (p : AppleFftPlan) (hp : AppleReachable v order p)
    (x : List ℂ) (hx : x.length = 2 ^ order) (dir : Direction) :
    ∃ p' y, p.call v x dir = .ok (p', y) ∧
      IsTransform dir (2 ^ order) (fun i => x.getD i 0) y := by
  obtain ⟨-, f, rfl⟩ := appleReachable_form hv hp
  obtain ⟨f', e⟩ := apple_call hv order f (fun i => x.getD i 0) dir
  rw [← list_eq_vec 0 hx] at e
  exact ⟨_, _, e, isTransform_vec _ _ _⟩

/-- **C75**: `intel_mkl_fft_plan`, on contiguous and on strided vectors. -/
theorem C75_mkl (hv : v.Contract) (order : ℕ) (p : MklFftPlan) (hp : MklReachable v order p)
    (vz : Bool) (x : List ℂ) (hx : x.length = 2 ^ order) (dir : Direction) :
    ∃ p' y, p.call v vz x dir = .ok (p', y) ∧
      IsTransform dir (2 ^ order) (fun i => x.getD i 0) y := by
  obtain ⟨-, f, rfl⟩ := mklReachable_form hv hp
  obtain ⟨f', e⟩ := mkl_call hv vz order f (fun i => x.getD i 0) dir
  rw [← list_eq_vec 0 hx] at e
  exact ⟨_, _, e, isTransform_vec _ _ _⟩

/-- **C75**: `intel_ipp_fft_plan`, in place and out of place, on contiguous and on strided vectors. -/
theorem C75_ipp (hv : v.Contract) (order : ℕ) (p : IppFftPlan) (hp : IppReachable v order p)
    (vz : Bool) (x out : List ℂ) (hx : x.length = 2 ^ order) (ho : out.length = 2 ^ order)
    (dir : Direction) :
    (∃ p' y, p.call v vz x dir = .ok (p', y) ∧
      IsTransform dir (2 ^ order) (fun i => x.getD i 0) y) ∧
    (∃ p' y, p.callOut v vz x out dir = .ok (p', y) ∧
      IsTransform dir (2 ^ order) (fun i => x.getD i 0) y) := by
  obtain ⟨hb, f, rfl⟩ := ippReachable_form hv hp
  obtain ⟨f', e⟩ := ipp_call hv vz hb f (fun i => x.getD i 0) dir
  obtain ⟨f'', e'⟩ := ipp_callOut hv vz hb f (fun i => x.getD i 0) (fun i => out.getD i 0) dir
  rw [← list_eq_vec 0 hx] at e e'
  rw [← list_eq_vec 0 ho] at e'
  exact ⟨⟨_, _, e, isTransform_vec _ _ _⟩, ⟨_, _, e', isTransform_vec _ _ _⟩⟩

/-- **C75**: `intel_ipp_dft_plan`, for arbitrary sizes. -/
theorem C75_ipp_dft (hv : v.Contract) (n : ℕ) (p : IppDftPlan) (hp : IppDftReachable v n p)
    (vz : Bool) (x out : List ℂ) (hx : x.length = n) (ho : out.length = n) (dir : Direction) :
    (∃ p' y, p.call v x dir = .ok (p', y) ∧ IsTransform dir n (fun i => x.getD i 0) y) ∧
    (∃ p' y, p.callOut v vz x out dir = .ok (p', y) ∧
      IsTransform dir n (fun i => x.getD i 0) y) := by
  obtain ⟨f, g, rfl⟩ := ippDftReachable_form hv hp
  obtain ⟨f', g', e⟩ := ippDft_call hv n f g (fun i => x.getD i 0) dir
  obtain ⟨f'', g'', e'⟩ := ippDft_callOut hv vz n f g (fun i => x.getD i 0) (fun i => out.getD i 0) dir
  rw [← list_eq_vec 0 hx] at e e'
  rw [← list_eq_vec 0 ho] at e'
  exact ⟨⟨_, _, e, isTransform_vec _ _ _⟩, ⟨_, _, e', isTransform_vec _ _ _⟩⟩

/-- `(re, im)` are the parts of the transform of `x`. -/
def IsSplitTransform (dir : Direction) (N : ℕ) (x : ℕ → ℂ) (y : List ℝ × List ℝ) : Prop :=
  y.1.length = N ∧ y.2.length = N ∧ ∀ k < N,
    y.1[k]? = some (if dir = .forward then Spec.dft N x k else Spec.idft N x k).re ∧
    y.2[k]? = some (if dir = .forward then Spec.dft N x k else Spec.idft N x k).im

theorem splitCall_ok (hv : v.Contract) (dir : Direction) {N : ℕ} {re im re0 im0 : List ℝ}
    (h1 : re.length = N) (h2 : im.length = N) (h3 : re0.length = N) (h4 : im0.length = N) :
    ∃ y, v.splitCall dir N (re, im) (re0, im0) = .ok y ∧ IsSplitTransform dir N (signalOf re im) y := by
  have e := splitCall_vec hv dir N (fun i => re.getD i 0) (fun i => im.getD i 0)
    (fun i => re0.getD i 0) (fun i => im0.getD i 0)
  rw [← list_eq_vec 0 h1, ← list_eq_vec 0 h2, ← list_eq_vec 0 h3, ← list_eq_vec 0 h4] at e
  refine ⟨_, e, by simp, by simp, fun k hk => ?_⟩
  rw [getElem?_vec, if_pos hk, getElem?_vec, if_pos hk]
  exact ⟨rfl, rfl⟩

/-- **C75** (contiguous vectors only): the split-complex plans, in place and out of place. -/
theorem C75_split_partial (hv : v.Contract) (order : ℕ) (p : AppleSplitPlan) (q : IppSplitPlan)
    (hp : AppleSplitPlan.make v order = .ok p) (hq : IppSplitPlan.make v order = .ok q)
    (re im re0 im0 : List ℝ) (h1 : re.length = 2 ^ order) (h2 : im.length = 2 ^ order)
    (h3 : re0.length = 2 ^ order) (h4 : im0.length = 2 ^ order) (dir : Direction) :
    (∃ y, p.call v true (re, im) dir = .ok y ∧ p.callOut v true (re, im) (re0, im0) dir = .ok y ∧
      IsSplitTransform dir (2 ^ order) (signalOf re im) y) ∧
    (∃ y, q.call v true (re, im) dir = .ok y ∧ q.callOut v true (re, im) (re0, im0) dir = .ok y ∧
      IsSplitTransform dir (2 ^ order) (signalOf re im) y) := by
  have e := splitCall_vec hv dir (2 ^ order) (fun i => re.getD i 0) (fun i => im.getD i 0)
    (fun i => re.getD i 0) (fun i => im.getD i 0)
  have e' := splitCall_vec hv dir (2 ^ order) (fun i => re.getD i 0) (fun i => im.getD i 0)
    (fun i => re0.getD i 0) (fun i => im0.getD i 0)
  rw [← list_eq_vec 0 h1, ← list_eq_vec 0 h2] at e e'
  rw [← list_eq_vec 0 h3, ← list_eq_vec 0 h4] at e'
  obtain ⟨y, hy, ht⟩ := splitCall_ok hv dir h1 h2 h1 h2
  have hy' : v.splitCall dir (2 ^ order) (re, im) (re0, im0) = .ok y := by rw [e', ← e, hy]
  constructor
  · unfold AppleSplitPlan.make at hp
    obtain ⟨n, hn, hp⟩ := bind_eq_ok hp
    obtain ⟨-, rfl⟩ := sizeOfOrder_eq_ok hn
    obtain ⟨_, -, hp⟩ := bind_eq_ok hp
    injection hp with hp
    subst hp
    refine ⟨y, ?_, ?_, ht⟩
    · unfold AppleSplitPlan.call
      rw [check_decide_ok h1, bind_ok, check_decide_ok (h1.trans h2.symm), bind_ok, if_pos rfl]
      simpa only [one_shl] using hy
    · unfold AppleSplitPlan.callOut
      rw [check_decide_ok h1, bind_ok, check_decide_ok ⟨h1.trans h2.symm, h1.trans h3.symm,
        h1.trans h4.symm⟩, bind_ok, if_pos rfl]
      simpa only [one_shl] using hy'
  · unfold IppSplitPlan.make at hq
    obtain ⟨n, hn, hq⟩ := bind_eq_ok hq
    obtain ⟨hb, rfl⟩ := sizeOfOrder_eq_ok hn
    obtain ⟨_, -, hq⟩ := bind_eq_ok hq
    injection hq with hq
    subst hq
    refine ⟨y, ?_, ?_, ht⟩
    · unfold IppSplitPlan.call
      rw [hn, bind_ok, check_decide_ok h1, bind_ok, check_decide_ok (h1.trans h2.symm), bind_ok,
        if_pos rfl]
      simpa only [one_shl] using hy
    · unfold IppSplitPlan.callOut
      rw [hn, bind_ok, check_decide_ok h1, bind_ok, check_decide_ok ⟨h1.trans h2.symm,
        h1.trans h3.symm, h1.trans h4.symm⟩, bind_ok, if_pos rfl]
      simpa only [one_shl] using hy'

/-- **C75** fails for strided split-complex vectors: whatever the library does, the calls return
without touching the data (the `static_assert` that was meant to reject them is missing). -/
theorem C75_split_strided_untouched (v : Vendor) (order : ℕ) (p : AppleSplitPlan) (q : IppSplitPlan)
    (hp : AppleSplitPlan.make v order = .ok p) (hq : IppSplitPlan.make v order = .ok q)
    (re im re0 im0 : List ℝ) (h1 : re.length = 2 ^ order) (h2 : im.length = 2 ^ order)
    (h3 : re0.length = 2 ^ order) (h4 : im0.length = 2 ^ order) (dir : Direction) :
    p.call v false (re, im) dir = .ok (re, im) ∧
    p.callOut v false (re, im) (re0, im0) dir = .ok (re0, im0) ∧
    q.call v false (re, im) dir = .ok (re, im) ∧
    q.callOut v false (re, im) (re0, im0) dir = .ok (re0, im0) := by
  unfold AppleSplitPlan.make at hp
  obtain ⟨n, hn, hp⟩ := bind_eq_ok hp
  obtain ⟨-, rfl⟩ := sizeOfOrder_eq_ok hn
  obtain ⟨_, -, hp⟩ := bind_eq_ok hp
  injection hp with hp
  subst hp
  unfold IppSplitPlan.make at hq
  obtain ⟨n, hn', hq⟩ := bind_eq_ok hq
  obtain ⟨-, rfl⟩ := sizeOfOrder_eq_ok hn'
  obtain ⟨_, -, hq⟩ := bind_eq_ok hq
  injection hq with hq
  subst hq
  refine ⟨?_, ?_, ?_, ?_⟩
  · unfold AppleSplitPlan.call
    rw [check_decide_ok h1, bind_ok, check_decide_ok (h1.trans h2.symm), bind_ok]
    rfl
  · unfold AppleSplitPlan.callOut
    rw [check_decide_ok h1, bind_ok, check_decide_ok ⟨h1.trans h2.symm, h1.trans h3.symm,
      h1.trans h4.symm⟩, bind_ok]
    rfl
  · unfold IppSplitPlan.call
    rw [hn, bind_ok, check_decide_ok h1, bind_ok, check_decide_ok (h1.trans h2.symm), bind_ok]
    rfl
  · unfold IppSplitPlan.callOut
    rw [hn, bind_ok, check_decide_ok h1, bind_ok, check_decide_ok ⟨h1.trans h2.symm, h1.trans h3.symm,
      h1.trans h4.symm⟩, bind_ok]
    rfl

/-- **C75** is false for strided split-complex vectors: `(1, 0)` is returned unchanged although its
transform is `(1, 1)`. -/
theorem C75_split_strided_wrong (v : Vendor) (p : AppleSplitPlan) (q : IppSplitPlan)
    (hp : AppleSplitPlan.make v 1 = .ok p) (hq : IppSplitPlan.make v 1 = .ok q) :
    ∃ y, p.call v false ([1, 0], [0, 0]) .forward = .ok y ∧
      q.call v false ([1, 0], [0, 0]) .forward = .ok y ∧
      ¬ IsSplitTransform .forward 2 (signalOf [1, 0] [0, 0]) y := by
  obtain ⟨e1, -, e2, -⟩ := C75_split_strided_untouched v 1 p q hp hq [1, 0] [0, 0] [0, 0] [0, 0]
    rfl rfl rfl rfl .forward
  refine ⟨_, e1, e2, ?_⟩
  rintro ⟨-, -, h⟩
  have := (h 1 (by norm_num)).1
  simp [Spec.dft, Finset.sum_range_succ, signalOf] at this

/-- **C75**: on any plan state, `intel_ipp_rfft_plan` writes exactly the bins `0 … N/2`, both through
the reinterpreted output pointer and through the internal buffer; the rest of the output is
untouched. -/
theorem C75_ipp_rfft (hv : v.Contract) (order : ℕ) (h1 : 1 ≤ order) (p : IppRfftPlan)
    (hp : IppRfftReachable v order p) (vz : Bool) (x : List ℝ) (hx : x.length = 2 ^ order)
    (out : List ℂ) (hout : 2 ^ order / 2 + 1 ≤ out.length) :
    ∃ p' y, p.rfft v vz x out = .ok (p', y) ∧ y.length = out.length ∧
      (∀ k ≤ 2 ^ order / 2, y[k]? = some (Spec.dft (2 ^ order) (fun n => (x.getD n 0 : ℂ)) k)) ∧
      (∀ k > 2 ^ order / 2, y[k]? = out[k]?) := by
  obtain ⟨hb, f, rfl⟩ := ippRfftReachable_form hp
  obtain ⟨f', h⟩ := ippRfft_rfft hv vz h1 hb hout f (fun n => x.getD n 0) (fun n => out.getD n 0)
  rw [← list_eq_vec 0 hx, ← list_eq_vec 0 rfl] at h
  refine ⟨_, _, h, by simp, ?_, ?_⟩
  · intro k hk
    rw [getElem?_vec, if_pos (by omega), if_pos (by omega)]
  · intro k hk
    rw [getElem?_vec]
    by_cases hk2 : k < out.length
    · rw [if_pos hk2, if_neg (by omega)]
      simp [List.getElem?_eq_getElem hk2]
    · rw [if_neg hk2, List.getElem?_eq_none (by omega)]

/-- **C75**: the inverse real transform of a half spectrum whose first and last bin are real; the result
does not depend on earlier calls nor on the further coefficients. -/
theorem C75_ipp_irfft (hv : v.Contract) (order : ℕ) (h1 : 1 ≤ order) (p : IppRfftPlan)
    (hp : IppRfftReachable v order p) (vz : Bool) (c : List ℂ) (hc : 2 ^ order / 2 + 1 ≤ c.length)
    (hc2 : c.length ≤ 2 ^ order) (hc0 : (c.getD 0 0).im = 0)
    (hcn : (c.getD (2 ^ order / 2) 0).im = 0) (out : List ℝ) (hout : out.length = 2 ^ order) :
    ∃ p' y, p.irfft v vz c out = .ok (p', y) ∧ y.length = 2 ^ order ∧
      ∀ n < 2 ^ order, y[n]? = some
        (Spec.idft (2 ^ order) (Spec.hermitian (2 ^ order) (fun k => c.getD k 0)) n).re := by
  obtain ⟨hb, f, rfl⟩ := ippRfftReachable_form hp
  obtain ⟨f', h⟩ := ippRfft_irfft hv vz h1 hb hc hc2 f (fun n => c.getD n 0) (fun n => out.getD n 0)
    hc0 hcn
  rw [← list_eq_vec 0 hout, ← list_eq_vec 0 rfl] at h
  refine ⟨_, _, h, by simp, ?_⟩
  intro n hn
  rw [getElem?_vec, if_pos hn]

/-- **C75**: `irfft(rfft(x)) = N·x`, whichever branches are taken. -/
theorem C75_ipp_roundtrip (hv : v.Contract) (order : ℕ) (h1 : 1 ≤ order) (p : IppRfftPlan)
    (hp : IppRfftReachable v order p) (vz vz' : Bool) (x : List ℝ) (hx : x.length = 2 ^ order)
    (spec : List ℂ) (hs : 2 ^ order / 2 + 1 ≤ spec.length) (hs2 : spec.length ≤ 2 ^ order)
    (out : List ℝ) (hout : out.length = 2 ^ order) :
    ∃ p' X p'', p.rfft v vz x spec = .ok (p', X) ∧
      p'.irfft v vz' X out = .ok (p'', x.map ((2 ^ order : ℝ) * ·)) := by
  obtain ⟨p', X, e1, l1, v1, -⟩ := C75_ipp_rfft hv order h1 p hp vz x hx spec hs
  have hd : ∀ k ≤ 2 ^ order / 2, X.getD k 0
      = Spec.dft (2 ^ order) (fun n => (x.getD n 0 : ℂ)) k := by
    intro k hk
    rw [List.getD_eq_getElem?_getD, v1 k hk]; rfl
  have hpow : 2 ^ order - 2 ^ order / 2 = 2 ^ order / 2 := by
    obtain ⟨c, rfl⟩ : ∃ c, order = c + 1 := ⟨order - 1, by omega⟩
    rw [pow_succ]; omega
  have hpos : 0 < 2 ^ order := by positivity
  have hp' : IppRfftReachable v order p' := hp.step (.inl ⟨_, _, _, _, e1⟩)
  obtain ⟨p'', y, e2, l2, v2⟩ := C75_ipp_irfft hv order h1 p' hp' vz' X (by omega) (by omega)
    (by
      rw [hd 0 (by omega), ← Complex.conj_eq_iff_im, ← dft_real_symm _ (Nat.zero_le _), Nat.sub_zero,
        dft_self hpos])
    (by rw [hd _ le_rfl, ← Complex.conj_eq_iff_im, ← dft_real_symm _ (Nat.div_le_self _ _), hpow])
    out hout
  refine ⟨p', X, p'', e1, ?_⟩
  rw [e2]
  congr 2
  rw [eq_vec_iff.2 ⟨l2, v2⟩]
  conv_rhs => rw [list_eq_vec 0 hx, map_vec]
  apply vec_ext
  intro n hn
  have e : Spec.idft (2 ^ order) (Spec.hermitian (2 ^ order) (fun k => X.getD k 0)) n
      = Spec.idft (2 ^ order) (Spec.dft (2 ^ order) (fun n => (x.getD n 0 : ℂ))) n := by
    apply idft_congr
    intro k hk
    rw [← hermitian_dft (fun n => x.getD n 0) hk]
    exact hermitian_congr (fun k hk => hd k hk) hk
  rw [e, idft_dft _ hn]
  have : ((2 ^ order : ℕ) : ℂ) * (x.getD n 0 : ℂ) = (((2 ^ order : ℝ) * x.getD n 0 : ℝ) : ℂ) := by
    push_cast; ring
  rw [this, Complex.ofReal_re]

/-- **C75**: which orders the constructors accept.  vDSP and MKL throw above 27 (a vDSP order of 64 or
more is undefined before the check is reached); IPP throws for every order below `2³¹` that the library
rejects. -/
theorem C75_orders (v : Vendor) (order : ℕ) :
    (order ≤ 27 → v.setup order = true → ∃ p, AppleFftPlan.make v order = .ok p) ∧
    (27 < order → order < 64 → AppleFftPlan.make v order = .error .exception) ∧
    (order ≤ 27 → ∃ p, MklFftPlan.make order = .ok p) ∧
    (27 < order → MklFftPlan.make order = .error .exception) ∧
    (order < 64 → v.setup order = true → ∃ p, IppFftPlan.make v order = .ok p) ∧
    (order < 2 ^ 31 → v.setup order = false → IppFftPlan.make v order = .error .exception) ∧
    (order < 64 → v.setup order = false → IppRfftPlan.make v order = .error .exception) := by
  have hc : order < 2 ^ 31 → castInt order = order := by
    intro h
    unfold castInt
    rw [Nat.mod_eq_of_lt (by omega), if_pos h]
  refine ⟨fun h1 h2 => ⟨_, apple_make h1 h2⟩, fun h1 h2 => ?_, fun h => ⟨_, mkl_make h⟩,
    fun h => if_pos h, fun h1 h2 => ⟨_, ipp_make h1 (by rw [hc (by omega), h2])⟩, fun h1 h2 => ?_,
    fun h1 h2 => ?_⟩
  · unfold AppleFftPlan.make
    rw [sizeOfOrder_ok h2, bind_ok, if_pos h1]
  · unfold IppFftPlan.make ippHandle
    rw [hc h1, h2]
    rfl
  · unfold IppRfftPlan.make ippHandle
    rw [sizeOfOrder_ok h1, bind_ok, hc (by omega), h2]
    rfl

/-- **C75**: the order check of the IPP plan is by-passed above `2³²`: the order is truncated to an `int`
before the library sees it. -/
theorem C75_ipp_order_truncated (v : Vendor) (hs : v.setup 3 = true) :
    IppFftPlan.make v (2 ^ 32 + 3) = .error .overflow := by
  unfold IppFftPlan.make ippHandle castInt
  norm_num [hs]
  rfl

/-- **C75**: a program written against `fft_plan` gets the same spectrum on every platform: the vendor
plans agree with the library's own `c2c_dit2_plan`. -/
theorem C75_interchangeable (hv : v.Contract) (order : ℕ) (h1 : 1 ≤ order) (h2 : order ≤ 27)
    (pa : AppleFftPlan) (ha : AppleReachable v order pa) (pm : MklFftPlan) (hm : MklReachable v order pm)
    (pi : IppFftPlan) (hi : IppReachable v order pi) (vz : Bool) (x : List ℂ)
    (hx : x.length = 2 ^ order) (dir : Direction) :
    ∃ p y pa' pm' pi', Dit2Plan.make order = .ok p ∧ p.call x dir = .ok y ∧
      pa.call v x dir = .ok (pa', y) ∧ pm.call v vz x dir = .ok (pm', y) ∧
      pi.call v vz x dir = .ok (pi', y) := by
  obtain ⟨pa', ya, ea, la, va⟩ := C75_apple hv order pa ha x hx dir
  obtain ⟨pm', ym, em, lm, vm⟩ := C75_mkl hv order pm hm vz x hx dir
  obtain ⟨⟨pi', yi, ei, li, vi⟩, -⟩ := C75_ipp hv order pi hi vz x x hx hx dir
  have e := dit2_call h1 (fun i => x.getD i 0) dir
  rw [← list_eq_vec 0 hx] at e
  refine ⟨_, _, pa', pm', pi', dit2Plan_make_eq h2, e, ?_, ?_, ?_⟩
  · rw [ea, eq_vec_iff.2 ⟨la, va⟩]; rfl
  · rw [em, eq_vec_iff.2 ⟨lm, vm⟩]; rfl
  · rw [ei, eq_vec_iff.2 ⟨li, vi⟩]; rfl

/-- A library that does what the contract says. -/
noncomputable def referenceVendor : Vendor where
  setup o := decide (0 ≤ o ∧ o ≤ 27)
  dftSetup n := decide (0 < n)
  c2c dir n x := vec n (fun k => if dir = .forward then Spec.dft n (fun i => x.getD i 0) k
    else Spec.idft n (fun i => x.getD i 0) k)
  ccs n x := vec (n + 2) (fun j =>
    if j % 2 = 0 then (Spec.dft n (fun i => (x.getD i 0 : ℂ)) (j / 2)).re
    else (Spec.dft n (fun i => (x.getD i 0 : ℂ)) (j / 2)).im)
  ccsInv n y := vec n (fun i => (Spec.idft n
      (fun k => if k ≤ n / 2 then ⟨y.getD (2 * k) 0, y.getD (2 * k + 1) 0⟩
        else ⟨y.getD (2 * (n - k)) 0, -y.getD (2 * (n - k) + 1) 0⟩) i).re)

theorem referenceVendor_contract : referenceVendor.Contract where
  c2c dir n x _ := ⟨by simp [referenceVendor], fun k hk => by
    simp only [referenceVendor]; rw [getElem?_vec, if_pos hk]⟩
  ccs n x _ _ _ := by
    refine ⟨by simp [referenceVendor], fun k hk => ?_⟩
    simp only [referenceVendor]
    rw [getElem?_vec, if_pos (by omega), if_pos (by omega), getElem?_vec, if_pos (by omega),
      if_neg (by omega)]
    have a : 2 * k / 2 = k := by omega
    have b : (2 * k + 1) / 2 = k := by omega
    rw [a, b]
    exact ⟨rfl, rfl⟩
  ccsInv n y _ _ _ _ _ := ⟨by simp [referenceVendor], fun i hi => by
    simp only [referenceVendor]; rw [getElem?_vec, if_pos hi]⟩

/-- The hypotheses are met: a used IPP plan of order 2 on a conforming library, first through the
buffer, then through the pointer. -/
example : ∃ p p' y, IppRfftReachable referenceVendor 2 p ∧
    p.rfft referenceVendor false [1, 2, 3, 4] [0, 0, 0] = .ok (p', y) ∧
    ∃ q X q', p'.rfft referenceVendor true [5, 0, 2, 1] [0, 0, 0, 7] = .ok (q, X) ∧
      q.irfft referenceVendor false X [0, 0, 0, 0] = .ok (q', [5, 0, 2, 1].map ((2 ^ 2 : ℝ) * ·)) := by
  have hs : referenceVendor.setup (castInt 2) = true := by decide
  have hr : IppRfftReachable referenceVendor 2 _ := .init (ippRfft_make (by norm_num) hs)
  obtain ⟨p', y, h, -⟩ := C75_ipp_rfft referenceVendor_contract 2 (by norm_num) _ hr false [1, 2, 3, 4]
    rfl [0, 0, 0] (by norm_num)
  exact ⟨_, p', y, hr, h, C75_ipp_roundtrip referenceVendor_contract 2 (by norm_num) p'
    (hr.step (.inl ⟨_, _, _, _, h⟩)) true false [5, 0, 2, 1] rfl [0, 0, 0, 7] (by norm_num)
    (by norm_num) [0, 0, 0, 0] rfl⟩

/-- The hypotheses are met: split plans of order 1. -/
example : ∃ p q, AppleSplitPlan.make referenceVendor 1 = .ok p ∧
    IppSplitPlan.make referenceVendor 1 = .ok q := by
  refine ⟨⟨1, 2 ^ 1⟩, ⟨1⟩, ?_, ?_⟩
  · unfold AppleSplitPlan.make
    rw [sizeOfOrder_ok (by norm_num), bind_ok]
    have : referenceVendor.setup ((1 : ℕ) : ℤ) = true := by decide
    rw [this]
    rfl
  · unfold IppSplitPlan.make ippHandle
    rw [sizeOfOrder_ok (by norm_num), bind_ok]
    have : referenceVendor.setup (castInt 1) = true := by decide
    rw [this]
    rfl

end Neo.Props
