import Verif.Lemmas.StaticFft
import Verif.Lemmas.Out
import Verif.Lemmas.BackendReach
import Verif.Props.SplitFft

/-! # Properties of the compile-time FFT plans: C78 -/

namespace Neo.Props

open Finset

/-- **C78**: for all orders from 1 on (the snippet compiles up to 30) the plan transforms a buffer of the
plan's size into its DFT (forward) or its unnormalised inverse DFT (backward). -/
theorem C78_static_fft (order : ℕ) (h1 : 1 ≤ order) :
    ∃ p, StaticFftPlan.make order = .ok p ∧ ∀ x : List ℂ, x.length = 2 ^ order →
      Produces (p.call x .forward) (2 ^ order) (Spec.dft (2 ^ order) (fun n => x.getD n 0)) ∧
      Produces (p.call x .backward) (2 ^ order) (Spec.idft (2 ^ order) (fun n => x.getD n 0)) := by
  refine ⟨_, staticPlan_make_eq order, fun x hx => ?_⟩
  have e := list_eq_vec 0 hx
  constructor
  · rw [produces_iff]
    conv_lhs => rw [e]
    exact static_call_vec h1 _ .forward
  · rw [produces_iff]
    conv_lhs => rw [e]
    exact static_call_vec h1 _ .backward

/-- **C78**: the split plan transforms the two buffers into real and imaginary part of what the
interleaved plan computes for the same signal. -/
theorem C78_split_equals_interleaved (order : ℕ) (h1 : 1 ≤ order) :
    ∃ p q, StaticFftPlan.make order = .ok p ∧ StaticSplitPlan.make order = .ok q ∧
      ∀ x : List ℂ, x.length = 2 ^ order → ∀ dir, ∃ y, p.call x dir = .ok y ∧
        q.call (x.map Complex.re, x.map Complex.im) dir = .ok (y.map Complex.re, y.map Complex.im) := by
  refine ⟨_, _, staticPlan_make_eq order, staticSplitPlan_make_eq h1, fun x hx dir => ?_⟩
  have e := list_eq_vec 0 hx
  have h := static_call_vec h1 (fun i => x.getD i 0) dir
  have h' := staticSplit_call_vec h1 (fun i => x.getD i 0) dir
  rw [← e] at h h'
  exact ⟨_, h, h'⟩

/-- **C78**: the split plan computes real and imaginary part of the DFT and of the unnormalised inverse
DFT of the signal held by the two buffers. -/
theorem C78_static_split (order : ℕ) (h1 : 1 ≤ order) :
    ∃ q, StaticSplitPlan.make order = .ok q ∧
      ∀ re im : List ℝ, re.length = 2 ^ order → im.length = 2 ^ order → ∀ dir,
        ∃ re' im', q.call (re, im) dir = .ok (re', im') ∧
          re'.length = 2 ^ order ∧ im'.length = 2 ^ order ∧ ∀ k < 2 ^ order,
          ∃ a b, re'[k]? = some a ∧ im'[k]? = some b ∧ (⟨a, b⟩ : ℂ) = match dir with
            | .forward => Spec.dft (2 ^ order) (signalOf re im) k
            | .backward => Spec.idft (2 ^ order) (signalOf re im) k := by
  refine ⟨_, staticSplitPlan_make_eq h1, fun re im hre him dir => ?_⟩
  have h := staticSplit_call_vec h1 (signalOf re im) dir
  have e : splitOf (vec (2 ^ order) (signalOf re im)) = (re, im) := by
    rw [splitOf_vec]
    unfold signalOf
    dsimp only
    rw [← list_eq_vec 0 hre, ← list_eq_vec 0 him]
  rw [e, splitOf_vec] at h
  refine ⟨_, _, h, length_vec _ _, length_vec _ _, fun k hk =>
    ⟨_, _, (getElem?_vec ..).trans (if_pos hk), (getElem?_vec ..).trans (if_pos hk), ?_⟩⟩
  cases dir <;> rfl

/-- **C78**: up to order 27 the result is that of the library's plan. -/
theorem C78_equals_library (order : ℕ) (h1 : 1 ≤ order) (h2 : order ≤ 27) (x : List ℂ)
    (hx : x.length = 2 ^ order) (dir : Direction) :
    ∃ p l y, StaticFftPlan.make order = .ok p ∧ Dit2Plan.make order = .ok l ∧
      p.call x dir = .ok y ∧ l.call x dir = .ok y := by
  have h := static_call_vec h1 (fun i => x.getD i 0) dir
  have h' := dit2_call h1 (fun i => x.getD i 0) dir
  rw [← list_eq_vec 0 hx] at h h'
  exact ⟨_, _, _, staticPlan_make_eq order, dit2Plan_make_eq h2, h, h'⟩

private theorem bench_id {b : ℕ} (hb : 1 ≤ b) (x : List ℂ) (hx : x.length = 2 ^ b) :
    (staticPlanOf b).benchStep x = .ok x := by
  unfold StaticFftPlan.benchStep
  conv_lhs => rw [list_eq_vec 0 hx]
  rw [static_call_vec hb, bind_ok, static_call_vec hb, bind_ok]
  dsimp only
  rw [map_vec, pure_eq_ok]
  conv_rhs => rw [list_eq_vec 0 hx]
  congr 1
  apply vec_ext
  intro i hi
  have hN : (2 : ℂ) ^ b ≠ 0 := pow_ne_zero _ two_ne_zero
  have := idft_dft (N := 2 ^ b) (fun n => x.getD n 0) hi
  rw [show specDft .backward (2 ^ b) (specDft .forward (2 ^ b) (fun n => x.getD n 0)) i
    = Spec.idft (2 ^ b) (Spec.dft (2 ^ b) (fun n => x.getD n 0)) i from rfl, this,
    show (staticPlanOf b).order = b from rfl]
  push_cast
  field_simp

/-- **C78**: a timed step of either benchmark leaves the buffer as it was, so that the data do not grow or
decay however often `timeit` repeats it. -/
theorem C78_benchmark_identity (order : ℕ) (h1 : 1 ≤ order) :
    ∃ p q, StaticFftPlan.make order = .ok p ∧ StaticSplitPlan.make order = .ok q ∧
      (∀ (runs : ℕ) (x : List ℂ), x.length = 2 ^ order → repeatStep p.benchStep runs x = .ok x) ∧
      (∀ (runs : ℕ) (re im : List ℝ), re.length = 2 ^ order → im.length = 2 ^ order →
        repeatStep q.benchStep runs (re, im) = .ok (re, im)) := by
  refine ⟨_, _, staticPlan_make_eq order, staticSplitPlan_make_eq h1, ?_, ?_⟩
  · intro runs x hx
    induction runs with
    | zero => rfl
    | succ n ih => unfold repeatStep; rw [bench_id h1 x hx, bind_ok, ih]
  · intro runs re im hre him
    have key : (staticSplitPlanOf order).benchStep (re, im) = .ok (re, im) := by
      have e : splitOf (vec (2 ^ order) (signalOf re im)) = (re, im) := by
        rw [splitOf_vec]
        unfold signalOf
        dsimp only
        rw [← list_eq_vec 0 hre, ← list_eq_vec 0 him]
      have hb := bench_id h1 (vec (2 ^ order) (signalOf re im)) (length_vec _ _)
      unfold StaticFftPlan.benchStep at hb
      rw [static_call_vec h1, bind_ok, static_call_vec h1, bind_ok, pure_eq_ok] at hb
      injection hb with hb
      unfold StaticSplitPlan.benchStep
      rw [← e, staticSplit_call_vec h1, bind_ok, staticSplit_call_vec h1, bind_ok, pure_eq_ok]
      conv_rhs => rw [← hb]
      unfold splitOf
      simp only [map_vec]
      rw [show (staticSplitPlanOf order).order = (staticPlanOf order).order from rfl]
      congr 1
      refine Prod.ext ?_ ?_ <;> exact vec_ext (fun i _ => by
        simp only [Complex.re_mul_ofReal, Complex.im_mul_ofReal])
    induction runs with
    | zero => rfl
    | succ n ih => unfold repeatStep; rw [key, bind_ok, ih]

/-! ## Buffers of the wrong size -/

private theorem onlyOob_butterfly0 (x : List ℂ) (i j : ℕ) : OnlyOob (butterfly0 x i j) :=
  onlyOob_bind (onlyOob_rd _ _) fun _ => onlyOob_bind (onlyOob_rd _ _) fun _ =>
    onlyOob_bind (onlyOob_wr _ _ _) fun _ => onlyOob_wr _ _ _

private theorem onlyOob_butterflyTw (x : List ℂ) (w : ℂ) (i j : ℕ) : OnlyOob (butterflyTw x w i j) :=
  onlyOob_bind (onlyOob_rd _ _) fun _ => onlyOob_bind (onlyOob_rd _ _) fun _ =>
    onlyOob_bind (onlyOob_wr _ _ _) fun _ => onlyOob_wr _ _ _

private theorem onlyOob_rest (order : ℕ) (tw : List ℂ) (left : ℕ) (x : List ℂ) :
    OnlyOob (staticDit2Rest order tw left x) := by
  induction left generalizing x with
  | zero => exact onlyOob_ok x
  | succ left ih =>
    exact onlyOob_bind (onlyOob_forStep (fun _ _ => onlyOob_forN (fun _ _ =>
      onlyOob_bind (onlyOob_rd _ _) fun _ => onlyOob_butterflyTw _ _ _ _) _) _) (fun y => ih y)

private theorem onlyOob_static (order : ℕ) (x tw : List ℂ) : OnlyOob (staticDit2 order x tw) :=
  onlyOob_bind (onlyOob_forStep (fun _ _ => onlyOob_butterfly0 _ _ _) _) fun _ => onlyOob_rest _ _ _ _

private theorem swap_length {α : Type} {x y : List α} {i j : ℕ} (h : swap x i j = .ok y) :
    y.length = x.length := by
  unfold swap at h
  obtain ⟨a, -, h⟩ := ok_of_bind h
  obtain ⟨b, -, h⟩ := ok_of_bind h
  obtain ⟨z, hz, h⟩ := ok_of_bind h
  rw [wr_length h, wr_length hz]

private theorem butterfly0_length {x y : List ℂ} {i j : ℕ} (h : butterfly0 x i j = .ok y) :
    y.length = x.length ∧ j < x.length := by
  unfold butterfly0 at h
  obtain ⟨a, -, h⟩ := ok_of_bind h
  obtain ⟨b, hb, h⟩ := ok_of_bind h
  obtain ⟨z, hz, h⟩ := ok_of_bind h
  refine ⟨by rw [wr_length h, wr_length hz], ?_⟩
  unfold rd at hb
  by_contra hj
  rw [List.getElem?_eq_none (by omega)] at hb
  cases hb

/-- Outside the property: neither plan checks the size of the buffer.  With any other number of elements
the interleaved plan accesses an element that does not exist. -/
theorem C78_wrong_size_out_of_bounds (order : ℕ) (h1 : 1 ≤ order) :
    ∃ p, StaticFftPlan.make order = .ok p ∧ ∀ (x : List ℂ) (dir : Direction),
      x.length ≠ 2 ^ order → p.call x dir = .error .oob := by
  refine ⟨_, staticPlan_make_eq order, fun x dir hx => ?_⟩
  have hrev : (staticPlanOf order).rev = vec (2 ^ order) (digitRev 2 order) := rfl
  have hbody : ∀ i (t t' : List ℂ), t.length = x.length → (do
      let r ← rd (vec (2 ^ order) (digitRev 2 order)) i
      if i < r then swap t i r else pure t) = .ok t' → t'.length = x.length := by
    intro i t t' ht h
    obtain ⟨r, -, h⟩ := ok_of_bind h
    split at h
    · rw [swap_length h, ht]
    · injection h with h; rw [← h, ht]
  apply onlyOob_not_ok
  · unfold StaticFftPlan.call
    refine onlyOob_bind (onlyOob_forN (fun i s => onlyOob_bind (onlyOob_rd _ _) fun t => ?_) _)
      fun y => ?_
    · split
      · exact onlyOob_swap _ _ _
      · exact onlyOob_pure _
    · split
      · exact onlyOob_static _ _ _
      · exact onlyOob_static _ _ _
  · intro z hz
    unfold StaticFftPlan.call at hz
    rw [hrev] at hz
    obtain ⟨y, hy, hz⟩ := ok_of_bind hz
    unfold bitrevorderIdx at hy
    have hyl : y.length = x.length := by
      exact forN_pres (fun t : List ℂ => t.length = x.length)
        (fun i t t' ht h => hbody i t t' ht h) _ _ _ rfl hy
    rcases Nat.lt_or_gt_of_ne hx with h | h
    · have hs : ∃ tw, staticDit2 order y tw = .ok z := by
        split at hz
        · exact ⟨_, hz⟩
        · exact ⟨_, hz⟩
      obtain ⟨tw, hs⟩ := hs
      unfold staticDit2 at hs
      obtain ⟨u, hu, -⟩ := ok_of_bind hs
      unfold forStep at hu
      have hp : 2 ^ order = 2 * 2 ^ (order - 1) := by rw [← pow_succ']; congr 1; omega
      have hpos : 0 < 2 ^ (order - 1) := by positivity
      obtain ⟨t, t', ht, hb⟩ := forN_ok_at (fun t : List ℂ => t.length = x.length) hyl
        (fun i t t' ht h => by rw [(butterfly0_length h).1, ht]) hu
        (i := 2 ^ (order - 1) - 1) (by rw [shl_one_eq]; omega)
      have := (butterfly0_length hb).2
      omega
    · obtain ⟨t, t', -, hb⟩ := forN_ok_at (fun t : List ℂ => t.length = x.length) rfl
        (fun i t t' ht h => hbody i t t' ht h) hy h
      obtain ⟨r, hr, -⟩ := ok_of_bind hb
      rw [rd_vec, if_neg (lt_irrefl _)] at hr
      cases hr

/-- `main` of the snippet: the spectrum of the unit impulse of length 4 is constant. -/
example : ∃ p, StaticFftPlan.make 2 = .ok p ∧ p.call [1, 0, 0, 0] .forward = .ok [1, 1, 1, 1] := by
  obtain ⟨p, hp, h⟩ := C78_static_fft 2 (by norm_num)
  refine ⟨p, hp, ?_⟩
  have := (h [1, 0, 0, 0] rfl).1
  rw [produces_iff] at this
  rw [this]
  simp [vec, Spec.dft, sum_range_succ, List.range_succ]

end Neo.Props
