import Verif.Model.AnyArith
import Verif.Lemmas.Rounding
import Verif.Lemmas.UpcRun

/-! # The partitioned convolvers over any arithmetic -/

namespace Neo

variable {R C : Type} [Zero R] [Add R] [Mul R] [Zero C] [AddCommMagma C] [Sub C] [Mul C] {A : Arith R C}

/-- The plan built for order `b`. -/
def dit2PlanGOf (A : Arith R C) (b : ℕ) : Dit2Plan C where
  order := b
  size := 2 ^ b
  reorder := vec (2 ^ b) (digitRev 2 b)
  wf := makeTwiddleLutRadix2G A (2 ^ b) .forward
  wb := makeTwiddleLutRadix2G A (2 ^ b) .backward

theorem dit2Plan_makeG_eq (A : Arith R C) {b : ℕ} (hb : b ≤ 27) : Dit2Plan.makeG A b = .ok (dit2PlanGOf A b) := by
  unfold Dit2Plan.makeG dit2CheckOrder dit2MaxOrder
  rw [if_neg (by omega)]
  simp only [bind_ok, Nat.one_shiftLeft, bitrevMake_eq, pure_eq_ok, fftSize_eq]
  rfl

theorem makeTwiddleLutRadix2G_eq (A : Arith R C) {b : ℕ} (hb : 1 ≤ b) (dir : Direction) :
    makeTwiddleLutRadix2G A (2 ^ b) dir = vec (2 ^ (b - 1)) (fun i => A.twiddle (2 ^ b) i dir) := by
  unfold makeTwiddleLutRadix2G vec
  have h1 : 2 ^ b / 2 = 2 ^ (b - 1) := by
    have : 2 ^ b = 2 * 2 ^ (b - 1) := by rw [← pow_succ']; congr 1; omega
    omega
  have h2 : 2 ^ (b - 1) * 2 = 2 ^ b := by rw [← pow_succ]; congr 1; omega
  rw [h1, h2]

/-- The plan built for order `b`, with buffer content `f`. -/
def rfftPlanGOf (A : Arith R C) (b : ℕ) (f : ℕ → C) : RfftPlanG A where
  order := b
  fft := dit2PlanGOf A b
  buffer := vec (2 ^ b) f

theorem rfftPlanGOf_size (b : ℕ) (f : ℕ → C) : (rfftPlanGOf A b f).size = 2 ^ b := by
  simp [RfftPlanG.size, rfftPlanGOf]

theorem rfftPlanG_make_eq {b : ℕ} (hb : b ≤ 27) :
    RfftPlanG.make A b = .ok (rfftPlanGOf A b (fun _ => 0)) := by
  unfold RfftPlanG.make
  rw [dit2Plan_makeG_eq A hb, bind_ok, fftSize_eq, pure_eq_ok]
  rfl

theorem copyRealToComplexG_vec {n : ℕ} (f : ℕ → R) (g : ℕ → C) :
    copyRealToComplexG A (vec n f) (vec n g) = .ok (vec n (fun i => A.ofReal (f i))) := by
  unfold copyRealToComplexG
  simp only [length_vec, decide_true, check_true, bind_ok]
  exact forN_map g (fun i _ => A.ofReal (f i)) _ (fun i hi h _ => by simp [hi])

/-- The transform of order `b` as computed, as a function of the input. -/
def ditGn (A : Arith R C) (b : ℕ) (dir : Direction) (x : ℕ → C) (k : ℕ) : C :=
  ditRun b (fun i => A.twiddle (2 ^ b) i dir) (fun i => x (digitRev 2 b i)) b k

theorem ditG_fn {b : ℕ} (hb : 1 ≤ b) (x : ℕ → C) (dir : Direction) :
    (dit2PlanGOf A b).call (vec (2 ^ b) x) dir = .ok (vec (2 ^ b) (ditGn A b dir x)) := by
  unfold Dit2Plan.call Dit2Plan.callWith dit2PlanGOf
  simp only [length_vec, decide_true, check_true, bind_ok, bitrevApply_digitRev, makeTwiddleLutRadix2G_eq A hb]
  cases dir
  · rw [if_pos rfl]; exact dit2V3_run hb _ _
  · rw [if_neg (by decide)]; exact dit2V3_run hb _ _

theorem ditGn_congr {b : ℕ} {dir : Direction} {x y : ℕ → C} (h : ∀ i < 2 ^ b, x i = y i) :
    ditGn A b dir x = ditGn A b dir y := by
  have e : (fun i => x (digitRev 2 b i)) = fun i => y (digitRev 2 b i) :=
    funext fun i => h _ (digitRev_lt (by norm_num) b i)
  unfold ditGn
  rw [e]

/-- The half spectrum computed by `rfft`. -/
def rfftGn (A : Arith R C) (b : ℕ) (x : ℕ → R) : ℕ → C :=
  ditGn A b .forward (fun i => A.ofReal (x i))

theorem rfftGn_congr {b : ℕ} {x y : ℕ → R} (h : ∀ i < 2 ^ b, x i = y i) : rfftGn A b x = rfftGn A b y :=
  ditGn_congr fun i hi => by rw [h i hi]

theorem rfftG_fn {b m : ℕ} (hb : 1 ≤ b) (hm : 2 ^ b / 2 + 1 ≤ m) (f : ℕ → C) (x : ℕ → R)
    (o : ℕ → C) :
    ∃ f' : ℕ → C, (rfftPlanGOf A b f).rfft (vec (2 ^ b) x) (vec m o) = .ok (rfftPlanGOf A b f',
      vec m (fun k => if k < 2 ^ b / 2 + 1 then rfftGn A b x k else o k)) := by
  have e := (ditG_fn (A := A) hb (fun i => A.ofReal (x i)) .forward)
  refine ⟨rfftGn A b x, ?_⟩
  unfold RfftPlanG.rfft
  simp only [rfftPlanGOf_size]
  have h1 : (rfftPlanGOf A b f).buffer = vec (2 ^ b) f := rfl
  have h2 : (rfftPlanGOf A b f).fft = dit2PlanGOf A b := rfl
  rw [h1, h2, copyRealToComplexG_vec, bind_ok, e, bind_ok,
    rdSpan_vec (Nat.zero_le _) (half_lt hb), bind_ok, Nat.sub_zero, copyInto_vec _ _ (by omega), bind_ok,
    pure_eq_ok]
  congr 2
  exact vec_ext (fun k _ => by simp [rfftGn])

/-- The Hermitian extension built by `irfft`. -/
def hermG (A : Arith R C) (b : ℕ) (c : ℕ → C) (k : ℕ) : C := if k ≤ 2 ^ b / 2 then c k else A.conj (c (2 ^ b - k))

/-- The samples computed by `irfft`. -/
def irfftGn (A : Arith R C) (b : ℕ) (c : ℕ → C) (n : ℕ) : R :=
  A.realPart (ditGn A b .backward (hermG A b c) n)

theorem irfftGn_congr {b : ℕ} {c d : ℕ → C} (h : ∀ k ≤ 2 ^ b / 2, c k = d k) : irfftGn A b c = irfftGn A b d := by
  funext n
  unfold irfftGn
  rw [ditGn_congr (y := hermG A b d)]
  intro i hi
  unfold hermG
  split
  · exact h _ ‹_›
  · rw [h _ (by omega)]

theorem irfftG_fn {b l m : ℕ} (hb : 1 ≤ b) (hl : 2 ^ b / 2 + 1 ≤ l) (hl2 : l ≤ 2 ^ b)
    (hm : 2 ^ b ≤ m) (f c : ℕ → C) (o : ℕ → R) :
    ∃ f' : ℕ → C, (rfftPlanGOf A b f).irfft (vec l c) (vec m o) = .ok (rfftPlanGOf A b f',
      vec m (fun n => if n < 2 ^ b then irfftGn A b c n else o n)) := by
  set H : ℕ → C := hermG A b c with hH
  have e := (ditG_fn (A := A) hb H .backward)
  set y := ditGn A b .backward H with hy
  refine ⟨y, ?_⟩
  unfold RfftPlanG.irfft
  simp only [rfftPlanGOf_size]
  have h1 : (rfftPlanGOf A b f).buffer = vec (2 ^ b) f := rfl
  have h2 : (rfftPlanGOf A b f).fft = dit2PlanGOf A b := rfl
  have hl' := half_lt hb
  rw [h1, h2, length_vec, copyInto_vec _ _ (by omega), bind_ok]
  rw [forR_eq' (s' := vec (2 ^ b) H)
    (fun i => vec (2 ^ b) (fun k => if k < i then H k
      else if k < l then c k else f k)) hl', bind_ok, e, bind_ok]
  · rw [forN_eq' (s' := vec m (fun n => if n < 2 ^ b then A.realPart (y n) else o n))
      (fun i => vec m (fun n => if n < i then A.realPart (y n) else o n)), bind_ok, pure_eq_ok]
    · rfl
    · exact vec_ext (fun n _ => by simp)
    · rfl
    · intro i hi
      rw [rd_vec_ok hi, bind_ok, wr_vec_ok (by omega)]
      congr 1
      apply vec_ext
      intro n _
      by_cases h : n = i
      · subst h; simp
      · have : n < i + 1 ↔ n < i := by omega
        simp [h, this]
  · apply vec_ext
    intro k hk
    by_cases h : k < 2 ^ b / 2 + 1
    · have hkl : k < l := by omega
      have h' : k ≤ 2 ^ b / 2 := by omega
      simp [h, hkl, hH, hermG, h']
    · simp [h]
  · exact vec_ext (fun k hk => by simp [hk])
  · intro i h1 h2
    rw [rd_vec_ok (by omega), bind_ok, wr_vec_ok h2]
    congr 1
    apply vec_ext
    intro k hk
    have hpow : 2 ^ b % 2 = 0 := by
      obtain ⟨c, rfl⟩ : ∃ c, b = c + 1 := ⟨b - 1, by omega⟩
      rw [pow_succ]; omega
    by_cases h : k = i
    · subst h
      have e1 : 2 ^ b - k < k := by omega
      have e2 : 2 ^ b - k ≤ 2 ^ b / 2 := by omega
      have e3 : ¬ k ≤ 2 ^ b / 2 := by omega
      simp [hH, hermG, e1, e2, e3]
    · have : k < i + 1 ↔ k < i := by omega
      simp [h, this]

/-- Scaled samples of the half spectrum `Y`, as computed. -/
def specOutG (A : Arith R C) (b : ℕ) (Y : ℕ → C) (n : ℕ) : R := irfftGn A b Y n * A.invSize (2 ^ b)

/-! ## Overlap-add -/

/-- An overlap-add object with transform size `2 ^ b`. -/
def oaGOf (A : Arith R C) (B L b : ℕ) (f : ℕ → C) (w : ℕ → R) (sp : ℕ → C) (ov : ℕ → R) :
    OverlapAddG A where
  blockSize := B
  filterSize := L
  rfft := rfftPlanGOf A b f
  window := vec (2 ^ b) w
  spectrum := vec (2 ^ b / 2 + 1) sp
  overlap := vec B ov

theorem overlapAddG_make_eq {B L : ℕ} (hb : Nat.clog 2 (B + L - 1) ≤ 27) (hne : B + L ≠ 0 := by omega) :
    OverlapAddG.make A B L = .ok (oaGOf A B L (Nat.clog 2 (B + L - 1)) (fun _ => 0) (fun _ => 0)
      (fun _ => 0) (fun _ => 0)) := by
  unfold OverlapAddG.make outputSizeFull
  rw [if_neg hne, bind_ok]
  rw [nextOrder_eq, rfftPlanG_make_eq hb, bind_ok, pure_eq_ok]
  simp only [rfftPlanGOf_size]
  rfl

theorem oaG_step {σ : Type} {B L b : ℕ} (hb : 1 ≤ b) (hK : B * 2 = 2 ^ b) (f : ℕ → C)
    (w : ℕ → R) (sp : ℕ → C) (ov x : ℕ → R) (cb : Callback σ C) (s s' : σ) (Y : ℕ → C)
    (hcb : cb (vec (2 ^ b / 2 + 1) (rfftGn A b (zext B x))) s = .ok (vec (2 ^ b / 2 + 1) Y, s')) :
    ∃ f', (oaGOf A B L b f w sp ov).call (vec B x) cb s
      = .ok (oaGOf A B L b f' (specOutG A b Y) Y (fun i => specOutG A b Y (B + i)),
          vec B (fun i => specOutG A b Y i + ov i), s') := by
  unfold OverlapAddG.call
  have h1 : (oaGOf A B L b f w sp ov).blockSize = B := rfl
  have h2 : (oaGOf A B L b f w sp ov).window = vec (2 ^ b) w := rfl
  have h3 : (oaGOf A B L b f w sp ov).rfft = rfftPlanGOf A b f := rfl
  have h4 : (oaGOf A B L b f w sp ov).spectrum = vec (2 ^ b / 2 + 1) sp := rfl
  have h5 : (oaGOf A B L b f w sp ov).overlap = vec B ov := rfl
  simp only [h1, h2, h3, h4, h5, length_vec, decide_true, check_true, bind_ok]
  rw [rdSpan_vec (Nat.zero_le _) (by omega), bind_ok, rdSpan_vec (by omega) hK.le, bind_ok,
    copyInto_vec _ _ (by omega), bind_ok, fillVec_vec, bind_ok, wrSpan_vec (by omega), bind_ok]
  have hw : (vec (2 ^ b) fun i => if B ≤ i ∧ i < B + (B * 2 - B) then (0 : R)
      else if 0 ≤ i ∧ i < 0 + B then x (i - 0) else w i) = vec (2 ^ b) (zext B x) := by
    apply vec_ext
    intro i hi
    unfold zext
    by_cases c1 : i < B
    · have : ¬ (B ≤ i ∧ i < B + (B * 2 - B)) := by omega
      simp [c1, this]
    · have : B ≤ i ∧ i < B + (B * 2 - B) := by omega
      simp [c1, this]
  rw [hw]
  obtain ⟨f1, e1⟩ := rfftG_fn (A := A) hb le_rfl f (zext B x) sp
  rw [e1, bind_ok]
  have hsp : (vec (2 ^ b / 2 + 1) fun k => if k < 2 ^ b / 2 + 1 then rfftGn A b (zext B x) k else sp k)
      = vec (2 ^ b / 2 + 1) (rfftGn A b (zext B x)) := vec_ext (fun k hk => by rw [if_pos hk])
  simp only []
  rw [hsp, hcb, bind_ok]
  simp only []
  obtain ⟨f2, e2⟩ := irfftG_fn (A := A) hb le_rfl (half_lt hb) (le_refl (2 ^ b)) f1 Y (zext B x)
  rw [e2, bind_ok]
  simp only [rfftPlanGOf_size]
  rw [scaleVec_vec, bind_ok]
  have hout : (vec (2 ^ b) fun i => (if i < 2 ^ b then irfftGn A b Y i else zext B x i) * A.invSize (2 ^ b))
      = vec (2 ^ b) (specOutG A b Y) := vec_ext (fun i hi => by rw [if_pos hi]; rfl)
  rw [hout, rdSpan_vec (Nat.zero_le _) (by omega), bind_ok, Nat.sub_zero, addVec_vec, bind_ok,
    rdSpan_vec (by omega) hK.le, bind_ok, show B * 2 - B = B by omega, copyVec_vec, bind_ok, pure_eq_ok]
  refine ⟨f2, ?_⟩
  simp only [Nat.zero_add]
  rfl

/-! ## Overlap-save -/

/-- An overlap-save object with transform size `2 ^ b`. -/
def osGOf (A : Arith R C) (B L b : ℕ) (f : ℕ → C) (w rb : ℕ → R) (cbuf : ℕ → C) :
    OverlapSaveG A where
  blockSize := B
  filterSize := L
  plan := rfftPlanGOf A b f
  window := vec (2 ^ b) w
  realBuffer := vec (2 ^ b) rb
  complexBuffer := vec (2 ^ b) cbuf

theorem overlapSaveG_make_eq {B L : ℕ} (hb : Nat.clog 2 (B + L - 1) ≤ 27) (hne : B + L ≠ 0 := by omega) :
    OverlapSaveG.make A B L = .ok (osGOf A B L (Nat.clog 2 (B + L - 1)) (fun _ => 0) (fun _ => 0)
      (fun _ => 0) (fun _ => 0)) := by
  unfold OverlapSaveG.make
  rw [if_neg hne, bind_ok]
  rw [nextOrder_eq, rfftPlanG_make_eq hb, bind_ok, pure_eq_ok]
  simp only [rfftPlanGOf_size]
  rfl

/-- The window after sliding and copying the block. -/
def osWindowG (K B : ℕ) (x w : ℕ → R) (k : ℕ) : R := if k + B < K then w (k + B) else x (k - (K - B))

theorem osG_step {σ : Type} {B L b : ℕ} (hb : 1 ≤ b) (hB : 1 ≤ B) (hdvd : B ∣ 2 ^ b) (f : ℕ → C)
    (w rb : ℕ → R) (cbuf : ℕ → C) (x : ℕ → R) (cb : Callback σ C) (s s' : σ) (Y : ℕ → C)
    (hcb : cb (vec (2 ^ b / 2 + 1) (rfftGn A b (osWindowG (2 ^ b) B x w))) s = .ok (vec (2 ^ b / 2 + 1) Y, s')) :
    ∃ f' rb' cbuf', (osGOf A B L b f w rb cbuf).call (vec B x) cb s
      = .ok (osGOf A B L b f' (osWindowG (2 ^ b) B x w) rb' cbuf',
          vec B (fun i => specOutG A b Y (2 ^ b - B + i)), s') := by
  have hBK : B ≤ 2 ^ b := Nat.le_of_dvd (by positivity) hdvd
  unfold OverlapSaveG.call
  have h1 : (osGOf A B L b f w rb cbuf).blockSize = B := rfl
  have h2 : (osGOf A B L b f w rb cbuf).window = vec (2 ^ b) w := rfl
  have h3 : (osGOf A B L b f w rb cbuf).plan = rfftPlanGOf A b f := rfl
  have h4 : (osGOf A B L b f w rb cbuf).realBuffer = vec (2 ^ b) rb := rfl
  have h5 : (osGOf A B L b f w rb cbuf).complexBuffer = vec (2 ^ b) cbuf := rfl
  have hl := half_lt hb
  simp only [h1, h2, h3, h4, h5, length_vec, decide_true, check_true, bind_ok, rfftPlanGOf_size,
    subIdx, if_pos hBK]
  rw [rdSpan_vec (by omega) le_rfl, bind_ok]
  rw [slideWindowLeft_vec hB, bind_ok, show 2 ^ b - (2 ^ b - B) = B by omega, copyInto_vec _ _ (by omega), bind_ok]
  have hw : (vec (2 ^ b) fun i => if 2 ^ b - B ≤ i ∧ i < 2 ^ b - B + B then x (i - (2 ^ b - B))
      else if i + B < 2 ^ b / B * B then w (i + B) else w i) = vec (2 ^ b) (osWindowG (2 ^ b) B x w) := by
    apply vec_ext
    intro i hi
    unfold osWindowG
    rw [Nat.div_mul_cancel hdvd]
    by_cases c : 2 ^ b - B ≤ i
    · rw [if_pos (by omega), if_neg (by omega)]
    · rw [if_neg (by omega), if_pos (by omega), if_pos (by omega)]
  rw [hw]
  obtain ⟨f1, e1⟩ := rfftG_fn (A := A) hb hl f (osWindowG (2 ^ b) B x w) cbuf
  rw [e1, bind_ok]
  simp only []
  rw [rdSpan_vec (Nat.zero_le _) hl, bind_ok, Nat.sub_zero]
  have hsp : (vec (2 ^ b / 2 + 1) fun i => if 0 + i < 2 ^ b / 2 + 1 then
      rfftGn A b (osWindowG (2 ^ b) B x w) (0 + i) else cbuf (0 + i))
      = vec (2 ^ b / 2 + 1) (rfftGn A b (osWindowG (2 ^ b) B x w)) :=
    vec_ext (fun k hk => by rw [Nat.zero_add, if_pos hk])
  rw [hsp, hcb, bind_ok]
  simp only []
  rw [wrSpan_vec (by omega), bind_ok]
  generalize hZ : (fun i => if 0 ≤ i ∧ i < 0 + (2 ^ b / 2 + 1) then Y (i - 0)
      else if i < 2 ^ b / 2 + 1 then rfftGn A b (osWindowG (2 ^ b) B x w) i else cbuf i) = Z
  obtain ⟨f2, e2⟩ := irfftG_fn (A := A) hb hl (le_refl (2 ^ b)) (le_refl (2 ^ b)) f1 Z rb
  rw [e2, bind_ok]
  simp only [rfftPlanGOf_size]
  rw [scaleVec_vec, bind_ok, rdSpan_vec (by omega) le_rfl, bind_ok,
    show 2 ^ b - (2 ^ b - B) = B by omega, copyVec_vec, bind_ok, pure_eq_ok]
  refine ⟨f2, fun i => (if i < 2 ^ b then irfftGn A b Z i else rb i) * A.invSize (2 ^ b), Z, ?_⟩
  congr 3
  apply vec_ext
  intro i hi
  rw [if_pos (by omega)]
  unfold specOutG
  rw [irfftGn_congr (d := Y)]
  intro k hk
  rw [← hZ]
  beta_reduce
  rw [if_pos (by omega), Nat.sub_zero]

/-! ## The laws -/

/-- Output of overlap-add. -/
def olaOutG (A : Arith R C) (a : ℕ) (Y : ℕ → ℕ → C) (t i : ℕ) : R :=
  specOutG A (a + 1) (Y t) i + if 1 ≤ t then specOutG A (a + 1) (Y (t - 1)) (2 ^ a + i) else 0

/-- Output of overlap-save. -/
def olsOutG (A : Arith R C) (a : ℕ) (Y : ℕ → ℕ → C) (t i : ℕ) : R :=
  specOutG A (a + 1) (Y t) (2 ^ a + i)

/-- Spectra of the windows, as computed. -/
def winSpecG (A : Arith R C) (a : ℕ) (win : (ℕ → R) → ℕ → ℕ → R) (x : ℕ → R) (t : ℕ) : ℕ → C :=
  rfftGn A (a + 1) (win x t)

theorem olaG_law {a : ℕ} (ha : 1 ≤ a) (ha2 : a ≤ 26) :
    OverlapLaw (olaOpsG A) (2 ^ a) (winSpecG A a (seg (2 ^ a))) (olaOutG A a)
      (fun _ Y t o => ∃ f w sp ov, o = oaGOf A (2 ^ a) (2 ^ a) (a + 1) f w sp ov ∧
        ∀ i < 2 ^ a, ov i = if 1 ≤ t then specOutG A (a + 1) (Y (t - 1)) (2 ^ a + i) else 0) := by
  constructor
  · refine ⟨_, overlapAddG_make_eq (by rw [clog_block ha]; omega) (by have := Nat.one_le_two_pow (n := a); omega),
      fun x Y => ?_⟩
    rw [clog_block ha]
    exact ⟨_, _, _, _, rfl, fun _ _ => rfl⟩
  · rintro σ x Y t _ cb s s' ⟨f, w, sp, ov, rfl, hov⟩ hcb
    have hcb' : cb (vec (2 ^ (a + 1) / 2 + 1) (rfftGn A (a + 1) (zext (2 ^ a) (fun i => x (t * 2 ^ a + i))))) s
        = .ok (vec (2 ^ (a + 1) / 2 + 1) (Y t), s') := by
      rw [two_pow_half, ← hcb]
      rfl
    obtain ⟨f', e⟩ := oaG_step (L := 2 ^ a) (by omega) (by rw [pow_succ]) f w sp ov _ cb s s' (Y t) hcb'
    have hout : (vec (2 ^ a) fun i => specOutG A (a + 1) (Y t) i + ov i) = vec (2 ^ a) (olaOutG A a Y t) := by
      apply vec_ext
      intro i hi
      rw [hov i hi]
      rfl
    rw [hout] at e
    refine ⟨_, e, f', _, _, _, rfl, ?_⟩
    intro i hi
    rw [if_pos (by omega), Nat.add_sub_cancel]

theorem olsG_law {a : ℕ} (ha : 1 ≤ a) (ha2 : a ≤ 26) :
    OverlapLaw (olsOpsG A) (2 ^ a) (winSpecG A a (saveWindow (2 ^ a))) (olsOutG A a)
      (fun x _ t o => ∃ f w rb cbuf, o = osGOf A (2 ^ a) (2 ^ a) (a + 1) f w rb cbuf ∧
        ∀ k < 2 ^ (a + 1), w k = if 2 ^ (a + 1) ≤ t * 2 ^ a + k then x (t * 2 ^ a + k - 2 ^ (a + 1))
          else 0) := by
  have hp : 2 ^ (a + 1) = 2 ^ a + 2 ^ a := by rw [pow_succ]; ring
  constructor
  · refine ⟨_, overlapSaveG_make_eq (by rw [clog_block ha]; omega) (by have := Nat.one_le_two_pow (n := a); omega),
      fun x Y => ?_⟩
    rw [clog_block ha]
    exact ⟨_, _, _, _, rfl, fun k hk => by rw [if_neg (by omega)]⟩
  · rintro σ x Y t _ cb s s' ⟨f, w, rb, cbuf, rfl, hw⟩ hcb
    have hwin : ∀ n < 2 ^ (a + 1), osWindowG (2 ^ (a + 1)) (2 ^ a) (fun i => x (t * 2 ^ a + i)) w n
        = if 2 ^ (a + 1) ≤ (t + 1) * 2 ^ a + n then x ((t + 1) * 2 ^ a + n - 2 ^ (a + 1)) else 0 := by
      intro n hn
      unfold osWindowG
      rw [add_mul, one_mul]
      by_cases c : n + 2 ^ a < 2 ^ (a + 1)
      · rw [if_pos c, hw _ c, show t * 2 ^ a + (n + 2 ^ a) = t * 2 ^ a + 2 ^ a + n by omega]
      · rw [if_neg c, if_pos (by omega)]
        beta_reduce
        congr 1; omega
    have hcb' : cb (vec (2 ^ (a + 1) / 2 + 1) (rfftGn A (a + 1)
        (osWindowG (2 ^ (a + 1)) (2 ^ a) (fun i => x (t * 2 ^ a + i)) w))) s
        = .ok (vec (2 ^ (a + 1) / 2 + 1) (Y t), s') := by
      rw [two_pow_half, ← hcb]
      unfold winSpecG
      rw [rfftGn_congr (y := saveWindow (2 ^ a) x t)]
      intro n hn
      rw [hwin n hn]
      unfold saveWindow
      rw [add_mul, one_mul]
      by_cases c : n < 2 ^ a
      · rw [if_pos c]
        by_cases ct : 1 ≤ t
        · have : 2 ^ a ≤ t * 2 ^ a := Nat.le_mul_of_pos_left _ ct
          rw [if_pos ct, if_pos (by omega), Nat.sub_mul, one_mul]
          congr 1; omega
        · obtain rfl : t = 0 := by omega
          rw [if_neg (by omega), if_neg (by omega)]
      · rw [if_neg c, if_pos (by omega)]
        congr 1; omega
    obtain ⟨f', rb', cbuf', e⟩ := osG_step (L := 2 ^ a) (by omega) Nat.one_le_two_pow
      (pow_dvd_pow 2 (Nat.le_succ a)) f w rb cbuf _ cb s s' (Y t) hcb'
    have hout : (vec (2 ^ a) fun i => specOutG A (a + 1) (Y t) (2 ^ (a + 1) - 2 ^ a + i))
        = vec (2 ^ a) (olsOutG A a Y t) := by
      apply vec_ext
      intro i hi
      unfold olsOutG
      congr 1; omega
    rw [hout] at e
    exact ⟨_, e, f', _, rb', cbuf', rfl, hwin⟩

theorem upolaRunG_eq {a : ℕ} (ha : 1 ≤ a) (ha2 : a ≤ 26) {v : MatView} {data : List C}
    (hv : v.InRange data.length) (hr : 1 ≤ v.rows) (hc : v.cols = 2 ^ a + 1) (blocks : List (List R))
    (hlen : ∀ b ∈ blocks, b.length = 2 ^ a) :
    upolaRunG A v data blocks = .ok (vec blocks.length (fun t => vec (2 ^ a) (olaOutG A a
      (macY v.rows (matAt v data) (winSpecG A a (seg (2 ^ a)) (fun i => blocks.flatten.getD i 0))) t))) :=
  upc_run_gen (olaG_law ha ha2) ⟨_, overlapAddG_make_eq (B := 1) (L := 1) (by norm_num)⟩ hv hr hc
    (fun _ _ _ _ => rfl) _ blocks hlen

theorem upolsRunG_eq {a : ℕ} (ha : 1 ≤ a) (ha2 : a ≤ 26) {v : MatView} {data : List C}
    (hv : v.InRange data.length) (hr : 1 ≤ v.rows) (hc : v.cols = 2 ^ a + 1) (blocks : List (List R))
    (hlen : ∀ b ∈ blocks, b.length = 2 ^ a) :
    upolsRunG A v data blocks = .ok (vec blocks.length (fun t => vec (2 ^ a) (olsOutG A a
      (macY v.rows (matAt v data) (winSpecG A a (saveWindow (2 ^ a)) (fun i => blocks.flatten.getD i 0))) t))) :=
  upc_run_gen (olsG_law ha ha2) ⟨_, overlapSaveG_make_eq (B := 1) (L := 1) (by norm_num)⟩ hv hr hc
    (fun _ _ _ _ => rfl) _ blocks hlen

end Neo
