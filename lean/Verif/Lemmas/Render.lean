import Verif.Model.Render
import Verif.Lemmas.UpcRun
import Verif.Lemmas.Stats
import Verif.Lemmas.Fixed
import Verif.Lemmas.Mat
import Verif.Lemmas.Out

/-! # Whole-file convolution -/

namespace Neo

variable {S σ : Type}

theorem forIntStep_inv {B n : ℕ} {body : ℕ → σ → Res σ} (I : ℕ → σ → Prop) (hB : 1 ≤ B)
    (hn : n + B ≤ 2 ^ 31)
    (hstep : ∀ t s, t * B < n → I t s → ∃ s', body (t * B) s = .ok s' ∧ I (t + 1) s') :
    ∀ fuel t s, n ≤ t * B + fuel → I t s →
      ∃ T s', forIntStep B n body fuel (t * B) s = .ok s' ∧ I T s' ∧ n ≤ T * B := by
  intro fuel
  induction fuel with
  | zero =>
    intro t s h hI
    rw [forIntStep, if_neg (by omega)]
    exact ⟨t, s, rfl, hI, by omega⟩
  | succ fuel ih =>
    intro t s h hI
    rw [forIntStep]
    by_cases c : t * B < n
    · rw [if_pos c]
      obtain ⟨s1, e1, h1⟩ := hstep t s c hI
      rw [e1, bind_ok, if_pos (by omega)]
      have := ih (t + 1) s1 (by rw [Nat.succ_mul]; omega) h1
      rwa [Nat.succ_mul] at this
    · rw [if_neg c]
      exact ⟨t, s, rfl, hI, by omega⟩

/-- The convolver in state `s0`, fed with the first `T` blocks of `x`, returns those of `y`. -/
def Traces (ops : ConvOps S) (s0 : S) (B T : ℕ) (x y : ℕ → ℝ) : Prop :=
  ∃ st : ℕ → S, st 0 = s0 ∧ ∀ t < T,
    ops.call (st t) (vec B (fun i => x (t * B + i))) = .ok (st (t + 1), vec B (fun i => y (t * B + i)))

theorem runBlocks_trace {S β γ : Type} {step : S → β → Res (S × γ)} :
    ∀ (bs : List β) (s s' : S) (outs : List γ), runBlocks step s bs = .ok (s', outs) →
      ∃ st : ℕ → S, st 0 = s ∧ ∀ (t : ℕ) (b : β) (y : γ), bs[t]? = some b → outs[t]? = some y →
        step (st t) b = .ok (st (t + 1), y) := by
  intro bs
  induction bs with
  | nil => intro s s' outs _; exact ⟨fun _ => s, rfl, by simp⟩
  | cons b bs ih =>
    intro s s' outs h
    rw [runBlocks] at h
    cases h1 : step s b with
    | error e => rw [h1] at h; cases h
    | ok r =>
      obtain ⟨s1, y1⟩ := r
      rw [h1] at h
      simp only [bind_ok] at h
      cases h2 : runBlocks step s1 bs with
      | error e => rw [h2] at h; cases h
      | ok r2 =>
        obtain ⟨s2, ys⟩ := r2
        rw [h2] at h
        simp only [bind_ok, pure_eq_ok] at h
        injection h with h
        injection h with ha hb
        subst hb
        obtain ⟨st, h0, hst⟩ := ih s1 s2 ys h2
        refine ⟨fun t => if t = 0 then s else st (t - 1), rfl, ?_⟩
        intro t b' y hb' hy
        rcases t with _ | t
        · simp only [List.getElem?_cons_zero, Option.some.injEq] at hb' hy
          subst hb'; subst hy
          simpa [h0] using h1
        · simp only [List.getElem?_cons_succ] at hb' hy
          simpa using hst t b' y hb' hy

/-- Load a fresh convolver and feed it with blocks. -/
def runOps (ops : ConvOps S) (v : MatView) (data : List ℂ) (blocks : List (List ℝ)) :
    Res (List (List ℝ)) := do
  let u ← ops.make
  let u ← ops.load u v data
  let (_, outs) ← runBlocks ops.call u blocks
  pure outs

theorem traces_of_run {ops : ConvOps S} {v : MatView} {data : List ℂ} {B T : ℕ} {x h : ℕ → ℝ}
    {outs : List (List ℝ)}
    (hr : runOps ops v data (vec T (fun t => vec B (fun i => x (t * B + i)))) = .ok outs)
    (hc : IsConvOf outs (vec T (fun t => vec B (fun i => x (t * B + i)))) h) :
    ∃ u0 u, ops.make = .ok u0 ∧ ops.load u0 v data = .ok u ∧ Traces ops u B T x (Spec.conv h x) := by
  unfold runOps at hr
  cases h0 : ops.make with
  | error e => rw [h0] at hr; cases hr
  | ok u0 =>
    rw [h0, bind_ok] at hr
    cases h1 : ops.load u0 v data with
    | error e => rw [h1] at hr; cases hr
    | ok u =>
      rw [h1, bind_ok] at hr
      cases h2 : runBlocks ops.call u (vec T (fun t => vec B (fun i => x (t * B + i)))) with
      | error e => rw [h2] at hr; cases hr
      | ok r =>
        obtain ⟨s', outs'⟩ := r
        rw [h2] at hr
        simp only [bind_ok, pure_eq_ok] at hr
        obtain rfl : outs' = outs := by injection hr
        refine ⟨u0, u, rfl, h1, ?_⟩
        obtain ⟨st, hs0, hst⟩ := runBlocks_trace _ _ _ _ h2
        refine ⟨st, hs0, fun t ht => ?_⟩
        obtain ⟨hl, hv⟩ := hc
        have hlen : outs'.length = T := by
          have := congrArg List.length hl
          simpa using this
        rw [vec_const_len] at hl
        have hB : ∀ b ∈ outs', b.length = B := by
          intro b hb
          have : b.length ∈ outs'.map List.length := List.mem_map_of_mem hb
          rw [hl] at this
          exact List.eq_of_mem_replicate this
        have ho := blocks_eq_vec (0 : ℝ) outs' hB
        refine hst t _ _ (by rw [getElem?_vec, if_pos ht]) ?_
        rw [ho, getElem?_vec, if_pos (by omega)]
        congr 1
        apply vec_ext
        intro i hi
        have hlt : t * B + i < T * B := by
          calc t * B + i < t * B + B := by omega
            _ = (t + 1) * B := by ring
            _ ≤ T * B := Nat.mul_le_mul_right _ ht
        have hv' := hv (t * B + i) (by rw [flatten_vec, length_vec]; exact hlt)
        rw [List.getD_eq_getElem?_getD, hv', Option.getD_some, flatten_vec]
        unfold Spec.conv
        apply Finset.sum_congr rfl
        intro m hm
        show h m * (vec (T * B) x).getD (t * B + i - m) 0 = _
        rw [getD_vec _ _ _ _ (by omega)]

/-- Reading channel samples into a zeroed block. -/
theorem copyIn_eq {data : List ℝ} {idx : ℕ → ℕ} {B num : ℕ} (x : ℕ → ℝ) (hnum : num ≤ B)
    (hrd : ∀ k < num, rd data (idx k) = .ok (x k)) :
    forN num (fun k b => do
      let a ← rd data (idx k)
      wr b k a) (vec B (fun _ => (0 : ℝ))) = .ok (vec B (fun k => if k < num then x k else 0)) := by
  apply forN_eq' (fun t => vec B (fun k => if k < t then x k else 0))
  · simp
  · rfl
  · intro t ht
    simp only [hrd t ht, bind_ok]
    rw [wr_vec_ok (by omega)]
    congr 1
    apply vec_ext
    intro k _
    by_cases c : k = t
    · subst c; simp
    · rw [Function.update_of_ne c]
      by_cases c2 : k < t
      · rw [if_pos c2, if_pos (by omega)]
      · rw [if_neg c2, if_neg (by omega)]

/-- Writing a block through an injective index map. -/
theorem copyOut_ok {idx : ℕ → ℕ} {B num : ℕ} (y : ℕ → ℝ) (out : List ℝ) (hnum : num ≤ B)
    (hidx : ∀ k < num, idx k < out.length) (hinj : ∀ j < num, ∀ k < num, idx j = idx k → j = k) :
    ∃ out', forN num (fun k out => do
      let a ← rd (vec B y) k
      wr out (idx k) a) out = .ok out' ∧ out'.length = out.length ∧
      (∀ k < num, out'[idx k]? = some (y k)) ∧
      (∀ m, (∀ k < num, idx k ≠ m) → out'[m]? = out[m]?) := by
  have := forN_inv (n := num) (body := fun k out => do
      let a ← rd (vec B y) k
      wr out (idx k) a) (s := out)
    (fun t o => o.length = out.length ∧ (∀ k < t, o[idx k]? = some (y k)) ∧
      (∀ m, (∀ k < t, idx k ≠ m) → o[m]? = out[m]?))
    ⟨rfl, by intro k hk; omega, fun _ _ => rfl⟩ ?_
  · obtain ⟨o, e, h⟩ := this
    exact ⟨o, e, h⟩
  · intro t ht o ⟨h1, h2, h3⟩
    have hlt : idx t < o.length := by rw [h1]; exact hidx t ht
    refine ⟨o.set (idx t) (y t), ?_, by simpa using h1, ?_, ?_⟩
    · rw [rd_vec_ok (by omega), bind_ok]
      unfold wr
      rw [if_pos hlt]
    · intro k hk
      by_cases c : k = t
      · subst c
        simp [hlt]
      · rw [List.getElem?_set_ne]
        · exact h2 k (by omega)
        · intro e
          exact c (hinj t ht k (by omega) e).symm
    · intro m hm
      rw [List.getElem?_set_ne (hm t (by omega))]
      exact h3 m (fun k hk => hm k (by omega))

theorem i32_fits_nat {n : ℕ} (h : n < 2 ^ 31) : i32.Fits n := by
  unfold IntT.Fits IntT.min IntT.max i32
  simp only [if_true]
  constructor <;> omega

/-- One iteration of the command-line loop. -/
theorem cliBlock_ok {ops : ConvOps S} {v : MatView} {signal : List ℝ} {B ch t : ℕ} {y : ℕ → ℝ}
    {u u' : S} {block out : List ℝ} (hv : v.Valid signal.length) (hch : ch < v.rows)
    (hL : v.cols < 2 ^ 31) (ht : t * B < v.cols)
    (hout : v.Valid out.length) (hblock : block.length = B)
    (hcall : ops.call u (vec B (fun i => chanAt v signal ch (t * B + i)))
      = .ok (u', vec B (fun i => y (t * B + i)))) :
    ∃ s', cliBlock ops v signal B ch (t * B) { conv := u, block := block, out := out } = .ok s' ∧
      s'.conv = u' ∧ s'.block.length = B ∧ s'.out.length = out.length ∧
      (∀ n, t * B ≤ n → n < t * B + B → n < v.cols → s'.out[v.idx ch n]? = some (y n)) ∧
      (∀ m, (∀ n, t * B ≤ n → n < t * B + B → n < v.cols → v.idx ch n ≠ m) → s'.out[m]? = out[m]?) := by
  have hconv : i32.conv (v.cols : ℤ) = v.cols := i32_conv (i32_fits_nat hL)
  have hsub : i32.sub (v.cols : ℤ) ((t * B : ℕ) : ℤ) = .ok ((v.cols - t * B : ℕ) : ℤ) := by
    have e : ((v.cols : ℤ) - ((t * B : ℕ) : ℤ)) = ((v.cols - t * B : ℕ) : ℤ) := by
      rw [Nat.cast_sub ht.le]
    unfold IntT.sub
    rw [e]
    show IntT.arith i32 _ = _
    unfold IntT.arith
    rw [if_pos (by rfl), if_pos (i32_fits_nat (by omega))]
  have hmin : min (((v.cols - t * B : ℕ) : ℤ)) (B : ℤ) = ((min (v.cols - t * B) B : ℕ) : ℤ) := by
    push_cast; rfl
  set num := min (v.cols - t * B) B with hnum
  have hn1 : num ≤ B := min_le_right _ _
  have hn2 : t * B + num ≤ v.cols := by omega
  have hfill : fillVec block (0 : ℝ) = .ok (vec B (fun _ => 0)) := by
    conv_lhs => rw [list_eq_vec 0 hblock]
    exact fillVec_vec 0 _
  obtain ⟨out', e1, e2, e3, e4⟩ := copyOut_ok (idx := fun k => v.idx ch (t * B + k)) (B := B) (num := num)
    (fun i => y (t * B + i)) out hn1 (fun k hk => hout.1 ch hch _ (by omega))
    (fun j hj k hk h => by
      have := (hout.2 ch hch _ (by omega) ch hch _ (by omega) h).2
      omega)
  refine ⟨{ conv := u', block := vec B (fun i => y (t * B + i)), out := out' }, ?_, rfl, length_vec _ _,
    e2, ?_, ?_⟩
  · unfold cliBlock
    simp only [hfill, bind_ok, hconv, hsub, hmin, Int.toNat_natCast, length_vec]
    rw [if_neg (by omega),
      copyIn_eq (idx := fun k => v.idx ch (t * B + k)) (fun k => chanAt v signal ch (t * B + k)) hn1
        (fun k hk => rd_chanAt hv.1 hch (by omega)), bind_ok]
    have : vec B (fun k => if k < num then chanAt v signal ch (t * B + k) else 0)
        = vec B (fun k => chanAt v signal ch (t * B + k)) := by
      apply vec_ext
      intro k hk
      by_cases c : k < num
      · rw [if_pos c]
      · rw [if_neg c, chanAt, if_neg (by omega)]
    rw [this, hcall, bind_ok]
    simp only [e1, bind_ok, pure_eq_ok]
  · intro n h1 h2 h3
    have := e3 (n - t * B) (by omega)
    rw [show t * B + (n - t * B) = n by omega] at this
    exact this
  · intro m hm
    exact e4 m (fun k hk => hm _ (by omega) (by omega) (by omega))

/-- The command-line renderer, given what the convolvers do. -/
theorem cliConvolve_ok {ops : ConvOps S} {C L IC IS B N bins : ℕ} {signal impulse imp : List ℝ}
    {part : List ℂ} (h : ℕ → ℕ → ℝ) (hsig : signal.length = C * L) (hB : 1 ≤ B) (hLB : L + B ≤ 2 ^ 31)
    (hC : C < 2 ^ 31) (hIC : C ≤ IC)
    (hnorm : normalizeImpulseMat true (MatView.left IC IS) impulse = .ok imp)
    (hpart : uniformPartition (MatView.left IC IS) imp B = .ok (N, bins, part))
    (hrun : ∀ c < C, ∀ blocks : List (List ℝ), (∀ b ∈ blocks, b.length = B) →
      ∃ outs, runOps ops (partitionView N bins c) part blocks = .ok outs ∧ IsConvOf outs blocks (h c)) :
    ∃ out, cliConvolve ops C L signal IC IS impulse B = .ok out ∧ out.length = C * L ∧
      ∀ c < C, ∀ n < L, out[(MatView.left C L).idx c n]?
        = some (Spec.conv (h c) (chanAt (MatView.left C L) signal c) n) := by
  unfold cliConvolve
  rw [hnorm, bind_ok, hpart, bind_ok]
  dsimp only
  have hval : (MatView.left C L).Valid (C * L) := MatView.left_valid C L
  set v := MatView.left C L with hvdef
  have hrows : v.rows = C := rfl
  have hcols : v.cols = L := rfl
  have hvs : v.Valid signal.length := by rw [hsig]; exact hval
  rw [forInt_eq hC]
  have key := forN_inv (n := C) (body := fun ch (s : List ℝ × List ℝ) => do
      let conv ← ops.make
      if IC ≤ ch then .error .oob else .ok ()
      let conv ← ops.load conv (partitionView N bins ch) part
      let r ← forIntStep B L (cliBlock ops v signal B ch) L 0
        { conv := conv, block := s.1, out := s.2 }
      pure (r.block, r.out)) (s := (List.replicate B 0, List.replicate (C * L) 0))
    (fun ch s => s.1.length = B ∧ s.2.length = C * L ∧ ∀ c < ch, ∀ n < L,
      s.2[v.idx c n]? = some (Spec.conv (h c) (chanAt v signal c) n))
    ⟨by simp, by simp, by intro c hc; omega⟩ ?_
  · obtain ⟨s', e, -, h2, h3⟩ := key
    rw [e, bind_ok]
    exact ⟨s'.2, rfl, h2, h3⟩
  · intro ch hch s ⟨hb, ho, hprev⟩
    obtain ⟨outs, hr, hcv⟩ := hrun ch hch
      (vec L (fun t => vec B (fun i => chanAt v signal ch (t * B + i)))) (by
        intro b hb
        unfold vec at hb
        obtain ⟨t, -, rfl⟩ := List.mem_map.1 hb
        simp [length_vec])
    obtain ⟨u0, u, hm, hl, st, hst0, hst⟩ := traces_of_run hr hcv
    rw [hm, bind_ok, if_neg (by omega), bind_ok, hl, bind_ok]
    have hloop := forIntStep_inv (B := B) (n := L) (body := cliBlock ops v signal B ch)
      (fun t r => t ≤ L ∧ r.conv = st t ∧ r.block.length = B ∧ r.out.length = C * L ∧
        (∀ c < ch, ∀ n < L, r.out[v.idx c n]? = some (Spec.conv (h c) (chanAt v signal c) n)) ∧
        (∀ n < L, n < t * B →
          r.out[v.idx ch n]? = some (Spec.conv (h ch) (chanAt v signal ch) n))) hB hLB ?_ L 0
      { conv := u, block := s.1, out := s.2 } (by omega)
      ⟨by omega, hst0.symm, hb, ho, hprev, by intro n _ hn; omega⟩
    · obtain ⟨T, r, e, ⟨-, -, h2, h3, h4, h5⟩, hT⟩ := hloop
      rw [Nat.zero_mul] at e
      rw [e, bind_ok]
      refine ⟨_, rfl, h2, h3, ?_⟩
      intro c hc n hn
      rcases Nat.lt_succ_iff_lt_or_eq.1 hc with hc | rfl
      · exact h4 c hc n hn
      · exact h5 n hn (by omega)
    · intro t r htL ⟨h0, h1, h2, h3, h4, h5⟩
      have htle : t < L := lt_of_le_of_lt (Nat.le_mul_of_pos_right t hB) htL
      obtain ⟨rc, rb, ro⟩ := r
      simp only at h1 h2 h3 h4 h5
      subst h1
      obtain ⟨s', e, k1, k2, k3, k4, k5⟩ := cliBlock_ok (ops := ops) (v := v) (signal := signal) (B := B)
        (ch := ch) (t := t) (y := Spec.conv (h ch) (chanAt v signal ch)) hvs (by rw [hrows]; exact hch)
        (by rw [hcols]; omega) (by rw [hcols]; exact htL) (out := ro) (by rw [h3]; exact hval) h2
        (hst t htle)
      refine ⟨s', e, by omega, k1, k2, by rw [k3, h3], ?_, ?_⟩
      · intro c hc n hn
        rw [k5, h4 c hc n hn]
        intro n' _ _ hn' heq
        have := (hval.2 ch (by rw [hrows]; exact hch) n' hn' c (by rw [hrows]; omega) n hn heq).1
        omega
      · intro n hn hlt
        by_cases c : n < t * B
        · rw [k5, h5 n hn c]
          intro n' h1' _ hn' heq
          have := (hval.2 ch (by rw [hrows]; exact hch) n' hn' ch (by rw [hrows]; omega) n hn heq).2
          omega
        · exact k4 n (by omega) (by rw [Nat.succ_mul] at hlt; omega) hn

/-! ## Plugin -/

/-- `to_mdarray`: channel `c` of the matrix is channel `c` of the buffer. -/
theorem toMdarray_ok {C L : ℕ} {buffer : List (List ℝ)} (hlen : buffer.length = C)
    (hch : ∀ b ∈ buffer, b.length = L) :
    ∃ m, toMdarray C L buffer = .ok m ∧ m.length = C * L ∧
      ∀ c < C, ∀ i < L, m[(MatView.right C L).idx c i]? = some ((buffer.getD c []).getD i 0) := by
  have hval := MatView.right_valid C L
  set v := MatView.right C L with hv
  have hrow : ∀ c < C, rd buffer c = .ok (vec L (fun i => (buffer.getD c []).getD i 0)) := by
    intro c hc
    have hc' : c < buffer.length := by omega
    rw [rd_ok hc']
    congr 1
    rw [List.getD_eq_getElem?_getD, List.getElem?_eq_getElem hc', Option.getD_some]
    exact list_eq_vec 0 (hch _ (List.getElem_mem hc'))
  unfold toMdarray
  have := forN_inv (n := C) (body := fun ch out => forN L (fun i out => do
      let x ← rd buffer ch
      let x ← rd x i
      wr out (v.idx ch i) x) out) (s := List.replicate (C * L) (0 : ℝ))
    (fun ch m => m.length = C * L ∧ ∀ c < ch, ∀ i < L,
      m[v.idx c i]? = some ((buffer.getD c []).getD i 0)) ⟨by simp, by intro c hc; omega⟩ ?_
  · obtain ⟨m, e, h1, h2⟩ := this
    exact ⟨m, e, h1, h2⟩
  · intro ch hc m ⟨h1, h2⟩
    obtain ⟨m', e, k1, k2, k3⟩ := copyOut_ok (idx := fun k => v.idx ch k) (B := L) (num := L)
      (fun i => (buffer.getD ch []).getD i 0) m le_rfl
      (fun k hk => by rw [h1]; exact hval.1 ch hc k hk)
      (fun j hj k hk h => (hval.2 ch hc j hj ch hc k hk h).2)
    refine ⟨m', ?_, by rw [k1, h1], ?_⟩
    · simp only [hrow ch hc, bind_ok]
      exact e
    · intro c hc' i hi
      rcases Nat.lt_succ_iff_lt_or_eq.1 hc' with hlt | rfl
      · rw [k3, h2 c hlt i hi]
        intro k hk heq
        have := (hval.2 ch hc k hk c (by show c < C; omega) i hi heq).1
        omega
      · exact k2 i hi

/-- Samples of channel `c` of a buffer, zero after the end. -/
noncomputable def bufAt (buffer : List (List ℝ)) (L c n : ℕ) : ℝ :=
  if n < L then (buffer.getD c []).getD n 0 else 0

/-- The state between two iterations of the plugin's loops: convolver `c` is in state `st c`, and the
samples of channel `c` before `done c` have been produced. -/
def PInv (C L B : ℕ) (st : ℕ → S) (y : ℕ → ℕ → ℝ) (done : ℕ → ℕ) (s : PluginState S) : Prop :=
  s.convs.length = C ∧ (∀ c < C, s.convs[c]? = some (st c)) ∧ s.block.length = B ∧ s.out.length = C ∧
    ∀ c < C, ∃ o, s.out[c]? = some o ∧ o.length = L ∧ ∀ n < L, n < done c → o[n]? = some (y c n)

theorem PInv.congr {C L B : ℕ} {st st' : ℕ → S} {y : ℕ → ℕ → ℝ} {done done' : ℕ → ℕ}
    {s : PluginState S} (h : PInv C L B st y done s) (h1 : ∀ c < C, st c = st' c)
    (h2 : ∀ c < C, done' c ≤ done c) : PInv C L B st' y done' s := by
  obtain ⟨k1, k2, k3, k4, k5⟩ := h
  refine ⟨k1, fun c hc => by rw [k2 c hc, h1 c hc], k3, k4, fun c hc => ?_⟩
  obtain ⟨o, e, hl, ho⟩ := k5 c hc
  exact ⟨o, e, hl, fun n hn hd => ho n hn (lt_of_lt_of_le hd (h2 c hc))⟩

theorem pluginBlock_ok {ops : ConvOps S} {C L B ch t : ℕ} {signal : List (List ℝ)} {st : ℕ → S} {u' : S}
    {y : ℕ → ℕ → ℝ} {done : ℕ → ℕ} {s : PluginState S} (hsl : signal.length = C)
    (hsch : ∀ b ∈ signal, b.length = L) (hch : ch < C) (ht : t * B < L)
    (hd : done ch = t * B)
    (hcall : ops.call (st ch) (vec B (fun i => bufAt signal L ch (t * B + i)))
      = .ok (u', vec B (fun i => y ch (t * B + i)))) (hI : PInv C L B st y done s) :
    ∃ s', pluginBlock ops L signal B (t * B) ch s = .ok s' ∧
      PInv C L B (Function.update st ch u') y (Function.update done ch (t * B + B)) s' := by
  obtain ⟨k1, k2, k3, k4, k5⟩ := hI
  obtain ⟨o, ho, hol, hoy⟩ := k5 ch hch
  have hin : rd signal ch = .ok (vec L (fun i => (signal.getD ch []).getD i 0)) := by
    have hc' : ch < signal.length := by omega
    rw [rd_ok hc']
    congr 1
    rw [List.getD_eq_getElem?_getD, List.getElem?_eq_getElem hc', Option.getD_some]
    exact list_eq_vec 0 (hsch _ (List.getElem_mem hc'))
  have hout : rd s.out ch = .ok (vec L (fun i => o.getD i 0)) := by
    unfold rd
    rw [ho]
    exact congrArg _ (list_eq_vec 0 hol)
  have hcv : rd s.convs ch = .ok (st ch) := by
    unfold rd
    rw [k2 ch hch]
  set num := min (L - t * B) B with hnum
  have hn1 : num ≤ B := min_le_right _ _
  have hn2 : t * B + num ≤ L := by omega
  have hblk : s.block.map (fun _ => (0 : ℝ)) = vec B (fun _ => 0) := by
    conv_lhs => rw [list_eq_vec 0 k3]
    rw [map_vec]
  have hblock : vec B (fun i => if 0 ≤ i ∧ i < 0 + num then
      (signal.getD ch []).getD (t * B + (i - 0)) 0 else 0)
      = vec B (fun i => bufAt signal L ch (t * B + i)) := by
    apply vec_ext
    intro i hi
    unfold bufAt
    by_cases c : i < num
    · rw [if_pos ⟨Nat.zero_le _, by omega⟩, if_pos (by omega), Nat.sub_zero]
    · rw [if_neg (by omega), if_neg (by omega)]
  refine ⟨_, by
    unfold pluginBlock
    rw [hin, bind_ok, hout, bind_ok]
    dsimp only
    rw [hblk, ← hnum, rdSpan_vec (by omega) hn2, bind_ok, Nat.add_sub_cancel_left,
      wrSpan_vec (by omega), bind_ok, hcv, bind_ok, hblock, hcall, bind_ok]
    dsimp only
    unfold wr
    rw [if_pos (by omega), bind_ok, rdSpan_vec (by omega) hn1, bind_ok, Nat.sub_zero,
      wrSpan_vec hn2, bind_ok, if_pos (by omega), bind_ok]
    rfl, ?_⟩
  refine ⟨by simpa using k1, ?_, length_vec _ _, by simpa using k4, ?_⟩
  · intro c hc
    by_cases e : c = ch
    · subst e
      simp [Function.update_self, k1, hc]
    · rw [Function.update_of_ne e, ← k2 c hc]
      exact List.getElem?_set_ne (Ne.symm e)
  · intro c hc
    by_cases e : c = ch
    · subst e
      refine ⟨_, List.getElem?_set_self (show c < s.out.length by omega), length_vec _ _, ?_⟩
      intro n hn hlt
      rw [Function.update_self] at hlt
      rw [getElem?_vec, if_pos hn]
      by_cases cc : t * B ≤ n
      · rw [if_pos ⟨cc, by omega⟩]
        simp only [Nat.zero_add]
        rw [show t * B + (n - t * B) = n by omega]
      · rw [if_neg (by omega)]
        have := hoy n hn (by omega)
        rw [List.getD_eq_getElem?_getD, this, Option.getD_some]
    · obtain ⟨o', h1, h2, h3⟩ := k5 c hc
      refine ⟨o', ?_, h2, ?_⟩
      · rw [← h1]
        exact List.getElem?_set_ne (Ne.symm e)
      · rw [Function.update_of_ne e]
        exact h3

/-- The plugin's renderer, given what the convolvers do. -/
theorem denseConvolve_ok {ops : ConvOps S} {C L IC IS B N bins : ℕ} {signal filter : List (List ℝ)}
    {mat imp : List ℝ} {part : List ℂ} {u0 : S} (h : ℕ → ℕ → ℝ) (hsl : signal.length = C)
    (hsch : ∀ b ∈ signal, b.length = L) (hB : 1 ≤ B)
    (hLB : L + B ≤ 2 ^ 31) (hC : C < 2 ^ 31) (hIC : C ≤ IC) (hmake : ops.make = .ok u0)
    (hmat : toMdarray IC IS filter = .ok mat)
    (hnorm : normalizeImpulseMat false (MatView.right IC IS) mat = .ok imp)
    (hpart : uniformPartition (MatView.right IC IS) imp B = .ok (N, bins, part))
    (hrun : ∀ c < C, ∀ blocks : List (List ℝ), (∀ b ∈ blocks, b.length = B) →
      ∃ outs, runOps ops (partitionView N bins c) part blocks = .ok outs ∧ IsConvOf outs blocks (h c)) :
    ∃ out, denseConvolve ops C L signal IC IS filter B = .ok out ∧ out.length = C ∧
      ∀ c < C, ∃ o, out[c]? = some o ∧ o.length = L ∧
        ∀ n < L, o[n]? = some (Spec.conv (h c) (bufAt signal L c) n) := by
  have htr : ∀ c, ∃ u, ∃ st : ℕ → S, c < C → ops.load u0 (partitionView N bins c) part = .ok u ∧
      st 0 = u ∧ ∀ t < L, ops.call (st t) (vec B (fun i => bufAt signal L c (t * B + i)))
        = .ok (st (t + 1), vec B (fun i => Spec.conv (h c) (bufAt signal L c) (t * B + i))) := by
    intro c
    by_cases hc : c < C
    · obtain ⟨outs, hr, hcv⟩ := hrun c hc
        (vec L (fun t => vec B (fun i => bufAt signal L c (t * B + i)))) (by
          intro b hb
          unfold vec at hb
          obtain ⟨t, -, rfl⟩ := List.mem_map.1 hb
          simp [length_vec])
      obtain ⟨u0', u, hm, hl, st, hst0, hst⟩ := traces_of_run hr hcv
      rw [hmake] at hm
      obtain rfl : u0 = u0' := by injection hm
      exact ⟨u, st, fun _ => ⟨hl, hst0, hst⟩⟩
    · exact ⟨u0, fun _ => u0, fun h => absurd h hc⟩
  choose u st htr using htr
  unfold denseConvolve
  rw [hmat, bind_ok, hnorm, bind_ok, hpart, bind_ok, hmake]
  dsimp only
  rw [bind_ok]
  have hload := forN_eq' (n := C) (body := fun ch convs => do
      if IC ≤ ch then .error .oob else .ok ()
      let conv ← rd convs ch
      let conv ← ops.load conv (partitionView N bins ch) part
      wr convs ch conv) (s := List.replicate C u0) (s' := vec C u)
    (fun t => vec C (fun c => if c < t then u c else u0)) (by
      symm
      rw [eq_vec_iff]
      refine ⟨by simp, fun i hi => by simp [hi]⟩) (by
      apply vec_ext
      intro i hi
      rw [if_pos hi]) (by
      intro t ht
      rw [if_neg (by omega)]
      simp only [rd_vec_ok ht, bind_ok, lt_irrefl, if_false, (htr t ht).1, wr_vec_ok ht]
      congr 1
      apply vec_ext
      intro i hi
      by_cases e : i = t
      · subst e; simp
      · rw [Function.update_of_ne e]
        by_cases c2 : i < t
        · rw [if_pos c2, if_pos (by omega)]
        · rw [if_neg c2, if_neg (by omega)])
  rw [hload, bind_ok]
  have hloop := forIntStep_inv (B := B) (n := L) (body := fun i s =>
      forInt C (fun ch s => pluginBlock ops L signal B i ch s) s)
    (fun t s => t ≤ L ∧ PInv C L B (fun c => st c t)
      (fun c => Spec.conv (h c) (bufAt signal L c)) (fun _ => t * B) s) hB hLB ?_ L 0
    { convs := vec C u, block := List.replicate B 0, out := List.replicate C (List.replicate L 0) }
    (by omega) ?_
  · obtain ⟨T, r, e, ⟨-, -, -, -, h4, h5⟩, hT⟩ := hloop
    rw [Nat.zero_mul] at e
    rw [e, bind_ok]
    refine ⟨_, rfl, h4, fun c hc => ?_⟩
    obtain ⟨o, h1, h2, h3⟩ := h5 c hc
    exact ⟨o, h1, h2, fun n hn => h3 n hn (lt_of_lt_of_le hn hT)⟩
  · intro t s htL ⟨h0, hI⟩
    have htle : t < L := lt_of_le_of_lt (Nat.le_mul_of_pos_right t hB) htL
    rw [forInt_eq hC]
    have := forN_inv (n := C) (body := fun ch s => pluginBlock ops L signal B (t * B) ch s) (s := s)
      (fun ch s => PInv C L B (fun c => if c < ch then st c (t + 1) else st c t)
        (fun c => Spec.conv (h c) (bufAt signal L c))
        (fun c => if c < ch then t * B + B else t * B) s) (by simpa using hI) ?_
    · obtain ⟨s', e, hs'⟩ := this
      refine ⟨s', e, by omega, hs'.congr (fun c hc => by rw [if_pos hc]) (fun c hc => ?_)⟩
      rw [if_pos hc, Nat.succ_mul]
    · intro ch hch s hs
      obtain ⟨s', e, hs'⟩ := pluginBlock_ok (ops := ops) (t := t) (B := B) (u' := st ch (t + 1)) hsl hsch hch htL
        (by rw [if_neg (lt_irrefl ch)]) (by rw [if_neg (lt_irrefl ch)]; exact (htr ch hch).2.2 t htle) hs
      refine ⟨s', e, hs'.congr (fun c hc => ?_) (fun c hc => ?_)⟩
      · by_cases e : c = ch
        · subst e; simp
        · rw [Function.update_of_ne e]
          by_cases c2 : c < ch
          · rw [if_pos c2, if_pos (by omega)]
          · rw [if_neg c2, if_neg (by omega)]
      · by_cases e : c = ch
        · subst e; simp
        · rw [Function.update_of_ne e]
          by_cases c2 : c < ch
          · rw [if_pos c2, if_pos (by omega)]
          · rw [if_neg c2, if_neg (by omega)]
  · refine ⟨by omega, by simp, fun c hc => ?_, by simp, by simp, fun c hc => ?_⟩
    · rw [getElem?_vec, if_pos hc]
      exact congrArg some (htr c hc).2.1.symm
    · refine ⟨List.replicate L 0, by simp [hc], by simp, by intro n _ hn; simp at hn⟩

end Neo
