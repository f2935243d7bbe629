import Verif.Model.PluginConv
import Verif.Props.Render

/-! # C69: block-wise rendering through the plugin's `neo::Convolution` -/

namespace Neo.Props
open Neo

/-- The impulse response, brought to the rate of `spec`, has at least as many channels as `spec` asks for, all of the
same positive length, and the block size is a power of two. -/
def Usable (rs : RateBuffer → ℝ → RateBuffer) (file : RateBuffer) (spec : ProcSpec) : Prop :=
  let r := resampleTo rs file spec.sampleRate
  ∃ a, 1 ≤ a ∧ a ≤ 26 ∧ spec.maximumBlockSize = 2 ^ a ∧ r.buffer.length = r.channels ∧
    (∀ b ∈ r.buffer, b.length = r.size) ∧ spec.numChannels ≤ r.channels ∧ 1 ≤ r.size ∧ r.size < 2 ^ 64 ∧
    r.channels * ((r.size - 1) / 2 ^ a + 1) * (2 ^ a + 1) < 2 ^ 59

/-- Channel `c` of the impulse response at the given rate. -/
noncomputable def impulseAt (rs : RateBuffer → ℝ → RateBuffer) (file : RateBuffer) (rate : ℝ) (c i : ℕ) : ℝ :=
  ((resampleTo rs file rate).buffer.getD c []).getD i 0

private theorem upc_load_any {Ov Fdl Row Filt Acc : Type} (oo : OverlapOps Ov) (fo : FdlOps Fdl Row)
    (po : FilterOps Filt Row Acc Unit) (f0 : Filt)
    (hpo : ∀ f f' v data arg, po.load f v data arg = po.load f' v data arg) (u u' : Upc Ov Fdl Filt Acc) (v : MatView)
    (data : List ℂ) : (upcConvOps oo fo po f0).load u v data = (upcConvOps oo fo po f0).load u' v data := by
  show Upc.load oo fo po u v data () = Upc.load oo fo po u' v data ()
  unfold Upc.load
  simp only []
  by_cases hc : v.cols = 0
  · rw [if_pos hc, if_pos hc]; rfl
  · rw [if_neg hc, if_neg hc, bind_ok, bind_ok]
    cases oo.make (v.cols - 1) (v.cols - 1) with
    | error e => rfl
    | ok o' => simp only [bind_ok]; rw [hpo u.filter u'.filter]

/-- Loading a filter leaves nothing of the previous state. -/
private theorem load_any (k : RenderConv) (u u' : k.State) (v : MatView) (data : List ℂ) :
    k.ops.load u v data = k.ops.load u' v data := by
  cases k <;> exact upc_load_any _ _ _ _ (fun _ _ _ _ _ => rfl) _ _ _ _

private theorem resizeConvs_length {S : Type} (fresh : S) (n : ℕ) (convs : List S) :
    (resizeConvs fresh n convs).length = n := by
  unfold resizeConvs
  simp
  omega

/-- What `update` does when there is a usable impulse response. -/
private theorem update_ok (k : RenderConv) (rs : RateBuffer → ℝ → RateBuffer) (s : PConv k.State) (spec : ProcSpec)
    (file : RateBuffer) (hs : s.spec = some spec) (hi : s.impulse = some file) (hu : Usable rs file spec)
    (x : ℕ → ℕ → ℝ) (T : ℕ) :
    ∃ st : ℕ → ℕ → k.State,
      s.update k.ops rs = .ok { s with convs := vec spec.numChannels (fun c => st c 0) } ∧
      ∀ c < spec.numChannels, ∀ t < T,
        k.ops.call (st c t) (vec spec.maximumBlockSize (fun i => x c (t * spec.maximumBlockSize + i)))
          = .ok (st c (t + 1), vec spec.maximumBlockSize (fun i =>
              Spec.conv (impulseAt rs file spec.sampleRate c) (x c) (t * spec.maximumBlockSize + i))) := by
  obtain ⟨a, ha, ha2, hB, hfl, hfilt, hch, hS, hS2, hsz⟩ := hu
  set r := resampleTo rs file spec.sampleRate with hr
  obtain ⟨mat, hm, hml, hmv⟩ := toMdarray_ok (C := r.channels) (L := r.size) hfl hfilt
  have hvi : (MatView.right r.channels r.size).InRange mat.length := by
    rw [hml]; exact (MatView.right_valid r.channels r.size).1
  obtain ⟨N, bins, part, hp, hrun⟩ := renderConv_run k (MatView.right r.channels r.size) mat hvi a ha ha2 hS hS2 hsz
  obtain ⟨u0, hu0⟩ := renderConv_make k
  have hchan : ∀ c < r.channels, chanAt (MatView.right r.channels r.size) mat c
      = impulseAt rs file spec.sampleRate c := by
    intro c hc
    funext i
    unfold chanAt impulseAt
    by_cases q : i < r.size
    · rw [if_pos (show i < (MatView.right r.channels r.size).cols from q), List.getD_eq_getElem?_getD, hmv c hc i q]
      rfl
    · rw [if_neg (show ¬ i < (MatView.right r.channels r.size).cols from q), ← hr]
      have hlc : c < r.buffer.length := by rw [hfl]; exact hc
      have : (r.buffer.getD c []).length = r.size := by
        rw [List.getD_eq_getElem?_getD, List.getElem?_eq_getElem hlc]
        exact hfilt _ (List.getElem_mem hlc)
      rw [List.getD_eq_getElem?_getD, List.getElem?_eq_none (by omega)]
      rfl
  have htr : ∀ c, ∃ u, ∃ st : ℕ → k.State, c < spec.numChannels →
      k.ops.load u0 (partitionView N bins c) part = .ok u ∧ st 0 = u ∧ ∀ t < T,
        k.ops.call (st t) (vec (2 ^ a) (fun i => x c (t * 2 ^ a + i)))
        = .ok (st (t + 1), vec (2 ^ a) (fun i =>
          Spec.conv (impulseAt rs file spec.sampleRate c) (x c) (t * 2 ^ a + i))) := by
    intro c
    by_cases hc : c < spec.numChannels
    · obtain ⟨outs, hr', hcv⟩ := hrun c (lt_of_lt_of_le hc hch)
        (vec T (fun t => vec (2 ^ a) (fun i => x c (t * 2 ^ a + i)))) (by
          intro b hb
          unfold vec at hb
          obtain ⟨t, -, rfl⟩ := List.mem_map.1 hb
          simp [length_vec])
      obtain ⟨u0', u, hm', hl, st, hst0, hst⟩ := traces_of_run (x := x c) hr' hcv
      rw [hu0] at hm'
      obtain rfl : u0 = u0' := by injection hm'
      rw [hchan c (lt_of_lt_of_le hc hch)] at hst
      exact ⟨u, st, fun _ => ⟨hl, hst0, hst⟩⟩
    · exact ⟨u0, fun _ => u0, fun h => absurd h hc⟩
  choose u st htr using htr
  refine ⟨st, ?_, fun c hc t ht => by rw [hB]; exact (htr c hc).2.2 t ht⟩
  have hload := forN_eq' (n := spec.numChannels) (body := fun ch convs => do
      if r.channels ≤ ch then .error .oob else .ok ()
      let conv ← rd convs ch
      let conv ← k.ops.load conv (partitionView N bins ch) part
      wr convs ch conv) (s := resizeConvs u0 spec.numChannels s.convs)
      (s' := vec spec.numChannels (fun c => st c 0))
    (fun t => vec spec.numChannels (fun c => if c < t then st c 0
      else (resizeConvs u0 spec.numChannels s.convs).getD c u0)) (by
      symm
      rw [eq_vec_iff]
      refine ⟨resizeConvs_length _ _ _, fun i hi => ?_⟩
      rw [if_neg (by omega), List.getD_eq_getElem?_getD, List.getElem?_eq_getElem (by rw [resizeConvs_length]; exact hi)]
      rfl) (by
      apply vec_ext
      intro i hi
      rw [if_pos hi]) (by
      intro t ht
      have hl := (htr t ht).1
      rw [if_neg (by omega)]
      simp only [rd_vec_ok ht, bind_ok, lt_irrefl, if_false]
      rw [load_any k _ u0, hl, bind_ok, wr_vec_ok ht]
      congr 1
      apply vec_ext
      intro i hi
      by_cases e : i = t
      · subst e; simp [(htr i ht).2.1]
      · rw [Function.update_of_ne e]
        by_cases c2 : i < t
        · rw [if_pos c2, if_pos (by omega)]
        · rw [if_neg c2, if_neg (by omega)])
  unfold PConv.update
  rw [hs, hi]
  dsimp only
  rw [← hr, hm, bind_ok, hB, hp, bind_ok]
  dsimp only
  rw [hu0, bind_ok, hload, bind_ok, pure_eq_ok]

private theorem update_ok' (k : RenderConv) (rs : RateBuffer → ℝ → RateBuffer) (s : PConv k.State) (file : RateBuffer)
    (hi : s.impulse = some file) (hu : ∀ spec, s.spec = some spec → Usable rs file spec) :
    ∃ convs, s.update k.ops rs = .ok { s with convs := convs } := by
  obtain ⟨spec, imp, convs⟩ := s
  cases spec with
  | none => exact ⟨convs, rfl⟩
  | some spec =>
    obtain ⟨st, e, -⟩ := update_ok k rs _ spec file rfl hi (hu spec rfl) (fun _ _ => 0) 0
    exact ⟨_, e⟩

/-- One full block. -/
private theorem process_full {S : Type} {ops : ConvOps S} {s : PConv S} {spec : ProcSpec} (hs : s.spec = some spec)
    {C : ℕ} (hC : 1 ≤ C) (u u' : ℕ → S) (hconv : s.convs = vec C u) (f y : ℕ → ℕ → ℝ)
    (h : ∀ c < C, ops.call (u c) (vec spec.maximumBlockSize (f c)) = .ok (u' c, vec spec.maximumBlockSize (y c))) :
    s.process ops C spec.maximumBlockSize (vec C (fun c => vec spec.maximumBlockSize (f c)))
      = .ok ({ s with convs := vec C u' }, vec C (fun c => vec spec.maximumBlockSize (y c))) := by
  unfold PConv.process
  rw [hs, hconv]
  dsimp only
  rw [if_neg (by
    rw [List.isEmpty_iff]
    intro e
    have := congrArg List.length e
    rw [length_vec] at this
    simp at this
    omega), if_neg (by simp)]
  rw [forN_eq' (n := C) (s' := (vec C u', vec C (fun c => vec spec.maximumBlockSize (y c))))
    (fun k => (vec C (fun c => if c < k then u' c else u c),
      vec C (fun c => if c < k then vec spec.maximumBlockSize (y c) else vec spec.maximumBlockSize (f c)))) (by simp)
      (by
        congr 1
        · exact vec_ext (fun c hc => by rw [if_pos hc])
        · exact vec_ext (fun c hc => by rw [if_pos hc])) (by
        intro k hk
        dsimp only
        rw [rd_vec_ok hk, bind_ok, rd_vec_ok hk, bind_ok]
        simp only [lt_irrefl, if_false]
        rw [h k hk, bind_ok]
        dsimp only
        rw [wr_vec_ok hk, bind_ok, wr_vec_ok hk, bind_ok, pure_eq_ok]
        congr 2
        · apply vec_ext
          intro c hc
          by_cases e : c = k
          · subst e; simp
          · rw [Function.update_of_ne e]
            have : c < k + 1 ↔ c < k := by omega
            simp only [this]
        · apply vec_ext
          intro c hc
          by_cases e : c = k
          · subst e; simp
          · rw [Function.update_of_ne e]
            have : c < k + 1 ↔ c < k := by omega
            simp only [this]), bind_ok]
  rfl

private theorem process_dry {S : Type} {ops : ConvOps S} {s : PConv S}
    (h : s.convs = [] ∨ s.spec = none ∨ ∃ spec, s.spec = some spec ∧ num ≠ spec.maximumBlockSize) (C : ℕ)
    (input : List (List ℝ)) : s.process ops C num input = .ok (s, input) := by
  unfold PConv.process
  cases hs : s.spec with
  | none => rfl
  | some spec =>
    dsimp only
    rcases h with h | h | ⟨spec', h, h'⟩
    · rw [if_pos (by rw [h]; rfl)]
    · rw [hs] at h; cases h
    · rw [hs] at h
      cases h
      split_ifs <;> rfl

/-- One iteration of `processBlocks`. -/
private theorem processBlock_ok {S : Type} {ops : ConvOps S} {s s' : PConv S} {C L B i : ℕ} {x o y : ℕ → ℕ → ℝ}
    (hi : i < L) (hp : s.process ops C (min (L - i) B) (vec C (fun c => vec (min (L - i) B) (fun n => x c (i + n))))
      = .ok (s', vec C (fun c => vec (min (L - i) B) (fun n => y c (i + n))))) :
    processBlock ops C L (vec C (fun c => vec L (x c))) B i (s, vec C (fun c => vec L (o c)))
      = .ok (s', vec C (fun c => vec L (fun n => if i ≤ n ∧ n < i + min (L - i) B then y c n else o c n))) := by
  unfold processBlock
  dsimp only
  rw [forN_eq' (n := C) (s := []) (s' := vec C (fun c => vec (min (L - i) B) (fun n => x c (i + n))))
    (fun k => vec k (fun c => vec (min (L - i) B) (fun n => x c (i + n)))) rfl rfl (by
      intro k hk
      rw [rd_vec_ok hk, bind_ok, rdSpan_vec (by omega) (by omega), bind_ok, pure_eq_ok, Nat.add_sub_cancel_left]
      unfold vec
      rw [List.range_succ (n := k), List.map_append]
      rfl), bind_ok, hp, bind_ok]
  dsimp only
  rw [forN_eq' (n := C)
    (s' := vec C (fun c => vec L (fun n => if i ≤ n ∧ n < i + min (L - i) B then y c n else o c n)))
    (fun k => vec C (fun c => vec L (fun n => if c < k ∧ i ≤ n ∧ n < i + min (L - i) B then y c n else o c n))) (by simp)
    (by
      apply vec_ext
      intro c hc
      apply vec_ext
      intro n hn
      simp [hc]) (by
      intro k hk
      rw [rd_vec_ok hk, bind_ok, rd_vec_ok hk, bind_ok, wrSpan_vec (by omega), bind_ok, wr_vec_ok hk]
      congr 1
      apply vec_ext
      intro c hc
      by_cases e : c = k
      · subst e
        rw [Function.update_self]
        apply vec_ext
        intro n hn
        by_cases q : i ≤ n ∧ n < i + min (L - i) B
        · rw [if_pos q, if_pos ⟨by omega, q⟩, show i + (n - i) = n by omega]
        · rw [if_neg q, if_neg (by tauto), if_neg (by tauto)]
      · rw [Function.update_of_ne e]
        apply vec_ext
        intro n hn
        have : c < k + 1 ↔ c < k := by omega
        simp only [this]), bind_ok, pure_eq_ok]

private theorem forSizeStep_inv {σ : Type} {B n : ℕ} {body : ℕ → σ → Res σ} (I : ℕ → σ → Prop) (hB : 1 ≤ B)
    (hn : n + B ≤ 2 ^ 64) (hstep : ∀ t s, t * B < n → I t s → ∃ s', body (t * B) s = .ok s' ∧ I (t + 1) s') :
    ∀ (fuel t : ℕ) (s : σ), n ≤ t * B + fuel → I t s →
      ∃ T s', forSizeStep B n body fuel (t * B) s = .ok s' ∧ I T s' ∧ n ≤ T * B := by
  intro fuel
  induction fuel with
  | zero =>
    intro t s hf hI
    rw [forSizeStep, if_neg (by omega)]
    exact ⟨t, s, rfl, hI, by omega⟩
  | succ fuel ih =>
    intro t s hf hI
    rw [forSizeStep]
    by_cases h : t * B < n
    · rw [if_pos h]
      obtain ⟨s', e, hI'⟩ := hstep t s h hI
      rw [e, bind_ok]
      have e2 : (t * B + B) % 2 ^ 64 = (t + 1) * B := by
        rw [Nat.mod_eq_of_lt (by omega)]; ring
      rw [e2]
      exact ih (t + 1) s' (by rw [Nat.add_mul]; omega) hI'
    · rw [if_neg h]
      exact ⟨t, s, rfl, hI, by omega⟩

private theorem buffer_eq_vec {C L : ℕ} {signal : List (List ℝ)} (hsl : signal.length = C)
    (hsig : ∀ s ∈ signal, s.length = L) :
    signal = vec C (fun c => vec L (fun n => (signal.getD c []).getD n 0)) := by
  rw [eq_vec_iff]
  refine ⟨hsl, fun c hc => ?_⟩
  have hlc : c < signal.length := by omega
  rw [List.getElem?_eq_getElem hlc]
  congr 1
  have e : signal.getD c [] = signal[c] := by
    rw [List.getD_eq_getElem?_getD, List.getElem?_eq_getElem hlc]; rfl
  rw [e]
  exact list_eq_vec 0 (hsig _ (List.getElem_mem hlc))

/-- **C69** for the complete blocks.  `processBlocks` on any `neo::Convolution` — new, or used before with any impulse,
any settings and any input — loads the impulse response, and then: every sample in a complete block is the linear
convolution of its channel with that channel of the (resampled, not normalised) impulse response; every sample of a
final incomplete block is the input sample.  The object can be used again afterwards.

Missing from the full statement (all `size` samples are convolution samples): the final incomplete block, where it is
false, see `C69_short_block_dry`. -/
theorem C69_process_blocks_partial (k : RenderConv) (rs : RateBuffer → ℝ → RateBuffer) (s : PConv k.State)
    (file : RateBuffer) (channels size a : ℕ) (signal : List (List ℝ)) (rate : ℝ)
    (hrate : 0 < file.sampleRate) (hold : ∀ spec, s.spec = some spec → Usable rs file spec)
    (hnew : Usable rs file { sampleRate := rate, maximumBlockSize := 2 ^ a, numChannels := channels })
    (hC : 1 ≤ channels) (hC2 : channels < 2 ^ 32) (hsize : size + 2 ^ a ≤ 2 ^ 64)
    (hsl : signal.length = channels) (hsig : ∀ x ∈ signal, x.length = size) :
    ∃ s' out, processBlocks k.ops rs s file channels size signal (2 ^ a) rate = .ok (s', out) ∧
      s'.spec = some { sampleRate := rate, maximumBlockSize := 2 ^ a, numChannels := channels } ∧
      s'.impulse = some file ∧ s'.convs = [] ∧
      out = vec channels (fun c => vec size (fun n =>
        if n < size / 2 ^ a * 2 ^ a then
          Spec.conv (impulseAt rs file rate c) (fun i => (signal.getD c []).getD i 0) n
        else (signal.getD c []).getD n 0)) := by
  have ha26 : a ≤ 26 := by
    obtain ⟨a', -, h, e, -⟩ := hnew
    exact (Nat.pow_right_injective (le_refl 2) e) ▸ h
  have hB1 : 1 ≤ 2 ^ a := Nat.one_le_two_pow
  have hB32 : 2 ^ a % 2 ^ 32 = 2 ^ a := Nat.mod_eq_of_lt (Nat.pow_lt_pow_right (by norm_num) (by omega))
  have hC32 : channels % 2 ^ 32 = channels := Nat.mod_eq_of_lt hC2
  set x : ℕ → ℕ → ℝ := fun c n => (signal.getD c []).getD n 0 with hx
  have hsv : signal = vec channels (fun c => vec size (x c)) := buffer_eq_vec hsl hsig
  set spec : ProcSpec := { sampleRate := rate, maximumBlockSize := 2 ^ a, numChannels := channels } with hspec
  obtain ⟨convs1, e1⟩ := update_ok' k rs { s with impulse := some file } file rfl hold
  obtain ⟨st, e2, hst⟩ := update_ok k rs { spec := some spec, impulse := some file, convs := convs1 } spec file rfl rfl
    hnew x (size / 2 ^ a)
  set h : ℕ → ℕ → ℝ := impulseAt rs file rate with hh
  set y : ℕ → ℕ → ℝ := fun c n => if n < size / 2 ^ a * 2 ^ a then Spec.conv (h c) (x c) n else x c n with hy
  set stt : ℕ → PConv k.State := fun t =>
    { spec := some spec, impulse := some file, convs := vec channels (fun c => st c (min t (size / 2 ^ a))) } with hstt
  have hloop := forSizeStep_inv (B := 2 ^ a) (n := size) (body := processBlock k.ops channels size signal (2 ^ a))
    (fun t p => p = (stt t, vec channels (fun c => vec size (fun n => if n < t * 2 ^ a then y c n else 0)))) hB1 hsize
    (by
      intro t p ht hp
      subst hp
      rw [hsv]
      refine ⟨(stt (t + 1), _), processBlock_ok (s' := stt (t + 1)) (y := y) ht ?_, ?_⟩
      · by_cases hfull : (t + 1) * 2 ^ a ≤ size
        · have htT : t + 1 ≤ size / 2 ^ a := (Nat.le_div_iff_mul_le hB1).2 hfull
          have hmin : min (size - t * 2 ^ a) (2 ^ a) = 2 ^ a := by
            rw [Nat.add_mul] at hfull; omega
          rw [hmin]
          have hm1 : min t (size / 2 ^ a) = t := by omega
          have hm2 : min (t + 1) (size / 2 ^ a) = t + 1 := by omega
          have key := process_full (ops := k.ops) (s := stt t) (spec := spec) rfl hC (fun c => st c t)
            (fun c => st c (t + 1)) (by rw [hstt]; dsimp only; rw [hm1]) (fun c n => x c (t * 2 ^ a + n))
            (fun c n => Spec.conv (h c) (x c) (t * 2 ^ a + n)) (fun c hc => hst c hc t (by omega))
          refine key.trans ?_
          refine congrArg Except.ok (Prod.ext ?_ ?_)
          · rw [hstt]
            dsimp only
            rw [hm2]
          · apply vec_ext
            intro c hc
            apply vec_ext
            intro n hn
            have h3 : (t + 1) * 2 ^ a ≤ size / 2 ^ a * 2 ^ a := Nat.mul_le_mul_right _ htT
            rw [hy]
            dsimp only
            rw [if_pos (by rw [Nat.add_mul] at h3; change n < 2 ^ a at hn; omega)]
        · have htT : size / 2 ^ a ≤ t := by
            by_contra q
            exact hfull ((Nat.le_div_iff_mul_le hB1).1 (by omega))
          have hge : size / 2 ^ a * 2 ^ a ≤ t * 2 ^ a := Nat.mul_le_mul_right _ htT
          have hlt : min (size - t * 2 ^ a) (2 ^ a) ≠ 2 ^ a := by
            rw [Nat.add_mul] at hfull; omega
          rw [process_dry (Or.inr (Or.inr ⟨spec, rfl, hlt⟩))]
          refine congrArg Except.ok (Prod.ext ?_ ?_)
          · rw [hstt]
            dsimp only
            rw [show min (t + 1) (size / 2 ^ a) = min t (size / 2 ^ a) by omega]
          · apply vec_ext
            intro c hc
            apply vec_ext
            intro n hn
            rw [hy]
            dsimp only
            rw [if_neg (by omega)]
      · refine Prod.ext rfl ?_
        apply vec_ext
        intro c hc
        apply vec_ext
        intro n hn
        have e3 : (t + 1) * 2 ^ a = t * 2 ^ a + 2 ^ a := by ring
        by_cases q : n < t * 2 ^ a
        · rw [if_neg (by omega), if_pos q, if_pos (by omega)]
        · by_cases q2 : n < t * 2 ^ a + 2 ^ a
          · rw [if_pos (by omega), if_pos (by omega)]
          · rw [if_neg (by omega), if_neg q, if_neg (by omega)])
    size 0 (stt 0, vec channels (fun c => vec size (fun n => if n < 0 * 2 ^ a then y c n else 0))) (by omega) rfl
  obtain ⟨T, p, e3, hp, hT⟩ := hloop
  subst hp
  refine ⟨(stt T).reset, _, ?_, rfl, rfl, rfl, rfl⟩
  unfold processBlocks PConv.load
  rw [if_pos hrate]
  dsimp only
  rw [e1, bind_ok, hB32, hC32]
  unfold PConv.prepare
  dsimp only
  rw [if_pos (show (some file).isSome = true from rfl), ← hspec, e2, bind_ok]
  rw [Nat.zero_mul] at e3
  have hz : (List.replicate channels (List.replicate size (0 : ℝ)))
      = vec channels (fun c => vec size (fun n => if n < 0 then y c n else 0)) := by
    rw [eq_vec_iff]
    refine ⟨by simp, fun c hc => ?_⟩
    rw [List.getElem?_replicate, if_pos hc]
    refine congrArg some ?_
    rw [eq_vec_iff]
    refine ⟨by simp, fun n hn => ?_⟩
    rw [List.getElem?_replicate, if_pos hn, if_neg (by omega)]
  rw [hz]
  have hs0 : ({ spec := some spec, impulse := some file, convs := vec channels (fun c => st c 0) } : PConv k.State)
      = stt 0 := by
    rw [hstt]
    dsimp only
    rw [Nat.zero_min]
  change (forSizeStep _ _ _ _ _
    ((PConv.mk (some spec) (some file) (vec channels (fun c => st c 0)) : PConv k.State), _) >>= _) = _
  rw [hs0, e3, bind_ok]
  refine congrArg Except.ok (Prod.ext rfl ?_)
  apply vec_ext
  intro c hc
  apply vec_ext
  intro n hn
  rw [if_pos (by omega)]

/-- Corollary of **C69**: when the length is a multiple of the block size, every sample is a convolution sample. -/
theorem C69_whole_blocks (k : RenderConv) (rs : RateBuffer → ℝ → RateBuffer) (s : PConv k.State)
    (file : RateBuffer) (channels size a : ℕ) (signal : List (List ℝ)) (rate : ℝ)
    (hrate : 0 < file.sampleRate) (hold : ∀ spec, s.spec = some spec → Usable rs file spec)
    (hnew : Usable rs file { sampleRate := rate, maximumBlockSize := 2 ^ a, numChannels := channels })
    (hC : 1 ≤ channels) (hC2 : channels < 2 ^ 32) (hsize : size + 2 ^ a ≤ 2 ^ 64) (hdvd : 2 ^ a ∣ size)
    (hsl : signal.length = channels) (hsig : ∀ x ∈ signal, x.length = size) :
    ∃ s' out, processBlocks k.ops rs s file channels size signal (2 ^ a) rate = .ok (s', out) ∧
      out.length = channels ∧ ∀ c < channels, ∃ o, out[c]? = some o ∧ o.length = size ∧ ∀ n < size,
        o[n]? = some (Spec.conv (impulseAt rs file rate c) (fun i => (signal.getD c []).getD i 0) n) := by
  obtain ⟨s', out, e, -, -, -, ho⟩ := C69_process_blocks_partial k rs s file channels size a signal rate hrate hold hnew
    hC hC2 hsize hsl hsig
  refine ⟨s', out, e, by rw [ho, length_vec], fun c hc => ⟨_, by rw [ho, getElem?_vec, if_pos hc], length_vec _ _,
    fun n hn => ?_⟩⟩
  rw [getElem?_vec, if_pos hn, Nat.div_mul_cancel hdvd, if_pos hn]

/-- **C69** is false for a final incomplete block: one sample `1`, blocks of two, the one-tap impulse `2`.  The
convolution is `2`, the output is `1`. -/
theorem C69_short_block_dry (rs : RateBuffer → ℝ → RateBuffer) :
    ∃ s', processBlocks RenderConv.splitUpols.ops rs PConv.make
        { channels := 1, size := 1, buffer := [[2]], sampleRate := 48000 } 1 1 [[1]] 2 48000 = .ok (s', [[1]]) ∧
      Spec.conv (impulseAt rs { channels := 1, size := 1, buffer := [[2]], sampleRate := 48000 } 48000 0)
        (fun i => ([[1]].getD 0 [] : List ℝ).getD i 0) 0 = 2 := by
  have hres : resampleTo rs { channels := 1, size := 1, buffer := [[2]], sampleRate := 48000 } 48000
      = { channels := 1, size := 1, buffer := [[2]], sampleRate := 48000 } := by
    unfold resampleTo
    rw [if_pos rfl]
  obtain ⟨s', out, e, -, -, -, ho⟩ := C69_process_blocks_partial .splitUpols rs PConv.make
    { channels := 1, size := 1, buffer := [[2]], sampleRate := 48000 } 1 1 1 [[1]] 48000 (by norm_num)
    (by intro spec h; cases h)
    (by
      unfold Usable
      dsimp only
      rw [hres]
      exact ⟨1, le_rfl, by norm_num, rfl, rfl, by simp, le_rfl, le_rfl, by norm_num, by norm_num⟩)
    le_rfl (by norm_num) (by norm_num) rfl (by simp)
  refine ⟨s', ?_, ?_⟩
  · refine e.trans ?_
    rw [ho]
    simp [vec]
  · unfold Spec.conv impulseAt
    rw [hres]
    simp

/-- `reset()` forgets the filter: until the next `prepare` or load, `process` copies its input, whatever was loaded. -/
theorem C69_reset_bypasses {S : Type} (ops : ConvOps S) (s : PConv S) (channels num : ℕ) (input : List (List ℝ)) :
    s.reset.process ops channels num input = .ok (s.reset, input) :=
  process_dry (Or.inl rfl) _ _

/-- A file that could not be read (`sampleRate` 0) on a new object: the output is the input, for every block size. -/
theorem C69_no_impulse (k : RenderConv) (rs : RateBuffer → ℝ → RateBuffer) (file : RateBuffer)
    (hrate : ¬ 0 < file.sampleRate) (channels size B : ℕ) (hB : 1 ≤ B) (hsize : size + B ≤ 2 ^ 64)
    (signal : List (List ℝ)) (rate : ℝ) (hsl : signal.length = channels) (hsig : ∀ x ∈ signal, x.length = size) :
    ∃ s', processBlocks k.ops rs PConv.make file channels size signal B rate = .ok (s', signal) := by
  set x : ℕ → ℕ → ℝ := fun c n => (signal.getD c []).getD n 0 with hx
  have hsv : signal = vec channels (fun c => vec size (x c)) := buffer_eq_vec hsl hsig
  set s0 : PConv k.State :=
    PConv.mk (some (ProcSpec.mk rate (B % 2 ^ 32) (channels % 2 ^ 32))) none [] with hs0
  have hloop := forSizeStep_inv (B := B) (n := size) (body := processBlock k.ops channels size signal B)
    (fun t p => p = (s0, vec channels (fun c => vec size (fun n => if n < t * B then x c n else 0)))) hB hsize
    (by
      intro t p ht hp
      subst hp
      rw [hsv]
      refine ⟨(s0, _), processBlock_ok (s' := s0) (y := x) ht (process_dry (Or.inl rfl) _ _), ?_⟩
      refine Prod.ext rfl ?_
      apply vec_ext
      intro c hc
      apply vec_ext
      intro n hn
      have e3 : (t + 1) * B = t * B + B := by ring
      by_cases q : n < t * B
      · rw [if_neg (by omega), if_pos q, if_pos (by omega)]
      · by_cases q2 : n < t * B + B
        · rw [if_pos (by omega), if_pos (by omega)]
        · rw [if_neg (by omega), if_neg q, if_neg (by omega)])
    size 0 (s0, vec channels (fun c => vec size (fun n => if n < 0 * B then x c n else 0))) (by omega) rfl
  obtain ⟨T, p, e3, hp, hT⟩ := hloop
  subst hp
  refine ⟨s0.reset, ?_⟩
  unfold processBlocks PConv.load
  rw [if_neg hrate]
  have e1 : (PConv.make : PConv k.State).update k.ops rs = .ok PConv.make := rfl
  rw [e1, bind_ok]
  have e2 : (PConv.make : PConv k.State).prepare k.ops rs (ProcSpec.mk rate (B % 2 ^ 32) (channels % 2 ^ 32)) = .ok s0 :=
    rfl
  rw [e2, bind_ok]
  rw [Nat.zero_mul] at e3
  have hz : (List.replicate channels (List.replicate size (0 : ℝ)))
      = vec channels (fun c => vec size (fun n => if n < 0 then x c n else 0)) := by
    rw [eq_vec_iff]
    refine ⟨by simp, fun c hc => ?_⟩
    rw [List.getElem?_replicate, if_pos hc]
    refine congrArg some ?_
    rw [eq_vec_iff]
    refine ⟨by simp, fun n hn => ?_⟩
    rw [List.getElem?_replicate, if_pos hn, if_neg (by omega)]
  rw [hz, e3, bind_ok]
  refine congrArg Except.ok (Prod.ext rfl ?_)
  conv_rhs => rw [hsv]
  apply vec_ext
  intro c hc
  apply vec_ext
  intro n hn
  rw [if_pos (by omega)]

/-- Two channels, five samples in blocks of two; the object has been used before for one channel and blocks of four. -/
example : ∃ s' out, processBlocks RenderConv.splitUpols.ops (fun b _ => b)
    { spec := some { sampleRate := 44100, maximumBlockSize := 4, numChannels := 1 }, impulse := none, convs := [] }
    { channels := 2, size := 3, buffer := [[1, 2, 3], [4, 5, 6]], sampleRate := 48000 } 2 5
    [[1, 2, 3, 4, 5], [6, 7, 8, 9, 10]] 2 48000 = .ok (s', out) ∧ out.length = 2 := by
  obtain ⟨s', out, e, -, -, -, ho⟩ := C69_process_blocks_partial .splitUpols (fun b _ => b)
    { spec := some { sampleRate := 44100, maximumBlockSize := 4, numChannels := 1 }, impulse := none, convs := [] }
    { channels := 2, size := 3, buffer := [[1, 2, 3], [4, 5, 6]], sampleRate := 48000 } 2 5 1
    [[1, 2, 3, 4, 5], [6, 7, 8, 9, 10]] 48000 (by norm_num)
    (by
      intro spec h
      cases h
      exact ⟨2, by norm_num, by norm_num, rfl, by simp [resampleTo], by simp [resampleTo], by simp [resampleTo],
        by simp [resampleTo], by simp [resampleTo], by simp [resampleTo]⟩)
    ⟨1, le_rfl, by norm_num, rfl, by simp [resampleTo], by simp [resampleTo], by simp [resampleTo],
        by simp [resampleTo], by simp [resampleTo], by simp [resampleTo]⟩
    (by norm_num) (by norm_num) (by norm_num) rfl (by simp)
  exact ⟨s', out, e, by rw [ho, length_vec]⟩

end Neo.Props
