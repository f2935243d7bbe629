import Verif.Lemmas.ArithLin
import Verif.Props.StdComplex
import Verif.Props.IeeeConv

/-! # C106: exact symmetries in IEEE 754 arithmetic: polarity, silence, real bins, order of the operands -/

namespace Neo.Props

open Neo Spec

section any
variable {R C : Type} [Zero R] [Add R] [Mul R] [Zero C] [AddCommMagma C] [Sub C] [Mul C]
variable {A : Arith R C} {no : R → R} {nc : C → C}

/-- Negation is an exact symmetry of the arithmetic. -/
private abbrev Opp (A : Arith R C) (no : R → R) (nc : C → C) : Prop :=
  LinRel A (fun _ => True) (fun _ => True) (fun x x' => x' = no x) (fun z z' => z' = nc z)

private theorem tw_true (b : ℕ) : TwCoef A (fun _ => True) b := fun _ _ _ => trivial

private theorem getD_opp {α : Type} (d : α) {g : α → α} (h : d = g d) (l : List α) (i : ℕ) :
    (l.map g).getD i d = g (l.getD i d) := by
  conv_lhs => rw [h]
  exact List.getD_map ..

private theorem opp_fft (h : Opp A no nc) (hm : ∀ x y : C, x * y = y * x) (order : ℕ) (h1 : 1 ≤ order) (h2 : order ≤ 27)
    (k : Kernel) (hk : k = .v4 → 2 ≤ order) :
    ∃ p, Dit2Plan.makeG A order = .ok p ∧ ∀ (x : List C) (dir : Direction), x.length = 2 ^ order →
      ∃ y, y.length = 2 ^ order ∧ p.callWith k.runG x dir = .ok y ∧
        p.callWith k.runG (x.map nc) dir = .ok (y.map nc) := by
  refine ⟨_, dit2Plan_makeG_eq A h2, fun x dir hx => ⟨vec (2 ^ order) (ditGn A order dir (fun i => x.getD i 0)),
    length_vec .., ?_, ?_⟩⟩
  · conv_lhs => rw [list_eq_vec 0 hx]
    exact kernelG_fn h1 k (fun _ => hm) hk _ dir
  · conv_lhs => rw [list_eq_vec 0 ((List.length_map ..).trans hx : (x.map nc).length = 2 ^ order)]
    rw [map_vec]
    refine (kernelG_fn h1 k (fun _ => hm) hk _ dir).trans (congrArg Except.ok (vec_ext fun i hi => ?_))
    exact ditGn_lin h (tw_true _) dir (fun j _ => getD_opp 0 h.zeroC x j) hi

private theorem opp_rfft (h : Opp A no nc) (order : ℕ) (h1 : 1 ≤ order) (h2 : order ≤ 27) :
    ∃ p, RfftPlanG.make A order = .ok p ∧ ∀ (buf buf' : List C) (x : List R) (out out' : List C),
      buf.length = 2 ^ order → buf'.length = 2 ^ order → x.length = 2 ^ order →
      2 ^ order / 2 + 1 ≤ out.length → 2 ^ order / 2 + 1 ≤ out'.length →
      ∃ q q' y y', ({ p with buffer := buf } : RfftPlanG A).rfft x out = .ok (q, y) ∧
        ({ p with buffer := buf' } : RfftPlanG A).rfft (x.map no) out' = .ok (q', y') ∧
        ∀ k ≤ 2 ^ order / 2, y'.getD k 0 = nc (y.getD k 0) := by
  refine ⟨_, rfftPlanG_make_eq h2, fun buf buf' x out out' hb hb' hx ho ho' => ?_⟩
  obtain ⟨g, e⟩ := rfftG_fn (A := A) h1 ho (fun i => buf.getD i 0) (fun i => x.getD i 0) (fun i => out.getD i 0)
  obtain ⟨g', e'⟩ := rfftG_fn (A := A) h1 ho' (fun i => buf'.getD i 0) (fun i => (x.map no).getD i 0)
    (fun i => out'.getD i 0)
  have hN : 2 ^ order / 2 < 2 ^ order := Nat.div_lt_self (by positivity) (by norm_num)
  rw [← list_eq_vec 0 hx, ← list_eq_vec 0 (rfl : out.length = out.length)] at e
  rw [← list_eq_vec 0 ((List.length_map ..).trans hx : (x.map no).length = _),
    ← list_eq_vec 0 (rfl : out'.length = out'.length)] at e'
  have hp : ∀ b : List C, b.length = 2 ^ order → rfftPlanGOf A order (fun i => b.getD i 0)
      = { rfftPlanGOf A order (fun _ => 0) with buffer := b } := by
    intro b hb
    unfold rfftPlanGOf
    rw [← list_eq_vec 0 hb]
  rw [hp _ hb] at e
  rw [hp _ hb'] at e'
  refine ⟨_, _, _, _, e, e', fun k hk => ?_⟩
  rw [getD_vec _ _ _ _ (by omega), getD_vec _ _ _ _ (by omega), if_pos (by omega), if_pos (by omega)]
  exact rfftGn_lin h (tw_true _) (fun i _ => getD_opp 0 h.zeroR x i) (by omega)

private theorem opp_irfft (h : Opp A no nc) (order : ℕ) (h1 : 1 ≤ order) (h2 : order ≤ 27) :
    ∃ p, RfftPlanG.make A order = .ok p ∧ ∀ (buf buf' c : List C) (out out' : List R),
      buf.length = 2 ^ order → buf'.length = 2 ^ order → 2 ^ order / 2 + 1 ≤ c.length → c.length ≤ 2 ^ order →
      2 ^ order ≤ out.length → 2 ^ order ≤ out'.length →
      ∃ q q' y y', ({ p with buffer := buf } : RfftPlanG A).irfft c out = .ok (q, y) ∧
        ({ p with buffer := buf' } : RfftPlanG A).irfft (c.map nc) out' = .ok (q', y') ∧
        ∀ n < 2 ^ order, y'.getD n 0 = no (y.getD n 0) := by
  refine ⟨_, rfftPlanG_make_eq h2, fun buf buf' c out out' hb hb' hc hc2 ho ho' => ?_⟩
  obtain ⟨g, e⟩ := irfftG_fn (A := A) h1 hc hc2 ho (fun i => buf.getD i 0) (fun i => c.getD i 0) (fun i => out.getD i 0)
  obtain ⟨g', e'⟩ := irfftG_fn (A := A) h1 hc hc2 ho' (fun i => buf'.getD i 0) (fun i => (c.map nc).getD i 0)
    (fun i => out'.getD i 0)
  rw [← list_eq_vec 0 (rfl : c.length = c.length), ← list_eq_vec 0 (rfl : out.length = out.length)] at e
  rw [← list_eq_vec 0 (List.length_map .. : (c.map nc).length = _),
    ← list_eq_vec 0 (rfl : out'.length = out'.length)] at e'
  have hp : ∀ b : List C, b.length = 2 ^ order → rfftPlanGOf A order (fun i => b.getD i 0)
      = { rfftPlanGOf A order (fun _ => 0) with buffer := b } := by
    intro b hb
    unfold rfftPlanGOf
    rw [← list_eq_vec 0 hb]
  rw [hp _ hb] at e
  rw [hp _ hb'] at e'
  refine ⟨_, _, _, _, e, e', fun n hn => ?_⟩
  rw [getD_vec _ _ _ _ (by omega), getD_vec _ _ _ _ (by omega), if_pos hn, if_pos hn]
  exact irfftGn_lin h (tw_true _) (fun i _ => getD_opp 0 h.zeroC c i) hn

private theorem map_opp_len {B : ℕ} {blocks : List (List R)} (hb : ∀ b ∈ blocks, b.length = B) :
    ∀ b ∈ blocks.map (List.map no), b.length = B := by
  intro b hb'
  obtain ⟨c, hc, rfl⟩ := List.mem_map.1 hb'
  rw [List.length_map]
  exact hb c hc

private theorem flatten_opp (h : (0 : R) = no 0) (blocks : List (List R)) (i : ℕ) :
    (blocks.map (List.map no)).flatten.getD i 0 = no (blocks.flatten.getD i 0) := by
  rw [← List.map_flatten]
  exact getD_opp 0 h _ i

private theorem seg_opp (h : (0 : R) = no 0) (B : ℕ) (x : ℕ → R) (u k : ℕ) :
    seg B (fun i => no (x i)) u k = no (seg B x u k) := by
  unfold seg
  split
  · rfl
  · exact h

private theorem save_opp (h : (0 : R) = no 0) (B : ℕ) (x : ℕ → R) (u k : ℕ) :
    saveWindow B (fun i => no (x i)) u k = no (saveWindow B x u k) := by
  unfold saveWindow
  split
  · split
    · rfl
    · exact h
  · rfl

private theorem outs_opp {T B : ℕ} {o o' : ℕ → ℕ → R} (h : ∀ t, ∀ i < B, o' t i = no (o t i)) :
    vec T (fun t => vec B (o' t)) = (vec T (fun t => vec B (o t))).map (List.map no) := by
  rw [map_vec]
  refine vec_ext fun t _ => ?_
  rw [map_vec]
  exact vec_ext fun i hi => h t i hi

private theorem lens {α : Type} (d : α) {B : ℕ} {blocks : List (List α)} (hb : ∀ b ∈ blocks, b.length = B)
    (o : ℕ → ℕ → α) : (vec blocks.length (fun t => vec B (o t))).map List.length = blocks.map List.length := by
  have h := blocks_eq_vec d blocks hb
  rw [vec_const_len]
  conv_rhs => rw [h]
  rw [vec_const_len]

private theorem matAt_opp (h : (0 : C) = nc 0) (v : MatView) (data : List C) (r k : ℕ) :
    matAt v (data.map nc) r k = nc (matAt v data r k) := getD_opp 0 h _ _

private theorem opp_upola (h : Opp A no nc) {a : ℕ} (ha : 1 ≤ a) (ha2 : a ≤ 26) {v : MatView} {data : List C}
    (hv : v.InRange data.length) (hr : 1 ≤ v.rows) (hc : v.cols = 2 ^ a + 1) (blocks : List (List R))
    (hb : ∀ b ∈ blocks, b.length = 2 ^ a) :
    ∃ outs, upolaRunG A v data blocks = .ok outs ∧ outs.map List.length = blocks.map List.length ∧
      upolaRunG A v data (blocks.map (List.map no)) = .ok (outs.map (List.map no)) ∧
      upolaRunG A v (data.map nc) blocks = .ok (outs.map (List.map no)) := by
  have hp : 2 ^ (a + 1) / 2 < 2 ^ (a + 1) := half_lt (by omega)
  refine ⟨_, upolaRunG_eq ha ha2 hv hr hc blocks hb, lens 0 hb _, ?_, ?_⟩
  · refine (upolaRunG_eq ha ha2 hv hr hc _ (map_opp_len hb)).trans (congrArg Except.ok ?_)
    rw [List.length_map]
    refine outs_opp fun t i hi => olaOutG_lin h (tw_true _) trivial (fun u _ _ k hk => ?_) hi
    refine macY_lin h (fun _ _ => trivial) u fun w _ _ => rfftGn_lin h (tw_true _) (fun j _ => ?_) (by omega)
    simp only [flatten_opp h.zeroR]
    exact seg_opp h.zeroR _ _ _ _
  · have hv' : v.InRange (data.map nc).length := by rw [List.length_map]; exact hv
    refine (upolaRunG_eq ha ha2 hv' hr hc _ hb).trans (congrArg Except.ok ?_)
    refine outs_opp fun t i hi => olaOutG_lin h (tw_true _) trivial (fun u _ _ k hk => ?_) hi
    exact macY_lin' h (fun _ => trivial) (fun s _ => matAt_opp h.zeroC ..) u

private theorem opp_upols (h : Opp A no nc) {a : ℕ} (ha : 1 ≤ a) (ha2 : a ≤ 26) {v : MatView} {data : List C}
    (hv : v.InRange data.length) (hr : 1 ≤ v.rows) (hc : v.cols = 2 ^ a + 1) (blocks : List (List R))
    (hb : ∀ b ∈ blocks, b.length = 2 ^ a) :
    ∃ outs, upolsRunG A v data blocks = .ok outs ∧ outs.map List.length = blocks.map List.length ∧
      upolsRunG A v data (blocks.map (List.map no)) = .ok (outs.map (List.map no)) ∧
      upolsRunG A v (data.map nc) blocks = .ok (outs.map (List.map no)) := by
  have hp : 2 ^ (a + 1) / 2 < 2 ^ (a + 1) := half_lt (by omega)
  refine ⟨_, upolsRunG_eq ha ha2 hv hr hc blocks hb, lens 0 hb _, ?_, ?_⟩
  · refine (upolsRunG_eq ha ha2 hv hr hc _ (map_opp_len hb)).trans (congrArg Except.ok ?_)
    rw [List.length_map]
    refine outs_opp fun t i hi => olsOutG_lin h (tw_true _) trivial (fun k hk => ?_) hi
    refine macY_lin h (fun _ _ => trivial) t fun w _ _ => rfftGn_lin h (tw_true _) (fun j _ => ?_) (by omega)
    simp only [flatten_opp h.zeroR]
    exact save_opp h.zeroR _ _ _ _
  · have hv' : v.InRange (data.map nc).length := by rw [List.length_map]; exact hv
    refine (upolsRunG_eq ha ha2 hv' hr hc _ hb).trans (congrArg Except.ok ?_)
    refine outs_opp fun t i hi => olsOutG_lin h (tw_true _) trivial (fun k hk => ?_) hi
    exact macY_lin' h (fun _ => trivial) (fun s _ => matAt_opp h.zeroC ..) t

private theorem zext_opp (h : (0 : R) = no 0) (n : ℕ) (x : List R) (i : ℕ) :
    zext n (fun i => (x.map no).getD i 0) i = no (zext n (fun i => x.getD i 0) i) := by
  unfold zext
  split
  · exact getD_opp 0 h _ _
  · exact h

private theorem opp_convolve (h : Opp A no nc) (x y : List R) (hx : 2 ≤ x.length) (hy : 2 ≤ y.length)
    (hs : x.length + y.length - 1 ≤ 2 ^ 27) :
    ∃ out, fftConvolveG A x y = .ok out ∧ out.length = x.length + y.length - 1 ∧
      fftConvolveG A (x.map no) y = .ok (out.map no) ∧ fftConvolveG A x (y.map no) = .ok (out.map no) := by
  obtain ⟨b1, b2, b3⟩ := clog_bounds hx hy hs
  have hN := half_lt b1
  have e := fftConvolveG_eq (A := A) hx hy hs (fun i => x.getD i 0) (fun i => y.getD i 0)
  have e1 := fftConvolveG_eq (A := A) hx hy hs (fun i => (x.map no).getD i 0) (fun i => y.getD i 0)
  have e2 := fftConvolveG_eq (A := A) hx hy hs (fun i => x.getD i 0) (fun i => (y.map no).getD i 0)
  rw [← list_eq_vec 0 rfl, ← list_eq_vec 0 rfl] at e
  rw [← list_eq_vec 0 (List.length_map .. : (x.map no).length = _), ← list_eq_vec 0 rfl] at e1
  rw [← list_eq_vec 0 rfl, ← list_eq_vec 0 (List.length_map .. : (y.map no).length = _)] at e2
  refine ⟨_, e, length_vec .., e1.trans (congrArg Except.ok ?_), e2.trans (congrArg Except.ok ?_)⟩
  · rw [map_vec]
    refine vec_ext fun k hk => specOutG_lin h (tw_true _) trivial (fun j hj => ?_) (lt_of_lt_of_le hk b3)
    exact h.mul' _ _ _ trivial (rfftGn_lin h (tw_true _) (fun i _ => zext_opp h.zeroR ..) (by omega))
  · rw [map_vec]
    refine vec_ext fun k hk => specOutG_lin h (tw_true _) trivial (fun j hj => ?_) (lt_of_lt_of_le hk b3)
    exact h.mul _ _ _ trivial (rfftGn_lin h (tw_true _) (fun i _ => zext_opp h.zeroR ..) (by omega))

/-- **C106** (order of the operands).  `fft_convolve` gives the same result when its operands are exchanged, bit for bit,
in every arithmetic whose complex product does not depend on the order of its factors. -/
theorem C106_commute (A : Arith R C) (hm : ∀ x y : C, x * y = y * x) (x y : List R) (hx : 2 ≤ x.length)
    (hy : 2 ≤ y.length) (hs : x.length + y.length - 1 ≤ 2 ^ 27) :
    ∃ out, fftConvolveG A x y = .ok out ∧ fftConvolveG A y x = .ok out ∧ out.length = x.length + y.length - 1 := by
  have e := fftConvolveG_eq (A := A) hx hy hs (fun i => x.getD i 0) (fun i => y.getD i 0)
  have e1 := fftConvolveG_eq (A := A) hy hx (by omega) (fun i => y.getD i 0) (fun i => x.getD i 0)
  rw [← list_eq_vec 0 rfl, ← list_eq_vec 0 rfl] at e e1
  refine ⟨_, e, e1.trans (congrArg Except.ok ?_), length_vec ..⟩
  rw [Nat.add_comm y.length]
  refine vec_ext fun k _ => ?_
  unfold fcOut
  congr 1
  funext j
  exact hm _ _

/-! ## Silence -/

private abbrev Zer (A : Arith R C) (k : C → Prop) (kr : R → Prop) : Prop :=
  LinRel A k kr (fun x _ => x = 0) (fun z _ => z = 0)

variable {k : C → Prop} {kr : R → Prop}

private theorem quiet {B N t : ℕ} {blocks : List (List R)} (hb : ∀ b ∈ blocks, b.length = B) (ht : t < blocks.length)
    (h : ∀ j ≤ N, j ≤ t → ∀ s ∈ blocks.getD (t - j) [], s = 0) {u i : ℕ} (hu : u ≤ t) (hu2 : t ≤ u + N) (hi : i < B) :
    blocks.flatten.getD (u * B + i) 0 = 0 := by
  rw [flatten_getD 0 hb (by omega) hi]
  have := h (t - u) (by omega) (by omega)
  rw [show t - (t - u) = u by omega] at this
  rw [List.getD_eq_getElem?_getD]
  by_cases hl : i < (blocks.getD u []).length
  · rw [List.getElem?_eq_getElem hl]
    exact this _ (List.getElem_mem hl)
  · rw [List.getElem?_eq_none (by omega)]
    rfl

private theorem zero_upola (h : Zer A k kr) {a : ℕ} (ha : 1 ≤ a) (ha2 : a ≤ 26) (hw : TwCoef A k (a + 1))
    (hs : kr (A.invSize (2 ^ (a + 1)))) {v : MatView} {data : List C}
    (hv : v.InRange data.length) (hr : 1 ≤ v.rows) (hc : v.cols = 2 ^ a + 1)
    (hd : ∀ r < v.rows, ∀ c < v.cols, k (matAt v data r c)) (blocks : List (List R))
    (hb : ∀ b ∈ blocks, b.length = 2 ^ a) :
    ∃ outs, upolaRunG A v data blocks = .ok outs ∧ outs.map List.length = blocks.map List.length ∧
      ∀ t < blocks.length, (∀ j ≤ v.rows, j ≤ t → ∀ s ∈ blocks.getD (t - j) [], s = 0) →
        ∀ y ∈ outs.getD t [], y = 0 := by
  have hp : 2 ^ (a + 1) / 2 = 2 ^ a := by rw [pow_succ]; omega
  have hp2 : 2 ^ (a + 1) = 2 ^ a + 2 ^ a := by rw [pow_succ]; ring
  have hpos : 1 ≤ 2 ^ a := Nat.one_le_two_pow
  refine ⟨_, upolaRunG_eq ha ha2 hv hr hc blocks hb, lens 0 hb _, fun t ht hq y hy => ?_⟩
  rw [getD_vec _ _ _ _ ht] at hy
  obtain ⟨i, hi, rfl⟩ := List.mem_map.1 hy
  refine olaOutG_lin (Y' := fun _ _ => 0) h hw hs (fun u hu hu2 j hj => ?_) (List.mem_range.1 hi)
  refine macY_lin (X' := fun _ _ => 0) h (fun s hs => hd s hs j (by omega)) u fun w hw1 hw2 => ?_
  refine rfftGn_lin (x' := fun _ => 0) h hw (fun n _ => ?_) (by omega)
  unfold seg
  split
  · exact quiet hb ht hq (by omega) (by omega) ‹_›
  · rfl

private theorem zero_upols (h : Zer A k kr) {a : ℕ} (ha : 1 ≤ a) (ha2 : a ≤ 26) (hw : TwCoef A k (a + 1))
    (hs : kr (A.invSize (2 ^ (a + 1)))) {v : MatView} {data : List C}
    (hv : v.InRange data.length) (hr : 1 ≤ v.rows) (hc : v.cols = 2 ^ a + 1)
    (hd : ∀ r < v.rows, ∀ c < v.cols, k (matAt v data r c)) (blocks : List (List R))
    (hb : ∀ b ∈ blocks, b.length = 2 ^ a) :
    ∃ outs, upolsRunG A v data blocks = .ok outs ∧ outs.map List.length = blocks.map List.length ∧
      ∀ t < blocks.length, (∀ j ≤ v.rows, j ≤ t → ∀ s ∈ blocks.getD (t - j) [], s = 0) →
        ∀ y ∈ outs.getD t [], y = 0 := by
  have hp : 2 ^ (a + 1) / 2 = 2 ^ a := by rw [pow_succ]; omega
  have hp2 : 2 ^ (a + 1) = 2 ^ a + 2 ^ a := by rw [pow_succ]; ring
  have hpos : 1 ≤ 2 ^ a := Nat.one_le_two_pow
  refine ⟨_, upolsRunG_eq ha ha2 hv hr hc blocks hb, lens 0 hb _, fun t ht hq y hy => ?_⟩
  rw [getD_vec _ _ _ _ ht] at hy
  obtain ⟨i, hi, rfl⟩ := List.mem_map.1 hy
  refine olsOutG_lin (Y' := fun _ _ => 0) h hw hs (fun j hj => ?_) (List.mem_range.1 hi)
  refine macY_lin (X' := fun _ _ => 0) h (fun s hs => hd s hs j (by omega)) t fun w hw1 hw2 => ?_
  refine rfftGn_lin (x' := fun _ => 0) h hw (fun n hn => ?_) (by omega)
  unfold saveWindow
  split
  · split
    · exact quiet hb ht hq (by omega) (by omega) ‹_›
    · rfl
  · exact quiet hb ht hq (by omega) (by omega) (by omega)

end any

section ieee
variable {f : Fmt}

/-- **C106** (polarity, complex transform).  In every format and for every table, input (infinities and NaN included),
kernel and direction: the transform of the negated input is the negated transform, exactly; with `neo::scalar_complex`
and with `std::complex`. -/
theorem C106_polarity_fft (tw : ℕ → ℕ → Direction → IC f) (order : ℕ) (h1 : 1 ≤ order) (h2 : order ≤ 27) (k : Kernel)
    (hk : k = .v4 → 2 ≤ order) :
    (∃ p, Dit2Plan.makeG (ieeeArith f tw) order = .ok p ∧ ∀ (x : List (IC f)) (dir : Direction), x.length = 2 ^ order →
      ∃ y, y.length = 2 ^ order ∧ p.callWith k.runG x dir = .ok y ∧
        p.callWith k.runG (x.map IC.opp) dir = .ok (y.map IC.opp)) ∧
    ∃ p, Dit2Plan.makeG (stdArith f tw) order = .ok p ∧ ∀ (x : List (SC f)) (dir : Direction), x.length = 2 ^ order →
      ∃ y, y.length = 2 ^ order ∧ p.callWith k.runG x dir = .ok y ∧
        p.callWith k.runG (x.map SC.opp) dir = .ok (y.map SC.opp) :=
  ⟨opp_fft (ieee_opp tw) IC.mul_comm' order h1 h2 k hk, opp_fft (std_opp tw) SC.mul_comm' order h1 h2 k hk⟩

/-- **C106** (polarity, real transform).  The same for `fallback_rfft_plan`, forwards, whatever is left in the buffer of
the plan and in the outputs. -/
theorem C106_polarity_rfft (tw : ℕ → ℕ → Direction → IC f) (order : ℕ) (h1 : 1 ≤ order) (h2 : order ≤ 27) :
    (∃ p, RfftPlanG.make (ieeeArith f tw) order = .ok p ∧ ∀ (buf buf' : List (IC f)) (x : List (IR f)) (out out' : List (IC f)),
      buf.length = 2 ^ order → buf'.length = 2 ^ order → x.length = 2 ^ order →
      2 ^ order / 2 + 1 ≤ out.length → 2 ^ order / 2 + 1 ≤ out'.length →
      ∃ q q' y y', ({ p with buffer := buf } : RfftPlanG (ieeeArith f tw)).rfft x out = .ok (q, y) ∧
        ({ p with buffer := buf' } : RfftPlanG (ieeeArith f tw)).rfft (x.map IR.opp) out' = .ok (q', y') ∧
        ∀ k ≤ 2 ^ order / 2, y'.getD k 0 = (y.getD k 0).opp) ∧
    ∃ p, RfftPlanG.make (stdArith f tw) order = .ok p ∧ ∀ (buf buf' : List (SC f)) (x : List (IR f)) (out out' : List (SC f)),
      buf.length = 2 ^ order → buf'.length = 2 ^ order → x.length = 2 ^ order →
      2 ^ order / 2 + 1 ≤ out.length → 2 ^ order / 2 + 1 ≤ out'.length →
      ∃ q q' y y', ({ p with buffer := buf } : RfftPlanG (stdArith f tw)).rfft x out = .ok (q, y) ∧
        ({ p with buffer := buf' } : RfftPlanG (stdArith f tw)).rfft (x.map IR.opp) out' = .ok (q', y') ∧
        ∀ k ≤ 2 ^ order / 2, y'.getD k 0 = (y.getD k 0).opp :=
  ⟨opp_rfft (ieee_opp tw) order h1 h2, opp_rfft (std_opp tw) order h1 h2⟩

/-- **C106** (polarity, inverse real transform). -/
theorem C106_polarity_irfft (tw : ℕ → ℕ → Direction → IC f) (order : ℕ) (h1 : 1 ≤ order) (h2 : order ≤ 27) :
    (∃ p, RfftPlanG.make (ieeeArith f tw) order = .ok p ∧ ∀ (buf buf' c : List (IC f)) (out out' : List (IR f)),
      buf.length = 2 ^ order → buf'.length = 2 ^ order → 2 ^ order / 2 + 1 ≤ c.length → c.length ≤ 2 ^ order →
      2 ^ order ≤ out.length → 2 ^ order ≤ out'.length →
      ∃ q q' y y', ({ p with buffer := buf } : RfftPlanG (ieeeArith f tw)).irfft c out = .ok (q, y) ∧
        ({ p with buffer := buf' } : RfftPlanG (ieeeArith f tw)).irfft (c.map IC.opp) out' = .ok (q', y') ∧
        ∀ n < 2 ^ order, y'.getD n 0 = (y.getD n 0).opp) ∧
    ∃ p, RfftPlanG.make (stdArith f tw) order = .ok p ∧ ∀ (buf buf' c : List (SC f)) (out out' : List (IR f)),
      buf.length = 2 ^ order → buf'.length = 2 ^ order → 2 ^ order / 2 + 1 ≤ c.length → c.length ≤ 2 ^ order →
      2 ^ order ≤ out.length → 2 ^ order ≤ out'.length →
      ∃ q q' y y', ({ p with buffer := buf } : RfftPlanG (stdArith f tw)).irfft c out = .ok (q, y) ∧
        ({ p with buffer := buf' } : RfftPlanG (stdArith f tw)).irfft (c.map SC.opp) out' = .ok (q', y') ∧
        ∀ n < 2 ^ order, y'.getD n 0 = (y.getD n 0).opp :=
  ⟨opp_irfft (ieee_opp tw) order h1 h2, opp_irfft (std_opp tw) order h1 h2⟩

/-- **C106** (polarity, overlap-add).  `upola_convolver`: negating all input blocks, or all entries of the filter, negates
all outputs, exactly. -/
theorem C106_polarity_upola (tw : ℕ → ℕ → Direction → IC f) {a : ℕ} (ha : 1 ≤ a) (ha2 : a ≤ 26) {v : MatView}
    (hr : 1 ≤ v.rows) (hc : v.cols = 2 ^ a + 1) (blocks : List (List (IR f))) (hb : ∀ b ∈ blocks, b.length = 2 ^ a) :
    (∀ data : List (IC f), v.InRange data.length →
      ∃ outs, upolaRunG (ieeeArith f tw) v data blocks = .ok outs ∧ outs.map List.length = blocks.map List.length ∧
        upolaRunG (ieeeArith f tw) v data (blocks.map (List.map IR.opp)) = .ok (outs.map (List.map IR.opp)) ∧
        upolaRunG (ieeeArith f tw) v (data.map IC.opp) blocks = .ok (outs.map (List.map IR.opp))) ∧
    ∀ data : List (SC f), v.InRange data.length →
      ∃ outs, upolaRunG (stdArith f tw) v data blocks = .ok outs ∧ outs.map List.length = blocks.map List.length ∧
        upolaRunG (stdArith f tw) v data (blocks.map (List.map IR.opp)) = .ok (outs.map (List.map IR.opp)) ∧
        upolaRunG (stdArith f tw) v (data.map SC.opp) blocks = .ok (outs.map (List.map IR.opp)) :=
  ⟨fun _ hv => opp_upola (ieee_opp tw) ha ha2 hv hr hc blocks hb, fun _ hv => opp_upola (std_opp tw) ha ha2 hv hr hc blocks hb⟩

/-- **C106** (polarity, overlap-save).  The same for `upols_convolver`. -/
theorem C106_polarity_upols (tw : ℕ → ℕ → Direction → IC f) {a : ℕ} (ha : 1 ≤ a) (ha2 : a ≤ 26) {v : MatView}
    (hr : 1 ≤ v.rows) (hc : v.cols = 2 ^ a + 1) (blocks : List (List (IR f))) (hb : ∀ b ∈ blocks, b.length = 2 ^ a) :
    (∀ data : List (IC f), v.InRange data.length →
      ∃ outs, upolsRunG (ieeeArith f tw) v data blocks = .ok outs ∧ outs.map List.length = blocks.map List.length ∧
        upolsRunG (ieeeArith f tw) v data (blocks.map (List.map IR.opp)) = .ok (outs.map (List.map IR.opp)) ∧
        upolsRunG (ieeeArith f tw) v (data.map IC.opp) blocks = .ok (outs.map (List.map IR.opp))) ∧
    ∀ data : List (SC f), v.InRange data.length →
      ∃ outs, upolsRunG (stdArith f tw) v data blocks = .ok outs ∧ outs.map List.length = blocks.map List.length ∧
        upolsRunG (stdArith f tw) v data (blocks.map (List.map IR.opp)) = .ok (outs.map (List.map IR.opp)) ∧
        upolsRunG (stdArith f tw) v (data.map SC.opp) blocks = .ok (outs.map (List.map IR.opp)) :=
  ⟨fun _ hv => opp_upols (ieee_opp tw) ha ha2 hv hr hc blocks hb, fun _ hv => opp_upols (std_opp tw) ha ha2 hv hr hc blocks hb⟩

/-- **C106** (polarity, one-shot convolution).  `fft_convolve`: negating one operand negates the result, exactly. -/
theorem C106_polarity_convolve (tw : ℕ → ℕ → Direction → IC f) (x y : List (IR f)) (hx : 2 ≤ x.length)
    (hy : 2 ≤ y.length) (hs : x.length + y.length - 1 ≤ 2 ^ 27) :
    (∃ out, fftConvolveG (ieeeArith f tw) x y = .ok out ∧ out.length = x.length + y.length - 1 ∧
      fftConvolveG (ieeeArith f tw) (x.map IR.opp) y = .ok (out.map IR.opp) ∧
      fftConvolveG (ieeeArith f tw) x (y.map IR.opp) = .ok (out.map IR.opp)) ∧
    ∃ out, fftConvolveG (stdArith f tw) x y = .ok out ∧ out.length = x.length + y.length - 1 ∧
      fftConvolveG (stdArith f tw) (x.map IR.opp) y = .ok (out.map IR.opp) ∧
      fftConvolveG (stdArith f tw) x (y.map IR.opp) = .ok (out.map IR.opp) :=
  ⟨opp_convolve (ieee_opp tw) x y hx hy hs, opp_convolve (std_opp tw) x y hx hy hs⟩

/-- **C106** (order of the operands).  For both complex types. -/
theorem C106_commute_ieee (tw : ℕ → ℕ → Direction → IC f) (x y : List (IR f)) (hx : 2 ≤ x.length)
    (hy : 2 ≤ y.length) (hs : x.length + y.length - 1 ≤ 2 ^ 27) :
    (∃ out, fftConvolveG (ieeeArith f tw) x y = .ok out ∧ fftConvolveG (ieeeArith f tw) y x = .ok out ∧
      out.length = x.length + y.length - 1) ∧
    ∃ out, fftConvolveG (stdArith f tw) x y = .ok out ∧ fftConvolveG (stdArith f tw) y x = .ok out ∧
      out.length = x.length + y.length - 1 :=
  ⟨C106_commute _ IC.mul_comm' x y hx hy hs, C106_commute _ SC.mul_comm' x y hx hy hs⟩

/-- The entries of the tables of size `N` that are used are finite. -/
def TwFinite (tw : ℕ → ℕ → Direction → IC f) (N : ℕ) : Prop :=
  ∀ dir, ∀ i < N / 2, ∃ x y : ℝ, tw N i dir = ⟨.fin x, .fin y⟩

private theorem twFinite_coef {tw : ℕ → ℕ → Direction → IC f} {a : ℕ} (h : TwFinite tw (2 ^ (a + 1))) :
    TwCoef (ieeeArith f tw) IC.Finite (a + 1) ∧ TwCoef (stdArith f tw) SC.Finite (a + 1) := by
  have e : 2 ^ (a + 1) / 2 = 2 ^ (a + 1 - 1) := by rw [pow_succ, Nat.add_sub_cancel]; omega
  constructor
  · intro dir i hi
    obtain ⟨x, y, hxy⟩ := h dir i (by omega)
    exact ⟨⟨x, congrArg IC.re hxy⟩, ⟨y, congrArg IC.im hxy⟩⟩
  · intro dir i hi
    obtain ⟨x, y, hxy⟩ := h dir i (by omega)
    exact ⟨⟨x, congrArg IC.re hxy⟩, ⟨y, congrArg IC.im hxy⟩⟩

/-- **C106** (silence, overlap-add).  `upola_convolver` in an IEEE format with a finite filter of `N` partitions and finite
tables: if the last `N + 1` input blocks are zero then the output block is exactly zero, whatever came before (infinities
and NaN included): no rounding error is left in the delay line or in the saved tail. -/
theorem C106_silence_upola (hf : f.Ieee) (tw : ℕ → ℕ → Direction → IC f) {a : ℕ} (ha : 1 ≤ a) (ha2 : a ≤ 26)
    (hbe : ((a + 1 : ℕ) : ℤ) < f.emax) (hw : TwFinite tw (2 ^ (a + 1))) {v : MatView}
    (hr : 1 ≤ v.rows) (hc : v.cols = 2 ^ a + 1) (blocks : List (List (IR f))) (hb : ∀ b ∈ blocks, b.length = 2 ^ a) :
    (∀ data : List (IC f), v.InRange data.length →
      (∀ r < v.rows, ∀ c < v.cols, ∃ x y : ℝ, matAt v data r c = ⟨.fin x, .fin y⟩) →
      ∃ outs, upolaRunG (ieeeArith f tw) v data blocks = .ok outs ∧ outs.map List.length = blocks.map List.length ∧
        ∀ t < blocks.length, (∀ j ≤ v.rows, j ≤ t → ∀ s ∈ blocks.getD (t - j) [], s.val = .fin 0) →
          ∀ y ∈ outs.getD t [], y.val = .fin 0) ∧
    ∀ data : List (SC f), v.InRange data.length →
      (∀ r < v.rows, ∀ c < v.cols, ∃ x y : ℝ, matAt v data r c = ⟨.fin x, .fin y⟩) →
      ∃ outs, upolaRunG (stdArith f tw) v data blocks = .ok outs ∧ outs.map List.length = blocks.map List.length ∧
        ∀ t < blocks.length, (∀ j ≤ v.rows, j ≤ t → ∀ s ∈ blocks.getD (t - j) [], s.val = .fin 0) →
          ∀ y ∈ outs.getD t [], y.val = .fin 0 := by
  have hi : ∃ y, ((ieeeArith f tw).invSize (2 ^ (a + 1))).val = .fin y := ⟨_, congrArg IR.val (invSize_ieee hf tw hbe)⟩
  constructor
  · intro data hv hd
    obtain ⟨outs, e, hl, h⟩ := zero_upola (ieee_zero tw) ha ha2 (twFinite_coef hw).1 hi hv hr hc (fun r hr c hc => by
      obtain ⟨x, y, e⟩ := hd r hr c hc
      exact ⟨⟨x, congrArg IC.re e⟩, ⟨y, congrArg IC.im e⟩⟩) blocks hb
    exact ⟨outs, e, hl, fun t ht hq y hy => congrArg IR.val (h t ht (fun j hj hjt s hs => IR.ext (hq j hj hjt s hs)) y hy)⟩
  · intro data hv hd
    obtain ⟨outs, e, hl, h⟩ := zero_upola (std_zero tw) ha ha2 (twFinite_coef hw).2 hi hv hr hc (fun r hr c hc => by
      obtain ⟨x, y, e⟩ := hd r hr c hc
      exact ⟨⟨x, congrArg SC.re e⟩, ⟨y, congrArg SC.im e⟩⟩) blocks hb
    exact ⟨outs, e, hl, fun t ht hq y hy => congrArg IR.val (h t ht (fun j hj hjt s hs => IR.ext (hq j hj hjt s hs)) y hy)⟩

/-- **C106** (silence, overlap-save).  The same for `upols_convolver`. -/
theorem C106_silence_upols (hf : f.Ieee) (tw : ℕ → ℕ → Direction → IC f) {a : ℕ} (ha : 1 ≤ a) (ha2 : a ≤ 26)
    (hbe : ((a + 1 : ℕ) : ℤ) < f.emax) (hw : TwFinite tw (2 ^ (a + 1))) {v : MatView}
    (hr : 1 ≤ v.rows) (hc : v.cols = 2 ^ a + 1) (blocks : List (List (IR f))) (hb : ∀ b ∈ blocks, b.length = 2 ^ a) :
    (∀ data : List (IC f), v.InRange data.length →
      (∀ r < v.rows, ∀ c < v.cols, ∃ x y : ℝ, matAt v data r c = ⟨.fin x, .fin y⟩) →
      ∃ outs, upolsRunG (ieeeArith f tw) v data blocks = .ok outs ∧ outs.map List.length = blocks.map List.length ∧
        ∀ t < blocks.length, (∀ j ≤ v.rows, j ≤ t → ∀ s ∈ blocks.getD (t - j) [], s.val = .fin 0) →
          ∀ y ∈ outs.getD t [], y.val = .fin 0) ∧
    ∀ data : List (SC f), v.InRange data.length →
      (∀ r < v.rows, ∀ c < v.cols, ∃ x y : ℝ, matAt v data r c = ⟨.fin x, .fin y⟩) →
      ∃ outs, upolsRunG (stdArith f tw) v data blocks = .ok outs ∧ outs.map List.length = blocks.map List.length ∧
        ∀ t < blocks.length, (∀ j ≤ v.rows, j ≤ t → ∀ s ∈ blocks.getD (t - j) [], s.val = .fin 0) →
          ∀ y ∈ outs.getD t [], y.val = .fin 0 := by
  have hi : ∃ y, ((ieeeArith f tw).invSize (2 ^ (a + 1))).val = .fin y := ⟨_, congrArg IR.val (invSize_ieee hf tw hbe)⟩
  constructor
  · intro data hv hd
    obtain ⟨outs, e, hl, h⟩ := zero_upols (ieee_zero tw) ha ha2 (twFinite_coef hw).1 hi hv hr hc (fun r hr c hc => by
      obtain ⟨x, y, e⟩ := hd r hr c hc
      exact ⟨⟨x, congrArg IC.re e⟩, ⟨y, congrArg IC.im e⟩⟩) blocks hb
    exact ⟨outs, e, hl, fun t ht hq y hy => congrArg IR.val (h t ht (fun j hj hjt s hs => IR.ext (hq j hj hjt s hs)) y hy)⟩
  · intro data hv hd
    obtain ⟨outs, e, hl, h⟩ := zero_upols (std_zero tw) ha ha2 (twFinite_coef hw).2 hi hv hr hc (fun r hr c hc => by
      obtain ⟨x, y, e⟩ := hd r hr c hc
      exact ⟨⟨x, congrArg SC.re e⟩, ⟨y, congrArg SC.im e⟩⟩) blocks hb
    exact ⟨outs, e, hl, fun t ht hq y hy => congrArg IR.val (h t ht (fun j hj hjt s hs => IR.ext (hq j hj hjt s hs)) y hy)⟩

private theorem real_bin {tw : ℕ → ℕ → Direction → IC f} {b : ℕ} (hb : 1 ≤ b)
    (hw : tw (2 ^ b) 0 .forward = ⟨.fin 1, .fin 0⟩) (x : ℕ → IR f) {k : ℕ} (hk : k = 0 ∨ k = 2 ^ b / 2) :
    (rfftGn (ieeeArith f tw) b x k).im.ZeroOrBad := by
  obtain ⟨c, rfl⟩ : ∃ c, b = c + 1 := ⟨b - 1, by omega⟩
  refine ditRun_real hw (fun n => Or.inl rfl) c k ?_
  rcases hk with rfl | rfl
  · exact Nat.zero_mod _
  · rw [pow_succ, Nat.mul_div_cancel _ (by norm_num), Nat.mod_self]

/-- **C106** (real bins).  If the first entry of the table is 1, as `polar(1, 0)` is, then for every real input,
infinities and NaN included, the first and the last bin of the real transform have imaginary part exactly 0 or not finite,
with both complex types. -/
theorem C106_real_bins (tw : ℕ → ℕ → Direction → IC f) (order : ℕ) (h1 : 1 ≤ order) (h2 : order ≤ 27)
    (hw : tw (2 ^ order) 0 .forward = ⟨.fin 1, .fin 0⟩) :
    ∃ p p', RfftPlanG.make (ieeeArith f tw) order = .ok p ∧ RfftPlanG.make (stdArith f tw) order = .ok p' ∧
      ∀ (buf : List (IC f)) (buf' : List (SC f)) (x : List (IR f)) (out : List (IC f)) (out' : List (SC f)),
        buf.length = 2 ^ order → buf'.length = 2 ^ order → x.length = 2 ^ order →
        2 ^ order / 2 + 1 ≤ out.length → 2 ^ order / 2 + 1 ≤ out'.length →
        ∃ q q' y y', ({ p with buffer := buf } : RfftPlanG (ieeeArith f tw)).rfft x out = .ok (q, y) ∧
          ({ p' with buffer := buf' } : RfftPlanG (stdArith f tw)).rfft x out' = .ok (q', y') ∧
          ∀ k, k = 0 ∨ k = 2 ^ order / 2 →
            ((y.getD k 0).im = .fin 0 ∨ (y.getD k 0).im.NonFinite) ∧
            ((y'.getD k 0).im = .fin 0 ∨ (y'.getD k 0).im.NonFinite) := by
  obtain ⟨p, p', hp, hp', h⟩ := C101_rfft tw order h1 h2
  refine ⟨p, p', hp, hp', fun buf buf' x out out' hb hb' hx ho ho' => ?_⟩
  obtain ⟨q, q', y, y', e, e', hAll⟩ := h buf buf' x out out' hb hb' hx ho ho'
  have key : ∀ k, k = 0 ∨ k = 2 ^ order / 2 → (y.getD k 0).im.ZeroOrBad := by
    intro k hk
    obtain ⟨g, e2⟩ := rfftG_fn (A := ieeeArith f tw) h1 ho (fun i => buf.getD i 0) (fun i => x.getD i 0)
      (fun i => out.getD i 0)
    have hN : 2 ^ order / 2 < 2 ^ order := Nat.div_lt_self (by positivity) (by norm_num)
    rw [← list_eq_vec 0 hx, ← list_eq_vec 0 (rfl : out.length = out.length)] at e2
    have hpb : rfftPlanGOf (ieeeArith f tw) order (fun i => buf.getD i 0)
        = { rfftPlanGOf (ieeeArith f tw) order (fun _ => 0) with buffer := buf } := by
      unfold rfftPlanGOf
      rw [← list_eq_vec 0 hb]
    rw [hpb] at e2
    rw [rfftPlanG_make_eq h2] at hp
    cases hp
    rw [e2] at e
    cases e
    rw [getD_vec _ _ _ _ (by omega), if_pos (by omega)]
    exact real_bin h1 hw _ hk
  refine ⟨q, q', y, y', e, e', fun k hk' => ⟨key k hk', ?_⟩⟩
  have h0 := key k hk'
  rcases hAll k (by omega) with ⟨-, e2⟩ | ⟨-, -, -, e2⟩
  · rw [← e2]
    exact h0
  · exact Or.inr e2

/-- A table for transforms of size 4, a filter with two partitions of block size 2 and four input blocks that meet the
hypotheses: the first block has an infinity and a NaN and the last three are silent. -/
example : ∃ (tw : ℕ → ℕ → Direction → IC binary32) (v : MatView) (data : List (IC binary32)) (blocks : List (List (IR binary32))),
    binary32.Ieee ∧ ((1 + 1 : ℕ) : ℤ) < binary32.emax ∧ TwFinite tw (2 ^ (1 + 1)) ∧ tw 4 0 .forward = ⟨.fin 1, .fin 0⟩ ∧
    v.rows = 2 ∧ v.cols = 2 ^ 1 + 1 ∧ v.InRange data.length ∧
    (∀ r < v.rows, ∀ c < v.cols, ∃ x y : ℝ, matAt v data r c = ⟨.fin x, .fin y⟩) ∧
    blocks.length = 4 ∧ (∀ b ∈ blocks, b.length = 2 ^ 1) ∧ blocks.getD 0 [] = [⟨.inf true⟩, ⟨.nan⟩] ∧
    ∀ j ≤ v.rows, j ≤ 3 → ∀ s ∈ blocks.getD (3 - j) [], s.val = .fin 0 := by
  refine ⟨fun _ k _ => if k = 0 then ⟨.fin 1, .fin 0⟩ else ⟨.fin 0, .fin (-1)⟩, MatView.right 2 3,
    List.replicate 6 ⟨.fin 1, .fin 2⟩, [[⟨.inf true⟩, ⟨.nan⟩], [0, 0], [0, 0], [0, 0]],
    by unfold Fmt.Ieee binary32; norm_num, by show ((1 + 1 : ℕ) : ℤ) < 128; norm_num, ?_, rfl, rfl, rfl, ?_, ?_, rfl, ?_, rfl, ?_⟩
  · intro dir i _
    by_cases h : i = 0
    · exact ⟨1, 0, if_pos h⟩
    · exact ⟨0, -1, if_neg h⟩
  · intro r hr c hc
    have h1 : r < 2 := hr
    have h2 : c < 3 := hc
    show 0 + r * 3 + c * 1 < 6
    omega
  · intro r hr c hc
    have h1 : r < 2 := hr
    have h2 : c < 3 := hc
    refine ⟨1, 2, ?_⟩
    show (List.replicate 6 (⟨.fin 1, .fin 2⟩ : IC binary32)).getD (0 + r * 3 + c * 1) 0 = _
    rw [List.getD_eq_getElem _ _ (by rw [List.length_replicate]; omega), List.getElem_replicate]
  · intro b hb
    fin_cases hb <;> rfl
  · intro j hj _ s hs
    have h1 : j ≤ 2 := hj
    obtain rfl | rfl | rfl : j = 0 ∨ j = 1 ∨ j = 2 := by omega
    all_goals
      have hs' : s ∈ [(0 : IR binary32), 0] := hs
      rcases List.mem_cons.1 hs' with rfl | h
      · rfl
      · rw [List.mem_singleton.1 h]; rfl

end ieee

end Neo.Props
