import Verif.Lemmas.Mat
import Verif.Lemmas.Out

/-!
# Property C60: element-wise algorithms are exact and in bounds

The inputs of the modelled calls are immutable values, so "inputs are unchanged" holds by
construction; what has to be shown is the content of the output buffer and of the parts of its
storage that do not belong to the view.
-/

namespace Neo.Props

variable {α : Type}

theorem bind_check_false {β : Type} {P : Prop} [Decidable P] (h : ¬ P) (r : Unit → Res β) :
    (check (decide P) >>= r) = .error .assertion := by
  rw [decide_eq_false h]; rfl

/-- **C60** (vectors): copy, fill, scale, add, multiply and multiply-add produce exactly the
element-wise result for every extent, in place or out of place. -/
theorem C60_vectors (x y z out : List ℝ) (a : ℝ) (hy : y.length = x.length)
    (hz : z.length = x.length) (ho : out.length = x.length) :
    copyVec x out = .ok x ∧
    fillVec out a = .ok (List.replicate x.length a) ∧
    scaleVec a x = .ok (x.map (· * a)) ∧
    addVec x y out = .ok (List.zipWith (· + ·) x y) ∧
    multiplyVec x y out = .ok (List.zipWith (· * ·) x y) ∧
    multiplyInPlace x y = .ok (List.zipWith (· * ·) x y) ∧
    multiplyAdd x y z out = .ok (List.zipWith (· + ·) (List.zipWith (· * ·) x y) z) ∧
    multiplyAddAcc x y z = .ok (List.zipWith (· + ·) (List.zipWith (· * ·) x y) z) := by
  have hzip : ∀ (op : ℝ → ℝ → ℝ) (n : ℕ) (f g : ℕ → ℝ), List.zipWith op (vec n f) (vec n g)
      = vec n (fun i => op (f i) (g i)) := by
    intro op n f g
    simp [vec, List.zipWith_map, List.zipWith_self]
  generalize hn : x.length = n at *
  obtain ⟨x', rfl⟩ : ∃ f, x = vec n f := ⟨_, list_eq_vec 0 hn⟩
  obtain ⟨y', rfl⟩ : ∃ f, y = vec n f := ⟨_, list_eq_vec 0 hy⟩
  obtain ⟨z', rfl⟩ : ∃ f, z = vec n f := ⟨_, list_eq_vec 0 hz⟩
  obtain ⟨o', rfl⟩ : ∃ f, out = vec n f := ⟨_, list_eq_vec 0 ho⟩
  refine ⟨copyVec_vec _ _, ?_, ?_, ?_, ?_, ?_, ?_, ?_⟩
  · rw [fillVec_vec]; simp [vec]
  · rw [scaleVec_vec, map_vec]
  · rw [addVec_vec, hzip]
  · rw [multiplyVec_vec, hzip]
  · rw [multiplyInPlace_vec, hzip]
  · rw [multiplyAdd_vec, hzip, hzip]
  · rw [multiplyAddAcc_vec, hzip, hzip]

example : addVec [1, 2, 3] [4, 5, 6] [0, 0, 0] = .ok ([5, 7, 9] : List ℝ) := by
  rw [(C60_vectors [1, 2, 3] [4, 5, 6] [0, 0, 0] [0, 0, 0] 0 rfl rfl rfl).2.2.2.1]
  norm_num

/-- **C60**: mismatched extents are an assertion failure, for every element type. -/
theorem C60_mismatch (x y z out : List α) [Mul α] [Add α] (op : α → α → α) :
    (x.length ≠ out.length → copyVec x out = .error .assertion) ∧
    (¬ (x.length = y.length ∧ x.length = out.length) →
      binaryOp op x y out = .error .assertion) ∧
    (x.length ≠ y.length → binaryOpInPlace op x y = .error .assertion) ∧
    (¬ (x.length = y.length ∧ x.length = z.length ∧ x.length = out.length) →
      multiplyAdd x y z out = .error .assertion) ∧
    (¬ (x.length = y.length ∧ x.length = z.length) →
      multiplyAddAcc x y z = .error .assertion) :=
  ⟨copyVec_bad, fun h => bind_check_false h _, fun h => bind_check_false h _,
    fun h => bind_check_false h _, fun h => bind_check_false h _⟩

example : addVec [1, 2, 3] [4, 5] [0, 0, 0] = (.error .assertion : Res (List ℤ)) :=
  (C60_mismatch [1, 2, 3] [4, 5] [] [0, 0, 0] (· + ·)).2.1 (by decide)

/-- **C60** (matrices, unary): for every strided view whose elements are distinct and in bounds, in
either loop order, exactly the elements of the view are replaced by `op` of their old value and the
rest of the storage is unchanged. -/
theorem C60_matrix_unary (colMajor : Bool) (op : α → α) (v : MatView) (data : List α)
    (hv : v.Valid data.length) :
    ∃ d, unaryOp2 colMajor op v data = .ok d ∧ d.length = data.length ∧
      (∀ r < v.rows, ∀ c < v.cols, d[v.idx r c]? = (data[v.idx r c]?).map op) ∧
      (∀ m, (∀ r < v.rows, ∀ c < v.cols, v.idx r c ≠ m) → d[m]? = data[m]?) := by
  cases data with
  | nil =>
    have h0 : v.rows = 0 ∨ v.cols = 0 := by
      by_contra h
      push Not at h
      have := hv.1 0 (by omega) 0 (by omega)
      simp at this
    refine ⟨[], ?_, rfl, ?_, fun _ _ => rfl⟩
    · have : ∀ k, forN k (fun _ (d : List α) => (.ok d : Res (List α))) [] = .ok [] := fun k =>
        forN_eq' (fun _ => []) rfl rfl (fun _ _ => rfl)
      unfold unaryOp2
      cases colMajor <;> rcases h0 with h | h <;> simp [h, forN_zero, this]
    · intro r hr c hc; rcases h0 with h | h <;> omega
  | cons d0 ds =>
    set data := d0 :: ds with hd
    obtain ⟨f, n, hf⟩ : ∃ f n, data = vec n f := ⟨_, _, eq_vec_getD data d0⟩
    rw [hf] at hv ⊢
    rw [length_vec] at hv
    have fin : ∀ g : ℕ → α, (∀ r < v.rows, ∀ c < v.cols, g (v.idx r c) = op (f (v.idx r c))) →
        (∀ m, (∀ r < v.rows, ∀ c < v.cols, v.idx r c ≠ m) → g m = f m) →
        (∀ r < v.rows, ∀ c < v.cols, (vec n g)[v.idx r c]? = ((vec n f)[v.idx r c]?).map op) ∧
        (∀ m, (∀ r < v.rows, ∀ c < v.cols, v.idx r c ≠ m) → (vec n g)[m]? = (vec n f)[m]?) := by
      intro g h1 h2
      constructor
      · intro r hr c hc
        have := hv.1 r hr c hc
        rw [getElem?_vec, getElem?_vec, if_pos this, if_pos this, h1 r hr c hc]; rfl
      · intro m hm
        rw [getElem?_vec, getElem?_vec, h2 m hm]
    cases colMajor
    · obtain ⟨g, e, h1, h2⟩ := forN2_update (n := n) v.idx f (fun r c => op (f (v.idx r c))) hv.2
        (fun row col data => do
          let x ← rd data (v.idx row col)
          wr data (v.idx row col) (op x)) (fun r hr c hc g hg => by
            have := hv.1 r hr c hc
            rw [rd_vec_ok this, bind_ok, wr_vec_ok this, hg])
      exact ⟨_, e, by simp, fin g h1 h2⟩
    · obtain ⟨g, e, h1, h2⟩ := forN2_update (n := n) (R := v.cols) (C := v.rows)
        (fun c r => v.idx r c) f (fun c r => op (f (v.idx r c)))
        (fun c hc r hr c' hc' r' hr' h => (hv.2 r hr c hc r' hr' c' hc' h).symm)
        (fun col row data => do
          let x ← rd data (v.idx row col)
          wr data (v.idx row col) (op x)) (fun c hc r hr g hg => by
            have := hv.1 r hr c hc
            rw [rd_vec_ok this, bind_ok, wr_vec_ok this, hg])
      exact ⟨_, e, by simp, fin g (fun r hr c hc => h1 c hc r hr)
        (fun m hm => h2 m (fun c hc r hr => hm r hr c hc))⟩

/-- Both whole-buffer layouts are valid views, so the theorem covers them. -/
example : (MatView.right 3 4).Valid 12 ∧ (MatView.left 3 4).Valid 12 :=
  ⟨MatView.right_valid 3 4, MatView.left_valid 3 4⟩

/-- **C60** (matrices, `fill` and `scale`): every element of the view becomes the value, respectively is multiplied
by the factor; the rest of the storage is unchanged. -/
theorem C60_matrix_fill_scale [Mul α] (colMajor : Bool) (a : α) (v : MatView) (data : List α)
    (hv : v.Valid data.length) :
    (∃ d, fillMat colMajor v data a = .ok d ∧ d.length = data.length ∧
      (∀ r < v.rows, ∀ c < v.cols, d[v.idx r c]? = some a) ∧
      (∀ m, (∀ r < v.rows, ∀ c < v.cols, v.idx r c ≠ m) → d[m]? = data[m]?)) ∧
    (∃ d, scaleMat colMajor a v data = .ok d ∧ d.length = data.length ∧
      (∀ r < v.rows, ∀ c < v.cols, ∀ x, data[v.idx r c]? = some x → d[v.idx r c]? = some (x * a)) ∧
      (∀ m, (∀ r < v.rows, ∀ c < v.cols, v.idx r c ≠ m) → d[m]? = data[m]?)) := by
  constructor
  · obtain ⟨d, e, h1, h2, h3⟩ := C60_matrix_unary colMajor (fun _ => a) v data hv
    refine ⟨d, e, h1, fun r hr c hc => ?_, h3⟩
    rw [h2 r hr c hc, List.getElem?_eq_getElem (hv.1 r hr c hc)]
    rfl
  · obtain ⟨d, e, h1, h2, h3⟩ := C60_matrix_unary colMajor (fun x => x * a) v data hv
    refine ⟨d, e, h1, fun r hr c hc x hx => ?_, h3⟩
    rw [h2 r hr c hc, hx]
    rfl

/-- **C60** (matrices, binary): element `(r, c)` of the output view becomes `op x(r,c) y(r,c)`, the
rest of its storage is unchanged; the three views may have different layouts. -/
theorem C60_matrix_binary (op : α → α → α) (vx vy vo : MatView) (x y out : List α)
    (hr : vx.rows = vy.rows) (hc : vx.cols = vy.cols) (hr' : vx.rows = vo.rows)
    (hc' : vx.cols = vo.cols)
    (hx : vx.Valid x.length) (hy : vy.Valid y.length) (hv : vo.Valid out.length) :
    ∃ d, binaryOp2 op vx x vy y vo out = .ok d ∧ d.length = out.length ∧
      (∀ r < vo.rows, ∀ c < vo.cols, ∃ a b, x[vx.idx r c]? = some a ∧ y[vy.idx r c]? = some b ∧
        d[vo.idx r c]? = some (op a b)) ∧
      (∀ m, (∀ r < vo.rows, ∀ c < vo.cols, vo.idx r c ≠ m) → d[m]? = out[m]?) := by
  unfold binaryOp2
  rw [check_decide_ok ⟨hr, hc, hr', hc'⟩, bind_ok, hr', hc']
  cases out with
  | nil =>
    have h0 : vo.rows = 0 ∨ vo.cols = 0 := by
      by_contra h
      push Not at h
      have := hv.1 0 (by omega) 0 (by omega)
      simp at this
    refine ⟨[], ?_, rfl, ?_, fun _ _ => rfl⟩
    · have : ∀ k, forN k (fun _ (d : List α) => (.ok d : Res (List α))) [] = .ok [] := fun k =>
        forN_eq' (fun _ => []) rfl rfl (fun _ _ => rfl)
      rcases h0 with h | h <;> simp [h, forN_zero, this]
    · intro r hr c hc; rcases h0 with h | h <;> omega
  | cons d0 ds =>
    obtain ⟨f, n, hf⟩ : ∃ f n, d0 :: ds = vec n f := ⟨_, _, eq_vec_getD _ d0⟩
    rw [hf] at hv ⊢
    rw [length_vec] at hv
    obtain ⟨g, e, h1, h2⟩ := forN2_update (n := n) vo.idx f
      (fun r c => op (x.getD (vx.idx r c) d0) (y.getD (vy.idx r c) d0)) hv.2
      (fun i j out => do
        let a ← rd x (vx.idx i j)
        let b ← rd y (vy.idx i j)
        wr out (vo.idx i j) (op a b)) (fun r hr1 c hc1 g hg => by
          have t1 := hx.1 r (by omega) c (by omega)
          have t2 := hy.1 r (by omega) c (by omega)
          have t3 := hv.1 r hr1 c hc1
          conv_lhs => rw [eq_vec_getD x d0, eq_vec_getD y d0, rd_vec_ok t1, bind_ok, rd_vec_ok t2,
            bind_ok, wr_vec_ok t3])
    refine ⟨_, e, by simp, ?_, ?_⟩
    · intro r hr1 c hc1
      have t1 := hx.1 r (by omega) c (by omega)
      have t2 := hy.1 r (by omega) c (by omega)
      have t3 := hv.1 r hr1 c hc1
      refine ⟨x.getD (vx.idx r c) d0, y.getD (vy.idx r c) d0, ?_, ?_, ?_⟩
      · simp [List.getElem?_eq_getElem t1]
      · simp [List.getElem?_eq_getElem t2]
      · rw [getElem?_vec, if_pos t3, h1 r hr1 c hc1]
    · intro m hm
      rw [getElem?_vec, getElem?_vec, h2 m hm]

/-- **C60** (matrices, copy). -/
theorem C60_matrix_copy (vi vo : MatView) (input out : List α)
    (hr : vi.rows = vo.rows) (hc : vi.cols = vo.cols)
    (hi : vi.Valid input.length) (hv : vo.Valid out.length) :
    ∃ d, copyMat vi input vo out = .ok d ∧ d.length = out.length ∧
      (∀ r < vo.rows, ∀ c < vo.cols, d[vo.idx r c]? = input[vi.idx r c]?) ∧
      (∀ m, (∀ r < vo.rows, ∀ c < vo.cols, vo.idx r c ≠ m) → d[m]? = out[m]?) := by
  obtain ⟨d, e, l, h1, h2⟩ := C60_matrix_binary (fun a _ => a) vi vi vo input input out rfl rfl hr hc
    hi hi hv
  refine ⟨d, ?_, l, ?_, h2⟩
  · rw [← e]
    unfold copyMat binaryOp2
    rw [check_decide_ok ⟨hr, hc⟩, check_decide_ok ⟨rfl, rfl, hr, hc⟩, bind_ok, bind_ok]
    apply forN_congr
    intro i _ s
    apply forN_congr
    intro j _ s
    cases rd input (vi.idx i j) <;> rfl
  · intro r hr1 c hc1
    obtain ⟨a, b, ha, -, hd⟩ := h1 r hr1 c hc1
    rw [hd, ha]

example : ∃ d, copyMat (.right 2 3) [1, 2, 3, 4, 5, 6] (.left 2 3) [0, 0, 0, 0, 0, 0] = .ok d ∧
    d = [1, 4, 2, 5, 3, 6] := ⟨_, rfl, rfl⟩

/-- **C60**: mismatched matrix extents are an assertion failure. -/
theorem C60_matrix_mismatch (op : α → α → α) (vx vy vo : MatView) (x y out : List α) :
    (¬ (vx.rows = vo.rows ∧ vx.cols = vo.cols) → copyMat vx x vo out = .error .assertion) ∧
    (¬ (vx.rows = vy.rows ∧ vx.cols = vy.cols ∧ vx.rows = vo.rows ∧ vx.cols = vo.cols) →
      binaryOp2 op vx x vy y vo out = .error .assertion) :=
  ⟨fun h => bind_check_false h _, fun h => bind_check_false h _⟩

/-- **C60**: copying between interleaved and split-complex buffers is exact, and the two copies are
inverse to each other. -/
theorem C60_split_copy (z : List ℂ) (re im : List ℝ) (out : List ℂ) (h1 : re.length = z.length)
    (h2 : im.length = z.length) (h3 : out.length = z.length) :
    copyToSplit z re im = .ok (z.map Complex.re, z.map Complex.im) ∧
    copyFromSplit (z.map Complex.re) (z.map Complex.im) out = .ok z := by
  generalize hn : z.length = n at *
  obtain ⟨z', rfl⟩ : ∃ f, z = vec n f := ⟨_, list_eq_vec 0 hn⟩
  obtain ⟨r', rfl⟩ : ∃ f, re = vec n f := ⟨_, list_eq_vec 0 h1⟩
  obtain ⟨i', rfl⟩ : ∃ f, im = vec n f := ⟨_, list_eq_vec 0 h2⟩
  obtain ⟨o', rfl⟩ : ∃ f, out = vec n f := ⟨_, list_eq_vec 0 h3⟩
  rw [map_vec, map_vec]
  constructor
  · unfold copyToSplit
    simp only [length_vec, and_self, decide_true, check_true, bind_ok]
    apply forN_eq' (fun i => (vec n (fun k => if k < i then (z' k).re else r' k),
      vec n (fun k => if k < i then (z' k).im else i' k)))
    · simp
    · rw [Prod.mk.injEq]
      exact ⟨vec_ext (fun k hk => by simp [hk]), vec_ext (fun k hk => by simp [hk])⟩
    · intro i hi
      simp only []
      rw [rd_vec_ok hi, bind_ok, wr_vec_ok hi, bind_ok, wr_vec_ok hi, bind_ok, pure_eq_ok]
      congr 2
      · apply vec_ext
        intro k _
        by_cases h : k = i
        · subst h; simp [CplxParts.re, CplxParts.im]
        · have : k < i + 1 ↔ k < i := by omega
          simp [h, this]
      · apply vec_ext
        intro k _
        by_cases h : k = i
        · subst h; simp [CplxParts.re, CplxParts.im]
        · have : k < i + 1 ↔ k < i := by omega
          simp [h, this]
  · unfold copyFromSplit
    simp only [length_vec, and_self, decide_true, check_true, bind_ok]
    exact forN_map o' (fun i _ => z' i) _ (fun i hi h _ => by
      rw [rd_vec_ok hi, bind_ok, rd_vec_ok hi, bind_ok, wr_vec_ok hi])

example : copyToSplit ([⟨1, 2⟩, ⟨3, 4⟩] : List ℂ) [0, 0] [0, 0] = .ok ([1, 3], [2, 4]) :=
  (C60_split_copy [⟨1, 2⟩, ⟨3, 4⟩] [0, 0] [0, 0] [0, 0] rfl rfl rfl).1

end Neo.Props
