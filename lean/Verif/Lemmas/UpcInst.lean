import Verif.Lemmas.Upc

/-! # Dense, sparse and split instances of the partitioned convolver -/

namespace Neo

/-- Element-wise loop over two buffers. -/
theorem forN_map2 {β γ : Type} {n : ℕ} (f : ℕ → β) (g : ℕ → γ) (F : ℕ → β) (G : ℕ → γ)
    (body : ℕ → List β × List γ → Res (List β × List γ))
    (hbody : ∀ i < n, ∀ (f' : ℕ → β) (g' : ℕ → γ), f' i = f i → g' i = g i →
      body i (vec n f', vec n g')
        = .ok (vec n (Function.update f' i (F i)), vec n (Function.update g' i (G i)))) :
    forN n body (vec n f, vec n g) = .ok (vec n F, vec n G) := by
  have key : ∀ {δ : Type} (u U : ℕ → δ) (i : ℕ),
      vec n (Function.update (fun k => if k < i then U k else u k) i (U i))
        = vec n (fun k => if k < i + 1 then U k else u k) := by
    intro δ u U i
    apply vec_ext
    intro k _
    by_cases h : k = i
    · subst h; simp
    · have : k < i + 1 ↔ k < i := by omega
      simp [h, this]
  apply forN_eq' (fun i => (vec n (fun k => if k < i then F k else f k),
      vec n (fun k => if k < i then G k else g k)))
  · simp
  · rw [Prod.mk.injEq]
    exact ⟨vec_ext (fun k hk => by simp [hk]), vec_ext (fun k hk => by simp [hk])⟩
  · intro i hi
    rw [hbody i hi _ _ (by simp) (by simp), key, key]

/-- The parts determine the number, and sums of products are formed from the parts by the textbook formulas,
in this order of operations. -/
class LawfulParts (R C : Type) [Zero R] [Add R] [Sub R] [Mul R] [Zero C] [Add C] [Mul C] [CplxParts R C] : Prop where
  mk_re_im : ∀ z : C, CplxParts.make (CplxParts.re z) (CplxParts.im z) = z
  re_zero : CplxParts.re (0 : C) = 0
  im_zero : CplxParts.im (0 : C) = 0
  re_mac : ∀ a x y : C, CplxParts.re (a + x * y)
    = CplxParts.re x * CplxParts.re y - CplxParts.im x * CplxParts.im y + CplxParts.re a
  im_mac : ∀ a x y : C, CplxParts.im (a + x * y)
    = CplxParts.re x * CplxParts.im y + CplxParts.im x * CplxParts.re y + CplxParts.im a

instance : LawfulParts ℝ ℂ where
  mk_re_im _ := rfl
  re_zero := rfl
  im_zero := rfl
  re_mac a x y := by show (a + x * y).re = _; rw [Complex.add_re, Complex.mul_re, add_comm]; rfl
  im_mac a x y := by show (a + x * y).im = _; rw [Complex.add_im, Complex.mul_im, add_comm]; rfl

theorem copyToSplit_parts {R K : Type} [CplxParts R K] {n : ℕ} (z : ℕ → K) (r i : ℕ → R) :
    copyToSplit (vec n z) (vec n r) (vec n i)
      = .ok (vec n (fun k => CplxParts.re (z k)), vec n (fun k => CplxParts.im (z k))) := by
  unfold copyToSplit
  simp only [length_vec, and_self, decide_true, check_true, bind_ok]
  apply forN_map2
  intro k hk f' g' _ _
  simp only []
  rw [rd_vec_ok hk, bind_ok, wr_vec_ok hk, bind_ok, wr_vec_ok hk, bind_ok, pure_eq_ok]

theorem copyToSplit_vec {n : ℕ} (z : ℕ → ℂ) (r i : ℕ → ℝ) :
    copyToSplit (vec n z) (vec n r) (vec n i)
      = .ok (vec n (fun k => (z k).re), vec n (fun k => (z k).im)) := copyToSplit_parts z r i

theorem splitMultiplyAddAcc_vec {R : Type} [Add R] [Sub R] [Mul R] {n : ℕ} (a b c d e f : ℕ → R) :
    splitMultiplyAddAcc (vec n a, vec n b) (vec n c, vec n d) (vec n e, vec n f)
      = .ok (vec n (fun k => (a k * c k - b k * d k) + e k),
          vec n (fun k => (a k * d k + b k * c k) + f k)) := by
  unfold splitMultiplyAddAcc
  simp only [length_vec, and_self, decide_true, check_true, bind_ok]
  apply forN_map2
  intro k hk f' g' h1 h2
  simp only []
  rw [rd_vec_ok hk, bind_ok, rd_vec_ok hk, bind_ok, rd_vec_ok hk, bind_ok, rd_vec_ok hk, bind_ok,
    rd_vec_ok hk, bind_ok, wr_vec_ok hk, bind_ok, rd_vec_ok hk, bind_ok, wr_vec_ok hk, bind_ok,
    pure_eq_ok, h1, h2]

/-! ## Rank-2 arrays -/

/-- The array has `N` rows of `C` elements with content `X`. -/
def Arr2Rep {α : Type} (a : Arr2 α) (N C : ℕ) (X : ℕ → ℕ → α) : Prop :=
  a.rows = N ∧ a.cols = C ∧ ∃ d, a.data = vec (N * C) d ∧ ∀ r < N, ∀ c < C, d (r * C + c) = X r c

theorem row_end {N C r : ℕ} (hr : r < N) : r * C + C ≤ N * C := by
  calc r * C + C = (r + 1) * C := by ring
    _ ≤ N * C := Nat.mul_le_mul_right _ hr

theorem Arr2Rep.row {α : Type} {a : Arr2 α} {N C : ℕ} {X : ℕ → ℕ → α} (h : Arr2Rep a N C X) {r : ℕ}
    (hr : r < N) : a.row r = .ok (vec C (X r)) := by
  obtain ⟨-, h2, d, h3, h4⟩ := h
  unfold Arr2.row
  rw [h2, h3, rdSpan_vec (by omega) (row_end hr), Nat.add_sub_cancel_left]
  congr 1
  exact vec_ext (fun c hc => h4 r hr c hc)

theorem Arr2Rep.write {α : Type} {a : Arr2 α} {N C : ℕ} {X : ℕ → ℕ → α} (h : Arr2Rep a N C X)
    {r : ℕ} (hr : r < N) (g : ℕ → α) :
    ∃ data, wrSpan a.data (r * a.cols) (vec C g) = .ok data ∧
      Arr2Rep { a with data := data } N C (fun r' k => if r' = r then g k else X r' k) := by
  obtain ⟨h1, h2, d, h3, h4⟩ := h
  refine ⟨vec (N * C) (fun i => if r * C ≤ i ∧ i < r * C + C then g (i - r * C) else d i),
    by rw [h2, h3, wrSpan_vec (row_end hr)], h1, h2, _, rfl, ?_⟩
  intro r' hr' c hc
  beta_reduce
  by_cases e : r' = r
  · subst e
    rw [if_pos ⟨by omega, by omega⟩, if_pos rfl]
    congr 1; omega
  · rw [if_neg, if_neg e, h4 r' hr' c hc]
    rintro ⟨k1, k2⟩
    rcases Nat.lt_or_gt_of_ne e with h | h
    · have : r' * C + C ≤ r * C := row_end h
      omega
    · have : r * C + C ≤ r' * C := row_end h
      omega

theorem arr2Rep_zero {α : Type} [Zero α] (N C : ℕ) :
    Arr2Rep ({ rows := N, cols := C, data := vec (N * C) (fun _ => 0) } : Arr2 α) N C
      (fun _ _ => 0) :=
  ⟨rfl, rfl, _, rfl, fun _ _ _ _ => rfl⟩

/-- Filling a right-layout matrix element by element. -/
theorem fillRight {α : Type} [Zero α] (N C : ℕ) (H : ℕ → ℕ → α)
    (body : ℕ → ℕ → List α → Res (List α))
    (hb : ∀ r < N, ∀ c < C, ∀ g, body r c (vec (N * C) g)
      = .ok (vec (N * C) (Function.update g ((MatView.right N C).idx r c) (H r c)))) :
    ∃ d, forN N (fun i out => forN C (fun j out => body i j out) out) (vec (N * C) (fun _ => 0))
        = .ok (vec (N * C) d) ∧ ∀ r < N, ∀ c < C, d (r * C + c) = H r c := by
  obtain ⟨g, e, h1, -⟩ := forN2_update (n := N * C) (R := N) (C := C) (MatView.right N C).idx
    (fun _ => (0 : α)) H (MatView.right_valid N C).2 body (fun r hr c hc g _ => hb r hr c hc g)
  refine ⟨g, e, fun r hr c hc => ?_⟩
  rw [← h1 r hr c hc]
  simp [MatView.right, MatView.idx]

/-- Element `(r, c)` of the matrix seen through `v`. -/
def matAt {K : Type} [Zero K] (v : MatView) (data : List K) (r c : ℕ) : K := data.getD (v.idx r c) 0

/-- Every element of the view lies in the buffer. -/
def MatView.InRange (v : MatView) (n : ℕ) : Prop := ∀ r < v.rows, ∀ c < v.cols, v.idx r c < n

theorem rd_matAt {K : Type} [Zero K] {v : MatView} {data : List K} (hv : v.InRange data.length) {r c : ℕ}
    (hr : r < v.rows) (hc : c < v.cols) : rd data (v.idx r c) = .ok (matAt v data r c) := by
  have := hv r hr c hc
  rw [rd_ok this]
  unfold matAt
  rw [List.getD_eq_getElem?_getD, List.getElem?_eq_getElem this, Option.getD_some]

theorem copyMat_right {K : Type} [Zero K] {v : MatView} {data : List K} (hv : v.InRange data.length) :
    ∃ d, copyMat v data (MatView.right v.rows v.cols) (vec (v.rows * v.cols) (fun _ => 0))
      = .ok (vec (v.rows * v.cols) d) ∧
      ∀ r < v.rows, ∀ c < v.cols, d (r * v.cols + c) = matAt v data r c := by
  unfold copyMat
  rw [check_decide_ok ⟨rfl, rfl⟩, bind_ok]
  apply fillRight
  intro r hr c hc g
  rw [rd_matAt hv hr hc, bind_ok, wr_vec_ok ((MatView.right_valid v.rows v.cols).1 r hr c hc)]

theorem loadPlane_eq {R K : Type} [Zero R] [Zero K] (part : K → R) {v : MatView} {data : List K} (hv : v.InRange data.length) :
    ∃ d, loadPlane part v data = .ok (vec (v.rows * v.cols) d) ∧
      ∀ r < v.rows, ∀ c < v.cols, d (r * v.cols + c) = part (matAt v data r c) := by
  unfold loadPlane
  apply fillRight _ _ (fun r c => part (matAt v data r c))
  intro r hr c hc g
  rw [rd_matAt hv hr hc, bind_ok, wr_vec_ok ((MatView.right_valid v.rows v.cols).1 r hr c hc)]

/-! ## Delay lines -/

theorem denseFdl_law {K : Type} [Zero K] (N C : ℕ) :
    FdlLaw (denseFdlOps (C := K)) N C (fun f X => Arr2Rep f N C X) (fun row f => row = vec C f) := by
  constructor
  · exact arr2Rep_zero N C
  · intro f X g s h hs
    obtain ⟨data, e, hw⟩ := h.write hs g
    refine ⟨_, ?_, hw⟩
    simp only [denseFdlOps]
    rw [h.row hs, bind_ok, copyVec_vec, bind_ok, e, bind_ok, pure_eq_ok]
  · intro f X s h hs
    exact ⟨_, h.row hs, rfl⟩

section split
variable {R K : Type} [Zero R] [Add R] [Sub R] [Mul R] [Zero K] [AddCommMagma K] [Mul K] [CplxParts R K] [LawfulParts R K]

theorem splitFdl_law (N C : ℕ) :
    FdlLaw (splitFdlOps (R := R) (C := K)) N C
      (fun f X => Arr2Rep f.re N C (fun r c => CplxParts.re (X r c)) ∧
        Arr2Rep f.im N C (fun r c => CplxParts.im (X r c)))
      (fun row f => row = (vec C (fun k => CplxParts.re (f k)), vec C (fun k => CplxParts.im (f k)))) := by
  constructor
  · refine ⟨?_, ?_⟩
    · beta_reduce; rw [LawfulParts.re_zero (R := R) (C := K)]; exact arr2Rep_zero N C
    · beta_reduce; rw [LawfulParts.im_zero (R := R) (C := K)]; exact arr2Rep_zero N C
  · rintro f X g s ⟨h1, h2⟩ hs
    obtain ⟨d1, e1, w1⟩ := h1.write hs (fun k => CplxParts.re (g k))
    obtain ⟨d2, e2, w2⟩ := h2.write hs (fun k => CplxParts.im (g k))
    refine ⟨{ re := { f.re with data := d1 }, im := { f.im with data := d2 } }, ?_, ?_, ?_⟩
    · simp only [splitFdlOps]
      rw [h1.row hs, bind_ok, h2.row hs, bind_ok, copyToSplit_parts, bind_ok]
      simp only []
      rw [e1, bind_ok, e2, bind_ok, pure_eq_ok]
    · convert w1 using 3
      beta_reduce
      split_ifs <;> rfl
    · convert w2 using 3
      beta_reduce
      split_ifs <;> rfl
  · rintro f X s ⟨h1, h2⟩ hs
    refine ⟨_, ?_, rfl⟩
    simp only [splitFdlOps]
    rw [h1.row hs, bind_ok, h2.row hs, bind_ok, pure_eq_ok]

/-! ### Rejected insertions -/

theorem Arr2Rep.row_zero {α : Type} {a : Arr2 α} {C : ℕ} {X : ℕ → ℕ → α} (h : Arr2Rep a 0 C X)
    (hC : 1 ≤ C) (r : ℕ) : a.row r = .error .oob := by
  obtain ⟨-, h2, d, h3, -⟩ := h
  unfold Arr2.row rdSpan
  rw [h2, h3, Nat.zero_mul, if_neg]
  rw [length_vec]; omega

theorem copyToSplit_bad {z : List K} {re im : List R} (h : z.length ≠ re.length) :
    copyToSplit z re im = .error .assertion := by
  unfold copyToSplit
  rw [show decide (z.length = re.length ∧ z.length = im.length) = false from by simp [h]]
  rfl

/-- Insertions of a row of the wrong length, or into an empty delay line, fail. -/
structure FdlBad {Fdl Row K : Type} (fo : FdlOps Fdl Row K) (N C : ℕ)
    (FR : Fdl → (ℕ → ℕ → K) → Prop) : Prop where
  length : ∀ f X input s, FR f X → input.length ≠ C → s < N → fo.insert f input s = .error .assertion
  empty : N = 0 → ∀ f X input s, FR f X → fo.insert f input s = .error .oob

theorem denseFdl_bad {N C : ℕ} (hC : 1 ≤ C) :
    FdlBad (denseFdlOps (C := K)) N C (fun f X => Arr2Rep f N C X) := by
  constructor
  · intro f X input s h hl hs
    simp only [denseFdlOps]
    rw [h.row hs, bind_ok, copyVec_bad (by rw [length_vec]; exact hl), bind_error]
  · rintro rfl f X input s h
    simp only [denseFdlOps]
    rw [h.row_zero hC, bind_error]

theorem splitFdl_bad {N C : ℕ} (hC : 1 ≤ C) :
    FdlBad (splitFdlOps (R := R) (C := K)) N C (fun f X => Arr2Rep f.re N C (fun r c => CplxParts.re (X r c)) ∧
      Arr2Rep f.im N C (fun r c => CplxParts.im (X r c))) := by
  constructor
  · rintro f X input s ⟨h1, h2⟩ hl hs
    simp only [splitFdlOps]
    rw [h1.row hs, bind_ok, h2.row hs, bind_ok, copyToSplit_bad (by rw [length_vec]; exact hl),
      bind_error]
  · rintro rfl f X input s ⟨h1, h2⟩
    simp only [splitFdlOps]
    rw [h1.row_zero hC, bind_error]

end split

/-! ## Filters -/

theorem denseFilter_law {K : Type} [Zero K] [AddCommMagma K] [Mul K] {v : MatView} {data : List K}
    (hv : v.InRange data.length) (f0 : Arr2 K) {H : ℕ → ℕ → K} (hH : ∀ r < v.rows, ∀ c < v.cols, matAt v data r c = H r c) :
    ∃ filt, denseFilterOps.load f0 v data () = .ok filt ∧
      FilterLaw denseFilterOps v.rows v.cols (fun row f => row = vec v.cols f)
        (fun acc a => acc = vec v.cols a) filt H := by
  obtain ⟨d, e, hd⟩ := copyMat_right hv
  refine ⟨{ rows := v.rows, cols := v.cols, data := vec (v.rows * v.cols) d }, ?_, ?_, ?_, ?_, ?_⟩
  · simp only [denseFilterOps]
    rw [e, bind_ok, pure_eq_ok]
  · rintro _ f j _ a rfl hj rfl
    have hrep : Arr2Rep ({ rows := v.rows, cols := v.cols, data := vec (v.rows * v.cols) d } : Arr2 K)
        v.rows v.cols H := ⟨rfl, rfl, d, rfl, fun r hr c hc => (hd r hr c hc).trans (hH r hr c hc)⟩
    refine ⟨_, ?_, rfl⟩
    simp only [denseFilterOps]
    rw [hrep.row hj, bind_ok, multiplyAddAcc_vec]
    congr 1
    exact vec_ext (fun k _ => add_comm _ _)
  · rfl
  · rintro _ a rfl
    exact ⟨_, fillVec_vec _ _, rfl⟩
  · rintro _ a g rfl
    exact copyVec_vec _ _

/-- The coefficients kept by a sparse filter. -/
def sparsified {K : Type} [Zero K] (p : ℕ → ℕ → K → Bool) (H : ℕ → ℕ → K) (r c : ℕ) : K :=
  if p r c (H r c) then H r c else 0

theorem sparseFilter_law {v : MatView} {data : List ℂ} (hv : v.InRange data.length) (f0 : Csr ℂ)
    (p : ℕ → ℕ → ℂ → Bool) {H : ℕ → ℕ → ℂ}
    (hH : ∀ r < v.rows, ∀ c < v.cols, sparsified p (matAt v data) r c = H r c) :
    ∃ filt, sparseFilterOps.load f0 v data p = .ok filt ∧
      FilterLaw sparseFilterOps v.rows v.cols (fun row f => row = vec v.cols f)
        (fun acc a => acc = vec v.cols a) filt H := by
  obtain ⟨d, e, hd⟩ := copyMat_right hv
  obtain ⟨M, eM, -⟩ := CsrRep.ofDense v.rows v.cols
    (fun r c => (vec (v.rows * v.cols) d).getD (r * v.cols + c) 0) p
  refine ⟨M, ?_, ?_, ?_, ?_, ?_⟩
  · simp only [sparseFilterOps]
    rw [e, bind_ok, eM]
  · rintro _ f j _ a rfl hj rfl
    refine ⟨_, ?_, rfl⟩
    simp only [sparseFilterOps]
    rw [ofDense_macc _ _ _ _ eM hj]
    congr 1
    apply vec_ext
    intro k hk
    have : j * v.cols + k < v.rows * v.cols := by
      have := row_end (C := v.cols) hj
      omega
    rw [getD_vec _ _ _ _ this, hd j hj k hk, ← hH j hj k hk, sparsified]
    ring
  · rfl
  · rintro _ a rfl
    exact ⟨_, fillVec_vec _ _, rfl⟩
  · rintro _ a g rfl
    exact copyVec_vec _ _

theorem splitFilter_law {R K : Type} [Zero R] [Add R] [Sub R] [Mul R] [Zero K] [AddCommMagma K] [Mul K]
    [CplxParts R K] [LawfulParts R K] {v : MatView} {data : List K} (hv : v.InRange data.length) (f0 : Split2 R)
    {H : ℕ → ℕ → K} (hH : ∀ r < v.rows, ∀ c < v.cols, matAt v data r c = H r c) :
    ∃ filt, splitFilterOps.load f0 v data () = .ok filt ∧
      FilterLaw splitFilterOps v.rows v.cols
        (fun row f => row = (vec v.cols (fun k => CplxParts.re (f k)), vec v.cols (fun k => CplxParts.im (f k))))
        (fun acc a => acc = (vec v.cols (fun k => CplxParts.re (a k)), vec v.cols (fun k => CplxParts.im (a k)))) filt
        H := by
  obtain ⟨d1, e1, h1⟩ := loadPlane_eq (CplxParts.re (C := K)) hv
  obtain ⟨d2, e2, h2⟩ := loadPlane_eq (CplxParts.im (C := K)) hv
  refine ⟨{ re := { rows := v.rows, cols := v.cols, data := vec (v.rows * v.cols) d1 },
            im := { rows := v.rows, cols := v.cols, data := vec (v.rows * v.cols) d2 } },
    ?_, ?_, ?_, ?_, ?_⟩
  · simp only [splitFilterOps]
    rw [e1, bind_ok, e2, bind_ok, pure_eq_ok]
  · rintro _ f j _ a rfl hj rfl
    have r1 : Arr2Rep (Arr2.mk v.rows v.cols (vec (v.rows * v.cols) d1))
        v.rows v.cols (fun r c => CplxParts.re (H r c)) :=
      ⟨rfl, rfl, d1, rfl, fun r hr c hc => by rw [h1 r hr c hc, hH r hr c hc]⟩
    have r2 : Arr2Rep (Arr2.mk v.rows v.cols (vec (v.rows * v.cols) d2))
        v.rows v.cols (fun r c => CplxParts.im (H r c)) :=
      ⟨rfl, rfl, d2, rfl, fun r hr c hc => by rw [h2 r hr c hc, hH r hr c hc]⟩
    refine ⟨_, ?_, rfl⟩
    simp only [splitFilterOps]
    rw [r1.row hj, bind_ok, r2.row hj, bind_ok, splitMultiplyAddAcc_vec]
    congr 2
    · apply vec_ext
      intro k _
      exact (LawfulParts.re_mac _ _ _).symm
    · apply vec_ext
      intro k _
      exact (LawfulParts.im_mac _ _ _).symm
  · beta_reduce
    rw [LawfulParts.re_zero (R := R) (C := K), LawfulParts.im_zero (R := R) (C := K)]
    rfl
  · rintro _ a rfl
    refine ⟨_, ?_, rfl⟩
    simp only [splitFilterOps]
    rw [fillVec_vec, bind_ok, fillVec_vec, bind_ok, pure_eq_ok, LawfulParts.re_zero (R := R) (C := K),
      LawfulParts.im_zero (R := R) (C := K)]
  · rintro _ a g rfl
    simp only [splitFilterOps, length_vec]
    exact forN_map g (fun i _ => a i) _ (fun i hi h _ => by
      rw [rd_vec_ok hi, bind_ok, rd_vec_ok hi, bind_ok, wr_vec_ok hi, LawfulParts.mk_re_im])

end Neo
