import Verif.Lemmas.Csr
import Mathlib.Data.List.TakeWhile

/-!
# Compressed sparse row matrices: C32, C33, C34
-/

namespace Neo.Props

variable {α : Type}

/-! ## C32 -/

/-- **C32**: the matrix built from a dense one and a predicate reads back the accepted elements and
zero elsewhere; the construction never leaves its buffers. -/
theorem C32_csr_from_dense [Zero α] (R C : ℕ) (m : ℕ → ℕ → α) (p : ℕ → ℕ → α → Bool) :
    ∃ M, Csr.ofDense R C m p = .ok M ∧ M.rows = R ∧ M.cols = C ∧
      ∀ r < R, ∀ c < C, M.get r c = .ok (if p r c (m r c) then m r c else 0) := by
  obtain ⟨M, e, h1, h2, hrep⟩ := CsrRep.ofDense R C m p
  refine ⟨M, e, h1, h2, fun r hr c hc => ?_⟩
  rw [hrep.get (by omega), rowLookup_denseRow m p r C hc]

example : ∃ M : Csr ℤ, Csr.ofDense 2 3 (fun r c => (r : ℤ) * 3 + c) (fun _ _ v => v % 2 = 0) = .ok M ∧
    M.values = [0, 2, 4] ∧ M.colIdx = [0, 2, 1] ∧ M.rowIdx = [0, 2, 3] := by
  refine ⟨⟨2, 3, [0, 2, 4], [0, 2, 1], [0, 2, 3]⟩, ?_, rfl, rfl, rfl⟩
  decide +kernel

/-! ## C33 -/

/-- The matrices obtainable by the public interface, with the values they are supposed to hold:
empty, built from a dense matrix, or by an in-range `insert`. -/
inductive CsrReach [Zero α] (R C : ℕ) : Csr α → (ℕ → ℕ → α) → Prop
  | empty : CsrReach R C (Csr.empty R C) (fun _ _ => 0)
  | dense (m : ℕ → ℕ → α) (p : ℕ → ℕ → α → Bool) (M : Csr α) (h : Csr.ofDense R C m p = .ok M) :
      CsrReach R C M (fun r c => if c < C ∧ p r c (m r c) then m r c else 0)
  | insert (M M' : Csr α) (f : ℕ → ℕ → α) (r c : ℕ) (v : α) (hr : r < R) (hc : c < C)
      (hM : CsrReach R C M f) (h : M.insert r c v = .ok M') :
      CsrReach R C M' (fun r' c' => if r' = r ∧ c' = c then v else f r' c')

/-- The row structure behind a reachable matrix. -/
theorem csrReach_rep [Zero α] {R C : ℕ} {M : Csr α} {f : ℕ → ℕ → α} (h : CsrReach R C M f) :
    M.rows = R ∧ M.cols = C ∧ ∃ E, CsrRep M E ∧ (∀ r < R, ∀ c, rowLookup (E r) c = f r c) ∧
      (∀ r < R, (E r).Pairwise (fun a b => a.1 ≤ b.1)) ∧ (∀ r < R, ∀ e ∈ E r, e.1 < C) := by
  induction h with
  | empty => exact ⟨rfl, rfl, _, csrRep_empty R C, fun _ _ _ => rfl, by simp, by simp⟩
  | dense m p M h =>
    obtain ⟨M', e, h1, h2, hrep⟩ := CsrRep.ofDense R C m p
    rw [h] at e
    injection e with e
    subst e
    refine ⟨h1, h2, _, hrep, ?_, ?_, fun r _ => denseRow_lt m p r C⟩
    · intro r _ c
      by_cases hc : c < C
      · rw [rowLookup_denseRow m p r C hc]; simp [hc]
      · have : rowLookup (denseRow m p r C) c = 0 := by
          unfold rowLookup
          rw [List.find?_eq_none.2]
          · rfl
          · intro a ha
            have := denseRow_lt m p r C a ha
            simp only [decide_eq_true_eq]; omega
        simp only [this, hc, false_and, if_false]
    · intro r _
      unfold denseRow
      rw [List.pairwise_map]
      exact (List.pairwise_lt_range.imp (fun h => Nat.le_of_lt h)).filter _
  | insert M M' f r c v hr hc hM h ih =>
    obtain ⟨h1, h2, E, hrep, hf, hs, hlt⟩ := ih
    obtain ⟨M'', e, g1, g2, hrep'⟩ := hrep.insert (by omega : r < M.rows) c v
    rw [h] at e
    injection e with e
    subst e
    refine ⟨by omega, by omega, _, hrep', ?_, ?_, ?_⟩
    · intro r' hr' c'
      beta_reduce
      by_cases hrr : r' = r
      · subst hrr
        rw [Function.update_self]
        by_cases hcc : c' = c
        · subst hcc
          rw [if_pos ⟨rfl, rfl⟩]
          unfold rowLookup rowInsert
          rw [List.find?_append, List.find?_eq_none.2]
          · simp
          · intro a ha
            have := List.mem_takeWhile_imp ha
            simp only [decide_eq_true_eq] at this ⊢
            omega
        · rw [if_neg (by tauto), ← hf r' hr' c']
          unfold rowLookup rowInsert
          conv_rhs => rw [← List.takeWhile_append_dropWhile (p := fun e => decide (e.1 < c)) (l := E r')]
          rw [List.find?_append, List.find?_append, List.find?_cons]
          simp [Ne.symm hcc]
      · rw [Function.update_of_ne hrr, if_neg (by tauto), hf r' hr']
    · intro r' hr'
      by_cases hrr : r' = r
      · subst hrr
        rw [Function.update_self]
        unfold rowInsert
        have hsr := hs r' hr'
        rw [← List.takeWhile_append_dropWhile (p := fun e => decide (e.1 < c)) (l := E r'),
          List.pairwise_append] at hsr
        rw [List.pairwise_append, List.pairwise_cons]
        refine ⟨hsr.1, ⟨?_, hsr.2.1⟩, ?_⟩
        · intro a ha
          have hne : (E r').dropWhile (fun e => decide (e.1 < c)) ≠ [] := by
            intro h0; rw [h0] at ha; simp at ha
          have hhead := List.head_dropWhile_not (fun e : ℕ × α => decide (e.1 < c)) hne
          simp only [decide_eq_false_iff_not, not_lt] at hhead
          have hpw := hsr.2.1
          generalize hD : (E r').dropWhile (fun e => decide (e.1 < c)) = D at *
          cases D with
          | nil => simp at ha
          | cons d D =>
            rw [List.pairwise_cons] at hpw
            rw [List.mem_cons] at ha
            rcases ha with rfl | ha
            · exact hhead
            · exact le_trans hhead (hpw.1 a ha)
        · intro a ha b hb
          have h1 := List.mem_takeWhile_imp ha
          simp only [decide_eq_true_eq] at h1
          rw [List.mem_cons] at hb
          rcases hb with rfl | hb
          · exact h1.le
          · exact hsr.2.2 a ha b hb
      · rw [Function.update_of_ne hrr]; exact hs r' hr'
    · intro r' hr' e he
      by_cases hrr : r' = r
      · subst hrr
        rw [Function.update_self] at he
        unfold rowInsert at he
        rw [List.mem_append, List.mem_cons] at he
        rcases he with he | rfl | he
        · exact hlt r' hr' e ((List.takeWhile_sublist _).subset he)
        · exact hc
        · exact hlt r' hr' e ((List.dropWhile_sublist _).subset he)
      · rw [Function.update_of_ne hrr] at he; exact hlt r' hr' e he

/-- **C33** (no fault): every in-range `insert` on a reachable matrix succeeds. -/
theorem C33_insert_total [Zero α] {R C : ℕ} {M : Csr α} {f : ℕ → ℕ → α} (h : CsrReach R C M f)
    (r c : ℕ) (hr : r < R) (v : α) : ∃ M', M.insert r c v = .ok M' := by
  obtain ⟨h1, -, E, hrep, -⟩ := csrReach_rep h
  obtain ⟨M', e, -⟩ := hrep.insert (by omega : r < M.rows) c v
  exact ⟨M', e⟩

/-- **C33** (map semantics): reading any element yields the last value inserted there, or the
initial one. -/
theorem C33_get [Zero α] {R C : ℕ} {M : Csr α} {f : ℕ → ℕ → α} (h : CsrReach R C M f)
    (r c : ℕ) (hr : r < R) : M.get r c = .ok (f r c) := by
  obtain ⟨h1, -, E, hrep, hf, -⟩ := csrReach_rep h
  rw [hrep.get (by omega), hf r hr]

/-- **C33** (consistency): row offsets start at 0, are monotone and end at the number of stored
values; column and value arrays have equal length; within a row the columns are sorted and in
range. -/
theorem C33_structure [Zero α] {R C : ℕ} {M : Csr α} {f : ℕ → ℕ → α} (h : CsrReach R C M f) :
    M.rowIdx.length = R + 1 ∧ M.rowIdx[0]? = some 0 ∧ M.rowIdx[R]? = some M.values.length ∧
    M.colIdx.length = M.values.length ∧
    ∀ r < R, ∃ lo hi, M.rowIdx[r]? = some lo ∧ M.rowIdx[r + 1]? = some hi ∧ lo ≤ hi ∧
      hi ≤ M.values.length ∧
      (∀ i, lo ≤ i → i < hi → ∃ c, M.colIdx[i]? = some c ∧ c < C) ∧
      (∀ i j a b, lo ≤ i → i < j → j < hi → M.colIdx[i]? = some a → M.colIdx[j]? = some b →
        a ≤ b) := by
  obtain ⟨h1, h2, E, hrep, -, hs, hlt⟩ := csrReach_rep h
  have hri : ∀ r ≤ R, M.rowIdx[r]? = some (flatRows E r).length := by
    intro r hr
    rw [hrep.rowIdx, getElem?_vec, if_pos (by omega)]
  have hvl : M.values.length = (flatRows E R).length := by rw [hrep.values, h1]; simp
  have hcl : M.colIdx.length = (flatRows E R).length := by rw [hrep.colIdx, h1]; simp
  refine ⟨by rw [hrep.rowIdx, length_vec, h1], by rw [hri 0 (by omega)]; rfl,
    by rw [hri R le_rfl, hvl], by omega, ?_⟩
  intro r hr
  obtain ⟨rest, e⟩ := flatRows_row E hr
  have hcol : ∀ i, (flatRows E r).length ≤ i → i < (flatRows E (r + 1)).length →
      ∃ x, (E r)[i - (flatRows E r).length]? = some x ∧ M.colIdx[i]? = some x.1 := by
    intro i hi1 hi2
    rw [flatRows_succ, List.length_append] at hi2
    have hk : i - (flatRows E r).length < (E r).length := by omega
    refine ⟨_, List.getElem?_eq_getElem hk, ?_⟩
    rw [hrep.colIdx, h1, e, List.getElem?_map, List.getElem?_append_right hi1,
      List.getElem?_append_left hk, List.getElem?_eq_getElem hk]
    rfl
  refine ⟨_, _, hri r hr.le, hri (r + 1) hr, ?_, ?_, ?_, ?_⟩
  · rw [flatRows_succ, List.length_append]; omega
  · rw [hvl, e, flatRows_succ]; simp
  · intro i hi1 hi2
    obtain ⟨x, hx, hx'⟩ := hcol i hi1 hi2
    exact ⟨x.1, hx', hlt r hr x (List.mem_of_getElem? hx)⟩
  · intro i j a b hi1 hij hj ha hb
    obtain ⟨x, hx, hx'⟩ := hcol i hi1 (by omega)
    obtain ⟨y, hy, hy'⟩ := hcol j (by omega) hj
    rw [hx'] at ha
    rw [hy'] at hb
    injection ha with ha
    injection hb with hb
    subst ha hb
    obtain ⟨k1, e1⟩ := List.getElem?_eq_some_iff.1 hx
    obtain ⟨k2, e2⟩ := List.getElem?_eq_some_iff.1 hy
    have := List.pairwise_iff_getElem.1 (hs r hr) _ _ k1 k2 (by omega)
    rw [e1, e2] at this
    exact this

/-- A reachable matrix with an overwritten element. -/
example : ∃ M : Csr ℤ, CsrReach 2 2 M (fun r c => if r = 1 ∧ c = 0 then 7 else
    if r = 1 ∧ c = 0 then 5 else 0) ∧ M.get 1 0 = .ok 7 := by
  have e1 : (Csr.empty 2 2 : Csr ℤ).insert 1 0 5 = .ok ⟨2, 2, [5], [0], [0, 0, 1]⟩ := by
    decide +kernel
  have e2 : (⟨2, 2, [5], [0], [0, 0, 1]⟩ : Csr ℤ).insert 1 0 7
      = .ok ⟨2, 2, [7, 5], [0, 0], [0, 0, 2]⟩ := by decide +kernel
  have h := CsrReach.insert _ _ _ 1 0 7 (by omega) (by omega)
    (CsrReach.insert _ _ _ 1 0 5 (by omega) (by omega) CsrReach.empty e1) e2
  refine ⟨_, h, ?_⟩
  rw [C33_get h 1 0 (by omega)]; simp

/-! ## C34 -/

theorem csrRow_col {M : Csr α} {E : ℕ → List (ℕ × α)} (hrep : CsrRep M E) {r lo hi : ℕ}
    (hr : r < M.rows) (hlo : M.rowIdx[r]? = some lo) (hhi : M.rowIdx[r + 1]? = some hi) :
    hi = lo + (E r).length ∧ ∀ k < (E r).length, M.colIdx[lo + k]? = (E r)[k]?.map Prod.fst := by
  rw [hrep.rowIdx, getElem?_vec, if_pos (by omega)] at hlo hhi
  injection hlo with hlo
  injection hhi with hhi
  rw [flatRows_succ, List.length_append, hlo] at hhi
  refine ⟨hhi.symm, fun k hk => ?_⟩
  obtain ⟨rest, e⟩ := flatRows_row E hr
  rw [hrep.colIdx, e, List.getElem?_map, List.getElem?_append_right (by omega), hlo,
    Nat.add_sub_cancel_left, List.getElem?_append_left hk]

theorem csrRow_nodup {M : Csr α} {E : ℕ → List (ℕ × α)} (hrep : CsrRep M E) {r lo hi : ℕ}
    (hr : r < M.rows) (hlo : M.rowIdx[r]? = some lo) (hhi : M.rowIdx[r + 1]? = some hi)
    (hdup : ∀ i j, lo ≤ i → i < j → j < hi → M.colIdx[i]? ≠ M.colIdx[j]?) :
    ((E r).map Prod.fst).Nodup := by
  obtain ⟨h1, h2⟩ := csrRow_col hrep hr hlo hhi
  rw [List.Nodup, List.pairwise_iff_getElem]
  intro i j hi' hj' hij heq
  rw [List.length_map] at hi' hj'
  apply hdup (lo + i) (lo + j) (by omega) (by omega) (by omega)
  rw [h2 i hi', h2 j hj', List.getElem?_eq_getElem hi', List.getElem?_eq_getElem hj']
  simpa using heq

theorem csrRow_mem {M : Csr α} {E : ℕ → List (ℕ × α)} (hrep : CsrRep M E) {r lo hi : ℕ}
    (hr : r < M.rows) (hlo : M.rowIdx[r]? = some lo) (hhi : M.rowIdx[r + 1]? = some hi) (c : ℕ) :
    (∃ i, lo ≤ i ∧ i < hi ∧ M.colIdx[i]? = some c) ↔ c ∈ (E r).map Prod.fst := by
  obtain ⟨h1, h2⟩ := csrRow_col hrep hr hlo hhi
  constructor
  · rintro ⟨i, hi1, hi2, hc⟩
    have hk : i - lo < (E r).length := by omega
    have := h2 (i - lo) hk
    rw [show lo + (i - lo) = i by omega, hc, List.getElem?_eq_getElem hk] at this
    simp only [Option.map_some, Option.some.injEq] at this
    exact List.mem_map.2 ⟨_, List.getElem_mem hk, this.symm⟩
  · intro hm
    obtain ⟨e, he, rfl⟩ := List.mem_map.1 hm
    obtain ⟨k, hk, rfl⟩ := List.getElem_of_mem he
    exact ⟨lo + k, by omega, by omega, by rw [h2 k hk, List.getElem?_eq_getElem hk]; rfl⟩

/-- **C34** (part): the in-place sparse multiply-add `multiply_add(x, y, row, acc, acc)`, as used by
the sparse convolver, adds `x[c] * y(row, c)` to every element when the row has at most one entry
per column.

Missing for the full statement: an output buffer different from `z`, see `C34_distinct_output`
and `C34_distinct_output_fails`. -/
theorem C34_sparse_multiply_add_partial [Semiring α] {R C : ℕ} {M : Csr α} {f : ℕ → ℕ → α}
    (h : CsrReach R C M f) (r lo hi : ℕ) (hr : r < R) (hlo : M.rowIdx[r]? = some lo)
    (hhi : M.rowIdx[r + 1]? = some hi)
    (hdup : ∀ i j, lo ≤ i → i < j → j < hi → M.colIdx[i]? ≠ M.colIdx[j]?)
    (x acc : ℕ → α) :
    csrMultiplyAddAcc (vec C x) M r (vec C acc) = .ok (vec C (fun c => x c * f r c + acc c)) := by
  obtain ⟨h1, h2, E, hrep, hf, -, hlt⟩ := csrReach_rep h
  have hnd := csrRow_nodup hrep (by omega) hlo hhi hdup
  have := hrep.macc (by omega : r < M.rows) (by rw [h2]; exact hlt r hr) x acc
  rw [h2] at this
  rw [this]
  congr 1
  apply vec_ext
  intro c _
  rw [rowAcc_eq x acc (E r) hnd, hf r hr]

/-- **C34**: matrices built from a dense one have no duplicates, so the in-place multiply-add is
correct for them without further hypothesis. -/
theorem C34_from_dense [Semiring α] (R C : ℕ) (m : ℕ → ℕ → α) (p : ℕ → ℕ → α → Bool) {M : Csr α}
    (h : Csr.ofDense R C m p = .ok M) {r : ℕ} (hr : r < R) (x acc : ℕ → α) :
    csrMultiplyAddAcc (vec C x) M r (vec C acc)
      = .ok (vec C (fun c => x c * (if p r c (m r c) then m r c else 0) + acc c)) :=
  ofDense_macc R C m p h hr x acc

/-- **C34**: with an output buffer different from `z`, only the stored columns are written; the
others keep the old content of `out`. -/
theorem C34_distinct_output [Semiring α] {R C : ℕ} {M : Csr α} {f : ℕ → ℕ → α}
    (h : CsrReach R C M f) (r lo hi : ℕ) (hr : r < R) (hlo : M.rowIdx[r]? = some lo)
    (hhi : M.rowIdx[r + 1]? = some hi)
    (hdup : ∀ i j, lo ≤ i → i < j → j < hi → M.colIdx[i]? ≠ M.colIdx[j]?)
    (x z out : ℕ → α) :
    ∃ y, csrMultiplyAdd (vec C x) M r (vec C z) (vec C out) = .ok y ∧ y.length = C ∧
      ∀ c < C, ((∃ i, lo ≤ i ∧ i < hi ∧ M.colIdx[i]? = some c) → y[c]? = some (x c * f r c + z c)) ∧
        ((¬ ∃ i, lo ≤ i ∧ i < hi ∧ M.colIdx[i]? = some c) → y[c]? = some (out c)) := by
  obtain ⟨h1, h2, E, hrep, hf, -, hlt⟩ := csrReach_rep h
  have hnd := csrRow_nodup hrep (by omega) hlo hhi hdup
  have := hrep.macc_to (by omega : r < M.rows) (by rw [h2]; exact hlt r hr) x z out
  rw [h2] at this
  refine ⟨_, this, length_vec _ _, fun c hc => ?_⟩
  have hmem := csrRow_mem hrep (by omega : r < M.rows) hlo hhi c
  rw [getElem?_vec, if_pos hc, rowAccTo_eq x z out (E r) hnd, hf r hr]
  constructor
  · intro hex
    rw [if_pos (hmem.1 hex)]
  · intro hex
    rw [if_neg (fun hm => hex (hmem.2 hm))]

/-- The full statement of **C34** is false when `out` is not `z`: a missing entry leaves `out`
unchanged instead of copying `z`. -/
theorem C34_distinct_output_fails : ∃ M : Csr ℤ, CsrReach 1 1 M (fun _ _ => 0) ∧
    csrMultiplyAdd [1] M 0 [5] [0] = .ok [0] ∧ (0 : ℤ) ≠ 1 * 0 + 5 :=
  ⟨_, CsrReach.empty, by decide +kernel, by decide⟩

/-- The hypothesis on duplicates is needed: overwriting an element by `insert` keeps the old entry
behind the new one, so that reading yields the new value but `multiply_add` adds both. -/
theorem C34_duplicates_accumulate : ∃ M : Csr ℤ, (∃ f, CsrReach 1 1 M f) ∧
    M.get 0 0 = .ok 3 ∧ csrMultiplyAddAcc [1] M 0 [0] = .ok [5] := by
  have e1 : (Csr.empty 1 1 : Csr ℤ).insert 0 0 2 = .ok ⟨1, 1, [2], [0], [0, 1]⟩ := by
    decide +kernel
  have e2 : (⟨1, 1, [2], [0], [0, 1]⟩ : Csr ℤ).insert 0 0 3
      = .ok ⟨1, 1, [3, 2], [0, 0], [0, 2]⟩ := by decide +kernel
  exact ⟨_, ⟨_, CsrReach.insert _ _ _ 0 0 3 (by omega) (by omega)
    (CsrReach.insert _ _ _ 0 0 2 (by omega) (by omega) CsrReach.empty e1) e2⟩,
    by decide +kernel, by decide +kernel⟩

/-- A matrix meeting the hypotheses. -/
example : csrMultiplyAddAcc [1, 2, 3] (⟨1, 3, [10, 20], [0, 2], [0, 2]⟩ : Csr ℤ) 0 [7, 8, 9]
    = .ok [17, 8, 69] := by decide +kernel

end Neo.Props
