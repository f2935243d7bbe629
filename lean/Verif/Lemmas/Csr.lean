import Verif.Model.Csr
import Verif.Lemmas.Algo
import Mathlib.Data.List.Nodup
import Mathlib.Algebra.BigOperators.Group.List.Basic

/-! # Reasoning about `csr_matrix` through its rows -/

namespace Neo

variable {α : Type}

/-- Concatenation of the first `r` rows. -/
def flatRows (E : ℕ → List (ℕ × α)) (r : ℕ) : List (ℕ × α) := (List.range r).flatMap E

theorem flatRows_zero (E : ℕ → List (ℕ × α)) : flatRows E 0 = [] := rfl

theorem flatRows_succ (E : ℕ → List (ℕ × α)) (r : ℕ) :
    flatRows E (r + 1) = flatRows E r ++ E r := by
  simp [flatRows, List.range_succ]

theorem flatRows_split (E : ℕ → List (ℕ × α)) {r R : ℕ} (h : r ≤ R) :
    ∃ rest, flatRows E R = flatRows E r ++ rest := by
  induction R with
  | zero => obtain rfl : r = 0 := by omega
            exact ⟨[], by simp⟩
  | succ R ih =>
    by_cases c : r = R + 1
    · exact ⟨[], by simp [c]⟩
    · obtain ⟨rest, e⟩ := ih (by omega)
      exact ⟨rest ++ E R, by rw [flatRows_succ, e, List.append_assoc]⟩

theorem flatRows_row (E : ℕ → List (ℕ × α)) {r R : ℕ} (h : r < R) :
    ∃ rest, flatRows E R = flatRows E r ++ (E r ++ rest) := by
  obtain ⟨rest, e⟩ := flatRows_split E (show r + 1 ≤ R from h)
  exact ⟨rest, by rw [e, flatRows_succ, List.append_assoc]⟩

theorem flatRows_congr {E E' : ℕ → List (ℕ × α)} {r : ℕ} (h : ∀ i < r, E i = E' i) :
    flatRows E r = flatRows E' r := by
  induction r with
  | zero => rfl
  | succ r ih =>
    rw [flatRows_succ, flatRows_succ, ih (fun i hi => h i (by omega)), h r (by omega)]

/-- `m` stores exactly the rows `E 0, …, E (rows - 1)` of (column, value) entries. -/
structure CsrRep (m : Csr α) (E : ℕ → List (ℕ × α)) : Prop where
  values : m.values = (flatRows E m.rows).map Prod.snd
  colIdx : m.colIdx = (flatRows E m.rows).map Prod.fst
  rowIdx : m.rowIdx = vec (m.rows + 1) (fun r => (flatRows E r).length)

theorem csrRep_empty (R C : ℕ) : CsrRep (Csr.empty R C : Csr α) (fun _ => []) := by
  have h : ∀ r, flatRows (fun _ => ([] : List (ℕ × α))) r = [] := by
    intro r; simp [flatRows]
  constructor
  · simp [Csr.empty, h]
  · simp [Csr.empty, h]
  · simp [Csr.empty, h]

/-- Value of column `col` in a row. -/
def rowLookup [Zero α] (l : List (ℕ × α)) (col : ℕ) : α :=
  ((l.find? (fun e => e.1 = col)).map Prod.snd).getD 0

theorem rd_append_cons {β : Type} (A B : List β) (b : β) : rd (A ++ b :: B) A.length = .ok b := by
  unfold rd
  rw [List.getElem?_append_right le_rfl]; simp

theorem findFrom_eq [Zero α] (m : Csr α) (col : ℕ) (l : List (ℕ × α)) :
    ∀ (A B : List (ℕ × α)), m.values = (A ++ (l ++ B)).map Prod.snd →
      m.colIdx = (A ++ (l ++ B)).map Prod.fst →
      m.findFrom col l.length A.length = .ok (rowLookup l col) := by
  induction l with
  | nil => intro A B _ _; rfl
  | cons e l ih =>
    intro A B hv hc
    simp only [List.length_cons, Csr.findFrom]
    have h1 : rd m.colIdx A.length = .ok e.1 := by
      rw [hc, List.map_append, List.cons_append, List.map_cons]
      simpa using rd_append_cons (A.map Prod.fst) ((l ++ B).map Prod.fst) e.1
    have h2 : rd m.values A.length = .ok e.2 := by
      rw [hv, List.map_append, List.cons_append, List.map_cons]
      simpa using rd_append_cons (A.map Prod.snd) ((l ++ B).map Prod.snd) e.2
    rw [h1, bind_ok]
    by_cases c : e.1 = col
    · rw [if_pos c, h2]
      simp [rowLookup, c]
    · rw [if_neg c]
      have := ih (A ++ [e]) B (by rw [hv]; simp) (by rw [hc]; simp)
      rw [List.length_append, List.length_singleton] at this
      rw [this]
      simp [rowLookup, c]

theorem CsrRep.rowIdx_ok {m : Csr α} {E : ℕ → List (ℕ × α)} (h : CsrRep m E) {r : ℕ}
    (hr : r ≤ m.rows) : rd m.rowIdx r = .ok (flatRows E r).length := by
  rw [h.rowIdx, rd_vec_ok (by omega)]

theorem CsrRep.get [Zero α] {m : Csr α} {E : ℕ → List (ℕ × α)} (h : CsrRep m E) {r : ℕ}
    (hr : r < m.rows) (col : ℕ) : m.get r col = .ok (rowLookup (E r) col) := by
  unfold Csr.get
  obtain ⟨rest, e⟩ := flatRows_row E hr
  rw [h.rowIdx_ok hr.le, bind_ok, h.rowIdx_ok hr, bind_ok, flatRows_succ, List.length_append,
    Nat.add_sub_cancel_left]
  exact findFrom_eq m col (E r) _ rest (by rw [h.values, e]) (by rw [h.colIdx, e])

theorem insertPos_eq (m : Csr α) (col : ℕ) (l : List (ℕ × α)) :
    ∀ (A B : List (ℕ × α)), m.colIdx = (A ++ (l ++ B)).map Prod.fst →
      m.insertPos col l.length A.length
        = .ok (A.length + (l.takeWhile (fun e => decide (e.1 < col))).length) := by
  induction l with
  | nil => intro A B _; rfl
  | cons e l ih =>
    intro A B hc
    simp only [List.length_cons, Csr.insertPos]
    have h1 : rd m.colIdx A.length = .ok e.1 := by
      rw [hc, List.map_append, List.cons_append, List.map_cons]
      simpa using rd_append_cons (A.map Prod.fst) ((l ++ B).map Prod.fst) e.1
    rw [h1, bind_ok]
    by_cases c : e.1 < col
    · rw [if_pos c]
      have := ih (A ++ [e]) B (by rw [hc]; simp)
      rw [List.length_append, List.length_singleton] at this
      rw [this]
      simp [List.takeWhile_cons, c]
      omega
    · rw [if_neg c]
      simp [List.takeWhile_cons, c]

/-- The effect of `insert` on a row. -/
def rowInsert (l : List (ℕ × α)) (col : ℕ) (v : α) : List (ℕ × α) :=
  l.takeWhile (fun e => decide (e.1 < col)) ++ (col, v) :: l.dropWhile (fun e => decide (e.1 < col))

theorem flatRows_update (E : ℕ → List (ℕ × α)) (r col : ℕ) (v : α) (R : ℕ) :
    (r < R → ∃ rest, flatRows E R = flatRows E r ++ (E r ++ rest) ∧
      flatRows (Function.update E r (rowInsert (E r) col v)) R
        = flatRows E r ++ (rowInsert (E r) col v ++ rest)) ∧
    (R ≤ r → flatRows (Function.update E r (rowInsert (E r) col v)) R = flatRows E R) := by
  induction R with
  | zero => exact ⟨fun h => by omega, fun _ => rfl⟩
  | succ R ih =>
    constructor
    · intro h
      rw [flatRows_succ, flatRows_succ]
      by_cases c : r = R
      · subst c
        refine ⟨[], ?_, ?_⟩
        · simp
        · rw [ih.2 le_rfl]; simp
      · obtain ⟨rest, e1, e2⟩ := ih.1 (by omega)
        refine ⟨rest ++ E R, ?_, ?_⟩
        · rw [e1]; simp
        · rw [e2, Function.update_of_ne (by omega)]; simp
    · intro h
      rw [flatRows_succ, flatRows_succ, ih.2 (by omega), Function.update_of_ne (by omega)]

theorem insertAt_append {β : Type} (A B : List β) (b : β) :
    insertAt (A ++ B) A.length b = .ok (A ++ b :: B) := by
  unfold insertAt
  rw [if_pos (by simp)]
  simp

theorem rowInsert_split (l : List (ℕ × α)) (col : ℕ) (v : α) :
    ∃ P Q, l = P ++ Q ∧ P = l.takeWhile (fun e => decide (e.1 < col)) ∧
      rowInsert l col v = P ++ (col, v) :: Q :=
  ⟨_, _, (List.takeWhile_append_dropWhile).symm, rfl, rfl⟩

theorem CsrRep.insert {m : Csr α} {E : ℕ → List (ℕ × α)} (h : CsrRep m E) {r : ℕ}
    (hr : r < m.rows) (col : ℕ) (v : α) :
    ∃ m', m.insert r col v = .ok m' ∧ m'.rows = m.rows ∧ m'.cols = m.cols ∧
      CsrRep m' (Function.update E r (rowInsert (E r) col v)) := by
  obtain ⟨rest, e, e'⟩ := (flatRows_update E r col v m.rows).1 hr
  obtain ⟨P, Q, hl, hP, hI⟩ := rowInsert_split (E r) col v
  unfold Csr.insert
  rw [h.rowIdx_ok hr.le, bind_ok, h.rowIdx_ok hr, bind_ok, flatRows_succ, List.length_append,
    Nat.add_sub_cancel_left, insertPos_eq m col (E r) (flatRows E r) rest (by rw [h.colIdx, e]),
    bind_ok, ← hP]
  have hv : insertAt m.values ((flatRows E r).length + P.length) v
      = .ok ((flatRows (Function.update E r (rowInsert (E r) col v)) m.rows).map Prod.snd) := by
    rw [h.values, e, e', hI, hl]
    have := insertAt_append ((flatRows E r ++ P).map Prod.snd) ((Q ++ rest).map Prod.snd) v
    rw [List.length_map, List.length_append] at this
    simpa using this
  have hc : insertAt m.colIdx ((flatRows E r).length + P.length) col
      = .ok ((flatRows (Function.update E r (rowInsert (E r) col v)) m.rows).map Prod.fst) := by
    rw [h.colIdx, e, e', hI, hl]
    have := insertAt_append ((flatRows E r ++ P).map Prod.fst) ((Q ++ rest).map Prod.fst) col
    rw [List.length_map, List.length_append] at this
    simpa using this
  rw [hv, bind_ok, hc, bind_ok, h.rowIdx]
  rw [forR_eq' (s' := vec (m.rows + 1)
      (fun i => if r + 1 ≤ i then (flatRows E i).length + 1 else (flatRows E i).length))
    (fun i => vec (m.rows + 1)
      (fun k => if r + 1 ≤ k ∧ k < i then (flatRows E k).length + 1 else (flatRows E k).length))
    (by omega) (vec_ext (fun k _ => by rw [if_neg (by omega)]))
    (vec_ext (fun k hk => by simp only [hk, and_true]))]
  · rw [bind_ok, pure_eq_ok]
    refine ⟨_, rfl, rfl, rfl, ?_⟩
    constructor
    · rfl
    · rfl
    · apply vec_ext
      intro i hi
      by_cases c : r + 1 ≤ i
      · rw [if_pos c]
        obtain ⟨rest', f1, f2⟩ := (flatRows_update E r col v i).1 (by omega)
        rw [f1, f2, hI, hl]
        simp only [List.length_append, List.length_cons]
        omega
      · rw [if_neg c, (flatRows_update E r col v i).2 (by omega)]
  · intro i h1 h2
    rw [rd_vec_ok (by omega), bind_ok, if_neg (by omega), wr_vec_ok (by omega)]
    congr 1
    apply vec_ext
    intro k hk
    by_cases c : k = i
    · subst c
      rw [Function.update_self, if_pos (by omega)]
    · rw [Function.update_of_ne c]
      have : (r + 1 ≤ k ∧ k < i + 1) ↔ (r + 1 ≤ k ∧ k < i) := by omega
      simp only [this]

/-! ## Construction from a dense matrix -/

/-- Accepted entries among the first `n` columns of row `r`. -/
def denseRow (m : ℕ → ℕ → α) (p : ℕ → ℕ → α → Bool) (r n : ℕ) : List (ℕ × α) :=
  ((List.range n).filter (fun c => p r c (m r c))).map (fun c => (c, m r c))

theorem denseRow_succ (m : ℕ → ℕ → α) (p : ℕ → ℕ → α → Bool) (r n : ℕ) :
    denseRow m p r (n + 1)
      = if p r n (m r n) then denseRow m p r n ++ [(n, m r n)] else denseRow m p r n := by
  unfold denseRow
  rw [List.range_succ, List.filter_append, List.map_append]
  by_cases c : p r n (m r n)
  · simp [c]
  · simp [c]

theorem denseRow_split (m : ℕ → ℕ → α) (p : ℕ → ℕ → α → Bool) (r : ℕ) {n C : ℕ} (h : n ≤ C) :
    ∃ rest, denseRow m p r C = denseRow m p r n ++ rest := by
  induction C with
  | zero => obtain rfl : n = 0 := by omega
            exact ⟨[], by simp⟩
  | succ C ih =>
    by_cases c : n = C + 1
    · exact ⟨[], by simp [c]⟩
    · obtain ⟨rest, e⟩ := ih (by omega)
      rw [denseRow_succ, e]
      split
      · exact ⟨rest ++ [(C, m r C)], by simp⟩
      · exact ⟨rest, rfl⟩

theorem csrCount_eq (R C : ℕ) (m : ℕ → ℕ → α) (p : ℕ → ℕ → α → Bool) :
    csrCount R C m p = .ok (flatRows (fun r => denseRow m p r C) R).length := by
  unfold csrCount
  apply forN_eq' (fun r => (flatRows (fun r => denseRow m p r C) r).length) rfl rfl
  intro r _
  apply forN_eq' (fun n => (flatRows (fun r => denseRow m p r C) r).length
    + (denseRow m p r n).length) rfl
  · rw [flatRows_succ, List.length_append]
  · intro c _
    rw [denseRow_succ]
    split <;> simp; omega

/-- Partially filled arrays: the entries `L` followed by untouched zeros. -/
def fillState [Zero α] (count : ℕ) (L : List (ℕ × α)) (rowIdx : List ℕ) : CsrFill α where
  values := L.map Prod.snd ++ List.replicate (count - L.length) 0
  colIdx := L.map Prod.fst ++ List.replicate (count - L.length) 0
  rowIdx := rowIdx
  idx := L.length

theorem wr_append_replicate {β : Type} (A : List β) (z b : β) {n : ℕ} (h : 0 < n) :
    wr (A ++ List.replicate n z) A.length b = .ok ((A ++ [b]) ++ List.replicate (n - 1) z) := by
  obtain ⟨k, rfl⟩ : ∃ k, n = k + 1 := ⟨n - 1, by omega⟩
  unfold wr
  rw [if_pos (by simp)]
  simp [List.replicate_succ]

theorem fillElem_eq [Zero α] (m : ℕ → ℕ → α) (p : ℕ → ℕ → α → Bool) {count : ℕ} (r c : ℕ)
    (L : List (ℕ × α)) (rowIdx : List ℕ) (h : p r c (m r c) = true → L.length < count) :
    csrFillElem m p r c (fillState count L rowIdx)
      = .ok (fillState count (if p r c (m r c) then L ++ [(c, m r c)] else L) rowIdx) := by
  unfold csrFillElem
  by_cases hp : p r c (m r c)
  · have hlt := h hp
    rw [if_pos hp, if_pos hp]
    have h1 : wr (fillState count L rowIdx).values (fillState count L rowIdx).idx (m r c)
        = .ok (fillState count (L ++ [(c, m r c)]) rowIdx).values := by
      have := wr_append_replicate (L.map Prod.snd) (0 : α) (m r c)
        (show 0 < count - L.length by omega)
      rw [List.length_map] at this
      simp only [fillState]
      rw [this]
      simp [Nat.sub_sub]
    have h2 : wr (fillState count L rowIdx).colIdx (fillState count L rowIdx).idx c
        = .ok (fillState count (L ++ [(c, m r c)]) rowIdx).colIdx := by
      have := wr_append_replicate (L.map Prod.fst) (0 : ℕ) c
        (show 0 < count - L.length by omega)
      rw [List.length_map] at this
      simp only [fillState]
      rw [this]
      simp [Nat.sub_sub]
    rw [h1, bind_ok, h2, bind_ok, pure_eq_ok]
    simp [fillState]
  · rw [if_neg hp, if_neg hp]

theorem CsrRep.ofDense [Zero α] (R C : ℕ) (m : ℕ → ℕ → α) (p : ℕ → ℕ → α → Bool) :
    ∃ M, Csr.ofDense R C m p = .ok M ∧ M.rows = R ∧ M.cols = C ∧
      CsrRep M (fun r => denseRow m p r C) := by
  unfold Csr.ofDense
  simp only []
  rw [csrCount_eq, bind_ok]
  set E : ℕ → List (ℕ × α) := fun r => denseRow m p r C with hE
  set count := (flatRows E R).length with hcount
  have h0 : CsrFill.mk (vec count (fun _ => (0 : α))) (vec count (fun _ => 0))
      (Csr.empty R C : Csr α).rowIdx 0
      = fillState count [] (vec (R + 1) (fun _ => 0)) := by
    simp [fillState, Csr.empty, vec, List.map_const']
  rw [h0, forN_eq' (s' := fillState count (flatRows E R) (vec (R + 1)
      (fun i => if i < R then (flatRows E i).length else 0)))
    (fun r => fillState count (flatRows E r) (vec (R + 1)
      (fun i => if i < r then (flatRows E i).length else 0))) (by simp [flatRows_zero]) rfl, bind_ok]
  · have hw : wr (fillState count (flatRows E R) (vec (R + 1)
        (fun i => if i < R then (flatRows E i).length else 0))).rowIdx
        ((fillState count (flatRows E R) (vec (R + 1)
          (fun i => if i < R then (flatRows E i).length else 0))).rowIdx.length - 1)
        (fillState count (flatRows E R) (vec (R + 1)
          (fun i => if i < R then (flatRows E i).length else 0))).idx
        = .ok (vec (R + 1) (fun i => (flatRows E i).length)) := by
      simp only [fillState, length_vec, Nat.add_sub_cancel]
      rw [wr_vec_ok (by omega)]
      congr 1
      apply vec_ext
      intro i hi
      by_cases c : i = R
      · subst c; rw [Function.update_self]
      · rw [Function.update_of_ne c, if_pos (by omega)]
    rw [hw, bind_ok, pure_eq_ok]
    refine ⟨_, rfl, rfl, rfl, ?_⟩
    constructor
    · simp [fillState, Csr.empty, ← hcount]
    · simp [fillState, Csr.empty, ← hcount]
    · simp [Csr.empty]
  · intro r hr
    unfold csrFillRow
    have hw : wr (fillState count (flatRows E r) (vec (R + 1)
        (fun i => if i < r then (flatRows E i).length else 0))).rowIdx r
        (fillState count (flatRows E r) (vec (R + 1)
          (fun i => if i < r then (flatRows E i).length else 0))).idx
        = .ok (vec (R + 1) (fun i => if i < r + 1 then (flatRows E i).length else 0)) := by
      simp only [fillState]
      rw [wr_vec_ok (by omega)]
      congr 1
      apply vec_ext
      intro i hi
      by_cases c : i = r
      · subst c; rw [Function.update_self, if_pos (by omega)]
      · rw [Function.update_of_ne c]
        have : i < r + 1 ↔ i < r := by omega
        simp only [this]
    rw [hw, bind_ok]
    obtain ⟨rest, hrest⟩ := flatRows_row E hr
    apply forN_eq' (fun n => fillState count (flatRows E r ++ denseRow m p r n)
      (vec (R + 1) (fun i => if i < r + 1 then (flatRows E i).length else 0)))
    · simp [fillState, denseRow]
    · rw [flatRows_succ]
    · intro c hc
      rw [fillElem_eq]
      · rw [denseRow_succ]
        split <;> simp
      · intro hp
        obtain ⟨rest2, h2⟩ := denseRow_split m p r (show c + 1 ≤ C from hc)
        rw [denseRow_succ, if_pos hp] at h2
        rw [hcount, hrest]
        have : (E r).length = (denseRow m p r c).length + 1 + rest2.length := by
          rw [hE]; simp only []; rw [h2]; simp; omega
        simp only [List.length_append]
        omega

theorem rowLookup_denseRow [Zero α] (m : ℕ → ℕ → α) (p : ℕ → ℕ → α → Bool) (r C : ℕ) {c : ℕ}
    (hc : c < C) : rowLookup (denseRow m p r C) c = if p r c (m r c) then m r c else 0 := by
  unfold rowLookup denseRow
  rw [List.find?_map]
  by_cases hp : p r c (m r c)
  · rw [if_pos hp]
    have : ((List.range C).filter (fun c => p r c (m r c))).find?
        ((fun e => decide (e.1 = c)) ∘ fun c => (c, m r c)) = some c := by
      rw [List.find?_eq_some_iff_append]
      refine ⟨by simp, ?_⟩
      have hmem : c ∈ (List.range C).filter (fun c => p r c (m r c)) := by simp [hc, hp]
      obtain ⟨as, bs, e⟩ := List.append_of_mem hmem
      refine ⟨as, bs, e, ?_⟩
      intro a ha
      have hnd : ((List.range C).filter (fun c => p r c (m r c))).Nodup :=
        List.Nodup.filter _ List.nodup_range
      rw [e] at hnd
      have hne : a ≠ c := by
        rintro rfl
        exact (List.nodup_append.1 hnd).2.2 a ha a (by simp) rfl
      simpa using hne
    rw [this]; rfl
  · rw [if_neg hp]
    have : ((List.range C).filter (fun c => p r c (m r c))).find?
        ((fun e => decide (e.1 = c)) ∘ fun c => (c, m r c)) = none := by
      rw [List.find?_eq_none]
      intro a ha
      rw [List.mem_filter] at ha
      simp only [Function.comp, decide_eq_true_eq]
      rintro rfl
      exact hp ha.2
    rw [this]; rfl

/-! ## Multiply-add -/

/-- The accumulator after adding the contributions of the entries `l`, in order. -/
def rowAcc [Mul α] [Add α] (x : ℕ → α) (l : List (ℕ × α)) (acc : ℕ → α) : ℕ → α :=
  l.foldl (fun acc e => Function.update acc e.1 (x e.1 * e.2 + acc e.1)) acc

theorem csrMac_loop [Mul α] [Add α] {C : ℕ} (x : ℕ → α) (y : Csr α) (l : List (ℕ × α)) :
    ∀ (A B : List (ℕ × α)) (acc : ℕ → α), y.values = (A ++ (l ++ B)).map Prod.snd →
      y.colIdx = (A ++ (l ++ B)).map Prod.fst → (∀ e ∈ l, e.1 < C) →
      forR A.length (A.length + l.length) (fun i acc => csrMacStep (vec C x) y i acc) (vec C acc)
        = .ok (vec C (rowAcc x l acc)) := by
  intro A B acc hv hc hlt
  apply forR_eq' (fun i => vec C (rowAcc x (l.take (i - A.length)) acc)) (by omega)
  · simp [rowAcc]
  · simp
  · intro i h1 h2
    obtain ⟨k, rfl⟩ : ∃ k, i = A.length + k := ⟨i - A.length, by omega⟩
    have hk : k < l.length := by omega
    rw [Nat.add_sub_cancel_left, show A.length + k + 1 - A.length = k + 1 by omega,
      List.take_add_one, List.getElem?_eq_getElem hk]
    simp only [Option.toList_some]
    have hmem := hlt l[k] (List.getElem_mem hk)
    unfold csrMacStep
    have g1 : rd y.colIdx (A.length + k) = .ok l[k].1 := by
      unfold rd
      rw [hc, List.getElem?_map, List.getElem?_append_right (by omega), Nat.add_sub_cancel_left,
        List.getElem?_append_left hk, List.getElem?_eq_getElem hk]
      rfl
    have g2 : rd y.values (A.length + k) = .ok l[k].2 := by
      unfold rd
      rw [hv, List.getElem?_map, List.getElem?_append_right (by omega), Nat.add_sub_cancel_left,
        List.getElem?_append_left hk, List.getElem?_eq_getElem hk]
      rfl
    rw [g1, bind_ok, rd_vec_ok hmem, bind_ok, g2, bind_ok, rd_vec_ok hmem, bind_ok, wr_vec_ok hmem]
    simp only [rowAcc, List.foldl_append, List.foldl_cons, List.foldl_nil]

theorem CsrRep.macc [Mul α] [Add α] {m : Csr α} {E : ℕ → List (ℕ × α)} (h : CsrRep m E) {r : ℕ}
    (hr : r < m.rows) (hcol : ∀ e ∈ E r, e.1 < m.cols) (x acc : ℕ → α) :
    csrMultiplyAddAcc (vec m.cols x) m r (vec m.cols acc)
      = .ok (vec m.cols (rowAcc x (E r) acc)) := by
  unfold csrMultiplyAddAcc
  obtain ⟨rest, e⟩ := flatRows_row E hr
  rw [check_decide_ok (length_vec _ _), bind_ok, h.rowIdx_ok hr.le, bind_ok, h.rowIdx_ok hr, bind_ok,
    flatRows_succ, List.length_append]
  exact csrMac_loop x m (E r) _ rest acc (by rw [h.values, e]) (by rw [h.colIdx, e]) hcol

/-- The output after the distinct-buffer loop over the entries `l`. -/
def rowAccTo [Mul α] [Add α] (x z : ℕ → α) (l : List (ℕ × α)) (out : ℕ → α) : ℕ → α :=
  l.foldl (fun out e => Function.update out e.1 (x e.1 * e.2 + z e.1)) out

theorem CsrRep.macc_to [Mul α] [Add α] {m : Csr α} {E : ℕ → List (ℕ × α)} (h : CsrRep m E) {r : ℕ}
    (hr : r < m.rows) (hcol : ∀ e ∈ E r, e.1 < m.cols) (x z out : ℕ → α) :
    csrMultiplyAdd (vec m.cols x) m r (vec m.cols z) (vec m.cols out)
      = .ok (vec m.cols (rowAccTo x z (E r) out)) := by
  unfold csrMultiplyAdd
  obtain ⟨rest, e⟩ := flatRows_row E hr
  rw [check_decide_ok (length_vec _ _), bind_ok, h.rowIdx_ok hr.le, bind_ok, h.rowIdx_ok hr, bind_ok,
    flatRows_succ, List.length_append]
  have hv := h.values
  have hc := h.colIdx
  rw [e] at hv hc
  set A := flatRows E r
  set l := E r
  apply forR_eq' (fun i => vec m.cols (rowAccTo x z (l.take (i - A.length)) out)) (by omega)
  · simp [rowAccTo]
  · simp
  · intro i h1 h2
    obtain ⟨k, rfl⟩ : ∃ k, i = A.length + k := ⟨i - A.length, by omega⟩
    have hk : k < l.length := by omega
    rw [Nat.add_sub_cancel_left, show A.length + k + 1 - A.length = k + 1 by omega,
      List.take_add_one, List.getElem?_eq_getElem hk]
    simp only [Option.toList_some]
    have hmem := hcol l[k] (List.getElem_mem hk)
    unfold csrMacStepTo
    have g1 : rd m.colIdx (A.length + k) = .ok l[k].1 := by
      unfold rd
      rw [hc, List.getElem?_map, List.getElem?_append_right (by omega), Nat.add_sub_cancel_left,
        List.getElem?_append_left hk, List.getElem?_eq_getElem hk]
      rfl
    have g2 : rd m.values (A.length + k) = .ok l[k].2 := by
      unfold rd
      rw [hv, List.getElem?_map, List.getElem?_append_right (by omega), Nat.add_sub_cancel_left,
        List.getElem?_append_left hk, List.getElem?_eq_getElem hk]
      rfl
    rw [g1, bind_ok, rd_vec_ok hmem, bind_ok, g2, bind_ok, rd_vec_ok hmem, bind_ok, wr_vec_ok hmem]
    simp only [rowAccTo, List.foldl_append, List.foldl_cons, List.foldl_nil]

theorem rowAccTo_eq [Semiring α] (x z out : ℕ → α) (l : List (ℕ × α))
    (hnd : (l.map Prod.fst).Nodup) (c : ℕ) :
    rowAccTo x z l out c = if c ∈ l.map Prod.fst then x c * rowLookup l c + z c else out c := by
  induction l generalizing out with
  | nil => simp [rowAccTo]
  | cons e l ih =>
    rw [List.map_cons, List.nodup_cons] at hnd
    have : rowAccTo x z (e :: l) out
        = rowAccTo x z l (Function.update out e.1 (x e.1 * e.2 + z e.1)) := rfl
    rw [this, ih _ hnd.2, List.map_cons]
    by_cases hc : e.1 = c
    · subst hc
      rw [if_neg hnd.1, Function.update_self, if_pos (by simp)]
      simp [rowLookup]
    · rw [Function.update_of_ne (Ne.symm hc)]
      have h1 : c ∈ e.1 :: l.map Prod.fst ↔ c ∈ l.map Prod.fst := by simp [Ne.symm hc]
      have h2 : rowLookup (e :: l) c = rowLookup l c := by simp [rowLookup, hc]
      simp only [h1, h2]

/-- With at most one entry per column the accumulated value is `x * y + acc`. -/
theorem rowAcc_eq [Semiring α] (x acc : ℕ → α) (l : List (ℕ × α)) (hnd : (l.map Prod.fst).Nodup)
    (c : ℕ) : rowAcc x l acc c = x c * rowLookup l c + acc c := by
  induction l generalizing acc with
  | nil => simp [rowAcc, rowLookup]
  | cons e l ih =>
    rw [List.map_cons, List.nodup_cons] at hnd
    have : rowAcc x (e :: l) acc
        = rowAcc x l (Function.update acc e.1 (x e.1 * e.2 + acc e.1)) := rfl
    rw [this, ih _ hnd.2]
    by_cases hc : e.1 = c
    · subst hc
      have h0 : rowLookup l e.1 = 0 := by
        unfold rowLookup
        rw [List.find?_eq_none.2]
        · rfl
        · intro a ha
          simp only [decide_eq_true_eq]
          intro h
          exact hnd.1 (List.mem_map.2 ⟨a, ha, h⟩)
      rw [h0, Function.update_self]
      simp [rowLookup]
    · rw [Function.update_of_ne (Ne.symm hc)]
      simp [rowLookup, hc]

theorem denseRow_fst_nodup (m : ℕ → ℕ → α) (p : ℕ → ℕ → α → Bool) (r C : ℕ) :
    ((denseRow m p r C).map Prod.fst).Nodup := by
  unfold denseRow
  rw [List.map_map]
  have : (Prod.fst ∘ fun c => (c, m r c)) = id := rfl
  rw [this, List.map_id]
  exact List.Nodup.filter _ List.nodup_range

theorem denseRow_lt (m : ℕ → ℕ → α) (p : ℕ → ℕ → α → Bool) (r C : ℕ) :
    ∀ e ∈ denseRow m p r C, e.1 < C := by
  intro e he
  unfold denseRow at he
  obtain ⟨c, hc, rfl⟩ := List.mem_map.1 he
  rw [List.mem_filter, List.mem_range] at hc
  exact hc.1

theorem rowAcc_denseRow [Mul α] [Add α] (m : ℕ → ℕ → α) (p : ℕ → ℕ → α → Bool) (r n : ℕ) (x acc : ℕ → α) (c : ℕ) :
    rowAcc x (denseRow m p r n) acc c = if c < n ∧ p r c (m r c) then x c * m r c + acc c else acc c := by
  induction n with
  | zero => simp [rowAcc, denseRow]
  | succ n ih =>
    rw [denseRow_succ]
    by_cases hp : p r n (m r n)
    · rw [if_pos hp]
      simp only [rowAcc, List.foldl_append, List.foldl_cons, List.foldl_nil] at ih ⊢
      by_cases hc : c = n
      · subst hc
        rw [Function.update_self, ih, if_neg (by omega), if_pos ⟨by omega, hp⟩]
      · rw [Function.update_of_ne hc, ih]
        have : c < n + 1 ↔ c < n := by omega
        simp only [this]
    · rw [if_neg hp, ih]
      by_cases hc : c = n
      · subst hc
        rw [if_neg (by omega), if_neg (fun h => hp h.2)]
      · have : c < n + 1 ↔ c < n := by omega
        simp only [this]

/-- In-place multiply-add with a matrix built from a dense one, without algebraic laws: rejected columns keep the
accumulator. -/
theorem ofDense_macc_gen [Zero α] [Add α] [Mul α] (R C : ℕ) (m : ℕ → ℕ → α) (p : ℕ → ℕ → α → Bool) {M : Csr α}
    (h : Csr.ofDense R C m p = .ok M) {r : ℕ} (hr : r < R) (x acc : ℕ → α) :
    csrMultiplyAddAcc (vec C x) M r (vec C acc)
      = .ok (vec C (fun c => if p r c (m r c) then x c * m r c + acc c else acc c)) := by
  obtain ⟨M', e, h1, h2, hrep⟩ := CsrRep.ofDense R C m p
  rw [h] at e
  injection e with e
  subst e
  have := hrep.macc (by omega : r < M.rows) (by rw [h2]; exact denseRow_lt m p r C) x acc
  rw [h2] at this
  rw [this]
  congr 1
  apply vec_ext
  intro c hc
  rw [rowAcc_denseRow]
  simp only [hc, true_and]

/-- In-place multiply-add with a matrix built from a dense one. -/
theorem ofDense_macc [Semiring α] (R C : ℕ) (m : ℕ → ℕ → α) (p : ℕ → ℕ → α → Bool) {M : Csr α}
    (h : Csr.ofDense R C m p = .ok M) {r : ℕ} (hr : r < R) (x acc : ℕ → α) :
    csrMultiplyAddAcc (vec C x) M r (vec C acc)
      = .ok (vec C (fun c => x c * (if p r c (m r c) then m r c else 0) + acc c)) := by
  obtain ⟨M', e, h1, h2, hrep⟩ := CsrRep.ofDense R C m p
  rw [h] at e
  injection e with e
  subst e
  have := hrep.macc (by omega : r < M.rows) (by rw [h2]; exact denseRow_lt m p r C) x acc
  rw [h2] at this
  rw [this]
  congr 1
  apply vec_ext
  intro c hc
  rw [rowAcc_eq x acc _ (denseRow_fst_nodup m p r C), rowLookup_denseRow m p r C hc]

end Neo
