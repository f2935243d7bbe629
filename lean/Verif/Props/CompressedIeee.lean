import Verif.Lemmas.CompressedIeee
import Verif.Lemmas.Algo
import Verif.Props.NormIeee

/-!
# Property C107: compressed spectra in IEEE arithmetic
-/

namespace Neo.Props

open Spec

variable {f : Fmt} {t : IntT}

/-- `float` and `double` are sample formats. -/
theorem sample_formats : SampleFmt Spec.binary32 ∧ SampleFmt binary64 :=
  ⟨⟨ieee_formats.2.1, by decide, by decide⟩, ieee_formats.2.2, by decide, by decide⟩

/-! ## Rows -/

/-- The row loop of `insert` when every component can be stored. -/
private theorem row_loop {α : Type} (input : List α) (re im : α → Res ℤ) (q : ℕ → ℤ × ℤ) {rows cols index : ℕ}
    (v : ℕ → ℤ × ℤ) (hin : input.length = cols) (hidx : index < rows) (hsz : cols < 2 ^ 32)
    (hq : ∀ i z, input[i]? = some z → re z = .ok (q i).1 ∧ im z = .ok (q i).2) :
    forU32 input.length (fun i d => do
      let z ← rd input i
      let a ← re z
      let b ← im z
      if i < cols then wr d (index * cols + i) (a, b) else .error .oob) (vec (rows * cols) v)
      = .ok (vec (rows * cols) (fun m =>
          if index * cols ≤ m ∧ m < index * cols + cols then q (m - index * cols) else v m)) := by
  have hrow : (index + 1) * cols ≤ rows * cols := Nat.mul_le_mul_right _ hidx
  have hrow' : index * cols + cols ≤ rows * cols := by rw [← Nat.succ_mul]; exact hrow
  unfold forU32
  rw [if_pos (by omega)]
  apply forN_eq' (fun k => vec (rows * cols) (fun m =>
    if index * cols ≤ m ∧ m < index * cols + k then q (m - index * cols) else v m))
  · apply vec_ext
    intro m _
    rw [if_neg (by omega)]
  · rw [hin]
  · intro i hi
    obtain ⟨z, hz⟩ : ∃ z, input[i]? = some z := ⟨_, List.getElem?_eq_getElem hi⟩
    obtain ⟨h1, h2⟩ := hq i z hz
    have hrd : rd input i = .ok z := by unfold rd; rw [hz]
    rw [hrd, bind_ok, h1, bind_ok, h2, bind_ok, if_pos (by omega), wr_vec_ok (by omega)]
    congr 1
    apply vec_ext
    intro m _
    by_cases hm' : m = index * cols + i
    · subst hm'
      rw [Function.update_self, if_pos (by omega), Nat.add_sub_cancel_left]
    · rw [Function.update_of_ne hm']
      by_cases hc : index * cols ≤ m ∧ m < index * cols + i
      · rw [if_pos hc, if_pos (by omega)]
      · rw [if_neg hc, if_neg (by omega)]

/-- The state after storing the integers `q` in a row. -/
private theorem insertI_eq (s : CFdl) (hs : s.data.length = s.rows * s.cols) (input : List (IC f))
    (hin : input.length = s.cols) (hsz : s.cols < 2 ^ 32) (index : ℕ) (hidx : index < s.rows) (q : ℕ → ℤ × ℤ)
    (hq : ∀ i z, input[i]? = some z →
      compressI f Spec.binary32 t z.re = .ok (q i).1 ∧ compressI f Spec.binary32 t z.im = .ok (q i).2) :
    ∃ s', s.insertI f t input index = .ok s' ∧ s'.rows = s.rows ∧ s'.cols = s.cols ∧
      s'.data.length = s.data.length ∧ (∀ i < s.cols, s'.data[index * s.cols + i]? = some (q i)) ∧
      ∀ r i, r < s.rows → r ≠ index → i < s.cols → s'.data[r * s.cols + i]? = s.data[r * s.cols + i]? := by
  obtain ⟨v, hv⟩ : ∃ v, s.data = vec (s.rows * s.cols) v := ⟨_, list_eq_vec (0, 0) hs⟩
  have hbnd : ∀ r i, r < s.rows → i < s.cols → r * s.cols + i < s.rows * s.cols := by
    intro r i hr hi
    have : (r + 1) * s.cols ≤ s.rows * s.cols := Nat.mul_le_mul_right _ hr
    rw [Nat.succ_mul] at this
    omega
  have hl := row_loop input (fun z => compressI f Spec.binary32 t z.re) (fun z => compressI f Spec.binary32 t z.im) q v
    hin hidx hsz hq
  refine ⟨⟨s.rows, s.cols, vec (s.rows * s.cols) (fun m =>
      if index * s.cols ≤ m ∧ m < index * s.cols + s.cols then q (m - index * s.cols) else v m)⟩,
    by unfold CFdl.insertI; rw [if_pos hidx, hv, hl, bind_ok, pure_eq_ok], rfl, rfl, by simp [hs], ?_, ?_⟩
  · intro i hi
    dsimp only
    rw [getElem?_vec, if_pos (hbnd _ _ hidx hi), if_pos (by omega), Nat.add_sub_cancel_left]
  · intro r i hr hne hi
    dsimp only
    rw [hv, getElem?_vec, getElem?_vec, if_pos (hbnd _ _ hr hi), if_pos (hbnd _ _ hr hi), if_neg]
    rintro ⟨h1, h2⟩
    apply hne
    rcases Nat.lt_or_ge r index with h | h
    · have : (r + 1) * s.cols ≤ index * s.cols := Nat.mul_le_mul_right _ h
      rw [Nat.succ_mul] at this
      omega
    · rcases Nat.eq_or_lt_of_le h with h | h
      · exact h.symm
      · have : (index + 1) * s.cols ≤ r * s.cols := Nat.mul_le_mul_right _ h
        rw [Nat.succ_mul] at this
        omega

private theorem getI_eq {s : CFdl} {index i : ℕ} {v : ℤ × ℤ} (hidx : index < s.rows) (hi : i < s.cols)
    (h : s.data[index * s.cols + i]? = some v) : s.getI f t index i = .ok (decompressC f t v) := by
  unfold CFdl.getI rd
  rw [if_pos ⟨hidx, hi⟩, h, bind_ok, pure_eq_ok]

private theorem getI_congr {s s' : CFdl} (hr : s'.rows = s.rows) (hc : s'.cols = s.cols) {index i : ℕ}
    (h : s'.data[index * s.cols + i]? = s.data[index * s.cols + i]?) : s'.getI f t index i = s.getI f t index i := by
  unfold CFdl.getI rd
  rw [hr, hc, h]

/-! ## The theorems -/

/-- **C107, storing and reading**: with 8- or 16-bit storage and samples in `float` or `double`, inserting a spectrum
with parts in `[-1, 1]` succeeds; every part reads back as a finite number in `[-1, 1]`, at most `1/(2 max)` and three
unit roundoffs from the original, and the other rows read as before. -/
theorem C107_insert (hf : SampleFmt f) (ht : t = i8 ∨ t = i16) (s : CFdl) (hs : s.data.length = s.rows * s.cols)
    (input : List (IC f)) (hin : input.length = s.cols) (hsz : s.cols < 2 ^ 32) (index : ℕ) (hidx : index < s.rows)
    (hr : ∀ z ∈ input, ∃ a b : ℝ, z = ⟨.fin a, .fin b⟩ ∧ |a| ≤ 1 ∧ |b| ≤ 1) :
    ∃ s', s.insertI f t input index = .ok s' ∧ s'.rows = s.rows ∧ s'.cols = s.cols ∧
      s'.data.length = s.data.length ∧
      (∀ (i : ℕ) (a b : ℝ), input[i]? = some ⟨.fin a, .fin b⟩ → ∃ c d : ℝ, s'.getI f t index i = .ok ⟨.fin c, .fin d⟩ ∧
        |c| ≤ 1 ∧ |d| ≤ 1 ∧ |c - a| ≤ 1 / (2 * t.max) + 3 * (2 : ℝ) ^ (-(f.p : ℤ)) ∧
        |d - b| ≤ 1 / (2 * t.max) + 3 * (2 : ℝ) ^ (-(f.p : ℤ))) ∧
      ∀ r i, r < s.rows → r ≠ index → i < s.cols → s'.getI f t r i = s.getI f t r i := by
  have hpart : ∀ a : ℝ, |a| ≤ 1 → ∃ r : ℤ, compressI f Spec.binary32 t (.fin a) = .ok r ∧
      ∃ c : ℝ, decompressI f t r = .fin c ∧ |c| ≤ 1 ∧ |c - a| ≤ 1 / (2 * t.max) + 3 * (2 : ℝ) ^ (-(f.p : ℤ)) := by
    intro a ha
    obtain ⟨hm1, hm2⟩ := Small.bounds ht
    have hml := Small.max_lt ht
    obtain ⟨r, h1, h2, h3, -⟩ := compressI_unit ht hf sample_formats.1 ha
    have hfit : t.Fits r := by
      rw [Small.fits ht]
      have := abs_le.1 h2
      constructor <;> omega
    obtain ⟨c, hc, -, h4⟩ := decompressI_near ht hf hfit
    refine ⟨r, h1, c, hc, (h4 h2).1, ?_⟩
    have h5 : |(r : ℝ) / t.max - a| ≤ 1 / (2 * t.max) + f.u := by
      have hm0 : (0 : ℝ) < t.max := by linarith
      have e : (r : ℝ) / t.max - a = (r - a * t.max) / t.max := by field_simp
      rw [e, abs_div, abs_of_pos hm0, div_le_iff₀ hm0]
      refine h3.trans (le_of_eq ?_)
      field_simp
    calc |c - a| = |(c - r / t.max) + (r / t.max - a)| := by congr 1; ring
      _ ≤ 2 * f.u + (1 / (2 * t.max) + f.u) := (abs_add_le _ _).trans (add_le_add (h4 h2).2 h5)
      _ = _ := by unfold Spec.Fmt.u; ring
  have hcomp : ∀ i : ℕ, ∃ q : ℤ × ℤ, ∀ a b : ℝ, input[i]? = some ⟨.fin a, .fin b⟩ →
      compressI f Spec.binary32 t (.fin a) = .ok q.1 ∧ compressI f Spec.binary32 t (.fin b) = .ok q.2 ∧
      (∃ c : ℝ, decompressI f t q.1 = .fin c ∧ |c| ≤ 1 ∧ |c - a| ≤ 1 / (2 * t.max) + 3 * (2 : ℝ) ^ (-(f.p : ℤ))) ∧
      ∃ d : ℝ, decompressI f t q.2 = .fin d ∧ |d| ≤ 1 ∧ |d - b| ≤ 1 / (2 * t.max) + 3 * (2 : ℝ) ^ (-(f.p : ℤ)) := by
    intro i
    cases hz : input[i]? with
    | none => exact ⟨(0, 0), by simp⟩
    | some z =>
      obtain ⟨a, b, rfl, ha, hb⟩ := hr z (List.mem_of_getElem? hz)
      obtain ⟨r1, h1, h1'⟩ := hpart a ha
      obtain ⟨r2, h2, h2'⟩ := hpart b hb
      refine ⟨(r1, r2), fun a' b' h => ?_⟩
      simp only [Option.some.injEq, IC.mk.injEq, FVal.fin.injEq] at h
      obtain ⟨rfl, rfl⟩ := h
      exact ⟨h1, h2, h1', h2'⟩
  choose q hq using hcomp
  obtain ⟨s', e1, e2, e3, e4, e5, e6⟩ := insertI_eq (t := t) s hs input hin hsz index hidx q (by
    intro i z hz
    obtain ⟨a, b, rfl, -, -⟩ := hr z (List.mem_of_getElem? hz)
    exact ⟨(hq i a b hz).1, (hq i a b hz).2.1⟩)
  refine ⟨s', e1, e2, e3, e4, ?_, ?_⟩
  · intro i a b hz
    have hi : i < s.cols := by
      rw [← hin]; exact (List.getElem?_eq_some_iff.1 hz).1
    obtain ⟨-, -, ⟨c, hc, hc1, hc2⟩, d, hd, hd1, hd2⟩ := hq i a b hz
    refine ⟨c, d, ?_, hc1, hd1, hc2, hd2⟩
    rw [getI_eq (by rw [e2]; exact hidx) (by rw [e3]; exact hi) (by rw [e3]; exact e5 i hi)]
    unfold decompressC
    rw [hc, hd]
  · intro r i hr' hne hi
    exact getI_congr e2 e3 (e6 r i hr' hne hi)

example : ∃ s', (CFdl.make 2 1).insertI Spec.binary32 i8 [⟨.fin (1 / 2), .fin (-1)⟩] 1 = .ok s' ∧
    ∃ c d : ℝ, s'.getI Spec.binary32 i8 1 0 = .ok ⟨.fin c, .fin d⟩ ∧ |c - 1 / 2| ≤ 1 / 253 := by
  obtain ⟨s', h1, -, -, -, h2, -⟩ := C107_insert sample_formats.1 (Or.inl rfl) (CFdl.make 2 1) rfl
    [⟨.fin (1 / 2), .fin (-1)⟩] rfl (by norm_num [CFdl.make]) 1 (by decide) (by
      intro z hz
      rw [List.mem_singleton] at hz
      exact ⟨1 / 2, -1, hz, by rw [abs_of_pos] <;> norm_num, by norm_num⟩)
  obtain ⟨c, d, h, -, -, h3, -⟩ := h2 0 _ _ rfl
  refine ⟨s', h1, c, d, h, h3.trans ?_⟩
  norm_num [i8, IntT.max, Spec.binary32]

/-- **C107, what is stored always fits**: this holds in a new delay line and after every insertion that returns, whatever
was inserted. -/
theorem C107_invariant (ht : t = i8 ∨ t = i16) :
    (∀ rows cols, ∀ v ∈ (CFdl.make rows cols).data, t.Fits v.1 ∧ t.Fits v.2) ∧
    ∀ (s s' : CFdl) (input : List (IC f)) (index : ℕ), (∀ v ∈ s.data, t.Fits v.1 ∧ t.Fits v.2) →
      s.insertI f t input index = .ok s' →
      (∀ v ∈ s'.data, t.Fits v.1 ∧ t.Fits v.2) ∧ s'.rows = s.rows ∧ s'.cols = s.cols ∧ s'.data.length = s.data.length := by
  constructor
  · intro rows cols v hv
    obtain rfl := List.eq_of_mem_replicate hv
    rcases ht with rfl | rfl <;> decide
  · intro s s' input index hfit h
    unfold CFdl.insertI at h
    split at h
    · have hcomp : ∀ v r, compressI f Spec.binary32 t v = .ok r → t.Fits r := by
        intro v r hv
        unfold compressI at hv
        cases hl : lroundI (f.round (v.mul (Spec.binary32.round (.fin t.max)))) with
        | error e => rw [hl] at hv; cases hv
        | ok z =>
          rw [hl, bind_ok, pure_eq_ok] at hv
          injection hv with hv
          rw [← hv]
          exact Small.conv_fits ht z
      have hpres : ∀ (n : ℕ) (d d' : List (ℤ × ℤ)), (∀ v ∈ d, t.Fits v.1 ∧ t.Fits v.2) →
          forN n (fun i d => do
            let z ← rd input i
            let a ← compressI f Spec.binary32 t z.re
            let b ← compressI f Spec.binary32 t z.im
            if i < s.cols then wr d (index * s.cols + i) (a, b) else .error .oob) d = .ok d' →
          (∀ v ∈ d', t.Fits v.1 ∧ t.Fits v.2) ∧ d'.length = d.length := by
        intro n
        induction n with
        | zero => intro d d' hd h; rw [forN_zero] at h; injection h with h; subst h; exact ⟨hd, rfl⟩
        | succ n ih =>
          intro d d' hd h
          rw [forN_succ] at h
          generalize hfn : forN n _ d = res at h
          cases res with
          | error e => cases h
          | ok d1 =>
            obtain ⟨h1, h2⟩ := ih d d1 hd hfn
            rw [bind_ok] at h
            cases hz : rd input n with
            | error e => rw [hz] at h; cases h
            | ok z =>
              rw [hz, bind_ok] at h
              cases ha : compressI f Spec.binary32 t z.re with
              | error e => rw [ha] at h; cases h
              | ok a =>
                rw [ha, bind_ok] at h
                cases hb : compressI f Spec.binary32 t z.im with
                | error e => rw [hb] at h; cases h
                | ok b =>
                  rw [hb, bind_ok] at h
                  split at h
                  · unfold wr at h
                    split at h
                    · injection h with h
                      subst h
                      refine ⟨fun v hv => ?_, by rw [List.length_set, h2]⟩
                      rcases List.mem_or_eq_of_mem_set hv with h' | rfl
                      · exact h1 v h'
                      · exact ⟨hcomp _ _ ha, hcomp _ _ hb⟩
                    · cases h
                  · cases h
      unfold forU32 at h
      split at h
      · generalize hfn : forN _ _ s.data = res at h
        cases res with
        | error e => cases h
        | ok d =>
          rw [bind_ok, pure_eq_ok] at h
          injection h with h
          subst h
          obtain ⟨h1, h2⟩ := hpres _ _ _ hfit hfn
          exact ⟨h1, rfl, rfl, h2⟩
      · cases h
    · cases h

/-- **C107, reading and storing again loses nothing**: any row of a delay line, inserted at any row, arrives as the same
integers and nothing else changes; inserted where it was read, it leaves the delay line exactly as it was. -/
theorem C107_reinsert (hf : SampleFmt f) (ht : t = i8 ∨ t = i16) (s : CFdl) (hs : s.data.length = s.rows * s.cols)
    (hfit : ∀ v ∈ s.data, t.Fits v.1 ∧ t.Fits v.2) (hsz : s.cols < 2 ^ 32) (src dst : ℕ) (hsrc : src < s.rows)
    (hdst : dst < s.rows) :
    ∃ row s', s.rowI f t src = .ok row ∧ s.insertI f t row dst = .ok s' ∧ s'.rows = s.rows ∧ s'.cols = s.cols ∧
      (∀ i < s.cols, s'.data[dst * s.cols + i]? = s.data[src * s.cols + i]?) ∧
      (∀ r i, r < s.rows → r ≠ dst → i < s.cols → s'.data[r * s.cols + i]? = s.data[r * s.cols + i]?) ∧
      (src = dst → s' = s) := by
  have hbnd : ∀ r i, r < s.rows → i < s.cols → r * s.cols + i < s.rows * s.cols := by
    intro r i hr hi
    have : (r + 1) * s.cols ≤ s.rows * s.cols := Nat.mul_le_mul_right _ hr
    rw [Nat.succ_mul] at this
    omega
  have hrow : src * s.cols + s.cols ≤ s.rows * s.cols := by
    rw [← Nat.succ_mul]; exact Nat.mul_le_mul_right _ hsrc
  obtain ⟨v, hv⟩ : ∃ v, s.data = vec (s.rows * s.cols) v := ⟨_, list_eq_vec (0, 0) hs⟩
  have hfv : ∀ m < s.rows * s.cols, t.Fits (v m).1 ∧ t.Fits (v m).2 := by
    intro m hm
    refine hfit _ ?_
    rw [hv]
    exact List.mem_of_getElem? (i := m) (by rw [getElem?_vec, if_pos hm])
  have hrowI : s.rowI f t src = .ok (vec s.cols (fun i => decompressC f t (v (src * s.cols + i)))) := by
    unfold CFdl.rowI
    rw [if_pos hsrc, hv, rdSpan_vec (by omega) hrow, bind_ok, pure_eq_ok, map_vec, Nat.add_sub_cancel_left]
  obtain ⟨s', e1, e2, e3, e4, e5, e6⟩ := insertI_eq (f := f) (t := t) s hs
    (vec s.cols (fun i => decompressC f t (v (src * s.cols + i)))) (length_vec _ _) hsz dst hdst
    (fun i => v (src * s.cols + i)) (by
      intro i z hz
      rw [getElem?_vec] at hz
      split at hz
      · rename_i hi
        injection hz with hz
        subst hz
        obtain ⟨h1, h2⟩ := hfv _ (hbnd _ _ hsrc hi)
        exact ⟨compressI_decompressI ht hf sample_formats.1 h1, compressI_decompressI ht hf sample_formats.1 h2⟩
      · cases hz)
  refine ⟨_, s', hrowI, e1, e2, e3, ?_, e6, ?_⟩
  · intro i hi
    rw [e5 i hi, hv, getElem?_vec, if_pos (hbnd _ _ hsrc hi)]
  · rintro rfl
    have hd : s'.data = s.data := by
      apply List.ext_getElem?
      intro m
      rcases Nat.lt_or_ge m (s.rows * s.cols) with hm | hm
      · have hc0 : 0 < s.cols := by
          rcases Nat.eq_zero_or_pos s.cols with h | h
          · rw [h, Nat.mul_zero] at hm; omega
          · exact h
        have hdiv : m / s.cols < s.rows := Nat.div_lt_of_lt_mul (by rwa [Nat.mul_comm])
        have hmod : m % s.cols < s.cols := Nat.mod_lt _ hc0
        have he : m / s.cols * s.cols + m % s.cols = m := by rw [Nat.mul_comm]; exact Nat.div_add_mod _ _
        rw [← he]
        by_cases h : m / s.cols = src
        · rw [h, e5 _ hmod, hv, getElem?_vec, if_pos (hbnd _ _ hsrc hmod)]
        · exact e6 _ _ hdiv h hmod
      · rw [List.getElem?_eq_none (by omega), List.getElem?_eq_none (by omega)]
    cases s'
    cases s
    simp_all

example : ∃ row s', (CFdl.mk 2 1 [(-128, 5), (127, 0)]).rowI Spec.binary32 i8 0 = .ok row ∧
    (CFdl.mk 2 1 [(-128, 5), (127, 0)]).insertI Spec.binary32 i8 row 1 = .ok s' ∧ s'.data[1]? = some (-128, 5) := by
  obtain ⟨row, s', h1, h2, -, -, h3, -⟩ := C107_reinsert sample_formats.1 (Or.inl rfl)
    (CFdl.mk 2 1 [(-128, 5), (127, 0)]) rfl (by decide) (by norm_num) 0 1 (by decide) (by decide)
  exact ⟨row, s', h1, h2, h3 0 (by decide)⟩

/-- **C107, order and sign**: of two samples in `[-1, 1]` the larger is not stored as the smaller integer; the opposite
sample is stored as the opposite integer; a larger integer does not read back as a smaller number, and the opposite
integer reads back as the opposite number. -/
theorem C107_order (hf : SampleFmt f) (ht : t = i8 ∨ t = i16) :
    (∀ x y : ℝ, |x| ≤ 1 → |y| ≤ 1 → x ≤ y → ∃ a b : ℤ, compressI f Spec.binary32 t (.fin x) = .ok a ∧
      compressI f Spec.binary32 t (.fin y) = .ok b ∧ a ≤ b) ∧
    (∀ x : ℝ, |x| ≤ 1 → ∃ a : ℤ, compressI f Spec.binary32 t (.fin x) = .ok a ∧
      compressI f Spec.binary32 t (.fin (-x)) = .ok (-a)) ∧
    (∀ a b : ℤ, t.Fits a → t.Fits b → a ≤ b → ∃ v w : ℝ, decompressI f t a = .fin v ∧ decompressI f t b = .fin w ∧
      v ≤ w ∧ (t.Fits (-a) → decompressI f t (-a) = .fin (-v))) := by
  obtain ⟨hm1, hm2⟩ := Small.bounds ht
  refine ⟨?_, ?_, ?_⟩
  · intro x y hx hy hxy
    obtain ⟨a, ha, -, -, ea⟩ := compressI_unit ht hf sample_formats.1 hx
    obtain ⟨b, hb, -, -, eb⟩ := compressI_unit ht hf sample_formats.1 hy
    refine ⟨a, b, ha, hb, ?_⟩
    rw [ea, eb]
    exact lroundR_mono (rndInf_mono f hf.hp (mul_le_mul_of_nonneg_right hxy (by linarith)))
  · intro x hx
    obtain ⟨a, ha, -, -, ea⟩ := compressI_unit ht hf sample_formats.1 hx
    obtain ⟨b, hb, -, -, eb⟩ := compressI_unit ht hf sample_formats.1 (x := -x) (by rwa [abs_neg])
    refine ⟨a, ha, ?_⟩
    rw [hb, ea, eb, neg_mul, rndInf_neg, lroundR_neg]
  · intro a b ha hb hab
    obtain ⟨h1, -⟩ := decompressI_eq ht hf ha
    obtain ⟨h2, -⟩ := decompressI_eq ht hf hb
    refine ⟨_, _, h1, h2, rndInf_mono f hf.hp (mul_le_mul_of_nonneg_right (by exact_mod_cast hab)
      (invMax_bounds ht hf).1.le), fun hn => ?_⟩
    rw [(decompressI_eq ht hf hn).1, ← rndInf_neg]
    push_cast
    rw [neg_mul]

example : ∃ a b : ℤ, compressI binary64 Spec.binary32 i16 (.fin (1 / 3)) = .ok a ∧
    compressI binary64 Spec.binary32 i16 (.fin (1 / 2)) = .ok b ∧ a ≤ b :=
  (C107_order sample_formats.2 (Or.inr rfl)).1 _ _ (by rw [abs_of_pos] <;> norm_num) (by rw [abs_of_pos] <;> norm_num)
    (by norm_num)

/-- A part for which `lround` is not defined: NaN, an infinity, or a number of magnitude `2 ^ 63` and more. -/
def NoInteger (v : FVal) : Prop := ∀ x, v = .fin x → (2 : ℝ) ^ 63 ≤ |x|

private theorem compressI_undefined (hf : SampleFmt f) (ht : t = i8 ∨ t = i16) {v : FVal} (h : NoInteger v) :
    compressI f Spec.binary32 t v = .error .overflow := by
  obtain ⟨hm1, hm2⟩ := Small.bounds ht
  have hm0 : (0 : ℝ) < t.max := by linarith
  unfold compressI
  rw [Small.round_max ht sample_formats.1]
  cases v with
  | nan => rfl
  | inf s =>
    show (lroundI (f.round (if (t.max : ℝ) = 0 then _ else _)) >>= _) = _
    rw [if_neg hm0.ne']
    rfl
  | fin x =>
    have hx := h x rfl
    show (lroundI (f.round (.fin (x * t.max))) >>= _) = _
    unfold Fmt.round
    dsimp only
    split
    · rename_i hlt
      unfold lroundI
      dsimp only
      rw [if_neg]
      · rfl
      · intro hfit
        rw [i64_fits] at hfit
        have hgrid : f.OnGrid ((2 : ℝ) ^ 64) := by
          have := two_zpow_onGrid (f := f) hf.hp (k := 64) (by obtain ⟨⟨h1, h2, h3⟩, h4, h5⟩ := hf; omega)
          exact_mod_cast this
        have hbig : (2 : ℝ) ^ 64 ≤ |f.rndInf (x * t.max)| := by
          rw [rndInf_abs f hf.hp]
          refine grid_le_rndInf hf.hp hgrid ?_
          rw [abs_mul, abs_of_pos hm0]
          norm_num at hx ⊢
          nlinarith
        have hc := lroundR_close (f.rndInf (x * t.max))
        have h3 := abs_sub_abs_le_abs_sub (f.rndInf (x * t.max)) (lroundR (f.rndInf (x * t.max)))
        rw [abs_sub_comm] at h3
        have h4 : |(lroundR (f.rndInf (x * t.max)) : ℝ)| ≤ 2 ^ 63 := by
          have : |lroundR (f.rndInf (x * t.max))| ≤ 2 ^ 63 := by rw [abs_le]; constructor <;> omega
          exact_mod_cast this
        norm_num at hbig h4
        linarith
    · rfl

/-- **C107, undefined conversions**: if any part of the spectrum is NaN, infinite, or of magnitude `2 ^ 63` and more, the
insertion converts a float that has no value as `long`; nothing checks for it. -/
theorem C107_undefined (hf : SampleFmt f) (ht : t = i8 ∨ t = i16) (s : CFdl) (hs : s.data.length = s.rows * s.cols)
    (input : List (IC f)) (hin : input.length = s.cols) (hsz : s.cols < 2 ^ 32) (index : ℕ) (hidx : index < s.rows)
    (z : IC f) (hz : z ∈ input) (h : NoInteger z.re ∨ NoInteger z.im) :
    s.insertI f t input index = .error .overflow := by
  have hrow : index * s.cols + s.cols ≤ s.rows * s.cols := by
    rw [← Nat.succ_mul]; exact Nat.mul_le_mul_right _ hidx
  have hcases : ∀ v, (∃ r, compressI f Spec.binary32 t v = .ok r) ∨ compressI f Spec.binary32 t v = .error .overflow := by
    intro v
    unfold compressI lroundI
    generalize f.round (v.mul (Spec.binary32.round (.fin t.max))) = w
    cases w with
    | nan => exact Or.inr rfl
    | inf s => exact Or.inr rfl
    | fin x =>
      dsimp only
      split
      · exact Or.inl ⟨_, rfl⟩
      · exact Or.inr rfl
  obtain ⟨j, hj, hjz⟩ := List.getElem_of_mem hz
  have key : ∀ n, n ≤ s.cols → (∃ d : List (ℤ × ℤ), d.length = s.rows * s.cols ∧ n ≤ j ∧
      forN n (fun i d => do
        let z ← rd input i
        let a ← compressI f Spec.binary32 t z.re
        let b ← compressI f Spec.binary32 t z.im
        if i < s.cols then wr d (index * s.cols + i) (a, b) else .error .oob) s.data = .ok d) ∨
      forN n (fun i d => do
        let z ← rd input i
        let a ← compressI f Spec.binary32 t z.re
        let b ← compressI f Spec.binary32 t z.im
        if i < s.cols then wr d (index * s.cols + i) (a, b) else .error .oob) s.data = .error .overflow := by
    intro n
    induction n with
    | zero => intro _; exact Or.inl ⟨s.data, hs, Nat.zero_le _, rfl⟩
    | succ n ih =>
      intro hn
      rcases ih (by omega) with ⟨d, hd, hnj, hok⟩ | herr
      · rw [forN_succ, hok, bind_ok, rd_ok (by omega), bind_ok]
        rcases hcases (input[n]'(by omega)).re with ⟨a, ha⟩ | ha
        · rcases hcases (input[n]'(by omega)).im with ⟨b, hb⟩ | hb
          · rw [ha, bind_ok, hb, bind_ok, if_pos (by omega)]
            have hne : n ≠ j := by
              rintro rfl
              rcases h with h | h
              · rw [← hjz] at h
                rw [compressI_undefined hf ht h] at ha
                cases ha
              · rw [← hjz] at h
                rw [compressI_undefined hf ht h] at hb
                cases hb
            refine Or.inl ⟨d.set (index * s.cols + n) (a, b), by rw [List.length_set, hd], by omega, ?_⟩
            unfold wr
            rw [if_pos (by omega)]
          · right
            rw [ha, bind_ok, hb]
            rfl
        · right
          rw [ha]
          rfl
      · right
        rw [forN_succ, herr]
        rfl
  unfold CFdl.insertI forU32
  rw [if_pos hidx, if_pos (by omega), hin]
  rcases key s.cols le_rfl with ⟨d, -, hle, -⟩ | herr
  · omega
  · rw [herr]
    rfl

example : (CFdl.make 2 1).insertI Spec.binary32 i8 [⟨.fin 0, .nan⟩] 0 = .error .overflow :=
  C107_undefined sample_formats.1 (Or.inl rfl) _ rfl _ rfl (by norm_num [CFdl.make]) 0 (by decide) ⟨.fin 0, .nan⟩
    (List.mem_singleton.2 rfl) (Or.inr (fun x h => by cases h))

/-! ## The bound of exact arithmetic does not hold -/

private theorem rndInf_of_binade {x : ℝ} {i : ℤ} (hi : f.emin ≤ i) (h1 : (2 : ℝ) ^ (i + f.p - 1) ≤ x)
    (h2 : x < (2 : ℝ) ^ (i + f.p)) : f.rndInf x = rne (x * (2 : ℝ) ^ (-i)) * (2 : ℝ) ^ i := by
  have hx : 0 < x := (two_zpow_pos _).trans_le h1
  have hlog : Int.log 2 |x| = i + f.p - 1 := by
    rw [abs_of_pos hx]
    apply le_antisymm
    · have := (Int.lt_zpow_iff_log_lt (b := 2) (by norm_num) hx).mp (by exact_mod_cast h2)
      omega
    · exact (Int.zpow_le_iff_le_log (b := 2) (by norm_num) hx).mp (by exact_mod_cast h1)
  have hu : f.ulpExp x = i := by
    unfold Fmt.ulpExp
    rw [hlog, max_eq_right (by omega)]
    omega
  unfold Fmt.rndInf
  rw [hu]

/-- **C107, the bound `1/(2 max)` of exact arithmetic is missed**: the `float` `11493053 / 2 ^ 25`, kept in 8 bits, reads
back as `5812579 / 2 ^ 24`, which is further away than `1/254`. -/
theorem C107_half_step_false :
    Spec.binary32.Mem (.fin (11493053 / 2 ^ 25)) ∧
    compressI Spec.binary32 Spec.binary32 i8 (.fin (11493053 / 2 ^ 25)) = .ok 44 ∧
    decompressI Spec.binary32 i8 44 = .fin (5812579 / 2 ^ 24) ∧
    (1 : ℝ) / (2 * i8.max) < |5812579 / 2 ^ 24 - 11493053 / 2 ^ 25| := by
  have hmax : (i8.max : ℝ) = 127 := by norm_num [i8, IntT.max]
  have hinv : invMax Spec.binary32 i8 = 2113665 / 2 ^ 28 := by
    unfold invMax
    rw [hmax, rndInf_near_normal (f := Spec.binary32) (s := 1 / 127) (G := 8454660) (i := -30) (by decide) (by decide)
      (by decide) (by decide) (by rw [abs_lt]; norm_num)]
    norm_num
  refine ⟨⟨⟨11493053, -25, by decide, by decide, by norm_num⟩, ?_⟩, ?_, ?_, ?_⟩
  · rw [abs_of_pos (by positivity)]
    norm_num [Spec.binary32]
  · refine compressI_near (Or.inl rfl) sample_formats.1 sample_formats.1 (by decide) ?_
    have hr : Spec.binary32.rndInf (11493053 / 2 ^ 25 * (i8.max : ℝ)) = 87 / 2 := by
      rw [hmax, rndInf_of_binade (i := -18) (by decide) (by norm_num [Spec.binary32]) (by norm_num [Spec.binary32]),
        rne_near (n := 11403264) (by rw [abs_lt]; norm_num)]
      norm_num
    rw [hr]
    unfold lroundR
    rw [if_pos (by norm_num), Int.floor_eq_iff]
    norm_num
  · rw [(decompressI_eq (Or.inl rfl) sample_formats.1 (by decide)).1, hinv,
      rndInf_of_binade (i := -25) (by decide) (by norm_num [Spec.binary32]) (by norm_num [Spec.binary32])]
    have hn : ((44 : ℤ) : ℝ) * (2113665 / 2 ^ 28) * (2 : ℝ) ^ (-(-25 : ℤ)) = 11625157 + 1 / 2 := by norm_num
    have hfl : ⌊(11625157 + 1 / 2 : ℝ)⌋ = 11625157 := by rw [Int.floor_eq_iff]; norm_num
    have hfr : Int.fract (11625157 + 1 / 2 : ℝ) = 1 / 2 := by
      unfold Int.fract
      rw [hfl]
      norm_num
    have hr : rne (11625157 + 1 / 2) = 11625158 := by
      unfold rne
      rw [hfr, hfl, if_neg (by norm_num), if_neg (by norm_num), if_neg (by decide)]
      norm_num
    rw [hn, hr]
    norm_num
  · rw [hmax, abs_of_pos (by norm_num)]
    norm_num

/-- **C107, full scale and zero are exact**: in `float` and in `double`, with 8- and with 16-bit storage, the samples `1`,
`-1` and `0` read back as themselves. -/
theorem C107_full_scale (f : Fmt) (hf : f = Spec.binary32 ∨ f = binary64) (t : IntT) (ht : t = i8 ∨ t = i16) :
    ∀ x : ℝ, x = 1 ∨ x = -1 ∨ x = 0 →
      ∃ r : ℤ, compressI f Spec.binary32 t (.fin x) = .ok r ∧ decompressI f t r = .fin x := by
  have hf' : SampleFmt f := by rcases hf with rfl | rfl; exacts [sample_formats.1, sample_formats.2]
  have hml := Small.max_lt ht
  have hgrid : f.OnGrid (t.max : ℝ) := hf'.grid (by rw [abs_of_pos hml.2]; omega)
  have hone : f.rndInf ((t.max : ℝ) * invMax f t) = 1 := by
    have hm8 : (i8.max : ℝ) = 127 := by norm_num [i8, IntT.max]
    have hm16 : (i16.max : ℝ) = 32767 := by norm_num [i16, IntT.max]
    unfold invMax
    rcases hf with rfl | rfl <;> rcases ht with rfl | rfl
    · rw [hm8, rndInf_near_normal (f := Spec.binary32) (s := 1 / 127) (G := 8454660) (i := -30) (by decide) (by decide)
        (by decide) (by decide) (by rw [abs_lt]; norm_num),
        rndInf_near_normal (f := Spec.binary32) (G := 2 ^ 23) (i := -23) (by decide) (by decide)
        (by decide) (by decide) (by rw [abs_lt]; norm_num)]
      norm_num
    · rw [hm16, rndInf_near_normal (f := Spec.binary32) (s := 1 / 32767) (G := 8388864) (i := -38) (by decide) (by decide)
        (by decide) (by decide) (by rw [abs_lt]; norm_num),
        rndInf_near_normal (f := Spec.binary32) (G := 2 ^ 23) (i := -23) (by decide) (by decide)
        (by decide) (by decide) (by rw [abs_lt]; norm_num)]
      norm_num
    · rw [hm8, rndInf_near_normal (f := binary64) (s := 1 / 127) (G := 4539061041759240) (i := -59) (by decide) (by decide)
        (by decide) (by decide) (by rw [abs_lt]; norm_num),
        rndInf_near_normal (f := binary64) (G := 2 ^ 52) (i := -52) (by decide) (by decide)
        (by decide) (by decide) (by rw [abs_lt]; norm_num)]
      norm_num
    · rw [hm16, rndInf_near_normal (f := binary64) (s := 1 / 32767) (G := 4503737070518400) (i := -67) (by decide) (by decide)
        (by decide) (by decide) (by rw [abs_lt]; norm_num),
        rndInf_near_normal (f := binary64) (G := 2 ^ 52) (i := -52) (by decide) (by decide)
        (by decide) (by decide) (by rw [abs_lt]; norm_num)]
      norm_num
  have hfit : ∀ r : ℤ, |r| ≤ t.max → t.Fits r := by
    intro r hr
    rw [Small.fits ht]
    have := abs_le.1 hr
    constructor <;> omega
  have hlr : ∀ n : ℤ, lroundR n = n := fun n => lroundR_near (by simp)
  rintro x (rfl | rfl | rfl)
  · refine ⟨t.max, compressI_near ht hf' sample_formats.1 (hfit _ (by rw [abs_of_pos hml.2])) ?_, ?_⟩
    · rw [one_mul, rndInf_exact hgrid, hlr]
    · rw [(decompressI_eq ht hf' (hfit _ (by rw [abs_of_pos hml.2]))).1, hone]
  · refine ⟨-t.max, compressI_near ht hf' sample_formats.1 (hfit _ (by rw [abs_neg, abs_of_pos hml.2])) ?_, ?_⟩
    · rw [neg_one_mul, rndInf_neg, rndInf_exact hgrid, lroundR_neg, hlr]
    · rw [(decompressI_eq ht hf' (hfit _ (by rw [abs_neg, abs_of_pos hml.2]))).1]
      push_cast
      rw [neg_mul, rndInf_neg, hone]
  · refine ⟨0, compressI_near ht hf' sample_formats.1 (hfit _ (by simpa using hml.2.le)) ?_, ?_⟩
    · rw [zero_mul, rndInf_zero]
      exact_mod_cast hlr 0
    · rw [(decompressI_eq ht hf' (hfit _ (by simpa using hml.2.le))).1]
      push_cast
      rw [zero_mul, rndInf_zero]

/-! ## Products of compressed samples -/

private theorem transformTo_eq {E S : Type} [Zero S] {comp : E → Res S} {n : ℕ} {a : ℕ → E} {c : ℕ → S}
    (h : ∀ i < n, comp (a i) = .ok (c i)) : transformTo comp (vec n a) (List.replicate n 0) = .ok (vec n c) := by
  have hrep : List.replicate n (0 : S) = vec n (fun _ => 0) := by
    apply List.ext_getElem?
    intro i
    rw [getElem?_vec, List.getElem?_replicate]
  unfold transformTo
  rw [hrep, length_vec]
  apply forN_eq' (fun k => vec n (fun m => if m < k then c m else 0))
  · apply vec_ext
    intro m _
    rw [if_neg (by omega)]
  · apply vec_ext
    intro m hm
    rw [if_pos hm]
  · intro i hi
    rw [rd_vec_ok hi, bind_ok, h i hi, bind_ok, wr_vec_ok hi]
    congr 1
    apply vec_ext
    intro m _
    by_cases hm : m = i
    · subst hm
      rw [Function.update_self, if_pos (by omega)]
    · rw [Function.update_of_ne hm]
      by_cases hc : m < i
      · rw [if_pos hc, if_pos (by omega)]
      · rw [if_neg hc, if_neg (by omega)]

private theorem cfloatMul_eq {E S : Type} [Zero S] [Zero E] [Mul E] {comp : E → Res S} (dec : S → E) {n : ℕ} {a b : ℕ → E}
    {c d : ℕ → S} (ha : ∀ i < n, comp (a i) = .ok (c i)) (hb : ∀ i < n, comp (b i) = .ok (d i)) :
    cfloatMul comp dec n (vec n a) (vec n b) = .ok (vec n (fun i => dec (c i) * dec (d i))) := by
  unfold cfloatMul
  have hrep : List.replicate n (0 : E) = vec n (fun _ => 0) := by
    apply List.ext_getElem?
    intro i
    rw [getElem?_vec, List.getElem?_replicate]
  rw [transformTo_eq ha, bind_ok, transformTo_eq hb, bind_ok, map_vec, map_vec, hrep, multiplyVec_vec]

/-- Sample through the storage and back. -/
private theorem unit_path (hf : SampleFmt f) (ht : t = i8 ∨ t = i16) {x : ℝ} (hx : |x| ≤ 1) :
    ∃ r : ℤ, compressI f f t (.fin x) = .ok r ∧ ∃ w : ℝ, decompressI f t r = .fin w ∧ |w| ≤ 1 ∧
      |w - x| ≤ 1 / (2 * t.max) + 3 * f.u := by
  obtain ⟨hm1, hm2⟩ := Small.bounds ht
  have hml := Small.max_lt ht
  obtain ⟨r, h1, h2, h3, -⟩ := compressI_unit ht hf hf hx
  have hfit : t.Fits r := by
    rw [Small.fits ht]
    have := abs_le.1 h2
    constructor <;> omega
  obtain ⟨c, hc, -, h4⟩ := decompressI_near ht hf hfit
  refine ⟨r, h1, c, hc, (h4 h2).1, ?_⟩
  have h5 : |(r : ℝ) / t.max - x| ≤ 1 / (2 * t.max) + f.u := by
    have hm0 : (0 : ℝ) < t.max := by linarith
    have e : (r : ℝ) / t.max - x = (r - x * t.max) / t.max := by field_simp
    rw [e, abs_div, abs_of_pos hm0, div_le_iff₀ hm0]
    refine h3.trans (le_of_eq ?_)
    field_simp
  calc |c - x| = |(c - r / t.max) + (r / t.max - x)| := by congr 1; ring
    _ ≤ 2 * f.u + (1 / (2 * t.max) + f.u) := (abs_add_le _ _).trans (add_le_add (h4 h2).2 h5)
    _ = _ := by ring

/-- A rounded product of numbers in `[-1, 1]`. -/
private theorem unit_mul (hf : SampleFmt f) {v w x y e : ℝ} (hv : |v| ≤ 1) (hw : |w| ≤ 1) (hy : |y| ≤ 1)
    (h1 : |v - x| ≤ e) (h2 : |w - y| ≤ e) :
    ∃ p : ℝ, f.round (FVal.mul (.fin v) (.fin w)) = .fin p ∧ |p| ≤ 1 ∧ |p - x * y| ≤ 2 * e + f.u := by
  have hr := hf.range
  have hvw : |v * w| ≤ 1 := by
    rw [abs_mul]
    nlinarith [abs_nonneg v, abs_nonneg w]
  have hp1 : |f.rndInf (v * w)| ≤ 1 := by
    rw [rndInf_abs f hf.hp]
    exact rndInf_le_grid hf.hp (one_onGrid hf.1) hvw
  refine ⟨f.rndInf (v * w), round_fin_of_lt (by linarith), hp1, ?_⟩
  have h3 := rndInf_abs_err hf.1 hvw hf.minNormal_le
  have h4 : |v * w - x * y| ≤ 2 * e := by
    have e0 : v * w - x * y = v * (w - y) + (v - x) * y := by ring
    rw [e0]
    refine (abs_add_le _ _).trans ?_
    rw [abs_mul, abs_mul]
    nlinarith [abs_nonneg v, abs_nonneg y, abs_nonneg (w - y), abs_nonneg (v - x)]
  calc _ = |(f.rndInf (v * w) - v * w) + (v * w - x * y)| := by congr 1; ring
    _ ≤ f.u * 1 + 2 * e := (abs_add_le _ _).trans (add_le_add h3 h4)
    _ = _ := by ring

/-- A rounded sum of numbers in `[-1, 1]`. -/
private theorem unit_add (hf : SampleFmt f) {v w x y d : ℝ} (hv : |v| ≤ 1) (hw : |w| ≤ 1) (h1 : |v - x| ≤ d)
    (h2 : |w - y| ≤ d) :
    ∃ p : ℝ, f.round (FVal.add (.fin v) (.fin w)) = .fin p ∧ |p - (x + y)| ≤ 2 * d + 2 * f.u := by
  have hr := hf.range
  have hu := hf.u_le
  have hvw : |v + w| ≤ 2 := (abs_add_le _ _).trans (by linarith)
  obtain ⟨p, hp, hp'⟩ := round_ok hf.1 hvw (hf.minNormal_le.trans (by norm_num)) (by linarith)
  refine ⟨p, hp, ?_⟩
  calc _ = |(p - (v + w)) + ((v - x) + (w - y))| := by congr 1; ring
    _ ≤ f.u * 2 + (d + d) := (abs_add_le _ _).trans (add_le_add hp' ((abs_add_le _ _).trans (add_le_add h1 h2)))
    _ = _ := by ring

/-- **C107, products of compressed real signals**: for signals of any length with samples in `[-1, 1]`, every output is a
finite number, within `1/max` and seven unit roundoffs of the product of the samples. -/
theorem C107_multiply_real (hf : SampleFmt f) (ht : t = i8 ∨ t = i16) (n : ℕ) (a b : ℕ → ℝ) (ha : ∀ i < n, |a i| ≤ 1)
    (hb : ∀ i < n, |b i| ≤ 1) :
    ∃ out : ℕ → ℝ, cfloatMul (compressR f t) (decompressR f t) n (vec n (fun i => (⟨.fin (a i)⟩ : IR f)))
        (vec n (fun i => ⟨.fin (b i)⟩)) = .ok (vec n (fun i => ⟨.fin (out i)⟩)) ∧
      ∀ i < n, |out i - a i * b i| ≤ 1 / t.max + 7 * (2 : ℝ) ^ (-(f.p : ℤ)) := by
  obtain ⟨hm1, hm2⟩ := Small.bounds ht
  have hpath : ∀ x : ℕ → ℝ, (∀ i < n, |x i| ≤ 1) → ∃ (r : ℕ → ℤ) (w : ℕ → ℝ), ∀ i < n,
      compressI f f t (.fin (x i)) = .ok (r i) ∧ decompressI f t (r i) = .fin (w i) ∧ |w i| ≤ 1 ∧
      |w i - x i| ≤ 1 / (2 * t.max) + 3 * f.u := by
    intro x hx
    have : ∀ i, ∃ q : ℤ × ℝ, i < n → compressI f f t (.fin (x i)) = .ok q.1 ∧ decompressI f t q.1 = .fin q.2 ∧
        |q.2| ≤ 1 ∧ |q.2 - x i| ≤ 1 / (2 * t.max) + 3 * f.u := by
      intro i
      by_cases hi : i < n
      · obtain ⟨r, h1, w, h2⟩ := unit_path hf ht (hx i hi)
        exact ⟨(r, w), fun _ => ⟨h1, h2⟩⟩
      · exact ⟨(0, 0), fun h => absurd h hi⟩
    choose q hq using this
    exact ⟨fun i => (q i).1, fun i => (q i).2, hq⟩
  obtain ⟨r, v, hv⟩ := hpath a ha
  obtain ⟨s, w, hw⟩ := hpath b hb
  have hprod : ∀ i, ∃ p : ℝ, i < n → f.round (FVal.mul (.fin (v i)) (.fin (w i))) = .fin p ∧
      |p - a i * b i| ≤ 1 / t.max + 7 * (2 : ℝ) ^ (-(f.p : ℤ)) := by
    intro i
    by_cases hi : i < n
    · obtain ⟨-, -, hv1, hv2⟩ := hv i hi
      obtain ⟨-, -, hw1, hw2⟩ := hw i hi
      obtain ⟨p, h1, -, h2⟩ := unit_mul hf hv1 hw1 (hb i hi) hv2 hw2
      refine ⟨p, fun _ => ⟨h1, h2.trans (le_of_eq ?_)⟩⟩
      unfold Spec.Fmt.u
      field_simp
      ring
    · exact ⟨0, fun h => absurd h hi⟩
  choose out hout using hprod
  refine ⟨out, ?_, fun i hi => (hout i hi).2⟩
  rw [cfloatMul_eq (decompressR f t) (c := r) (d := s) (fun i hi => (hv i hi).1) (fun i hi => (hw i hi).1)]
  congr 1
  apply vec_ext
  intro i hi
  show (⟨f.round ((decompressI f t (r i)).mul (decompressI f t (s i)))⟩ : IR f) = _
  rw [(hv i hi).2.1, (hw i hi).2.1, (hout i hi).1]

example : ∃ out : ℕ → ℝ, cfloatMul (compressR Spec.binary32 i8) (decompressR Spec.binary32 i8) 3
    (vec 3 (fun _ => ⟨.fin (1 / 2)⟩)) (vec 3 (fun _ => ⟨.fin (-1)⟩)) = .ok (vec 3 (fun i => ⟨.fin (out i)⟩)) ∧
    ∀ i < 3, |out i - 1 / 2 * -1| ≤ 1 / 126 := by
  obtain ⟨out, h1, h2⟩ := C107_multiply_real sample_formats.1 (Or.inl rfl) 3 (fun _ => 1 / 2) (fun _ => -1)
    (fun _ _ => by rw [abs_of_pos] <;> norm_num) (fun _ _ => by norm_num)
  refine ⟨out, h1, fun i hi => (h2 i hi).trans ?_⟩
  norm_num [i8, IntT.max, Spec.binary32]

/-- **C107, products of compressed complex signals**: with parts in `[-1, 1]`, both parts of every output are finite and
within `2/max` and sixteen unit roundoffs of those of the complex product. -/
theorem C107_multiply_complex (hf : SampleFmt f) (ht : t = i8 ∨ t = i16) (n : ℕ) (a b : ℕ → ℂ)
    (ha : ∀ i < n, |(a i).re| ≤ 1 ∧ |(a i).im| ≤ 1) (hb : ∀ i < n, |(b i).re| ≤ 1 ∧ |(b i).im| ≤ 1) :
    ∃ out : ℕ → ℂ, cfloatMul (compressC f t) (decompressC f t) n
        (vec n (fun i => (⟨.fin (a i).re, .fin (a i).im⟩ : IC f))) (vec n (fun i => ⟨.fin (b i).re, .fin (b i).im⟩))
        = .ok (vec n (fun i => ⟨.fin (out i).re, .fin (out i).im⟩)) ∧
      ∀ i < n, |(out i - a i * b i).re| ≤ 2 / t.max + 16 * (2 : ℝ) ^ (-(f.p : ℤ)) ∧
        |(out i - a i * b i).im| ≤ 2 / t.max + 16 * (2 : ℝ) ^ (-(f.p : ℤ)) := by
  obtain ⟨hm1, hm2⟩ := Small.bounds ht
  have hpath : ∀ x : ℕ → ℂ, (∀ i < n, |(x i).re| ≤ 1 ∧ |(x i).im| ≤ 1) → ∃ (r : ℕ → ℤ × ℤ) (w : ℕ → ℂ), ∀ i < n,
      compressC f t ⟨.fin (x i).re, .fin (x i).im⟩ = .ok (r i) ∧
      decompressC f t (r i) = ⟨.fin (w i).re, .fin (w i).im⟩ ∧ |(w i).re| ≤ 1 ∧ |(w i).im| ≤ 1 ∧
      |(w i).re - (x i).re| ≤ 1 / (2 * t.max) + 3 * f.u ∧ |(w i).im - (x i).im| ≤ 1 / (2 * t.max) + 3 * f.u := by
    intro x hx
    have : ∀ i, ∃ q : (ℤ × ℤ) × ℂ, i < n → compressC f t ⟨.fin (x i).re, .fin (x i).im⟩ = .ok q.1 ∧
        decompressC f t q.1 = ⟨.fin q.2.re, .fin q.2.im⟩ ∧ |q.2.re| ≤ 1 ∧ |q.2.im| ≤ 1 ∧
        |q.2.re - (x i).re| ≤ 1 / (2 * t.max) + 3 * f.u ∧ |q.2.im - (x i).im| ≤ 1 / (2 * t.max) + 3 * f.u := by
      intro i
      by_cases hi : i < n
      · obtain ⟨r, h1, w, h2, h3, h4⟩ := unit_path hf ht (hx i hi).1
        obtain ⟨r', h1', w', h2', h3', h4'⟩ := unit_path hf ht (hx i hi).2
        refine ⟨((r, r'), ⟨w, w'⟩), fun _ => ⟨?_, ?_, h3, h3', h4, h4'⟩⟩
        · unfold compressC
          dsimp only
          rw [h1, bind_ok, h1', bind_ok, pure_eq_ok]
        · unfold decompressC
          dsimp only
          rw [h2, h2']
      · exact ⟨((0, 0), 0), fun h => absurd h hi⟩
    choose q hq using this
    exact ⟨fun i => (q i).1, fun i => (q i).2, hq⟩
  obtain ⟨r, v, hv⟩ := hpath a ha
  obtain ⟨s, w, hw⟩ := hpath b hb
  have hprod : ∀ i, ∃ p : ℂ, i < n → ((⟨.fin (v i).re, .fin (v i).im⟩ : IC f) * ⟨.fin (w i).re, .fin (w i).im⟩)
      = ⟨.fin p.re, .fin p.im⟩ ∧ |(p - a i * b i).re| ≤ 2 / t.max + 16 * (2 : ℝ) ^ (-(f.p : ℤ)) ∧
        |(p - a i * b i).im| ≤ 2 / t.max + 16 * (2 : ℝ) ^ (-(f.p : ℤ)) := by
    intro i
    by_cases hi : i < n
    · obtain ⟨-, -, v1, v2, v3, v4⟩ := hv i hi
      obtain ⟨-, -, w1, w2, w3, w4⟩ := hw i hi
      obtain ⟨b1, b2⟩ := hb i hi
      obtain ⟨p1, e1, m1, d1⟩ := unit_mul hf v1 w1 b1 v3 w3
      obtain ⟨p2, e2, m2, d2⟩ := unit_mul hf v2 w2 b2 v4 w4
      obtain ⟨p3, e3, m3, d3⟩ := unit_mul hf v1 w2 b2 v3 w4
      obtain ⟨p4, e4, m4, d4⟩ := unit_mul hf v2 w1 b1 v4 w3
      obtain ⟨x, ex, dx⟩ := unit_add hf (w := -p2) (y := -((a i).im * (b i).im)) m1 (by rwa [abs_neg]) d1 (by
        rw [neg_sub_neg, abs_sub_comm]; exact d2)
      obtain ⟨y, ey, dy⟩ := unit_add hf m3 m4 d3 d4
      refine ⟨⟨x, y⟩, fun _ => ⟨?_, ?_, ?_⟩⟩
      · show (⟨f.round ((f.round (FVal.mul (.fin (v i).re) (.fin (w i).re))).sub (f.round (FVal.mul (.fin (v i).im) (.fin (w i).im)))),
          f.round ((f.round (FVal.mul (.fin (v i).re) (.fin (w i).im))).add (f.round (FVal.mul (.fin (v i).im) (.fin (w i).re))))⟩ : IC f) = _
        rw [e1, e2, e3, e4, ey]
        exact congrArg (fun u => (⟨u, .fin y⟩ : IC f)) ex
      · have : ((⟨x, y⟩ : ℂ) - a i * b i).re = x - ((a i).re * (b i).re + -((a i).im * (b i).im)) := by
          simp only [Complex.sub_re, Complex.mul_re]; ring
        rw [this]
        refine dx.trans (le_of_eq ?_)
        unfold Spec.Fmt.u
        field_simp
        ring
      · have : ((⟨x, y⟩ : ℂ) - a i * b i).im = y - ((a i).re * (b i).im + (a i).im * (b i).re) := by
          simp only [Complex.sub_im, Complex.mul_im]
        rw [this]
        refine dy.trans (le_of_eq ?_)
        unfold Spec.Fmt.u
        field_simp
        ring
    · exact ⟨0, fun h => absurd h hi⟩
  choose out hout using hprod
  refine ⟨out, ?_, fun i hi => (hout i hi).2⟩
  rw [cfloatMul_eq (decompressC f t) (c := r) (d := s) (fun i hi => (hv i hi).1) (fun i hi => (hw i hi).1)]
  congr 1
  apply vec_ext
  intro i hi
  rw [(hv i hi).2.1, (hw i hi).2.1, (hout i hi).1]

example : ∃ out : ℕ → ℂ, cfloatMul (compressC Spec.binary32 i16) (decompressC Spec.binary32 i16) 2
    (vec 2 (fun _ => ⟨.fin (⟨1, -1⟩ : ℂ).re, .fin (⟨1, -1⟩ : ℂ).im⟩)) (vec 2 (fun _ => ⟨.fin (⟨-1, 1⟩ : ℂ).re, .fin (⟨-1, 1⟩ : ℂ).im⟩))
      = .ok (vec 2 (fun i => ⟨.fin (out i).re, .fin (out i).im⟩)) :=
  let ⟨out, h, _⟩ := C107_multiply_complex sample_formats.1 (Or.inr rfl) 2 (fun _ => ⟨1, -1⟩) (fun _ => ⟨-1, 1⟩)
    (fun _ _ => by norm_num) (fun _ _ => by norm_num)
  ⟨out, h⟩

end Neo.Props
