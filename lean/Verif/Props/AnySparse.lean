import Verif.Lemmas.AnySparse
import Verif.Props.NonFinite
import Verif.Props.IeeeConv
import Verif.Props.Upc

/-! # C102: what a sparse convolver skips it does not read -/

namespace Neo.Props

open Neo Spec Finset

/-- The predicate keeps coefficient `k` of partition `r`. -/
def Kept {C : Type} [Zero C] (p : ℕ → ℕ → C → Bool) (v : MatView) (data : List C) (r k : ℕ) : Prop :=
  p r k (data.getD (v.off + r * v.s0 + k * v.s1) 0) = true

/-- Some partition of which a coefficient is kept carries input block `i` to output block `t`; its transform is twice as
long as a block and so reaches two output blocks. -/
def Reaches {C : Type} [Zero C] (p : ℕ → ℕ → C → Bool) (v : MatView) (data : List C) (i t : ℕ) : Prop :=
  ∃ j < v.rows, (∃ k < v.cols, Kept p v data j k) ∧ (t = i + j ∨ t = i + j + 1)

/-- Two partitions of which only the second is kept: input block 1 reaches the output blocks 2 and 3, not block 1. -/
example {C : Type} [Zero C] (z : C) :
    Reaches (fun r _ _ => r == 1) (MatView.right 2 3) [z, z, z, z, z, z] 1 2 ∧
    Reaches (fun r _ _ => r == 1) (MatView.right 2 3) [z, z, z, z, z, z] 1 3 ∧
    ¬ Reaches (fun r _ _ => r == 1) (MatView.right 2 3) [z, z, z, z, z, z] 1 1 ∧
    ¬ Reaches (fun r _ _ => r == 1) (MatView.right 2 3) [z, z, z, z, z, z] 1 4 := by
  refine ⟨⟨1, by decide, ⟨0, by decide, rfl⟩, by decide⟩, ⟨1, by decide, ⟨0, by decide, rfl⟩, by decide⟩, ?_, ?_⟩
  · rintro ⟨j, hj, ⟨k, -, hk⟩, h⟩
    unfold Kept at hk
    have : j = 1 := by simpa using hk
    omega
  · rintro ⟨j, hj, ⟨k, -, hk⟩, h⟩
    unfold Kept at hk
    have : j = 1 := by simpa using hk
    omega

/-- The two filters of `C102_memory_upola` may differ in everything that is rejected, here the first partition. -/
example {C : Type} [Zero C] (z z' w : C) : ∀ r < (MatView.right 2 3).rows, ∀ k < (MatView.right 2 3).cols,
    (Kept (fun r _ _ => r == 1) (MatView.right 2 3) [z, z, z, w, w, w] r k
      ↔ Kept (fun r _ _ => r == 1) (MatView.right 2 3) [z', z', z', w, w, w] r k) ∧
    (Kept (fun r _ _ => r == 1) (MatView.right 2 3) [z, z, z, w, w, w] r k →
      [z, z, z, w, w, w].getD ((MatView.right 2 3).off + r * (MatView.right 2 3).s0 + k * (MatView.right 2 3).s1) 0
        = [z', z', z', w, w, w].getD ((MatView.right 2 3).off + r * (MatView.right 2 3).s0 + k * (MatView.right 2 3).s1) 0) := by
  intro r hr k hk
  refine ⟨Iff.rfl, fun h => ?_⟩
  unfold Kept at h
  obtain rfl : r = 1 := by simpa using h
  have h2 : k < 3 := hk
  interval_cases k <;> rfl

/-- `C102_keep_all` with a predicate that accepts everything. -/
example {C : Type} [Zero C] (v : MatView) (data : List C) : ∀ r < v.rows, ∀ k < v.cols, Kept (fun _ _ _ => true) v data r k :=
  fun _ _ _ _ => rfl

/-! ## Any arithmetic -/

section any
variable {R C : Type} [Zero R] [Add R] [Mul R] [Zero C] [AddCommMagma C] [Sub C] [Mul C]

private theorem sample_eq {a : ℕ} {blocks blocks' : List (List R)} (hb : ∀ b ∈ blocks, b.length = 2 ^ a)
    (hb' : ∀ b ∈ blocks', b.length = 2 ^ a) (hl : blocks'.length = blocks.length) {i n : ℕ} (hi : i < blocks.length)
    (hn : n < 2 ^ a) (h : blocks.getD i [] = blocks'.getD i []) :
    blocks.flatten.getD (i * 2 ^ a + n) 0 = blocks'.flatten.getD (i * 2 ^ a + n) 0 := by
  rw [flatten_getD 0 hb hi hn, flatten_getD 0 hb' (by omega) hn, h]

private theorem seg_eq {A : Arith R C} {a : ℕ} {blocks blocks' : List (List R)} (hb : ∀ b ∈ blocks, b.length = 2 ^ a)
    (hb' : ∀ b ∈ blocks', b.length = 2 ^ a) (hl : blocks'.length = blocks.length) {i : ℕ} (hi : i < blocks.length)
    (h : blocks.getD i [] = blocks'.getD i []) :
    winSpecG A a (seg (2 ^ a)) (fun n => blocks.flatten.getD n 0) i
      = winSpecG A a (seg (2 ^ a)) (fun n => blocks'.flatten.getD n 0) i := by
  apply rfftGn_congr
  intro n _
  unfold seg
  split
  · exact sample_eq hb hb' hl hi ‹_› h
  · rfl

private theorem save_eq {A : Arith R C} {a : ℕ} {blocks blocks' : List (List R)} (hb : ∀ b ∈ blocks, b.length = 2 ^ a)
    (hb' : ∀ b ∈ blocks', b.length = 2 ^ a) (hl : blocks'.length = blocks.length) {i : ℕ} (hi : i < blocks.length)
    (h : blocks.getD i [] = blocks'.getD i [])
    (h' : 1 ≤ i → blocks.getD (i - 1) [] = blocks'.getD (i - 1) []) :
    winSpecG A a (saveWindow (2 ^ a)) (fun n => blocks.flatten.getD n 0) i
      = winSpecG A a (saveWindow (2 ^ a)) (fun n => blocks'.flatten.getD n 0) i := by
  have hp : 2 ^ (a + 1) = 2 ^ a + 2 ^ a := by rw [pow_succ]; ring
  apply rfftGn_congr
  intro n hn
  unfold saveWindow
  split
  · split
    · exact sample_eq hb hb' hl (by omega) ‹_› (h' ‹_›)
    · rfl
  · exact sample_eq hb hb' hl hi (by omega) h

/-- **C102** (overlap-add, any arithmetic).  Two sparse filters that keep the same coefficients with the same values,
two streams of the same number of blocks.  Output block `t` is the same bit for bit if the streams agree in the input
blocks that reach it through a partition with a kept coefficient.  Rejected coefficients and input blocks that meet only
rejected coefficients do not matter at all, not even if they are infinite or NaN. -/
theorem C102_memory_upola (A : Arith R C) {a : ℕ} (ha : 1 ≤ a) (ha2 : a ≤ 26) {v v' : MatView} {data data' : List C}
    (hv : v.InRange data.length) (hv' : v'.InRange data'.length) (hr : 1 ≤ v.rows) (hr' : v'.rows = v.rows)
    (hc : v.cols = 2 ^ a + 1) (hc' : v'.cols = 2 ^ a + 1) (p p' : ℕ → ℕ → C → Bool)
    (hk : ∀ r < v.rows, ∀ k < v.cols, (Kept p v data r k ↔ Kept p' v' data' r k) ∧ (Kept p v data r k →
      data.getD (v.off + r * v.s0 + k * v.s1) 0 = data'.getD (v'.off + r * v'.s0 + k * v'.s1) 0))
    (blocks blocks' : List (List R)) (hb : ∀ b ∈ blocks, b.length = 2 ^ a) (hb' : ∀ b ∈ blocks', b.length = 2 ^ a)
    (hl : blocks'.length = blocks.length) :
    ∃ outs outs', sparseUpolaRunG A v data p blocks = .ok outs ∧ sparseUpolaRunG A v' data' p' blocks' = .ok outs' ∧
      outs.map List.length = blocks.map List.length ∧
      ∀ t < blocks.length, (∀ i, Reaches p v data i t → blocks.getD i [] = blocks'.getD i []) →
        outs.getD t [] = outs'.getD t [] := by
  refine ⟨_, _, sparseUpolaRunG_eq ha ha2 hv hr hc p blocks hb,
    sparseUpolaRunG_eq ha ha2 hv' (by omega) hc' p' blocks' hb', ?_, ?_⟩
  · have h := blocks_eq_vec (0 : R) blocks hb
    rw [vec_const_len]
    conv_rhs => rw [h]
    rw [vec_const_len]
  intro t ht hx
  rw [getD_vec _ _ _ _ ht, getD_vec _ _ _ _ (by omega)]
  apply vec_ext
  intro n hn
  have key : ∀ u, u = t ∨ u + 1 = t → ∀ k ≤ 2 ^ a,
      macM v.rows (sparseM p (matAt v data)) (winSpecG A a (seg (2 ^ a)) (fun n => blocks.flatten.getD n 0)) u k
        = macM v'.rows (sparseM p' (matAt v' data')) (winSpecG A a (seg (2 ^ a)) (fun n => blocks'.flatten.getD n 0)) u
          k := by
    intro u hu k hk2
    rw [hr']
    refine macM_sparse_congr (fun j hj => ?_) (fun j hj c => (hk j hj k (by omega)).2 c) (fun j hj hju c => ?_)
    · rw [Bool.eq_iff_iff]
      exact (hk j hj k (by omega)).1
    · rw [seg_eq hb hb' hl (by omega) (hx (u - j) ⟨j, hj, ⟨k, by omega, c⟩, by omega⟩)]
  exact olaOutG_congr (fun k hk2 => key t (Or.inl rfl) k hk2) (fun h1 k hk2 => key (t - 1) (by omega) k hk2) hn

/-- **C102** (overlap-save, any arithmetic).  The same for `sparse_upols_convolver`. -/
theorem C102_memory_upols (A : Arith R C) {a : ℕ} (ha : 1 ≤ a) (ha2 : a ≤ 26) {v v' : MatView} {data data' : List C}
    (hv : v.InRange data.length) (hv' : v'.InRange data'.length) (hr : 1 ≤ v.rows) (hr' : v'.rows = v.rows)
    (hc : v.cols = 2 ^ a + 1) (hc' : v'.cols = 2 ^ a + 1) (p p' : ℕ → ℕ → C → Bool)
    (hk : ∀ r < v.rows, ∀ k < v.cols, (Kept p v data r k ↔ Kept p' v' data' r k) ∧ (Kept p v data r k →
      data.getD (v.off + r * v.s0 + k * v.s1) 0 = data'.getD (v'.off + r * v'.s0 + k * v'.s1) 0))
    (blocks blocks' : List (List R)) (hb : ∀ b ∈ blocks, b.length = 2 ^ a) (hb' : ∀ b ∈ blocks', b.length = 2 ^ a)
    (hl : blocks'.length = blocks.length) :
    ∃ outs outs', sparseUpolsRunG A v data p blocks = .ok outs ∧ sparseUpolsRunG A v' data' p' blocks' = .ok outs' ∧
      outs.map List.length = blocks.map List.length ∧
      ∀ t < blocks.length, (∀ i, Reaches p v data i t → blocks.getD i [] = blocks'.getD i []) →
        outs.getD t [] = outs'.getD t [] := by
  refine ⟨_, _, sparseUpolsRunG_eq ha ha2 hv hr hc p blocks hb,
    sparseUpolsRunG_eq ha ha2 hv' (by omega) hc' p' blocks' hb', ?_, ?_⟩
  · have h := blocks_eq_vec (0 : R) blocks hb
    rw [vec_const_len]
    conv_rhs => rw [h]
    rw [vec_const_len]
  intro t ht hx
  rw [getD_vec _ _ _ _ ht, getD_vec _ _ _ _ (by omega)]
  apply vec_ext
  intro n hn
  refine olsOutG_congr (fun k hk2 => ?_) hn
  rw [hr']
  refine macM_sparse_congr (fun j hj => ?_) (fun j hj c => (hk j hj k (by omega)).2 c) (fun j hj hju c => ?_)
  · rw [Bool.eq_iff_iff]
    exact (hk j hj k (by omega)).1
  · rw [save_eq hb hb' hl (by omega) (hx (t - j) ⟨j, hj, ⟨k, by omega, c⟩, by omega⟩)
      (fun h1 => hx (t - j - 1) ⟨j, hj, ⟨k, by omega, c⟩, by omega⟩)]

/-- **C102** (nothing rejected).  A sparse convolver that keeps every coefficient is the dense one, bit for bit, in any
arithmetic. -/
theorem C102_keep_all (A : Arith R C) {a : ℕ} (ha : 1 ≤ a) (ha2 : a ≤ 26) {v : MatView} {data : List C}
    (hv : v.InRange data.length) (hr : 1 ≤ v.rows) (hc : v.cols = 2 ^ a + 1) (p : ℕ → ℕ → C → Bool)
    (hk : ∀ r < v.rows, ∀ k < v.cols, Kept p v data r k) (blocks : List (List R))
    (hb : ∀ b ∈ blocks, b.length = 2 ^ a) :
    ∃ outs outs', sparseUpolaRunG A v data p blocks = .ok outs ∧ upolaRunG A v data blocks = .ok outs ∧
      sparseUpolsRunG A v data p blocks = .ok outs' ∧ upolsRunG A v data blocks = .ok outs' := by
  have key : ∀ (X : ℕ → ℕ → C) (t k), k ≤ 2 ^ a →
      macM v.rows (sparseM p (matAt v data)) X t k = macY v.rows (matAt v data) X t k :=
    fun X t k hk2 => macM_sparse_all fun j hj => hk j hj k (by omega)
  refine ⟨_, _, sparseUpolaRunG_eq ha ha2 hv hr hc p blocks hb, ?_, sparseUpolsRunG_eq ha ha2 hv hr hc p blocks hb, ?_⟩
  · rw [upolaRunG_eq ha ha2 hv hr hc blocks hb]
    refine congrArg _ (vec_ext fun t _ => vec_ext fun n hn => ?_)
    exact (olaOutG_congr (fun k hk2 => key _ t k hk2) (fun _ k hk2 => key _ (t - 1) k hk2) hn).symm
  · rw [upolsRunG_eq ha ha2 hv hr hc blocks hb]
    exact congrArg _ (vec_ext fun t _ => vec_ext fun n hn => (olsOutG_congr (fun k hk2 => key _ t k hk2) hn).symm)

end any

/-! ## IEEE arithmetic -/

section ieee
variable {f : Fmt}

private theorem mem_vec {α : Type} {n : ℕ} {g : ℕ → α} {u : α} (h : u ∈ vec n g) : ∃ i < n, g i = u := by
  unfold vec at h
  simpa using h

private theorem block_index {B : ℕ} {blocks : List (List (IR f))} (hb : ∀ b ∈ blocks, b.length = B) {i : ℕ}
    (hi : i < blocks.length) {z : IR f} (h : z ∈ blocks.getD i []) :
    ∃ i0 < B, blocks.flatten.getD (i * B + i0) 0 = z := by
  obtain ⟨i0, h0, e⟩ := List.getElem_of_mem h
  have hl : (blocks.getD i []).length = B := by
    rw [List.getD_eq_getElem _ _ hi]
    exact hb _ (List.getElem_mem _)
  refine ⟨i0, by omega, ?_⟩
  rw [flatten_getD 0 hb hi (by omega), List.getD_eq_getElem _ _ h0, e]

private theorem out_mem {n B : ℕ} {g : ℕ → ℕ → IR f} {t : ℕ} {y : IR f}
    (h : y ∈ (vec n fun t => vec B (g t)).getD t []) : t < n ∧ ∃ i < B, g t i = y := by
  by_cases ht : t < n
  · rw [getD_vec _ _ _ _ ht] at h
    exact ⟨ht, mem_vec h⟩
  · rw [List.getD_eq_default _ _ (by rw [length_vec]; omega)] at h
    exact absurd h List.not_mem_nil

/-- **C102** (overlap-add, infinities and NaN).  An infinity or NaN in input block `i` leaves no finite sample in any
output block that block `i` reaches through a partition with a kept coefficient; a NaN makes all of their samples NaN; an
infinite or NaN coefficient that is kept leaves no finite sample in any output block.  `C102_memory_upola` says that
nothing else is affected. -/
theorem C102_nonfinite_upola (tw : ℕ → ℕ → Direction → IC f) {a : ℕ} (ha : 1 ≤ a) (ha2 : a ≤ 26) {v : MatView}
    {data : List (IC f)} (hv : v.InRange data.length) (hr : 1 ≤ v.rows) (hc : v.cols = 2 ^ a + 1)
    (p : ℕ → ℕ → IC f → Bool) (blocks : List (List (IR f))) (hb : ∀ b ∈ blocks, b.length = 2 ^ a) :
    ∃ outs, sparseUpolaRunG (ieeeArith f tw) v data p blocks = .ok outs ∧
      outs.map List.length = blocks.map List.length ∧
      (∀ i < blocks.length, ∀ z ∈ blocks.getD i [], z.val.NonFinite →
        ∀ t, Reaches p v data i t → ∀ y ∈ outs.getD t [], y.val.NonFinite) ∧
      (∀ i < blocks.length, (⟨.nan⟩ : IR f) ∈ blocks.getD i [] →
        ∀ t, Reaches p v data i t → ∀ y ∈ outs.getD t [], y = ⟨.nan⟩) ∧
      (∀ r < v.rows, ∀ k < v.cols, Kept p v data r k → (data.getD (v.off + r * v.s0 + k * v.s1) 0).re.NonFinite ∨
          (data.getD (v.off + r * v.s0 + k * v.s1) 0).im.NonFinite →
        ∀ b ∈ outs, ∀ y ∈ b, y.val.NonFinite) := by
  have hp : 2 ^ (a + 1) = 2 ^ a + 2 ^ a := by rw [pow_succ]; ring
  refine ⟨_, sparseUpolaRunG_eq ha ha2 hv hr hc p blocks hb, ?_, ?_, ?_, ?_⟩
  · have h := blocks_eq_vec (0 : IR f) blocks hb
    rw [vec_const_len]
    conv_rhs => rw [h]
    rw [vec_const_len]
  · rintro i hi z hz hn t ⟨j, hj, ⟨k, hk, c⟩, ht⟩ y hy
    obtain ⟨i0, h0, rfl⟩ := block_index hb hi hz
    obtain ⟨-, n, hn', rfl⟩ := out_mem hy
    have hw : (seg (2 ^ a) (fun n => blocks.flatten.getD n (0 : IR f)) i i0).val.NonFinite := by
      unfold seg; rw [if_pos h0]; exact hn
    have h2 := olaOutG_inf2 (tw := tw) (by omega : k ≤ 2 ^ a)
      (macM_sparse_nonFinite (tw := tw) (a := a) (p := p) (H := matAt v data) hj (by omega) c (by omega) hw) hn'
    rcases ht with rfl | rfl
    · exact h2.1
    · exact h2.2
  · rintro i hi hz t ⟨j, hj, ⟨k, hk, c⟩, ht⟩ y hy
    obtain ⟨i0, h0, e0⟩ := block_index hb hi hz
    obtain ⟨-, n, hn', rfl⟩ := out_mem hy
    have hw : seg (2 ^ a) (fun n => blocks.flatten.getD n (0 : IR f)) i i0 = ⟨.nan⟩ := by
      unfold seg; rw [if_pos h0]; exact e0
    have h2 := olaOutG_full (tw := tw) (by omega : k ≤ 2 ^ a)
      (macM_sparse_nan (tw := tw) (a := a) (p := p) (H := matAt v data) hj (by omega) c (by omega) hw) hn'
    rcases ht with rfl | rfl
    · exact h2.1
    · exact h2.2
  · intro r hr' k hk c hn b hb' y hy
    obtain ⟨t, ht, rfl⟩ := mem_vec hb'
    obtain ⟨n, hn', rfl⟩ := mem_vec hy
    exact (olaOutG_inf2 (k := k) (by omega) (macM_sparse_filter (p := p) (H := matAt v data) hr' c hn t) hn').1

/-- **C102** (overlap-save, infinities and NaN). -/
theorem C102_nonfinite_upols (tw : ℕ → ℕ → Direction → IC f) {a : ℕ} (ha : 1 ≤ a) (ha2 : a ≤ 26) {v : MatView}
    {data : List (IC f)} (hv : v.InRange data.length) (hr : 1 ≤ v.rows) (hc : v.cols = 2 ^ a + 1)
    (p : ℕ → ℕ → IC f → Bool) (blocks : List (List (IR f))) (hb : ∀ b ∈ blocks, b.length = 2 ^ a) :
    ∃ outs, sparseUpolsRunG (ieeeArith f tw) v data p blocks = .ok outs ∧
      outs.map List.length = blocks.map List.length ∧
      (∀ i < blocks.length, ∀ z ∈ blocks.getD i [], z.val.NonFinite →
        ∀ t, Reaches p v data i t → ∀ y ∈ outs.getD t [], y.val.NonFinite) ∧
      (∀ i < blocks.length, (⟨.nan⟩ : IR f) ∈ blocks.getD i [] →
        ∀ t, Reaches p v data i t → ∀ y ∈ outs.getD t [], y = ⟨.nan⟩) ∧
      (∀ r < v.rows, ∀ k < v.cols, Kept p v data r k → (data.getD (v.off + r * v.s0 + k * v.s1) 0).re.NonFinite ∨
          (data.getD (v.off + r * v.s0 + k * v.s1) 0).im.NonFinite →
        ∀ b ∈ outs, ∀ y ∈ b, y.val.NonFinite) := by
  have hp : 2 ^ (a + 1) = 2 ^ a + 2 ^ a := by rw [pow_succ]; ring
  refine ⟨_, sparseUpolsRunG_eq ha ha2 hv hr hc p blocks hb, ?_, ?_, ?_, ?_⟩
  · have h := blocks_eq_vec (0 : IR f) blocks hb
    rw [vec_const_len]
    conv_rhs => rw [h]
    rw [vec_const_len]
  · rintro i hi z hz hn t ⟨j, hj, ⟨k, hk, c⟩, ht⟩ y hy
    obtain ⟨i0, h0, rfl⟩ := block_index hb hi hz
    obtain ⟨-, n, hn', rfl⟩ := out_mem hy
    rcases ht with rfl | rfl
    · have hw : (saveWindow (2 ^ a) (fun n => blocks.flatten.getD n (0 : IR f)) i (2 ^ a + i0)).val.NonFinite := by
        unfold saveWindow
        rw [if_neg (by omega), Nat.add_sub_cancel_left]
        exact hn
      exact specOutG_nonFinite (k := k) (by omega)
        (macM_sparse_nonFinite (tw := tw) (p := p) (H := matAt v data) hj (by omega) c (by omega) hw) (by omega)
    · have hw : (saveWindow (2 ^ a) (fun n => blocks.flatten.getD n (0 : IR f)) (i + 1) i0).val.NonFinite := by
        unfold saveWindow
        rw [if_pos h0, if_pos (by omega), Nat.add_sub_cancel]
        exact hn
      rw [show i + j + 1 = i + 1 + j by omega]
      exact specOutG_nonFinite (k := k) (by omega)
        (macM_sparse_nonFinite (tw := tw) (p := p) (H := matAt v data) hj (by omega) c (by omega) hw) (by omega)
  · rintro i hi hz t ⟨j, hj, ⟨k, hk, c⟩, ht⟩ y hy
    obtain ⟨i0, h0, e0⟩ := block_index hb hi hz
    obtain ⟨-, n, hn', rfl⟩ := out_mem hy
    rcases ht with rfl | rfl
    · have hw : saveWindow (2 ^ a) (fun n => blocks.flatten.getD n (0 : IR f)) i (2 ^ a + i0) = ⟨.nan⟩ := by
        unfold saveWindow
        rw [if_neg (by omega), Nat.add_sub_cancel_left]
        exact e0
      exact specOutG_nan_bin (k := k) (by omega)
        (macM_sparse_nan (tw := tw) (p := p) (H := matAt v data) hj (by omega) c (by omega) hw) (by omega)
    · have hw : saveWindow (2 ^ a) (fun n => blocks.flatten.getD n (0 : IR f)) (i + 1) i0 = ⟨.nan⟩ := by
        unfold saveWindow
        rw [if_pos h0, if_pos (by omega), Nat.add_sub_cancel]
        exact e0
      rw [show i + j + 1 = i + 1 + j by omega]
      exact specOutG_nan_bin (k := k) (by omega)
        (macM_sparse_nan (tw := tw) (p := p) (H := matAt v data) hj (by omega) c (by omega) hw) (by omega)
  · intro r hr' k hk c hn b hb' y hy
    obtain ⟨t, ht, rfl⟩ := mem_vec hb'
    obtain ⟨n, hn', rfl⟩ := mem_vec hy
    exact specOutG_nonFinite (k := k) (by omega) (macM_sparse_filter (p := p) (H := matAt v data) hr' c hn t) (by omega)

/-- The same view, `data'` being `data` with the rejected entries replaced by 0. -/
def ThresholdedG (p : ℕ → ℕ → IC f → Bool) (v : MatView) (data : List (IC f)) (v' : MatView)
    (data' : List (IC f)) : Prop :=
  v'.rows = v.rows ∧ v'.cols = v.cols ∧ v'.InRange data'.length ∧
  ∀ r < v.rows, ∀ c < v.cols, data'.getD (v'.off + r * v'.s0 + c * v'.s1) 0
    = if p r c (data.getD (v.off + r * v.s0 + c * v.s1) 0) then data.getD (v.off + r * v.s0 + c * v.s1) 0 else 0

/-- **C102** (sparse against dense).  The dense convolver is loaded with the thresholded matrix.  Wherever its output
sample is a finite number, the sparse convolver returns the same number.  The converse is false (`C102_differs`): the
dense convolver multiplies the skipped infinities by zero. -/
theorem C102_thresholded (hf : f.Ieee) (tw : ℕ → ℕ → Direction → IC f) {a : ℕ} (ha : 1 ≤ a) (ha2 : a ≤ 26)
    {v v' : MatView} {data data' : List (IC f)} (hv : v.InRange data.length) (hr : 1 ≤ v.rows)
    (hc : v.cols = 2 ^ a + 1) (p : ℕ → ℕ → IC f → Bool) (hd : ThresholdedG p v data v' data')
    (blocks : List (List (IR f))) (hb : ∀ b ∈ blocks, b.length = 2 ^ a) :
    (∃ outs outs', sparseUpolaRunG (ieeeArith f tw) v data p blocks = .ok outs ∧
      upolaRunG (ieeeArith f tw) v' data' blocks = .ok outs' ∧ outs.map List.length = outs'.map List.length ∧
      ∀ t i y, (outs'.getD t []).getD i ⟨.nan⟩ = ⟨.fin y⟩ → (outs.getD t []).getD i ⟨.nan⟩ = ⟨.fin y⟩) ∧
    (∃ outs outs', sparseUpolsRunG (ieeeArith f tw) v data p blocks = .ok outs ∧
      upolsRunG (ieeeArith f tw) v' data' blocks = .ok outs' ∧ outs.map List.length = outs'.map List.length ∧
      ∀ t i y, (outs'.getD t []).getD i ⟨.nan⟩ = ⟨.fin y⟩ → (outs.getD t []).getD i ⟨.nan⟩ = ⟨.fin y⟩) := by
  obtain ⟨d1, d2, d3, d4⟩ := hd
  have hp : 2 ^ (a + 1) = 2 ^ a + 2 ^ a := by rw [pow_succ]; ring
  have key : ∀ (X : ℕ → ℕ → IC f) t k, k ≤ 2 ^ (a + 1) / 2 →
      OneC (macY v'.rows (matAt v' data') X t k) (macM v.rows (sparseM p (matAt v data)) X t k) := by
    intro X t k hk
    rw [d1]
    exact macY_sparse_rel hf X (fun j hj => d4 j hj k (by omega)) t
  have fin : ∀ (g g' : ℕ → ℕ → IR f), (∀ t, ∀ i < 2 ^ a, OneR (g' t i) (g t i)) → ∀ t i y,
      ((vec blocks.length fun t => vec (2 ^ a) (g' t)).getD t []).getD i ⟨.nan⟩ = ⟨.fin y⟩ →
      ((vec blocks.length fun t => vec (2 ^ a) (g t)).getD t []).getD i ⟨.nan⟩ = ⟨.fin y⟩ := by
    intro g g' h t i y e
    by_cases ht : t < blocks.length
    · rw [getD_vec _ _ _ _ ht] at e ⊢
      by_cases hi : i < 2 ^ a
      · rw [getD_vec _ _ _ _ hi] at e ⊢
        have h1 := h t i hi
        rw [e] at h1
        exact IR.ext (h1.resolve_right fun c => c y rfl).symm
      · rw [List.getD_eq_default (vec (2 ^ a) (g' t)) _ (by rw [length_vec]; omega)] at e
        exact absurd (congrArg IR.val e) (fun h => by cases h)
    · rw [List.getD_eq_default (vec blocks.length fun t => vec (2 ^ a) (g' t)) _ (by rw [length_vec]; omega)] at e
      exact absurd (congrArg IR.val e) (fun h => by cases h)
  refine ⟨⟨_, _, sparseUpolaRunG_eq ha ha2 hv hr hc p blocks hb,
    upolaRunG_eq ha ha2 d3 (by omega) (by omega) blocks hb, ?_, fin _ _ fun t i hi => ?_⟩,
    ⟨_, _, sparseUpolsRunG_eq ha ha2 hv hr hc p blocks hb,
    upolsRunG_eq ha ha2 d3 (by omega) (by omega) blocks hb, ?_, fin _ _ fun t i hi => ?_⟩⟩
  · rw [vec_const_len, vec_const_len]
  · exact olaOutG_rel (one_rel tw) (fun t k hk => key _ t k hk) t hi
  · rw [vec_const_len, vec_const_len]
  · exact olsOutG_rel (one_rel tw) (fun t k hk => key _ t k hk) t hi

/-- **C102** (where a bad block lands).  If the stream with block `i` silenced gives finite samples only, then the output
blocks of the stream that contain an infinity or NaN are exactly those that block `i` reaches through a partition with a
kept coefficient. -/
theorem C102_exact (tw : ℕ → ℕ → Direction → IC f) {a : ℕ} (ha : 1 ≤ a) (ha2 : a ≤ 26) {v : MatView}
    {data : List (IC f)} (hv : v.InRange data.length) (hr : 1 ≤ v.rows) (hc : v.cols = 2 ^ a + 1)
    (p : ℕ → ℕ → IC f → Bool) (blocks : List (List (IR f))) (hb : ∀ b ∈ blocks, b.length = 2 ^ a) {i : ℕ}
    (hi : i < blocks.length) (hn : ∃ z ∈ blocks.getD i [], z.val.NonFinite) :
    (∃ outs outs', sparseUpolaRunG (ieeeArith f tw) v data p blocks = .ok outs ∧
      sparseUpolaRunG (ieeeArith f tw) v data p (blocks.set i (List.replicate (2 ^ a) 0)) = .ok outs' ∧
      ((∀ b ∈ outs', ∀ y ∈ b, ¬ y.val.NonFinite) →
        ∀ t < blocks.length, (∃ y ∈ outs.getD t [], y.val.NonFinite) ↔ Reaches p v data i t)) ∧
    (∃ outs outs', sparseUpolsRunG (ieeeArith f tw) v data p blocks = .ok outs ∧
      sparseUpolsRunG (ieeeArith f tw) v data p (blocks.set i (List.replicate (2 ^ a) 0)) = .ok outs' ∧
      ((∀ b ∈ outs', ∀ y ∈ b, ¬ y.val.NonFinite) →
        ∀ t < blocks.length, (∃ y ∈ outs.getD t [], y.val.NonFinite) ↔ Reaches p v data i t)) := by
  have hb' : ∀ b ∈ blocks.set i (List.replicate (2 ^ a) 0), b.length = 2 ^ a := by
    intro b h
    rcases List.mem_or_eq_of_mem_set h with h | rfl
    · exact hb b h
    · exact List.length_replicate
  have hl : (blocks.set i (List.replicate (2 ^ a) 0)).length = blocks.length := List.length_set
  have same : ∀ j, j ≠ i → blocks.getD j [] = (blocks.set i (List.replicate (2 ^ a) 0)).getD j [] := by
    intro j hj
    rw [List.getD_eq_getElem?_getD, List.getD_eq_getElem?_getD, List.getElem?_set_ne (by omega)]
  obtain ⟨z, hz, hzn⟩ := hn
  have one : ∀ {outs outs' : List (List (IR f))}, outs.map List.length = blocks.map List.length →
      outs'.length = blocks.length →
      (∀ t, Reaches p v data i t → ∀ y ∈ outs.getD t [], y.val.NonFinite) →
      (∀ t < blocks.length, (∀ i', Reaches p v data i' t →
        blocks.getD i' [] = (blocks.set i (List.replicate (2 ^ a) 0)).getD i' []) → outs.getD t [] = outs'.getD t []) →
      (∀ b ∈ outs', ∀ y ∈ b, ¬ y.val.NonFinite) →
        ∀ t < blocks.length, (∃ y ∈ outs.getD t [], y.val.NonFinite) ↔ Reaches p v data i t := by
    intro outs outs' h1 h1' h2 h3 h4 t ht
    constructor
    · rintro ⟨y, hy, hyn⟩
      by_contra hR
      rw [h3 t ht (fun i' hi' => same i' (fun c => hR (c ▸ hi')))] at hy
      rw [List.getD_eq_getElem _ _ (by omega)] at hy
      exact h4 _ (List.getElem_mem _) y hy hyn
    · intro hR
      have hlt : t < outs.length := by
        have := congrArg List.length h1
        rw [List.length_map, List.length_map] at this
        omega
      have hlen : (outs.getD t []).length = 2 ^ a := by
        have h5 := congrArg (fun l => l.getD t 0) h1
        simp only [List.getD_eq_getElem?_getD, List.getElem?_map, List.getElem?_eq_getElem hlt,
          List.getElem?_eq_getElem ht, Option.map_some, Option.getD_some] at h5
        rw [List.getD_eq_getElem _ _ hlt, h5]
        exact hb _ (List.getElem_mem _)
      have hpos : 0 < (outs.getD t []).length := by rw [hlen]; positivity
      exact ⟨_, List.getElem_mem hpos, h2 t hR _ (List.getElem_mem hpos)⟩
  have len : ∀ {α β : Type} {l : List (List α)} {l' : List (List β)}, l.map List.length = l'.map List.length →
      l.length = l'.length := by
    intro α β l l' h
    simpa using congrArg List.length h
  constructor
  · obtain ⟨o, e, h1, h2, -, -⟩ := C102_nonfinite_upola tw ha ha2 hv hr hc p blocks hb
    obtain ⟨o1, o', e1, e', -, h3⟩ := C102_memory_upola (ieeeArith f tw) ha ha2 hv hv hr rfl hc hc p p
      (fun _ _ _ _ => ⟨Iff.rfl, fun _ => rfl⟩) blocks _ hb hb' hl
    obtain ⟨o2, e2, h4, -⟩ := C102_nonfinite_upola tw ha ha2 hv hr hc p _ hb'
    obtain rfl : o = o1 := by simpa [e] using e1
    obtain rfl : o' = o2 := by simpa [e'] using e2
    exact ⟨o, o', e, e', one h1 ((len h4).trans hl) (h2 i hi z hz hzn) h3⟩
  · obtain ⟨o, e, h1, h2, -, -⟩ := C102_nonfinite_upols tw ha ha2 hv hr hc p blocks hb
    obtain ⟨o1, o', e1, e', -, h3⟩ := C102_memory_upols (ieeeArith f tw) ha ha2 hv hv hr rfl hc hc p p
      (fun _ _ _ _ => ⟨Iff.rfl, fun _ => rfl⟩) blocks _ hb hb' hl
    obtain ⟨o2, e2, h4, -⟩ := C102_nonfinite_upols tw ha ha2 hv hr hc p _ hb'
    obtain rfl : o = o1 := by simpa [e] using e1
    obtain rfl : o' = o2 := by simpa [e'] using e2
    exact ⟨o, o', e, e', one h1 ((len h4).trans hl) (h2 i hi z hz hzn) h3⟩

/-- **C102** (the converse of `C102_thresholded` is false).  Blocks of two samples, one partition, every coefficient
rejected, an infinite sample: the sparse convolver returns silence, the dense one with the zero filter returns no finite
sample. -/
theorem C102_differs (hf : f.Ieee) (tw : ℕ → ℕ → Direction → IC f) (htw : ∀ n i dir, ¬ (tw n i dir).Inf)
    (z : IC f) :
    ThresholdedG (fun _ _ _ => false) (MatView.right 1 3) [z, z, z] (MatView.right 1 3) ([0, 0, 0] : List (IC f)) ∧
    sparseUpolaRunG (ieeeArith f tw) (MatView.right 1 3) [z, z, z] (fun _ _ _ => false) [[⟨.inf false⟩, 0]]
      = .ok [[0, 0]] ∧
    ∃ outs, upolaRunG (ieeeArith f tw) (MatView.right 1 3) [0, 0, 0] [[⟨.inf false⟩, 0]] = .ok outs ∧
      outs.map List.length = [2] ∧ ∀ b ∈ outs, ∀ y ∈ b, y.val.NonFinite := by
  have hv : (MatView.right 1 3).InRange 3 := by
    intro r hr c hc
    simp only [MatView.right, MatView.idx] at *
    omega
  have hb : ∀ b ∈ [[(⟨.inf false⟩ : IR f), 0]], b.length = 2 ^ 1 := by
    intro b h
    rw [List.mem_singleton] at h
    subst h; rfl
  refine ⟨⟨rfl, rfl, hv, ?_⟩, ?_, ?_⟩
  · intro r hr c hc
    have h1 : r < 1 := hr
    have h2 : c < 3 := hc
    interval_cases r
    interval_cases c <;> rfl
  · rw [sparseUpolaRunG_eq (a := 1) le_rfl (by norm_num) hv le_rfl rfl _ _ hb]
    have hz : ∀ n < 2 ^ 2, specOutG (ieeeArith f tw) 2 (macM 1 (sparseM (fun _ _ _ => false)
        (matAt (MatView.right 1 3) ([z, z, z] : List (IC f)))) (winSpecG (ieeeArith f tw) 1 (seg (2 ^ 1))
          (fun i => [[(⟨.inf false⟩ : IR f), 0]].flatten.getD i 0)) 0) n = 0 := fun n hn =>
      specOutG_zero hf (by have := hf.2.1; push_cast; omega) htw (fun k _ => rfl) hn
    have h0 : (0 : IR f) + 0 = 0 := by
      refine IR.ext ?_
      show f.round (.fin (0 + 0)) = _
      rw [add_zero, Fmt.round_zero hf]; rfl
    refine congrArg Except.ok ?_
    show [[olaOutG (ieeeArith f tw) 1 _ 0 0, olaOutG (ieeeArith f tw) 1 _ 0 1]] = _
    unfold olaOutG
    rw [if_neg (by norm_num), if_neg (by norm_num)]
    show [[specOutG (ieeeArith f tw) 2 _ 0 + 0, specOutG (ieeeArith f tw) 2 _ 1 + 0]] = _
    rw [show (MatView.right 1 3).rows = 1 from rfl, hz 0 (by norm_num), hz 1 (by norm_num), h0]
  · obtain ⟨outs, e, hl, h1, -⟩ := C93_nonfinite_upola tw (a := 1) le_rfl (by norm_num) (data := [0, 0, 0]) hv le_rfl rfl _ hb
    refine ⟨outs, e, hl, fun b hb' y hy => ?_⟩
    obtain ⟨t, ht, rfl⟩ := List.getElem_of_mem hb'
    have h2 : outs.length = 1 := by simpa using congrArg List.length hl
    obtain rfl : t = 0 := by omega
    exact h1 0 (by norm_num) ⟨.inf false⟩ (List.mem_cons_self) (FVal.nonFinite_inf false) 0 le_rfl (by omega) y
      (by rwa [List.getD_eq_getElem _ _ ht])

private theorem near_of_one {z z' : IR f} {ζ M γ : ℝ} (h : OneR z z') (hz : NearR z ζ M γ) : NearR z' ζ M γ := by
  obtain ⟨x, rfl, h1, h2⟩ := hz
  exact ⟨x, (IR.ext (h.resolve_right fun c => c x rfl)).symm, h1, h2⟩

/-- **C102** (accuracy).  Hypotheses and error growth as for the dense convolvers (`C96_upols`, `C96_upola`).  The filter
is partitioned once in the format `f` and once in exact arithmetic; any predicate is evaluated on the coefficients
computed in `f`.  Every output sample of the sparse convolvers is finite, and within the bound of the dense convolver of
the output of the sparse convolver in exact arithmetic that keeps the same coefficients. -/
theorem C102_accuracy (hf : f.Ieee) {a : ℕ} (ha : 1 ≤ a) (ha2 : a ≤ 26) (hbe : ((a + 1 : ℕ) : ℤ) < f.emax)
    {tw : ℕ → ℕ → Direction → IC f} {ε : ℝ} (hw : TwAccurate tw (2 ^ (a + 1)) ε)
    (v : MatView) (data : List ℝ) (hv : v.InRange data.length) (hS : 1 ≤ v.cols) (hS2 : v.cols < 2 ^ 64)
    (hsz : v.rows * ((v.cols - 1) / 2 ^ a + 1) * (2 ^ a + 1) < 2 ^ 59)
    {N : ℕ} (hN : N = (v.cols - 1) / 2 ^ a + 1) {X η L : ℝ} (hX : f.minNormal ≤ X) (hη : f.minNormal ≤ η)
    (hXη : f.minNormal ≤ X * η)
    (hL : ∀ c < v.rows, ∑ i ∈ range v.cols, |chanAt v data c i| + N * (2 ^ (a + 1) * η) ≤ L)
    (o1 : convGrowth f ε (a + 1) N * (2 ^ (a + 1) * X) < (2 : ℝ) ^ f.emax)
    (o2 : convGrowth f ε (a + 1) N * L < (2 : ℝ) ^ f.emax)
    (o3 : convGrowth f ε (a + 1) N * (4 ^ (a + 1) * (X * L)) < (2 : ℝ) ^ f.emax) :
    ∃ bins part part', uniformPartitionG (ieeeArith f tw) (sample 1) v (data.map sample) (2 ^ a) = .ok (N, bins, part) ∧
      uniformPartition v data (2 ^ a) = .ok (N, bins, part') ∧
      ∀ c < v.rows, ∀ p : ℕ → ℕ → IC f → Bool, ∀ blocks : List (List ℝ), (∀ b ∈ blocks, b.length = 2 ^ a) →
        (∀ b ∈ blocks, ∀ s ∈ b, |s| ≤ X) →
        let mask := fun (j k : ℕ) (_ : ℂ) => p j k (part.getD ((partitionView N bins c).idx j k) 0)
        (∃ outs exact : List (List ℝ),
          sparseUpolsRunG (ieeeArith f tw) (partitionView N bins c) part p (blocks.map (·.map sample))
            = .ok (outs.map (·.map sample)) ∧
          sparseUpolsRun (partitionView N bins c) part' mask blocks = .ok exact ∧
          outs.map List.length = blocks.map List.length ∧
          ∀ n < blocks.flatten.length, |outs.flatten.getD n 0 - exact.flatten.getD n 0|
              ≤ (convGrowth f ε (a + 1) N - 1) * (2 ^ (a + 1) * X * L)) ∧
        (∃ outs exact : List (List ℝ),
          sparseUpolaRunG (ieeeArith f tw) (partitionView N bins c) part p (blocks.map (·.map sample))
            = .ok (outs.map (·.map sample)) ∧
          sparseUpolaRun (partitionView N bins c) part' mask blocks = .ok exact ∧
          outs.map List.length = blocks.map List.length ∧
          ∀ n < blocks.flatten.length, |outs.flatten.getD n 0 - exact.flatten.getD n 0|
              ≤ (convGrowth f ε (a + 1) N * (1 + f.u) - 1) * (2 * (2 ^ (a + 1) * X * L))) := by
  have hν := minNormal_pos f
  have hX0 : 0 < X := hν.trans_le hX
  have hη0 : 0 < η := hν.trans_le hη
  have hu := u_pos f
  have hp2 : 2 ^ (a + 1) = 2 ^ a + 2 ^ a := by rw [pow_succ]; ring
  have hε := tw_nonneg (by omega : 1 ≤ a + 1) hw
  have hΓ : 1 ≤ convGrowth f ε (a + 1) N := (one_le_fft hε _).trans (fft_le_conv hε _ _).1
  have hcl : Nat.clog 2 (2 ^ a * 2) = a + 1 := by rw [← pow_succ, Nat.clog_pow 2 _ (by norm_num)]
  obtain ⟨part, e, hp⟩ := uniformPartitionG_eq (A := ieeeArith f tw) (one := sample 1) (data := data.map sample)
    (by rwa [List.length_map]) Nat.one_le_two_pow hcl (by omega) hS hS2 (by rw [two_pow_half]; exact hsz)
  obtain ⟨part', e', hp'⟩ := uniformPartition_eq hv Nat.one_le_two_pow hcl (by omega) hS hS2
    (by rw [two_pow_half]; exact hsz)
  rw [two_pow_half, ← hN] at e hp e' hp'
  refine ⟨2 ^ a + 1, part, part', e, e', ?_⟩
  intro c hc p blocks hb hx mask
  obtain ⟨hr, hd⟩ := hp c hc
  obtain ⟨hr', hd'⟩ := hp' c hc
  rw [chanAt_sample] at hd
  have hN1 : 1 ≤ N := by rw [hN]; exact Nat.le_add_left 1 _
  have hsum : ∑ j ∈ range N, segMag a (chanAt v data c) η j ≤ L := by
    rw [sum_segMag]
    refine le_trans (le_of_eq ?_) (hL c hc)
    rw [hN, sum_cols Nat.one_le_two_pow]
  have o2' := lt_of_le_of_lt (mul_le_mul_of_nonneg_left hsum (by linarith : 0 ≤ convGrowth f ε (a + 1) N)) o2
  set pv := partitionView N (2 ^ a + 1) c with hpv
  have hκ : 1 ≤ (1 + f.u) * fftGrowth f ε (a + 1) :=
    one_le_mul_of_one_le_of_one_le (by linarith) (one_le_fft hε _)
  have hH : ∀ j < N, ∀ k < 2 ^ a + 1, NearC (sparsified p (matAt pv part) j k) (sparsified mask (matAt pv part') j k)
      (segMag a (chanAt v data c) η j) ((1 + f.u) * fftGrowth f ε (a + 1)) := fun j hj k hk => by
    have key : NearC (matAt pv part j k) (matAt pv part' j k) (segMag a (chanAt v data c) η j)
        ((1 + f.u) * fftGrowth f ε (a + 1)) := by
      rw [hd j hj k hk, hd' j hj k hk, ← show 2 * 2 ^ a = 2 ^ (a + 1) by rw [pow_succ]; ring]
      exact filter_near hf hw (chanAt v data c) hη o2' hj hk
    unfold sparsified
    have em : mask j k (matAt pv part' j k) = p j k (matAt pv part j k) := rfl
    rw [em]
    split
    · exact key
    · exact NearC.zero (hη0.le.trans (segMag_ge hη0.le j)) hκ
  have hm : ∀ j < N, f.minNormal ≤ X * segMag a (chanAt v data c) η j := fun j _ =>
    hXη.trans (mul_le_mul_of_nonneg_left (segMag_ge hη0.le j) hX0.le)
  set S := ∑ j ∈ range N, segMag a (chanAt v data c) η j with hSd
  have o3' : convGrowth f ε (a + 1) N * (4 ^ (a + 1) * (X * S)) < (2 : ℝ) ^ f.emax := by
    refine lt_of_le_of_lt ?_ o3
    gcongr
  have ht := C25_thresholded_exists mask pv part'
  have hmat : ∀ r < pv.rows, ∀ k < pv.cols, matAt (MatView.right pv.rows pv.cols) (vec (pv.rows * pv.cols) fun i =>
      sparsified mask (matAt pv part') (i / pv.cols) (i % pv.cols)) r k = sparsified mask (matAt pv part') r k :=
    fun r hr k hk => ht.2.2.2 r hr k hk
  have hone : ∀ (Z : ℕ → ℕ → IC f) t k, k ≤ 2 ^ (a + 1) / 2 →
      OneC (macY N (sparsified p (matAt pv part)) Z t k) (macM N (sparseM p (matAt pv part)) Z t k) :=
    fun Z t k _ => macY_sparse_rel hf Z (fun _ _ => rfl) t
  have hfl : ∀ g : ℕ → ℕ → ℝ, ∀ n < blocks.length * 2 ^ a,
      (vec blocks.length fun t => vec (2 ^ a) (g t)).flatten.getD n 0 = g (n / 2 ^ a) (n % 2 ^ a) := by
    intro g n hn
    have hB : 0 < 2 ^ a := by positivity
    have hq : n / 2 ^ a < blocks.length := Nat.div_lt_of_lt_mul (by rwa [mul_comm] at hn)
    have e : n = n / 2 ^ a * 2 ^ a + n % 2 ^ a := by rw [mul_comm]; exact (Nat.div_add_mod _ _).symm
    conv_lhs => rw [e]
    rw [flatten_getD (B := 2 ^ a) 0 (fun b h => by obtain ⟨t, _, rfl⟩ := mem_vec h; exact length_vec _ _)
      (by rwa [length_vec]) (Nat.mod_lt _ hB), getD_vec _ _ _ _ hq, getD_vec _ _ _ _ (Nat.mod_lt _ hB)]
  have hmd : ∀ t i, i < 2 ^ a → (t * 2 ^ a + i) / 2 ^ a = t ∧ (t * 2 ^ a + i) % 2 ^ a = i := by
    intro t i hi
    have hB : 0 < 2 ^ a := by positivity
    constructor
    · rw [mul_comm, Nat.mul_add_div hB, Nat.div_eq_of_lt hi, Nat.add_zero]
    · rw [mul_comm, Nat.mul_add_mod, Nat.mod_eq_of_lt hi]
  constructor
  · have e1 := sparseUpolsRunG_eq (A := ieeeArith f tw) ha ha2 hr hN1 rfl p _ (lengths_sample hb)
    rw [List.length_map, flatten_sample] at e1
    have e2 := (C25_sparse_upols mask pv part' hr' _ _ ht blocks).trans
      (upolsRun_eq ha ha2 ht.2.2.1 hN1 rfl hmat blocks hb)
    obtain ⟨ys, ey, hl, hy⟩ := blocks_near (a := a) (T := blocks.length)
      (y := fun n => olsOut (2 ^ a) (specY N (sparsified mask (matAt pv part'))
        (winSpec (2 ^ a) (saveWindow (2 ^ a)) (streamOf blocks))) (n / 2 ^ a) (n % 2 ^ a))
      (fun t i hi => by
        rw [(hmd t i hi).1, (hmd t i hi).2]
        exact near_of_one (olsOutG_rel (one_rel tw) (hone _) t hi)
          (ols_near hf hbe hw hN1 hH hX (blocks_bounded hX0.le hx) hm o1 o3' t hi))
    refine ⟨ys, _, by rw [← ey]; exact e1, e2, by rw [hl, replicate_lengths hb], fun n hn => ?_⟩
    rw [length_blocks hb] at hn
    rw [hfl _ n hn]
    refine (hy n hn).trans ?_
    have : 0 ≤ convGrowth f ε (a + 1) N - 1 := by linarith
    gcongr
  · have e1 := sparseUpolaRunG_eq (A := ieeeArith f tw) ha ha2 hr hN1 rfl p _ (lengths_sample hb)
    rw [List.length_map, flatten_sample] at e1
    have e2 := (C25_sparse_upola mask pv part' hr' _ _ ht blocks).trans
      (upolaRun_eq ha ha2 ht.2.2.1 hN1 rfl hmat blocks hb)
    obtain ⟨ys, ey, hl, hy⟩ := blocks_near (a := a) (T := blocks.length)
      (y := fun n => olaOut (2 ^ a) (specY N (sparsified mask (matAt pv part'))
        (winSpec (2 ^ a) (seg (2 ^ a)) (streamOf blocks))) (n / 2 ^ a) (n % 2 ^ a))
      (fun t i hi => by
        rw [(hmd t i hi).1, (hmd t i hi).2]
        exact near_of_one (olaOutG_rel (one_rel tw) (hone _) t hi)
          (ola_near hf ha hbe hw hN1 hH hX (blocks_bounded hX0.le hx) hm o1 o3' t hi))
    refine ⟨ys, _, by rw [← ey]; exact e1, e2, by rw [hl, replicate_lengths hb], fun n hn => ?_⟩
    rw [length_blocks hb] at hn
    rw [hfl _ n hn]
    refine (hy n hn).trans ?_
    rw [← two_mul]
    have : 0 ≤ convGrowth f ε (a + 1) N * (1 + f.u) - 1 := by nlinarith
    gcongr

/-- Finite tables exist in every format. -/
example : ∀ n i : ℕ, ∀ dir : Direction, ¬ ((fun _ _ _ => ⟨.fin 1, .fin 0⟩ : ℕ → ℕ → Direction → IC f) n i dir).Inf := by
  rintro n i dir (h | h)
  · exact h 1 rfl
  · exact h 0 rfl

/-- `C102_accuracy` has the hypotheses of `C96_upols`, met by the example after `C96_unit`; one coefficient of three
rejected meets those of `C102_thresholded`. -/
example (z : IC f) : ThresholdedG (fun _ k _ => k != 1) (MatView.right 1 3) [z, z, z] (MatView.right 1 3) [z, 0, z] := by
  refine ⟨rfl, rfl, ?_, ?_⟩
  · intro r hr c hc
    simp only [MatView.right, MatView.idx, List.length_cons, List.length_nil] at *
    omega
  · intro r hr c hc
    have h1 : r < 1 := hr
    have h2 : c < 3 := hc
    interval_cases r
    interval_cases c <;> rfl

end ieee

end Neo.Props
