import Verif.Lemmas.UpcRel
import Verif.Lemmas.UpcRun

/-! # A run of a partitioned convolver that succeeds determines the sizes -/

namespace Neo

open Finset

theorem bind_eq_ok {α β : Type} {m : Res α} {f : α → Res β} {b : β} (h : (m >>= f) = .ok b) :
    ∃ a, m = .ok a ∧ f a = .ok b := by
  cases m with
  | error e => rw [bind_error] at h; cases h
  | ok a => exact ⟨a, rfl, h⟩

theorem check_eq_ok {p : Prop} [Decidable p] {u : Unit} (h : check (decide p) = .ok u) : p := by
  by_contra c
  rw [decide_eq_false c, check_false] at h
  cases h

theorem rdSpan_length {α : Type} {xs ys : List α} {lo hi : ℕ} (h : rdSpan xs lo hi = .ok ys) :
    ys.length = hi - lo := by
  unfold rdSpan at h
  split at h
  · next c =>
    cases h
    simp only [List.length_take, List.length_drop]
    omega
  · cases h

theorem wrSpan_length {α : Type} {xs ys zs : List α} {lo : ℕ} (h : wrSpan xs lo ys = .ok zs) :
    zs.length = xs.length := by
  unfold wrSpan at h
  split at h
  · next c =>
    cases h
    simp only [List.length_append, List.length_take, List.length_drop]
    omega
  · cases h

theorem copyInto_length {α : Type} {src dst r : List α} {lo n : ℕ}
    (h : copyInto src dst lo n = .ok r) : r.length = dst.length := by
  unfold copyInto at h
  obtain ⟨a, -, h⟩ := bind_eq_ok h
  obtain ⟨b, -, h⟩ := bind_eq_ok h
  exact wrSpan_length h

theorem rfft_out_length {p p' : RfftPlan} {x : List ℝ} {out out' : List ℂ}
    (h : p.rfft x out = .ok (p', out')) : out'.length = out.length := by
  unfold RfftPlan.rfft at h
  obtain ⟨a, -, h⟩ := bind_eq_ok h
  obtain ⟨b, -, h⟩ := bind_eq_ok h
  obtain ⟨c, -, h⟩ := bind_eq_ok h
  obtain ⟨d, e, h⟩ := bind_eq_ok h
  rw [pure_eq_ok] at h
  injection h with h
  injection h with _ h
  subst h
  exact copyInto_length e

theorem rfftPlan_make_ok {b : ℕ} {p : RfftPlan} (h : RfftPlan.make b = .ok p) : b ≤ 27 := by
  by_contra c
  unfold RfftPlan.make Dit2Plan.make dit2CheckOrder at h
  rw [if_pos (show b > dit2MaxOrder by unfold dit2MaxOrder; omega)] at h
  cases h

/-- What a successful call tells about the sizes. -/
structure OverlapOk {Ov : Type} (oo : OverlapOps Ov) (blk : Ov → ℕ) : Prop where
  size : ∀ {σ : Type} (o o' : Ov) (b b' : List ℝ) (cb : Callback σ) (s s' : σ),
    oo.call o b cb s = .ok (o', b', s') → b.length = blk o ∧ blk o' = blk o
  make : ∀ C o, oo.make C C = .ok o → blk o = C ∧ 1 ≤ C ∧ Nat.clog 2 (C + C - 1) ≤ 27 ∧
    ∀ {σ : Type} (b : List ℝ) (cb : Callback σ) (s : σ) r, oo.call o b cb s = .ok r →
      ∃ sp q, sp.length = 2 ^ Nat.clog 2 (C + C - 1) / 2 + 1 ∧ cb sp s = .ok q

theorem ola_ok : OverlapOk olaOps OverlapAdd.blockSize := by
  constructor
  · intro σ o o' b b' cb s s' h
    simp only [olaOps] at h
    unfold OverlapAdd.call at h
    obtain ⟨_, hc, h⟩ := bind_eq_ok h
    refine ⟨check_eq_ok hc, ?_⟩
    obtain ⟨_, -, h⟩ := bind_eq_ok h
    obtain ⟨_, -, h⟩ := bind_eq_ok h
    obtain ⟨_, -, h⟩ := bind_eq_ok h
    obtain ⟨_, -, h⟩ := bind_eq_ok h
    obtain ⟨_, -, h⟩ := bind_eq_ok h
    obtain ⟨_, -, h⟩ := bind_eq_ok h
    obtain ⟨_, -, h⟩ := bind_eq_ok h
    obtain ⟨_, -, h⟩ := bind_eq_ok h
    obtain ⟨_, -, h⟩ := bind_eq_ok h
    obtain ⟨_, -, h⟩ := bind_eq_ok h
    obtain ⟨_, -, h⟩ := bind_eq_ok h
    obtain ⟨_, -, h⟩ := bind_eq_ok h
    obtain ⟨_, -, h⟩ := bind_eq_ok h
    rw [pure_eq_ok] at h
    injection h with h
    injection h with h _
    rw [← h]
  · intro C o h
    simp only [olaOps] at h
    have hC : 1 ≤ C := by
      by_contra c
      obtain rfl : C = 0 := by omega
      unfold OverlapAdd.make at h
      cases h
    have hk : Nat.clog 2 (C + C - 1) ≤ 27 := by
      unfold OverlapAdd.make outputSizeFull at h
      rw [if_neg (by omega), bind_ok] at h
      obtain ⟨p, hp, -⟩ := bind_eq_ok h
      rw [nextOrder_eq] at hp
      exact rfftPlan_make_ok hp
    rw [overlapAdd_make_eq hk] at h
    injection h with h
    subst h
    refine ⟨rfl, hC, hk, ?_⟩
    intro σ b cb s r h
    simp only [olaOps] at h
    unfold OverlapAdd.call at h
    obtain ⟨_, -, h⟩ := bind_eq_ok h
    obtain ⟨_, -, h⟩ := bind_eq_ok h
    obtain ⟨_, -, h⟩ := bind_eq_ok h
    obtain ⟨_, -, h⟩ := bind_eq_ok h
    obtain ⟨_, -, h⟩ := bind_eq_ok h
    obtain ⟨_, -, h⟩ := bind_eq_ok h
    obtain ⟨p, hp, h⟩ := bind_eq_ok h
    obtain ⟨q, hq, h⟩ := bind_eq_ok h
    refine ⟨_, _, ?_, hq⟩
    rw [rfft_out_length hp]
    exact length_vec _ _

theorem ols_ok : OverlapOk olsOps OverlapSave.blockSize := by
  constructor
  · intro σ o o' b b' cb s s' h
    simp only [olsOps] at h
    unfold OverlapSave.call at h
    obtain ⟨_, hc, h⟩ := bind_eq_ok h
    refine ⟨check_eq_ok hc, ?_⟩
    obtain ⟨_, -, h⟩ := bind_eq_ok h
    obtain ⟨_, -, h⟩ := bind_eq_ok h
    obtain ⟨_, -, h⟩ := bind_eq_ok h
    obtain ⟨_, -, h⟩ := bind_eq_ok h
    obtain ⟨_, -, h⟩ := bind_eq_ok h
    obtain ⟨_, -, h⟩ := bind_eq_ok h
    obtain ⟨_, -, h⟩ := bind_eq_ok h
    obtain ⟨_, -, h⟩ := bind_eq_ok h
    obtain ⟨_, -, h⟩ := bind_eq_ok h
    obtain ⟨_, -, h⟩ := bind_eq_ok h
    obtain ⟨_, -, h⟩ := bind_eq_ok h
    obtain ⟨_, -, h⟩ := bind_eq_ok h
    rw [pure_eq_ok] at h
    injection h with h
    injection h with h _
    rw [← h]
  · intro C o h
    simp only [olsOps] at h
    have hC : 1 ≤ C := by
      by_contra c
      obtain rfl : C = 0 := by omega
      unfold OverlapSave.make at h
      cases h
    have hk : Nat.clog 2 (C + C - 1) ≤ 27 := by
      unfold OverlapSave.make at h
      rw [if_neg (by omega), bind_ok] at h
      obtain ⟨p, hp, -⟩ := bind_eq_ok h
      rw [nextOrder_eq] at hp
      exact rfftPlan_make_ok hp
    rw [overlapSave_make_eq hk] at h
    injection h with h
    subst h
    refine ⟨rfl, hC, hk, ?_⟩
    intro σ b cb s r h
    simp only [olsOps] at h
    unfold OverlapSave.call at h
    obtain ⟨_, -, h⟩ := bind_eq_ok h
    obtain ⟨_, -, h⟩ := bind_eq_ok h
    obtain ⟨_, -, h⟩ := bind_eq_ok h
    obtain ⟨_, -, h⟩ := bind_eq_ok h
    obtain ⟨_, -, h⟩ := bind_eq_ok h
    obtain ⟨p, hp, h⟩ := bind_eq_ok h
    obtain ⟨c, hc, h⟩ := bind_eq_ok h
    obtain ⟨q, hq, h⟩ := bind_eq_ok h
    refine ⟨_, _, ?_, hq⟩
    rw [rdSpan_length hc, Nat.sub_zero]
    have : (osOf C C (Nat.clog 2 (C + C - 1)) (fun _ => 0) (fun _ => 0) (fun _ => 0)
      (fun _ => 0)).plan.size = 2 ^ Nat.clog 2 (C + C - 1) := rfftPlanOf_size _ _
    rw [this]

/-- Sizes for which the transform has exactly `C + 1` bins. -/
theorem bins_eq {C : ℕ} (hC : 1 ≤ C) (hk : Nat.clog 2 (C + C - 1) ≤ 27)
    (h : 2 ^ Nat.clog 2 (C + C - 1) / 2 + 1 = C + 1) : ∃ a, 1 ≤ a ∧ a ≤ 26 ∧ C = 2 ^ a := by
  generalize hk' : Nat.clog 2 (C + C - 1) = k at *
  cases k with
  | zero => simp at h; omega
  | succ a =>
    rw [two_pow_half] at h
    refine ⟨a, ?_, by omega, by omega⟩
    by_contra c
    obtain rfl : a = 0 := by omega
    obtain rfl : C = 1 := by omega
    revert hk'
    decide +kernel

/-- If a dense convolver processes at least one block without a fault, the filter matrix has at
least one row and `2 ^ a + 1` columns with `1 ≤ a ≤ 26`, and every block has `2 ^ a` samples. -/
theorem dense_run_ok {Ov : Type} {oo : OverlapOps Ov} {blk : Ov → ℕ} (ho : OverlapOk oo blk)
    {f0 : Arr2 ℂ} {v : MatView} {data : List ℂ} (hv : v.InRange data.length)
    {bs outs : List (List ℝ)} (hne : bs ≠ [])
    (h : Upc.run oo denseFdlOps denseFilterOps f0 v data () bs = .ok outs) :
    1 ≤ v.rows ∧ ∃ a, 1 ≤ a ∧ a ≤ 26 ∧ v.cols = 2 ^ a + 1 ∧ ∀ b ∈ bs, b.length = 2 ^ a := by
  unfold Upc.run at h
  obtain ⟨u0, -, h⟩ := bind_eq_ok h
  obtain ⟨u, hu, h⟩ := bind_eq_ok h
  obtain ⟨⟨u', outs'⟩, hr, -⟩ := bind_eq_ok h
  unfold Upc.load at hu
  have hcols : 1 ≤ v.cols := by
    by_contra c
    simp only [] at hu
    rw [if_pos (by omega)] at hu
    cases hu
  simp only [] at hu
  rw [if_neg (by omega), bind_ok] at hu
  obtain ⟨o, hmk, hu⟩ := bind_eq_ok hu
  obtain ⟨hblk, hC, hk, hcall⟩ := ho.make _ _ hmk
  obtain ⟨filt, hfl, hu⟩ := bind_eq_ok hu
  obtain ⟨filt', hfl', hlaw⟩ := denseFilter_law (H := matAt v data) hv u0.filter (fun _ _ _ _ => rfl)
  rw [hfl'] at hfl
  injection hfl with hfl
  subst hfl
  rw [pure_eq_ok] at hu
  injection hu with hu
  -- every block has the block size
  have hall : ∀ (bs : List (List ℝ)) (u : Upc Ov (Arr2 ℂ) (Arr2 ℂ) (List ℂ)) r,
      blk u.overlap = v.cols - 1 →
      runBlocks (fun u b => Upc.call oo denseFdlOps denseFilterOps u b) u bs = .ok r →
      ∀ b ∈ bs, b.length = v.cols - 1 := by
    intro bs
    induction bs with
    | nil => intro u r _ _ b hb; cases hb
    | cons b bs ih =>
      intro u r hbu hr c hc
      rw [runBlocks] at hr
      obtain ⟨⟨u1, y⟩, hs, hr⟩ := bind_eq_ok hr
      obtain ⟨⟨u2, ys⟩, hs2, -⟩ := bind_eq_ok hr
      unfold Upc.call at hs
      obtain ⟨⟨o1, b1, s1⟩, hoc, hs⟩ := bind_eq_ok hs
      simp only [pure_eq_ok] at hs
      injection hs with hs
      injection hs with hs _
      obtain ⟨h1, h2⟩ := ho.size _ _ _ _ _ _ _ hoc
      rcases List.mem_cons.1 hc with rfl | hc
      · rw [h1, hbu]
      · exact ih u1 _ (by rw [← hs]; simp only []; rw [h2, hbu]) hs2 c hc
  have hlen := hall bs u _ (by rw [← hu]; exact hblk) hr
  cases bs with
  | nil => exact absurd rfl hne
  | cons b bs =>
    rw [runBlocks] at hr
    obtain ⟨⟨u1, y⟩, hs, -⟩ := bind_eq_ok hr
    unfold Upc.call at hs
    obtain ⟨⟨o1, b1, s1⟩, hoc, -⟩ := bind_eq_ok hs
    rw [← hu] at hoc
    simp only [] at hoc
    obtain ⟨sp, q, hsp, hq⟩ := hcall _ _ _ _ hoc
    have hacc0 := hlaw.accZero _ _ hlaw.accMake
    obtain ⟨acc, hacc, -⟩ := hacc0
    have hfdl := (denseFdl_law (K := ℂ) v.rows v.cols).make
    have hbad := denseFdl_bad (K := ℂ) (N := v.rows) hcols
    have hrows : 1 ≤ v.rows := by
      by_contra c
      have := hbad.empty (by omega) _ _ sp 0 hfdl
      rw [callback_error hacc this] at hq
      cases hq
    refine ⟨hrows, ?_⟩
    have hspl : sp.length = v.cols := by
      by_contra c
      have := hbad.length _ _ sp 0 hfdl c (by omega)
      rw [callback_error hacc this] at hq
      cases hq
    obtain ⟨a, ha1, ha2, ha⟩ := bins_eq hC hk (by omega)
    exact ⟨a, ha1, ha2, by omega, fun b hb => by rw [hlen b hb, ha]⟩

end Neo
