import Verif.Model.SimdFft
import Verif.Lemmas.SplitFft
import Verif.Lemmas.Out

/-! # Lemmas for plans on batches: every lane behaves like the scalar plan -/

namespace Neo

section natural
variable {α β : Type}

theorem rd_map (g : α → β) (x : List α) (i : ℕ) : rd (x.map g) i = (rd x i).map g := by
  unfold rd
  rw [List.getElem?_map]
  cases x[i]? <;> rfl

theorem wr_map (g : α → β) (x : List α) (i : ℕ) (a : α) :
    wr (x.map g) i (g a) = (wr x i a).map (List.map g) := by
  unfold wr
  rw [List.length_map]
  split
  · rw [← List.map_set]; rfl
  · rfl

theorem res_map_bind {γ δ : Type} (x : Res α) (k : α → Res γ) (g : γ → δ) :
    (x >>= k).map g = x >>= fun a => (k a).map g := by
  cases x <;> rfl

theorem bind_res_map {γ : Type} (g : α → β) (x : Res α) (k : β → Res γ) :
    x.map g >>= k = x >>= fun a => k (g a) := by
  cases x <;> rfl

end natural

section lanes
variable {F G : Type} [CommRing F] [CommRing G]

/-- Both buffers under a map. -/
def mapPair (g : F → G) (x : List F × List F) : List G × List G := (x.1.map g, x.2.map g)

theorem splitButterfly0_map (g : F →+* G) (x : List F × List F) (i1 i2 : ℕ) :
    splitButterfly0 (mapPair g x) i1 i2 = (splitButterfly0 x i1 i2).map (mapPair g) := by
  unfold splitButterfly0
  simp only [mapPair, rd_map, bind_res_map, res_map_bind, ← map_add, ← map_sub, wr_map]
  rfl

theorem splitButterflyTw_map (g : F →+* G) (x : List F × List F) (wre wim : F) (i1 i2 : ℕ) :
    splitButterflyTw (mapPair g x) (g wre) (g wim) i1 i2
      = (splitButterflyTw x wre wim i1 i2).map (mapPair g) := by
  unfold splitButterflyTw
  simp only [mapPair, rd_map, bind_res_map, res_map_bind, ← map_mul, ← map_add, ← map_sub, wr_map]
  rfl

/-- The split kernel commutes with ring homomorphisms, in particular with the choice of a lane. -/
theorem splitStage0_map (g : F →+* G) (order : ℕ) (twRe twIm : List F) (x : List F × List F) :
    splitStage0 order (twRe.map g) (twIm.map g) (mapPair g x)
      = (splitStage0 order twRe twIm x).map (mapPair g) := by
  unfold splitStage0 forStep
  rw [res_map_bind]
  dsimp only
  rw [forN_simul (mapPair g) (fun i s => splitButterfly0_map g s _ _), bind_res_map]
  congr 1
  funext y
  unfold splitStageN
  split
  · rfl
  · dsimp only
    apply forN_simul
    intro i s
    apply forN_simul
    intro k s
    apply forN_simul
    intro p s
    simp only [rd_map, bind_res_map, res_map_bind, splitButterflyTw_map]

end lanes

/-- Choice of a lane as a ring homomorphism. -/
def laneHom (w : ℕ) (T : Type) [CommRing T] (l : Fin w) : Lanes w T →+* T := Pi.evalRingHom (fun _ => T) l

/-- The plan of order `b`. -/
noncomputable def simdPlanOf (w b : ℕ) : SimdFftPlan w :=
  { order := b
    reorder := vec (2 ^ b) (digitRev 2 b)
    twiddles := (makeTwiddleLutRadix2 (2 ^ b) .forward).map (broadcast w) }

theorem simdPlan_make_eq (w b : ℕ) : SimdFftPlan.make w b = .ok (simdPlanOf w b) := by
  unfold SimdFftPlan.make
  rw [show 1 <<< b = 2 ^ b by rw [Nat.shiftLeft_eq, one_mul], bitrevMake_eq, bind_ok,
    show fftSize b = 2 ^ b by simp [fftSize, ipow, Nat.shiftLeft_eq]]
  dsimp only
  unfold simdPlanOf
  generalize makeTwiddleLutRadix2 (2 ^ b) .forward = tw
  obtain ⟨n, f, rfl⟩ := exists_vec tw
  rw [length_vec, map_vec]
  have : forN n (fun i v => do
      let s ← rd (vec n f) i
      wr v i (broadcast w s)) (vec n (fun _ => broadcast w 0))
      = .ok (vec n (fun i => broadcast w (f i))) := by
    apply forN_map (fun _ => broadcast w 0) (fun i _ => broadcast w (f i))
    intro i hi y _
    simp only [rd_vec_ok hi, bind_ok, wr_vec_ok hi]
  rw [this]
  rfl

/-- The split plan of order `b`. -/
noncomputable def simdSplitPlanOf (w b : ℕ) : SimdSplitPlan w :=
  { order := b
    reorder := vec (2 ^ b) (digitRev 2 b)
    twRe := (splitPlanOf b).twRe.map (broadcast w)
    twIm := (splitPlanOf b).twIm.map (broadcast w) }

theorem simdSplitPlan_make_eq (w b : ℕ) : SimdSplitPlan.make w b = .ok (simdSplitPlanOf w b) := by
  unfold SimdSplitPlan.make
  rw [show 1 <<< b = 2 ^ b by rw [Nat.shiftLeft_eq, one_mul], bitrevMake_eq, bind_ok,
    show fftSize b = 2 ^ b by simp [fftSize, ipow, Nat.shiftLeft_eq]]
  dsimp only
  unfold simdSplitPlanOf splitPlanOf
  generalize makeTwiddleLutRadix2 (2 ^ b) .forward = tw
  obtain ⟨n, f, rfl⟩ := exists_vec tw
  dsimp only
  rw [length_vec, splitOf_vec, map_vec, map_vec]
  have : forN n (fun i (s : List (Lanes w ℝ) × List (Lanes w ℝ)) => do
      let z ← rd (vec n f) i
      let re ← wr s.1 i (broadcast w z.re)
      let im ← wr s.2 i (broadcast w z.im)
      pure (re, im)) (vec n (fun _ => broadcast w 0), vec n (fun _ => broadcast w 0))
      = .ok (vec n (fun i => broadcast w (f i).re), vec n (fun i => broadcast w (f i).im)) := by
    apply forN_map2
    intro i hi y z _ _
    simp only [rd_vec_ok hi, bind_ok, wr_vec_ok hi, pure_eq_ok]
  rw [this]
  rfl

end Neo
