import Verif.Lemmas.StatsIeee
import Verif.Lemmas.StatsRounding
import Verif.Lemmas.Algo
import Verif.Props.Algo
import Verif.Props.NormIeee

/-! # C108: statistics and energy normalisation in IEEE 754 arithmetic, within the range of the format -/

namespace Neo.Props

open Neo Spec

variable {f : Fmt}

/-! ## The loops as folds -/

private theorem vecI_loop (g : FVal → FVal → FVal) (x : List FVal) (h : x.length < 2 ^ 31) :
    forInt x.length (fun i s => do
      let v ← rd x i
      pure (g s v)) (.fin 0) = .ok (x.foldl g (.fin 0)) := by
  rw [forInt_eq h, forN_fold_vec x g (.fin 0) _ le_rfl, List.take_length]

private theorem matI_loop (g : FVal → FVal → FVal) (v : MatView) (data : List FVal)
    (hv : ∀ r < v.rows, ∀ c < v.cols, v.idx r c < data.length) (hr : v.rows < 2 ^ 31) (hc : v.cols < 2 ^ 31) :
    forInt v.rows (fun i s => forInt v.cols (fun j s => do
      let x ← rd data (v.idx i j)
      pure (g s x)) s) (.fin 0) = .ok ((entries v data).foldl g (.fin 0)) := by
  rw [forInt_eq hr]
  simp only [forInt_eq hc]
  rw [forN_fold_mat v data g (.fin 0) hv]

private theorem fold_val {α : Type} (c : α → IR f) (g : FVal → α → FVal)
    (h : ∀ (s : IR f) x, g s.val x = (s + c x).val) (l : List α) (s : IR f) :
    l.foldl g s.val = (l.foldl (fun s x => s + c x) s).val := by
  induction l generalizing s with
  | nil => rfl
  | cons x l ih => rw [List.foldl_cons, List.foldl_cons, h, ih]

private theorem sum_const_add (l : List ℝ) (g : ℝ → ℝ) (c : ℝ) :
    (l.map fun v => g v + c).sum = (l.map g).sum + l.length * c := by
  induction l with
  | nil => simp
  | cons x l ih =>
    simp only [List.map_cons, List.sum_cons, List.length_cons, ih]
    push_cast
    ring

private theorem sum_ge (l : List α) (g : α → ℝ) (c : ℝ) (h : ∀ x ∈ l, c ≤ g x) : l.length * c ≤ (l.map g).sum := by
  induction l with
  | nil => simp
  | cons x l ih =>
    simp only [List.map_cons, List.sum_cons, List.length_cons]
    have := ih fun y hy => h y (List.mem_cons_of_mem _ hy)
    have := h x List.mem_cons_self
    push_cast
    linarith

private theorem sum_le (l : List α) (g : α → ℝ) (c : ℝ) (h : ∀ x ∈ l, g x ≤ c) : (l.map g).sum ≤ l.length * c := by
  induction l with
  | nil => simp
  | cons x l ih =>
    simp only [List.map_cons, List.sum_cons, List.length_cons]
    have := ih fun y hy => h y (List.mem_cons_of_mem _ hy)
    have := h x List.mem_cons_self
    push_cast
    linarith

/-! ## Mean -/

/-- The sum of the magnitudes of `w`, one smallest normal number added to each. -/
noncomputable def magSum (f : Fmt) (w : List ℝ) : ℝ := (w.map fun v => |v| + f.minNormal).sum

/-- The mean of `w` can be computed without overflow. -/
def MeanRange (f : Fmt) (w : List ℝ) : Prop :=
  1 ≤ w.length ∧ (1 + f.u) * w.length < (2 : ℝ) ^ f.emax ∧
    2 * (1 + f.u) ^ w.length * magSum f w < (2 : ℝ) ^ f.emax

/-- `m` is the mean of `w` up to rounding. -/
def MeanClose (f : Fmt) (w : List ℝ) (m : ℝ) : Prop :=
  |m - Spec.mean w| ≤ ((1 + f.u) ^ (w.length + 1) / (1 - f.u) - 1) * (magSum f w / w.length)

private theorem mean_core (hf : f.Ieee) {w : List ℝ} (h : MeanRange f w) :
    ∃ m, divCountI f ((w.map FVal.fin).foldl (addI f) (.fin 0)) w.length = .fin m ∧ MeanClose f w m := by
  obtain ⟨h1, h2, h3⟩ := h
  have hu := u_pos f
  have hν := minNormal_pos f
  have hpow : (1 : ℝ) ≤ (1 + f.u) ^ w.length := one_le_pow₀ (by linarith)
  have e : (w.map FVal.fin).foldl (addI f) (.fin 0) = (w.foldl (fun s x => s + (⟨.fin x⟩ : IR f)) 0).val := by
    rw [List.foldl_map]
    exact fold_val (fun x => (⟨.fin x⟩ : IR f)) _ (fun s x => rfl) w 0
  have hge := sum_ge w (fun v => |v| + f.minNormal) f.minNormal (fun v _ => by linarith [abs_nonneg v])
  have hM0 : 0 ≤ magSum f w := le_trans (by positivity) hge
  have hs := sumNear hf (fun x => (⟨.fin x⟩ : IR f)) (fun v => v) (fun v => |v| + f.minNormal) 1 le_rfl w
    (fun v _ => ⟨⟨v, rfl, by linarith, by simp⟩, by linarith [abs_nonneg v]⟩) 0 0 0 1 (NearR.zero le_rfl le_rfl) le_rfl le_rfl
    (by
      rw [zero_add, one_mul]
      have : 0 ≤ (1 + f.u) ^ w.length * magSum f w := by positivity
      unfold magSum at *
      linarith)
  rw [zero_add, zero_add, one_mul, List.map_id'] at hs
  rw [e]
  obtain ⟨r, er, hr⟩ := divCount_near hf h1 h2 hs hpow hge (by unfold magSum at h3; linarith)
  refine ⟨r, er, ?_⟩
  unfold MeanClose Spec.mean magSum
  refine hr.trans (le_of_eq ?_)
  rw [pow_succ]

/-- **C108** (mean): within the range of the format the mean of finite samples is finite and accurate, for vectors and for
every in-bounds rank-2 view. -/
theorem C108_mean (f : Fmt) (hf : f.Ieee) (w : List ℝ) (h : MeanRange f w) :
    (w.length < 2 ^ 31 → ∃ m, meanVecI f (w.map .fin) = .ok (some (.fin m)) ∧ MeanClose f w m) ∧
    ∀ (v : MatView) (data : List FVal), (∀ r < v.rows, ∀ c < v.cols, v.idx r c < data.length) → v.rows < 2 ^ 31 →
      v.cols < 2 ^ 31 → entries v data = w.map .fin →
      ∃ m, meanMatI f v data = .ok (some (.fin m)) ∧ MeanClose f w m := by
  obtain ⟨m, e, k⟩ := mean_core hf h
  refine ⟨fun hl => ⟨m, ?_, k⟩, fun v data hv hr hc he => ⟨m, ?_, k⟩⟩
  · have hl' : (w.map FVal.fin).length < 2 ^ 31 := by rwa [List.length_map]
    unfold meanVecI
    rw [if_neg (by rw [List.length_map]; have := h.1; omega), vecI_loop (fun s v => f.round (s.add v)) _ hl', bind_ok]
    rw [← e, ← List.length_map (as := w) FVal.fin]
    rfl
  · have hn := entries_length hv
    rw [he, List.length_map] at hn
    unfold meanMatI meanUncheckedMatI
    rw [if_neg (by rw [← hn]; have := h.1; omega), matI_loop (addI f) v data hv hr hc, bind_ok, he, ← hn, ← e]
    rfl

/-! ## Mean squared differences -/

/-- The bound of the squared difference of two samples, used for the range and the error. -/
noncomputable def sqBound (f : Fmt) (a b : ℝ) : ℝ := (|a - b| + f.minNormal) ^ 2 + f.minNormal

/-- The mean squared difference of the pairs can be computed without overflow. -/
def MsdRange (f : Fmt) (w : List (ℝ × ℝ)) : Prop :=
  1 ≤ w.length ∧ (1 + f.u) * w.length < (2 : ℝ) ^ f.emax ∧
    2 * (1 + f.u) ^ (w.length + 3) * (w.map fun p => sqBound f p.1 p.2).sum < (2 : ℝ) ^ f.emax

/-- `r` is the mean squared difference of the pairs up to rounding. -/
def MsdClose (f : Fmt) (w : List (ℝ × ℝ)) (r : ℝ) : Prop :=
  0 ≤ r ∧ |r - Spec.mean (w.map fun p => (p.1 - p.2) ^ 2)| ≤
    ((1 + f.u) ^ (w.length + 4) / (1 - f.u) - 1) * Spec.mean (w.map fun p => sqBound f p.1 p.2)

private theorem nn_round {v : FVal} (hp : 1 ≤ f.p) (h : ∀ a, v = .fin a → 0 ≤ a) (a : ℝ) (e : f.round v = .fin a) :
    0 ≤ a := by
  cases v with
  | fin x =>
    unfold Fmt.round at e
    dsimp only at e
    split at e
    · injection e with e
      rw [← e]
      exact grid_le_rndInf hp (onGrid_zero f) (h x rfl)
    · cases e
  | inf s => cases e
  | nan => cases e

private theorem nn_sq (d : FVal) (a : ℝ) (e : d.mul d = .fin a) : 0 ≤ a := by
  cases d with
  | fin x =>
    unfold FVal.mul at e
    injection e with e
    rw [← e]
    exact mul_self_nonneg x
  | inf s => cases e
  | nan => cases e

private theorem nn_add {u v : FVal} (hu : ∀ a, u = .fin a → 0 ≤ a) (hv : ∀ a, v = .fin a → 0 ≤ a) (a : ℝ)
    (e : u.add v = .fin a) : 0 ≤ a := by
  cases u <;> cases v <;> simp only [FVal.add] at e <;> try cases e
  · exact add_nonneg (hu _ rfl) (hv _ rfl)
  · split at e <;> cases e

private theorem nn_fold {α : Type} (hp : 1 ≤ f.p) (p q : α → FVal) (l : List α) (s : FVal) (hs : ∀ a, s = .fin a → 0 ≤ a) :
    ∀ a, l.foldl (fun s x => sqDiffI f s (p x) (q x)) s = .fin a → 0 ≤ a := by
  induction l generalizing s with
  | nil => exact hs
  | cons x l ih =>
    refine ih _ ?_
    intro a ha
    exact nn_round hp (nn_add hs fun a e => nn_round hp (nn_sq _) a e) a ha

private theorem nn_divCount (hp : 1 ≤ f.p) {s : FVal} (hs : ∀ a, s = .fin a → 0 ≤ a) (n : ℕ) (a : ℝ)
    (e : divCountI f s n = .fin a) : 0 ≤ a := by
  refine nn_round hp (fun b hb => ?_) a e
  have hn : ∀ c, f.round (.fin (n : ℝ)) = .fin c → 0 ≤ c :=
    nn_round hp (fun c hc => by injection hc with hc; rw [← hc]; positivity)
  revert hn hb
  generalize f.round (.fin (n : ℝ)) = c
  intro hb hn
  cases s <;> cases c <;> simp only [FVal.div] at hb <;> try cases hb
  · split at hb
    · split at hb <;> cases hb
    · injection hb with hb
      rw [← hb]
      exact div_nonneg (hs _ rfl) (hn _ rfl)
  · exact le_rfl

private theorem msd_core (hf : f.Ieee) {w : List (ℝ × ℝ)} (h : MsdRange f w) :
    ∃ r, divCountI f (w.foldl (fun s p => sqDiffI f s (.fin p.1) (.fin p.2)) (.fin 0)) w.length = .fin r ∧
      MsdClose f w r := by
  obtain ⟨h1, h2, h3⟩ := h
  have hu := u_pos f
  have hν := minNormal_pos f
  have hp : 1 ≤ f.p := by have := hf.1; omega
  have hpow : ∀ k, (1 : ℝ) ≤ (1 + f.u) ^ k := fun k => one_le_pow₀ (by linarith)
  have hb : ∀ p : ℝ × ℝ, f.minNormal ≤ sqBound f p.1 p.2 := fun p => by
    unfold sqBound; nlinarith [sq_nonneg (|p.1 - p.2| + f.minNormal)]
  have hge := sum_ge w (fun p => sqBound f p.1 p.2) f.minNormal fun p _ => hb p
  set B := (w.map fun p => sqBound f p.1 p.2).sum with hB
  have hB0 : 0 ≤ B := le_trans (by positivity) hge
  have hle : ∀ p ∈ w, sqBound f p.1 p.2 ≤ B := fun p hp => by
    refine List.single_le_sum ?_ _ (List.mem_map_of_mem (f := fun p => sqBound f p.1 p.2) hp)
    intro z hz
    obtain ⟨q, -, rfl⟩ := List.mem_map.1 hz
    exact hν.le.trans (hb q)
  have hterm : ∀ p ∈ w, (1 + f.u) ^ 3 * sqBound f p.1 p.2 < (2 : ℝ) ^ f.emax := fun p hp => by
    refine lt_of_le_of_lt ?_ h3
    have k1 : (1 + f.u) ^ 3 ≤ 2 * (1 + f.u) ^ (w.length + 3) := by
      rw [pow_add]; nlinarith [hpow w.length, hpow 3]
    exact mul_le_mul k1 (hle p hp) (hν.le.trans (hb p)) (by positivity)
  have e : w.foldl (fun s p => sqDiffI f s (.fin p.1) (.fin p.2)) (.fin 0) = (w.foldl (fun s p => s +
      ((⟨f.round (FVal.sub (.fin p.1) (.fin p.2))⟩ : IR f) * ⟨f.round (FVal.sub (.fin p.1) (.fin p.2))⟩)) 0).val :=
    fold_val (fun p : ℝ × ℝ => ((⟨f.round (FVal.sub (.fin p.1) (.fin p.2))⟩ : IR f) *
      ⟨f.round (FVal.sub (.fin p.1) (.fin p.2))⟩)) _ (fun s x => rfl) w 0
  have hs := sumNear hf (fun p : ℝ × ℝ => ((⟨f.round (FVal.sub (.fin p.1) (.fin p.2))⟩ : IR f) *
      ⟨f.round (FVal.sub (.fin p.1) (.fin p.2))⟩)) (fun p => (p.1 - p.2) ^ 2) (fun p => sqBound f p.1 p.2)
      ((1 + f.u) ^ 3) (hpow 3) w (fun p hp => ⟨sqDiff_near hf p.1 p.2 (hterm p hp) (by
        have t := hterm p hp
        unfold sqBound at t
        set P := |p.1 - p.2| + f.minNormal
        have hP : 0 < P := by have := abs_nonneg (p.1 - p.2); positivity
        rcases le_total P 1 with hP1 | hP1
        · have h4 : (4 : ℝ) ≤ (2 : ℝ) ^ f.emax := by
            have := zpow_le_zpow_right₀ (a := (2 : ℝ)) (by norm_num) (show (2 : ℤ) ≤ f.emax by have := hf.2.1; omega)
            norm_num at this ⊢; exact this
          have := u_le hf
          nlinarith
        · refine lt_of_le_of_lt ?_ t
          have k : 1 + f.u ≤ (1 + f.u) ^ 3 := by nlinarith [hpow 2, hpow 1]
          exact mul_le_mul k (by nlinarith) hP.le (by positivity)), hb p⟩) 0 0 0 ((1 + f.u) ^ 3)
      (NearR.zero le_rfl (hpow 3)) le_rfl le_rfl (by
        rw [zero_add, ← pow_add, add_comm 3]
        have : 0 ≤ (1 + f.u) ^ (w.length + 3) * B := by positivity
        linarith)
  rw [zero_add, zero_add, ← pow_add, add_comm 3] at hs
  obtain ⟨r, er, hr⟩ := divCount_near hf h1 h2 hs (hpow _) hge (by linarith)
  rw [← e] at er
  refine ⟨r, er, nn_divCount hp (nn_fold hp (fun p : ℝ × ℝ => .fin p.1) (fun p => .fin p.2) w _ (fun a ha => by
    injection ha with ha; rw [← ha])) _ r er, ?_⟩
  unfold Spec.mean
  rw [List.length_map, List.length_map]
  refine hr.trans (le_of_eq ?_)
  rw [← pow_succ]

/-- `s` is the square root of `r` up to rounding. -/
def RootClose (f : Fmt) (r s : ℝ) : Prop := 0 ≤ s ∧ |s - Real.sqrt r| ≤ f.u * (Real.sqrt r + f.minNormal)

private theorem root_core (hf : f.Ieee) {r : ℝ} (h0 : 0 ≤ r) (hr : r < (2 : ℝ) ^ f.emax) :
    ∃ s, f.round (FVal.sqrt (.fin r)) = .fin s ∧ RootClose f r s := by
  have hν := minNormal_pos f
  have hu := u_le hf
  have hu0 := u_pos f
  have hs0 := Real.sqrt_nonneg r
  have e : FVal.sqrt (.fin r) = .fin (Real.sqrt r) := by
    unfold FVal.sqrt
    dsimp only
    rw [if_neg (by linarith)]
  have h4 : (8 : ℝ) ≤ (2 : ℝ) ^ f.emax := by
    have := zpow_le_zpow_right₀ (a := (2 : ℝ)) (by norm_num) hf.2.1
    norm_num at this ⊢; exact this
  have hν1 : f.minNormal ≤ 1 := zpow_le_one_of_nonpos₀ (by norm_num) (by obtain ⟨a, b, c⟩ := hf; omega)
  have hsq := Real.sq_sqrt h0
  obtain ⟨s, es, hs⟩ := round_ok hf (t := Real.sqrt r) (T := Real.sqrt r + f.minNormal)
    (by rw [abs_of_nonneg hs0]; linarith) (by linarith) (by
      rcases le_total (Real.sqrt r) 3 with h | h
      · nlinarith
      · have h1 : (1 + f.u) * (Real.sqrt r + f.minNormal) ≤ 9 / 8 * (Real.sqrt r + 1) :=
          mul_le_mul (by linarith) (by linarith) (by linarith) (by norm_num)
        nlinarith)
  rw [e]
  refine ⟨s, es, nn_round (by have := hf.1; omega) (fun a ha => by injection ha with ha; rw [← ha]; exact hs0) s es, hs⟩

private theorem fin_lt {v : FVal} {r : ℝ} (e : f.round v = .fin r) : r < (2 : ℝ) ^ f.emax := by
  cases v with
  | fin x =>
    unfold Fmt.round at e
    dsimp only at e
    split at e
    · rename_i h
      injection e with e
      rw [← e]
      exact (le_abs_self _).trans_lt h
    · cases e
  | inf s => cases e
  | nan => cases e

private theorem zip_fold (g : FVal → FVal → FVal → FVal) (x y : List ℝ) (s : FVal) :
    ((x.map FVal.fin).zip (y.map FVal.fin)).foldl (fun s p => g s p.1 p.2) s
      = (x.zip y).foldl (fun s p => g s (.fin p.1) (.fin p.2)) s := by
  rw [List.zip_map, List.foldl_map]
  rfl

/-- **C108** (mean squared error): within the range of the format, the mean squared error of finite real samples is finite,
not negative and accurate, and its root is the rounded root; for vectors and for rank-2 views. -/
theorem C108_mse (f : Fmt) (hf : f.Ieee) (x y : List ℝ) (hl : x.length = y.length) (h : MsdRange f (x.zip y)) :
    (∃ r s, mseVecI f (x.map .fin) (y.map .fin) = .ok (.fin r) ∧ rmseVecI f (x.map .fin) (y.map .fin) = .ok (.fin s) ∧
      MsdClose f (x.zip y) r ∧ RootClose f r s) ∧
    ∀ (vx vy : MatView) (dx dy : List FVal), vx.rows = vy.rows → vx.cols = vy.cols →
      (∀ r < vx.rows, ∀ c < vx.cols, vx.idx r c < dx.length) → (∀ r < vy.rows, ∀ c < vy.cols, vy.idx r c < dy.length) →
      entries vx dx = x.map .fin → entries vy dy = y.map .fin →
      ∃ r s, mseMatI f vx dx vy dy = .ok (.fin r) ∧ rmseMatI f vx dx vy dy = .ok (.fin s) ∧
        MsdClose f (x.zip y) r ∧ RootClose f r s := by
  obtain ⟨r, e, k⟩ := msd_core hf h
  obtain ⟨s, es, ks⟩ := root_core hf k.1 (fin_lt e)
  have hz : (x.zip y).length = x.length := by rw [List.length_zip]; omega
  have hv : mseVecI f (x.map .fin) (y.map .fin) = .ok (.fin r) := by
    unfold mseVecI
    rw [check_decide_ok (by rw [List.length_map, List.length_map, hl]), bind_ok,
      forN_fold_zip _ _ (sqDiffI f) (.fin 0) (by rw [List.length_map, List.length_map, hl]) _ le_rfl, bind_ok,
      List.take_of_length_le (by rw [List.length_zip]; omega), zip_fold, List.length_map, ← hz, e]
    rfl
  refine ⟨⟨r, s, hv, by unfold rmseVecI; rw [hv, bind_ok, es]; rfl, k, ks⟩, ?_⟩
  intro vx vy dx dy hr hc hx hy ex ey
  have hn := entries_length hx
  rw [ex, List.length_map] at hn
  have hm : mseMatI f vx dx vy dy = .ok (.fin r) := by
    unfold mseMatI
    rw [check_decide_ok ⟨hr, hc⟩, bind_ok, forN_fold_zip_mat vx vy dx dy (sqDiffI f) (.fin 0) hr hc hx hy, bind_ok, ex, ey,
      zip_fold, ← hn, ← hz, e]
    rfl
  exact ⟨r, s, hm, by unfold rmseMatI; rw [hm, bind_ok, es]; rfl, k, ks⟩

open Classical in
/-- **C108** (mean squared error of a signal with itself): exactly zero for finite samples of any magnitude, and NaN if the
signal is empty or holds an infinity or a NaN. -/
theorem C108_mse_self (f : Fmt) (hf : f.Ieee) (x : List FVal) :
    mseVecI f x x = .ok (if x ≠ [] ∧ ∀ v ∈ x, ∃ w, v = .fin w then .fin 0 else .nan) := by
  have h0 : f.round (.fin 0) = .fin 0 := round_mem (onGrid_zero f) (by rw [abs_zero]; exact two_zpow_pos _)
  have hp : 1 ≤ f.p := by have := hf.1; omega
  have hfold : (x.zip x).foldl (fun s p => sqDiffI f s p.1 p.2) (.fin 0)
      = if ∀ v ∈ x, ∃ w, v = FVal.fin w then .fin 0 else .nan := by
    have hnan : ∀ l : List (FVal × FVal), l.foldl (fun s p => sqDiffI f s p.1 p.2) .nan = .nan := by
      intro l
      induction l with
      | nil => rfl
      | cons p l ih =>
        rw [List.foldl_cons]
        have : sqDiffI f .nan p.1 p.2 = .nan := by unfold sqDiffI; rfl
        rw [this, ih]
    induction x with
    | nil => simp
    | cons v l ih =>
      rw [List.zip_cons_cons, List.foldl_cons]
      dsimp only
      cases v with
      | fin w =>
        have : sqDiffI f (.fin 0) (.fin w) (.fin w) = .fin 0 := by
          have e : FVal.sub (.fin w) (.fin w) = .fin 0 := by show FVal.fin (w + -w) = _; rw [add_neg_cancel]
          unfold sqDiffI
          dsimp only
          rw [e, h0]
          show f.round (FVal.add (.fin 0) (f.round (.fin (0 * 0)))) = _
          rw [mul_zero, h0]
          show f.round (.fin (0 + 0)) = _
          rw [add_zero, h0]
        rw [this, ih]
        simp
      | inf s =>
        have : sqDiffI f (.fin 0) (.inf s) (.inf s) = .nan := by
          have e : FVal.sub (.inf s) (.inf s) = .nan := by
            show FVal.add (.inf s) (.inf !s) = _
            unfold FVal.add
            cases s <;> simp
          unfold sqDiffI
          dsimp only
          rw [e]
          rfl
        rw [this, hnan, if_neg]
        intro h
        obtain ⟨w, hw⟩ := h _ List.mem_cons_self
        cases hw
      | nan =>
        have : sqDiffI f (.fin 0) .nan .nan = .nan := by unfold sqDiffI; rfl
        rw [this, hnan, if_neg]
        intro h
        obtain ⟨w, hw⟩ := h _ List.mem_cons_self
        cases hw
  unfold mseVecI
  rw [check_decide_ok rfl, bind_ok, forN_fold_zip _ _ (sqDiffI f) (.fin 0) rfl _ le_rfl, bind_ok,
    List.take_of_length_le (by rw [List.length_zip]; omega), hfold]
  rw [pure_eq_ok]
  refine congrArg Except.ok ?_
  unfold divCountI
  rcases x.eq_nil_or_concat with rfl | ⟨l, a, rfl⟩
  · simp [h0, FVal.div, round_nan]
  · set x := l.concat a
    have hx : x ≠ [] := by simp [x]
    have hn : 1 ≤ x.length := List.length_pos_iff.2 hx
    by_cases hfin : ∀ v ∈ x, ∃ w, v = FVal.fin w
    · rw [if_pos hfin, if_pos ⟨hx, hfin⟩]
      have h1 : (1 : ℝ) ≤ x.length := by exact_mod_cast hn
      have hr1 : 1 ≤ f.rndInf (x.length : ℝ) := grid_le_rndInf hp (one_onGrid hf) h1
      rcases lt_or_ge (f.rndInf (x.length : ℝ)) ((2 : ℝ) ^ f.emax) with hlt | hge
      · rw [round_fin_of_lt (by rwa [abs_of_nonneg (by linarith)])]
        show f.round (FVal.div (.fin 0) (.fin _)) = _
        unfold FVal.div
        dsimp only
        rw [if_neg (by linarith), zero_div, h0]
      · rw [round_fin_of_le hge]
        show f.round (.fin 0) = _
        exact h0
    · rw [if_neg hfin, if_neg fun hc => hfin hc.2]
      generalize f.round (.fin (x.length : ℝ)) = c
      cases c <;> rfl

/-! ## Variance -/

/-- Samples of magnitude at most `K`, few and small enough for the variance to be computed without overflow. -/
def VarRange (f : Fmt) (K : ℝ) (w : List ℝ) : Prop :=
  1 ≤ K ∧ (∀ v ∈ w, |v| ≤ K) ∧ (1 + f.u) ^ w.length ≤ 2 ∧ 300 * w.length * K ^ 2 < (2 : ℝ) ^ f.emax

private theorem var_meanRange (hf : f.Ieee) {K : ℝ} {w : List ℝ} (h : VarRange f K w) (hw : 1 ≤ w.length) :
    MeanRange f w ∧ magSum f w ≤ w.length * (2 * K) := by
  obtain ⟨h1, h2, h3, h4⟩ := h
  have hu := u_pos f
  have hu8 := u_le hf
  have hν1 : f.minNormal ≤ 1 := zpow_le_one_of_nonpos₀ (by norm_num) (by obtain ⟨a, b, c⟩ := hf; omega)
  have hn : (1 : ℝ) ≤ w.length := by exact_mod_cast hw
  have hS := sum_le w (fun v => |v| + f.minNormal) (2 * K) fun v hv => by linarith [h2 v hv]
  have hK2 : K ≤ K ^ 2 := by nlinarith
  have hnK : (w.length : ℝ) * K ≤ w.length * K ^ 2 := mul_le_mul_of_nonneg_left hK2 (by linarith)
  have hnK1 : (w.length : ℝ) ≤ w.length * K := le_mul_of_one_le_right (by linarith) h1
  refine ⟨⟨hw, by nlinarith, ?_⟩, hS⟩
  have hν := minNormal_pos f
  have hM0 : 0 ≤ magSum f w := List.sum_nonneg fun z hz => by
    obtain ⟨v, -, rfl⟩ := List.mem_map.1 hz
    positivity
  calc 2 * (1 + f.u) ^ w.length * magSum f w ≤ 2 * 2 * magSum f w := by
        refine mul_le_mul_of_nonneg_right (by linarith) hM0
    _ ≤ 2 * 2 * (w.length * (2 * K)) := by unfold magSum; linarith
    _ < _ := by linarith

private theorem var_core (hf : f.Ieee) {K : ℝ} {w : List ℝ} (h : VarRange f K w) (hw : 1 ≤ w.length) {m : ℝ}
    (hm : MeanClose f w m) : MsdRange f (w.map fun v => (v, m)) := by
  obtain ⟨hR, hS⟩ := var_meanRange hf h hw
  obtain ⟨h1, h2, h3, h4⟩ := h
  have hu := u_pos f
  have hu8 := u_le hf
  have hν := minNormal_pos f
  have hν1 : f.minNormal ≤ 1 := zpow_le_one_of_nonpos₀ (by norm_num) (by obtain ⟨a, b, c⟩ := hf; omega)
  have hn : (1 : ℝ) ≤ w.length := by exact_mod_cast hw
  have hn0 : (0 : ℝ) < w.length := by linarith
  have hmean : |Spec.mean w| ≤ K := by
    unfold Spec.mean
    rw [abs_div, abs_of_pos hn0, div_le_iff₀ hn0]
    have a1 : |w.sum| ≤ (w.map fun v => |v|).sum := by
      clear * -
      induction w with
      | nil => simp
      | cons x l ih =>
        simp only [List.map_cons, List.sum_cons]
        exact (abs_add_le _ _).trans (by linarith)
    have a2 := sum_le w (fun v => |v|) K h2
    linarith
  have hγ : (1 + f.u) ^ (w.length + 1) / (1 - f.u) - 1 ≤ 11 / 7 := by
    rw [pow_succ]
    have : (1 + f.u) ^ w.length * (1 + f.u) ≤ 2 * (9 / 8) := mul_le_mul h3 (by linarith) (by linarith) (by norm_num)
    have : (1 + f.u) ^ w.length * (1 + f.u) / (1 - f.u) ≤ 18 / 7 := by
      rw [div_le_iff₀ (by linarith)]
      linarith
    linarith
  have hmK : |m| ≤ 5 * K := by
    have h5 : magSum f w / w.length ≤ 2 * K := by rw [div_le_iff₀ hn0]; linarith
    have h50 : 0 ≤ magSum f w / w.length := by
      refine div_nonneg (List.sum_nonneg fun z hz => ?_) hn0.le
      obtain ⟨v, -, rfl⟩ := List.mem_map.1 hz
      positivity
    have h6 : |m - Spec.mean w| ≤ 11 / 7 * (2 * K) :=
      hm.trans ((mul_le_mul_of_nonneg_right hγ h50).trans (mul_le_mul_of_nonneg_left h5 (by norm_num)))
    have := abs_sub_abs_le_abs_sub m (Spec.mean w)
    linarith
  have hb : ∀ p ∈ w.map fun v => (v, m), sqBound f p.1 p.2 ≤ 50 * K ^ 2 := by
    intro p hp
    obtain ⟨v, hv, rfl⟩ := List.mem_map.1 hp
    unfold sqBound
    have a1 : |v - m| + f.minNormal ≤ 7 * K := by
      have := abs_sub v m
      have := h2 v hv
      linarith
    have a2 := pow_le_pow_left₀ (by have := abs_nonneg (v - m); linarith) a1 2
    nlinarith
  have hB := sum_le _ _ _ hb
  rw [List.length_map] at hB
  refine ⟨by rw [List.length_map]; exact hw, by rw [List.length_map]; exact hR.2.1, ?_⟩
  rw [List.length_map]
  have hp3 : 2 * (1 + f.u) ^ (w.length + 3) ≤ 6 := by
    rw [pow_add]
    have : (1 + f.u) ^ 3 ≤ 3 / 2 := by
      calc (1 + f.u) ^ 3 ≤ (9 / 8) ^ 3 := pow_le_pow_left₀ (by linarith) (by linarith) 3
        _ ≤ 3 / 2 := by norm_num
    have := mul_le_mul h3 this (by positivity) (by norm_num)
    linarith
  calc _ ≤ 6 * (w.length * (50 * K ^ 2)) := mul_le_mul hp3 hB (List.sum_nonneg fun z hz => by
        obtain ⟨p, -, rfl⟩ := List.mem_map.1 hz
        unfold sqBound
        positivity) (by norm_num)
    _ = 300 * w.length * K ^ 2 := by ring
    _ < _ := h4

/-- `r` is the variance of `w` up to rounding, if `m` was used in place of the mean. -/
def VarClose (f : Fmt) (w : List ℝ) (m r : ℝ) : Prop :=
  0 ≤ r ∧ |r - (Spec.variance w + (m - Spec.mean w) ^ 2)| ≤
    ((1 + f.u) ^ (w.length + 4) / (1 - f.u) - 1) * Spec.mean (w.map fun v => (|v - m| + f.minNormal) ^ 2 + f.minNormal)

/-- **C108** (variance and standard deviation): if the samples are at most `K` in magnitude and their number and `K` are not
too large for the format, mean, variance and standard deviation are finite; the variance is accurate up to the square of the
error of the mean, and the standard deviation is its rounded root. -/
theorem C108_variance (f : Fmt) (hf : f.Ieee) (K : ℝ) (w : List ℝ) (h : VarRange f K w) (hw : 2 ≤ w.length) :
    (w.length < 2 ^ 31 → ∃ m r s, meanVecI f (w.map .fin) = .ok (some (.fin m)) ∧
      varianceVecI f (w.map .fin) = .ok (some (.fin r)) ∧ standardDeviationVecI f (w.map .fin) = .ok (some (.fin s)) ∧
      MeanClose f w m ∧ VarClose f w m r ∧ RootClose f r s) ∧
    ∀ (v : MatView) (data : List FVal), (∀ r < v.rows, ∀ c < v.cols, v.idx r c < data.length) → v.rows < 2 ^ 31 →
      v.cols < 2 ^ 31 → entries v data = w.map .fin →
      ∃ m r s, meanMatI f v data = .ok (some (.fin m)) ∧ varianceMatI f v data = .ok (some (.fin r)) ∧
        standardDeviationMatI f v data = .ok (some (.fin s)) ∧ MeanClose f w m ∧ VarClose f w m r ∧ RootClose f r s := by
  obtain ⟨hR, -⟩ := var_meanRange hf h (by omega)
  obtain ⟨m, em, km⟩ := mean_core hf hR
  obtain ⟨r, er, k0, kr⟩ := msd_core hf (var_core hf h (by omega) km)
  obtain ⟨s, es, ks⟩ := root_core hf k0 (fin_lt er)
  rw [List.length_map, List.foldl_map] at er
  have kv : VarClose f w m r := by
    refine ⟨k0, ?_⟩
    rw [List.map_map, List.map_map, List.length_map] at kr
    rw [← dev_mean (by rw [← List.length_pos_iff]; omega)]
    exact kr
  refine ⟨fun hl => ⟨m, r, s, ?_⟩, fun v data hv hr hc he => ⟨m, r, s, ?_⟩⟩
  · have hl' : (w.map FVal.fin).length < 2 ^ 31 := by rwa [List.length_map]
    have hmean : meanUncheckedVecI f (w.map .fin) = .ok (.fin m) := by
      unfold meanUncheckedVecI
      rw [vecI_loop (addI f) _ hl', bind_ok, List.length_map, em]
      rfl
    have hvar : varianceVecI f (w.map .fin) = .ok (some (.fin r)) := by
      unfold varianceVecI
      rw [if_neg (by rw [List.length_map]; omega), hmean, bind_ok, vecI_loop (fun s v => sqDiffI f s v (.fin m)) _ hl',
        bind_ok, List.foldl_map, List.length_map, er]
      rfl
    refine ⟨?_, hvar, ?_, km, kv, ks⟩
    · unfold meanVecI
      rw [if_neg (by rw [List.length_map]; omega)]
      have := hmean
      unfold meanUncheckedVecI at this
      rw [vecI_loop (addI f) _ hl', bind_ok] at this
      rw [vecI_loop (fun s v => f.round (s.add v)) _ hl', bind_ok]
      injection this with this
      exact congrArg (fun a => Except.ok (some a)) this
    · unfold standardDeviationVecI
      rw [hvar, bind_ok, Option.map_some, es]
      rfl
  · have hn := entries_length hv
    rw [he, List.length_map] at hn
    have hmean : meanUncheckedMatI f v data = .ok (.fin m) := by
      unfold meanUncheckedMatI
      rw [matI_loop (addI f) v data hv hr hc, bind_ok, he, ← hn, em]
      rfl
    have hvar : varianceMatI f v data = .ok (some (.fin r)) := by
      unfold varianceMatI
      rw [if_neg (by omega), hmean, bind_ok, matI_loop (fun s v => sqDiffI f s v (.fin m)) v data hv hr hc,
        bind_ok, he, List.foldl_map, ← hn, er]
      rfl
    refine ⟨?_, hvar, ?_, km, kv, ks⟩
    · unfold meanMatI
      rw [if_neg (by omega), hmean]
      rfl
    · unfold standardDeviationMatI
      rw [hvar, bind_ok, Option.map_some, es]
      rfl

/-! ## Energy -/

/-- The energy of `w` with one smallest normal number added for each sample. -/
noncomputable def energyMag (f : Fmt) (w : List ℝ) : ℝ := energy w + w.length * f.minNormal

/-- Relative error of the computed energy of `w`. -/
noncomputable def energyErr (f : Fmt) (w : List ℝ) : ℝ := ((1 + f.u) ^ (w.length + 1) - 1) * energyMag f w / energy w

/-- The energy of `w` is a normal number, is computed with a relative error of at most one half, and does not overflow. -/
def EnergyRange (f : Fmt) (w : List ℝ) : Prop :=
  f.minNormal ≤ energy w ∧ energyErr f w ≤ 1 / 2 ∧ (1 + f.u) ^ (w.length + 1) * energyMag f w < (2 : ℝ) ^ f.emax

/-- Relative error of the samples after `normalize_energy`. -/
noncomputable def energyTol (f : Fmt) (w : List ℝ) : ℝ := (1 + energyErr f w) * (1 + 5 * f.u) - 1

private theorem energy_core (hf : f.Ieee) (h8 : 8 ≤ f.emax) {w : List ℝ} (h : EnergyRange f w) :
    ∃ g, energyFactorI f ((w.map FVal.fin).foldl (energyStepI f) (.fin 0)) = .fin g ∧ 0 < g ∧
      |g * Real.sqrt (energy w) - 1| ≤ (1 + energyErr f w) * (1 + 3 * f.u) - 1 := by
  obtain ⟨h1, h2, h3⟩ := h
  have hu := u_pos f
  have hν := minNormal_pos f
  have hE : 0 < energy w := hν.trans_le h1
  have hpow : ∀ k, (1 : ℝ) ≤ (1 + f.u) ^ k := fun k => one_le_pow₀ (by linarith)
  have hsum : (w.map fun v => v ^ 2 + f.minNormal).sum = energyMag f w := by
    rw [sum_const_add]; rfl
  have hM : 0 < energyMag f w := by unfold energyMag; positivity
  have e : (w.map FVal.fin).foldl (energyStepI f) (.fin 0)
      = (w.foldl (fun s x => s + ((⟨.fin x⟩ : IR f) * ⟨.fin x⟩)) 0).val := by
    rw [List.foldl_map]
    exact fold_val (fun x => ((⟨.fin x⟩ : IR f) * ⟨.fin x⟩)) (fun e v => energyStepI f e (.fin v)) (fun s x => rfl) w 0
  have hs := sumNear hf (fun x => ((⟨.fin x⟩ : IR f) * ⟨.fin x⟩)) (fun v => v ^ 2) (fun v => v ^ 2 + f.minNormal) (1 + f.u)
    (by linarith) w (fun v hv => ⟨square_near hf v (by
      refine lt_of_le_of_lt ?_ h3
      have k1 : 1 + f.u ≤ (1 + f.u) ^ (w.length + 1) := by rw [pow_succ]; nlinarith [hpow w.length]
      have k2 : v ^ 2 + f.minNormal ≤ energyMag f w := by
        unfold energyMag
        have hn : (1 : ℝ) ≤ w.length := by exact_mod_cast List.length_pos_of_mem hv
        have := sq_le_energy hv
        nlinarith
      exact mul_le_mul k1 k2 (by positivity) (by positivity)), by nlinarith [sq_nonneg v]⟩) 0 0 0 (1 + f.u)
    (NearR.zero le_rfl (by linarith)) le_rfl le_rfl (by rw [zero_add, hsum, ← pow_succ']; exact h3)
  rw [zero_add, zero_add, ← pow_succ', hsum] at hs
  obtain ⟨a, ea, a1, a2⟩ := hs
  change |a - energy w| ≤ _ at a2
  rw [e, ea]
  have a3 : |a - energy w| ≤ energyErr f w * energy w := by
    refine a2.trans (le_of_eq ?_)
    unfold energyErr
    field_simp
  have a4 : a < (2 : ℝ) ^ f.emax := by
    refine lt_of_le_of_lt ?_ h3
    exact (le_abs_self a).trans (NearR.abs_le a1 a2)
  exact energyFactor_near hf h8 h1 h2 a3 a4

/-- The sample `b` is the sample `a`, divided by the root of the energy of `w` and rounded. -/
def EnergyOut (f : Fmt) (w : List ℝ) (a b : ℝ) : Prop :=
  |b - a / Real.sqrt (energy w)| ≤ energyTol f w * (|a| / Real.sqrt (energy w)) + f.u * f.minNormal

private theorem energyErr_nonneg {w : List ℝ} : 0 ≤ energyErr f w := by
  have hu := u_pos f
  have hν := minNormal_pos f
  have hE := energy_nonneg w
  have : (1 : ℝ) ≤ (1 + f.u) ^ (w.length + 1) := one_le_pow₀ (by linarith)
  unfold energyErr energyMag
  exact div_nonneg (mul_nonneg (by linarith) (by positivity)) hE

/-- One sample multiplied with a factor that is at most the exact one, up to the tolerance. -/
private theorem scale_core (hf : f.Ieee) (h8 : 8 ≤ f.emax) {w : List ℝ} (h : EnergyRange f w) {v g : ℝ} (hv : v ∈ w)
    (hg : 0 < g) (hg2 : g * Real.sqrt (energy w) ≤ (1 + energyErr f w) * (1 + 3 * f.u)) :
    ∃ b, scaleOpI f (.fin g) (.fin v) = .fin b ∧ |b - v * g| ≤ f.u * (|v| * g + f.minNormal) := by
  obtain ⟨h1, h2, h3⟩ := h
  have hu := u_pos f
  have hu8 := u_le hf
  have hν := minNormal_pos f
  have hν1 : f.minNormal ≤ 1 := zpow_le_one_of_nonpos₀ (by norm_num) (by obtain ⟨a, b, c⟩ := hf; omega)
  have hE : 0 < energy w := hν.trans_le h1
  have hvE : |v| ≤ Real.sqrt (energy w) := Real.abs_le_sqrt (sq_le_energy hv)
  have hvg : |v| * g ≤ 3 := by
    have k1 : |v| * g ≤ g * Real.sqrt (energy w) := by rw [mul_comm]; exact mul_le_mul_of_nonneg_left hvE hg.le
    have k2 : (1 + energyErr f w) * (1 + 3 * f.u) ≤ (3 / 2) * (1 + 3 * (1 / 8)) :=
      mul_le_mul (by linarith) (by linarith) (by linarith) (by norm_num)
    linarith
  have hbig : (256 : ℝ) ≤ (2 : ℝ) ^ f.emax := by
    have := zpow_le_zpow_right₀ (a := (2 : ℝ)) (by norm_num) h8
    norm_num at this ⊢; exact this
  obtain ⟨b, eb, hb⟩ := round_ok hf (t := v * g) (T := |v| * g + f.minNormal) (by rw [abs_mul, abs_of_pos hg]; linarith)
    (by have : 0 ≤ |v| * g := by positivity
        linarith) (by nlinarith)
  exact ⟨b, eb, hb⟩

private theorem out_core (hf : f.Ieee) {w : List ℝ} (h : EnergyRange f w) {v g b : ℝ} (hg : 0 < g)
    (hg2 : |g * Real.sqrt (energy w) - 1| ≤ (1 + energyErr f w) * (1 + 3 * f.u) - 1)
    (hb : |b - v * g| ≤ f.u * (|v| * g + f.minNormal)) : EnergyOut f w v b := by
  have hu := u_pos f
  have hu8 := u_le hf
  have hE : 0 < energy w := (minNormal_pos f).trans_le h.1
  have hr := Real.sqrt_pos.2 hE
  have hρ : 0 ≤ energyErr f w := energyErr_nonneg
  set R := Real.sqrt (energy w)
  set q := |v| / R with hq
  have hq0 : 0 ≤ q := by positivity
  set κ := (1 + energyErr f w) * (1 + 3 * f.u) - 1 with hκ
  have hgR : g * R ≤ 1 + κ := by have := (abs_le.1 hg2).2; linarith
  have e1 : |v * g - v / R| ≤ κ * q := by
    have : v * g - v / R = (v / R) * (g * R - 1) := by field_simp
    rw [this, abs_mul, abs_div, abs_of_pos hr, ← hq, mul_comm κ]
    exact mul_le_mul_of_nonneg_left hg2 hq0
  have e2 : |v| * g ≤ (1 + κ) * q := by
    have : |v| * g = q * (g * R) := by rw [hq]; field_simp
    rw [this, mul_comm]
    exact mul_le_mul_of_nonneg_right hgR hq0
  have e3 := abs_add_le (b - v * g) (v * g - v / R)
  rw [show b - v * g + (v * g - v / R) = b - v / R by ring] at e3
  unfold EnergyOut
  rw [← hq]
  have hκt : κ + f.u * (1 + κ) ≤ energyTol f w := by
    unfold energyTol
    have k : (1 + 3 * f.u) * (1 + f.u) ≤ 1 + 5 * f.u := by nlinarith
    have := mul_le_mul_of_nonneg_left k (by linarith : 0 ≤ 1 + energyErr f w)
    rw [hκ]
    linarith
  have e4 : f.u * (|v| * g) ≤ f.u * ((1 + κ) * q) := mul_le_mul_of_nonneg_left e2 hu.le
  have e5 : (κ + f.u * (1 + κ)) * q ≤ energyTol f w * q := mul_le_mul_of_nonneg_right hκt hq0
  nlinarith

private theorem norm_out {w y : List ℝ} (h : 0 < energy w) (hy : List.Forall₂ (EnergyOut f w) w y) :
    |Real.sqrt (energy y) - 1| ≤ energyTol f w + Real.sqrt w.length * (f.u * f.minNormal) := by
  have hu := u_pos f
  have hν := minNormal_pos f
  have hR := Real.sqrt_pos.2 h
  have hρ : 0 ≤ energyErr f w := energyErr_nonneg
  have hτ : 0 ≤ energyTol f w := by unfold energyTol; nlinarith
  have hβ : 0 ≤ f.u * f.minNormal := by positivity
  have hl := hy.length_eq
  set R := Real.sqrt (energy w)
  have hone : ∀ c : ℝ, c / R * R = c := fun c => by field_simp
  have hi : 1 * Real.sqrt (energy y) ≤ (1 + energyTol f w) / R * R + Real.sqrt y.length * (f.u * f.minNormal) := by
    refine norm_le_of_samples (by norm_num) (by positivity) hβ (hy.flip.imp fun b a hab => ?_)
    have hab : |b - a / R| ≤ energyTol f w * (|a| / R) + f.u * f.minNormal := hab
    have := abs_sub_abs_le_abs_sub b (a / R)
    rw [abs_div, abs_of_pos hR] at this
    have e : (1 + energyTol f w) / R * |a| = |a| / R + energyTol f w * (|a| / R) := by ring
    rw [e]
    linarith
  rw [hone, one_mul, ← hl] at hi
  have lo : (1 - energyTol f w) / R * R ≤ 1 * Real.sqrt (energy y) + Real.sqrt w.length * (f.u * f.minNormal) := by
    rcases le_total (energyTol f w) 1 with h1 | h1
    · refine norm_le_of_samples (div_nonneg (by linarith) hR.le) (by norm_num) hβ (hy.imp fun a b hab => ?_)
      have hab : |b - a / R| ≤ energyTol f w * (|a| / R) + f.u * f.minNormal := hab
      have := abs_sub_abs_le_abs_sub (a / R) b
      rw [abs_div, abs_of_pos hR, abs_sub_comm] at this
      have e : (1 - energyTol f w) / R * |a| = |a| / R - energyTol f w * (|a| / R) := by ring
      rw [e]
      linarith
    · rw [hone]
      have : 0 ≤ Real.sqrt (energy y) := Real.sqrt_nonneg _
      have : 0 ≤ Real.sqrt w.length * (f.u * f.minNormal) := by positivity
      linarith
  rw [hone, one_mul] at lo
  rw [abs_le]
  constructor <;> linarith

private theorem energy_map (hf : f.Ieee) (h8 : 8 ≤ f.emax) {w : List ℝ} (h : EnergyRange f w) :
    ∃ y, (w.map FVal.fin).map (scaleOpI f (energyFactorI f ((w.map FVal.fin).foldl (energyStepI f) (.fin 0))))
        = y.map .fin ∧ List.Forall₂ (EnergyOut f w) w y := by
  obtain ⟨g, eg, hg, hg2⟩ := energy_core hf h8 h
  have : ∀ v ∈ w, ∃ b, scaleOpI f (.fin g) (.fin v) = .fin b ∧ EnergyOut f w v b := fun v hv => by
    obtain ⟨b, eb, hb⟩ := scale_core hf h8 h hv hg (by have := (abs_le.1 hg2).2; linarith)
    exact ⟨b, eb, out_core hf h hg hg2 hb⟩
  rw [eg]
  have key : ∀ l : List ℝ, (∀ v ∈ l, ∃ b, scaleOpI f (.fin g) (.fin v) = .fin b ∧ EnergyOut f w v b) →
      ∃ y, (l.map FVal.fin).map (scaleOpI f (.fin g)) = y.map .fin ∧ List.Forall₂ (EnergyOut f w) l y := by
    intro l
    induction l with
    | nil => exact fun _ => ⟨[], rfl, .nil⟩
    | cons v l ih =>
      intro hl
      obtain ⟨b, eb, hb⟩ := hl v List.mem_cons_self
      obtain ⟨y, ey, hy⟩ := ih fun v hv => hl v (List.mem_cons_of_mem _ hv)
      exact ⟨b :: y, by simp only [List.map_cons, eb, ey], .cons hb hy⟩
  exact key w this

private theorem unaryOp_eq_map' (op : FVal → FVal) (x : List FVal) : unaryOp op x = .ok (x.map op) := by
  rw [eq_vec_getD x .nan, unaryOp_vec, map_vec]

private theorem mat_unary (colMajor : Bool) (op : FVal → FVal) (v : MatView) (data : List FVal) (hv : v.Valid data.length) :
    ∃ d, unaryOp2 colMajor op v data = .ok d ∧ d.length = data.length ∧
      (∀ r < v.rows, row v d r = (row v data r).map op) ∧ entries v d = (entries v data).map op ∧
      ∀ m, (∀ r < v.rows, ∀ c < v.cols, v.idx r c ≠ m) → d[m]? = data[m]? := by
  obtain ⟨d, h1, h2, h3, h4⟩ := C60_matrix_unary colMajor op v data hv
  have hrow : ∀ r < v.rows, row v d r = (row v data r).map op := by
    intro r hr
    unfold row
    rw [List.map_filterMap]
    apply List.filterMap_congr
    intro c hc
    exact h3 r hr c (List.mem_range.1 hc)
  refine ⟨d, h1, h2, hrow, ?_, h4⟩
  rw [entries_eq_rows, entries_eq_rows, List.map_flatMap, List.flatMap_def, List.flatMap_def]
  congr 1
  apply List.map_congr_left
  intro r hr
  exact hrow r (List.mem_range.1 hr)

/-- The result of `normalize_energy`: every sample close to the exact quotient, and the norm close to one. -/
def EnergyDone (f : Fmt) (w y : List ℝ) : Prop :=
  List.Forall₂ (EnergyOut f w) w y ∧
    |Real.sqrt (energy y) - 1| ≤ energyTol f w + Real.sqrt w.length * (f.u * f.minNormal)

/-- **C108** (energy): if the energy of finite samples is a normal number that neither overflows nor drowns in rounding
errors, `normalize_energy` divides every sample by the root of the energy up to rounding, and the result has norm one up to
rounding; for vectors and for every valid rank-2 view, in either loop order. -/
theorem C108_energy (f : Fmt) (hf : f.Ieee) (h8 : 8 ≤ f.emax) (w : List ℝ) (h : EnergyRange f w) :
    (∃ y, normalizeEnergyVecI f (w.map .fin) = .ok (y.map .fin) ∧ EnergyDone f w y) ∧
    ∀ (colMajor : Bool) (v : MatView) (data : List FVal), v.Valid data.length → entries v data = w.map .fin →
      ∃ d y, normalizeEnergyMatI f colMajor v data = .ok d ∧ d.length = data.length ∧ entries v d = y.map .fin ∧
        EnergyDone f w y ∧ ∀ m, (∀ r < v.rows, ∀ c < v.cols, v.idx r c ≠ m) → d[m]? = data[m]? := by
  obtain ⟨y, ey, hy⟩ := energy_map hf h8 h
  have hd : EnergyDone f w y := ⟨hy, norm_out ((minNormal_pos f).trans_le h.1) hy⟩
  refine ⟨⟨y, ?_, hd⟩, fun colMajor v data hv he => ?_⟩
  · unfold normalizeEnergyVecI
    rw [forN_fold_vec _ (energyStepI f) (.fin 0) _ le_rfl, List.take_length, bind_ok, unaryOp_eq_map', ey]
  · obtain ⟨d, d1, d2, -, d3, d4⟩ := mat_unary colMajor
      (scaleOpI f (energyFactorI f ((entries v data).foldl (energyStepI f) (.fin 0)))) v data hv
    refine ⟨d, y, ?_, d2, by rw [d3, he, ey], hd, d4⟩
    unfold normalizeEnergyMatI
    rw [forN_fold_mat v data (energyStepI f) (.fin 0) hv.1, bind_ok, d1]

/-! ## Impulse responses -/

/-- The sample `b` is the sample `a` times `g`, rounded. -/
def ScaledOut (f : Fmt) (g a b : ℝ) : Prop := |b - a * g| ≤ f.u * (|a| * g + f.minNormal)

private theorem rowOfI_eq (v : MatView) (data : List FVal) (r : ℕ)
    (h : ∀ c < v.cols, v.idx r c < data.length) : rowOf v data r = .ok (row v data r) := by
  unfold rowOf
  rw [forN_fold_row v data r (fun out x => out ++ [x]) [] h]
  congr 1
  have : ∀ (l acc : List FVal), l.foldl (fun out x => out ++ [x]) acc = acc ++ l := by
    intro l
    induction l with
    | nil => simp
    | cons y ys ih => intro acc; simp [ih]
  simp [this]

private theorem factorVec_eq (x : List FVal) :
    normalizeEnergyFactorVecI f x = .ok (energyFactorI f (x.foldl (energyStepI f) (.fin 0))) := by
  unfold normalizeEnergyFactorVecI
  rw [forN_fold_vec _ (energyStepI f) (.fin 0) _ le_rfl, List.take_length, bind_ok]
  rfl

private theorem minI_fin (a b : ℝ) : minI (.fin a) (.fin b) = .fin (min a b) := by
  unfold minI FVal.Lt
  dsimp only
  split
  · rename_i h; rw [min_eq_right h.le]
  · rename_i h; rw [min_eq_left (not_lt.1 h)]

private theorem impulse_factor (v : MatView) (data : List FVal)
    (hv : ∀ r < v.rows, ∀ c < v.cols, v.idx r c < data.length) (hr : 1 ≤ v.rows) (fac : ℕ → ℝ)
    (hfac : ∀ r < v.rows, energyFactorI f ((row v data r).foldl (energyStepI f) (.fin 0)) = .fin (fac r)) :
    ∃ g, impulseFactorI f v data = .ok (.fin g) ∧ (∀ r < v.rows, g ≤ fac r) ∧ ∃ r < v.rows, g = fac r := by
  unfold impulseFactorI
  rw [rowOfI_eq v data 0 (hv 0 (by omega)), bind_ok, factorVec_eq, hfac 0 (by omega), bind_ok]
  unfold forR
  obtain ⟨a, h1, g, rfl, h3, r, h4, h5⟩ := forN_inv (n := v.rows - 1)
    (body := fun i a => do
      let c ← rowOf v data (1 + i)
      let g ← normalizeEnergyFactorVecI f c
      pure (minI a g)) (s := FVal.fin (fac 0))
    (fun i a => ∃ g, a = FVal.fin g ∧ (∀ r < i + 1, g ≤ fac r) ∧ ∃ r, r < i + 1 ∧ g = fac r)
    ⟨fac 0, rfl, fun r hr => by rw [show r = 0 by omega], 0, by omega, rfl⟩ (by
      rintro i hi a ⟨g, rfl, k2, r, k3, k4⟩
      refine ⟨.fin (min g (fac (1 + i))), ?_, min g (fac (1 + i)), rfl, ?_, ?_⟩
      · rw [rowOfI_eq v data (1 + i) (hv _ (by omega)), bind_ok, factorVec_eq, hfac (1 + i) (by omega), bind_ok, minI_fin]
        rfl
      · intro r hr
        rcases Nat.lt_succ_iff_lt_or_eq.1 hr with h | rfl
        · exact (min_le_left _ _).trans (k2 r h)
        · rw [Nat.add_comm i 1]; exact min_le_right _ _
      · rcases le_total g (fac (1 + i)) with h | h
        · exact ⟨r, by omega, by rw [min_eq_left h, k4]⟩
        · exact ⟨1 + i, by omega, by rw [min_eq_right h]⟩)
  exact ⟨g, h1, fun r hr => h3 r (by omega), r, by omega, h5⟩

private theorem silent_factor {w : List ℝ} (h : ∀ v ∈ w, v = 0) :
    energyFactorI f ((w.map FVal.fin).foldl (energyStepI f) (.fin 0)) = .fin 1 := by
  have h0 : f.round (.fin 0) = .fin 0 := round_mem (onGrid_zero f) (by rw [abs_zero]; exact two_zpow_pos _)
  have : (w.map FVal.fin).foldl (energyStepI f) (.fin 0) = .fin 0 := by
    induction w with
    | nil => rfl
    | cons v l ih =>
      obtain rfl := h v List.mem_cons_self
      rw [List.map_cons, List.foldl_cons]
      have : energyStepI f (.fin 0) (.fin 0) = .fin 0 := by
        unfold energyStepI
        show f.round (FVal.add (.fin 0) (f.round (.fin (0 * 0)))) = _
        rw [mul_zero, h0]
        show f.round (.fin (0 + 0)) = _
        rw [add_zero, h0]
      rw [this]
      exact ih fun v hv => h v (List.mem_cons_of_mem _ hv)
  rw [this]
  unfold energyFactorI
  rw [if_pos rfl]

private theorem energy_of_zero {w : List ℝ} (h : ∀ v ∈ w, v = 0) : energy w = 0 := by
  unfold energy
  apply List.sum_eq_zero
  intro z hz
  obtain ⟨v, hv, rfl⟩ := List.mem_map.1 hz
  rw [h v hv]; norm_num

/-- **C108** (impulse responses): if every channel is silent or has an energy in the range, `normalize_impulse` multiplies
all channels with one factor `g`, one rounding per sample; no channel ends with a norm above one, up to rounding, and unless
some channel is silent one of them is divided by the root of its own energy and ends with norm one. -/
theorem C108_impulse (f : Fmt) (hf : f.Ieee) (h8 : 8 ≤ f.emax) (colMajor : Bool) (v : MatView) (data : List FVal)
    (hv : v.Valid data.length) (hr : 1 ≤ v.rows) (w : ℕ → List ℝ) (hw : ∀ r < v.rows, row v data r = (w r).map .fin)
    (hR : ∀ r < v.rows, (∀ a ∈ w r, a = 0) ∨ EnergyRange f (w r)) :
    ∃ (d : List FVal) (y : ℕ → List ℝ) (g : ℝ), normalizeImpulseMatI f colMajor v data = .ok d ∧ d.length = data.length ∧ 0 < g ∧
      (∀ r < v.rows, row v d r = (y r).map .fin ∧ List.Forall₂ (ScaledOut f g) (w r) (y r) ∧
        Real.sqrt (energy (y r)) ≤ 1 + energyTol f (w r) + Real.sqrt v.cols * (f.u * f.minNormal)) ∧
      ((∀ r < v.rows, EnergyRange f (w r)) → ∃ r < v.rows, EnergyDone f (w r) (y r)) ∧
      ∀ m, (∀ r < v.rows, ∀ c < v.cols, v.idx r c ≠ m) → d[m]? = data[m]? := by
  have hu := u_pos f
  have hν := minNormal_pos f
  have hlen : ∀ r < v.rows, (w r).length = v.cols := fun r hr => by
    have := row_length (hv.1 r hr)
    rwa [hw r hr, List.length_map] at this
  have hfac : ∀ r, ∃ g, r < v.rows → energyFactorI f ((row v data r).foldl (energyStepI f) (.fin 0)) = .fin g ∧ 0 < g ∧
      (EnergyRange f (w r) → |g * Real.sqrt (energy (w r)) - 1| ≤ (1 + energyErr f (w r)) * (1 + 3 * f.u) - 1) := by
    intro r
    by_cases h : r < v.rows
    · by_cases hE : EnergyRange f (w r)
      · obtain ⟨g, e, h1, h2⟩ := energy_core hf h8 hE
        exact ⟨g, fun _ => ⟨by rw [hw r h]; exact e, h1, fun _ => h2⟩⟩
      · refine ⟨1, fun _ => ⟨?_, one_pos, fun h => absurd h hE⟩⟩
        rw [hw r h]
        exact silent_factor ((hR r h).resolve_right hE)
    · exact ⟨0, fun hc => absurd hc h⟩
  choose fac hfac using hfac
  obtain ⟨g, g1, g2, r0, hr0, g3⟩ := impulse_factor (f := f) v data hv.1 hr fac fun r h => (hfac r h).1
  have hg : 0 < g := by rw [g3]; exact (hfac r0 hr0).2.1
  obtain ⟨d, d1, d2, d3, -, d4⟩ := mat_unary colMajor (scaleOpI f (.fin g)) v data hv
  have h0 : f.round (.fin 0) = .fin 0 := round_mem (onGrid_zero f) (by rw [abs_zero]; exact two_zpow_pos _)
  -- every sample
  have hsample : ∀ r < v.rows, ∀ a ∈ w r, ∃ b, scaleOpI f (.fin g) (.fin a) = .fin b ∧ ScaledOut f g a b := by
    intro r h a ha
    by_cases hE : EnergyRange f (w r)
    · refine scale_core hf h8 hE ha hg ?_
      have k := (abs_le.1 ((hfac r h).2.2 hE)).2
      have := mul_le_mul_of_nonneg_right (g2 r h) (Real.sqrt_nonneg (energy (w r)))
      linarith
    · obtain rfl := ((hR r h).resolve_right hE) a ha
      refine ⟨0, ?_, ?_⟩
      · show f.round (.fin (0 * g)) = _
        rw [zero_mul, h0]
      · unfold ScaledOut
        rw [zero_mul, sub_zero, abs_zero, zero_mul, zero_add]
        positivity
  have key : ∀ l : List ℝ, (∀ a ∈ l, ∃ b, scaleOpI f (.fin g) (.fin a) = .fin b ∧ ScaledOut f g a b) →
      ∃ y, (l.map FVal.fin).map (scaleOpI f (.fin g)) = y.map .fin ∧ List.Forall₂ (ScaledOut f g) l y := by
    intro l
    induction l with
    | nil => exact fun _ => ⟨[], rfl, .nil⟩
    | cons v l ih =>
      intro hl
      obtain ⟨b, eb, hb⟩ := hl v List.mem_cons_self
      obtain ⟨y, ey, hy⟩ := ih fun v hv => hl v (List.mem_cons_of_mem _ hv)
      exact ⟨b :: y, by simp only [List.map_cons, eb, ey], .cons hb hy⟩
  have hch : ∀ r, ∃ y, r < v.rows → ((w r).map FVal.fin).map (scaleOpI f (.fin g)) = y.map .fin ∧
      List.Forall₂ (ScaledOut f g) (w r) y := by
    intro r
    by_cases h : r < v.rows
    · obtain ⟨y, hy⟩ := key (w r) (hsample r h)
      exact ⟨y, fun _ => hy⟩
    · exact ⟨[], fun hc => absurd hc h⟩
  choose y hy using hch
  refine ⟨d, y, g, ?_, d2, hg, ?_, ?_, d4⟩
  · unfold normalizeImpulseMatI
    rw [if_neg (by omega), g1, bind_ok, d1]
  · intro r h
    refine ⟨by rw [d3 r h, hw r h]; exact (hy r h).1, (hy r h).2, ?_⟩
    have hl := (hy r h).2.length_eq
    have hτ : 0 ≤ energyTol f (w r) := by
      have : 0 ≤ energyErr f (w r) := energyErr_nonneg
      unfold energyTol
      nlinarith
    have hβ : 0 ≤ f.u * f.minNormal := by positivity
    have hk := norm_le_of_samples (c := 1) (d := g * (1 + f.u)) (β := f.u * f.minNormal) (by norm_num) (by positivity) hβ
      ((hy r h).2.flip.imp fun b a (hab : ScaledOut f g a b) => by
        unfold ScaledOut at hab
        have := abs_sub_abs_le_abs_sub b (a * g)
        rw [abs_mul, abs_of_pos hg] at this
        linarith)
    rw [one_mul, ← hl, hlen r h] at hk
    have hb : g * (1 + f.u) * Real.sqrt (energy (w r)) ≤ 1 + energyTol f (w r) := by
      by_cases hE : EnergyRange f (w r)
      · have k := (abs_le.1 ((hfac r h).2.2 hE)).2
        have k2 := mul_le_mul_of_nonneg_right (g2 r h) (Real.sqrt_nonneg (energy (w r)))
        have hu8 := u_le hf
        have hρ : 0 ≤ energyErr f (w r) := energyErr_nonneg
        have k3 : (1 + 3 * f.u) * (1 + f.u) ≤ 1 + 5 * f.u := by nlinarith
        have k4 := mul_le_mul_of_nonneg_left k3 (by linarith : 0 ≤ 1 + energyErr f (w r))
        have k5 : g * Real.sqrt (energy (w r)) ≤ (1 + energyErr f (w r)) * (1 + 3 * f.u) := by linarith
        have k6 := mul_le_mul_of_nonneg_right k5 (by linarith : 0 ≤ 1 + f.u)
        unfold energyTol
        linarith
      · rw [energy_of_zero ((hR r h).resolve_right hE), Real.sqrt_zero, mul_zero]
        linarith
    linarith
  · intro hall
    have hE := hall r0 hr0
    have hout : List.Forall₂ (EnergyOut f (w r0)) (w r0) (y r0) :=
      (hy r0 hr0).2.imp fun a b hab => out_core hf hE hg (by rw [g3]; exact (hfac r0 hr0).2.2 hE) hab
    exact ⟨r0, hr0, hout, norm_out (hν.trans_le hE.1) hout⟩

/-! ## In numbers -/

private theorem b32_u : Spec.binary32.u = 1 / 16777216 := by unfold Fmt.u; norm_num [Spec.binary32]

private theorem b32_ν : Spec.binary32.minNormal = (2 : ℝ) ^ (-126 : ℤ) := by unfold Fmt.minNormal; norm_num [Spec.binary32]

private theorem growth_le {u : ℝ} (h0 : 0 ≤ u) {k : ℕ} (hk : k * u ≤ 1 / 12) : (1 + u) ^ k ≤ 1 + 12 / 11 * (k * u) := by
  rcases Nat.eq_zero_or_pos k with rfl | hpos
  · simp
  have h1 : (1 : ℝ) ≤ k := by exact_mod_cast hpos
  have hu : u ≤ 1 / 12 := by nlinarith
  have hb : 1 - k * u ≤ (1 - u) ^ k := by
    have := one_add_mul_le_pow (a := -u) (by linarith) k
    rw [show 1 + -u = 1 - u by ring] at this
    linarith
  have hp : (1 + u) ^ k * (1 - u) ^ k ≤ 1 := by
    rw [← mul_pow]
    exact pow_le_one₀ (by nlinarith) (by nlinarith)
  have hpos' : 0 < (1 + u) ^ k := by positivity
  have h3 : (1 + u) ^ k * (1 - k * u) ≤ 1 := (mul_le_mul_of_nonneg_left hb hpos'.le).trans hp
  have h4 : 0 ≤ k * u := by positivity
  nlinarith

/-- **C108** (energy, in numbers): up to a million `float` samples with an energy between `2^-60` and `2^100` end with a norm
that differs from one by at most `(n + 6) 2^-23`. -/
theorem C108_energy_float (w : List ℝ) (hn : w.length ≤ 2 ^ 20) (h1 : (2 : ℝ) ^ (-60 : ℤ) ≤ energy w)
    (h2 : energy w ≤ (2 : ℝ) ^ (100 : ℤ)) :
    ∃ y, normalizeEnergyVecI Spec.binary32 (w.map .fin) = .ok (y.map .fin) ∧ y.length = w.length ∧
      |Real.sqrt (energy y) - 1| ≤ (w.length + 6) / 2 ^ 23 := by
  have hnR : (w.length : ℝ) ≤ 1048576 := by exact_mod_cast hn
  have hn0 : (0 : ℝ) ≤ w.length := Nat.cast_nonneg _
  norm_num at h1 h2
  have hE : 0 < energy w := by linarith
  have hν : Spec.binary32.minNormal ≤ 1 / 2 ^ 120 := by rw [b32_ν]; norm_num
  have hν0 := minNormal_pos Spec.binary32
  have hM : energyMag Spec.binary32 w ≤ energy w * (1 + 1 / 2 ^ 20) := by
    unfold energyMag
    have : w.length * Spec.binary32.minNormal ≤ 1048576 * (1 / 2 ^ 120) := mul_le_mul hnR hν hν0.le (by norm_num)
    norm_num at this ⊢
    linarith
  have hM0 : 0 ≤ energyMag Spec.binary32 w := by unfold energyMag; positivity
  have hg := growth_le (u := Spec.binary32.u) (u_pos _).le (k := w.length + 1) (by
    rw [b32_u]; push_cast; linarith)
  have hu := b32_u
  rw [hu] at hg
  push_cast at hg
  have hg1 : (1 : ℝ) ≤ (1 + Spec.binary32.u) ^ (w.length + 1) := one_le_pow₀ (by linarith [u_pos Spec.binary32])
  rw [hu] at hg1
  have herr : energyErr Spec.binary32 w ≤ 12 / 11 * (1 + 1 / 2 ^ 20) * ((w.length + 1) / 16777216) := by
    unfold energyErr
    rw [div_le_iff₀ hE, hu]
    calc _ ≤ (12 / 11 * ((w.length + 1) * (1 / 16777216))) * (energy w * (1 + 1 / 2 ^ 20)) :=
          mul_le_mul (by linarith) hM hM0 (by positivity)
      _ = _ := by ring
  have herr0 : 0 ≤ energyErr Spec.binary32 w := energyErr_nonneg
  have hR : EnergyRange Spec.binary32 w := by
    refine ⟨?_, ?_, ?_⟩
    · norm_num at hν; linarith
    · norm_num at herr ⊢; linarith
    · rw [hu]
      have k1 : (1 + 1 / 16777216 : ℝ) ^ (w.length + 1) ≤ 2 := by linarith
      have := mul_le_mul k1 hM hM0 (by norm_num)
      refine lt_of_le_of_lt this ?_
      show _ < (2 : ℝ) ^ (128 : ℤ)
      norm_num
      linarith
  obtain ⟨⟨y, ey, hy, k⟩, -⟩ := C108_energy Spec.binary32 ieee_formats.2.1 (by norm_num [Spec.binary32]) w hR
  refine ⟨y, ey, hy.length_eq.symm, k.trans ?_⟩
  have hsq : Real.sqrt w.length ≤ 1024 := by
    rw [Real.sqrt_le_left (by norm_num)]; norm_num; exact_mod_cast hnR
  have t1 : Real.sqrt w.length * (Spec.binary32.u * Spec.binary32.minNormal) ≤ 1024 * (1 / 16777216 * (1 / 2 ^ 120)) := by
    rw [hu]
    exact mul_le_mul hsq (by linarith) (by positivity) (by norm_num)
  have t2 : energyTol Spec.binary32 w ≤ energyErr Spec.binary32 w * (1 + 5 / 16777216) + 5 / 16777216 := by
    unfold energyTol; rw [hu]; linarith
  norm_num at t1 t2 herr ⊢
  linarith

/-! ## Examples: the hypotheses can be met -/

example : MeanRange Spec.binary32 [1, -2, 3 / 4] := by
  refine ⟨by simp, ?_, ?_⟩
  · rw [b32_u]
    show _ < (2 : ℝ) ^ (128 : ℤ)
    norm_num
  · unfold magSum
    rw [b32_u, b32_ν]
    show _ < (2 : ℝ) ^ (128 : ℤ)
    norm_num [abs_of_pos, abs_of_neg]

example : VarRange Spec.binary32 2 [1, -2, 3 / 4] := by
  refine ⟨by norm_num, ?_, ?_, ?_⟩
  · intro v hv
    simp only [List.mem_cons, List.not_mem_nil, or_false] at hv
    rcases hv with rfl | rfl | rfl <;> norm_num [abs_of_pos, abs_of_neg]
  · rw [b32_u]; norm_num
  · show _ < (2 : ℝ) ^ (128 : ℤ)
    norm_num

example : MsdRange Spec.binary32 ([1, -2].zip [0, 5]) := by
  refine ⟨by simp, ?_, ?_⟩
  · rw [b32_u]
    show _ < (2 : ℝ) ^ (128 : ℤ)
    norm_num
  · unfold sqBound
    rw [b32_u, b32_ν]
    show _ < (2 : ℝ) ^ (128 : ℤ)
    norm_num [abs_of_pos, abs_of_neg]

example : ∃ y, normalizeEnergyVecI Spec.binary32 ([3, -4].map .fin) = .ok (y.map .fin) ∧ y.length = 2 ∧
    |Real.sqrt (energy y) - 1| ≤ 8 / 2 ^ 23 := by
  obtain ⟨y, h1, h2, h3⟩ := C108_energy_float [3, -4] (by simp) (by norm_num [energy]) (by norm_num [energy])
  refine ⟨y, h1, h2, ?_⟩
  norm_num at h3 ⊢
  exact h3

/-- Two channels, a silent one and one with energy `25`. -/
example : ∀ r < 2, (∀ a ∈ (![[0, 0], [3, -4]] : Fin 2 → List ℝ) (Fin.ofNat 2 r), a = 0) ∨
    EnergyRange Spec.binary32 ((![[0, 0], [3, -4]] : Fin 2 → List ℝ) (Fin.ofNat 2 r)) := by
  intro r hr
  interval_cases r
  · left; simp
  · right
    have hE : energy [3, -4] = 25 := by norm_num [energy]
    show EnergyRange Spec.binary32 [3, -4]
    refine ⟨?_, ?_, ?_⟩
    · rw [hE, b32_ν]; norm_num
    · unfold energyErr energyMag
      rw [hE, b32_u, b32_ν]; norm_num
    · unfold energyMag
      rw [hE, b32_u, b32_ν]
      show _ < (2 : ℝ) ^ (128 : ℤ)
      norm_num

end Neo.Props
