import Verif.Lemmas.Fixed
import Verif.Lemmas.Out
import Verif.Lemmas.UpcInst
import Verif.Model.FixedSplit

/-! # Lemmas: split-complex fixed-point products -/

namespace Neo

/-- On arguments satisfying `P` the operators succeed, stay in `P` and are `A`, `S`, `M`. -/
structure OpsOk {β : Type} (ops : FxOps β) (P : β → Prop) (A S M : β → β → β) : Prop where
  add : ∀ a b, P a → P b → ops.add a b = .ok (A a b) ∧ P (A a b)
  sub : ∀ a b, P a → P b → ops.sub a b = .ok (S a b) ∧ P (S a b)
  mul : ∀ a b, P a → P b → ops.mul a b = .ok (M a b) ∧ P (M a b)

theorem fxSplitMultiplyAdd_vec {β : Type} {ops : FxOps β} {P : β → Prop} {A S M : β → β → β}
    (h : OpsOk ops P A S M) (ali : Bool) {n : ℕ} (hn : n < 2 ^ 31) (xr xi yr yi zr zi or oi : ℕ → β)
    (hxr : ∀ i < n, P (xr i)) (hxi : ∀ i < n, P (xi i)) (hyr : ∀ i < n, P (yr i)) (hyi : ∀ i < n, P (yi i))
    (hzr : ∀ i < n, P (if ali then or i else zr i)) (hzi : ∀ i < n, P (if ali then oi i else zi i)) :
    fxSplitMultiplyAdd ops ali ⟨vec n xr, vec n xi⟩ ⟨vec n yr, vec n yi⟩ ⟨vec n zr, vec n zi⟩ (vec n or, vec n oi)
      = .ok (vec n (fun i => A (S (M (xr i) (yr i)) (M (xi i) (yi i))) (if ali then or i else zr i)),
          vec n (fun i => A (A (M (xr i) (yi i)) (M (xi i) (yr i))) (if ali then oi i else zi i))) := by
  have hz : ∀ (u v : ℕ → β), zPlane ali (vec n u) (vec n v) = vec n (fun i => if ali then v i else u i) := by
    intro u v
    unfold zPlane
    cases ali <;> rfl
  unfold fxSplitMultiplyAdd
  rw [check_decide_ok (by simp [hz]), bind_ok, length_vec, i32_conv (by rw [fits_i32]; omega), Int.toNat_natCast]
  refine forN_map2 or oi _ _ _ fun i hi f' g' ef eg => ?_
  unfold fxMaStep
  dsimp only
  obtain ⟨m1, p1⟩ := h.mul _ _ (hxr i hi) (hyr i hi)
  obtain ⟨m2, p2⟩ := h.mul _ _ (hxi i hi) (hyi i hi)
  obtain ⟨m3, p3⟩ := h.mul _ _ (hxr i hi) (hyi i hi)
  obtain ⟨m4, p4⟩ := h.mul _ _ (hxi i hi) (hyr i hi)
  obtain ⟨d1, q1⟩ := h.sub _ _ p1 p2
  obtain ⟨d2, q2⟩ := h.add _ _ p3 p4
  obtain ⟨a1, -⟩ := h.add _ _ q1 (hzr i hi)
  obtain ⟨a2, -⟩ := h.add _ _ q2 (hzi i hi)
  rw [rd_vec_ok hi, bind_ok, rd_vec_ok hi, bind_ok, rd_vec_ok hi, bind_ok, rd_vec_ok hi, bind_ok,
    m1, bind_ok, m2, bind_ok, d1, bind_ok, hz, rd_vec_ok hi, bind_ok, ef, a1, bind_ok, wr_vec_ok hi, bind_ok,
    m3, bind_ok, m4, bind_ok, d2, bind_ok, hz, rd_vec_ok hi, bind_ok, eg, a2, bind_ok, wr_vec_ok hi, bind_ok,
    pure_eq_ok]

theorem cmulp_vec {β : Type} {ops : FxOps β} {P : β → Prop} {A S M : β → β → β}
    (h : OpsOk ops P A S M) {n : ℕ} (hn : n < 2 ^ 31) (xr xi yr yi or oi : ℕ → β)
    (hxr : ∀ i < n, P (xr i)) (hxi : ∀ i < n, P (xi i)) (hyr : ∀ i < n, P (yr i)) (hyi : ∀ i < n, P (yi i)) :
    cmulp ops ⟨vec n xr, vec n xi⟩ ⟨vec n yr, vec n yi⟩ (vec n or, vec n oi)
      = .ok (vec n (fun i => S (M (xr i) (yr i)) (M (xi i) (yi i))),
          vec n (fun i => A (M (xr i) (yi i)) (M (xi i) (yr i)))) := by
  unfold cmulp
  dsimp only
  rw [length_vec, min_eq_left hn.le]
  simp only [hn, if_true]
  refine (congrArg (· >>= _) (forN_map2 or oi _ _ _ fun i hi f' g' ef eg => ?_)).trans (bind_ok _ _)
  unfold cmulpStep
  dsimp only
  obtain ⟨m1, p1⟩ := h.mul _ _ (hxr i hi) (hyr i hi)
  obtain ⟨m2, p2⟩ := h.mul _ _ (hxi i hi) (hyi i hi)
  obtain ⟨m3, p3⟩ := h.mul _ _ (hxr i hi) (hyi i hi)
  obtain ⟨m4, p4⟩ := h.mul _ _ (hxi i hi) (hyr i hi)
  obtain ⟨d1, -⟩ := h.sub _ _ p1 p2
  obtain ⟨d2, -⟩ := h.add _ _ p3 p4
  rw [rd_vec_ok hi, bind_ok, rd_vec_ok hi, bind_ok, rd_vec_ok hi, bind_ok, rd_vec_ok hi, bind_ok,
    m1, bind_ok, m2, bind_ok, d1, bind_ok, wr_vec_ok hi, bind_ok, m3, bind_ok, m4, bind_ok, d2, bind_ok,
    wr_vec_ok hi, bind_ok, pure_eq_ok]

theorem fxOps_ok {t : IntT} (h : Narrow t) {F : ℕ} (hF : F < 32) :
    OpsOk (fxOps t F) t.Fits (fun a b => clampT t (a + b)) (fun a b => clampT t (a - b))
      (fun a b => clampT t ((a * b) >>> F)) where
  add _ _ ha hb := ⟨fxAdd_ok h ha hb, clampT_fits h _⟩
  sub _ _ ha hb := ⟨fxSub_ok h ha hb, clampT_fits h _⟩
  mul _ _ ha hb := ⟨fxMul_ok h hF ha hb, clampT_fits h _⟩

/-- A register with `V` lanes in the range of `t`. -/
def RegOk (t : IntT) (V : ℕ) (r : List ℤ) : Prop := r.length = V ∧ ∀ a ∈ r, t.Fits a

theorem regOk_vec {t : IntT} {V : ℕ} {f : ℕ → ℤ} : RegOk t V (vec V f) ↔ ∀ l < V, t.Fits (f l) := by
  unfold RegOk
  constructor
  · rintro ⟨-, h⟩ l hl
    exact h _ (List.mem_of_getElem? (by rw [getElem?_vec, if_pos hl] : (vec V f)[l]? = some (f l)))
  · intro h
    refine ⟨length_vec _ _, fun a ha => ?_⟩
    unfold vec at ha
    obtain ⟨l, hl, rfl⟩ := List.mem_map.1 ha
    exact h l (List.mem_range.1 hl)

theorem RegOk.eq_vec {t : IntT} {V : ℕ} {r : List ℤ} (h : RegOk t V r) :
    ∃ f : ℕ → ℤ, r = vec V f ∧ ∀ l < V, t.Fits (f l) := by
  have e := list_eq_vec (0 : ℤ) h.1
  refine ⟨_, e, ?_⟩
  rw [e] at h
  exact regOk_vec.1 h

/-- One lane of `operator*` of a register class. -/
def FxBatch.mulLane : FxBatch → ℤ → ℤ → ℤ
  | .q7x16, a, b => if 0 ≤ a * b then clampT i8 ((a * b) >>> 7) else 127
  | .q15x8neon, a, b => clampT i16 ((a * b) >>> 15)
  | _, a, b => i16.conv ((((a * b) >>> 14) + 1) >>> 1)

theorem FxBatch.narrow (b : FxBatch) : Narrow b.storage := by
  cases b
  · exact Or.inl rfl
  all_goals exact Or.inr rfl

theorem FxBatch.mulReg_vec (b : FxBatch) (f g : ℕ → ℤ) (hf : ∀ l < b.lanes, b.storage.Fits (f l))
    (hg : ∀ l < b.lanes, b.storage.Fits (g l)) :
    b.mulReg (vec b.lanes f) (vec b.lanes g) = vec b.lanes (fun l => b.mulLane (f l) (g l)) := by
  cases b
  · refine (mulKernelS8_vec le_rfl f g hf hg).trans (vec_ext fun l _ => ?_)
    unfold sseLane mulLane
    rw [i8_max]
    simp
  · exact mulKernelQ15_vec f g
  · exact vqdmulh_vec f g
  · exact lanes_zip _ f g _
  · exact lanes_zip _ f g _

theorem i16_conv_fits (x : ℤ) : i16.Fits (i16.conv x) := by
  rw [fits_i16]
  unfold IntT.conv i16
  norm_num
  omega

theorem FxBatch.mulLane_fits (b : FxBatch) (x y : ℤ) : b.storage.Fits (b.mulLane x y) := by
  cases b
  · show i8.Fits (if 0 ≤ x * y then clampT i8 ((x * y) >>> 7) else 127)
    split_ifs
    · exact clampT_fits (Or.inl rfl) _
    · rw [fits_i8]; omega
  · exact i16_conv_fits _
  · exact clampT_fits (Or.inr rfl) _
  · exact i16_conv_fits _
  · exact i16_conv_fits _

theorem addsLanes_vec {t : IntT} (h : Narrow t) (V : ℕ) (f g : ℕ → ℤ) :
    addsLanes t (vec V f) (vec V g) = vec V (fun l => clampT t (f l + g l)) := by
  unfold addsLanes
  rw [lanes_zip]
  exact vec_ext fun l _ => satLane_eq h _

theorem subsLanes_vec {t : IntT} (h : Narrow t) (V : ℕ) (f g : ℕ → ℤ) :
    subsLanes t (vec V f) (vec V g) = vec V (fun l => clampT t (f l - g l)) := by
  unfold subsLanes
  rw [lanes_zip]
  exact vec_ext fun l _ => satLane_eq h _

theorem FxBatch.ops_ok (b : FxBatch) :
    OpsOk b.ops (RegOk b.storage b.lanes) (addsLanes b.storage) (subsLanes b.storage) b.mulReg where
  add x y hx hy := by
    obtain ⟨f, rfl, hf⟩ := hx.eq_vec
    obtain ⟨g, rfl, hg⟩ := hy.eq_vec
    refine ⟨rfl, ?_⟩
    rw [addsLanes_vec b.narrow, regOk_vec]
    exact fun l _ => clampT_fits b.narrow _
  sub x y hx hy := by
    obtain ⟨f, rfl, hf⟩ := hx.eq_vec
    obtain ⟨g, rfl, hg⟩ := hy.eq_vec
    refine ⟨rfl, ?_⟩
    rw [subsLanes_vec b.narrow, regOk_vec]
    exact fun l _ => clampT_fits b.narrow _
  mul x y hx hy := by
    obtain ⟨f, rfl, hf⟩ := hx.eq_vec
    obtain ⟨g, rfl, hg⟩ := hy.eq_vec
    refine ⟨rfl, ?_⟩
    rw [b.mulReg_vec f g hf hg, regOk_vec]
    exact fun l _ => b.mulLane_fits _ _

/-- The registers of a batch computation, lane by lane. -/
theorem fxBatch_multiplyAdd (b : FxBatch) (ali : Bool) {n : ℕ} (hn : n < 2 ^ 31)
    (xr xi yr yi zr zi or oi : ℕ → ℕ → ℤ)
    (hxr : ∀ i < n, ∀ l < b.lanes, b.storage.Fits (xr i l)) (hxi : ∀ i < n, ∀ l < b.lanes, b.storage.Fits (xi i l))
    (hyr : ∀ i < n, ∀ l < b.lanes, b.storage.Fits (yr i l)) (hyi : ∀ i < n, ∀ l < b.lanes, b.storage.Fits (yi i l))
    (hzr : ∀ i < n, ∀ l < b.lanes, b.storage.Fits (if ali then or i l else zr i l))
    (hzi : ∀ i < n, ∀ l < b.lanes, b.storage.Fits (if ali then oi i l else zi i l)) :
    fxSplitMultiplyAdd b.ops ali ⟨vec n (fun i => vec b.lanes (xr i)), vec n (fun i => vec b.lanes (xi i))⟩
        ⟨vec n (fun i => vec b.lanes (yr i)), vec n (fun i => vec b.lanes (yi i))⟩
        ⟨vec n (fun i => vec b.lanes (zr i)), vec n (fun i => vec b.lanes (zi i))⟩
        (vec n (fun i => vec b.lanes (or i)), vec n (fun i => vec b.lanes (oi i)))
      = .ok (vec n (fun i => vec b.lanes (fun l => clampT b.storage
            (clampT b.storage (b.mulLane (xr i l) (yr i l) - b.mulLane (xi i l) (yi i l))
              + (if ali then or i l else zr i l)))),
          vec n (fun i => vec b.lanes (fun l => clampT b.storage
            (clampT b.storage (b.mulLane (xr i l) (yi i l) + b.mulLane (xi i l) (yr i l))
              + (if ali then oi i l else zi i l))))) := by
  have hif : ∀ (u v : ℕ → ℕ → ℤ) (i : ℕ), (if ali then vec b.lanes (u i) else vec b.lanes (v i))
      = vec b.lanes (fun l => if ali then u i l else v i l) := by
    intro u v i; cases ali <;> rfl
  rw [fxSplitMultiplyAdd_vec b.ops_ok ali hn _ _ _ _ _ _ _ _ (fun i hi => regOk_vec.2 (hxr i hi))
    (fun i hi => regOk_vec.2 (hxi i hi)) (fun i hi => regOk_vec.2 (hyr i hi)) (fun i hi => regOk_vec.2 (hyi i hi))
    (fun i hi => by rw [hif]; exact regOk_vec.2 (hzr i hi)) (fun i hi => by rw [hif]; exact regOk_vec.2 (hzi i hi))]
  congr 1
  refine Prod.ext (vec_ext fun i hi => ?_) (vec_ext fun i hi => ?_)
  · rw [hif, b.mulReg_vec _ _ (hxr i hi) (hyr i hi), b.mulReg_vec _ _ (hxi i hi) (hyi i hi),
      subsLanes_vec b.narrow, addsLanes_vec b.narrow]
  · rw [hif, b.mulReg_vec _ _ (hxr i hi) (hyi i hi), b.mulReg_vec _ _ (hxi i hi) (hyr i hi),
      addsLanes_vec b.narrow, addsLanes_vec b.narrow]

theorem fxBatch_cmulp (b : FxBatch) {n : ℕ} (hn : n < 2 ^ 31)
    (xr xi yr yi or oi : ℕ → ℕ → ℤ)
    (hxr : ∀ i < n, ∀ l < b.lanes, b.storage.Fits (xr i l)) (hxi : ∀ i < n, ∀ l < b.lanes, b.storage.Fits (xi i l))
    (hyr : ∀ i < n, ∀ l < b.lanes, b.storage.Fits (yr i l)) (hyi : ∀ i < n, ∀ l < b.lanes, b.storage.Fits (yi i l)) :
    cmulp b.ops ⟨vec n (fun i => vec b.lanes (xr i)), vec n (fun i => vec b.lanes (xi i))⟩
        ⟨vec n (fun i => vec b.lanes (yr i)), vec n (fun i => vec b.lanes (yi i))⟩
        (vec n (fun i => vec b.lanes (or i)), vec n (fun i => vec b.lanes (oi i)))
      = .ok (vec n (fun i => vec b.lanes (fun l =>
            clampT b.storage (b.mulLane (xr i l) (yr i l) - b.mulLane (xi i l) (yi i l)))),
          vec n (fun i => vec b.lanes (fun l =>
            clampT b.storage (b.mulLane (xr i l) (yi i l) + b.mulLane (xi i l) (yr i l))))) := by
  rw [cmulp_vec b.ops_ok hn _ _ _ _ _ _ (fun i hi => regOk_vec.2 (hxr i hi))
    (fun i hi => regOk_vec.2 (hxi i hi)) (fun i hi => regOk_vec.2 (hyr i hi)) (fun i hi => regOk_vec.2 (hyi i hi))]
  congr 1
  refine Prod.ext (vec_ext fun i hi => ?_) (vec_ext fun i hi => ?_)
  · rw [b.mulReg_vec _ _ (hxr i hi) (hyr i hi), b.mulReg_vec _ _ (hxi i hi) (hyi i hi), subsLanes_vec b.narrow]
  · rw [b.mulReg_vec _ _ (hxr i hi) (hyi i hi), b.mulReg_vec _ _ (hxi i hi) (hyr i hi), addsLanes_vec b.narrow]

end Neo
