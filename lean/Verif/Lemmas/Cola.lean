import Verif.Model.Cola
import Verif.Spec.Cola
import Verif.Lemmas.Out
import Mathlib.Algebra.BigOperators.Group.Finset.Basic
import Mathlib.Algebra.BigOperators.Intervals
import Mathlib.Tactic.Linarith

/-! # Lemmas about the plugin's frame buffer -/

namespace Neo

theorem whileFuel_inv {σ : Type} {cond : σ → Bool} {body : σ → Res σ} (I : σ → Prop) (μ : σ → ℕ)
    (hstep : ∀ s, I s → cond s = true → ∃ s', body s = .ok s' ∧ I s' ∧ μ s' < μ s) :
    ∀ fuel s, I s → μ s < fuel → ∃ s', whileFuel cond body fuel s = .ok s' ∧ I s' ∧ cond s' = false := by
  intro fuel
  induction fuel with
  | zero => intro s _ h; omega
  | succ fuel ih =>
    intro s hs hm
    unfold whileFuel
    by_cases hc : cond s = true
    · obtain ⟨s', e, hi, hlt⟩ := hstep s hs hc
      rw [if_pos hc, e, bind_ok]
      exact ih s' hi (by omega)
    · rw [if_neg hc]
      exact ⟨s, rfl, hs, by simpa using hc⟩

section
variable {σ K M : Type}

theorem rdZ_vec {n i : ℕ} {f : ℕ → M} {z : ℤ} (hz : z = i) (h : i < n) :
    rdZ (vec n f) z = .ok (f i) := by
  subst hz
  unfold rdZ
  rw [if_pos (by omega), Int.toNat_natCast, rd_vec_ok h]

theorem wrZ_vec {n i : ℕ} {f : ℕ → M} {a : M} {z : ℤ} (hz : z = i) (h : i < n) :
    wrZ (vec n f) z a = .ok (vec n (Function.update f i a)) := by
  subst hz
  unfold wrZ
  rw [if_pos (by omega), Int.toNat_natCast, wr_vec_ok h]

/-- A loop writing `n` consecutive samples. -/
theorem forN_fill {L n d : ℕ} (f g : ℕ → M) (body : ℕ → List M → Res (List M)) (hd : d + n ≤ L)
    (hbody : ∀ i < n, ∀ h : ℕ → M, (∀ m, d + i ≤ m → h m = f m) →
      body i (vec L h) = .ok (vec L (Function.update h (d + i) (g i)))) :
    forN n body (vec L f) = .ok (vec L (fun m => if d ≤ m ∧ m < d + n then g (m - d) else f m)) := by
  apply forN_eq' (fun i => vec L (fun m => if d ≤ m ∧ m < d + i then g (m - d) else f m))
  · exact vec_ext (fun m _ => by rw [if_neg (by omega)])
  · rfl
  · intro i hi
    rw [hbody i hi _ (fun m hm => by rw [if_neg (by omega)])]
    congr 1
    apply vec_ext
    intro m hm
    by_cases h : m = d + i
    · subst h
      rw [Function.update_self, if_pos (by omega)]; congr 1; omega
    · rw [Function.update_of_ne h]
      have : (d ≤ m ∧ m < d + i) ↔ (d ≤ m ∧ m < d + (i + 1)) := by omega
      simp only [this]

theorem mulWin_vec [SMul K M] {L L₁ L₂ d s w n : ℕ} (f : ℕ → M) (a : ℕ → M) (b : ℕ → K) {zd zs zw zn : ℤ}
    (ed : zd = d) (es : zs = s) (ew : zw = w) (en : zn = n)
    (hd : d + n ≤ L) (hs : s + n ≤ L₁) (hw : w + n ≤ L₂) :
    mulWin (vec L f) zd (vec L₁ a) zs (vec L₂ b) zw zn
      = .ok (vec L (fun m => if d ≤ m ∧ m < d + n then b (w + (m - d)) • a (s + (m - d)) else f m)) := by
  subst ed es ew en
  unfold mulWin
  rw [Int.toNat_natCast]
  refine forN_fill f (fun i => b (w + i) • a (s + i)) _ hd ?_
  intro i hi h _
  rw [rdZ_vec (i := s + i) (by push_cast; rfl) (by omega), bind_ok,
    rdZ_vec (i := w + i) (by push_cast; rfl) (by omega), bind_ok,
    wrZ_vec (i := d + i) (by push_cast; rfl) (by omega)]

theorem copyN_vec {L L₁ d s n : ℕ} (f : ℕ → M) (a : ℕ → M) {zd zs zn : ℤ}
    (ed : zd = d) (es : zs = s) (en : zn = n) (hd : d + n ≤ L) (hs : s + n ≤ L₁) :
    copyN (vec L₁ a) zs zn (vec L f) zd
      = .ok (vec L (fun m => if d ≤ m ∧ m < d + n then a (s + (m - d)) else f m)) := by
  subst ed es en
  unfold copyN
  rw [Int.toNat_natCast]
  refine forN_fill f (fun i => a (s + i)) _ hd ?_
  intro i hi h _
  rw [rdZ_vec (i := s + i) (by push_cast; rfl) (by omega), bind_ok,
    wrZ_vec (i := d + i) (by push_cast; rfl) (by omega)]

/-- Copying towards the front of the same buffer. -/
theorem moveN_vec {L s n : ℕ} (f : ℕ → M) {zs zn : ℤ} (es : zs = s) (en : zn = n) (hs : s + n ≤ L) :
    moveN (vec L f) zs zn 0 = .ok (vec L (fun m => if m < n then f (s + m) else f m)) := by
  subst es en
  unfold moveN
  rw [Int.toNat_natCast]
  have := forN_fill (L := L) (n := n) (d := 0) f (fun i => f (s + i)) (fun i xs => do
    let a ← rdZ xs ((s : ℤ) + i)
    wrZ xs (0 + i) a) (by omega) (by
      intro i hi h hh
      rw [rdZ_vec (i := s + i) (by push_cast; rfl) (by omega), bind_ok,
        wrZ_vec (i := 0 + i) (by push_cast; rfl) (by omega), hh _ (by omega)])
  rw [this]
  simp

theorem addFromN_vec [Add M] {L L₁ d s n : ℕ} (f : ℕ → M) (a : ℕ → M) {zd zs zn : ℤ}
    (ed : zd = d) (es : zs = s) (en : zn = n) (hd : d + n ≤ L) (hs : s + n ≤ L₁) :
    addFromN (vec L₁ a) zs zn (vec L f) zd
      = .ok (vec L (fun m => if d ≤ m ∧ m < d + n then f m + a (s + (m - d)) else f m)) := by
  subst ed es en
  unfold addFromN
  rw [Int.toNat_natCast]
  have := forN_fill (L := L) (n := n) (d := d) f (fun i => f (d + i) + a (s + i)) (fun i dst => do
    let x ← rdZ (vec L₁ a) ((s : ℤ) + i)
    let y ← rdZ dst ((d : ℤ) + i)
    wrZ dst ((d : ℤ) + i) (y + x)) hd (by
      intro i hi h hh
      rw [rdZ_vec (i := s + i) (by push_cast; rfl) (by omega), bind_ok,
        rdZ_vec (i := d + i) (by push_cast; rfl) (by omega), bind_ok,
        wrZ_vec (i := d + i) (by push_cast; rfl) (by omega), hh _ (by omega)])
  rw [this]
  congr 1
  apply vec_ext
  intro m hm
  split
  · congr 2; omega
  · rfl

/-! ## The invariant -/

/-- What the first `c` frames contribute at time `n`, delayed by `F - 1` samples. -/
def colaAcc [AddCommMonoid M] (F H : ℕ) (P : ℕ → List M) (c n : ℕ) : M :=
  ∑ j ∈ Finset.range c,
    if F - 1 + j * H ≤ n ∧ n < F - 1 + j * H + F then (P j).getD (n - (F - 1 + j * H)) 0 else 0

variable [AddCommMonoid M] [SMul K M]

/-- The stream being processed: frame and hop size, the size of the output buffer, the window factor,
the input, the processor. -/
structure ColaCfg (σ K M : Type) [AddCommMonoid M] [SMul K M] where
  F : ℕ
  H : ℕ
  S : ℕ
  B : ℕ
  w : K
  x : ℕ → M
  proc : σ → List M → Res (σ × List M)
  /-- processor state before frame `j` -/
  st : ℕ → σ
  /-- frame `j` after processing -/
  P : ℕ → List M
  hH : 1 ≤ H
  hF : H ≤ F
  hS : F + B ≤ S + 1
  /-- length of the stream -/
  N : ℕ
  hproc : ∀ j, j * H + F ≤ N → proc (st j) (vec F (fun i => w • x (j * H + i))) = .ok (st (j + 1), P j)
  hlen : ∀ j, (P j).length = F
  /-- what the output buffer holds at the beginning -/
  G : ℕ → M
  hG : (∀ n, G n = 0) ∨ 2 * F ≤ S + H + 1

/-- What remains of the initial content of the output buffer: the first frame is added to it except for
its last `H` samples. -/
def ColaCfg.junk (q : ColaCfg σ K M) (n : ℕ) : M := if n + q.H + 1 < 2 * q.F then q.G n else 0

theorem ColaCfg.junk_zero (q : ColaCfg σ K M) (h : ∀ n, q.G n = 0) (n : ℕ) : q.junk n = 0 := by
  unfold ColaCfg.junk
  rw [h, ite_self]

/-- The part of the state that does not concern the unread input: `T` is the time of `output[0]`, `c`
the number of frames processed. -/
structure ColaMid (q : ColaCfg σ K M) (T c : ℕ) (s : Cola σ K M) : Prop where
  hFs : s.frameSize = q.F
  hHs : s.hopSize = q.H
  hwin : s.window = vec q.F (fun _ => q.w)
  hframe : ∃ f, s.frame = vec q.F f
  hoff : s.outputOffset = q.F - 1 + c * q.H - T
  hproc : s.proc = q.st c
  hout : ∃ o, s.output = vec q.S o ∧ ∀ i < q.S,
    (i + T + q.H < 2 * q.F - 1 + c * q.H ∨ c = 0 ∧ ∀ n, q.G n = 0) →
    o i = q.junk (T + i) + colaAcc q.F q.H q.P c (T + i)

omit [SMul K M] in
theorem colaAcc_succ (F H : ℕ) (P : ℕ → List M) (c n : ℕ) :
    colaAcc F H P (c + 1) n = colaAcc F H P c n +
      (if F - 1 + c * H ≤ n ∧ n < F - 1 + c * H + F then (P c).getD (n - (F - 1 + c * H)) 0 else 0) := by
  unfold colaAcc
  rw [Finset.sum_range_succ]

omit [SMul K M] in
theorem colaAcc_zero_of_late {F H : ℕ} (P : ℕ → List M) {c n : ℕ} (h : F - 1 + c * H + F ≤ n + H) :
    colaAcc F H P c n = 0 := by
  unfold colaAcc
  apply Finset.sum_eq_zero
  intro j hj
  rw [Finset.mem_range] at hj
  have : (j + 1) * H ≤ c * H := Nat.mul_le_mul_right _ hj
  rw [Nat.add_mul, Nat.one_mul] at this
  rw [if_neg (by omega)]

/-- Processing one complete frame. -/
theorem cola_doFrame (q : ColaCfg σ K M) {T c : ℕ} {s : Cola σ K M} (h : ColaMid q T c s)
    (hfr : s.frame = vec q.F (fun i => q.w • q.x (c * q.H + i)))
    (h0 : T ≤ q.F - 1 + c * q.H) (h1 : c * q.H + q.F + q.F ≤ q.S + T + 1) (hN : c * q.H + q.F ≤ q.N) :
    ∃ s', Cola.doFrame q.proc s = .ok s' ∧ ColaMid q T (c + 1) s' ∧
      s'.unusedInput = s.unusedInput ∧ s'.unusedCount = s.unusedCount := by
  obtain ⟨hFs, hHs, hwin, hframe, hoff, hproc, o, ho, hacc⟩ := h
  have hF := q.hF
  have hH := q.hH
  have hPlen := q.hlen c
  have hstep : q.proc s.proc s.frame = .ok (q.st (c + 1), q.P c) := by
    rw [hproc, hfr]
    exact q.hproc c hN
  have hPv : q.P c = vec q.F (fun i => (q.P c).getD i 0) := by
    conv_lhs => rw [eq_vec_getD (q.P c) 0, hPlen]
  have eoff : s.outputOffset = ((q.F - 1 + c * q.H - T : ℕ) : ℤ) := by rw [hoff]; push_cast; omega
  unfold Cola.doFrame
  rw [hstep, bind_ok]
  dsimp only
  unfold Cola.writeBack
  dsimp only
  rw [hFs, hHs, ho, hPv,
    addFromN_vec (d := q.F - 1 + c * q.H - T) (s := 0) (n := q.F - q.H) _ _ eoff (by simp) (by omega)
      (by omega) (by omega), bind_ok,
    copyN_vec (d := q.F - 1 + c * q.H - T + (q.F - q.H)) (s := q.F - q.H) (n := q.H) _ _
      (by rw [eoff]; omega) (by omega) rfl (by omega) (by omega), bind_ok, ← hPv]
  refine ⟨_, rfl, ⟨?_, ?_, hwin, ⟨_, hPv⟩, ?_, rfl, ⟨_, rfl, ?_⟩⟩, rfl, rfl⟩
  · rfl
  · rfl
  · show s.outputOffset + _ = _
    rw [hoff]; push_cast; ring
  · intro i hi hor
    have hc : (c + 1) * q.H = c * q.H + q.H := by ring
    rw [hc] at hor
    have hi2 : i + T + q.H < 2 * q.F - 1 + c * q.H + q.H := by
      rcases hor with h | h
      · omega
      · exact absurd h.1 (Nat.succ_ne_zero c)
    have hi3 : i + T < 2 * q.F - 1 + c * q.H := by omega
    rw [colaAcc_succ]
    by_cases hA : q.F - 1 + c * q.H - T + (q.F - q.H) ≤ i
    · rw [if_pos (by omega), if_pos (by omega),
        colaAcc_zero_of_late _ (by omega), zero_add]
      have hj : q.junk (T + i) = 0 := by unfold ColaCfg.junk; rw [if_neg (by omega)]
      rw [hj, zero_add]
      congr 1; omega
    · rw [if_neg (by omega)]
      by_cases hB : q.F - 1 + c * q.H - T ≤ i
      · rw [if_pos (by omega), if_pos (by omega), hacc i hi (Or.inl (by omega)),
          add_assoc]
        congr 3; omega
      · rw [if_neg (by omega), if_neg (by omega), add_zero, hacc i hi (Or.inl (by omega))]

/-- State between two calls of `process`: `T` samples received, `c` frames processed. -/
structure ColaInv (q : ColaCfg σ K M) (T c : ℕ) (s : Cola σ K M) : Prop where
  mid : ColaMid q T c s
  hle : c * q.H ≤ T
  hlt : T < c * q.H + q.F
  hlast : c = 0 ∨ c * q.H + q.F ≤ T + q.H
  hcount : s.unusedCount = T - c * q.H
  hunused : ∃ g, s.unusedInput = vec (q.F - 1) g ∧ ∀ i, i + c * q.H < T → g i = q.x (c * q.H + i)

theorem cola_leftover (q : ColaCfg σ K M) {T l c₀ c : ℕ} {s : Cola σ K M} {g : ℕ → M} {off : ℤ}
    (hl : l ≤ q.B) (hTN : T + l ≤ q.N) (hg : ∀ i, i + c₀ * q.H < T → g i = q.x (c₀ * q.H + i))
    (hlt : T < c₀ * q.H + q.F)
    (hm : ColaMid q T c s) (hu : s.unusedInput = vec (q.F - 1) g) (hn : s.unusedCount = T - c * q.H)
    (hc : c₀ ≤ c) (hoff : off = (c - c₀ : ℕ) * q.H)
    (h0 : 0 < s.unusedCount) (h1 : (s.frameSize : ℤ) ≤ s.unusedCount + l) :
    ∃ s', Cola.leftover q.proc (vec l (fun i => q.x (T + i))) (s, off) = .ok s' ∧
      ColaMid q T (c + 1) s'.1 ∧ s'.1.unusedInput = vec (q.F - 1) g ∧
      s'.1.unusedCount = T - (c + 1 : ℕ) * q.H ∧ s'.2 = (c + 1 - c₀ : ℕ) * q.H := by
  have hm' := hm
  obtain ⟨hFs, hHs, hwin, ⟨f, hf⟩, -, -, -⟩ := hm'
  have hF := q.hF
  have hH := q.hH
  have hS := q.hS
  have hcc : c₀ * q.H ≤ c * q.H := Nat.mul_le_mul_right _ hc
  have hsub : (c - c₀) * q.H = c * q.H - c₀ * q.H := Nat.sub_mul _ _ _
  have hsub' : (c + 1 - c₀) * q.H = (c - c₀) * q.H + q.H := by
    rw [Nat.succ_sub hc, Nat.succ_mul]
  rw [hn] at h0 h1
  rw [hFs] at h1
  have hcast : ((c : ℤ) * q.H) = ((c * q.H : ℕ) : ℤ) := by push_cast; rfl
  rw [hcast] at h0 h1
  have en : s.unusedCount = ((T - c * q.H : ℕ) : ℤ) := by rw [hn, hcast]; omega
  have eo : off = ((c * q.H - c₀ * q.H : ℕ) : ℤ) := by rw [hoff, ← hsub]; push_cast; rfl
  unfold Cola.leftover
  dsimp only
  rw [hf, hu, hwin,
    mulWin_vec (d := 0) (s := c * q.H - c₀ * q.H) (w := 0) (n := T - c * q.H) _ _ _ (by simp) eo (by simp) en
      (by omega) (by omega) (by omega), bind_ok,
    mulWin_vec (d := T - c * q.H) (s := 0) (w := T - c * q.H) (n := q.F - (T - c * q.H)) _ _ _ en (by simp)
      en (by rw [hFs, en]; omega) (by omega) (by omega) (by omega), bind_ok]
  obtain ⟨s', e, hm2, e1, e2⟩ := cola_doFrame q (T := T) (c := c)
    (s := { s with frame := vec q.F (fun i => q.w • q.x (c * q.H + i)) })
    ⟨hm.hFs, hm.hHs, hm.hwin, ⟨_, rfl⟩, hm.hoff, hm.hproc, hm.hout⟩ rfl (by omega) (by omega) (by omega)
  have hfr : (vec q.F fun m => if T - c * q.H ≤ m ∧ m < T - c * q.H + (q.F - (T - c * q.H)) then
        q.w • q.x (T + (0 + (m - (T - c * q.H))))
      else if 0 ≤ m ∧ m < 0 + (T - c * q.H) then q.w • g (c * q.H - c₀ * q.H + (m - 0)) else f m)
      = vec q.F (fun i => q.w • q.x (c * q.H + i)) := by
    apply vec_ext
    intro m hm
    by_cases h : T - c * q.H ≤ m
    · rw [if_pos (by omega)]
      congr 2; omega
    · rw [if_neg (by omega), if_pos (by omega), hg _ (by omega)]
      congr 2; omega
  rw [hu, hwin] at e
  rw [hfr, e, bind_ok]
  refine ⟨_, rfl, ⟨hm2.hFs, hm2.hHs, hm2.hwin, hm2.hframe, hm2.hoff, hm2.hproc, hm2.hout⟩, ?_, ?_, ?_⟩
  · show s'.unusedInput = _
    rw [e1]; exact hu
  · show s'.unusedCount - s'.hopSize = _
    rw [e2, hm2.hHs]
    show s.unusedCount - _ = _
    rw [hn]; push_cast; ring
  · show off + s'.hopSize = _
    rw [hm2.hHs, hoff]
    have : ((c + 1 - c₀ : ℕ) : ℤ) = ((c - c₀ : ℕ) : ℤ) + 1 := by omega
    rw [this]; ring

theorem cola_whole (q : ColaCfg σ K M) {T l c : ℕ} {s : Cola σ K M} {off : ℤ}
    (hl : l ≤ q.B) (hTN : T + l ≤ q.N) (hm : ColaMid q T c s)
    (h0 : T ≤ c * q.H) (hoff : off = c * q.H - T) (h1 : (q.F : ℤ) ≤ l - off) :
    ∃ s', Cola.whole q.proc (vec l (fun i => q.x (T + i))) (s, off) = .ok s' ∧
      ColaMid q T (c + 1) s'.1 ∧ s'.1.unusedInput = s.unusedInput ∧
      s'.2 = (c + 1 : ℕ) * q.H - T := by
  have hm' := hm
  obtain ⟨hFs, hHs, hwin, ⟨f, hf⟩, -, -, -⟩ := hm'
  have hF := q.hF
  have hH := q.hH
  have hS := q.hS
  have hcast : ((c : ℤ) * q.H) = ((c * q.H : ℕ) : ℤ) := by push_cast; rfl
  rw [hcast] at hoff
  have eo : off = ((c * q.H - T : ℕ) : ℤ) := by rw [hoff]; omega
  unfold Cola.whole
  dsimp only
  rw [hf, hwin, hFs,
    mulWin_vec (d := 0) (s := c * q.H - T) (w := 0) (n := q.F) _ _ _ (by simp) eo (by simp) rfl
      (by omega) (by omega) (by omega), bind_ok]
  obtain ⟨s', e, hm2, e1, e2⟩ := cola_doFrame q (T := T) (c := c)
    (s := { s with frame := vec q.F (fun i => q.w • q.x (c * q.H + i)) })
    ⟨hm.hFs, hm.hHs, hm.hwin, ⟨_, rfl⟩, hm.hoff, hm.hproc, hm.hout⟩ rfl (by omega) (by omega) (by omega)
  have hfr : (vec q.F fun m => if 0 ≤ m ∧ m < 0 + q.F then
        q.w • q.x (T + (c * q.H - T + (m - 0))) else f m)
      = vec q.F (fun i => q.w • q.x (c * q.H + i)) := by
    apply vec_ext
    intro m hm
    rw [if_pos (by omega)]
    congr 2; omega
  rw [hfr]
  rw [hwin, hFs] at e
  rw [e, bind_ok]
  refine ⟨_, rfl, hm2, e1, ?_⟩
  show off + s'.hopSize = _
  rw [hm2.hHs, hoff]
  push_cast; ring

/-- The state after all complete frames have been taken, with the new unread samples stored. -/
theorem cola_consume (q : ColaCfg σ K M) {T l c₀ : ℕ} {s : Cola σ K M} (hl : l ≤ q.B) (hTN : T + l ≤ q.N)
    (h : ColaInv q T c₀ s) :
    ∃ p s' c, whileFuel
      (fun p : Cola σ K M × ℤ =>
        decide (0 < p.1.unusedCount ∧ (p.1.frameSize : ℤ) ≤ p.1.unusedCount + l))
      (Cola.leftover q.proc (vec l (fun i => q.x (T + i)))) (s.unusedCount.toNat + 1) (s, 0) = .ok p ∧
      Cola.rest q.proc (vec l (fun i => q.x (T + i))) s.unusedCount p.1 = .ok s' ∧
      ColaMid q T c s' ∧ c * q.H ≤ T + l ∧ T + l < c * q.H + q.F ∧
      (c = 0 ∨ c * q.H + q.F ≤ T + l + q.H) ∧ s'.unusedCount = T + l - c * q.H ∧
      ∃ g, s'.unusedInput = vec (q.F - 1) g ∧ ∀ i, i + c * q.H < T + l → g i = q.x (c * q.H + i) := by
  have hF := q.hF
  have hH := q.hH
  obtain ⟨hmid, hle, hlt, hlast, hcount, g, hgu, hg⟩ := h
  obtain ⟨p, e, ⟨c, hm, hpu, hpn, hcc, hpo, hclast⟩, hstop⟩ := whileFuel_inv
    (cond := (fun p : Cola σ K M × ℤ =>
        decide (0 < p.1.unusedCount ∧ (p.1.frameSize : ℤ) ≤ p.1.unusedCount + l)))
    (body := Cola.leftover q.proc (vec l (fun i => q.x (T + i))))
    (fun p => ∃ c, ColaMid q T c p.1 ∧ p.1.unusedInput = vec (q.F - 1) g ∧
      p.1.unusedCount = T - c * q.H ∧ c₀ ≤ c ∧ p.2 = (c - c₀ : ℕ) * q.H ∧
      (c = c₀ ∨ c * q.H + q.F ≤ T + l + q.H))
    (fun p => p.1.unusedCount.toNat) (by
      rintro ⟨s, off⟩ ⟨c, hm, hu, hn, hc, hoff, -⟩ hcond
      have hcond := of_decide_eq_true hcond
      obtain ⟨s', e, a1, a2, a3, a4⟩ := cola_leftover q hl hTN hg hlt hm hu hn hc hoff hcond.1 hcond.2
      refine ⟨s', e, ⟨c + 1, a1, a2, ?_, by omega, a4, Or.inr ?_⟩, ?_⟩
      · exact a3
      · have h2 := hcond.2
        dsimp only at h2 hn
        rw [hn, hm.hFs] at h2
        have hcast : ((c : ℤ) * q.H) = ((c * q.H : ℕ) : ℤ) := by push_cast; rfl
        rw [hcast] at h2
        have : (c + 1) * q.H = c * q.H + q.H := by ring
        omega
      · have h1 := hcond.1
        dsimp only at h1 hn ⊢
        rw [a3]
        rw [hn] at h1 ⊢
        push_cast
        have : ((c : ℤ) + 1) * q.H = c * q.H + q.H := by ring
        omega)
    (s.unusedCount.toNat + 1) (s, 0) ⟨c₀, hmid, hgu, hcount, le_rfl, by simp, Or.inl rfl⟩ (by simp)
  have hcast : ∀ c : ℕ, ((c : ℤ) * q.H) = ((c * q.H : ℕ) : ℤ) := fun c => by push_cast; rfl
  have hc0H : c₀ * q.H ≤ c * q.H := Nat.mul_le_mul_right _ hcc
  have hstop : ¬(0 < p.1.unusedCount ∧ (p.1.frameSize : ℤ) ≤ p.1.unusedCount + l) :=
    of_decide_eq_false hstop
  rw [hm.hFs] at hstop
  rw [hcast] at hpn hcount
  have hclast' : c = 0 ∨ c * q.H + q.F ≤ T + l + q.H := by
    rcases hclast with rfl | h
    · rcases hlast with h | h
      · exact Or.inl h
      · exact Or.inr (by omega)
    · exact Or.inr h
  by_cases hpos : 0 < p.1.unusedCount
  · -- not all of the previous samples used
    have hsmall : ¬ (q.F : ℤ) ≤ p.1.unusedCount + l := fun h => hstop ⟨hpos, h⟩
    have hrest : Cola.rest q.proc (vec l (fun i => q.x (T + i))) s.unusedCount p.1
        = .ok { p.1 with
            unusedInput := vec (q.F - 1) (fun m => if T - c * q.H ≤ m ∧ m < T - c * q.H + l then
              q.x (T + (0 + (m - (T - c * q.H)))) else
                if m < T - c * q.H then g (c * q.H - c₀ * q.H + m) else g m)
            unusedCount := p.1.unusedCount + l } := by
      unfold Cola.rest
      rw [if_pos hpos, hpu, length_vec,
        moveN_vec (s := c * q.H - c₀ * q.H) (n := T - c * q.H) _ (by rw [hcount, hpn]; omega)
          (by rw [hpn]; omega) (by omega), bind_ok,
        copyN_vec (d := T - c * q.H) (s := 0) (n := l) _ _ (by rw [hpn]; omega) (by simp) rfl (by omega)
          (by omega), bind_ok]
      rfl
    refine ⟨p, _, c, e, hrest, ⟨hm.hFs, hm.hHs, hm.hwin, hm.hframe, hm.hoff, hm.hproc, hm.hout⟩,
      by omega, by omega, hclast', ?_, ⟨_, rfl, ?_⟩⟩
    · show p.1.unusedCount + l = _
      rw [hpn, hcast]; omega
    · intro i hi
      by_cases hA : T - c * q.H ≤ i
      · rw [if_pos (by omega)]; congr 1; omega
      · rw [if_neg (by omega), if_pos (by omega), hg _ (by omega)]
        congr 1; omega
  · -- whole frames of new samples
    obtain ⟨p', e', ⟨c', hm', hpu', hT', hpo', hlast'⟩, hstop'⟩ := whileFuel_inv
      (cond := (fun p' : Cola σ K M × ℤ => decide ((p.1.frameSize : ℤ) ≤ l - p'.2)))
      (body := Cola.whole q.proc (vec l (fun i => q.x (T + i))))
      (fun p' => ∃ c', ColaMid q T c' p'.1 ∧ p'.1.unusedInput = vec (q.F - 1) g ∧
        T ≤ c' * q.H ∧ p'.2 = c' * q.H - T ∧
        (c' = 0 ∨ c' * q.H + q.F ≤ T + l + q.H))
      (fun p' => (l - p'.2).toNat) (by
        rintro ⟨s, off⟩ ⟨c, hm2, hu, hT, hoff, -⟩ hcond
        have hcond := of_decide_eq_true hcond
        rw [hm.hFs] at hcond
        obtain ⟨s', e, a1, a2, a3⟩ := cola_whole q hl hTN hm2 hT hoff hcond
        have hH1 : (c + 1) * q.H = c * q.H + q.H := by ring
        dsimp only at hoff hcond
        rw [hcast] at hoff
        refine ⟨s', e, ⟨c + 1, a1, by rw [a2]; exact hu, by omega, a3, Or.inr (by omega)⟩, ?_⟩
        dsimp only
        rw [a3, hcast, hH1]
        omega)
      (l + 1) (p.1, -p.1.unusedCount)
      ⟨c, hm, hpu, by omega, by dsimp only; rw [hpn, hcast]; omega, hclast'⟩
      (by dsimp only; omega)
    have hstop' := of_decide_eq_false hstop'
    rw [hm.hFs] at hstop'
    rw [hcast] at hpo'
    have hle' : c' * q.H ≤ T + l := by
      rcases hlast' with h | h
      · rw [h]; simp
      · omega
    have hrest : Cola.rest q.proc (vec l (fun i => q.x (T + i))) s.unusedCount p.1
        = .ok { p'.1 with
            unusedInput := vec (q.F - 1) (fun m => if 0 ≤ m ∧ m < 0 + (T + l - c' * q.H) then
              q.x (T + (c' * q.H - T + (m - 0))) else g m)
            unusedCount := l - p'.2 } := by
      unfold Cola.rest
      rw [if_neg hpos]
      simp only [length_vec]
      rw [e', bind_ok, hpu',
        copyN_vec (d := 0) (s := c' * q.H - T) (n := T + l - c' * q.H) _ _ (by simp) (by omega)
          (by omega) (by omega) (by omega), bind_ok]
      rfl
    refine ⟨p, _, c', e, hrest,
      ⟨hm'.hFs, hm'.hHs, hm'.hwin, hm'.hframe, hm'.hoff, hm'.hproc, hm'.hout⟩,
      by omega, by omega, hlast', ?_, ⟨_, rfl, ?_⟩⟩
    · show l - p'.2 = _
      rw [hpo', hcast]; omega
    · intro i hi
      rw [if_pos (by omega)]; congr 1; omega

omit [SMul K M] in
/-- The complete output: the overlap-added frames, `F - 1` samples late. -/
def colaOut (F H : ℕ) (P : ℕ → List M) (n : ℕ) : M :=
  if n < F - 1 then 0 else Spec.overlapAdded F H P (n - (F - 1))

omit [SMul K M] in
theorem colaAcc_eq {F H : ℕ} {P : ℕ → List M} {c n : ℕ} (hH : 1 ≤ H) (h : n < F - 1 + c * H) :
    colaAcc F H P c n = colaOut F H P n := by
  unfold colaAcc colaOut Spec.overlapAdded
  split
  · apply Finset.sum_eq_zero
    intro j _
    rw [if_neg (by omega)]
  · rename_i hn
    have hterm : ∀ j, (if F - 1 + j * H ≤ n ∧ n < F - 1 + j * H + F then
        (P j).getD (n - (F - 1 + j * H)) 0 else 0)
        = if j * H ≤ n - (F - 1) ∧ n - (F - 1) < j * H + F then
          (P j).getD (n - (F - 1) - j * H) 0 else 0 := by
      intro j
      have : (F - 1 + j * H ≤ n ∧ n < F - 1 + j * H + F) ↔
        (j * H ≤ n - (F - 1) ∧ n - (F - 1) < j * H + F) := by omega
      simp only [this]
      congr 2; omega
    simp only [hterm]
    rcases Nat.le_total c (n - (F - 1) + 1) with hc | hc
    · apply Finset.sum_subset
      · intro j hj
        rw [Finset.mem_range] at *
        omega
      · intro j _ hj
        rw [Finset.mem_range, not_lt] at hj
        have := Nat.mul_le_mul_right H hj
        rw [if_neg (by omega)]
    · symm
      apply Finset.sum_subset
      · intro j hj
        rw [Finset.mem_range] at *
        omega
      · intro j _ hj
        rw [Finset.mem_range, not_lt] at hj
        have := Nat.le_mul_of_pos_right j hH
        rw [if_neg (by omega)]

/-- One call of `process`. -/
theorem cola_process (q : ColaCfg σ K M) {T l c₀ : ℕ} {s : Cola σ K M} (hl : l ≤ q.B) (hTN : T + l ≤ q.N)
    (h : ColaInv q T c₀ s) :
    ∃ s' c, Cola.process q.proc s (vec l (fun i => q.x (T + i)))
        = .ok (s', vec l (fun i => q.junk (T + i) + colaOut q.F q.H q.P (T + i))) ∧
      ColaInv q (T + l) c s' := by
  have hF := q.hF
  have hH := q.hH
  have hS := q.hS
  obtain ⟨p, s', c, e1, e2, hm, h1, h2, h3, h4, h5⟩ := cola_consume q hl hTN h
  obtain ⟨o, ho, hacc⟩ := hm.hout
  have hcast : ∀ c : ℕ, ((c : ℤ) * q.H) = ((c * q.H : ℕ) : ℤ) := fun c => by push_cast; rfl
  have hoff := hm.hoff
  rw [hcast] at hoff
  unfold Cola.process
  simp only [length_vec]
  rw [e1, bind_ok, e2, bind_ok]
  unfold Cola.emit
  simp only [ho, length_vec, Int.toNat_natCast, hm.hFs, hm.hHs]
  rw [forN_eq' (s := []) (s' := vec l o) (fun i => vec i o) rfl rfl (by
    intro i hi
    rw [rdZ_vec rfl (by omega), bind_ok, vec_succ]; rfl), bind_ok]
  have hshift : ∃ n : ℕ, (if (l : ℤ) + (s'.outputOffset + q.F - q.H - l) - q.S > 0 then
      s'.outputOffset + q.F - q.H - l - ((l : ℤ) + (s'.outputOffset + q.F - q.H - l) - q.S)
      else s'.outputOffset + q.F - q.H - l) = n ∧ l + n ≤ q.S ∧
      (c ≠ 0 ∨ 2 * q.F ≤ q.S + q.H + 1 → n = q.F - 1 + c * q.H - T + q.F - q.H - l) := by
    rw [hoff]
    by_cases hc : c = 0
    · subst hc
      split
      · exact ⟨q.S - l, by omega, by omega, by omega⟩
      · exact ⟨q.F - 1 + 0 * q.H - T + q.F - q.H - l, by omega, by omega, fun _ => rfl⟩
    · have h3' : c * q.H + q.F ≤ T + l + q.H := by omega
      rw [if_neg (by omega)]
      exact ⟨q.F - 1 + c * q.H - T + q.F - q.H - l, by omega, by omega, fun _ => rfl⟩
  obtain ⟨n, en, hn, hnc⟩ := hshift
  rw [moveN_vec (s := l) (n := n) _ rfl en hn, bind_ok]
  have hv : vec l o = vec l (fun i => q.junk (T + i) + colaOut q.F q.H q.P (T + i)) := by
    apply vec_ext
    intro i hi
    rw [hacc i (by omega) (Or.inl (by omega)), colaAcc_eq hH (by omega)]
  rw [hv]
  refine ⟨_, c, rfl, ⟨⟨rfl, rfl, hm.hwin, hm.hframe, ?_, hm.hproc, ⟨_, rfl, ?_⟩⟩, h1, h2, h3, ?_, h5⟩⟩
  · show s'.outputOffset - l = _
    rw [hoff, hcast]; push_cast; ring
  · intro i hi hor
    by_cases hc : c = 0 ∧ ∀ n, q.G n = 0
    · obtain ⟨rfl, hG⟩ := hc
      have : ∀ n, colaAcc q.F q.H q.P 0 n = 0 := fun n => by simp [colaAcc]
      simp only [this, q.junk_zero hG, add_zero] at hacc ⊢
      split
      · exact hacc _ (by omega) (Or.inr ⟨trivial, hG⟩)
      · exact hacc _ hi (Or.inr ⟨trivial, hG⟩)
    · have hn' := hnc (by
        rcases q.hG with h | h
        · exact Or.inl (fun hc0 => hc ⟨hc0, h⟩)
        · exact Or.inr h)
      have hor' := hor.resolve_right hc
      rw [if_pos (by omega), hacc _ (by omega) (Or.inl (by omega)), Nat.add_assoc]
  · show s'.unusedCount = _
    rw [h4]; push_cast; rfl

/-- A stream of blocks. -/
theorem cola_stream (q : ColaCfg σ K M) : ∀ (bs : List (List M)) {T c₀ : ℕ} {s : Cola σ K M},
    (∀ b ∈ bs, b.length ≤ q.B) → T + bs.flatten.length ≤ q.N → ColaInv q T c₀ s →
    (∀ i (hi : i < bs.flatten.length), bs.flatten[i] = q.x (T + i)) →
    ∃ s' c outs, Cola.stream q.proc s bs = .ok (s', outs) ∧ ColaInv q (T + bs.flatten.length) c s' ∧
      outs.map List.length = bs.map List.length ∧
      outs.flatten = vec bs.flatten.length (fun i => q.junk (T + i) + colaOut q.F q.H q.P (T + i)) := by
  intro bs
  induction bs with
  | nil =>
    intro T c₀ s _ _ h _
    exact ⟨s, c₀, [], rfl, by simpa using h, rfl, rfl⟩
  | cons b bs ih =>
    intro T c₀ s hB hN h hx
    rw [List.flatten_cons, List.length_append] at hN
    have hbv : b = vec b.length (fun i => q.x (T + i)) := by
      rw [eq_vec_iff]
      refine ⟨rfl, fun i hi => ?_⟩
      have := hx i (by simp; omega)
      rw [List.getElem?_eq_getElem hi, ← this]
      simp only [List.flatten_cons]
      rw [List.getElem_append_left hi]
    obtain ⟨s', c, e, hi⟩ := cola_process q (l := b.length) (hB b (by simp)) (by omega) h
    rw [← hbv] at e
    obtain ⟨s'', c', outs, e', hi', hlen, hfl⟩ := ih (fun b hb => hB b (by simp [hb])) (by omega) hi (by
      intro i hlt
      have := hx (b.length + i) (by rw [List.flatten_cons, List.length_append]; omega)
      rw [Nat.add_assoc, ← this]
      simp only [List.flatten_cons]
      rw [List.getElem_append_right (by omega)]
      congr 1; omega)
    refine ⟨s'', c', vec b.length (fun i => q.junk (T + i) + colaOut q.F q.H q.P (T + i)) :: outs, ?_, ?_, ?_, ?_⟩
    · show (s.process q.proc b >>= _) = _
      rw [e, bind_ok]
      dsimp only
      rw [e', bind_ok]; rfl
    · rw [List.flatten_cons, List.length_append, ← Nat.add_assoc]; exact hi'
    · simp [hlen]
    · rw [List.flatten_cons, hfl, List.flatten_cons, List.length_append]
      rw [eq_vec_iff]
      refine ⟨by simp, fun i hi => ?_⟩
      by_cases h : i < b.length
      · rw [List.getElem?_append_left (by simpa using h), getElem?_vec, if_pos h]
      · rw [List.getElem?_append_right (by simpa using h), length_vec, getElem?_vec,
          if_pos (by omega), Nat.add_assoc, Nat.add_sub_cancel' (by omega)]

/-- A freshly prepared and reset object. -/
theorem cola_inv_init (q : ColaCfg σ K M) {s : Cola σ K M} (hFs : s.frameSize = q.F)
    (hHs : s.hopSize = q.H) (hw : s.window = vec q.F (fun _ => q.w)) (hf : s.frame.length = q.F)
    (hu : s.unusedInput.length = q.F - 1) (ho : s.output.length = q.S) (hp : s.proc = q.st 0)
    (hG : ∀ n, q.G n = 0) : ColaInv q 0 0 s.reset := by
  have hF := q.hF
  have hH := q.hH
  have hz : ∀ (l : List M) (n : ℕ), l.length = n → l.map (fun _ => (0 : M)) = vec n (fun _ => 0) := by
    intro l n h
    rw [eq_vec_iff]
    refine ⟨by simpa using h, fun i hi => ?_⟩
    rw [List.getElem?_map, List.getElem?_eq_getElem (by omega)]; rfl
  refine ⟨⟨hFs, hHs, hw, ⟨_, hz _ _ hf⟩, ?_, hp, ⟨_, hz _ _ ho, ?_⟩⟩, by simp, by omega, Or.inl rfl,
    by simp [Cola.reset], ⟨_, hz _ _ hu, fun i hi => by omega⟩⟩
  · show (s.frameSize : ℤ) - 1 = _
    rw [hFs]; simp
  · intro i _ _; simp [colaAcc, q.junk_zero hG]

/-- A freshly prepared object, not reset. -/
theorem cola_inv_fresh (q : ColaCfg σ K M) {s : Cola σ K M} (hFs : s.frameSize = q.F)
    (hHs : s.hopSize = q.H) (hw : s.window = vec q.F (fun _ => q.w)) (hf : ∃ g, s.frame = vec q.F g)
    (hu : ∃ g, s.unusedInput = vec (q.F - 1) g) (ho : s.output = vec q.S q.G) (hp : s.proc = q.st 0)
    (hoff : s.outputOffset = (q.F : ℤ) - 1) (hcount : s.unusedCount = 0) :
    ColaInv q 0 0 s := by
  have hF := q.hF
  have hH := q.hH
  obtain ⟨g, hu⟩ := hu
  refine ⟨⟨hFs, hHs, hw, hf, by rw [hoff]; simp, hp, ⟨_, ho, ?_⟩⟩, by simp, by omega, Or.inl rfl,
    by simp [hcount], ⟨g, hu, fun i hi => by omega⟩⟩
  intro i _ hi
  rcases hi with hi | hi
  · unfold ColaCfg.junk
    rw [if_pos (by omega)]
    simp [colaAcc]
  · rw [q.junk_zero hi.2, hi.2]
    simp [colaAcc]

end
end Neo
