import Verif.Lemmas.UpcRun

/-! # Linearity, time invariance and causality of block processors -/

namespace Neo

open Finset

/-! ## Causality -/

theorem runBlocks_append {S β γ : Type} (step : S → β → Res (S × γ)) (bs cs : List β) :
    ∀ s s' outs, runBlocks step s (bs ++ cs) = .ok (s', outs) →
      ∃ t, runBlocks step s bs = .ok (t, outs.take bs.length) := by
  induction bs with
  | nil => intro s s' outs _; exact ⟨s, by simp [runBlocks]⟩
  | cons b bs ih =>
    intro s s' outs h
    rw [List.cons_append, runBlocks] at h
    rw [runBlocks]
    cases hb : step s b with
    | error e => rw [hb, bind_error] at h; cases h
    | ok p =>
      obtain ⟨s1, y⟩ := p
      rw [hb, bind_ok] at h
      simp only [] at h
      cases hr : runBlocks step s1 (bs ++ cs) with
      | error e => rw [hr, bind_error] at h; cases h
      | ok q =>
        obtain ⟨s2, ys⟩ := q
        rw [hr, bind_ok, pure_eq_ok] at h
        injection h with h
        injection h with h1 h2
        subst h1 h2
        obtain ⟨t, ht⟩ := ih s1 _ _ hr
        refine ⟨t, ?_⟩
        rw [bind_ok]
        simp only []
        rw [ht, bind_ok, pure_eq_ok]
        simp

theorem upc_run_append {Ov Fdl Row Filt Acc Arg : Type} (oo : OverlapOps Ov) (fo : FdlOps Fdl Row)
    (po : FilterOps Filt Row Acc Arg) (f0 : Filt) (v : MatView) (data : List ℂ) (arg : Arg)
    (bs cs outs : List (List ℝ))
    (h : Upc.run oo fo po f0 v data arg (bs ++ cs) = .ok outs) :
    Upc.run oo fo po f0 v data arg bs = .ok (outs.take bs.length) := by
  unfold Upc.run at *
  cases hm : Upc.make oo fo po f0 with
  | error e => rw [hm, bind_error] at h; cases h
  | ok u =>
    rw [hm, bind_ok] at h
    rw [bind_ok]
    cases hl : u.load oo fo po v data arg with
    | error e => rw [hl, bind_error] at h; cases h
    | ok u1 =>
      rw [hl, bind_ok] at h
      rw [bind_ok]
      cases hr : runBlocks (fun u b => u.call oo fo po b) u1 (bs ++ cs) with
      | error e => rw [hr, bind_error] at h; cases h
      | ok q =>
        obtain ⟨s2, ys⟩ := q
        rw [hr, bind_ok] at h
        simp only [pure_eq_ok] at h
        injection h with h
        subst h
        obtain ⟨t, ht⟩ := runBlocks_append _ bs cs u1 s2 ys hr
        rw [ht, bind_ok]
        rfl

/-! ## Block streams -/

theorem streamOf_vec {B T : ℕ} (g : ℕ → ℝ) (i : ℕ) :
    streamOf (vec T (fun t => vec B (fun i => g (t * B + i)))) i = if i < T * B then g i else 0 := by
  unfold streamOf
  rw [flatten_vec]
  by_cases h : i < T * B
  · rw [if_pos h, getD_vec _ _ _ _ h]
  · rw [if_neg h, List.getD_eq_getElem?_getD, getElem?_vec, if_neg h]
    rfl

theorem zipWith_vec {α β γ : Type} (n : ℕ) (f : ℕ → α) (g : ℕ → β) (op : α → β → γ) :
    List.zipWith op (vec n f) (vec n g) = vec n (fun i => op (f i) (g i)) := by
  induction n with
  | zero => rfl
  | succ n ih => rw [vec_succ, vec_succ, vec_succ, List.zipWith_append (by simp), ih]; rfl

/-- Sample-wise `a·x + b·y` of two block lists. -/
def mixBlocks (a b : ℝ) (xs ys : List (List ℝ)) : List (List ℝ) :=
  List.zipWith (List.zipWith (fun p q => a * p + b * q)) xs ys

theorem blocks_eq_stream {B : ℕ} (bs : List (List ℝ)) (h : ∀ b ∈ bs, b.length = B) :
    bs = vec bs.length (fun t => vec B (fun i => streamOf bs (t * B + i))) := blocks_eq_vec 0 bs h

theorem streamOf_end {B : ℕ} (bs : List (List ℝ)) (h : ∀ b ∈ bs, b.length = B) {i : ℕ}
    (hi : bs.length * B ≤ i) : streamOf bs i = 0 := by
  have e := streamOf_vec (B := B) (T := bs.length) (streamOf bs) i
  rw [← blocks_eq_stream bs h, if_neg (by omega)] at e
  exact e

theorem mixBlocks_eq {B : ℕ} (a b : ℝ) {xs ys : List (List ℝ)} (hx : ∀ l ∈ xs, l.length = B)
    (hy : ∀ l ∈ ys, l.length = B) (hl : xs.length = ys.length) :
    mixBlocks a b xs ys = vec xs.length (fun t => vec B (fun i =>
      a * streamOf xs (t * B + i) + b * streamOf ys (t * B + i))) := by
  have e1 := blocks_eq_stream xs hx
  have e2 := blocks_eq_stream ys hy
  unfold mixBlocks
  conv_lhs => rw [e1, e2, ← hl]
  rw [zipWith_vec]
  exact vec_ext (fun t _ => zipWith_vec _ _ _ _)

theorem streamOf_mix {B : ℕ} (a b : ℝ) {xs ys : List (List ℝ)} (hx : ∀ l ∈ xs, l.length = B)
    (hy : ∀ l ∈ ys, l.length = B) (hl : xs.length = ys.length) :
    streamOf (mixBlocks a b xs ys) = fun i => a * streamOf xs i + b * streamOf ys i := by
  funext i
  rw [mixBlocks_eq a b hx hy hl, streamOf_vec (fun i => a * streamOf xs i + b * streamOf ys i)]
  split_ifs with h
  · rfl
  · rw [streamOf_end xs hx (by omega), streamOf_end ys hy (by rw [← hl]; omega)]
    ring

theorem mem_vec_length {T B : ℕ} {g : ℕ → ℕ → ℝ} {l : List ℝ} (h : l ∈ vec T (fun t => vec B (g t))) :
    l.length = B := by
  unfold vec at h
  rw [List.mem_map] at h
  obtain ⟨t, -, rfl⟩ := h
  exact length_vec _ _

theorem mixBlocks_length {B : ℕ} (a b : ℝ) {xs ys : List (List ℝ)} (hx : ∀ l ∈ xs, l.length = B)
    (hy : ∀ l ∈ ys, l.length = B) (hl : xs.length = ys.length) :
    (mixBlocks a b xs ys).length = xs.length ∧ ∀ l ∈ mixBlocks a b xs ys, l.length = B := by
  rw [mixBlocks_eq a b hx hy hl]
  exact ⟨length_vec _ _, fun l h => mem_vec_length h⟩

/-- `d` blocks of silence. -/
def silence (d B : ℕ) : List (List ℝ) := List.replicate d (List.replicate B 0)

theorem vec_const (n : ℕ) {α : Type} (a : α) : vec n (fun _ => a) = List.replicate n a := by
  induction n with
  | zero => rfl
  | succ n ih => rw [vec_succ, ih, List.replicate_succ']

theorem streamOf_delay {B : ℕ} (d : ℕ) {xs : List (List ℝ)} :
    streamOf (silence d B ++ xs)
      = fun i => if i < d * B then 0 else streamOf xs (i - d * B) := by
  funext i
  unfold streamOf silence
  rw [List.flatten_append]
  have hl : (List.replicate d (List.replicate B (0 : ℝ))).flatten = List.replicate (d * B) 0 := by
    simp
  rw [hl, List.getD_eq_getElem?_getD, List.getD_eq_getElem?_getD]
  by_cases h : i < d * B
  · rw [if_pos h, List.getElem?_append_left (by simpa using h)]
    simp [h]
  · rw [if_neg h, List.getElem?_append_right (by simpa using h)]
    simp

theorem vec_append {α : Type} (m n : ℕ) (f : ℕ → α) :
    vec (m + n) f = vec m f ++ vec n (fun i => f (m + i)) := by
  induction n with
  | zero => simp
  | succ n ih => rw [← Nat.add_assoc, vec_succ, ih, vec_succ, List.append_assoc]

/-! ## Linear and time-invariant output formulas -/

/-- The output formula is linear in the stream. -/
def LinForm (F : (ℕ → ℝ) → ℕ → ℕ → ℝ) : Prop :=
  ∀ a b x y t i, F (fun n => a * x n + b * y n) t i = a * F x t i + b * F y t i

/-- The output formula commutes with delays by whole blocks. -/
def DelayForm (B : ℕ) (F : (ℕ → ℝ) → ℕ → ℕ → ℝ) : Prop :=
  ∀ d x t, ∀ i < B, F (fun n => if n < d * B then 0 else x (n - d * B)) t i
    = if t < d then 0 else F x (t - d) i

theorem specOut_lin (K : ℕ) (a b : ℝ) (Y Z : ℕ → ℂ) (n : ℕ) :
    specOut K (fun k => a * Y k + b * Z k) n = a * specOut K Y n + b * specOut K Z n := by
  have h : Spec.hermitian K (fun k => a * Y k + b * Z k)
      = fun k => (a : ℂ) * Spec.hermitian K Y k + (b : ℂ) * Spec.hermitian K Z k := by
    funext k
    unfold Spec.hermitian
    split_ifs
    · rfl
    · simp
  unfold specOut
  rw [h]
  have e : Spec.idft K (fun k => (a : ℂ) * Spec.hermitian K Y k + (b : ℂ) * Spec.hermitian K Z k) n
      = a * Spec.idft K (Spec.hermitian K Y) n + b * Spec.idft K (Spec.hermitian K Z) n := by
    unfold Spec.idft
    rw [mul_sum, mul_sum, ← sum_add_distrib]
    exact sum_congr rfl (fun k _ => by ring)
  rw [e]
  simp only [Complex.add_re, Complex.mul_re, Complex.ofReal_re, Complex.ofReal_im, zero_mul, sub_zero]
  ring

theorem specOut_zero (K n : ℕ) : specOut K (fun _ => 0) n = 0 := by
  simpa using specOut_lin K 0 0 (fun _ => 0) (fun _ => 0) n

theorem specY_lin (N : ℕ) (H X Z : ℕ → ℕ → ℂ) (a b : ℂ) (t : ℕ) :
    specY N H (fun t k => a * X t k + b * Z t k) t = fun k => a * specY N H X t k + b * specY N H Z t k := by
  funext k
  unfold specY
  rw [mul_sum, mul_sum, ← sum_add_distrib]
  apply sum_congr rfl
  intro j _
  split_ifs <;> ring

theorem specY_delay (N : ℕ) (H X : ℕ → ℕ → ℂ) (d t : ℕ) :
    specY N H (fun t k => if t < d then 0 else X (t - d) k) t
      = fun k => if t < d then 0 else specY N H X (t - d) k := by
  funext k
  unfold specY
  by_cases h : t < d
  · rw [if_pos h]
    apply sum_eq_zero
    intro j _
    beta_reduce
    rw [if_pos (show t - j < d by omega), ite_self, zero_mul]
  · rw [if_neg h]
    apply sum_congr rfl
    intro j _
    beta_reduce
    by_cases c : j ≤ t - d
    · rw [if_pos c, if_pos (by omega), if_neg (by omega), show t - j - d = t - d - j by omega]
    · rw [if_neg c]
      by_cases c2 : j ≤ t
      · rw [if_pos c2, if_pos (by omega)]
      · rw [if_neg c2]

theorem winSpec_lin {B : ℕ} {win : (ℕ → ℝ) → ℕ → ℕ → ℝ} (hw : LinForm win) (a b : ℝ) (x y : ℕ → ℝ) :
    winSpec B win (fun n => a * x n + b * y n)
      = fun t k => (a : ℂ) * winSpec B win x t k + (b : ℂ) * winSpec B win y t k := by
  funext t k
  unfold winSpec Spec.dft
  rw [mul_sum, mul_sum, ← sum_add_distrib]
  apply sum_congr rfl
  intro n _
  beta_reduce
  rw [hw]
  push_cast
  ring

/-- Windows of a delayed stream. -/
def DelayWin (B : ℕ) (win : (ℕ → ℝ) → ℕ → ℕ → ℝ) : Prop :=
  ∀ d x t, ∀ i < 2 * B, win (fun n => if n < d * B then 0 else x (n - d * B)) t i
    = if t < d then 0 else win x (t - d) i

theorem winSpec_delay {B : ℕ} {win : (ℕ → ℝ) → ℕ → ℕ → ℝ} (hw : DelayWin B win) (d : ℕ) (x : ℕ → ℝ) :
    winSpec B win (fun n => if n < d * B then 0 else x (n - d * B))
      = fun t k => if t < d then 0 else winSpec B win x (t - d) k := by
  funext t k
  unfold winSpec
  by_cases h : t < d
  · rw [if_pos h]
    unfold Spec.dft
    apply sum_eq_zero
    intro n hn
    rw [mem_range] at hn
    beta_reduce
    rw [hw d x t n hn, if_pos h]
    simp
  · rw [if_neg h]
    apply dft_congr
    intro n hn
    rw [hw d x t n hn, if_neg h]

theorem seg_lin (B : ℕ) : LinForm (seg B) := by
  intro a b x y t i
  unfold seg
  split_ifs <;> ring

theorem saveWindow_lin (B : ℕ) : LinForm (saveWindow B) := by
  intro a b x y t i
  unfold saveWindow
  split_ifs <;> ring

theorem blk_lt {B d t k : ℕ} (h : t < d) (hk : k < B) : t * B + k < d * B := by
  have := row_end (C := B) h
  omega

theorem blk_ge {B d t k : ℕ} (h : d ≤ t) : ¬ t * B + k < d * B := by
  have := Nat.mul_le_mul_right B h
  omega

theorem blk_sub {B d t k : ℕ} (h : d ≤ t) : t * B + k - d * B = (t - d) * B + k := by
  have := Nat.mul_le_mul_right B h
  rw [Nat.sub_mul]; omega

theorem seg_delay (B : ℕ) : DelayWin B (seg B) := by
  intro d x t i hi
  unfold seg
  beta_reduce
  by_cases c : i < B
  · rw [if_pos c, if_pos c]
    by_cases h : t < d
    · rw [if_pos h, if_pos (blk_lt h c)]
    · rw [if_neg h, if_neg (blk_ge (by omega)), blk_sub (by omega)]
  · rw [if_neg c, if_neg c, ite_self]

theorem saveWindow_delay (B : ℕ) : DelayWin B (saveWindow B) := by
  intro d x t i hi
  unfold saveWindow
  beta_reduce
  by_cases c : i < B
  · rw [if_pos c, if_pos c]
    by_cases h : t < d
    · rw [if_pos h]
      split_ifs with h1 h2
      · rfl
      · exact absurd (blk_lt (show t - 1 < d by omega) c) h2
      · rfl
    · rw [if_neg h]
      by_cases h1 : 1 ≤ t - d
      · rw [if_pos h1, if_pos (by omega), if_neg (blk_ge (by omega)), blk_sub (by omega),
          show t - 1 - d = t - d - 1 by omega]
      · rw [if_neg h1]
        split_ifs with h2 h3
        · rfl
        · exact absurd (blk_lt (show t - 1 < d by omega) c) h3
        · rfl
  · rw [if_neg c, if_neg c]
    by_cases h : t < d
    · rw [if_pos h, if_pos (blk_lt h (by omega))]
    · rw [if_neg h, if_neg (blk_ge (by omega)), blk_sub (by omega)]

/-- Output formula of `upola`. -/
noncomputable def olaForm (N B : ℕ) (H : ℕ → ℕ → ℂ) (x : ℕ → ℝ) (t i : ℕ) : ℝ :=
  olaOut B (specY N H (winSpec B (seg B) x)) t i

/-- Output formula of `upols`. -/
noncomputable def olsForm (N B : ℕ) (H : ℕ → ℕ → ℂ) (x : ℕ → ℝ) (t i : ℕ) : ℝ :=
  olsOut B (specY N H (winSpec B (saveWindow B) x)) t i

theorem olaForm_lin (N B : ℕ) (H : ℕ → ℕ → ℂ) : LinForm (olaForm N B H) := by
  intro a b x y t i
  unfold olaForm olaOut
  rw [winSpec_lin (seg_lin B), specY_lin, specY_lin, specOut_lin, specOut_lin]
  split_ifs <;> ring

theorem olsForm_lin (N B : ℕ) (H : ℕ → ℕ → ℂ) : LinForm (olsForm N B H) := by
  intro a b x y t i
  unfold olsForm olsOut
  rw [winSpec_lin (saveWindow_lin B), specY_lin, specOut_lin]

theorem olaForm_delay (N B : ℕ) (H : ℕ → ℕ → ℂ) : DelayForm B (olaForm N B H) := by
  intro d x t i hi
  unfold olaForm olaOut
  rw [winSpec_delay (seg_delay B), specY_delay, specY_delay]
  by_cases h : t < d
  · simp only [if_pos h, if_pos (show t - 1 < d by omega), specOut_zero, ite_self, add_zero]
  · simp only [if_neg h]
    congr 1
    by_cases c : 1 ≤ t - d
    · rw [if_pos c, if_pos (by omega), show (fun k => if t - 1 < d then (0:ℂ) else specY N H (winSpec B (seg B) x) (t - 1 - d) k) = fun k => specY N H (winSpec B (seg B) x) (t - 1 - d) k from funext (fun k => if_neg (by omega)), show t - 1 - d = t - d - 1 by omega]
    · rw [if_neg c]
      by_cases c2 : 1 ≤ t
      · simp only [if_pos c2, if_pos (show t - 1 < d by omega), specOut_zero]
      · rw [if_neg c2]

theorem olsForm_delay (N B : ℕ) (H : ℕ → ℕ → ℂ) : DelayForm B (olsForm N B H) := by
  intro d x t i hi
  unfold olsForm olsOut
  rw [winSpec_delay (saveWindow_delay B), specY_delay]
  by_cases h : t < d
  · simp only [if_pos h, specOut_zero]
  · simp only [if_neg h]

/-! ## From formulas to runs -/

/-- `run` produces, for every list of `B`-sample blocks, the outputs given by the formula. -/
def RunsAs (B : ℕ) (run : List (List ℝ) → Res (List (List ℝ))) (F : (ℕ → ℝ) → ℕ → ℕ → ℝ) : Prop :=
  ∀ bs : List (List ℝ), (∀ l ∈ bs, l.length = B) →
    run bs = .ok (vec bs.length (fun t => vec B (F (streamOf bs) t)))

theorem RunsAs.linear {B : ℕ} {run : List (List ℝ) → Res (List (List ℝ))}
    {F : (ℕ → ℝ) → ℕ → ℕ → ℝ} (h : RunsAs B run F) (hF : LinForm F) (a b : ℝ)
    {xs ys : List (List ℝ)} (hx : ∀ l ∈ xs, l.length = B) (hy : ∀ l ∈ ys, l.length = B)
    (hl : xs.length = ys.length) :
    ∃ ox oy, run xs = .ok ox ∧ run ys = .ok oy ∧
      run (mixBlocks a b xs ys) = .ok (mixBlocks a b ox oy) := by
  refine ⟨_, _, h xs hx, h ys hy, ?_⟩
  obtain ⟨h1, h2⟩ := mixBlocks_length a b hx hy hl
  rw [h _ h2, h1, streamOf_mix a b hx hy hl]
  congr 1
  unfold mixBlocks
  rw [← hl, zipWith_vec]
  apply vec_ext
  intro t _
  rw [zipWith_vec]
  exact vec_ext (fun i _ => hF a b _ _ t i)

theorem RunsAs.delay {B : ℕ} {run : List (List ℝ) → Res (List (List ℝ))}
    {F : (ℕ → ℝ) → ℕ → ℕ → ℝ} (h : RunsAs B run F) (hF : DelayForm B F) (d : ℕ)
    {xs : List (List ℝ)} (hx : ∀ l ∈ xs, l.length = B) :
    ∃ ox, run xs = .ok ox ∧ run (silence d B ++ xs) = .ok (silence d B ++ ox) := by
  refine ⟨_, h xs hx, ?_⟩
  rw [h _ (by
    intro l hl
    rw [List.mem_append] at hl
    rcases hl with hl | hl
    · unfold silence at hl
      rw [List.eq_of_mem_replicate hl]; simp
    · exact hx l hl), streamOf_delay]
  congr 1
  rw [List.length_append, show (silence d B).length = d by simp [silence], vec_append]
  congr 1
  · unfold silence
    rw [← vec_const, ← vec_const]
    apply vec_ext
    intro t ht
    apply vec_ext
    intro i hi
    rw [hF d _ t i hi, if_pos ht]
  · apply vec_ext
    intro t ht
    apply vec_ext
    intro i hi
    rw [hF d _ (d + t) i hi, if_neg (by omega), Nat.add_sub_cancel_left]

end Neo
