import Verif.Model.BenchmarkTab
import Verif.Spec.Quality
import Verif.Props.Stft
import Verif.Props.Render
import Verif.Props.SparseRender
import Verif.Lemmas.Stockham

/-! # Lemmas: spectrogram errors of the benchmark tab -/

namespace Neo

open Finset Spec

/-- If a loop runs to its end, every iteration has been run without a fault. -/
theorem forN_ok_step {σ : Type} {n : ℕ} {body : ℕ → σ → Res σ} {s r : σ} (h : forN n body s = .ok r) :
    ∀ i < n, ∃ s' s'', forN i body s = .ok s' ∧ body i s' = .ok s'' := by
  induction n generalizing r with
  | zero => intro i hi; omega
  | succ n ih =>
    rw [forN_succ] at h
    cases e : forN n body s with
    | error f => rw [e] at h; exact absurd h (by simp [bind, Except.bind])
    | ok s1 =>
      rw [e, bind_ok] at h
      intro i hi
      rcases Nat.lt_succ_iff_lt_or_eq.1 hi with hi | rfl
      · exact ih e i hi
      · exact ⟨s1, r, e, h⟩

theorem row_eq_map {α : Type} [Zero α] {v : MatView} {data : List α} (hv : v.InRange data.length) {r : ℕ}
    (hr : r < v.rows) : row v data r = (List.range v.cols).map (matAt v data r) := by
  unfold row
  rw [← List.filterMap_eq_map]
  apply List.filterMap_congr
  intro c hc
  have h := hv r hr c (List.mem_range.1 hc)
  show data[v.idx r c]? = some (data.getD (v.idx r c) 0)
  rw [List.getD_eq_getElem?_getD, List.getElem?_eq_getElem h]
  rfl

theorem sum_zipWith_entries {α : Type} [Zero α] (f : α → α → ℝ) {vx vy : MatView} {x y : List α}
    (hr : vx.rows = vy.rows) (hc : vx.cols = vy.cols) (hx : vx.InRange x.length) (hy : vy.InRange y.length) :
    (List.zipWith f (entries vx x) (entries vy y)).sum
      = ∑ r ∈ range vx.rows, ∑ c ∈ range vx.cols, f (matAt vx x r c) (matAt vy y r c) := by
  rw [entries_eq_rows, entries_eq_rows, ← hr]
  have key : ∀ n ≤ vx.rows, (List.zipWith f ((List.range n).flatMap (row vx x)) ((List.range n).flatMap (row vy y))).sum
      = ∑ r ∈ range n, ∑ c ∈ range vx.cols, f (matAt vx x r c) (matAt vy y r c) ∧
      ((List.range n).flatMap (row vx x)).length = ((List.range n).flatMap (row vy y)).length := by
    intro n
    induction n with
    | zero => intro _; simp
    | succ n ih =>
      intro hn
      obtain ⟨h1, h2⟩ := ih (by omega)
      have e1 := row_eq_map hx (show n < vx.rows by omega)
      have e2 := row_eq_map hy (show n < vy.rows by omega)
      rw [← hc] at e2
      rw [List.range_succ, List.flatMap_append, List.flatMap_append, List.zipWith_append h2, List.sum_append, h1,
        sum_range_succ]
      constructor
      · congr 1
        simp only [List.flatMap_singleton, e1, e2]
        rw [List.zipWith_map, List.zipWith_self]
        rfl
      · simp only [List.length_append, h2, List.flatMap_singleton, e1, e2, List.length_map]
  exact (key _ le_rfl).1

theorem partitionView_inRange {α : Type} {C N M c : ℕ} {data : List α} (hl : data.length = C * N * M) (hc : c < C) :
    (partitionView N M c).InRange data.length := by
  intro r hr k hk
  have hr' : r < N := hr
  have hk' : k < M := hk
  show c * N * M + r * M + k * 1 < data.length
  rw [hl]
  calc c * N * M + r * M + k * 1 = (c * N + r) * M + k := by ring
    _ < (c * N + r) * M + M := by omega
    _ = (c * N + r + 1) * M := by ring
    _ ≤ (C * N) * M := by
        apply Nat.mul_le_mul_right
        calc c * N + r + 1 ≤ c * N + N := by omega
          _ = (c + 1) * N := by ring
          _ ≤ C * N := Nat.mul_le_mul_right _ hc

/-- `maxChannelRMSError` is the largest channel error (0 for no channel). -/
theorem maxChannelRmse_ok {C N M : ℕ} {x y : List ℂ} (hC : C < 2 ^ 32) (hN : 1 ≤ N) (hM : 1 ≤ M)
    (hx : x.length = C * N * M) (hy : y.length = C * N * M) (a b : ℕ → ℕ → ℕ → ℝ)
    (ha : ∀ c < C, ∀ t < N, ∀ k < M, ‖x.getD ((c * N + t) * M + k) 0‖ = a c t k)
    (hb : ∀ c < C, ∀ t < N, ∀ k < M, ‖y.getD ((c * N + t) * M + k) 0‖ = b c t k) :
    ∃ e, maxChannelRmse C N M x N M y = .ok e ∧
      IsGreatest (insert 0 {r | ∃ c < C, r = rmsDiff N M (a c) (b c)}) e := by
  unfold maxChannelRmse
  rw [forUInt_eq hC]
  have hstep : ∀ c < C, rmseMat (fun z : ℂ => ‖z‖) (partitionView N M c) x (partitionView N M c) y
      = .ok (rmsDiff N M (a c) (b c)) := by
    intro c hc
    have h1 := partitionView_inRange hx hc
    have h2 := partitionView_inRange hy hc
    unfold rmseMat
    rw [Props.mseMat_eq _ _ _ _ _ rfl rfl h1 h2 (Nat.one_le_iff_ne_zero.2 (by
      show N * M ≠ 0
      positivity)), bind_ok, pure_eq_ok]
    unfold rmsDiff Spec.mean
    rw [sum_zipWith_entries _ rfl rfl h1 h2, List.length_zipWith, entries_length h1, entries_length h2, Nat.min_self]
    congr 3
    apply sum_congr rfl
    intro t ht
    apply sum_congr rfl
    intro k hk
    have ht' := mem_range.1 ht
    have hk' := mem_range.1 hk
    have hi : (partitionView N M c).idx t k = (c * N + t) * M + k := by
      show c * N * M + t * M + k * 1 = _
      ring
    unfold matAt
    rw [hi, ha c hc t ht' k hk', hb c hc t ht' k hk']
  obtain ⟨e, h1, h2⟩ := forN_inv (n := C) (body := fun ch (rmse : ℝ) => do
      let e ← rmseMat (fun z : ℂ => ‖z‖) (partitionView N M ch) x (partitionView N M ch) y
      pure (max rmse e)) (s := (0 : ℝ))
    (fun i m => IsGreatest (insert 0 {r | ∃ c < i, r = rmsDiff N M (a c) (b c)}) m)
    (by
      refine ⟨Set.mem_insert _ _, ?_⟩
      rintro w (rfl | ⟨c, hc, -⟩)
      · exact le_rfl
      · omega)
    (by
      rintro i hi m ⟨hm1, hm2⟩
      refine ⟨max m (rmsDiff N M (a i) (b i)), by rw [hstep i hi]; rfl, ?_, ?_⟩
      · rcases max_choice m (rmsDiff N M (a i) (b i)) with h | h <;> rw [h]
        · rcases hm1 with rfl | ⟨c, hc, e⟩
          · exact Set.mem_insert _ _
          · exact Set.mem_insert_of_mem _ ⟨c, by omega, e⟩
        · exact Set.mem_insert_of_mem _ ⟨i, by omega, rfl⟩
      · rintro w (rfl | ⟨c, hc, rfl⟩)
        · exact le_max_of_le_left (hm2 (Set.mem_insert _ _))
        · rcases Nat.lt_succ_iff_lt_or_eq.1 hc with h | rfl
          · exact le_max_of_le_left (hm2 (Set.mem_insert_of_mem _ ⟨c, h, rfl⟩))
          · exact le_max_right _ _)
  exact ⟨e, h1, h2⟩

theorem hannWindow_eq {K : ℕ} (hK : 1 ≤ K) (n : ℕ) : hannWindow n K = Spec.hann K n := by
  unfold hannWindow Spec.hann
  rw [Nat.cast_sub hK, Nat.cast_one, mul_comm Real.pi 2]
  ring

theorem right_idx (R L c n : ℕ) : (MatView.right R L).idx c n = c * L + n := by
  simp only [MatView.right, MatView.idx]; ring

theorem entries_eq_vec {α : Type} [Zero α] {v : MatView} {data : List α} (hv : v.InRange data.length) :
    entries v data = vec (v.rows * v.cols) (fun i => matAt v data (i / v.cols) (i % v.cols)) := by
  rw [← flatten_vec, entries_eq_rows, List.flatMap_def]
  congr 1
  show vec v.rows (row v data) = _
  apply vec_ext
  intro r hr
  rw [row_eq_map hv hr]
  show vec _ _ = _
  apply vec_ext
  intro c hc
  rw [mul_add_div' hc, mul_add_mod' hc]

/-- Element-wise form of a scaled list of entries. -/
theorem row_scaled {v : MatView} {m d : List ℝ} {g : ℝ} (hm : v.InRange m.length) (hd : v.InRange d.length)
    (h : entries v d = (entries v m).map (· * g)) (r : ℕ) (hr : r < v.rows) (c : ℕ) (hc : c < v.cols) :
    d.getD (v.idx r c) 0 = m.getD (v.idx r c) 0 * g := by
  rw [entries_eq_vec hm, entries_eq_vec hd, map_vec, vec_inj] at h
  have hlt : r * v.cols + c < v.rows * v.cols := by
    calc r * v.cols + c < r * v.cols + v.cols := by omega
      _ = (r + 1) * v.cols := by ring
      _ ≤ _ := Nat.mul_le_mul_right _ hr
  have := h _ hlt
  rw [mul_add_div' hc, mul_add_mod' hc] at this
  exact this

/-- A peak-normalised rendering and its spectrogram. -/
theorem renderSpectrogram_ok {w channels size : ℕ} {buffer : List (List ℝ)} (hw : 1 ≤ w) (hw2 : w ≤ 26)
    (hbl : buffer.length = channels) (hb : ∀ s ∈ buffer, s.length = size) (hS : 1 ≤ size) (hS2 : size < 2 ^ 64)
    (hsz : channels * ((size + (2 ^ (w - 1) - 1)) / 2 ^ (w - 1)) * (2 ^ w + 1) < 2 ^ 59) :
    ∃ g result, renderSpectrogram (2 ^ w) channels size buffer
        = .ok ((size + (2 ^ (w - 1) - 1)) / 2 ^ (w - 1), 2 ^ w + 1, result) ∧
      result.length = channels * ((size + (2 ^ (w - 1) - 1)) / 2 ^ (w - 1)) * (2 ^ w + 1) ∧
      IsPeakGain channels size (fun c n => (buffer.getD c []).getD n 0) g ∧
      ∀ c < channels, ∀ t < (size + (2 ^ (w - 1) - 1)) / 2 ^ (w - 1), ∀ k < 2 ^ w + 1,
        ‖result.getD ((c * ((size + (2 ^ (w - 1) - 1)) / 2 ^ (w - 1)) + t) * (2 ^ w + 1) + k) 0‖
          = spectrogram (2 ^ w) (2 ^ (w - 1)) (2 ^ (w + 1)) size (fun n => (buffer.getD c []).getD n 0 * g) t k := by
  have hval := MatView.right_valid channels size
  obtain ⟨m, hm, hml, hmv⟩ := toMdarray_ok (C := channels) (L := size) hbl hb
  obtain ⟨d, g, e1, hg, hdl, hent, -, -, hpk, -⟩ := Props.C49_peak_mat false (MatView.right channels size) m
    (by rw [hml]; exact hval)
  have hvm : (MatView.right channels size).InRange m.length := by rw [hml]; exact hval.1
  have hvd : (MatView.right channels size).InRange d.length := by rw [hdl]; exact hvm
  have hp : 2 ^ w = 2 * 2 ^ (w - 1) := by
    conv_lhs => rw [show w = (w - 1) + 1 by omega, pow_succ, mul_comm]
  have hH : 2 ^ w - 2 ^ w / 2 = 2 ^ (w - 1) := by rw [hp]; omega
  have hw27 : 2 ^ (w + 1) ≤ 2 ^ 27 := Nat.pow_le_pow_right (by norm_num) (by omega)
  have hT : w64 (2 ^ w * 2) = 2 ^ (w + 1) := by
    rw [← pow_succ]
    exact w64_of_lt (lt_of_le_of_lt hw27 (by norm_num))
  have hcl : Nat.clog 2 (2 ^ (w + 1)) = w + 1 := Nat.clog_pow 2 _ (by norm_num)
  have hK2 : 2 ^ (w + 1) / 2 = 2 ^ w := by rw [pow_succ]; omega
  have hpos : 1 ≤ 2 ^ (w - 1) := Nat.one_le_two_pow
  have hst := Props.C31_stft (MatView.right channels size) d
    { frameSize := 2 ^ w, transformSize := 2 ^ (w + 1), overlapSize := 2 ^ w / 2, window := hannWindow } hvd
    (by show 2 ^ w / 2 < 2 ^ w; omega) (by show 2 ^ w < 2 ^ 64; exact Nat.pow_lt_pow_right (by norm_num) (by omega)) hS hS2
    (by show 2 ^ w ≤ 2 ^ (w + 1); exact Nat.pow_le_pow_right (by norm_num) (by omega))
    (by show 2 ≤ 2 ^ (w + 1); rw [pow_succ]; omega) hw27
    (by dsimp only; rw [hcl, hH, hK2]; exact hsz)
  dsimp only at hst
  rw [hcl, hH, hK2] at hst
  obtain ⟨result, h1, h2, -, h3⟩ := hst
  change ∀ c < channels, ∀ t < (size + (2 ^ (w - 1) - 1)) / 2 ^ (w - 1), ∀ k < 2 ^ w + 1,
    result.getD ((c * ((size + (2 ^ (w - 1) - 1)) / 2 ^ (w - 1)) + t) * (2 ^ w + 1) + k) 0 = _ at h3
  -- the normalised samples
  have hmat : ∀ c < channels, ∀ n < size, d.getD ((MatView.right channels size).idx c n) 0
      = (buffer.getD c []).getD n 0 * g := by
    intro c hc n hn
    have h := row_scaled hvm hvd hent c hc n hn
    rw [h, List.getD_eq_getElem?_getD, hmv c hc n hn]
    rfl
  refine ⟨g, result, ?_, h2, ⟨hg, ?_⟩, ?_⟩
  · unfold renderSpectrogram
    rw [hm, bind_ok, e1, bind_ok, hT]
    exact h1
  · rintro ⟨c, hc, n, hn, hne⟩
    obtain ⟨p1, c1, hc1, p3⟩ := hpk ⟨_, mem_entries.2 ⟨c, hc, n, hn, hmv c hc n hn⟩, hne⟩
    have hget : ∀ c < channels, ∀ n < size, d[(MatView.right channels size).idx c n]?
        = some ((buffer.getD c []).getD n 0 * g) := by
      intro c hc n hn
      rw [← hmat c hc n hn, List.getD_eq_getElem?_getD, List.getElem?_eq_getElem (hvd c hc n hn)]
      rfl
    constructor
    · obtain ⟨r, hr, k, hk, he⟩ := mem_entries.1 hc1
      refine ⟨r, hr, k, hk, ?_⟩
      rw [hget r hr k hk] at he
      rw [← p3, ← Option.some.inj he, abs_mul, abs_of_pos hg]
    · rintro v ⟨r, hr, k, hk, rfl⟩
      have := p1 _ (mem_entries.2 ⟨r, hr, k, hk, hget r hr k hk⟩)
      rwa [abs_mul, abs_of_pos hg] at this
  · intro c hc t ht k hk
    rw [h3 c hc t ht k hk]
    unfold spectrogram
    congr 2
    funext n
    refine congrArg (fun z : ℝ => (z : ℂ)) ?_
    by_cases h : n < 2 ^ w ∧ t * 2 ^ (w - 1) + n < size
    · rw [if_pos h, if_pos (show _ ∧ t * 2 ^ (w - 1) + n < (MatView.right channels size).cols from h), hmat c hc _ h.2, hannWindow_eq Nat.one_le_two_pow]
    · rw [if_neg h]
      exact if_neg h

end Neo
