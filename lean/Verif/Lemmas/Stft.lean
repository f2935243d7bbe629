import Verif.Model.Stft
import Verif.Lemmas.UpcInst

/-! # The short-time Fourier transform -/

namespace Neo

open Finset

theorem w64_of_lt {n : ℕ} (h : n < 2 ^ 64) : w64 n = n := Nat.mod_eq_of_lt h

theorem wsub_eq {a b : ℕ} (h : b ≤ a) (hab : a - b < 2 ^ 64) : wsub a b = a - b := by
  unfold wsub w64
  norm_num at hab ⊢
  omega

theorem numStftFrames_eq {S F O : ℕ} (hS : 1 ≤ S) (hS2 : S < 2 ^ 64) (hO : O < F)
    (hF : F < 2 ^ 64) : numStftFrames S F O = .ok ((S - 1) / (F - O) + 1) := by
  unfold numStftFrames idivW
  rw [wsub_eq hO.le (by omega), w64_of_lt (by omega : F - O < 2 ^ 64), if_neg (by omega), bind_ok,
    pure_eq_ok]
  have h1 : wsub (w64 (w64 (wsub S F + O) + (F - O))) 1 = S - 1 := by
    unfold wsub w64
    norm_num at hS2 hF ⊢
    omega
  rw [h1]
  have : (S - 1) / (F - O) ≤ S - 1 := Nat.div_le_self _ _
  rw [w64_of_lt (by omega)]

theorem fillWindow_vec {n : ℕ} (f : ℕ → ℝ) (win : ℕ → ℕ → ℝ) :
    fillWindow (vec n f) win = .ok (vec n (fun i => win i n)) := by
  unfold fillWindow
  rw [length_vec]
  exact forN_map f (fun i _ => win i n) _ (fun i hi h _ => by rw [length_vec, wr_vec_ok hi])

/-- A plan in a generic state. -/
noncomputable def stftPlanOf (o : StftOptions) (b : ℕ) (f : ℕ → ℂ) (inp : ℕ → ℝ) (out : ℕ → ℂ) :
    StftPlan where
  options := o
  rfft := rfftPlanOf b f
  input := vec (2 ^ b) inp
  output := vec (2 ^ b) out
  window := vec (2 ^ b) (fun i => o.window i (2 ^ b))

theorem stftPlan_make_eq {o : StftOptions} (h : Nat.clog 2 o.transformSize ≤ 27) :
    StftPlan.make o = .ok (stftPlanOf o (Nat.clog 2 o.transformSize) (fun _ => 0) (fun _ => 0)
      (fun _ => 0)) := by
  unfold StftPlan.make
  rw [nextOrder_eq, rfftPlan_make_eq h, bind_ok, rfftPlanOf_size, fillWindow_vec, bind_ok,
    pure_eq_ok]
  rfl

/-- The windowed, zero-padded samples of a frame starting at sample `p`. -/
def frameSamples (F S : ℕ) (win : ℕ → ℝ) (x : ℕ → ℝ) (p n : ℕ) : ℝ :=
  if n < F ∧ p + n < S then x (p + n) * win n else 0

theorem stftFrame_eq {v : MatView} {data : List ℝ} {o : StftOptions} {b N ch t n : ℕ} (hb : 1 ≤ b)
    (f : ℕ → ℂ) (inp : ℕ → ℝ) (out r : ℕ → ℂ) (x : ℕ → ℝ)
    (hx : ∀ i < v.cols, rd data (v.idx ch i) = .ok (x i))
    (hO : o.overlapSize < o.frameSize) (hS : v.cols < 2 ^ 64)
    (ht : t * (o.frameSize - o.overlapSize) < v.cols)
    (hK : min (v.cols - t * (o.frameSize - o.overlapSize)) o.frameSize ≤ 2 ^ b)
    (hn : (ch * N + t) * (2 ^ b / 2 + 1) + (2 ^ b / 2 + 1) ≤ n) :
    ∃ f' inp' out', stftFrame v data N (2 ^ b / 2 + 1) ch t
        { plan := stftPlanOf o b f inp out, result := vec n r }
      = .ok { plan := stftPlanOf o b f' inp' out', result := vec n (fun i =>
          if (ch * N + t) * (2 ^ b / 2 + 1) ≤ i
            ∧ i < (ch * N + t) * (2 ^ b / 2 + 1) + (2 ^ b / 2 + 1) then
            Spec.dft (2 ^ b) (fun n => (frameSamples o.frameSize v.cols
              (fun i => o.window i (2 ^ b)) x (t * (o.frameSize - o.overlapSize)) n : ℂ))
              (i - (ch * N + t) * (2 ^ b / 2 + 1))
          else r i) } := by
  have h1 : wsub (t * o.frameSize) (t * o.overlapSize) = t * (o.frameSize - o.overlapSize) := by
    have e : t * (o.frameSize - o.overlapSize) = t * o.frameSize - t * o.overlapSize :=
      Nat.mul_sub _ _ _
    rw [wsub_eq (Nat.mul_le_mul_left _ hO.le) (by omega), e]
  set p := t * (o.frameSize - o.overlapSize) with hp
  have h2 : wsub v.cols p = v.cols - p := wsub_eq ht.le (by omega)
  set m := min (v.cols - p) o.frameSize with hm
  have hm1 : m ≤ v.cols - p := Nat.min_le_left _ _
  have hcopy : forN m (fun i input => do
      let a ← rd data (v.idx ch (p + i))
      wr input i a) (vec (2 ^ b) (fun _ => 0))
      = .ok (vec (2 ^ b) (fun i => if i < m then x (p + i) else 0)) := by
    apply forN_eq' (fun j => vec (2 ^ b) (fun i => if i < j then x (p + i) else 0))
    · exact vec_ext (fun i _ => by simp)
    · rfl
    · intro i hi
      beta_reduce
      rw [hx _ (by omega), bind_ok, wr_vec_ok (by omega)]
      congr 1
      apply vec_ext
      intro k _
      by_cases c : k = i
      · subst c; simp
      · have : k < i + 1 ↔ k < i := by omega
        simp [c, this]
  obtain ⟨f', er⟩ := rfft_vec hb (half_lt hb) f
    (fun i => (if i < m then x (p + i) else 0) * o.window i (2 ^ b)) (fun _ => 0)
  unfold stftFrame
  have e1 : (stftPlanOf o b f inp out).options = o := rfl
  have e2 : (stftPlanOf o b f inp out).input = vec (2 ^ b) inp := rfl
  have e3 : (stftPlanOf o b f inp out).output = vec (2 ^ b) out := rfl
  have e4 : (stftPlanOf o b f inp out).rfft = rfftPlanOf b f := rfl
  have e5 : (stftPlanOf o b f inp out).window = vec (2 ^ b) (fun i => o.window i (2 ^ b)) := rfl
  simp only [e1, e2, e3, e4, e5, h1, h2, length_vec]
  rw [if_pos ⟨by omega, hK⟩, bind_ok, fillVec_vec, bind_ok, fillVec_vec, bind_ok, hcopy, bind_ok,
    multiplyInPlace_vec, bind_ok, er, bind_ok]
  simp only []
  rw [rdSpan_vec (Nat.zero_le _) (half_lt hb), bind_ok, Nat.sub_zero]
  have hc := copyInto_vec r (fun k => Spec.dft (2 ^ b) (fun n => (frameSamples o.frameSize v.cols
              (fun i => o.window i (2 ^ b)) x p n : ℂ)) k) hn
  have hsrc : (vec (2 ^ b / 2 + 1) (fun i => (fun k => if k < 2 ^ b / 2 + 1 then
        Spec.dft (2 ^ b) (fun n => (((if n < m then x (p + n) else 0) * o.window n (2 ^ b) : ℝ) : ℂ)) k
        else 0) (0 + i)))
      = vec (2 ^ b / 2 + 1) (fun k => Spec.dft (2 ^ b) (fun n => (frameSamples o.frameSize v.cols
              (fun i => o.window i (2 ^ b)) x p n : ℂ)) k) := by
    apply vec_ext
    intro k hk
    beta_reduce
    rw [if_pos (by omega), Nat.zero_add]
    apply dft_congr
    intro n _
    congr 1
    unfold frameSamples
    by_cases c : n < m
    · rw [if_pos c, if_pos ⟨by omega, by omega⟩]
    · rw [if_neg c, if_neg (by omega), zero_mul]
  rw [hsrc, hc, bind_ok, pure_eq_ok]
  exact ⟨f', _, _, rfl⟩

theorem mul_add_mod' {c N t : ℕ} (h : t < N) : (c * N + t) % N = t := by
  rw [mul_comm, Nat.mul_add_mod, Nat.mod_eq_of_lt h]

theorem mul_add_div' {c N t : ℕ} (h : t < N) : (c * N + t) / N = c := by
  rw [mul_comm, Nat.mul_add_div (by omega), Nat.div_eq_of_lt h, add_zero]

/-- Number of frames: `⌈S / hop⌉`. -/
theorem frames_bound {S H t : ℕ} (hS : 1 ≤ S) (ht : t < (S - 1) / H + 1) : t * H < S := by
  have h1 : t * H ≤ (S - 1) / H * H := Nat.mul_le_mul_right _ (by omega)
  have h2 := Nat.div_mul_le_self (S - 1) H
  omega

theorem stft_call_eq {v : MatView} {data : List ℝ} {o : StftOptions} {b : ℕ} (hb : 1 ≤ b)
    (f : ℕ → ℂ) (inp : ℕ → ℝ) (out : ℕ → ℂ) (x : ℕ → ℕ → ℝ)
    (hx : ∀ c < v.rows, ∀ i < v.cols, rd data (v.idx c i) = .ok (x c i))
    (hO : o.overlapSize < o.frameSize) (hF : o.frameSize < 2 ^ 64) (hS : 1 ≤ v.cols)
    (hS2 : v.cols < 2 ^ 64) (hK : min v.cols o.frameSize ≤ 2 ^ b)
    (hsz : v.rows * ((v.cols - 1) / (o.frameSize - o.overlapSize) + 1) * (2 ^ b / 2 + 1) < 2 ^ 59) :
    ∃ p' g, (stftPlanOf o b f inp out).call v data
      = .ok (p', (v.cols - 1) / (o.frameSize - o.overlapSize) + 1, 2 ^ b / 2 + 1,
          vec (v.rows * ((v.cols - 1) / (o.frameSize - o.overlapSize) + 1) * (2 ^ b / 2 + 1)) g) ∧
      ∀ c < v.rows, ∀ t < (v.cols - 1) / (o.frameSize - o.overlapSize) + 1, ∀ k < 2 ^ b / 2 + 1,
        g ((c * ((v.cols - 1) / (o.frameSize - o.overlapSize) + 1) + t) * (2 ^ b / 2 + 1) + k)
          = Spec.dft (2 ^ b) (fun n => (frameSamples o.frameSize v.cols
              (fun i => o.window i (2 ^ b)) (x c) (t * (o.frameSize - o.overlapSize)) n : ℂ)) k := by
  set H := o.frameSize - o.overlapSize with hH
  set N := (v.cols - 1) / H + 1 with hN
  set m := 2 ^ b / 2 + 1 with hm
  have hN1 : 1 ≤ N := Nat.succ_pos _
  unfold StftPlan.call
  have e1 : (stftPlanOf o b f inp out).options = o := rfl
  have e2 : (stftPlanOf o b f inp out).rfft = rfftPlanOf b f := rfl
  simp only [e1, e2, rfftPlanOf_size]
  rw [numStftFrames_eq hS hS2 hO hF, bind_ok]
  simp only [← hH, ← hN, ← hm]
  rw [w64_of_lt (by omega), if_pos hsz, bind_ok]
  set spec : ℕ → ℕ → ℂ := fun q k => Spec.dft (2 ^ b) (fun n => (frameSamples o.frameSize v.cols
              (fun i => o.window i (2 ^ b)) (x (q / N)) (q % N * H) n : ℂ)) k with hspec
  let P : ℕ → StftState → Prop := fun q s => ∃ f inp out g,
    s = { plan := stftPlanOf o b f inp out, result := vec (v.rows * N * m) g } ∧
    ∀ q' < q, ∀ k < m, g (q' * m + k) = spec q' k
  obtain ⟨s', e, f', inp', out', g, hs, hg⟩ := forN_inv (n := v.rows)
    (body := fun chIdx s => forN N (fun frameIdx s => stftFrame v data N m chIdx frameIdx s) s)
    (s := { plan := stftPlanOf o b f inp out, result := vec (v.rows * N * m) (fun _ => 0) })
    (fun c s => P (c * N) s)
    ⟨f, inp, out, _, rfl, by omega⟩ (by
      intro c hc s hP
      obtain ⟨s'', e'', h''⟩ := forN_inv (n := N)
        (body := fun frameIdx s => stftFrame v data N m c frameIdx s) (s := s)
        (fun t s => P (c * N + t) s) (by simpa using hP) (by
          rintro t ht _ ⟨f, inp, out, g, rfl, hg⟩
          have hq : c * N + t + 1 ≤ v.rows * N := by
            have := row_end (C := N) hc
            omega
          have hqm : (c * N + t) * m + m ≤ v.rows * N * m := row_end (C := m) hq
          have htc : t * H < v.cols := frames_bound hS ht
          obtain ⟨f', inp', out', e⟩ := stftFrame_eq (N := N) (n := v.rows * N * m) hb f inp out g
            (x c) (hx c hc) hO hS2 htc
            (le_trans (min_le_min_right _ (Nat.sub_le _ _)) hK) hqm
          simp only [← hm] at e
          refine ⟨_, e, f', inp', out', _, rfl, ?_⟩
          intro q' hq' k hk
          beta_reduce
          rcases Nat.lt_or_ge q' (c * N + t) with h | h
          · have : q' * m + m ≤ (c * N + t) * m := row_end (C := m) h
            rw [if_neg (by omega), hg q' h k hk]
          · obtain rfl : q' = c * N + t := by omega
            rw [if_pos ⟨by omega, by omega⟩, Nat.add_sub_cancel_left]
            simp only [hspec]
            rw [mul_add_mod' ht, mul_add_div' ht])
      refine ⟨s'', e'', ?_⟩
      rw [add_mul, one_mul]
      exact h'')
  rw [e, bind_ok, hs]
  refine ⟨_, g, rfl, ?_⟩
  intro c hc t ht k hk
  have hq : c * N + t < v.rows * N := by
    have := row_end (C := N) hc
    omega
  rw [hg _ hq k hk]
  simp only [hspec]
  rw [mul_add_mod' ht, mul_add_div' ht]

end Neo
