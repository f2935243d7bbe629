import Verif.Model.AnyPartition
import Verif.Lemmas.AnyArith
import Verif.Lemmas.UpcRounding

/-! # `uniform_partition` over any arithmetic -/

namespace Neo

open Finset

variable {R C : Type} [Zero R] [Add R] [Mul R] [Zero C] [AddCommMagma C] [Sub C] [Mul C] {A : Arith R C}

/-- Element `(c, i)` of a matrix of samples, zero beyond its end. -/
def chanAtG (v : MatView) (data : List R) (c i : ℕ) : R :=
  if i < v.cols then data.getD (v.idx c i) 0 else 0

theorem rd_chanAtG {v : MatView} {data : List R} (hv : v.InRange data.length) {c i : ℕ}
    (hc : c < v.rows) (hi : i < v.cols) : rd data (v.idx c i) = .ok (chanAtG v data c i) := by
  have := hv c hc i hi
  rw [rd_ok this]
  unfold chanAtG
  rw [if_pos hi, List.getD_eq_getElem?_getD, List.getElem?_eq_getElem this, Option.getD_some]

/-- A plan in a generic state. -/
def stftPlanGOf (A : Arith R C) (one : R) (B b : ℕ) (f : ℕ → C) (inp : ℕ → R) (out : ℕ → C) :
    StftPlanG A where
  frameSize := B
  rfft := rfftPlanGOf A b f
  input := vec (2 ^ b) inp
  output := vec (2 ^ b) out
  window := vec (2 ^ b) (fun _ => one)

theorem stftPlanG_make_eq {one : R} {B K : ℕ} (h : Nat.clog 2 K ≤ 27) :
    StftPlanG.make A one B K = .ok (stftPlanGOf A one B (Nat.clog 2 K) (fun _ => 0) (fun _ => 0) (fun _ => 0)) := by
  unfold StftPlanG.make
  rw [nextOrder_eq, rfftPlanG_make_eq h, bind_ok, rfftPlanGOf_size,
    forN_map (fun _ => (0 : R)) (fun _ _ => one) _ (fun i hi h _ => by rw [wr_vec_ok hi]), bind_ok,
    pure_eq_ok]
  rfl

/-- The windowed, zero-padded samples of segment `t`, as computed. -/
def segG (one : R) (B : ℕ) (x : ℕ → R) (t n : ℕ) : R := seg B x t n * one

theorem stftFrameG_eq {one : R} {v : MatView} {data : List R} {B b N ch t n : ℕ} (hb : 1 ≤ b)
    (f : ℕ → C) (inp : ℕ → R) (out r : ℕ → C) (hv : v.InRange data.length) (hch : ch < v.rows)
    (hS : v.cols < 2 ^ 64) (ht : t * B < v.cols) (hK : B ≤ 2 ^ b)
    (hn : (ch * N + t) * (2 ^ b / 2 + 1) + (2 ^ b / 2 + 1) ≤ n) :
    ∃ f' inp' out', stftFrameG v data N (2 ^ b / 2 + 1) ch t (stftPlanGOf A one B b f inp out, vec n r)
      = .ok (stftPlanGOf A one B b f' inp' out', vec n (fun i =>
          if (ch * N + t) * (2 ^ b / 2 + 1) ≤ i
            ∧ i < (ch * N + t) * (2 ^ b / 2 + 1) + (2 ^ b / 2 + 1) then
            rfftGn A b (segG one B (chanAtG v data ch) t) (i - (ch * N + t) * (2 ^ b / 2 + 1))
          else r i)) := by
  have h1 : wsub (t * B) (t * 0) = t * B := by
    rw [wsub_eq (by omega) (by omega)]; omega
  set p := t * B with hp
  have h2 : wsub v.cols p = v.cols - p := wsub_eq ht.le (by omega)
  set m := min (v.cols - p) B with hm
  have hm1 : m ≤ v.cols - p := Nat.min_le_left _ _
  set x := chanAtG v data ch with hx
  have hcopy : forN m (fun i input => do
      let a ← rd data (v.idx ch (p + i))
      wr input i a) (vec (2 ^ b) (fun _ => 0))
      = .ok (vec (2 ^ b) (fun i => if i < m then x (p + i) else 0)) := by
    apply forN_eq' (fun j => vec (2 ^ b) (fun i => if i < j then x (p + i) else 0))
    · exact vec_ext (fun i _ => by simp)
    · rfl
    · intro i hi
      beta_reduce
      rw [rd_chanAtG hv hch (by omega), bind_ok, wr_vec_ok (by omega)]
      refine congrArg Except.ok (vec_ext ?_)
      intro k _
      by_cases c : k = i
      · subst c; simp [hx]
      · have : k < i + 1 ↔ k < i := by omega
        simp [c, this]
  obtain ⟨f', er⟩ := rfftG_fn (A := A) hb (half_lt hb) f (fun i => (if i < m then x (p + i) else 0) * one) (fun _ => 0)
  unfold stftFrameG
  have e1 : (stftPlanGOf A one B b f inp out).frameSize = B := rfl
  have e2 : (stftPlanGOf A one B b f inp out).input = vec (2 ^ b) inp := rfl
  have e3 : (stftPlanGOf A one B b f inp out).output = vec (2 ^ b) out := rfl
  have e4 : (stftPlanGOf A one B b f inp out).rfft = rfftPlanGOf A b f := rfl
  have e5 : (stftPlanGOf A one B b f inp out).window = vec (2 ^ b) (fun _ => one) := rfl
  simp only [e1, e2, e3, e4, e5, ← hp, h1, h2, length_vec]
  rw [if_pos ⟨by omega, by omega⟩, bind_ok, fillVec_vec, bind_ok, fillVec_vec, bind_ok, hcopy, bind_ok,
    multiplyInPlace_vec, bind_ok, er, bind_ok]
  simp only []
  rw [rdSpan_vec (Nat.zero_le _) (half_lt hb), bind_ok, Nat.sub_zero]
  have hc := copyInto_vec r (fun k => rfftGn A b (segG one B x t) k) hn
  have hsrc : (vec (2 ^ b / 2 + 1) (fun i => (fun k => if k < 2 ^ b / 2 + 1 then
        rfftGn A b (fun i => (if i < m then x (p + i) else 0) * one) k else 0) (0 + i)))
      = vec (2 ^ b / 2 + 1) (fun k => rfftGn A b (segG one B x t) k) := by
    apply vec_ext
    intro k hk
    beta_reduce
    rw [if_pos (by omega), Nat.zero_add, rfftGn_congr]
    intro n _
    unfold segG seg
    refine congrArg (fun a : R => a * one) ?_
    by_cases c : n < m
    · rw [if_pos c, if_pos (by omega)]
    · rw [if_neg c]
      by_cases c2 : n < B
      · rw [if_pos c2, hx, chanAtG, if_neg (by omega)]
      · rw [if_neg c2]
  rw [hsrc, hc, bind_ok, pure_eq_ok]
  exact ⟨f', _, _, rfl⟩

theorem uniformPartitionG_eq {one : R} {v : MatView} {data : List R} (hv : v.InRange data.length) {B b : ℕ}
    (hB : 1 ≤ B) (hb : Nat.clog 2 (B * 2) = b) (hb2 : b ≤ 27) (hS : 1 ≤ v.cols)
    (hS2 : v.cols < 2 ^ 64) (hsz : v.rows * ((v.cols - 1) / B + 1) * (2 ^ b / 2 + 1) < 2 ^ 59) :
    ∃ part, uniformPartitionG A one v data B = .ok ((v.cols - 1) / B + 1, 2 ^ b / 2 + 1, part) ∧
      ∀ c < v.rows,
        (partitionView ((v.cols - 1) / B + 1) (2 ^ b / 2 + 1) c).InRange part.length ∧
        ∀ t < (v.cols - 1) / B + 1, ∀ k < 2 ^ b / 2 + 1,
          matAt (partitionView ((v.cols - 1) / B + 1) (2 ^ b / 2 + 1) c) part t k
            = rfftGn A b (segG one B (chanAtG v data c) t) k := by
  have hBle : B * 2 ≤ 2 ^ b := by
    rw [← hb]; exact Nat.le_pow_clog (by norm_num) _
  have hpow : 2 ^ b ≤ 2 ^ 27 := Nat.pow_le_pow_right (by norm_num) hb2
  have hb1 : 1 ≤ b := by
    by_contra h
    obtain rfl : b = 0 := by omega
    simp at hBle
    omega
  have hw : w64 (B * 2) = B * 2 := w64_of_lt (lt_of_le_of_lt (le_trans hBle hpow) (by norm_num))
  have hB64 : B < 2 ^ 64 := lt_of_le_of_lt (by omega : B ≤ 2 ^ 27) (by norm_num)
  unfold uniformPartitionG
  rw [hw, stftPlanG_make_eq (by simpa using hb.le.trans hb2), bind_ok, hb]
  set N := (v.cols - 1) / B + 1 with hN
  set m := 2 ^ b / 2 + 1 with hm
  unfold StftPlanG.call
  have e1 : (stftPlanGOf A one B b (fun _ => 0) (fun _ => 0) (fun _ => 0)).frameSize = B := rfl
  have e2 : (stftPlanGOf A one B b (fun _ => 0) (fun _ => 0) (fun _ => 0)).rfft = rfftPlanGOf A b (fun _ => 0) := rfl
  simp only [e1, e2, rfftPlanGOf_size]
  have hnf := numStftFrames_eq hS hS2 (by omega : 0 < B) hB64
  rw [Nat.sub_zero] at hnf
  rw [hnf, bind_ok]
  simp only [← hN, ← hm]
  rw [w64_of_lt (by omega), if_pos hsz, bind_ok]
  set spec : ℕ → ℕ → C := fun q k => rfftGn A b (segG one B (chanAtG v data (q / N)) (q % N)) k with hspec
  let P : ℕ → StftPlanG A × List C → Prop := fun q s => ∃ f inp out g,
    s = (stftPlanGOf A one B b f inp out, vec (v.rows * N * m) g) ∧ ∀ q' < q, ∀ k < m, g (q' * m + k) = spec q' k
  obtain ⟨s', e, f', inp', out', g, hs, hg⟩ := forN_inv (n := v.rows)
    (body := fun chIdx s => forN N (fun frameIdx s => stftFrameG v data N m chIdx frameIdx s) s)
    (s := (stftPlanGOf A one B b (fun _ => 0) (fun _ => 0) (fun _ => 0), vec (v.rows * N * m) (fun _ => 0)))
    (fun c s => P (c * N) s)
    ⟨_, _, _, _, rfl, by omega⟩ (by
      intro c hc s hP
      obtain ⟨s'', e'', h''⟩ := forN_inv (n := N)
        (body := fun frameIdx s => stftFrameG v data N m c frameIdx s) (s := s)
        (fun t s => P (c * N + t) s) (by simpa using hP) (by
          rintro t ht _ ⟨f, inp, out, g, rfl, hg⟩
          have hq : c * N + t + 1 ≤ v.rows * N := by
            have := row_end (C := N) hc
            omega
          have hqm : (c * N + t) * m + m ≤ v.rows * N * m := row_end (C := m) hq
          have htc : t * B < v.cols := frames_bound hS ht
          obtain ⟨f', inp', out', e⟩ := stftFrameG_eq (N := N) (n := v.rows * N * m) hb1 f inp out g hv hc hS2 htc
            (by omega) hqm
          simp only [← hm] at e
          refine ⟨_, e, f', inp', out', _, rfl, ?_⟩
          intro q' hq' k hk
          beta_reduce
          rcases Nat.lt_or_ge q' (c * N + t) with h | h
          · have : q' * m + m ≤ (c * N + t) * m := row_end (C := m) h
            rw [if_neg (by omega), hg q' h k hk]
          · obtain rfl : q' = c * N + t := by omega
            rw [if_pos ⟨by omega, by omega⟩, Nat.add_sub_cancel_left]
            simp only [hspec]
            rw [mul_add_mod' ht, mul_add_div' ht])
      refine ⟨s'', e'', ?_⟩
      rw [add_mul, one_mul]
      exact h'')
  rw [e, bind_ok, hs]
  refine ⟨vec (v.rows * N * m) g, rfl, ?_⟩
  intro c hc
  have hidx : ∀ t k, (partitionView N m c).idx t k = (c * N + t) * m + k := by
    intro t k
    simp only [partitionView, MatView.idx]
    ring
  have hq : ∀ t < N, c * N + t < v.rows * N := by
    intro t ht
    have := row_end (C := N) hc
    omega
  have hlt : ∀ t < N, ∀ k < m, (c * N + t) * m + k < v.rows * N * m := by
    intro t ht k hk
    have h2 : (c * N + t) * m + m ≤ v.rows * N * m := row_end (C := m) (hq t ht)
    omega
  refine ⟨?_, ?_⟩
  · intro t ht k hk
    rw [hidx, length_vec]
    exact hlt t ht k hk
  · intro t ht k hk
    unfold matAt
    rw [hidx, getD_vec _ _ _ _ (hlt t ht k hk), hg _ (hq t ht) k hk]
    simp only [hspec]
    rw [mul_add_mod' ht, mul_add_div' ht]

end Neo
