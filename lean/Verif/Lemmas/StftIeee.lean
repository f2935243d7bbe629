import Verif.Model.StftIeee
import Verif.Lemmas.AnyPartition

/-! # The short-time Fourier transform over any arithmetic -/

namespace Neo

open Finset

variable {R C : Type} [Zero R] [Add R] [Mul R] [Zero C] [AddCommMagma C] [Sub C] [Mul C] {A : Arith R C}

theorem fillWindowW_vec {n : ℕ} (f : ℕ → R) (win : ℕ → ℕ → R) :
    fillWindowW (vec n f) win = .ok (vec n (fun i => win i n)) := by
  unfold fillWindowW
  rw [length_vec]
  exact forN_map f (fun i _ => win i n) _ (fun i hi h _ => by rw [length_vec, wr_vec_ok hi])

/-- A plan in a generic state. -/
def stftPlanWOf (A : Arith R C) (o : StftOptionsW R) (b : ℕ) (f : ℕ → C) (inp : ℕ → R) (out : ℕ → C) : StftPlanW A where
  options := o
  rfft := rfftPlanGOf A b f
  input := vec (2 ^ b) inp
  output := vec (2 ^ b) out
  window := vec (2 ^ b) (fun i => o.window i (2 ^ b))

theorem stftPlanW_make_eq {o : StftOptionsW R} (h : Nat.clog 2 o.transformSize ≤ 27) :
    StftPlanW.make A o
      = .ok (stftPlanWOf A o (Nat.clog 2 o.transformSize) (fun _ => 0) (fun _ => 0) (fun _ => 0)) := by
  unfold StftPlanW.make
  rw [nextOrder_eq, rfftPlanG_make_eq h, bind_ok, rfftPlanGOf_size, fillWindowW_vec, bind_ok, pure_eq_ok]
  rfl

/-- The windowed, zero-padded samples of a frame starting at sample `p`, as computed. -/
def frameW (F S : ℕ) (win : ℕ → R) (x : ℕ → R) (p n : ℕ) : R := (if n < F ∧ p + n < S then x (p + n) else 0) * win n

theorem stftFrameW_eq {v : MatView} {data : List R} {o : StftOptionsW R} {b N ch t n : ℕ} (hb : 1 ≤ b)
    (f : ℕ → C) (inp : ℕ → R) (out r : ℕ → C) (hv : v.InRange data.length) (hch : ch < v.rows)
    (hO : o.overlapSize < o.frameSize) (hS : v.cols < 2 ^ 64) (ht : t * (o.frameSize - o.overlapSize) < v.cols)
    (hK : o.frameSize ≤ 2 ^ b) (hn : (ch * N + t) * (2 ^ b / 2 + 1) + (2 ^ b / 2 + 1) ≤ n) :
    ∃ f' inp' out', stftFrameW v data N (2 ^ b / 2 + 1) ch t (stftPlanWOf A o b f inp out, vec n r)
      = .ok (stftPlanWOf A o b f' inp' out', vec n (fun i =>
          if (ch * N + t) * (2 ^ b / 2 + 1) ≤ i
            ∧ i < (ch * N + t) * (2 ^ b / 2 + 1) + (2 ^ b / 2 + 1) then
            rfftGn A b (frameW o.frameSize v.cols (fun i => o.window i (2 ^ b)) (chanAtG v data ch)
              (t * (o.frameSize - o.overlapSize))) (i - (ch * N + t) * (2 ^ b / 2 + 1))
          else r i)) := by
  have h1 : wsub (t * o.frameSize) (t * o.overlapSize) = t * (o.frameSize - o.overlapSize) := by
    have e : t * (o.frameSize - o.overlapSize) = t * o.frameSize - t * o.overlapSize := Nat.mul_sub _ _ _
    rw [wsub_eq (Nat.mul_le_mul_left _ hO.le) (by omega), e]
  set p := t * (o.frameSize - o.overlapSize) with hp
  have h2 : wsub v.cols p = v.cols - p := wsub_eq ht.le (by omega)
  set m := min (v.cols - p) o.frameSize with hm
  have hm1 : m ≤ v.cols - p := Nat.min_le_left _ _
  set x := chanAtG v data ch with hx
  have hcopy : forN m (fun i input => do
      let a ← rd data (v.idx ch (p + i))
      wr input i a) (vec (2 ^ b) (fun _ => 0))
      = .ok (vec (2 ^ b) (fun i => if i < m then x (p + i) else 0)) := by
    apply forN_eq' (fun j => vec (2 ^ b) (fun i => if i < j then x (p + i) else 0))
    · exact vec_ext (fun i _ => by simp)
    · rfl
    · intro i hi
      beta_reduce
      rw [rd_chanAtG hv hch (by omega), bind_ok, wr_vec_ok (by omega)]
      refine congrArg Except.ok (vec_ext ?_)
      intro k _
      by_cases c : k = i
      · subst c; simp [hx]
      · have : k < i + 1 ↔ k < i := by omega
        simp [c, this]
  obtain ⟨f', er⟩ := rfftG_fn (A := A) hb (half_lt hb) f
    (fun i => (if i < m then x (p + i) else 0) * o.window i (2 ^ b)) (fun _ => 0)
  unfold stftFrameW
  have e1 : (stftPlanWOf A o b f inp out).options = o := rfl
  have e2 : (stftPlanWOf A o b f inp out).input = vec (2 ^ b) inp := rfl
  have e3 : (stftPlanWOf A o b f inp out).output = vec (2 ^ b) out := rfl
  have e4 : (stftPlanWOf A o b f inp out).rfft = rfftPlanGOf A b f := rfl
  have e5 : (stftPlanWOf A o b f inp out).window = vec (2 ^ b) (fun i => o.window i (2 ^ b)) := rfl
  simp only [e1, e2, e3, e4, e5, h1, h2, length_vec]
  rw [if_pos ⟨by omega, by omega⟩, bind_ok, fillVec_vec, bind_ok, fillVec_vec, bind_ok, hcopy, bind_ok,
    multiplyInPlace_vec, bind_ok, er, bind_ok]
  simp only []
  rw [rdSpan_vec (Nat.zero_le _) (half_lt hb), bind_ok, Nat.sub_zero]
  have hc := copyInto_vec r (fun k => rfftGn A b (frameW o.frameSize v.cols (fun i => o.window i (2 ^ b)) x p) k) hn
  have hsrc : (vec (2 ^ b / 2 + 1) (fun i => (fun k => if k < 2 ^ b / 2 + 1 then
        rfftGn A b (fun i => (if i < m then x (p + i) else 0) * o.window i (2 ^ b)) k else 0) (0 + i)))
      = vec (2 ^ b / 2 + 1) (fun k => rfftGn A b (frameW o.frameSize v.cols (fun i => o.window i (2 ^ b)) x p) k) := by
    apply vec_ext
    intro k hk
    beta_reduce
    rw [if_pos (by omega), Nat.zero_add, rfftGn_congr]
    intro n _
    unfold frameW
    refine congrArg (fun a : R => a * o.window n (2 ^ b)) ?_
    by_cases c : n < m
    · rw [if_pos c, if_pos ⟨by omega, by omega⟩]
    · rw [if_neg c, if_neg (by omega)]
  rw [hsrc, hc, bind_ok, pure_eq_ok]
  exact ⟨f', _, _, rfl⟩

/-- The coefficients of the short-time transform as computed: bin `k` of frame `t` of channel `c`. -/
def binW (A : Arith R C) (o : StftOptionsW R) (b : ℕ) (v : MatView) (data : List R) (c t k : ℕ) : C :=
  rfftGn A b (frameW o.frameSize v.cols (fun i => o.window i (2 ^ b)) (chanAtG v data c)
    (t * (o.frameSize - o.overlapSize))) k

theorem stftW_call_eq {v : MatView} {data : List R} {o : StftOptionsW R} {b : ℕ} (hb : 1 ≤ b)
    (f : ℕ → C) (inp : ℕ → R) (out : ℕ → C) (hv : v.InRange data.length)
    (hO : o.overlapSize < o.frameSize) (hF : o.frameSize < 2 ^ 64) (hS : 1 ≤ v.cols)
    (hS2 : v.cols < 2 ^ 64) (hK : o.frameSize ≤ 2 ^ b) {N m : ℕ}
    (hN : N = (v.cols - 1) / (o.frameSize - o.overlapSize) + 1) (hm : m = 2 ^ b / 2 + 1) (hsz : v.rows * N * m < 2 ^ 59) :
    ∃ f' inp' out', (stftPlanWOf A o b f inp out).call v data
      = .ok (stftPlanWOf A o b f' inp' out', N, m,
          vec (v.rows * N * m) (fun i => binW A o b v data (i / m / N) (i / m % N) (i % m))) := by
  set H := o.frameSize - o.overlapSize with hH
  unfold StftPlanW.call
  have e1 : (stftPlanWOf A o b f inp out).options = o := rfl
  have e2 : (stftPlanWOf A o b f inp out).rfft = rfftPlanGOf A b f := rfl
  simp only [e1, e2, rfftPlanGOf_size]
  rw [numStftFrames_eq hS hS2 hO hF, bind_ok]
  simp only [← hH, ← hN, ← hm]
  rw [w64_of_lt (by omega), if_pos hsz, bind_ok]
  set spec : ℕ → ℕ → C := fun q k => binW A o b v data (q / N) (q % N) k with hspec
  let P : ℕ → StftPlanW A × List C → Prop := fun q s => ∃ f inp out g,
    s = (stftPlanWOf A o b f inp out, vec (v.rows * N * m) g) ∧ ∀ q' < q, ∀ k < m, g (q' * m + k) = spec q' k
  obtain ⟨s', e, f', inp', out', g, hs, hg⟩ := forN_inv (n := v.rows)
    (body := fun chIdx s => forN N (fun frameIdx s => stftFrameW v data N m chIdx frameIdx s) s)
    (s := (stftPlanWOf A o b f inp out, vec (v.rows * N * m) (fun _ => 0)))
    (fun c s => P (c * N) s)
    ⟨f, inp, out, _, rfl, by omega⟩ (by
      intro c hc s hP
      obtain ⟨s'', e'', h''⟩ := forN_inv (n := N)
        (body := fun frameIdx s => stftFrameW v data N m c frameIdx s) (s := s)
        (fun t s => P (c * N + t) s) (by simpa using hP) (by
          rintro t ht _ ⟨f, inp, out, g, rfl, hg⟩
          have hq : c * N + t + 1 ≤ v.rows * N := by
            have := row_end (C := N) hc
            omega
          have hqm : (c * N + t) * m + m ≤ v.rows * N * m := row_end (C := m) hq
          have htc : t * H < v.cols := frames_bound hS (hN ▸ ht)
          obtain ⟨f', inp', out', e⟩ := stftFrameW_eq (A := A) (N := N) (n := v.rows * N * m) hb f inp out g hv hc hO hS2 htc
            hK (hm ▸ hqm)
          simp only [← hm] at e
          refine ⟨_, e, f', inp', out', _, rfl, ?_⟩
          intro q' hq' k hk
          beta_reduce
          rcases Nat.lt_or_ge q' (c * N + t) with h | h
          · have : q' * m + m ≤ (c * N + t) * m := row_end (C := m) h
            rw [if_neg (by omega), hg q' h k hk]
          · obtain rfl : q' = c * N + t := by omega
            rw [if_pos ⟨by omega, by omega⟩, Nat.add_sub_cancel_left]
            simp only [hspec, binW]
            rw [mul_add_mod' ht, mul_add_div' ht])
      refine ⟨s'', e'', ?_⟩
      rw [add_mul, one_mul]
      exact h'')
  rw [e, bind_ok, hs]
  refine ⟨f', inp', out', ?_⟩
  rw [pure_eq_ok]
  refine congrArg (fun l => Except.ok (stftPlanWOf A o b f' inp' out', N, m, l)) (vec_ext fun i hi => ?_)
  have hm0 : 0 < m := by omega
  have h1 : i / m < v.rows * N := Nat.div_lt_of_lt_mul (by rw [Nat.mul_comm]; exact hi)
  have := hg (i / m) h1 (i % m) (Nat.mod_lt _ hm0)
  rw [Nat.div_add_mod'] at this
  rw [this]

end Neo
