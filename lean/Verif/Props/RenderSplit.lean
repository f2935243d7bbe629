import Verif.Props.RenderIeee
import Verif.Props.AnySplit

/-! # C118: rendering with the split-complex convolvers -/

namespace Neo.Props

open Neo Spec

variable {f : Fmt}

/-- **C118** (split-complex).  Rendering a channel with `split_upola_convolver` or `split_upols_convolver` gives, for every
impulse response and every signal, infinities and NaN included, bit for bit what the interleaved convolvers give, or the same
fault.  So `C118_render` bounds the split-complex renderings too. -/
theorem C118_split (tw : ℕ → ℕ → Direction → IC f) {a : ℕ} (ha2 : a ≤ 26) (colMajor : Bool) (v : MatView) (ir : List FVal)
    (hv : v.Valid ir.length) (hS : 1 ≤ v.cols) (hS2 : v.cols < 2 ^ 64)
    (hsz : v.rows * ((v.cols - 1) / 2 ^ a + 1) * (2 ^ a + 1) < 2 ^ 59) (c : ℕ) (s : List (IR f)) :
    renderChannelI (ieeeArith f tw) (splitUpolaRunG (ieeeArith f tw)) colMajor v ir (2 ^ a) c s
      = renderChannelI (ieeeArith f tw) (upolaRunG (ieeeArith f tw)) colMajor v ir (2 ^ a) c s ∧
    renderChannelI (ieeeArith f tw) (splitUpolsRunG (ieeeArith f tw)) colMajor v ir (2 ^ a) c s
      = renderChannelI (ieeeArith f tw) (upolsRunG (ieeeArith f tw)) colMajor v ir (2 ^ a) c s := by
  have key : ∀ run run' : MatView → List (IC f) → List (List (IR f)) → Res (List (List (IR f))),
      (∀ w data, w.InRange data.length → ∀ blocks, run w data blocks = run' w data blocks) →
      renderChannelI (ieeeArith f tw) run colMajor v ir (2 ^ a) c s
        = renderChannelI (ieeeArith f tw) run' colMajor v ir (2 ^ a) c s := by
    intro run run' h
    have hlen : ∀ d, normalizeImpulseMatI f colMajor v ir = .ok d → d.length = ir.length := by
      intro d hd
      unfold normalizeImpulseMatI at hd
      split at hd
      · injection hd with hd
        rw [hd]
      · cases hi : impulseFactorI f v ir with
        | error e => rw [hi] at hd; cases hd
        | ok g =>
          rw [hi, bind_ok] at hd
          obtain ⟨d', e, hl, -⟩ := C60_matrix_unary colMajor (scaleOpI f g) v ir hv
          rw [e] at hd
          injection hd with hd
          rw [← hd, hl]
    unfold renderChannelI
    cases hd : normalizeImpulseMatI f colMajor v ir with
    | error e => rfl
    | ok d =>
      rw [bind_ok, bind_ok]
      have hcl : Nat.clog 2 (2 ^ a * 2) = a + 1 := by rw [← pow_succ, Nat.clog_pow 2 _ (by norm_num)]
      have h2 : 2 ^ (a + 1) / 2 = 2 ^ a := by rw [pow_succ, Nat.mul_div_cancel _ (by norm_num)]
      obtain ⟨part, e, hp⟩ := uniformPartitionG_eq (A := ieeeArith f tw) (one := (⟨.fin 1⟩ : IR f)) (data := d.map IR.mk)
        (v := v) (by rw [List.length_map, hlen d hd]; exact hv.1) Nat.one_le_two_pow hcl (by omega) hS hS2 (by rw [h2]; exact hsz)
      rw [e, bind_ok, bind_ok]
      simp only []
      by_cases hc : v.rows ≤ c
      · rw [if_pos hc, if_pos hc]; rfl
      · rw [if_neg hc, if_neg hc, bind_ok, bind_ok, h _ _ (hp c (by omega)).1]
  exact ⟨key _ _ fun w data hw blocks => (C103_convolvers (ieeeArith f tw) w data hw blocks).1,
    key _ _ fun w data hw blocks => (C103_convolvers (ieeeArith f tw) w data hw blocks).2⟩

/-- The hypotheses of `C118_split` hold for two channels of 96000 samples that hold NaN, in blocks of 32768. -/
example : (MatView.left 2 96000).Valid (List.replicate 192000 FVal.nan).length ∧ 1 ≤ (MatView.left 2 96000).cols ∧
    (MatView.left 2 96000).rows * (((MatView.left 2 96000).cols - 1) / 2 ^ 15 + 1) * (2 ^ 15 + 1) < 2 ^ 59 := by
  refine ⟨?_, ?_, ?_⟩
  · rw [List.length_replicate]
    exact MatView.left_valid 2 96000
  · show 1 ≤ 96000
    norm_num
  · show 2 * ((96000 - 1) / 2 ^ 15 + 1) * (2 ^ 15 + 1) < 2 ^ 59
    norm_num

end Neo.Props
