import Verif.Model.MultiplyAdd
import Verif.Lemmas.Simd
import Verif.Lemmas.Fixed

/-! # Scalar and batched multiply-add -/

namespace Neo

variable {α : Type} [Add α] [Sub α] [Mul α]

/-- The plane after the first `k` elements have been processed. -/
def maPlane (n k : ℕ) (v o : ℕ → α) : List α := vec n (fun i => if i < k then v i else o i)

omit [Add α] [Sub α] [Mul α] in
theorem zPlane_vec (ali : Bool) (n k : ℕ) (z v o : ℕ → α) :
    zPlane ali (vec n z) (maPlane n k v o)
      = vec n (fun i => if ali then (if i < k then v i else o i) else z i) := by
  unfold zPlane maPlane
  cases ali <;> rfl

omit [Add α] [Sub α] [Mul α] in
theorem maPlane_wr {n k : ℕ} (hk : k < n) (v o : ℕ → α) :
    wr (maPlane n k v o) k (v k) = .ok (maPlane n (k + 1) v o) := by
  unfold maPlane
  rw [wr_vec_ok hk]
  congr 1
  apply vec_ext
  intro i _
  by_cases h : i = k
  · subst h; rw [Function.update_self, if_pos (by omega)]
  · rw [Function.update_of_ne h]
    by_cases h' : i < k
    · rw [if_pos h', if_pos (by omega)]
    · rw [if_neg h', if_neg (by omega)]

omit [Add α] [Sub α] [Mul α] in
theorem maPlane_wrSpan {n k V : ℕ} (hk : k + V ≤ n) (v o : ℕ → α) :
    wrSpan (maPlane n k v o) k (vec V (fun i => v (k + i))) = .ok (maPlane n (k + V) v o) := by
  unfold maPlane
  rw [wrSpan_vec hk]
  congr 1
  apply vec_ext
  intro i _
  by_cases c : k ≤ i ∧ i < k + V
  · rw [if_pos c, if_pos c.2, Nat.add_sub_cancel' c.1]
  · rw [if_neg c]
    by_cases h' : i < k
    · rw [if_pos h', if_pos (by omega)]
    · rw [if_neg h', if_neg (by omega)]

/-- The state after `k` elements. -/
def maState (n k : ℕ) (vr vi orr oi : ℕ → α) : MaState α :=
  ⟨maPlane n k vr orr, maPlane n k vi oi, List.range k⟩

section
variable {n : ℕ} (ali : Bool) (xr xi yr yi zr zi orr oi : ℕ → α)

/-- real part of `x * y + z` at `i`, on planes -/
def maRe (i : ℕ) : α := (xr i * yr i - xi i * yi i) + (if ali then orr i else zr i)
/-- imaginary part -/
def maIm (i : ℕ) : α := (xr i * yi i + xi i * yr i) + (if ali then oi i else zi i)

theorem maStep_ok {k : ℕ} (hk : k < n) :
    maStep ali ⟨vec n xr, vec n xi⟩ ⟨vec n yr, vec n yi⟩ ⟨vec n zr, vec n zi⟩ k
      (maState n k (maRe ali xr xi yr yi zr orr) (maIm ali xr xi yr yi zi oi) orr oi)
    = .ok (maState n (k + 1) (maRe ali xr xi yr yi zr orr) (maIm ali xr xi yr yi zi oi) orr oi) := by
  unfold maStep maState
  dsimp only
  rw [zPlane_vec, zPlane_vec]
  simp only [rd_vec_ok hk, bind_ok, lt_irrefl, if_false]
  rw [show (xr k * yr k - xi k * yi k + if ali = true then orr k else zr k)
      = maRe ali xr xi yr yi zr orr k from rfl, maPlane_wr hk, bind_ok,
    show (xr k * yi k + xi k * yr k + if ali = true then oi k else zi k)
      = maIm ali xr xi yr yi zi oi k from rfl, maPlane_wr hk, bind_ok, pure_eq_ok, List.range_succ]

theorem maBatch_ok {k V : ℕ} (hk : k + V ≤ n) :
    maBatch V ali ⟨vec n xr, vec n xi⟩ ⟨vec n yr, vec n yi⟩ ⟨vec n zr, vec n zi⟩ k
      (maState n k (maRe ali xr xi yr yi zr orr) (maIm ali xr xi yr yi zi oi) orr oi)
    = .ok (maState n (k + V) (maRe ali xr xi yr yi zr orr) (maIm ali xr xi yr yi zi oi) orr oi) := by
  have hr : ∀ f : ℕ → α, rdSpan (vec n f) k (k + V) = .ok (vec V (fun i => f (k + i))) := by
    intro f
    rw [rdSpan_vec (by omega) hk, Nat.add_sub_cancel_left]
  unfold maBatch maState
  dsimp only
  rw [zPlane_vec, zPlane_vec]
  simp only [hr, bind_ok, lanes_zip]
  have e1 : vec V (fun i => xr (k + i) * yr (k + i) - xi (k + i) * yi (k + i) +
      if ali = true then if k + i < k then maRe ali xr xi yr yi zr orr (k + i) else orr (k + i)
        else zr (k + i)) = vec V (fun i => maRe ali xr xi yr yi zr orr (k + i)) := by
    apply vec_ext
    intro i _
    rw [if_neg (show ¬ k + i < k by omega)]
    rfl
  have e2 : vec V (fun i => xr (k + i) * yi (k + i) + xi (k + i) * yr (k + i) +
      if ali = true then if k + i < k then maIm ali xr xi yr yi zi oi (k + i) else oi (k + i)
        else zi (k + i)) = vec V (fun i => maIm ali xr xi yr yi zi oi (k + i)) := by
    apply vec_ext
    intro i _
    rw [if_neg (show ¬ k + i < k by omega)]
    rfl
  rw [e1, e2, maPlane_wrSpan hk, bind_ok, maPlane_wrSpan hk, bind_ok, pure_eq_ok, List.range_add]

theorem maState_zero (vr vi : ℕ → α) : maState n 0 vr vi orr oi = ⟨vec n orr, vec n oi, []⟩ := by
  unfold maState maPlane
  simp

theorem maState_full (vr vi : ℕ → α) :
    maState n n vr vi orr oi = ⟨vec n vr, vec n vi, List.range n⟩ := by
  unfold maState maPlane
  congr 1
  · exact vec_ext (fun i hi => by rw [if_pos hi])
  · exact vec_ext (fun i hi => by rw [if_pos hi])

theorem forN_maStep {k : ℕ} (hk : k ≤ n) :
    forN k (maStep ali ⟨vec n xr, vec n xi⟩ ⟨vec n yr, vec n yi⟩ ⟨vec n zr, vec n zi⟩)
      ⟨vec n orr, vec n oi, []⟩
    = .ok (maState n k (maRe ali xr xi yr yi zr orr) (maIm ali xr xi yr yi zi oi) orr oi) := by
  rw [← maState_zero orr oi (maRe ali xr xi yr yi zr orr) (maIm ali xr xi yr yi zi oi)]
  exact forN_eq (fun k => maState n k (maRe ali xr xi yr yi zr orr) (maIm ali xr xi yr yi zi oi) orr oi)
    (fun i hi => maStep_ok ali xr xi yr yi zr zi orr oi (by omega))

theorem simdMultiplyAdd_ok {V : ℕ} (hV : 1 ≤ V) :
    simdMultiplyAdd V ali ⟨vec n xr, vec n xi⟩ ⟨vec n yr, vec n yi⟩ ⟨vec n zr, vec n zi⟩ n
      ⟨vec n orr, vec n oi, []⟩
    = .ok ⟨vec n (maRe ali xr xi yr yi zr orr), vec n (maIm ali xr xi yr yi zi oi), List.range n⟩ := by
  have hdm := Nat.div_add_mod' n V
  have hm := Nat.mod_le n V
  have hvs : n - n % V = n / V * V := by omega
  unfold simdMultiplyAdd
  rw [if_neg (by omega), hvs]
  dsimp only
  have key := forBatch_eq (step := V) (n := n / V * V)
    (body := maBatch V ali ⟨vec n xr, vec n xi⟩ ⟨vec n yr, vec n yi⟩ ⟨vec n zr, vec n zi⟩) (n / V)
    (fun k => maState n (k * V) (maRe ali xr xi yr yi zr orr) (maIm ali xr xi yr yi zi oi) orr oi) 0 n
    (fun k hk => by
      have h1 : (k + 1) * V ≤ n / V * V := Nat.mul_le_mul_right V hk
      rw [Nat.succ_mul] at h1
      refine ⟨by omega, ?_⟩
      rw [Nat.zero_add, Nat.succ_mul]
      exact maBatch_ok ali xr xi yr yi zr zi orr oi (by omega)) (by omega) (Nat.div_le_self n V)
  rw [Nat.zero_mul, maState_zero] at key
  rw [key, bind_ok]
  unfold forR
  rw [show n - n / V * V = n % V by omega]
  have := forN_eq' (n := n % V) (body := fun i => maStep ali ⟨vec n xr, vec n xi⟩ ⟨vec n yr, vec n yi⟩
      ⟨vec n zr, vec n zi⟩ (n / V * V + i))
    (fun k => maState n (n / V * V + k) (maRe ali xr xi yr yi zr orr) (maIm ali xr xi yr yi zi oi) orr oi)
    rfl rfl (fun i hi => maStep_ok ali xr xi yr yi zr zi orr oi (by omega))
  rw [Nat.add_zero, hdm, maState_full] at this
  exact this

end

/-! ## Interleaved vectors -/

section
omit [Sub α]
variable {n : ℕ} (ali : Bool) (x y z o : ℕ → α)

/-- `x * y + z` at `i` -/
def maPlain (i : ℕ) : α := x i * y i + (if ali then o i else z i)

theorem maPlainStep_ok {k : ℕ} (hk : k < n) :
    maPlainStep ali (vec n x) (vec n y) (vec n z) k (maPlane n k (maPlain ali x y z o) o, List.range k)
      = .ok (maPlane n (k + 1) (maPlain ali x y z o) o, List.range (k + 1)) := by
  unfold maPlainStep
  dsimp only
  rw [zPlane_vec]
  simp only [rd_vec_ok hk, bind_ok, lt_irrefl, if_false]
  rw [show (x k * y k + if ali = true then o k else z k) = maPlain ali x y z o k from rfl,
    maPlane_wr hk, bind_ok, pure_eq_ok, List.range_succ]

omit [Add α] [Mul α] in
theorem maPlane_zero (v : ℕ → α) : maPlane n 0 v o = vec n o := by
  unfold maPlane; simp

omit [Add α] [Mul α] in
theorem maPlane_full (v : ℕ → α) : maPlane n n v o = vec n v :=
  vec_ext (fun i hi => by rw [if_pos hi])

theorem multiplyAddPlain_ok :
    multiplyAddPlain ali (vec n x) (vec n y) (vec n z) (vec n o, [])
      = .ok (vec n (maPlain ali x y z o), List.range n) := by
  unfold multiplyAddPlain
  rw [check_decide_ok (by unfold zPlane; cases ali <;> simp), bind_ok, length_vec]
  exact forN_eq' (fun k => (maPlane n k (maPlain ali x y z o) o, List.range k))
    (by rw [maPlane_zero]; rfl) (by rw [maPlane_full])
    (fun i hi => maPlainStep_ok ali x y z o hi)

theorem simdMultiplyAddPlain_ok {V : ℕ} (hV : 1 ≤ V) :
    simdMultiplyAddPlain V ali (vec n x) (vec n y) (vec n z) (vec n o, [])
      = .ok (vec n (maPlain ali x y z o), List.range n) := by
  have hdm := Nat.div_add_mod' n V
  have hm := Nat.mod_le n V
  have hvs : n - n % V = n / V * V := by omega
  unfold simdMultiplyAddPlain
  rw [if_neg (by omega), length_vec, hvs]
  dsimp only
  have key := forBatch_eq (step := V) (n := n / V * V)
    (body := fun i (s : List α × List Nat) => do
      let a ← rdSpan (vec n x) i (i + V)
      let b ← rdSpan (vec n y) i (i + V)
      let c ← rdSpan (zPlane ali (vec n z) s.1) i (i + V)
      let o ← wrSpan s.1 i (List.zipWith (fun p q => p + q) (List.zipWith (fun p q => p * q) a b) c)
      pure (o, s.2 ++ (List.range V).map (i + ·))) (n / V)
    (fun k => (maPlane n (k * V) (maPlain ali x y z o) o, List.range (k * V))) 0 n
    (fun k hk => by
      have h1 : (k + 1) * V ≤ n / V * V := Nat.mul_le_mul_right V hk
      rw [Nat.succ_mul] at h1
      refine ⟨by omega, ?_⟩
      rw [Nat.zero_add, Nat.succ_mul]
      have hr : ∀ f : ℕ → α, rdSpan (vec n f) (k * V) (k * V + V) = .ok (vec V (fun i => f (k * V + i))) := by
        intro f
        rw [rdSpan_vec (by omega) (by omega), Nat.add_sub_cancel_left]
      dsimp only
      rw [zPlane_vec]
      simp only [hr, bind_ok, lanes_zip]
      have e1 : vec V (fun i => x (k * V + i) * y (k * V + i) +
          if ali = true then if k * V + i < k * V then maPlain ali x y z o (k * V + i) else o (k * V + i)
            else z (k * V + i)) = vec V (fun i => maPlain ali x y z o (k * V + i)) := by
        apply vec_ext
        intro i _
        rw [if_neg (show ¬ k * V + i < k * V by omega)]
        rfl
      rw [e1, maPlane_wrSpan (by omega), bind_ok, pure_eq_ok, List.range_add]) (by omega)
    (Nat.div_le_self n V)
  rw [Nat.zero_mul, maPlane_zero] at key
  rw [show (vec n o, ([] : List ℕ)) = (vec n o, List.range 0) from rfl, key, bind_ok]
  unfold forR
  rw [show n - n / V * V = n % V by omega]
  have := forN_eq' (n := n % V) (body := fun i => maPlainStep ali (vec n x) (vec n y) (vec n z) (n / V * V + i))
    (fun k => (maPlane n (n / V * V + k) (maPlain ali x y z o) o, List.range (n / V * V + k)))
    rfl rfl (fun i hi => maPlainStep_ok ali x y z o (by omega))
  rw [Nat.add_zero, hdm, maPlane_full] at this
  exact this

end

end Neo
