import Verif.Model.Float16
import Verif.Lemmas.Ieee

/-!
# Property C74: half-precision SIMD batches round correctly

The batches compute in binary32 and round a second time to binary16.  The theorems show that this double rounding
never changes the result: every lane holds the exact sum, difference or product rounded once to binary16.
-/

namespace Neo.Props
open Neo.Spec

theorem pow16_lt {x : ℝ} (h : binary16.Mem (.fin x)) : |x| < 2 ^ 16 := by
  have := h.2
  change |x| < (2 : ℝ) ^ (16 : ℤ) at this
  exact_mod_cast this

theorem round32_fin {x : ℝ} (h : |binary32.rndInf x| < 2 ^ 40) : binary32.round (.fin x) = .fin (binary32.rndInf x) := by
  unfold Fmt.round
  refine if_pos (h.trans ?_)
  change (2 : ℝ) ^ 40 < (2 : ℝ) ^ (128 : ℤ)
  norm_num

theorem round16_congr {x y : ℝ} (h : binary16.rndInf x = binary16.rndInf y) :
    binary16.round (.fin x) = binary16.round (.fin y) := by
  unfold Fmt.round
  dsimp only
  rw [h]

theorem mem_neg {b : FVal} (hb : binary16.Mem b) : binary16.Mem b.neg := by
  cases b with
  | fin x => exact ⟨onGrid_neg hb.1, by rw [abs_neg]; exact hb.2⟩
  | inf s => trivial
  | nan => trivial

theorem add_double {a b : FVal} (ha : binary16.Mem a) (hb : binary16.Mem b) :
    binary16.round (ps FVal.add a b) = binary16.round (a.add b) := by
  unfold ps
  cases a with
  | fin x =>
    cases b with
    | fin y =>
      obtain ⟨h1, h2⟩ := half_sum ha.1 hb.1
      have h3 := pow16_lt ha
      have h4 := pow16_lt hb
      have h5 : |x + y| ≤ |x| + |y| := abs_add_le _ _
      have h6 : |binary32.rndInf (x + y)| ≤ |binary32.rndInf (x + y) - (x + y)| + |x + y| := by
        have := abs_add_le (binary32.rndInf (x + y) - (x + y)) (x + y)
        rwa [sub_add_cancel] at this
      unfold FVal.add
      rw [round32_fin (by norm_num at h3 h4 ⊢; linarith)]
      exact round16_congr h2
    | inf s => rfl
    | nan => rfl
  | inf s =>
    cases b with
    | fin y => rfl
    | inf t => unfold FVal.add; dsimp only; split_ifs <;> rfl
    | nan => rfl
  | nan => cases b <;> rfl

theorem mul_double {a b : FVal} (ha : binary16.Mem a) (hb : binary16.Mem b) :
    binary16.round (ps FVal.mul a b) = binary16.round (a.mul b) := by
  unfold ps
  cases a with
  | fin x =>
    cases b with
    | fin y =>
      have h1 := half_mul ha.1 hb.1
      have h3 := pow16_lt ha
      have h4 := pow16_lt hb
      unfold FVal.mul
      rw [round32_fin, h1]
      rw [h1, abs_mul]
      calc |x| * |y| ≤ 2 ^ 16 * 2 ^ 16 := mul_le_mul h3.le h4.le (abs_nonneg _) (by norm_num)
        _ < 2 ^ 40 := by norm_num
    | inf s => unfold FVal.mul; dsimp only; split_ifs <;> rfl
    | nan => rfl
  | inf s =>
    cases b with
    | fin y => unfold FVal.mul; dsimp only; split_ifs <;> rfl
    | inf t => rfl
    | nan => rfl
  | nan => cases b <;> rfl

/-- The three operators of the batches. -/
def IsOp (op : FVal → FVal → FVal) : Prop := op = FVal.add ∨ op = FVal.sub ∨ op = FVal.mul

/-- **C74** (one lane): for all binary16 operands, computing in binary32 and rounding again gives the exact result
rounded once to binary16, infinities and NaN included. -/
theorem C74_lane (op : FVal → FVal → FVal) (ho : IsOp op) (a b : FVal) (ha : binary16.Mem a) (hb : binary16.Mem b) :
    binary16.round (ps op a b) = binary16.round (op a b) := by
  rcases ho with rfl | rfl | rfl
  · exact add_double ha hb
  · exact add_double ha (mem_neg hb)
  · exact mul_double ha hb

/-- **C74** (finite operands): the lane is the number nearest to the exact result among those with 11 significant bits,
ties to even; it is infinite, with the sign of the result, exactly if that number is `2^16` or more in magnitude. -/
theorem C74_correctly_rounded (x y : ℝ) (hx : binary16.Mem (.fin x)) (hy : binary16.Mem (.fin y))
    (op : FVal → FVal → FVal) (e : ℝ)
    (ho : (op = FVal.add ∧ e = x + y) ∨ (op = FVal.sub ∧ e = x - y) ∨ (op = FVal.mul ∧ e = x * y)) :
    ∃ r, binary16.Nearest e r ∧
      (|r| < 2 ^ 16 → binary16.round (ps op (.fin x) (.fin y)) = .fin r) ∧
      (2 ^ 16 ≤ |r| → binary16.round (ps op (.fin x) (.fin y)) = .inf (decide (e < 0))) := by
  have hl : binary16.round (ps op (.fin x) (.fin y)) = binary16.round (.fin e) := by
    rcases ho with ⟨rfl, rfl⟩ | ⟨rfl, rfl⟩ | ⟨rfl, rfl⟩
    · exact C74_lane _ (Or.inl rfl) _ _ hx hy
    · exact C74_lane _ (Or.inr (Or.inl rfl)) _ _ hx hy
    · exact C74_lane _ (Or.inr (Or.inr rfl)) _ _ hx hy
  have hn := rndInf_nearest binary16 (by decide) e
  have hpow : (2 : ℝ) ^ binary16.emax = 2 ^ 16 := by
    change (2 : ℝ) ^ (16 : ℤ) = _
    norm_num
  refine ⟨_, hn, fun h => ?_, fun h => ?_⟩
  · rw [hl]
    unfold Fmt.round
    rw [hpow]
    exact if_pos h
  · rw [hl]
    unfold Fmt.round
    rw [hpow]
    refine (if_neg (not_lt.mpr h)).trans ?_
    congr 2
    -- the rounded value has the sign of the exact one
    have h0 := (hn.2 0 ⟨0, binary16.emin, by simp, le_rfl, by simp⟩).1
    rw [sub_zero] at h0
    apply propext
    constructor
    · intro hr
      by_contra hc
      rw [abs_of_neg hr] at h
      rw [abs_of_nonneg (not_lt.mp hc), abs_of_nonneg (by linarith [not_lt.mp hc])] at h0
      linarith
    · intro he
      by_contra hc
      rw [abs_of_nonneg (not_lt.mp hc)] at h
      rw [abs_of_neg he, abs_of_nonpos (by linarith)] at h0
      linarith

/-- **C74** (batches): one load-compute-store step of either batch writes, for each of its 8 or 16 lanes, the correctly
rounded result of the two operands at that position, and changes nothing else; it stays in bounds if the buffers hold a
whole batch from `i` on. -/
theorem C74_batch (wide : Bool) (op : FVal → FVal → FVal) (ho : IsOp op) (lhs rhs out : List FVal) (i : ℕ)
    (hl : i + (if wide then 16 else 8) ≤ lhs.length) (hr : i + (if wide then 16 else 8) ≤ rhs.length)
    (hout : i + (if wide then 16 else 8) ≤ out.length)
    (hlm : ∀ v ∈ lhs, binary16.Mem v) (hrm : ∀ v ∈ rhs, binary16.Mem v) :
    ∃ d, f16Step wide op lhs rhs out i = .ok d ∧ d.length = out.length ∧
      (∀ m a b, i ≤ m → m < i + (if wide then 16 else 8) → lhs[m]? = some a → rhs[m]? = some b →
        d[m]? = some (binary16.round (op a b))) ∧
      (∀ m, (m < i ∨ i + (if wide then 16 else 8) ≤ m) → d[m]? = out[m]?) := by
  set V := (if wide then 16 else 8) with hV
  have hcomb : ∀ l r : List FVal, l.length = V → r.length = V →
      (if wide then f16x16Op op l r else f16x8Op op l r) = List.zipWith (fun a b => binary16.round (ps op a b)) l r := by
    intro l r h1 h2
    have hz : ∀ l r : List FVal, (List.zipWith (ps op) l r).map binary16.round
        = List.zipWith (fun a b => binary16.round (ps op a b)) l r := fun l r => List.map_zipWith
    cases wide
    · exact hz l r
    · unfold f16x16Op
      rw [if_pos rfl]
      dsimp only
      rw [hz, hz, ← List.zipWith_append (by simp [h1, h2]), List.take_append_drop, List.take_append_drop]
  set l := (lhs.drop i).take V with hld
  set r := (rhs.drop i).take V with hrd
  have hll : l.length = V := by rw [hld]; simp; omega
  have hrl : r.length = V := by rw [hrd]; simp; omega
  set z := List.zipWith (fun a b => binary16.round (ps op a b)) l r with hz
  have hzl : z.length = V := by rw [hz]; simp [hll, hrl]
  refine ⟨out.take i ++ z ++ out.drop (i + V), ?_, ?_, ?_, ?_⟩
  · unfold f16Step
    dsimp only
    rw [← hV]
    unfold rdSpan
    rw [if_pos ⟨by omega, hl⟩, bind_ok, if_pos ⟨by omega, hr⟩, bind_ok, Nat.add_sub_cancel_left, ← hld, ← hrd,
      hcomb l r hll hrl, ← hz]
    unfold wrSpan
    rw [hzl, if_pos hout]
  · simp [hzl]
    omega
  · intro m a b h1 h2 ha hb
    have hti : (out.take i).length = i := by simp; omega
    rw [List.append_assoc, List.getElem?_append_right (by omega), hti, List.getElem?_append_left (by omega), hz,
      List.getElem?_zipWith, hld, hrd, List.getElem?_take_of_lt (by omega), List.getElem?_take_of_lt (by omega),
      List.getElem?_drop, List.getElem?_drop, show i + (m - i) = m from by omega, ha, hb]
    exact congrArg some (C74_lane op ho a b (hlm a (List.mem_of_getElem? ha)) (hrm b (List.mem_of_getElem? hb)))
  · intro m hm
    have hti : (out.take i).length = i := by simp; omega
    rcases hm with hm | hm
    · rw [List.append_assoc, List.getElem?_append_left (by omega), List.getElem?_take_of_lt hm]
    · rw [List.getElem?_append_right (by simp [hzl]; omega), List.getElem?_drop]
      congr 1
      simp [hzl]
      omega

/-- **C74**: the results are binary16 values again, so the theorems apply to sequences of operations. -/
theorem C74_closed (v : FVal) : binary16.Mem (binary16.round v) := by
  cases v with
  | fin x =>
    unfold Fmt.round
    dsimp only
    split_ifs with h
    · exact ⟨(rndInf_nearest binary16 (by decide) x).1, h⟩
    · trivial
  | inf s => trivial
  | nan => trivial

/-- **C74**: `broadcast` holds the value in every lane. -/
theorem C74_broadcast (V : ℕ) (x : FVal) : f16Broadcast V x = .ok (List.replicate V x) := by
  unfold f16Broadcast rdSpan
  rw [if_pos ⟨Nat.zero_le _, by simp⟩]
  simp

/-- A sum that needs more than 24 bits, so that the binary32 addition is inexact: `1024 + 1025·2⁻²⁴` is `1024`, and the
hypotheses of `C74_correctly_rounded` hold for it. -/
example : binary16.Mem (.fin 1024) ∧ binary16.Mem (.fin (1025 * (2 : ℝ) ^ (-24 : ℤ))) ∧
    binary16.rndInf (1024 + 1025 * (2 : ℝ) ^ (-24 : ℤ)) = 1024 := by
  refine ⟨⟨⟨1024, 0, by decide, by decide, by norm_num⟩, ?_⟩, ⟨⟨1025, -24, by decide, by decide, by norm_num⟩, ?_⟩, ?_⟩
  · change |(1024 : ℝ)| < 2 ^ (16 : ℤ); norm_num [abs_of_pos]
  · change |(1025 * (2 : ℝ) ^ (-24 : ℤ) : ℝ)| < 2 ^ (16 : ℤ); norm_num [abs_of_pos]
  · have := (half_sum_far (X := 1024) (i := 0) (j := -24) (y := 1025 * (2 : ℝ) ^ (-24 : ℤ)) (Y := 1025) (by norm_num)
      (by norm_num) (by norm_num) (by norm_num) (by norm_num) (by norm_num)).2.2
    norm_num at this ⊢
    exact this

end Neo.Props
