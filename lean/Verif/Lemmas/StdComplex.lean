import Verif.Lemmas.NonFinite
import Verif.Lemmas.ArithRel
import Verif.Model.StdComplex

/-! # `std::complex` and `neo::scalar_complex` agree on everything finite -/

namespace Neo

open Spec

variable {f : Fmt}

noncomputable instance : AddCommMagma (SC f) where
  add_comm a b := by
    show (⟨f.round (a.re.add b.re), f.round (a.im.add b.im)⟩ : SC f) = ⟨f.round (b.re.add a.re), f.round (b.im.add a.im)⟩
    rw [FVal.add_comm' a.re, FVal.add_comm' a.im]

theorem annexRecover_nonFinite (z w : SC f) :
    (annexRecover f z w).re.NonFinite ∧ (annexRecover f z w).im.NonFinite :=
  ⟨Fmt.round_nonFinite (FVal.mul_nonFinite_left (FVal.nonFinite_inf _) _),
    Fmt.round_nonFinite (FVal.mul_nonFinite_left (FVal.nonFinite_inf _) _)⟩

theorem isNanF_iff {v : FVal} : isNanF v = true ↔ v = .nan := by cases v <;> simp [isNanF]

/-- The product of `std::complex` is the textbook product, or both have no finite part. -/
theorem annexMul_cases (z w : IC f) : z.std * w.std = (z * w).std ∨
    ((z * w).re = .nan ∧ (z * w).im = .nan ∧ z.std * w.std = annexRecover f z.std w.std) := by
  show annexMul z.std w.std = _ ∨ _ ∧ _ ∧ annexMul z.std w.std = _
  unfold annexMul
  dsimp only
  split
  · rename_i h
    rw [Bool.and_eq_true, isNanF_iff, isNanF_iff] at h
    split
    · exact Or.inr ⟨h.1, h.2, rfl⟩
    · exact Or.inl rfl
  · exact Or.inl rfl

theorem annexRecover_comm (z w : SC f) : annexRecover f z w = annexRecover f w z := by
  unfold annexRecover
  dsimp only
  congr 3
  · rw [FVal.mul_comm' (if (isInfF z.re || isInfF z.im) = true then boxInf z.re else dropNan z.re),
      FVal.mul_comm' (if (isInfF z.re || isInfF z.im) = true then boxInf z.im else dropNan z.im)]
  · rw [FVal.add_comm', FVal.mul_comm' (if (isInfF z.re || isInfF z.im) = true then boxInf z.re else dropNan z.re),
      FVal.mul_comm' (if (isInfF z.re || isInfF z.im) = true then boxInf z.im else dropNan z.im)]

theorem SC.mul_comm' (z w : SC f) : z * w = w * z := by
  show annexMul z w = annexMul w z
  unfold annexMul
  dsimp only
  rw [FVal.mul_comm' z.re w.re, FVal.mul_comm' z.im w.im, FVal.mul_comm' z.re w.im, FVal.mul_comm' z.im w.re,
    FVal.add_comm' (f.round (w.im.mul z.re)), annexRecover_comm z w,
    Bool.or_comm (isInfF z.re || isInfF z.im), Bool.or_comm (isInfF (f.round (w.im.mul z.re)))]

/-- The same number, or no finite part in either. -/
def SameC (z : IC f) (z' : SC f) : Prop := FVal.Agree2 z.re z.im z'.re z'.im

/-- The same sample, or neither is finite. -/
def SameR (x x' : IR f) : Prop := FVal.Agree x.val x'.val

theorem SameC.std (z : IC f) : SameC z z.std := Or.inl ⟨rfl, rfl⟩

theorem SameC.eq_std {z : IC f} {z' : SC f} (h : z.re = z'.re ∧ z.im = z'.im) : z' = z.std :=
  SC.ext h.1.symm h.2.symm

theorem SC.add_re (a b : SC f) : (a + b).re = f.round (a.re.add b.re) := rfl
theorem SC.add_im (a b : SC f) : (a + b).im = f.round (a.im.add b.im) := rfl
theorem SC.sub_re (a b : SC f) : (a - b).re = f.round (a.re.sub b.re) := rfl
theorem SC.sub_im (a b : SC f) : (a - b).im = f.round (a.im.sub b.im) := rfl

/-- A part that is not finite leaves nothing finite in the product. -/
theorem SC.mul_inf_right {a b : SC f} (h : b.re.NonFinite ∨ b.im.NonFinite) :
    (a * b).re.NonFinite ∧ (a * b).im.NonFinite := by
  have h2 := IC.mul_inf_right (a := (⟨a.re, a.im⟩ : IC f)) (b := (⟨b.re, b.im⟩ : IC f)) h
  rcases annexMul_cases (⟨a.re, a.im⟩ : IC f) (⟨b.re, b.im⟩ : IC f) with e | ⟨-, -, e⟩
  · have e' : a * b = ((⟨a.re, a.im⟩ : IC f) * ⟨b.re, b.im⟩).std := e
    rw [e']
    exact h2
  · have e' : a * b = annexRecover f a b := e
    rw [e']
    exact annexRecover_nonFinite a b

theorem SC.mul_inf_left {a b : SC f} (h : a.re.NonFinite ∨ a.im.NonFinite) :
    (a * b).re.NonFinite ∧ (a * b).im.NonFinite := by
  rw [SC.mul_comm']; exact SC.mul_inf_right h

theorem SameC.mul {x y : IC f} {x' y' : SC f} (hx : SameC x x') (hy : SameC y y') : SameC (x * y) (x' * y') := by
  rcases hx with hx | hx
  · rcases hy with hy | hy
    · rw [SameC.eq_std hx, SameC.eq_std hy]
      rcases annexMul_cases x y with e | ⟨h1, h2, e⟩
      · rw [e]; exact Or.inl ⟨rfl, rfl⟩
      · rw [e]
        refine Or.inr ⟨?_, ?_, annexRecover_nonFinite _ _⟩
        · rw [h1]; exact FVal.nonFinite_nan
        · rw [h2]; exact FVal.nonFinite_nan
    · exact Or.inr ⟨(IC.mul_inf_right (Or.inl hy.1)).1, (IC.mul_inf_right (Or.inl hy.1)).2,
        SC.mul_inf_right (Or.inl hy.2.2.1)⟩
  · exact Or.inr ⟨(IC.mul_inf_left (Or.inl hx.1)).1, (IC.mul_inf_left (Or.inl hx.1)).2,
      SC.mul_inf_left (Or.inl hx.2.2.1)⟩

theorem SameC.add {x y : IC f} {x' y' : SC f} (hx : SameC x x') (hy : SameC y y') : SameC (x + y) (x' + y') := by
  rcases hx with hx | hx
  · rcases hy with hy | hy
    · refine Or.inl ⟨?_, ?_⟩
      · rw [IC.add_re, SC.add_re, hx.1, hy.1]
      · rw [IC.add_im, SC.add_im, hx.2, hy.2]
    · exact Or.inr ⟨Fmt.round_nonFinite (FVal.add_nonFinite_right hy.1 _),
        Fmt.round_nonFinite (FVal.add_nonFinite_right hy.2.1 _),
        Fmt.round_nonFinite (FVal.add_nonFinite_right hy.2.2.1 _),
        Fmt.round_nonFinite (FVal.add_nonFinite_right hy.2.2.2 _)⟩
  · exact Or.inr ⟨Fmt.round_nonFinite (FVal.add_nonFinite_left hx.1 _),
      Fmt.round_nonFinite (FVal.add_nonFinite_left hx.2.1 _),
      Fmt.round_nonFinite (FVal.add_nonFinite_left hx.2.2.1 _),
      Fmt.round_nonFinite (FVal.add_nonFinite_left hx.2.2.2 _)⟩

theorem SameC.sub {x y : IC f} {x' y' : SC f} (hx : SameC x x') (hy : SameC y y') : SameC (x - y) (x' - y') := by
  rcases hx with hx | hx
  · rcases hy with hy | hy
    · refine Or.inl ⟨?_, ?_⟩
      · rw [IC.sub_re, SC.sub_re, hx.1, hy.1]
      · rw [IC.sub_im, SC.sub_im, hx.2, hy.2]
    · exact Or.inr ⟨Fmt.round_nonFinite (FVal.sub_nonFinite_right hy.1 _),
        Fmt.round_nonFinite (FVal.sub_nonFinite_right hy.2.1 _),
        Fmt.round_nonFinite (FVal.sub_nonFinite_right hy.2.2.1 _),
        Fmt.round_nonFinite (FVal.sub_nonFinite_right hy.2.2.2 _)⟩
  · exact Or.inr ⟨Fmt.round_nonFinite (FVal.sub_nonFinite_left hx.1 _),
      Fmt.round_nonFinite (FVal.sub_nonFinite_left hx.2.1 _),
      Fmt.round_nonFinite (FVal.sub_nonFinite_left hx.2.2.1 _),
      Fmt.round_nonFinite (FVal.sub_nonFinite_left hx.2.2.2 _)⟩

theorem std_rel (tw : ℕ → ℕ → Direction → IC f) :
    ArithRel (ieeeArith f tw) (stdArith f tw) SameR SameC where
  zeroR := Or.inl rfl
  zeroC := Or.inl ⟨rfl, rfl⟩
  addR x x' y y' hx hy := by
    rcases hx with hx | hx
    · rcases hy with hy | hy
      · rw [IR.ext hx, IR.ext hy]; exact Or.inl rfl
      · exact Or.inr ⟨Fmt.round_nonFinite (FVal.add_nonFinite_right hy.1 _),
          Fmt.round_nonFinite (FVal.add_nonFinite_right hy.2 _)⟩
    · exact Or.inr ⟨Fmt.round_nonFinite (FVal.add_nonFinite_left hx.1 _),
        Fmt.round_nonFinite (FVal.add_nonFinite_left hx.2 _)⟩
  mulR x x' y hx := by
    rcases hx with hx | hx
    · rw [IR.ext hx]; exact Or.inl rfl
    · exact Or.inr ⟨Fmt.round_nonFinite (FVal.mul_nonFinite_left hx.1 _),
        Fmt.round_nonFinite (FVal.mul_nonFinite_left hx.2 _)⟩
  add _ _ _ _ := SameC.add
  sub _ _ _ _ := SameC.sub
  mul _ _ _ _ := SameC.mul
  ofReal _ := Or.inl ⟨rfl, rfl⟩
  conj x x' h := by
    rcases h with h | h
    · exact Or.inl ⟨h.1, congrArg FVal.neg h.2⟩
    · exact Or.inr ⟨h.1, FVal.neg_nonFinite.2 h.2.1, h.2.2.1, FVal.neg_nonFinite.2 h.2.2.2⟩
  realPart x x' h := by
    rcases h with h | h
    · exact Or.inl h.1
    · exact Or.inr ⟨h.1, h.2.2.1⟩
  invSize _ := rfl
  twiddle _ _ _ := SameC.std _

end Neo
