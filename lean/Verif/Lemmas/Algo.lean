import Verif.Model.Algo

/-! # Element-wise algorithms on `vec`s -/

namespace Neo

variable {α : Type}

/-- Generic element-wise loop. -/
theorem forN_map {β : Type} {n : ℕ} (f : ℕ → β) (g : ℕ → β → β)
    (body : ℕ → List β → Res (List β))
    (hbody : ∀ i < n, ∀ h : ℕ → β, h i = f i → body i (vec n h)
      = .ok (vec n (Function.update h i (g i (f i))))) :
    forN n body (vec n f) = .ok (vec n (fun i => g i (f i))) := by
  apply forN_eq' (fun i => vec n (fun m => if m < i then g m (f m) else f m))
  · exact vec_ext (fun m _ => by simp)
  · exact vec_ext (fun m hm => by simp [hm])
  · intro i hi
    rw [hbody i hi _ (by simp)]
    congr 1
    apply vec_ext
    intro m hm
    by_cases h : m = i
    · subst h; simp
    · have : m < i + 1 ↔ m < i := by omega
      simp [h, this]

theorem copyVec_vec {n : ℕ} (f g : ℕ → α) : copyVec (vec n f) (vec n g) = .ok (vec n f) := by
  unfold copyVec
  simp only [length_vec, decide_true, check_true, bind_ok]
  exact forN_map g (fun i _ => f i) _ (fun i hi h _ => by simp [hi])

theorem copyVec_eq {x y : List α} (h : x.length = y.length) : copyVec x y = .ok x := by
  rcases x with _ | ⟨d, xs⟩
  · simp [copyVec] at h ⊢
    simp [h.symm, List.eq_nil_of_length_eq_zero h.symm]
  · rw [eq_vec_getD (d :: xs) d, eq_vec_getD y d, ← h]
    exact copyVec_vec _ _

theorem copyVec_bad {x y : List α} (h : x.length ≠ y.length) :
    copyVec x y = .error .assertion := by
  unfold copyVec
  rw [decide_eq_false h]; rfl

theorem copyRealToComplex_vec {n : ℕ} (f : ℕ → ℝ) (g : ℕ → ℂ) :
    copyRealToComplex (vec n f) (vec n g) = .ok (vec n (fun i => (f i : ℂ))) := by
  unfold copyRealToComplex
  simp only [length_vec, decide_true, check_true, bind_ok]
  exact forN_map g (fun i _ => (f i : ℂ)) _ (fun i hi h _ => by simp [hi])

theorem copyInto_vec {n m lo : ℕ} (f g : ℕ → α) (h : lo + m ≤ n) :
    copyInto (vec m g) (vec n f) lo m
      = .ok (vec n (fun i => if lo ≤ i ∧ i < lo + m then g (i - lo) else f i)) := by
  unfold copyInto
  rw [rdSpan_vec (by omega) h, bind_ok]
  rw [copyVec_eq (by simp), bind_ok, wrSpan_vec h]

theorem unaryOp_vec {n : ℕ} (op : α → α) (f : ℕ → α) :
    unaryOp op (vec n f) = .ok (vec n (fun i => op (f i))) := by
  unfold unaryOp
  rw [length_vec]
  exact forN_map f (fun _ v => op v) _ (fun i hi h hh => by simp [hi, hh])

theorem fillVec_vec {n : ℕ} (v : α) (f : ℕ → α) : fillVec (vec n f) v = .ok (vec n (fun _ => v)) :=
  unaryOp_vec _ f

theorem scaleVec_vec [Mul α] {n : ℕ} (a : α) (f : ℕ → α) :
    scaleVec a (vec n f) = .ok (vec n (fun i => f i * a)) :=
  unaryOp_vec _ f

theorem binaryOp_vec {n : ℕ} (op : α → α → α) (f g h : ℕ → α) :
    binaryOp op (vec n f) (vec n g) (vec n h) = .ok (vec n (fun i => op (f i) (g i))) := by
  unfold binaryOp
  simp only [length_vec, and_self, decide_true, check_true, bind_ok]
  exact forN_map h (fun i _ => op (f i) (g i)) _ (fun i hi h' _ => by simp [hi])

theorem addVec_vec [Add α] {n : ℕ} (f g h : ℕ → α) :
    addVec (vec n f) (vec n g) (vec n h) = .ok (vec n (fun i => f i + g i)) :=
  binaryOp_vec _ f g h

theorem multiplyVec_vec [Mul α] {n : ℕ} (f g h : ℕ → α) :
    multiplyVec (vec n f) (vec n g) (vec n h) = .ok (vec n (fun i => f i * g i)) :=
  binaryOp_vec _ f g h

theorem binaryOpInPlace_vec {n : ℕ} (op : α → α → α) (f g : ℕ → α) :
    binaryOpInPlace op (vec n f) (vec n g) = .ok (vec n (fun i => op (f i) (g i))) := by
  unfold binaryOpInPlace
  simp only [length_vec, decide_true, check_true, bind_ok]
  exact forN_map f (fun i v => op v (g i)) _ (fun i hi h' hh => by simp [hi, hh])

theorem multiplyInPlace_vec [Mul α] {n : ℕ} (f g : ℕ → α) :
    multiplyInPlace (vec n f) (vec n g) = .ok (vec n (fun i => f i * g i)) :=
  binaryOpInPlace_vec _ f g

theorem multiplyAdd_vec [Mul α] [Add α] {n : ℕ} (f g h o : ℕ → α) :
    multiplyAdd (vec n f) (vec n g) (vec n h) (vec n o)
      = .ok (vec n (fun i => f i * g i + h i)) := by
  unfold multiplyAdd
  simp only [length_vec, and_self, decide_true, check_true, bind_ok]
  exact forN_map o (fun i _ => f i * g i + h i) _ (fun i hi h' _ => by simp [hi])

theorem multiplyAddAcc_vec [Mul α] [Add α] {n : ℕ} (f g h : ℕ → α) :
    multiplyAddAcc (vec n f) (vec n g) (vec n h)
      = .ok (vec n (fun i => f i * g i + h i)) := by
  unfold multiplyAddAcc
  simp only [length_vec, and_self, decide_true, check_true, bind_ok]
  exact forN_map h (fun i v => f i * g i + v) _ (fun i hi h' hh => by simp [hi, hh])

end Neo
