import Mathlib.Logic.Function.Basic
import Mathlib.Tactic.Ring

/-!
# Core of the model: faults, checked buffers and loops

Every C++ function is modelled by a Lean function into `Res`.  Undefined
behaviour, failed assertions, exceptions and non-termination are separate
outcomes, so `run x = .ok y` states in particular that none of them happens.
-/

namespace Neo

/-- The ways in which a modelled C++ call can fail to return a value. -/
inductive Fault where
  /-- access outside a buffer or a `submdspan` range outside its parent (undefined behaviour) -/
  | oob
  /-- a failed `assert` (a violated documented precondition; undefined with `NDEBUG`) -/
  | assertion
  /-- integer division by zero (undefined behaviour), or a floating-point division by zero (a NaN or
  an infinity, which the exact arithmetic of the model has no value for) -/
  | divZero
  /-- signed overflow, over-wide shift or out-of-range float-to-int conversion (undefined behaviour) -/
  | overflow
  /-- a C++ exception -/
  | exception
  /-- the loop does not terminate -/
  | diverge
  deriving DecidableEq, Repr

/-- Result of a modelled call. -/
abbrev Res (α : Type) := Except Fault α

/-- Decidability of equality of results, for the concrete cases shown beside theorems. -/
instance instDecEqRes {α : Type} [DecidableEq α] : DecidableEq (Res α) := fun a b =>
  match a, b with
  | .ok x, .ok y => if h : x = y then isTrue (by rw [h]) else isFalse (fun e => h (by injection e))
  | .error x, .error y => if h : x = y then isTrue (by rw [h]) else isFalse (fun e => h (by injection e))
  | .ok _, .error _ => isFalse (fun e => by injection e)
  | .error _, .ok _ => isFalse (fun e => by injection e)

/-- `assert(c)`. -/
def check (c : Bool) : Res Unit := if c then .ok () else .error .assertion

/-- Checked read `xs[i]` of an mdspan / span / vector element. -/
def rd {α : Type} (xs : List α) (i : Nat) : Res α :=
  match xs[i]? with
  | some a => .ok a
  | none => .error .oob

/-- Checked write `xs[i] = a`. -/
def wr {α : Type} (xs : List α) (i : Nat) (a : α) : Res (List α) :=
  if i < xs.length then .ok (xs.set i a) else .error .oob

/-- `for (i = 0; i < n; ++i) s = body(i, s)`. -/
def forN {σ : Type} : Nat → (Nat → σ → Res σ) → σ → Res σ
  | 0, _, s => .ok s
  | n + 1, body, s => do
      let s ← forN n body s
      body n s

/-- `for (i = lo; i < hi; ++i) s = body(i, s)`. -/
def forR {σ : Type} (lo hi : Nat) (body : Nat → σ → Res σ) (s : σ) : Res σ :=
  forN (hi - lo) (fun i => body (lo + i)) s

/-- `submdspan(xs, tuple{lo, hi})` read as a value. -/
def rdSpan {α : Type} (xs : List α) (lo hi : Nat) : Res (List α) :=
  if lo ≤ hi ∧ hi ≤ xs.length then .ok ((xs.drop lo).take (hi - lo)) else .error .oob

/-- Overwrite the elements `xs[lo .. lo + ys.length)` (writing through a `submdspan`). -/
def wrSpan {α : Type} (xs : List α) (lo : Nat) (ys : List α) : Res (List α) :=
  if lo + ys.length ≤ xs.length then .ok (xs.take lo ++ ys ++ xs.drop (lo + ys.length))
  else .error .oob

/-! ## `vec`: buffers described by a function -/

/-- The list `[f 0, …, f (n-1)]`. -/
def vec {α : Type} (n : Nat) (f : Nat → α) : List α := (List.range n).map f

section lemmas
variable {α β σ : Type}

@[simp] theorem length_vec (n : Nat) (f : Nat → α) : (vec n f).length = n := by simp [vec]

theorem getElem?_vec (n : Nat) (f : Nat → α) (i : Nat) :
    (vec n f)[i]? = if i < n then some (f i) else none := by
  unfold vec
  rw [List.getElem?_map]
  split
  · rename_i h; rw [List.getElem?_range h]; rfl
  · rename_i h; rw [List.getElem?_eq_none (by simpa using h)]; rfl

theorem vec_ext {n : Nat} {f g : Nat → α} (h : ∀ i < n, f i = g i) : vec n f = vec n g := by
  unfold vec
  apply List.map_congr_left
  intro i hi
  exact h i (List.mem_range.mp hi)

theorem vec_inj {n : Nat} {f g : Nat → α} : vec n f = vec n g ↔ ∀ i < n, f i = g i := by
  constructor
  · intro h i hi
    have := congrArg (fun l => l[i]?) h
    simp only [getElem?_vec, hi, if_true] at this
    exact Option.some.inj this
  · exact vec_ext

theorem eq_vec_iff {xs : List α} {n : Nat} {f : Nat → α} :
    xs = vec n f ↔ xs.length = n ∧ ∀ i < n, xs[i]? = some (f i) := by
  constructor
  · rintro rfl
    refine ⟨length_vec _ _, fun i hi => ?_⟩
    rw [getElem?_vec, if_pos hi]
  · rintro ⟨hl, h⟩
    apply List.ext_getElem?
    intro i
    by_cases hi : i < n
    · rw [h i hi, getElem?_vec, if_pos hi]
    · rw [getElem?_vec, if_neg hi, List.getElem?_eq_none (by omega)]

/-- Every list is a `vec` of its own elements. -/
theorem eq_vec_getD (xs : List α) (d : α) : xs = vec xs.length (fun i => xs.getD i d) := by
  rw [eq_vec_iff]
  refine ⟨rfl, fun i hi => ?_⟩
  simp [List.getD, List.getElem?_eq_getElem hi]

theorem getD_vec (n : Nat) (f : Nat → α) (d : α) (i : Nat) (h : i < n) :
    (vec n f).getD i d = f i := by
  rw [List.getD, getElem?_vec, if_pos h]; rfl

@[simp] theorem rd_vec (n : Nat) (f : Nat → α) (i : Nat) :
    rd (vec n f) i = if i < n then .ok (f i) else .error .oob := by
  unfold rd
  rw [getElem?_vec]
  split <;> simp_all

theorem rd_vec_ok {n : Nat} {f : Nat → α} {i : Nat} (h : i < n) : rd (vec n f) i = .ok (f i) := by
  simp [h]

theorem rd_oob {xs : List α} {i : Nat} (h : xs.length ≤ i) : rd xs i = .error .oob := by
  unfold rd
  rw [List.getElem?_eq_none h]

theorem rd_ok {xs : List α} {i : Nat} (h : i < xs.length) : rd xs i = .ok xs[i] := by
  unfold rd
  rw [List.getElem?_eq_getElem h]

@[simp] theorem wr_vec [DecidableEq Nat] (n : Nat) (f : Nat → α) (i : Nat) (a : α) :
    wr (vec n f) i a = if i < n then .ok (vec n (Function.update f i a)) else .error .oob := by
  unfold wr
  rw [length_vec]
  split
  · rename_i h
    congr 1
    rw [eq_vec_iff]
    refine ⟨by simp, fun j hj => ?_⟩
    rw [List.getElem?_set]
    by_cases hij : i = j
    · subst hij; simp [h, Function.update_self]
    · rw [if_neg hij, getElem?_vec, if_pos hj, Function.update_of_ne (Ne.symm hij)]
  · rfl

theorem wr_vec_ok {n : Nat} {f : Nat → α} {i : Nat} {a : α} (h : i < n) :
    wr (vec n f) i a = .ok (vec n (Function.update f i a)) := by
  simp [h]

@[simp] theorem bind_ok (a : α) (f : α → Res β) : ((.ok a : Res α) >>= f) = f a := rfl
@[simp] theorem bind_error (e : Fault) (f : α → Res β) :
    ((.error e : Res α) >>= f) = .error e := rfl
@[simp] theorem pure_eq_ok (a : α) : (pure a : Res α) = .ok a := rfl

@[simp] theorem check_true : check true = .ok () := rfl
@[simp] theorem check_false : check false = .error .assertion := rfl

theorem check_ok {c : Bool} (h : c = true) : check c = .ok () := by simp [h]
theorem check_decide_ok {p : Prop} [Decidable p] (h : p) : check (decide p) = .ok () := by simp [h]

@[simp] theorem forN_zero (body : Nat → σ → Res σ) (s : σ) : forN 0 body s = .ok s := rfl
theorem forN_succ (n : Nat) (body : Nat → σ → Res σ) (s : σ) :
    forN (n + 1) body s = (forN n body s >>= body n) := rfl

/-- Loop rule: an invariant established before and preserved by each iteration holds after,
and the loop does not fault. -/
theorem forN_inv {n : Nat} {body : Nat → σ → Res σ} {s : σ} (I : Nat → σ → Prop)
    (h0 : I 0 s) (hstep : ∀ i < n, ∀ s, I i s → ∃ s', body i s = .ok s' ∧ I (i + 1) s') :
    ∃ s', forN n body s = .ok s' ∧ I n s' := by
  induction n with
  | zero => exact ⟨s, rfl, h0⟩
  | succ n ih =>
    obtain ⟨s1, e1, h1⟩ := ih (fun i hi => hstep i (by omega))
    obtain ⟨s2, e2, h2⟩ := hstep n (by omega) s1 h1
    exact ⟨s2, by rw [forN_succ, e1]; exact e2, h2⟩

/-- Loop rule with an explicit state at each iteration. -/
theorem forN_eq {n : Nat} {body : Nat → σ → Res σ} (st : Nat → σ)
    (hstep : ∀ i < n, body i (st i) = .ok (st (i + 1))) :
    forN n body (st 0) = .ok (st n) := by
  induction n with
  | zero => rfl
  | succ n ih =>
    rw [forN_succ, ih (fun i hi => hstep i (by omega))]
    exact hstep n (by omega)

theorem forN_eq' {n : Nat} {body : Nat → σ → Res σ} {s s' : σ} (st : Nat → σ)
    (h0 : st 0 = s) (hn : st n = s')
    (hstep : ∀ i < n, body i (st i) = .ok (st (i + 1))) :
    forN n body s = .ok s' := by
  rw [← h0, ← hn]; exact forN_eq st hstep

theorem forN_congr {n : Nat} {body body' : Nat → σ → Res σ} {s : σ}
    (h : ∀ i < n, ∀ s, body i s = body' i s) : forN n body s = forN n body' s := by
  induction n with
  | zero => rfl
  | succ n ih =>
    rw [forN_succ, forN_succ, ih (fun i hi => h i (by omega))]
    congr 1
    funext s
    exact h n (by omega) s

/-- A loop stops at the first fault. -/
theorem forN_error {n : Nat} {body : Nat → σ → Res σ} {s : σ} {e : Fault}
    (h0 : body 0 s = .error e) (hn : 0 < n) : forN n body s = .error e := by
  induction n with
  | zero => omega
  | succ n ih =>
    rw [forN_succ]
    rcases Nat.eq_zero_or_pos n with rfl | h
    · simpa using h0
    · rw [ih h]; rfl

theorem forR_eq' {lo hi : Nat} {body : Nat → σ → Res σ} {s s' : σ} (st : Nat → σ)
    (hle : lo ≤ hi) (h0 : st lo = s) (hn : st hi = s')
    (hstep : ∀ i, lo ≤ i → i < hi → body i (st i) = .ok (st (i + 1))) :
    forR lo hi body s = .ok s' := by
  unfold forR
  apply forN_eq' (fun i => st (lo + i))
  · simpa using h0
  · show st (lo + (hi - lo)) = s'
    rw [← hn]; congr 1; omega
  · intro i hi'
    exact hstep (lo + i) (by omega) (by omega)

theorem rdSpan_vec {n : Nat} {f : Nat → α} {lo hi : Nat} (h1 : lo ≤ hi) (h2 : hi ≤ n) :
    rdSpan (vec n f) lo hi = .ok (vec (hi - lo) (fun i => f (lo + i))) := by
  unfold rdSpan
  rw [length_vec, if_pos ⟨h1, h2⟩]
  congr 1
  rw [eq_vec_iff]
  refine ⟨by simp; omega, fun i hi' => ?_⟩
  rw [List.getElem?_take, if_pos hi', List.getElem?_drop, getElem?_vec, if_pos (by omega)]

theorem wrSpan_vec {n m : Nat} {f g : Nat → α} {lo : Nat} (h : lo + m ≤ n) :
    wrSpan (vec n f) lo (vec m g)
      = .ok (vec n (fun i => if lo ≤ i ∧ i < lo + m then g (i - lo) else f i)) := by
  unfold wrSpan
  rw [length_vec, length_vec, if_pos h]
  congr 1
  rw [eq_vec_iff]
  refine ⟨by simp; omega, fun i hi => ?_⟩
  by_cases h1 : i < lo
  · rw [List.append_assoc, List.getElem?_append_left (by simp; omega), List.getElem?_take,
      if_pos h1, getElem?_vec, if_pos hi, if_neg (by omega)]
  · by_cases h2 : i < lo + m
    · rw [List.getElem?_append_left (by simp; omega), List.getElem?_append_right (by simp; omega)]
      rw [getElem?_vec]
      simp only [List.length_take, length_vec]
      rw [Nat.min_eq_left (by omega), if_pos (by omega), if_pos (by omega)]
    · rw [List.getElem?_append_right (by simp; omega), List.getElem?_drop, getElem?_vec]
      simp only [List.length_append, List.length_take, length_vec]
      rw [Nat.min_eq_left (by omega), if_pos (by omega), if_neg (by omega)]
      congr 2; omega

theorem map_vec (n : Nat) (f : Nat → α) (g : α → β) : (vec n f).map g = vec n (fun i => g (f i)) := by
  simp [vec]

theorem vec_succ (n : Nat) (f : Nat → α) : vec (n + 1) f = vec n f ++ [f n] := by
  simp [vec, List.range_succ]

@[simp] theorem vec_zero (f : Nat → α) : vec 0 f = [] := rfl

end lemmas
end Neo
