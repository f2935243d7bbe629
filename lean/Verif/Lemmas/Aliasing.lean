import Verif.Model.Aliasing
import Verif.Model.Overlap
import Verif.Lemmas.Stats
import Verif.Lemmas.Simd
import Verif.Lemmas.MultiplyAdd

/-! # Loops that write one element per iteration of a shared memory -/

namespace Neo

variable {α : Type}

/-- A loop whose iteration `t` writes `val t` to place `o t`, where `val t` is computed from the places that were not
written yet. -/
theorem forN_at {L n : ℕ} (m : ℕ → α) (o : ℕ → ℕ) (val : ℕ → α) (hinj : ∀ i < n, ∀ j < n, o i = o j → i = j)
    (body : ℕ → List α → Res (List α))
    (hbody : ∀ t < n, ∀ g : ℕ → α, (∀ p, (∀ i < t, o i ≠ p) → g p = m p) →
      body t (vec L g) = .ok (vec L (Function.update g (o t) (val t)))) :
    ∃ g, forN n body (vec L m) = .ok (vec L g) ∧ (∀ i < n, g (o i) = val i) ∧
      ∀ p, (∀ i < n, o i ≠ p) → g p = m p := by
  obtain ⟨s, e, g, rfl, h1, h2⟩ := forN_inv (n := n) (body := body) (s := vec L m)
    (fun t s => ∃ g, s = vec L g ∧ (∀ i < t, g (o i) = val i) ∧ ∀ p, (∀ i < t, o i ≠ p) → g p = m p)
    ⟨m, rfl, fun i hi => absurd hi (Nat.not_lt_zero i), fun _ _ => rfl⟩ (by
      rintro t ht s ⟨g, rfl, h1, h2⟩
      refine ⟨_, hbody t ht g h2, _, rfl, ?_, ?_⟩
      · intro i hi
        by_cases e : i = t
        · rw [e, Function.update_self]
        · rw [Function.update_of_ne (fun h => e (hinj i (by omega) t ht h)), h1 i (by omega)]
      · intro p hp
        rw [Function.update_of_ne (fun h => hp t (by omega) h.symm)]
        exact h2 p (fun i hi => hp i (by omega)))
  exact ⟨g, e, h1, h2⟩

theorem forN_nested {σ : Type} {R C : ℕ} (hC : 0 < C) (body : ℕ → ℕ → σ → Res σ) : ∀ (s : σ),
    forN R (fun i s => forN C (fun j s => body i j s) s) s = forN (R * C) (fun k s => body (k / C) (k % C) s) s := by
  have hadd : ∀ (a b : ℕ) (f : ℕ → σ → Res σ) (s : σ),
      forN (a + b) f s = (forN a f s >>= fun s => forN b (fun j => f (a + j)) s) := by
    intro a b f s
    induction b with
    | zero => rw [Nat.add_zero]; cases forN a f s <;> rfl
    | succ b ih =>
      rw [← Nat.add_assoc, forN_succ, ih]
      cases forN a f s with
      | error e => rfl
      | ok s' => rw [bind_ok, bind_ok, forN_succ]
  induction R with
  | zero => intro s; rw [Nat.zero_mul]; rfl
  | succ R ih =>
    intro s
    rw [forN_succ, ih, Nat.succ_mul, hadd]
    congr 1
    funext s'
    apply forN_congr
    intro j hj s''
    rw [show (R * C + j) / C = R by rw [Nat.mul_comm, Nat.mul_add_div hC, Nat.div_eq_of_lt hj, Nat.add_zero],
      show (R * C + j) % C = j by rw [Nat.mul_comm, Nat.mul_add_mod, Nat.mod_eq_of_lt hj]]

/-- The memory after `t` elements written from place `b` on. -/
def memAfter (m : ℕ → α) (b : ℕ) (val : ℕ → α) (t p : ℕ) : α := if b ≤ p ∧ p < b + t then val (p - b) else m p

theorem memAfter_zero (m : ℕ → α) (b : ℕ) (val : ℕ → α) : memAfter m b val 0 = m := by
  funext p
  unfold memAfter
  rw [if_neg (by omega)]

theorem memAfter_read {m : ℕ → α} {b r n : ℕ} {val : ℕ → α} {t j : ℕ} (hr : b ≤ r ∨ r + n ≤ b) (h : t ≤ j) (hj : j < n) :
    memAfter m b val t (r + j) = m (r + j) := by
  unfold memAfter
  rw [if_neg (by omega)]

theorem memAfter_span {L t V b : ℕ} (m val : ℕ → α) (h : b + t + V ≤ L) :
    wrSpan (vec L (memAfter m b val t)) (b + t) (vec V (fun i => val (t + i))) = .ok (vec L (memAfter m b val (t + V))) := by
  rw [wrSpan_vec h]
  congr 1
  apply vec_ext
  intro p _
  unfold memAfter
  by_cases c : b + t ≤ p ∧ p < b + t + V
  · rw [if_pos c, if_pos (by omega)]
    congr 1; omega
  · rw [if_neg c]
    by_cases c' : b ≤ p ∧ p < b + t
    · rw [if_pos c', if_pos (by omega)]
    · rw [if_neg c', if_neg (by omega)]

theorem memAfter_wr {L t b : ℕ} (m val : ℕ → α) (h : b + t < L) :
    wr (vec L (memAfter m b val t)) (b + t) (val t) = .ok (vec L (memAfter m b val (t + 1))) := by
  rw [wr_vec_ok h]
  congr 1
  apply vec_ext
  intro p _
  unfold memAfter
  by_cases c : p = b + t
  · rw [c, Function.update_self, if_pos (by omega)]
    congr 1; omega
  · rw [Function.update_of_ne c]
    by_cases c' : b ≤ p ∧ p < b + t
    · rw [if_pos c', if_pos (by omega)]
    · rw [if_neg c', if_neg (by omega)]

theorem zipWith_vec_same {β γ : Type} (f : α → β → γ) {n : ℕ} (x : ℕ → α) (y : ℕ → β) :
    List.zipWith f (vec n x) (vec n y) = vec n (fun i => f (x i) (y i)) := by
  unfold vec
  rw [List.zipWith_map_left, List.zipWith_map_right, List.zipWith_self]

/-- Elements written to two planes that do not overlap: the order does not matter. -/
theorem memAfter_comm {n a b s t : ℕ} (m u v : ℕ → α) (h : a + n ≤ b ∨ b + n ≤ a) (hs : s ≤ n) (ht : t ≤ n) :
    memAfter (memAfter m a u s) b v t = memAfter (memAfter m b v t) a u s := by
  funext p
  unfold memAfter
  by_cases c1 : b ≤ p ∧ p < b + t
  · rw [if_pos c1, if_pos c1, if_neg (by omega)]
  · rw [if_neg c1, if_neg c1]

/-- A loop that writes `u t` to place `a t` and `v t` to place `b t`. -/
theorem forN_at2 {L n : ℕ} (m : ℕ → α) (a b : ℕ → ℕ) (u v : ℕ → α) (ha : ∀ i < n, ∀ j < n, a i = a j → i = j)
    (hb : ∀ i < n, ∀ j < n, b i = b j → i = j) (hab : ∀ i < n, ∀ j < n, a i ≠ b j)
    (body : ℕ → List α → Res (List α))
    (hbody : ∀ t < n, ∀ g : ℕ → α, (∀ p, (∀ i < t, a i ≠ p ∧ b i ≠ p) → g p = m p) →
      (∀ i < t, g (a i) = u i) →
      body t (vec L g) = .ok (vec L (Function.update (Function.update g (a t) (u t)) (b t) (v t)))) :
    ∃ g, forN n body (vec L m) = .ok (vec L g) ∧ (∀ i < n, g (a i) = u i) ∧ (∀ i < n, g (b i) = v i) ∧
      ∀ p, (∀ i < n, a i ≠ p ∧ b i ≠ p) → g p = m p := by
  obtain ⟨s, e, g, rfl, h1, h2, h3⟩ := forN_inv (n := n) (body := body) (s := vec L m)
    (fun t s => ∃ g, s = vec L g ∧ (∀ i < t, g (a i) = u i) ∧ (∀ i < t, g (b i) = v i) ∧
      ∀ p, (∀ i < t, a i ≠ p ∧ b i ≠ p) → g p = m p)
    ⟨m, rfl, fun i hi => absurd hi (Nat.not_lt_zero i), fun i hi => absurd hi (Nat.not_lt_zero i), fun _ _ => rfl⟩ (by
      rintro t ht s ⟨g, rfl, h1, h2, h3⟩
      refine ⟨_, hbody t ht g h3 h1, _, rfl, ?_, ?_, ?_⟩
      · intro i hi
        rw [Function.update_of_ne (hab i (by omega) t ht)]
        by_cases e : i = t
        · rw [e, Function.update_self]
        · rw [Function.update_of_ne (fun h => e (ha i (by omega) t ht h)), h1 i (by omega)]
      · intro i hi
        by_cases e : i = t
        · rw [e, Function.update_self]
        · rw [Function.update_of_ne (fun h => e (hb i (by omega) t ht h)),
            Function.update_of_ne (fun h => hab t ht i (by omega) h.symm), h2 i (by omega)]
      · intro p hp
        rw [Function.update_of_ne (fun h => (hp t (by omega)).2 h.symm),
          Function.update_of_ne (fun h => (hp t (by omega)).1 h.symm)]
        exact h3 p (fun i hi => hp i (by omega)))
  exact ⟨g, e, h1, h2, h3⟩

theorem conv_int_small {n : ℕ} (hn : n < 2 ^ 31) : ((⟨true, 32⟩ : IntT).conv (n : ℤ)).toNat = n := by
  have e : (⟨true, 32⟩ : IntT).conv (n : ℤ) = n := by
    refine i32_conv ((fits_i32 _).2 ⟨by omega, ?_⟩)
    have : (n : ℤ) < ((2 ^ 31 : ℕ) : ℤ) := by exact_mod_cast hn
    norm_num at this
    omega
  rw [e, Int.toNat_natCast]

end Neo
