import Verif.Lemmas.SplitRadixSizes
import Verif.Props.SplitRadix
import Mathlib.Data.List.GetD

/-! # C70: the recursive split-radix FFT of the snippets, for every size -/

namespace Neo.Props

open Neo Complex

/-- The call, in terms of the recursion. -/
theorem splitRadix_call (n fuel : ℕ) (x out : List ℂ) (hx : x.length = n) (ho : out.length = n) (dir : Direction) :
    ∃ plan lut1 lut3, SplitRadixPlan.make n = .ok plan ∧ lut1.length = n / 4 ∧ lut3.length = n / 4 ∧
      plan.call fuel x out dir = splitfft (vec n (fun i => x.getD i 0)) lut1 lut3 fuel 0 0 0 (2 ^ 0) n
        (vec n (fun i => out.getD i 0)) := by
  have hxv := list_eq_vec (0 : ℂ) hx
  have hov := list_eq_vec (0 : ℂ) ho
  refine ⟨_, vec (n / 4) (fun i => root n dir ^ i), vec (n / 4) (fun i => root n dir ^ (3 * i)), splitRadix_make n,
    length_vec _ _, length_vec _ _, ?_⟩
  unfold SplitRadixPlan.call
  rw [← hxv, ← hov, pow_zero]
  cases dir
  · rw [if_pos rfl]
  · rw [if_neg (by decide)]

/-- Sizes that begin with the binary digits `11`. -/
theorem splitfft_lead11 (fi : ℕ → ℂ) (L Lo : ℕ) (hL : 0 < L) (hLo : 0 < Lo) (lut1 lut3 : List ℂ) (o : ℕ → ℂ) :
    ∀ p n, n / 2 ^ p = 3 → ∀ fuel ls s, splitfft (vec L fi) lut1 lut3 fuel 0 0 ls s n (vec Lo o) = .error .diverge := by
  intro p
  induction p with
  | zero =>
    intro n hn fuel ls s
    rw [pow_zero, Nat.div_one] at hn
    subst hn
    match fuel with
    | 0 => rfl
    | 1 => rfl
    | fuel + 2 =>
      rw [splitfft.eq_def]
      dsimp only
      rw [if_neg (by norm_num), if_neg (by norm_num), show 3 / 2 = 1 by norm_num, show 3 / 4 = 0 by norm_num]
      have h1 : splitfft (vec L fi) lut1 lut3 (fuel + 1) 0 0 (ls + 1) (s * 2) 1 (vec Lo o)
          = .ok (vec Lo (Function.update o 0 (fi 0))) := by
        rw [splitfft.eq_def]
        dsimp only
        rw [if_pos rfl, rd_vec_ok hL, bind_ok, wr_vec_ok hLo]
      rw [h1, bind_ok, splitfft_zero]
      rfl
  | succ p ih =>
    intro n hn fuel ls s
    have hn' : n / 2 / 2 ^ p = 3 := by rw [Nat.div_div_eq_div_mul, mul_comm, ← pow_succ]; exact hn
    have h3 : 3 ≤ n / 2 := by rw [← hn']; exact Nat.div_le_self _ _
    cases fuel with
    | zero => rfl
    | succ fuel =>
      rw [splitfft.eq_def]
      dsimp only
      rw [if_neg (by omega), if_neg (by omega), ih (n / 2) hn']
      rfl

/-- **C70**, every size: what the call does depends only on the size.  If the size is zero or begins with the binary
digits `11`, the recursion does not end, however deep it may go.  If the size is one or begins with `10`, it ends without
a fault as long as `3 * n` fits an `int`, and otherwise overflows.  These are all the sizes. -/
theorem C70_sizes (n : ℕ) (hn : n < 2 ^ 31) (x out : List ℂ) (hx : x.length = n) (ho : out.length = n)
    (dir : Direction) :
    ∃ plan, SplitRadixPlan.make n = .ok plan ∧
      (n = 0 ∨ (∃ p, n / 2 ^ p = 3) → ∀ fuel, plan.call fuel x out dir = .error .diverge) ∧
      ((n = 1 ∨ ∃ p, n / 2 ^ p = 2) → 3 * n < 2 ^ 31 → ∀ fuel, n < fuel →
        ∃ y, plan.call fuel x out dir = .ok y ∧ y.length = n) ∧
      ((n = 1 ∨ ∃ p, n / 2 ^ p = 2) → 2 ^ 31 ≤ 3 * n → ∀ fuel, n < fuel →
        plan.call fuel x out dir = .error .overflow) ∧
      ((n = 0 ∨ ∃ p, n / 2 ^ p = 3) ∨ n = 1 ∨ ∃ p, n / 2 ^ p = 2) := by
  obtain ⟨plan, -, -, hmk, -⟩ := splitRadix_call n 0 x out hx ho dir
  have hcall : ∀ fuel, ∃ lut1 lut3 : List ℂ, lut1.length = n / 4 ∧ lut3.length = n / 4 ∧
      plan.call fuel x out dir = splitfft (vec n (fun i => x.getD i 0)) lut1 lut3 fuel 0 0 0 (2 ^ 0) n
        (vec n (fun i => out.getD i 0)) := by
    intro fuel
    obtain ⟨plan', l1, l3, h1, h2, h3, h4⟩ := splitRadix_call n fuel x out hx ho dir
    obtain rfl : plan' = plan := Except.ok.inj (h1.symm.trans hmk)
    exact ⟨l1, l3, h2, h3, h4⟩
  refine ⟨plan, hmk, ?_, ?_, ?_, ?_⟩
  · intro h fuel
    obtain ⟨l1, l3, -, -, e⟩ := hcall fuel
    rw [e]
    rcases h with rfl | ⟨p, hp⟩
    · exact splitfft_zero _ _ _ _ _ _ _ _ _
    · have : 0 < n := by
        rcases Nat.eq_zero_or_pos n with h | h
        · rw [h, Nat.zero_div] at hp; omega
        · exact h
      exact splitfft_lead11 _ n n this this l1 l3 _ p n hp fuel _ _
  · intro h h3 fuel hf
    obtain ⟨l1, l3, h1, h2, e⟩ := hcall fuel
    have hpos : 0 < n := by
      rcases h with rfl | h
      · norm_num
      · have := Lead10.two_le h; omega
    obtain ⟨o', e', -⟩ := splitSafe_of (fi := fun i => x.getD i 0) (L := n) (Lo := n) h1 h2 n h h3 fuel hf 0 0 0
      (by rw [pow_zero, one_mul]) (by rw [pow_zero]; omega) (by omega) (fun i => out.getD i 0)
    exact ⟨_, e.trans e', length_vec _ _⟩
  · intro h h3 fuel hf
    obtain ⟨l1, l3, h1, h2, e⟩ := hcall fuel
    rw [e]
    have h' : Lead10 n := by
      rcases h with rfl | h
      · norm_num at h3
      · exact h
    have := h'.two_le
    exact splitfft_overflow h1 h2 n h' h3 hn fuel hf 0 0 0 (by rw [pow_zero, one_mul]) (by rw [pow_zero]; omega)
      (by omega) (fun i => out.getD i 0)
  · rcases lead_cases n with h | h | h | h
    · exact Or.inl (Or.inl h)
    · exact Or.inr (Or.inl h)
    · exact Or.inr (Or.inr h)
    · exact Or.inl (Or.inr h)

/-- Twelve points: the recursion does not end. -/
example (x out : List ℂ) (hx : x.length = 12) (ho : out.length = 12) (fuel : ℕ) :
    ∃ plan, SplitRadixPlan.make 12 = .ok plan ∧ plan.call fuel x out .forward = .error .diverge := by
  obtain ⟨plan, h1, h2, -⟩ := C70_sizes 12 (by norm_num) x out hx ho .forward
  exact ⟨plan, h1, h2 (Or.inr ⟨2, by norm_num⟩) fuel⟩

/-- Ten points: no fault. -/
example (x out : List ℂ) (hx : x.length = 10) (ho : out.length = 10) :
    ∃ plan y, SplitRadixPlan.make 10 = .ok plan ∧ plan.call 11 x out .forward = .ok y ∧ y.length = 10 := by
  obtain ⟨plan, h1, -, h2, -⟩ := C70_sizes 10 (by norm_num) x out hx ho .forward
  obtain ⟨y, h3, h4⟩ := h2 (Or.inr ⟨2, by norm_num⟩) (by norm_num) 11 (by norm_num)
  exact ⟨plan, y, h1, h3, h4⟩

/-- **C70**, other sizes: for a size `2 ^ s * m` with `m` odd that is not a power of two and for which the call ends, the
result depends on what the output buffer held at index `m - 1` before the call. -/
theorem C70_stale_output (s m : ℕ) (hodd : m % 2 = 1) (hm : m ≠ 1) (hlead : ∃ p, 2 ^ s * m / 2 ^ p = 2)
    (h3 : 3 * (2 ^ s * m) < 2 ^ 31) (x out out' : List ℂ) (hx : x.length = 2 ^ s * m) (ho : out.length = 2 ^ s * m)
    (ho' : out'.length = 2 ^ s * m) (hne : out[m - 1]? ≠ out'[m - 1]?) (dir : Direction) (fuel : ℕ)
    (hf : 2 ^ s * m < fuel) :
    ∃ plan y y', SplitRadixPlan.make (2 ^ s * m) = .ok plan ∧ plan.call fuel x out dir = .ok y ∧
      plan.call fuel x out' dir = .ok y' ∧ y ≠ y' := by
  have hm10 : Lead10 m := (Lead10.odd_part s hlead).resolve_left hm
  have h2 := Lead10.two_le hlead
  have hge : m ≤ 2 ^ s * m := Nat.le_mul_of_pos_left m (Nat.two_pow_pos s)
  have hmp := hm10.two_le
  obtain ⟨φ, hφ, hrec⟩ := splitfft_keeps hodd hm10 s h3 hlead
  obtain ⟨plan, l1, l3, hmk, e1, e2, e⟩ := splitRadix_call (2 ^ s * m) fuel x out hx ho dir
  obtain ⟨plan', l1', l3', hmk', e1', e2', e'⟩ := splitRadix_call (2 ^ s * m) fuel x out' hx ho' dir
  obtain rfl : plan' = plan := Except.ok.inj (hmk'.symm.trans hmk)
  generalize 2 ^ s * m = n at *
  obtain ⟨o, a, b⟩ := hrec (fun i => x.getD i 0) n n n l1 l3 e1 e2 fuel hf 0 0 0 (by rw [pow_zero, one_mul])
    (by rw [pow_zero]; omega) (by omega) (fun i => out.getD i 0)
  obtain ⟨o', a', b'⟩ := hrec (fun i => x.getD i 0) n n n l1' l3' e1' e2' fuel hf 0 0 0 (by rw [pow_zero, one_mul])
    (by rw [pow_zero]; omega) (by omega) (fun i => out'.getD i 0)
  refine ⟨_, _, _, hmk, e.trans a, e'.trans a', ?_⟩
  intro h
  apply hne
  have hoo := vec_inj.1 h
  have : φ (fun i => o (0 + i)) = φ (fun i => o' (0 + i)) := hφ _ _ (fun i hi => by rw [zero_add]; exact hoo i hi)
  rw [b, b', zero_add] at this
  rw [List.getElem?_eq_getElem (by omega), List.getElem?_eq_getElem (by omega)]
  rw [← List.getD_eq_getElem _ 0, ← List.getD_eq_getElem _ 0]
  exact congrArg some this

/-- Twenty points. -/
example (x : List ℂ) (hx : x.length = 20) : ∃ plan y y', SplitRadixPlan.make 20 = .ok plan ∧
    plan.call 21 x (List.replicate 20 0) .forward = .ok y ∧ plan.call 21 x (List.replicate 20 1) .forward = .ok y' ∧
    y ≠ y' :=
  C70_stale_output 2 5 (by norm_num) (by norm_num) ⟨3, by norm_num⟩ (by norm_num) x (List.replicate 20 0)
    (List.replicate 20 1) hx (by simp) (by simp) (by simp) .forward 21 (by norm_num)

/-- A size for which no result depends on the output buffer is a power of two up to `2 ^ 29`. -/
theorem splitRadix_size_pow (n : ℕ) (hn : n < 2 ^ 31) (dir : Direction) (F : List ℂ → List ℂ)
    (h : ∀ x out : List ℂ, x.length = n → out.length = n → ∃ plan fuel₀, SplitRadixPlan.make n = .ok plan ∧
      ∀ fuel ≥ fuel₀, plan.call fuel x out dir = .ok (F x)) : ∃ P ≤ 29, n = 2 ^ P := by
  obtain ⟨plan, hmk, c1, c2, c3, c4⟩ := C70_sizes n hn (List.replicate n 0) (List.replicate n 0) (by simp) (by simp) dir
  obtain ⟨plan', f0, hmk', hok⟩ := h (List.replicate n 0) (List.replicate n 0) (by simp) (by simp)
  obtain rfl : plan' = plan := Except.ok.inj (hmk'.symm.trans hmk)
  rcases c4 with hbad | hgood
  · have := (c1 hbad f0).symm.trans (hok f0 le_rfl)
    cases this
  by_cases h3 : 3 * n < 2 ^ 31
  swap
  · have := (c3 hgood (by omega) (max f0 (n + 1)) (by omega)).symm.trans (hok _ (by omega))
    cases this
  have hpos : n ≠ 0 := by
    rcases hgood with rfl | h
    · norm_num
    · have := Lead10.two_le h; omega
  obtain ⟨s, m, hodd, rfl⟩ := Nat.exists_eq_two_pow_mul_odd hpos
  have hm2 : m % 2 = 1 := Nat.odd_iff.1 hodd
  by_cases hm : m = 1
  · subst hm
    rw [mul_one] at h3 ⊢
    refine ⟨s, ?_, rfl⟩
    by_contra hs
    have := Nat.pow_le_pow_right (n := 2) (by norm_num) (show 30 ≤ s by omega)
    have : 2 ^ 30 ≤ 2 ^ s := this
    generalize 2 ^ s = t at *
    omega
  exfalso
  have hlead : ∃ p, 2 ^ s * m / 2 ^ p = 2 := by
    rcases hgood with h1 | h1
    · exact absurd (Nat.eq_one_of_mul_eq_one_left h1) hm
    · exact h1
  obtain ⟨plan1, f1, m1, ok1⟩ := h (List.replicate (2 ^ s * m) 0) (List.replicate (2 ^ s * m) 0) (by simp) (by simp)
  obtain ⟨plan2, f2, m2, ok2⟩ := h (List.replicate (2 ^ s * m) 0) (List.replicate (2 ^ s * m) 1) (by simp) (by simp)
  have hge : m ≤ 2 ^ s * m := Nat.le_mul_of_pos_left m (Nat.two_pow_pos s)
  have hmp : 0 < m := hodd.pos
  obtain ⟨plan3, y, y', m3, k1, k2, hne⟩ := C70_stale_output s m hm2 hm hlead h3 (List.replicate (2 ^ s * m) 0)
    (List.replicate (2 ^ s * m) 0) (List.replicate (2 ^ s * m) 1) (by simp) (by simp) (by simp)
    (by
      rw [List.getElem?_replicate, List.getElem?_replicate, if_pos (by omega), if_pos (by omega)]
      simp) dir (max (2 ^ s * m + 1) (max f1 f2)) (by omega)
  obtain rfl : plan1 = plan3 := Except.ok.inj (m1.symm.trans m3)
  obtain rfl : plan2 = plan1 := Except.ok.inj (m2.symm.trans m3)
  apply hne
  have r1 := k1.symm.trans (ok1 _ (by omega))
  have r2 := k2.symm.trans (ok2 _ (by omega))
  exact (Except.ok.inj r1).trans (Except.ok.inj r2).symm

/-- **C70** (forward), exactly: the forward call gives the DFT of every input, whatever the output buffer holds, if and
only if the size is a power of two up to `2 ^ 29`. -/
theorem C70_forward_exact (n : ℕ) (hn : n < 2 ^ 31) :
    (∀ x out : List ℂ, x.length = n → out.length = n → ∃ plan fuel₀, SplitRadixPlan.make n = .ok plan ∧
      ∀ fuel ≥ fuel₀, plan.call fuel x out .forward
        = .ok ((List.range n).map (Spec.dft n (fun i => x.getD i 0)))) ↔ ∃ P ≤ 29, n = 2 ^ P := by
  constructor
  · exact splitRadix_size_pow n hn .forward _
  · rintro ⟨P, hP, rfl⟩ x out hx ho
    refine ⟨_, P + 1, splitRadix_make _, ?_⟩
    intro fuel hf
    obtain ⟨plan, y, h1, h2, h3, h4⟩ := C70_forward_partial P hP x hx out ho fuel hf
    obtain rfl := Except.ok.inj ((splitRadix_make _).symm.trans h1)
    rw [h2]
    congr 1
    apply List.ext_getElem?
    intro k
    by_cases hk : k < 2 ^ P
    · rw [h4 k hk, List.getElem?_map, List.getElem?_range hk]; rfl
    · rw [List.getElem?_eq_none (by omega), List.getElem?_eq_none (by simp; omega)]

/-- **C70** (backward), exactly: the backward call gives the unnormalised inverse DFT of every input, whatever the output
buffer holds, if and only if there are one or two points. -/
theorem C70_backward_exact (n : ℕ) (hn : n < 2 ^ 31) :
    (∀ x out : List ℂ, x.length = n → out.length = n → ∃ plan fuel₀, SplitRadixPlan.make n = .ok plan ∧
      ∀ fuel ≥ fuel₀, plan.call fuel x out .backward
        = .ok ((List.range n).map (Spec.idft n (fun i => x.getD i 0)))) ↔ n = 1 ∨ n = 2 := by
  constructor
  · intro h
    obtain ⟨P, hP, rfl⟩ := splitRadix_size_pow n hn .backward _ h
    by_cases h2 : 2 ≤ P
    · exfalso
      obtain ⟨plan, f0, m1, ok1⟩ := h (vec (2 ^ P) (fun i => if i = 1 then 1 else 0)) (List.replicate (2 ^ P) 0)
        (length_vec _ _) (by simp)
      obtain ⟨plan', y, m2, e, hy, hI⟩ := C70_backward_false P h2 hP (List.replicate (2 ^ P) 0) (by simp)
        (max f0 (P + 1)) (by omega)
      obtain rfl : plan' = plan := Except.ok.inj (m2.symm.trans m1)
      have := Except.ok.inj ((ok1 _ (by omega)).symm.trans e)
      rw [← this, List.getElem?_map, List.getElem?_range (Nat.div_lt_self (Nat.two_pow_pos P) (by norm_num)),
        Option.map_some] at hy
      have hy := Option.some.inj hy
      have hd : Spec.idft (2 ^ P) (fun i => (vec (2 ^ P) (fun i => if i = 1 then (1 : ℂ) else 0)).getD i 0) (2 ^ P / 4)
          = I := by
        rw [← hI]
        unfold Spec.idft
        refine Finset.sum_congr rfl (fun i hi => ?_)
        beta_reduce
        rw [getD_vec]
        exact Finset.mem_range.1 hi
      rw [hd] at hy
      have : (2 : ℂ) * I = 0 := by linear_combination hy
      simp at this
    · have : P = 0 ∨ P = 1 := by omega
      rcases this with rfl | rfl
      · exact Or.inl rfl
      · exact Or.inr rfl
  · intro h x out hx ho
    obtain ⟨P, hP, rfl⟩ : ∃ P ≤ 1, n = 2 ^ P := by
      rcases h with rfl | rfl
      · exact ⟨0, by norm_num, rfl⟩
      · exact ⟨1, le_rfl, rfl⟩
    refine ⟨_, P + 1, splitRadix_make _, ?_⟩
    intro fuel hf
    obtain ⟨plan, y, h1, h2, h3, h4⟩ := C70_backward_partial P hP x hx out ho fuel hf
    obtain rfl := Except.ok.inj ((splitRadix_make _).symm.trans h1)
    rw [h2]
    congr 1
    apply List.ext_getElem?
    intro k
    by_cases hk : k < 2 ^ P
    · rw [h4 k hk, List.getElem?_map, List.getElem?_range hk]; rfl
    · rw [List.getElem?_eq_none (by omega), List.getElem?_eq_none (by simp; omega)]

/-- Twenty points are not transformed; sixteen are. -/
example : ¬(∃ P ≤ 29, 20 = 2 ^ P) ∧ ∃ P ≤ 29, 16 = 2 ^ P := by
  refine ⟨?_, 4, by norm_num, by norm_num⟩
  rintro ⟨P, hP, h⟩
  interval_cases P <;> omega

end Neo.Props
