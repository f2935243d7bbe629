import Verif.Lemmas.Aliasing
import Verif.Lemmas.Overlap
import Verif.Lemmas.Out

/-! # C95: the element-wise algorithms on overlapping views -/

namespace Neo.Props

open Neo

variable {α : Type}

/-- Two elements of a view are at different places. -/
def Distinct (v : VecView) : Prop := ∀ i < v.size, ∀ j < v.size, v.idx i = v.idx j → i = j

/-- No element of `x` is overwritten before its turn when the elements of `out` are written in order. -/
def ReadFirst (x out : VecView) : Prop := ∀ i j, i < j → j < x.size → out.idx i ≠ x.idx j

/-- Views with a positive stride have distinct elements. -/
theorem distinct_of_stride {v : VecView} (h : 1 ≤ v.stride) : Distinct v := by
  intro i _ j _ e
  unfold VecView.idx at e
  exact Nat.eq_of_mul_eq_mul_right h (by omega)

/-- A view is compatible with itself. -/
theorem readFirst_self {v : VecView} (h : Distinct v) : ReadFirst v v := by
  intro i j hij hj e
  have := h i (by omega) j hj e
  omega

theorem vec_getElem? {L : ℕ} {mem : List α} (hL : mem.length = L) (d : α) {p : ℕ} (hp : p < L) :
    mem[p]? = some (mem.getD p d) := by
  rw [List.getD, List.getElem?_eq_getElem (by omega)]
  rfl

/-- **C95** (copy): if no element is overwritten before it is read, every element of `out` becomes the element that `in`
had before the call, and the rest of the memory stays as it was. -/
theorem C95_copy (x out : VecView) (mem : List α) (hs : x.size = out.size) (hx : x.InRange mem.length)
    (ho : out.InRange mem.length) (hd : Distinct out) (hr : ReadFirst x out) :
    ∃ mem', copyAt x out mem = .ok mem' ∧ mem'.length = mem.length ∧
      (∀ i < x.size, mem'[out.idx i]? = mem[x.idx i]?) ∧
      ∀ p, (∀ i < x.size, out.idx i ≠ p) → mem'[p]? = mem[p]? := by
  cases mem with
  | nil =>
    have h0 : x.size = 0 := by
      by_contra h
      exact absurd (hx 0 (by omega)) (Nat.not_lt_zero _)
    refine ⟨[], ?_, rfl, fun i hi => by omega, fun _ _ => rfl⟩
    unfold copyAt
    rw [check_decide_ok hs, bind_ok, h0]
    rfl
  | cons d tl =>
    generalize hmem : d :: tl = mem at *
    have hm : mem = vec mem.length (fun i => mem.getD i d) := list_eq_vec d rfl
    generalize hL : mem.length = L at *
    obtain ⟨g, e, h1, h2⟩ := forN_at (L := L) (n := x.size) (fun i => mem.getD i d) out.idx
      (fun i => mem.getD (x.idx i) d) (by rw [hs]; exact hd)
      (fun i mem => do
        let v ← rd mem (x.idx i)
        wr mem (out.idx i) v) (by
        intro t ht g hg
        rw [rd_vec_ok (hx t ht), bind_ok, hg _ (fun i hi => hr i t hi ht), wr_vec_ok (ho t (by omega))])
    refine ⟨vec L g, ?_, length_vec _ _, ?_, ?_⟩
    · unfold copyAt
      rw [check_decide_ok hs, bind_ok]
      conv_lhs => rw [hm]
      exact e
    · intro i hi
      rw [getElem?_vec, if_pos (ho i (by omega)), h1 i hi, vec_getElem? hL d (hx i hi)]
    · intro p hp
      by_cases hpl : p < L
      · rw [getElem?_vec, if_pos hpl, h2 p hp, vec_getElem? hL d hpl]
      · rw [List.getElem?_eq_none (by rw [length_vec]; omega), List.getElem?_eq_none (by omega)]

/-- Moving five elements down by two inside ten. -/
example : ∃ mem', copyAt ⟨2, 1, 5⟩ ⟨0, 1, 5⟩ (List.range 10) = .ok mem' ∧ mem'[4]? = some 6 := by
  obtain ⟨mem', h1, -, h2, -⟩ := C95_copy (α := ℕ) ⟨2, 1, 5⟩ ⟨0, 1, 5⟩ (List.range 10) rfl
    (fun i hi => by simp [VecView.idx] at hi ⊢; omega) (fun i hi => by simp [VecView.idx] at hi ⊢; omega)
    (distinct_of_stride (by norm_num)) (fun i j h1 h2 => by simp [VecView.idx]; omega)
  exact ⟨mem', h1, by simpa [VecView.idx] using h2 4 (by norm_num)⟩

/-- **C95** (copy, exactly): for views with distinct elements, `copy` gives the old elements of `in` for every content of
the memory if and only if no element is overwritten before it is read. -/
theorem C95_copy_exact [Nontrivial α] (L : ℕ) (x out : VecView) (hs : x.size = out.size) (hx : x.InRange L)
    (ho : out.InRange L) (hdx : Distinct x) (hd : Distinct out) :
    (∀ mem : List α, mem.length = L → ∃ mem', copyAt x out mem = .ok mem' ∧
      ∀ i < x.size, mem'[out.idx i]? = mem[x.idx i]?) ↔ ReadFirst x out := by
  constructor
  · intro h
    by_contra hr
    have hex : ∃ i, ∃ j, i < j ∧ j < x.size ∧ out.idx i = x.idx j := by
      unfold ReadFirst at hr
      push_neg at hr
      exact hr
    classical
    obtain ⟨j, hij, hj, he⟩ := Nat.find_spec hex
    have hmin := fun k (hk : k < Nat.find hex) => Nat.find_min hex hk
    generalize Nat.find hex = i at *
    obtain ⟨a, b, hab⟩ := exists_pair_ne α
    -- only element `i` of the source is `a`
    let m : ℕ → α := fun p => if p = x.idx i then a else b
    obtain ⟨mem', e, hcopy⟩ := h (vec L m) (length_vec _ _)
    have hgen : ∀ n ≤ x.size, ∃ g, forN n (fun i (mem : List α) => do
        let v ← rd mem (x.idx i)
        wr mem (out.idx i) v) (vec L m) = .ok (vec L g) ∧
        (∀ p, (∀ k < n, out.idx k ≠ p) → g p = m p) ∧ (i < n → g (out.idx i) = a) ∧
        (j < n → g (out.idx j) = a) := by
      intro n
      induction n with
      | zero => intro _; exact ⟨m, rfl, fun _ _ => rfl, fun h => absurd h (Nat.not_lt_zero _),
          fun h => absurd h (Nat.not_lt_zero _)⟩
      | succ n ih =>
        intro hn
        obtain ⟨g, e1, g1, g2, g3⟩ := ih (by omega)
        refine ⟨Function.update g (out.idx n) (g (x.idx n)), ?_, ?_, ?_, ?_⟩
        · rw [forN_succ, e1, bind_ok, rd_vec_ok (hx n (by omega)), bind_ok, wr_vec_ok (ho n (by omega))]
        · intro p hp
          rw [Function.update_of_ne (fun h => hp n (by omega) h.symm)]
          exact g1 p (fun k hk => hp k (by omega))
        · intro hin
          by_cases c : i = n
          · rw [← c, Function.update_self, g1 (x.idx i) (fun k hk h => hmin k (by omega) ⟨i, by omega, by omega, h⟩)]
            exact if_pos rfl
          · rw [Function.update_of_ne (fun h => c (hd i (by omega) n (by omega) h))]
            exact g2 (by omega)
        · intro hjn
          by_cases c : j = n
          · rw [← c, Function.update_self, ← he]
            exact g2 (by omega)
          · rw [Function.update_of_ne (fun h => c (hd j (by omega) n (by omega) h))]
            exact g3 (by omega)
    obtain ⟨g, e1, -, -, g3⟩ := hgen x.size le_rfl
    unfold copyAt at e
    rw [check_decide_ok hs, bind_ok, e1] at e
    obtain rfl := Except.ok.inj e
    have := hcopy j hj
    rw [getElem?_vec, if_pos (ho j (by omega)), getElem?_vec, if_pos (hx j hj), g3 hj] at this
    have hb : m (x.idx j) = b := if_neg (fun h => by
      have := hdx j hj i (by omega) h
      omega)
    rw [hb] at this
    exact hab (Option.some.inj this)
  · intro hr mem hmem
    obtain ⟨mem', h1, -, h2, -⟩ := C95_copy x out mem hs (hmem ▸ hx) (hmem ▸ ho) hd hr
    exact ⟨mem', h1, h2⟩

/-- **C95** (copy, contiguous views): a copy of `n ≥ 1` neighbouring elements is right for every content of the memory if
and only if the destination does not begin inside the source behind its first element. -/
theorem C95_copy_contiguous [Nontrivial α] (L a b n : ℕ) (hn : 1 ≤ n) (ha : a + n ≤ L) (hb : b + n ≤ L) :
    (∀ mem : List α, mem.length = L → ∃ mem', copyAt ⟨a, 1, n⟩ ⟨b, 1, n⟩ mem = .ok mem' ∧
      ∀ i < n, mem'[b + i]? = mem[a + i]?) ↔ b ≤ a ∨ a + n ≤ b := by
  have h := C95_copy_exact (α := α) L ⟨a, 1, n⟩ ⟨b, 1, n⟩ rfl
    (fun i hi => by simp only [VecView.idx] at hi ⊢; omega) (fun i hi => by simp only [VecView.idx] at hi ⊢; omega)
    (distinct_of_stride le_rfl) (distinct_of_stride le_rfl)
  simp only [VecView.idx, Nat.mul_one] at h
  rw [h]
  unfold ReadFirst
  simp only [VecView.idx, Nat.mul_one]
  constructor
  · intro h
    by_contra hc
    exact h 0 (b - a) (by omega) (by omega) (by omega)
  · intro h i j hij hj
    omega

/-- Moving up by one inside the same buffer repeats the first element. -/
example : copyAt ⟨0, 1, 4⟩ ⟨1, 1, 4⟩ [1, 2, 3, 4, 5] = .ok [1, 1, 1, 1, 1] := by decide

/-- **C95** (matrices): `copy` between two matrix views of one memory. -/
theorem C95_copy_matrix (x out : MatView) (mem : List α) (hs : x.rows = out.rows ∧ x.cols = out.cols)
    (hx : x.Within mem.length) (ho : out.Within mem.length)
    (hd : ∀ i < x.rows, ∀ j < x.cols, ∀ i' < x.rows, ∀ j' < x.cols, out.idx i j = out.idx i' j' → i = i' ∧ j = j')
    (hr : ∀ i j i' j', i' < x.rows → j < x.cols → j' < x.cols → (i < i' ∨ (i = i' ∧ j < j')) →
      out.idx i j ≠ x.idx i' j') :
    ∃ mem', copyMatAt x out mem = .ok mem' ∧ mem'.length = mem.length ∧
      (∀ i < x.rows, ∀ j < x.cols, mem'[out.idx i j]? = mem[x.idx i j]?) ∧
      ∀ p, (∀ i < x.rows, ∀ j < x.cols, out.idx i j ≠ p) → mem'[p]? = mem[p]? := by
  by_cases hemp : x.rows = 0 ∨ x.cols = 0
  · refine ⟨mem, ?_, rfl, ?_, fun _ _ => rfl⟩
    · unfold copyMatAt
      rw [check_decide_ok hs, bind_ok]
      rcases hemp with h | h
      · rw [h]; rfl
      · rw [h]
        exact forN_eq' (fun _ => mem) rfl rfl (fun _ _ => rfl)
    · intro i hi j hj; omega
  · have hR : 0 < x.rows := by omega
    have hC : 0 < x.cols := by omega
    have hpos : 0 < mem.length := Nat.lt_of_le_of_lt (Nat.zero_le _) (hx 0 hR 0 hC)
    obtain ⟨d, -⟩ : ∃ d : α, d = mem[0] := ⟨_, rfl⟩
    clear hpos
    have hm : mem = vec mem.length (fun i => mem.getD i d) := list_eq_vec d rfl
    generalize hL : mem.length = L at *
    have hdm : ∀ k < x.rows * x.cols, k / x.cols < x.rows ∧ k % x.cols < x.cols := fun k hk =>
      ⟨Nat.div_lt_of_lt_mul (by rw [Nat.mul_comm]; exact hk), Nat.mod_lt _ hC⟩
    have hlex : ∀ k l : ℕ, k < l → k / x.cols < l / x.cols ∨ (k / x.cols = l / x.cols ∧ k % x.cols < l % x.cols) := by
      intro k l hkl
      have h1 : k / x.cols ≤ l / x.cols := Nat.div_le_div_right hkl.le
      have h2 := Nat.div_add_mod k x.cols
      have h3 := Nat.div_add_mod l x.cols
      rcases Nat.lt_or_eq_of_le h1 with h | h
      · exact Or.inl h
      · right
        refine ⟨h, ?_⟩
        rw [h] at h2
        omega
    obtain ⟨g, e, h1, h2⟩ := forN_at (L := L) (n := x.rows * x.cols) (fun i => mem.getD i d)
      (fun k => out.idx (k / x.cols) (k % x.cols)) (fun k => mem.getD (x.idx (k / x.cols) (k % x.cols)) d)
      (by
        intro k hk l hl h
        obtain ⟨h1, h2⟩ := hd _ (hdm k hk).1 _ (hdm k hk).2 _ (hdm l hl).1 _ (hdm l hl).2 h
        rw [← Nat.div_add_mod k x.cols, ← Nat.div_add_mod l x.cols, h1, h2])
      (fun k mem => do
        let v ← rd mem (x.idx (k / x.cols) (k % x.cols))
        wr mem (out.idx (k / x.cols) (k % x.cols)) v) (by
        intro t ht g hg
        have hb := hdm t ht
        rw [rd_vec_ok (hx _ hb.1 _ hb.2), bind_ok, hg _ (fun i hi =>
          hr _ _ _ _ hb.1 (Nat.mod_lt _ hC) hb.2 (hlex i t hi)),
          wr_vec_ok (ho _ (hs.1 ▸ hb.1) _ (hs.2 ▸ hb.2))])
    have hk : ∀ i < x.rows, ∀ j < x.cols, i * x.cols + j < x.rows * x.cols ∧ (i * x.cols + j) / x.cols = i ∧
        (i * x.cols + j) % x.cols = j := by
      intro i hi j hj
      refine ⟨?_, ?_, ?_⟩
      · have := Nat.mul_le_mul_right x.cols (show i + 1 ≤ x.rows by omega)
        rw [Nat.add_mul, Nat.one_mul] at this
        omega
      · rw [Nat.mul_comm, Nat.mul_add_div hC, Nat.div_eq_of_lt hj, Nat.add_zero]
      · rw [Nat.mul_comm, Nat.mul_add_mod, Nat.mod_eq_of_lt hj]
    refine ⟨vec L g, ?_, length_vec _ _, ?_, ?_⟩
    · unfold copyMatAt
      rw [check_decide_ok hs, bind_ok]
      conv_lhs => rw [hm]
      rw [forN_nested hC (fun i j mem => do
        let v ← rd mem (x.idx i j)
        wr mem (out.idx i j) v)]
      exact e
    · intro i hi j hj
      obtain ⟨k1, k2, k3⟩ := hk i hi j hj
      have := h1 _ k1
      rw [k2, k3] at this
      rw [getElem?_vec, if_pos (ho i (hs.1 ▸ hi) j (hs.2 ▸ hj)), this, vec_getElem? hL d (hx i hi j hj)]
    · intro p hp
      by_cases hpl : p < L
      · rw [getElem?_vec, if_pos hpl, h2 p (fun k hk => hp _ (hdm k hk).1 _ (hdm k hk).2), vec_getElem? hL d hpl]
      · rw [List.getElem?_eq_none (by rw [length_vec]; omega), List.getElem?_eq_none (by omega)]

/-- The lower row of a two-row buffer over the upper one. -/
example : ∃ mem', copyMatAt ⟨1, 2, 2, 2, 1⟩ ⟨1, 2, 0, 2, 1⟩ [1, 2, 3, 4] = .ok mem' ∧ mem'[1]? = some 4 := by
  obtain ⟨mem', h1, -, h2, -⟩ := C95_copy_matrix (α := ℕ) ⟨1, 2, 2, 2, 1⟩ ⟨1, 2, 0, 2, 1⟩ [1, 2, 3, 4] ⟨rfl, rfl⟩
    (fun i hi j hj => by simp [MatView.idx] at *; omega) (fun i hi j hj => by simp [MatView.idx] at *; omega)
    (fun i hi j hj i' hi' j' hj' h => by simp [MatView.idx] at *; omega)
    (fun i j i' j' h1 h2 h3 h4 => by simp [MatView.idx] at *; omega)
  exact ⟨mem', h1, by simpa [MatView.idx] using h2 0 (by norm_num) 1 (by norm_num)⟩

/-- **C95** (`add`, `multiply`): if no element of `x` or `y` is overwritten before it is read, the result is that of
separate operands.  The output may be one of the inputs. -/
theorem C95_binary (op : α → α → α) (x y out : VecView) (mem : List α) (hs : x.size = y.size ∧ x.size = out.size)
    (hsize : x.size < 2 ^ 31) (hx : x.InRange mem.length) (hy : y.InRange mem.length) (ho : out.InRange mem.length)
    (hd : Distinct out) (hrx : ReadFirst x out) (hry : ReadFirst y out) :
    ∃ mem', binaryAt op x y out mem = .ok mem' ∧ mem'.length = mem.length ∧
      (∀ i < x.size, ∀ a b, mem[x.idx i]? = some a → mem[y.idx i]? = some b → mem'[out.idx i]? = some (op a b)) ∧
      ∀ p, (∀ i < x.size, out.idx i ≠ p) → mem'[p]? = mem[p]? := by
  cases mem with
  | nil =>
    have h0 : x.size = 0 := by
      by_contra h
      exact absurd (hx 0 (by omega)) (Nat.not_lt_zero _)
    refine ⟨[], ?_, rfl, fun i hi => by omega, fun _ _ => rfl⟩
    unfold binaryAt
    rw [check_decide_ok hs, bind_ok, forInt_eq hsize, h0]
    rfl
  | cons d tl =>
    generalize hmem : d :: tl = mem at *
    have hm : mem = vec mem.length (fun i => mem.getD i d) := list_eq_vec d rfl
    generalize hL : mem.length = L at *
    obtain ⟨g, e, h1, h2⟩ := forN_at (L := L) (n := x.size) (fun i => mem.getD i d) out.idx
      (fun i => op (mem.getD (x.idx i) d) (mem.getD (y.idx i) d)) (by rw [hs.2]; exact hd)
      (fun i mem => do
        let a ← rd mem (x.idx i)
        let b ← rd mem (y.idx i)
        wr mem (out.idx i) (op a b)) (by
        intro t ht g hg
        rw [rd_vec_ok (hx t ht), bind_ok, rd_vec_ok (hy t (by omega)), bind_ok, hg _ (fun i hi => hrx i t hi ht),
          hg _ (fun i hi => hry i t hi (by omega)), wr_vec_ok (ho t (by omega))])
    refine ⟨vec L g, ?_, length_vec _ _, ?_, ?_⟩
    · unfold binaryAt
      rw [check_decide_ok hs, bind_ok, forInt_eq hsize]
      conv_lhs => rw [hm]
      exact e
    · intro i hi a b ha hb
      rw [vec_getElem? hL d (hx i hi)] at ha
      rw [vec_getElem? hL d (hy i (by omega))] at hb
      rw [getElem?_vec, if_pos (ho i (by omega)), h1 i hi, Option.some.inj ha, Option.some.inj hb]
    · intro p hp
      by_cases hpl : p < L
      · rw [getElem?_vec, if_pos hpl, h2 p hp, vec_getElem? hL d hpl]
      · rw [List.getElem?_eq_none (by rw [length_vec]; omega), List.getElem?_eq_none (by omega)]

/-- `add(x, x, x)`. -/
example : ∃ mem', binaryAt (· + ·) ⟨0, 2, 2⟩ ⟨0, 2, 2⟩ ⟨0, 2, 2⟩ [1, 2, 3, 4] = .ok mem' ∧ mem'[2]? = some 6 := by
  obtain ⟨mem', h1, -, h2, -⟩ := C95_binary (α := ℕ) (· + ·) ⟨0, 2, 2⟩ ⟨0, 2, 2⟩ ⟨0, 2, 2⟩ [1, 2, 3, 4] ⟨rfl, rfl⟩ (by norm_num)
    (fun i hi => by simp [VecView.idx] at *; omega) (fun i hi => by simp [VecView.idx] at *; omega)
    (fun i hi => by simp [VecView.idx] at *; omega) (distinct_of_stride (by norm_num))
    (readFirst_self (distinct_of_stride (by norm_num))) (readFirst_self (distinct_of_stride (by norm_num)))
  exact ⟨mem', h1, by simpa [VecView.idx] using h2 1 (by norm_num) 3 3 rfl rfl⟩

/-- **C95** (sliding): the `copy` calls of `slide_window_left` inside one window do what the model of `overlap_save`, which
reads the source first, does. -/
theorem C95_slide (B : ℕ) (w : List α) : slideAt B w = slideWindowLeft B w := by
  unfold slideAt slideWindowLeft
  by_cases hB : B = 0
  · rw [if_pos hB, if_pos hB]
  rw [if_neg hB, if_neg hB]
  have key : ∀ n ≤ w.length / B - 1, ∃ v : List α, v.length = w.length ∧
      forN n (slideStep B) w = .ok v ∧ forN n (fun i window => do
        let dest := i * B
        let src := dest + B
        let _ ← rdSpan window src (src + B)
        let _ ← rdSpan window dest src
        copyAt ⟨src, 1, B⟩ ⟨dest, 1, src - dest⟩ window) w = .ok v := by
    intro n
    induction n with
    | zero => intro _; exact ⟨w, rfl, rfl, rfl⟩
    | succ n ih =>
      intro hn
      obtain ⟨v, hl, e1, e2⟩ := ih (by omega)
      have hbound : n * B + B + B ≤ w.length := by
        have h1 := Nat.mul_le_mul_right B (show n + 2 ≤ w.length / B by omega)
        have h2 := Nat.div_mul_le_self w.length B
        rw [Nat.add_mul] at h1
        omega
      have hpos : 0 < v.length := by omega
      obtain ⟨d, -⟩ : ∃ d : α, d = v[0] := ⟨_, rfl⟩
      have hv : v = vec w.length (fun i => v.getD i d) := list_eq_vec d hl
      obtain ⟨v', c1, c2, c3, c4⟩ := C95_copy ⟨n * B + B, 1, B⟩ ⟨n * B, 1, n * B + B - n * B⟩ v
        (by show B = n * B + B - n * B; omega)
        (fun i hi => by simp only [VecView.idx] at hi ⊢; omega) (fun i hi => by simp only [VecView.idx] at hi ⊢; omega)
        (distinct_of_stride le_rfl) (fun i j h1 h2 => by simp only [VecView.idx] at h2 ⊢; omega)
      refine ⟨v', by omega, ?_, ?_⟩
      · rw [forN_succ, e1, bind_ok]
        unfold slideStep
        simp only []
        rw [hv, rdSpan_vec (by omega) (by omega), bind_ok, show n * B + B + B - (n * B + B) = B by omega,
          show n * B + B - n * B = B by omega, copyInto_vec _ _ (by omega)]
        congr 1
        symm
        rw [eq_vec_iff]
        refine ⟨by omega, fun p hp => ?_⟩
        by_cases c : n * B ≤ p ∧ p < n * B + B
        · have := c3 (p - n * B) (by show p - n * B < B; omega)
          simp only [VecView.idx, Nat.mul_one] at this
          rw [show n * B + (p - n * B) = p by omega] at this
          rw [this, if_pos c, vec_getElem? hl d (by omega)]
        · rw [if_neg c, c4 p (fun i hi h => by simp only [VecView.idx] at hi h; omega), vec_getElem? hl d hp]
      · rw [forN_succ, e2, bind_ok]
        simp only []
        conv_lhs => rw [hv]
        rw [rdSpan_vec (by omega) (by omega), bind_ok, rdSpan_vec (by omega) (by omega), bind_ok, ← hv]
        exact c1
  obtain ⟨v, -, e1, e2⟩ := key _ le_rfl
  rw [e1]
  exact e2

/-- A window of three blocks. -/
example : slideAt 2 [1, 2, 3, 4, 5, 6] = .ok [3, 4, 5, 6, 5, 6] := by decide

section
variable [Add α] [Sub α] [Mul α]

/-- **C95** (`multiply_add`): the scalar loop on arbitrary strided views. -/
theorem C95_multiply_add {L : ℕ} (m : ℕ → α) (x y z out : VecView)
    (hs : x.size = y.size ∧ x.size = z.size ∧ x.size = out.size) (hx : x.InRange L) (hy : y.InRange L) (hz : z.InRange L)
    (ho : out.InRange L) (hd : Distinct out) (hrx : ReadFirst x out) (hry : ReadFirst y out) (hrz : ReadFirst z out) :
    ∃ m', multiplyAddAt x y z out (vec L m) = .ok (vec L m') ∧
      (∀ i < x.size, m' (out.idx i) = m (x.idx i) * m (y.idx i) + m (z.idx i)) ∧
      ∀ p, (∀ i < x.size, out.idx i ≠ p) → m' p = m p := by
  obtain ⟨g, e, h1, h2⟩ := forN_at (L := L) (n := x.size) m out.idx
    (fun i => m (x.idx i) * m (y.idx i) + m (z.idx i)) (by rw [hs.2.2]; exact hd)
    (fun i mem => do
      let a ← rd mem (x.idx i)
      let b ← rd mem (y.idx i)
      let c ← rd mem (z.idx i)
      wr mem (out.idx i) (a * b + c)) (by
      intro t ht g hg
      rw [rd_vec_ok (hx t ht), bind_ok, rd_vec_ok (hy t (by omega)), bind_ok, rd_vec_ok (hz t (by omega)), bind_ok,
        hg _ (fun i hi => hrx i t hi ht), hg _ (fun i hi => hry i t hi (by omega)),
        hg _ (fun i hi => hrz i t hi (by omega)), wr_vec_ok (ho t (by omega))])
  refine ⟨g, ?_, h1, h2⟩
  unfold multiplyAddAt
  rw [check_decide_ok hs, bind_ok]
  exact e

/-- `multiply_add(x, y, x, x)` on every second element. -/
example : ∃ m' : ℕ → ℤ, multiplyAddAt ⟨0, 2, 3⟩ ⟨1, 2, 3⟩ ⟨0, 2, 3⟩ ⟨0, 2, 3⟩ (vec 6 (fun i => (i : ℤ))) = .ok (vec 6 m') ∧
    m' 4 = 24 := by
  obtain ⟨m', h1, h2, -⟩ := C95_multiply_add (L := 6) (fun i => (i : ℤ)) ⟨0, 2, 3⟩ ⟨1, 2, 3⟩ ⟨0, 2, 3⟩ ⟨0, 2, 3⟩
    ⟨rfl, rfl, rfl⟩ (fun i hi => by simp [VecView.idx] at *; omega) (fun i hi => by simp [VecView.idx] at *; omega)
    (fun i hi => by simp [VecView.idx] at *; omega) (fun i hi => by simp [VecView.idx] at *; omega)
    (distinct_of_stride (by norm_num)) (readFirst_self (distinct_of_stride (by norm_num)))
    (fun i j h1 h2 => by simp [VecView.idx]; omega) (readFirst_self (distinct_of_stride (by norm_num)))
  exact ⟨m', h1, by simpa [VecView.idx] using h2 2 (by norm_num)⟩

/-- The destination does not begin behind the first element of a source that it reaches. -/
def Behind (r out n : ℕ) : Prop := out ≤ r ∨ r + n ≤ out

/-- **C95** (`multiply_add` in batches): for every batch size the vectorised version gives the results of the scalar
loop. -/
theorem C95_multiply_add_batch {L V n x y z out : ℕ} (m : ℕ → α) (hV : 1 ≤ V) (hx : x + n ≤ L) (hy : y + n ≤ L)
    (hz : z + n ≤ L) (ho : out + n ≤ L) (hrx : Behind x out n) (hry : Behind y out n) (hrz : Behind z out n) :
    ∃ m', multiplyAddBatchAt V x y z out n (vec L m) = .ok (vec L m') ∧
      (∀ i < n, m' (out + i) = m (x + i) * m (y + i) + m (z + i)) ∧
      (∀ p, ¬ (out ≤ p ∧ p < out + n) → m' p = m p) ∧
      multiplyAddAt ⟨x, 1, n⟩ ⟨y, 1, n⟩ ⟨z, 1, n⟩ ⟨out, 1, n⟩ (vec L m) =
        multiplyAddBatchAt V x y z out n (vec L m) := by
  let val : ℕ → α := fun i => m (x + i) * m (y + i) + m (z + i)
  have hdm := Nat.div_add_mod n V
  have hvs : n - n % V = n / V * V := by rw [Nat.mul_comm]; omega
  have e : multiplyAddBatchAt V x y z out n (vec L m) = .ok (vec L (memAfter m out val n)) := by
    unfold multiplyAddBatchAt
    rw [if_neg (by omega), hvs]
    simp only []
    have hle : n / V * V ≤ n := Nat.div_mul_le_self n V
    have e1 := forBatch_eq (step := V) (n := n / V * V) (body := fun i (mem : List α) => do
      let a ← rdSpan mem (x + i) (x + i + V)
      let b ← rdSpan mem (y + i) (y + i + V)
      let c ← rdSpan mem (z + i) (z + i + V)
      wrSpan mem (out + i) (List.zipWith (fun p q => p + q) (List.zipWith (fun p q => p * q) a b) c)) (n / V)
      (fun k => vec L (memAfter m out val (k * V))) 0 n (by
        intro k hk
        have hkV : k * V + V ≤ n / V * V := by
          have := Nat.mul_le_mul_right V (show k + 1 ≤ n / V by omega)
          rwa [Nat.add_mul, Nat.one_mul] at this
        rw [Nat.zero_add]
        refine ⟨by omega, ?_⟩
        beta_reduce
        rw [Nat.add_mul, Nat.one_mul]
        generalize k * V = t at *
        rw [rdSpan_vec (by omega) (by omega), bind_ok, rdSpan_vec (by omega) (by omega), bind_ok,
          rdSpan_vec (by omega) (by omega), bind_ok]
        simp only [Nat.add_sub_cancel_left]
        rw [zipWith_vec_same, zipWith_vec_same, ← memAfter_span _ _ (by omega)]
        congr 1
        apply vec_ext
        intro i hi
        rw [Nat.add_assoc x, Nat.add_assoc y, Nat.add_assoc z, memAfter_read hrx (by omega) (by omega),
          memAfter_read hry (by omega) (by omega), memAfter_read hrz (by omega) (by omega)])
      (by omega) (Nat.div_le_self n V)
    rw [Nat.zero_mul, memAfter_zero] at e1
    rw [e1, bind_ok]
    apply forR_eq' (fun t => vec L (memAfter m out val t)) hle rfl rfl
    intro t h1 h2
    rw [rd_vec_ok (by omega), bind_ok, rd_vec_ok (by omega), bind_ok, rd_vec_ok (by omega), bind_ok,
      memAfter_read hrx le_rfl h2, memAfter_read hry le_rfl h2, memAfter_read hrz le_rfl h2]
    exact memAfter_wr m val (by omega)
  refine ⟨_, e, ?_, ?_, ?_⟩
  · intro i hi
    unfold memAfter
    rw [if_pos (by omega), Nat.add_sub_cancel_left]
  · intro p hp
    unfold memAfter
    rw [if_neg hp]
  · rw [e]
    unfold multiplyAddAt
    rw [check_decide_ok ⟨rfl, rfl, rfl⟩, bind_ok]
    apply forN_eq' (fun t => vec L (memAfter m out val t)) (by rw [memAfter_zero]) rfl
    intro t h2
    simp only [VecView.idx, Nat.mul_one] at h2 ⊢
    rw [rd_vec_ok (by omega), bind_ok, rd_vec_ok (by omega), bind_ok, rd_vec_ok (by omega), bind_ok,
      memAfter_read hrx le_rfl h2, memAfter_read hry le_rfl h2, memAfter_read hrz le_rfl h2]
    exact memAfter_wr m val (by omega)

/-- Batches of two over five elements, the result one place below the first operand. -/
example : ∃ m' : ℕ → ℤ, multiplyAddBatchAt 2 1 0 6 0 5 (vec 11 (fun i => (i : ℤ))) = .ok (vec 11 m') ∧ m' 4 = 30 := by
  obtain ⟨m', h1, h2, -⟩ := C95_multiply_add_batch (L := 11) (V := 2) (n := 5) (x := 1) (y := 0) (z := 6) (out := 0)
    (fun i => (i : ℤ)) (by norm_num) (by norm_num) (by norm_num) (by norm_num) (by norm_num) (by unfold Behind; omega)
    (by unfold Behind; omega) (by unfold Behind; omega)
  exact ⟨m', h1, by simpa using h2 4 (by norm_num)⟩

/-- If the destination begins one place behind the source, the scalar loop uses its own results, and batches of two use
them in another way. -/
theorem C95_batch_differs :
    multiplyAddAt ⟨0, 1, 2⟩ ⟨3, 1, 2⟩ ⟨3, 1, 2⟩ ⟨1, 1, 2⟩ [1, 5, 0, 1, 1] = .ok [1, (2 : ℤ), 3, 1, 1] ∧
      multiplyAddBatchAt 2 0 3 3 1 2 [1, 5, 0, 1, 1] = .ok [1, (2 : ℤ), 6, 1, 1] := by decide

/-- **C95** (split planes, scalar): besides the usual conditions, element `i` of the real output plane must not be element
`i` (or a later one) of the imaginary plane of `z`. -/
theorem C95_split {L : ℕ} (m : ℕ → α) (x y z out : SplitView)
    (hs : x.re.size = x.im.size ∧ x.re.size = y.re.size ∧ x.re.size = y.im.size ∧ x.re.size = z.re.size ∧
      x.re.size = z.im.size ∧ x.re.size = out.re.size ∧ x.re.size = out.im.size) (hn : x.re.size < 2 ^ 31)
    (hL : ∀ v ∈ [x.re, x.im, y.re, y.im, z.re, z.im, out.re, out.im], VecView.InRange v L)
    (hdr : Distinct out.re) (hdi : Distinct out.im) (hd : ∀ i < x.re.size, ∀ j < x.re.size, out.re.idx i ≠ out.im.idx j)
    (hr : ∀ v ∈ [x.re, x.im, y.re, y.im, z.re, z.im], ReadFirst v out.re ∧ ReadFirst v out.im)
    (hz : ∀ i < x.re.size, out.re.idx i ≠ z.im.idx i) :
    ∃ m', splitMultiplyAddAt x y z out (vec L m) = .ok (vec L m') ∧
      (∀ i < x.re.size, m' (out.re.idx i) =
        (m (x.re.idx i) * m (y.re.idx i) - m (x.im.idx i) * m (y.im.idx i)) + m (z.re.idx i)) ∧
      (∀ i < x.re.size, m' (out.im.idx i) =
        (m (x.re.idx i) * m (y.im.idx i) + m (x.im.idx i) * m (y.re.idx i)) + m (z.im.idx i)) ∧
      ∀ p, (∀ i < x.re.size, out.re.idx i ≠ p ∧ out.im.idx i ≠ p) → m' p = m p := by
  simp only [List.forall_mem_cons, List.not_mem_nil, false_imp_iff, implies_true, and_true] at hL hr
  obtain ⟨l1, l2, l3, l4, l5, l6, l7, l8⟩ := hL
  obtain ⟨r1, r2, r3, r4, r5, r6⟩ := hr
  obtain ⟨s1, s2, s3, s4, s5, s6, s7⟩ := id hs
  obtain ⟨g, e, h1, h2, h3⟩ := forN_at2 (L := L) (n := x.re.size) m out.re.idx out.im.idx
    (fun i => (m (x.re.idx i) * m (y.re.idx i) - m (x.im.idx i) * m (y.im.idx i)) + m (z.re.idx i))
    (fun i => (m (x.re.idx i) * m (y.im.idx i) + m (x.im.idx i) * m (y.re.idx i)) + m (z.im.idx i))
    (by rw [s6]; exact hdr) (by rw [s7]; exact hdi) hd (splitStepAt x y z out) (by
      intro t ht g hg _
      unfold splitStepAt
      rw [rd_vec_ok (l1 t ht), bind_ok, rd_vec_ok (l2 t (by omega)), bind_ok, rd_vec_ok (l3 t (by omega)), bind_ok,
        rd_vec_ok (l4 t (by omega)), bind_ok, rd_vec_ok (l5 t (by omega)), bind_ok, wr_vec_ok (l7 t (by omega)), bind_ok,
        rd_vec_ok (l6 t (by omega)), bind_ok, wr_vec_ok (l8 t (by omega)),
        Function.update_of_ne (fun h => hz t ht h.symm),
        hg _ (fun i hi => ⟨r1.1 i t hi ht, r1.2 i t hi ht⟩),
        hg _ (fun i hi => ⟨r2.1 i t hi (by omega), r2.2 i t hi (by omega)⟩),
        hg _ (fun i hi => ⟨r3.1 i t hi (by omega), r3.2 i t hi (by omega)⟩),
        hg _ (fun i hi => ⟨r4.1 i t hi (by omega), r4.2 i t hi (by omega)⟩),
        hg _ (fun i hi => ⟨r5.1 i t hi (by omega), r5.2 i t hi (by omega)⟩),
        hg _ (fun i hi => ⟨r6.1 i t hi (by omega), r6.2 i t hi (by omega)⟩)])
  refine ⟨g, ?_, h1, h2, h3⟩
  unfold splitMultiplyAddAt
  rw [check_decide_ok hs, bind_ok, conv_int_small hn]
  exact e

/-- The conditions on the planes of a call with pointers under which reading in order is safe. -/
structure SplitApart (L n xr xi yr yi zr zi or oi : ℕ) : Prop where
  inside : ∀ r ∈ [xr, xi, yr, yi, zr, zi, or, oi], r + n ≤ L
  planes : or + n ≤ oi ∨ oi + n ≤ or
  behind : ∀ r ∈ [xr, xi, yr, yi, zr, zi], Behind r or n ∧ Behind r oi n

/-- **C95** (split planes in batches): for every batch size, the batches need one condition less than the scalar loop, the
elements behind the last full batch need it. -/
theorem C95_split_batch {L V n xr xi yr yi zr zi or oi : ℕ} (m : ℕ → α) (hV : 1 ≤ V)
    (h : SplitApart L n xr xi yr yi zr zi or oi) (hz : n % V = 0 ∨ or ≠ zi) :
    ∃ m', splitMultiplyAddBatchAt V xr xi yr yi zr zi or oi n (vec L m) = .ok (vec L m') ∧
      (∀ i < n, m' (or + i) = (m (xr + i) * m (yr + i) - m (xi + i) * m (yi + i)) + m (zr + i)) ∧
      (∀ i < n, m' (oi + i) = (m (xr + i) * m (yi + i) + m (xi + i) * m (yr + i)) + m (zi + i)) ∧
      ∀ p, ¬ (or ≤ p ∧ p < or + n) → ¬ (oi ≤ p ∧ p < oi + n) → m' p = m p := by
  obtain ⟨hL, hpl, hb⟩ := h
  simp only [List.forall_mem_cons, List.not_mem_nil, false_imp_iff, implies_true, and_true] at hL hb
  obtain ⟨l1, l2, l3, l4, l5, l6, l7, l8⟩ := hL
  obtain ⟨b1, b2, b3, b4, b5, b6⟩ := hb
  let u : ℕ → α := fun i => (m (xr + i) * m (yr + i) - m (xi + i) * m (yi + i)) + m (zr + i)
  let v : ℕ → α := fun i => (m (xr + i) * m (yi + i) + m (xi + i) * m (yr + i)) + m (zi + i)
  have hread : ∀ {r t j : ℕ}, Behind r or n ∧ Behind r oi n → t ≤ j → j < n →
      memAfter (memAfter m or u t) oi v t (r + j) = m (r + j) := fun hr h1 h2 => by
    rw [memAfter_read hr.2 h1 h2, memAfter_read hr.1 h1 h2]
  have hdm := Nat.div_add_mod n V
  have hvs : n - n % V = n / V * V := by rw [Nat.mul_comm]; omega
  have hle : n / V * V ≤ n := Nat.div_mul_le_self n V
  refine ⟨memAfter (memAfter m or u n) oi v n, ?_, ?_, ?_, ?_⟩
  · unfold splitMultiplyAddBatchAt
    rw [if_neg (by omega), hvs]
    simp only []
    have e1 := forBatch_eq (step := V) (n := n / V * V) (body := fun i (mem : List α) => do
      let xre ← rdSpan mem (xr + i) (xr + i + V)
      let xim ← rdSpan mem (xi + i) (xi + i + V)
      let yre ← rdSpan mem (yr + i) (yr + i + V)
      let yim ← rdSpan mem (yi + i) (yi + i + V)
      let zre ← rdSpan mem (zr + i) (zr + i + V)
      let zim ← rdSpan mem (zi + i) (zi + i + V)
      let mem ← wrSpan mem (or + i) (List.zipWith (fun a b => a + b) (List.zipWith (fun a b => a - b)
        (List.zipWith (fun a b => a * b) xre yre) (List.zipWith (fun a b => a * b) xim yim)) zre)
      wrSpan mem (oi + i) (List.zipWith (fun a b => a + b) (List.zipWith (fun a b => a + b)
        (List.zipWith (fun a b => a * b) xre yim) (List.zipWith (fun a b => a * b) xim yre)) zim)) (n / V)
      (fun k => vec L (memAfter (memAfter m or u (k * V)) oi v (k * V))) 0 n (by
        intro k hk
        have hkV : k * V + V ≤ n / V * V := by
          have := Nat.mul_le_mul_right V (show k + 1 ≤ n / V by omega)
          rwa [Nat.add_mul, Nat.one_mul] at this
        rw [Nat.zero_add]
        refine ⟨by omega, ?_⟩
        beta_reduce
        rw [Nat.add_mul, Nat.one_mul]
        generalize k * V = t at *
        rw [rdSpan_vec (by omega) (by omega), bind_ok, rdSpan_vec (by omega) (by omega), bind_ok,
          rdSpan_vec (by omega) (by omega), bind_ok, rdSpan_vec (by omega) (by omega), bind_ok,
          rdSpan_vec (by omega) (by omega), bind_ok, rdSpan_vec (by omega) (by omega), bind_ok]
        simp only [Nat.add_sub_cancel_left]
        rw [zipWith_vec_same, zipWith_vec_same, zipWith_vec_same, zipWith_vec_same, zipWith_vec_same, zipWith_vec_same, zipWith_vec_same, zipWith_vec_same]
        have eu : vec V (fun i => memAfter (memAfter m or u t) oi v t (xr + t + i) *
              memAfter (memAfter m or u t) oi v t (yr + t + i) -
            memAfter (memAfter m or u t) oi v t (xi + t + i) * memAfter (memAfter m or u t) oi v t (yi + t + i) +
            memAfter (memAfter m or u t) oi v t (zr + t + i)) = vec V (fun i => u (t + i)) := by
          apply vec_ext
          intro i hi
          rw [Nat.add_assoc xr, Nat.add_assoc xi, Nat.add_assoc yr, Nat.add_assoc yi, Nat.add_assoc zr,
            hread b1 (by omega) (by omega), hread b2 (by omega) (by omega), hread b3 (by omega) (by omega),
            hread b4 (by omega) (by omega), hread b5 (by omega) (by omega)]
        have ev : vec V (fun i => memAfter (memAfter m or u t) oi v t (xr + t + i) *
              memAfter (memAfter m or u t) oi v t (yi + t + i) +
            memAfter (memAfter m or u t) oi v t (xi + t + i) * memAfter (memAfter m or u t) oi v t (yr + t + i) +
            memAfter (memAfter m or u t) oi v t (zi + t + i)) = vec V (fun i => v (t + i)) := by
          apply vec_ext
          intro i hi
          rw [Nat.add_assoc xr, Nat.add_assoc xi, Nat.add_assoc yr, Nat.add_assoc yi, Nat.add_assoc zi,
            hread b1 (by omega) (by omega), hread b2 (by omega) (by omega), hread b3 (by omega) (by omega),
            hread b4 (by omega) (by omega), hread b6 (by omega) (by omega)]
        rw [eu, ev, memAfter_comm m u v hpl (by omega) (by omega), memAfter_span _ _ (by omega), bind_ok,
          ← memAfter_comm m u v hpl (by omega) (by omega), memAfter_span _ _ (by omega)])
      (by omega) (Nat.div_le_self n V)
    rw [Nat.zero_mul, memAfter_zero, memAfter_zero] at e1
    rw [e1, bind_ok]
    apply forR_eq' (fun t => vec L (memAfter (memAfter m or u t) oi v t)) hle rfl rfl
    intro t h1 h2
    have hne : or ≠ zi := by
      rcases hz with h | h
      · omega
      · exact h
    unfold splitStepAt splitPtr
    simp only [VecView.idx, Nat.mul_one]
    rw [rd_vec_ok (by omega), bind_ok, rd_vec_ok (by omega), bind_ok, rd_vec_ok (by omega), bind_ok,
      rd_vec_ok (by omega), bind_ok, rd_vec_ok (by omega), bind_ok, hread b1 le_rfl h2, hread b2 le_rfl h2,
      hread b3 le_rfl h2, hread b4 le_rfl h2, hread b5 le_rfl h2, memAfter_comm m u v hpl (by omega) (by omega)]
    have hw := memAfter_wr (L := L) (t := t) (b := or) (memAfter m oi v t) u (by omega)
    rw [show wr (vec L (memAfter (memAfter m oi v t) or u t)) (or + t)
      (m (xr + t) * m (yr + t) - m (xi + t) * m (yi + t) + m (zr + t)) = _ from hw, bind_ok, rd_vec_ok (by omega), bind_ok,
      show memAfter (memAfter m oi v t) or u (t + 1) (zi + t) = m (zi + t) by
        have hb1 := b6.1
        unfold Behind at hb1
        rw [show memAfter (memAfter m oi v t) or u (t + 1) (zi + t) = memAfter m oi v t (zi + t) from
          if_neg (by omega), memAfter_read b6.2 le_rfl h2],
      ← memAfter_comm m u v hpl (by omega) (by omega)]
    exact memAfter_wr (memAfter m or u (t + 1)) v (by omega)
  · intro i hi
    rw [show memAfter (memAfter m or u n) oi v n (or + i) = memAfter m or u n (or + i) from if_neg (by omega),
      show memAfter m or u n (or + i) = u (or + i - or) from if_pos (by omega), Nat.add_sub_cancel_left]
  · intro i hi
    rw [show memAfter (memAfter m or u n) oi v n (oi + i) = v (oi + i - oi) from if_pos (by omega),
      Nat.add_sub_cancel_left]
  · intro p h1 h2
    rw [show memAfter (memAfter m or u n) oi v n p = memAfter m or u n p from if_neg h2,
      show memAfter m or u n p = m p from if_neg h1]

/-- Accumulation with a batch size of two over three elements. -/
example : ∃ m' : ℕ → ℤ, splitMultiplyAddBatchAt 2 0 3 6 9 12 15 12 15 3 (vec 18 (fun i => (i : ℤ))) = .ok (vec 18 m') ∧
    m' 14 = 2 * 8 - 5 * 11 + 14 ∧ m' 17 = 2 * 11 + 5 * 8 + 17 := by
  obtain ⟨m', h1, h2, h3, -⟩ := C95_split_batch (L := 18) (V := 2) (n := 3) (xr := 0) (xi := 3) (yr := 6) (yi := 9) (zr := 12)
    (zi := 15) (or := 12) (oi := 15) (fun i => (i : ℤ)) (by norm_num)
    ⟨by decide, by decide, by simp [Behind]⟩ (Or.inr (by norm_num))
  exact ⟨m', h1, by simpa using h2 2 (by norm_num), by simpa using h3 2 (by norm_num)⟩

/-- **C95** (split planes, refuted): with the output planes being those of `z` in exchanged roles the scalar loop gives
the right real part, but adds this new real part, not the imaginary part of `z`, to the imaginary part. -/
theorem C95_split_swapped_false {L : ℕ} (m : ℕ → α) (x y : SplitView) (zr zi : VecView)
    (hs : x.re.size = x.im.size ∧ x.re.size = y.re.size ∧ x.re.size = y.im.size ∧ x.re.size = zr.size ∧
      x.re.size = zi.size) (hn : x.re.size < 2 ^ 31)
    (hL : ∀ v ∈ [x.re, x.im, y.re, y.im, zr, zi], VecView.InRange v L)
    (hdr : Distinct zr) (hdi : Distinct zi) (hd : ∀ i < x.re.size, ∀ j < x.re.size, zi.idx i ≠ zr.idx j)
    (hr : ∀ v ∈ [x.re, x.im, y.re, y.im], ReadFirst v zr ∧ ReadFirst v zi) :
    ∃ m', splitMultiplyAddAt x y ⟨zr, zi⟩ ⟨zi, zr⟩ (vec L m) = .ok (vec L m') ∧
      (∀ i < x.re.size, m' (zi.idx i) =
        (m (x.re.idx i) * m (y.re.idx i) - m (x.im.idx i) * m (y.im.idx i)) + m (zr.idx i)) ∧
      (∀ i < x.re.size, m' (zr.idx i) =
        (m (x.re.idx i) * m (y.im.idx i) + m (x.im.idx i) * m (y.re.idx i)) +
          ((m (x.re.idx i) * m (y.re.idx i) - m (x.im.idx i) * m (y.im.idx i)) + m (zr.idx i))) := by
  simp only [List.forall_mem_cons, List.not_mem_nil, false_imp_iff, implies_true, and_true] at hL hr
  obtain ⟨l1, l2, l3, l4, l5, l6⟩ := hL
  obtain ⟨r1, r2, r3, r4⟩ := hr
  obtain ⟨s1, s2, s3, s4, s5⟩ := id hs
  obtain ⟨g, e, h1, h2, h3⟩ := forN_at2 (L := L) (n := x.re.size) m zi.idx zr.idx
    (fun i => (m (x.re.idx i) * m (y.re.idx i) - m (x.im.idx i) * m (y.im.idx i)) + m (zr.idx i))
    (fun i => (m (x.re.idx i) * m (y.im.idx i) + m (x.im.idx i) * m (y.re.idx i)) +
          ((m (x.re.idx i) * m (y.re.idx i) - m (x.im.idx i) * m (y.im.idx i)) + m (zr.idx i)))
    (by rw [s5]; exact hdi) (by rw [s4]; exact hdr) hd (splitStepAt x y ⟨zr, zi⟩ ⟨zi, zr⟩) (by
      intro t ht g hg _
      unfold splitStepAt
      rw [rd_vec_ok (l1 t ht), bind_ok, rd_vec_ok (l2 t (by omega)), bind_ok, rd_vec_ok (l3 t (by omega)), bind_ok,
        rd_vec_ok (l4 t (by omega)), bind_ok, rd_vec_ok (l5 t (by omega)), bind_ok, wr_vec_ok (l6 t (by omega)), bind_ok,
        rd_vec_ok (l6 t (by omega)), bind_ok, wr_vec_ok (l5 t (by omega)), Function.update_self,
        hg _ (fun i hi => ⟨r1.2 i t hi ht, r1.1 i t hi ht⟩),
        hg _ (fun i hi => ⟨r2.2 i t hi (by omega), r2.1 i t hi (by omega)⟩),
        hg _ (fun i hi => ⟨r3.2 i t hi (by omega), r3.1 i t hi (by omega)⟩),
        hg _ (fun i hi => ⟨r4.2 i t hi (by omega), r4.1 i t hi (by omega)⟩),
        hg _ (fun i hi => ⟨hd i (by omega) t ht, fun h => by
          have := hdr i (by omega) t (by omega) h
          omega⟩)])
  refine ⟨g, ?_, h1, h2⟩
  unfold splitMultiplyAddAt
  rw [check_decide_ok ⟨s1, s2, s3, s4, s5, s5, s4⟩, bind_ok, conv_int_small hn]
  exact e

end

/-- With exchanged planes the batches are right where the scalar loop is wrong: three elements, once as three scalar
steps, once as a batch of three, once as a batch of two with one scalar step. -/
example : splitMultiplyAddAt (splitPtr 0 0 3) (splitPtr 0 0 3) (splitPtr 3 6 3) (splitPtr 6 3 3)
      [1, 1, 1, 10, 20, 30, 5, 5, 5] = .ok [(1 : ℤ), 1, 1, 12, 22, 32, 10, 20, 30] ∧
    splitMultiplyAddBatchAt 3 0 0 0 0 3 6 6 3 3 [1, 1, 1, 10, 20, 30, 5, 5, 5] =
      .ok [(1 : ℤ), 1, 1, 7, 7, 7, 10, 20, 30] ∧
    splitMultiplyAddBatchAt 2 0 0 0 0 3 6 6 3 3 [1, 1, 1, 10, 20, 30, 5, 5, 5] =
      .ok [(1 : ℤ), 1, 1, 7, 7, 32, 10, 20, 30] := by decide

/-- **C95** (where the code relies on it): accumulating into the output (`z` is `out`) fulfils all conditions, so do
`x` or `y` being `out`. -/
theorem C95_accumulate {L n xr xi yr yi or oi : ℕ} (hL : ∀ r ∈ [xr, xi, yr, yi, or, oi], r + n ≤ L)
    (hp : or + n ≤ oi ∨ oi + n ≤ or)
    (h : ∀ r ∈ [xr, xi, yr, yi], (r = or ∨ r = oi) ∨ ((r + n ≤ or ∨ or + n ≤ r) ∧ (r + n ≤ oi ∨ oi + n ≤ r))) :
    SplitApart L n xr xi yr yi or oi or oi ∧ (0 < n → or ≠ oi) := by
  simp only [List.forall_mem_cons, List.not_mem_nil, false_imp_iff, implies_true, and_true] at hL h
  refine ⟨⟨?_, hp, ?_⟩, by omega⟩
  · simp only [List.forall_mem_cons, List.not_mem_nil, false_imp_iff, implies_true, and_true]
    omega
  · simp only [List.forall_mem_cons, List.not_mem_nil, false_imp_iff, implies_true, and_true]
    unfold Behind
    omega

end Neo.Props
