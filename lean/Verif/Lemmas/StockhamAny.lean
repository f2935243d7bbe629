import Verif.Lemmas.Stockham

/-! # The Stockham plans over any arithmetic

No law of the operations is used: the loops visit every butterfly once, and its results are those of `stockRVal`. -/

namespace Neo

open Finset

variable {R C : Type} [Add C] [Sub C] [Mul C]

/-- The results of the radix-3 butterfly at `j` on the values `c`. -/
def stock3Val (A : StockArith R C) (l j : ℕ) (c : ℕ → C) (u : ℕ) : C :=
  let d0 := c 1 + c 2
  let d1 := c 0 - A.scale d0 A.half
  let d2 := A.scale ((c 1 - c 2) * A.i) A.sinPiBy3
  match u with
  | 0 => c 0 + d0
  | 1 => (d1 + d2) * A.tw (3 * l) (1 * j)
  | _ => (d1 - d2) * A.tw (3 * l) (2 * j)

/-- The results of the radix-4 butterfly. -/
def stock4Val (A : StockArith R C) (l j : ℕ) (c : ℕ → C) (u : ℕ) : C :=
  let d0 := c 0 + c 2
  let d1 := c 0 - c 2
  let d2 := c 1 + c 3
  let d3 := (c 1 - c 3) * A.i
  match u with
  | 0 => d0 + d2
  | 1 => (d1 + d3) * A.tw (4 * l) (1 * j)
  | 2 => (d0 - d2) * A.tw (4 * l) (2 * j)
  | _ => (d1 - d3) * A.tw (4 * l) (3 * j)

/-- The results of the radix-5 butterfly. -/
def stock5Val (A : StockArith R C) (l j : ℕ) (c : ℕ → C) (u : ℕ) : C :=
  let d0 := c 1 + c 4
  let d1 := c 2 + c 3
  let d2 := A.scale (c 1 - c 4) A.sin2PiBy5
  let d3 := A.scale (c 2 - c 3) A.sin2PiBy5
  let d4 := d0 + d1
  let d5 := A.scale (d0 - d1) A.sqrt5By4
  let d6 := c 0 - A.scale d4 A.quarter
  let d7 := d6 + d5
  let d8 := d6 - d5
  let d9 := (d2 + A.scale d3 A.sinRatio) * A.i
  let d10 := (A.scale d2 A.sinRatio - d3) * A.i
  match u with
  | 0 => c 0 + d4
  | 1 => (d7 + d9) * A.tw (5 * l) (1 * j)
  | 2 => (d8 + d10) * A.tw (5 * l) (2 * j)
  | 3 => (d8 - d10) * A.tw (5 * l) (3 * j)
  | _ => (d7 - d9) * A.tw (5 * l) (4 * j)

/-- The results of the radix-8 butterfly. -/
def stock8Val (A : StockArith R C) (l j : ℕ) (c : ℕ → C) (u : ℕ) : C :=
  let d0 := c 0 + c 4
  let d1 := c 0 - c 4
  let d2 := c 2 + c 6
  let d3 := (c 2 - c 6) * A.i
  let d4 := c 1 + c 5
  let d5 := c 1 - c 5
  let d6 := c 3 + c 7
  let d7 := c 3 - c 7
  let e0 := d0 + d2
  let e1 := d0 - d2
  let e2 := d4 + d6
  let e3 := (d4 - d6) * A.i
  let e4 := A.scale (d5 - d7) A.sqrt2By2
  let e5 := A.scale (d5 + d7) A.sqrt2By2 * A.i
  let e6 := d1 + e4
  let e7 := d1 - e4
  let e8 := d3 + e5
  let e9 := d3 - e5
  match u with
  | 0 => e0 + e2
  | 1 => (e6 + e8) * A.tw (8 * l) (1 * j)
  | 2 => (e1 + e3) * A.tw (8 * l) (2 * j)
  | 3 => (e7 - e9) * A.tw (8 * l) (3 * j)
  | 4 => (e0 - e2) * A.tw (8 * l) (4 * j)
  | 5 => (e7 + e9) * A.tw (8 * l) (5 * j)
  | 6 => (e1 - e3) * A.tw (8 * l) (6 * j)
  | _ => (e6 - e8) * A.tw (8 * l) (7 * j)

/-- The innermost block at `(j, k)` writes the results `val l j c u` of its inputs `c`. -/
def IsStockBody (r : ℕ) (body : (l m j k : ℕ) → (y x : List C) → Res (List C))
    (val : (l j : ℕ) → (ℕ → C) → ℕ → C) : Prop :=
  ∀ l m j k, j < l → k < m → r * l * m < 2 ^ 32 → ∀ Y g : ℕ → C,
    body l m j k (vec (r * l * m) Y) (vec (r * l * m) g) = .ok (vec (r * l * m) (fun i =>
      if i / (r * m) = j ∧ i % m = k then val l j (fun v => Y (k + j * m + v * l * m)) (i / m % r) else g i))

theorem stockham3_body (A : StockArith R C) : IsStockBody 3 (stockham3BodyG A) (stock3Val A) := by
  intro l m j k hj hk hn Y g
  have hjl : 3 * j ≤ 3 * l := Nat.mul_le_mul_left _ hj.le
  have hlm : 3 * l ≤ 3 * l * m := Nat.le_mul_of_pos_right _ (by omega)
  obtain ⟨P, hP⟩ : ∃ P : ℕ → ℕ, P = fun u => j * (3 * m) + k + u * m := ⟨_, rfl⟩
  obtain ⟨Q, hQ⟩ : ∃ Q : ℕ → ℕ, Q = fun v => k + j * m + v * l * m := ⟨_, rfl⟩
  have hPb : ∀ u < 3, P u < 3 * l * m := fun u hu => by
    rw [hP]
    exact stock_write_bound (R := 3) hj hk hu
  have hQb : ∀ v < 3, Q v < 3 * l * m := fun v hv => by
    rw [hQ]
    exact stock_read_bound hj hk hv
  have hq0 := stock_read_bound (R := 3) (v := 0) hj hk (by norm_num)
  rw [zero_mul, zero_mul, add_zero] at hq0
  have hq : u32 (k + j * m) = k + j * m := Nat.mod_eq_of_lt (lt_trans hq0 hn)
  have hp : ∀ u < 3, ∀ t, t = P u → u32 t = P u := fun u hu t ht => by
    rw [ht]
    exact Nat.mod_eq_of_lt (lt_trans (hPb u hu) hn)
  have p0 : u32 (k + 3 * j * m + 0 * m) = P 0 := hp 0 (by norm_num) _ (by rw [hP]; ring)
  have p1 : u32 (k + 3 * j * m + 1 * m) = P 1 := hp 1 (by norm_num) _ (by rw [hP]; ring)
  have p2 : u32 (k + 3 * j * m + 2 * m) = P 2 := hp 2 (by norm_num) _ (by rw [hP]; ring)
  have q0 : u32 (k + j * m) + 0 * l * m = Q 0 := by rw [hq, hQ]
  have q1 : u32 (k + j * m) + 1 * l * m = Q 1 := by rw [hq, hQ]
  have q2 : u32 (k + j * m) + 2 * l * m = Q 2 := by rw [hq, hQ]
  have t1 : u32 (1 * j) = 1 * j := Nat.mod_eq_of_lt (by omega)
  have t2 : u32 (2 * j) = 2 * j := Nat.mod_eq_of_lt (by omega)
  obtain ⟨V, hV⟩ : ∃ V : ℕ → C, V = stock3Val A l j (fun v => Y (Q v)) := ⟨_, rfl⟩
  unfold stockham3BodyG
  dsimp only
  rw [q0, q1, q2, rd_vec_ok (hQb 0 (by norm_num)), rd_vec_ok (hQb 1 (by norm_num)), rd_vec_ok (hQb 2 (by norm_num))]
  simp only [bind_ok, t1, t2, p0, p1, p2, Nat.mul_comm l 3]
  have hw := stock_writes (R := 3) (n := 3 * l * m) hk (by norm_num) (j := j) g V
  rw [← hP] at hw
  have goal_eq : vec (3 * l * m) (fun i => if i / (3 * m) = j ∧ i % m = k then
      stock3Val A l j (fun v => Y (k + j * m + v * l * m)) (i / m % 3) else g i)
        = vec (3 * l * m) (updN g P V 3) := by
    rw [hw, hV, hQ]
  rw [goal_eq]
  have v0 := congrFun hV 0
  have v1 := congrFun hV 1
  have v2 := congrFun hV 2
  simp only [stock3Val] at v0 v1 v2
  rw [wr_updN_first g P V rfl v0.symm (hPb 0 (by norm_num)), bind_ok, wr_updN g P V rfl v1.symm (hPb 1 (by norm_num)), bind_ok, wr_updN g P V rfl v2.symm (hPb 2 (by norm_num))]

theorem stockham4_body (A : StockArith R C) : IsStockBody 4 (stockham4BodyG A) (stock4Val A) := by
  intro l m j k hj hk hn Y g
  have hjl : 4 * j ≤ 4 * l := Nat.mul_le_mul_left _ hj.le
  have hlm : 4 * l ≤ 4 * l * m := Nat.le_mul_of_pos_right _ (by omega)
  obtain ⟨P, hP⟩ : ∃ P : ℕ → ℕ, P = fun u => j * (4 * m) + k + u * m := ⟨_, rfl⟩
  obtain ⟨Q, hQ⟩ : ∃ Q : ℕ → ℕ, Q = fun v => k + j * m + v * l * m := ⟨_, rfl⟩
  have hPb : ∀ u < 4, P u < 4 * l * m := fun u hu => by
    rw [hP]
    exact stock_write_bound (R := 4) hj hk hu
  have hQb : ∀ v < 4, Q v < 4 * l * m := fun v hv => by
    rw [hQ]
    exact stock_read_bound hj hk hv
  have hq0 := stock_read_bound (R := 4) (v := 0) hj hk (by norm_num)
  rw [zero_mul, zero_mul, add_zero] at hq0
  have hq : u32 (k + j * m) = k + j * m := Nat.mod_eq_of_lt (lt_trans hq0 hn)
  have hp : ∀ u < 4, ∀ t, t = P u → u32 t = P u := fun u hu t ht => by
    rw [ht]
    exact Nat.mod_eq_of_lt (lt_trans (hPb u hu) hn)
  have p0 : u32 (k + 4 * j * m + 0 * m) = P 0 := hp 0 (by norm_num) _ (by rw [hP]; ring)
  have p1 : u32 (k + 4 * j * m + 1 * m) = P 1 := hp 1 (by norm_num) _ (by rw [hP]; ring)
  have p2 : u32 (k + 4 * j * m + 2 * m) = P 2 := hp 2 (by norm_num) _ (by rw [hP]; ring)
  have p3 : u32 (k + 4 * j * m + 3 * m) = P 3 := hp 3 (by norm_num) _ (by rw [hP]; ring)
  have q0 : u32 (k + j * m) + 0 * l * m = Q 0 := by rw [hq, hQ]
  have q1 : u32 (k + j * m) + 1 * l * m = Q 1 := by rw [hq, hQ]
  have q2 : u32 (k + j * m) + 2 * l * m = Q 2 := by rw [hq, hQ]
  have q3 : u32 (k + j * m) + 3 * l * m = Q 3 := by rw [hq, hQ]
  have t1 : u32 (1 * j) = 1 * j := Nat.mod_eq_of_lt (by omega)
  have t2 : u32 (2 * j) = 2 * j := Nat.mod_eq_of_lt (by omega)
  have t3 : u32 (3 * j) = 3 * j := Nat.mod_eq_of_lt (by omega)
  obtain ⟨V, hV⟩ : ∃ V : ℕ → C, V = stock4Val A l j (fun v => Y (Q v)) := ⟨_, rfl⟩
  unfold stockham4BodyG
  dsimp only
  rw [q0, q1, q2, q3, rd_vec_ok (hQb 0 (by norm_num)), rd_vec_ok (hQb 1 (by norm_num)), rd_vec_ok (hQb 2 (by norm_num)), rd_vec_ok (hQb 3 (by norm_num))]
  simp only [bind_ok, t1, t2, t3, p0, p1, p2, p3, Nat.mul_comm l 4]
  have hw := stock_writes (R := 4) (n := 4 * l * m) hk (by norm_num) (j := j) g V
  rw [← hP] at hw
  have goal_eq : vec (4 * l * m) (fun i => if i / (4 * m) = j ∧ i % m = k then
      stock4Val A l j (fun v => Y (k + j * m + v * l * m)) (i / m % 4) else g i)
        = vec (4 * l * m) (updN g P V 4) := by
    rw [hw, hV, hQ]
  rw [goal_eq]
  have v0 := congrFun hV 0
  have v1 := congrFun hV 1
  have v2 := congrFun hV 2
  have v3 := congrFun hV 3
  simp only [stock4Val] at v0 v1 v2 v3
  rw [wr_updN_first g P V rfl v0.symm (hPb 0 (by norm_num)), bind_ok, wr_updN g P V rfl v1.symm (hPb 1 (by norm_num)), bind_ok, wr_updN g P V rfl v2.symm (hPb 2 (by norm_num)), bind_ok, wr_updN g P V rfl v3.symm (hPb 3 (by norm_num))]

theorem stockham5_body (A : StockArith R C) : IsStockBody 5 (stockham5BodyG A) (stock5Val A) := by
  intro l m j k hj hk hn Y g
  have hjl : 5 * j ≤ 5 * l := Nat.mul_le_mul_left _ hj.le
  have hlm : 5 * l ≤ 5 * l * m := Nat.le_mul_of_pos_right _ (by omega)
  obtain ⟨P, hP⟩ : ∃ P : ℕ → ℕ, P = fun u => j * (5 * m) + k + u * m := ⟨_, rfl⟩
  obtain ⟨Q, hQ⟩ : ∃ Q : ℕ → ℕ, Q = fun v => k + j * m + v * l * m := ⟨_, rfl⟩
  have hPb : ∀ u < 5, P u < 5 * l * m := fun u hu => by
    rw [hP]
    exact stock_write_bound (R := 5) hj hk hu
  have hQb : ∀ v < 5, Q v < 5 * l * m := fun v hv => by
    rw [hQ]
    exact stock_read_bound hj hk hv
  have hq0 := stock_read_bound (R := 5) (v := 0) hj hk (by norm_num)
  rw [zero_mul, zero_mul, add_zero] at hq0
  have hq : u32 (k + j * m) = k + j * m := Nat.mod_eq_of_lt (lt_trans hq0 hn)
  have hp : ∀ u < 5, ∀ t, t = P u → u32 t = P u := fun u hu t ht => by
    rw [ht]
    exact Nat.mod_eq_of_lt (lt_trans (hPb u hu) hn)
  have p0 : u32 (k + 5 * j * m + 0 * m) = P 0 := hp 0 (by norm_num) _ (by rw [hP]; ring)
  have p1 : u32 (k + 5 * j * m + 1 * m) = P 1 := hp 1 (by norm_num) _ (by rw [hP]; ring)
  have p2 : u32 (k + 5 * j * m + 2 * m) = P 2 := hp 2 (by norm_num) _ (by rw [hP]; ring)
  have p3 : u32 (k + 5 * j * m + 3 * m) = P 3 := hp 3 (by norm_num) _ (by rw [hP]; ring)
  have p4 : u32 (k + 5 * j * m + 4 * m) = P 4 := hp 4 (by norm_num) _ (by rw [hP]; ring)
  have q0 : u32 (k + j * m) + 0 * l * m = Q 0 := by rw [hq, hQ]
  have q1 : u32 (k + j * m) + 1 * l * m = Q 1 := by rw [hq, hQ]
  have q2 : u32 (k + j * m) + 2 * l * m = Q 2 := by rw [hq, hQ]
  have q3 : u32 (k + j * m) + 3 * l * m = Q 3 := by rw [hq, hQ]
  have q4 : u32 (k + j * m) + 4 * l * m = Q 4 := by rw [hq, hQ]
  have t1 : u32 (1 * j) = 1 * j := Nat.mod_eq_of_lt (by omega)
  have t2 : u32 (2 * j) = 2 * j := Nat.mod_eq_of_lt (by omega)
  have t3 : u32 (3 * j) = 3 * j := Nat.mod_eq_of_lt (by omega)
  have t4 : u32 (4 * j) = 4 * j := Nat.mod_eq_of_lt (by omega)
  obtain ⟨V, hV⟩ : ∃ V : ℕ → C, V = stock5Val A l j (fun v => Y (Q v)) := ⟨_, rfl⟩
  unfold stockham5BodyG
  dsimp only
  rw [q0, q1, q2, q3, q4, rd_vec_ok (hQb 0 (by norm_num)), rd_vec_ok (hQb 1 (by norm_num)), rd_vec_ok (hQb 2 (by norm_num)), rd_vec_ok (hQb 3 (by norm_num)), rd_vec_ok (hQb 4 (by norm_num))]
  simp only [bind_ok, t1, t2, t3, t4, p0, p1, p2, p3, p4, Nat.mul_comm l 5]
  have hw := stock_writes (R := 5) (n := 5 * l * m) hk (by norm_num) (j := j) g V
  rw [← hP] at hw
  have goal_eq : vec (5 * l * m) (fun i => if i / (5 * m) = j ∧ i % m = k then
      stock5Val A l j (fun v => Y (k + j * m + v * l * m)) (i / m % 5) else g i)
        = vec (5 * l * m) (updN g P V 5) := by
    rw [hw, hV, hQ]
  rw [goal_eq]
  have v0 := congrFun hV 0
  have v1 := congrFun hV 1
  have v2 := congrFun hV 2
  have v3 := congrFun hV 3
  have v4 := congrFun hV 4
  simp only [stock5Val] at v0 v1 v2 v3 v4
  rw [wr_updN_first g P V rfl v0.symm (hPb 0 (by norm_num)), bind_ok, wr_updN g P V rfl v1.symm (hPb 1 (by norm_num)), bind_ok, wr_updN g P V rfl v2.symm (hPb 2 (by norm_num)), bind_ok, wr_updN g P V rfl v3.symm (hPb 3 (by norm_num)), bind_ok, wr_updN g P V rfl v4.symm (hPb 4 (by norm_num))]

theorem stockham8_body (A : StockArith R C) : IsStockBody 8 (stockham8BodyG A) (stock8Val A) := by
  intro l m j k hj hk hn Y g
  have hjl : 8 * j ≤ 8 * l := Nat.mul_le_mul_left _ hj.le
  have hlm : 8 * l ≤ 8 * l * m := Nat.le_mul_of_pos_right _ (by omega)
  obtain ⟨P, hP⟩ : ∃ P : ℕ → ℕ, P = fun u => j * (8 * m) + k + u * m := ⟨_, rfl⟩
  obtain ⟨Q, hQ⟩ : ∃ Q : ℕ → ℕ, Q = fun v => k + j * m + v * l * m := ⟨_, rfl⟩
  have hPb : ∀ u < 8, P u < 8 * l * m := fun u hu => by
    rw [hP]
    exact stock_write_bound (R := 8) hj hk hu
  have hQb : ∀ v < 8, Q v < 8 * l * m := fun v hv => by
    rw [hQ]
    exact stock_read_bound hj hk hv
  have hq0 := stock_read_bound (R := 8) (v := 0) hj hk (by norm_num)
  rw [zero_mul, zero_mul, add_zero] at hq0
  have hq : u32 (k + j * m) = k + j * m := Nat.mod_eq_of_lt (lt_trans hq0 hn)
  have hp : ∀ u < 8, ∀ t, t = P u → u32 t = P u := fun u hu t ht => by
    rw [ht]
    exact Nat.mod_eq_of_lt (lt_trans (hPb u hu) hn)
  have p0 : u32 (k + 8 * j * m + m * 0) = P 0 := hp 0 (by norm_num) _ (by rw [hP]; ring)
  have p1 : u32 (k + 8 * j * m + m * 1) = P 1 := hp 1 (by norm_num) _ (by rw [hP]; ring)
  have p2 : u32 (k + 8 * j * m + m * 2) = P 2 := hp 2 (by norm_num) _ (by rw [hP]; ring)
  have p3 : u32 (k + 8 * j * m + m * 3) = P 3 := hp 3 (by norm_num) _ (by rw [hP]; ring)
  have p4 : u32 (k + 8 * j * m + m * 4) = P 4 := hp 4 (by norm_num) _ (by rw [hP]; ring)
  have p5 : u32 (k + 8 * j * m + m * 5) = P 5 := hp 5 (by norm_num) _ (by rw [hP]; ring)
  have p6 : u32 (k + 8 * j * m + m * 6) = P 6 := hp 6 (by norm_num) _ (by rw [hP]; ring)
  have p7 : u32 (k + 8 * j * m + m * 7) = P 7 := hp 7 (by norm_num) _ (by rw [hP]; ring)
  have q0 : u32 (k + j * m) + 0 * l * m = Q 0 := by rw [hq, hQ]
  have q1 : u32 (k + j * m) + 1 * l * m = Q 1 := by rw [hq, hQ]
  have q2 : u32 (k + j * m) + 2 * l * m = Q 2 := by rw [hq, hQ]
  have q3 : u32 (k + j * m) + 3 * l * m = Q 3 := by rw [hq, hQ]
  have q4 : u32 (k + j * m) + 4 * l * m = Q 4 := by rw [hq, hQ]
  have q5 : u32 (k + j * m) + 5 * l * m = Q 5 := by rw [hq, hQ]
  have q6 : u32 (k + j * m) + 6 * l * m = Q 6 := by rw [hq, hQ]
  have q7 : u32 (k + j * m) + 7 * l * m = Q 7 := by rw [hq, hQ]
  have t1 : u32 (1 * j) = 1 * j := Nat.mod_eq_of_lt (by omega)
  have t2 : u32 (2 * j) = 2 * j := Nat.mod_eq_of_lt (by omega)
  have t3 : u32 (3 * j) = 3 * j := Nat.mod_eq_of_lt (by omega)
  have t4 : u32 (4 * j) = 4 * j := Nat.mod_eq_of_lt (by omega)
  have t5 : u32 (5 * j) = 5 * j := Nat.mod_eq_of_lt (by omega)
  have t6 : u32 (6 * j) = 6 * j := Nat.mod_eq_of_lt (by omega)
  have t7 : u32 (7 * j) = 7 * j := Nat.mod_eq_of_lt (by omega)
  obtain ⟨V, hV⟩ : ∃ V : ℕ → C, V = stock8Val A l j (fun v => Y (Q v)) := ⟨_, rfl⟩
  unfold stockham8BodyG
  dsimp only
  rw [q0, q1, q2, q3, q4, q5, q6, q7, rd_vec_ok (hQb 0 (by norm_num)), rd_vec_ok (hQb 1 (by norm_num)), rd_vec_ok (hQb 2 (by norm_num)), rd_vec_ok (hQb 3 (by norm_num)), rd_vec_ok (hQb 4 (by norm_num)), rd_vec_ok (hQb 5 (by norm_num)), rd_vec_ok (hQb 6 (by norm_num)), rd_vec_ok (hQb 7 (by norm_num))]
  simp only [bind_ok, t1, t2, t3, t4, t5, t6, t7, p0, p1, p2, p3, p4, p5, p6, p7, Nat.mul_comm l 8]
  have hw := stock_writes (R := 8) (n := 8 * l * m) hk (by norm_num) (j := j) g V
  rw [← hP] at hw
  have goal_eq : vec (8 * l * m) (fun i => if i / (8 * m) = j ∧ i % m = k then
      stock8Val A l j (fun v => Y (k + j * m + v * l * m)) (i / m % 8) else g i)
        = vec (8 * l * m) (updN g P V 8) := by
    rw [hw, hV, hQ]
  rw [goal_eq]
  have v0 := congrFun hV 0
  have v1 := congrFun hV 1
  have v2 := congrFun hV 2
  have v3 := congrFun hV 3
  have v4 := congrFun hV 4
  have v5 := congrFun hV 5
  have v6 := congrFun hV 6
  have v7 := congrFun hV 7
  simp only [stock8Val] at v0 v1 v2 v3 v4 v5 v6 v7
  rw [wr_updN_first g P V rfl v0.symm (hPb 0 (by norm_num)), bind_ok, wr_updN g P V rfl v1.symm (hPb 1 (by norm_num)), bind_ok, wr_updN g P V rfl v2.symm (hPb 2 (by norm_num)), bind_ok, wr_updN g P V rfl v3.symm (hPb 3 (by norm_num)), bind_ok, wr_updN g P V rfl v4.symm (hPb 4 (by norm_num)), bind_ok, wr_updN g P V rfl v5.symm (hPb 5 (by norm_num)), bind_ok, wr_updN g P V rfl v6.symm (hPb 6 (by norm_num)), bind_ok, wr_updN g P V rfl v7.symm (hPb 7 (by norm_num))]

/-- What one stage leaves at index `i`. -/
def stockStage (r l m : ℕ) (val : (l j : ℕ) → (ℕ → C) → ℕ → C) (Y : ℕ → C) (i : ℕ) : C :=
  val l (i / (r * m)) (fun v => Y (i % m + i / (r * m) * m + v * l * m)) (i / m % r)

/-- The state after `s` stages of a transform of size `r ^ p`. -/
def stockRun (r p : ℕ) (val : (l j : ℕ) → (ℕ → C) → ℕ → C) (X : ℕ → C) : ℕ → ℕ → C
  | 0 => X
  | s + 1 => stockStage r (r ^ (p - s - 1)) (r ^ s) val (stockRun r p val X s)

omit [Add C] [Sub C] [Mul C] in
theorem stockStage_any {r l m : ℕ} (hr : 0 < r) (hm : 0 < m) (hn : r * l * m < 2 ^ 32)
    {body : (l m j k : ℕ) → (y x : List C) → Res (List C)} {val : (l j : ℕ) → (ℕ → C) → ℕ → C}
    (hbody : IsStockBody r body val) (Y g : ℕ → C) :
    forUInt l (fun j x => forN m (fun k x => body l m j k (vec (r * l * m) Y) x) x) (vec (r * l * m) g)
      = .ok (vec (r * l * m) (stockStage r l m val Y)) := by
  have hl : l < 2 ^ 32 := by
    have : l * 1 ≤ l * (r * m) := Nat.mul_le_mul_left _ (Nat.mul_pos hr hm)
    have e : r * l * m = l * (r * m) := by ring
    omega
  rw [forUInt_eq hl]
  have hrm : 0 < r * m := Nat.mul_pos hr hm
  apply keyedLoop (k1 := fun i => i / (r * m)) (k2 := fun i => i % m) (F := fun _ => stockStage r l m val Y) g
  · intro i hi
    rw [Nat.div_lt_iff_lt_mul hrm]
    calc i < r * l * m := hi
      _ = l * (r * m) := by ring
  · intro i _
    exact Nat.mod_lt _ hm
  · intros; rfl
  · intro j hj k hk f
    rw [hbody l m j k hj hk hn]
    congr 1
    apply vec_ext
    intro i _
    by_cases h : i / (r * m) = j ∧ i % m = k
    · rw [if_pos h, if_pos h]
      unfold stockStage
      rw [h.1, h.2]
    · rw [if_neg h, if_neg h]

omit [Add C] [Sub C] [Mul C] in
/-- The plans over any arithmetic; `_work` may hold anything. -/
theorem stockhamLoop_any {r p : ℕ} (hr : 2 ≤ r) (hn : r ^ p < 2 ^ 32)
    {body : (l m j k : ℕ) → (y x : List C) → Res (List C)} {val : (l j : ℕ) → (ℕ → C) → ℕ → C}
    (hbody : IsStockBody r body val) (X W : ℕ → C) :
    ∃ W', stockhamLoop r p body (vec (r ^ p) X) (vec (r ^ p) W)
      = .ok (vec (r ^ p) (stockRun r p val X p), vec (r ^ p) W') := by
  unfold stockhamLoop
  dsimp only
  rw [ipow_eq]
  have hp32 : p < 2 ^ 32 := by
    have : p < r ^ p := Nat.lt_pow_self (by omega)
    omega
  rw [forUInt_eq hp32]
  have key := forN_inv (n := p) (body := fun _ (s : (List C × List C) × Nat × Nat) => do
    let y ← copyVec s.1.1 s.1.2
    let x ← forUInt s.2.1 (fun j x => forN s.2.2 (fun k x => body s.2.1 s.2.2 j k y x) x) s.1.1
    pure ((x, y), s.2.1 / r, u32 (s.2.2 * r)))
    (s := ((vec (r ^ p) X, vec (r ^ p) W), r ^ p / r, 1))
    (fun s σ => ∃ W', σ = ((vec (r ^ p) (stockRun r p val X s), vec (r ^ p) W'), r ^ p / r ^ (s + 1), u32 (r ^ s))) ?_ ?_
  · obtain ⟨s', e, W', rfl⟩ := key
    refine ⟨W', ?_⟩
    rw [e, bind_ok, pure_eq_ok]
  · refine ⟨W, ?_⟩
    rw [zero_add, pow_one]
    rfl
  · rintro s hs σ ⟨W', rfl⟩
    have hm : r ^ s < 2 ^ 32 := lt_of_le_of_lt (Nat.pow_le_pow_right (by omega) hs.le) hn
    have hu : u32 (r ^ s) = r ^ s := Nat.mod_eq_of_lt hm
    have hl : r ^ p / r ^ (s + 1) = r ^ (p - s - 1) := by
      rw [Nat.pow_div (by omega) (by omega)]; congr 1
    have hN : r * r ^ (p - s - 1) * r ^ s = r ^ p := by
      rw [← pow_succ', ← pow_add]; congr 1; omega
    refine ⟨_, ?_, stockRun r p val X s, rfl⟩
    dsimp only
    rw [copyVec_eq (by simp), bind_ok]
    have hst := stockStage_any (r := r) (l := r ^ (p - s - 1)) (m := r ^ s) (by omega) (by positivity)
      (by rw [hN]; exact hn) hbody (stockRun r p val X s) (stockRun r p val X s)
    rw [hN] at hst
    rw [hl, hu, hst, bind_ok, pure_eq_ok, ← hl, Nat.div_div_eq_div_mul, ← pow_succ, ← pow_succ]
    congr 3
    rw [hl]
    rfl

end Neo
