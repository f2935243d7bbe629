import Verif.Model.Upc
import Verif.Lemmas.Stream
import Verif.Lemmas.Csr
import Verif.Lemmas.Mat
import Verif.Lemmas.Accum

/-! # The partitioned convolver, abstractly -/

namespace Neo

open Finset

/-! ## Delay-line slots -/

/-- Content of slot `s` before step `t`, when step `t'` stores `X t'` at slot `t' % N`. -/
def slotAt {K : Type} [Zero K] (X : ℕ → ℕ → K) (N : ℕ) : ℕ → ℕ → ℕ → K
  | 0, _, _ => 0
  | t + 1, s, k => if s = t % N then X t k else slotAt X N t s k

theorem slotAt_young {K : Type} [Zero K] (X : ℕ → ℕ → K) {N : ℕ} (t j : ℕ) (hj : j < N) (hjt : j ≤ t) (k : ℕ) :
    slotAt X N (t + 1) ((t - j) % N) k = X (t - j) k := by
  induction j generalizing t with
  | zero => simp [slotAt]
  | succ j ih =>
    obtain ⟨u, rfl⟩ : ∃ u, t = u + 1 := ⟨t - 1, by omega⟩
    rw [slotAt, if_neg, show u + 1 - (j + 1) = u - j by omega]
    · exact ih u (by omega) (by omega)
    · intro h
      have h2 : (u + 1 - (j + 1)) ≡ (u + 1) [MOD N] := h
      have h3 := (Nat.modEq_iff_dvd' (by omega)).1 h2
      have : N ≤ j + 1 := Nat.le_of_dvd (by omega)
        (by rwa [show u + 1 - (u + 1 - (j + 1)) = j + 1 by omega] at h3)
      omega

theorem slotAt_empty {K : Type} [Zero K] (X : ℕ → ℕ → K) {N : ℕ} (t s : ℕ) (hs : s < N) (hst : t ≤ s) (k : ℕ) :
    slotAt X N t s k = 0 := by
  induction t with
  | zero => rfl
  | succ t ih =>
    rw [slotAt, if_neg (by rw [Nat.mod_eq_of_lt (by omega)]; omega), ih (by omega)]

/-- The slot paired with filter segment `j` holds the block stored `j` steps ago. -/
theorem slotAt_age {K : Type} [Zero K] (X : ℕ → ℕ → K) {N : ℕ} (t j : ℕ) (hj : j < N) (k : ℕ) :
    slotAt X N (t + 1) ((t % N + N - j) % N) k = if j ≤ t then X (t - j) k else 0 := by
  by_cases c : j ≤ t
  · rw [if_pos c]
    have : (t % N + N - j) % N = (t - j) % N := by
      have h1 : (t % N + N - j) ≡ (t + N - j) [MOD N] := by
        apply Nat.ModEq.sub (by omega) (by omega) _ rfl
        exact Nat.ModEq.add_right N (Nat.mod_modEq t N)
      have h2 : t + N - j ≡ t - j [MOD N] := by
        rw [show t + N - j = t - j + N by omega]
        exact Nat.add_modEq_right
      exact h1.trans h2
    rw [this, slotAt_young X t j hj c]
  · rw [if_neg c]
    have ht : t % N = t := Nat.mod_eq_of_lt (by omega)
    rw [ht, Nat.mod_eq_of_lt (by omega)]
    exact slotAt_empty X (t + 1) _ (by omega) (by omega) k

theorem succ_mod {N : ℕ} (hN : 1 ≤ N) (t : ℕ) :
    (t + 1) % N = if t % N + 1 ≥ N then 0 else t % N + 1 := by
  have h : (t + 1) % N = (t % N + 1) % N := by
    conv_lhs => rw [← Nat.mod_add_div t N, add_right_comm, Nat.add_mul_mod_self_left]
  have ht : t % N < N := Nat.mod_lt _ (by omega)
  rw [h]
  split_ifs with c
  · rw [show t % N + 1 = N by omega, Nat.mod_self]
  · exact Nat.mod_eq_of_lt (by omega)

/-- Accumulated spectrum of step `t`. -/
def specY (N : ℕ) (H X : ℕ → ℕ → ℂ) (t k : ℕ) : ℂ :=
  ∑ j ∈ range N, (if j ≤ t then X (t - j) k else 0) * H j k

/-- Slots and segments are paired by a permutation. -/
theorem sum_slots_gen {K M : Type} [Zero K] [AddCommMonoid M] (X H : ℕ → ℕ → K) (φ : K → K → M) {N : ℕ} (t k : ℕ) :
    ∑ s ∈ range N, φ (slotAt X N (t + 1) s k) (H ((t % N + N - s) % N) k)
      = ∑ j ∈ range N, φ (if j ≤ t then X (t - j) k else 0) (H j k) := by
  by_cases hN : N = 0
  · subst hN; rfl
  have hlt : ∀ a, a % N < N := fun a => Nat.mod_lt _ (by omega)
  have ht := hlt t
  have hinv : ∀ s < N, (t % N + N - (t % N + N - s) % N) % N = s := by
    intro s hs
    by_cases c : s ≤ t % N
    · rw [show t % N + N - s = t % N - s + N by omega, Nat.add_mod_right,
        Nat.mod_eq_of_lt (a := t % N - s) (by omega),
        show t % N + N - (t % N - s) = s + N by omega,
        Nat.add_mod_right, Nat.mod_eq_of_lt hs]
    · rw [Nat.mod_eq_of_lt (a := t % N + N - s) (by omega),
        show t % N + N - (t % N + N - s) = s by omega, Nat.mod_eq_of_lt hs]
  symm
  refine sum_nbij' (fun j => (t % N + N - j) % N) (fun s => (t % N + N - s) % N) ?_ ?_ ?_ ?_ ?_
  · intro j hj; exact mem_range.2 (hlt _)
  · intro j hj; exact mem_range.2 (hlt _)
  · intro j hj; exact hinv j (mem_range.1 hj)
  · intro j hj; exact hinv j (mem_range.1 hj)
  · intro j hj
    rw [mem_range] at hj
    rw [slotAt_age X t j hj, hinv j hj]

/-- Accumulated spectrum of step `t` in the order in which the code sums, without algebraic laws. -/
def macY {K : Type} [Zero K] [Add K] [Mul K] (N : ℕ) (H X : ℕ → ℕ → K) (t k : ℕ) : K :=
  accum (fun s => slotAt X N (t + 1) s k * H ((t % N + N - s) % N) k) 0 0 N

theorem accum_eq_sum {M : Type} [AddCommMonoid M] (g : ℕ → M) (n : ℕ) : accum g 0 0 n = ∑ i ∈ range n, g i := by
  induction n with
  | zero => rfl
  | succ n ih => rw [accum, ih, sum_range_succ, Nat.zero_add]

theorem macY_eq (N : ℕ) (H X : ℕ → ℕ → ℂ) : macY N H X = specY N H X := by
  funext t k
  unfold macY specY
  rw [accum_eq_sum, sum_slots_gen X H (fun a b => a * b)]

/-! ## Laws of the template parameters -/

section laws
variable {Ov Fdl Row Filt Acc Arg R K : Type} [Zero R] [Zero K] [Add K] [Mul K]

/-- The delay line stores and returns rows of `C` complex numbers in `N` slots. -/
structure FdlLaw (fo : FdlOps Fdl Row K) (N C : ℕ) (FR : Fdl → (ℕ → ℕ → K) → Prop)
    (RR : Row → (ℕ → K) → Prop) : Prop where
  make : FR (fo.make N C) (fun _ _ => 0)
  insert : ∀ f X g s, FR f X → s < N → ∃ f', fo.insert f (vec C g) s = .ok f' ∧
    FR f' (fun s' k => if s' = s then g k else X s' k)
  row : ∀ f X s, FR f X → s < N → ∃ row, fo.row f s = .ok row ∧ RR row (X s)

/-- The filter holds the rows `H` and accumulates products. -/
structure FilterLaw (po : FilterOps Filt Row Acc Arg K) (N C : ℕ) (RR : Row → (ℕ → K) → Prop)
    (AR : Acc → (ℕ → K) → Prop) (filt : Filt) (H : ℕ → ℕ → K) : Prop where
  mac : ∀ row f j acc a, RR row f → j < N → AR acc a → ∃ acc', po.mac filt row j acc = .ok acc' ∧
    AR acc' (fun k => a k + f k * H j k)
  accMake : AR (po.accMake C) (fun _ => 0)
  accZero : ∀ acc a, AR acc a → ∃ acc', po.accZero acc = .ok acc' ∧ AR acc' (fun _ => 0)
  accOut : ∀ acc a g, AR acc a → po.accOut acc (vec C g) = .ok (vec C a)

/-- The filter updates bin `k` of the accumulator from bin `k` of the row in its own way: segment `j` turns the value `a`
into `m j k x a`. -/
structure MacLaw (po : FilterOps Filt Row Acc Arg K) (N C : ℕ) (RR : Row → (ℕ → K) → Prop)
    (AR : Acc → (ℕ → K) → Prop) (filt : Filt) (m : ℕ → ℕ → K → K → K) : Prop where
  mac : ∀ row f j acc a, RR row f → j < N → AR acc a → ∃ acc', po.mac filt row j acc = .ok acc' ∧
    AR acc' (fun k => m j k (f k) (a k))
  accMake : AR (po.accMake C) (fun _ => 0)
  accZero : ∀ acc a, AR acc a → ∃ acc', po.accZero acc = .ok acc' ∧ AR acc' (fun _ => 0)
  accOut : ∀ acc a g, AR acc a → po.accOut acc (vec C g) = .ok (vec C a)

theorem FilterLaw.toMac {po : FilterOps Filt Row Acc Arg K} {N C : ℕ} {RR : Row → (ℕ → K) → Prop}
    {AR : Acc → (ℕ → K) → Prop} {filt : Filt} {H : ℕ → ℕ → K} (h : FilterLaw po N C RR AR filt H) :
    MacLaw po N C RR AR filt (fun j k x a => a + x * H j k) := ⟨h.mac, h.accMake, h.accZero, h.accOut⟩

/-- Bin `k` of the accumulator after the first `n` slots of step `t`. -/
def macFold (N : ℕ) (m : ℕ → ℕ → K → K → K) (X : ℕ → ℕ → K) (t k : ℕ) : ℕ → K
  | 0 => 0
  | n + 1 => m ((t % N + N - n) % N) k (slotAt X N (t + 1) n k) (macFold N m X t k n)

/-- Accumulated spectrum of step `t` for any way of updating the accumulator. -/
def macM (N : ℕ) (m : ℕ → ℕ → K → K → K) (X : ℕ → ℕ → K) (t k : ℕ) : K := macFold N m X t k N

theorem macM_eq_macY (N : ℕ) (H X : ℕ → ℕ → K) : macM N (fun j k x a => a + x * H j k) X = macY N H X := by
  funext t k
  have h : ∀ n, macFold N (fun j k x a => a + x * H j k) X t k n
      = accum (fun s => slotAt X N (t + 1) s k * H ((t % N + N - s) % N) k) 0 0 n := by
    intro n
    induction n with
    | zero => rfl
    | succ n ih => simp only [macFold, accum, Nat.zero_add, ih]
  exact h N

/-- The overlap scheme hands spectra `fwd x t` to the callback and turns spectra `Y t` into
output blocks `outF Y t`. -/
structure OverlapLaw (oo : OverlapOps Ov R K) (B : ℕ) (fwd : (ℕ → R) → ℕ → ℕ → K)
    (outF : (ℕ → ℕ → K) → ℕ → ℕ → R) (OI : (ℕ → R) → (ℕ → ℕ → K) → ℕ → Ov → Prop) : Prop where
  make : ∃ o, oo.make B B = .ok o ∧ ∀ x Y, OI x Y 0 o
  step : ∀ {σ : Type} (x : ℕ → R) (Y : ℕ → ℕ → K) (t : ℕ) (o : Ov) (cb : Callback σ K) (s s' : σ),
    OI x Y t o →
    cb (vec (B + 1) (fwd x t)) s = .ok (vec (B + 1) (Y t), s') →
    ∃ o', oo.call o (vec B (fun i => x (t * B + i))) cb s = .ok (o', vec B (outF Y t), s') ∧
      OI x Y (t + 1) o'

/-- One invocation of the callback. -/
theorem upc_callback_mac {fo : FdlOps Fdl Row K} {po : FilterOps Filt Row Acc Arg K} {N C : ℕ}
    {FR : Fdl → (ℕ → ℕ → K) → Prop} {RR : Row → (ℕ → K) → Prop} {AR : Acc → (ℕ → K) → Prop}
    {filt : Filt} {m : ℕ → ℕ → K → K → K} (hN : 1 ≤ N) (hf : FdlLaw fo N C FR RR)
    (hp : MacLaw po N C RR AR filt m) (X : ℕ → ℕ → K) (t : ℕ) (s : UpcInner Fdl Acc) (a : ℕ → K)
    (h1 : FR s.fdl (slotAt X N t)) (h2 : s.indexer = ⟨N, t % N⟩) (h3 : AR s.accumulator a) :
    ∃ s', Upc.callback fo po filt (vec C (X t)) s = .ok (vec C (macM N m X t), s') ∧
      FR s'.fdl (slotAt X N (t + 1)) ∧ s'.indexer = ⟨N, (t + 1) % N⟩ ∧ ∃ a', AR s'.accumulator a' := by
  have ht : t % N < N := Nat.mod_lt _ (by omega)
  obtain ⟨acc0, e0, hacc0⟩ := hp.accZero _ _ h3
  obtain ⟨fdl1, e1, hfdl1⟩ := hf.insert _ _ (X t) (t % N) h1 ht
  have hfdl1' : FR fdl1 (slotAt X N (t + 1)) := hfdl1
  unfold Upc.callback FdlIndex.call
  rw [e0, bind_ok, h2]
  simp only []
  have hins : Upc.insert fo (vec C (X t)) (t % N) (s.fdl, acc0) = .ok (fdl1, acc0) := by
    unfold Upc.insert
    simp only []
    rw [e1, bind_ok, pure_eq_ok]
  rw [hins, bind_ok]
  obtain ⟨st, est, h⟩ := forN_inv (n := N) (s := (fdl1, acc0))
    (body := fun segment s => Upc.multiply fo po filt segment ((t % N + N - segment) % N) s)
    (fun n (st : Fdl × Acc) => st.1 = fdl1 ∧ AR st.2
      (fun k => macFold N m X t k n))
    ⟨rfl, hacc0⟩ (by
      rintro i hi ⟨f', acc'⟩ ⟨g1, g2⟩
      simp only [] at g1 g2
      subst g1
      obtain ⟨row, er, hr⟩ := hf.row _ _ i hfdl1' hi
      obtain ⟨acc'', em, hm⟩ := hp.mac row _ ((t % N + N - i) % N) acc' _ hr
        (Nat.mod_lt _ (by omega)) g2
      refine ⟨(f', acc''), ?_, rfl, ?_⟩
      · unfold Upc.multiply
        simp only []
        rw [er, bind_ok, em, bind_ok, pure_eq_ok]
      · exact hm)
  rw [est, bind_ok]
  obtain ⟨f', acc'⟩ := st
  obtain ⟨g1, g2⟩ := h
  simp only [] at g1 g2
  subst g1
  have hout := hp.accOut acc' _ (X t) g2
  simp only [pure_eq_ok, bind_ok]
  rw [hout, bind_ok]
  refine ⟨{ fdl := f', indexer := FdlIndex.advance ⟨N, t % N⟩, accumulator := acc' }, rfl, hfdl1', ?_,
    _, g2⟩
  · simp only [FdlIndex.advance, FdlIndex.reset]
    rw [succ_mod hN t]
    by_cases c : t % N + 1 ≥ N
    · rw [if_pos c, if_pos c]
    · rw [if_neg c, if_neg c]

/-- The invariant of a running convolver before block `t` of the stream `x`. -/
def UpcInv (N : ℕ) (FR : Fdl → (ℕ → ℕ → K) → Prop) (AR : Acc → (ℕ → K) → Prop)
    (OI : (ℕ → R) → (ℕ → ℕ → K) → ℕ → Ov → Prop) (X : ℕ → ℕ → K) (Y : ℕ → ℕ → K) (filt : Filt)
    (x : ℕ → R) (t : ℕ) (u : Upc Ov Fdl Filt Acc) : Prop :=
  OI x Y t u.overlap ∧ FR u.fdl (slotAt X N t) ∧ u.indexer = ⟨N, t % N⟩ ∧ u.filter = filt ∧
    ∃ a, AR u.accumulator a

theorem upc_step_mac {oo : OverlapOps Ov R K} {fo : FdlOps Fdl Row K} {po : FilterOps Filt Row Acc Arg K}
    {N B : ℕ} {fwd : (ℕ → R) → ℕ → ℕ → K} {outF : (ℕ → ℕ → K) → ℕ → ℕ → R}
    {OI : (ℕ → R) → (ℕ → ℕ → K) → ℕ → Ov → Prop}
    {FR : Fdl → (ℕ → ℕ → K) → Prop} {RR : Row → (ℕ → K) → Prop} {AR : Acc → (ℕ → K) → Prop}
    {filt : Filt} {m : ℕ → ℕ → K → K → K} (hN : 1 ≤ N) (ho : OverlapLaw oo B fwd outF OI)
    (hf : FdlLaw fo N (B + 1) FR RR) (hp : MacLaw po N (B + 1) RR AR filt m) (x : ℕ → R)
    (X Y : ℕ → ℕ → K) (hX : X = fwd x)
    (hY : Y = macM N m X) (t : ℕ) (u : Upc Ov Fdl Filt Acc)
    (hu : UpcInv N FR AR OI X Y filt x t u) :
    ∃ u', u.call oo fo po (vec B (fun i => x (t * B + i))) = .ok (u', vec B (outF Y t)) ∧
      UpcInv N FR AR OI X Y filt x (t + 1) u' := by
  obtain ⟨h1, h2, h3, h4, a, h5⟩ := hu
  subst h4
  obtain ⟨s', e, g1, g2, g3⟩ := upc_callback_mac hN hf hp X t
    { fdl := u.fdl, indexer := u.indexer, accumulator := u.accumulator } a h2 h3 h5
  obtain ⟨o', eo, go⟩ := ho.step x Y t u.overlap (Upc.callback fo po u.filter) _ s' h1 (by
    rw [hX] at e
    rw [hY, hX]
    exact e)
  unfold Upc.call
  rw [eo, bind_ok]
  simp only [pure_eq_ok]
  exact ⟨_, rfl, go, g1, g2, rfl, g3⟩

theorem upc_step {oo : OverlapOps Ov R K} {fo : FdlOps Fdl Row K} {po : FilterOps Filt Row Acc Arg K}
    {N B : ℕ} {fwd : (ℕ → R) → ℕ → ℕ → K} {outF : (ℕ → ℕ → K) → ℕ → ℕ → R}
    {OI : (ℕ → R) → (ℕ → ℕ → K) → ℕ → Ov → Prop}
    {FR : Fdl → (ℕ → ℕ → K) → Prop} {RR : Row → (ℕ → K) → Prop} {AR : Acc → (ℕ → K) → Prop}
    {filt : Filt} {H : ℕ → ℕ → K} (hN : 1 ≤ N) (ho : OverlapLaw oo B fwd outF OI)
    (hf : FdlLaw fo N (B + 1) FR RR) (hp : FilterLaw po N (B + 1) RR AR filt H) (x : ℕ → R)
    (X Y : ℕ → ℕ → K) (hX : X = fwd x)
    (hY : Y = macY N H X) (t : ℕ) (u : Upc Ov Fdl Filt Acc)
    (hu : UpcInv N FR AR OI X Y filt x t u) :
    ∃ u', u.call oo fo po (vec B (fun i => x (t * B + i))) = .ok (u', vec B (outF Y t)) ∧
      UpcInv N FR AR OI X Y filt x (t + 1) u' :=
  upc_step_mac hN ho hf hp.toMac x X Y hX (hY.trans (macM_eq_macY N H X).symm) t u hu

/-- The outputs of a running convolver. -/
theorem upc_run_mac {oo : OverlapOps Ov R K} {fo : FdlOps Fdl Row K} {po : FilterOps Filt Row Acc Arg K}
    {N B : ℕ} {fwd : (ℕ → R) → ℕ → ℕ → K} {outF : (ℕ → ℕ → K) → ℕ → ℕ → R}
    {OI : (ℕ → R) → (ℕ → ℕ → K) → ℕ → Ov → Prop}
    {FR : Fdl → (ℕ → ℕ → K) → Prop} {RR : Row → (ℕ → K) → Prop} {AR : Acc → (ℕ → K) → Prop}
    {m : ℕ → ℕ → K → K → K} (hN : 1 ≤ N) (ho : OverlapLaw oo B fwd outF OI)
    (hf : FdlLaw fo N (B + 1) FR RR) (u : Upc Ov Fdl Filt Acc) (v : MatView) (data : List K)
    (arg : Arg) (hr : v.rows = N) (hc : v.cols = B + 1)
    (hp : ∀ f0, ∃ filt, po.load f0 v data arg = .ok filt ∧ MacLaw po N (B + 1) RR AR filt m)
    (blocks : List (List R)) (hlen : ∀ b ∈ blocks, b.length = B) :
    ∃ u0, u.load oo fo po v data arg = .ok u0 ∧
      ∃ u', runBlocks (fun u b => u.call oo fo po b) u0 blocks = .ok (u', vec blocks.length
        (fun t => vec B (outF (macM N m (fwd (fun i => blocks.flatten.getD i 0))) t))) := by
  obtain ⟨o, eo, ho0⟩ := ho.make
  obtain ⟨filt, ef, hfilt⟩ := hp u.filter
  refine ⟨{ overlap := o, fdl := fo.make N (B + 1), indexer := FdlIndex.make N, filter := filt,
            accumulator := po.accMake (B + 1) }, ?_, ?_⟩
  · unfold Upc.load
    rw [if_neg (by omega), bind_ok, hc, hr, Nat.add_sub_cancel, eo, bind_ok]
    simp only []
    rw [ef, bind_ok]
    rfl
  set x : ℕ → R := fun i => blocks.flatten.getD i 0 with hx
  set X : ℕ → ℕ → K := fwd x with hX
  obtain ⟨u', e, -⟩ := runBlocks_inv (step := fun u b => Upc.call oo fo po u b)
    (UpcInv N FR AR OI X (macM N m X) filt x)
    (fun t => vec B (fun i => x (t * B + i))) (fun t => vec B (outF (macM N m X) t))
    (fun t s hs => upc_step_mac hN ho hf hfilt x X _ rfl rfl t s hs) blocks.length 0
    { overlap := o, fdl := fo.make N (B + 1), indexer := FdlIndex.make N, filter := filt,
      accumulator := po.accMake (B + 1) }
    ⟨ho0 _ _, hf.make, by simp [FdlIndex.make], rfl, _, hfilt.accMake⟩
  simp only [Nat.zero_add] at e
  rw [← blocks_eq_vec (0 : R) blocks hlen] at e
  exact ⟨u', e⟩

/-- The outputs of a running convolver. -/
theorem upc_run {oo : OverlapOps Ov R K} {fo : FdlOps Fdl Row K} {po : FilterOps Filt Row Acc Arg K}
    {N B : ℕ} {fwd : (ℕ → R) → ℕ → ℕ → K} {outF : (ℕ → ℕ → K) → ℕ → ℕ → R}
    {OI : (ℕ → R) → (ℕ → ℕ → K) → ℕ → Ov → Prop}
    {FR : Fdl → (ℕ → ℕ → K) → Prop} {RR : Row → (ℕ → K) → Prop} {AR : Acc → (ℕ → K) → Prop}
    {H : ℕ → ℕ → K} (hN : 1 ≤ N) (ho : OverlapLaw oo B fwd outF OI)
    (hf : FdlLaw fo N (B + 1) FR RR) (u : Upc Ov Fdl Filt Acc) (v : MatView) (data : List K)
    (arg : Arg) (hr : v.rows = N) (hc : v.cols = B + 1)
    (hp : ∀ f0, ∃ filt, po.load f0 v data arg = .ok filt ∧ FilterLaw po N (B + 1) RR AR filt H)
    (blocks : List (List R)) (hlen : ∀ b ∈ blocks, b.length = B) :
    ∃ u0, u.load oo fo po v data arg = .ok u0 ∧
      ∃ u', runBlocks (fun u b => u.call oo fo po b) u0 blocks = .ok (u', vec blocks.length
        (fun t => vec B (outF (macY N H (fwd (fun i => blocks.flatten.getD i 0))) t))) := by
  rw [← macM_eq_macY]
  exact upc_run_mac hN ho hf u v data arg hr hc (fun f0 => (hp f0).imp fun _ h => ⟨h.1, h.2.toMac⟩) blocks hlen

end laws

/-! ## The overlap schemes obey the law -/

/-- Spectra of the windows. -/
noncomputable def winSpec (B : ℕ) (win : (ℕ → ℝ) → ℕ → ℕ → ℝ) (x : ℕ → ℝ) (t : ℕ) : ℕ → ℂ :=
  Spec.dft (2 * B) (fun n => (win x t n : ℂ))

/-- Output of overlap-add. -/
noncomputable def olaOut (B : ℕ) (Y : ℕ → ℕ → ℂ) (t i : ℕ) : ℝ :=
  specOut (2 * B) (Y t) i + if 1 ≤ t then specOut (2 * B) (Y (t - 1)) (B + i) else 0

/-- Output of overlap-save. -/
noncomputable def olsOut (B : ℕ) (Y : ℕ → ℕ → ℂ) (t i : ℕ) : ℝ := specOut (2 * B) (Y t) (B + i)

theorem clog_block {a : ℕ} (ha : 1 ≤ a) : Nat.clog 2 (2 ^ a + 2 ^ a - 1) = a + 1 := by
  have h2 : 2 ≤ 2 ^ a := by
    calc 2 = 2 ^ 1 := rfl
      _ ≤ 2 ^ a := Nat.pow_le_pow_right (by norm_num) ha
  apply le_antisymm
  · rw [Nat.clog_le_iff_le_pow (by norm_num), pow_succ]; omega
  · by_contra h
    have : Nat.clog 2 (2 ^ a + 2 ^ a - 1) ≤ a := by omega
    rw [Nat.clog_le_iff_le_pow (by norm_num)] at this
    omega

theorem two_pow_half (a : ℕ) : 2 ^ (a + 1) / 2 + 1 = 2 ^ a + 1 := by
  rw [pow_succ]; simp

theorem two_mul_pow (a : ℕ) : 2 * 2 ^ a = 2 ^ (a + 1) := by rw [pow_succ]; ring

theorem ola_law {a : ℕ} (ha : 1 ≤ a) (ha2 : a ≤ 26) :
    OverlapLaw olaOps (2 ^ a) (winSpec (2 ^ a) (seg (2 ^ a))) (olaOut (2 ^ a))
      (fun _ Y t o => ∃ f w sp ov, o = oaOf (2 ^ a) (2 ^ a) (a + 1) f w sp ov ∧
        ∀ i < 2 ^ a, ov i = if 1 ≤ t then specOut (2 * 2 ^ a) (Y (t - 1)) (2 ^ a + i) else 0) := by
  constructor
  · refine ⟨_, overlapAdd_make_eq (by rw [clog_block ha]; omega) (by have := Nat.one_le_two_pow (n := a); omega), fun x Y => ?_⟩
    rw [clog_block ha]
    exact ⟨_, _, _, _, rfl, fun _ _ => rfl⟩
  · rintro σ x Y t _ cb s s' ⟨f, w, sp, ov, rfl, hov⟩ hcb
    have hcb' : cb (vec (2 ^ (a + 1) / 2 + 1) (Spec.dft (2 ^ (a + 1))
        (fun n => (oaWindow (2 ^ a) (fun i => x (t * 2 ^ a + i)) w n : ℂ)))) s
        = .ok (vec (2 ^ (a + 1) / 2 + 1) (Y t), s') := by
      rw [two_pow_half, ← hcb]
      unfold winSpec
      rw [two_mul_pow]
      congr 1
      apply vec_ext
      intro k _
      apply dft_congr
      intro n hn
      rw [pow_succ] at hn
      unfold oaWindow seg
      by_cases c : n < 2 ^ a
      · rw [if_pos c, if_pos c]
      · rw [if_neg c, if_neg c, if_pos hn]
    obtain ⟨f', e⟩ := oa_step (F := 2 ^ a) (by omega) (le_of_eq (by rw [pow_succ])) f w sp ov _ cb s s'
      (Y t) hcb'
    have hout : (vec (2 ^ a) fun i => specOut (2 ^ (a + 1)) (Y t) i + ov i)
        = vec (2 ^ a) (olaOut (2 ^ a) Y t) := by
      apply vec_ext
      intro i hi
      rw [hov i hi, ← two_mul_pow]
      rfl
    rw [hout] at e
    refine ⟨_, e, f', _, _, _, rfl, ?_⟩
    intro i hi
    rw [if_pos (by omega), Nat.add_sub_cancel, two_mul_pow]

theorem ols_law {a : ℕ} (ha : 1 ≤ a) (ha2 : a ≤ 26) :
    OverlapLaw olsOps (2 ^ a) (winSpec (2 ^ a) (saveWindow (2 ^ a))) (olsOut (2 ^ a))
      (fun x _ t o => ∃ f w rb cbuf, o = osOf (2 ^ a) (2 ^ a) (a + 1) f w rb cbuf ∧
        ∀ k < 2 ^ (a + 1), w k = if 2 ^ (a + 1) ≤ t * 2 ^ a + k then x (t * 2 ^ a + k - 2 ^ (a + 1))
          else 0) := by
  have hp : 2 ^ (a + 1) = 2 ^ a + 2 ^ a := by rw [pow_succ]; ring
  constructor
  · refine ⟨_, overlapSave_make_eq (by rw [clog_block ha]; omega) (by have := Nat.one_le_two_pow (n := a); omega), fun x Y => ?_⟩
    rw [clog_block ha]
    exact ⟨_, _, _, _, rfl, fun k hk => by rw [if_neg (by omega)]⟩
  · rintro σ x Y t _ cb s s' ⟨f, w, rb, cbuf, rfl, hw⟩ hcb
    have hwin : ∀ n < 2 ^ (a + 1), osWindow (2 ^ (a + 1)) (2 ^ a) (fun i => x (t * 2 ^ a + i)) w n
        = if 2 ^ (a + 1) ≤ (t + 1) * 2 ^ a + n then x ((t + 1) * 2 ^ a + n - 2 ^ (a + 1)) else 0 := by
      intro n hn
      rw [osWindow_dvd (pow_dvd_pow 2 (by omega)), add_mul, one_mul]
      by_cases c : n + 2 ^ a < 2 ^ (a + 1)
      · rw [if_pos c, hw _ c, show t * 2 ^ a + (n + 2 ^ a) = t * 2 ^ a + 2 ^ a + n by omega]
      · rw [if_neg c, if_pos (by omega)]
        congr 1; omega
    have hcb' : cb (vec (2 ^ (a + 1) / 2 + 1) (Spec.dft (2 ^ (a + 1))
        (fun n => (osWindow (2 ^ (a + 1)) (2 ^ a) (fun i => x (t * 2 ^ a + i)) w n : ℂ)))) s
        = .ok (vec (2 ^ (a + 1) / 2 + 1) (Y t), s') := by
      rw [two_pow_half, ← hcb]
      unfold winSpec
      rw [two_mul_pow]
      congr 1
      apply vec_ext
      intro k _
      apply dft_congr
      intro n hn
      rw [hwin n hn]
      unfold saveWindow
      rw [add_mul, one_mul]
      by_cases c : n < 2 ^ a
      · rw [if_pos c]
        by_cases ct : 1 ≤ t
        · have : 2 ^ a ≤ t * 2 ^ a := Nat.le_mul_of_pos_left _ ct
          rw [if_pos ct, if_pos (by omega), Nat.sub_mul, one_mul]
          congr 2; omega
        · obtain rfl : t = 0 := by omega
          rw [if_neg (by omega), if_neg (by omega)]
      · rw [if_neg c, if_pos (by omega)]
        congr 2; omega
    obtain ⟨f', rb', cbuf', e⟩ := os_step (F := 2 ^ a) (by omega) Nat.one_le_two_pow
      (Nat.pow_le_pow_right (by norm_num) (Nat.le_succ a)) f w rb cbuf _ cb s s' (Y t) hcb'
    have hout : (vec (2 ^ a) fun i => specOut (2 ^ (a + 1)) (Y t) (2 ^ (a + 1) - 2 ^ a + i))
        = vec (2 ^ a) (olsOut (2 ^ a) Y t) := by
      apply vec_ext
      intro i hi
      unfold olsOut
      rw [two_mul_pow]
      congr 1; omega
    rw [hout] at e
    exact ⟨_, e, f', _, rb', cbuf', rfl, hwin⟩

end Neo
