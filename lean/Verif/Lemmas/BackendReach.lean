import Verif.Lemmas.Backend
import Verif.Lemmas.UpcOk

/-! # States of the vendor-backed plans after any sequence of calls -/

namespace Neo

/-- States that can occur: initial ones, and those after any number of steps. -/
inductive Reach {P : Type} (init : P → Prop) (step : P → P → Prop) : P → Prop
  | init {p} : init p → Reach init step p
  | step {p p'} : Reach init step p → step p p' → Reach init step p'

variable {v : Vendor}

/-- Plans of this order after any number of successful calls. -/
def AppleReachable (v : Vendor) (order : ℕ) : AppleFftPlan → Prop :=
  Reach (fun p => AppleFftPlan.make v order = .ok p)
    (fun p p' => ∃ x dir y, p.call v x dir = .ok (p', y))

/-- Plans of this order after any number of successful calls. -/
def MklReachable (v : Vendor) (order : ℕ) : MklFftPlan → Prop :=
  Reach (fun p => MklFftPlan.make order = .ok p)
    (fun p p' => ∃ vz x dir y, p.call v vz x dir = .ok (p', y))

/-- Plans of this order after any number of successful calls. -/
def IppReachable (v : Vendor) (order : ℕ) : IppFftPlan → Prop :=
  Reach (fun p => IppFftPlan.make v order = .ok p)
    (fun p p' => (∃ vz x dir y, p.call v vz x dir = .ok (p', y)) ∨
      ∃ vz x o dir y, p.callOut v vz x o dir = .ok (p', y))

/-- Plans of this size after any number of successful calls. -/
def IppDftReachable (v : Vendor) (n : ℕ) : IppDftPlan → Prop :=
  Reach (fun p => IppDftPlan.make v n = .ok p)
    (fun p p' => (∃ x dir y, p.call v x dir = .ok (p', y)) ∨
      ∃ vz x o dir y, p.callOut v vz x o dir = .ok (p', y))

/-- Plans of this order after any number of successful calls. -/
def IppRfftReachable (v : Vendor) (order : ℕ) : IppRfftPlan → Prop :=
  Reach (fun p => IppRfftPlan.make v order = .ok p)
    (fun p p' => (∃ vz x o y, p.rfft v vz x o = .ok (p', y)) ∨
      ∃ vz x o y, p.irfft v vz x o = .ok (p', y))

theorem ok_fst {α β : Type} {a a' : α} {b b' : β} (h : (Except.ok (a, b) : Res (α × β)) = .ok (a', b')) :
    a' = a := by
  injection h with h
  injection h with h _
  exact h.symm

theorem sizeOfOrder_eq_ok {b n : ℕ} (h : sizeOfOrder b = .ok n) : b < 64 ∧ n = 2 ^ b := by
  unfold sizeOfOrder at h
  split at h
  · cases h
  · injection h with h
    rw [fftSize_eq] at h
    exact ⟨by omega, h.symm⟩

theorem apple_make_ok {b : ℕ} {p : AppleFftPlan} (h : AppleFftPlan.make v b = .ok p) :
    b ≤ 27 ∧ p = appleOf b (fun _ _ => 0) := by
  unfold AppleFftPlan.make at h
  obtain ⟨n, hn, h⟩ := bind_eq_ok h
  obtain ⟨-, rfl⟩ := sizeOfOrder_eq_ok hn
  split at h
  · cases h
  · obtain ⟨_, -, h⟩ := bind_eq_ok h
    rw [pure_eq_ok] at h
    injection h with h
    exact ⟨by omega, h.symm⟩

theorem appleReachable_form (hv : v.Contract) {b : ℕ} {p : AppleFftPlan} (h : AppleReachable v b p) :
    b ≤ 27 ∧ ∃ f, p = appleOf b f := by
  induction h with
  | init h => exact ⟨(apple_make_ok h).1, _, (apple_make_ok h).2⟩
  | step _ h ih =>
    obtain ⟨hb, f, rfl⟩ := ih
    obtain ⟨x, dir, y, h⟩ := h
    have h' := h
    unfold AppleFftPlan.call at h'
    obtain ⟨_, hc, -⟩ := bind_eq_ok h'
    have hx : x.length = 2 ^ b := check_eq_ok hc
    obtain ⟨f', e⟩ := apple_call hv b f (fun i => x.getD i 0) dir
    rw [← list_eq_vec 0 hx, h] at e
    exact ⟨hb, f', (ok_fst e).symm⟩

theorem mklReachable_form (hv : v.Contract) {b : ℕ} {p : MklFftPlan} (h : MklReachable v b p) :
    b ≤ 27 ∧ ∃ f, p = mklOf b f := by
  induction h with
  | init h =>
    by_cases hb : b ≤ 27
    · rw [mkl_make hb] at h
      injection h with h
      exact ⟨hb, _, h.symm⟩
    · unfold MklFftPlan.make at h
      rw [if_pos (by omega)] at h
      cases h
  | step _ h ih =>
    obtain ⟨hb, f, rfl⟩ := ih
    obtain ⟨vz, x, dir, y, h⟩ := h
    have h' := h
    unfold MklFftPlan.call at h'
    obtain ⟨_, hc, -⟩ := bind_eq_ok h'
    have hx : x.length = 2 ^ b := by
      have := check_eq_ok hc
      rwa [fftSize_eq] at this
    obtain ⟨f', e⟩ := mkl_call hv vz b f (fun i => x.getD i 0) dir
    rw [← list_eq_vec 0 hx, h] at e
    exact ⟨hb, f', (ok_fst e).symm⟩

theorem ippReachable_form (hv : v.Contract) {b : ℕ} {p : IppFftPlan} (h : IppReachable v b p) :
    b < 64 ∧ ∃ f, p = ippOf b f := by
  induction h with
  | init h =>
    unfold IppFftPlan.make at h
    obtain ⟨_, -, h⟩ := bind_eq_ok h
    obtain ⟨n, hn, h⟩ := bind_eq_ok h
    obtain ⟨hb, rfl⟩ := sizeOfOrder_eq_ok hn
    rw [pure_eq_ok] at h
    injection h with h
    exact ⟨hb, _, h.symm⟩
  | step _ h ih =>
    obtain ⟨hb, f, rfl⟩ := ih
    rcases h with ⟨vz, x, dir, y, h⟩ | ⟨vz, x, o, dir, y, h⟩
    · have h' := h
      unfold IppFftPlan.call at h'
      obtain ⟨n, hn, h'⟩ := bind_eq_ok h'
      obtain ⟨-, rfl⟩ := sizeOfOrder_eq_ok hn
      obtain ⟨_, hc, -⟩ := bind_eq_ok h'
      have hx : x.length = 2 ^ b := check_eq_ok hc
      obtain ⟨f', e⟩ := ipp_call hv vz hb f (fun i => x.getD i 0) dir
      rw [← list_eq_vec 0 hx, h] at e
      exact ⟨hb, f', (ok_fst e).symm⟩
    · have h' := h
      unfold IppFftPlan.callOut at h'
      obtain ⟨n, hn, h'⟩ := bind_eq_ok h'
      obtain ⟨-, rfl⟩ := sizeOfOrder_eq_ok hn
      obtain ⟨_, hc, h'⟩ := bind_eq_ok h'
      obtain ⟨_, hc', -⟩ := bind_eq_ok h'
      have hx : x.length = 2 ^ b := check_eq_ok hc
      have ho : o.length = 2 ^ b := check_eq_ok hc'
      obtain ⟨f', e⟩ := ipp_callOut hv vz hb f (fun i => x.getD i 0) (fun i => o.getD i 0) dir
      rw [← list_eq_vec 0 hx, ← list_eq_vec 0 ho, h] at e
      exact ⟨hb, f', (ok_fst e).symm⟩

theorem ippDftReachable_form (hv : v.Contract) {n : ℕ} {p : IppDftPlan} (h : IppDftReachable v n p) :
    ∃ f g, p = ippDftOf n f g := by
  induction h with
  | init h =>
    unfold IppDftPlan.make at h
    split at h
    · injection h with h
      exact ⟨_, _, h.symm⟩
    · cases h
  | step _ h ih =>
    obtain ⟨f, g, rfl⟩ := ih
    rcases h with ⟨x, dir, y, h⟩ | ⟨vz, x, o, dir, y, h⟩
    · have h' := h
      unfold IppDftPlan.call at h'
      obtain ⟨_, hc, -⟩ := bind_eq_ok h'
      have hx : x.length = n := check_eq_ok hc
      obtain ⟨f', g', e⟩ := ippDft_call hv n f g (fun i => x.getD i 0) dir
      rw [← list_eq_vec 0 hx, h] at e
      exact ⟨f', g', (ok_fst e).symm⟩
    · have h' := h
      unfold IppDftPlan.callOut at h'
      obtain ⟨_, hc, h'⟩ := bind_eq_ok h'
      obtain ⟨_, hc', -⟩ := bind_eq_ok h'
      have hx : x.length = n := check_eq_ok hc
      have ho : o.length = n := check_eq_ok hc'
      obtain ⟨f', g', e⟩ := ippDft_callOut hv vz n f g (fun i => x.getD i 0) (fun i => o.getD i 0) dir
      rw [← list_eq_vec 0 hx, ← list_eq_vec 0 ho, h] at e
      exact ⟨f', g', (ok_fst e).symm⟩

theorem wr_length {α : Type} {xs ys : List α} {i : ℕ} {a : α} (h : wr xs i a = .ok ys) :
    ys.length = xs.length := by
  unfold wr at h
  split at h
  · cases h; simp
  · cases h

theorem forN_pres {σ : Type} {body : ℕ → σ → Res σ} (P : σ → Prop)
    (hstep : ∀ i s s', P s → body i s = .ok s' → P s') :
    ∀ (n : ℕ) (s s' : σ), P s → forN n body s = .ok s' → P s' := by
  intro n
  induction n with
  | zero => intro s s' h e; cases e; exact h
  | succ n ih =>
    intro s s' h e
    rw [forN_succ] at e
    obtain ⟨s1, e1, e2⟩ := bind_eq_ok e
    exact hstep _ _ _ (ih _ _ h e1) e2

theorem ippRfftReachable_form {b : ℕ} {p : IppRfftPlan} (h : IppRfftReachable v b p) :
    b < 64 ∧ ∃ f, p = ippRfftOf b f := by
  suffices h : b < 64 ∧ p.order = b ∧ p.buffer.length = 2 ^ b * 2 by
    obtain ⟨h1, h2, h3⟩ := h
    refine ⟨h1, fun i => p.buffer.getD i 0, ?_⟩
    cases p
    simp only [ippRfftOf] at h2 h3 ⊢
    rw [← list_eq_vec 0 h3, h2]
  induction h with
  | init h =>
    unfold IppRfftPlan.make at h
    obtain ⟨n, hn, h⟩ := bind_eq_ok h
    obtain ⟨hb, rfl⟩ := sizeOfOrder_eq_ok hn
    obtain ⟨_, -, h⟩ := bind_eq_ok h
    rw [pure_eq_ok] at h
    injection h with h
    subst h
    exact ⟨hb, rfl, by simp⟩
  | step _ h ih =>
    obtain ⟨hb, ho, hl⟩ := ih
    rcases h with ⟨vz, x, o, y, h⟩ | ⟨vz, x, o, y, h⟩
    · unfold IppRfftPlan.rfft at h
      obtain ⟨_, -, h⟩ := bind_eq_ok h
      obtain ⟨_, -, h⟩ := bind_eq_ok h
      split at h
      · obtain ⟨_, -, h⟩ := bind_eq_ok h
        obtain ⟨_, -, h⟩ := bind_eq_ok h
        rw [ok_fst h]
        exact ⟨hb, ho, hl⟩
      · obtain ⟨_, h1, h⟩ := bind_eq_ok h
        obtain ⟨_, -, h⟩ := bind_eq_ok h
        obtain ⟨_, h2, h⟩ := bind_eq_ok h
        obtain ⟨_, -, h⟩ := bind_eq_ok h
        rw [ok_fst h]
        exact ⟨hb, ho, by rw [wrSpan_length h2, copyInto_length h1, hl]⟩
    · unfold IppRfftPlan.irfft at h
      split at h
      · obtain ⟨_, -, h⟩ := bind_eq_ok h
        obtain ⟨_, -, h⟩ := bind_eq_ok h
        rw [ok_fst h]
        exact ⟨hb, ho, hl⟩
      · obtain ⟨_, h1, h⟩ := bind_eq_ok h
        obtain ⟨_, -, h⟩ := bind_eq_ok h
        obtain ⟨_, h2, h⟩ := bind_eq_ok h
        obtain ⟨_, -, h⟩ := bind_eq_ok h
        obtain ⟨_, -, h⟩ := bind_eq_ok h
        obtain ⟨_, -, h⟩ := bind_eq_ok h
        rw [ok_fst h]
        refine ⟨hb, ho, ?_⟩
        rw [wrSpan_length h2]
        exact forN_pres (fun s => s.length = 2 ^ b * 2) (fun i s s' hs e => by
          obtain ⟨_, -, e⟩ := bind_eq_ok e
          obtain ⟨_, e1, e⟩ := bind_eq_ok e
          rw [wr_length e, wr_length e1, hs]) _ _ _ hl h1

end Neo
