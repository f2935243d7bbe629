import Verif.Model.Handle
import Mathlib.Data.List.Basic
import Mathlib.Tactic.SplitIfs
import Mathlib.Tactic.Basic

/-! # Ownership of vendor set-up objects: C76 -/

namespace Neo.Props

open Function

/-- Library objects are owned by at most one plan, exist, and are not released while owned; no object has
been released twice. -/
structure HandleInv (b : Backend) (s : HandleState) : Prop where
  inj : ∀ i j oi oj h, s.objs i = some oi → s.objs j = some oj → oi.owns = some h → oj.owns = some h →
    i = j
  live : ∀ i o h, s.objs i = some o → o.owns = some h → h < s.next ∧ h ∉ s.freed
  freed : ∀ h ∈ s.freed, h < s.next
  nodup : s.freed.Nodup
  raw : b ≠ .ipp → ∀ i o, s.objs i = some o → o.raw = o.owns

theorem handleInv_init (b : Backend) : HandleInv b HandleState.init :=
  ⟨by simp [HandleState.init], by simp [HandleState.init], by simp [HandleState.init],
    by simp [HandleState.init], by simp [HandleState.init]⟩

theorem movedFrom_owns (b : Backend) (o : PlanObj) : (movedFrom b o).owns = none := by
  cases b <;> rfl

theorem movedFrom_raw {b : Backend} (hb : b ≠ .ipp) (o : PlanObj) : (movedFrom b o).raw = none := by
  cases b <;> first | rfl | exact absurd rfl hb

/-- The state after moving the plan of slot `i` to slot `d`. -/
theorem handleInv_move {b : Backend} {s : HandleState} (hs : HandleInv b s) {d i : ℕ} {o : PlanObj}
    (hi : s.objs i = some o) (hd : d ≠ i) (freed : List ℕ) (hf : freed.Nodup)
    (hf1 : ∀ h ∈ freed, h < s.next)
    (hf2 : ∀ j o' h, j ≠ d → s.objs j = some o' → o'.owns = some h → h ∉ freed) :
    HandleInv b { objs := update (update s.objs i (some (movedFrom b o))) d (some o),
                  next := s.next, freed := freed } := by
  have key : ∀ j o', update (update s.objs i (some (movedFrom b o))) d (some o) j = some o' →
      (j = d ∧ o' = o) ∨ (j = i ∧ j ≠ d ∧ o' = movedFrom b o) ∨
        (j ≠ d ∧ j ≠ i ∧ s.objs j = some o') := by
    intro j o' h
    by_cases h1 : j = d
    · subst h1
      rw [update_self] at h
      injection h with h
      exact .inl ⟨rfl, h.symm⟩
    · rw [update_of_ne h1] at h
      by_cases h2 : j = i
      · subst h2
        rw [update_self] at h
        injection h with h
        exact .inr (.inl ⟨rfl, h1, h.symm⟩)
      · rw [update_of_ne h2] at h
        exact .inr (.inr ⟨h1, h2, h⟩)
  constructor
  · intro j k oj ok h hj hk ej ek
    rcases key j oj hj with ⟨rfl, rfl⟩ | ⟨rfl, -, rfl⟩ | ⟨n1, n2, hj⟩
    · rcases key k ok hk with ⟨rfl, -⟩ | ⟨rfl, -, rfl⟩ | ⟨m1, m2, hk⟩
      · rfl
      · rw [movedFrom_owns] at ek; cases ek
      · exact absurd (hs.inj _ _ _ _ _ hk hi ek ej) m2
    · rw [movedFrom_owns] at ej; cases ej
    · rcases key k ok hk with ⟨rfl, rfl⟩ | ⟨rfl, -, rfl⟩ | ⟨m1, m2, hk⟩
      · exact absurd (hs.inj _ _ _ _ _ ‹s.objs j = some oj› hi ej ek) n2
      · rw [movedFrom_owns] at ek; cases ek
      · exact hs.inj _ _ _ _ _ ‹s.objs j = some oj› hk ej ek
  · intro j oj h hj ej
    rcases key j oj hj with ⟨rfl, rfl⟩ | ⟨rfl, -, rfl⟩ | ⟨n1, n2, hj⟩
    · exact ⟨(hs.live _ _ _ hi ej).1, hf2 _ _ _ (Ne.symm hd) hi ej⟩
    · rw [movedFrom_owns] at ej; cases ej
    · exact ⟨(hs.live _ _ _ hj ej).1, hf2 _ _ _ n1 hj ej⟩
  · exact hf1
  · exact hf
  · intro hb j oj hj
    rcases key j oj hj with ⟨rfl, rfl⟩ | ⟨rfl, -, rfl⟩ | ⟨n1, n2, hj⟩
    · exact hs.raw hb _ _ hi
    · rw [movedFrom_owns, movedFrom_raw hb]
    · exact hs.raw hb _ _ hj

/-- Releasing the object owned by the plan in slot `i` succeeds. -/
theorem release_owned {b : Backend} {s : HandleState} (hs : HandleInv b s) {i : ℕ} {o : PlanObj}
    (hi : s.objs i = some o) : ∃ f, s.release o.owns = .ok { s with freed := f } ∧ f.Nodup ∧
      (∀ h ∈ f, h < s.next) ∧ (∀ h, h ∈ f ↔ h ∈ s.freed ∨ o.owns = some h) := by
  cases ho : o.owns with
  | none => exact ⟨s.freed, rfl, hs.nodup, hs.freed, by simp⟩
  | some h =>
    obtain ⟨h1, h2⟩ := hs.live i o h hi ho
    refine ⟨h :: s.freed, ?_, List.nodup_cons.2 ⟨h2, hs.nodup⟩, ?_, ?_⟩
    · exact if_neg h2
    · intro k hk
      rcases List.mem_cons.1 hk with rfl | hk
      · exact h1
      · exact hs.freed k hk
    · intro k
      rw [List.mem_cons]
      constructor
      · rintro (rfl | h)
        · exact .inr rfl
        · exact .inl h
      · rintro (h | h)
        · exact .inr h
        · injection h with h
          exact .inl h.symm

theorem get_ok {s : HandleState} {i : ℕ} {o : PlanObj} (h : s.get i = .ok o) : s.objs i = some o := by
  unfold HandleState.get at h
  cases e : s.objs i with
  | none => rw [e] at h; cases h
  | some o' => rw [e] at h; injection h with h; rw [h]

theorem get_cases (s : HandleState) (i : ℕ) :
    s.get i = .error .client ∨ ∃ o, s.get i = .ok o ∧ s.objs i = some o := by
  cases e : s.objs i with
  | none => left; unfold HandleState.get; rw [e]
  | some o => right; exact ⟨o, by unfold HandleState.get; rw [e], rfl⟩

/-- One operation: the invariant is kept, and the possible failures. -/
theorem handleStep_inv {b : Backend} {s : HandleState} (hs : HandleInv b s) (op : HandleOp) :
    (∃ s', handleStep b s op = .ok s' ∧ HandleInv b s') ∨
    handleStep b s op = .error .client ∨
    (∃ i, op = .call i ∧ handleStep b s op = .error .nullHandle) ∨
    (b = .ipp ∧ ∃ i, op = .call i ∧ handleStep b s op = .error .useAfterFree) := by
  cases op with
  | construct i =>
    cases e : s.objs i with
    | some o => right; left; simp [handleStep, e]
    | none =>
      left
      refine ⟨_, (by simp only [handleStep, e]; rfl), ?_⟩
      have key : ∀ j o, update s.objs i (some { owns := some s.next, raw := some s.next }) j = some o →
          (j = i ∧ o = { owns := some s.next, raw := some s.next }) ∨ (j ≠ i ∧ s.objs j = some o) := by
        intro j o h
        by_cases hj : j = i
        · subst hj
          rw [update_self] at h
          injection h with h
          exact .inl ⟨rfl, h.symm⟩
        · rw [update_of_ne hj] at h
          exact .inr ⟨hj, h⟩
      constructor
      · intro j k oj ok h hj hk ej ek
        rcases key j oj hj with ⟨rfl, rfl⟩ | ⟨n1, hj⟩
        · rcases key k ok hk with ⟨rfl, -⟩ | ⟨m1, hk⟩
          · rfl
          · injection ej with ej
            subst ej
            exact absurd (hs.live _ _ _ hk ek).1 (Nat.lt_irrefl _)
        · rcases key k ok hk with ⟨rfl, rfl⟩ | ⟨m1, hk⟩
          · injection ek with ek
            subst ek
            exact absurd (hs.live _ _ _ ‹s.objs j = some oj› ej).1 (Nat.lt_irrefl _)
          · exact hs.inj _ _ _ _ _ ‹s.objs j = some oj› hk ej ek
      · intro j oj h hj ej
        rcases key j oj hj with ⟨rfl, rfl⟩ | ⟨n1, hj⟩
        · injection ej with ej
          subst ej
          exact ⟨Nat.lt_succ_self _, fun h => Nat.lt_irrefl _ (hs.freed _ h)⟩
        · exact ⟨Nat.lt_succ_of_lt (hs.live _ _ _ hj ej).1, (hs.live _ _ _ hj ej).2⟩
      · exact fun h hh => Nat.lt_succ_of_lt (hs.freed h hh)
      · exact hs.nodup
      · intro hb j oj hj
        rcases key j oj hj with ⟨rfl, rfl⟩ | ⟨n1, hj⟩
        · rfl
        · exact hs.raw hb _ _ hj
  | moveConstruct d i =>
    rcases get_cases s i with e | ⟨o, e, ho⟩
    · right; left; simp [handleStep, e, bind, Except.bind]
    · cases ed : s.objs d with
      | some o' => right; left; simp [handleStep, e, ed, bind, Except.bind]
      | none =>
        left
        refine ⟨_, (by simp only [handleStep, e, ed, bind, Except.bind]; rfl), ?_⟩
        refine handleInv_move hs ho (fun h => ?_) _ hs.nodup hs.freed
          (fun j o' h _ hj ej => (hs.live _ _ _ hj ej).2)
        subst h
        rw [ho] at ed
        cases ed
  | moveAssign d i =>
    rcases get_cases s i with e | ⟨o, e, ho⟩
    · right; left; simp [handleStep, e, bind, Except.bind]
    · rcases get_cases s d with ed | ⟨od, ed, hod⟩
      · right; left; simp [handleStep, e, ed, bind, Except.bind]
      · left
        by_cases hd : d = i
        · exact ⟨s, by simp only [handleStep, e, ed, bind, Except.bind, if_pos hd], hs⟩
        · have hw : ∃ f, overwritten b s od = .ok { s with freed := f } ∧ f.Nodup ∧
              (∀ h ∈ f, h < s.next) ∧ (∀ h, h ∈ f → h ∈ s.freed ∨ od.owns = some h) := by
            cases b with
            | vdsp => exact ⟨s.freed, rfl, hs.nodup, hs.freed, fun h hh => .inl hh⟩
            | mkl => exact ⟨s.freed, rfl, hs.nodup, hs.freed, fun h hh => .inl hh⟩
            | ipp =>
              obtain ⟨f, h1, h2, h3, h4⟩ := release_owned hs hod
              exact ⟨f, h1, h2, h3, fun h => (h4 h).1⟩
          obtain ⟨f, h1, h2, h3, h4⟩ := hw
          refine ⟨_, (by simp only [handleStep, e, ed, bind, Except.bind, if_neg hd, h1]; rfl), ?_⟩
          refine handleInv_move hs ho hd f h2 h3 (fun j o' h hj1 hj ej hh => ?_)
          rcases h4 h hh with hh | hh
          · exact (hs.live _ _ _ hj ej).2 hh
          · exact hj1 (hs.inj _ _ _ _ _ hj hod ej hh)
  | destroy i =>
    rcases get_cases s i with e | ⟨o, e, ho⟩
    · right; left; simp [handleStep, e, bind, Except.bind]
    · left
      obtain ⟨f, h1, h2, h3, h4⟩ := release_owned hs ho
      refine ⟨_, (by simp only [handleStep, e, h1, bind, Except.bind]; rfl), ?_⟩
      have key : ∀ j oj, update s.objs i none j = some oj → j ≠ i ∧ s.objs j = some oj := by
        intro j oj h
        by_cases hj : j = i
        · subst hj; rw [update_self] at h; cases h
        · rw [update_of_ne hj] at h; exact ⟨hj, h⟩
      constructor
      · intro j k oj ok h hj hk ej ek
        exact hs.inj _ _ _ _ _ (key _ _ hj).2 (key _ _ hk).2 ej ek
      · intro j oj h hj ej
        obtain ⟨hj1, hj⟩ := key _ _ hj
        refine ⟨(hs.live _ _ _ hj ej).1, fun hh => ?_⟩
        rcases (h4 h).1 hh with hh | hh
        · exact (hs.live _ _ _ hj ej).2 hh
        · exact hj1 (hs.inj _ _ _ _ _ hj ho ej hh)
      · exact h3
      · exact h2
      · exact fun hb j oj hj => hs.raw hb _ _ (key _ _ hj).2
  | call i =>
    rcases get_cases s i with e | ⟨o, e, ho⟩
    · right; left; simp [handleStep, e, bind, Except.bind]
    · cases er : o.raw with
      | none => right; right; left; exact ⟨i, rfl, by simp [handleStep, e, er, bind, Except.bind]⟩
      | some h =>
        by_cases hh : h ∈ s.freed
        · right; right; right
          have hb : b = .ipp := by
            by_contra hb
            have := hs.raw hb _ _ ho
            rw [er] at this
            exact (hs.live _ _ _ ho this.symm).2 hh
          exact ⟨hb, i, rfl, by simp [handleStep, e, er, hh, bind, Except.bind]⟩
        · left
          exact ⟨s, by simp [handleStep, e, er, hh, bind, Except.bind], hs⟩

theorem handleRun_inv {b : Backend} {ops : List HandleOp} : ∀ {s : HandleState}, HandleInv b s →
    (∃ s', handleRun b s ops = .ok s' ∧ HandleInv b s') ∨
    handleRun b s ops = .error .client ∨ handleRun b s ops = .error .nullHandle ∨
    (b = .ipp ∧ handleRun b s ops = .error .useAfterFree) := by
  induction ops with
  | nil => exact fun hs => .inl ⟨_, rfl, hs⟩
  | cons op ops ih =>
    intro s hs
    rcases handleStep_inv hs op with ⟨s', e, hs'⟩ | e | ⟨i, -, e⟩ | ⟨hb, i, -, e⟩
    · have : handleRun b s (op :: ops) = handleRun b s' ops := by
        simp [handleRun, e, bind, Except.bind]
      rw [this]
      exact ih hs'
    · right; left; simp [handleRun, e, bind, Except.bind]
    · right; right; left; simp [handleRun, e, bind, Except.bind]
    · right; right; right; exact ⟨hb, by simp [handleRun, e, bind, Except.bind]⟩

/-- **C76**: whatever sequence of constructions, moves, assignments, calls and destructions a program
performs, no library object is released twice; and with vDSP and MKL plans the library is never given an
object that has been released. -/
theorem C76_no_double_free (b : Backend) (ops : List HandleOp) :
    handleRun b .init ops ≠ .error .doubleFree ∧
    (b ≠ .ipp → handleRun b .init ops ≠ .error .useAfterFree) := by
  rcases handleRun_inv (ops := ops) (handleInv_init b) with ⟨s', e, -⟩ | e | e | ⟨hb, e⟩ <;> rw [e]
  · exact ⟨by simp, fun _ => by simp⟩
  · exact ⟨by simp, fun _ => by simp⟩
  · exact ⟨by simp, fun _ => by simp⟩
  · exact ⟨by simp, fun h => absurd hb h⟩

/-- Every object created so far is still owned by a plan or has been released. -/
def NothingLost (s : HandleState) : Prop :=
  ∀ h < s.next, h ∈ s.freed ∨ ∃ i o, s.objs i = some o ∧ o.owns = some h

/-- The operation assigns to a plan that owns an object (and is not a self-assignment). -/
def Overwrites (s : HandleState) (op : HandleOp) (h : ℕ) : Prop :=
  ∃ d i o, op = .moveAssign d i ∧ d ≠ i ∧ s.objs d = some o ∧ o.owns = some h

/-- Along the run, no assignment hits a plan that owns an object. -/
def NoOverwrite (b : Backend) : HandleState → List HandleOp → Prop
  | _, [] => True
  | s, op :: ops => (∀ h, ¬ Overwrites s op h) ∧
    ∀ s', handleStep b s op = .ok s' → NoOverwrite b s' ops

theorem nothingLost_move {s : HandleState} {b : Backend} (hl : NothingLost s) {d i : ℕ} {o : PlanObj}
    (hi : s.objs i = some o) (hd : d ≠ i) (freed : List ℕ)
    (hf : ∀ h ∈ s.freed, h ∈ freed)
    (hfd : ∀ od h, s.objs d = some od → od.owns = some h → h ∈ freed) :
    NothingLost { objs := update (update s.objs i (some (movedFrom b o))) d (some o),
                  next := s.next, freed := freed } := by
  intro h hh
  rcases hl h hh with hh | ⟨j, oj, hj, ej⟩
  · exact .inl (hf h hh)
  · by_cases h1 : j = d
    · subst h1
      exact .inl (hfd _ _ hj ej)
    · by_cases h2 : j = i
      · subst h2
        rw [hi] at hj
        injection hj with hj
        subst hj
        exact .inr ⟨d, _, by simp only [update_self], ej⟩
      · exact .inr ⟨j, oj, by simp only [update_of_ne h1, update_of_ne h2, hj], ej⟩

theorem handleStep_lost {b : Backend} {s s' : HandleState} (hs : HandleInv b s) (hl : NothingLost s)
    (op : HandleOp) (ho : b = .ipp ∨ ∀ h, ¬ Overwrites s op h) (e : handleStep b s op = .ok s') :
    NothingLost s' := by
  cases op with
  | construct i =>
    cases ei : s.objs i with
    | some o => simp [handleStep, ei] at e
    | none =>
      simp only [handleStep, ei] at e
      injection e with e
      subst e
      intro h hh
      rcases Nat.lt_succ_iff_lt_or_eq.1 hh with hh | rfl
      · rcases hl h hh with hh | ⟨j, oj, hj, ej⟩
        · exact .inl hh
        · refine .inr ⟨j, oj, ?_, ej⟩
          have : j ≠ i := fun h => by subst h; rw [ei] at hj; cases hj
          simp only [update_of_ne this, hj]
      · exact .inr ⟨i, _, update_self .., rfl⟩
  | moveConstruct d i =>
    rcases get_cases s i with e' | ⟨o, e', hi⟩
    · simp [handleStep, e', bind, Except.bind] at e
    · cases ed : s.objs d with
      | some o' => simp [handleStep, e', ed, bind, Except.bind] at e
      | none =>
        simp only [handleStep, e', ed, bind, Except.bind] at e
        injection e with e
        subst e
        refine nothingLost_move hl hi (fun h => ?_) _ (fun _ h => h) ?_
        · subst h; rw [hi] at ed; cases ed
        · intro od h hd
          rw [ed] at hd
          cases hd
  | moveAssign d i =>
    rcases get_cases s i with e' | ⟨o, e', hi⟩
    · simp [handleStep, e', bind, Except.bind] at e
    · rcases get_cases s d with ed | ⟨od, ed, hd⟩
      · simp [handleStep, e', ed, bind, Except.bind] at e
      · by_cases hdi : d = i
        · simp only [handleStep, e', ed, bind, Except.bind, if_pos hdi] at e
          injection e with e
          subst e
          exact hl
        · by_cases hb : b = .ipp
          · subst hb
            obtain ⟨f, h1, -, -, h4⟩ := release_owned hs hd
            have h1' : overwritten .ipp s od = .ok { s with freed := f } := h1
            simp only [handleStep, e', ed, bind, Except.bind, if_neg hdi, h1'] at e
            injection e with e
            subst e
            refine nothingLost_move hl hi hdi f (fun h hh => (h4 h).2 (.inl hh)) ?_
            intro od' h hd' ho'
            rw [hd] at hd'
            injection hd' with hd'
            subst hd'
            exact (h4 h).2 (.inr ho')
          · have hw : overwritten b s od = .ok s := by
              cases b <;> first | rfl | exact absurd rfl hb
            simp only [handleStep, e', ed, bind, Except.bind, if_neg hdi, hw] at e
            injection e with e
            subst e
            refine nothingLost_move hl hi hdi s.freed (fun h hh => hh) ?_
            intro od' h hd' ho'
            exact absurd ⟨d, i, od', rfl, hdi, hd', ho'⟩ ((ho.resolve_left hb) h)
  | destroy i =>
    rcases get_cases s i with e' | ⟨o, e', hi⟩
    · simp [handleStep, e', bind, Except.bind] at e
    · obtain ⟨f, h1, -, -, h4⟩ := release_owned hs hi
      simp only [handleStep, e', h1, bind, Except.bind] at e
      injection e with e
      subst e
      intro h hh
      rcases hl h hh with hh | ⟨j, oj, hj, ej⟩
      · exact .inl ((h4 h).2 (.inl hh))
      · by_cases hji : j = i
        · subst hji
          rw [hi] at hj
          injection hj with hj
          subst hj
          exact .inl ((h4 h).2 (.inr ej))
        · exact .inr ⟨j, oj, by simp only [update_of_ne hji, hj], ej⟩
  | call i =>
    rcases get_cases s i with e' | ⟨o, e', hi⟩
    · simp [handleStep, e', bind, Except.bind] at e
    · cases er : o.raw with
      | none => simp [handleStep, e', er, bind, Except.bind] at e
      | some h =>
        by_cases hh : h ∈ s.freed
        · simp [handleStep, e', er, hh, bind, Except.bind] at e
        · simp only [handleStep, e', er, hh, bind, Except.bind, if_false] at e
          injection e with e
          subst e
          exact hl

theorem handleRun_cons {b : Backend} {s s' : HandleState} {op : HandleOp} {ops : List HandleOp}
    (h : handleRun b s (op :: ops) = .ok s') :
    ∃ s1, handleStep b s op = .ok s1 ∧ handleRun b s1 ops = .ok s' := by
  simp only [handleRun, bind, Except.bind] at h
  cases e : handleStep b s op with
  | error => rw [e] at h; cases h
  | ok s1 => rw [e] at h; exact ⟨s1, rfl, h⟩

theorem handleStep_ok_inv {b : Backend} {s s' : HandleState} (hs : HandleInv b s) {op : HandleOp}
    (e : handleStep b s op = .ok s') : HandleInv b s' := by
  rcases handleStep_inv hs op with ⟨s1, e', h⟩ | e' | ⟨i, -, e'⟩ | ⟨-, i, -, e'⟩ <;> rw [e] at e'
  · injection e' with e'; rw [e']; exact h
  · cases e'
  · cases e'
  · cases e'

theorem handleRun_lost {b : Backend} {ops : List HandleOp} : ∀ {s s' : HandleState}, HandleInv b s →
    NothingLost s → (b = .ipp ∨ NoOverwrite b s ops) → handleRun b s ops = .ok s' →
    HandleInv b s' ∧ NothingLost s' := by
  induction ops with
  | nil =>
    intro s s' h1 h2 _ e
    injection e with e
    subst e
    exact ⟨h1, h2⟩
  | cons op ops ih =>
    intro s s' h1 h2 h3 e
    obtain ⟨s1, e1, e2⟩ := handleRun_cons e
    refine ih (handleStep_ok_inv h1 e1) (handleStep_lost h1 h2 op ?_ e1) ?_ e2
    · exact h3.imp_right (fun h => h.1)
    · exact h3.imp_right (fun h => h.2 s1 e1)

/-- **C76** (vDSP and MKL: only without assignment onto a live plan): when all plans are gone, every
library object has been released, exactly once.  IPP plans need no restriction. -/
theorem C76_all_released_partial (b : Backend) (ops : List HandleOp) (s : HandleState)
    (hr : handleRun b .init ops = .ok s) (hend : ∀ i, s.objs i = none)
    (ho : b = .ipp ∨ NoOverwrite b .init ops) :
    s.freed.Nodup ∧ ∀ h, h ∈ s.freed ↔ h < s.next := by
  obtain ⟨h1, h2⟩ := handleRun_lost (handleInv_init b) (fun h hh => absurd hh (Nat.not_lt_zero _)) ho hr
  refine ⟨h1.nodup, fun h => ⟨h1.freed h, fun hh => ?_⟩⟩
  rcases h2 h hh with hh | ⟨i, o, hi, -⟩
  · exact hh
  · rw [hend i] at hi; cases hi

/-- The object `h` exists, nobody owns it, and it has not been released. -/
def Lost (s : HandleState) (h : ℕ) : Prop :=
  h < s.next ∧ h ∉ s.freed ∧ ∀ i o, s.objs i = some o → o.owns ≠ some h

theorem lost_step {b : Backend} {s s' : HandleState} {h : ℕ} (hs : HandleInv b s) (hl : Lost s h)
    {op : HandleOp} (e : handleStep b s op = .ok s') : Lost s' h := by
  obtain ⟨l1, l2, l3⟩ := hl
  have mv : ∀ (d i : ℕ) (o : PlanObj), s.objs i = some o → ∀ j oj,
      update (update s.objs i (some (movedFrom b o))) d (some o) j = some oj → oj.owns ≠ some h := by
    intro d i o hi j oj hj
    by_cases h1 : j = d
    · subst h1
      rw [update_self] at hj
      injection hj with hj
      subst hj
      exact l3 _ _ hi
    · rw [update_of_ne h1] at hj
      by_cases h2 : j = i
      · subst h2
        rw [update_self] at hj
        injection hj with hj
        subst hj
        rw [movedFrom_owns]
        simp
      · rw [update_of_ne h2] at hj
        exact l3 _ _ hj
  cases op with
  | construct i =>
    cases ei : s.objs i with
    | some o => simp [handleStep, ei] at e
    | none =>
      simp only [handleStep, ei] at e
      injection e with e
      subst e
      refine ⟨Nat.lt_succ_of_lt l1, l2, fun j oj hj => ?_⟩
      by_cases hji : j = i
      · subst hji
        simp only [update_self] at hj
        injection hj with hj
        subst hj
        intro hh
        injection hh with hh
        omega
      · simp only [update_of_ne hji] at hj
        exact l3 _ _ hj
  | moveConstruct d i =>
    rcases get_cases s i with e' | ⟨o, e', hi⟩
    · simp [handleStep, e', bind, Except.bind] at e
    · cases ed : s.objs d with
      | some o' => simp [handleStep, e', ed, bind, Except.bind] at e
      | none =>
        simp only [handleStep, e', ed, bind, Except.bind] at e
        injection e with e
        subst e
        exact ⟨l1, l2, mv d i o hi⟩
  | moveAssign d i =>
    rcases get_cases s i with e' | ⟨o, e', hi⟩
    · simp [handleStep, e', bind, Except.bind] at e
    · rcases get_cases s d with ed | ⟨od, ed, hd⟩
      · simp [handleStep, e', ed, bind, Except.bind] at e
      · by_cases hdi : d = i
        · simp only [handleStep, e', ed, bind, Except.bind, if_pos hdi] at e
          injection e with e
          subst e
          exact ⟨l1, l2, l3⟩
        · obtain ⟨f, h1, hf⟩ : ∃ f, overwritten b s od = .ok { s with freed := f } ∧ h ∉ f := by
            cases b with
            | vdsp => exact ⟨s.freed, rfl, l2⟩
            | mkl => exact ⟨s.freed, rfl, l2⟩
            | ipp =>
              obtain ⟨f, h1, -, -, h4⟩ := release_owned hs hd
              exact ⟨f, h1, fun hh => ((h4 h).1 hh).elim l2 (l3 _ _ hd)⟩
          simp only [handleStep, e', ed, bind, Except.bind, if_neg hdi, h1] at e
          injection e with e
          subst e
          exact ⟨l1, hf, mv d i o hi⟩
  | destroy i =>
    rcases get_cases s i with e' | ⟨o, e', hi⟩
    · simp [handleStep, e', bind, Except.bind] at e
    · obtain ⟨f, h1, -, -, h4⟩ := release_owned hs hi
      simp only [handleStep, e', h1, bind, Except.bind] at e
      injection e with e
      subst e
      refine ⟨l1, fun hh => ((h4 h).1 hh).elim l2 (l3 _ _ hi), fun j oj hj => ?_⟩
      by_cases hji : j = i
      · subst hji; simp only [update_self] at hj; cases hj
      · simp only [update_of_ne hji] at hj; exact l3 _ _ hj
  | call i =>
    rcases get_cases s i with e' | ⟨o, e', hi⟩
    · simp [handleStep, e', bind, Except.bind] at e
    · cases er : o.raw with
      | none => simp [handleStep, e', er, bind, Except.bind] at e
      | some k =>
        by_cases hh : k ∈ s.freed
        · simp [handleStep, e', er, hh, bind, Except.bind] at e
        · simp only [handleStep, e', er, hh, bind, Except.bind, if_false] at e
          injection e with e
          subst e
          exact ⟨l1, l2, l3⟩

/-- **C76** is false for vDSP and MKL plans: *every* assignment onto a plan that owns an object leaks
it; no continuation of the program ever releases it. -/
theorem C76_assignment_leaks (b : Backend) (hb : b ≠ .ipp) (pre post : List HandleOp) (d i : ℕ)
    (s s' : HandleState) (h : ℕ) (hpre : handleRun b .init pre = .ok s)
    (hover : Overwrites s (.moveAssign d i) h)
    (hpost : handleRun b s (.moveAssign d i :: post) = .ok s') :
    h < s'.next ∧ h ∉ s'.freed := by
  have hs : HandleInv b s := by
    rcases handleRun_inv (ops := pre) (handleInv_init b) with ⟨s1, e', h⟩ | e' | e' | ⟨-, e'⟩ <;>
      rw [hpre] at e'
    · injection e' with e'; rw [e']; exact h
    · cases e'
    · cases e'
    · cases e'
  obtain ⟨s1, e1, e2⟩ := handleRun_cons hpost
  have hs1 := handleStep_ok_inv hs e1
  obtain ⟨d', i', o, hop, hdi, hd, ho⟩ := hover
  injection hop with h1 h2
  subst h1 h2
  have hl : Lost s1 h := by
    rcases get_cases s i with e' | ⟨oi, e', hi⟩
    · simp [handleStep, e', bind, Except.bind] at e1
    · have ed : s.get d = .ok o := by unfold HandleState.get; rw [hd]
      have hw : overwritten b s o = .ok s := by
        cases b <;> first | rfl | exact absurd rfl hb
      simp only [handleStep, e', ed, bind, Except.bind, if_neg hdi, hw] at e1
      injection e1 with e1
      subst e1
      refine ⟨(hs.live _ _ _ hd ho).1, (hs.live _ _ _ hd ho).2, fun j oj hj hoj => ?_⟩
      by_cases j1 : j = d
      · subst j1
        simp only [update_self] at hj
        injection hj with hj
        subst hj
        exact hdi (hs.inj _ _ _ _ _ hd hi ho hoj)
      · simp only [update_of_ne j1] at hj
        by_cases j2 : j = i
        · subst j2
          rw [update_self] at hj
          injection hj with hj
          subst hj
          rw [movedFrom_owns] at hoj
          cases hoj
        · rw [update_of_ne j2] at hj
          exact j1 (hs.inj _ _ _ _ _ hj hd hoj ho)
  have : ∀ (ops : List HandleOp) (t t' : HandleState), HandleInv b t → Lost t h →
      handleRun b t ops = .ok t' → Lost t' h := by
    intro ops
    induction ops with
    | nil => intro t t' _ hl e; injection e with e; subst e; exact hl
    | cons op ops ih =>
      intro t t' ht hl e
      obtain ⟨t1, e1, e2⟩ := handleRun_cons e
      exact ih t1 t' (handleStep_ok_inv ht e1) (lost_step ht hl e1) e2
  have := this post s1 s' hs1 hl e2
  exact ⟨this.1, this.2.1⟩

/-- The hypotheses are met, and the leak happens in a program that destroys all its plans:
`auto a = plan{…}; auto b = plan{…}; a = std::move(b);`. -/
theorem C76_leak_witness (b : Backend) (hb : b ≠ .ipp) :
    ∃ s, handleRun b .init [.construct 0, .construct 1, .call 0, .moveAssign 0 1, .call 0,
      .destroy 1, .destroy 0] = .ok s ∧ (∀ i, s.objs i = none) ∧ 0 < s.next ∧ 0 ∉ s.freed := by
  have key : ∀ (f : ℕ → Option PlanObj), (∀ i, i ≠ 0 → i ≠ 1 → f i = none) → f 0 = none → f 1 = none →
      ∀ i, f i = none := by
    intro f h h0 h1 i
    by_cases h2 : i = 0
    · rw [h2, h0]
    · by_cases h3 : i = 1
      · rw [h3, h1]
      · exact h i h2 h3
  cases b with
  | ipp => exact absurd rfl hb
  | vdsp =>
    refine ⟨_, rfl, key _ ?_ rfl rfl, by decide, by decide⟩
    intro i h0 h1
    simp [update, HandleState.init, h0, h1]
  | mkl =>
    refine ⟨_, rfl, key _ ?_ rfl rfl, by decide, by decide⟩
    intro i h0 h1
    simp [update, HandleState.init, h0, h1]

/-- **C76** is false for IPP plans that have been moved from: the pointer left behind dangles once the
new owner is gone, and a call hands it to the library. -/
theorem C76_ipp_dangling :
    handleRun .ipp .init [.construct 0, .moveConstruct 1 0, .destroy 1, .call 0]
      = .error .useAfterFree := rfl

/-- A program without overwriting assignments. -/
example : ∃ s, handleRun .vdsp .init [.construct 0, .moveConstruct 1 0, .moveAssign 0 1, .call 0,
    .destroy 0, .destroy 1] = .ok s ∧ s.freed = [0] ∧ s.next = 1 := ⟨_, rfl, rfl, rfl⟩

/-- Calling a moved-from vDSP plan hands over a null pointer. -/
example : handleRun .vdsp .init [.construct 0, .moveConstruct 1 0, .call 0] = .error .nullHandle := rfl

end Neo.Props
