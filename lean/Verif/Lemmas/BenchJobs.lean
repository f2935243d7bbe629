import Verif.Model.BenchJobs

/-!
# Lemmas on the jobs of the benchmark tab
-/

namespace Neo

/-- The program an event hands to a thread. -/
def TabEv.given : TabEv → Option (Tid × List TabOp)
  | .pickSignal go f c => some (.ui, loadSignalOps go f c)
  | .pickImpulse go f c => some (.ui, setImpulseOps go f c)
  | .setting v => some (.ui, [.wr .settings v])
  | .render es => some (.ui, [.click es])
  | .prepare r a b c d e f => some (.host, specChangedOps r a b c d e f)
  | _ => none

/-- The possible steps, one by one. -/
inductive StepR (s : TabSt) : TabEv → TabSt → Prop
  | give (e t ops) (he : TabEv.given e = some (t, ops)) (hp : s.phase = .opened)
      (ht : (s.thr t).todo = []) :
      StepR s e { s with thr := Function.update s.thr t ⟨ops, false⟩ }
  | runMsg (hp : s.phase ≠ .closing) (hu : (s.thr .ui).todo = []) (hm : 0 < s.msgs) :
      StepR s .runMsg
        { s with msgs := s.msgs - 1, dangling := s.dangling || decide (s.phase = .closed) }
  | close (hp : s.phase = .opened) (hu : (s.thr .ui).todo = []) :
      StepR s .close { s with phase := .closing, queue := [] }
  | closed (hp : s.phase = .closing) :
      StepR s .closed { s with phase := .closed, thr := Function.update s.thr .worker ⟨[], false⟩ }
  | pop (j q) (hq : s.queue = j :: q) (hw : (s.thr .worker).todo = []) :
      StepR s .pop { s with
          queue := q, cur := some j, started := s.started ++ [j.eng]
          thr := Function.update s.thr .worker ⟨jobOps j.eng, false⟩ }
  | start (t x r) (ht : (s.thr t).todo = x :: r) (hb : (s.thr t).busy = false) :
      StepR s (.start t) { s with
        thr := Function.update s.thr t ⟨x :: r, true⟩
        race := s.race || (s.thr .ui).clash x || (s.thr .host).clash x || (s.thr .worker).clash x
        dangling := s.dangling || decide (s.phase = .closed) }
  | finish (t x r) (ht : (s.thr t).todo = x :: r) (hb : (s.thr t).busy = true) :
      StepR s (.finish t) (TabSt.effect { s with
          thr := Function.update s.thr t ⟨r, false⟩
          dangling := s.dangling || decide (s.phase = .closed) } t x)

theorem give_inv {s s' : TabSt} {t : Tid} {ops : List TabOp} (h : s.give t ops = some s') :
    s.phase = .opened ∧ (s.thr t).todo = [] ∧
      s' = { s with thr := Function.update s.thr t ⟨ops, false⟩ } := by
  unfold TabSt.give at h
  split at h
  · rename_i c
    exact ⟨c.1, c.2, (Option.some.inj h).symm⟩
  · cases h

theorem step_inv {s s' : TabSt} {e : TabEv} (h : s.step e = some s') : StepR s e s' := by
  cases e with
  | pickSignal go f c => obtain ⟨a, b, rfl⟩ := give_inv h; exact .give _ _ _ rfl a b
  | pickImpulse go f c => obtain ⟨a, b, rfl⟩ := give_inv h; exact .give _ _ _ rfl a b
  | setting v => obtain ⟨a, b, rfl⟩ := give_inv h; exact .give _ _ _ rfl a b
  | render es => obtain ⟨a, b, rfl⟩ := give_inv h; exact .give _ _ _ rfl a b
  | prepare => obtain ⟨a, b, rfl⟩ := give_inv h; exact .give _ _ _ rfl a b
  | runMsg =>
    simp only [TabSt.step] at h
    split at h
    · rename_i c
      cases h
      exact .runMsg c.1 c.2.1 c.2.2
    · cases h
  | close =>
    simp only [TabSt.step] at h
    split at h
    · rename_i c
      cases h
      exact .close c.1 c.2
    · cases h
  | closed =>
    simp only [TabSt.step] at h
    split at h
    · rename_i c
      cases h
      exact .closed c
    · cases h
  | pop =>
    simp only [TabSt.step] at h
    split at h
    · cases h
    · rename_i j q hq
      split at h
      · rename_i c
        cases h
        exact .pop j q hq c
      · cases h
  | start t =>
    simp only [TabSt.step] at h
    split at h
    · cases h
    · rename_i x r hx
      split at h
      · cases h
      · rename_i c
        cases h
        exact .start t x r hx (by simpa using c)
  | finish t =>
    simp only [TabSt.step] at h
    split at h
    · cases h
    · rename_i x r hx
      split at h
      · rename_i c
        cases h
        exact .finish t x r hx c
      · cases h

theorem step_start {s : TabSt} {t : Tid} {x : TabOp} {r : List TabOp}
    (ht : (s.thr t).todo = x :: r) (hb : (s.thr t).busy = false) :
    s.step (.start t) = some { s with
        thr := Function.update s.thr t ⟨x :: r, true⟩
        race := s.race || (s.thr .ui).clash x || (s.thr .host).clash x || (s.thr .worker).clash x
        dangling := s.dangling || decide (s.phase = .closed) } := by
  simp [TabSt.step, ht, hb]

theorem step_finish {s : TabSt} {t : Tid} {x : TabOp} {r : List TabOp}
    (ht : (s.thr t).todo = x :: r) (hb : (s.thr t).busy = true) :
    s.step (.finish t) = some (TabSt.effect { s with
          thr := Function.update s.thr t ⟨r, false⟩
          dangling := s.dangling || decide (s.phase = .closed) } t x) := by
  simp [TabSt.step, ht, hb]

theorem run_cons {s : TabSt} {e : TabEv} {tr : List TabEv} {s1 : TabSt} (h : s.step e = some s1) :
    s.run (e :: tr) = s1.run tr := by
  simp [TabSt.run, h]

theorem run_append (s : TabSt) (a b : List TabEv) :
    s.run (a ++ b) = (s.run a).bind (fun s' => s'.run b) := by
  induction a generalizing s with
  | nil => rfl
  | cons e a ih =>
    simp only [List.cons_append, TabSt.run]
    cases s.step e with
    | none => rfl
    | some s1 => exact ih s1

/-- Induction along an execution, with its trace. -/
theorem run_induct (P : List TabEv → TabSt → Prop) {s0 : TabSt} (h0 : P [] s0)
    (hs : ∀ tr s e s', P tr s → StepR s e s' → P (tr ++ [e]) s') (tr : List TabEv) (s : TabSt)
    (h : s0.run tr = some s) : P tr s := by
  suffices H : ∀ tr pre s1, P pre s1 → s1.run tr = some s → P (pre ++ tr) s from H tr [] s0 h0 h
  intro tr
  induction tr with
  | nil =>
    intro pre s1 hp hr
    cases hr
    simpa using hp
  | cons e tr ih =>
    intro pre s1 hp hr
    simp only [TabSt.run] at hr
    cases hst : s1.step e with
    | none => rw [hst] at hr; cases hr
    | some s2 =>
      rw [hst] at hr
      have := ih (pre ++ [e]) s2 (hs _ _ _ _ hp (step_inv hst)) hr
      simpa using this

/-! ### Effects -/

@[simp] theorem effect_thr (s : TabSt) (t : Tid) (x : TabOp) : (s.effect t x).thr = s.thr := by
  unfold TabSt.effect; split <;> (try split) <;> rfl

@[simp] theorem effect_phase (s : TabSt) (t : Tid) (x : TabOp) : (s.effect t x).phase = s.phase := by
  unfold TabSt.effect; split <;> (try split) <;> rfl

@[simp] theorem effect_race (s : TabSt) (t : Tid) (x : TabOp) : (s.effect t x).race = s.race := by
  unfold TabSt.effect; split <;> (try split) <;> rfl

@[simp] theorem effect_dangling (s : TabSt) (t : Tid) (x : TabOp) :
    (s.effect t x).dangling = s.dangling := by
  unfold TabSt.effect; split <;> (try split) <;> rfl

@[simp] theorem effect_started (s : TabSt) (t : Tid) (x : TabOp) :
    (s.effect t x).started = s.started := by
  unfold TabSt.effect; split <;> (try split) <;> rfl

@[simp] theorem effect_cur (s : TabSt) (t : Tid) (x : TabOp) :
    (s.effect t x).cur = s.cur := by
  unfold TabSt.effect; split <;> (try split) <;> rfl

/-- Not a click: the queue stays. -/
theorem effect_queue (s : TabSt) (t : Tid) (x : TabOp) (hx : ∀ es, x ≠ .click es) :
    (s.effect t x).queue = s.queue ∧ (s.effect t x).asked = s.asked := by
  unfold TabSt.effect; split <;> (try split) <;> first | exact ⟨rfl, rfl⟩ | exact absurd rfl (hx _)

/-- Not an assignment: the members stay. -/
theorem effect_val (s : TabSt) (t : Tid) (x : TabOp) (hx : ∀ f v, x ≠ .wr f v) :
    (s.effect t x).val = s.val := by
  unfold TabSt.effect; split <;> (try split) <;> first | rfl | exact absurd rfl (hx _ _)

/-- The seen values of a step that is no read of the worker. -/
theorem effect_seen (s : TabSt) (t : Tid) (x : TabOp) :
    (s.effect t x).seen = s.seen ∨
      ∃ f j, t = .worker ∧ x = .rd f ∧ s.cur = some j ∧
        (s.effect t x).seen = s.seen ++ [⟨j, f, s.val f⟩] := by
  cases x with
  | rd f =>
    cases t with
    | worker =>
      cases hc : s.cur with
      | none => left; simp [TabSt.effect, hc]
      | some j => right; exact ⟨f, j, rfl, rfl, rfl, by simp [TabSt.effect, hc]⟩
    | ui => left; rfl
    | host => left; rfl
  | wr f v => left; rfl
  | post => left; rfl
  | click es => left; simp only [TabSt.effect]; split <;> rfl

/-- Jobs only read and post. -/
theorem jobOps_plain (e : Engine) : ∀ x ∈ jobOps e, (∃ f, x = .rd f) ∨ x = .post := by
  have key : ∀ e, (jobOps e).all (fun x => match x with
      | .rd _ => true | .post => true | _ => false) = true := by
    intro e; cases e <;> decide +kernel
  intro x hx
  have := List.all_eq_true.mp (key e) x hx
  cases x with
  | rd f => exact Or.inl ⟨f, rfl⟩
  | post => exact Or.inr rfl
  | wr f v => cases this
  | click es => cases this

/-- What an event hands out: a click alone, or no click at all. -/
theorem given_click {e : TabEv} {t : Tid} {ops : List TabOp} (h : e.given = some (t, ops)) :
    (∃ es, e = .render es ∧ t = .ui ∧ ops = [.click es]) ∨
      ((∀ es, TabOp.click es ∉ ops) ∧ (∀ es, e ≠ .render es)) := by
  cases e with
  | render es => simp only [TabEv.given] at h; cases h; exact Or.inl ⟨es, rfl, rfl, rfl⟩
  | pickSignal go f c =>
    simp only [TabEv.given] at h; cases h; right
    refine ⟨fun es => ?_, fun _ => by simp⟩
    cases go <;> simp [loadSignalOps]
  | pickImpulse go f c =>
    simp only [TabEv.given] at h; cases h; right
    refine ⟨fun es => ?_, fun _ => by simp⟩
    cases go <;> simp [setImpulseOps]
  | setting v =>
    simp only [TabEv.given] at h; cases h; right
    exact ⟨fun es => by simp, fun _ => by simp⟩
  | prepare r a b c d e f =>
    simp only [TabEv.given] at h; cases h; right
    refine ⟨fun es => ?_, fun _ => by simp⟩
    cases a <;> cases d <;> simp [specChangedOps, loadSignalOps, setImpulseOps]
  | runMsg => cases h
  | close => cases h
  | closed => cases h
  | pop => cases h
  | start t => cases h
  | finish t => cases h

theorem given_tid {e : TabEv} {t : Tid} {ops : List TabOp} (h : e.given = some (t, ops)) :
    t ≠ .worker := by
  cases e <;> simp only [TabEv.given] at h <;> cases h <;> simp

/-- In every reachable state the worker has only reads and callbacks left, no other thread but the
message thread clicks, a click is all the message thread has to do, and once the tab is being
destroyed the message thread is idle and no job waits. -/
structure TabShape (s : TabSt) : Prop where
  worker : ∀ x ∈ (s.thr .worker).todo, (∃ f, x = .rd f) ∨ x = .post
  host : ∀ es, TabOp.click es ∉ (s.thr .host).todo
  ui : ∀ es, TabOp.click es ∈ (s.thr .ui).todo → (s.thr .ui).todo = [.click es]
  late : s.phase ≠ .opened → (s.thr .ui).todo = [] ∧ s.queue = []
  gone : s.phase = .closed → (s.thr .worker).todo = []
  busy : ∀ t, (s.thr t).todo = [] → (s.thr t).busy = false
  cur : (s.thr .worker).todo ≠ [] → ∃ j, s.cur = some j

theorem shape_init : TabShape TabSt.init where
  worker := by simp [TabSt.init]
  host := by simp [TabSt.init]
  ui := by simp [TabSt.init]
  late := by simp [TabSt.init]
  gone := by simp [TabSt.init]
  busy := by simp [TabSt.init]
  cur := by simp [TabSt.init]

theorem shape_step {s s' : TabSt} {e : TabEv} (hs : TabShape s) (h : StepR s e s') :
    TabShape s' := by
  cases h with
  | give _ t ops he hp ht =>
    have hw := given_tid he
    refine ⟨?_, ?_, ?_, ?_, ?_, ?_, ?_⟩
    · simpa [Function.update_of_ne (Ne.symm hw)] using hs.worker
    · intro es
      by_cases c : t = .host
      · subst c
        rcases given_click he with ⟨_, _, h2, _⟩ | ⟨h1, _⟩
        · cases h2
        · simpa using h1 es
      · simpa [Function.update_of_ne (Ne.symm c)] using hs.host es
    · intro es
      by_cases c : t = .ui
      · subst c
        rcases given_click he with ⟨es', _, _, rfl⟩ | ⟨h1, _⟩
        · simp [eq_comm]
        · intro hm
          exact absurd (by simpa using hm) (h1 es)
      · simpa [Function.update_of_ne (Ne.symm c)] using hs.ui es
    · intro hn; exact absurd hp hn
    · intro hn; rw [show s.phase = .closed from hn] at hp; cases hp
    · intro t' ht'
      by_cases c : t' = t
      · subst c; simp
      · simp only [Function.update_of_ne c] at ht' ⊢
        exact hs.busy t' ht'
    · simpa [Function.update_of_ne (Ne.symm hw)] using hs.cur
  | runMsg hp hu hm => exact ⟨hs.worker, hs.host, hs.ui, hs.late, hs.gone, hs.busy, hs.cur⟩
  | close hp hu =>
    exact ⟨hs.worker, hs.host, hs.ui, fun _ => ⟨hu, rfl⟩, by simp, hs.busy, hs.cur⟩
  | closed hp =>
    refine ⟨by simp, by simpa using hs.host, by simpa using hs.ui, fun _ => ?_, by simp, ?_, by simp⟩
    · simpa using hs.late (by simp [hp])
    · intro t ht
      by_cases c : t = .worker
      · subst c; simp
      · simp only [Function.update_of_ne c] at ht ⊢
        exact hs.busy t ht
  | pop j q hq hw =>
    refine ⟨?_, by simpa using hs.host, by simpa using hs.ui, fun hn => ?_, fun hn => ?_, ?_, ?_⟩
    · simpa using jobOps_plain j.eng
    · have := (hs.late hn).2
      rw [hq] at this; cases this
    · have := (hs.late (by rw [show s.phase = .closed from hn]; simp)).2
      rw [hq] at this; cases this
    · intro t ht
      by_cases c : t = .worker
      · subst c; simp
      · simp only [Function.update_of_ne c] at ht ⊢
        exact hs.busy t ht
    · intro _; exact ⟨j, rfl⟩
  | start t x r ht hb =>
    have key : ∀ u, (Function.update s.thr t ⟨x :: r, true⟩ u).todo = (s.thr u).todo := by
      intro u
      by_cases c : u = t
      · subst c; simp [ht]
      · simp [Function.update_of_ne c]
    refine ⟨?_, ?_, ?_, ?_, ?_, ?_, ?_⟩
    · simpa only [key] using hs.worker
    · simpa only [key] using hs.host
    · simpa only [key] using hs.ui
    · simpa only [key] using hs.late
    · simpa only [key] using hs.gone
    · intro u hu
      by_cases c : u = t
      · subst c; simp at hu
      · simp only [Function.update_of_ne c] at hu ⊢
        exact hs.busy u hu
    · simpa only [key] using hs.cur
  | finish t x r ht hb =>
    have sub : ∀ u, ∀ y ∈ (Function.update s.thr t ⟨r, false⟩ u).todo, y ∈ (s.thr u).todo := by
      intro u y hy
      by_cases c : u = t
      · subst c; rw [ht]; simp at hy; exact List.mem_cons_of_mem _ hy
      · simpa [Function.update_of_ne c] using hy
    have nil : ∀ u, (s.thr u).todo = [] → (Function.update s.thr t ⟨r, false⟩ u).todo = [] := by
      intro u hu
      by_cases c : u = t
      · subst c; rw [ht] at hu; cases hu
      · simpa [Function.update_of_ne c] using hu
    refine ⟨?_, ?_, ?_, ?_, ?_, ?_, ?_⟩
    · intro y hy; simp only [effect_thr] at hy; exact hs.worker y (sub _ y hy)
    · intro es hy; simp only [effect_thr] at hy; exact hs.host es (sub _ _ hy)
    · intro es hy
      simp only [effect_thr] at hy ⊢
      have h1 := hs.ui es (sub _ _ hy)
      by_cases c : t = .ui
      · subst c
        rw [ht] at h1
        simp only [List.cons.injEq] at h1
        rw [h1.2] at hy
        simp at hy
      · rw [Function.update_of_ne (Ne.symm c)] at hy ⊢
        exact h1
    · intro hn
      simp only [effect_phase] at hn
      have h1 := hs.late hn
      refine ⟨?_, ?_⟩
      · simp only [effect_thr]; exact nil _ h1.1
      · rw [(effect_queue _ t x ?_).1]
        · exact h1.2
        · rintro es rfl
          have h2 : TabOp.click es ∈ (s.thr t).todo := by rw [ht]; simp
          cases t with
          | ui => rw [h1.1] at h2; simp at h2
          | host => exact hs.host es h2
          | worker =>
            rcases hs.worker _ h2 with ⟨f, hf⟩ | hf <;> cases hf
    · intro hn
      simp only [effect_phase] at hn
      simp only [effect_thr]; exact nil _ (hs.gone hn)
    · intro u hu
      simp only [effect_thr] at hu ⊢
      by_cases c : u = t
      · subst c; simp
      · simp only [Function.update_of_ne c] at hu ⊢
        exact hs.busy u hu
    · intro hn
      simp only [effect_thr] at hn
      simp only [effect_cur]
      exact hs.cur (fun h0 => hn (nil _ h0))

theorem shape_run {s0 s : TabSt} {tr : List TabEv} (h0 : TabShape s0) (h : s0.run tr = some s) :
    TabShape s :=
  run_induct (fun _ s => TabShape s) h0 (fun _ _ _ _ hp hst => shape_step hp hst) tr s h

theorem shape_reach {s : TabSt} {tr : List TabEv} (h : TabSt.init.run tr = some s) : TabShape s :=
  shape_run shape_init h

/-! ### Steps a thread can take on its own -/

/-- Events that start or complete accesses and jobs, without new input from the user or the host. -/
def TabEv.internal : TabEv → Prop
  | .pop | .start _ | .finish _ => True
  | _ => False

/-- Thread `t` completes the operations `pre`. -/
theorem advance (t : Tid) (rest : List TabOp) : ∀ (pre : List TabOp) (s : TabSt),
    (s.thr t).todo = pre ++ rest → (pre = [] → (s.thr t).busy = false) →
    (∀ es, TabOp.click es ∉ pre) →
    ∃ tr s', (∀ e ∈ tr, e = TabEv.start t ∨ e = TabEv.finish t) ∧ s.run tr = some s' ∧
      s'.thr t = ⟨rest, false⟩ ∧ (∀ u, u ≠ t → s'.thr u = s.thr u) ∧ s'.queue = s.queue ∧
      s'.phase = s.phase ∧ s'.msgs = s.msgs + pre.count .post ∧
      s'.asked = s.asked ∧ s'.started = s.started := by
  intro pre
  induction pre with
  | nil =>
    intro s h hb _
    refine ⟨[], s, by simp, rfl, ?_, fun _ _ => rfl, rfl, rfl, by simp, rfl, rfl⟩
    have h1 := hb rfl
    cases hh : s.thr t with
    | mk todo busy => rw [hh] at h h1; simp_all
  | cons x pre ih =>
    intro s h _ hc
    -- the state after the completed operation `x`, from a state in which it has begun
    have fin : ∀ s : TabSt, (s.thr t).todo = x :: (pre ++ rest) → (s.thr t).busy = true →
        ∃ tr s', (∀ e ∈ tr, e = TabEv.start t ∨ e = TabEv.finish t) ∧ s.run tr = some s' ∧
          s'.thr t = ⟨rest, false⟩ ∧ (∀ u, u ≠ t → s'.thr u = s.thr u) ∧ s'.queue = s.queue ∧
          s'.phase = s.phase ∧ s'.msgs = s.msgs + (x :: pre).count .post ∧
          s'.asked = s.asked ∧ s'.started = s.started := by
      intro s h hb
      have hst := step_finish h hb
      have hx : ∀ es, x ≠ .click es := fun es he => hc es (by simp [he])
      obtain ⟨tr, s', h1, h2, h3, h4, h5, h6, h7, h8, h9⟩ := ih (TabSt.effect { s with
          thr := Function.update s.thr t ⟨pre ++ rest, false⟩
          dangling := s.dangling || decide (s.phase = .closed) } t x) (by simp) (by simp)
          (fun es he => hc es (List.mem_cons_of_mem _ he))
      refine ⟨.finish t :: tr, s', ?_, ?_, h3, ?_, ?_, ?_, ?_, ?_, ?_⟩
      · intro e he
        rcases List.mem_cons.mp he with rfl | he
        · exact Or.inr rfl
        · exact h1 e he
      · rw [run_cons hst]; exact h2
      · intro u hu
        rw [h4 u hu]
        simp [Function.update_of_ne hu]
      · rw [h5, (effect_queue _ t x hx).1]
      · rw [h6]; simp
      · rw [h7]
        cases x with
        | rd f =>
          have : (TabSt.effect { s with
            thr := Function.update s.thr t ⟨pre ++ rest, false⟩
            dangling := s.dangling || decide (s.phase = .closed) } t (.rd f)).msgs = s.msgs := by
            simp only [TabSt.effect]; split <;> rfl
          rw [this]
          simp
        | wr f v => simp [TabSt.effect]
        | post => simp [TabSt.effect]; omega
        | click es => exact absurd rfl (hx es)
      · rw [h8, (effect_queue _ t x hx).2]
      · rw [h9]; simp
    cases hb : (s.thr t).busy with
    | true => exact fin s h hb
    | false =>
      have hst := step_start h hb
      obtain ⟨tr, s', h1, h2, h3, h4, h5, h6, h7, h8, h9⟩ := fin { s with
        thr := Function.update s.thr t ⟨x :: (pre ++ rest), true⟩
        race := s.race || (s.thr .ui).clash x || (s.thr .host).clash x || (s.thr .worker).clash x
        dangling := s.dangling || decide (s.phase = .closed) } (by simp) (by simp)
      refine ⟨.start t :: tr, s', ?_, ?_, h3, ?_, h5, h6, h7, h8, h9⟩
      · intro e he
        rcases List.mem_cons.mp he with rfl | he
        · exact Or.inl rfl
        · exact h1 e he
      · rw [run_cons hst]; exact h2
      · intro u hu
        rw [h4 u hu]
        simp [Function.update_of_ne hu]

/-- The worker completes its job. -/
theorem drain {s : TabSt} (hs : TabShape s) :
    ∃ tr s', (∀ e ∈ tr, e = TabEv.start .worker ∨ e = TabEv.finish .worker) ∧
      s.run tr = some s' ∧ s'.thr .worker = ⟨[], false⟩ ∧
      (∀ u, u ≠ .worker → s'.thr u = s.thr u) ∧ s'.queue = s.queue ∧
      s'.phase = s.phase ∧ s'.msgs = s.msgs + (s.thr .worker).todo.count .post ∧
      s'.asked = s.asked ∧ s'.started = s.started := by
  refine advance .worker [] (s.thr .worker).todo s (by simp) (hs.busy _) ?_
  intro es he
  rcases hs.worker _ he with ⟨f, hf⟩ | hf <;> cases hf

theorem internal_of {t : Tid} {e : TabEv} (h : e = TabEv.start t ∨ e = TabEv.finish t) :
    e.internal := by
  rcases h with rfl | rfl <;> trivial

/-- The worker completes its job and those before `j`, and starts `j`. -/
theorem reach_job (j : Job) (q2 : List Job) : ∀ (q1 : List Job) (s : TabSt), TabShape s →
    s.queue = q1 ++ j :: q2 →
    ∃ tr s', (∀ e ∈ tr, e.internal) ∧ s.run tr = some s' ∧
      s'.thr .worker = ⟨jobOps j.eng, false⟩ ∧ (∀ u, u ≠ .worker → s'.thr u = s.thr u) ∧
      s'.queue = q2 ∧ s'.phase = s.phase ∧ s'.asked = s.asked ∧
      s'.started = s.started ++ (q1 ++ [j]).map Job.eng := by
  intro q1
  induction q1 with
  | nil =>
    intro s hs hq
    obtain ⟨tr, s', h1, h2, h3, h4, h5, h6, _, h8, h9⟩ := drain hs
    have hst : s'.step .pop = some { s' with
          queue := q2, cur := some j, started := s'.started ++ [j.eng]
          thr := Function.update s'.thr .worker ⟨jobOps j.eng, false⟩ } := by
      simp [TabSt.step, h5, hq, h3]
    refine ⟨tr ++ [.pop], { s' with
          queue := q2, cur := some j, started := s'.started ++ [j.eng]
          thr := Function.update s'.thr .worker ⟨jobOps j.eng, false⟩ },
      ?_, ?_, ?_, ?_, rfl, h6, h8, ?_⟩
    · intro e he
      rcases List.mem_append.mp he with he | he
      · exact internal_of (h1 e he)
      · simp at he; subst he; trivial
    · rw [run_append, h2]
      simp only [Option.bind_some]
      rw [run_cons hst]
      rfl
    · simp
    · intro u hu
      simp only [Function.update_of_ne hu]
      exact h4 u hu
    · simp [h9]
  | cons k q1 ih =>
    intro s hs hq
    obtain ⟨tr, s', h1, h2, h3, h4, h5, h6, _, h8, h9⟩ := drain hs
    have hs' := shape_run hs h2
    have hst : s'.step .pop = some { s' with
          queue := q1 ++ j :: q2, cur := some k, started := s'.started ++ [k.eng]
          thr := Function.update s'.thr .worker ⟨jobOps k.eng, false⟩ } := by
      simp [TabSt.step, h5, hq, h3]
    obtain ⟨tr2, s2, g1, g2, g3, g4, g5, g6, g8, g9⟩ := ih _ (shape_step hs' (step_inv hst)) rfl
    refine ⟨tr ++ .pop :: tr2, s2, ?_, ?_, g3, ?_, g5, g6.trans h6, g8.trans h8, ?_⟩
    · intro e he
      rcases List.mem_append.mp he with he | he
      · exact internal_of (h1 e he)
      · rcases List.mem_cons.mp he with rfl | he
        · trivial
        · exact g1 e he
    · rw [run_append, h2]
      simp only [Option.bind_some]
      rw [run_cons hst]
      exact g2
    · intro u hu
      rw [g4 u hu]
      simp only [Function.update_of_ne hu]
      exact h4 u hu
    · rw [g9]
      simp [h9]

/-! ### Conflicts -/

/-- A conflict with an operation of a job: the other side assigns what the job reads. -/
theorem conflict_job {x y : TabOp} (hy : (∃ f, y = .rd f) ∨ y = .post)
    (h : x.conflict y = true ∨ y.conflict x = true) : ∃ f v, x = .wr f v ∧ y = .rd f := by
  rcases hy with ⟨f, rfl⟩ | rfl
  · cases x with
    | rd g => simp [TabOp.conflict, TabOp.access] at h
    | wr g v =>
      refine ⟨g, v, rfl, ?_⟩
      rcases h with h | h
      · simp [TabOp.conflict, TabOp.access] at h; rw [h]
      · simp [TabOp.conflict, TabOp.access] at h; rw [h]
    | post => simp [TabOp.conflict, TabOp.access] at h
    | click es => simp [TabOp.conflict, TabOp.access] at h
  · exfalso
    cases x <;> simp [TabOp.conflict, TabOp.access] at h

theorem clash_false_of_nil {x : TabOp} {t : Thr} (h : t.todo = []) : t.clash x = false := by
  simp [Thr.clash, h]

theorem clash_false_of_idle {x : TabOp} {t : Thr} (h : t.busy = false) : t.clash x = false := by
  simp [Thr.clash, h]

theorem clash_inv {x : TabOp} {t : Thr} (h : t.clash x = true) :
    ∃ y r, t.todo = y :: r ∧ x.conflict y = true := by
  unfold Thr.clash at h
  cases ht : t.todo with
  | nil => simp [ht] at h
  | cons y r =>
    simp only [ht, Bool.and_eq_true] at h
    exact ⟨y, r, rfl, h.2⟩

end Neo
