import Verif.Lemmas.BenchJobs

/-!
# C97: the background jobs of the benchmark tab

Every execution of the tab is considered: any interleaving of the message thread, the host's thread
and the worker, any files, any clicks.

* The jobs start in the order of the clicks and, within a click, in the order of the engine list;
  none is lost, repeated or stuck while the tab is open (`C97_order`, `C97_all_started`).
* If nothing is loaded while a job waits or runs, no two conflicting accesses overlap and every job
  reads what the tab held at the click (`C97_quiet_partial`).
* A load begun while jobs wait or run may race exactly if one of these jobs still has to read a
  member the load assigns (`C97_race_iff`; `C97_load_signal_iff`: any job but `convolver_tests`).
* A job can never touch the destroyed tab (`C97_worker_alive`), but the callbacks it posted can: after
  closing the editor this is possible exactly if a callback waits, the running job has not posted its
  last one, or the host is in `prepareToPlay` (`C97_dangling_iff`).
-/

namespace Neo.Props

open Neo

/-! ### Specification -/

/-- The engine list, as shown to the user (`BenchmarkTab.cpp` 122-134). -/
def allEngines : List Engine :=
  [.juceConv, .neoConv, .denseConv, .upols, .upola, .upolaV2, .splitUpola, .splitUpols, .sparse,
    .tests, .quality]

/-- The clicks on "Render" in a trace, with the engines ticked. -/
def renders : List TabEv → List (List Engine)
  | [] => []
  | .render es :: tr => es :: renders tr
  | _ :: tr => renders tr

/-- The jobs a sequence of clicks asks for. -/
def wanted (cs : List (List Engine)) : List Engine :=
  (cs.map (fun es => allEngines.filter (· ∈ es))).flatten

/-- The click, if any, whose handling the event completes, and whether a signal is loaded at that moment. -/
def handledBy (s : TabSt) : TabEv → List (List Engine × Bool)
  | .finish .ui =>
    match (s.thr .ui).todo with
    | .click es :: _ => [(es, decide (s.val .signal ≠ 0))]
    | _ => []
  | _ => []

/-- The clicks handled in an execution, in order. -/
def handled (s : TabSt) : List TabEv → List (List Engine × Bool)
  | [] => []
  | e :: tr => handledBy s e ++ ((s.step e).elim [] fun s' => handled s' tr)

/-- Those of them that found a signal loaded. -/
def accepted (l : List (List Engine × Bool)) : List (List Engine) := (l.filter (·.2)).map (·.1)

/-- Nobody loads anything while a job waits or runs, while another thread loads, or while a click is
being handled. -/
def QuietEv (s : TabSt) : TabEv → Prop
  | .pickSignal .. | .pickImpulse .. | .setting _ =>
    (s.thr .worker).todo = [] ∧ s.queue = [] ∧ (s.thr .host).todo = []
  | .prepare .. => (s.thr .worker).todo = [] ∧ s.queue = [] ∧ (s.thr .ui).todo = []
  | .render _ => (s.thr .host).todo = []
  | _ => True

/-- An execution that keeps to it throughout. -/
def QuietRun (s : TabSt) : List TabEv → Prop
  | [] => True
  | e :: tr => QuietEv s e ∧ ∀ s', s.step e = some s' → QuietRun s' tr

/-! ### Order -/

theorem clickJobs_eq (es : List Engine) : clickJobs es = allEngines.filter (· ∈ es) := by
  have h : ∀ (a : Engine) (l : List Engine),
      (a :: l).filter (· ∈ es) = (if a ∈ es then [a] else []) ++ l.filter (· ∈ es) := by
    intro a l
    by_cases c : a ∈ es <;> simp [c]
  simp only [clickJobs, allEngines, h, List.filter_nil, List.append_nil, List.append_assoc]

theorem renders_snoc (tr : List TabEv) (e : TabEv) : renders (tr ++ [e]) = renders tr ++ renders [e] := by
  induction tr with
  | nil => rfl
  | cons a tr ih => cases a <;> simp [renders, ih]

theorem wanted_snoc (cs : List (List Engine)) (es : List Engine) :
    wanted (cs ++ [es]) = wanted cs ++ clickJobs es := by
  simp [wanted, clickJobs_eq]

/-- The clicks handled so far, and the one being handled. -/
private def OrderInv (tr : List TabEv) (s : TabSt) : Prop :=
  TabShape s ∧ ∃ cs : List (List Engine), s.asked = wanted cs ∧
    cs.Sublist (renders tr) ∧
    (∀ es, TabOp.click es ∈ (s.thr .ui).todo → (cs ++ [es]).Sublist (renders tr)) ∧
    s.started <+: s.asked ∧
    (s.phase = .opened → s.started ++ s.queue.map Job.eng = s.asked)

private theorem order_step (tr : List TabEv) (s : TabSt) (e : TabEv) (s' : TabSt)
    (hi : OrderInv tr s) (h : StepR s e s') : OrderInv (tr ++ [e]) s' := by
  obtain ⟨hs, cs, ha, h1, h2, h3, h4⟩ := hi
  refine ⟨shape_step hs h, ?_⟩
  have mono : ∀ l : List (List Engine), l.Sublist (renders tr) →
      l.Sublist (renders (tr ++ [e])) := by
    intro l hl
    rw [renders_snoc]
    exact hl.trans (List.sublist_append_left _ _)
  cases h with
  | give _ t ops he hp ht =>
    refine ⟨cs, ha, mono _ h1, ?_, h3, h4⟩
    intro es hes
    rcases given_click he with ⟨es', rfl, rfl, rfl⟩ | ⟨hn, _⟩
    · simp only [Function.update_self, List.mem_singleton, TabOp.click.injEq] at hes
      subst hes
      rw [renders_snoc]
      exact h1.append (List.Sublist.refl _)
    · by_cases c : t = .ui
      · subst c
        simp only [Function.update_self] at hes
        exact absurd hes (hn es)
      · simp only [Function.update_of_ne (Ne.symm c)] at hes
        exact mono _ (h2 es hes)
  | runMsg hp hu hm => exact ⟨cs, ha, mono _ h1, fun es hes => mono _ (h2 es hes), h3, h4⟩
  | close hp hu =>
    exact ⟨cs, ha, mono _ h1, fun es hes => mono _ (h2 es hes), h3, fun hn => by cases hn⟩
  | closed hp =>
    refine ⟨cs, ha, mono _ h1, fun es hes => mono _ (h2 es ?_), h3, fun hn => by cases hn⟩
    simpa using hes
  | pop j q hq hw =>
    have hopen : s.phase = .opened := by
      by_contra hn
      have := (hs.late hn).2
      rw [hq] at this; cases this
    have h4' := h4 hopen
    refine ⟨cs, ha, mono _ h1, fun es hes => mono _ (h2 es ?_), ?_, ?_⟩
    · simpa using hes
    · refine ⟨q.map Job.eng, ?_⟩
      rw [← h4', hq]
      simp
    · intro _
      rw [← h4', hq]
      simp
  | start t x r ht hb =>
    refine ⟨cs, ha, mono _ h1, fun es hes => mono _ (h2 es ?_), h3, h4⟩
    by_cases c : t = .ui
    · subst c
      rw [ht]
      simpa using hes
    · simpa [Function.update_of_ne (Ne.symm c)] using hes
  | finish t x r ht hb =>
    by_cases cl : ∃ es, x = .click es
    · obtain ⟨es, rfl⟩ := cl
      have hm : TabOp.click es ∈ (s.thr t).todo := by rw [ht]; simp
      have htui : t = .ui := by
        cases t with
        | ui => rfl
        | host => exact absurd hm (hs.host es)
        | worker => rcases hs.worker _ hm with ⟨f, hf⟩ | hf <;> cases hf
      subst htui
      have hr : r = [] := by
        have := hs.ui es hm
        rw [ht] at this
        simpa using this
      subst hr
      have hopen : s.phase = .opened := by
        by_contra hn
        have := (hs.late hn).1
        rw [ht] at this; cases this
      simp only [TabSt.effect]
      split
      · exact ⟨cs, ha, mono _ h1, by simp, h3, h4⟩
      · refine ⟨cs ++ [es], ?_, mono _ (h2 es hm), by simp, ?_, ?_⟩
        · simp only [wanted_snoc, ha]
        · exact h3.trans (List.prefix_append _ _)
        · intro _
          have hid : (List.map (fun e : Engine => (⟨e, s.val⟩ : Job)) (clickJobs es)).map Job.eng
              = clickJobs es := by
            rw [List.map_map]
            exact List.map_id _
          simp only [List.map_append, hid]
          rw [← List.append_assoc, h4 hopen]
    · have hx : ∀ es, x ≠ .click es := fun es he => cl ⟨es, he⟩
      have hq := effect_queue { s with
          thr := Function.update s.thr t ⟨r, false⟩
          dangling := s.dangling || decide (s.phase = .closed) } t x hx
      refine ⟨cs, hq.2.trans ha, mono _ h1, fun es hes => mono _ (h2 es ?_), ?_, ?_⟩
      · simp only [effect_thr] at hes
        by_cases c : t = .ui
        · subst c
          rw [ht]
          simp only [Function.update_self] at hes
          exact List.mem_cons_of_mem _ hes
        · simpa [Function.update_of_ne (Ne.symm c)] using hes
      · rw [hq.2]; simpa using h3
      · rw [hq.2, hq.1]; simpa using h4

private theorem order_run {tr : List TabEv} {s : TabSt} (h : TabSt.init.run tr = some s) :
    OrderInv tr s := by
  refine run_induct OrderInv ⟨shape_init, [], rfl, List.nil_sublist _, ?_, List.nil_prefix, ?_⟩
    order_step tr s h
  · intro es he; simp [TabSt.init] at he
  · intro _; rfl

private theorem asked_step {s s' : TabSt} {e : TabEv} (hs : TabShape s) (h : StepR s e s') :
    s'.asked = s.asked ++ wanted (accepted (handledBy s e)) := by
  have nil : ∀ l : List Engine, l = l ++ wanted (accepted []) := fun l => by simp [wanted, accepted]
  cases h with
  | give _ t ops he hp ht => cases e <;> first | exact nil _ | cases he
  | runMsg | close | closed | pop | start => exact nil _
  | finish t x r ht hb =>
    by_cases cl : ∃ es, x = .click es
    · obtain ⟨es, rfl⟩ := cl
      have hm : TabOp.click es ∈ (s.thr t).todo := by rw [ht]; simp
      have htui : t = .ui := by
        cases t with
        | ui => rfl
        | host => exact absurd hm (hs.host es)
        | worker => rcases hs.worker _ hm with ⟨f, hf⟩ | hf <;> cases hf
      subst htui
      simp only [handledBy, ht, TabSt.effect]
      split
      · rename_i c
        simp [accepted, wanted, c]
      · rename_i c
        simp [accepted, wanted, clickJobs_eq, c]
    · have hx : ∀ es, x ≠ .click es := fun es he => cl ⟨es, he⟩
      rw [(effect_queue _ t x hx).2]
      have : handledBy s (.finish t) = [] := by
        cases t with
        | ui =>
          simp only [handledBy, ht]
          cases x <;> first | rfl | exact absurd rfl (hx _)
        | host => rfl
        | worker => rfl
      rw [this]
      exact nil _

private theorem accepted_append (a b : List (List Engine × Bool)) : accepted (a ++ b) = accepted a ++ accepted b := by
  simp [accepted]

private theorem asked_run {tr : List TabEv} : ∀ {s s' : TabSt}, TabShape s → s.run tr = some s' →
    s'.asked = s.asked ++ wanted (accepted (handled s tr)) := by
  induction tr with
  | nil => intro s s' _ h; cases h; simp [handled, accepted, wanted]
  | cons e tr ih =>
    intro s s' hs h
    simp only [TabSt.run] at h
    cases hst : s.step e with
    | none => rw [hst] at h; cases h
    | some s1 =>
      rw [hst] at h
      have h1 := asked_step hs (step_inv hst)
      rw [ih (shape_step hs (step_inv hst)) h, h1, List.append_assoc]
      simp [handled, hst, wanted, accepted_append]

/-- The clicks the message thread still has to handle. -/
private def pending (s : TabSt) : List (List Engine) :=
  (s.thr .ui).todo.filterMap fun x => match x with | .click es => some es | _ => none

private theorem pending_step {s s' : TabSt} {e : TabEv} (h : StepR s e s') :
    (handledBy s e).map (·.1) ++ pending s' = pending s ++ renders [e] := by
  have same : ∀ {s1 : TabSt}, (s1.thr .ui).todo = (s.thr .ui).todo → pending s1 = pending s ++ [] := fun h => by
    unfold pending; rw [h, List.append_nil]
  cases h with
  | give _ t ops he hp ht =>
    have ha : handledBy s e = [] := by cases e <;> first | rfl | cases he
    rw [ha, List.map_nil, List.nil_append]
    rcases given_click he with ⟨es, rfl, rfl, rfl⟩ | ⟨hn, hr⟩
    · simp only [pending, Function.update_self, ht]
      rfl
    · have hr' : renders [e] = [] := by
        cases e <;> first | rfl | exact absurd rfl (hr _)
      rw [hr']
      by_cases c : t = .ui
      · subst c
        have : pending { s with thr := Function.update s.thr .ui ⟨ops, false⟩ } = [] := by
          simp only [pending, Function.update_self]
          rw [List.filterMap_eq_nil_iff]
          intro x hx
          cases x <;> first | rfl | exact absurd hx (hn _)
        rw [this, pending, ht]
        rfl
      · exact same (by simp only [Function.update_of_ne (Ne.symm c)])
  | runMsg => exact same rfl
  | close => exact same rfl
  | closed => exact same (by simp)
  | pop => exact same (by simp)
  | start t x r ht hb =>
    refine same ?_
    by_cases c : t = .ui
    · subst c
      simp [ht]
    · simp only [Function.update_of_ne (Ne.symm c)]
  | finish t x r ht hb =>
    by_cases c : t = .ui
    · subst c
      simp only [handledBy, pending, effect_thr, Function.update_self, ht]
      cases x <;> simp [renders]
    · have : handledBy s (.finish t) = [] := by
        cases t with
        | ui => exact absurd rfl c
        | host => rfl
        | worker => rfl
      rw [this, List.map_nil, List.nil_append]
      exact same (by simp only [effect_thr, Function.update_of_ne (Ne.symm c)])

private theorem handled_run {tr : List TabEv} : ∀ {s s' : TabSt}, s.run tr = some s' →
    (handled s tr).map (·.1) ++ pending s' = pending s ++ renders tr := by
  induction tr with
  | nil => intro s s' h; cases h; simp [handled, renders]
  | cons e tr ih =>
    intro s s' h
    simp only [TabSt.run] at h
    cases hst : s.step e with
    | none => rw [hst] at h; cases h
    | some s1 =>
      rw [hst] at h
      have h3 : renders (e :: tr) = renders [e] ++ renders tr := by cases e <;> rfl
      simp only [handled, hst, Option.elim_some, List.map_append]
      rw [h3, List.append_assoc, ih h, ← List.append_assoc, pending_step (step_inv hst), List.append_assoc]

/-- **Order of the jobs.** In every execution the clicks are handled in their order, and once the message thread is idle
all of them have been.  The jobs started so far are, in order, the first of the jobs asked for: click after click, leaving
out exactly the clicks handled with no signal loaded, and for each click the ticked engines in the order of the list.
While the tab is open the others are waiting: none is lost and none is added. -/
theorem C97_order {tr : List TabEv} {s : TabSt} (h : TabSt.init.run tr = some s) {cs : List (List Engine × Bool)}
    (hcs : cs = handled TabSt.init tr) :
    cs.map (·.1) <+: renders tr ∧ ((s.thr .ui).todo = [] → cs.map (·.1) = renders tr) ∧
      s.started <+: wanted (accepted cs) ∧
      (s.phase = .opened → s.started ++ s.queue.map Job.eng = wanted (accepted cs)) := by
  subst hcs
  obtain ⟨_, cs, _, _, _, h3, h4⟩ := order_run h
  have ha : s.asked = wanted (accepted (handled TabSt.init tr)) := by
    rw [asked_run shape_init h]
    rfl
  have hh : (handled TabSt.init tr).map (·.1) ++ pending s = renders tr := handled_run h
  refine ⟨⟨_, hh⟩, fun hu => ?_, ha ▸ h3, fun hp => ha ▸ h4 hp⟩
  rw [← hh, pending, hu]
  simp

/-- **No job is stuck.** From every reachable state of the open tab the worker can go on, on its
own, until every job asked for has been started and run. -/
theorem C97_all_started {tr : List TabEv} {s : TabSt} (h : TabSt.init.run tr = some s)
    (ho : s.phase = .opened) :
    ∃ tr' s', (∀ e ∈ tr', e = .pop ∨ e = .start .worker ∨ e = .finish .worker) ∧
      s.run tr' = some s' ∧ (s'.thr .worker).todo = [] ∧ s'.queue = [] ∧
      s'.started = s.started ++ s.queue.map Job.eng := by
  have hs := shape_reach h
  clear h
  generalize hq : s.queue = q
  induction q generalizing s with
  | nil =>
    obtain ⟨tr1, s1, h1, h2, h3, _, h5, _, _, _, h9⟩ := drain hs
    exact ⟨tr1, s1, fun e he => Or.inr (h1 e he), h2, by rw [h3], by rw [h5, hq], by simp [h9]⟩
  | cons j q ih =>
    obtain ⟨tr1, s1, h1, h2, h3, _, h5, h6, _, _, h9⟩ := drain hs
    have hs1 := shape_run hs h2
    have hst : s1.step .pop = some { s1 with
          queue := q, cur := some j, started := s1.started ++ [j.eng]
          thr := Function.update s1.thr .worker ⟨jobOps j.eng, false⟩ } := by
      simp [TabSt.step, h5, hq, h3]
    obtain ⟨tr2, s2, g1, g2, g3, g4, g5⟩ := ih (by simpa using h6.trans ho)
      (shape_step hs1 (step_inv hst)) rfl
    refine ⟨tr1 ++ .pop :: tr2, s2, ?_, ?_, g3, g4, ?_⟩
    · intro e he
      rcases List.mem_append.mp he with he | he
      · exact Or.inr (h1 e he)
      · rcases List.mem_cons.mp he with rfl | he
        · exact Or.inl rfl
        · exact g1 e he
    · rw [run_append, h2]
      simp only [Option.bind_some]
      rw [run_cons hst]
      exact g2
    · rw [g5]
      simp [h9]

/-! ### Undisturbed jobs -/

/-- An assignment is among the operations. -/
private def Writes (l : List TabOp) : Prop := ∃ f v, TabOp.wr f v ∈ l

private structure QuietInv (s : TabSt) : Prop where
  shape : TabShape s
  ui : Writes (s.thr .ui).todo →
    (s.thr .worker).todo = [] ∧ s.queue = [] ∧ (s.thr .host).todo = []
  host : Writes (s.thr .host).todo →
    (s.thr .worker).todo = [] ∧ s.queue = [] ∧ (s.thr .ui).todo = []
  click : ∀ es, TabOp.click es ∈ (s.thr .ui).todo → (s.thr .host).todo = []
  snapQ : ∀ j ∈ s.queue, j.snap = s.val
  snapW : (s.thr .worker).todo ≠ [] → ∀ j, s.cur = some j → j.snap = s.val
  race : s.race = false
  seen : ∀ e ∈ s.seen, e.value = e.job.snap e.field

private theorem conflict_writes {x y : TabOp} (h : x.conflict y = true) :
    (∃ f v, x = .wr f v) ∨ (∃ f v, y = .wr f v) := by
  cases x with
  | wr f v => exact Or.inl ⟨f, v, rfl⟩
  | rd f =>
    cases y with
    | wr g v => exact Or.inr ⟨g, v, rfl⟩
    | _ => simp [TabOp.conflict, TabOp.access] at h
  | post => simp [TabOp.conflict, TabOp.access] at h
  | click es =>
    cases y with
    | wr g v => exact Or.inr ⟨g, v, rfl⟩
    | _ => simp [TabOp.conflict, TabOp.access] at h

private theorem quiet_alone {s : TabSt} (hi : QuietInv s) {t u : Tid} (htu : u ≠ t)
    (hw : Writes (s.thr t).todo) : (s.thr u).todo = [] := by
  cases t with
  | ui => cases u with
    | ui => exact absurd rfl htu
    | host => exact (hi.ui hw).2.2
    | worker => exact (hi.ui hw).1
  | host => cases u with
    | ui => exact (hi.host hw).2.2
    | host => exact absurd rfl htu
    | worker => exact (hi.host hw).1
  | worker =>
    obtain ⟨f, v, hm⟩ := hw
    rcases hi.shape.worker _ hm with ⟨g, hg⟩ | hg <;> cases hg

private theorem quiet_clash {s : TabSt} (hi : QuietInv s) {t : Tid} {x : TabOp} {r : List TabOp}
    (ht : (s.thr t).todo = x :: r) (hb : (s.thr t).busy = false) (u : Tid) :
    (s.thr u).clash x = false := by
  by_cases c : u = t
  · subst c; exact clash_false_of_idle hb
  · by_contra hcl
    obtain ⟨y, r', hy, hxy⟩ := clash_inv (by simpa using hcl)
    rcases conflict_writes hxy with ⟨f, v, rfl⟩ | ⟨f, v, rfl⟩
    · have := quiet_alone hi c ⟨f, v, by rw [ht]; simp⟩
      rw [hy] at this; cases this
    · have := quiet_alone hi (Ne.symm c) ⟨f, v, by rw [hy]; simp⟩
      rw [ht] at this; cases this

private theorem quiet_step {s s' : TabSt} {e : TabEv} (hi : QuietInv s) (hq : QuietEv s e)
    (h : StepR s e s') : QuietInv s' := by
  have hsh := shape_step hi.shape h
  cases h with
  | give _ t ops he hp ht =>
    -- a load or a click
    have hcase : (∃ es, t = .ui ∧ ops = [.click es] ∧ (s.thr .host).todo = []) ∨
        ((∀ es, TabOp.click es ∉ ops) ∧ (s.thr .worker).todo = [] ∧ s.queue = [] ∧
          ∀ u, u ≠ t → u ≠ .worker → (s.thr u).todo = []) := by
      cases e with
      | render es => simp only [TabEv.given] at he; cases he; exact Or.inl ⟨es, rfl, rfl, hq⟩
      | pickSignal go f c =>
        right
        refine ⟨?_, hq.1, hq.2.1, ?_⟩
        · rcases given_click he with ⟨_, h, _⟩ | ⟨h, _⟩
          · cases h
          · exact h
        · simp only [TabEv.given] at he; cases he
          intro u h1 h2
          cases u with
          | ui => exact absurd rfl h1
          | host => exact hq.2.2
          | worker => exact absurd rfl h2
      | pickImpulse go f c =>
        right
        refine ⟨?_, hq.1, hq.2.1, ?_⟩
        · rcases given_click he with ⟨_, h, _⟩ | ⟨h, _⟩
          · cases h
          · exact h
        · simp only [TabEv.given] at he; cases he
          intro u h1 h2
          cases u with
          | ui => exact absurd rfl h1
          | host => exact hq.2.2
          | worker => exact absurd rfl h2
      | setting v =>
        right
        refine ⟨?_, hq.1, hq.2.1, ?_⟩
        · rcases given_click he with ⟨_, h, _⟩ | ⟨h, _⟩
          · cases h
          · exact h
        · simp only [TabEv.given] at he; cases he
          intro u h1 h2
          cases u with
          | ui => exact absurd rfl h1
          | host => exact hq.2.2
          | worker => exact absurd rfl h2
      | prepare a b c d e f g =>
        right
        refine ⟨?_, hq.1, hq.2.1, ?_⟩
        · rcases given_click he with ⟨_, h, _⟩ | ⟨h, _⟩
          · cases h
          · exact h
        · simp only [TabEv.given] at he; cases he
          intro u h1 h2
          cases u with
          | ui => exact hq.2.2
          | host => exact absurd rfl h1
          | worker => exact absurd rfl h2
      | runMsg => cases he
      | close => cases he
      | closed => cases he
      | pop => cases he
      | start t => cases he
      | finish t => cases he
    have hw := given_tid he
    rcases hcase with ⟨es, rfl, rfl, hh⟩ | ⟨hc, h1, h2, h3⟩
    · refine ⟨hsh, ?_, ?_, ?_, hi.snapQ, ?_, hi.race, hi.seen⟩
      · rintro ⟨f, v, hm⟩; simp at hm
      · rintro ⟨f, v, hm⟩; simp [hh] at hm
      · intro _ _; simpa using hh
      · simpa using hi.snapW
    · refine ⟨hsh, ?_, ?_, ?_, hi.snapQ, ?_, hi.race, hi.seen⟩
      · intro hwr
        refine ⟨by simpa [Function.update_of_ne (Ne.symm hw)] using h1, h2, ?_⟩
        by_cases c : t = .host
        · subst c
          exfalso
          obtain ⟨f, v, hm⟩ := hwr
          have := h3 .ui (by simp) (by simp)
          simp [this] at hm
        · simpa [Function.update_of_ne (Ne.symm c)] using h3 .host (Ne.symm c) (by simp)
      · intro hwr
        refine ⟨by simpa [Function.update_of_ne (Ne.symm hw)] using h1, h2, ?_⟩
        by_cases c : t = .ui
        · subst c
          exfalso
          obtain ⟨f, v, hm⟩ := hwr
          have := h3 .host (by simp) (by simp)
          simp [this] at hm
        · simpa [Function.update_of_ne (Ne.symm c)] using h3 .ui (Ne.symm c) (by simp)
      · intro es hm
        exfalso
        by_cases c : t = .ui
        · subst c; simp only [Function.update_self] at hm; exact hc es hm
        · have := h3 .ui (Ne.symm c) (by simp)
          simp [Function.update_of_ne (Ne.symm c), this] at hm
      · intro hn
        exact absurd (by simpa [Function.update_of_ne (Ne.symm hw)] using h1) hn
  | runMsg hp hu hm =>
    exact ⟨hsh, hi.ui, hi.host, hi.click, hi.snapQ, hi.snapW, hi.race, hi.seen⟩
  | close hp hu =>
    refine ⟨hsh, fun hw => ?_, fun hw => ?_, hi.click, by simp, hi.snapW, hi.race, hi.seen⟩
    · exact ⟨(hi.ui hw).1, rfl, (hi.ui hw).2.2⟩
    · exact ⟨(hi.host hw).1, rfl, (hi.host hw).2.2⟩
  | closed hp =>
    refine ⟨hsh, fun hw => ?_, fun hw => ?_, ?_, hi.snapQ, by simp, hi.race, hi.seen⟩
    · have := hi.ui (by simpa using hw)
      exact ⟨by simp, this.2.1, by simpa using this.2.2⟩
    · have := hi.host (by simpa using hw)
      exact ⟨by simp, this.2.1, by simpa using this.2.2⟩
    · simpa using hi.click
  | pop j q hq' hw =>
    refine ⟨hsh, fun h => ?_, fun h => ?_, ?_, ?_, ?_, hi.race, hi.seen⟩
    · have := (hi.ui (by simpa using h)).2.1
      rw [hq'] at this; cases this
    · have := (hi.host (by simpa using h)).2.1
      rw [hq'] at this; cases this
    · simpa using hi.click
    · intro k hk; exact hi.snapQ k (by rw [hq']; exact List.mem_cons_of_mem _ hk)
    · intro _ k hk
      cases hk
      exact hi.snapQ j (by rw [hq']; simp)
  | start t x r ht hb =>
    have key : ∀ u, (Function.update s.thr t ⟨x :: r, true⟩ u).todo = (s.thr u).todo := by
      intro u
      by_cases c : u = t
      · subst c; simp [ht]
      · simp [Function.update_of_ne c]
    refine ⟨hsh, ?_, ?_, ?_, hi.snapQ, ?_, ?_, hi.seen⟩
    · simpa only [key] using hi.ui
    · simpa only [key] using hi.host
    · simpa only [key] using hi.click
    · simpa only [key] using hi.snapW
    · simp [hi.race, quiet_clash hi ht hb]
  | finish t x r ht hb =>
    have sub : ∀ u, ∀ y ∈ (Function.update s.thr t ⟨r, false⟩ u).todo, y ∈ (s.thr u).todo := by
      intro u y hy
      by_cases c : u = t
      · subst c; rw [ht]; simp at hy; exact List.mem_cons_of_mem _ hy
      · simpa [Function.update_of_ne c] using hy
    have nil : ∀ u, (s.thr u).todo = [] → (Function.update s.thr t ⟨r, false⟩ u).todo = [] := by
      intro u hu
      by_cases c : u = t
      · subst c; rw [ht] at hu; cases hu
      · simpa [Function.update_of_ne c] using hu
    have wsub : ∀ u, Writes (Function.update s.thr t ⟨r, false⟩ u).todo → Writes (s.thr u).todo :=
      fun u ⟨f, v, hm⟩ => ⟨f, v, sub u _ hm⟩
    have hseen : ∀ e ∈ (TabSt.effect { s with
          thr := Function.update s.thr t ⟨r, false⟩
          dangling := s.dangling || decide (s.phase = .closed) } t x).seen,
        e.value = e.job.snap e.field := by
      rcases effect_seen { s with
          thr := Function.update s.thr t ⟨r, false⟩
          dangling := s.dangling || decide (s.phase = .closed) } t x with h | ⟨f, j, rfl, rfl, hj, h⟩
      · rw [h]; exact hi.seen
      · rw [h]
        intro e he
        rcases List.mem_append.mp he with he | he
        · exact hi.seen e he
        · simp only [List.mem_singleton] at he
          subst he
          exact (congrFun (hi.snapW (by rw [ht]; simp) j hj) f).symm
    by_cases cl : ∃ es, x = .click es
    · obtain ⟨es, rfl⟩ := cl
      have hm : TabOp.click es ∈ (s.thr t).todo := by rw [ht]; simp
      have htui : t = .ui := by
        cases t with
        | ui => rfl
        | host => exact absurd hm (hi.shape.host es)
        | worker => rcases hi.shape.worker _ hm with ⟨f, hf⟩ | hf <;> cases hf
      subst htui
      have hr : r = [] := by
        have := hi.shape.ui es hm
        rw [ht] at this
        simpa using this
      subst hr
      have hh := hi.click es hm
      have hv : (TabSt.effect { s with
          thr := Function.update s.thr .ui ⟨[], false⟩
          dangling := s.dangling || decide (s.phase = .closed) } .ui (.click es)).val = s.val :=
        effect_val _ _ _ (by simp)
      refine ⟨hsh, ?_, ?_, ?_, ?_, ?_, ?_, hseen⟩
      · rintro ⟨f, v, hm⟩; simp at hm
      · rintro ⟨f, v, hm⟩; simp [hh] at hm
      · simp
      · rw [hv]
        simp only [TabSt.effect]
        split
        · exact hi.snapQ
        · intro j hj
          simp only [List.mem_append, List.mem_map] at hj
          rcases hj with hj | ⟨e, _, rfl⟩
          · exact hi.snapQ j hj
          · rfl
      · rw [hv]
        simpa using hi.snapW
      · simpa using hi.race
    · have hx : ∀ es, x ≠ .click es := fun es he => cl ⟨es, he⟩
      have hque := effect_queue { s with
          thr := Function.update s.thr t ⟨r, false⟩
          dangling := s.dangling || decide (s.phase = .closed) } t x hx
      refine ⟨hsh, ?_, ?_, ?_, ?_, ?_, by simpa using hi.race, hseen⟩
      · intro hw
        simp only [effect_thr] at hw ⊢
        have h := hi.ui (wsub _ hw)
        exact ⟨nil _ h.1, hque.1.trans h.2.1, nil _ h.2.2⟩
      · intro hw
        simp only [effect_thr] at hw ⊢
        have h := hi.host (wsub _ hw)
        exact ⟨nil _ h.1, hque.1.trans h.2.1, nil _ h.2.2⟩
      · intro es hm
        simp only [effect_thr] at hm ⊢
        exact nil _ (hi.click es (sub _ _ hm))
      · by_cases cw : ∃ f v, x = .wr f v
        · obtain ⟨f, v, rfl⟩ := cw
          have hwr : Writes (s.thr t).todo := ⟨f, v, by rw [ht]; simp⟩
          have hqe : s.queue = [] := by
            cases t with
            | ui => exact (hi.ui hwr).2.1
            | host => exact (hi.host hwr).2.1
            | worker =>
              rcases hi.shape.worker (.wr f v) (by rw [ht]; simp) with ⟨g, hg⟩ | hg <;> cases hg
          intro j hj
          rw [hque.1] at hj
          simp only [hqe] at hj
          cases hj
        · rw [hque.1, effect_val _ _ _ (fun f v he => cw ⟨f, v, he⟩)]
          exact hi.snapQ
      · intro hn
        simp only [effect_thr] at hn
        simp only [effect_cur]
        have hn' : (s.thr .worker).todo ≠ [] := fun h0 => hn (nil _ h0)
        by_cases cw : ∃ f v, x = .wr f v
        · obtain ⟨f, v, rfl⟩ := cw
          exfalso
          by_cases c : t = .worker
          · subst c
            rcases hi.shape.worker (.wr f v) (by rw [ht]; simp) with ⟨g, hg⟩ | hg <;> cases hg
          · exact hn' (quiet_alone hi (Ne.symm c) ⟨f, v, by rw [ht]; simp⟩)
        · rw [effect_val _ _ _ (fun f v he => cw ⟨f, v, he⟩)]
          exact hi.snapW hn'

/-- **Undisturbed jobs.** If nothing is loaded while a job waits or runs (and the user and the host do
not load at the same time), then no two conflicting accesses ever overlap, and every value a job
reads is the value the tab held when the user asked for the job.  The code does not enforce the
assumption. -/
theorem C97_quiet_partial {tr : List TabEv} {s : TabSt} (hq : QuietRun TabSt.init tr)
    (h : TabSt.init.run tr = some s) :
    s.race = false ∧ ∀ e ∈ s.seen, e.value = e.job.snap e.field := by
  have h0 : QuietInv TabSt.init :=
    ⟨shape_init, by rintro ⟨f, v, hm⟩; simp [TabSt.init] at hm,
      by rintro ⟨f, v, hm⟩; simp [TabSt.init] at hm, by simp [TabSt.init], by simp [TabSt.init],
      by simp [TabSt.init], rfl, by simp [TabSt.init]⟩
  suffices H : ∀ (tr : List TabEv) (s0 : TabSt), QuietInv s0 → QuietRun s0 tr →
      s0.run tr = some s → QuietInv s from
    ⟨(H tr _ h0 hq h).race, (H tr _ h0 hq h).seen⟩
  intro tr
  induction tr with
  | nil => intro s0 hi _ hr; cases hr; exact hi
  | cons e tr ih =>
    intro s0 hi hq hr
    simp only [TabSt.run] at hr
    cases hst : s0.step e with
    | none => rw [hst] at hr; cases hr
    | some s1 =>
      rw [hst] at hr
      exact ih s1 (quiet_step hi hq.1 (step_inv hst)) (hq.2 s1 hst) hr

/-! ### Exactly when a load can race -/

private structure CalmInv (t0 : Tid) (s : TabSt) : Prop where
  shape : TabShape s
  race : s.race = false
  other : ∀ u, u ≠ t0 → u ≠ .worker → (s.thr u).todo = []
  apart : ∀ f v, TabOp.wr f v ∈ (s.thr t0).todo →
    TabOp.rd f ∉ (s.thr .worker).todo ∧ ∀ j ∈ s.queue, TabOp.rd f ∉ jobOps j.eng

private theorem calm_step {t0 : Tid} (ht0 : t0 ≠ .worker) {s s' : TabSt} {e : TabEv}
    (hi : CalmInv t0 s) (hint : e.internal) (h : StepR s e s') : CalmInv t0 s' := by
  have hsh := shape_step hi.shape h
  cases h with
  | give _ t ops he hp ht => cases e <;> first | exact hint.elim | cases he
  | runMsg hp hu hm => cases hint
  | close hp hu => cases hint
  | closed hp => cases hint
  | pop j q hq hw =>
    refine ⟨hsh, hi.race, ?_, ?_⟩
    · intro u h1 h2
      simpa [Function.update_of_ne h2] using hi.other u h1 h2
    · intro f v hm
      simp only [Function.update_of_ne ht0] at hm
      have := (hi.apart f v hm).2
      rw [hq] at this
      refine ⟨by simpa using this j (by simp), fun k hk => this k (List.mem_cons_of_mem _ hk)⟩
  | start t x r ht hb =>
    have key : ∀ u, (Function.update s.thr t ⟨x :: r, true⟩ u).todo = (s.thr u).todo := by
      intro u
      by_cases c : u = t
      · subst c; simp [ht]
      · simp [Function.update_of_ne c]
    have hcl : ∀ u, (s.thr u).clash x = false := by
      intro u
      by_cases c : u = t
      · subst c; exact clash_false_of_idle hb
      · by_contra hc
        obtain ⟨y, r', hy, hxy⟩ := clash_inv (by simpa using hc)
        by_cases ct : t = .worker
        · subst ct
          -- the other one is `t0`
          have hu : u = t0 := by
            by_contra hu
            have := hi.other u hu c
            rw [hy] at this; cases this
          subst hu
          obtain ⟨f, v, rfl, rfl⟩ := conflict_job (hi.shape.worker x (by rw [ht]; simp)) (Or.inr hxy)
          exact (hi.apart f v (by rw [hy]; simp)).1 (by rw [ht]; simp)
        · have htt : t = t0 := by
            by_contra hu
            have := hi.other t hu ct
            rw [ht] at this; cases this
          subst htt
          have hu : u = .worker := by
            by_contra hu
            have := hi.other u c hu
            rw [hy] at this; cases this
          subst hu
          obtain ⟨f, v, rfl, rfl⟩ := conflict_job (hi.shape.worker y (by rw [hy]; simp)) (Or.inl hxy)
          exact (hi.apart f v (by rw [ht]; simp)).1 (by rw [hy]; simp)
    refine ⟨hsh, by simp [hi.race, hcl], ?_, ?_⟩
    · simpa only [key] using hi.other
    · simpa only [key] using hi.apart
  | finish t x r ht hb =>
    have sub : ∀ u, ∀ y ∈ (Function.update s.thr t ⟨r, false⟩ u).todo, y ∈ (s.thr u).todo := by
      intro u y hy
      by_cases c : u = t
      · subst c; rw [ht]; simp at hy; exact List.mem_cons_of_mem _ hy
      · simpa [Function.update_of_ne c] using hy
    have nil : ∀ u, (s.thr u).todo = [] → (Function.update s.thr t ⟨r, false⟩ u).todo = [] := by
      intro u hu
      by_cases c : u = t
      · subst c; rw [ht] at hu; cases hu
      · simpa [Function.update_of_ne c] using hu
    refine ⟨hsh, by simpa using hi.race, ?_, ?_⟩
    · intro u h1 h2
      simp only [effect_thr]
      exact nil u (hi.other u h1 h2)
    · intro f v hm
      simp only [effect_thr] at hm ⊢
      have h1 := hi.apart f v (sub _ _ hm)
      refine ⟨fun hr => h1.1 (sub _ _ hr), ?_⟩
      have hx : ∀ es, x ≠ .click es := by
        rintro es rfl
        have hmem : TabOp.click es ∈ (s.thr t).todo := by rw [ht]; simp
        have htui : t = .ui := by
          cases t with
          | ui => rfl
          | host => exact absurd hmem (hi.shape.host es)
          | worker => rcases hi.shape.worker _ hmem with ⟨f, hf⟩ | hf <;> cases hf
        subst htui
        have ht0' : t0 = .ui := by
          by_contra hc
          have := hi.other .ui (Ne.symm hc) (by simp)
          rw [ht] at this; cases this
        subst ht0'
        have := hi.shape.ui es hmem
        rw [this] at ht
        simp only [List.cons.injEq] at ht
        rw [← ht.2] at hm
        simp at hm
      rw [(effect_queue _ t x hx).1]
      exact h1.2

/-- Both sides of a race are under way. -/
private theorem race_build {s : TabSt} {t0 : Tid} (ht0 : t0 ≠ .worker) (hs : TabShape s)
    {ops : List TabOp} (hthr : s.thr t0 = ⟨ops, false⟩) (hc : ∀ es, TabOp.click es ∉ ops)
    {f : TabField} {v : ℕ} (hf : TabOp.wr f v ∈ ops)
    (hr : TabOp.rd f ∈ (s.thr .worker).todo ∨ ∃ j ∈ s.queue, TabOp.rd f ∈ jobOps j.eng) :
    ∃ tr s', (∀ e ∈ tr, e.internal) ∧ s.run tr = some s' ∧ s'.race = true := by
  -- the worker begins to read
  have W : ∃ tr s', (∀ e ∈ tr, TabEv.internal e) ∧ s.run tr = some s' ∧
      s'.thr t0 = ⟨ops, false⟩ ∧ ∃ r, s'.thr .worker = ⟨.rd f :: r, true⟩ := by
    have main : ∀ s : TabSt, TabShape s → s.thr t0 = ⟨ops, false⟩ →
        TabOp.rd f ∈ (s.thr .worker).todo →
        ∃ tr s', (∀ e ∈ tr, TabEv.internal e) ∧ s.run tr = some s' ∧
          s'.thr t0 = ⟨ops, false⟩ ∧ ∃ r, s'.thr .worker = ⟨.rd f :: r, true⟩ := by
      intro s hs hthr hr
      obtain ⟨pre, post, hpp⟩ := List.append_of_mem hr
      by_cases c : pre = [] ∧ (s.thr .worker).busy = true
      · obtain ⟨rfl, hb⟩ := c
        refine ⟨[], s, by simp, rfl, hthr, post, ?_⟩
        cases hh : s.thr .worker with
        | mk todo busy => rw [hh] at hpp hb; simp_all
      · obtain ⟨tr, s', h1, h2, h3, h4, _⟩ := advance .worker (.rd f :: post) pre s hpp
          (fun hp => by
            by_contra hb
            exact c ⟨hp, by simpa using hb⟩)
          (fun es he => by
            rcases hs.worker (.click es) (by rw [hpp]; exact List.mem_append_left _ he)
              with ⟨g, hg⟩ | hg <;> cases hg)
        have hst := step_start (s := s') (t := .worker) (x := .rd f) (r := post) (by rw [h3])
          (by rw [h3])
        refine ⟨tr ++ [.start .worker], { s' with
            thr := Function.update s'.thr .worker ⟨.rd f :: post, true⟩
            race := s'.race || (s'.thr .ui).clash (.rd f) || (s'.thr .host).clash (.rd f)
              || (s'.thr .worker).clash (.rd f)
            dangling := s'.dangling || decide (s'.phase = .closed) }, ?_, ?_, ?_, post, ?_⟩
        · intro e he
          rcases List.mem_append.mp he with he | he
          · exact internal_of (h1 e he)
          · simp at he; subst he; trivial
        · rw [run_append, h2]
          simp only [Option.bind_some]
          rw [run_cons hst]
          rfl
        · simp only [Function.update_of_ne ht0]
          rw [h4 t0 ht0, hthr]
        · simp
    rcases hr with hr | ⟨j, hj, hr⟩
    · exact main s hs hthr hr
    · obtain ⟨q1, q2, hq⟩ := List.append_of_mem hj
      obtain ⟨tr, s', h1, h2, h3, h4, _⟩ := reach_job j q2 q1 s hs hq
      obtain ⟨tr2, s2, g1, g2, g3, g4⟩ := main s' (shape_run hs h2) (by rw [h4 t0 ht0, hthr])
        (by rw [h3]; exact hr)
      refine ⟨tr ++ tr2, s2, ?_, ?_, g3, g4⟩
      · intro e he
        rcases List.mem_append.mp he with he | he
        · exact h1 e he
        · exact g1 e he
      · rw [run_append, h2]; exact g2
  obtain ⟨tr, s1, h1, h2, h3, r, h4⟩ := W
  -- the other thread begins to assign
  obtain ⟨pre, post, rfl⟩ := List.append_of_mem hf
  obtain ⟨tr2, s2, g1, g2, g3, g4, _⟩ := advance t0 (.wr f v :: post) pre s1 (by rw [h3])
    (fun _ => by rw [h3]) (fun es he => hc es (List.mem_append_left _ he))
  have hst := step_start (s := s2) (t := t0) (x := .wr f v) (r := post) (by rw [g3]) (by rw [g3])
  have hcl : (s2.thr .worker).clash (.wr f v) = true := by
    rw [g4 .worker (Ne.symm ht0), h4]
    simp [Thr.clash, TabOp.conflict, TabOp.access]
  refine ⟨tr ++ (tr2 ++ [.start t0]), { s2 with
        thr := Function.update s2.thr t0 ⟨.wr f v :: post, true⟩
        race := s2.race || (s2.thr .ui).clash (.wr f v) || (s2.thr .host).clash (.wr f v)
          || (s2.thr .worker).clash (.wr f v)
        dangling := s2.dangling || decide (s2.phase = .closed) }, ?_, ?_, ?_⟩
  · intro e he
    simp only [List.mem_append, List.mem_singleton] at he
    rcases he with he | he | rfl
    · exact h1 e he
    · exact internal_of (g1 e he)
    · trivial
  · rw [run_append, h2]
    simp only [Option.bind_some]
    rw [run_append, g2]
    simp only [Option.bind_some]
    rw [run_cons hst]
    rfl
  · simp [hcl]

/-- **When a load can race.** Let the message thread and the host be idle in a reachable state of the
open tab, without a race so far, and let one of them begin to load (event `e`, with the accesses
`ops`).  The threads can then run into a data race, without any further input, exactly if the running
job still has to read, or a waiting job reads, a member which the load assigns. -/
theorem C97_race_iff {tr : List TabEv} {s : TabSt} (h : TabSt.init.run tr = some s)
    (hr : s.race = false) (ho : s.phase = .opened) (hu : (s.thr .ui).todo = [])
    (hh : (s.thr .host).todo = []) {e : TabEv} {t : Tid} {ops : List TabOp}
    (he : e.given = some (t, ops)) :
    (∃ tr' s', (∀ x ∈ tr', TabEv.internal x) ∧ s.run (e :: tr') = some s' ∧ s'.race = true) ↔
      ∃ f v, TabOp.wr f v ∈ ops ∧
        (TabOp.rd f ∈ (s.thr .worker).todo ∨ ∃ j ∈ s.queue, TabOp.rd f ∈ jobOps j.eng) := by
  have hs := shape_reach h
  have htw := given_tid he
  have htn : (s.thr t).todo = [] := by
    cases t with
    | ui => exact hu
    | host => exact hh
    | worker => exact absurd rfl htw
  have hstep : s.step e = some { s with thr := Function.update s.thr t ⟨ops, false⟩ } := by
    have hg : s.give t ops = some { s with thr := Function.update s.thr t ⟨ops, false⟩ } := by
      simp [TabSt.give, ho, htn]
    cases e <;> simp only [TabEv.given] at he <;> cases he <;> exact hg
  have hs1 := shape_step hs (step_inv hstep)
  constructor
  · rintro ⟨tr', s', hint, hrun, hrace⟩
    rw [run_cons hstep] at hrun
    by_contra hno
    have hi : CalmInv t { s with thr := Function.update s.thr t ⟨ops, false⟩ } := by
      refine ⟨hs1, hr, ?_, ?_⟩
      · intro u h1 h2
        simp only [Function.update_of_ne h1]
        cases u with
        | ui => exact hu
        | host => exact hh
        | worker => exact absurd rfl h2
      · intro f v hm
        simp only [Function.update_self] at hm
        simp only [Function.update_of_ne (Ne.symm htw)]
        refine ⟨fun hc => hno ⟨f, v, hm, Or.inl hc⟩, fun j hj hc => hno ⟨f, v, hm, Or.inr ⟨j, hj, hc⟩⟩⟩
    suffices H : ∀ (tr : List TabEv) (s0 : TabSt), CalmInv t s0 → (∀ x ∈ tr, TabEv.internal x) →
        s0.run tr = some s' → CalmInv t s' by
      have := (H tr' _ hi hint hrun).race
      rw [hrace] at this; cases this
    intro tr
    induction tr with
    | nil => intro s0 hi _ hr; cases hr; exact hi
    | cons e tr ih =>
      intro s0 hi hin hr
      simp only [TabSt.run] at hr
      cases hst : s0.step e with
      | none => rw [hst] at hr; cases hr
      | some s1 =>
        rw [hst] at hr
        exact ih s1 (calm_step htw hi (hin e (by simp)) (step_inv hst))
          (fun x hx => hin x (List.mem_cons_of_mem _ hx)) hr
  · rintro ⟨f, v, hm, hr⟩
    have hc : ∀ es, TabOp.click es ∉ ops := by
      rcases given_click he with ⟨es', _, _, rfl⟩ | ⟨h1, _⟩
      · simp at hm
      · exact h1
    obtain ⟨tr', s', h1, h2, h3⟩ := race_build (s := { s with
        thr := Function.update s.thr t ⟨ops, false⟩ }) htw hs1 (by simp) hc hm (by
          simpa only [Function.update_of_ne (Ne.symm htw)] using hr)
    exact ⟨tr', s', h1, by rw [run_cons hstep]; exact h2, h3⟩

/-- **Choosing another signal file** can race exactly if the running job has not read the signal for
the last time, or if any job but `convolver_tests` waits. -/
theorem C97_load_signal_iff {tr : List TabEv} {s : TabSt} (h : TabSt.init.run tr = some s)
    (hr : s.race = false) (ho : s.phase = .opened) (hu : (s.thr .ui).todo = [])
    (hh : (s.thr .host).todo = []) (file content : ℕ) :
    (∃ tr' s', (∀ x ∈ tr', TabEv.internal x) ∧
        s.run (.pickSignal true file content :: tr') = some s' ∧ s'.race = true) ↔
      TabOp.rd .signal ∈ (s.thr .worker).todo ∨ ∃ j ∈ s.queue, j.eng ≠ .tests := by
  rw [C97_race_iff h hr ho hu hh (e := .pickSignal true file content) rfl]
  have hjob : ∀ e, TabOp.rd .signal ∈ jobOps e ↔ e ≠ .tests := by
    intro e; cases e <;> decide +kernel
  have hfile : ∀ e, TabOp.rd .signalFile ∉ jobOps e := by
    intro e; cases e <;> decide +kernel
  have hwf : TabOp.rd .signalFile ∉ (s.thr .worker).todo :=
    (run_induct (fun _ s => TabOp.rd .signalFile ∉ (s.thr .worker).todo) (by simp [TabSt.init])
      (by
        intro _ s e s' hp hst
        cases hst with
        | give _ t ops he hp' ht =>
          simpa [Function.update_of_ne (Ne.symm (given_tid he))] using hp
        | runMsg => exact hp
        | close => exact hp
        | closed => simp
        | pop j q hq hw => simpa using hfile j.eng
        | start t x r ht hb =>
          by_cases c : t = .worker
          · subst c; rw [ht] at hp; simpa using hp
          · simpa [Function.update_of_ne (Ne.symm c)] using hp
        | finish t x r ht hb =>
          simp only [effect_thr]
          by_cases c : t = .worker
          · subst c; rw [ht] at hp; simp only [Function.update_self]
            exact fun hm => hp (List.mem_cons_of_mem _ hm)
          · simpa [Function.update_of_ne (Ne.symm c)] using hp) tr s h)
  constructor
  · rintro ⟨f, v, hm, hx⟩
    have hf : f = .signal ∨ f = .signalFile := by
      simp [loadSignalOps] at hm
      rcases hm with ⟨rfl, _⟩ | ⟨rfl, _⟩
      · exact Or.inr rfl
      · exact Or.inl rfl
    rcases hf with rfl | rfl
    · rcases hx with hx | ⟨j, hj, hx⟩
      · exact Or.inl hx
      · exact Or.inr ⟨j, hj, (hjob j.eng).mp hx⟩
    · rcases hx with hx | ⟨j, hj, hx⟩
      · exact absurd hx hwf
      · exact absurd hx (hfile j.eng)
  · intro hx
    refine ⟨.signal, content, by simp [loadSignalOps], ?_⟩
    rcases hx with hx | ⟨j, hj, hx⟩
    · exact Or.inl hx
    · exact Or.inr ⟨j, hj, (hjob j.eng).mpr hx⟩

/-! ### Lifetime -/

/-- **Jobs and the destroyed tab.** Once the tab is destroyed no job is run, begun or continued: a
job never touches the members after their destruction. -/
theorem C97_worker_alive {tr : List TabEv} {s : TabSt} (h : TabSt.init.run tr = some s)
    (hc : s.phase = .closed) :
    s.step .pop = none ∧ s.step (.start .worker) = none ∧ s.step (.finish .worker) = none := by
  have hs := shape_reach h
  have h1 := hs.gone hc
  have h2 := (hs.late (by rw [hc]; simp)).2
  exact ⟨by simp [TabSt.step, h2], by simp [TabSt.step, h1], by simp [TabSt.step, h1]⟩

private structure GoneInv (s : TabSt) : Prop where
  shape : TabShape s
  phase : s.phase ≠ .opened
  dangling : s.dangling = false
  msgs : s.msgs = 0
  posts : TabOp.post ∉ (s.thr .worker).todo
  host : (s.thr .host).todo = []

private theorem gone_step {s s' : TabSt} {e : TabEv} (hi : GoneInv s) (h : StepR s e s') :
    GoneInv s' := by
  have hsh := shape_step hi.shape h
  have hl := hi.shape.late hi.phase
  cases h with
  | give _ t ops he hp ht => exact absurd hp hi.phase
  | runMsg hp hu hm => rw [hi.msgs] at hm; cases hm
  | close hp hu => exact absurd hp hi.phase
  | closed hp =>
    exact ⟨hsh, by simp, hi.dangling, hi.msgs, by simp, by simpa using hi.host⟩
  | pop j q hq hw => rw [hl.2] at hq; cases hq
  | start t x r ht hb =>
    have htw : t = .worker := by
      cases t with
      | ui => rw [hl.1] at ht; cases ht
      | host => rw [hi.host] at ht; cases ht
      | worker => rfl
    subst htw
    have hnc : s.phase ≠ .closed := by
      intro hc
      have := hi.shape.gone hc
      rw [ht] at this; cases this
    refine ⟨hsh, hi.phase, by simp [hi.dangling, hnc], hi.msgs, ?_, by simpa using hi.host⟩
    have := hi.posts
    rw [ht] at this
    simpa using this
  | finish t x r ht hb =>
    have htw : t = .worker := by
      cases t with
      | ui => rw [hl.1] at ht; cases ht
      | host => rw [hi.host] at ht; cases ht
      | worker => rfl
    subst htw
    have hnc : s.phase ≠ .closed := by
      intro hc
      have := hi.shape.gone hc
      rw [ht] at this; cases this
    have hp := hi.posts
    rw [ht] at hp
    have hx : x ≠ .post := fun hx => hp (by simp [hx])
    refine ⟨hsh, by simpa using hi.phase, by simp [hi.dangling, hnc], ?_, ?_, by simpa using hi.host⟩
    · rcases hi.shape.worker x (by rw [ht]; simp) with ⟨f, rfl⟩ | rfl
      · simp only [TabSt.effect]; split <;> exact hi.msgs
      · exact absurd rfl hx
    · simp only [effect_thr, Function.update_self]
      exact fun hm => hp (List.mem_cons_of_mem _ hm)

private theorem open_clean {tr : List TabEv} {s : TabSt} (h : TabSt.init.run tr = some s) :
    s.phase = .opened → s.dangling = false := by
  suffices H : TabShape s ∧ (s.phase ≠ .closed → s.dangling = false) from
    fun ho => H.2 (by rw [ho]; simp)
  refine run_induct (fun _ s => TabShape s ∧ (s.phase ≠ .closed → s.dangling = false))
    ⟨shape_init, fun _ => rfl⟩ ?_ tr s h
  · intro _ s e s' ⟨hs, hp⟩ hst
    refine ⟨shape_step hs hst, ?_⟩
    cases hst with
    | give _ t ops he hp' ht => exact hp
    | runMsg h1 h2 h3 => intro hn; simp [hp hn, show s.phase ≠ .closed from hn]
    | close h1 h2 => intro _; exact hp (by rw [h1]; simp)
    | closed h1 => intro hn; exact absurd rfl hn
    | pop j q hq hw => exact hp
    | start t x r ht hb => intro hn; simp [hp hn, show s.phase ≠ .closed from hn]
    | finish t x r ht hb =>
      intro hn
      simp only [effect_phase] at hn
      simp [hp hn, show s.phase ≠ .closed from hn]

/-- **Callbacks and the destroyed tab.** Closing the tab in a reachable state can lead to an access to
the destroyed tab exactly if a posted callback has not been run yet, the running job has a callback
left to post, or the host's thread is inside `processSpecChanged`. -/
theorem C97_dangling_iff {tr : List TabEv} {s : TabSt} (h : TabSt.init.run tr = some s)
    (ho : s.phase = .opened) (hu : (s.thr .ui).todo = []) :
    (∃ tr' s', s.run (.close :: tr') = some s' ∧ s'.dangling = true) ↔
      0 < s.msgs ∨ TabOp.post ∈ (s.thr .worker).todo ∨ (s.thr .host).todo ≠ [] := by
  have hs := shape_reach h
  have hstep : s.step .close = some { s with phase := .closing, queue := [] } := by
    simp [TabSt.step, ho, hu]
  have hs1 := shape_step hs (step_inv hstep)
  -- the rest of the destruction, then a callback
  have callback : ∀ s1 : TabSt, s1.phase = .closing → (s1.thr .ui).todo = [] → 0 < s1.msgs →
      ∃ s2, s1.run [.closed, .runMsg] = some s2 ∧ s2.dangling = true := by
    intro s1 h1 h2 h3
    refine ⟨{ s1 with
        phase := .closed, thr := Function.update s1.thr .worker ⟨[], false⟩
        msgs := s1.msgs - 1, dangling := s1.dangling || decide (Phase.closed = Phase.closed) }, ?_, ?_⟩
    · simp [TabSt.run, TabSt.step, h1, h2, h3]
    · simp
  constructor
  · rintro ⟨tr', s', hrun, hd⟩
    rw [run_cons hstep] at hrun
    by_contra hno
    have hi : GoneInv { s with phase := .closing, queue := [] } := by
      refine ⟨hs1, by simp, (open_clean h ho : s.dangling = false), ?_, ?_, ?_⟩
      · by_contra hm; exact hno (Or.inl (Nat.pos_of_ne_zero hm))
      · exact fun hm => hno (Or.inr (Or.inl hm))
      · by_contra hm; exact hno (Or.inr (Or.inr hm))
    have := run_induct (fun _ s => GoneInv s) hi (fun _ _ _ _ hp hst => gone_step hp hst) tr' s' hrun
    rw [this.dangling] at hd; cases hd
  · rintro (hm | hm | hm)
    · obtain ⟨s2, h1, h2⟩ := callback { s with phase := .closing, queue := [] } rfl hu hm
      exact ⟨_, s2, by rw [run_cons hstep]; exact h1, h2⟩
    · obtain ⟨tr1, s1, _, h2, _, h4, _, h6, h7, _, _⟩ := drain hs1
      have hpos : 0 < s1.msgs := by
        rw [h7]
        have : 0 < List.count TabOp.post (s.thr .worker).todo := List.count_pos_iff.mpr hm
        exact Nat.lt_of_lt_of_le this (Nat.le_add_left _ _)
      obtain ⟨s2, g1, g2⟩ := callback s1 h6 (by rw [h4 .ui (by simp)]; exact hu) hpos
      exact ⟨tr1 ++ [.closed, .runMsg], s2, by rw [run_cons hstep, run_append, h2]; exact g1, g2⟩
    · cases hl : (s.thr .host).todo with
      | nil => exact absurd hl hm
      | cons x r =>
        have hst2 : TabSt.step { s with phase := .closing, queue := [] } .closed
            = some { s with
              queue := [], phase := .closed, thr := Function.update s.thr .worker ⟨[], false⟩ } := by
          simp [TabSt.step]
        cases hb : (s.thr .host).busy with
        | false =>
          have hst3 := step_start (s := { s with
              queue := [], phase := .closed, thr := Function.update s.thr .worker ⟨[], false⟩ }) (t := .host)
            (x := x) (r := r) (by simpa using hl) (by simpa using hb)
          exact ⟨[.closed, .start .host], _,
            (run_cons hstep).trans ((run_cons hst2).trans ((run_cons hst3).trans rfl)), by simp⟩
        | true =>
          have hst3 := step_finish (s := { s with
              queue := [], phase := .closed, thr := Function.update s.thr .worker ⟨[], false⟩ }) (t := .host)
            (x := x) (r := r) (by simpa using hl) (by simpa using hb)
          exact ⟨[.closed, .finish .host], _,
            (run_cons hstep).trans ((run_cons hst2).trans ((run_cons hst3).trans rfl)), by simp⟩

/-! ### Witnesses -/

/-- A thread performs `n` accesses. -/
private def acts (t : Tid) (n : ℕ) : List TabEv :=
  (List.replicate n [TabEv.start t, TabEv.finish t]).flatten

/-- Load a signal and an impulse. -/
private def loads : List TabEv :=
  .pickSignal true 1 1 :: acts .ui 4 ++ .pickImpulse true 1 1 :: acts .ui 6

/-- Load the files, render with three engines ticked (in another order than that of the list), run the
jobs, and show their messages. -/
private def session : List TabEv :=
  loads ++ .render [.sparse, .upols, .tests] :: acts .ui 1
    ++ .pop :: acts .worker 4 ++ .runMsg :: .pop :: acts .worker 6 ++ [.runMsg, .pop]

/-- The whole of it happens, the jobs run in the order of the list, and eight values were read. -/
example : ∃ s, TabSt.init.run session = some s ∧ s.started = [.upols, .sparse, .tests] ∧
    s.queue.length = 0 ∧ s.race = false ∧ s.dangling = false ∧
    s.seen.map (fun e => (e.field, e.value)) =
      [(.signal, 1), (.impulse, 1), (.spec, 0), (.settings, 0), (.settings, 0), (.signal, 1),
        (.impulse, 1), (.spec, 0)] := by
  refine ⟨_, rfl, ?_, ?_, ?_, ?_, ?_⟩ <;> decide +kernel

/-- `QuietRun` as a program. -/
private def quietB (s : TabSt) : List TabEv → Bool
  | [] => true
  | e :: tr =>
    (match e with
      | .pickSignal .. | .pickImpulse .. | .setting _ =>
        (s.thr .worker).todo.isEmpty && s.queue.isEmpty && (s.thr .host).todo.isEmpty
      | .prepare .. =>
        (s.thr .worker).todo.isEmpty && s.queue.isEmpty && (s.thr .ui).todo.isEmpty
      | .render _ => (s.thr .host).todo.isEmpty
      | _ => true) &&
    (match s.step e with
      | none => true
      | some s' => quietB s' tr)

private theorem quietB_sound : ∀ (tr : List TabEv) (s : TabSt), quietB s tr = true → QuietRun s tr := by
  intro tr
  induction tr with
  | nil => intro s _; trivial
  | cons e tr ih =>
    intro s h
    simp only [quietB, Bool.and_eq_true] at h
    refine ⟨?_, ?_⟩
    · cases e <;> simp_all [QuietEv]
    · intro s' hs'
      have h2 := h.2
      rw [hs'] at h2
      exact ih s' h2

/-- It is undisturbed. -/
example : QuietRun TabSt.init session := quietB_sound _ _ (by decide +kernel)

/-- `C97_load_signal_iff` on a session: with only `convolver_tests` waiting a load is harmless, with
`upols_convolver` it is not. -/
example (es : List Engine) (hes : es = [.tests] ∨ es = [.upols]) :
    ∃ s, TabSt.init.run (loads ++ .render es :: acts .ui 1) = some s ∧
      ((∃ tr' s', (∀ x ∈ tr', TabEv.internal x) ∧
        s.run (.pickSignal true 2 2 :: tr') = some s' ∧ s'.race = true) ↔ es = [.upols]) := by
  rcases hes with rfl | rfl
  · refine ⟨_, rfl, ?_⟩
    rw [C97_load_signal_iff (tr := loads ++ .render [.tests] :: acts .ui 1) rfl (by decide +kernel)
      (by decide +kernel) (by decide +kernel) (by decide +kernel)]
    refine ⟨?_, by simp⟩
    rintro (h | ⟨j, hj, h⟩)
    · exact absurd h (by decide +kernel)
    · exact absurd (List.mem_map_of_mem (f := Job.eng) hj) (by
        intro hm
        have : j.eng ∈ [Engine.tests] := hm
        simp at this
        exact h this)
  · refine ⟨_, rfl, ?_⟩
    rw [C97_load_signal_iff (tr := loads ++ .render [.upols] :: acts .ui 1) rfl (by decide +kernel)
      (by decide +kernel) (by decide +kernel) (by decide +kernel)]
    refine ⟨fun _ => rfl, fun _ => Or.inr ⟨_, List.mem_of_getElem? (i := 0) rfl, by decide +kernel⟩⟩

/-- **The code does not prevent a race**: the user loads another signal while a job reads the old
one. -/
theorem C97_race_witness : ∃ tr s, TabSt.init.run tr = some s ∧ s.race = true ∧
    renders tr = [[.upols]] := by
  refine ⟨loads ++ .render [.upols] :: acts .ui 1 ++ [.pop, .start .worker]
    ++ .pickSignal true 2 2 :: acts .ui 3 ++ [.start .ui], _, rfl, ?_, ?_⟩ <;> decide +kernel

/-- **A job may mix two signals even without a race**: the quality test renders its reference from
one signal and compares it with another one, loaded in between. -/
theorem C97_mixed_witness : ∃ tr s, TabSt.init.run tr = some s ∧ s.race = false ∧
    ∃ a ∈ s.seen, ∃ b ∈ s.seen, a.job.eng = .quality ∧ b.job.eng = .quality ∧
      s.started.length = 1 ∧ a.field = b.field ∧ a.value ≠ b.value := by
  refine ⟨loads ++ .render [.quality] :: acts .ui 1 ++ .pop :: acts .worker 5
    ++ .pickSignal true 2 2 :: acts .ui 4 ++ acts .worker 1, _, rfl, by decide +kernel, ?_⟩
  refine ⟨_, List.mem_of_getElem? (i := 1) rfl, _, List.mem_of_getElem? (i := 4) rfl, rfl, rfl, rfl,
    rfl, ?_⟩
  decide +kernel

/-- **The code does not prevent a callback into the destroyed tab**: the editor is closed while a job
runs. -/
theorem C97_dangling_witness : ∃ tr s, TabSt.init.run tr = some s ∧ s.dangling = true := by
  refine ⟨loads ++ .render [.upols] :: acts .ui 1 ++ .pop :: acts .worker 4
    ++ [.close, .closed, .runMsg], _, rfl, ?_⟩
  decide +kernel

end Neo.Props
