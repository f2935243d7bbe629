import Verif.Core
import Mathlib.Logic.Function.Basic

/-!
# Background jobs of the benchmark tab

`extra/plugin/src/ui/BenchmarkTab.{hpp,cpp}`: the message thread loads files and starts benchmark
jobs, one worker thread runs the jobs in the order in which they were queued, and the thread on
which the host calls `prepareToPlay` (`PluginProcessor.cpp` 47-58) reloads both files.  None of the
three takes a lock.  The tab is modelled as a transition system.  An access to a member of the tab
takes time: it begins in one step and is over in a later one, so that accesses of two threads may
overlap.

Contracts of JUCE taken from its documentation: a `ThreadPool` with one thread runs the jobs in
queue order; `removeAllJobs (true, ms)` drops the jobs that have not started and waits at most `ms`
milliseconds for the running one; the destructor of the pool does the same and then kills the
thread; `MessageManager::callAsync` runs its callable on the message thread later on, when no other
callback is running.  Time is not modelled: a wait may end at any moment.
-/

namespace Neo

/-- Members of `BenchmarkTab` used by more than one thread (`BenchmarkTab.hpp` 74, 83-86 and the
`juce::Value`s of 92, 93 and 98, taken together as `settings`). -/
inductive TabField where
  | spec | signalFile | impulseFile | signal | impulse | settings
  deriving DecidableEq, Repr

/-- The entries of the engine list (`BenchmarkTab.cpp` 122-134). -/
inductive Engine where
  | juceConv | neoConv | denseConv | upols | upola | upolaV2 | splitUpola | splitUpols | sparse
  | tests | quality
  deriving DecidableEq, Repr

/-- What a thread does to the tab.  Contents are numbers; `0` is an empty buffer.
* `rd f` reads a member; `wr f v` assigns it;
* `post` is `MessageManager::callAsync ([this…] …)`;
* `click es` is `runBenchmarks` (258-314) with the engines `es` ticked: it reads `_signal` (271).
`extra/plugin/src/ui/BenchmarkTab.hpp:74-101`; `extra/plugin/src/ui/BenchmarkTab.cpp:374,396,432,459,512-523`. -/
inductive TabOp where
  | rd (f : TabField)
  | wr (f : TabField) (v : ℕ)
  | post
  | click (es : List Engine)
  deriving DecidableEq, Repr

/-- The member an operation accesses, and whether it assigns it.
`extra/plugin/src/ui/BenchmarkTab.cpp:258-314`. -/
def TabOp.access : TabOp → Option (TabField × Bool)
  | .rd f => some (f, false)
  | .wr f _ => some (f, true)
  | .post => none
  | .click _ => some (.signal, false)

/-- Two operations must not overlap: same member, one of them assigns it.
`extra/plugin/src/ui/BenchmarkTab.cpp:258-314`. -/
def TabOp.conflict (x y : TabOp) : Bool :=
  match x.access, y.access with
  | some (f, a), some (g, b) => decide (f = g) && (a || b)
  | _, _ => false

/-- `loadSignalFile` (`BenchmarkTab.cpp` 245-256).  `go`: the sample rate is positive and the file
exists (the model leaves both to the environment). -/
def loadSignalOps (go : Bool) (file content : ℕ) : List TabOp :=
  .rd .spec :: if go then [.wr .signalFile file, .rd .spec, .wr .signal content] else []

/-- `setImpulseResponseFile` (`BenchmarkTab.cpp` 175-200, with `updateImages`, 526-551).  `go`: the
file exists. -/
def setImpulseOps (go : Bool) (file content : ℕ) : List TabOp :=
  if go then
    [.rd .spec, .wr .impulse content, .wr .impulseFile file, .rd .impulse, .rd .settings, .rd .spec]
  else []

/-- `processSpecChanged` (`BenchmarkTab.cpp` 222-227). -/
def specChangedOps (rate : ℕ) (goS : Bool) (fS cS : ℕ) (goI : Bool) (fI cI : ℕ) : List TabOp :=
  .wr .spec rate :: .rd .signalFile :: loadSignalOps goS fS cS
    ++ .rd .impulseFile :: setImpulseOps goI fI cI

/-- The accesses of the jobs, in the order of the code.  An access made again and again inside one
call (the loops of `processBlocks`, `dense_convolve`, `sparse_convolve` and of 419-428) is one long
access.
`extra/plugin/src/ui/BenchmarkTab.cpp:360-524`; `extra/plugin/src/ui/BenchmarkTab.hpp:47-66`. -/
def jobOps : Engine → List TabOp
  -- `runJuceConvolutionBenchmark` (360-380), `runNeoConvolutionBenchmark` (382-402)
  | .juceConv | .neoConv => [.rd .impulseFile, .rd .signal, .rd .signal, .rd .spec, .post, .rd .spec]
  -- `runDenseConvolutionBenchmark` (404-441)
  | .denseConv =>
    [.rd .signal, .rd .signal, .rd .spec, .rd .impulseFile, .rd .spec, .rd .spec, .rd .signal, .post,
      .rd .spec]
  -- `runDenseBenchmark` (`BenchmarkTab.hpp` 45-66)
  | .upols | .upola | .upolaV2 | .splitUpola | .splitUpols =>
    [.rd .signal, .rd .impulse, .post, .rd .spec]
  -- `runSparseConvolverBenchmark` (443-468)
  | .sparse => [.rd .settings, .rd .settings, .rd .signal, .rd .impulse, .post, .rd .spec]
  -- `runConvolverTests` (470)
  | .tests => []
  -- `runSparseQualityTests` (472-524)
  | .quality =>
    [.rd .settings, .rd .signal, .rd .impulse, .rd .settings, .post]
      ++ (List.replicate 180 [TabOp.rd .signal, .rd .impulse, .post]).flatten ++ [.post]

/-- `runBenchmarks` (`BenchmarkTab.cpp` 260-269 and 277-313): the jobs it queues. -/
def clickJobs (es : List Engine) : List Engine :=
  let has (e : Engine) : List Engine := if e ∈ es then [e] else []
  has .juceConv ++ has .neoConv ++ has .denseConv ++ has .upols ++ has .upola ++ has .upolaV2
    ++ has .splitUpola ++ has .splitUpols ++ has .sparse ++ has .tests ++ has .quality

/-- The three threads.
`extra/plugin/src/ui/BenchmarkTab.hpp:32,101`; `extra/plugin/src/PluginProcessor.cpp:57`. -/
inductive Tid where
  | ui | host | worker
  deriving DecidableEq, Repr

/-- A thread: what is left to do, and whether the first of these operations has begun.
`extra/plugin/src/ui/BenchmarkTab.hpp:101`. -/
structure Thr where
  todo : List TabOp
  busy : Bool

/-- A queued job, with the members as they were when the user asked for it (a ghost).
`extra/plugin/src/ui/BenchmarkTab.cpp:278-312`. -/
structure Job where
  eng : Engine
  snap : TabField → ℕ

/-- A value read by a job. `extra/plugin/src/ui/BenchmarkTab.cpp:360-524`. -/
structure Seen where
  job : Job
  field : TabField
  value : ℕ

/-- `opened`: in use; `closing`: inside `~BenchmarkTab` (169-173) or the destructor of `_threadPool`
(the member declared last, `BenchmarkTab.hpp` 101, is destroyed first); `closed`: destroyed. -/
inductive Phase where
  | opened | closing | closed
  deriving DecidableEq, Repr

/-- State of the tab, its threads and its message queue.  `asked`, `started` and `seen` are ghosts:
the engines requested and started so far, and what the jobs have read.  `race`: two conflicting
accesses have overlapped; `dangling`: the destroyed tab has been accessed.
`extra/plugin/src/ui/BenchmarkTab.hpp:72-101`. -/
structure TabSt where
  val : TabField → ℕ
  thr : Tid → Thr
  queue : List Job
  cur : Option Job
  asked : List Engine
  started : List Engine
  seen : List Seen
  msgs : ℕ
  phase : Phase
  race : Bool
  dangling : Bool

/-- The constructed tab (`BenchmarkTab.cpp` 96-167). -/
def TabSt.init : TabSt where
  val := fun _ => 0
  thr := fun _ => ⟨[], false⟩
  queue := []
  cur := none
  asked := []
  started := []
  seen := []
  msgs := 0
  phase := .opened
  race := false
  dangling := false

/-- What happens. `extra/plugin/src/ui/BenchmarkTab.cpp:171-173,175-200,222-227,245-314`. -/
inductive TabEv where
  /-- message thread: the file chooser returns (234-239) -/
  | pickSignal (go : Bool) (file content : ℕ)
  /-- message thread: an impulse is chosen in the editor -/
  | pickImpulse (go : Bool) (file content : ℕ)
  /-- message thread: a slider or a choice of the property panel is changed (137-152) -/
  | setting (v : ℕ)
  /-- message thread: the button "Render" (106) -/
  | render (es : List Engine)
  /-- message thread: a callback posted by a job -/
  | runMsg
  /-- message thread: `~BenchmarkTab` begins (169-173) -/
  | close
  /-- message thread: the pool is gone and so is the tab -/
  | closed
  /-- host: `prepareToPlay` -/
  | prepare (rate : ℕ) (goS : Bool) (fS cS : ℕ) (goI : Bool) (fI cI : ℕ)
  /-- worker: starts the next job -/
  | pop
  /-- a thread begins its next access -/
  | start (t : Tid)
  /-- a thread completes the access it has begun -/
  | finish (t : Tid)

/-- A thread's access in progress conflicts with `x`.
`extra/plugin/src/ui/BenchmarkTab.cpp:258-314`. -/
def Thr.clash (x : TabOp) (t : Thr) : Bool :=
  t.busy && match t.todo with
    | [] => false
    | y :: _ => x.conflict y

/-- The effect of a completed operation of thread `t`.
`extra/plugin/src/ui/BenchmarkTab.cpp:258-314`. -/
def TabSt.effect (s : TabSt) (t : Tid) : TabOp → TabSt
  | .rd f =>
    match t, s.cur with
    | .worker, some j => { s with seen := s.seen ++ [⟨j, f, s.val f⟩] }
    | _, _ => s
  | .wr f v => { s with val := Function.update s.val f v }
  | .post => { s with msgs := s.msgs + 1 }
  | .click es =>
    -- 271-273
    if s.val .signal = 0 then s
    else { s with
            queue := s.queue ++ (clickJobs es).map (fun e => ⟨e, s.val⟩)
            asked := s.asked ++ clickJobs es }

/-- Give thread `t` the program `ops` if it is idle and the tab is open.
`extra/plugin/src/ui/BenchmarkTab.cpp:258-314`. -/
def TabSt.give (s : TabSt) (t : Tid) (ops : List TabOp) : Option TabSt :=
  if s.phase = .opened ∧ (s.thr t).todo = [] then
    some { s with thr := Function.update s.thr t ⟨ops, false⟩ }
  else none

/-- One step; `none`: the event cannot happen in this state.
`extra/plugin/src/ui/BenchmarkTab.cpp:258-314`. -/
def TabSt.step (s : TabSt) : TabEv → Option TabSt
  | .pickSignal go f c => s.give .ui (loadSignalOps go f c)
  | .pickImpulse go f c => s.give .ui (setImpulseOps go f c)
  | .setting v => s.give .ui [.wr .settings v]
  | .render es => s.give .ui [.click es]
  | .prepare r a b c d e f => s.give .host (specChangedOps r a b c d e f)
  | .runMsg =>
    if s.phase ≠ .closing ∧ (s.thr .ui).todo = [] ∧ 0 < s.msgs then
      some { s with msgs := s.msgs - 1, dangling := s.dangling || decide (s.phase = .closed) }
    else none
  | .close =>
    -- the listener is removed (171: no `prepare` from now on), the waiting jobs are dropped (172)
    if s.phase = .opened ∧ (s.thr .ui).todo = [] then some { s with phase := .closing, queue := [] }
    else none
  | .closed =>
    -- the running job has ended or is killed
    if s.phase = .closing then
      some { s with phase := .closed, thr := Function.update s.thr .worker ⟨[], false⟩ }
    else none
  | .pop =>
    match s.queue with
    | [] => none
    | j :: q =>
      if (s.thr .worker).todo = [] then
        some { s with
          queue := q, cur := some j, started := s.started ++ [j.eng]
          thr := Function.update s.thr .worker ⟨jobOps j.eng, false⟩ }
      else none
  | .start t =>
    match (s.thr t).todo with
    | [] => none
    | x :: r =>
      if (s.thr t).busy then none
      else some { s with
        thr := Function.update s.thr t ⟨x :: r, true⟩
        race := s.race || (s.thr .ui).clash x || (s.thr .host).clash x || (s.thr .worker).clash x
        dangling := s.dangling || decide (s.phase = .closed) }
  | .finish t =>
    match (s.thr t).todo with
    | [] => none
    | x :: r =>
      if (s.thr t).busy then
        some (TabSt.effect { s with
          thr := Function.update s.thr t ⟨r, false⟩
          dangling := s.dangling || decide (s.phase = .closed) } t x)
      else none

/-- A sequence of events; `none`: it cannot happen.
`extra/plugin/src/ui/BenchmarkTab.cpp:258-314`. -/
def TabSt.run (s : TabSt) : List TabEv → Option TabSt
  | [] => some s
  | e :: tr => (s.step e).bind (fun s' => s'.run tr)

end Neo
