import Verif.Lemmas.Upc

/-! # C29: the delay-line indexer -/

namespace Neo.Props

open Neo

/-- What the two callbacks of one call are given. -/
structure StepLog where
  /-- arguments of `copy_callback` -/
  stores : List Nat
  /-- arguments of `callback` (delay-line slot, filter segment), in order -/
  visits : List (Nat × Nat)
  deriving DecidableEq

/-- One call with recording callbacks. -/
def logStep (ix : FdlIndex) : Res (FdlIndex × StepLog) :=
  ix.call (σ := StepLog) (fun i l => .ok { l with stores := l.stores ++ [i] })
    (fun i j l => .ok { l with visits := l.visits ++ [(i, j)] }) { stores := [], visits := [] }

/-- An operation on the indexer. -/
inductive FdlOp
  | step
  | reset
  deriving DecidableEq

/-- Runs operations; keeps the records of the calls since the last reset. -/
def fdlRun : FdlIndex → List StepLog → List FdlOp → Res (FdlIndex × List StepLog)
  | ix, logs, [] => .ok (ix, logs)
  | ix, logs, .step :: ops => do
      let (ix, l) ← logStep ix
      fdlRun ix (logs ++ [l]) ops
  | ix, _, .reset :: ops => fdlRun ix.reset [] ops

theorem logStep_eq (N w : Nat) : logStep ⟨N, w⟩ = .ok (FdlIndex.advance ⟨N, w⟩,
    { stores := [w], visits := vec N (fun s => (s, (w + N - s) % N)) }) := by
  unfold logStep FdlIndex.call
  simp only [bind_ok, List.nil_append]
  rw [forN_eq' (s' := { stores := [w], visits := vec N (fun s => (s, (w + N - s) % N)) })
    (fun i => ({ stores := [w], visits := vec i (fun s => (s, (w + N - s) % N)) } : StepLog))
    (by rw [vec_zero]) rfl (by
      intro i hi
      simp only []
      rw [vec_succ]), bind_ok, pure_eq_ok]

/-- The records of `t` calls after a reset. -/
def logsOf (N t : Nat) : List StepLog :=
  vec t (fun u => { stores := [u % N], visits := vec N (fun s => (s, (u % N + N - s) % N)) })

/-- The number of calls since the last reset, starting from `t`. -/
def callsSince (t : Nat) (ops : List FdlOp) : Nat :=
  ops.foldl (fun n op => if op = .reset then 0 else n + 1) t

theorem fdlRun_eq {N : Nat} (hN : 1 ≤ N) (ops : List FdlOp) :
    ∀ t, fdlRun ⟨N, t % N⟩ (logsOf N t) ops
      = .ok (⟨N, callsSince t ops % N⟩, logsOf N (callsSince t ops)) := by
  induction ops with
  | nil => intro t; rfl
  | cons op ops ih =>
    intro t
    cases op with
    | step =>
      have h := ih (t + 1)
      have hc : callsSince t (.step :: ops) = callsSince (t + 1) ops := rfl
      rw [hc]
      rw [fdlRun, logStep_eq, bind_ok]
      simp only []
      have h1 : FdlIndex.advance ⟨N, t % N⟩ = ⟨N, (t + 1) % N⟩ := by
        rw [succ_mod hN]
        simp only [FdlIndex.advance, FdlIndex.reset]
        split_ifs <;> rfl
      rw [h1, ← h]
      congr 1
      unfold logsOf
      rw [vec_succ]
    | reset =>
      have h := ih 0
      have hc : callsSince t (.reset :: ops) = callsSince 0 ops := rfl
      rw [hc, fdlRun, ← h, Nat.zero_mod]
      unfold logsOf
      rw [vec_zero]
      rfl

/-- **C29.** After any interleaving of calls and resets on an indexer with `N ≥ 1` segments,
consider the calls made since the last reset (or since construction), numbered from 0.  Call `t`
* stores exactly once, at a slot `slot t < N`;
* visits every slot exactly once (in increasing order) and every filter segment exactly once;
* pairs the slot stored to `j` calls ago with filter segment `j`;
* stores to the slot of the oldest block: the one written `N` calls ago, which is none of those
  written `1..N-1` calls ago.
The first call after a reset stores at slot 0. -/
theorem C29_fdl_index {N : Nat} (hN : 1 ≤ N) (ops : List FdlOp) :
    ∃ ix logs, ∃ slot : Nat → Nat, fdlRun (FdlIndex.make N) [] ops = .ok (ix, logs) ∧
      logs.length = callsSince 0 ops ∧ slot 0 = 0 ∧
      ∀ t (ht : t < logs.length),
        (logs[t]).stores = [slot t] ∧ slot t < N ∧
        (logs[t]).visits.map Prod.fst = List.range N ∧
        ((logs[t]).visits.map Prod.snd).Perm (List.range N) ∧
        (∀ j < N, j ≤ t → (slot (t - j), j) ∈ (logs[t]).visits) ∧
        (N ≤ t → slot (t - N) = slot t) ∧
        (∀ j < N, 1 ≤ j → j ≤ t → slot (t - j) ≠ slot t) := by
  have h := fdlRun_eq hN ops 0
  generalize callsSince 0 ops = t' at h ⊢
  refine ⟨⟨N, t' % N⟩, logsOf N t', fun t => t % N, ?_, length_vec _ _, Nat.zero_mod N, ?_⟩
  · have h1 : (⟨N, 0 % N⟩ : FdlIndex) = FdlIndex.make N := by rw [Nat.zero_mod]; rfl
    have h2 : logsOf N 0 = [] := by unfold logsOf; rw [vec_zero]
    rw [h1, h2] at h
    exact h
  intro t ht
  have hlen : (logsOf N t').length = t' := length_vec _ _
  have hget : (logsOf N t')[t] = { stores := [t % N], visits := vec N (fun s => (s, (t % N + N - s) % N)) } := by
    have h1 : (logsOf N t')[t]? = some { stores := [t % N], visits := vec N (fun s => (s, (t % N + N - s) % N)) } := by
      unfold logsOf
      rw [getElem?_vec, if_pos (by omega)]
    rw [List.getElem?_eq_getElem ht] at h1
    exact Option.some.inj h1
  rw [hget]
  have hlt : t % N < N := Nat.mod_lt _ (by omega)
  have hinj : ∀ j < N, 1 ≤ j → j ≤ t → (t - j) % N ≠ t % N := by
    intro j hj hj1 hjt e
    have h3 := (Nat.modEq_iff_dvd' (by omega)).1 (show t - j ≡ t [MOD N] from e)
    have : N ≤ j := Nat.le_of_dvd (by omega) (by rwa [show t - (t - j) = j by omega] at h3)
    omega
  refine ⟨rfl, hlt, ?_, ?_, ?_, ?_, hinj⟩
  · rw [map_vec]; simp [vec]
  · rw [map_vec]
    simp only []
    -- `s ↦ (w + N - s) % N` is an involution of the slots
    have hinv : ∀ s < N, (t % N + N - (t % N + N - s) % N) % N = s := by
      intro s hs
      by_cases c : s ≤ t % N
      · rw [show t % N + N - s = t % N - s + N by omega, Nat.add_mod_right,
          Nat.mod_eq_of_lt (a := t % N - s) (by omega),
          show t % N + N - (t % N - s) = s + N by omega, Nat.add_mod_right, Nat.mod_eq_of_lt hs]
      · rw [Nat.mod_eq_of_lt (a := t % N + N - s) (by omega),
          show t % N + N - (t % N + N - s) = s by omega, Nat.mod_eq_of_lt hs]
    rw [List.perm_ext_iff_of_nodup]
    · intro a
      simp only [vec, List.mem_map, List.mem_range]
      constructor
      · rintro ⟨s, -, rfl⟩; exact Nat.mod_lt _ (by omega)
      · intro ha
        exact ⟨_, Nat.mod_lt _ (by omega), hinv a ha⟩
    · unfold vec
      apply List.Nodup.map_on _ List.nodup_range
      intro a ha b hb e
      rw [List.mem_range] at ha hb
      rw [← hinv a ha, ← hinv b hb, e]
    · exact List.nodup_range
  · intro j hj hjt
    simp only [vec, List.mem_map, List.mem_range, Prod.mk.injEq]
    refine ⟨(t - j) % N, Nat.mod_lt _ (by omega), rfl, ?_⟩
    have h1 : t % N + N - (t - j) % N ≡ t + N - (t - j) [MOD N] := by
      apply Nat.ModEq.sub (by have := Nat.mod_lt (t - j) (show 0 < N by omega); omega) (by omega)
      · exact Nat.ModEq.add_right N (Nat.mod_modEq t N)
      · exact Nat.mod_modEq _ _
    have h2 : t + N - (t - j) = j + N := by omega
    rw [h2] at h1
    exact Eq.trans (h1.trans Nat.add_modEq_right) (Nat.mod_eq_of_lt hj)
  · intro h
    exact (Nat.mod_eq_sub_mod h).symm

/-- Three calls, a reset and another call, for three segments. -/
example : ∃ ix, fdlRun (FdlIndex.make 3) [] [.step, .reset, .step, .step] = .ok (ix,
    [{ stores := [0], visits := [(0, 0), (1, 2), (2, 1)] },
     { stores := [1], visits := [(0, 1), (1, 0), (2, 2)] }]) := ⟨_, rfl⟩

/-- Without segments the modulo is by zero only if the loop ran; it does not, and the position
returns to 0. -/
theorem C29_no_segments : logStep (FdlIndex.make 0)
    = .ok (FdlIndex.make 0, { stores := [0], visits := [] }) := rfl

end Neo.Props
