import Verif.Node.Cumulator

/-! # Properties of `mdp.Node` (C01-C09) -/

namespace Mdp.Node

open Py

variable {σ α β : Type}

/-- A node class used in the examples: two training phases, a counter as private data, `_train` adds
the number of rows (and fails on dtype 9), `_execute` is the identity. -/
def demo : Kind Nat Nat Unit where
  trainable := true
  invertible := true
  preserveDim := false
  nPhases := 2
  supported := fun _ => true
  reqArgs := 0
  checkTrainArgs := fun _ _ _ => .ok ()
  trainHook := fun _ st x _ => ⟨st + x.nrows, [], if x.dtype = 9 then .error (.user 1) else .ok ()⟩
  stopHook := fun _ st => ⟨st, [], .ok ()⟩
  execHook := fun st x => ⟨st, [], .ok x⟩
  invHook := fun st x => ⟨st, [], .ok x⟩

def demoX : Arr Nat := ⟨2, 2, 1, [[1, 2], [3, 4]]⟩
def demoEmpty : Arr Nat := ⟨2, 3, 1, []⟩

/-- A freshly constructed `demo` node. -/
def demo0 : St Nat Nat Unit := (init demo none none none 0).2

theorem demo0_reachable : Reachable demo demo0 := ⟨none, none, none, 0, [], rfl, rfl⟩

theorem demo_sane : Sane demo := fun _ => by simp [demo]

theorem reachable_call (K : Kind σ α β) (s : St σ α β) (c : Call α β) (h : Reachable K s) :
    Reachable K (c.run K s) := by
  obtain ⟨i, o, t, st, cs, h1, rfl⟩ := h
  exact ⟨i, o, t, st, cs ++ [c], h1, by simp [runCalls]⟩

/-- `demo` after one accepted training call and one closed phase. -/
def demo1 : St Nat Nat Unit := runCalls demo demo0 [.train demoX [], .stop]

theorem demo1_reachable : Reachable demo demo1 := ⟨none, none, none, 0, _, rfl, rfl⟩

/-- `demo` fully trained, with all dimensions set. -/
def demo2 : St Nat Nat Unit := runCalls demo demo0 [.train demoX [], .stop, .train demoX [], .stop, .execute demoX]

theorem demo2_reachable : Reachable demo demo2 := ⟨none, none, none, 0, _, rfl, rfl⟩

/-! ## C01 -/

/-- C01: in every reachable state of a trainable node, `0 ≤ get_current_train_phase() ≤ n` and
`is_training()` holds exactly when `get_remaining_train_phase() > 0`. -/
theorem phase_range (K : Kind σ α β) (hK : Sane K) (s : St σ α β) (h : Reachable K s)
    (ht : K.trainable = true) :
    0 ≤ s.phase ∧ s.phase ≤ K.nPhases ∧ (s.training = true ↔ remaining K s > 0) := by
  have hi := (reachable_inv hK h).tr ht
  refine ⟨by omega, hi.2.1, ?_⟩
  rw [hi.2.2.1, remaining, if_pos ht]
  omega

/-- C01: a non-trainable node always reports phase -1 and is never training. -/
theorem nontrainable_phase (K : Kind σ α β) (s : St σ α β) (h : Reachable K s)
    (ht : K.trainable = false) : s.phase = -1 ∧ s.training = false := by
  have hi := (reachable_inv (fun h => by rw [ht] at h; cases h) h).ntr ht
  exact ⟨hi.1, hi.2.1⟩

/-- C01: whatever calls are made, the phase never decreases and a node that finished training never
trains again. -/
theorem phase_monotone (K : Kind σ α β) (s : St σ α β) (cs : List (Call α β)) :
    s.phase ≤ (runCalls K s cs).phase ∧ (s.training = false → (runCalls K s cs).training = false) :=
  ⟨(runCalls_fwd K cs s).phase, (runCalls_fwd K cs s).training⟩

/-- C01: one call of `train` never moves the phase, one call of `stop_training` moves it by one
exactly if it returns. -/
theorem phase_steps (K : Kind σ α β) (s : St σ α β) :
    (∀ x args, (train K x args s).2.phase = s.phase) ∧
    (∀ s', stopTraining K s = (.ok (), s') → s'.phase = s.phase + 1) ∧
    (∀ e s', stopTraining K s = (.error e, s') → s'.phase = s.phase) := by
  refine ⟨fun x args => train_phase K x args s, fun s' h => stopTraining_ok_phase K s s' h, ?_⟩
  intro e s' h
  rcases stop_cases K s with ⟨e, h'⟩ | ⟨_, _, _, _, s2, hs, ⟨e, _, h'⟩ | ⟨_, h'⟩⟩
  · rw [h] at h'; cases h'; rfl
  · rw [h] at h'; cases h'; exact hs.phase
  · rw [h] at h'; cases h'

example : Sane demo ∧ Reachable demo demo1 ∧ demo.trainable = true ∧ demo1.phase = 1 ∧
    demo1.training = true ∧ demo2.phase = 2 ∧ demo2.training = false :=
  ⟨demo_sane, demo1_reachable, rfl, by decide, by decide, by decide, by decide⟩

/-! ## C02 -/

/-- C02: in the sequence of hook calls of any history, every training and stop hook belongs to the
phase whose number is the number of phases closed before it; a stop hook comes after a training hook of
the same phase; execute and inverse hooks run only when all phases are closed. -/
theorem hook_order (K : Kind σ α β) (hK : Sane K) (s : St σ α β) (h : Reachable K s) :
    ∀ pre ev post, s.trace = pre ++ ev :: post → EvOK K pre ev :=
  (reachable_inv hK h).trace

/-- C02: no stop hook completes twice and none is skipped: stop hook `p` has completed exactly once if
phase `p` is over, and never otherwise. -/
theorem stop_hook_once (K : Kind σ α β) (hK : Sane K) (s : St σ α β) (h : Reachable K s)
    (ht : K.trainable = true) [DecidableEq (Event α β)] (p : Nat) :
    s.trace.count (.stop p true) = if (p : Int) < s.phase then 1 else 0 := by
  have hi := reachable_inv hK h
  rw [count_stop s.trace hi.trace p, (hi.tr ht).1]
  simp

/-- C02: hooks of later phases never run before hooks of earlier phases. -/
theorem hook_phases_sorted (K : Kind σ α β) (hK : Sane K) (s : St σ α β) (h : Reachable K s) :
    (s.trace.filterMap phaseOf).Pairwise (· ≤ ·) :=
  phases_sorted s.trace (reachable_inv hK h).trace

/-- C02: an accepted `train(x, *args)` runs exactly one hook, the current phase's, on exactly `x` (cast
to the node's dtype) and `args`; an accepted `stop_training` runs exactly the current stop hook. -/
theorem accepted_call_runs_own_hook (K : Kind σ α β) (s s' : St σ α β) :
    (∀ x args, train K x args s = (.ok (), s') →
      s'.trace = s.trace ++ [.train s.phase.toNat (refcast s'.dtype x) args true]) ∧
    (stopTraining K s = (.ok (), s') → s'.trace = s.trace ++ [.stop s.phase.toNat true]) :=
  ⟨fun x args h => (train_ok_trace K x args s s' h).1, fun h => (stop_ok_trace K s s' h).1⟩

/-- C02: a training or stop call that raises runs at most its own hook, and no stop hook completes. -/
theorem failing_call_runs_at_most_own_hook (K : Kind σ α β) (s s' : St σ α β) (e : Err) :
    (∀ x args, train K x args s = (.error e, s') →
      s'.trace = s.trace ∨ ∃ x', x'.data = x.data ∧ s'.trace = s.trace ++ [.train s.phase.toNat x' args false]) ∧
    (stopTraining K s = (.error e, s') →
      s'.trace = s.trace ∨ s'.trace = s.trace ++ [.stop s.phase.toNat false]) := by
  constructor
  · intro x args h
    rcases train_cases K x args s with ⟨e, _, hs⟩ | ⟨h1, h2, h3, he⟩ |
      ⟨h1, h2, h3, h4, s1, s2, hs1, hwf, _, _, hr, hs'⟩
    · rw [h] at hs; exact .inl hs.trace
    · left
      have hsoft := checkInput_soft K x s
      unfold train at h
      rw [if_neg (by simp [h1])] at h
      simp only [M.bind_def, M.get_def] at h
      rw [if_neg (by simp [h2]), M.bind_def] at h
      generalize checkInput K x s = ci at h hsoft
      obtain ⟨r1, s1⟩ := ci
      cases r1 with
      | error e => cases h; exact hsoft.trace
      | ok u =>
        simp only [M.get_def, M.lift_def, M.bind_def, M.modify_def] at h
        simp only at hsoft
        cases hca : K.checkTrainArgs s1.st x args with
        | error e => rw [hca] at h; cases h; exact hsoft.trace
        | ok u =>
          rw [hca] at h
          simp only at h
          rw [if_neg (by rw [hsoft.phase]; exact h3)] at h
          cases h
          exact hsoft.trace
    · right
      rw [h] at hs' hr
      simp only at hs' hr
      have hs2 := runHook_soft K (K.trainHook s.phase.toNat s1.st (refcast s1.dtype x) args)
        { s1 with started := true }
      rw [hr] at hs2
      refine ⟨refcast s1.dtype x, rfl, ?_⟩
      have hs3 : s2.trace = s.trace := hs2.trace.trans hs1.trace
      rw [hs']
      simp only [hs3]
      rfl
  · intro h
    rcases stop_cases K s with ⟨e, h'⟩ | ⟨_, _, _, _, s2, hs, ⟨e, _, h'⟩ | ⟨_, h'⟩⟩
    · rw [h] at h'; cases h'; exact .inl rfl
    · rw [h] at h'; cases h'; right; simp [hs.trace]
    · rw [h] at h'; cases h'

example : Reachable demo demo2 ∧ demo2.trace =
    [.train 0 demoX [] true, .stop 0 true, .train 1 demoX [] true, .stop 1 true, .exec demoX] :=
  ⟨demo2_reachable, rfl⟩

/-! ## C03 -/

/-- C03: if `execute(x)` returns, training is over afterwards. -/
theorem execute_ok_trained (K : Kind σ α β) (hK : Sane K) (s s' : St σ α β) (h : Reachable K s)
    (x y : Arr α) (he : execute K x s = (.ok y, s')) : s'.training = false ∧ remaining K s' = 0 := by
  have hi := reachable_inv hK h
  have hi' : Inv K s' := by have := execute_inv K hK x s hi; rw [he] at this; exact this
  unfold execute at he
  obtain ⟨_, s1, h1, he⟩ := M.bind_eq_ok he
  obtain ⟨ht, _⟩ := preExec_ok K hK x s s1 hi h1
  have : s'.training = false := by
    simp only [M.bind_def, M.get_def, logged] at he
    have hs := runHook_soft K (K.execHook s1.st (refcast s1.dtype x)) s1
    have he2 := (Prod.ext_iff.1 he).2
    simp only at he2
    rw [← he2]
    exact hs.training.trans ht
  refine ⟨this, ?_⟩
  unfold remaining
  split
  · next hk =>
    have h1 := hi'.tr hk
    have : ¬ s'.phase < K.nPhases := fun hh => by
      have := h1.2.2.1.2 hh
      simp_all
    omega
  · rfl

/-- C03: executing a trained node whose dimensions and dtype are set, with an execute hook that does not
itself change the node, changes nothing. -/
theorem execute_trained_unchanged (K : Kind σ α β) (hK : Sane K) (s : St σ α β) (h : Reachable K s)
    (htr : s.training = false) (hin : s.inputDim ≠ none) (hout : s.outputDim ≠ none)
    (hdt : s.dtype ≠ none)
    (hpure : ∀ x, (K.execHook s.st x).st = s.st ∧ (K.execHook s.st x).sets = []) (x : Arr α) :
    visible (execute K x s).2 = visible s ∧
    (s.inputDim = some x.cols → x.ndim = 2 → 0 < x.nrows →
      (execute K x s).1 = (K.execHook s.st (refcast s.dtype x)).res) := by
  have hi := reachable_inv hK h
  have hph : ¬ (s.phase = 0 ∧ s.started = false) := by
    rintro ⟨h0, -⟩
    by_cases hk : K.trainable = true
    · have := hi.tr hk
      have hp := hK hk
      have := this.2.2.1.2 (by omega)
      rw [htr] at this; cases this
    · have := (hi.ntr (by simpa using hk)).1
      omega
  have hci : (checkInput K x s).2 = s ∧
      (s.inputDim = some x.cols → x.ndim = 2 → 0 < x.nrows → checkInput K x s = (.ok (), s)) := by
    unfold checkInput
    split
    · next hnd => exact ⟨rfl, fun _ h => absurd h hnd⟩
    · simp only [M.bind_def, M.get_def]
      rw [when_false hin]
      simp only [M.ret_def]
      rw [when_false hdt]
      simp only [M.ret_def]
      split
      · next hc => exact ⟨rfl, fun h => absurd h hc⟩
      · split
        · next hr => exact ⟨rfl, fun _ _ h => absurd hr (by omega)⟩
        · exact ⟨rfl, fun _ _ _ => rfl⟩
  have hpe : preExecutionChecks K x s = ((checkInput K x s).1, s) := by
    unfold preExecutionChecks
    simp only [M.bind_def, M.get_def]
    have h1 : (M.when (s.phase = 0 ∧ s.started = false) (trainLoop K x) : NodeM σ α β Unit) s = (.ok (), s) := by
      simp [M.when, hph]
    rw [h1]
    simp only [ifTrainingStopTraining, M.bind_def, M.get_def, htr]
    rw [if_neg (by simp)]
    simp only [M.pure_def]
    generalize checkInput K x s = ci at hci ⊢
    obtain ⟨r, s1⟩ := ci
    have h2 := hci.1
    simp only at h2
    subst h2
    cases r with
    | error e => rfl
    | ok u => simp only; rw [when_false hout]; rfl
  have hex : execute K x s = match (checkInput K x s).1 with
      | .error e => (.error e, s)
      | .ok _ => ((K.execHook s.st (refcast s.dtype x)).res,
          { s with trace := s.trace ++ [.exec (refcast s.dtype x)] }) := by
    unfold execute
    simp only [M.bind_def, hpe, M.get_def]
    cases hr : (checkInput K x s).1 with
    | error e => rfl
    | ok u =>
      obtain ⟨hp1, hp2⟩ := hpure (refcast s.dtype x)
      simp only [logged, runHook, M.bind_def, M.modify_def, hp1, hp2, runSets, M.pure_def, M.lift_def]
  constructor
  · rw [hex]
    split <;> rfl
  · intro h1 h2 h3
    rw [hex, hci.2 h1 h2 h3]

/-- C03: consequently repeating the call gives the same answer. -/
theorem execute_repeat (K : Kind σ α β) (hK : Sane K) (s : St σ α β) (h : Reachable K s)
    (htr : s.training = false) (hin : s.inputDim ≠ none) (hout : s.outputDim ≠ none)
    (hdt : s.dtype ≠ none)
    (hpure : ∀ x, (K.execHook s.st x).st = s.st ∧ (K.execHook s.st x).sets = []) (x z : Arr α)
    (hx : s.inputDim = some x.cols ∧ x.ndim = 2 ∧ 0 < x.nrows) :
    (execute K x (execute K z s).2).1 = (execute K x s).1 := by
  have h1 := execute_trained_unchanged K hK s h htr hin hout hdt hpure z
  have hv := h1.1
  have hr : Reachable K (execute K z s).2 := reachable_call K s (.execute z) h
  simp only [visible, Prod.mk.injEq] at hv
  obtain ⟨v1, v2, v3, v4, v5, v6, v7⟩ := hv
  have h2 := execute_trained_unchanged K hK (execute K z s).2 hr (v4.trans htr) (v1 ▸ hin) (v2 ▸ hout)
    (v3 ▸ hdt) (by rw [v7]; exact hpure) x
  rw [h2.2 (v1.trans hx.1) hx.2.1 hx.2.2,
    (execute_trained_unchanged K hK s h htr hin hout hdt hpure x).2 hx.1 hx.2.1 hx.2.2, v7, v3]

/-- C03: executing a trainable node that was never trained first trains and closes every phase on `x`. -/
theorem execute_untrained_trains_all (K : Kind σ α β) (hK : Sane K) (s s' : St σ α β)
    (h : Reachable K s) (hp : s.phase = 0) (hst : s.started = false)
    (x y : Arr α) (he : execute K x s = (.ok y, s')) :
    s'.trace = s.trace ++ (List.range K.nPhases).flatMap
        (fun p => [.train p (refcast s'.dtype x) [] true, .stop p true])
      ++ [.exec (refcast s'.dtype x)] := by
  have hi := reachable_inv hK h
  unfold execute at he
  obtain ⟨_, s1, h1, he⟩ := M.bind_eq_ok he
  have htrace := preExec_untrained K x s s1 hi hp hst h1
  obtain ⟨_, hwf, _⟩ := preExec_ok K hK x s s1 hi h1
  simp only [M.bind_def, M.get_def, logged] at he
  have hs := runHook_soft K (K.execHook s1.st (refcast s1.dtype x)) s1
  have he2 := (Prod.ext_iff.1 he).2
  simp only at he2
  have hdt : s'.dtype = s1.dtype := by
    rw [← he2]
    rcases hs.dt with hh | hh
    · exact absurd hh hwf.2.2.2
    · exact hh
  rw [hdt, ← he2]
  simp only [hs.trace, htrace]
  rfl

/-- C03: on a node whose training has begun, `execute` never trains: the only hooks it can run are the stop
hook of the current phase and the execute hook. -/
theorem execute_started_never_trains (K : Kind σ α β) (s : St σ α β) (x : Arr α)
    (hst : s.phase ≠ 0 ∨ s.started = true) :
    ∃ l, (execute K x s).2.trace = s.trace ++ l ∧
      ∀ ev ∈ l, (∃ ok, ev = .stop s.phase.toNat ok) ∨ ∃ x', x'.data = x.data ∧ ev = .exec x' := by
  have hw : (M.when (s.phase = 0 ∧ s.started = false) (trainLoop K x) : NodeM σ α β Unit) s = (.ok (), s) := by
    have : ¬ (s.phase = 0 ∧ s.started = false) := by
      rintro ⟨h1, h2⟩
      rcases hst with h | h
      · exact h h1
      · rw [h2] at h; cases h
    simp [M.when, this]
  have hstop : ∃ l, (ifTrainingStopTraining K s).2.trace = s.trace ++ l ∧
      ∀ ev ∈ l, ∃ ok, ev = .stop s.phase.toNat ok := by
    have h0 : (ifTrainingStopTraining K s).2 = s ∨ (ifTrainingStopTraining K s).2 = (stopTraining K s).2 := by
      unfold ifTrainingStopTraining
      simp only [M.bind_def, M.get_def]
      split
      · right
        simp only [M.bind_def]
        split
        · next u s1 heq =>
          simp only [M.get_def]
          split <;> simp [heq]
        · next e s1 heq => simp [heq]
      · left; rfl
    rcases h0 with h0 | h0
    · exact ⟨[], by simp [h0], by simp⟩
    · rw [h0]
      rcases stop_cases K s with ⟨e, h'⟩ | ⟨_, _, _, _, s2, hs, ⟨e, _, h'⟩ | ⟨_, h'⟩⟩
      · rw [h']; exact ⟨[], by simp, by simp⟩
      · rw [h']; exact ⟨[.stop s.phase.toNat false], by simp [hs.trace], by simp⟩
      · rw [h']; exact ⟨[.stop s.phase.toNat true], by simp [hs.trace], by simp⟩
  have hrest : M.Moves (Soft K) (do
      checkInput K x
      let s ← M.get
      M.when (s.outputDim = none) (setOutputDim K s.inputDim) : NodeM σ α β Unit) :=
    .bind (soft_pre K) (checkInput_soft K x) fun _ => .bind (soft_pre K) (.get (soft_pre K)) fun s1 =>
      .when (soft_pre K) (setOutputDim_soft K _)
  obtain ⟨l, hl, hev⟩ := hstop
  unfold execute preExecutionChecks
  rw [M.bind_def]
  simp only [M.bind_def, M.get_def, hw] at hrest ⊢
  generalize hI : ifTrainingStopTraining K s = I at hl ⊢
  obtain ⟨r, s1⟩ := I
  cases r with
  | error e => exact ⟨l, hl, fun ev h => .inl (hev ev h)⟩
  | ok u =>
    have h1 := hrest s1
    simp only at hl ⊢
    simp only [M.bind_def, M.get_def] at h1
    generalize checkInput K x s1 = C at h1 ⊢
    obtain ⟨r, s2⟩ := C
    cases r with
    | error e => exact ⟨l, h1.trace.trans hl, fun ev h => .inl (hev ev h)⟩
    | ok u =>
      simp only at h1 ⊢
      generalize M.when (s2.outputDim = none) (setOutputDim K s2.inputDim) s2 = W at h1 ⊢
      obtain ⟨r, s3⟩ := W
      cases r with
      | error e => exact ⟨l, h1.trace.trans hl, fun ev h => .inl (hev ev h)⟩
      | ok u =>
        simp only [logged]
        refine ⟨l ++ [.exec (refcast s3.dtype x)], ?_, ?_⟩
        · rw [(runHook_soft K _ s3).trace, h1.trace, hl]; simp
        · intro ev h
          rcases List.mem_append.1 h with h | h
          · exact .inl (hev ev h)
          · rw [List.mem_singleton] at h
            exact .inr ⟨refcast s3.dtype x, rfl, h⟩

example : demo1.phase ≠ 0 := by decide

example : Reachable demo demo2 ∧ demo2.training = false ∧ demo2.inputDim = some 2 ∧
    demo2.outputDim = some 2 ∧ demo2.dtype = some 1 ∧
    (∀ x, (demo.execHook demo2.st x).st = demo2.st ∧ (demo.execHook demo2.st x).sets = []) :=
  ⟨demo2_reachable, by decide, by decide, by decide, by decide, fun _ => ⟨rfl, rfl⟩⟩

example : Reachable demo demo0 ∧ demo0.phase = 0 ∧ demo0.started = false ∧
    ∃ s', execute demo demoX demo0 = (.ok demoX, s') :=
  ⟨demo0_reachable, rfl, rfl, by
    have hl : trainLoop demo demoX demo0 =
        (.ok (), runCalls demo demo0 [.train demoX [], .stop, .train demoX []]) :=
      (trainLoop_step demo demoX demo0 (runCalls demo demo0 [.train demoX []]) demo1 rfl (by decide) rfl).trans
        (trainLoop_last demo demoX demo1 _ rfl (by decide))
    have h : (execute demo demoX demo0).1 = .ok demoX := by
      unfold execute preExecutionChecks
      have h1 : (M.when (demo0.phase = 0 ∧ demo0.started = false) (trainLoop demo demoX) :
          NodeM Nat Nat Unit Unit) demo0 = trainLoop demo demoX demo0 := by
        simp [M.when, demo0, init, demo, setInputDim, setOutputDim, setDtype, M.bind_def]
      simp only [M.bind_def, M.get_def, h1, hl]
      rfl
    exact ⟨_, Prod.ext h rfl⟩⟩

/-! ## C04 -/

/-- C04: no history of calls, successful or failing, changes a dimension or dtype that is set. -/
theorem dims_write_once (K : Kind σ α β) (s : St σ α β) (cs : List (Call α β)) :
    (∀ n, s.inputDim = some n → (runCalls K s cs).inputDim = some n) ∧
    (∀ n, s.outputDim = some n → (runCalls K s cs).outputDim = some n) ∧
    (∀ t, s.dtype = some t → (runCalls K s cs).dtype = some t) := by
  have h := runCalls_fwd K cs s
  refine ⟨fun n hn => ?_, fun n hn => ?_, fun n hn => ?_⟩
  · rcases h.inp with h | h
    · rw [hn] at h; cases h
    · rw [h, hn]
  · rcases h.out with h | h
    · rw [hn] at h; cases h
    · rw [h, hn]
  · rcases h.dt with h | h
    · rw [hn] at h; cases h
    · rw [h, hn]

/-- C04: setting a different value raises and leaves the node as it was. -/
theorem set_other_value_raises (K : Kind σ α β) (s : St σ α β) (n m : Nat) (hne : n ≠ m) :
    (s.inputDim = some n → setInputDim K (some m) s = (.error .dim, s)) ∧
    (s.outputDim = some n → setOutputDim K (some m) s = (.error .dim, s)) ∧
    (s.dtype = some n → setDtype K (some m) s = (.error .node, s)) := by
  refine ⟨fun h => ?_, fun h => ?_, fun h => ?_⟩
  · simp [setInputDim, h, hne]
  · simp [setOutputDim, h, hne]
  · simp [setDtype, h, hne]

/-- C04: an unset dimension or dtype can be set (so the previous theorem is not about a dead setter). -/
theorem set_unset_value (K : Kind σ α β) (s : St σ α β) (m : Nat) (hp : K.preserveDim = false) :
    (s.inputDim = none → setInputDim K (some m) s = (.ok (), { s with inputDim := some m })) ∧
    (s.outputDim = none → setOutputDim K (some m) s = (.ok (), { s with outputDim := some m })) ∧
    (s.dtype = none → K.supported m = true → setDtype K (some m) s = (.ok (), { s with dtype := some m })) := by
  refine ⟨fun h => ?_, fun h => ?_, fun h hs => ?_⟩
  · simp [setInputDim, setInputDimRaw, h, hp]
  · simp [setOutputDim, setOutputDimRaw, h, hp]
  · simp [setDtype, h, hs]

example : demo1.inputDim = some 2 ∧ demo1.dtype = some 1 ∧ demo1.outputDim = none := by decide

/-! ## C05 -/

/-- C05: every array a training hook ever received is two-dimensional, has a row, has `input_dim`
columns and the node's dtype. -/
theorem train_hook_data (K : Kind σ α β) (hK : Sane K) (s : St σ α β) (h : Reachable K s)
    (p : Nat) (x : Arr α) (args : List β) (ok : Bool) (he : .train p x args ok ∈ s.trace) :
    x.ndim = 2 ∧ 0 < x.nrows ∧ s.inputDim = some x.cols ∧ s.dtype = some x.dtype :=
  (reachable_inv hK h).data _ he

/-- C05: the same for every array an execute hook ever received. -/
theorem exec_hook_data (K : Kind σ α β) (hK : Sane K) (s : St σ α β) (h : Reachable K s)
    (x : Arr α) (he : .exec x ∈ s.trace) :
    x.ndim = 2 ∧ 0 < x.nrows ∧ s.inputDim = some x.cols ∧ s.dtype = some x.dtype :=
  (reachable_inv hK h).data _ he

example : Reachable demo demo2 ∧ Event.exec demoX ∈ demo2.trace ∧
    Event.train 1 demoX [] true ∈ demo2.trace := by
  refine ⟨demo2_reachable, ?_⟩
  have : demo2.trace =
    [.train 0 demoX [] true, .stop 0 true, .train 1 demoX [] true, .stop 1 true, .exec demoX] := rfl
  rw [this]
  simp

/-! ## C06 -/

/-- C06 is false: a training array without rows is rejected, but `_check_input` has already set the
input dimension and dtype, so the node changed. -/
theorem rejected_train_changes_node :
    ∃ (K : Kind Nat Nat Unit) (s : St Nat Nat Unit) (x : Arr Nat), Reachable K s ∧ BadShape s x ∧
      (train K x [] s).1 = .error .node ∧ visible (train K x [] s).2 ≠ visible s :=
  ⟨demo, demo0, demoEmpty, demo0_reachable, .inr (.inr rfl), by rfl, by
    intro h
    have : (train demo demoEmpty [] demo0).2.inputDim = demo0.inputDim := congrArg Prod.fst h
    revert this
    decide⟩

/-- C06 is false: an `execute` rejected for its shape has already closed the last training phase. -/
theorem rejected_execute_closes_phase :
    ∃ (K : Kind Nat Nat Unit) (s : St Nat Nat Unit) (x : Arr Nat), Reachable K s ∧ BadShape s x ∧
      (execute K x s).1 = .error .node ∧ s.training = true ∧ (execute K x s).2.training = false :=
  ⟨demo, runCalls demo demo1 [.train demoX []], ⟨3, 2, 1, []⟩, reachable_call _ _ (.train demoX []) demo1_reachable,
    .inl (by decide), by rfl, by rfl, by rfl⟩

/-- C06, proved part: a `train` call rejected for its shape leaves the node exactly as it was if the
rank is wrong, or if the input dimension and dtype had already been set.
Missing (and false, see above): arrays without rows on a node whose dimension or dtype is unset. -/
theorem rejected_train_unchanged_partial (K : Kind σ α β) (s : St σ α β) (x : Arr α) (args : List β)
    (hx : x.ndim ≠ 2 ∨ (BadShape s x ∧ s.inputDim ≠ none ∧ s.dtype ≠ none)) :
    (∃ e, train K x args s = (.error e, s)) := by
  unfold train
  split
  · exact ⟨_, rfl⟩
  · simp only [M.bind_def, M.get_def]
    split
    · exact ⟨_, rfl⟩
    · have : checkInput K x s = (.error .node, s) := by
        unfold checkInput
        by_cases hnd : x.ndim = 2
        · rcases hx with hx | ⟨hx, hin, hdt⟩
          · exact absurd hnd hx
          · rw [if_neg (by simp [hnd])]
            simp only [M.bind_def, M.get_def]
            rw [when_false hin]
            simp only [M.ret_def]
            rw [when_false hdt]
            simp only [M.ret_def]
            split
            · rfl
            · next hc =>
              rw [if_pos]
              · rfl
              · rcases hx with hx | hx | hx
                · exact absurd hnd hx
                · exact absurd hx.2 hc
                · exact hx
        · rw [if_pos hnd]; rfl
      rw [M.bind_def, this]
      exact ⟨_, rfl⟩

/-- C06, proved part: an `execute` call rejected for its shape leaves a node unchanged if its training is
finished (or it has none) and the input dimension and dtype are set.
Missing (and false, see above): nodes still in training, and unset dimensions. -/
theorem rejected_execute_unchanged_partial (K : Kind σ α β) (hK : Sane K) (s : St σ α β)
    (h : Reachable K s) (htr : s.training = false) (hin : s.inputDim ≠ none) (hdt : s.dtype ≠ none)
    (x : Arr α) (hx : BadShape s x) : execute K x s = (.error .node, s) := by
  have hi := reachable_inv hK h
  have hph : ¬ (s.phase = 0 ∧ s.started = false) := by
    rintro ⟨h0, -⟩
    by_cases hk : K.trainable = true
    · have := hi.tr hk
      have hp := hK hk
      have := this.2.2.1.2 (by omega)
      rw [htr] at this; cases this
    · have := (hi.ntr (by simpa using hk)).1
      omega
  have hci : checkInput K x s = (.error .node, s) := by
    unfold checkInput
    by_cases hnd : x.ndim = 2
    · rw [if_neg (by simp [hnd])]
      simp only [M.bind_def, M.get_def]
      rw [when_false hin]
      simp only [M.ret_def]
      rw [when_false hdt]
      simp only [M.ret_def]
      split
      · rfl
      · next hc =>
        rw [if_pos]
        · rfl
        · rcases hx with hx | hx | hx
          · exact absurd hnd hx
          · exact absurd hx.2 hc
          · exact hx
    · rw [if_pos hnd]; rfl
  have h1 : (M.when (s.phase = 0 ∧ s.started = false) (trainLoop K x) : NodeM σ α β Unit) s = (.ok (), s) := by
    simp [M.when, hph]
  unfold execute preExecutionChecks
  simp only [M.bind_def, M.get_def, h1, ifTrainingStopTraining, htr]
  rw [if_neg (by simp)]
  simp only [M.pure_def, hci]

example : Reachable demo demo2 ∧ demo2.training = false ∧ demo2.inputDim ≠ none ∧ demo2.dtype ≠ none ∧
    BadShape demo2 demoEmpty := ⟨demo2_reachable, by decide, by decide, by decide, .inr (.inr rfl)⟩

/-! ## C07 -/

/-- C07: a `PreserveDimNode` has equal dimensions in every reachable state. -/
theorem preserve_dim (K : Kind σ α β) (hK : Sane K) (hp : K.preserveDim = true) (s : St σ α β)
    (h : Reachable K s) : s.inputDim = s.outputDim :=
  (reachable_inv hK h).pd hp

/-- C07: and this is not because it is always unset: setting either dimension sets both. -/
theorem preserve_dim_set (K : Kind σ α β) (hp : K.preserveDim = true) (s : St σ α β) (n : Nat)
    (h1 : s.inputDim = none) (h2 : s.outputDim = none) :
    setInputDim K (some n) s = (.ok (), { s with inputDim := some n, outputDim := some n }) ∧
    setOutputDim K (some n) s = (.ok (), { s with inputDim := some n, outputDim := some n }) := by
  simp [setInputDim, setOutputDim, setInputDimRaw, setOutputDimRaw, hp, h1, h2]

example : Reachable { demo with preserveDim := true }
    (runCalls { demo with preserveDim := true } demo0 [.train demoX []]) ∧
    (runCalls { demo with preserveDim := true } demo0 [.train demoX []]).outputDim = some 2 :=
  ⟨⟨none, none, none, 0, _, rfl, rfl⟩, by decide⟩

/-! ## C08 -/

/-- C08: training a fresh (variadic) cumulator with `F` fields on any non-empty list of well-formed
chunks, each with at least `F - 1` extra arrays of fitting shapes, and stopping succeeds; afterwards
field `j` holds the row concatenation of the `j`-th arguments of all calls in order and `tlen` the total
number of rows. -/
theorem cumulator_collects (F d : Nat) (chunks : List (Arr α × List (Arr α))) (hne : chunks ≠ [])
    (hx : ∀ c ∈ chunks, c.1.ndim = 2 ∧ 0 < c.1.nrows ∧ c.1.cols = d)
    (hargs : ∀ c ∈ chunks, F ≤ c.2.length + 1)
    (hsame : ∀ c ∈ chunks, ∀ c' ∈ chunks, ∀ j < F - 1, ∀ a ∈ c.2[j]?, ∀ b ∈ c'.2[j]?,
      b.ndim = a.ndim ∧ b.cols = a.cols) :
    ∃ (s1 s2 : St (CumSt α) α (Arr α)) (R : List (Arr α)),
      trainAll cumKind chunks (init cumKind none none none (cumInit F)).2 = (.ok (), s1) ∧
      stopTraining cumKind s1 = (.ok (), s2) ∧ s2.training = false ∧
      s2.st.tlen = (chunks.map (fun c => c.1.nrows)).sum ∧
      s2.st.cells = R.map Cell.arr ∧
      R.map (·.data) = (List.range F).map
        (fun j => chunks.flatMap (fun c => ((c.1 :: c.2)[j]?.map (·.data)).getD [])) := by
  obtain ⟨c, r, rfl⟩ := List.exists_cons_of_ne_nil hne
  obtain ⟨s0, h1, h2, h3, h4, h5, h6, h7, h8⟩ := cum_train_step c.1 c.2
    (init cumKind none none none (cumInit F)).2 F d c.1.dtype [] rfl rfl (.inl rfl) (.inl ⟨rfl, rfl⟩)
    (hx c (by simp)) (by
      change (cumInit F).cells = _
      rw [cumInit, cellsOf]
      apply List.ext_getElem <;> simp [column])
  obtain ⟨s1, g1, g2, g3, g4, g5, g6⟩ := cum_trainAll r s0 F d c.1.dtype _ h2 h3 h5 h6 h4
    (fun c hc => hx c (by simp [hc])) h7
  have hL : [] ++ [refcast (some c.1.dtype) c.1 :: c.2] ++ r.map (fun e => refcast (some c.1.dtype) e.1 :: e.2)
      = (c :: r).map (fun e => refcast (some c.1.dtype) e.1 :: e.2) := by simp
  rw [hL] at g5
  obtain ⟨s2, R, k1, k2, k3, k4, k5⟩ := cum_stop s1 F _ g2 g3 g4 g5 (by simp)
    (by
      intro l hl
      obtain ⟨e, he, rfl⟩ := List.mem_map.1 hl
      simpa using hargs e he)
    (by
      intro l hl l' hl' j hj a ha b hb
      obtain ⟨e, he, rfl⟩ := List.mem_map.1 hl
      obtain ⟨e', he', rfl⟩ := List.mem_map.1 hl'
      cases j with
      | zero =>
        simp only [List.getElem?_cons_zero, Option.mem_def, Option.some.injEq] at ha hb
        subst ha hb
        have q1 := hx e he
        have q2 := hx e' he'
        simp [refcast, q1, q2]
      | succ j =>
        simp only [List.getElem?_cons_succ] at ha hb
        exact hsame e he e' he' j (by omega) a ha b hb)
  refine ⟨s1, s2, R, ?_, k1, k2, ?_, k4, ?_⟩
  · unfold trainAll
    rw [M.bind_def, h1]
    exact g1
  · rw [k3, g6, h8]
    change 0 + _ + _ = _
    simp
  · rw [k5]
    apply List.map_congr_left
    intro j _
    unfold column
    generalize c :: r = L
    generalize c.1.dtype = t
    induction L with
    | nil => rfl
    | cons e L ih =>
      rw [List.map_cons, List.filterMap_cons, List.flatMap_cons, ← ih]
      cases j with
      | zero => simp [refcast]
      | succ j => cases hj : e.2[j]? <;> simp [hj]

example : ∃ (chunks : List (Arr Nat × List (Arr Nat))), chunks.length = 2 ∧
    (∀ c ∈ chunks, c.1.ndim = 2 ∧ 0 < c.1.nrows ∧ c.1.cols = 2) ∧
    (∀ c ∈ chunks, 2 ≤ c.2.length + 1) ∧
    (∀ c ∈ chunks, ∀ c' ∈ chunks, ∀ j < 2 - 1, ∀ a ∈ c.2[j]?, ∀ b ∈ c'.2[j]?,
      b.ndim = a.ndim ∧ b.cols = a.cols) :=
  ⟨[(demoX, [⟨1, 0, 1, [[7], [8]]⟩]), (demoX, [⟨1, 0, 1, [[9], [9]]⟩])], by
    simp [demoX, Arr.nrows]⟩

/-- C08: an untrained or field-starved cumulator cannot be stopped: a field that received nothing makes
`stop_training` raise. -/
theorem cumulator_missing_argument (s : St (CumSt α) α (Arr α)) (cs : List (Cell α))
    (htr : s.training = true) (hst : s.started = true) (hph : s.phase = 0)
    (hc : s.st.cells = .lst [] :: cs) : (stopTraining cumKind s).1 = .error .value := by
  unfold stopTraining
  simp only [M.bind_def, M.get_def]
  rw [if_neg (by simp [hst]), if_neg (by simp [htr]), if_pos (by simp [hph, cumKind])]
  simp [M.bind_def, logged, runHook, cumKind, hc, concatFields, concatCell, concatenate, M.modify_def,
    runSets]

example : ∃ s : St (CumSt Nat) Nat (Arr Nat), s.training = true ∧ s.started = true ∧ s.phase = 0 ∧
    s.st.cells = [.lst []] := ⟨⟨none, none, none, true, 0, true, cumInit 1, []⟩, rfl, rfl, rfl, rfl⟩

/-! ## C09 -/

/-- C09: every inverse hook ever run belongs to an invertible node, after all training phases were
closed, on a two-dimensional array with `output_dim` columns. -/
theorem inverse_hook_guard (K : Kind σ α β) (hK : Sane K) (s : St σ α β) (h : Reachable K s)
    (pre post : List (Event α β)) (y : Arr α) (he : s.trace = pre ++ .inv y :: post) :
    K.invertible = true ∧ (K.trainable = true → okStops pre = K.nPhases) ∧ y.ndim = 2 ∧
      s.outputDim = some y.cols := by
  have hi := reachable_inv hK h
  obtain ⟨h1, h2⟩ := hi.trace pre _ post he
  obtain ⟨h3, h4⟩ := hi.data (.inv y) (by rw [he]; simp)
  exact ⟨h1, h2, h3, h4⟩

/-- C09: if `inverse(y)` returns, the node is invertible and trained and `y` fits. -/
theorem inverse_ok (K : Kind σ α β) (hK : Sane K) (s s' : St σ α β) (h : Reachable K s) (y x : Arr α)
    (he : inverse K y s = (.ok x, s')) :
    K.invertible = true ∧ s'.training = false ∧ y.ndim = 2 ∧ s'.outputDim = some y.cols := by
  have hi := reachable_inv hK h
  unfold inverse at he
  obtain ⟨_, s1, h1, he⟩ := M.bind_eq_ok he
  obtain ⟨k1, k2, k3, k4, _⟩ := preInv_ok K y s s1 hi h1
  simp only [M.bind_def, M.get_def, logged] at he
  have hs := runHook_soft K (K.invHook s1.st (refcast s1.dtype y)) s1
  have he2 := (Prod.ext_iff.1 he).2
  simp only at he2
  rw [← he2]
  refine ⟨k1, hs.training.trans k2, k3, ?_⟩
  simp only
  rcases hs.out with hh | hh
  · rw [k4] at hh; cases hh
  · rw [hh]; exact k4

/-- C09: on a node that is not invertible `inverse` raises and nothing changes; on a trained node with
another width or rank it raises and nothing changes. -/
theorem inverse_refused (K : Kind σ α β) (s : St σ α β) (y : Arr α) :
    (K.invertible = false → inverse K y s = (.error .notInvertible, s)) ∧
    (K.invertible = true → s.training = false → s.outputDim ≠ none →
      (y.ndim ≠ 2 ∨ s.outputDim ≠ some y.cols) → inverse K y s = (.error .node, s)) := by
  constructor
  · intro h
    unfold inverse preInversionChecks
    simp [h, M.bind_def]
  · intro h1 h2 h3 h4
    unfold inverse preInversionChecks
    rw [if_neg (by simp [h1])]
    simp only [M.bind_def, ifTrainingStopTraining, M.get_def, h2]
    rw [if_neg (by simp)]
    simp only [M.pure_def]
    rw [when_false h3]
    simp only [M.ret_def]
    have : checkOutput y s = (.error .node, s) := by
      unfold checkOutput
      split
      · rfl
      · next hnd =>
        simp only [M.bind_def, M.get_def]
        rw [if_pos]
        · rfl
        · rcases h4 with h4 | h4
          · exact absurd h4 hnd
          · exact h4
    rw [this]

example : Reachable demo demo2 ∧ demo.invertible = true ∧ (inverse demo demoX demo2).1 = .ok demoX :=
  ⟨demo2_reachable, rfl, by rfl⟩

end Mdp.Node
