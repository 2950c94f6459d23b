import Verif.Node.HookInv

/-! # The private data of a node is determined by the history of its hooks

The base class never touches the private data of a subclass: after any history of public calls, successful or
not, the private data is what one gets by replaying the hook calls on the data the node was created with. -/

namespace Mdp.Node

open Py

variable {σ α β : Type}

/-- Replay hook calls. -/
def replay (K : Kind σ α β) : σ → List (Event α β) → σ
  | st, [] => st
  | st, .train p x args _ :: r => replay K (K.trainHook p st x args).st r
  | st, .stop p _ :: r => replay K (K.stopHook p st).st r
  | st, .exec x :: r => replay K (K.execHook st x).st r
  | st, .inv y :: r => replay K (K.invHook st y).st r

theorem replay_append (K : Kind σ α β) (st : σ) (a b : List (Event α β)) :
    replay K st (a ++ b) = replay K (replay K st a) b := by
  induction a generalizing st with
  | nil => rfl
  | cons e r ih => cases e <;> simp [replay, ih]

/-- Is the event a call of the inverse hook? -/
def isInv : Event α β → Bool
  | .inv _ => true
  | _ => false

/-- From `s` to `t` the private data changed only by the hook calls that were logged; if `ni` is set, the
inverse hook was not called. -/
def Rep (K : Kind σ α β) (ni : Bool) (s t : St σ α β) : Prop :=
  ∃ evs, t.trace = s.trace ++ evs ∧ t.st = replay K s.st evs ∧ (ni = true → ∀ e ∈ evs, isInv e = false)

theorem rep_pre (K : Kind σ α β) (ni : Bool) : M.Pre (Rep K ni : St σ α β → St σ α β → Prop) :=
  ⟨fun _ => ⟨[], by simp, rfl, by simp⟩, by
    rintro a b c ⟨e1, h1, h2, h5⟩ ⟨e2, h3, h4, h6⟩
    refine ⟨e1 ++ e2, by rw [h3, h1, List.append_assoc], by rw [h4, h2, replay_append], fun hn e he => ?_⟩
    rcases List.mem_append.1 he with he | he
    · exact h5 hn e he
    · exact h6 hn e he⟩

variable (K : Kind σ α β) (ni : Bool)

theorem rep_of_soft {r : Type} {m : NodeM σ α β r} (h1 : M.Moves (Soft K) m) (h2 : M.Moves SameSt m) :
    M.Moves (Rep K ni) m := fun s => ⟨[], by rw [(h1 s).trace]; simp, h2 s, by simp⟩

theorem setInputDim_rep (n : Option Nat) : M.Moves (Rep K ni) (setInputDim K n) :=
  rep_of_soft K ni (setInputDim_soft K n) (setInputDim_st K n)

theorem setOutputDim_rep (n : Option Nat) : M.Moves (Rep K ni) (setOutputDim K n) :=
  rep_of_soft K ni (setOutputDim_soft K n) (setOutputDim_st K n)

theorem setDtype_rep (n : Option Nat) : M.Moves (Rep K ni) (setDtype K n) :=
  rep_of_soft K ni (setDtype_soft K n) (setDtype_st K n)

theorem checkInput_rep (x : Arr α) : M.Moves (Rep K ni) (checkInput K x) :=
  rep_of_soft K ni (checkInput_soft K x) (checkInput_st K x)

theorem runHook_trace {r : Type} (h : Hooked σ r) (s : St σ α β) : (runHook K h s).2.trace = s.trace := by
  have p := soft_pre K
  have h1 : M.Moves (Soft K) (runHook K h) := by
    unfold runHook
    refine .bind p (.modify fun s => ⟨.inr rfl, .inr rfl, .inr rfl, rfl, rfl, rfl, rfl, fun _ h => h⟩) fun _ => ?_
    exact .bind p (runSets_soft K _) fun _ => .lift p _
  exact (h1 s).trace

theorem logged_rep {r : Type} (ev : Bool → Event α β) (h : Hooked σ r) (s : St σ α β)
    (hev : ∀ b, replay K s.st [ev b] = h.st) (hni : ni = true → ∀ b, isInv (ev b) = false) : Rep K ni s (logged ev (runHook K h) s).2 := by
  refine ⟨[ev (isOk (runHook K h s).1)], ?_, ?_, fun hn e he => ?_⟩
  · have := runHook_trace K h s
    unfold logged
    generalize runHook K h s = R at this
    exact congrArg (· ++ _) this
  · show (runHook K h s).2.st = _
    rw [runHook_st, hev]
  · rw [List.mem_singleton.1 he]; exact hni hn _

theorem train_rep (x : Arr α) (args : List β) : M.Moves (Rep K ni) (train K x args) := by
  have p := rep_pre K ni
  unfold train
  refine .ite (.raise p _) (.bind p (.get p) fun s1 => .ite (.raise p _) (.bind p (checkInput_rep K ni x) fun _ => ?_))
  refine .bind p (.get p) fun s1 => .bind p (.lift p _) fun _ => .bind p (.modify fun s => ⟨[], by simp, rfl, by simp⟩) fun _ => ?_
  intro s
  simp only [M.bind_def, M.get_def]
  split
  · exact logged_rep K ni _ _ s (fun b => rfl) (fun _ _ => rfl)
  · exact p.refl s

theorem stop_rep : M.Moves (Rep K ni) (stopTraining K) := by
  have p := rep_pre K ni
  unfold stopTraining
  intro s
  simp only [M.bind_def, M.get_def]
  split
  · exact p.refl s
  · split
    · exact p.refl s
    · split
      · have h1 := logged_rep K ni (.stop s.phase.toNat) (K.stopHook s.phase.toNat s.st) s (fun b => rfl) (fun _ _ => rfl)
        simp only [M.bind_def]
        generalize logged (.stop s.phase.toNat) (runHook K (K.stopHook s.phase.toNat s.st)) s = r at h1
        obtain ⟨_ | _, s1⟩ := r
        · exact h1
        · simp only [M.modify_def]
          split <;> exact h1
      · exact p.refl s

theorem ifTraining_rep : M.Moves (Rep K ni) (ifTrainingStopTraining K) := by
  have p := rep_pre K ni
  unfold ifTrainingStopTraining
  exact .bind p (.get p) fun s1 => .ite (.bind p (stop_rep K ni) fun _ => .bind p (.get p) fun s1 => .ite (.raise p _) (.pure p _))
    (.pure p _)

theorem trainLoop_rep (x : Arr α) : M.Moves (Rep K ni) (trainLoop K x) := by
  have p := rep_pre K ni
  intro s
  induction hn : ((K.nPhases : Int) - s.phase).toNat using Nat.strongRecOn generalizing s with
  | ind n ih =>
    have h1 := train_rep K ni x [] s
    have h4 := train_phase K x [] s
    rw [trainLoop]
    split
    · next e s1 heq => rw [heq] at h1; exact h1
    · next s1 heq =>
      rw [heq] at h1 h4
      simp only at h1 h4
      split
      · next hr =>
        have h2 := stop_rep K ni s1
        split
        · next e s2 heq2 => rw [heq2] at h2; exact p.trans h1 h2
        · next s2 heq2 =>
          rw [heq2] at h2
          have h3 := stopTraining_ok_phase K s1 s2 heq2
          refine p.trans (p.trans h1 h2) (ih _ ?_ s2 rfl)
          unfold SamePhase at h4
          unfold remaining at hr
          split at hr <;> omega
      · exact h1

theorem preExec_rep (x : Arr α) : M.Moves (Rep K ni) (preExecutionChecks K x) := by
  have p := rep_pre K ni
  unfold preExecutionChecks
  refine .bind p (.get p) fun s1 => .bind p (.when p (trainLoop_rep K ni x)) fun _ => ?_
  refine .bind p (ifTraining_rep K ni) fun _ => .bind p (checkInput_rep K ni x) fun _ => ?_
  exact .bind p (.get p) fun s1 => .when p (setOutputDim_rep K ni _)

theorem checkOutput_rep (y : Arr α) : M.Moves (Rep K ni) (checkOutput y : NodeM σ α β Unit) := by
  have p := rep_pre K ni
  unfold checkOutput
  exact .ite (.raise p _) (.bind p (.get p) fun s1 => .ite (.raise p _) (.pure p _))

theorem execute_rep (x : Arr α) : M.Moves (Rep K ni) (execute K x) := by
  have p := rep_pre K ni
  unfold execute
  refine .bind p (preExec_rep K ni x) fun _ => ?_
  intro s
  simp only [M.bind_def, M.get_def]
  exact logged_rep K ni _ _ s (fun b => rfl) (fun _ _ => rfl)

theorem inverse_rep (y : Arr α) : M.Moves (Rep K false) (inverse K y) := by
  have p := rep_pre K false
  unfold inverse preInversionChecks
  refine .bind p (.ite (.raise p _) (.bind p (ifTraining_rep K false) fun _ => .bind p (.get p) fun s1 => ?_)) fun _ => ?_
  · exact .bind p (.when p (.ite (.raise p _) (setOutputDim_rep K false _))) fun _ => checkOutput_rep K false y
  · intro s
    simp only [M.bind_def, M.get_def]
    exact logged_rep K false _ _ s (fun b => rfl) (by simp)

theorem runCalls_rep (cs : List (Call α β)) (s : St σ α β) : Rep K false s (runCalls K s cs) := by
  have p := rep_pre K false
  unfold runCalls
  induction cs generalizing s with
  | nil => exact p.refl s
  | cons c r ih =>
    rw [List.foldl_cons]
    refine p.trans ?_ (ih _)
    cases c with
    | train x args => exact train_rep K false x args s
    | stop => exact stop_rep K false s
    | execute x => exact execute_rep K false x s
    | inverse y => exact inverse_rep K y s
    | setInputDim n => exact setInputDim_rep K false n s
    | setOutputDim n => exact setOutputDim_rep K false n s
    | setDtype t => exact setDtype_rep K false t s

/-- C69: whatever calls are made on a node, whether they return or raise, the private data of the node is
the result of replaying the hook calls that were made, in order, on the data it had when the calls began. -/
theorem private_data_replay (cs : List (Call α β)) (s : St σ α β) :
    ∃ evs, (runCalls K s cs).trace = s.trace ++ evs ∧ (runCalls K s cs).st = replay K s.st evs :=
  let ⟨evs, h1, h2, _⟩ := runCalls_rep K cs s
  ⟨evs, h1, h2⟩

/-- Two phases of `demo`, with a failing call in between: the counter is what the hooks made of it. -/
example : (runCalls demo demo0 [.train demoX [], .train demoEmpty [], .stop, .train demoX [], .execute demoX]).st = 4 ∧
    (runCalls demo demo0 [.train demoX [], .train demoEmpty [], .stop, .train demoX [], .execute demoX]).trace.length = 5 := by
  decide +kernel

end Mdp.Node
