import Verif.Node.Stable

/-! # Invariants of the private data of a node

The base class touches the private data only through the hooks, so a property of the private data that the
hooks preserve holds after every history of public calls. -/

namespace Mdp.Node

open Py

variable {σ α β : Type}

/-- The hooks preserve a property of the private data. -/
structure HookKeeps (K : Kind σ α β) (P : σ → Prop) : Prop where
  trainH : ∀ p st x a, P st → P (K.trainHook p st x a).st
  stopH : ∀ p st, P st → P (K.stopHook p st).st
  execH : ∀ st x, P st → P (K.execHook st x).st
  invH : ∀ st x, P st → P (K.invHook st x).st

/-- Private data unchanged. -/
def SameSt (s t : St σ α β) : Prop := t.st = s.st

theorem sameSt_pre : M.Pre (SameSt : St σ α β → St σ α β → Prop) := ⟨fun _ => rfl, fun h h' => Eq.trans h' h⟩

theorem setInputDim_st (K : Kind σ α β) (n : Option Nat) : M.Moves SameSt (setInputDim K n) := by
  intro s; unfold setInputDim setInputDimRaw; repeat' split
  all_goals rfl

theorem setOutputDim_st (K : Kind σ α β) (n : Option Nat) : M.Moves SameSt (setOutputDim K n) := by
  intro s; unfold setOutputDim setOutputDimRaw; repeat' split
  all_goals rfl

theorem setDtype_st (K : Kind σ α β) (n : Option Nat) : M.Moves SameSt (setDtype K n) := by
  intro s; unfold setDtype; repeat' split
  all_goals rfl

theorem checkInput_st (K : Kind σ α β) (x : Arr α) : M.Moves SameSt (checkInput K x) := by
  have p := sameSt_pre (σ := σ) (α := α) (β := β)
  unfold checkInput
  refine .ite (.raise p _) (.bind p (.get p) fun s1 => ?_)
  refine .bind p (.when p (setInputDim_st K _)) fun _ => ?_
  refine .bind p (.get p) fun s1 => ?_
  refine .bind p (.when p (setDtype_st K _)) fun _ => ?_
  refine .bind p (.get p) fun s1 => ?_
  exact .ite (.raise p _) (.ite (.raise p _) (.pure p _))

theorem runSets_st (K : Kind σ α β) (l : List SetReq) : M.Moves SameSt (runSets K l) := by
  have p := sameSt_pre (σ := σ) (α := α) (β := β)
  induction l with
  | nil => exact .pure p _
  | cons r l ih =>
    cases r with
    | inp n => exact .bind p (setInputDim_st K _) (fun _ => ih)
    | out n => exact .bind p (setOutputDim_st K _) (fun _ => ih)
    | dtype n => exact .bind p (setDtype_st K _) (fun _ => ih)

theorem runHook_st {r : Type} (K : Kind σ α β) (h : Hooked σ r) (s : St σ α β) : (runHook K h s).2.st = h.st := by
  unfold runHook
  rw [M.bind_def]
  simp only [M.modify_def]
  have := M.Moves.bind (sameSt_pre) (runSets_st K h.sets) (fun _ => M.Moves.lift (α := r) sameSt_pre h.res)
    { s with st := h.st }
  exact this

variable {K : Kind σ α β} {P : σ → Prop}

theorem st_keeps {r : Type} {m : NodeM σ α β r} (h : M.Moves SameSt m) : M.Keeps (fun s => P s.st) m :=
  fun s hs => by
    have := h s; unfold SameSt at this; show P _; rw [this]; exact hs

theorem HookKeeps.keeps_train (h : HookKeeps K P) (x : Arr α) (args : List β) :
    M.Keeps (fun s => P s.st) (train K x args) := by
  unfold train
  refine .ite (.raise _) (.bind .get fun s1 => .ite (.raise _) (.bind (st_keeps (checkInput_st K x)) fun _ => ?_))
  refine .bind .get fun s1 => .bind (.lift _) fun _ => .bind (fun s hs => hs) fun _ => ?_
  intro s hs
  simp only [M.bind_def, M.get_def]
  split
  · show P (runHook K _ s).2.st
    rw [runHook_st]; exact h.trainH _ _ _ _ hs
  · exact hs

theorem HookKeeps.keeps_stop (h : HookKeeps K P) : M.Keeps (fun s => P s.st) (stopTraining K) := by
  unfold stopTraining
  intro s hs
  simp only [M.bind_def, M.get_def]
  split
  · exact hs
  · split
    · exact hs
    · split
      · have h1 : P (logged (.stop s.phase.toNat) (runHook K (K.stopHook s.phase.toNat s.st)) s).2.st := by
          show P (runHook K _ s).2.st
          rw [runHook_st]; exact h.stopH _ _ hs
        simp only [M.bind_def]
        generalize logged (.stop s.phase.toNat) (runHook K (K.stopHook s.phase.toNat s.st)) s = r at h1
        obtain ⟨_ | _, s1⟩ := r
        · exact h1
        · simp only [M.modify_def]
          split <;> exact h1
      · exact hs

theorem HookKeeps.keeps_ifTraining (h : HookKeeps K P) :
    M.Keeps (fun s => P s.st) (ifTrainingStopTraining K) := by
  unfold ifTrainingStopTraining
  exact .bind .get fun s1 => .ite (.bind h.keeps_stop fun _ => .bind .get fun s1 => .ite (.raise _) (.pure _)) (.pure _)

theorem HookKeeps.keeps_trainLoop (h : HookKeeps K P) (x : Arr α) :
    M.Keeps (fun s => P s.st) (trainLoop K x) := by
  intro s
  induction hn : ((K.nPhases : Int) - s.phase).toNat using Nat.strongRecOn generalizing s with
  | ind n ih =>
    intro hi
    have h1 := h.keeps_train x [] s hi
    have h4 := train_phase K x [] s
    rw [trainLoop]
    split
    · next e s1 heq => rw [heq] at h1; exact h1
    · next s1 heq =>
      rw [heq] at h1 h4
      simp only at h1 h4
      split
      · next hr =>
        have h2 := h.keeps_stop s1 h1
        split
        · next e s2 heq2 => rw [heq2] at h2; exact h2
        · next s2 heq2 =>
          rw [heq2] at h2
          have h3 := stopTraining_ok_phase K s1 s2 heq2
          refine ih _ ?_ s2 rfl h2
          unfold SamePhase at h4
          unfold remaining at hr
          split at hr <;> omega
      · exact h1

theorem HookKeeps.keeps_preExec (h : HookKeeps K P) (x : Arr α) :
    M.Keeps (fun s => P s.st) (preExecutionChecks K x) := by
  unfold preExecutionChecks
  refine .bind .get fun s1 => .bind (.when (h.keeps_trainLoop x)) fun _ => ?_
  refine .bind h.keeps_ifTraining fun _ => .bind (st_keeps (checkInput_st K x)) fun _ => ?_
  exact .bind .get fun s1 => .when (st_keeps (setOutputDim_st K _))

theorem HookKeeps.keeps_execute (h : HookKeeps K P) (x : Arr α) :
    M.Keeps (fun s => P s.st) (execute K x) := by
  unfold execute
  refine .bind (h.keeps_preExec x) fun _ => ?_
  intro s hs
  simp only [M.bind_def, M.get_def]
  show P (runHook K _ s).2.st
  rw [runHook_st]; exact h.execH _ _ hs

theorem checkOutput_st (y : Arr α) : M.Moves (SameSt (σ := σ) (β := β)) (checkOutput y) := by
  intro s
  rw [SameSt, checkOutput_keep]

theorem HookKeeps.keeps_preInv (h : HookKeeps K P) (y : Arr α) :
    M.Keeps (fun s => P s.st) (preInversionChecks K y) := by
  unfold preInversionChecks
  refine .ite (.raise _) (.bind h.keeps_ifTraining fun _ => .bind .get fun s1 => .bind (.when ?_) fun _ => ?_)
  · exact .ite (.raise _) (st_keeps (setOutputDim_st K _))
  · exact st_keeps (checkOutput_st y)

theorem HookKeeps.keeps_inverse (h : HookKeeps K P) (y : Arr α) :
    M.Keeps (fun s => P s.st) (inverse K y) := by
  unfold inverse
  refine .bind (h.keeps_preInv y) fun _ => ?_
  intro s hs
  simp only [M.bind_def, M.get_def]
  show P (runHook K _ s).2.st
  rw [runHook_st]; exact h.invH _ _ hs

theorem HookKeeps.keeps_calls (h : HookKeeps K P) (cs : List (Call α β)) (s : St σ α β) (hs : P s.st) :
    P (runCalls K s cs).st := by
  unfold runCalls
  induction cs generalizing s with
  | nil => exact hs
  | cons c r ih =>
    rw [List.foldl_cons]
    refine ih _ ?_
    cases c with
    | train x a => exact h.keeps_train x a s hs
    | stop => exact h.keeps_stop s hs
    | execute x => exact h.keeps_execute x s hs
    | inverse x => exact h.keeps_inverse x s hs
    | setInputDim n => exact st_keeps (setInputDim_st K n) s hs
    | setOutputDim n => exact st_keeps (setOutputDim_st K n) s hs
    | setDtype n => exact st_keeps (setDtype_st K n) s hs

end Mdp.Node
