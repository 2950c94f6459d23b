import Verif.Node.Lemmas
import Mathlib.Data.List.Induction

namespace Mdp.Node

open Py

variable {σ α β : Type}

theorem reachable_inv {K : Kind σ α β} (hK : Sane K) {s : St σ α β} (h : Reachable K s) : Inv K s := by
  obtain ⟨i, o, t, st, cs, _, rfl⟩ := h
  exact runCalls_inv K hK cs _ (init_inv K hK i o t st)

/-! ### Two-state facts that hold for every call -/

/-- Dimensions and dtype are write-once, and the phase never goes down. -/
structure Fwd (s t : St σ α β) : Prop where
  inp : s.inputDim = none ∨ t.inputDim = s.inputDim
  out : s.outputDim = none ∨ t.outputDim = s.outputDim
  dt : s.dtype = none ∨ t.dtype = s.dtype
  phase : s.phase ≤ t.phase
  training : s.training = false → t.training = false

theorem fwd_pre : M.Pre (Fwd : St σ α β → St σ α β → Prop) := by
  refine ⟨fun s => ⟨.inr rfl, .inr rfl, .inr rfl, Int.le_refl _, id⟩, ?_⟩
  intro a b c h h'
  refine ⟨?_, ?_, ?_, Int.le_trans h.phase h'.phase, fun x => h'.training (h.training x)⟩
  · rcases h.inp with h1 | h1
    · exact .inl h1
    · rcases h'.inp with h2 | h2
      · exact .inl (h1 ▸ h2)
      · exact .inr (h2.trans h1)
  · rcases h.out with h1 | h1
    · exact .inl h1
    · rcases h'.out with h2 | h2
      · exact .inl (h1 ▸ h2)
      · exact .inr (h2.trans h1)
  · rcases h.dt with h1 | h1
    · exact .inl h1
    · rcases h'.dt with h2 | h2
      · exact .inl (h1 ▸ h2)
      · exact .inr (h2.trans h1)

theorem Soft.fwd {K : Kind σ α β} {s t : St σ α β} (h : Soft K s t) : Fwd s t :=
  ⟨h.inp, h.out, h.dt, by rw [h.phase]; exact Int.le_refl _, fun x => h.training.trans x⟩

theorem Fwd.trace {s t : St σ α β} (h : Fwd s t) (tr : List (Event α β)) : Fwd s { t with trace := tr } :=
  ⟨h.inp, h.out, h.dt, h.phase, h.training⟩

theorem soft_moves_fwd {K : Kind σ α β} {r : Type} {m : NodeM σ α β r} (h : M.Moves (Soft K) m) :
    M.Moves Fwd m := fun s => (h s).fwd

theorem logged_fwd {r : Type} (ev : Bool → Event α β) {m : NodeM σ α β r}
    (h : M.Moves Fwd m) : M.Moves Fwd (logged ev m) := fun s => (h s).trace _

theorem train_fwd (K : Kind σ α β) (x : Arr α) (args : List β) : M.Moves Fwd (train K x args) := by
  have p := fwd_pre (σ := σ) (α := α) (β := β)
  unfold train
  refine .ite (.raise p _) (.bind p (.get p) fun s1 => ?_)
  refine .ite (.raise p _) (.bind p (soft_moves_fwd (checkInput_soft K x)) fun _ => ?_)
  refine .bind p (.get p) fun s1 => ?_
  refine .bind p (.lift p _) fun _ => ?_
  refine .bind p (.modify fun s => ⟨.inr rfl, .inr rfl, .inr rfl, Int.le_refl _, id⟩) fun _ => ?_
  refine .bind p (.get p) fun s1 => ?_
  exact .ite (logged_fwd _ (soft_moves_fwd (runHook_soft K _))) (.raise p _)

theorem stop_fwd (K : Kind σ α β) : M.Moves Fwd (stopTraining K) := by
  intro s
  rcases stop_cases K s with ⟨e, h⟩ | ⟨htr, _, _, _, s2, hs, h⟩
  · rw [h]; exact fwd_pre.refl s
  · rcases h with ⟨e, _, h⟩ | ⟨_, h⟩
    · rw [h]; exact hs.fwd.trace _
    · rw [h]
      exact ⟨hs.inp, hs.out, hs.dt, by simp; omega, fun hx => by rw [hx] at htr; cases htr⟩

theorem ifTraining_fwd (K : Kind σ α β) : M.Moves Fwd (ifTrainingStopTraining K) := by
  have p := fwd_pre (σ := σ) (α := α) (β := β)
  unfold ifTrainingStopTraining
  refine .bind p (.get p) fun s1 => .ite (.bind p (stop_fwd K) fun _ => .bind p (.get p) fun s1 => ?_) (.pure p _)
  exact .ite (.raise p _) (.pure p _)

theorem trainLoop_fwd (K : Kind σ α β) (x : Arr α) : M.Moves Fwd (trainLoop K x) := by
  intro s
  induction hn : ((K.nPhases : Int) - s.phase).toNat using Nat.strongRecOn generalizing s with
  | ind n ih =>
    have h1 := train_fwd K x [] s
    have h4 := train_phase K x [] s
    rw [trainLoop]
    split
    · next e s1 heq => rw [heq] at h1; exact h1
    · next s1 heq =>
      rw [heq] at h1 h4
      simp only at h1 h4
      split
      · next hr =>
        have h2 := stop_fwd K s1
        split
        · next e s2 heq2 => rw [heq2] at h2; exact fwd_pre.trans h1 h2
        · next s2 heq2 =>
          rw [heq2] at h2
          have h3 := stopTraining_ok_phase K s1 s2 heq2
          refine fwd_pre.trans (fwd_pre.trans h1 h2) (ih _ ?_ s2 rfl)
          unfold SamePhase at h4
          unfold remaining at hr
          split at hr <;> omega
      · exact h1

theorem preExec_fwd (K : Kind σ α β) (x : Arr α) : M.Moves Fwd (preExecutionChecks K x) := by
  have p := fwd_pre (σ := σ) (α := α) (β := β)
  unfold preExecutionChecks
  refine .bind p (.get p) fun s1 => .bind p (.when p (trainLoop_fwd K x)) fun _ => ?_
  refine .bind p (ifTraining_fwd K) fun _ => .bind p (soft_moves_fwd (checkInput_soft K x)) fun _ => ?_
  exact .bind p (.get p) fun s1 => .when p (soft_moves_fwd (setOutputDim_soft K _))

theorem execute_fwd (K : Kind σ α β) (x : Arr α) : M.Moves Fwd (execute K x) := by
  have p := fwd_pre (σ := σ) (α := α) (β := β)
  unfold execute
  exact .bind p (preExec_fwd K x) fun _ => .bind p (.get p) fun s1 =>
    logged_fwd _ (soft_moves_fwd (runHook_soft K _))

theorem checkOutput_fwd (y : Arr α) : M.Moves (Fwd (σ := σ) (β := β)) (checkOutput y) := by
  intro s
  rw [checkOutput_keep]
  exact fwd_pre.refl s

theorem inverse_fwd (K : Kind σ α β) (y : Arr α) : M.Moves Fwd (inverse K y) := by
  have p := fwd_pre (σ := σ) (α := α) (β := β)
  unfold inverse preInversionChecks
  refine .bind p (.ite (.raise p _) (.bind p (ifTraining_fwd K) fun _ => .bind p (.get p) fun s1 => ?_))
    fun _ => .bind p (.get p) fun s1 => logged_fwd _ (soft_moves_fwd (runHook_soft K _))
  exact .bind p (.when p (.ite (.raise p _) (soft_moves_fwd (setOutputDim_soft K _)))) fun _ =>
    checkOutput_fwd y

theorem call_fwd (K : Kind σ α β) (c : Call α β) (s : St σ α β) : Fwd s (c.run K s) := by
  cases c with
  | train x args => exact train_fwd K x args s
  | stop => exact stop_fwd K s
  | execute x => exact execute_fwd K x s
  | inverse y => exact inverse_fwd K y s
  | setInputDim n => exact (setInputDim_soft K n s).fwd
  | setOutputDim n => exact (setOutputDim_soft K n s).fwd
  | setDtype t => exact (setDtype_soft K t s).fwd

theorem runCalls_fwd (K : Kind σ α β) (cs : List (Call α β)) (s : St σ α β) :
    Fwd s (runCalls K s cs) := by
  induction cs generalizing s with
  | nil => exact fwd_pre.refl s
  | cons c cs ih => exact fwd_pre.trans (call_fwd K c s) (ih _)

/-! ### Traces -/

theorem okStops_append (a b : List (Event α β)) : okStops (a ++ b) = okStops a + okStops b := by
  unfold okStops; exact List.countP_append

theorem TraceOK.prefix {K : Kind σ α β} {a b : List (Event α β)} (h : TraceOK K (a ++ b)) :
    TraceOK K a := by
  intro pre ev post heq
  exact h pre ev (post ++ b) (by simp [heq])

/-- Induction on traces from the right. -/
theorem count_stop {K : Kind σ α β} [DecidableEq (Event α β)] (tr : List (Event α β))
    (h : TraceOK K tr) (p : Nat) :
    tr.count (.stop p true) = if p < okStops tr then 1 else 0 := by
  induction tr using List.reverseRecOn with
  | nil => simp [okStops]
  | append_singleton tr ev ih =>
    have ih := ih h.prefix
    rw [List.count_append, ih, okStops_snoc]
    have hev := h tr ev [] (by simp)
    cases ev with
    | stop q ok =>
      cases ok with
      | false => simp
      | true =>
        obtain ⟨_, hq, _⟩ := hev
        simp only [List.count_singleton, beq_iff_eq, Event.stop.injEq, and_true]
        by_cases hp : p < okStops tr
        · have h1 : ¬ q = p := by omega
          have h2 : p < okStops tr + 1 := by omega
          rw [if_pos hp, if_neg h1, if_pos h2]
        · by_cases h1 : q = p
          · have h2 : p < okStops tr + 1 := by omega
            rw [if_neg hp, if_pos h1, if_pos h2]
          · have h2 : ¬ p < okStops tr + 1 := by omega
            rw [if_neg hp, if_neg h1, if_neg h2]
    | train q x a ok => simp
    | exec x => simp
    | inv x => simp

theorem phases_le {K : Kind σ α β} (tr : List (Event α β)) (h : TraceOK K tr) :
    ∀ p ∈ tr.filterMap phaseOf, p ≤ okStops tr := by
  intro p hp
  obtain ⟨ev, hev, hpo⟩ := List.mem_filterMap.1 hp
  obtain ⟨pre, post, heq⟩ := List.append_of_mem hev
  have hok := h pre ev post heq
  have : okStops pre ≤ okStops tr := by rw [heq, okStops_append]; omega
  cases ev with
  | train q x a ok => cases hpo; have := hok.2.1; omega
  | stop q ok => cases hpo; have := hok.2.1; omega
  | exec x => cases hpo
  | inv x => cases hpo

theorem phases_sorted {K : Kind σ α β} (tr : List (Event α β)) (h : TraceOK K tr) :
    (tr.filterMap phaseOf).Pairwise (· ≤ ·) := by
  induction tr using List.reverseRecOn with
  | nil => simp
  | append_singleton tr ev ih =>
    rw [List.filterMap_append, List.pairwise_append]
    have hev := h tr ev [] (by simp)
    refine ⟨ih h.prefix, ?_, ?_⟩
    · cases ev <;> first | exact List.Pairwise.nil | exact List.pairwise_singleton _ _
    · intro a ha b hb
      have := phases_le tr h.prefix a ha
      cases ev with
      | train q x a ok => simp [phaseOf] at hb; have := hev.2.1; omega
      | stop q ok => simp [phaseOf] at hb; have := hev.2.1; omega
      | exec x => simp [phaseOf] at hb
      | inv x => simp [phaseOf] at hb

/-! ### Executing an untouched node -/

theorem refcast_congr {s t : St σ α β} {x : Arr α} (hwf : s.dtype ≠ none) (h : Fwd s t) :
    refcast s.dtype x = refcast t.dtype x := by
  rcases h.dt with h | h
  · exact absurd h hwf
  · rw [h]

/-- Training and stopping phase `p` on `x`. -/
def phaseEvents (x : Arr α) (p : Nat) : List (Event α β) := [.train p x [] true, .stop p true]

theorem train_ok_trace (K : Kind σ α β) (x : Arr α) (args : List β) (s s' : St σ α β)
    (h : train K x args s = (.ok (), s')) :
    s'.trace = s.trace ++ [.train s.phase.toNat (refcast s'.dtype x) args true] ∧
    s'.phase = s.phase ∧ s'.started = true ∧ s'.training = s.training ∧ s'.dtype ≠ none ∧
    K.trainable = true ∧ s.training = true ∧ 0 ≤ s.phase ∧ s.phase < K.nPhases := by
  rcases train_cases K x args s with ⟨e, he, _⟩ | ⟨_, _, _, he⟩ |
    ⟨h1, h2, h3, h4, s1, s2, hs1, hwf, _, _, hr, hs'⟩
  · rw [h] at he; cases he
  · rw [h] at he; cases he
  · have hs2 : Soft K { s1 with started := true } s2 := by
      have := runHook_soft K (K.trainHook s.phase.toNat s1.st (refcast s1.dtype x) args)
        { s1 with started := true }
      rw [hr] at this
      exact this
    rw [h] at hs'
    simp only at hs'
    subst hs'
    have hdt : s2.dtype = s1.dtype := by
      rcases hs2.dt with h | h
      · exact absurd h hwf.2.2.2
      · exact h
    refine ⟨?_, hs2.phase.trans hs1.phase, hs2.started, hs2.training.trans hs1.training, ?_, h1, h2, h3, h4⟩
    · simp only [hdt, hs2.trace, hs1.trace]
      rfl
    · simp only [hdt]; exact hwf.2.2.2

theorem stop_ok_trace (K : Kind σ α β) (s s' : St σ α β) (h : stopTraining K s = (.ok (), s')) :
    s'.trace = s.trace ++ [.stop s.phase.toNat true] ∧ s'.phase = s.phase + 1 ∧ s'.started = false := by
  rcases stop_cases K s with ⟨e, he⟩ | ⟨_, _, _, _, s2, hs, ⟨e, _, he⟩ | ⟨_, he⟩⟩
  · rw [h] at he; cases he
  · rw [h] at he; cases he
  · rw [h] at he
    cases he
    exact ⟨by simp [hs.trace], rfl, rfl⟩

theorem trainLoop_ok (K : Kind σ α β) (x : Arr α) (s s' : St σ α β)
    (h : trainLoop K x s = (.ok (), s')) (p : Nat) (hp : s.phase = p) :
    K.trainable = true ∧ s.training = true ∧ p < K.nPhases ∧ s'.phase = (K.nPhases - 1 : Nat) ∧
    s'.dtype ≠ none ∧
    s'.trace = s.trace ++ (List.range' p (K.nPhases - 1 - p)).flatMap (phaseEvents (refcast s'.dtype x))
      ++ [.train (K.nPhases - 1) (refcast s'.dtype x) [] true] := by
  induction hn : K.nPhases - p generalizing p s with
  | zero =>
    rw [trainLoop] at h
    split at h
    · cases h
    · next s1 heq =>
      obtain ⟨_, _, _, _, _, _, _, _, hlt⟩ := train_ok_trace K x [] s s1 heq
      omega
  | succ n ih =>
    rw [trainLoop] at h
    split at h
    · cases h
    · next s1 heq =>
      obtain ⟨htr, hph, hst, htn, hdt, hk, htrn, h0, hlt⟩ := train_ok_trace K x [] s s1 heq
      have hpt : s.phase.toNat = p := by omega
      split at h
      · next hr =>
        split at h
        · cases h
        · next s2 heq2 =>
          obtain ⟨htr2, hph2, hst2⟩ := stop_ok_trace K s1 s2 heq2
          obtain ⟨_, _, hlt', hph', hdt', htr'⟩ := ih s2 h (p + 1) (by omega) (by omega)
          have hf : Fwd s1 s' := by
            have h1 := stop_fwd K s1
            have h2 := trainLoop_fwd K x s2
            rw [heq2] at h1
            rw [h] at h2
            exact fwd_pre.trans h1 h2
          have hrc := refcast_congr (x := x) hdt hf
          refine ⟨hk, htrn, by omega, hph', hdt', ?_⟩
          rw [htr', htr2, htr, hrc]
          have : K.nPhases - 1 - p = (K.nPhases - 1 - (p + 1)) + 1 := by omega
          rw [this, List.range'_succ, List.flatMap_cons]
          simp [phaseEvents, hph, hpt]
      · next hr =>
        cases h
        unfold remaining at hr
        rw [if_pos hk] at hr
        have : p = K.nPhases - 1 := by omega
        refine ⟨hk, htrn, by omega, by omega, hdt, ?_⟩
        rw [htr, ← this]
        simp [hpt]

theorem preExec_untrained (K : Kind σ α β) (x : Arr α) (s s' : St σ α β) (hi : Inv K s)
    (hp : s.phase = 0) (hst : s.started = false) (h : preExecutionChecks K x s = (.ok (), s')) :
    s'.trace = s.trace ++ (List.range K.nPhases).flatMap (phaseEvents (refcast s'.dtype x)) := by
  unfold preExecutionChecks at h
  obtain ⟨_, _, h0, h⟩ := M.bind_eq_ok h
  cases h0
  obtain ⟨_, s1, h1, h⟩ := M.bind_eq_ok h
  have h1 : trainLoop K x s = (.ok (), s1) := by simpa [M.when, hp, hst] using h1
  obtain ⟨hk, htr, hlt, hph, hdt, htrace⟩ := trainLoop_ok K x s s1 h1 0 (by simpa using hp)
  obtain ⟨_, s2, h2, h⟩ := M.bind_eq_ok h
  have htr1 : s1.training = true := by
    have := trainLoop_inv K (fun _ => hlt) x s hi
    rw [h1] at this
    exact (this.tr hk).2.2.1.2 (by simp only [hph]; omega)
  have hf12 : Fwd s1 s2 := by have := ifTraining_fwd K s1; rw [h2] at this; exact this
  unfold ifTrainingStopTraining at h2
  obtain ⟨_, _, h0, h2⟩ := M.bind_eq_ok h2
  cases h0
  rw [if_pos htr1] at h2
  obtain ⟨_, s2', h3, h2⟩ := M.bind_eq_ok h2
  obtain ⟨_, _, h0, h2⟩ := M.bind_eq_ok h2
  cases h0
  have heq : s2' = s2 := by
    split at h2
    · cases h2
    · cases h2; rfl
  subst heq
  obtain ⟨htr2, _, _⟩ := stop_ok_trace K s1 s2' h3
  have hsoft : Soft K s2' s' := by
    have p := soft_pre K
    have hm : M.Moves (Soft K) (do
        checkInput K x
        let s ← M.get
        M.when (s.outputDim = none) (setOutputDim K s.inputDim) : NodeM σ α β Unit) :=
      .bind p (checkInput_soft K x) fun _ => .bind p (.get p) fun s1 =>
        .when p (setOutputDim_soft K _)
    have := hm s2'
    rw [h] at this
    exact this
  rw [hsoft.trace, htr2, htrace]
  have hf : Fwd s1 s' := fwd_pre.trans hf12 hsoft.fwd
  rw [refcast_congr (x := x) hdt hf]
  have e1 : K.nPhases = (K.nPhases - 1) + 1 := by omega
  conv => rhs; rw [e1, List.range_succ, List.flatMap_append]
  rw [List.range_eq_range']
  simp [phaseEvents, hph]

/-! ### Equations for calls that get through -/

theorem checkInput_eq (K : Kind σ α β) (x : Arr α) (s : St σ α β) (t : Nat) (hp : K.preserveDim = false)
    (hx : x.ndim = 2 ∧ 0 < x.nrows) (hin : s.inputDim = none ∨ s.inputDim = some x.cols)
    (hdt : (s.dtype = none ∧ x.dtype = t ∧ K.supported t = true) ∨ s.dtype = some t) :
    checkInput K x s = (.ok (), { s with inputDim := some x.cols, dtype := some t }) := by
  obtain ⟨h1, h2⟩ := hx
  unfold checkInput
  rw [if_neg (by simp [h1])]
  simp only [M.bind_def, M.get_def]
  have hA : (M.when (s.inputDim = none) (setInputDim K (some x.cols)) : NodeM σ α β Unit) s
      = (.ok (), { s with inputDim := some x.cols }) := by
    rcases hin with h | h
    · rw [when_true h]
      simp [setInputDim, setInputDimRaw, h, hp]
    · rw [when_false (by simp [h])]
      simp [← h]
  rw [hA]
  simp only
  have hB : (M.when (s.dtype = none) (setDtype K (some x.dtype)) : NodeM σ α β Unit)
      { s with inputDim := some x.cols } = (.ok (), { s with inputDim := some x.cols, dtype := some t }) := by
    rcases hdt with ⟨h, h', h''⟩ | h
    · rw [when_true h]
      simp [setDtype, h, h', h'']
    · rw [when_false (by simp [h])]
      simp [← h]
  rw [hB]
  simp only [ne_eq, not_true_eq_false, if_false]
  rw [if_neg (by omega)]
  rfl

theorem train_eq (K : Kind σ α β) (x : Arr α) (args : List β) (s s1 : St σ α β)
    (ht : K.trainable = true) (htr : s.training = true) (hci : checkInput K x s = (.ok (), s1))
    (hca : K.checkTrainArgs s1.st x args = .ok ()) (hr : 0 ≤ s1.phase ∧ s1.phase < K.nPhases) :
    train K x args s = logged (.train s1.phase.toNat (refcast s1.dtype x) args)
      (runHook K (K.trainHook s1.phase.toNat s1.st (refcast s1.dtype x) args))
      { s1 with started := true } := by
  unfold train
  rw [if_neg (by simp [ht])]
  simp only [M.bind_def, M.get_def]
  rw [if_neg (by simp [htr]), M.bind_def, hci]
  simp only [M.bind_def, M.get_def, M.lift_def, hca, M.modify_def]
  rw [if_pos hr]

theorem stop_eq (K : Kind σ α β) (s s2 : St σ α β) (ht : K.trainable = true) (htr : s.training = true)
    (hst : s.started = true) (hr : 0 ≤ s.phase ∧ s.phase < K.nPhases)
    (hh : runHook K (K.stopHook s.phase.toNat s.st) s = (.ok (), s2)) :
    stopTraining K s = (.ok (),
      { s2 with trace := s2.trace ++ [.stop s.phase.toNat true], phase := s.phase + 1, started := false,
                training := decide (s.phase + 1 ≠ K.nPhases) }) := by
  rcases stop_cases K s with ⟨e, h⟩ | ⟨_, _, _, _, s2', hs, ⟨e, h', h⟩ | ⟨h', h⟩⟩
  · exfalso
    unfold stopTraining at h
    simp only [M.bind_def, M.get_def] at h
    rw [if_neg (by simp [hst]), if_neg (by simp [htr]), if_pos hr] at h
    simp only [M.bind_def, logged, hh, M.modify_def] at h
    cases h
  · rw [hh] at h'; cases h'
  · rw [hh] at h'
    cases h'
    rw [h]
    simp [ht]

theorem trainLoop_step (K : Kind σ α β) (x : Arr α) (s s1 s2 : St σ α β)
    (h1 : train K x [] s = (.ok (), s1)) (hr : remaining K s1 > 1)
    (h2 : stopTraining K s1 = (.ok (), s2)) : trainLoop K x s = trainLoop K x s2 := by
  rw [trainLoop]
  split
  · next h => rw [h1] at h; cases h
  · next s1' h =>
    rw [h1] at h; cases h
    rw [dif_pos hr]
    split
    · next h => rw [h2] at h; cases h
    · next h => rw [h2] at h; cases h; rfl

theorem trainLoop_last (K : Kind σ α β) (x : Arr α) (s s1 : St σ α β)
    (h1 : train K x [] s = (.ok (), s1)) (hr : ¬ remaining K s1 > 1) :
    trainLoop K x s = (.ok (), s1) := by
  rw [trainLoop]
  split
  · next h => rw [h1] at h; cases h
  · next s1' h =>
    rw [h1] at h; cases h
    rw [dif_neg hr]

end Mdp.Node
