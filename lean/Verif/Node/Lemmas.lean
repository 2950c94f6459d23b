import Verif.Node.Spec

namespace Mdp.Node

open Py

variable {σ α β : Type}

/-- `s` to `t` by a step that only sets unset dimensions/dtype and changes private data. -/
structure Soft (K : Kind σ α β) (s t : St σ α β) : Prop where
  inp : s.inputDim = none ∨ t.inputDim = s.inputDim
  out : s.outputDim = none ∨ t.outputDim = s.outputDim
  dt : s.dtype = none ∨ t.dtype = s.dtype
  phase : t.phase = s.phase
  training : t.training = s.training
  started : t.started = s.started
  trace : t.trace = s.trace
  pd : K.preserveDim = true → s.inputDim = s.outputDim → t.inputDim = t.outputDim

theorem Soft.refl {K : Kind σ α β} (s : St σ α β) : Soft K s s :=
  ⟨.inr rfl, .inr rfl, .inr rfl, rfl, rfl, rfl, rfl, fun _ h => h⟩

theorem Soft.trans {K : Kind σ α β} {a b c : St σ α β} (h : Soft K a b) (h' : Soft K b c) :
    Soft K a c := by
  refine ⟨?_, ?_, ?_, h'.phase.trans h.phase, h'.training.trans h.training,
    h'.started.trans h.started, h'.trace.trans h.trace, fun hp hi => h'.pd hp (h.pd hp hi)⟩
  · rcases h.inp with h1 | h1
    · exact .inl h1
    · rcases h'.inp with h2 | h2
      · exact .inl (h1 ▸ h2)
      · exact .inr (h2.trans h1)
  · rcases h.out with h1 | h1
    · exact .inl h1
    · rcases h'.out with h2 | h2
      · exact .inl (h1 ▸ h2)
      · exact .inr (h2.trans h1)
  · rcases h.dt with h1 | h1
    · exact .inl h1
    · rcases h'.dt with h2 | h2
      · exact .inl (h1 ▸ h2)
      · exact .inr (h2.trans h1)

theorem soft_pre (K : Kind σ α β) : M.Pre (Soft K) := ⟨Soft.refl, fun h h' => h.trans h'⟩

theorem setInputDim_soft (K : Kind σ α β) (n : Option Nat) : M.Moves (Soft K) (setInputDim K n) := by
  intro s
  unfold setInputDim setInputDimRaw
  split
  · exact Soft.refl s
  · next n =>
    split
    · exact Soft.refl s
    · next h1 =>
      have h1 : s.inputDim = none ∨ s.inputDim = some n := by
        by_cases h : s.inputDim = none
        · exact .inl h
        · exact .inr (Classical.not_not.mp fun h2 => h1 ⟨h, h2⟩)
      split
      · split
        · exact Soft.refl s
        · next h2 =>
          have h2 : s.outputDim = none ∨ s.outputDim = some n := by
            by_cases h : s.outputDim = none
            · exact .inl h
            · exact .inr (Classical.not_not.mp fun h3 => h2 ⟨h, h3⟩)
          refine ⟨?_, ?_, .inr rfl, rfl, rfl, rfl, rfl, fun _ _ => rfl⟩
          · rcases h1 with h | h
            · exact .inl h
            · exact .inr h.symm
          · rcases h2 with h | h
            · exact .inl h
            · exact .inr h.symm
      · next hp =>
        refine ⟨?_, .inr rfl, .inr rfl, rfl, rfl, rfl, rfl, fun h => absurd h hp⟩
        rcases h1 with h | h
        · exact .inl h
        · exact .inr h.symm

theorem setOutputDim_soft (K : Kind σ α β) (n : Option Nat) : M.Moves (Soft K) (setOutputDim K n) := by
  intro s
  unfold setOutputDim setOutputDimRaw
  split
  · exact Soft.refl s
  · next n =>
    split
    · exact Soft.refl s
    · next h1 =>
      have h1 : s.outputDim = none ∨ s.outputDim = some n := by
        by_cases h : s.outputDim = none
        · exact .inl h
        · exact .inr (Classical.not_not.mp fun h2 => h1 ⟨h, h2⟩)
      split
      · split
        · exact Soft.refl s
        · next h2 =>
          have h2 : s.inputDim = none ∨ s.inputDim = some n := by
            by_cases h : s.inputDim = none
            · exact .inl h
            · exact .inr (Classical.not_not.mp fun h3 => h2 ⟨h, h3⟩)
          refine ⟨?_, ?_, .inr rfl, rfl, rfl, rfl, rfl, fun _ _ => rfl⟩
          · rcases h2 with h | h
            · exact .inl h
            · exact .inr h.symm
          · rcases h1 with h | h
            · exact .inl h
            · exact .inr h.symm
      · next hp =>
        refine ⟨.inr rfl, ?_, .inr rfl, rfl, rfl, rfl, rfl, fun h => absurd h hp⟩
        rcases h1 with h | h
        · exact .inl h
        · exact .inr h.symm

theorem setDtype_soft (K : Kind σ α β) (t : Option DType) : M.Moves (Soft K) (setDtype K t) := by
  intro s
  unfold setDtype
  split
  · exact Soft.refl s
  · next t =>
    split
    · exact Soft.refl s
    · next h1 =>
      split
      · exact Soft.refl s
      · refine ⟨.inr rfl, .inr rfl, ?_, rfl, rfl, rfl, rfl, fun _ h => h⟩
        by_cases h : s.dtype = none
        · exact .inl h
        · exact .inr (Classical.not_not.mp fun h2 => h1 ⟨h, fun h3 => h2 h3.symm⟩)

theorem runSets_soft (K : Kind σ α β) (l : List SetReq) : M.Moves (Soft K) (runSets K l) := by
  induction l with
  | nil => exact M.Moves.pure (soft_pre K) _
  | cons r l ih =>
    cases r with
    | inp n => exact M.Moves.bind (soft_pre K) (setInputDim_soft K _) (fun _ => ih)
    | out n => exact M.Moves.bind (soft_pre K) (setOutputDim_soft K _) (fun _ => ih)
    | dtype n => exact M.Moves.bind (soft_pre K) (setDtype_soft K _) (fun _ => ih)

theorem runHook_soft {r : Type} (K : Kind σ α β) (h : Hooked σ r) :
    M.Moves (Soft K) (runHook K h) :=
  M.Moves.bind (soft_pre K)
    (M.Moves.modify (fun _ => ⟨.inr rfl, .inr rfl, .inr rfl, rfl, rfl, rfl, rfl, fun _ h => h⟩))
    (fun _ => M.Moves.bind (soft_pre K) (runSets_soft K _) (fun _ => M.Moves.lift (soft_pre K) _))

theorem checkInput_soft (K : Kind σ α β) (x : Arr α) : M.Moves (Soft K) (checkInput K x) := by
  have p := soft_pre K
  unfold checkInput
  refine .ite (.raise p _) (.bind p (.get p) fun s1 => ?_)
  refine .bind p (.when p (setInputDim_soft K _)) fun _ => ?_
  refine .bind p (.get p) fun s1 => ?_
  refine .bind p (.when p (setDtype_soft K _)) fun _ => ?_
  refine .bind p (.get p) fun s1 => ?_
  exact .ite (.raise p _) (.ite (.raise p _) (.pure p _))

/-- A well-formed data array for a node in state `s`. -/
def WellFormed (s : St σ α β) (x : Arr α) : Prop :=
  x.ndim = 2 ∧ 0 < x.nrows ∧ s.inputDim = some x.cols ∧ s.dtype ≠ none

theorem setDtype_some_ok (K : Kind σ α β) (t : DType) (s s' : St σ α β)
    (h : setDtype K (some t) s = (.ok (), s')) : s'.dtype = some t := by
  unfold setDtype at h
  simp only at h
  split at h
  · cases h
  · split at h
    · cases h
    · cases h; rfl

theorem when_true {σ : Type} {c : Prop} [Decidable c] (h : c) (m : M Err σ Unit) :
    M.when c m = m := by simp [M.when, h]

theorem when_false {σ : Type} {c : Prop} [Decidable c] (h : ¬ c) (m : M Err σ Unit) :
    M.when c m = M.ret () := by simp [M.when, h]

theorem checkInput_ok (K : Kind σ α β) (x : Arr α) (s s' : St σ α β)
    (h : checkInput K x s = (.ok (), s')) : WellFormed s' x := by
  unfold checkInput at h
  split at h
  · cases h
  · next hnd =>
    obtain ⟨a, s0, h0, h⟩ := M.bind_eq_ok h
    cases h0
    obtain ⟨_, s1, h1, h⟩ := M.bind_eq_ok h
    obtain ⟨_, _, h2, h⟩ := M.bind_eq_ok h
    cases h2
    obtain ⟨_, s3, h3, h⟩ := M.bind_eq_ok h
    obtain ⟨_, _, h4, h⟩ := M.bind_eq_ok h
    cases h4
    have hd : s3.dtype ≠ none := by
      by_cases hc : s1.dtype = none
      · rw [when_true hc] at h3
        rw [setDtype_some_ok K _ _ _ h3]
        simp
      · rw [when_false hc] at h3
        cases h3
        exact hc
    split at h
    · cases h
    · next hin =>
      split at h
      · cases h
      · next hr =>
        cases h
        exact ⟨Classical.not_not.mp hnd, Nat.pos_of_ne_zero hr, Classical.not_not.mp hin, hd⟩

/-- Every way `train` can go. -/
theorem train_cases (K : Kind σ α β) (x : Arr α) (args : List β) (s : St σ α β) :
    (∃ e, (train K x args s).1 = .error e ∧ Soft K s (train K x args s).2) ∨
    (K.trainable = true ∧ s.training = true ∧ ¬ (0 ≤ s.phase ∧ s.phase < K.nPhases) ∧
      (train K x args s).1 = .error .index) ∨
    (K.trainable = true ∧ s.training = true ∧ 0 ≤ s.phase ∧ s.phase < K.nPhases ∧
      ∃ s1 s2, Soft K s s1 ∧ WellFormed s1 x ∧ s1.st = s.st ∧
        (K.checkTrainArgs s.st x args = .ok ()) ∧
        runHook K (K.trainHook s.phase.toNat s1.st (refcast s1.dtype x) args)
          { s1 with started := true } = ((train K x args s).1, s2) ∧
        (train K x args s).2 = { s2 with trace := s2.trace ++
          [.train s.phase.toNat (refcast s1.dtype x) args (isOk (train K x args s).1)] }) := by
  have hsoft := checkInput_soft K x s
  have hstsame : (checkInput K x s).2.st = s.st := by
    have hp : M.Pre (fun a b : St σ α β => b.st = a.st) := ⟨fun _ => rfl, fun h h' => Eq.trans h' h⟩
    have hin : ∀ n, M.Moves (fun a b : St σ α β => b.st = a.st) (setInputDim K n) := by
      intro n s; unfold setInputDim setInputDimRaw; repeat' split
      all_goals rfl
    have hdt : ∀ n, M.Moves (fun a b : St σ α β => b.st = a.st) (setDtype K n) := by
      intro n s; unfold setDtype; repeat' split
      all_goals rfl
    have : M.Moves (fun a b : St σ α β => b.st = a.st) (checkInput K x) := by
      unfold checkInput
      refine .ite (.raise hp _) (.bind hp (.get hp) fun s1 => ?_)
      refine .bind hp (.when hp (hin _)) fun _ => ?_
      refine .bind hp (.get hp) fun s1 => ?_
      refine .bind hp (.when hp (hdt _)) fun _ => ?_
      refine .bind hp (.get hp) fun s1 => ?_
      exact .ite (.raise hp _) (.ite (.raise hp _) (.pure hp _))
    exact this s
  generalize hT : train K x args s = T
  unfold train at hT
  by_cases ht : K.trainable = false
  · left
    rw [if_pos ht] at hT
    subst hT
    exact ⟨_, rfl, Soft.refl s⟩
  · have ht' : K.trainable = true := by simpa using ht
    rw [if_neg ht] at hT
    simp only [M.bind_def, M.get_def] at hT
    by_cases htr : s.training = false
    · left
      rw [if_pos htr] at hT
      subst hT
      exact ⟨_, rfl, Soft.refl s⟩
    · have htr' : s.training = true := by simpa using htr
      rw [if_neg htr, M.bind_def] at hT
      generalize hci : checkInput K x s = ci at *
      obtain ⟨r1, s1⟩ := ci
      simp only at hsoft hstsame
      cases r1 with
      | error e => left; subst hT; exact ⟨e, rfl, hsoft⟩
      | ok u =>
        have hwf := checkInput_ok K x s s1 hci
        simp only [M.get_def, M.lift_def, M.bind_def] at hT
        cases hca : K.checkTrainArgs s1.st x args with
        | error e => left; rw [hca] at hT; subst hT; exact ⟨e, rfl, hsoft⟩
        | ok u =>
          rw [hca] at hT
          simp only [M.modify_def] at hT
          have hph : s1.phase = s.phase := hsoft.phase
          by_cases hr : 0 ≤ s.phase ∧ s.phase < K.nPhases
          · right; right
            have hr' : 0 ≤ s1.phase ∧ s1.phase < K.nPhases := by rw [hph]; exact hr
            rw [if_pos hr'] at hT
            simp only [logged] at hT
            rw [hph] at hT
            generalize hR : runHook K (K.trainHook s.phase.toNat s1.st (refcast s1.dtype x) args) _ = R at hT
            obtain ⟨res, s2⟩ := R
            subst hT
            refine ⟨ht', htr', hr.1, hr.2, s1, s2, hsoft, hwf, hstsame, by rw [← hstsame, hca], ?_, rfl⟩
            rw [← hR, hph]
          · right; left
            have hr' : ¬ (0 ≤ s1.phase ∧ s1.phase < K.nPhases) := by rw [hph]; exact hr
            rw [if_neg hr'] at hT
            subst hT
            exact ⟨ht', htr', hr, rfl⟩

/-- Every way `stop_training` can go. -/
theorem stop_cases (K : Kind σ α β) (s : St σ α β) :
    (∃ e, stopTraining K s = (.error e, s)) ∨
    (s.training = true ∧ s.started = true ∧ 0 ≤ s.phase ∧ s.phase < K.nPhases ∧
      ∃ s2, Soft K s s2 ∧
       ((∃ e, runHook K (K.stopHook s.phase.toNat s.st) s = (.error e, s2) ∧
          stopTraining K s =
          (.error e, { s2 with trace := s2.trace ++ [.stop s.phase.toNat false] })) ∨
        (runHook K (K.stopHook s.phase.toNat s.st) s = (.ok (), s2) ∧ stopTraining K s =
          (.ok (), { s2 with trace := s2.trace ++ [.stop s.phase.toNat true], phase := s.phase + 1,
                             started := false,
                             training := decide (¬ (K.trainable = true → s.phase + 1 = K.nPhases)) })))) := by
  unfold stopTraining
  simp only [M.bind_def, M.get_def]
  by_cases h1 : s.training = true ∧ s.started = false
  · left; rw [if_pos h1]; exact ⟨_, rfl⟩
  rw [if_neg h1]
  by_cases h2 : s.training = false
  · left; rw [if_pos h2]; exact ⟨_, rfl⟩
  rw [if_neg h2]
  have h2' : s.training = true := by simpa using h2
  have h1' : s.started = true := by
    cases hs : s.started with
    | false => exact absurd ⟨h2', hs⟩ h1
    | true => rfl
  by_cases h3 : 0 ≤ s.phase ∧ s.phase < K.nPhases
  · rw [if_pos h3]
    right
    refine ⟨h2', h1', h3.1, h3.2, (runHook K (K.stopHook s.phase.toNat s.st) s).2, runHook_soft K _ s, ?_⟩
    have hs := runHook_soft K (K.stopHook s.phase.toNat s.st) s
    simp only [M.bind_def, logged]
    generalize hx : runHook K (K.stopHook s.phase.toNat s.st) s = x at hs ⊢
    obtain ⟨r, s2⟩ := x
    simp only at hs
    cases r with
    | error e => left; exact ⟨e, rfl, rfl⟩
    | ok u =>
      right
      refine ⟨rfl, ?_⟩
      simp only [M.modify_def, M.bind_def, isOk, remaining, hs.phase]
      have htr := hs.training
      cases ht : K.trainable
      · simp
      · by_cases hq : s.phase + 1 = K.nPhases
        · have : (K.nPhases : Int) - (s.phase + 1) = 0 := by omega
          simp [hq]
        · have : ¬ (K.nPhases : Int) - (s.phase + 1) = 0 := by omega
          simp [hq, this, htr, h2']
  · rw [if_neg h3]
    left; exact ⟨_, rfl⟩

/-! ### The invariant over histories -/

theorem TraceOK.nil (K : Kind σ α β) : TraceOK K [] := by
  intro pre ev post h
  simp at h

theorem TraceOK.snoc {K : Kind σ α β} {tr : List (Event α β)} {ev : Event α β}
    (h : TraceOK K tr) (hev : EvOK K tr ev) : TraceOK K (tr ++ [ev]) := by
  intro pre ev' post heq
  rcases List.eq_nil_or_concat post with hp | ⟨post', b, hp⟩
  · subst hp
    obtain ⟨h1, h2⟩ := List.append_inj' heq rfl
    simp at h2
    subst h1; subst h2
    exact hev
  · subst hp
    have : tr ++ [ev] = (pre ++ ev' :: post') ++ [b] := by simpa using heq
    obtain ⟨h1, _⟩ := List.append_inj' this rfl
    exact h pre ev' post' h1

structure Inv (K : Kind σ α β) (s : St σ α β) : Prop where
  tr : K.trainable = true → s.phase = okStops s.trace ∧ s.phase ≤ K.nPhases ∧
    (s.training = true ↔ s.phase < K.nPhases) ∧
    (s.started = true ↔ ∃ x args ok, Event.train s.phase.toNat x args ok ∈ s.trace)
  ntr : K.trainable = false → s.phase = -1 ∧ s.training = false ∧ s.started = false
  trace : TraceOK K s.trace
  data : ∀ ev ∈ s.trace, DataOK s ev
  pd : K.preserveDim = true → s.inputDim = s.outputDim

theorem Soft.dataOK {K : Kind σ α β} {s t : St σ α β} (h : Soft K s t) {ev : Event α β}
    (hd : DataOK s ev) : DataOK t ev := by
  cases ev with
  | train p x args ok =>
    obtain ⟨h1, h2, h3, h4⟩ := hd
    refine ⟨h1, h2, ?_, ?_⟩
    · rcases h.inp with h | h
      · rw [h] at h3; cases h3
      · rw [h]; exact h3
    · rcases h.dt with h | h
      · rw [h] at h4; cases h4
      · rw [h]; exact h4
  | exec x =>
    obtain ⟨h1, h2, h3, h4⟩ := hd
    refine ⟨h1, h2, ?_, ?_⟩
    · rcases h.inp with h | h
      · rw [h] at h3; cases h3
      · rw [h]; exact h3
    · rcases h.dt with h | h
      · rw [h] at h4; cases h4
      · rw [h]; exact h4
  | inv y =>
    obtain ⟨h1, h2⟩ := hd
    refine ⟨h1, ?_⟩
    rcases h.out with h | h
    · rw [h] at h2; cases h2
    · rw [h]; exact h2
  | stop p ok => trivial

theorem Soft.inv {K : Kind σ α β} {s t : St σ α β} (h : Soft K s t) (hi : Inv K s) : Inv K t := by
  refine ⟨?_, ?_, ?_, ?_, ?_⟩
  · intro hk
    rw [h.phase, h.trace, h.training, h.started]
    exact hi.tr hk
  · intro hk
    rw [h.phase, h.training, h.started]
    exact hi.ntr hk
  · rw [h.trace]; exact hi.trace
  · rw [h.trace]; intro ev hev; exact h.dataOK (hi.data ev hev)
  · intro hp; exact h.pd hp (hi.pd hp)

theorem WellFormed.dtype_some {s : St σ α β} {x : Arr α} (h : WellFormed s x) :
    s.dtype = some (refcast s.dtype x).dtype := by
  obtain ⟨_, _, _, h⟩ := h
  unfold refcast
  cases hd : s.dtype with
  | none => exact absurd hd h
  | some t => rfl

theorem okStops_snoc (tr : List (Event α β)) (ev : Event α β) :
    okStops (tr ++ [ev]) = okStops tr + match ev with | .stop _ true => 1 | _ => 0 := by
  unfold okStops
  rw [List.countP_append]
  cases ev with
  | stop p ok => cases ok <;> simp [List.countP_cons]
  | _ => simp [List.countP_cons]

theorem train_inv (K : Kind σ α β) (hK : K.trainable = true → 0 < K.nPhases) (x : Arr α)
    (args : List β) : M.Keeps (Inv K) (train K x args) := by
  intro s hi
  rcases train_cases K x args s with ⟨e, _, h⟩ | ⟨ht, htr, hr, _⟩ | ⟨ht, htr, h0, hlt, s1, s2, h1, hwf, _, _, h2, h3⟩
  · exact h.inv hi
  · exfalso
    have h := hi.tr ht
    have := h.2.2.1.1 htr
    apply hr
    refine ⟨?_, this⟩
    rw [h.1]; omega
  · have hs2 : Soft K { s1 with started := true } s2 := by
      have := runHook_soft K (K.trainHook s.phase.toNat s1.st (refcast s1.dtype x) args)
        { s1 with started := true }
      rw [h2] at this
      exact this
    have hinv := hi.tr ht
    have htr2 : s2.trace = s.trace := hs2.trace.trans h1.trace
    have hph2 : s2.phase = s.phase := hs2.phase.trans h1.phase
    have htn2 : s2.training = s.training := hs2.training.trans h1.training
    rw [h3]
    generalize isOk (train K x args s).1 = ok
    have hevOK : EvOK K s.trace (.train s.phase.toNat (refcast s1.dtype x) args ok) := by
      refine ⟨ht, ?_, ?_⟩ <;> omega
    refine ⟨?_, ?_, ?_, ?_, ?_⟩
    · intro _
      simp only [htr2, hph2, htn2, okStops_snoc]
      refine ⟨by simpa using hinv.1, hinv.2.1, hinv.2.2.1, ?_⟩
      rw [hs2.started]
      simp only [true_iff]
      exact ⟨_, _, _, List.mem_append_right _ (List.mem_singleton.2 rfl)⟩
    · intro hk; rw [ht] at hk; cases hk
    · simp only [htr2]; exact hi.trace.snoc hevOK
    · intro ev hev
      simp only [htr2] at hev
      have hsoft : Soft K s1 { s2 with trace := s1.trace, started := s1.started } :=
        ⟨hs2.inp, hs2.out, hs2.dt, hs2.phase, hs2.training, rfl, rfl, hs2.pd⟩
      have hall : DataOK { s2 with trace := s1.trace, started := s1.started } ev := by
        rcases List.mem_append.1 hev with hev | hev
        · exact hsoft.dataOK (h1.dataOK (hi.data ev hev))
        · rw [List.mem_singleton] at hev
          subst hev
          exact hsoft.dataOK ⟨hwf.1, hwf.2.1, hwf.2.2.1, hwf.dtype_some⟩
      cases ev <;> exact hall
    · intro hp
      exact hs2.pd hp (h1.pd hp (hi.pd hp))

theorem stop_inv (K : Kind σ α β) : M.Keeps (Inv K) (stopTraining K) := by
  intro s hi
  rcases stop_cases K s with ⟨e, h⟩ | ⟨htr, hst, h0, hlt, s2, hs, h⟩
  · rw [h]; exact hi
  · have ht : K.trainable = true := by
      cases hk : K.trainable with
      | true => rfl
      | false => have := (hi.ntr hk).2.1; rw [htr] at this; cases this
    have hinv := hi.tr ht
    have hev : ∀ ok, EvOK K s.trace (.stop s.phase.toNat ok) := by
      intro ok
      refine ⟨ht, ?_, ?_, hinv.2.2.2.1 hst⟩ <;> omega
    rcases h with ⟨e, _, h⟩ | ⟨_, h⟩
    · rw [h]
      refine ⟨?_, ?_, ?_, ?_, ?_⟩
      · intro _
        simp only [hs.trace, hs.phase, hs.training, hs.started, okStops_snoc]
        refine ⟨by simpa using hinv.1, hinv.2.1, hinv.2.2.1, ?_⟩
        rw [hinv.2.2.2]
        constructor
        · rintro ⟨x, a, o, hm⟩; exact ⟨x, a, o, List.mem_append_left _ hm⟩
        · rintro ⟨x, a, o, hm⟩
          rcases List.mem_append.1 hm with hm | hm
          · exact ⟨x, a, o, hm⟩
          · simp at hm
      · intro hk; rw [ht] at hk; cases hk
      · simp only [hs.trace]; exact hi.trace.snoc (hev _)
      · intro ev hev
        simp only [hs.trace] at hev
        rcases List.mem_append.1 hev with hev | hev
        · have := hs.dataOK (hi.data ev hev)
          cases ev <;> exact this
        · rw [List.mem_singleton] at hev; subst hev; trivial
      · intro hp; exact hs.pd hp (hi.pd hp)
    · rw [h]
      refine ⟨?_, ?_, ?_, ?_, ?_⟩
      · intro _
        simp only [hs.trace, okStops_snoc]
        refine ⟨?_, ?_, ?_, ?_⟩
        · rw [hinv.1]; simp
        · omega
        · simp only [ht, forall_const, decide_eq_true_eq]
          omega
        · constructor
          · intro hh; cases hh
          · rintro ⟨x, a, o, hm⟩
            exfalso
            rcases List.mem_append.1 hm with hm | hm
            · obtain ⟨pre, post, heq⟩ := List.append_of_mem hm
              have hok := hi.trace pre _ post heq
              have h2 := hok.2.1
              have hle : okStops pre ≤ okStops s.trace := by
                rw [heq]; unfold okStops; rw [List.countP_append]; omega
              omega
            · simp at hm
      · intro hk; rw [ht] at hk; cases hk
      · simp only [hs.trace]; exact hi.trace.snoc (hev _)
      · intro ev hev
        simp only [hs.trace] at hev
        rcases List.mem_append.1 hev with hev | hev
        · have := hs.dataOK (hi.data ev hev)
          cases ev <;> exact this
        · rw [List.mem_singleton] at hev; subst hev; trivial
      · intro hp; exact hs.pd hp (hi.pd hp)

theorem ifTraining_inv (K : Kind σ α β) : M.Keeps (Inv K) (ifTrainingStopTraining K) := by
  unfold ifTrainingStopTraining
  refine .bind .get fun s1 => .ite (.bind (stop_inv K) fun _ => .bind .get fun s1 => ?_) (.pure _)
  exact .ite (.raise _) (.pure _)

theorem trainLoop_inv (K : Kind σ α β) (hK : K.trainable = true → 0 < K.nPhases) (x : Arr α) :
    M.Keeps (Inv K) (trainLoop K x) := by
  intro s
  induction hn : ((K.nPhases : Int) - s.phase).toNat using Nat.strongRecOn generalizing s with
  | ind n ih =>
    intro hi
    have h1 := train_inv K hK x [] s hi
    have h4 := train_phase K x [] s
    rw [trainLoop]
    split
    · next e s1 heq => rw [heq] at h1; exact h1
    · next s1 heq =>
      rw [heq] at h1 h4
      simp only at h1 h4
      split
      · next hr =>
        have h2 := stop_inv K s1 h1
        split
        · next e s2 heq2 => rw [heq2] at h2; exact h2
        · next s2 heq2 =>
          rw [heq2] at h2
          have h3 := stopTraining_ok_phase K s1 s2 heq2
          refine ih _ ?_ s2 rfl h2
          unfold SamePhase at h4
          unfold remaining at hr
          split at hr <;> omega
      · exact h1

theorem soft_keeps {K : Kind σ α β} {r : Type} {m : NodeM σ α β r} (h : M.Moves (Soft K) m) :
    M.Keeps (Inv K) m := fun s hi => (h s).inv hi

theorem preExec_inv (K : Kind σ α β) (hK : K.trainable = true → 0 < K.nPhases) (x : Arr α) :
    M.Keeps (Inv K) (preExecutionChecks K x) := by
  unfold preExecutionChecks
  refine .bind .get fun s1 => .bind (.when (trainLoop_inv K hK x)) fun _ => ?_
  refine .bind (ifTraining_inv K) fun _ => .bind (soft_keeps (checkInput_soft K x)) fun _ => ?_
  exact .bind .get fun s1 => .when (soft_keeps (setOutputDim_soft K _))

/-- After `_if_training_stop_training` returned the node is not training. -/
theorem ifTraining_ok (K : Kind σ α β) (s s' : St σ α β) (hi : Inv K s)
    (h : ifTrainingStopTraining K s = (.ok (), s')) : s'.training = false := by
  have hi' := ifTraining_inv K s hi
  rw [h] at hi'
  simp only at hi'
  by_cases hk : K.trainable = true
  · have hinv := hi'.tr hk
    unfold ifTrainingStopTraining at h
    obtain ⟨_, _, h0, h⟩ := M.bind_eq_ok h
    cases h0
    by_cases ht : s.training = true
    · rw [if_pos ht] at h
      obtain ⟨_, s1, h1, h⟩ := M.bind_eq_ok h
      obtain ⟨_, _, h0, h⟩ := M.bind_eq_ok h
      cases h0
      split at h
      · cases h
      · next hr =>
        cases h
        cases hts : s'.training with
        | false => rfl
        | true =>
          exfalso
          have := hinv.2.2.1.1 hts
          unfold remaining at hr
          rw [if_pos hk] at hr
          omega
    · rw [if_neg ht] at h
      cases h
      simpa using ht
  · have hk : K.trainable = false := by simpa using hk
    exact (hi'.ntr hk).2.1

theorem preExec_ok (K : Kind σ α β) (hK : K.trainable = true → 0 < K.nPhases) (x : Arr α)
    (s s' : St σ α β) (hi : Inv K s) (h : preExecutionChecks K x s = (.ok (), s')) :
    s'.training = false ∧ WellFormed s' x ∧ Inv K s' ∧ s'.outputDim ≠ none := by
  have hi' := preExec_inv K hK x s hi
  rw [h] at hi'
  simp only at hi'
  unfold preExecutionChecks at h
  obtain ⟨_, _, h0, h⟩ := M.bind_eq_ok h
  cases h0
  obtain ⟨_, s1, h1, h⟩ := M.bind_eq_ok h
  have hi1 : Inv K s1 := by
    have := M.Keeps.when (c := s.phase = 0 ∧ s.started = false) (trainLoop_inv K hK x) s hi
    rw [h1] at this
    exact this
  obtain ⟨_, s2, h2, h⟩ := M.bind_eq_ok h
  have ht2 := ifTraining_ok K s1 s2 hi1 h2
  obtain ⟨_, s3, h3, h⟩ := M.bind_eq_ok h
  have hs3 := checkInput_soft K x s2
  rw [h3] at hs3
  simp only at hs3
  have hwf := checkInput_ok K x s2 s3 h3
  obtain ⟨_, _, h0, h⟩ := M.bind_eq_ok h
  cases h0
  by_cases hc : s3.outputDim = none
  · rw [when_true hc] at h
    have hs4 := setOutputDim_soft K s3.inputDim s3
    rw [h] at hs4
    simp only at hs4
    refine ⟨by rw [hs4.training, hs3.training]; exact ht2, ⟨hwf.1, hwf.2.1, ?_, ?_⟩, hi', ?_⟩
    · rcases hs4.inp with hh | hh
      · rw [hwf.2.2.1] at hh; cases hh
      · rw [hh]; exact hwf.2.2.1
    · rcases hs4.dt with hh | hh
      · exact absurd hh hwf.2.2.2
      · rw [hh]; exact hwf.2.2.2
    · rw [hwf.2.2.1] at h
      unfold setOutputDim setOutputDimRaw at h
      simp only [hc] at h
      repeat' split at h
      all_goals cases h
      all_goals simp
  · rw [when_false hc] at h
    cases h
    exact ⟨by rw [hs3.training]; exact ht2, hwf, hi', hc⟩

/-- Appending an exec/inv event after a hook ran. -/
theorem inv_hook_event {K : Kind σ α β} {s s2 : St σ α β} {ev : Event α β} (hi : Inv K s)
    (hs : Soft K s s2) (hev : EvOK K s.trace ev) (hd : DataOK s ev)
    (hnt : ∀ p x a ok, ev ≠ .train p x a ok) (hns : ∀ p ok, ev ≠ .stop p ok) :
    Inv K { s2 with trace := s2.trace ++ [ev] } := by
  refine ⟨?_, ?_, ?_, ?_, ?_⟩
  · intro hk
    have hinv := hi.tr hk
    simp only [hs.trace, hs.phase, hs.training, hs.started, okStops_snoc]
    have h0 : (match ev with | .stop _ true => 1 | _ => 0) = 0 := by
      cases ev with
      | stop p ok => exact absurd rfl (hns p ok)
      | _ => rfl
    refine ⟨?_, hinv.2.1, hinv.2.2.1, ?_⟩
    · rw [h0]; simpa using hinv.1
    · rw [hinv.2.2.2]
      constructor
      · rintro ⟨x, a, o, hm⟩; exact ⟨x, a, o, List.mem_append_left _ hm⟩
      · rintro ⟨x, a, o, hm⟩
        rcases List.mem_append.1 hm with hm | hm
        · exact ⟨x, a, o, hm⟩
        · rw [List.mem_singleton] at hm
          exact absurd hm.symm (hnt _ _ _ _)
  · intro hk
    have := hi.ntr hk
    simp only [hs.phase, hs.training, hs.started]
    exact this
  · simp only [hs.trace]; exact hi.trace.snoc hev
  · intro e he
    simp only [hs.trace] at he
    rcases List.mem_append.1 he with he | he
    · have := hs.dataOK (hi.data e he)
      cases e <;> exact this
    · rw [List.mem_singleton] at he
      subst he
      have := hs.dataOK hd
      cases e <;> exact this
  · intro hp; exact hs.pd hp (hi.pd hp)

theorem execute_inv (K : Kind σ α β) (hK : K.trainable = true → 0 < K.nPhases) (x : Arr α) :
    M.Keeps (Inv K) (execute K x) := by
  intro s hi
  unfold execute
  rw [M.bind_def]
  have hp := preExec_inv K hK x s hi
  split
  · next u s1 heq =>
    obtain ⟨ht, hwf, hi1, _⟩ := preExec_ok K hK x s s1 hi heq
    simp only [M.bind_def, M.get_def, logged]
    refine inv_hook_event (s := s1) hi1 (runHook_soft K _ s1) ?_ ?_ (by simp) (by simp)
    · intro hk
      have hinv := hi1.tr hk
      have : ¬ s1.phase < K.nPhases := fun h => by
        have := hinv.2.2.1.2 h
        rw [ht] at this
        cases this
      omega
    · exact ⟨hwf.1, hwf.2.1, hwf.2.2.1, hwf.dtype_some⟩
  · next e s1 heq => rw [heq] at hp; exact hp

theorem checkOutput_keep (y : Arr α) (s : St σ α β) : (checkOutput y s).2 = s := by
  unfold checkOutput
  split
  · rfl
  · simp only [M.bind_def, M.get_def]
    split <;> rfl

theorem checkOutput_ok (y : Arr α) (s s' : St σ α β) (h : checkOutput y s = (.ok (), s')) :
    s' = s ∧ y.ndim = 2 ∧ s.outputDim = some y.cols := by
  have h1 := checkOutput_keep y s
  rw [h] at h1
  simp only at h1
  refine ⟨h1, ?_⟩
  unfold checkOutput at h
  split at h
  · cases h
  · next hnd =>
    simp only [M.bind_def, M.get_def] at h
    split at h
    · cases h
    · next ho => exact ⟨Classical.not_not.mp hnd, Classical.not_not.mp ho⟩

theorem preInv_inv (K : Kind σ α β) (y : Arr α) : M.Keeps (Inv K) (preInversionChecks K y) := by
  unfold preInversionChecks
  refine .ite (.raise _) (.bind (ifTraining_inv K) fun _ => .bind .get fun s1 => ?_)
  refine .bind (.when (.ite (.raise _) (soft_keeps (setOutputDim_soft K _)))) fun _ => ?_
  intro s hi
  rw [checkOutput_keep]
  exact hi

theorem preInv_ok (K : Kind σ α β) (y : Arr α) (s s' : St σ α β) (hi : Inv K s)
    (h : preInversionChecks K y s = (.ok (), s')) :
    K.invertible = true ∧ s'.training = false ∧ y.ndim = 2 ∧ s'.outputDim = some y.cols ∧ Inv K s' := by
  have hi' := preInv_inv K y s hi
  rw [h] at hi'
  simp only at hi'
  unfold preInversionChecks at h
  split at h
  · cases h
  · next hk =>
    obtain ⟨_, s1, h1, h⟩ := M.bind_eq_ok h
    have ht := ifTraining_ok K s s1 hi h1
    obtain ⟨_, _, h0, h⟩ := M.bind_eq_ok h
    cases h0
    obtain ⟨_, s2, h2, h⟩ := M.bind_eq_ok h
    obtain ⟨rfl, hnd, ho⟩ := checkOutput_ok y s2 s' h
    have hs : Soft K s1 s' := by
      have := M.Moves.when (soft_pre K) (c := s1.outputDim = none)
        (.ite (c := s1.inputDim = none) (.raise (soft_pre K) Err.node) (setOutputDim_soft K s1.inputDim)) s1
      rw [h2] at this
      exact this
    exact ⟨by simpa using hk, by rw [hs.training]; exact ht, hnd, ho, hi'⟩

theorem inverse_inv (K : Kind σ α β) (y : Arr α) : M.Keeps (Inv K) (inverse K y) := by
  intro s hi
  unfold inverse
  rw [M.bind_def]
  have hp := preInv_inv K y s hi
  split
  · next u s1 heq =>
    obtain ⟨hinv, ht, hnd, ho, hi1⟩ := preInv_ok K y s s1 hi heq
    simp only [M.bind_def, M.get_def, logged]
    refine inv_hook_event (s := s1) hi1 (runHook_soft K _ s1) ?_ ?_ (by simp) (by simp)
    · refine ⟨hinv, ?_⟩
      intro hk
      have hinv := hi1.tr hk
      have : ¬ s1.phase < K.nPhases := fun h => by
        have := hinv.2.2.1.2 h
        rw [ht] at this
        cases this
      omega
    · exact ⟨hnd, ho⟩
  · next e s1 heq => rw [heq] at hp; exact hp

theorem init_inv (K : Kind σ α β) (hK : K.trainable = true → 0 < K.nPhases) (i o : Option Nat)
    (t : Option DType) (st : σ) : Inv K (init K i o t st).2 := by
  unfold init
  have hm : M.Moves (Soft K)
      (do setInputDim K i; setOutputDim K o; setDtype K t : NodeM σ α β Unit) :=
    .bind (soft_pre K) (setInputDim_soft K i) fun _ =>
      .bind (soft_pre K) (setOutputDim_soft K o) fun _ => setDtype_soft K t
  refine (hm _).inv ⟨?_, ?_, TraceOK.nil K, by simp, fun _ => rfl⟩
  · intro hk
    simp only [hk, if_true, okStops, List.countP_nil]
    refine ⟨by simp, by omega, ?_, by simp⟩
    have := hK hk
    simp only [true_iff]
    omega
  · intro hk
    simp [hk]

theorem call_inv (K : Kind σ α β) (hK : K.trainable = true → 0 < K.nPhases) (c : Call α β)
    (s : St σ α β) (hi : Inv K s) : Inv K (c.run K s) := by
  cases c with
  | train x args => exact train_inv K hK x args s hi
  | stop => exact stop_inv K s hi
  | execute x => exact execute_inv K hK x s hi
  | inverse y => exact inverse_inv K y s hi
  | setInputDim n => exact (setInputDim_soft K n s).inv hi
  | setOutputDim n => exact (setOutputDim_soft K n s).inv hi
  | setDtype t => exact (setDtype_soft K t s).inv hi

theorem runCalls_inv (K : Kind σ α β) (hK : K.trainable = true → 0 < K.nPhases)
    (cs : List (Call α β)) (s : St σ α β) (hi : Inv K s) : Inv K (runCalls K s cs) := by
  induction cs generalizing s with
  | nil => exact hi
  | cons c cs ih => exact ih _ (call_inv K hK c s hi)

end Mdp.Node
