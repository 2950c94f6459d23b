import Verif.Node.Props

/-! # Executing and inverting trained nodes -/

namespace Mdp.Node

open Py

variable {σ α β : Type}

/-- A node that is not (and need not be) trained any more and whose dimensions and dtype are known. -/
structure Stable (s : St σ α β) : Prop where
  training : s.training = false
  touched : ¬ (s.phase = 0 ∧ s.started = false)
  inp : s.inputDim ≠ none
  out : s.outputDim ≠ none
  dt : s.dtype ≠ none

/-- The execute hook does not change the node. -/
def PureExec (K : Kind σ α β) : Prop := ∀ st x, (K.execHook st x).st = st ∧ (K.execHook st x).sets = []

/-- The inverse hook does not change the node. -/
def PureInv (K : Kind σ α β) : Prop := ∀ st x, (K.invHook st x).st = st ∧ (K.invHook st x).sets = []

theorem checkInput_stable (K : Kind σ α β) (s : St σ α β) (hin : s.inputDim ≠ none) (hdt : s.dtype ≠ none)
    (x : Arr α) : checkInput K x s =
      if x.ndim = 2 ∧ s.inputDim = some x.cols ∧ 0 < x.nrows then (.ok (), s) else (.error .node, s) := by
  unfold checkInput
  by_cases h1 : x.ndim = 2
  · rw [if_neg (by simp [h1])]
    simp only [M.bind_def, M.get_def]
    rw [when_false hin]
    simp only [M.ret_def]
    rw [when_false hdt]
    simp only [M.ret_def]
    by_cases h2 : s.inputDim = some x.cols
    · rw [if_neg (by simp [h2])]
      by_cases h3 : x.nrows = 0
      · rw [if_pos h3, if_neg (by omega)]; rfl
      · rw [if_neg h3, if_pos ⟨h1, h2, by omega⟩]; rfl
    · rw [if_pos h2, if_neg (by simp [h2])]; rfl
  · rw [if_pos h1, if_neg (by simp [h1])]; rfl

theorem execute_stable (K : Kind σ α β) (s : St σ α β) (hs : Stable s)
    (x : Arr α) (hp : ∀ x, (K.execHook s.st x).st = s.st ∧ (K.execHook s.st x).sets = []) :
    execute K x s =
      if x.ndim = 2 ∧ s.inputDim = some x.cols ∧ 0 < x.nrows then
        ((K.execHook s.st (refcast s.dtype x)).res,
          { s with trace := s.trace ++ [.exec (refcast s.dtype x)] })
      else (.error .node, s) := by
  have h1 : (M.when (s.phase = 0 ∧ s.started = false) (trainLoop K x) : NodeM σ α β Unit) s = (.ok (), s) := by
    simp [M.when, hs.touched]
  have hpe : preExecutionChecks K x s =
      if x.ndim = 2 ∧ s.inputDim = some x.cols ∧ 0 < x.nrows then (.ok (), s) else (.error .node, s) := by
    unfold preExecutionChecks
    simp only [M.bind_def, M.get_def]
    rw [h1]
    simp only [ifTrainingStopTraining, M.bind_def, M.get_def, hs.training]
    rw [if_neg (by simp)]
    simp only [M.pure_def, checkInput_stable K s hs.inp hs.dt]
    by_cases hc : x.ndim = 2 ∧ s.inputDim = some x.cols ∧ 0 < x.nrows
    · simp only [if_pos hc]; rw [when_false hs.out]; rfl
    · simp only [if_neg hc]
  unfold execute
  simp only [M.bind_def, hpe, M.get_def]
  by_cases hc : x.ndim = 2 ∧ s.inputDim = some x.cols ∧ 0 < x.nrows
  · simp only [if_pos hc]
    obtain ⟨hp1, hp2⟩ := hp (refcast s.dtype x)
    simp only [logged, runHook, M.bind_def, M.modify_def, hp1, hp2, runSets, M.pure_def, M.lift_def]
  · simp only [if_neg hc]

theorem inverse_stable (K : Kind σ α β) (s : St σ α β) (htr : s.training = false) (hout : s.outputDim ≠ none)
    (hp : ∀ x, (K.invHook s.st x).st = s.st ∧ (K.invHook s.st x).sets = []) (y : Arr α) :
    inverse K y s =
      if K.invertible = false then (.error .notInvertible, s)
      else if y.ndim = 2 ∧ s.outputDim = some y.cols then
        ((K.invHook s.st (refcast s.dtype y)).res,
          { s with trace := s.trace ++ [.inv (refcast s.dtype y)] })
      else (.error .node, s) := by
  have hpi : preInversionChecks K y s =
      if K.invertible = false then (.error .notInvertible, s)
      else if y.ndim = 2 ∧ s.outputDim = some y.cols then (.ok (), s) else (.error .node, s) := by
    unfold preInversionChecks
    split
    · rfl
    · simp only [ifTrainingStopTraining, M.bind_def, M.get_def, htr]
      rw [if_neg (by simp)]
      simp only [M.pure_def]
      rw [when_false hout]
      simp only [M.ret_def]
      unfold checkOutput
      by_cases h1 : y.ndim = 2
      · rw [if_neg (by simp [h1])]
        simp only [M.bind_def, M.get_def]
        by_cases h2 : s.outputDim = some y.cols
        · rw [if_neg (by simp [h2]), if_pos ⟨h1, h2⟩]; rfl
        · rw [if_pos h2, if_neg (by simp [h2])]; rfl
      · rw [if_pos h1, if_neg (by simp [h1])]; rfl
  unfold inverse
  simp only [M.bind_def, hpi, M.get_def]
  by_cases hk : K.invertible = false
  · simp only [if_pos hk]
  · simp only [if_neg hk]
    by_cases hc : y.ndim = 2 ∧ s.outputDim = some y.cols
    · simp only [if_pos hc]
      obtain ⟨hp1, hp2⟩ := hp (refcast s.dtype y)
      simp only [logged, runHook, M.bind_def, M.modify_def, hp1, hp2, runSets, M.pure_def, M.lift_def]
    · simp only [if_neg hc]

theorem stable_visible {s t : St σ α β} (h : visible s = visible t) (hs : Stable s) : Stable t := by
  simp only [visible, Prod.mk.injEq] at h
  obtain ⟨h1, h2, h3, h4, h5, h6, _⟩ := h
  exact ⟨h4 ▸ hs.training, by rw [← h5, ← h6]; exact hs.touched, h1 ▸ hs.inp, h2 ▸ hs.out, h3 ▸ hs.dt⟩

/-- After a successful execute a node with a pure execute hook is stable. -/
theorem execute_ok_stable (K : Kind σ α β) (hK : Sane K) (hp : PureExec K) (x y : Arr α) (s s' : St σ α β)
    (hi : Inv K s) (h : execute K x s = (.ok y, s')) :
    Stable s' ∧ Inv K s' ∧ x.ndim = 2 ∧ s'.inputDim = some x.cols ∧ 0 < x.nrows ∧
      (K.execHook s'.st (refcast s'.dtype x)).res = .ok y := by
  have hi' : Inv K s' := by have := execute_inv K hK x s hi; rw [h] at this; exact this
  unfold execute at h
  obtain ⟨_, s1, h1, h⟩ := M.bind_eq_ok h
  obtain ⟨ht, hwf, hi1, ho⟩ := preExec_ok K hK x s s1 hi h1
  simp only [M.bind_def, M.get_def, logged, runHook, M.modify_def, (hp s1.st _).1, (hp s1.st _).2, runSets,
    M.pure_def, M.lift_def] at h
  have h2 := (Prod.ext_iff.1 h).2
  have h3 := (Prod.ext_iff.1 h).1
  simp only at h2 h3
  subst h2
  refine ⟨⟨ht, ?_, ?_, ho, hwf.2.2.2⟩, hi', hwf.1, hwf.2.2.1, hwf.2.1, h3⟩
  · simp only
    rintro ⟨h0, -⟩
    by_cases hk : K.trainable = true
    · have h4 := hi1.tr hk
      have h5 := hK hk
      have := h4.2.2.1.2 (by omega)
      rw [ht] at this; cases this
    · have := (hi1.ntr (by simpa using hk)).1
      omega
  · simp only
    rw [hwf.2.2.1]; simp

end Mdp.Node
