import Verif.Online.Chunks

/-!
# What `execute` and `inverse` of an `OnlineNode` do

Properties of the model of `Online/Node.lean` (signal_node_online.py:177-227, signal_node.py:641-667). No definitions are added,
but for the node of the example.
-/

namespace Mdp.Online

open Py Mdp.Node

variable {σ α β : Type}

/-- **Inversion**: if `inverse` returns, the class is invertible, the data are two-dimensional with as many columns as the node
has outputs (inputs, if the number of outputs is not known), and the result is that of the inversion hook, called once with the
data in the dtype of the node. -/
theorem inverse_trace (K : OKind σ α β) (y z : Arr α) (s s' : OSt σ α β) (h : oinverse K y s = (.ok z, s')) :
    let y' : Arr α := { y with dtype := s.node.dtype.getD 0 }
    K.invertible = true ∧ y.ndim = 2 ∧ (s.node.outputDim <|> s.node.inputDim) = some y.cols ∧
      (K.invHook s.node.st y').res = .ok z ∧ s'.node.st = (K.invHook s.node.st y').st ∧ s'.trace = s.trace ++ [.inv y'] := by
  unfold oinverse at h
  obtain ⟨_, s1, h1, h⟩ := M.bind_eq_ok h
  rw [M.bind_ok (M.get_def _)] at h
  have key : K.invertible = true ∧ y.ndim = 2 ∧ (s.node.outputDim <|> s.node.inputDim) = some y.cols ∧
      s1.node.st = s.node.st ∧ s1.node.dtype = s.node.dtype ∧ s1.trace = s.trace := by
    unfold opreInv at h1
    split at h1
    · cases h1
    · next hi =>
      rw [M.bind_ok (M.get_def _)] at h1
      obtain ⟨_, s2, h2, h3⟩ := M.bind_eq_ok h1
      have h4 : (s.node.outputDim <|> s.node.inputDim) = s2.node.outputDim ∧ s2.node.st = s.node.st ∧
          s2.node.dtype = s.node.dtype ∧ s2.trace = s.trace := by
        cases ho : s.node.outputDim with
        | some n =>
          simp only [M.when, ho, reduceCtorEq, if_false] at h2
          cases h2
          exact ⟨ho.symm, rfl, rfl, rfl⟩
        | none =>
          cases hin : s.node.inputDim with
          | none => simp [M.when, ho, hin] at h2
          | some n =>
            simp only [M.when, ho, hin, if_true, reduceCtorEq, if_false, onNode, setOutputDim, setOutputDimRaw, ne_eq,
              not_true, false_and] at h2
            split at h2 <;> cases h2 <;> exact ⟨rfl, rfl, rfl, rfl⟩
      unfold onNode checkOutput at h3
      by_cases hn : y.ndim = 2
      · simp only [hn, ne_eq, not_true, if_false, M.bind_def, M.get_def] at h3
        by_cases hc : s2.node.outputDim = some y.cols
        · simp only [hc, not_true, if_false, M.pure_def] at h3
          cases h3
          exact ⟨by simpa using hi, hn, h4.1.trans hc, h4.2.1, h4.2.2.1, h4.2.2.2⟩
        · simp [hc] at h3
      · simp [hn] at h3
  obtain ⟨k1, k2, k3, k4, k5, k6⟩ := key
  unfold olog onNode refcast at h
  obtain ⟨h5, h6⟩ := Prod.mk.inj h
  rw [k4, k5] at h5 h6
  simp only at h5 h6
  refine ⟨k1, k2, k3, ?_, ?_, ?_⟩
  · unfold runHook at h5
    simp only [M.bind_def, M.modify_def, M.lift_def] at h5
    split at h5
    · exact h5
    · cases h5
  · rw [← h6]
    exact runHook_st K.toKind _ s1.node
  · rw [← h6, ← k6]

/-- **Execution** of a node that has been trained or has no training: if `execute` returns, the data are two-dimensional, not
empty, with as many columns as the node has inputs, and the result is that of the execution hook, called once, after the check of
the parameters, with the data in the dtype of the node (that of the data, if it is not known). -/
theorem execute_hook (K : OKind σ α β) (x z : Arr α) (s s' : OSt σ α β) (ht : ¬ (s.node.phase = 0 ∧ s.node.started = false))
    (hp : ∀ st, (K.checkParams st x).sets = []) (h : oexecute K x s = (.ok z, s')) :
    let x' : Arr α := { x with dtype := s.node.dtype.getD x.dtype }
    x.ndim = 2 ∧ x.nrows ≠ 0 ∧ (s.node.inputDim = none ∨ s.node.inputDim = some x.cols) ∧
      (K.checkParams s.node.st x).res = .ok () ∧ (K.execHook (K.checkParams s.node.st x).st x').res = .ok z ∧
      s'.node.st = (K.execHook (K.checkParams s.node.st x).st x').st ∧ s'.trace = s.trace ++ [.exec x'] := by
  unfold oexecute at h
  obtain ⟨_, s1, h1, h⟩ := M.bind_eq_ok h
  rw [M.bind_ok (M.get_def _)] at h
  have key : x.ndim = 2 ∧ x.nrows ≠ 0 ∧ (s.node.inputDim = none ∨ s.node.inputDim = some x.cols) ∧
      (K.checkParams s.node.st x).res = .ok () ∧
      s1.node.st = (K.checkParams s.node.st x).st ∧ s1.node.dtype.getD 0 = s.node.dtype.getD x.dtype ∧ s1.trace = s.trace := by
    unfold opreExec at h1
    rw [M.bind_ok (M.get_def _)] at h1
    simp only [M.when, if_neg ht] at h1
    obtain ⟨_, s2, h2, h1⟩ := M.bind_eq_ok h1
    cases h2
    obtain ⟨_, s2, h2, h1⟩ := M.bind_eq_ok h1
    have k2 : x.ndim = 2 ∧ x.nrows ≠ 0 ∧ (s.node.inputDim = none ∨ s.node.inputDim = some x.cols) ∧
        s2.node.st = s.node.st ∧ s2.node.dtype.getD 0 = s.node.dtype.getD x.dtype ∧ s2.trace = s.trace := by
      unfold ocheckInput at h2
      obtain ⟨_, s3, h3, h2⟩ := M.bind_eq_ok h2
      rw [M.bind_ok (M.get_def _)] at h2
      have k3 : s2.node = s3.node ∧ s2.trace = s3.trace := by
        simp only [M.when] at h2
        split at h2
        · cases hT : K.types with
          | nil => rw [hT] at h2; cases h2
          | cons t r => rw [hT] at h2; simp only [M.modify_def] at h2; cases h2; exact ⟨rfl, rfl⟩
        · cases h2; exact ⟨rfl, rfl⟩
      rw [k3.1, k3.2]
      unfold onNode at h3
      obtain ⟨h3, h4⟩ := Prod.mk.inj h3
      rcases h5 : checkInput K.toKind x s.node with ⟨q, n⟩
      rw [h5] at h3 h4
      simp only at h3 h4
      subst h3
      rw [← h4]
      simp only
      unfold checkInput at h5
      by_cases hn : x.ndim = 2
      · rw [if_neg (by simpa using hn), M.bind_ok (M.get_def _)] at h5
        obtain ⟨_, n1, h6, h5⟩ := M.bind_eq_ok h5
        rw [M.bind_ok (M.get_def _)] at h5
        obtain ⟨_, n2, h7, h5⟩ := M.bind_eq_ok h5
        rw [M.bind_ok (M.get_def _)] at h5
        have k6 : n1.st = s.node.st ∧ n1.dtype = s.node.dtype ∧
            (n1.inputDim = some x.cols → s.node.inputDim = none ∨ s.node.inputDim = some x.cols) := by
          simp only [M.when] at h6
          split at h6
          · next hi =>
            simp only [setInputDim, setInputDimRaw] at h6
            split at h6
            · cases h6
            · split at h6
              · split at h6 <;> cases h6
                exact ⟨rfl, rfl, fun _ => .inl hi⟩
              · cases h6; exact ⟨rfl, rfl, fun _ => .inl hi⟩
          · cases h6; exact ⟨rfl, rfl, .inr⟩
        have k7 : n2.st = n1.st ∧ n2.inputDim = n1.inputDim ∧ n2.dtype.getD 0 = n1.dtype.getD x.dtype := by
          simp only [M.when] at h7
          split at h7
          · next hd =>
            simp only [setDtype] at h7
            split at h7
            · cases h7
            · split at h7
              · cases h7
              · cases h7; simp [hd]
          · next hd =>
            cases h7
            refine ⟨rfl, rfl, ?_⟩
            cases hh : n1.dtype with
            | none => exact absurd hh hd
            | some t => rfl
        split at h5
        · cases h5
        · next hi =>
          split at h5
          · cases h5
          · next hr =>
            cases h5
            rw [not_not, k7.2.1] at hi
            exact ⟨hn, hr, k6.2.2 hi, k7.1.trans k6.1, by rw [k7.2.2, k6.2.1], trivial⟩
      · rw [if_pos (by simpa using hn)] at h5; cases h5
    rw [M.bind_ok (M.get_def _)] at h1
    obtain ⟨_, s3, h3, h1⟩ := M.bind_eq_ok h1
    rw [M.bind_ok (M.get_def _)] at h1
    unfold onNode at h3
    obtain ⟨h3, h4⟩ := Prod.mk.inj h3
    have k4 : (K.checkParams s.node.st x).res = .ok () ∧ s3.node.st = (K.checkParams s.node.st x).st ∧
        s3.node.dtype = s2.node.dtype ∧ s3.trace = s2.trace := by
      unfold runHook at h3 h4
      rw [k2.2.2.2.1] at h3 h4
      simp only [M.bind_def, M.modify_def, hp, runSets, M.pure_def, M.lift_def] at h3 h4
      rw [← h4]
      exact ⟨h3, rfl, rfl, rfl⟩
    have k5 : s1.node.st = s3.node.st ∧ s1.node.dtype = s3.node.dtype ∧ s1.trace = s3.trace := by
      split at h1
      · unfold onNode at h1
        obtain ⟨_, h5⟩ := Prod.mk.inj h1
        rw [← h5]
        refine ⟨?_, ?_, rfl⟩ <;>
        · simp only [setOutputDim, setOutputDimRaw]
          split
          · rfl
          · split
            · rfl
            · split
              · split <;> rfl
              · rfl
      · cases h1; exact ⟨rfl, rfl, rfl⟩
    exact ⟨k2.1, k2.2.1, k2.2.2.1, k4.1, k5.1.trans k4.2.1, by rw [k5.2.1, k4.2.2.1, k2.2.2.2.2.1],
      k5.2.2.trans (k4.2.2.2.trans k2.2.2.2.2.2)⟩
  obtain ⟨k1, k2, k3, k4, k5, k6, k7⟩ := key
  unfold olog onNode refcast at h
  obtain ⟨h5, h6⟩ := Prod.mk.inj h
  rw [k5, k6] at h5 h6
  simp only at h5 h6
  refine ⟨k1, k2, k3, k4, ?_, ?_, ?_⟩
  · unfold runHook at h5
    simp only [M.bind_def, M.modify_def, M.lift_def] at h5
    split at h5
    · exact h5
    · cases h5
  · rw [← h6]
    exact runHook_st K.toKind _ s1.node
  · rw [← h6, ← k7]

/-- A node that adds the number of samples it was trained with, and takes it away again. -/
def hdemo : OKind (List (Nat × List (List Nat))) Nat Unit :=
  { odemo with
    invertible := true
    execHook := fun st x => ⟨st, [], .ok { x with data := x.data.map (·.map (· + st.length)) }⟩
    invHook := fun st x => ⟨st, [], .ok { x with data := x.data.map (·.map (· - st.length)) }⟩ }

def hdemo0 : OSt (List (Nat × List (List Nat))) Nat Unit :=
  (otrain hdemo ⟨2, 1, 1, [[5], [6]]⟩ [] (oinit hdemo (some 1) (some 1) none []).2).2

/-- The node is trained with two samples; data of another dtype are cast. -/
example : ¬ (hdemo0.node.phase = 0 ∧ hdemo0.node.started = false) ∧ (hdemo.checkParams hdemo0.node.st ⟨2, 1, 3, [[7]]⟩).sets = [] ∧
    (oexecute hdemo ⟨2, 1, 3, [[7]]⟩ hdemo0).1.toOption.map (fun y => (y.dtype, y.data)) =
      some (1, [[7 + hdemo0.node.st.length]]) ∧ 0 < hdemo0.node.st.length ∧
    (oinverse hdemo ⟨2, 1, 3, [[70]]⟩ hdemo0).1.toOption.map (fun y => (y.dtype, y.data)) =
      some (1, [[70 - hdemo0.node.st.length]]) := by
  decide +kernel

end Mdp.Online
