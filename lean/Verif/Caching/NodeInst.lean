import Verif.Caching.Props
import Verif.Node.Stable

/-!
# The caching extension over the model of `Node` (C48)

The condition asked of the classes in `cache_transparent_partial` holds of every `Node` subclass.
-/

namespace Mdp.Caching

open Mdp.Node

variable {σ α β C : Type}

/-- Node classes given by their hooks (`Verif/Node/Model.lean`); the execute hook is a function of state and data. -/
def ofKinds (kinds : C → Kind σ α β) (mro : C → List C) : Sem C (St σ α β) (Arr α) (Arr α) Node.Err where
  pre c s x := preExecutionChecks (kinds c) x s
  body c s x := ((kinds c).execHook s.st (refcast s.dtype x)).res
  mro := mro

/-- `execute` of the node model is the `exec` of this class, up to the trace of hook calls that the node model keeps. -/
theorem ofKinds_exec (kinds : C → Kind σ α β) (mro : C → List C) (hp : ∀ c, PureExec (kinds c)) (c : C)
    (s : St σ α β) (x : Arr α) :
    (execute (kinds c) x s).1 = ((ofKinds kinds mro).exec c s x).1 ∧
      visible (execute (kinds c) x s).2 = visible ((ofKinds kinds mro).exec c s x).2 := by
  unfold execute Sem.exec ofKinds
  simp only [Py.M.bind_def]
  generalize preExecutionChecks (kinds c) x s = p
  obtain ⟨a, s'⟩ := p
  cases a with
  | error e => exact ⟨rfl, rfl⟩
  | ok u =>
    obtain ⟨hp1, hp2⟩ := hp c s'.st (refcast s'.dtype x)
    simp only [Py.M.get_def, logged, runHook, Py.M.bind_def, Py.M.modify_def, hp1, hp2, runSets, Py.M.pure_def,
      Py.M.lift_def]
    exact ⟨trivial, rfl⟩

theorem pre_stable (K : Kind σ α β) (s : St σ α β) (hs : Stable s) (x : Arr α) :
    preExecutionChecks K x s =
      if x.ndim = 2 ∧ s.inputDim = some x.cols ∧ 0 < x.nrows then (.ok (), s) else (.error .node, s) := by
  have h1 : (Py.M.when (s.phase = 0 ∧ s.started = false) (trainLoop K x) : NodeM σ α β Unit) s = (.ok (), s) := by
    simp [Py.M.when, hs.touched]
  unfold preExecutionChecks
  simp only [Py.M.bind_def, Py.M.get_def]
  rw [h1]
  simp only [ifTrainingStopTraining, Py.M.bind_def, Py.M.get_def, hs.training]
  rw [if_neg (by simp)]
  simp only [Py.M.pure_def, checkInput_stable K s hs.inp hs.dt]
  by_cases hc : x.ndim = 2 ∧ s.inputDim = some x.cols ∧ 0 < x.nrows
  · simp only [if_pos hc]; rw [when_false hs.out]; rfl
  · simp only [if_neg hc]

/-- C48: a node that is trained and knows its dimensions is settled. -/
theorem stable_settled (kinds : C → Kind σ α β) (mro : C → List C) (c : C) (s : St σ α β) (hs : Stable s) :
    Settled (ofKinds kinds mro) c s := by
  intro x
  simp only [ofKinds, pre_stable (kinds c) s hs x]
  split <;> rfl

/-- C48: every class of nodes meets the condition of `cache_transparent_partial`: when the checks have passed once,
the node is trained and knows its dimensions and dtype, and later checks change nothing. -/
theorem ofKinds_lawful (kinds : C → Kind σ α β) (mro : C → List C) (hK : ∀ c, Sane (kinds c)) :
    Lawful (ofKinds kinds mro) (fun c s => Node.Inv (kinds c) s) := by
  refine ⟨fun c s x h => preExec_inv (kinds c) (hK c) x s h, fun c s x s' hi h => ?_⟩
  obtain ⟨ht, hwf, hi1, ho⟩ := preExec_ok (kinds c) (hK c) x s s' hi h
  have hs : Stable s' := by
    refine ⟨ht, ?_, ?_, ho, hwf.2.2.2⟩
    · rintro ⟨h0, -⟩
      by_cases hk : (kinds c).trainable = true
      · have h4 := hi1.tr hk
        have h5 := hK c hk
        have := h4.2.2.1.2 (by omega)
        rw [ht] at this; cases this
      · have := (hi1.ntr (by simpa using hk)).1
        omega
    · rw [hwf.2.2.1]; simp
  refine ⟨stable_settled kinds mro c s' hs, ?_⟩
  simp only [ofKinds, pre_stable (kinds c) s' hs x]
  rw [if_pos ⟨hwf.1, hwf.2.2.1, hwf.2.1⟩]

/-- C48 (partial): for histories of `Node`s: results and states with the cache are those without. -/
theorem node_cache_transparent_partial [DecidableEq C] [DecidableEq (St σ α β)] [DecidableEq (Arr α)] {D : Type}
    [DecidableEq D] (kinds : C → Kind σ α β) (mro : C → List C) (hK : ∀ c, Sane (kinds c)) (cls : Nat → C)
    (os : List (Op C (St σ α β) (Arr α) D)) (st : Nat → St σ α β) (hi : ∀ n, Reachable (kinds (cls n)) (st n))
    (hc : Calm (ofKinds kinds mro) (fun c s => Node.Inv (kinds c) s) cls st os) :
    ((World.start (fun _ => []) st).run (ofKinds kinds mro) cls os).1 = (plain (ofKinds kinds mro) cls st os).1 ∧
      ((World.start (fun _ => []) st).run (ofKinds kinds mro) cls os).2.st =
        (plain (ofKinds kinds mro) cls st os).2 :=
  cache_transparent_partial (ofKinds_lawful kinds mro hK) os _ st (fun _ _ _ h => by simp at h)
    (fun n => reachable_inv (hK _) (hi n)) hc

end Mdp.Caching
