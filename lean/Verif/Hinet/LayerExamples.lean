import Verif.Hinet.LayerTrainProps

/-! # Concrete layers that meet the hypotheses of the theorems about layers -/

namespace Mdp.Layer

open Py Mdp.Node Mdp.Flow

/-- A class that reverses every row and adds `n`; its inverse subtracts and reverses. -/
def revKind (n : Int) : Kind Unit Int Unit where
  trainable := false
  invertible := true
  preserveDim := true
  nPhases := 0
  supported := fun _ => true
  reqArgs := 0
  checkTrainArgs := fun _ _ _ => .ok ()
  trainHook := fun _ st _ _ => ⟨st, [], .ok ()⟩
  stopHook := fun _ st => ⟨st, [], .ok ()⟩
  execHook := fun st x => ⟨st, [], .ok { x with data := x.data.map fun r => (r.map (· + n)).reverse }⟩
  invHook := fun st x => ⟨st, [], .ok { x with data := x.data.map fun r => (r.reverse.map (· - n)) }⟩

def revSt (d : Nat) : St Unit Int Unit := ⟨some d, some d, some 7, false, -1, false, (), []⟩
def revNode (n : Int) (d : Nat) : Nd Unit Int Unit := ⟨revKind n, revSt d⟩

theorem revNode_reachable (n : Int) (d : Nat) : Reachable (revNode n d).K (revNode n d).s :=
  ⟨some d, none, some 7, (), [], by simp [init, M.bind_def, setInputDim, setInputDimRaw, setOutputDim, setDtype, revKind, revNode],
    by simp [init, M.bind_def, setInputDim, setInputDimRaw, setOutputDim, setDtype, revKind, revNode, runCalls, revSt]⟩

theorem revKind_pure (n : Int) : PureExec (revKind n) := fun _ _ => ⟨rfl, rfl⟩
theorem revKind_sane (n : Int) : Sane (revKind n) := fun h => Bool.noConfusion h

theorem revKind_honest (n : Int) : Honest (revKind n) := by
  intro x s y s' hi h
  obtain ⟨h1, h2, h3, h4, h5, h6⟩ := execute_ok_stable _ (revKind_sane n) (revKind_pure n) x y s s' hi h
  have := h2.pd rfl
  simp only [revKind, Except.ok.injEq] at h6
  subst h6
  exact ⟨h3, by rw [← this, h4]; rfl, by simp [Arr.nrows, refcast]⟩

theorem revNode_inner (n : Int) (d : Nat) : InnerOK (revNode n d) :=
  innerOK_of_reachable _ (revKind_sane n) (revKind_pure n) (revKind_honest n) (revNode_reachable n d)

theorem revNode_stable (n : Int) (d : Nat) : Stable (revNode n d).s :=
  ⟨rfl, by simp [revNode, revSt], by simp [revNode, revSt], by simp [revNode, revSt], by simp [revNode, revSt]⟩

theorem revNode_undoes (n : Int) (d : Nat) : Undoes (revNode n d) := by
  intro x y t hx h
  rw [execute_stable (revNode n d).K _ (revNode_stable n d) x (fun x => revKind_pure n _ x)] at h
  split at h
  · next hc =>
    obtain ⟨c1, c2, c3⟩ := hc
    simp only [revNode, revKind, revSt, refcast, Except.ok.injEq] at h
    subst h
    have hwf : WF (⟨x.ndim, x.cols, 7, x.data.map fun r => (r.map (· + n)).reverse⟩ : Arr Int) := by
      refine ⟨c1, fun r hr => ?_⟩
      simp only [List.mem_map] at hr
      obtain ⟨q, hq, rfl⟩ := hr
      simpa using hx.2 q hq
    refine ⟨hwf, ?_⟩
    rw [inverse_stable (revNode n d).K _ rfl (by simp [revNode, revSt]) (fun x => ⟨rfl, rfl⟩), if_neg (by simp [revNode, revKind]),
      if_pos ⟨c1, by simpa [revNode, revSt] using c2⟩]
    refine ⟨_, rfl, c1, rfl, ?_⟩
    simp [refcast, revNode, revSt, Function.comp_def]
  · cases h

theorem revNode_inv (n : Int) (d : Nat) : InvOK (revNode n d) :=
  ⟨revNode_inner n d, revNode_stable n d, fun _ _ => ⟨rfl, rfl⟩, rfl, revNode_undoes n d⟩

def revNodes : List (Nd Unit Int Unit) := [revNode 10 2, revNode 20 1, revNode 30 3]

def revLayerSt : St (List (Nd Unit Int Unit)) Int Unit := ⟨some 6, some 6, some 7, false, -1, false, revNodes, []⟩

theorem revLayer_init : layerInit revNodes none = .ok ⟨layerKind revNodes, revLayerSt⟩ := by rfl

def revX : Arr Int := ⟨2, 6, 7, [[1, 2, 3, 4, 5, 6], [0, 0, 0, 0, 0, 1]]⟩
def revY : Arr Int := ⟨2, 6, 7, [[12, 11, 23, 36, 35, 34], [10, 10, 20, 31, 30, 30]]⟩

theorem revLayer_execute : (Layer.execute (layerKind revNodes) revX revLayerSt).1 = .ok revY := by rfl

/-- The hypotheses of `layer_execute_concat` and of `layer_inverse_undoes` hold for this layer. -/
example : LayerReachable revNodes revLayerSt ∧ (∀ nd ∈ revNodes, InnerOK nd) ∧ (∀ nd ∈ revLayerSt.st, InvOK nd) ∧
    Stable revLayerSt ∧ outDimSum revLayerSt.st = revLayerSt.outputDim ∧ WF revX ∧
    ∃ s', Layer.execute (layerKind revNodes) revX revLayerSt = (.ok revY, s') := by
  refine ⟨LayerReachable.init revLayer_init, ?_, ?_, ?_, rfl, ?_, _, Prod.ext revLayer_execute rfl⟩
  · intro nd hnd
    simp only [revNodes, List.mem_cons, List.not_mem_nil, or_false] at hnd
    rcases hnd with rfl | rfl | rfl <;> exact revNode_inner _ _
  · intro nd hnd
    simp only [revLayerSt, revNodes, List.mem_cons, List.not_mem_nil, or_false] at hnd
    rcases hnd with rfl | rfl | rfl <;> exact revNode_inv _ _
  · exact ⟨rfl, by simp [revLayerSt], by simp [revLayerSt], by simp [revLayerSt], by simp [revLayerSt]⟩
  · exact ⟨rfl, by simp [revX]⟩

/-- `clone_execute` and `clone_inverse` apply to this node. -/
theorem revNode_row (n : Int) (d : Nat) : RowNode (revNode n d) d d 7 7 (fun r => (r.map (· + n)).reverse) :=
  ⟨revNode_stable n d, rfl, rfl, rfl, rfl, fun _ => ⟨rfl, rfl⟩, fun _ => rfl, fun r hr => by simpa using hr⟩

theorem revNode_rowInv (n : Int) (d : Nat) : RowInvNode (revNode n d) d d 7 7 (fun r => (r.reverse.map (· - n))) :=
  ⟨rfl, rfl, rfl, rfl, rfl, rfl, fun _ => ⟨rfl, rfl⟩, fun _ => rfl, fun r hr => by simpa using hr⟩

/-- Three copies of a node on six columns. -/
example : ∃ L C, layerInit (List.replicate 3 (revNode 1 2)) none = .ok L ∧ cloneInit (revNode 1 2) 3 none = .ok C ∧
    (CloneLayer.execute C.K 3 revX C.s).1 = (Layer.execute L.K revX L.s).1 ∧
    (Layer.execute L.K revX L.s).1 = .ok ⟨2, 6, 7, [[3, 2, 5, 4, 7, 6], [1, 1, 1, 1, 2, 1]]⟩ := by
  obtain ⟨L, C, h1, h2, h3, h4⟩ := clone_execute (revNode 1 2) 2 2 7 7 _ (revNode_row 1 2) (by decide) 3 (by decide)
    revX (fun _ => ⟨rfl, by simp [revX]⟩)
  exact ⟨L, C, h1, h2, h3, h4 rfl rfl (by decide)⟩

/-- The inverse of three copies undoes this. -/
example : ∃ L C, layerInit (List.replicate 3 (revNode 1 2)) none = .ok L ∧ cloneInit (revNode 1 2) 3 none = .ok C ∧
    (inverse C.K ⟨2, 6, 7, [[3, 2, 5, 4, 7, 6], [1, 1, 1, 1, 2, 1]]⟩ C.s).1 = .ok revX := by
  obtain ⟨L, C, h1, h2, h3, h4⟩ := clone_inverse (revNode 1 2) 2 2 7 7 _ (revNode_rowInv 1 2) (by decide) 3 (by decide)
    ⟨2, 6, 7, [[3, 2, 5, 4, 7, 6], [1, 1, 1, 1, 2, 1]]⟩ (fun _ => ⟨rfl, by simp⟩)
  exact ⟨L, C, h1, h2, h3.trans (h4 rfl rfl)⟩

/-- A node without input columns: the `Layer` returns an array without columns, the `CloneLayer` divides by 0. -/
theorem clone_zero_width : ∃ L C, layerInit (List.replicate 2 (revNode 1 0)) none = .ok L ∧
    cloneInit (revNode 1 0) 2 none = .ok C ∧
    (Layer.execute L.K ⟨2, 0, 7, [[]]⟩ L.s).1 = .ok ⟨2, 0, 7, [[]]⟩ ∧
    (CloneLayer.execute C.K 2 ⟨2, 0, 7, [[]]⟩ C.s).1 = .error .value :=
  ⟨_, _, layerInit_replicate (revNode 1 0) 2 0 0 7 (by decide) rfl rfl rfl rfl rfl,
    cloneInit_eq (revNode 1 0) 2 0 0 7 (by decide) rfl rfl rfl rfl rfl, rfl, rfl⟩

end Mdp.Layer
