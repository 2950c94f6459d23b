import Verif.Online.LayerTheorems

/-!
# Dimensions of online layers

Properties of the model of `Online/Layer.lean` (layer_online.py, layer.py:30-130, 157-163, 264-269, 293-313): the dimensions a
layer gets when it is built and when its training is stopped. No definitions are added.
-/

namespace Mdp.Online

open Py Mdp.Node Mdp.Flow Mdp.Layer

variable {σ α β : Type}

theorem ostop_one {K : OKind σ α β} (hK : K.nPhases = 1) {s s' : OSt σ α β} (h : ostop K s = (.ok (), s')) :
    ∃ n, runSets K.toKind (K.stopHook 0 s.node.st).sets { s.node with st := (K.stopHook 0 s.node.st).st } = (.ok (), n) ∧
      (K.stopHook 0 s.node.st).res = .ok () ∧ s'.node.outputDim = n.outputDim ∧ s'.node.st = (K.stopHook 0 s.node.st).st := by
  unfold ostop at h
  rw [M.bind_ok (M.get_def _)] at h
  split at h
  · cases h
  · split at h
    · cases h
    · obtain ⟨_, s1, h1, h⟩ := M.bind_eq_ok h
      rw [M.bind_ok (M.modify_def _ _), M.modify_def] at h
      have h2 := (Prod.mk.inj h).2
      rw [hK, show List.range 1 = [0] from rfl, runStops, M.bind_ok (M.get_def _)] at h1
      obtain ⟨_, s2, h4, h5⟩ := M.bind_eq_ok h1
      rw [runStops] at h5
      have h5 : s2 = s1 := (Prod.mk.inj h5).2
      subst h5
      unfold olog at h4
      obtain ⟨h6, h7⟩ := Prod.mk.inj h4
      have h8 : s2.node = (runHook K.toKind (K.stopHook 0 s.node.st) s.node).2 := by rw [← h7]; rfl
      have h9 : (runHook K.toKind (K.stopHook 0 s.node.st) s.node).1 = .ok () := h6
      have h10 : s'.node.outputDim = s2.node.outputDim ∧ s'.node.st = s2.node.st := by
        rw [← h2]; split <;> exact ⟨rfl, rfl⟩
      have h11 := runHook_st K.toKind (K.stopHook 0 s.node.st) s.node
      unfold runHook at h8 h9
      simp only [M.bind_def, M.modify_def, M.lift_def] at h8 h9
      rcases h12 : runSets K.toKind (K.stopHook 0 s.node.st).sets { s.node with st := (K.stopHook 0 s.node.st).st } with ⟨r, n⟩
      rw [h12] at h8 h9
      cases r with
      | error e => cases h9
      | ok u =>
        refine ⟨n, rfl, h9, ?_, ?_⟩
        · rw [h10.1, h8]
        · rw [h10.2, ← h11]
          unfold runHook
          simp only [M.bind_def, M.modify_def, M.lift_def, h12, h8]

theorem moutSum_some (ns : List (Mem σ α β)) (dims : List Nat) (h : List.Forall₂ (fun m o => Dims.out m = some o) ns dims) :
    moutSum ns = some dims.sum := by
  induction h with
  | nil => rfl
  | cons h _ ih => simp only [moutSum, h, ih, Option.map_some, List.sum_cons]

theorem moutSum_none (ns : List (Mem σ α β)) (h : ∃ m ∈ ns, Dims.out m = none) : moutSum ns = none := by
  induction ns with
  | nil => obtain ⟨m, hm, _⟩ := h; cases hm
  | cons m r ih =>
    unfold moutSum
    obtain ⟨m', hm, hn⟩ := h
    rcases List.mem_cons.1 hm with rfl | hm
    · rw [hn]
    · rw [ih ⟨m', hm, hn⟩]
      cases Dims.out m <;> rfl

theorem minSum_some (ns : List (Mem σ α β)) (dims : List Nat) (h : List.Forall₂ (fun m o => Dims.inp m = some o) ns dims) :
    minSum ns = some dims.sum := by
  induction h with
  | nil => rfl
  | cons h _ ih => simp only [minSum, h, ih, Option.map_some, List.sum_cons]

/-- Setting the output dimension of a layer. -/
theorem out_set {K : Kind σ α β} (hp : K.preserveDim = false) (n : Nat) {s t : St σ α β}
    (h : runSets K [.out n] s = (.ok (), t)) : t.outputDim = some n := by
  simp only [runSets, M.bind_def, setOutputDim, setOutputDimRaw, hp, Bool.false_eq_true, if_false] at h
  by_cases hh : s.outputDim ≠ none ∧ s.outputDim ≠ some n
  · rw [if_pos hh] at h; cases h
  · rw [if_neg hh] at h; cases h; rfl

/-- C154: **after `stop_training`** the output dimension of the layer is the sum of those of its nodes, if they are all known;
otherwise it is what it was. -/
theorem online_layer_stop_dim (cut : Arr α → Nat → Nat → Arr α) (nodes : List (Mem σ α β))
    (s s' : OSt (List (Mem σ α β)) α β) (h : ostop (olayerKind cut nodes) s = (.ok (), s')) :
    (∀ dims, List.Forall₂ (fun m o => Dims.out m = some o) s'.node.st dims → s'.node.outputDim = some dims.sum) ∧
    ((∃ m ∈ s'.node.st, Dims.out m = none) → s'.node.outputDim = s.node.outputDim) := by
  obtain ⟨n, h1, h2, h3, h4⟩ := ostop_one rfl h
  rw [show (olayerKind cut nodes).stopHook 0 s.node.st = mstopHook s.node.st from rfl] at h1 h2 h4
  unfold mstopHook at h1 h2 h4
  rcases hz : mstopAll s.node.st with ⟨q, l⟩
  rw [hz] at h1 h2 h4
  cases q with
  | error e => cases h2
  | ok u =>
    simp only at h1 h4
    rw [h3, h4]
    refine ⟨fun dims hd => ?_, fun hn => ?_⟩
    · rw [moutSum_some l dims hd] at h1
      exact out_set rfl _ h1
    · rw [moutSum_none l hn] at h1
      cases h1; rfl

/-- C156: **after `stop_training`** the output dimension of a `CloneOnlineLayer` is that of the node times the number of clones,
if it is known; otherwise it is what it was. -/
theorem clone_online_layer_stop_dim (m0 : Mem σ α β) (k : Nat) (s s' : OSt (Mem σ α β) α β)
    (h : ostop (ocloneKind m0 k) s = (.ok (), s')) :
    (∀ o, Dims.out s'.node.st = some o → s'.node.outputDim = some (k * o)) ∧
    (Dims.out s'.node.st = none → s'.node.outputDim = s.node.outputDim) := by
  obtain ⟨n, h1, h2, h3, h4⟩ := ostop_one rfl h
  rw [show (ocloneKind m0 k).stopHook 0 s.node.st = mcloneStop k s.node.st from rfl] at h1 h2 h4
  unfold mcloneStop at h1 h2 h4
  rcases hz : (if s.node.st.isTraining then s.node.st.stop else (.ok (), s.node.st)) with ⟨q, l⟩
  rw [hz] at h1 h2 h4
  cases q with
  | error e => cases h2
  | ok u =>
    simp only at h1 h4
    rw [h3, h4]
    refine ⟨fun o hd => ?_, fun hn => ?_⟩
    · rw [hd] at h1
      exact out_set rfl _ h1
    · rw [hn] at h1
      cases h1; rfl

/-- The input and output dimension of a new node. -/
theorem init_dims {K : Kind σ α β} (hp : K.preserveDim = false) {i o : Option Nat} {t : Option DType} {st : σ} {s : St σ α β}
    (h : init K i o t st = (.ok (), s)) : s.inputDim = i ∧ s.outputDim = o := by
  unfold init at h
  cases i <;> cases o <;> cases t <;>
    simp only [M.bind_def, setInputDim, setOutputDim, setDtype, setInputDimRaw, setOutputDimRaw, hp, ne_eq, not_true, false_and,
      if_false, Bool.false_eq_true] at h
  all_goals first
    | (cases h; exact ⟨rfl, rfl⟩)
    | (split at h
       · cases h
       · cases h; exact ⟨rfl, rfl⟩)

theorem olayerInit_dims {cut : Arr α → Nat → Nat → Arr α} {inp : List (Mem σ α β) → Except Err (Option Nat)}
    {ns : List (Mem σ α β)} {dtype : Option DType} {s : OSt (List (Mem σ α β)) α β}
    (h : olayerInit cut inp ns dtype = .ok s) :
    ∃ d, inp ns = .ok d ∧ s.node.inputDim = d ∧ s.node.outputDim = moutSum ns := by
  unfold olayerInit at h
  split at h
  · cases h
  · next t ht =>
    split at h
    · cases h
    · next d hd =>
      refine ⟨d, hd, ?_⟩
      simp only at h
      split at h
      · cases h
      · next s1 hs1 =>
        split at h
        · cases h
        · split at h
          · cases h
            unfold oinit at hs1
            obtain ⟨h1, h2⟩ := Prod.mk.inj hs1
            rw [← h2]
            exact init_dims rfl (Prod.ext h1 rfl)
          · cases h

/-- C154: **a new `OnlineLayer`** takes the inputs of all its nodes side by side, and its output dimension is the sum of theirs, if
they are known. -/
theorem online_layer_init_dims (ns : List (Mem σ α β)) (dtype : Option DType) (s : OSt (List (Mem σ α β)) α β)
    (h : olayerInit layerCut layerInp ns dtype = .ok s) :
    (∀ dims, List.Forall₂ (fun m d => Dims.inp m = some d) ns dims → s.node.inputDim = some dims.sum) ∧
    (∀ dims, List.Forall₂ (fun m o => Dims.out m = some o) ns dims → s.node.outputDim = some dims.sum) ∧
    ((∃ m ∈ ns, Dims.out m = none) → s.node.outputDim = none) := by
  obtain ⟨d, h1, h2, h3⟩ := olayerInit_dims h
  cases h1
  rw [h2, h3]
  exact ⟨fun dims hd => minSum_some ns dims hd, fun dims hd => moutSum_some ns dims hd, moutSum_none ns⟩

/-- C154: **a new `SameInputOnlineLayer`** has the input dimension of all of its nodes; nodes with different input dimensions are
refused. -/
theorem same_input_init_dims (ns : List (Mem σ α β)) (dtype : Option DType) :
    (∀ s, olayerInit sameCut sameInp ns dtype = .ok s →
      (∃ d, s.node.inputDim = some d ∧ ∀ m ∈ ns, Dims.inp m = some d) ∧
      ∀ dims, List.Forall₂ (fun m o => Dims.out m = some o) ns dims → s.node.outputDim = some dims.sum) ∧
    ((∃ m ∈ ns, ∃ m' ∈ ns, Dims.inp m ≠ Dims.inp m') → ∃ e, olayerInit sameCut sameInp ns dtype = .error e) := by
  have key : ∀ s, olayerInit sameCut sameInp ns dtype = .ok s →
      (∃ d, s.node.inputDim = some d ∧ ∀ m ∈ ns, Dims.inp m = some d) := by
    intro s h
    obtain ⟨d, h1, h2, h3⟩ := olayerInit_dims h
    have h4 := (online_layer_init _ _ _ _ _ h).2.2.2
    unfold sameInp at h1
    cases ns with
    | nil => cases h1
    | cons m r =>
      simp only at h1
      split at h1
      · next ha =>
        have h5 : Dims.inp m = d := by injection h1
        rw [List.all_eq_true] at ha
        cases hd : d with
        | none => exact absurd (h5.trans hd) (h4 m (by simp))
        | some k =>
          refine ⟨k, by rw [h2, hd], fun m' hm => ?_⟩
          have := ha m' hm
          rw [decide_eq_true_eq] at this
          rw [this, h5, hd]
      · cases h1
  refine ⟨fun s h => ⟨key s h, fun dims hd => ?_⟩, ?_⟩
  · obtain ⟨_, _, _, h3⟩ := olayerInit_dims h
    rw [h3]; exact moutSum_some ns dims hd
  · rintro ⟨m, hm, m', hm', hne⟩
    cases hs : olayerInit sameCut sameInp ns dtype with
    | error e => exact ⟨e, rfl⟩
    | ok s =>
      obtain ⟨d, _, h⟩ := key s hs
      exact absurd ((h m hm).trans (h m' hm').symm) hne

/-- A layer of nodes with one and two outputs is trained and stopped: three outputs. -/
example : let s := (otrain (olayerKind layerCut [lm1o, lm2]) lx [] (lay layerCut [lm1o, lm2])).2
    isOk (ostop (olayerKind layerCut [lm1o, lm2]) s).1 = true ∧
    (ostop (olayerKind layerCut [lm1o, lm2]) s).2.node.outputDim = some 3 ∧
    (ostop (olayerKind layerCut [lm1o, lm2]) s).2.node.st.map (fun m => Dims.out m) = [some 1, some 2] := by
  decide +kernel
/-- Three clones of a node with one output. -/
example : let s := (otrain (ocloneKind lm1o 3) lx [] (oinit (ocloneKind lm1o 3) (some 3) none none lm1o).2).2
    isOk (ostop (ocloneKind lm1o 3) s).1 = true ∧ (ostop (ocloneKind lm1o 3) s).2.node.outputDim = some 3 ∧
    Dims.out (ostop (ocloneKind lm1o 3) s).2.node.st = some 1 := by
  decide +kernel
/-- Nodes of input dimension 1 and 2 can be put side by side, but not on the same input. -/
example : (lay layerCut [lm1, lm2]).node.inputDim = some 3 ∧
    (match olayerInit layerCut layerInp [lm1, lm2] none with | .ok _ => true | .error _ => false) = true ∧
    (match olayerInit sameCut sameInp [lm1, lm1o] none with | .ok s => s.node.inputDim | .error _ => none) = some 1 ∧
    (match olayerInit sameCut sameInp [lm1, lm2] none with | .ok _ => true | .error _ => false) = false := by
  decide +kernel

end Mdp.Online
