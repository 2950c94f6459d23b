import Verif.Hinet.SameInput
import Verif.Hinet.FlowNodeProps

/-! # Training a `CloneLayer` -/

namespace Mdp.Layer

open Py Mdp.Node Mdp.Flow

variable {σ α β : Type}

/-- What the one node of a `CloneLayer` sees of a chunk: its `n` consecutive blocks of `w` columns. -/
def clonedChunk (t n w : Nat) (c : Arr α × List β) : List (Arr α × List β) :=
  (List.range n).map fun i => (colBlock (refcast (some t) c.1) (i * w) w, c.2)

theorem cloneTrainAll_ok (x : Arr α) (args : List β) (k a w : Nat) (nd nd' : Nd σ α β)
    (htr : nd.s.training = true) (hw : nd.s.inputDim = some w) (h : cloneTrainAll x args k a nd = (.ok (), nd')) :
    nd'.K = nd.K ∧ trainOn nd.K ((List.range k).map fun i => (colBlock x (a + i * w) w, args)) nd.s = (.ok (), nd'.s) ∧
      nd'.s.training = true ∧ nd'.s.inputDim = some w ∧ nd'.s.phase = nd.s.phase ∧ Adv nd nd' := by
  induction k generalizing a nd with
  | zero => cases h; exact ⟨rfl, rfl, htr, hw, rfl, .refl _⟩
  | succ k ih =>
    unfold cloneTrainAll at h
    rw [hw] at h
    simp only [htr, if_true] at h
    generalize hR : train nd.K (colBlock x a w) args nd.s = R at h
    obtain ⟨r, s1⟩ := R
    cases r with
    | error e => cases h
    | ok u =>
      simp only at h
      obtain ⟨_, b2, _, b4, _⟩ := train_ok_trace _ _ _ _ _ hR
      have hadv := train_adv nd (colBlock x a w) args
      rw [hR] at hadv
      have hw1 : s1.inputDim = some w := by
        rcases hadv.fwd.inp with e | e
        · rw [hw] at e; cases e
        · exact e.trans hw
      obtain ⟨g1, g2, g3, g4, g5, g6⟩ := ih (a + w) ⟨nd.K, s1⟩ (b4.trans htr) hw1 h
      refine ⟨g1, ?_, g3, g4, g5.trans b2, hadv.trans g6⟩
      rw [List.range_succ_eq_map, List.map_cons, List.map_map, trainOn]
      simp only [Nat.zero_mul, Nat.add_zero]
      rw [M.bind_ok hR]
      have : (List.range k).map ((fun i => (colBlock x (a + i * w) w, args)) ∘ Nat.succ) =
          (List.range k).map fun i => (colBlock x (a + w + i * w) w, args) := by
        apply List.map_congr_left
        intro i _
        simp only [Function.comp_apply, Nat.succ_mul]
        congr 2
        omega
      rw [this]
      exact g2

theorem trainOn_append {σ : Type} (K : Kind σ α β) (a b : List (Arr α × List β)) (s s1 s2 : St σ α β)
    (h1 : trainOn K a s = (.ok (), s1)) (h2 : trainOn K b s1 = (.ok (), s2)) : trainOn K (a ++ b) s = (.ok (), s2) := by
  induction a generalizing s with
  | nil => cases h1; exact h2
  | cons c r ih =>
    obtain ⟨_, s3, h3, h1⟩ := M.bind_eq_ok h1
    rw [List.cons_append, trainOn, M.bind_ok h3]
    exact ih s3 h1

/-- The state of the node of a clone layer during training. -/
structure CloneOK (t w : Nat) (nd0 nd : Nd σ α β) : Prop where
  K : nd.K = nd0.K
  typed : Typed t nd
  inp : nd.s.inputDim = some w

theorem cloneTrainOn_ok (nd0 : Nd σ α β) (n t w : Nat) (cs : List (Arr α × List β)) (s s' : St (Nd σ α β) α β)
    (ht : s.dtype = some t) (hc : CloneOK t w nd0 s.st) (htr : s.st.s.training = true)
    (h : trainOn (cloneKind nd0 n) cs s = (.ok (), s')) :
    s'.dtype = some t ∧ CloneOK t w nd0 s'.st ∧ s'.st.s.training = true ∧ s'.st.s.phase = s.st.s.phase ∧
      trainOn nd0.K (cs.flatMap (clonedChunk t n w)) s.st.s = (.ok (), s'.st.s) := by
  induction cs generalizing s with
  | nil => cases h; exact ⟨ht, hc, htr, rfl, rfl⟩
  | cons c r ih =>
    obtain ⟨_, s1, h1, h⟩ := M.bind_eq_ok h
    obtain ⟨a1, a2, a3⟩ := train_ok_hook _ c.1 c.2 s s1 t ht h1
    simp only [cloneKind, cloneWithDtype] at a1 a2
    have e : (refcast (some t) c.1).dtype = t := rfl
    rw [e, setDtype_same s.st t hc.typed.1 hc.typed.2.1] at a1 a2
    simp only at a1 a2
    have a4 : cloneTrainAll (refcast (some t) c.1) c.2 n 0 s.st = (.ok (), s1.st) := Prod.ext a1 a2
    obtain ⟨g1, g2, g3, g4, g5, g6⟩ := cloneTrainAll_ok _ _ n 0 w s.st s1.st htr hc.inp a4
    obtain ⟨k1, k2, k3, k4, k5⟩ := ih s1 a3 ⟨g1.trans hc.K, (typed_robust t).adv _ _ g6 hc.typed, g4⟩ g3 h
    refine ⟨k1, k2, k3, k4.trans g5, ?_⟩
    rw [List.flatMap_cons]
    refine trainOn_append _ _ _ _ s1.st.s _ ?_ k5
    rw [hc.K] at g2
    simpa [clonedChunk] using g2

theorem cloneRun_ok (nd0 : Nd σ α β) (n t w : Nat) (ws : List (List (Arr α × List β))) (s s' : St (Nd σ α β) α β)
    (ht : s.dtype = some t) (hc : CloneOK t w nd0 s.st) (hle : ws.length ≤ left s.st)
    (h : runPhases (cloneKind nd0 n) ws s = (.ok (), s')) :
    s'.st.K = nd0.K ∧ runPhases nd0.K (ws.map (·.flatMap (clonedChunk t n w))) s.st.s = (.ok (), s'.st.s) ∧
      (ws ≠ [] → ∀ o, s'.st.s.outputDim = some o → s'.outputDim = some (n * o)) := by
  induction ws generalizing s with
  | nil => cases h; exact ⟨hc.K, rfl, by simp⟩
  | cons cs r ih =>
    obtain ⟨_, s1, h1, h⟩ := M.bind_eq_ok h
    obtain ⟨_, s2, h2, h⟩ := M.bind_eq_ok h
    have htr : s.st.s.training = true := (left_training hc.typed.2.2.2).2 (by simp at hle; omega)
    obtain ⟨a1, a2, a3, a4, a5⟩ := cloneTrainOn_ok nd0 n t w cs s s1 ht hc htr h1
    obtain ⟨b1, b2, b3⟩ := stop_ok_hook _ _ _ h2
    simp only [cloneKind, cloneStop, a3, if_true] at b1 b2 b3
    generalize hR : stopTraining s1.st.K s1.st.s = R at b1 b2 b3
    obtain ⟨res, s3⟩ := R
    cases res with
    | error e => cases b1
    | ok u =>
      simp only at b1 b2 b3
      have c1 : s2.dtype = some t := by
        have := (stop_fwd (cloneKind nd0 n) s1).dt
        rw [h2] at this
        rcases this with e | e
        · rw [a1] at e; cases e
        · exact e.trans a1
      have hadv := Adv.of s1.st (m := stopTraining s1.st.K) (fun _ => stop_inv _) (stop_fwd _)
      rw [hR] at hadv
      have c2 : CloneOK t w nd0 s2.st := by
        rw [← b2]
        refine ⟨a2.K, (typed_robust t).adv _ _ hadv a2.typed, ?_⟩
        rcases hadv.fwd.inp with e | e
        · rw [a2.inp] at e; cases e
        · exact e.trans a2.inp
      have hl : left s2.st = left s.st - 1 := by
        rw [← b2, left_stop hR]
        unfold left remaining
        rw [a2.K, hc.K, a4]
      obtain ⟨d1, d2, d3⟩ := ih s2 c1 c2 (by rw [hl]; simp at hle; omega) h
      refine ⟨d1, ?_, ?_⟩
      · rw [List.map_cons, runPhases, M.bind_ok a5]
        rw [a2.K] at hR
        rw [M.bind_ok hR]
        rw [← b2] at d2
        exact d2
      · intro _ o ho
        cases r with
        | cons c r => exact d3 (by simp) o ho
        | nil =>
          cases h
          refine b3 _ trivial ?_
          rw [← b2] at ho
          simp only at ho
          rw [ho]

/-- C70: go through training phases of a new `CloneLayer(node, n, dtype=t)`. The node ends in the state in
which training it alone puts it, phase by phase, on the `n` consecutive column blocks of every chunk, one after
the other. When it then knows its output dimension, that of the layer is `n` times as large. -/
theorem clone_training (nd : Nd σ α β) (hK : Sane nd.K) (hr : Reachable nd.K nd.s) (n t w : Nat)
    (hw : nd.s.inputDim = some w) (C : Nd (Nd σ α β) α β) (hC : cloneInit nd n (some t) = .ok C)
    (ws : List (List (Arr α × List β))) (hle : ws.length ≤ left nd) (s' : St (Nd σ α β) α β)
    (h : runPhases C.K ws C.s = (.ok (), s')) :
    C.s.inputDim = some (n * w) ∧ s'.st.K = nd.K ∧
    (∃ s1, setDtype nd.K (some t) nd.s = (.ok (), s1) ∧
      runPhases nd.K (ws.map (·.flatMap (clonedChunk t n w))) s1 = (.ok (), s'.st.s)) ∧
    (ws ≠ [] → ∀ o, s'.st.s.outputDim = some o → s'.outputDim = some (n * o)) := by
  have hcp : checkProps (List.replicate n nd) (some t) = .ok (some t) ∨ ∃ e, checkProps (List.replicate n nd) (some t) = .error e := by
    unfold checkProps
    split
    · exact .inr ⟨_, rfl⟩
    · split
      · exact .inl rfl
      · split
        · exact .inr ⟨_, rfl⟩
        · simp only
          split
          · exact .inl rfl
          · exact .inr ⟨_, rfl⟩
  unfold cloneInit at hC
  rcases hcp with hcp | ⟨e, hcp⟩
  swap
  · rw [hcp] at hC; cases hC
  rw [hcp] at hC
  simp only at hC
  generalize hR : setDtype nd.K (some t) nd.s = R at hC
  obtain ⟨res, s1⟩ := R
  simp only at hC
  split at hC
  · cases hC
  · next s hs =>
    have hst := congrArg (fun r => r.2.st) hs
    simp only [init_st] at hst
    cases res with
    | error e => cases hC
    | ok u =>
      cases hC
      simp only at h
      have hdt : s.dtype = some t ∧ s.inputDim = some (n * w) := by
        have hs' := hs
        unfold init at hs'
        obtain ⟨_, s2, hs2, hs'⟩ := M.bind_eq_ok hs'
        obtain ⟨_, s3, hs3, hs'⟩ := M.bind_eq_ok hs'
        refine ⟨setDtype_some_ok _ _ _ _ hs', ?_⟩
        have e1 : s2.inputDim = some (n * w) := by
          rw [hw] at hs2
          simp [setInputDim, setInputDimRaw, cloneKind] at hs2
          rw [← hs2]
        have f1 := (setOutputDim_soft (cloneKind nd n) (nd.s.outputDim.map (n * ·)) s2).fwd.inp
        rw [hs3] at f1
        have f2 := (setDtype_soft (cloneKind nd n) (some t) s3).fwd.inp
        rw [hs'] at f2
        have e2 : s3.inputDim = some (n * w) := by
          rcases f1 with e | e
          · rw [e1] at e; cases e
          · exact e.trans e1
        rcases f2 with e | e
        · rw [e2] at e; cases e
        · exact e.trans e2
      have hadv := Adv.of nd (m := setDtype nd.K (some t)) (fun _ => soft_keeps (setDtype_soft nd.K _))
        (soft_moves_fwd (setDtype_soft nd.K _))
      rw [hR] at hadv
      have hty : ∀ m ∈ [(⟨nd.K, s1⟩ : Nd σ α β)], Typed t m :=
        setDtypes_typed t [nd] _ (by simp [setDtypes, hR]) (by
          intro m hm; rw [List.mem_singleton.1 hm]; exact ⟨hK, reachable_inv hK hr⟩)
      have hok : CloneOK t w nd s.st := by
        rw [← hst]
        refine ⟨rfl, hty _ (by simp), ?_⟩
        rcases hadv.fwd.inp with e | e
        · rw [hw] at e; cases e
        · exact e.trans hw
      have hl : left s.st = left nd := by
        rw [← hst]
        have e2 := (setDtype_soft nd.K (some t) nd.s).phase
        rw [hR] at e2
        simp only at e2
        unfold left remaining; simp only [e2]
      obtain ⟨g1, g2, g3⟩ := cloneRun_ok nd n t w ws s s' hdt.1 hok (by rw [hl]; exact hle) h
      refine ⟨hdt.2, g1, ⟨s1, rfl, ?_⟩, g3⟩
      rw [← hst] at g2
      exact g2

end Mdp.Layer
