import Verif.Hinet.CloneTrain
import Verif.Hinet.LayerExamples

/-! # Dimensions of a `FlowNode` after its training; examples for `CloneLayer` and `SameInputLayer` -/

namespace Mdp.FlowNode

open Py Mdp.Node Mdp.Flow Mdp.Layer

variable {σ α β : Type}

theorem setInputDim_some_ok {σ : Type} (K : Kind σ α β) (n : Nat) (s s' : St σ α β)
    (h : setInputDim K (some n) s = (.ok (), s')) : s'.inputDim ≠ none := by
  unfold setInputDim setInputDimRaw at h
  simp only at h
  split at h
  · cases h
  · split at h
    · split at h
      · cases h
      · cases h; simp
    · cases h; simp

/-- Every node whose predecessor knows its output dimension has an input dimension. -/
def Linked : Option Nat → List (Nd σ α β) → Prop
  | _, [] => True
  | o, nd :: r => (o ≠ none → nd.s.inputDim ≠ none) ∧ Linked nd.s.outputDim r

theorem fixInputs_linked (o : Option Nat) (l l' : List (Nd σ α β)) (h : fixInputs o l = (.ok (), l')) : Linked o l' := by
  induction l generalizing o l' with
  | nil => cases h; trivial
  | cons nd r ih =>
    simp only [fixInputs] at h
    generalize hR : (if nd.s.inputDim = none then setInputDim nd.K o nd.s else (.ok (), nd.s)) = R at h
    obtain ⟨res, s⟩ := R
    cases res with
    | error e => cases h
    | ok u =>
      simp only at h
      generalize hQ : fixInputs s.outputDim r = Q at h
      obtain ⟨res, r'⟩ := Q
      cases h
      refine ⟨fun ho => ?_, ih _ _ hQ⟩
      split at hR
      · cases o with
        | none => exact absurd rfl ho
        | some n => exact setInputDim_some_ok _ _ _ _ hR
      · next hn => cases hR; exact hn

theorem Linked.get {o : Option Nat} {l : List (Nd σ α β)} (h : Linked o l) (i : Nat) (a b : Nd σ α β)
    (ha : l[i]? = some a) (hb : l[i + 1]? = some b) (ho : a.s.outputDim ≠ none) : b.s.inputDim ≠ none := by
  induction l generalizing o i with
  | nil => simp at ha
  | cons m r ih =>
    cases i with
    | zero =>
      simp only [List.getElem?_cons_zero, Option.some.injEq] at ha
      subst ha
      cases r with
      | nil => simp at hb
      | cons n r =>
        simp only [List.getElem?_cons_succ, List.getElem?_cons_zero, Option.some.injEq] at hb
        subst hb
        exact h.2.1 ho
    | succ i => exact ih h.2 i (by simpa using ha) (by simpa using hb)

theorem fixNodes_dims (l l' : List (Nd σ α β)) (h : fixNodes l = (.ok (), l')) (i : Nat) (a b : Nd σ α β)
    (ha : l'[i]? = some a) (hb : l'[i + 1]? = some b) (ho : a.s.outputDim ≠ none) : b.s.inputDim = a.s.outputDim := by
  cases l with
  | nil => cases h
  | cons nd r =>
    simp only [fixNodes] at h
    generalize hQ : fixInputs nd.s.outputDim r = Q at h
    obtain ⟨res, r'⟩ := Q
    cases res with
    | error e => cases h
    | ok u =>
      simp only [Prod.mk.injEq] at h
      obtain ⟨h1, rfl⟩ := h
      have hl : Linked none (nd :: r') := ⟨by simp, fixInputs_linked _ _ _ hQ⟩
      have hi := hl.get i a b ha hb ho
      obtain ⟨n, hn⟩ := Option.ne_none_iff_exists'.1 ho
      obtain ⟨m, hm⟩ := Option.ne_none_iff_exists'.1 hi
      have := checkNodes_ok h1 i a b n m ha hb hn hm
      rw [hn, hm, this]

/-- C73: once the last training phase of a flow node has been closed, its output dimension is that of its last
internal node (if that node knows it), and inside the flow every node whose predecessor knows its output
dimension has that dimension as its input dimension. -/
theorem flownode_dims (nodes : List (Nd σ α β)) (s s' : St (List (Nd σ α β)) α β)
    (h : stopTraining (flowKind nodes) s = (.ok (), s')) (hd : s'.training = false) :
    (∀ last n, s'.st.getLast? = some last → last.s.outputDim = some n → s'.outputDim = some n) ∧
    ∀ (i : Nat) (a b : Nd σ α β), s'.st[i]? = some a → s'.st[i + 1]? = some b → a.s.outputDim ≠ none →
      b.s.inputDim = a.s.outputDim := by
  obtain ⟨h1, h2, h3⟩ := stop_ok_hook _ _ _ h
  have hlast : s.phase.toNat + 1 = (phaseSeq 0 nodes).length := by
    rcases stop_cases (flowKind nodes) s with ⟨e, he⟩ | ⟨_, _, hp, hlt, s2, hs, ⟨e, _, he⟩ | ⟨hr, he⟩⟩
    · rw [h] at he; cases he
    · rw [h] at he; cases he
    · rw [h] at he
      cases he
      simp only [decide_eq_false_iff_not, not_not] at hd
      have hlt' : s.phase < ((phaseSeq 0 nodes).length : Int) := hlt
      have htr : (flowKind nodes).trainable = true := by
        show (!(phaseSeq 0 nodes).isEmpty) = true
        cases hq : phaseSeq 0 nodes with
        | nil => rw [hq] at hlt'; simp at hlt'; omega
        | cons => rfl
      have hd' : s.phase + 1 = ((phaseSeq 0 nodes).length : Int) := hd htr
      omega
  have e : (flowKind nodes).stopHook = stopHook (phaseSeq 0 nodes) := rfl
  rw [e] at h1 h2 h3
  unfold stopHook at h1 h2 h3
  generalize (phaseSeq 0 nodes)[s.phase.toNat]? = P at h1 h2 h3
  cases P with
  | none => cases h1
  | some i =>
    simp only at h1 h2 h3
    generalize stopAt i s.st = Q at h1 h2 h3
    obtain ⟨r, fl1⟩ := Q
    cases r with
    | error e => cases h1
    | ok u =>
      simp only [if_pos hlast] at h1 h2 h3
      generalize hF : fixNodes fl1 = F at h1 h2 h3
      obtain ⟨r, fl2⟩ := F
      cases r with
      | error e => cases h1
      | ok u =>
        simp only at h1 h2 h3
        subst h2
        refine ⟨fun last n hl hn => h3 n rfl ?_, fixNodes_dims fl1 _ hF⟩
        unfold outReq
        rw [hl, Option.bind_some, hn]

/-! ### Examples -/

/-- Two trainable nodes that learn their output dimension in training. -/
def dimNodes : List (Nd Nat Nat Unit) :=
  [⟨shiftKind 1 false, (init (shiftKind 1 false) none none none 0).2⟩,
   ⟨shiftKind 1 false, (init (shiftKind 1 false) none none none 0).2⟩]
def dimL : Nd (List (Nd Nat Nat Unit)) Nat Unit := ⟨flowKind dimNodes, (init (flowKind dimNodes) none none none dimNodes).2⟩
def dimWs : List (List (Arr Nat × List Unit)) := [[(⟨2, 3, 7, [[1, 2, 3]]⟩, [])], [(⟨2, 3, 7, [[1, 2, 3]]⟩, [])]]

/-- The flow node goes through its two phases, and all dimensions are known at the end. -/
example : flowInit dimNodes none = .ok dimL ∧ (runPhases dimL.K dimWs dimL.s).1 = .ok () ∧
    (runPhases dimL.K dimWs dimL.s).2.training = false ∧ (runPhases dimL.K dimWs dimL.s).2.outputDim = some 3 ∧
    (runPhases dimL.K dimWs dimL.s).2.st.map (fun nd => (nd.s.inputDim, nd.s.outputDim)) =
      [(some 3, some 3), (some 3, some 3)] :=
  ⟨rfl, by decide +kernel, by decide +kernel, by decide +kernel, by decide +kernel⟩

end Mdp.FlowNode

namespace Mdp.Layer

open Py Mdp.Node Mdp.Flow

/-! A `SameInputLayer` of three nodes. -/

def sameNodes : List (Nd Unit Int Unit) := [revNode 10 2, revNode 20 2]
def sameSt : St (List (Nd Unit Int Unit)) Int Unit := ⟨some 2, some 4, some 7, false, -1, false, sameNodes, []⟩

example : (∀ nd ∈ sameNodes, InnerOK nd) ∧ SameReachable sameNodes sameSt ∧
    (SameInputLayer.execute (sameKind sameNodes) ⟨2, 2, 7, [[1, 2], [3, 4]]⟩ sameSt).1 =
      .ok ⟨2, 4, 7, [[12, 11, 22, 21], [14, 13, 24, 23]]⟩ := by
  refine ⟨fun nd h => ?_, .init (dtype := none) (L := ⟨sameKind sameNodes, sameSt⟩) rfl, rfl⟩
  simp only [sameNodes, List.mem_cons, List.not_mem_nil, or_false] at h
  rcases h with rfl | rfl <;> exact revNode_inner _ _

def sameTr : List (Nd Nat Nat Unit) := [shiftNode 1 2 false, shiftNode 2 2 false]
def sameL : Nd (List (Nd Nat Nat Unit)) Nat Unit :=
  match sameInit sameTr (some 7) with
  | .ok L => L
  | .error _ => ⟨sameKind sameTr, ⟨none, none, none, false, 0, false, [], []⟩⟩
def sameWs : List (List (Arr Nat × List Unit)) := [[(⟨2, 2, 7, [[1, 2]]⟩, [])], [(⟨2, 2, 7, [[1, 2], [3, 4]]⟩, [])]]

/-- A node with one and a node with two phases, both trained on whole chunks: one row, and one and two rows. -/
example : sameInit sameTr (some 7) = .ok sameL ∧ (∀ nd ∈ sameTr, Sane nd.K ∧ Reachable nd.K nd.s) ∧
    (runPhases sameL.K sameWs sameL.s).1 = .ok () ∧
    (runPhases sameL.K sameWs sameL.s).2.st.map (fun nd => (nd.s.phase, nd.s.st)) = [(1, 1), (2, 3)] := by
  refine ⟨rfl, fun nd h => ?_, by decide +kernel, by decide +kernel⟩
  simp only [sameTr, List.mem_cons, List.not_mem_nil, or_false] at h
  rcases h with rfl | rfl <;> exact ⟨shiftKind_sane _ _, shiftNode_reachable _ _ _⟩

def cloneC : Nd (Nd Nat Nat Unit) Nat Unit :=
  match cloneInit (shiftNode 2 1 false) 2 (some 7) with
  | .ok L => L
  | .error _ => ⟨cloneKind (shiftNode 2 1 false) 2, ⟨none, none, none, false, 0, false, shiftNode 2 1 false, []⟩⟩

/-- A clone layer of two copies of a two-phase node: every chunk counts twice. -/
example : cloneInit (shiftNode 2 1 false) 2 (some 7) = .ok cloneC ∧ left (shiftNode 2 1 false) = 2 ∧
    (runPhases cloneC.K sameWs cloneC.s).1 = .ok () ∧
    (runPhases cloneC.K sameWs cloneC.s).2.st.s.st = 6 ∧
    (runPhases cloneC.K sameWs cloneC.s).2.outputDim = some 2 :=
  ⟨rfl, rfl, by decide +kernel, by decide +kernel, by decide +kernel⟩

end Mdp.Layer
