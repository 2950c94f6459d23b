import Verif.Online.FlowNodeProps

/-! # Online flow nodes with unknown output dimensions (C210)

Execution of an `OnlineFlowNode` after training, when neither the flow node nor its last node has an output dimension: `FlowNode._set_output_dim` and
`_fix_nodes_dimensions` (mdp/hinet/flownode.py 82-116), called by `_pre_execution_checks` (signal_node_online.py 192-193). -/

namespace Mdp.Online

open Py Mdp.Node Mdp.Flow Mdp.Layer

variable {σ α β : Type}

/-- Nodes without input dimension are told the output dimension of the node before (`o` is that before the first). -/
inductive Filled : Option Nat → List (Mem σ α β) → List (Mem σ α β) → Prop
  | nil (o) : Filled o [] []
  | known (o) (m) (r r') : Dims.inp m ≠ none → Filled (Dims.out m) r r' → Filled o (m :: r) (m :: r')
  | told (o) (m m') (r r') : Dims.inp m = none → m.setInp o = (.ok (), m') → Filled (Dims.out m') r r' → Filled o (m :: r) (m' :: r')

theorem filled_length {o : Option Nat} {r r' : List (Mem σ α β)} (h : Filled o r r') : r'.length = r.length := by
  induction h with
  | nil => rfl
  | known o m r r' _ _ ih => simp [ih]
  | told o m m' r r' _ _ _ ih => simp [ih]

theorem filled_fix {o : Option Nat} {r r' : List (Mem σ α β)} (h : Filled o r r') : ffixInputs o r = (.ok (), r') := by
  induction h with
  | nil => rfl
  | known o m r r' hk _ ih =>
    rw [ffixInputs]
    have : (Dims.inp m).isNone = false := by
      cases hm : Dims.inp m with
      | none => exact absurd hm hk
      | some n => rfl
    rw [this]
    simp only [Bool.false_eq_true, if_false, ih]
  | told o m m' r r' hn hs _ ih =>
    rw [ffixInputs, hn]
    simp only [Option.isNone_none, if_true, hs, ih]

/-- What setting the output dimension of the flow node does when that of the last node is unknown. -/
theorem fnSetOut_unknown (n : Nat) (s : OSt (FN σ α β) α β) (m : Mem σ α β) (r r' : List (Mem σ α β)) (h : s.node.st.nodes = m :: r) (hr : r ≠ [])
    (hlast : (m :: r).getLast?.bind Dims.out = none) (hf : Filled (Dims.out m) r r') (hc : checkNodes (m :: r') = .ok ()) :
    (∀ d, (m :: r').getLast?.bind Dims.out = some d → ∃ s', s'.node = { s.node with st := { s.node.st with nodes := m :: r' }, outputDim := some d } ∧
      fnSetOut n s = (if n ≠ d then .error .dim else .ok (), s')) ∧
    (∀ k last, (m :: r').getLast? = some last → Dims.out last = none →
      (Dims.inp last = none → (fnSetOut n s).1 = .error .dim ∧ (fnSetOut n s).2.node = { s.node with st := { s.node.st with nodes := m :: r' } }) ∧
      (Dims.inp last = some k → ∀ last', last.setOut (some n) = (.ok (), last') → ∃ s', fnSetOut n s = (.ok (), s') ∧
        s'.node = { s.node with st := { s.node.st with nodes := (m :: r').dropLast ++ [last'] }, outputDim := some n })) := by
  obtain ⟨b, r0, rfl⟩ := List.exists_cons_of_ne_nil hr
  have h1 : lastOut (m :: b :: r0) = none := hlast
  have h2 : ffixNodes (m :: b :: r0) = (.ok (), m :: r') := by
    rw [ffixNodes, filled_fix hf]
    simp only [hc]
  constructor
  · intro d hd
    have h3 : lastOut (m :: r') = some d := hd
    simp only [fnSetOut, h, h1, h2, h3]
    by_cases hn : n = d
    · subst hn
      exact ⟨{ s with node := { s.node with st := { s.node.st with nodes := m :: r' }, outputDim := some n } }, rfl, by simp⟩
    · exact ⟨{ s with node := { s.node with st := { s.node.st with nodes := m :: r' }, outputDim := some d } }, rfl, by simp [hn]⟩
  · intro k last hl ho
    have h3 : lastOut (m :: r') = none := by
      unfold lastOut
      rw [hl]
      exact ho
    constructor
    · intro hi
      simp only [fnSetOut, h, h1, h2, h3, hl, hi, Option.isNone_none, if_true]
      exact ⟨trivial, trivial⟩
    · intro hi last' hs
      simp only [fnSetOut, h, h1, h2, h3, hl, hi, Option.isNone_some, Bool.false_eq_true, if_false, hs]
      exact ⟨_, rfl, rfl⟩

/-- What is executed after the checks. -/
theorem oflow_after {nodes ns : List (Mem σ α β)} {x : Arr α} {s s1 : OSt (FN σ α β) α β} {dt : DType} (hpre : fnPre (oflowKind nodes) x s = (.ok (), s1))
    (hns : s1.node.st.nodes = ns) (hd : s1.node.dtype = some dt) (hlen : nodes.length = ns.length) :
    (fnExecute (oflowKind nodes) x s).1 = (through 0 ns { x with dtype := dt }).1 ∧
    (fnExecute (oflowKind nodes) x s).2.node.st.nodes = (through 0 ns { x with dtype := dt }).2 := by
  unfold fnExecute
  simp only [M.bind_def, hpre, M.get_def, olog, onNode]
  have hk : (oflowKind nodes).execHook s1.node.st (refcast s1.node.dtype x) =
      ⟨{ s1.node.st with nodes := (through 0 ns { x with dtype := dt }).2 }, [], (through 0 ns { x with dtype := dt }).1⟩ := by
    show (⟨{ s1.node.st with nodes := (cexec 0 (((nodes.length : Int) - 1) + 1).toNat s1.node.st.nodes (refcast s1.node.dtype x)).2 },
      [], (cexec 0 (((nodes.length : Int) - 1) + 1).toNat s1.node.st.nodes (refcast s1.node.dtype x)).1⟩ : Hooked (FN σ α β) (Arr α)) = _
    rw [show (((nodes.length : Int) - 1) + 1).toNat = ns.length by omega, hns, hd]
    dsimp only
    rw [show refcast (some dt) x = { x with dtype := dt } from rfl, cexec_through]
  rw [hk, runHook_plain]
  exact ⟨rfl, rfl⟩

/-- The trained flow node `s` is given data `x`; `m :: r` are its nodes then; neither it nor its last node has an output dimension. -/
structure Unknown (nodes : List (Mem σ α β)) (x : Arr α) (s : OSt (FN σ α β) α β) (dt : DType) (m : Mem σ α β) (r : List (Mem σ α β)) : Prop where
  same : SameTrainable nodes (m :: r)
  started : s.node.started = true ∨ s.node.phase ≠ 0
  rank : x.ndim = 2
  rows : x.data ≠ []
  input : s.node.inputDim = some x.cols
  dtype : s.node.dtype = some dt
  primed : Primed x.cols dt s.node.st (m :: r)
  output : s.node.outputDim = none
  more : r ≠ []
  last : (m :: r).getLast?.bind Dims.out = none

theorem unknown_len {nodes : List (Mem σ α β)} {x : Arr α} {s : OSt (FN σ α β) α β} {dt : DType} {m : Mem σ α β} {r r' : List (Mem σ α β)}
    (h : Unknown nodes x s dt m r) (hf : Filled (Dims.out m) r r') : nodes.length = (m :: r').length := by
  have h1 := congrArg List.length h.same
  have h2 := filled_length hf
  simp only [List.length_map, List.length_cons] at h1 ⊢
  omega

/-- **C210**, the output dimension of the last node becomes known when its input dimension is filled in (a node that keeps dimensions), and is that of
the input: the flow is executed. -/
theorem unknown_execute_same (nodes : List (Mem σ α β)) (x : Arr α) (s : OSt (FN σ α β) α β) (dt : DType) (m : Mem σ α β) (r r' : List (Mem σ α β))
    (h : Unknown nodes x s dt m r) (hf : Filled (Dims.out m) r r') (hc : checkNodes (m :: r') = .ok ())
    (hl : (m :: r').getLast?.bind Dims.out = some x.cols) :
    (fnExecute (oflowKind nodes) x s).1 = (through 0 (m :: r') { x with dtype := dt }).1 ∧
    (fnExecute (oflowKind nodes) x s).2.node.st.nodes = (through 0 (m :: r') { x with dtype := dt }).2 := by
  obtain ⟨s1, h1, h2, h3, h4, h5, _⟩ := fn_checked (its := onlineItems nodes) (fix := true) (out := (nodes.length : Int) - 1) (nodes := nodes)
    h.started h.rank h.rows h.input h.dtype h.primed
  obtain ⟨s', e1, e2⟩ := (fnSetOut_unknown x.cols s1 m r r' (by rw [h2]) h.more h.last hf hc).1 _ hl
  refine oflow_after (s1 := s') ?_ (by rw [e1]) (by rw [e1]; exact h3) (unknown_len h hf)
  refine h1.trans ?_
  rw [h5, h.output, h4]
  dsimp only
  rw [e2]
  simp

/-- **C210, false**: if the output dimension of the last node so becomes another one, `execute` raises, although the flow can be executed; but from
then on the flow node has this output dimension, and the same call of `execute` again gives what the flow gives. -/
theorem unknown_execute_violation (nodes : List (Mem σ α β)) (x : Arr α) (s : OSt (FN σ α β) α β) (dt : DType) (m : Mem σ α β) (r r' : List (Mem σ α β))
    (h : Unknown nodes x s dt m r) (hf : Filled (Dims.out m) r r') (hc : checkNodes (m :: r') = .ok ()) (d : Nat) (hd : d ≠ x.cols)
    (hl : (m :: r').getLast?.bind Dims.out = some d) :
    (fnExecute (oflowKind nodes) x s).1 = .error .dim ∧
    (fnExecute (oflowKind nodes) x (fnExecute (oflowKind nodes) x s).2).1 = (through 0 (m :: r') { x with dtype := dt }).1 := by
  obtain ⟨s1, h1, h2, h3, h4, h5, h6, h7⟩ := fn_checked (its := onlineItems nodes) (fix := true) (out := (nodes.length : Int) - 1) (nodes := nodes)
    h.started h.rank h.rows h.input h.dtype h.primed
  obtain ⟨s', e1, e2⟩ := (fnSetOut_unknown x.cols s1 m r r' (by rw [h2]) h.more h.last hf hc).1 d hl
  rw [if_pos (fun e => hd e.symm)] at e2
  have hpre : fnPre (oflowKind nodes) x s = (.error .dim, s') := by
    refine h1.trans ?_
    rw [h5, h.output, h4]
    exact e2
  have hex : fnExecute (oflowKind nodes) x s = (.error .dim, s') := by
    unfold fnExecute
    simp only [M.bind_def, hpre]
  rw [hex]
  refine ⟨rfl, ?_⟩
  dsimp only
  obtain ⟨s2, g1, g2, g3, g4, g5, _⟩ := fn_checked (its := onlineItems nodes) (fix := true) (out := (nodes.length : Int) - 1) (nodes := nodes)
    (s := s') (dt := dt) (ms := m :: r') (x := x) (by rw [e1]; dsimp only; rw [h6, h7]; exact h.started) h.rank h.rows
    (by rw [e1]; exact h4) (by rw [e1]; exact h3) ⟨m :: r', .inl ⟨by rw [e1]; simp [h2], by rw [e1]⟩, .inl ⟨by rw [e1]; simp [h2], rfl⟩⟩
  refine (oflow_after (s1 := s2) ?_ (by rw [g2]) g3 (unknown_len h hf)).1
  refine g1.trans ?_
  rw [g5, e1]
  rfl

/-- **C210, false**: if the dimensions of the last node stay unknown, `execute` raises. -/
theorem unknown_execute_refused (nodes : List (Mem σ α β)) (x : Arr α) (s : OSt (FN σ α β) α β) (dt : DType) (m : Mem σ α β) (r r' : List (Mem σ α β))
    (h : Unknown nodes x s dt m r) (hf : Filled (Dims.out m) r r') (hc : checkNodes (m :: r') = .ok ()) (last : Mem σ α β)
    (hl : (m :: r').getLast? = some last) (ho : Dims.out last = none) (hi : Dims.inp last = none) :
    (fnExecute (oflowKind nodes) x s).1 = .error .dim := by
  obtain ⟨s1, h1, h2, h3, h4, h5, _⟩ := fn_checked (its := onlineItems nodes) (fix := true) (out := (nodes.length : Int) - 1) (nodes := nodes)
    h.started h.rank h.rows h.input h.dtype h.primed
  have e := ((fnSetOut_unknown x.cols s1 m r r' (by rw [h2]) h.more h.last hf hc).2 0 last hl ho).1 hi
  have hpre : (fnPre (oflowKind nodes) x s).1 = .error .dim := by
    rw [show fnPre (oflowKind nodes) x s = _ from h1, h5, h.output, h4]
    exact e.1
  unfold fnExecute
  simp only [M.bind_def]
  generalize fnPre (oflowKind nodes) x s = q at hpre
  obtain ⟨a, b⟩ := q
  subst hpre
  rfl

/-- **C210**: if the last node has an input dimension and no output dimension, it is given the input dimension of the *flow* as output dimension, and the
flow with this node is executed. -/
theorem unknown_execute_told (nodes : List (Mem σ α β)) (x : Arr α) (s : OSt (FN σ α β) α β) (dt : DType) (m : Mem σ α β) (r r' : List (Mem σ α β))
    (h : Unknown nodes x s dt m r) (hf : Filled (Dims.out m) r r') (hc : checkNodes (m :: r') = .ok ()) (init : List (Mem σ α β)) (last last' : Mem σ α β)
    (hl : m :: r' = init ++ [last]) (ho : Dims.out last = none) (k : Nat) (hi : Dims.inp last = some k)
    (hs : last.setOut (some x.cols) = (.ok (), last')) :
    (fnExecute (oflowKind nodes) x s).1 = (through 0 (init ++ [last']) { x with dtype := dt }).1 ∧
    (fnExecute (oflowKind nodes) x s).2.node.st.nodes = (through 0 (init ++ [last']) { x with dtype := dt }).2 := by
  obtain ⟨s1, h1, h2, h3, h4, h5, _⟩ := fn_checked (its := onlineItems nodes) (fix := true) (out := (nodes.length : Int) - 1) (nodes := nodes)
    h.started h.rank h.rows h.input h.dtype h.primed
  obtain ⟨s', e1, e2⟩ := ((fnSetOut_unknown x.cols s1 m r r' (by rw [h2]) h.more h.last hf hc).2 k last (by rw [hl]; simp) ho).2 hi last' hs
  have hlen := unknown_len h hf
  rw [hl] at hlen
  refine oflow_after (s1 := s') ?_ (by rw [e2, hl]; simp) (by rw [e2]; exact h3) (by simpa using hlen)
  refine h1.trans ?_
  rw [h5, h.output, h4]
  exact e1

/-- **C210**, one node without output dimension: it gets the input dimension, as it would on its own, and is executed. -/
theorem unknown_execute_single (nodes : List (Mem σ α β)) (x : Arr α) (s : OSt (FN σ α β) α β) (dt : DType) (m m' : Mem σ α β)
    (hs : SameTrainable nodes [m]) (hst : s.node.started = true ∨ s.node.phase ≠ 0) (hx : x.ndim = 2) (hn : x.data ≠ [])
    (hin : s.node.inputDim = some x.cols) (hd : s.node.dtype = some dt) (hr : Primed x.cols dt s.node.st [m]) (ho : s.node.outputDim = none)
    (hm : m.setOut (some x.cols) = (.ok (), m')) :
    (fnExecute (oflowKind nodes) x s).1 = (m'.execute { x with dtype := dt }).1.mapError (.flowCR 0 ·) ∧
    (fnExecute (oflowKind nodes) x s).2.node.st.nodes = [(m'.execute { x with dtype := dt }).2] := by
  obtain ⟨s1, h1, h2, h3, h4, h5, _⟩ := fn_checked (its := onlineItems nodes) (fix := true) (out := (nodes.length : Int) - 1) (nodes := nodes)
    hst hx hn hin hd hr
  have hlen : nodes.length = 1 := by
    have := congrArg List.length hs
    simpa using this.symm
  have e : fnSetOut x.cols s1 = (.ok (), { s1 with node := { s1.node with st := { s1.node.st with nodes := [m'] }, outputDim := some x.cols } }) := by
    have : s1.node.st.nodes = [m] := by rw [h2]
    simp only [fnSetOut, this, hm]
  have H := oflow_after (nodes := nodes) (ns := [m']) (x := x) (s := s) (dt := dt)
    (s1 := { s1 with node := { s1.node with st := { s1.node.st with nodes := [m'] }, outputDim := some x.cols } })
    (by
      refine h1.trans ?_
      rw [h5, ho, h4]
      exact e) rfl h3 (by simpa using hlen)
  rw [H.1, H.2]
  simp only [through]
  generalize m'.execute _ = q
  obtain ⟨a, b⟩ := q
  cases a <;> exact ⟨rfl, rfl⟩

section
set_option maxRecDepth 100000

/-- A node that is not trainable and keeps dimensions (`IdentityNode`), and one that does not, both without dimensions. -/
def memI : DMem := .plain { pdemo with trainable := false, preserveDim := true } (init { pdemo with trainable := false, preserveDim := true } none none none []).2
def memF : DMem := .plain { pdemo with trainable := false } (init { pdemo with trainable := false } none none none []).2

/-- A flow from two columns to one and an identity node, trained with two columns: the first execution is refused, the second works. -/
example : isOk (oflowInit [memR, memI] none) = true ∧
    let s1 := (otrain (oflowKind [memR, memI]) ⟨2, 2, 1, [[1, 2], [3, 4]]⟩ [] (onew [memR, memI])).2
    isOk (otrain (oflowKind [memR, memI]) ⟨2, 2, 1, [[1, 2], [3, 4]]⟩ [] (onew [memR, memI])).1 = true ∧
    s1.node.started = true ∧ s1.node.inputDim = some 2 ∧ s1.node.dtype = some 1 ∧ s1.node.outputDim = none ∧
    s1.node.st.inpSet = true ∧ s1.node.st.dtSet = true ∧ s1.node.st.nodes.getLast?.bind Dims.out = none ∧
    isOk (fnExecute (oflowKind [memR, memI]) ⟨2, 2, 1, [[1, 2]]⟩ s1).1 = false ∧
    isOk (fnExecute (oflowKind [memR, memI]) ⟨2, 2, 1, [[1, 2]]⟩ (fnExecute (oflowKind [memR, memI]) ⟨2, 2, 1, [[1, 2]]⟩ s1).2).1 = true := by
  decide +kernel

/-- A last node without output dimension gets that of the input of the flow, two, although it has one column. -/
example : isOk (oflowInit [memR, memF] none) = true ∧
    let s1 := (otrain (oflowKind [memR, memF]) ⟨2, 2, 1, [[1, 2], [3, 4]]⟩ [] (onew [memR, memF])).2
    s1.node.outputDim = none ∧ s1.node.st.nodes.getLast?.bind Dims.out = none ∧
    isOk (fnExecute (oflowKind [memR, memF]) ⟨2, 2, 1, [[1, 2]]⟩ s1).1 = true ∧
    (fnExecute (oflowKind [memR, memF]) ⟨2, 2, 1, [[1, 2]]⟩ s1).2.node.st.nodes.map Dims.inp = [some 2, some 1] ∧
    (fnExecute (oflowKind [memR, memF]) ⟨2, 2, 1, [[1, 2]]⟩ s1).2.node.st.nodes.map Dims.out = [some 1, some 2] := by
  decide +kernel

end

end Mdp.Online
