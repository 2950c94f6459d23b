import Verif.Online.FlowNodeStop
import Verif.Node.HookInv

/-! # Online flow nodes: execution, training types, histories of calls, examples (C208 - C212) -/

namespace Mdp.Online

open Py Mdp.Node Mdp.Flow Mdp.Layer

variable {σ α β : Type}

/-! ### Execution -/

theorem cexec_through (ms : List (Mem σ α β)) : ∀ (i : Nat) (x : Arr α), cexec i ms.length ms x = through i ms x := by
  induction ms with
  | nil => intro i x; rfl
  | cons m r ih =>
    intro i x
    rw [List.length_cons, cexec, through]
    generalize m.execute x = z
    obtain ⟨res, m'⟩ := z
    cases res with
    | error e => rfl
    | ok y => simp only [ih]

/-- The checks before an execution pass: dimensions, dtype and training type are set. -/
theorem fn_checked {its : List Item} {fix : Bool} {out : Int} {nodes : List (Mem σ α β)} {x : Arr α}
    {s : OSt (FN σ α β) α β} {dt : DType} {ms : List (Mem σ α β)}
    (hst : s.node.started = true ∨ s.node.phase ≠ 0) (hx : x.ndim = 2) (hn : x.data ≠ [])
    (hin : s.node.inputDim = some x.cols) (hd : s.node.dtype = some dt) (hr : Primed x.cols dt s.node.st ms) :
    ∃ s1 : OSt (FN σ α β) α β,
      fnPre (fnKind its fix out nodes) x s = (match s1.node.outputDim, s1.node.inputDim with
        | none, some n => fnSetOut n
        | _, _ => pure ()) s1 ∧
      s1.node.st = { s.node.st with nodes := ms, inpSet := true, dtSet := true } ∧ s1.node.dtype = some dt ∧
      s1.node.inputDim = some x.cols ∧ s1.node.outputDim = s.node.outputDim ∧ s1.node.started = s.node.started ∧
      s1.node.phase = s.node.phase := by
  have hck : ∃ s1, ocheckInput (fnKind its fix out nodes) x s = (.ok (), s1) ∧ s1.node = s.node := by
    have hn' : ¬x.nrows = 0 := by
      intro h
      exact hn (List.length_eq_zero_iff.1 h)
    have hci : checkInput (fnKind its fix out nodes).toKind x s.node = (.ok (), s.node) := by
      unfold checkInput
      rw [if_neg (by simp [hx])]
      simp [M.bind_def, M.when, hin, hd, hn']
    unfold ocheckInput
    simp only [M.bind_def, onNode, hci, M.get_def]
    cases ht : s.ttype with
    | none => exact ⟨_, rfl, rfl⟩
    | some t => exact ⟨_, rfl, rfl⟩
  obtain ⟨s1, h1, h2⟩ := hck
  have hf := (forward_primed (refcast (some dt) x) s.node.st ms).1 hr
  refine ⟨{ s1 with node := { s1.node with st := { s.node.st with nodes := ms, inpSet := true, dtSet := true } } },
    ?_, rfl, by rw [← hd, ← h2], by rw [← hin, ← h2], by rw [← h2], by rw [← h2], by rw [← h2]⟩
  have hcond : ¬(s.node.phase = 0 ∧ s.node.started = false) := by
    rintro ⟨a, b⟩
    rcases hst with h | h
    · rw [b] at h; cases h
    · exact h a
  unfold fnPre
  simp only [M.bind_def, M.get_def, M.when, if_neg hcond, M.ret, h1, fnForward, h2, hd, hf]
  cases s.node.outputDim <;> cases s.node.inputDim <;> rfl

/-- Setting the output dimension that a node has changes nothing, if the input dimension is the same. -/
theorem setOut_same (n : Nat) (m : Mem σ α β) (ho : Dims.out m = some n) (hi : Dims.inp m = some n) :
    m.setOut (some n) = (.ok (), m) := by
  cases m with
  | plain K s =>
    obtain ⟨i, o, d, t, p, st, x, tr⟩ := s
    change o = some n at ho
    change i = some n at hi
    subst ho hi
    cases hp : K.preserveDim <;> simp [Mem.setOut, setOutputDim, setOutputDimRaw, hp]
  | online K s =>
    obtain ⟨⟨i, o, d, t, p, st, x, tr⟩, _, _, _⟩ := s
    change o = some n at ho
    change i = some n at hi
    subst ho hi
    cases hp : K.toKind.preserveDim <;> simp [Mem.setOut, setOutputDim, setOutputDimRaw, hp]

/-- Another output dimension is refused. -/
theorem setOut_other (n d : Nat) (m : Mem σ α β) (ho : Dims.out m = some d) (hne : n ≠ d) :
    m.setOut (some n) = (.error .dim, m) := by
  have h1 : (some d : Option Nat) ≠ none ∧ (some d : Option Nat) ≠ some n := ⟨by simp, fun h => hne (Option.some.inj h).symm⟩
  cases m with
  | plain K s =>
    change s.outputDim = some d at ho
    simp only [Mem.setOut, setOutputDim]
    rw [ho, if_pos h1]
  | online K s =>
    change s.node.outputDim = some d at ho
    simp only [Mem.setOut, setOutputDim]
    rw [ho, if_pos h1]

theorem fnSetOut_same (n : Nat) (s : OSt (FN σ α β) α β) (ms : List (Mem σ α β)) (h : s.node.st.nodes = ms)
    (hlast : ms.getLast?.bind Dims.out = some n) (hl : 2 ≤ ms.length ∨ ms.head?.bind Dims.inp = some n) :
    fnSetOut n s = (.ok (), { s with node := { s.node with outputDim := some n } }) := by
  match ms, h, hl, hlast with
  | [m], h, hl, hlast =>
    have hi : Dims.inp m = some n := hl.resolve_left (by simp)
    have ho : Dims.out m = some n := hlast
    simp only [fnSetOut, h, setOut_same n m ho hi]
    rw [← h]
  | a :: b :: r, h, _, hlast =>
    have hlast' : lastOut (a :: b :: r) = some n := hlast
    simp only [fnSetOut, h, hlast']
    rw [if_neg (fun h => h rfl)]

/-- The output dimension is known, or will be found to be the input dimension. -/
theorem fn_pre {its : List Item} {fix : Bool} {out : Int} {nodes : List (Mem σ α β)} {x : Arr α}
    {s : OSt (FN σ α β) α β} {dt : DType} {ms : List (Mem σ α β)}
    (hst : s.node.started = true ∨ s.node.phase ≠ 0) (hx : x.ndim = 2) (hn : x.data ≠ [])
    (hin : s.node.inputDim = some x.cols) (hd : s.node.dtype = some dt) (hr : Primed x.cols dt s.node.st ms)
    (ho : s.node.outputDim ≠ none ∨ ms.getLast?.bind Dims.out = some x.cols ∧
      (2 ≤ ms.length ∨ ms.head?.bind Dims.inp = some x.cols)) :
    ∃ s1 : OSt (FN σ α β) α β, fnPre (fnKind its fix out nodes) x s = (.ok (), s1) ∧
      s1.node.st = { s.node.st with nodes := ms, inpSet := true, dtSet := true } ∧ s1.node.dtype = some dt := by
  obtain ⟨s1, h1, h2, h3, h4, h5, _⟩ := fn_checked (its := its) (fix := fix) (out := out) (nodes := nodes) hst hx hn hin hd hr
  cases hod : s.node.outputDim with
  | some d =>
    refine ⟨s1, h1.trans ?_, h2, h3⟩
    rw [h5, hod]
    rfl
  | none =>
    rcases ho with ho | ⟨ho1, ho2⟩
    · exact absurd hod ho
    · refine ⟨{ s1 with node := { s1.node with outputDim := some x.cols } }, h1.trans ?_, h2, h3⟩
      · rw [h5, hod, h4]
        exact fnSetOut_same x.cols s1 ms (by rw [h2]) ho1 ho2

/-- C210: executing an `OnlineFlowNode` that has been trained gives what the flow gives: each node is executed on the output
of the one before. The output dimension of the flow node is known, or that of the last node is the input dimension (a single
node must know its input dimension, too). -/
theorem oflownode_execute_partial (nodes : List (Mem σ α β)) (x : Arr α) (s : OSt (FN σ α β) α β) (dt : DType)
    (ms : List (Mem σ α β)) (hs : SameTrainable nodes ms)
    (hst : s.node.started = true ∨ s.node.phase ≠ 0) (hx : x.ndim = 2) (hn : x.data ≠ [])
    (hin : s.node.inputDim = some x.cols) (hd : s.node.dtype = some dt) (hr : Primed x.cols dt s.node.st ms)
    (ho : s.node.outputDim ≠ none ∨ ms.getLast?.bind Dims.out = some x.cols ∧
      (2 ≤ ms.length ∨ ms.head?.bind Dims.inp = some x.cols)) :
    (fnExecute (oflowKind nodes) x s).1 = (through 0 ms { x with dtype := dt }).1 ∧
    (fnExecute (oflowKind nodes) x s).2.node.st.nodes = (through 0 ms { x with dtype := dt }).2 := by
  obtain ⟨s1, hpre, h2, h3⟩ := fn_pre (its := onlineItems nodes) (fix := true) (out := (nodes.length : Int) - 1)
    (nodes := nodes) hst hx hn hin hd hr ho
  have hlen : nodes.length = ms.length := by
    have := congrArg List.length hs
    simpa using this.symm
  change fnPre (oflowKind nodes) x s = (.ok (), s1) at hpre
  unfold fnExecute
  simp only [M.bind_def, hpre, M.get_def, olog, onNode]
  have hk : (oflowKind nodes).execHook s1.node.st (refcast s1.node.dtype x) =
      ⟨{ s1.node.st with nodes := (through 0 ms { x with dtype := dt }).2 }, [], (through 0 ms { x with dtype := dt }).1⟩ := by
    show (⟨{ s1.node.st with nodes := (cexec 0 (((nodes.length : Int) - 1) + 1).toNat s1.node.st.nodes (refcast s1.node.dtype x)).2 },
      [], (cexec 0 (((nodes.length : Int) - 1) + 1).toNat s1.node.st.nodes (refcast s1.node.dtype x)).1⟩ : Hooked (FN σ α β) (Arr α)) = _
    rw [show (((nodes.length : Int) - 1) + 1).toNat = ms.length by omega, h2, h3]
    dsimp only
    rw [show refcast (some dt) x = { x with dtype := dt } from rfl, cexec_through]
  rw [hk, runHook_plain]
  exact ⟨rfl, rfl⟩

/-- C210: a `CircularOnlineFlowNode` executes its nodes up to the output node of the flow. -/
theorem ringnode_execute_partial (c : CFlow σ α β) (x : Arr α) (s : OSt (FN σ α β) α β) (dt : DType)
    (ms : List (Mem σ α β))
    (hst : s.node.started = true ∨ s.node.phase ≠ 0) (hx : x.ndim = 2) (hn : x.data ≠ [])
    (hin : s.node.inputDim = some x.cols) (hd : s.node.dtype = some dt) (hr : Primed x.cols dt s.node.st ms)
    (ho : s.node.outputDim ≠ none ∨ ms.getLast?.bind Dims.out = some x.cols ∧
      (2 ≤ ms.length ∨ ms.head?.bind Dims.inp = some x.cols))
    (k : Nat) (hk : c.out = k) (hkl : k < ms.length) :
    (fnExecute (ringKind c) x s).1 = (through 0 (ms.take (k + 1)) { x with dtype := dt }).1 ∧
    (fnExecute (ringKind c) x s).2.node.st.nodes = (through 0 (ms.take (k + 1)) { x with dtype := dt }).2 ++ ms.drop (k + 1) := by
  obtain ⟨s1, hpre, h2, h3⟩ := fn_pre (its := ringItems c.iterations c.ignore c.nodes) (fix := false) (out := c.out)
    (nodes := c.nodes) hst hx hn hin hd hr ho
  change fnPre (ringKind c) x s = (.ok (), s1) at hpre
  unfold fnExecute
  simp only [M.bind_def, hpre, M.get_def, olog, onNode]
  have he : cexec 0 (k + 1) ms { x with dtype := dt } =
      ((through 0 (ms.take (k + 1)) { x with dtype := dt }).1,
        (through 0 (ms.take (k + 1)) { x with dtype := dt }).2 ++ ms.drop (k + 1)) := by
    have h := cexec_append0 (ms.take (k + 1)) (ms.drop (k + 1)) 0 { x with dtype := dt }
    rw [List.take_append_drop, cexec_through, List.length_take, Nat.min_eq_left (by omega)] at h
    exact h
  have hk : (ringKind c).execHook s1.node.st (refcast s1.node.dtype x) =
      ⟨{ s1.node.st with nodes := (cexec 0 (k + 1) ms { x with dtype := dt }).2 }, [], (cexec 0 (k + 1) ms { x with dtype := dt }).1⟩ := by
    show (⟨{ s1.node.st with nodes := (cexec 0 (c.out + 1).toNat s1.node.st.nodes (refcast s1.node.dtype x)).2 },
      [], (cexec 0 (c.out + 1).toNat s1.node.st.nodes (refcast s1.node.dtype x)).1⟩ : Hooked (FN σ α β) (Arr α)) = _
    rw [show (c.out + 1).toNat = k + 1 by omega, h2, h3]
    rfl
  rw [hk, runHook_plain, he]
  exact ⟨rfl, rfl⟩

theorem fnSetOut_refused (n d : Nat) (s : OSt (FN σ α β) α β) (ms : List (Mem σ α β)) (h : s.node.st.nodes = ms)
    (hlast : ms.getLast?.bind Dims.out = some d) (hne : n ≠ d) :
    fnSetOut n s = (.error .dim, s) := by
  match ms, h, hlast with
  | [m], h, hlast =>
    have ho : Dims.out m = some d := hlast
    simp only [fnSetOut, h, setOut_other n d m ho hne]
    rw [← h]
  | a :: b :: r, h, hlast =>
    have hlast' : lastOut (a :: b :: r) = some d := hlast
    simp only [fnSetOut, h, hlast', if_pos hne]

/-- C210 is violated: as long as the output dimension of the flow node is unknown, which lasts until `stop_training` if that
of the last node was unknown at construction, a flow node whose last node has learnt an output dimension
other than the input dimension of the flow cannot be executed: it is asked to take the input dimension for the output
dimension, refuses, and nothing has changed, so that trying again does not help. -/
theorem flownode_execute_refused (its : List Item) (fix : Bool) (out : Int) (nodes : List (Mem σ α β)) (x : Arr α)
    (s : OSt (FN σ α β) α β) (dt : DType) (d : Nat) (ms : List (Mem σ α β))
    (hst : s.node.started = true ∨ s.node.phase ≠ 0) (hx : x.ndim = 2) (hn : x.data ≠ [])
    (hin : s.node.inputDim = some x.cols) (hd : s.node.dtype = some dt) (hr : Primed x.cols dt s.node.st ms)
    (ho : s.node.outputDim = none) (hlast : ms.getLast?.bind Dims.out = some d) (hne : d ≠ x.cols) :
    (fnExecute (fnKind its fix out nodes) x s).1 = .error .dim ∧
    (fnExecute (fnKind its fix out nodes) x s).2.node.st.nodes = ms ∧
    (fnExecute (fnKind its fix out nodes) x s).2.node.outputDim = none := by
  obtain ⟨s1, h1, h2, h3, h4, h5, _⟩ := fn_checked (its := its) (fix := fix) (out := out) (nodes := nodes) hst hx hn hin hd hr
  have hpre : fnPre (fnKind its fix out nodes) x s = (.error .dim, s1) := by
    refine h1.trans ?_
    rw [h5, ho, h4]
    dsimp only
    exact fnSetOut_refused x.cols d s1 ms (by rw [h2]) hlast (fun h => hne h.symm)
  unfold fnExecute
  simp only [M.bind_def, hpre]
  exact ⟨trivial, by rw [h2], by rw [h5, ho]⟩

/-! ### Training types -/

/-- C211: a flow node is built from nodes without exception only if the nodes' dimensions fit; it is set to batch training
if and only if one of its nodes is, and to nothing otherwise; it has the nodes of the flow, is in training if and only if a
node has a training phase left, and has not been trained. -/
theorem flownode_init (K : OKind (FN σ α β) α β) (ok : Bool) (stored : Option (Arr α)) (nodes : List (Mem σ α β))
    (dtype : Option DType) (s : OSt (FN σ α β) α β) (h : fnInit K ok stored nodes dtype = .ok s) :
    ok = true ∧ nodes ≠ [] ∧ s.ttype = (if nodes.any Mem.isBatch then some .batch else none) ∧
    SameTrainable nodes s.node.st.nodes ∧ s.node.training = K.trainable ∧ s.node.started = false ∧
    s.node.st.stored = stored := by
  unfold fnInit at h
  split at h
  · next m r last hlast =>
    refine ⟨?_, ?_⟩
    · split at h
      · cases h
      · dsimp only at h
        split at h
        · cases h
        · split at h
          · cases h
          · split at h
            · next hok => exact hok
            · cases h
    · refine ⟨by simp, ?_⟩
      split at h
      · cases h
      · dsimp only at h
        split at h
        · cases h
        · next s0 hs0 =>
          split at h
          · cases h
          · split at h
            · cases h
              dsimp only
              unfold oinit at hs0
              obtain ⟨e1, rfl⟩ := Prod.mk.inj hs0
              have hsoft : ∀ (n0 : St (FN σ α β) α β) (i o : Option Nat) (t : Option DType),
                  Soft K.toKind n0 ((do setInputDim K.toKind i; setOutputDim K.toKind o; setDtype K.toKind t : NodeM (FN σ α β) α β Unit) n0).2 ∧
                  SameSt n0 ((do setInputDim K.toKind i; setOutputDim K.toKind o; setDtype K.toKind t : NodeM (FN σ α β) α β Unit) n0).2 := by
                intro n0 i o t
                exact ⟨M.Moves.bind (soft_pre _) (setInputDim_soft _ i) (fun _ => M.Moves.bind (soft_pre _) (setOutputDim_soft _ o)
                    (fun _ => setDtype_soft _ t)) n0,
                  M.Moves.bind sameSt_pre (setInputDim_st _ i) (fun _ => M.Moves.bind sameSt_pre (setOutputDim_st _ o)
                    (fun _ => setDtype_st _ t)) n0⟩
              unfold Node.init
              obtain ⟨k1, k2⟩ := hsoft { inputDim := none, outputDim := none, dtype := none, training := K.trainable, phase := if K.trainable then 0 else -1, started := false, st := _, trace := [] } (Dims.inp m) (Dims.out last) (dtype.or last.dtype)
              refine ⟨rfl, ?_, k1.training, k1.started, ?_⟩
              · rw [k2]
                dsimp only
                cases dtype.or last.dtype with
                | none => rfl
                | some t => exact msetDtypes_trainable t _
              · rw [k2]
            · cases h
  · cases h

/-- C211: once the training type of a flow node is set it can not be changed; asking for the same type again changes
nothing. If it is not set, it can be set to both types. -/
theorem flownode_type (its : List Item) (fix : Bool) (out : Int) (nodes : List (Mem σ α β)) (t : TType)
    (s : OSt (FN σ α β) α β) :
    fnSetType (fnKind its fix out nodes) t s =
      match s.ttype with
      | none => (.ok (), { s with ttype := some t })
      | some u => (if t = u then .ok () else .error .node, s) := by
  unfold fnSetType
  cases hs : s.ttype with
  | none =>
    simp only [setTrainingType]
    rw [if_pos]
    show t ∈ [TType.incremental, TType.batch]
    cases t <;> decide
  | some u =>
    simp only
    by_cases h : u = t
    · rw [if_neg (by simpa using h), if_pos h.symm]
    · rw [if_pos h, if_neg (fun h' => h h'.symm)]

/-! ### Histories of calls -/

theorem cexec_trainable (k : Nat) (ms : List (Mem σ α β)) : ∀ (i : Nat) (x : Arr α), SameTrainable ms (cexec i k ms x).2 := by
  unfold SameTrainable
  induction k generalizing ms with
  | zero => intro i x; rfl
  | succ k ih =>
    intro i x
    cases ms with
    | nil => rfl
    | cons m r =>
      have h := execute_trainable x m
      simp only [cexec]
      generalize m.execute x = z at h
      obtain ⟨res, m'⟩ := z
      cases res with
      | error e => simp only [List.map_cons, h]
      | ok y => simp only [List.map_cons, h, ih]

theorem set_trainable (ms : List (Mem σ α β)) (i : Nat) (m m' : Mem σ α β) (h : ms[i]? = some m)
    (ht : m'.trainable = m.trainable) : SameTrainable ms (ms.set i m') := by
  unfold SameTrainable
  rw [List.map_set, ht]
  apply List.ext_getElem?
  intro j
  rw [List.getElem?_set]
  split
  · next hij =>
    subst hij
    rw [List.getElem?_map, h, Option.map_some]
    split
    · rfl
    · next hlt =>
      rw [List.length_map] at hlt
      rw [List.getElem?_eq_none (by omega)] at h
      cases h
  · rfl

theorem trainNr_trainable (i : Nat) (x : Arr α) (args : List β) (ms : List (Mem σ α β)) :
    SameTrainable ms (trainNr i x args ms).2 := by
  unfold trainNr
  split
  · rfl
  · next m hm => exact set_trainable ms i m _ hm (train_trainable x args m)

theorem stopNr_trainable (i : Nat) (ms : List (Mem σ α β)) : SameTrainable ms (stopNr i ms).2 := by
  unfold stopNr
  split
  · rfl
  · next m hm => exact set_trainable ms i m _ hm (stop_trainable m)

theorem execNrs_trainable (i j : Nat) (ms : List (Mem σ α β)) (x : Arr α) : SameTrainable ms (execNrs i j ms x).2 := by
  have h := cexec_trainable (j - i) (ms.drop i) i x
  unfold SameTrainable at h ⊢
  unfold execNrs
  dsimp only
  rw [List.map_append, h, ← List.map_append, List.take_append_drop]

theorem itemTrain_trainable (it : Item) (x : Arr α) (args : List β) (f : FN σ α β) :
    SameTrainable f.nodes (it.train x args f).2.nodes := by
  unfold Item.train
  split
  · rfl
  · split
    · rfl
    · exact trainNr_trainable _ _ _ _

theorem itemPass_trainable (it : Item) (x : Arr α) (f : FN σ α β) : SameTrainable f.nodes (it.pass x f).2.nodes := by
  unfold Item.pass
  split
  · rfl
  · next i j _ =>
    split
    · rfl
    · next z _ =>
      have h := execNrs_trainable i j f.nodes z
      split
      · next he => rw [he] at h; exact h
      · next he => rw [he] at h; exact h

theorem itemStop_trainable (it : Item) (f : FN σ α β) : SameTrainable f.nodes (it.stop f).2.nodes := by
  unfold Item.stop
  split
  · exact stopNr_trainable _ _
  · rfl

theorem ffixInputs_trainable (r : List (Mem σ α β)) : ∀ (o : Option Nat), SameTrainable r (ffixInputs o r).2 := by
  unfold SameTrainable
  induction r with
  | nil => intro o; rfl
  | cons m r ih =>
    intro o
    rw [ffixInputs]
    have h : (if (Dims.inp m).isNone then m.setInp o else (.ok (), m)).2.trainable = m.trainable := by
      split
      · exact setInp_trainable o m
      · rfl
    generalize (if (Dims.inp m).isNone then m.setInp o else ((.ok (), m) : Except Err Unit × Mem σ α β)) = z at h
    obtain ⟨res, m'⟩ := z
    cases res with
    | error e => simp only [List.map_cons, h]
    | ok u => simp only [List.map_cons, h, ih]

theorem ffixNodes_trainable (ms : List (Mem σ α β)) : SameTrainable ms (ffixNodes ms).2 := by
  cases ms with
  | nil => rfl
  | cons m r =>
    have h := ffixInputs_trainable r (Dims.out m)
    unfold SameTrainable at h ⊢
    simp only [ffixNodes]
    split
    · next he => rw [he] at h; simp only [List.map_cons, h]
    · next he => rw [he] at h; simp only [List.map_cons, h]

theorem setOut_trainable (n : Option Nat) (m : Mem σ α β) : (m.setOut n).2.trainable = m.trainable := by
  cases m <;> rfl

theorem fnTrain_trainable (its : List Item) (p : Nat) (f : FN σ α β) (x : Arr α) (args : List β) :
    SameTrainable f.nodes (fnTrain its p f x args).st.nodes := by
  unfold fnTrain
  have h0 : SameTrainable f.nodes (if p = 0 then f.forward x else (.ok (), f)).2.nodes := by
    split
    · exact forward_trainable x f
    · rfl
  generalize (if p = 0 then f.forward x else ((.ok (), f) : Except Err Unit × FN σ α β)) = z at h0
  obtain ⟨res, f'⟩ := z
  cases res with
  | error e => exact h0
  | ok u =>
    dsimp only
    split
    · exact h0
    · exact (itemTrain_trainable _ x args f').trans h0

theorem fnPass_trainable (its : List Item) (p : Nat) (f : FN σ α β) (x : Arr α) :
    SameTrainable f.nodes (fnPass its p f x).st.nodes := by
  unfold fnPass
  split
  · rfl
  · exact itemPass_trainable _ x f

theorem fnStop_trainable (its : List Item) (fix : Bool) (p : Nat) (f : FN σ α β) :
    SameTrainable f.nodes (fnStop its fix p f).st.nodes := by
  unfold fnStop
  split
  · rfl
  · next it _ =>
    have h := itemStop_trainable it f
    generalize it.stop f = z at h
    obtain ⟨res, f'⟩ := z
    cases res with
    | error e => exact h
    | ok u =>
      dsimp only
      split
      · have h2 := ffixNodes_trainable f'.nodes
        split
        · next he => rw [he] at h2; exact h2.trans h
        · next he => rw [he] at h2; exact h2.trans h
      · exact h

/-- A call on a flow node. -/
inductive FCall (α β : Type) where
  | train (x : Arr α) (args : List β)
  | stop
  | execute (x : Arr α)
  | setType (t : TType)
  | setStored (x : Option (Arr α))

/-- The state after a call, whether it returned or raised. -/
def FCall.run (K : OKind (FN σ α β) α β) : FCall α β → OSt (FN σ α β) α β → OSt (FN σ α β) α β
  | .train x args, s => (otrain K x args s).2
  | .stop, s => (ostop K s).2
  | .execute x, s => (fnExecute K x s).2
  | .setType t, s => (fnSetType K t s).2
  | .setStored x, s => (fnSetStored x s).2

section
variable {its : List Item} {fix : Bool} {out : Int} {nodes : List (Mem σ α β)}

/-- The nodes are of the classes they were at construction. -/
def FGood (nodes : List (Mem σ α β)) (s : OSt (FN σ α β) α β) : Prop := SameTrainable nodes s.node.st.nodes

theorem onHook_good {r : Type} (ev : Except Err r → OEvent α β) (K : OKind (FN σ α β) α β) (h : FN σ α β → Hooked (FN σ α β) r)
    (hh : ∀ f, SameTrainable f.nodes (h f).st.nodes) (s : OSt (FN σ α β) α β) (hs : FGood nodes s) :
    FGood nodes (olog ev (onNode (runHook K.toKind (h s.node.st))) s).2 := by
  unfold FGood
  show SameTrainable nodes (runHook K.toKind (h s.node.st) s.node).2.st.nodes
  rw [runHook_st]
  exact (hh _).trans hs

theorem runPhases_good (args : List β) (l : List Nat) (x : Arr α) :
    M.Keeps (FGood nodes) (runPhases (fnKind its fix out nodes) args l x) := by
  induction l generalizing x with
  | nil => exact fun s hs => hs
  | cons p r ih =>
    intro s hs
    rw [runPhases]
    simp only [M.bind_def, M.get_def]
    have h1 := onHook_good (nodes := nodes) (fun o => .train p x args (isOk o)) (fnKind its fix out nodes)
      (fun f => fnTrain its p f x args) (fun f => fnTrain_trainable its p f x args) s hs
    change FGood nodes (olog (fun o => .train p x args (isOk o)) (onNode (runHook (fnKind its fix out nodes).toKind
      ((fnKind its fix out nodes).trainHook p s.node.st x args))) s).2 at h1
    generalize olog (fun o => OEvent.train p x args (isOk o)) (onNode (runHook (fnKind its fix out nodes).toKind
      ((fnKind its fix out nodes).trainHook p s.node.st x args))) s = z at h1
    obtain ⟨res, s1⟩ := z
    cases res with
    | error e => exact h1
    | ok u =>
      dsimp only
      show FGood nodes ((do
        let s ← M.get
        let y ← olog (fun o => OEvent.pass p x o.toOption) (onNode (runHook (fnKind its fix out nodes).toKind (fnPass its p s.node.st x)))
        runPhases (fnKind its fix out nodes) args r y) s1).2
      simp only [M.bind_def, M.get_def]
      have h2 := onHook_good (nodes := nodes) (fun o => .pass p x o.toOption) (fnKind its fix out nodes)
        (fun f => fnPass its p f x) (fun f => fnPass_trainable its p f x) s1 h1
      generalize olog (fun o => OEvent.pass p x o.toOption) (onNode (runHook (fnKind its fix out nodes).toKind (fnPass its p s1.node.st x))) s1 = z at h2
      obtain ⟨res, s2⟩ := z
      cases res with
      | error e => exact h2
      | ok y => exact ih y s2 h2

theorem runRows_good (args : List β) (x : Arr α) (l : List (List α)) :
    M.Keeps (FGood nodes) (runRows (fnKind its fix out nodes) args x l) := by
  induction l with
  | nil => exact fun s hs => hs
  | cons q r ih =>
    rw [runRows]
    exact .bind (runPhases_good args _ _) fun _ => .bind (fun s hs => hs) fun _ => ih

theorem ocheckInput_good (x : Arr α) : M.Keeps (FGood nodes) (ocheckInput (fnKind its fix out nodes) x) := by
  intro s hs
  unfold FGood
  rw [ocheckInput_st]
  exact hs

theorem otrain_good (x : Arr α) (args : List β) : M.Keeps (FGood nodes) (otrain (fnKind its fix out nodes) x args) := by
  unfold otrain
  refine .ite (.raise _) (.bind .get fun s => .ite (.raise _) ?_)
  refine .bind (ocheckInput_good x) fun _ => ?_
  intro s hs
  have h : ∀ s : OSt (FN σ α β) α β, FGood nodes s → FGood nodes ((do
      M.modify (fun s => { s with node := { s.node with started := true } })
      let s ← M.get
      let x' := refcast s.node.dtype x
      if s.ttype = some .incremental then runRows (fnKind its fix out nodes) args x' x'.data
      else do
        runPhases (fnKind its fix out nodes) args (List.range (fnKind its fix out nodes).nPhases) x'
        M.modify (fun s => { s with iter := s.iter + x'.nrows }) : OM (FN σ α β) α β Unit) s).2 := by
    have : M.Keeps (FGood nodes) (do
      M.modify (fun s => { s with node := { s.node with started := true } })
      let s ← M.get
      let x' := refcast s.node.dtype x
      if s.ttype = some .incremental then runRows (fnKind its fix out nodes) args x' x'.data
      else do
        runPhases (fnKind its fix out nodes) args (List.range (fnKind its fix out nodes).nPhases) x'
        M.modify (fun s => { s with iter := s.iter + x'.nrows }) : OM (FN σ α β) α β Unit) := by
      refine .bind (fun s hs => hs) fun _ => .bind .get fun s => ?_
      exact .ite (runRows_good args _ _) (.bind (runPhases_good args _ _) fun _ => fun s hs => hs)
    exact this
  exact h s hs

theorem ostop_good : M.Keeps (FGood nodes) (ostop (fnKind its fix out nodes)) := by
  have hruns : ∀ l, M.Keeps (FGood nodes) (runStops (fnKind its fix out nodes) l) := by
    intro l
    induction l with
    | nil => exact fun s hs => hs
    | cons p r ih =>
      intro s hs
      rw [runStops]
      simp only [M.bind_def, M.get_def]
      have h1 := onHook_good (nodes := nodes) (fun o => .stop p (isOk o)) (fnKind its fix out nodes)
        (fun f => fnStop its fix p f) (fun f => fnStop_trainable its fix p f) s hs
      change FGood nodes (olog (fun o => .stop p (isOk o)) (onNode (runHook (fnKind its fix out nodes).toKind
        ((fnKind its fix out nodes).stopHook p s.node.st))) s).2 at h1
      generalize olog (fun o => OEvent.stop p (isOk o)) (onNode (runHook (fnKind its fix out nodes).toKind
        ((fnKind its fix out nodes).stopHook p s.node.st))) s = z at h1
      obtain ⟨res, s1⟩ := z
      cases res with
      | error e => exact h1
      | ok u => exact ih s1 h1
  unfold ostop
  refine .bind .get fun s => .ite (.raise _) (.ite (.raise _) ?_)
  refine .bind (hruns _) fun _ => .bind (fun s hs => hs) fun _ => ?_
  intro s hs
  simp only [M.modify_def]
  split <;> exact hs

theorem fnSetOut_good (n : Nat) : M.Keeps (FGood nodes) (fnSetOut (σ := σ) (α := α) (β := β) n) := by
  intro s hs
  unfold FGood at hs ⊢
  unfold fnSetOut
  dsimp only
  generalize hms : s.node.st.nodes = ms at hs
  match ms with
  | [] => dsimp only; rw [hms]; exact hs
  | [m] =>
    have h := setOut_trainable (some n) m
    dsimp only
    generalize m.setOut (some n) = z at h
    obtain ⟨res, m'⟩ := z
    have hg : SameTrainable nodes [m'] := by
      unfold SameTrainable at hs ⊢
      rw [← hs]; simp only [List.map_cons, h]
    cases res with
    | error e => exact hg
    | ok u => exact hg
  | a :: b :: r =>
    dsimp only
    split
    · split
      · rw [hms]; exact hs
      · show SameTrainable nodes s.node.st.nodes
        rw [hms]; exact hs
    · have h := ffixNodes_trainable (a :: b :: r)
      generalize ffixNodes (a :: b :: r) = z at h
      obtain ⟨res, ns⟩ := z
      have hg : SameTrainable nodes ns := h.trans hs
      cases res with
      | error e => exact hg
      | ok u =>
        dsimp only
        split
        · split
          · exact hg
          · exact hg
        · split
          · exact hg
          · next last hlast =>
            split
            · exact hg
            · have h2 := setOut_trainable (some n) last
              generalize last.setOut (some n) = z at h2
              obtain ⟨res, m'⟩ := z
              have hg2 : SameTrainable nodes (ns.dropLast ++ [m']) := by
                unfold SameTrainable at hg ⊢
                rw [← hg, List.map_append, List.map_singleton, h2]
                obtain ⟨l, rfl⟩ : ∃ l, ns = l ++ [last] := by
                  exact List.getLast?_eq_some_iff.1 hlast
                simp
              cases res with
              | error e => exact hg2
              | ok u => exact hg2

theorem fnExecute_good (x : Arr α) : M.Keeps (FGood nodes) (fnExecute (fnKind its fix out nodes) x) := by
  have hpre : M.Keeps (FGood nodes) (fnPre (fnKind its fix out nodes) x) := by
    unfold fnPre
    refine .bind .get fun s => .bind ?_ fun _ => .bind (ocheckInput_good x) fun _ => .bind ?_ fun _ => .bind .get fun s => ?_
    · exact .when (otrain_good x [])
    · intro s hs
      exact (forward_trainable _ s.node.st).trans hs
    · split
      · exact fnSetOut_good _
      · exact fun s hs => hs
  unfold fnExecute
  refine .bind hpre fun _ => ?_
  intro s hs
  simp only [M.bind_def, M.get_def]
  exact onHook_good (nodes := nodes) _ (fnKind its fix out nodes) (fun f => (fnKind its fix out nodes).execHook f (refcast s.node.dtype x))
    (fun f => cexec_trainable _ f.nodes 0 _) s hs

theorem fcall_good (c : FCall α β) (s : OSt (FN σ α β) α β) (hs : FGood nodes s) :
    FGood nodes (c.run (fnKind its fix out nodes) s) := by
  cases c with
  | train x args => exact otrain_good x args s hs
  | stop => exact ostop_good s hs
  | execute x => exact fnExecute_good x s hs
  | setType t =>
    show FGood nodes (fnSetType (fnKind its fix out nodes) t s).2
    unfold fnSetType
    split
    · unfold setTrainingType
      split <;> exact hs
    · split <;> exact hs
  | setStored x => exact hs

/-- After any history of calls, returning or not, on a new flow node the trainable nodes of the flow are those it was built
with: the theorems of this file apply. -/
theorem flownode_history (ok : Bool) (stored : Option (Arr α)) (dtype : Option DType) (s : OSt (FN σ α β) α β)
    (h : fnInit (fnKind its fix out nodes) ok stored nodes dtype = .ok s) (cs : List (FCall α β)) :
    SameTrainable nodes (cs.foldl (fun s c => c.run (fnKind its fix out nodes) s) s).node.st.nodes := by
  have h0 : FGood nodes s := (flownode_init _ ok stored nodes dtype s h).2.2.2.1
  clear h
  induction cs generalizing s with
  | nil => exact h0
  | cons c r ih => exact ih _ (fcall_good c s h0)

end

/-! ### Examples -/

section
abbrev DMem := Mem (List (Nat × List (List Nat))) Nat Unit
abbrev DFn := OSt (FN (List (Nat × List (List Nat))) Nat Unit) Nat Unit

/-- A new flow node. -/
def fnew (K : OKind (FN (List (Nat × List (List Nat))) Nat Unit) Nat Unit) (r : Except Err DFn) : DFn :=
  match r with
  | .ok s => s
  | .error _ => (oinit K none none none ⟨[], none, false, false⟩).2

def onew (ns : List DMem) : DFn := fnew (oflowKind ns) (oflowInit ns none)
def rnew (c : CFlow (List (Nat × List (List Nat))) Nat Unit) : DFn := fnew (ringKind c) (ringInit c none)

/-- An `OnlineFlowNode` is built, trained for the first time with two samples (the hypotheses of `oflownode_train` hold: no
dimension and no dtype are known, and the nodes can be told them), executed, stopped and executed again. -/
example : isOk (oflowInit [mem1, mem1] none) = true ∧ (oflowKind [mem1, mem1]).trainable = true ∧
    (onew [mem1, mem1]).node.training = true ∧ (onew [mem1, mem1]).node.inputDim = none ∧
    (onew [mem1, mem1]).node.dtype = none ∧
    isOk ((onew [mem1, mem1]).node.st.forward (ox [[10], [20]])).1 = true ∧
    let s1 := (otrain (oflowKind [mem1, mem1]) (ox [[10], [20]]) [] (onew [mem1, mem1])).2
    isOk (otrain (oflowKind [mem1, mem1]) (ox [[10], [20]]) [] (onew [mem1, mem1])).1 = true ∧
    s1.node.st.nodes.map Mem.priv = [[(0, [[10]]), (0, [[20]])], [(0, [[11]]), (0, [[22]])]] ∧
    s1.node.started = true ∧ s1.node.inputDim = some 1 ∧ s1.node.dtype = some 1 ∧
    isOk (ostop (oflowKind [mem1, mem1]) s1).1 = true ∧ (ostop (oflowKind [mem1, mem1]) s1).2.node.training = false ∧
    (ostop (oflowKind [mem1, mem1]) s1).2.node.st.nodes.map Mem.isTraining = [false, false] := by
  decide +kernel

def memO : DMem := .online odemo1 (oinit odemo1 none (some 1) none []).2

/-- Output dimension known: the hypotheses of `oflownode_execute_partial` hold after training. -/
example : isOk (oflowInit [mem1, memO] none) = true ∧
    let s1 := (otrain (oflowKind [mem1, memO]) (ox [[10], [20]]) [] (onew [mem1, memO])).2
    s1.node.started = true ∧ s1.node.inputDim = some 1 ∧ s1.node.dtype = some 1 ∧ s1.node.outputDim = some 1 ∧
    s1.node.st.inpSet = true ∧ s1.node.st.dtSet = true ∧
    (fnExecute (oflowKind [mem1, memO]) (ox [[5]]) s1).1.toOption.map Arr.data = some [[9]] ∧
    ((through 0 s1.node.st.nodes (ox [[5]])).1.toOption.map Arr.data = some [[9]]) := by
  decide +kernel

/-- An online node from two inputs to one output. -/
def rdemo : OKind (List (Nat × List (List Nat))) Nat Unit :=
  { odemo1 with execHook := fun st x => ⟨st, [], .ok { x with cols := 1, data := x.data.map (·.take 1) }⟩ }

/-- An online node that learns its output dimension from the first data. -/
def cdemo : OKind (List (Nat × List (List Nat))) Nat Unit :=
  { odemo1 with trainHook := fun p st x _ => ⟨st ++ [(p, x.data)], [.out x.cols], .ok ()⟩ }

def memR : DMem := .online rdemo (oinit rdemo (some 2) (some 1) none []).2
def memC : DMem := .online cdemo (oinit cdemo none none none []).2

/-- The hypotheses of `flownode_execute_refused` hold after training with two columns: execution is refused. -/
example : isOk (oflowInit [memR, memC] none) = true ∧
    let s1 := (otrain (oflowKind [memR, memC]) ⟨2, 2, 1, [[1, 2], [3, 4]]⟩ [] (onew [memR, memC])).2
    isOk (otrain (oflowKind [memR, memC]) ⟨2, 2, 1, [[1, 2], [3, 4]]⟩ [] (onew [memR, memC])).1 = true ∧
    s1.node.started = true ∧ s1.node.inputDim = some 2 ∧ s1.node.dtype = some 1 ∧ s1.node.outputDim = none ∧
    s1.node.st.inpSet = true ∧ s1.node.st.dtSet = true ∧ s1.node.st.nodes.getLast?.bind Dims.out = some 1 ∧
    isOk (fnExecute (oflowKind [memR, memC]) ⟨2, 2, 1, [[1, 2]]⟩ s1).1 = false ∧
    isOk (ostop (oflowKind [memR, memC]) s1).1 = true ∧
    isOk (fnExecute (oflowKind [memR, memC]) ⟨2, 2, 1, [[1, 2]]⟩ (ostop (oflowKind [memR, memC]) s1).2).1 = true := by
  decide +kernel

/-- An ordinary node that has been trained. -/
def memT : DMem := (memP.train (ox [[1]]) []).2.stop.2

/-- It is accepted by the constructor, and training the flow node is refused (`oflownode_trained_node`). -/
example : memT.trainable = true ∧ memT.isTraining = false ∧ isOk (oflowInit [memT, mem1] none) = true ∧
    (onew [memT, mem1]).node.training = true ∧
    isOk (otrain (oflowKind [memT, mem1]) (ox [[10]]) [] (onew [memT, mem1])).1 = false := by
  decide +kernel

/-- A node that is not trainable. -/
def memN : DMem := .plain { pdemo with trainable := false } (init { pdemo with trainable := false } (some 1) (some 1) none []).2

/-- The first node is not trainable: the flow node is trained and cannot be stopped (`oflownode_stop_refused`). -/
example : memN.trainable = false ∧ isOk (oflowInit [memN, mem1] none) = true ∧ (oflowKind [memN, mem1]).trainable = true ∧
    let s1 := otrain (oflowKind [memN, mem1]) (ox [[10]]) [] (onew [memN, mem1])
    isOk s1.1 = true ∧ s1.2.node.training = true ∧ s1.2.node.started = true ∧
    isOk (ostop (oflowKind [memN, mem1]) s1.2).1 = false ∧
    (ostop (oflowKind [memN, mem1]) s1.2).2.node.st.nodes.map Mem.isTraining = [false, true] := by
  decide +kernel

/-- A `CircularOnlineFlowNode` with one iteration is trained and stopped. -/
example : isOk (ringInit ring3 none) = true ∧ (ringKind ring3).trainable = true ∧ ring3.iterations = 1 ∧
    let s1 := otrain (ringKind ring3) (ox [[10], [20]]) [] (rnew ring3)
    isOk s1.1 = true ∧ s1.2.node.st.nodes.map Mem.priv =
      [[(0, []), (0, [[10]]), (0, [[20]])], [(1, []), (0, [[12]]), (0, [[23]])], [(2, []), (0, [[14]]), (0, [[26]])]] ∧
    s1.2.node.st.stored.map Arr.data = some [[29]] ∧ s1.2.node.training = true ∧ s1.2.node.started = true ∧
    isOk (ostop (ringKind ring3) s1.2).1 = true ∧ (ostop (ringKind ring3) s1.2).2.node.training = false := by
  decide +kernel

/-- With two iterations it is trained and cannot be stopped (`ringnode_stop_refused`); the second round starts from the
output of the first. -/
example : let c := { ring3 with iterations := 2 }
    let s1 := otrain (ringKind c) (ox [[10]]) [] (rnew c)
    isOk (ringInit c none) = true ∧ (ringKind c).trainable = true ∧ isOk s1.1 = true ∧ s1.2.node.training = true ∧
    s1.2.node.started = true ∧ s1.2.node.st.nodes.map Mem.priv =
      [[(0, []), (0, [[10]]), (0, [[16]])], [(1, []), (0, [[12]]), (0, [[19]])], [(2, []), (0, [[14]]), (0, [[22]])]] ∧
    isOk (ostop (ringKind c) s1.2).1 = false := by
  decide +kernel

def memB : DMem := .online odemo1 (setTrainingType odemo1 .batch (oinit odemo1 none none none []).2).2

/-- One node set to batch training: so is the flow node, and this cannot be changed. -/
example : isOk (oflowInit [memB, mem1] none) = true ∧ (onew [memB, mem1]).ttype = some .batch ∧
    (onew [mem1, mem1]).ttype = none ∧
    isOk (fnSetType (oflowKind [memB, mem1]) .incremental (onew [memB, mem1])).1 = false ∧
    isOk (fnSetType (oflowKind [mem1, mem1]) .incremental (onew [mem1, mem1])).1 = true := by
  decide +kernel

end

end Mdp.Online
