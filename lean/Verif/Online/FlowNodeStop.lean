import Verif.Online.FlowNodeAgree

/-! # Online flow nodes: ending the training, execution, training types (C209 - C211) -/

namespace Mdp.Online

open Py Mdp.Node Mdp.Flow Mdp.Layer

variable {σ α β : Type}

/-! ### Specification -/

/-- `node.stop_training()` for every trainable node in turn, up to the first exception. -/
def stopEach : List (Mem σ α β) → Except Err Unit × List (Mem σ α β)
  | [] => (.ok (), [])
  | m :: r =>
    match (if m.trainable then m.stop else (.ok (), m)) with
    | (.error e, m') => (.error e, m' :: r)
    | (.ok (), m') => ((stopEach r).1, m' :: (stopEach r).2)

/-- The nodes on the right are those on the left, but an unknown input dimension has been set to the output dimension of
the node before; that of the node before the first one is `o`. -/
def Linked : Option Nat → List (Mem σ α β) → List (Mem σ α β) → Prop
  | _, [], [] => True
  | o, m :: r, m' :: r' =>
    (if Dims.inp m = none then m.setInp o = (.ok (), m') else m' = m) ∧ Linked (Dims.out m') r r'
  | _, _, _ => False

/-- Each node passes its output to the next: what a flow does when it is executed. -/
def through : Nat → List (Mem σ α β) → Arr α → Except Err (Arr α) × List (Mem σ α β)
  | _, [], x => (.ok x, [])
  | i, m :: r, x =>
    match m.execute x with
    | (.error e, m') => (.error (.flowCR i e), m' :: r)
    | (.ok y, m') => ((through (i + 1) r y).1, m' :: (through (i + 1) r y).2)

/-! ### Ending the training -/

/-- The stop functions of the items in turn. -/
def stopItems : List Item → FN σ α β → Except Err Unit × FN σ α β
  | [], f => (.ok (), f)
  | it :: r, f =>
    match it.stop f with
    | (.error e, f') => (.error e, f')
    | (.ok (), f') => stopItems r f'

/-- What the wrapper of the last stop function does. -/
def finish (K : Kind (FN σ α β) α β) (fix : Bool) (n : St (FN σ α β) α β) : Except Err Unit × St (FN σ α β) α β :=
  if fix then
    match ffixNodes n.st.nodes with
    | (.error e, ns) => (.error e, { n with st := { n.st with nodes := ns } })
    | (.ok (), ns) => runHook K ⟨{ n.st with nodes := ns }, foutReq ns, .ok ()⟩ n
  else (.ok (), n)

theorem runStops_items (its : List Item) (fix : Bool) (out : Int) (nodes : List (Mem σ α β)) (l : List Item) :
    ∀ (pre : List Item), its = pre ++ l → l ≠ [] → ∀ (s : OSt (FN σ α β) α β),
    ((runStops (fnKind its fix out nodes) (List.range' pre.length l.length) s).1,
      (runStops (fnKind its fix out nodes) (List.range' pre.length l.length) s).2.node) =
      match stopItems l s.node.st with
      | (.error e, f') => (.error e, { s.node with st := f' })
      | (.ok (), f') => finish (fnKind its fix out nodes).toKind fix { s.node with st := f' } := by
  induction l with
  | nil => intro pre _ h; exact absurd rfl h
  | cons it r ih =>
    intro pre hits _ s
    have hit : its[pre.length]? = some it := by rw [hits]; simp
    rw [List.length_cons, List.range'_succ, runStops]
    simp only [M.bind_def, M.get_def, olog, onNode]
    rw [show (fnKind its fix out nodes).stopHook = fnStop its fix from rfl]
    unfold fnStop
    simp only [hit, stopItems]
    generalize it.stop s.node.st = z
    obtain ⟨res, f'⟩ := z
    cases res with
    | error e => simp only [runHook_plain]
    | ok u =>
      dsimp only
      cases r with
      | nil =>
        have hl : (pre.length + 1 == its.length) = true := by rw [hits]; simp
        simp only [hl, Bool.and_true, stopItems, finish]
        cases fix with
        | false => simp only [Bool.false_eq_true, if_false, runHook_plain, List.length_nil, List.range'_zero, runStops]; rfl
        | true =>
          simp only [if_true]
          generalize ffixNodes f'.nodes = q
          obtain ⟨res, ns⟩ := q
          cases res with
          | error e => simp only [runHook_plain]
          | ok u =>
            dsimp only
            have hh : ∀ n : St (FN σ α β) α β, runHook (fnKind its true out nodes).toKind
                ⟨{ f' with nodes := ns }, foutReq ns, .ok ()⟩ { n with st := f' } =
                runHook (fnKind its true out nodes).toKind ⟨{ f' with nodes := ns }, foutReq ns, .ok ()⟩ n := by
              intro n; rfl
            rw [hh]
            generalize runHook (fnKind its true out nodes).toKind
              ⟨{ f' with nodes := ns }, foutReq ns, (.ok () : Except Err Unit)⟩ s.node = w
            obtain ⟨res, n1⟩ := w
            cases res <;> rfl
      | cons it2 r2 =>
        have hl : (pre.length + 1 == its.length) = false := by rw [hits]; simp
        simp only [hl, Bool.and_false, Bool.false_eq_true, if_false, runHook_plain]
        have h := ih (pre ++ [it]) (by rw [hits]; simp) (by simp)
          { s with node := { s.node with st := f' }, trace := s.trace ++ [.stop pre.length true] }
        rw [List.length_append, List.length_singleton] at h
        exact h

theorem itemsFrom_cons (stops save : Bool) (final : Nat → Option (Nat × Nat)) (i : Nat) (r : List Nat) :
    ∃ it, itemsFrom stops save final (i :: r) = it :: itemsFrom stops save final r ∧ it.node = some i ∧ it.stops = stops := by
  cases r with
  | nil => exact ⟨_, rfl, rfl, rfl⟩
  | cons j r => exact ⟨_, rfl, rfl, rfl⟩

theorem stopNr_at (A : List (Mem σ α β)) (m : Mem σ α β) (r : List (Mem σ α β)) :
    stopNr A.length (A ++ m :: r) = (m.stop.1, A ++ m.stop.2 :: r) := by
  unfold stopNr
  simp

theorem stopItems_each (save : Bool) (final : Nat → Option (Nat × Nat)) (B : List (Mem σ α β)) :
    ∀ (A : List (Mem σ α β)) (w : Option (Arr α)) (a b : Bool),
    stopItems (itemsFrom true save final (trainableNrs A.length B)) ⟨A ++ B, w, a, b⟩ =
      ((stopEach B).1, ⟨A ++ (stopEach B).2, w, a, b⟩) := by
  induction B with
  | nil => intro A w a b; rfl
  | cons m r ih =>
    intro A w a b
    cases hm : m.trainable with
    | false =>
      rw [trainableNrs]
      simp only [hm, Bool.false_eq_true, if_false, stopEach]
      have h := ih (A ++ [m]) w a b
      rw [List.length_append, List.length_singleton, List.append_assoc, List.singleton_append] at h
      rw [h]
      simp
    | true =>
      rw [trainableNrs]
      simp only [hm, if_true, stopEach]
      obtain ⟨it, h1, h2, h3⟩ := itemsFrom_cons true save final A.length (trainableNrs (A.length + 1) r)
      rw [h1, stopItems]
      have hst : ∀ f : FN σ α β, it.stop f = ((stopNr A.length f.nodes).1, { f with nodes := (stopNr A.length f.nodes).2 }) := by
        intro f; unfold Item.stop; rw [h3, h2]
      rw [hst]
      dsimp only
      rw [stopNr_at]
      generalize m.stop = z
      obtain ⟨res, m'⟩ := z
      cases res with
      | error e => rfl
      | ok u =>
        have h := ih (A ++ [m']) w a b
        rw [List.length_append, List.length_singleton, List.append_assoc, List.singleton_append] at h
        dsimp only
        rw [h]
        simp

theorem ostop_run (K : OKind σ α β) (s : OSt σ α β) (ho : s.node.training = true) (hst : s.node.started = true) :
    ostop K s = (match runStops K (List.range K.nPhases) s with
      | (.error e, s') => (.error e, s')
      | (.ok (), s') => (.ok (), if remaining K.toKind { s'.node with phase := K.nPhases, started := false } = 0 then
          { s' with node := { s'.node with phase := K.nPhases, started := false, training := false } }
          else { s' with node := { s'.node with phase := K.nPhases, started := false } })) := by
  simp only [ostop, M.bind_def, M.get_def]
  rw [if_neg (by rw [hst]; simp), if_neg (by rw [ho]; simp)]
  simp only [M.bind_def]
  generalize runStops K (List.range K.nPhases) s = z
  obtain ⟨res, s'⟩ := z
  cases res with
  | error e => rfl
  | ok u => rfl

/-- The result of `stop_training` of a flow node whose first item has a proper stop function. -/
theorem fn_stop (its : List Item) (fix : Bool) (out : Int) (nodes : List (Mem σ α β)) (hne : its ≠ [])
    (s : OSt (FN σ α β) α β) (ho : s.node.training = true) (hst : s.node.started = true) :
    let d := match stopItems its s.node.st with
      | (.error e, f') => ((.error e, { s.node with st := f' }) : Except Err Unit × St (FN σ α β) α β)
      | (.ok (), f') => finish (fnKind its fix out nodes).toKind fix { s.node with st := f' }
    (ostop (fnKind its fix out nodes) s).1 = d.1 ∧
    (ostop (fnKind its fix out nodes) s).2.node.st = d.2.st ∧
    (ostop (fnKind its fix out nodes) s).2.node.outputDim = d.2.outputDim ∧
    (ostop (fnKind its fix out nodes) s).2.node.training = !(isOk d.1) := by
  have h := runStops_items its fix out nodes its [] (by simp) hne s
  rw [List.length_nil] at h
  have hsp := runStops_spec (fnKind its fix out nodes) (List.range (fnKind its fix out nodes).nPhases) s
  have hr : List.range (fnKind its fix out nodes).nPhases = List.range' 0 its.length := by
    rw [← List.range_eq_range']; rfl
  rw [← hr] at h
  intro d
  have h : ((runStops (fnKind its fix out nodes) (List.range (fnKind its fix out nodes).nPhases) s).1,
      (runStops (fnKind its fix out nodes) (List.range (fnKind its fix out nodes).nPhases) s).2.node) = d := h
  rw [ostop_run _ _ ho hst]
  obtain ⟨k, rest, _, _, _, h4, _, _⟩ := hsp
  generalize runStops (fnKind its fix out nodes) (List.range (fnKind its fix out nodes).nPhases) s = z at h h4
  obtain ⟨res, s'⟩ := z
  rw [← h]
  cases res with
  | error e => exact ⟨rfl, rfl, rfl, h4.training.trans ho⟩
  | ok u =>
    have hrem : remaining (fnKind its fix out nodes).toKind
        { s'.node with phase := ((fnKind its fix out nodes).nPhases : Int), started := false } = 0 := by
      unfold remaining
      split
      · simp
      · rfl
    dsimp only
    rw [if_pos hrem]
    exact ⟨rfl, rfl, rfl, rfl⟩

theorem ffixInputs_linked (r : List (Mem σ α β)) : ∀ (o : Option Nat) (r' : List (Mem σ α β)),
    ffixInputs o r = (.ok (), r') ↔ Linked o r r' := by
  induction r with
  | nil =>
    intro o r'
    cases r' with
    | nil => simp [ffixInputs, Linked]
    | cons a b => simp [ffixInputs, Linked]
  | cons m r ih =>
    intro o r'
    rw [ffixInputs]
    have hz : (if (Dims.inp m).isNone then m.setInp o else (.ok (), m)) =
        (if Dims.inp m = none then m.setInp o else (.ok (), m)) := by
      cases Dims.inp m <;> rfl
    rw [hz]
    generalize hq : (if Dims.inp m = none then m.setInp o else ((.ok (), m) : Except Err Unit × Mem σ α β)) = q
    obtain ⟨res, m'⟩ := q
    cases res with
    | error e =>
      constructor
      · intro h; cases h
      · intro h
        cases r' with
        | nil => exact h.elim
        | cons k l =>
          have h1 := h.1
          by_cases hd : Dims.inp m = none
          · rw [if_pos hd] at h1 hq; rw [hq] at h1; cases h1
          · rw [if_neg hd] at hq; cases hq
    | ok u =>
      dsimp only
      constructor
      · intro h
        obtain ⟨h1, rfl⟩ := Prod.mk.inj h
        refine ⟨?_, (ih _ _).1 (Prod.ext h1 rfl)⟩
        by_cases hd : Dims.inp m = none
        · rw [if_pos hd] at hq ⊢; exact hq
        · rw [if_neg hd] at hq ⊢; exact (Prod.mk.inj hq).2.symm
      · intro h
        cases r' with
        | nil => exact h.elim
        | cons k l =>
          obtain ⟨h1, h2⟩ := h
          have hk : k = m' := by
            by_cases hd : Dims.inp m = none
            · rw [if_pos hd] at h1 hq; rw [h1] at hq; exact (Prod.mk.inj hq).2
            · rw [if_neg hd] at h1 hq; rw [h1]; exact (Prod.mk.inj hq).2
          subst hk
          rw [(ih _ _).2 h2]

theorem ffixNodes_linked (m : Mem σ α β) (r r' : List (Mem σ α β)) :
    ffixNodes (m :: r) = (.ok (), m :: r') ↔ Linked (Dims.out m) r r' ∧ checkNodes (m :: r') = .ok () := by
  rw [← ffixInputs_linked]
  simp only [ffixNodes]
  generalize ffixInputs (Dims.out m) r = z
  obtain ⟨res, l⟩ := z
  cases res with
  | error e => simp
  | ok u =>
    dsimp only
    constructor
    · intro h
      obtain ⟨h1, h2⟩ := Prod.mk.inj h
      cases h2
      exact ⟨rfl, h1⟩
    · rintro ⟨h1, h2⟩
      cases (Prod.mk.inj h1).2
      rw [h2]

/-- C209: `stop_training` of an `OnlineFlowNode` in training, whose first node is trainable, stops every trainable node in
the order of the flow. An exception of a node ends this, and the flow node stays in training. Otherwise unknown input
dimensions are set to the output dimension of the node before. If this works, and the output dimension of the flow node
is unknown or that of the last node, the call returns, the training is over, and the flow node has the output dimension of
the last node, if it is known. -/
theorem oflownode_stop (m0 : Mem σ α β) (nodes : List (Mem σ α β)) (s : OSt (FN σ α β) α β)
    (h0 : m0.trainable = true) (hs : SameTrainable (m0 :: nodes) s.node.st.nodes)
    (ho : s.node.training = true) (hst : s.node.started = true) :
    (∀ e ms1, stopEach s.node.st.nodes = (.error e, ms1) →
      (ostop (oflowKind (m0 :: nodes)) s).1 = .error e ∧ (ostop (oflowKind (m0 :: nodes)) s).2.node.st.nodes = ms1 ∧
      (ostop (oflowKind (m0 :: nodes)) s).2.node.training = true) ∧
    (∀ m r r', stopEach s.node.st.nodes = (.ok (), m :: r) → Linked (Dims.out m) r r' → checkNodes (m :: r') = .ok () →
      (ostop (oflowKind (m0 :: nodes)) s).2.node.st.nodes = m :: r' ∧
      ((m :: r').getLast?.bind Dims.out = none ∧
          (ostop (oflowKind (m0 :: nodes)) s).1 = .ok () ∧ (ostop (oflowKind (m0 :: nodes)) s).2.node.training = false ∧
          (ostop (oflowKind (m0 :: nodes)) s).2.node.outputDim = s.node.outputDim ∨
        ∃ d, (m :: r').getLast?.bind Dims.out = some d ∧
          (if s.node.outputDim = none ∨ s.node.outputDim = some d then
            (ostop (oflowKind (m0 :: nodes)) s).1 = .ok () ∧ (ostop (oflowKind (m0 :: nodes)) s).2.node.training = false ∧
            (ostop (oflowKind (m0 :: nodes)) s).2.node.outputDim = some d
          else (ostop (oflowKind (m0 :: nodes)) s).1 = .error .dim ∧
            (ostop (oflowKind (m0 :: nodes)) s).2.node.training = true))) ∧
    (∀ m r, stopEach s.node.st.nodes = (.ok (), m :: r) → (¬∃ r', Linked (Dims.out m) r r' ∧ checkNodes (m :: r') = .ok ()) →
      isOk (ostop (oflowKind (m0 :: nodes)) s).1 = false ∧ (ostop (oflowKind (m0 :: nodes)) s).2.node.training = true) := by
  have hany : (m0 :: nodes).any Mem.trainable = true := by simp [h0]
  obtain ⟨g1, g2, g3, g4⟩ := fn_stop (onlineItems (m0 :: nodes)) true (((m0 :: nodes).length : Int) - 1) (m0 :: nodes)
    (onlineItems_ne _ hany) s ho hst
  have hit : stopItems (onlineItems (m0 :: nodes)) s.node.st =
      ((stopEach s.node.st.nodes).1, { s.node.st with nodes := (stopEach s.node.st.nodes).2 }) := by
    have hl : leadItem (trainableNrs 0 (m0 :: nodes)) = [] := by
      simp only [trainableNrs, h0, if_true]; rfl
    unfold onlineItems
    rw [hl, List.nil_append, ← trainableNrs_congr _ _ hs 0]
    have := stopItems_each false (fun _ => none) s.node.st.nodes [] s.node.st.stored s.node.st.inpSet s.node.st.dtSet
    simpa using this
  rw [hit] at g1 g2 g3 g4
  change (ostop (oflowKind (m0 :: nodes)) s).1 = _ at g1
  change (ostop (oflowKind (m0 :: nodes)) s).2.node.st = _ at g2
  change (ostop (oflowKind (m0 :: nodes)) s).2.node.outputDim = _ at g3
  change (ostop (oflowKind (m0 :: nodes)) s).2.node.training = _ at g4
  generalize ostop (oflowKind (m0 :: nodes)) s = o at g1 g2 g3 g4 ⊢
  refine ⟨fun e ms1 h => ?_, fun m r r' h hL hC => ?_, fun m r h hno => ?_⟩
  · rw [h] at g1 g2 g4
    exact ⟨g1, by rw [g2], g4⟩
  · rw [h] at g1 g2 g3 g4
    dsimp only at g1 g2 g3 g4
    unfold finish at g1 g2 g3 g4
    simp only [if_true] at g1 g2 g3 g4
    rw [(ffixNodes_linked m r r').2 ⟨hL, hC⟩] at g1 g2 g3 g4
    dsimp only at g1 g2 g3 g4
    unfold foutReq lastOut at g1 g2 g3 g4
    cases hlo : (m :: r').getLast?.bind Dims.out with
    | none =>
      rw [hlo] at g1 g2 g3 g4
      exact ⟨by rw [g2]; rfl, .inl ⟨rfl, g1, g4, g3⟩⟩
    | some d =>
      rw [hlo] at g1 g2 g3 g4
      simp only [runHook, runSets, M.bind_def, M.modify_def, setOutputDim] at g1 g2 g3 g4
      by_cases hod : s.node.outputDim = none ∨ s.node.outputDim = some d
      · have hneg : ¬(s.node.outputDim ≠ none ∧ s.node.outputDim ≠ some d) := by
          rintro ⟨a, b⟩; rcases hod with h | h
          · exact a h
          · exact b h
        rw [if_neg hneg] at g1 g2 g3 g4
        refine ⟨by rw [g2]; rfl, .inr ⟨d, rfl, ?_⟩⟩
        rw [if_pos hod]
        exact ⟨g1, g4, g3⟩
      · have hpos : s.node.outputDim ≠ none ∧ s.node.outputDim ≠ some d := by
          rw [not_or] at hod; exact hod
        rw [if_pos hpos] at g1 g2 g3 g4
        refine ⟨by rw [g2], .inr ⟨d, rfl, ?_⟩⟩
        rw [if_neg hod]
        exact ⟨g1, g4⟩
  · rw [h] at g1 g4
    dsimp only at g1 g4
    unfold finish at g1 g4
    simp only [if_true] at g1 g4
    have hff : ∃ e ns, ffixNodes (m :: r) = (.error e, ns) := by
      generalize hz : ffixNodes (m :: r) = z
      obtain ⟨res, ns⟩ := z
      cases res with
      | error e => exact ⟨e, ns, rfl⟩
      | ok u =>
        exfalso
        have hns : ∃ r', ns = m :: r' := by
          simp only [ffixNodes] at hz
          split at hz
          · cases hz
          · exact ⟨_, (Prod.mk.inj hz).2.symm⟩
        obtain ⟨r', rfl⟩ := hns
        exact hno ⟨r', (ffixNodes_linked m r r').1 hz⟩
    obtain ⟨e, ns, hff⟩ := hff
    rw [hff] at g1 g4
    exact ⟨by rw [g1]; rfl, g4⟩

/-- C209 is violated: if the first node is not trainable, `stop_training` of an `OnlineFlowNode` raises a `TypeError`, no
node is stopped, and the flow node stays in training. -/
theorem oflownode_stop_refused (m0 : Mem σ α β) (nodes : List (Mem σ α β)) (s : OSt (FN σ α β) α β)
    (h0 : m0.trainable = false) (hT : (oflowKind (m0 :: nodes)).trainable = true)
    (ho : s.node.training = true) (hst : s.node.started = true) :
    (ostop (oflowKind (m0 :: nodes)) s).1 = .error .type ∧ (ostop (oflowKind (m0 :: nodes)) s).2.node.st = s.node.st ∧
    (ostop (oflowKind (m0 :: nodes)) s).2.node.training = true := by
  have hany := trainable_any (m0 :: nodes) (by simpa [oflowKind, fnKind] using hT)
  obtain ⟨g1, g2, g3, g4⟩ := fn_stop (onlineItems (m0 :: nodes)) true (((m0 :: nodes).length : Int) - 1) (m0 :: nodes)
    (onlineItems_ne _ hany) s ho hst
  have hit : stopItems (onlineItems (m0 :: nodes)) s.node.st = (.error .type, s.node.st) := by
    have hr : nodes.any Mem.trainable = true := by simpa [h0] using hany
    obtain ⟨N, m, r, rfl, hN, hm⟩ := split_trainable nodes hr
    unfold onlineItems
    simp only [trainableNrs, h0, Bool.false_eq_true, if_false]
    rw [trainableNrs_append N _ _ hN, show 0 + 1 + N.length = N.length + 1 by omega]
    simp only [trainableNrs, hm, if_true]
    rfl
  rw [hit] at g1 g2 g4
  exact ⟨g1, g2, g4⟩

/-- C212: `stop_training` of a `CircularOnlineFlowNode` in training with one flow iteration, whose first node is trainable,
stops every trainable node in the order of the flow; the call returns if and only if all of them return, and then the
training is over. -/
theorem ringnode_stop_partial (c : CFlow σ α β) (m0 : Mem σ α β) (r : List (Mem σ α β)) (hc : c.nodes = m0 :: r)
    (s : OSt (FN σ α β) α β) (h0 : m0.trainable = true) (hi : c.iterations ≤ 1) (hs : SameTrainable c.nodes s.node.st.nodes)
    (ho : s.node.training = true) (hst : s.node.started = true) :
    (ostop (ringKind c) s).1 = (stopEach s.node.st.nodes).1 ∧
    (ostop (ringKind c) s).2.node.st.nodes = (stopEach s.node.st.nodes).2 ∧
    (ostop (ringKind c) s).2.node.training = !(isOk (stopEach s.node.st.nodes).1) := by
  have hany : c.nodes.any Mem.trainable = true := by rw [hc]; simp [h0]
  obtain ⟨g1, g2, g3, g4⟩ := fn_stop (ringItems c.iterations c.ignore c.nodes) false c.out c.nodes (ringItems_ne c hany) s ho hst
  have hign : ∀ (l : List Item) (f : FN σ α β), stopItems (ignoring l) f = stopItems l f := by
    intro l f
    cases l with
    | nil => rfl
    | cons it r => rfl
  have hit : stopItems (ringItems c.iterations c.ignore c.nodes) s.node.st =
      ((stopEach s.node.st.nodes).1, { s.node.st with nodes := (stopEach s.node.st.nodes).2 }) := by
    have hseq : stopItems (ringItems c.iterations c.ignore c.nodes) s.node.st = stopItems (round true c.nodes) s.node.st := by
      unfold ringItems
      rw [show (c.iterations - 1).toNat = 0 by omega]
      simp only [List.replicate_zero, List.flatten_nil, List.nil_append]
      split
      · exact hign _ _
      · rfl
    rw [hseq]
    unfold round
    have hl : leadItem (trainableNrs 0 c.nodes) = [] := by
      rw [hc]; simp only [trainableNrs, h0, if_true]; rfl
    rw [hl, List.nil_append, ← trainableNrs_congr _ _ hs 0]
    have := stopItems_each true (fun i => some (i, c.nodes.length)) s.node.st.nodes [] s.node.st.stored s.node.st.inpSet s.node.st.dtSet
    simpa using this
  rw [hit] at g1 g2 g4
  change (ostop (ringKind c) s).1 = _ at g1
  change (ostop (ringKind c) s).2.node.st = _ at g2
  change (ostop (ringKind c) s).2.node.training = _ at g4
  generalize stopEach s.node.st.nodes = z at g1 g2 g4 ⊢
  obtain ⟨res, ms⟩ := z
  cases res with
  | error e => exact ⟨g1, by rw [g2], g4⟩
  | ok u => exact ⟨g1, by rw [g2]; rfl, g4⟩

/-- C212 is violated: with more than one flow iteration, or if the first node is not trainable, `stop_training` of a
`CircularOnlineFlowNode` raises a `TypeError`, no node is stopped, and the flow node stays in training. -/
theorem ringnode_stop_refused (c : CFlow σ α β) (m0 : Mem σ α β) (r : List (Mem σ α β)) (hc : c.nodes = m0 :: r)
    (s : OSt (FN σ α β) α β) (hT : (ringKind c).trainable = true) (h : m0.trainable = false ∨ 1 < c.iterations)
    (ho : s.node.training = true) (hst : s.node.started = true) :
    (ostop (ringKind c) s).1 = .error .type ∧ (ostop (ringKind c) s).2.node.st = s.node.st ∧
    (ostop (ringKind c) s).2.node.training = true := by
  have hany := trainable_any c.nodes (by simpa [ringKind, fnKind] using hT)
  obtain ⟨g1, g2, g3, g4⟩ := fn_stop (ringItems c.iterations c.ignore c.nodes) false c.out c.nodes (ringItems_ne c hany) s ho hst
  have hfirst : ∃ it l, ringItems c.iterations c.ignore c.nodes = it :: l ∧ it.stops = false := by
    have hrd : ∀ last : Bool, (m0.trainable = false ∨ last = false) → ∃ it l, round last c.nodes = it :: l ∧ it.stops = false := by
      intro last hl
      rw [hc]
      unfold round
      cases h0 : m0.trainable with
      | true =>
        have hl : last = false := by rcases hl with h | h
                                     · rw [h0] at h; cases h
                                     · exact h
        subst hl
        simp only [trainableNrs, h0, if_true]
        obtain ⟨it, e1, e2, e3⟩ := itemsFrom_cons false false (fun i => some (i, (m0 :: r).length)) 0 (trainableNrs (0 + 1) r)
        rw [e1]
        exact ⟨it, _, rfl, e3⟩
      | false =>
        have hr : r.any Mem.trainable = true := by rw [hc] at hany; simpa [h0] using hany
        obtain ⟨N, m, q, rfl, hN, hm⟩ := split_trainable r hr
        simp only [trainableNrs, h0, Bool.false_eq_true, if_false]
        rw [trainableNrs_append N _ _ hN, show 0 + 1 + N.length = N.length + 1 by omega]
        simp only [trainableNrs, hm, if_true]
        exact ⟨_, _, rfl, rfl⟩
    have hseq : ∃ it l, (List.replicate (c.iterations - 1).toNat (round false c.nodes)).flatten ++ round true c.nodes = it :: l ∧
        it.stops = false := by
      rcases h with h | h
      · obtain ⟨it, l, e1, e2⟩ := hrd false (.inl h)
        obtain ⟨it', l', e1', e2'⟩ := hrd true (.inl h)
        cases (c.iterations - 1).toNat with
        | zero => exact ⟨it', l', by rw [List.replicate_zero, List.flatten_nil, List.nil_append, e1'], e2'⟩
        | succ k => exact ⟨it, _, by rw [List.replicate_succ, List.flatten_cons, e1, List.cons_append, List.cons_append], e2⟩
      · obtain ⟨it, l, e1, e2⟩ := hrd false (.inr rfl)
        obtain ⟨k, hk⟩ : ∃ k, (c.iterations - 1).toNat = k + 1 := ⟨(c.iterations - 1).toNat - 1, by omega⟩
        rw [hk]
        exact ⟨it, _, by rw [List.replicate_succ, List.flatten_cons, e1, List.cons_append, List.cons_append], e2⟩
    obtain ⟨it, l, e1, e2⟩ := hseq
    unfold ringItems
    rw [e1]
    dsimp only
    split
    · exact ⟨_, _, rfl, e2⟩
    · exact ⟨_, _, rfl, e2⟩
  obtain ⟨it, l, e1, e2⟩ := hfirst
  have hit : stopItems (ringItems c.iterations c.ignore c.nodes) s.node.st = (.error .type, s.node.st) := by
    rw [e1, stopItems]
    unfold Item.stop
    rw [e2]
  rw [hit] at g1 g2 g4
  exact ⟨g1, g2, g4⟩

end Mdp.Online
