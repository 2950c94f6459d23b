import Verif.Online.FlowNodeLemmas

/-! # Online flow nodes: training (C208, C209) -/

namespace Mdp.Online

open Py Mdp.Node Mdp.Flow Mdp.Layer

variable {σ α β : Type}

/-! ### The training sequence of an `OnlineFlowNode` -/

theorem trainNr_at (A : List (Mem σ α β)) (m : Mem σ α β) (r : List (Mem σ α β)) (x : Arr α) (args : List β) :
    trainNr A.length x args (A ++ m :: r) = ((m.train x args).1, A ++ (m.train x args).2 :: r) := by
  unfold trainNr
  simp

theorem execNrs_at (A N B : List (Mem σ α β)) (x : Arr α) :
    execNrs A.length (A.length + N.length) (A ++ (N ++ B)) x =
      ((cexec A.length N.length N x).1, A ++ ((cexec A.length N.length N x).2 ++ B)) := by
  unfold execNrs
  rw [show A.length + N.length - A.length = N.length by omega, List.drop_left, List.take_left, cexec_append0]

theorem items_walk (args : List β) (n : Nat) : ∀ (A : List (Mem σ α β)) (m : Mem σ α β) (r : List (Mem σ α β)),
    r.length ≤ n → m.trainable = true → ∀ (w : Option (Arr α)) (a b : Bool) (x : Arr α),
    void (runItems args (itemsFrom true false (fun _ => none) (trainableNrs A.length (m :: r))) ⟨A ++ m :: r, w, a, b⟩ x).1 =
      (walk args A.length (m :: r) x).1 ∧
    (runItems args (itemsFrom true false (fun _ => none) (trainableNrs A.length (m :: r))) ⟨A ++ m :: r, w, a, b⟩ x).2 =
      ⟨A ++ (walk args A.length (m :: r) x).2, w, a, b⟩ := by
  induction n with
  | zero =>
    intro A m r hr hm w a b x
    have : r = [] := List.length_eq_zero_iff.1 (by omega)
    subst this
    simp only [trainableNrs, hm, if_true, itemsFrom, runItems, Item.train, Item.data, Bool.false_eq_true, if_false,
      trainNr_at, walk, Mem.learns]
    generalize m.train x args = z
    obtain ⟨res, m1⟩ := z
    cases res with
    | error e => exact ⟨rfl, rfl⟩
    | ok u => exact ⟨rfl, rfl⟩
  | succ n ih =>
    intro A m r hr hm w a b x
    rw [walk]
    simp only [trainableNrs, hm, if_true, Mem.learns]
    cases hra : r.any Mem.trainable with
    | false =>
      rw [trainableNrs_nil r _ hra]
      simp only [itemsFrom, runItems, Item.train, Item.data, Bool.false_eq_true, if_false, trainNr_at]
      generalize m.train x args = z
      obtain ⟨res, m1⟩ := z
      cases res with
      | error e => exact ⟨rfl, rfl⟩
      | ok u => exact ⟨rfl, rfl⟩
    | true =>
      obtain ⟨N, m', r', rfl, hN, hm'⟩ := split_trainable r hra
      rw [trainableNrs_append N _ _ hN]
      simp only [trainableNrs, hm', if_true, itemsFrom, runItems, Item.train, Item.data, Bool.false_eq_true, if_false,
        trainNr_at]
      have hB : (m' :: r').any Mem.trainable = true := by simp [hm']
      generalize m.train x args = z
      obtain ⟨res, m1⟩ := z
      cases res with
      | error e => exact ⟨rfl, rfl⟩
      | ok u =>
        dsimp only
        have e1 := fun x : Arr α => execNrs_at A (m1 :: N) (m' :: r') x
        rw [show A.length + (m1 :: N).length = A.length + 1 + N.length by simp; omega, List.cons_append] at e1
        simp only [Item.pass, Item.data, Bool.false_eq_true, if_false, e1, List.length_cons, cexec]
        generalize m1.execute x = z
        obtain ⟨res, m2⟩ := z
        cases res with
        | error e => exact ⟨rfl, rfl⟩
        | ok y =>
          dsimp only
          rw [walk_skip args N _ _ _ hN hB]
          generalize hq : cexec (A.length + 1) N.length N y = q
          obtain ⟨res, N'⟩ := q
          cases res with
          | error e => exact ⟨rfl, by simp⟩
          | ok v =>
            have hlen : N'.length = N.length := by
              have : ∀ (N : List (Mem σ α β)) (i : Nat) (y : Arr α), (cexec i N.length N y).2.length = N.length := by
                intro N
                induction N with
                | nil => intro i y; rfl
                | cons k l ihl =>
                  intro i y
                  simp only [List.length_cons, cexec]
                  generalize k.execute y = z
                  obtain ⟨res, k'⟩ := z
                  cases res with
                  | error e => rfl
                  | ok v => simp [ihl]
              have h := this N (A.length + 1) y
              rw [hq] at h
              exact h
            have h := ih (A ++ (m2 :: N')) m' r' (by simp at hr; omega) hm' w a b v
            have hl : (A ++ (m2 :: N')).length = A.length + 1 + N.length := by simp [hlen]; omega
            rw [hl, List.append_assoc, List.cons_append] at h
            simp only [trainableNrs, hm', if_true] at h
            refine ⟨h.1, ?_⟩
            rw [List.cons_append]
            refine h.2.trans ?_
            simp

theorem cexec_length (N : List (Mem σ α β)) : ∀ (i : Nat) (y : Arr α), (cexec i N.length N y).2.length = N.length := by
  induction N with
  | nil => intro i y; rfl
  | cons k l ihl =>
    intro i y
    simp only [List.length_cons, cexec]
    generalize k.execute y = z
    obtain ⟨res, k'⟩ := z
    cases res with
    | error e => rfl
    | ok v => simp [ihl]

/-- The training sequence of an `OnlineFlowNode` does a walk through the nodes. -/
theorem online_items (args : List β) (nodes : List (Mem σ α β)) (f : FN σ α β) (x : Arr α)
    (hs : SameTrainable nodes f.nodes) (hany : nodes.any Mem.trainable = true) :
    void (runItems args (onlineItems nodes) f x).1 = (walk args 0 f.nodes x).1 ∧
    (runItems args (onlineItems nodes) f x).2 = { f with nodes := (walk args 0 f.nodes x).2 } := by
  obtain ⟨ms, w, a, b⟩ := f
  dsimp only at hs ⊢
  have hany' : ms.any Mem.trainable = true := by
    have : ∀ l : List (Mem σ α β), l.any Mem.trainable = (l.map Mem.trainable).any id := by
      intro l; rw [List.any_map]; rfl
    rw [this, hs, ← this]; exact hany
  unfold onlineItems
  rw [← trainableNrs_congr nodes ms hs 0]
  obtain ⟨N, m, r, rfl, hN, hm⟩ := split_trainable ms hany'
  rw [trainableNrs_append N _ _ hN, Nat.zero_add, walk_skip args N _ 0 x hN (by simp [hm]), Nat.zero_add]
  cases hNe : N with
  | nil =>
    subst hNe
    simp only [List.length_nil, cexec, trainableNrs, hm, if_true, List.nil_append]
    have h := items_walk args r.length [] m r (Nat.le_refl _) hm w a b x
    simp only [trainableNrs, hm, if_true, List.length_nil, List.nil_append] at h
    exact h
  | cons k l =>
    rw [← hNe]
    have hl : N.length = l.length + 1 := by rw [hNe]; rfl
    have he : leadItem (trainableNrs N.length (m :: r)) = [⟨none, false, some (0, N.length), false, false⟩] := by
      simp only [trainableNrs, hm, if_true, leadItem, hl]
    rw [he, runItems_append]
    simp only [runItems, Item.train, Item.data, Bool.false_eq_true, if_false, Item.pass]
    have e1 := execNrs_at [] N (m :: r) x
    simp only [List.length_nil, Nat.zero_add, List.nil_append] at e1
    rw [e1]
    have hlen := cexec_length N 0 x
    generalize cexec 0 N.length N x = q at hlen
    obtain ⟨res, N'⟩ := q
    cases res with
    | error e => exact ⟨rfl, rfl⟩
    | ok v =>
      dsimp only at hlen ⊢
      have h := items_walk args r.length N' m r (Nat.le_refl _) hm w a b v
      rw [hlen] at h
      exact h

theorem onlineItems_ne (nodes : List (Mem σ α β)) (hany : nodes.any Mem.trainable = true) : onlineItems nodes ≠ [] := by
  obtain ⟨N, m, r, rfl, hN, hm⟩ := split_trainable nodes hany
  unfold onlineItems
  rw [trainableNrs_append N _ _ hN]
  simp only [trainableNrs, hm, if_true]
  intro h
  have h := (List.append_eq_nil_iff.1 h).2
  generalize trainableNrs (0 + N.length + 1) r = q at h
  cases q with
  | nil => cases h
  | cons j q => cases h

/-- A trainable flow node has a trainable node. -/
theorem trainable_any (nodes : List (Mem σ α β)) (h : (nodes.map Mem.remaining).sum ≠ 0) :
    nodes.any Mem.trainable = true := by
  by_contra hn
  apply h
  rw [Bool.not_eq_true] at hn
  clear h
  induction nodes with
  | nil => rfl
  | cons m r ih =>
    simp only [List.any_cons, Bool.or_eq_false_iff] at hn
    have h0 : m.remaining = 0 := by
      have := hn.1
      cases m with
      | plain K s => simp only [Mem.trainable] at this; simp [Mem.remaining, Node.remaining, this]
      | online K s => simp only [Mem.trainable] at this; simp [Mem.remaining, Node.remaining, this]
    rw [List.map_cons, List.sum_cons, h0, ih hn.2]; rfl

theorem oflow_runs (nodes : List (Mem σ α β)) (hT : (oflowKind nodes).trainable = true) :
    Runs (oflowKind nodes) (fnRun (onlineItems nodes)) where
  run := fun args x s => runPhases_items _ (onlineItems_ne nodes (trainable_any nodes (by simpa [oflowKind, fnKind] using hT)))
    _ _ _ args x s
  check := fun _ _ => rfl
  args := fun _ _ _ => rfl

theorem feed_walks (args : List β) (nodes : List (Mem σ α β)) (hany : nodes.any Mem.trainable = true)
    (bs : List (Arr α)) : ∀ (f : FN σ α β), SameTrainable nodes f.nodes → f.inpSet = true → f.dtSet = true →
    (feedBlocks (fnRun (onlineItems nodes)) args bs f).1 = (walks args bs f.nodes).1 ∧
    (feedBlocks (fnRun (onlineItems nodes)) args bs f).2 = { f with nodes := (walks args bs f.nodes).2 } := by
  induction bs with
  | nil => intro f _ _ _; exact ⟨rfl, rfl⟩
  | cons x r ih =>
    intro f hs h1 h2
    obtain ⟨e1, e2⟩ := online_items args nodes f x hs hany
    have hw := walk_trainable args f.nodes 0 x
    simp only [feedBlocks, walks, fnRun, forward_done x f h1 h2]
    rw [e1, e2]
    generalize walk args 0 f.nodes x = z at hw
    obtain ⟨res, ms⟩ := z
    cases res with
    | error e => exact ⟨rfl, rfl⟩
    | ok u => exact ih { f with nodes := ms } (hw.trans hs) h1 h2

/-- `feedBlocks` with the forwarding made visible. -/
theorem feed_forward (args : List β) (nodes : List (Mem σ α β)) (hany : nodes.any Mem.trainable = true)
    (b : Arr α) (r : List (Arr α)) (f : FN σ α β) (hs : SameTrainable nodes f.nodes)
    (hr : ∀ c ∈ r, c.cols = b.cols ∧ c.dtype = b.dtype) :
    feedBlocks (fnRun (onlineItems nodes)) args (b :: r) f =
      match f.forward b with
      | (.error e, f') => (.error e, f')
      | (.ok (), f') => ((walks args (b :: r) f'.nodes).1, { f' with nodes := (walks args (b :: r) f'.nodes).2 }) := by
  have ht := forward_trainable b f
  have h0 : feedBlocks (fnRun (onlineItems nodes)) args (b :: r) f =
      match f.forward b with
      | (.error e, f') => (.error e, f')
      | (.ok (), f') => feedBlocks (fnRun (onlineItems nodes)) args (b :: r) f' := by
    simp only [feedBlocks]
    cases hf : f.forward b with
    | mk res f' =>
      cases res with
      | error e => simp [fnRun, hf]
      | ok u =>
        obtain ⟨g1, g2, g3⟩ := forward_sets b f f' hf
        simp only [fnRun, hf, forward_done b f' g1 g2]
  rw [h0]
  cases hf : f.forward b with
  | mk res f' =>
    cases res with
    | error e => rfl
    | ok u =>
      rw [hf] at ht
      obtain ⟨g1, g2, g3⟩ := forward_sets b f f' hf
      obtain ⟨e1, e2⟩ := feed_walks args nodes hany (b :: r) f' (ht.trans hs) g1 g2
      exact Prod.ext e1 e2

/-- `m'` are the nodes `m` after the flow node got its first data: the input dimension is set on the first node, the
dimensions of neighbours agree, and the dtype is set on all nodes. -/
def Primed (d : Nat) (t : DType) (f : FN σ α β) (ms : List (Mem σ α β)) : Prop :=
  ∃ ms1, (f.inpSet = true ∧ ms1 = f.nodes ∨
      f.inpSet = false ∧ ∃ m m' r, f.nodes = m :: r ∧ m.setInp (some d) = (.ok (), m') ∧ ms1 = m' :: r ∧ checkNodes ms1 = .ok ()) ∧
    (f.dtSet = true ∧ ms = ms1 ∨ f.dtSet = false ∧ msetDtypes t ms1 = (.ok (), ms))

theorem forward_primed (x : Arr α) (f : FN σ α β) (ms : List (Mem σ α β)) :
    Primed x.cols x.dtype f ms ↔ f.forward x = (.ok (), { f with nodes := ms, inpSet := true, dtSet := true }) := by
  obtain ⟨ns, w, a, b⟩ := f
  constructor
  · rintro ⟨ms1, h1, h2⟩
    have e1 : FN.forwardInp x.cols (⟨ns, w, a, b⟩ : FN σ α β) = (.ok (), ⟨ms1, w, true, b⟩) := by
      unfold FN.forwardInp
      rcases h1 with ⟨g, rfl⟩ | ⟨g, m, m', r, g1, g2, g3, g4⟩
      · dsimp only at g; subst g; rfl
      · dsimp only at g g1; subst g g1
        simp only [Bool.false_eq_true, if_false, fsetInp, g2]
        rw [← g3, g4]
    unfold FN.forward
    rw [e1]
    unfold FN.forwardDtype
    rcases h2 with ⟨g, rfl⟩ | ⟨g, g1⟩
    · dsimp only at g; subst g; rfl
    · dsimp only at g g1; subst g
      simp only [Bool.false_eq_true, if_false, g1]
  · intro h
    unfold FN.forward at h
    split at h
    · cases h
    · next g hg =>
      have hi : ∃ ms1, g = ⟨ms1, w, true, b⟩ ∧ (a = true ∧ ms1 = ns ∨
          a = false ∧ ∃ m m' r, ns = m :: r ∧ m.setInp (some x.cols) = (.ok (), m') ∧ ms1 = m' :: r ∧
            checkNodes ms1 = .ok ()) := by
        unfold FN.forwardInp at hg
        split at hg
        · next h1 => dsimp only at h1; subst h1; cases hg; exact ⟨ns, rfl, .inl ⟨rfl, rfl⟩⟩
        · next h1 =>
          have h1 : a = false := by simpa using h1
          split at hg
          · cases hg
          · next ns1 hn =>
            cases hg
            refine ⟨ns1, rfl, .inr ⟨h1, ?_⟩⟩
            cases ns with
            | nil => cases hn
            | cons m r =>
              simp only [fsetInp] at hn
              split at hn
              · cases hn
              · next m' hm =>
                obtain ⟨q1, rfl⟩ := Prod.mk.inj hn
                exact ⟨m, m', r, rfl, hm, rfl, q1⟩
      obtain ⟨ms1, rfl, h1⟩ := hi
      refine ⟨ms1, h1, ?_⟩
      unfold FN.forwardDtype at h
      split at h
      · next h2 =>
        dsimp only at h2; subst h2
        simp only [Prod.mk.injEq, FN.mk.injEq, true_and, and_true] at h
        exact .inl ⟨rfl, h.symm⟩
      · next h2 =>
        have h2 : b = false := by simpa using h2
        split at h
        · cases h
        · next ns2 hn =>
          simp only [Prod.mk.injEq, FN.mk.injEq, true_and, and_true] at h
          subst h
          exact .inr ⟨h2, hn⟩

theorem blocks_shape (t : TType) (x : Arr α) (hx : x.data ≠ []) :
    ∃ b r, blocks t x = b :: r ∧ b.cols = x.cols ∧ b.dtype = x.dtype ∧ ∀ c ∈ r, c.cols = x.cols ∧ c.dtype = x.dtype := by
  cases t with
  | batch => exact ⟨x, [], rfl, rfl, rfl, by simp⟩
  | incremental =>
    obtain ⟨q, l, hq⟩ := List.exists_cons_of_ne_nil hx
    refine ⟨{ x with data := [q] }, l.map fun row => { x with data := [row] }, by simp [blocks, hq], rfl, rfl, ?_⟩
    intro c hc
    simp only [List.mem_map] at hc
    obtain ⟨_, _, rfl⟩ := hc
    exact ⟨rfl, rfl⟩

/-- The checks of `train` also pass if the input dimension is unknown. -/
theorem ocheckInput_first {K : OKind σ α β} {x : Arr α} {s : OSt σ α β} {dt : DType} {t0 : TType}
    (hp : K.preserveDim = false) (hty : K.types.head? = some t0) (hx : x.ndim = 2)
    (hn : x.data ≠ []) (hin : s.node.inputDim = none ∨ s.node.inputDim = some x.cols)
    (hd : s.node.dtype = some dt ∨ s.node.dtype = none ∧ dt = x.dtype ∧ K.supported dt = true) :
    ∃ s1, ocheckInput K x s = (.ok (), s1) ∧ s1.node.dtype = some dt := by
  rcases hin with hin | hin
  · have hw : M.when ((some x.cols : Option Nat) = none) (setInputDim K.toKind (some x.cols))
        { s.node with inputDim := some x.cols } = (.ok (), { s.node with inputDim := some x.cols }) := by
      unfold M.when
      rw [if_neg (by simp)]; rfl
    have hw' : M.when (s.node.inputDim = none) (setInputDim K.toKind (some x.cols)) s.node =
        (.ok (), { s.node with inputDim := some x.cols }) := by
      unfold M.when
      rw [if_pos hin]
      simp [setInputDim, setInputDimRaw, hin, hp]
    have hc : checkInput K.toKind x s.node = checkInput K.toKind x { s.node with inputDim := some x.cols } := by
      generalize hu : ({ s.node with inputDim := some x.cols } : St σ α β) = u at hw hw'
      have hui : u.inputDim = some x.cols := by rw [← hu]
      rw [← hui] at hw
      unfold checkInput
      rw [if_neg (by simp [hx]), M.bind_ok (M.get_def s.node), M.bind_ok hw', M.bind_ok (M.get_def u)]
      rw [M.bind_ok (M.get_def u)]
      conv_rhs => rw [M.bind_ok (by rw [hui]; rw [hui] at hw; exact hw : M.when (u.inputDim = none) (setInputDim K.toKind (some x.cols)) u = (.ok (), u)), M.bind_ok (M.get_def u)]
    have hc2 : ocheckInput K x s = ocheckInput K x { s with node := { s.node with inputDim := some x.cols } } := by
      unfold ocheckInput
      have : onNode (checkInput K.toKind x) s =
          onNode (checkInput K.toKind x) { s with node := { s.node with inputDim := some x.cols } } := by
        unfold onNode
        rw [hc]
      rw [M.bind_def, M.bind_def, this]
    rw [hc2]
    exact ocheckInput_accepts hty hx hn rfl hd
  · exact ocheckInput_accepts hty hx hn hin hd

/-- C208: training an `OnlineFlowNode` that is in training with a well-formed array. The nodes are first told the input
dimension and the dtype, if they do not know them yet (`Primed`); then, for every sample (in batch training: with the whole
array), every trainable node is trained with what the nodes before it, already updated, make of the sample, up to the last
trainable node (`walk`). The call returns if and only if all these calls return, and the nodes are what these calls make of
them also when an exception ends the training. -/
theorem oflownode_train (nodes : List (Mem σ α β)) (x : Arr α) (args : List β) (s : OSt (FN σ α β) α β) (dt : DType)
    (ms : List (Mem σ α β)) (hT : (oflowKind nodes).trainable = true) (hs : SameTrainable nodes s.node.st.nodes)
    (ho : s.node.training = true) (hx : x.ndim = 2) (hn : x.data ≠ [])
    (hin : s.node.inputDim = none ∨ s.node.inputDim = some x.cols)
    (hd : s.node.dtype = some dt ∨ s.node.dtype = none ∧ dt = x.dtype ∧ nodes.all (Mem.supported dt) = true)
    (hr : Primed x.cols dt s.node.st ms) :
    (otrain (oflowKind nodes) x args s).1 =
      (walks args (blocks (s.ttype.getD .incremental) { x with dtype := dt }) ms).1 ∧
    (otrain (oflowKind nodes) x args s).2.node.st.nodes =
      (walks args (blocks (s.ttype.getD .incremental) { x with dtype := dt }) ms).2 := by
  obtain ⟨s1, hc, h1⟩ := ocheckInput_first (K := oflowKind nodes) (t0 := .incremental) rfl rfl hx hn hin hd
  obtain ⟨t, ht, e1, e2⟩ := otrain_runs (oflow_runs nodes hT) x args s s1 hT ho hc
  have htt : s.ttype.getD .incremental = t := by
    cases h : s.ttype with
    | none => rw [h] at ht; simpa [oflowKind, fnKind] using ht
    | some u => rw [h] at ht; simpa using ht
  rw [htt, e1, e2, h1]
  have hrc : refcast (some dt) x = { x with dtype := dt } := rfl
  rw [hrc]
  obtain ⟨b, r, hb, hbc, hbd, hrr⟩ := blocks_shape t ({ x with dtype := dt } : Arr α) hn
  rw [hb]
  have hr' : Primed b.cols b.dtype s.node.st ms := by rw [hbc, hbd]; exact hr
  rw [feed_forward args nodes (trainable_any nodes (by simpa [oflowKind, fnKind] using hT)) b r _ hs
    (fun c hc => by rw [hbc, hbd]; exact hrr c hc), (forward_primed b s.node.st ms).1 hr']
  exact ⟨rfl, rfl⟩

/-- If the nodes cannot be told the dimension or the dtype, training raises. -/
theorem oflownode_train_refused (nodes : List (Mem σ α β)) (x : Arr α) (args : List β) (s : OSt (FN σ α β) α β)
    (hs : SameTrainable nodes s.node.st.nodes) (h : isOk (otrain (oflowKind nodes) x args s).1 = true) :
    ∃ t dt ms, s.ttype.or (some .incremental) = some t ∧ Primed x.cols dt s.node.st ms ∧
      (walks args (blocks t { x with dtype := dt }) ms).1 = .ok () ∧
      (otrain (oflowKind nodes) x args s).2.node.st.nodes = (walks args (blocks t { x with dtype := dt }) ms).2 := by
  generalize hz : otrain (oflowKind nodes) x args s = z at h ⊢
  obtain ⟨res, s'⟩ := z
  cases res with
  | error e => cases h
  | ok u =>
    obtain ⟨hT, ho, s1, hc⟩ := otrain_ok_checks _ _ _ _ _ hz
    obtain ⟨t, ht, e1, e2⟩ := otrain_runs (oflow_runs nodes hT) x args s s1 hT ho hc
    obtain ⟨hw, _⟩ := ocheckInput_ok _ x s s1 hc
    obtain ⟨dt, hdt⟩ : ∃ dt, s1.node.dtype = some dt := by
      cases h : s1.node.dtype with
      | none => exact absurd h hw.2.2.2
      | some d => exact ⟨d, rfl⟩
    have hrc : refcast s1.node.dtype x = { x with dtype := dt } := by rw [hdt]; rfl
    rw [hrc, hz] at e1 e2
    have hne : x.data ≠ [] := by
      intro h
      have := hw.2.1
      simp [Arr.nrows, h] at this
    obtain ⟨b, r, hb, hbc, hbd, hrr⟩ := blocks_shape t ({ x with dtype := dt } : Arr α) hne
    rw [hb, feed_forward args nodes (trainable_any nodes (by simpa [oflowKind, fnKind] using hT)) b r _ hs
      (fun c hc => by rw [hbc, hbd]; exact hrr c hc)] at e1 e2
    cases hf : s.node.st.forward b with
    | mk res f' =>
      rw [hf] at e1 e2
      cases res with
      | error e => cases e1
      | ok u =>
        obtain ⟨g1, g2, g3⟩ := forward_sets b _ _ hf
        have hR : Primed b.cols b.dtype s.node.st f'.nodes := by
          rw [forward_primed, hf]
          obtain ⟨ns, w', i', d'⟩ := f'
          dsimp only at g1 g2 g3
          subst g1 g2 g3
          rfl
        refine ⟨t, dt, f'.nodes, by simpa [oflowKind, fnKind] using ht, ?_, ?_, ?_⟩
        · rw [hbc, hbd] at hR; exact hR
        · rw [hb]; exact e1.symm
        · rw [hb]; dsimp only at e2 ⊢; rw [e2]

end Mdp.Online
