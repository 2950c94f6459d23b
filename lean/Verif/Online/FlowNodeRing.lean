import Verif.Online.FlowNodeTrain

/-! # Circular online flow nodes: training (C212) -/

namespace Mdp.Online

open Py Mdp.Node Mdp.Flow Mdp.Layer

variable {σ α β : Type}

/-- The stored input after a round: its output if this is saved. -/
def keeps (save : Bool) (w : Option (Arr α)) : Except Err (Arr α) → Option (Arr α)
  | .ok y => if save then some y else w
  | .error _ => w

theorem lap_plain (args : List β) (N : List (Mem σ α β)) (i : Nat) (x : Arr α) (hN : N.any Mem.trainable = false) :
    lap args i N x = cexec i N.length N x := by
  have h := lap_skip args N [] i x hN
  rw [List.append_nil] at h
  rw [h]
  generalize cexec i N.length N x = q
  obtain ⟨res, N'⟩ := q
  cases res <;> simp [lap]

theorem items_lap (args : List β) (save : Bool) (k : Nat) : ∀ (A : List (Mem σ α β)) (m : Mem σ α β) (r : List (Mem σ α β)),
    r.length ≤ k → m.trainable = true → ∀ (n : Nat) (w : Option (Arr α)) (a b : Bool) (x : Arr α),
    n = A.length + (r.length + 1) →
    runItems args (itemsFrom save save (fun i => some (i, n)) (trainableNrs A.length (m :: r))) ⟨A ++ m :: r, w, a, b⟩ x =
      ((lap args A.length (m :: r) x).1,
        ⟨A ++ (lap args A.length (m :: r) x).2, keeps save w (lap args A.length (m :: r) x).1, a, b⟩) := by
  have last : ∀ (A : List (Mem σ α β)) (m : Mem σ α β) (r : List (Mem σ α β)), r.any Mem.trainable = false →
      m.trainable = true → ∀ (n : Nat) (w : Option (Arr α)) (a b : Bool) (x : Arr α), n = A.length + (r.length + 1) →
      runItems args (itemsFrom save save (fun i => some (i, n)) (trainableNrs A.length (m :: r))) ⟨A ++ m :: r, w, a, b⟩ x =
        ((lap args A.length (m :: r) x).1,
          ⟨A ++ (lap args A.length (m :: r) x).2, keeps save w (lap args A.length (m :: r) x).1, a, b⟩) := by
    intro A m r hr hm n w a b x hn
    rw [lap]
    simp only [trainableNrs, hm, if_true, Mem.learns, trainableNrs_nil r _ hr]
    simp only [itemsFrom, runItems, Item.train, Item.data, Bool.false_eq_true, if_false, trainNr_at]
    generalize m.train x args = z
    obtain ⟨res, m1⟩ := z
    cases res with
    | error e => rfl
    | ok u =>
      dsimp only
      have e1 := fun x : Arr α => execNrs_at A (m1 :: r) [] x
      simp only [List.append_nil, List.length_cons, ← hn, cexec] at e1
      simp only [Item.pass, Item.data, Bool.false_eq_true, if_false, e1]
      generalize m1.execute x = z
      obtain ⟨res, m2⟩ := z
      cases res with
      | error e => rfl
      | ok y =>
        dsimp only
        rw [lap_plain args r _ _ hr]
        generalize cexec (A.length + 1) r.length r y = q
        obtain ⟨res, N'⟩ := q
        cases res with
        | error e => rfl
        | ok v => rfl
  induction k with
  | zero =>
    intro A m r hr hm n w a b x hn
    have : r = [] := List.length_eq_zero_iff.1 (by omega)
    subst this
    exact last A m [] rfl hm n w a b x hn
  | succ k ih =>
    intro A m r hr hm n w a b x hn
    cases hra : r.any Mem.trainable with
    | false => exact last A m r hra hm n w a b x hn
    | true =>
      rw [lap]
      simp only [trainableNrs, hm, if_true, Mem.learns]
      obtain ⟨N, m', r', rfl, hN, hm'⟩ := split_trainable r hra
      rw [trainableNrs_append N _ _ hN]
      simp only [trainableNrs, hm', if_true, itemsFrom, runItems, Item.train, Item.data, Bool.false_eq_true, if_false,
        trainNr_at]
      generalize m.train x args = z
      obtain ⟨res, m1⟩ := z
      cases res with
      | error e => rfl
      | ok u =>
        dsimp only
        have e1 := fun x : Arr α => execNrs_at A (m1 :: N) (m' :: r') x
        rw [show A.length + (m1 :: N).length = A.length + 1 + N.length by simp; omega, List.cons_append] at e1
        simp only [Item.pass, Item.data, Bool.false_eq_true, if_false, e1, List.length_cons, cexec]
        generalize m1.execute x = z
        obtain ⟨res, m2⟩ := z
        cases res with
        | error e => rfl
        | ok y =>
          dsimp only
          rw [lap_skip args N _ _ _ hN]
          have hlen := cexec_length N (A.length + 1) y
          generalize cexec (A.length + 1) N.length N y = q at hlen
          obtain ⟨res, N'⟩ := q
          cases res with
          | error e => simp [keeps]
          | ok v =>
            dsimp only at hlen
            have hl : (A ++ (m2 :: N')).length = A.length + 1 + N.length := by simp [hlen]; omega
            have h := ih (A ++ (m2 :: N')) m' r' (by simp at hr; omega) hm' n w a b v (by rw [hl, hn]; simp; omega)
            rw [hl, List.append_assoc, List.cons_append] at h
            simp only [trainableNrs, hm', if_true] at h
            rw [List.cons_append]
            refine h.trans ?_
            simp

theorem any_same {nodes ms : List (Mem σ α β)} (hs : SameTrainable nodes ms) (h : nodes.any Mem.trainable = true) :
    ms.any Mem.trainable = true := by
  have : ∀ l : List (Mem σ α β), l.any Mem.trainable = (l.map Mem.trainable).any id := by
    intro l; rw [List.any_map]; rfl
  rw [this, hs, ← this]; exact h

/-- One round of the training sequence goes once through all the nodes. -/
theorem round_lap (args : List β) (save : Bool) (nodes : List (Mem σ α β)) (f : FN σ α β) (x : Arr α)
    (hs : SameTrainable nodes f.nodes) (hany : nodes.any Mem.trainable = true) :
    runItems args (round save nodes) f x =
      ((lap args 0 f.nodes x).1,
        { f with nodes := (lap args 0 f.nodes x).2, stored := keeps save f.stored (lap args 0 f.nodes x).1 }) := by
  obtain ⟨ms, w, a, b⟩ := f
  dsimp only at hs ⊢
  have hany' := any_same hs hany
  have hlen : nodes.length = ms.length := by
    have := congrArg List.length hs
    simpa using this.symm
  unfold round
  rw [← trainableNrs_congr nodes ms hs 0, hlen]
  obtain ⟨N, m, r, rfl, hN, hm⟩ := split_trainable ms hany'
  rw [trainableNrs_append N _ _ hN, Nat.zero_add, lap_skip args N _ 0 x hN, Nat.zero_add]
  cases hNe : N with
  | nil =>
    subst hNe
    simp only [List.length_nil, cexec, trainableNrs, hm, if_true, List.nil_append]
    have h := items_lap args save r.length [] m r (Nat.le_refl _) hm (m :: r).length w a b x (by simp)
    simp only [trainableNrs, hm, if_true, List.length_nil, List.nil_append] at h
    exact h
  | cons k l =>
    rw [← hNe]
    have hl : N.length = l.length + 1 := by rw [hNe]; rfl
    have he : leadItem (trainableNrs N.length (m :: r)) = [⟨none, false, some (0, N.length), false, false⟩] := by
      simp only [trainableNrs, hm, if_true, leadItem, hl]
    rw [he, runItems_append]
    simp only [runItems, Item.train, Item.data, Bool.false_eq_true, if_false, Item.pass]
    have e1 := execNrs_at [] N (m :: r) x
    simp only [List.length_nil, Nat.zero_add, List.nil_append] at e1
    rw [e1]
    have hlen := cexec_length N 0 x
    generalize cexec 0 N.length N x = q at hlen
    obtain ⟨res, N'⟩ := q
    cases res with
    | error e => rfl
    | ok v =>
      dsimp only at hlen ⊢
      have h := items_lap args save r.length N' m r (Nat.le_refl _) hm (N ++ m :: r).length w a b v
        (by rw [hlen]; simp)
      rw [hlen] at h
      exact h

/-- The rounds that save nothing, and the last one. -/
theorem rounds_laps (args : List β) (nodes : List (Mem σ α β)) (hany : nodes.any Mem.trainable = true) (k : Nat) :
    ∀ (f : FN σ α β) (x : Arr α), SameTrainable nodes f.nodes →
    runItems args ((List.replicate k (round false nodes)).flatten ++ round true nodes) f x =
      ((laps args (k + 1) f.nodes x).1,
        { f with nodes := (laps args (k + 1) f.nodes x).2, stored := keeps true f.stored (laps args (k + 1) f.nodes x).1 }) := by
  induction k with
  | zero =>
    intro f x hs
    simp only [List.replicate_zero, List.flatten_nil, List.nil_append]
    rw [round_lap args true nodes f x hs hany]
    simp only [laps]
    generalize lap args 0 f.nodes x = z
    obtain ⟨res, ms⟩ := z
    cases res <;> rfl
  | succ k ih =>
    intro f x hs
    rw [List.replicate_succ, List.flatten_cons, List.append_assoc, runItems_append, round_lap args false nodes f x hs hany]
    rw [laps]
    have ht := lap_trainable args f.nodes 0 x
    generalize lap args 0 f.nodes x = z at ht
    obtain ⟨res, ms⟩ := z
    cases res with
    | error e => rfl
    | ok y =>
      dsimp only
      have hs' : SameTrainable nodes ms := ht.trans hs
      rw [ih ⟨ms, _, _, _⟩ y hs']
      rfl

theorem round_ne (save : Bool) (nodes : List (Mem σ α β)) (hany : nodes.any Mem.trainable = true) :
    ∃ it r, round save nodes = it :: r ∧ it.stored = false ∧ it.exec ≠ none := by
  obtain ⟨N, m, r, rfl, hN, hm⟩ := split_trainable nodes hany
  unfold round
  rw [trainableNrs_append N _ _ hN]
  simp only [trainableNrs, hm, if_true]
  generalize trainableNrs (0 + N.length + 1) r = q
  generalize (N ++ m :: r).length = n
  have h0 : ∀ i, ∃ it r, itemsFrom save save (fun i => some (i, n)) (i :: q) = it :: r ∧ it.stored = false ∧ it.exec ≠ none := by
    intro i
    cases q with
    | nil => exact ⟨_, _, rfl, rfl, by simp⟩
    | cons j q => exact ⟨_, _, rfl, rfl, by simp⟩
  rw [Nat.zero_add]
  cases hl : N.length with
  | zero => exact h0 0
  | succ k => exact ⟨_, _, rfl, rfl, by simp⟩

theorem ring_seq_ne (k : Nat) (nodes : List (Mem σ α β)) (hany : nodes.any Mem.trainable = true) :
    ∃ it r, (List.replicate k (round false nodes)).flatten ++ round true nodes = it :: r ∧ it.stored = false ∧ it.exec ≠ none := by
  cases k with
  | zero => exact round_ne true nodes hany
  | succ k =>
    obtain ⟨it, r, h1, h2⟩ := round_ne false nodes hany
    refine ⟨it, r ++ ((List.replicate k (round false nodes)).flatten ++ round true nodes), ?_, h2⟩
    rw [List.replicate_succ, List.flatten_cons, h1, List.cons_append, List.cons_append, List.append_assoc]

theorem run_ignoring (args : List β) (it : Item) (r : List Item) (h : it.stored = false) (he : it.exec ≠ none)
    (f : FN σ α β) (x : Arr α) :
    runItems args (ignoring (it :: r)) f x =
      match f.stored with
      | none => (.error .training, f)
      | some z => runItems args (it :: r) f z := by
  obtain ⟨ns, w, a, b⟩ := f
  obtain ⟨nd, st, ex, sv, sd⟩ := it
  dsimp only at h he
  subst h
  cases ex with
  | none => exact absurd rfl he
  | some ij =>
    cases w with
    | none => rfl
    | some z =>
      simp only [ignoring, runItems, Item.train, Item.pass, Item.data, if_true, Bool.false_eq_true, if_false]
      cases nd with
      | none => rfl
      | some i =>
        dsimp only
        generalize trainNr i z args ns = q
        obtain ⟨res, ns'⟩ := q
        cases res <;> rfl

/-- What the training sequence of the ring does with one array. -/
theorem ring_items (args : List β) (c : CFlow σ α β) (f : FN σ α β) (x : Arr α)
    (hs : SameTrainable c.nodes f.nodes) (hany : c.nodes.any Mem.trainable = true) :
    runItems args (ringItems c.iterations c.ignore c.nodes) f x =
      match (if c.ignore then f.stored else some x) with
      | none => (.error .training, f)
      | some z =>
        ((laps args ((c.iterations - 1).toNat + 1) f.nodes z).1,
          { f with nodes := (laps args ((c.iterations - 1).toNat + 1) f.nodes z).2,
                   stored := keeps true f.stored (laps args ((c.iterations - 1).toNat + 1) f.nodes z).1 }) := by
  unfold ringItems
  cases hi : c.ignore with
  | false =>
    simp only [Bool.false_eq_true, if_false]
    exact rounds_laps args c.nodes hany _ f x hs
  | true =>
    simp only [if_true]
    obtain ⟨it, r, h1, h2, h3⟩ := ring_seq_ne (c.iterations - 1).toNat c.nodes hany
    rw [h1, run_ignoring args it r h2 h3 f x, ← h1]
    cases hw : f.stored with
    | none => rfl
    | some z =>
      dsimp only
      rw [rounds_laps args c.nodes hany _ f z hs, hw]

theorem ringItems_ne (c : CFlow σ α β) (hany : c.nodes.any Mem.trainable = true) :
    ringItems c.iterations c.ignore c.nodes ≠ [] := by
  unfold ringItems
  obtain ⟨it, r, h1, h2, h3⟩ := ring_seq_ne (c.iterations - 1).toNat c.nodes hany
  rw [h1]
  split
  · simp [ignoring]
  · simp

theorem ring_runs (c : CFlow σ α β) (hT : (ringKind c).trainable = true) :
    Runs (ringKind c) (fnRun (ringItems c.iterations c.ignore c.nodes)) where
  run := fun args x s => runPhases_items _ (ringItems_ne c (trainable_any c.nodes (by simpa [ringKind, fnKind] using hT)))
    _ _ _ args x s
  check := fun _ _ => rfl
  args := fun _ _ _ => rfl

theorem feed_rounds (args : List β) (c : CFlow σ α β) (hany : c.nodes.any Mem.trainable = true)
    (bs : List (Arr α)) : ∀ (f : FN σ α β), SameTrainable c.nodes f.nodes → f.inpSet = true → f.dtSet = true →
    feedBlocks (fnRun (ringItems c.iterations c.ignore c.nodes)) args bs f =
      ((rounds args ((c.iterations - 1).toNat + 1) c.ignore bs f.nodes f.stored).1,
        { f with nodes := (rounds args ((c.iterations - 1).toNat + 1) c.ignore bs f.nodes f.stored).2.1,
                 stored := (rounds args ((c.iterations - 1).toNat + 1) c.ignore bs f.nodes f.stored).2.2 }) := by
  induction bs with
  | nil => intro f _ _ _; rfl
  | cons x r ih =>
    intro f hs h1 h2
    simp only [feedBlocks, rounds, fnRun, forward_done x f h1 h2]
    rw [ring_items args c f x hs hany]
    cases hz : (if c.ignore then f.stored else some x) with
    | none => rfl
    | some z =>
      dsimp only
      have hw := laps_trainable args ((c.iterations - 1).toNat + 1) f.nodes z
      generalize laps args ((c.iterations - 1).toNat + 1) f.nodes z = q at hw
      obtain ⟨res, ms⟩ := q
      cases res with
      | error e => rfl
      | ok y =>
        have hs' : SameTrainable c.nodes ms := hw.trans hs
        have h := ih ⟨ms, some y, f.inpSet, f.dtSet⟩ hs' h1 h2
        simpa [void, keeps] using h

/-- C212: training a `CircularOnlineFlowNode` that is in training with a well-formed array. After the nodes have been told
the input dimension and the dtype (`Primed`), for every sample (in batch training: with the whole array) the ring is run
`flow_iterations` times, but at least once: every node is trained, if it is trainable, and executed, and its output goes to
the next node (`lap`). The first round starts with the sample, or with the stored input if the external input is ignored;
the output of the last round is stored. The call returns if and only if all these calls return, and if they do not, the
nodes are left as these calls left them and the stored input is that of the last sample that went through. -/
theorem ringnode_train (c : CFlow σ α β) (x : Arr α) (args : List β) (s : OSt (FN σ α β) α β) (dt : DType)
    (ms : List (Mem σ α β)) (hT : (ringKind c).trainable = true) (hs : SameTrainable c.nodes s.node.st.nodes)
    (ho : s.node.training = true) (hx : x.ndim = 2) (hn : x.data ≠ [])
    (hin : s.node.inputDim = none ∨ s.node.inputDim = some x.cols)
    (hd : s.node.dtype = some dt ∨ s.node.dtype = none ∧ dt = x.dtype ∧ c.nodes.all (Mem.supported dt) = true)
    (hr : Primed x.cols dt s.node.st ms) :
    ((otrain (ringKind c) x args s).1, (otrain (ringKind c) x args s).2.node.st.nodes,
        (otrain (ringKind c) x args s).2.node.st.stored) =
      rounds args (max 1 c.iterations.toNat) c.ignore
        (blocks (s.ttype.getD .incremental) { x with dtype := dt }) ms s.node.st.stored := by
  have hany := trainable_any c.nodes (by simpa [ringKind, fnKind] using hT)
  obtain ⟨s1, hc, h1⟩ := ocheckInput_first (K := ringKind c) (t0 := .incremental) rfl rfl hx hn hin hd
  obtain ⟨t, ht, e1, e2⟩ := otrain_runs (ring_runs c hT) x args s s1 hT ho hc
  have htt : s.ttype.getD .incremental = t := by
    cases h : s.ttype with
    | none => rw [h] at ht; simpa [ringKind, fnKind] using ht
    | some u => rw [h] at ht; simpa using ht
  rw [htt, e1, e2, h1]
  have hrc : refcast (some dt) x = { x with dtype := dt } := rfl
  rw [hrc]
  obtain ⟨b, r, hb, hbc, hbd, hrr⟩ := blocks_shape t ({ x with dtype := dt } : Arr α) hn
  rw [hb]
  have hr' : Primed b.cols b.dtype s.node.st ms := by rw [hbc, hbd]; exact hr
  have hf := (forward_primed b s.node.st ms).1 hr'
  have htr := forward_trainable b s.node.st
  rw [hf] at htr
  have hms : SameTrainable c.nodes ms := htr.trans hs
  have h0 : feedBlocks (fnRun (ringItems c.iterations c.ignore c.nodes)) args (b :: r) s.node.st =
      feedBlocks (fnRun (ringItems c.iterations c.ignore c.nodes)) args (b :: r)
        { s.node.st with nodes := ms, inpSet := true, dtSet := true } := by
    simp only [feedBlocks, fnRun, hf, forward_done b { s.node.st with nodes := ms, inpSet := true, dtSet := true } rfl rfl]
  rw [h0, feed_rounds args c hany (b :: r) { s.node.st with nodes := ms, inpSet := true, dtSet := true } hms rfl rfl,
    show (c.iterations - 1).toNat + 1 = max 1 c.iterations.toNat by omega]

end Mdp.Online
