import Verif.Online.FlowNodeRing

/-! # Online flow nodes: comparison with the flows they wrap (C208, C212) -/

namespace Mdp.Online

open Py Mdp.Node Mdp.Flow Mdp.Layer

variable {σ α β : Type}

/-- A node as the classes want it: not trainable, or an online node in training. -/
def Fits (m : Mem σ α β) : Prop := m.isTraining = m.trainable ∧ m.anywhere = true

theorem fits_train {x : Arr α} {a : List β} {m : Mem σ α β} (h : Fits m) : Fits (m.train x a).2 := by
  obtain ⟨h1, h2, h3⟩ := mem_train_class x a m
  unfold Fits Mem.anywhere at h ⊢
  rw [h1, h3, train_trainable]
  exact h

theorem fits_learns {x : Arr α} {a : List β} {m : Mem σ α β} (h : Fits m) : Fits (m.learns x a).2 := by
  unfold Mem.learns
  split
  · exact fits_train h
  · exact h

theorem fits_execute {x : Arr α} {m : Mem σ α β} (h : Fits m) : Fits (m.execute x).2 := by
  obtain ⟨h1, h2, h3, h4, h5⟩ := mem_execute_class x m
  unfold Fits Mem.anywhere at h ⊢
  rw [h1, execute_trainable]
  obtain ⟨g1, g2⟩ := h
  cases ho : m.isOnline with
  | true => rw [h3 ho]; exact ⟨g1, by simp⟩
  | false =>
    have : m.isTraining = false := by simpa [ho] using g2
    rw [h4 this, ← g1, this]
    exact ⟨rfl, rfl⟩

theorem learn_learns {x : Arr α} {m : Mem σ α β} (h : Fits m) : m.learn x (.ok []) = m.learns x [] := by
  unfold Mem.learn Mem.learns
  rw [h.1]

theorem lap_fits (ms : List (Mem σ α β)) : ∀ (i : Nat) (x : Arr α) (args : List β), (∀ m ∈ ms, Fits m) →
    ∀ m ∈ (lap args i ms x).2, Fits m := by
  induction ms with
  | nil => intro i x args h m hm; simp [lap] at hm
  | cons k r ih =>
    intro i x args h
    have hk := fits_learns (x := x) (a := args) (h k (by simp))
    have hr : ∀ m ∈ r, Fits m := fun m hm => h m (List.mem_cons_of_mem _ hm)
    unfold lap
    generalize k.learns x args = z at hk
    obtain ⟨res, k1⟩ := z
    cases res with
    | error e =>
      intro m hm
      rcases List.mem_cons.1 hm with rfl | hm
      · exact hk
      · exact hr m hm
    | ok u =>
      have hk2 := fits_execute (x := x) hk
      dsimp only at hk2 ⊢
      generalize k1.execute x = z at hk2
      obtain ⟨res, k2⟩ := z
      cases res with
      | error e =>
        intro m hm
        rcases List.mem_cons.1 hm with rfl | hm
        · exact hk2
        · exact hr m hm
      | ok y =>
        intro m hm
        rcases List.mem_cons.1 hm with rfl | hm
        · exact hk2
        · exact ih (i + 1) y args hr m hm

/-- A round of the node is a pass of the flow; only the exceptions have other wrappings. -/
theorem lap_feed (n : Nat) (ms : List (Mem σ α β)) : ∀ (i : Nat) (x : Arr α), (∀ m ∈ ms, Fits m) → i + ms.length ≤ n →
    (lap [] i ms x).2 = (feed none (List.replicate n 0) i ms x).2 ∧
    (lap [] i ms x).1.toOption = (feed none (List.replicate n 0) i ms x).1.toOption := by
  induction ms with
  | nil => intro i x _ _; exact ⟨rfl, rfl⟩
  | cons k r ih =>
    intro i x h hn
    have hr : ∀ m ∈ r, Fits m := fun m hm => h m (List.mem_cons_of_mem _ hm)
    have hi : (List.replicate n 0)[i]? = some 0 := by
      rw [List.getElem?_replicate, if_pos (by simp at hn; omega)]
    unfold lap feed
    rw [hi, show argsFor (none : Option (List (Option (List β)))) i (some 0) = .ok [] from rfl, learn_learns (h k (by simp))]
    generalize k.learns x [] = z
    obtain ⟨res, k1⟩ := z
    cases res with
    | error e => exact ⟨rfl, rfl⟩
    | ok u =>
      dsimp only
      generalize k1.execute x = z
      obtain ⟨res, k2⟩ := z
      cases res with
      | error e => exact ⟨rfl, rfl⟩
      | ok y =>
        obtain ⟨h1, h2⟩ := ih (i + 1) y hr (by simp at hn; omega)
        dsimp only
        exact ⟨by rw [h1], h2⟩

theorem lap_length (args : List β) (ms : List (Mem σ α β)) (i : Nat) (x : Arr α) :
    (lap args i ms x).2.length = ms.length := by
  have := congrArg List.length (lap_trainable args ms i x)
  simpa using this

theorem laps_fits (k : Nat) : ∀ (ms : List (Mem σ α β)) (x : Arr α) (args : List β), (∀ m ∈ ms, Fits m) →
    ∀ m ∈ (laps args k ms x).2, Fits m := by
  induction k with
  | zero => intro ms x args h; exact h
  | succ k ih =>
    intro ms x args h
    have h1 := lap_fits ms 0 x args h
    unfold laps
    generalize lap args 0 ms x = z at h1
    obtain ⟨res, ms1⟩ := z
    cases res with
    | error e => exact h1
    | ok y => exact ih ms1 y args h1

theorem laps_cloop (k : Nat) : ∀ (c : CFlow σ α β) (x : Arr α), (∀ m ∈ c.nodes, Fits m) →
    (laps [] k c.nodes x).2 = (cloop k (some x) c).2.nodes ∧
    (∀ e, (laps [] k c.nodes x).1 = .error e → ∃ e', (cloop k (some x) c).1 = .error e') ∧
    (∀ y, (laps [] k c.nodes x).1 = .ok y → (cloop k (some x) c).1 = .ok () ∧
      (k ≠ 0 → (cloop k (some x) c).2 = { c with nodes := (laps [] k c.nodes x).2, stored := some y })) := by
  induction k with
  | zero => intro c x _; exact ⟨rfl, fun e h => (nomatch h), fun y h => ⟨rfl, fun h => absurd rfl h⟩⟩
  | succ k ih =>
    intro c x h
    obtain ⟨h1, h2⟩ := lap_feed c.nodes.length c.nodes 0 x h (by simp)
    have h3 := lap_fits c.nodes 0 x [] h
    unfold laps cloop pass
    generalize lap [] 0 c.nodes x = z at h1 h2 h3
    generalize feed none (List.replicate c.nodes.length 0) 0 c.nodes x = z' at h1 h2
    obtain ⟨res, ms⟩ := z
    obtain ⟨res', ms'⟩ := z'
    dsimp only at h1 h2 h3
    subst h1
    cases res with
    | error e =>
      cases res' with
      | error e' => exact ⟨rfl, fun _ _ => ⟨_, rfl⟩, fun y h => (nomatch h)⟩
      | ok y => cases h2
    | ok y =>
      cases res' with
      | error e' => cases h2
      | ok y' =>
        cases h2
        obtain ⟨g1, g2, g3⟩ := ih { c with nodes := ms, stored := some y } y h3
        dsimp only at g1 g2 g3 ⊢
        refine ⟨g1, g2, fun v hv => ⟨(g3 v hv).1, fun _ => ?_⟩⟩
        cases k with
        | zero =>
          simp only [laps] at hv
          cases hv
          simp only [cloop, laps]
        | succ k => exact (g3 v hv).2 (by simp)

theorem rounds_ctrain (bs : List (Arr α)) : ∀ (c : CFlow σ α β), (∀ m ∈ c.nodes, Fits m) → 0 < c.iterations →
    c.nodes ≠ [] →
    (isOk (rounds [] c.iterations.toNat c.ignore bs c.nodes c.stored).1 = isOk (ctrainNodes bs c).1) ∧
    (isOk (ctrainNodes bs c).1 = true →
      (rounds [] c.iterations.toNat c.ignore bs c.nodes c.stored).2 =
        ((ctrainNodes bs c).2.nodes, (ctrainNodes bs c).2.stored)) := by
  induction bs with
  | nil => intro c _ _ _; exact ⟨rfl, fun _ => rfl⟩
  | cons b r ih =>
    intro c h hi hne
    unfold rounds ctrainNodes
    cases hz : (if c.ignore then c.stored else some b) with
    | none =>
      obtain ⟨k, hk⟩ : ∃ k, c.iterations.toNat = k + 1 := ⟨c.iterations.toNat - 1, by omega⟩
      rw [hk]
      simp only [cloop]
      rw [if_neg (by simpa using hne)]
      exact ⟨rfl, fun h => (nomatch h)⟩
    | some z =>
      obtain ⟨g1, g2, g3⟩ := laps_cloop c.iterations.toNat c z h
      have hf := laps_fits c.iterations.toNat c.nodes z [] h
      have ht := laps_trainable [] c.iterations.toNat c.nodes z
      dsimp only
      generalize laps [] c.iterations.toNat c.nodes z = q at g1 g2 g3 hf ht
      obtain ⟨res, ms⟩ := q
      cases res with
      | error e =>
        obtain ⟨e', he'⟩ := g2 e rfl
        generalize cloop c.iterations.toNat (some z) c = q' at g1 he'
        obtain ⟨res', c'⟩ := q'
        dsimp only at he'
        subst he'
        exact ⟨rfl, fun h => (nomatch h)⟩
      | ok y =>
        obtain ⟨k1, k2⟩ := g3 y rfl
        have k2 := k2 (by omega)
        generalize cloop c.iterations.toNat (some z) c = q' at k1 k2
        obtain ⟨res', c'⟩ := q'
        dsimp only at k1 k2
        subst k1 k2
        have hne' : ms ≠ [] := by
          intro h0
          have := congrArg List.length ht
          simp [h0] at this
          exact hne (List.length_eq_zero_iff.1 this.symm)
        exact ih { c with nodes := ms, stored := some y } hf hi hne'

/-- C212: with at least one flow iteration and nodes that are online nodes in training or not trainable, training the node
without extra arguments returns if and only if training the flow, whose nodes know dimension and dtype, with the same
samples returns, and then the nodes and the stored input are the same. -/
theorem ringnode_train_as_flow (c : CFlow σ α β) (x : Arr α) (s : OSt (FN σ α β) α β) (dt : DType)
    (ms : List (Mem σ α β)) (hT : (ringKind c).trainable = true) (hs : SameTrainable c.nodes s.node.st.nodes)
    (ho : s.node.training = true) (hx : x.ndim = 2) (hn : x.data ≠ [])
    (hin : s.node.inputDim = none ∨ s.node.inputDim = some x.cols)
    (hd : s.node.dtype = some dt ∨ s.node.dtype = none ∧ dt = x.dtype ∧ c.nodes.all (Mem.supported dt) = true)
    (hr : Primed x.cols dt s.node.st ms) (hi : 0 < c.iterations) (hf : ∀ m ∈ ms, Fits m) :
    let d : OTrainArg α β := match s.ttype.getD .incremental with
      | .incremental => .array { x with dtype := dt }
      | .batch => .array3 [{ x with dtype := dt }]
    let r := ctrain d { c with nodes := ms, stored := s.node.st.stored }
    isOk (otrain (ringKind c) x [] s).1 = isOk r.1 ∧
    (isOk r.1 = true → (otrain (ringKind c) x [] s).2.node.st.nodes = r.2.nodes ∧
      (otrain (ringKind c) x [] s).2.node.st.stored = r.2.stored) := by
  have h := ringnode_train c x [] s dt ms hT hs ho hx hn hin hd hr
  rw [show max 1 c.iterations.toNat = c.iterations.toNat by omega] at h
  have hms : SameTrainable c.nodes ms := by
    obtain ⟨b, r, hb, hbc, hbd, hrr⟩ := blocks_shape .batch ({ x with dtype := dt } : Arr α) hn
    have hr' : Primed b.cols b.dtype s.node.st ms := by rw [hbc, hbd]; exact hr
    have hf := (forward_primed b s.node.st ms).1 hr'
    have htr := forward_trainable b s.node.st
    rw [hf] at htr
    exact htr.trans hs
  have hne : ms ≠ [] := by
    intro h0
    have := any_same hms (trainable_any c.nodes (by simpa [ringKind, fnKind] using hT))
    rw [h0] at this
    cases this
  obtain ⟨g1, g2⟩ := rounds_ctrain (blocks (s.ttype.getD .incremental) { x with dtype := dt })
    { c with nodes := ms, stored := s.node.st.stored } hf hi hne
  have e : ∀ t : TType, ctrain (match t with
      | .incremental => (.array { x with dtype := dt } : OTrainArg α β)
      | .batch => .array3 [{ x with dtype := dt }]) { c with nodes := ms, stored := s.node.st.stored } =
      ctrainNodes (blocks t { x with dtype := dt }) { c with nodes := ms, stored := s.node.st.stored } := by
    intro t
    cases t with
    | batch => rfl
    | incremental =>
      simp only [ctrain, OTrainArg.chunks, blocks, List.map_map]
      rfl
  dsimp only
  rw [e]
  dsimp only at g1 g2
  rw [← h] at g1 g2
  refine ⟨g1, fun hk => ?_⟩
  have := g2 hk
  exact ⟨(Prod.mk.inj this).1, (Prod.mk.inj this).2⟩

/-! ### `OnlineFlowNode` and `OnlineFlow` -/

/-- The nodes before the last trainable one are the same. -/
def Agree : List (Mem σ α β) → List (Mem σ α β) → Prop
  | [], [] => True
  | m :: r, m' :: r' => (r.any Mem.trainable = true → m = m') ∧ m'.trainable = m.trainable ∧ Agree r r'
  | _, _ => False

theorem agree_any (r r' : List (Mem σ α β)) (h : Agree r r') : r'.any Mem.trainable = r.any Mem.trainable := by
  induction r generalizing r' with
  | nil => cases r' with
    | nil => rfl
    | cons a b => exact h.elim
  | cons m r ih => cases r' with
    | nil => exact h.elim
    | cons m' r' => simp only [List.any_cons, h.2.1, ih r' h.2.2]

theorem agree_refl (r : List (Mem σ α β)) : Agree r r := by
  induction r with
  | nil => trivial
  | cons m r ih => exact ⟨fun _ => rfl, rfl, ih⟩

theorem agree_same {r r' : List (Mem σ α β)} (h : r.any Mem.trainable = false) (hs : SameTrainable r r') : Agree r r' := by
  induction r generalizing r' with
  | nil => cases r' with
    | nil => trivial
    | cons a b => cases hs
  | cons m r ih => cases r' with
    | nil => cases hs
    | cons m' r' =>
      simp only [List.any_cons, Bool.or_eq_false_iff] at h
      obtain ⟨h1, h2⟩ := List.cons.inj hs
      exact ⟨fun hh => absurd hh (by rw [h.2]; decide), h1, ih h.2 h2⟩

theorem agree_trainable {r r' : List (Mem σ α β)} (h : Agree r r') : SameTrainable r r' := by
  induction r generalizing r' with
  | nil => cases r' with
    | nil => rfl
    | cons a b => exact h.elim
  | cons m r ih => cases r' with
    | nil => exact h.elim
    | cons m' r' =>
      unfold SameTrainable
      rw [List.map_cons, List.map_cons, h.2.1]
      have := ih h.2.2
      unfold SameTrainable at this
      rw [this]

theorem agree_get {r r' : List (Mem σ α β)} (h : Agree r r') (j : Nat) (hj : (r.drop (j + 1)).any Mem.trainable = true) :
    r'[j]? = r[j]? := by
  induction r generalizing r' j with
  | nil => simp at hj
  | cons m r ih => cases r' with
    | nil => exact h.elim
    | cons m' r' =>
      cases j with
      | zero => simp only [List.drop_succ_cons, List.drop_zero] at hj; simp [h.1 hj]
      | succ j => simpa using ih h.2.2 j (by simpa using hj)

theorem feed_fits (n : Nat) (ms : List (Mem σ α β)) : ∀ (i : Nat) (x : Arr α), (∀ m ∈ ms, Fits m) → i + ms.length ≤ n →
    ∀ m ∈ (feed none (List.replicate n 0) i ms x).2, Fits m := by
  intro i x h hn
  rw [← (lap_feed n ms i x h hn).1]
  exact lap_fits ms i x [] h

/-- A walk through the nodes and a pass of the flow keep the nodes before the last trainable one the same. -/
theorem walk_feed (n : Nat) (ms : List (Mem σ α β)) : ∀ (i : Nat) (x y : Arr α) (ms' : List (Mem σ α β)) (w' f' : List (Mem σ α β)),
    (∀ m ∈ ms', Fits m) → i + ms.length ≤ n → Agree ms ms' → walk [] i ms x = (.ok (), w') →
    feed none (List.replicate n 0) i ms' x = (.ok y, f') → Agree w' f' := by
  induction ms with
  | nil =>
    intro i x y ms' w' f' hf hn ha hw hfd
    cases ms' with
    | cons a b => exact ha.elim
    | nil =>
      simp only [walk, feed, Prod.mk.injEq] at hw hfd
      rw [← hw.2, ← hfd.2]
      trivial
  | cons k r ih =>
    intro i x y ms' w' f' hf hn ha hw hfd
    cases ms' with
    | nil => exact ha.elim
    | cons k' r' =>
      obtain ⟨a1, a2, a3⟩ := ha
      have hi : (List.replicate n 0)[i]? = some 0 := by
        rw [List.getElem?_replicate, if_pos (by simp at hn; omega)]
      cases hra : r.any Mem.trainable with
      | false =>
        -- nothing to show: no trainable node comes later
        have e1 := walk_trainable (args := ([] : List β)) (k :: r) i x
        rw [hw] at e1
        have e2 : SameTrainable (k' :: r') f' := by
          have := lap_trainable ([] : List β) (k' :: r') i x
          have hl : (k' :: r').length = (k :: r).length := by
            have := congrArg List.length (agree_trainable a3)
            simp at this ⊢
            exact this
          have g := (lap_feed n (k' :: r') i x hf (by rw [hl]; exact hn)).1
          rw [hfd] at g
          rw [g] at this
          exact this
        have e3 : SameTrainable (k :: r) (k' :: r') := agree_trainable ⟨a1, a2, a3⟩
        have e4 : SameTrainable w' f' := by
          unfold SameTrainable at e1 e2 e3 ⊢
          rw [e2, e3, e1]
        unfold SameTrainable at e1
        cases w' with
        | nil => cases e1
        | cons m w =>
          cases f' with
          | nil => cases e4
          | cons m' f =>
            obtain ⟨e5, e6⟩ := List.cons.inj e1
            obtain ⟨e7, e8⟩ := List.cons.inj e4
            have hw0 : w.any Mem.trainable = false := by
              have : ∀ l : List (Mem σ α β), l.any Mem.trainable = (l.map Mem.trainable).any id := by
                intro l; rw [List.any_map]; rfl
              rw [this, e6, ← this]; exact hra
            exact ⟨fun hh => absurd hh (by rw [hw0]; decide), e7, agree_same hw0 e8⟩
      | true =>
        have hk := a1 hra
        subst hk
        unfold walk at hw
        unfold feed at hfd
        rw [hi, show argsFor (none : Option (List (Option (List β)))) i (some 0) = .ok [] from rfl,
          learn_learns (hf k (by simp))] at hfd
        have t1 := learns_trainable x ([] : List β) k
        generalize k.learns x [] = z at hw hfd t1
        obtain ⟨res, k1⟩ := z
        cases res with
        | error e => cases hw
        | ok u =>
          dsimp only at hw hfd t1
          rw [if_pos hra] at hw
          have t2 := execute_trainable x k1
          generalize k1.execute x = z at hw hfd t2
          obtain ⟨res, k2⟩ := z
          cases res with
          | error e => cases hw
          | ok v =>
            dsimp only at hw hfd
            obtain ⟨w1, rfl⟩ := Prod.mk.inj hw
            generalize hq : feed none (List.replicate n 0) (i + 1) r' v = q at hfd
            obtain ⟨res, r2⟩ := q
            dsimp only at hfd
            obtain ⟨rfl, rfl⟩ := Prod.mk.inj hfd
            refine ⟨fun _ => rfl, rfl, ?_⟩
            exact ih (i + 1) v y r' _ _ (fun m hm => hf m (List.mem_cons_of_mem _ hm)) (by simp at hn; omega) a3
              (Prod.ext w1 rfl) hq

theorem walks_feedAll (n : Nat) (bs : List (Arr α)) : ∀ (ms ms' w' f' : List (Mem σ α β)),
    (∀ m ∈ ms', Fits m) → ms.length ≤ n → Agree ms ms' → walks [] bs ms = (.ok (), w') →
    feedAll (List.replicate n 0) (bs.map fun b => (⟨b, none⟩ : Chunk α β)) ms' = (.ok (), f') → Agree w' f' := by
  induction bs with
  | nil =>
    intro ms ms' w' f' hf hn ha hw hfd
    simp only [walks, feedAll, List.map_nil, Prod.mk.injEq, true_and] at hw hfd
    rw [← hw, ← hfd]
    exact ha
  | cons b r ih =>
    intro ms ms' w' f' hf hn ha hw hfd
    simp only [walks] at hw
    simp only [List.map_cons, feedAll] at hfd
    have hlen : ms'.length = ms.length := by
      have := congrArg List.length (agree_trainable ha)
      simpa using this
    have hfit := feed_fits n ms' 0 b hf (by rw [hlen]; simpa using hn)
    generalize hz : walk [] 0 ms b = z at hw
    generalize hz' : feed none (List.replicate n 0) 0 ms' b = z' at hfd hfit
    obtain ⟨res, w1⟩ := z
    obtain ⟨res', f1⟩ := z'
    cases res with
    | error e => cases hw
    | ok u =>
      cases res' with
      | error e => cases hfd
      | ok y =>
        have ha1 := walk_feed n ms 0 b y ms' w1 f1 hf (by simpa using hn) ha hz hz'
        have hl1 : w1.length = ms.length := by
          have := walk_trainable ([] : List β) ms 0 b
          rw [hz] at this
          have := congrArg List.length this
          simpa using this
        exact ih w1 f1 w' f' hfit (by rw [hl1]; exact hn) ha1 hw hfd

/-- C208: an `OnlineFlowNode` without extra arguments trains the nodes before the last trainable one exactly as the wrapped
`OnlineFlow`, whose nodes know dimension and dtype, does with the same samples, if both return. -/
theorem oflownode_train_as_flow (nodes : List (Mem σ α β)) (x : Arr α) (s : OSt (FN σ α β) α β) (dt : DType)
    (ms ms' : List (Mem σ α β)) (hT : (oflowKind nodes).trainable = true) (hs : SameTrainable nodes s.node.st.nodes)
    (ho : s.node.training = true) (hx : x.ndim = 2) (hn : x.data ≠ [])
    (hin : s.node.inputDim = none ∨ s.node.inputDim = some x.cols)
    (hd : s.node.dtype = some dt ∨ s.node.dtype = none ∧ dt = x.dtype ∧ nodes.all (Mem.supported dt) = true)
    (hr : Primed x.cols dt s.node.st ms) (hf : ∀ m ∈ ms, Fits m) (hq : ∀ m ∈ ms, m.reqArgs = 0)
    (ht : s.ttype.getD .incremental = .incremental)
    (h1 : (otrain (oflowKind nodes) x [] s).1 = .ok ())
    (h2 : OnlineFlow.train (reqOf ms) (.array { x with dtype := dt }) ms = (.ok (), ms')) (j : Nat)
    (hj : (nodes.drop (j + 1)).any Mem.trainable = true) :
    (otrain (oflowKind nodes) x [] s).2.node.st.nodes[j]? = ms'[j]? := by
  obtain ⟨e1, e2⟩ := oflownode_train nodes x [] s dt ms hT hs ho hx hn hin hd hr
  rw [ht] at e1 e2
  have hms : SameTrainable nodes ms := by
    obtain ⟨b, r, hb, hbc, hbd, hrr⟩ := blocks_shape .batch ({ x with dtype := dt } : Arr α) hn
    have hr' : Primed b.cols b.dtype s.node.st ms := by rw [hbc, hbd]; exact hr
    have hf := (forward_primed b s.node.st ms).1 hr'
    have htr := forward_trainable b s.node.st
    rw [hf] at htr
    exact htr.trans hs
  have hreq : reqOf ms = List.replicate ms.length 0 := by
    unfold reqOf
    rw [List.map_congr_left hq, List.map_const']
  unfold OnlineFlow.train at h2
  simp only [OTrainArg.chunks] at h2
  unfold trainNodes at h2
  have hcs : ({ x with dtype := dt } : Arr α).data.map (fun row => (⟨{ ({ x with dtype := dt } : Arr α) with data := [row] }, none⟩ : Chunk α β)) =
      (blocks .incremental ({ x with dtype := dt } : Arr α)).map fun b => ⟨b, none⟩ := by
    simp [blocks, Function.comp_def]
  rw [hreq, hcs] at h2
  generalize hfa : feedAll (List.replicate ms.length 0) ((blocks .incremental ({ x with dtype := dt } : Arr α)).map fun b => (⟨b, none⟩ : Chunk α β)) ms = q at h2
  obtain ⟨res, f1⟩ := q
  cases res with
  | error e => cases h2
  | ok u =>
    dsimp only at h2
    have hA := walks_feedAll ms.length (blocks .incremental ({ x with dtype := dt } : Arr α)) ms ms _ f1 hf (Nat.le_refl _)
      (agree_refl ms) (Prod.ext (e1.symm.trans h1) rfl) hfa
    have hw : SameTrainable nodes (walks [] (blocks .incremental ({ x with dtype := dt } : Arr α)) ms).2 := by
      have : ∀ (bs : List (Arr α)) (l : List (Mem σ α β)), SameTrainable l (walks ([] : List β) bs l).2 := by
        intro bs
        induction bs with
        | nil => intro l; rfl
        | cons b r ih =>
          intro l
          have h := walk_trainable ([] : List β) l 0 b
          unfold walks
          split
          · next he => rw [he] at h; exact h
          · next he => rw [he] at h; exact (ih _).trans h
      exact (this _ _).trans hms
    have hany : ((walks [] (blocks .incremental ({ x with dtype := dt } : Arr α)) ms).2.drop (j + 1)).any Mem.trainable = true := by
      have h0 : ∀ l : List (Mem σ α β), (l.drop (j + 1)).any Mem.trainable = ((l.map Mem.trainable).drop (j + 1)).any id := by
        intro l; rw [← List.map_drop, List.any_map]; rfl
      rw [h0, hw, ← h0]; exact hj
    have hg := agree_get hA j hany
    rw [e2, ← hg]
    -- what happens to the last node does not matter
    have hlast : ∀ (F : Mem σ α β → Except Err Unit × Mem σ α β) (l l' : List (Mem σ α β)), j + 1 < l.length →
        onLast F l = (.ok (), l') → l'[j]? = l[j]? ∧ l'.length = l.length := by
      intro F l l' hl ho
      unfold onLast at ho
      split at ho
      · cases ho
      · next m hm =>
        obtain ⟨_, rfl⟩ := Prod.mk.inj ho
        constructor
        · rw [List.getElem?_append_left (by simp; omega), List.getElem?_dropLast, if_pos (by omega)]
        · simp; omega
    have hfl : j + 1 < f1.length := by
      have hl : f1.length = (walks [] (blocks .incremental ({ x with dtype := dt } : Arr α)) ms).2.length := by
        have := congrArg List.length (agree_trainable hA)
        simpa using this
      rw [hl]
      by_contra hc
      rw [List.drop_eq_nil_of_le (by omega)] at hany
      cases hany
    generalize ho1 : (if ((blocks .incremental ({ x with dtype := dt } : Arr α)).map fun b => (⟨b, none⟩ : Chunk α β)).isEmpty then
        ((.error (if f1.isEmpty then .index else .flow), f1) : Except Err Unit × List (Mem σ α β))
      else onLast Mem.closeEarly f1) = q1 at h2
    obtain ⟨res1, f2⟩ := q1
    cases res1 with
    | error e => cases h2
    | ok u =>
      split at ho1
      · cases ho1
      · obtain ⟨g1, g2⟩ := hlast _ _ _ hfl ho1
        obtain ⟨g3, g4⟩ := hlast _ _ _ (by rw [g2]; exact hfl) h2
        rw [g3, g1]

/-! ### Ordinary nodes that have been trained -/

theorem setInp_class (n : Option Nat) (m : Mem σ α β) : (m.setInp n).2.isTraining = m.isTraining := by
  cases m with
  | plain K s => exact ((setInputDim_soft K n) s).training
  | online K s => exact ((setInputDim_soft K.toKind n) s.node).training

theorem setDtype_class (t : DType) (m : Mem σ α β) : (m.setDtype t).2.isTraining = m.isTraining := by
  cases m with
  | plain K s => exact ((setDtype_soft K (some t)) s).training
  | online K s => exact ((setDtype_soft K.toKind (some t)) s.node).training

theorem msetDtypes_class (t : DType) (ms : List (Mem σ α β)) :
    (msetDtypes t ms).2.map Mem.isTraining = ms.map Mem.isTraining := by
  induction ms with
  | nil => rfl
  | cons m r ih =>
    have h1 := setDtype_class t m
    unfold msetDtypes
    split
    · next e m' he => rw [he] at h1; simp only [List.map_cons, h1]
    · next m' he => rw [he] at h1; simp only [List.map_cons, h1, ih]

theorem primed_class {d : Nat} {t : DType} {f : FN σ α β} {ms : List (Mem σ α β)} (h : Primed d t f ms) :
    ms.map Mem.isTraining = f.nodes.map Mem.isTraining := by
  obtain ⟨ms1, h1, h2⟩ := h
  have e1 : ms1.map Mem.isTraining = f.nodes.map Mem.isTraining := by
    rcases h1 with ⟨_, rfl⟩ | ⟨_, m, m', r, g1, g2, rfl, _⟩
    · rfl
    · have := setInp_class (some d) m
      rw [g2] at this
      rw [g1, List.map_cons, List.map_cons, this]
  rcases h2 with ⟨_, rfl⟩ | ⟨_, g⟩
  · exact e1
  · have := msetDtypes_class t ms1
    rw [g] at this
    rw [← e1]; exact this

theorem train_needs_training (x : Arr α) (a : List β) (m : Mem σ α β) (h : (m.train x a).1 = .ok ()) : m.isTraining = true := by
  by_contra hc
  rw [Bool.not_eq_true] at hc
  cases m with
  | plain K s =>
    simp only [Mem.train, Mem.isTraining] at h hc
    unfold Node.train at h
    by_cases hT : K.trainable = false
    · rw [if_pos hT] at h; cases h
    · rw [if_neg hT, M.bind_ok (M.get_def _), if_pos hc] at h; cases h
  | online K s =>
    simp only [Mem.train, Mem.isTraining] at h hc
    rw [otrain_eq] at h
    by_cases hT : K.trainable = false
    · rw [if_pos hT] at h; cases h
    · rw [if_neg hT, if_pos hc] at h; cases h

theorem walk_needs_training (args : List β) (ms : List (Mem σ α β)) : ∀ (i : Nat) (x : Arr α),
    (walk args i ms x).1 = .ok () → ∀ m ∈ ms, m.trainable = true → m.isTraining = true := by
  induction ms with
  | nil => intro i x _ m hm; cases hm
  | cons k r ih =>
    intro i x h m hm ht
    unfold walk at h
    rcases List.mem_cons.1 hm with rfl | hm
    · have : (m.train x args).1 = .ok () := by
        unfold Mem.learns at h
        rw [if_pos ht] at h
        generalize m.train x args = z at h
        obtain ⟨res, m1⟩ := z
        cases res with
        | error e => cases h
        | ok u => rfl
      exact train_needs_training x args m this
    · have hr : r.any Mem.trainable = true := List.any_eq_true.2 ⟨m, hm, ht⟩
      generalize k.learns x args = z at h
      obtain ⟨res, k1⟩ := z
      cases res with
      | error e => cases h
      | ok u =>
        dsimp only at h
        rw [if_pos hr] at h
        generalize k1.execute x = z at h
        obtain ⟨res, k2⟩ := z
        cases res with
        | error e => cases h
        | ok y => exact ih (i + 1) y h m hm ht

/-- C208 is violated: with an ordinary node that has been trained before in the flow, which the class allows, `train` never
returns. -/
theorem oflownode_trained_node (nodes : List (Mem σ α β)) (x : Arr α) (args : List β) (s : OSt (FN σ α β) α β)
    (hs : SameTrainable nodes s.node.st.nodes) (m : Mem σ α β) (hm : m ∈ s.node.st.nodes) (ht : m.trainable = true)
    (hf : m.isTraining = false) : isOk (otrain (oflowKind nodes) x args s).1 = false := by
  by_contra hc
  rw [Bool.not_eq_false] at hc
  obtain ⟨t, dt, ms, h1, h2, h3, h4⟩ := oflownode_train_refused nodes x args s hs hc
  have hcl := primed_class h2
  have htr : SameTrainable s.node.st.nodes ms := by
    have hf := (forward_primed (⟨2, x.cols, dt, []⟩ : Arr α) s.node.st ms).1 h2
    have htr := forward_trainable (⟨2, x.cols, dt, []⟩ : Arr α) s.node.st
    rw [hf] at htr
    exact htr
  obtain ⟨j, hj⟩ := List.mem_iff_getElem?.1 hm
  have hlen : ms.length = s.node.st.nodes.length := by
    have := congrArg List.length hcl
    simpa using this
  obtain ⟨k, hk⟩ : ∃ k, ms[j]? = some k := by
    have : j < s.node.st.nodes.length := by
      rcases List.getElem?_eq_some_iff.1 hj with ⟨h, _⟩; exact h
    exact ⟨ms[j], List.getElem?_eq_getElem (by omega)⟩
  have hkt : k.isTraining = false := by
    have := congrArg (fun l => l[j]?) hcl
    simp only [List.getElem?_map, hj, hk, Option.map_some, Option.some.injEq] at this
    rw [this]; exact hf
  have hkT : k.trainable = true := by
    have := congrArg (fun l => l[j]?) htr
    simp only [List.getElem?_map, hj, hk, Option.map_some, Option.some.injEq] at this
    rw [this]; exact ht
  have hb : ∃ b r, blocks t ({ x with dtype := dt } : Arr α) = b :: r := by
    cases t with
    | batch => exact ⟨_, _, rfl⟩
    | incremental =>
      have hne : x.data ≠ [] := by
        generalize hz : otrain (oflowKind nodes) x args s = z at hc
        obtain ⟨res, s'⟩ := z
        cases res with
        | error e => cases hc
        | ok u =>
          obtain ⟨_, _, s1, hck⟩ := otrain_ok_checks _ _ _ _ _ hz
          obtain ⟨hw, _⟩ := ocheckInput_ok _ x s s1 hck
          intro h
          have := hw.2.1
          simp [Arr.nrows, h] at this
      obtain ⟨q, l, hq⟩ := List.exists_cons_of_ne_nil hne
      exact ⟨_, _, by simp [blocks, hq]; exact ⟨rfl, rfl⟩⟩
  obtain ⟨b, r, hb⟩ := hb
  rw [hb] at h3
  have hw : (walk args 0 ms b).1 = .ok () := by
    simp only [walks] at h3
    generalize walk args 0 ms b = z at h3
    obtain ⟨res, ms'⟩ := z
    cases res with
    | error e => cases h3
    | ok u => rfl
  have := walk_needs_training args ms 0 b hw k (List.mem_of_getElem? hk) hkT
  rw [hkt] at this
  cases this

end Mdp.Online
