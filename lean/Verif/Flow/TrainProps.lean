import Verif.Flow.TrainFrom

/-!
# Training a flow: C16-C18
-/

namespace Mdp.Flow

open Py Mdp.Node

variable {σ α β : Type}

/-! ## Specification -/

/-- `w` is the chunk `c` (array and extra arguments) with the array passed through the flow `P`. -/
def Through (P : List (Nd σ α β)) (c w : Arr α × List β) : Prop :=
  w.2 = c.2 ∧ ∀ promote, (Flow.execute promote P (.arr c.1) none).1 = .ok w.1

/-- The training history of a node that began in phase `p`: for every following phase `p + j` the train
hook on each of the processed chunks `ws[j]`, cast to the node's dtype `t`, in order, then the stop hook. -/
def history (t p : Nat) (ws : List (List (Arr α × List β))) : List (Event α β) :=
  (ws.zipIdx p).flatMap fun wq =>
    (wq.1.map fun c => Event.train wq.2 (refcast (some t) c.1) c.2 true) ++ [Event.stop wq.2 true]

theorem history_eq (t p : Nat) (ws : List (List (Arr α × List β))) : history t p ws = fullTrace t p ws := by
  induction ws generalizing p with
  | nil => rfl
  | cons w r ih =>
    have := ih (p + 1)
    unfold history at this ⊢
    rw [fullTrace, ← this]
    simp [List.zipIdx_cons, phaseEv]

theorem sameVis_refl (l : List (Nd σ α β)) : SameVis l l := by
  unfold SameVis
  induction l with
  | nil => exact .nil
  | cons n r ih => exact .cons ⟨rfl, rfl⟩ ih

theorem Proc.through {P : List (Nd σ α β)} {c w : Arr α × List β} (h : Proc P c w) : Through P c w := by
  refine ⟨h.1, fun promote => ?_⟩
  have := h.2 P (sameVis_refl P)
  simpa [Flow.execute, overInput, execCount] using this

/-! ## C16 -/

theorem trainNode_data (pre pre' : List (Nd σ α β)) (nd nd' : Nd σ α β) (d : Elem α β)
    (hk : nd.K.trainable = true) (h : trainNode pre nd d = (.ok (), pre', nd')) : ∃ c, d = .it c := by
  unfold trainNode at h
  cases d with
  | it c => exact ⟨c, rfl⟩
  | notIterable => cases h
  | none =>
    simp only at h
    split at h
    · cases h
    · rw [if_neg (by simp [hk])] at h
      cases h

theorem trainFrom_data (pre rest : List (Nd σ α β)) (ds : List (Elem α β)) (fl' : List (Nd σ α β))
    (h : trainFrom pre rest ds = (.ok (), fl')) (i : Nat) (nd : Nd σ α β) (hi : rest[i]? = some nd)
    (hk : nd.K.trainable = true) : ∃ c, ds[i]? = some (.it c) := by
  induction rest generalizing pre ds i with
  | nil => simp at hi
  | cons n r ih =>
    cases ds with
    | nil => rw [trainFrom] at h; cases h
    | cons d ds =>
      rw [trainFrom] at h
      split at h
      · cases h
      · next pre1 nd1 ht =>
        cases i with
        | zero =>
          simp at hi
          subst hi
          obtain ⟨c, rfl⟩ := trainNode_data _ _ _ _ _ hk ht
          exact ⟨c, rfl⟩
        | succ i => simpa using ih _ ds h i (by simpa using hi)

theorem closeLast_ok (fl fl' : List (Nd σ α β)) (hr : ∀ n ∈ fl, Ready n) (h : closeLast fl = (.ok (), fl')) :
    ∃ ini m m', fl = ini ++ [m] ∧ fl' = ini ++ [m'] ∧ m'.K = m.K ∧ m'.s.training = false ∧
      (m.s.training = false → m' = m) ∧
      (m.s.training = true → ts m'.s = ts m.s ++ [.stop (m.K.nPhases - 1) true] ∧
        (m.s.dtype = none ∨ m'.s.dtype = m.s.dtype)) := by
  unfold closeLast at h
  rcases List.eq_nil_or_concat fl with rfl | ⟨ini, m, rfl⟩
  · simp at h
  · have hm := hr m (by simp)
    have hl : (ini ++ [m]).getLast? = some m := by simp
    simp only [List.concat_eq_append] at *
    rw [hl] at h
    simp only [List.dropLast_concat] at h
    by_cases htr : m.s.training = true
    · have hnf := stop_noFin m.K hm.nice.noFin m.s htr
      split at h
      · next s hs =>
        cases h
        obtain ⟨e1, e2, e3⟩ := stop_ok_trace m.K m.s s hs
        have hi : Inv m.K s := by
          have := stop_inv m.K m.s hm.inv
          rw [hs] at this
          exact this
        obtain ⟨l1, l2, l3⟩ := hm.last htr
        refine ⟨ini, m, ⟨m.K, s⟩, rfl, rfl, rfl, ?_, ?_, fun _ => ⟨?_, ?_⟩⟩
        · by_contra hc
          have := (hi.tr l2).2.2.1.1 (by simpa using hc)
          omega
        · intro hh; rw [htr] at hh; cases hh
        · have := hm.nice.sane l2
          unfold ts
          rw [e1, List.filter_append, l3]
          have e : ((m.K.nPhases : Int) - 1).toNat = m.K.nPhases - 1 := by omega
          simp [isTS, e]
        · have := stop_fwd m.K m.s
          rw [hs] at this
          exact this.dt
      · next s hs => rw [hs] at hnf; exact absurd rfl hnf
      · cases h
    · have htr : m.s.training = false := by simpa using htr
      have hsame : ∀ s, (stopTraining m.K m.s).2 = s → s = m.s := by
        intro s hs
        rw [← hs]
        unfold stopTraining
        simp only [M.bind_def, M.get_def]
        split
        · rfl
        · rfl
      split at h
      · next s hs =>
        cases h
        have := hsame s (by rw [hs])
        subst this
        exact ⟨ini, m, m, rfl, rfl, rfl, htr, fun _ => rfl, fun hh => by rw [htr] at hh; cases hh⟩
      · next s hs =>
        cases h
        have := hsame s (by rw [hs])
        subst this
        exact ⟨ini, m, m, rfl, rfl, rfl, htr, fun _ => rfl, fun hh => by rw [htr] at hh; cases hh⟩
      · cases h

/-- C16, as far as it is true. If `flow.train(data)` succeeds then the flow has the same nodes in the same
order, and for the node `nd` at position `i`, which became `nd'`:
* a node that was not training has no new training history;
* a node that was training got an iterable and was trained, in each of its remaining phases, on exactly
  the chunks of one pass over its data, in order, each passed through the nodes before it **as they are
  after training**, and every phase was closed, except possibly the last one;
* the last phase was closed too if `nd` is the last node or a later node is trainable.
Assumed of the node classes: execute hooks do not change the node, and hooks do not raise
TrainingFinishedException themselves. What is missing: that the last phase is always closed, which is
false (`train_leaves_node_open`). -/
theorem train_spec_partial (fl fl' : List (Nd σ α β)) (ds : List (Elem α β))
    (hfl : ∀ nd ∈ fl, Nice nd.K ∧ Reachable nd.K nd.s)
    (h : Flow.train fl (.list ds) = (.ok (), fl')) :
    fl'.length = fl.length ∧ ∀ (i : Nat) (nd : Nd σ α β), fl[i]? = some nd → ∃ nd' : Nd σ α β, fl'[i]? = some nd' ∧ nd'.K = nd.K ∧
      (nd.s.training = false → nd'.s.training = false ∧ ts nd'.s = ts nd.s) ∧
      (nd.s.training = true → ∃ c t ws, ds[i]? = some (.it c) ∧ nd'.s.dtype = some t ∧
        (ws.length : Int) = remaining nd.K nd.s ∧
        (∀ j w, ws[j]? = some w → List.Forall₂ (Through (fl'.take i)) (c j) w) ∧
        ((nd'.s.training = false ∧ ts nd'.s = ts nd.s ++ history t nd.s.phase.toNat ws) ∨
         (nd'.s.training = true ∧
          ts nd'.s ++ [.stop (nd.K.nPhases - 1) true] = ts nd.s ++ history t nd.s.phase.toNat ws))) ∧
      (i + 1 = fl.length ∨ (∃ j n, i < j ∧ fl[j]? = some n ∧ n.K.trainable = true) → nd'.s.training = false) := by
  have hinv : ∀ nd ∈ fl, Nice nd.K ∧ Inv nd.K nd.s := fun nd hn => ⟨(hfl nd hn).1, reachable_inv (hfl nd hn).1.sane (hfl nd hn).2⟩
  unfold Flow.train at h
  have hds : ∀ l, checkIterables fl.length (.list ds) = .ok l → l = ds := by
    intro l hl
    simp only [checkIterables] at hl
    split at hl
    · cases hl
    · split at hl
      · cases hl
      · cases hl; rfl
  split at h
  · cases h
  · next l hl =>
    have := hds l hl
    subst this
    split at h
    · cases h
    · next fl1 ht =>
      obtain ⟨a1, -, a3, a4⟩ := trainFrom_ok [] fl l fl1 (by simp) hinv ht
      simp only [List.length_nil, Nat.zero_add] at a1 a4
      obtain ⟨ini, m, m', b1, b2, b3, b4, b5, b6⟩ := closeLast_ok fl1 fl' a3 h
      have hlen : fl1.length = ini.length + 1 := by rw [b1]; simp
      have htake : ∀ k, k ≤ ini.length → fl1.take k = fl'.take k := by
        intro k hk
        rw [b1, b2, List.take_append_of_le_length hk, List.take_append_of_le_length hk]
      refine ⟨by rw [← a1, b1, b2]; simp, ?_⟩
      intro i nd hi
      have hilt : i < fl.length := (List.getElem?_eq_some_iff.1 hi).1
      obtain ⟨d, nd1, c1, c2, ⟨c3, c4, c5⟩, c6⟩ := a4 i nd hi
      rw [htake i (by omega)] at c5 c6
      have hndinv := (hinv nd (List.mem_of_getElem? hi)).2
      have hsane := (hinv nd (List.mem_of_getElem? hi)).1.sane
      have hkt : nd.s.training = true → nd.K.trainable = true := by
        intro htr
        by_contra hk
        have := (hndinv.ntr (by simpa using hk)).2.1
        rw [htr] at this; cases this
      have hopen : ∀ t ws, nd.s.training = true → (List.length (α := List (Arr α × List β)) ws : Int) = remaining nd.K nd.s →
          openTrace t nd.s.phase.toNat ws ++ [.stop (nd.K.nPhases - 1) true] = history t nd.s.phase.toNat ws := by
        intro t ws htr hw
        have hk := hkt htr
        have hlt := inv_training_phase hndinv hk htr
        have h0 := (hndinv.tr hk).1
        unfold remaining at hw
        rw [if_pos hk] at hw
        rw [history_eq, ← openTrace_stop t _ ws]
        · congr 3
          omega
        · rintro rfl; simp at hw; omega
      have hthru : ∀ (c : Chunks α β) (ws : List (List (Arr α × List β))),
          (∀ j w, ws[j]? = some w → List.Forall₂ (Proc (fl'.take i)) (c j) w) →
          (∀ j w, ws[j]? = some w → List.Forall₂ (Through (fl'.take i)) (c j) w) := by
        intro c ws hw j w hj
        exact (hw j w hj).imp fun _ _ h => h.through
      by_cases hlast : i = ini.length
      · subst hlast
        have hm : nd1 = m := by
          rw [b1] at c2; simpa using c2.symm
        subst hm
        refine ⟨m', by rw [b2]; simp, b3.trans c3, ?_, ?_, fun _ => b4⟩
        · intro htr
          obtain ⟨d1, d2⟩ := c4 htr
          rw [b5 d1]
          exact ⟨d1, d2⟩
        · intro htr
          obtain ⟨c, t, ws, rfl, e1, e2, e3, e4⟩ := c5 htr
          rcases e4 with ⟨e4, e5⟩ | ⟨e4, e5⟩
          · refine ⟨c, t, ws, c1, ?_, e2, hthru c ws e3, .inl ⟨b4, ?_⟩⟩
            · rw [b5 e4]; exact e1
            · rw [b5 e4, e5, history_eq]
          · obtain ⟨f1, f2⟩ := b6 e4
            refine ⟨c, t, ws, c1, ?_, e2, hthru c ws e3, .inl ⟨b4, ?_⟩⟩
            · rcases f2 with f2 | f2
              · rw [e1] at f2; cases f2
              · exact f2.trans e1
            · rw [f1, e5, c3, List.append_assoc, hopen t ws htr e2]
      · refine ⟨nd1, ?_, c3, c4, ?_, ?_⟩
        · rw [b2, List.getElem?_append_left (by omega)]
          rw [b1, List.getElem?_append_left (by omega)] at c2
          exact c2
        · intro htr
          obtain ⟨c, t, ws, rfl, e1, e2, e3, e4⟩ := c5 htr
          refine ⟨c, t, ws, c1, e1, e2, hthru c ws e3, ?_⟩
          rcases e4 with ⟨e4, e5⟩ | ⟨e4, e5⟩
          · exact .inl ⟨e4, by rw [e5, history_eq]⟩
          · exact .inr ⟨e4, by rw [e5, List.append_assoc, hopen t ws htr e2]⟩
        · rintro (hh | ⟨j, n, hij, hj, hk⟩)
          · omega
          · obtain ⟨d', n', g1, g2, g3, g4⟩ := a4 j n hj
            obtain ⟨c, hc⟩ := trainFrom_data [] fl l fl1 ht j n hj hk
            have hd : d' = .it c := by rw [g1] at hc; exact Option.some.inj hc
            refine (g4 c hd hk nd1 ?_).training
            have : (fl1.take j)[i]? = some nd1 := by
              rw [List.getElem?_take, if_pos hij]; exact c2
            exact List.mem_of_getElem? this

/-- C16: if moreover all nodes are trainable, or just the last one is, the whole flow is trained. -/
theorem train_all_finished_partial (fl fl' : List (Nd σ α β)) (ds : List (Elem α β))
    (hfl : ∀ nd ∈ fl, Nice nd.K ∧ Reachable nd.K nd.s)
    (hlast : ∀ nd, fl.getLast? = some nd → nd.K.trainable = true)
    (h : Flow.train fl (.list ds) = (.ok (), fl')) : ∀ nd ∈ fl', nd.s.training = false := by
  obtain ⟨h1, h2⟩ := train_spec_partial fl fl' ds hfl h
  intro nd' hn
  obtain ⟨i, hi⟩ := List.mem_iff_getElem?.1 hn
  have hlt : i < fl.length := by rw [← h1]; exact (List.getElem?_eq_some_iff.1 hi).1
  obtain ⟨n, e1, -, -, -, e2⟩ := h2 i fl[i] (by simp [hlt])
  rw [hi] at e1
  cases e1
  apply e2
  by_cases hl : i + 1 = fl.length
  · exact .inl hl
  · right
    have : fl.getLast? = some fl[fl.length - 1] := by
      rw [List.getLast?_eq_getElem?]; simp
    exact ⟨fl.length - 1, fl[fl.length - 1], by omega, by simp, hlast _ this⟩

/-- C16: one array stands for a one-chunk iterable for every node. -/
theorem train_array (fl : List (Nd σ α β)) (x : Arr α) :
    Flow.train fl (.array x) = Flow.train fl (.list (List.replicate fl.length (.it fun _ => [(x, [])]))) := by
  unfold Flow.train checkIterables
  have : (List.replicate fl.length (Elem.it fun _ => [(x, ([] : List β))])).all Elem.iterable = true := by
    simp [Elem.iterable]
  simp [this]

theorem trainNode_error (pre pre' : List (Nd σ α β)) (nd nd' : Nd σ α β) (d : Elem α β) (e : Err)
    (h : trainNode pre nd d = (.error e, pre', nd')) : e = .flow ∨ ∃ e', e = .flowCR pre.length e' := by
  unfold trainNode at h
  cases d with
  | notIterable => cases h; exact .inr ⟨_, rfl⟩
  | none =>
    simp only at h
    split at h
    · cases h; exact .inl rfl
    · split at h
      · cases h
      · cases h; exact .inr ⟨_, rfl⟩
  | it c =>
    simp only at h
    split at h
    · cases h
    · have := (Prod.ext_iff.1 h).1
      simp only at this
      generalize (trainRounds pre nd c 0).1 = r at this
      cases r with
      | ok u => cases this
      | error e1 =>
        cases e1 <;> simp [handle] at this
        all_goals first | exact .inl this.symm | exact .inr ⟨_, this.symm⟩

theorem trainChunks_pre (cs : List (Arr α × List β)) (pre : List (Nd σ α β)) (nd : Nd σ α β) :
    (trainChunks pre nd cs).2.1.length = pre.length := by
  induction cs generalizing pre nd with
  | nil => rfl
  | cons c r ih =>
    obtain ⟨x, args⟩ := c
    rw [trainChunks]
    split
    · rfl
    · have := execSeq_length 0 pre.length pre x
      split
      · next hh => rw [hh] at this; exact this
      · next hh =>
        rw [hh] at this
        split
        · exact this
        · rw [ih]; exact this

theorem trainRounds_pre (pre : List (Nd σ α β)) (nd : Nd σ α β) (it : Chunks α β) (k : Nat) :
    (trainRounds pre nd it k).2.1.length = pre.length := by
  fun_induction trainRounds pre nd it k with
  | case1 pre nd k e pre' nd' h1 =>
    have := trainChunks_pre (it k) pre nd; rw [h1] at this; exact this
  | case2 pre nd k pre' nd' h1 =>
    have := trainChunks_pre (it k) pre nd; rw [h1] at this; exact this
  | case3 pre nd k pre' nd' h1 =>
    have := trainChunks_pre (it k) pre nd; rw [h1] at this; exact this
  | case4 pre nd k pre' nd' h1 _ _ _ _ ih =>
    have := trainChunks_pre (it k) pre nd; rw [h1] at this; rw [ih]; exact this
  | case5 pre nd k pre' nd' h1 =>
    have := trainChunks_pre (it k) pre nd; rw [h1] at this; exact this

theorem trainNode_pre (pre pre' : List (Nd σ α β)) (nd nd' : Nd σ α β) (d : Elem α β) (r : Except Err Unit)
    (h : trainNode pre nd d = (r, pre', nd')) : pre'.length = pre.length := by
  unfold trainNode at h
  cases d with
  | notIterable => cases h; rfl
  | none =>
    simp only at h
    split at h
    · cases h; rfl
    · split at h <;> · cases h; rfl
  | it c =>
    simp only at h
    split at h
    · cases h; rfl
    · have h1 := trainRounds_pre pre nd c 0
      have h2 := (Prod.ext_iff.1 (Prod.ext_iff.1 h).2).1
      simp only at h2
      rw [← h2]; exact h1

theorem trainFrom_error (pre rest : List (Nd σ α β)) (ds : List (Elem α β)) (e : Err) (fl' : List (Nd σ α β))
    (hl : ds.length = rest.length) (h : trainFrom pre rest ds = (.error e, fl')) :
    ∃ i, i < rest.length ∧ (e = .flow ∨ ∃ e', e = .flowCR (pre.length + i) e') ∧
      fl'.length = pre.length + rest.length ∧ ∀ j, i < j → fl'[pre.length + j]? = rest[j]? := by
  induction rest generalizing pre ds with
  | nil => rw [trainFrom] at h; cases h
  | cons nd r ih =>
    cases ds with
    | nil => simp at hl
    | cons d ds =>
      rw [trainFrom] at h
      split at h
      · next e' pre1 nd1 ht =>
        cases h
        have hp := trainNode_pre _ _ _ _ _ _ ht
        refine ⟨0, by simp, by simpa using trainNode_error _ _ _ _ _ _ ht, by simp [hp], ?_⟩
        intro j hj
        rw [List.getElem?_append_right (by omega), hp]
        cases j with
        | zero => omega
        | succ j => simp
      · next pre1 nd1 ht =>
        have hp := trainNode_pre _ _ _ _ _ _ ht
        obtain ⟨i, h1, h2, h3, h4⟩ := ih _ ds (by simpa using hl) h
        simp only [List.length_append, List.length_singleton, hp] at h2 h3 h4
        refine ⟨i + 1, by simp; omega, ?_, by simp; omega, ?_⟩
        · rw [show pre.length + (i + 1) = pre.length + 1 + i by omega]; exact h2
        · intro j hj
          cases j with
          | zero => omega
          | succ j =>
            rw [show pre.length + (j + 1) = pre.length + 1 + j by omega]
            simpa using h4 j (by omega)

/-- C16: if training a nonempty flow fails, the exception is a FlowException, raised while dealing with some node
`i`, and the nodes after `i` are as before. -/
theorem train_failure (fl fl' : List (Nd σ α β)) (d : TrainArg α β) (e : Err) (hne : fl ≠ [])
    (h : Flow.train fl d = (.error e, fl')) :
    fl'.length = fl.length ∧ ∃ i, i < fl.length ∧ (e = .flow ∨ ∃ e', e = .flowCR i e') ∧
      ∀ j, i < j → fl'[j]? = fl[j]? := by
  have hpos : 0 < fl.length := by cases fl with | nil => exact absurd rfl hne | cons => simp
  unfold Flow.train at h
  split at h
  · next e1 hc =>
    cases h
    refine ⟨rfl, 0, hpos, ?_, fun _ _ => rfl⟩
    left
    unfold checkIterables at hc
    split at hc
    · cases hc
    · cases hc; rfl
    · split at hc
      · cases hc; rfl
      · split at hc
        · cases hc; rfl
        · cases hc
  · next l hc =>
    have hll : l.length = fl.length := by
      unfold checkIterables at hc
      split at hc
      · cases hc; simp
      · cases hc
      · split at hc
        · cases hc
        · split at hc
          · cases hc
          · next hh => cases hc; simpa using hh
    split at h
    · next e1 fl1 ht =>
      cases h
      obtain ⟨i, h1, h2, h3, h4⟩ := trainFrom_error [] fl l _ _ hll ht
      simp only [List.length_nil, Nat.zero_add] at h2 h3 h4
      exact ⟨h3, i, h1, h2, h4⟩
    · next fl1 ht =>
      have hlen : fl1.length = fl.length := by
        have : ∀ pre rest ds fl1, ds.length = rest.length → trainFrom pre rest ds = (.ok (), fl1) →
            (fl1 : List (Nd σ α β)).length = pre.length + rest.length := by
          intro pre rest
          induction rest generalizing pre with
          | nil => intro ds fl1 _ h; rw [trainFrom] at h; cases h; simp
          | cons nd r ih =>
            intro ds fl1 hl h
            cases ds with
            | nil => simp at hl
            | cons d ds =>
              rw [trainFrom] at h
              split at h
              · cases h
              · next pre1 nd1 ht =>
                have hp := trainNode_pre _ _ _ _ _ _ ht
                rw [ih _ ds fl1 (by simpa using hl) h]
                simp [hp]; omega
        simpa using this [] fl l fl1 hll ht
      unfold closeLast at h
      split at h
      · next hg =>
        rw [List.getLast?_eq_none_iff] at hg
        subst hg
        simp at hlen; omega
      · split at h
        · cases h
        · cases h
        · cases h
          refine ⟨by simp; omega, fl.length - 1, by omega, .inr ⟨_, by rw [hlen]⟩, ?_⟩
          intro j hj
          rw [List.getElem?_eq_none (by simp; omega), List.getElem?_eq_none (by omega)]

theorem sameVis_append {a b c d : List (Nd σ α β)} (h : SameVis a b) (h' : SameVis c d) :
    SameVis (a ++ c) (b ++ d) := by
  unfold SameVis at *
  induction h with
  | nil => simpa using h'
  | cons h1 _ ih => exact .cons h1 ih

theorem trainFrom_stable (pre rest : List (Nd σ α β)) (ds : List (Elem α β))
    (hpre : ∀ n ∈ pre, Ready n ∧ Stable n.s) (hrest : ∀ n ∈ rest, Ready n ∧ Stable n.s)
    (hl : ds.length = rest.length)
    (h : ∀ (i : Nat) (nd : Nd σ α β), rest[i]? = some nd → ∃ c x args r v, ds[i]? = some (.it c) ∧ c 0 = (x, args) :: r ∧
      (nd.K.reqArgs = 0 ∨ nd.K.reqArgs = args.length) ∧
      ∀ g, SameVis (pre ++ rest.take i) g → (execSeq 0 g.length g x).1 = .ok v) :
    ∃ fl', trainFrom pre rest ds = (.ok (), fl') ∧ SameVis (pre ++ rest) fl' ∧ ∀ n ∈ fl', Ready n ∧ Stable n.s := by
  induction rest generalizing pre ds with
  | nil => exact ⟨pre, by rw [trainFrom], by simpa using sameVis_refl pre, hpre⟩
  | cons nd rest ih =>
    cases ds with
    | nil => simp at hl
    | cons d ds =>
      obtain ⟨c, x, args, r, v, h1, h2, h3, h4⟩ := h 0 nd rfl
      simp only [List.getElem?_cons_zero, Option.some.injEq] at h1
      subst h1
      have hx := h4 pre (by simpa using sameVis_refl pre)
      generalize hE : execSeq 0 pre.length pre x = E at hx
      obtain ⟨res, pre1⟩ := E
      simp only at hx
      subst hx
      obtain ⟨a1, a2, a3, -⟩ := execSeq_ready 0 pre pre1 x v (fun n hn => (hpre n hn).1) hE
      have hsv : SameVis pre pre1 := a1.sameVis fun n hn => (hpre n hn).2
      obtain ⟨hr, hs⟩ := hrest nd (by simp)
      have ht : trainNode pre nd (.it c) = (.ok (), pre1, nd) ∨ trainNode pre nd (.it c) = (.ok (), pre, nd) := by
        unfold trainNode
        by_cases hk : nd.K.trainable = false
        · right; simp [hk]
        · left
          have hk' : nd.K.trainable = true := by simpa using hk
          have htn : train nd.K v args nd.s = (.error .finished, nd.s) := by
            unfold train
            rw [if_neg (by simp [hk'])]
            simp only [M.bind_def, M.get_def]
            rw [if_pos hs.training]
            rfl
          have hch : trainChunks pre nd (c 0) = (.error .finished, pre1, nd) := by
            rw [h2, trainChunks, if_neg (by omega), hE]
            simp only
            rw [htn]
          have htr : trainRounds pre nd c 0 = (.error .finished, pre1, nd) := by
            rw [trainRounds]
            split
            · next hh => rw [hch] at hh; cases hh; rfl
            · next hh => rw [hch] at hh; cases hh
          simp only [if_neg hk, htr, handle]
      have hcont : ∀ p, SameVis pre p → (∀ n ∈ p, Ready n ∧ Stable n.s) →
          ∃ fl', trainFrom (p ++ [nd]) rest ds = (.ok (), fl') ∧ SameVis (pre ++ nd :: rest) fl' ∧
            ∀ n ∈ fl', Ready n ∧ Stable n.s := by
        intro p hp hp'
        obtain ⟨fl', b1, b2, b3⟩ := ih (p ++ [nd]) ds (by
            intro n hn
            rcases List.mem_append.1 hn with hn | hn
            · exact hp' n hn
            · rw [List.mem_singleton.1 hn]; exact ⟨hr, hs⟩) (fun n hn => hrest n (by simp [hn])) (by simpa using hl) (by
            intro i n hn
            obtain ⟨c, x, args, r, v, g1, g2, g3, g4⟩ := h (i + 1) n (by simpa using hn)
            refine ⟨c, x, args, r, v, by simpa using g1, g2, g3, fun g hg => g4 g ?_⟩
            simp only [List.take_succ_cons]
            refine SameVis.trans ?_ hg
            simpa using sameVis_append hp (sameVis_refl (nd :: rest.take i)))
        refine ⟨fl', b1, SameVis.trans ?_ b2, b3⟩
        simpa using sameVis_append hp (sameVis_refl (nd :: rest))
      rcases ht with ht | ht
      · rw [trainFrom, ht]
        exact hcont pre1 hsv fun n hn => ⟨a2 n hn, a3 n hn⟩
      · rw [trainFrom, ht]
        exact hcont pre (sameVis_refl pre) hpre

/-- C16: training a nonempty flow whose nodes are all trained already succeeds and changes nothing one can see,
provided that the first chunk for each node passes through the nodes before it and has the right number of
extra arguments. -/
theorem train_trained_flow (fl : List (Nd σ α β)) (ds : List (Elem α β)) (hne : fl ≠ [])
    (hfl : ∀ nd ∈ fl, Nice nd.K ∧ Reachable nd.K nd.s ∧ Stable nd.s) (hl : ds.length = fl.length)
    (h : ∀ (i : Nat) (nd : Nd σ α β), fl[i]? = some nd → ∃ c x args r v, ds[i]? = some (.it c) ∧ c 0 = (x, args) :: r ∧
      (nd.K.reqArgs = 0 ∨ nd.K.reqArgs = args.length) ∧
      ∀ promote, (Flow.execute promote (fl.take i) (.arr x) none).1 = .ok v) :
    ∃ fl', Flow.train fl (.list ds) = (.ok (), fl') ∧ SameVis fl fl' := by
  have hready : ∀ nd ∈ fl, Ready nd ∧ Stable nd.s := by
    intro nd hn
    obtain ⟨h1, h2, h3⟩ := hfl nd hn
    exact ⟨⟨h1, reachable_inv h1.sane h2, h3.touched, fun hh => by rw [h3.training] at hh; cases hh⟩, h3⟩
  have hit : ds.all Elem.iterable = true := by
    rw [List.all_eq_true]
    intro e he
    obtain ⟨i, hi⟩ := List.mem_iff_getElem?.1 he
    have hlt : i < fl.length := by rw [← hl]; exact (List.getElem?_eq_some_iff.1 hi).1
    obtain ⟨c, -, -, -, -, h1, -⟩ := h i fl[i] (by simp [hlt])
    rw [hi] at h1
    cases h1
    rfl
  obtain ⟨fl1, h1, h2, h3⟩ := trainFrom_stable [] fl ds (by simp) hready hl (by
    intro i nd hi
    obtain ⟨c, x, args, r, v, g1, g2, g3, g4⟩ := h i nd hi
    refine ⟨c, x, args, r, v, g1, g2, g3, fun g hg => ?_⟩
    have g4 := g4 max
    simp only [Flow.execute, overInput, execCount, Option.getD_none] at g4
    rw [show (((fl.take i).length : Int) - 1 + 1).toNat = (fl.take i).length by omega] at g4
    generalize hE : execSeq 0 (fl.take i).length (fl.take i) x = E at g4
    obtain ⟨res, p⟩ := E
    simp only at g4
    subst g4
    obtain ⟨a1, a2, a3, a4⟩ := execSeq_ready 0 (fl.take i) p x v
      (fun n hn => (hready n (List.mem_of_mem_take hn)).1) hE
    have hsv : SameVis (fl.take i) p := a1.sameVis fun n hn => (hready n (List.mem_of_mem_take hn)).2
    simp only [List.nil_append] at hg
    rw [hg.length]
    exact a4 0 g (hsv.symm.trans hg))
  simp only [List.nil_append] at h2
  refine ⟨fl1, ?_, h2⟩
  have hc : checkIterables fl.length (.list ds) = .ok ds := by simp [checkIterables, hl, hit]
  unfold Flow.train
  rw [hc]
  simp only
  rw [h1]
  simp only
  rcases List.eq_nil_or_concat fl1 with rfl | ⟨ini, m, rfl⟩
  · have := h2.length
    simp at this
    exact absurd (List.length_eq_zero_iff.1 this.symm) hne
  · simp only [List.concat_eq_append] at *
    have hm := h3 m (by simp)
    unfold closeLast
    have hl : (ini ++ [m]).getLast? = some m := by simp
    rw [hl]
    simp only [List.dropLast_concat]
    have hst : stopTraining m.K m.s = (.error .finished, m.s) := by
      unfold stopTraining
      simp only [M.bind_def, M.get_def]
      rw [if_neg (by simp [hm.2.training]), if_pos hm.2.training]
      rfl
    rw [hst]

/-- The hypotheses hold for a trained node. -/
example : Nice demo ∧ Reachable demo demo2 ∧ Stable demo2 ∧ demo.reqArgs = 0 ∧
    ∀ promote, (Flow.execute promote ([] : List (Nd Nat Nat Unit)) (.arr demoX) none).1 = .ok demoX := by
  refine ⟨⟨demo_sane, fun _ _ => ⟨rfl, rfl⟩, ?_, by simp [demo], by simp [demo]⟩, demo2_reachable,
    ⟨by decide, by decide, by decide, by decide, by decide⟩, rfl, fun _ => rfl⟩
  intro p st x a
  simp only [demo]
  split <;> simp

theorem train_list (fl : List (Nd σ α β)) (l : List (Elem α β)) (h : l.length = fl.length)
    (h' : l.all Elem.iterable = true) :
    Flow.train fl (.list l) = match trainFrom [] fl l with
      | (.error e, fl') => (.error e, fl')
      | (.ok (), fl') => closeLast fl' := by
  have : checkIterables fl.length (.list l) = .ok l := by simp [checkIterables, h, h']
  unfold Flow.train
  rw [this]
  simp only
  generalize trainFrom [] fl l = R
  obtain ⟨r, f⟩ := R
  cases r <;> rfl

/-! ### C16: a concrete case -/

/-- A trainable class with `n` phases that adds the number of rows seen so far. -/
def addKind (n : Nat) : Kind Nat Nat Unit where
  trainable := true
  invertible := false
  preserveDim := false
  nPhases := n
  supported := fun _ => true
  reqArgs := 0
  checkTrainArgs := fun _ _ _ => .ok ()
  trainHook := fun _ st x _ => ⟨st + x.nrows, [], .ok ()⟩
  stopHook := fun _ st => ⟨st, [], .ok ()⟩
  execHook := fun st x => ⟨st, [], .ok { x with data := x.data.map (·.map (· + st)) }⟩
  invHook := fun st x => ⟨st, [], .ok x⟩

/-- A non-trainable identity class. -/
def idKind : Kind Nat Nat Unit := { addKind 1 with trainable := false, execHook := fun st x => ⟨st, [], .ok x⟩ }

def addNode (n : Nat) : Nd Nat Nat Unit := ⟨addKind n, (init (addKind n) none none none 0).2⟩
def idNode : Nd Nat Nat Unit := ⟨idKind, (init idKind none none none 0).2⟩

theorem addKind_nice (n : Nat) (h : 0 < n) : Nice (addKind n) :=
  ⟨fun _ => h, fun _ _ => ⟨rfl, rfl⟩, by simp [addKind], by simp [addKind], by simp [addKind]⟩

theorem idKind_nice : Nice idKind :=
  ⟨fun h => Bool.noConfusion h, fun _ _ => ⟨rfl, rfl⟩, by simp [idKind, addKind], by simp [idKind, addKind],
    by simp [idKind, addKind]⟩

theorem addNode_reachable (n : Nat) : Reachable (addNode n).K (addNode n).s := ⟨none, none, none, 0, [], rfl, rfl⟩
theorem idNode_reachable : Reachable idNode.K idNode.s := ⟨none, none, none, 0, [], rfl, rfl⟩

/-- Data of two chunks. -/
def exIt : Elem Nat Unit := .it fun _ => [(⟨2, 1, 1, [[1], [2]]⟩, []), (⟨2, 1, 1, [[3]]⟩, [])]

def exC : Chunks Nat Unit := fun _ => [(⟨2, 1, 1, [[1], [2]]⟩, []), (⟨2, 1, 1, [[3]]⟩, [])]

/-- The one-phase node after its data, and when the next node has been trained. -/
def add1 : Nd Nat Nat Unit := ⟨addKind 1, ⟨some 1, none, some 1, true, 0, true, 3,
  [.train 0 ⟨2, 1, 1, [[1], [2]]⟩ [] true, .train 0 ⟨2, 1, 1, [[3]]⟩ [] true]⟩⟩

theorem train_add1 : trainNode [] (addNode 1) exIt = (.ok (), [], add1) := by
  have h : trainRounds [] (addNode 1) exC 0 = (.ok (), [], add1) := by
    rw [trainRounds]; rfl
  show (handle 0 (trainRounds [] (addNode 1) exC 0).1, (trainRounds [] (addNode 1) exC 0).2) = _
  rw [h]; rfl

/-- The one-phase node after `k` chunks have been passed through it. -/
def add1' (k : Nat) : Nd Nat Nat Unit := ⟨addKind 1, ⟨some 1, some 1, some 1, false, 1, false, 3,
  [.train 0 ⟨2, 1, 1, [[1], [2]]⟩ [] true, .train 0 ⟨2, 1, 1, [[3]]⟩ [] true, .stop 0 true] ++
  ([.exec ⟨2, 1, 1, [[1], [2]]⟩, .exec ⟨2, 1, 1, [[3]]⟩, .exec ⟨2, 1, 1, [[1], [2]]⟩, .exec ⟨2, 1, 1, [[3]]⟩].take k)⟩⟩

def add2 (ph : Int) (st : Nat) (started : Bool) (l : List (Event Nat Unit)) : Nd Nat Nat Unit :=
  ⟨addKind 2, ⟨some 1, none, some 1, true, ph, started, st, l⟩⟩

def tr2 : List (Event Nat Unit) :=
  [.train 0 ⟨2, 1, 1, [[4], [5]]⟩ [] true, .train 0 ⟨2, 1, 1, [[6]]⟩ [] true, .stop 0 true,
    .train 1 ⟨2, 1, 1, [[4], [5]]⟩ [] true, .train 1 ⟨2, 1, 1, [[6]]⟩ [] true]

def X1 : Arr Nat := ⟨2, 1, 1, [[1], [2]]⟩
def X2 : Arr Nat := ⟨2, 1, 1, [[3]]⟩
def Y1 : Arr Nat := ⟨2, 1, 1, [[4], [5]]⟩
def Y2 : Arr Nat := ⟨2, 1, 1, [[6]]⟩

theorem train_add2 : trainNode [add1] (addNode 2) exIt = (.ok (), [add1' 4], add2 1 6 true tr2) := by
  have e1 : execute (addKind 1) X1 add1.s = (.ok Y1, (add1' 1).s) := rfl
  have e2 : execute (addKind 1) X2 (add1' 1).s = (.ok Y2, (add1' 2).s) := rfl
  have e3 : execute (addKind 1) X1 (add1' 2).s = (.ok Y1, (add1' 3).s) := rfl
  have e4 : execute (addKind 1) X2 (add1' 3).s = (.ok Y2, (add1' 4).s) := rfl
  have t1 : train (addKind 2) Y1 [] (addNode 2).s = (.ok (), (add2 0 2 true (tr2.take 1)).s) := rfl
  have t2 : train (addKind 2) Y2 [] (add2 0 2 true (tr2.take 1)).s = (.ok (), (add2 0 3 true (tr2.take 2)).s) := rfl
  have t3 : train (addKind 2) Y1 [] (add2 1 3 false (tr2.take 3)).s = (.ok (), (add2 1 5 true (tr2.take 4)).s) := rfl
  have t4 : train (addKind 2) Y2 [] (add2 1 5 true (tr2.take 4)).s = (.ok (), (add2 1 6 true tr2).s) := rfl
  have c1 : trainChunks [add1] (addNode 2) (exC 0) = (.ok (), [add1' 2], add2 0 3 true (tr2.take 2)) := by
    show trainChunks [⟨addKind 1, add1.s⟩] ⟨addKind 2, (addNode 2).s⟩ [(X1, []), (X2, [])] = _
    rw [trainChunks, if_neg (by simp [addKind])]
    simp only [List.length_singleton, execSeq, e1, t1]
    rw [trainChunks, if_neg (by simp [addKind])]
    simp only [List.length_singleton, execSeq, e2, t2, trainChunks]
    rfl
  have c2 : stopTraining (addKind 2) (add2 0 3 true (tr2.take 2)).s = (.ok (), (add2 1 3 false (tr2.take 3)).s) := rfl
  have c3 : trainChunks [add1' 2] (add2 1 3 false (tr2.take 3)) (exC 1) = (.ok (), [add1' 4], add2 1 6 true tr2) := by
    show trainChunks [⟨addKind 1, (add1' 2).s⟩] ⟨addKind 2, (add2 1 3 false (tr2.take 3)).s⟩ [(X1, []), (X2, [])] = _
    rw [trainChunks, if_neg (by simp [addKind])]
    simp only [List.length_singleton, execSeq, e3, t3]
    rw [trainChunks, if_neg (by simp [addKind])]
    simp only [List.length_singleton, execSeq, e4, t4, trainChunks]
    rfl
  have h2 : trainRounds [add1' 2] (add2 1 3 false (tr2.take 3)) exC 1 = (.ok (), [add1' 4], add2 1 6 true tr2) := by
    rw [trainRounds]
    split
    · next h => rw [c3] at h; cases h
    · next h =>
      rw [c3] at h
      cases h
      rw [if_neg (by decide), dif_neg (by decide)]
  have h1 : trainRounds [add1] (addNode 2) exC 0 = (.ok (), [add1' 4], add2 1 6 true tr2) := by
    rw [trainRounds]
    split
    · next h => rw [c1] at h; cases h
    · next h =>
      rw [c1] at h
      cases h
      rw [if_neg (by decide), dif_pos (by decide)]
      split
      · next h => exact absurd (congrArg Prod.fst (c2.symm.trans h)) (by simp)
      · next h =>
        have := congrArg Prod.snd (c2.symm.trans h)
        simp only at this
        subst this
        exact h2
  show (handle 1 (trainRounds [add1] (addNode 2) exC 0).1, (trainRounds [add1] (addNode 2) exC 0).2) = _
  rw [h1]; rfl

/-- The hypotheses of the theorems hold for a flow of a one-phase and a two-phase node. -/
example : (∀ nd ∈ [addNode 1, addNode 2], Nice nd.K ∧ Reachable nd.K nd.s) ∧
    (∀ nd, [addNode 1, addNode 2].getLast? = some nd → nd.K.trainable = true) ∧
    Flow.train [addNode 1, addNode 2] (.list [exIt, exIt]) =
      (.ok (), [add1' 4, ⟨addKind 2, ⟨some 1, none, some 1, false, 2, false, 6, tr2 ++ [.stop 1 true]⟩⟩]) := by
  refine ⟨?_, ?_, ?_⟩
  · intro nd hn
    rcases List.mem_cons.1 hn with rfl | hn
    · exact ⟨addKind_nice 1 (by omega), addNode_reachable 1⟩
    · rw [List.mem_singleton.1 hn]; exact ⟨addKind_nice 2 (by omega), addNode_reachable 2⟩
  · intro nd hn; simp at hn; subst hn; rfl
  · rw [train_list _ _ rfl (by rfl)]
    rw [trainFrom, train_add1]
    simp only [List.nil_append]
    rw [trainFrom, train_add2]
    rfl

/-- C16 is false in one case: in a flow of a trainable and a non-trainable node, training succeeds but the
trainable node's last phase is left open. -/
theorem train_leaves_node_open : ∃ (fl fl' : List (Nd Nat Nat Unit)) (d : TrainArg Nat Unit),
    (∀ nd ∈ fl, Nice nd.K ∧ Reachable nd.K nd.s) ∧ Flow.train fl d = (.ok (), fl') ∧
    ∃ nd ∈ fl', nd.K.trainable = true ∧ nd.s.training = true := by
  refine ⟨[addNode 1, idNode], [add1, idNode], .list [exIt, .none], ?_, ?_, add1, by simp, rfl, rfl⟩
  · intro nd hn
    rcases List.mem_cons.1 hn with rfl | hn
    · exact ⟨addKind_nice 1 (by omega), addNode_reachable 1⟩
    · rw [List.mem_singleton.1 hn]; exact ⟨idKind_nice, idNode_reachable⟩
  · rw [train_list _ _ rfl (by rfl)]
    rw [trainFrom, train_add1]
    rfl

/-- A failing case: the second node gets no data; the nodes after the failing one are untouched. -/
example : Flow.train [addNode 1, addNode 2, idNode] (.list [exIt, .none, .none]) =
    (.error .flow, [add1, addNode 2, idNode]) := by
  rw [train_list _ _ rfl (by rfl)]
  rw [trainFrom, train_add1]
  rfl

/-! ## C17 -/

/-- The positions that have a checkpoint. -/
def cpPositions (cs : List (Option (Checkpoint σ α β))) : List Nat :=
  (cs.zipIdx.filter fun p => p.1.isSome).map (·.2)

theorem cpTrainFrom_log (pre rest : List (Nd σ α β)) (ds : List (Elem α β)) (cs : List (Option (Checkpoint σ α β)))
    (r : Except Err Unit) (fl' : List (Nd σ α β)) (log : List (CpCall σ α β))
    (hl : cs.length = rest.length)
    (h : cpTrainFrom pre rest ds cs = (r, fl', log)) :
    log.map (·.index) <+: ((cs.zipIdx pre.length).filter fun p => p.1.isSome).map (·.2) ∧
    (r = .ok () → log.map (·.index) = ((cs.zipIdx pre.length).filter fun p => p.1.isSome).map (·.2)) ∧
    (∀ call ∈ log, ∀ j, call.index < pre.length + j → call.flow[pre.length + j]? = rest[j]?) := by
  induction rest generalizing pre ds cs r fl' log with
  | nil =>
    rw [cpTrainFrom] at h
    cases h
    have : cs = [] := List.length_eq_zero_iff.1 (by simpa using hl)
    subst this
    simp
  | cons nd rest ih =>
    cases cs with
    | nil => simp at hl
    | cons c cs =>
      cases ds with
      | nil =>
        rw [cpTrainFrom] at h
        · cases h; simp
        all_goals simp
      | cons d ds =>
        rw [cpTrainFrom] at h
        split at h
        · cases h; simp
        · next pre1 nd1 ht =>
          have hp := trainNode_pre _ _ _ _ _ _ ht
          cases c with
          | none =>
            simp only at h
            obtain ⟨h1, h2, h3⟩ := ih _ ds cs r fl' log (by simpa using hl) h
            simp only [List.length_append, List.length_singleton, hp] at h1 h2 h3
            simp only [List.zipIdx_cons, Option.isSome_none, Bool.false_eq_true, not_false_eq_true,
              List.filter_cons_of_neg]
            refine ⟨h1, h2, ?_⟩
            intro call hc j hj
            cases j with
            | zero =>
              exfalso
              have := h1.subset (List.mem_map_of_mem (f := (·.index)) hc)
              simp only [List.mem_map, List.mem_filter] at this
              obtain ⟨q, ⟨hq, -⟩, hq'⟩ := this
              obtain ⟨q1, q2⟩ := q
              have := List.le_snd_of_mem_zipIdx hq
              simp only at hq' this
              omega
            | succ j =>
              have := h3 call hc j (by omega)
              rw [show pre.length + (j + 1) = pre.length + 1 + j by omega, this]
              simp
          | some f =>
            simp only at h
            split at h
            · next e nd2 hf =>
              cases h
              simp only [List.zipIdx_cons, Option.isSome_some, List.filter_cons_of_pos, List.map_cons,
                List.map_nil]
              refine ⟨by simp, by simp, ?_⟩
              intro call hc j hj
              rw [List.mem_singleton.1 hc] at hj ⊢
              simp only at hj ⊢
              rw [List.getElem?_append_right (by omega), hp]
              cases j with
              | zero => omega
              | succ j => simp
            · next nd2 hf =>
              generalize hR : cpTrainFrom (pre1 ++ [nd2]) rest ds cs = R at h
              obtain ⟨r0, fl0, log0⟩ := R
              simp only at h
              cases h
              obtain ⟨h1, h2, h3⟩ := ih _ ds cs r fl' log0 (by simpa using hl) hR
              simp only [List.length_append, List.length_singleton, hp] at h1 h2 h3
              simp only [List.zipIdx_cons, Option.isSome_some, List.filter_cons_of_pos, List.map_cons]
              refine ⟨by rw [List.cons_prefix_cons]; exact ⟨rfl, h1⟩, fun hr => by rw [h2 hr], ?_⟩
              intro call hc j hj
              rcases List.mem_cons.1 hc with rfl | hc
              · simp only at hj ⊢
                rw [List.getElem?_append_right (by omega), hp]
                cases j with
                | zero => omega
                | succ j => simp
              · cases j with
                | zero =>
                  exfalso
                  have := h1.subset (List.mem_map_of_mem (f := (·.index)) hc)
                  simp only [List.mem_map, List.mem_filter] at this
                  obtain ⟨q, ⟨hq, -⟩, hq'⟩ := this
                  obtain ⟨q1, q2⟩ := q
                  have := List.le_snd_of_mem_zipIdx hq
                  simp only at hq' this
                  omega
                | succ j =>
                  have := h3 call hc j (by omega)
                  rw [show pre.length + (j + 1) = pre.length + 1 + j by omega, this]
                  simp

/-- C17: whatever happens, the checkpoints are called in node order, none twice and none where the list has
None; if training succeeds each one was called; and when checkpoint `i` is called the nodes after `i` have
not been touched. -/
theorem checkpoints_once_in_order (fl fl' : List (Nd σ α β)) (d : TrainArg α β)
    (cs : List (Option (Checkpoint σ α β))) (r : Except Err Unit) (log : List (CpCall σ α β))
    (h : CheckpointFlow.train fl d (.list cs) = (r, fl', log)) :
    log.map (·.index) <+: cpPositions cs ∧ (r = .ok () → log.map (·.index) = cpPositions cs) ∧
    (∀ call ∈ log, ∀ j, call.index < j → call.flow[j]? = fl[j]?) := by
  unfold CheckpointFlow.train at h
  split at h
  · cases h; simp
  · next l hl =>
    split at h
    · cases h; simp
    · next cs' hcs =>
      have : cs' = cs ∧ cs.length = fl.length := by
        simp only [checkCheckpoints] at hcs
        split at hcs
        · cases hcs
        · next hh => cases hcs; exact ⟨rfl, by simpa using hh⟩
      obtain ⟨rfl, hlen⟩ := this
      split at h
      · next e fl1 log1 ht =>
        cases h
        have := cpTrainFrom_log [] fl l cs' _ _ _ hlen ht
        simpa [cpPositions] using this
      · next fl1 log1 ht =>
        generalize hc : closeLast fl1 = R at h
        obtain ⟨r1, fl2⟩ := R
        simp only at h
        cases h
        obtain ⟨h1, h2, h3⟩ := cpTrainFrom_log [] fl l cs' _ _ _ hlen ht
        have h2 := h2 rfl
        simp only [List.length_nil, Nat.zero_add] at h1 h2 h3
        exact ⟨h1, fun _ => h2, h3⟩

theorem cpTrainFrom_trained (pre rest : List (Nd σ α β)) (ds : List (Elem α β)) (cs : List (Option (Checkpoint σ α β)))
    (r : Except Err Unit) (fl' : List (Nd σ α β)) (log : List (CpCall σ α β))
    (hpre : ∀ n ∈ pre, Ready n) (hrest : ∀ n ∈ rest, Nice n.K ∧ Inv n.K n.s)
    (hcs : ∀ f, some f ∈ cs → ∀ n n', Ready n → f n = (.ok (), n') → Ready n')
    (h : cpTrainFrom pre rest ds cs = (r, fl', log)) :
    ∀ call ∈ log, ∃ i nd d nd', call.index = pre.length + i ∧ rest[i]? = some nd ∧ ds[i]? = some d ∧
      call.flow[pre.length + i]? = some nd' ∧ Ready nd' ∧ TrainedOn (call.flow.take (pre.length + i)) nd d nd' := by
  induction rest generalizing pre ds cs r fl' log with
  | nil => rw [cpTrainFrom] at h; cases h; simp
  | cons nd rest ih =>
    cases cs with
    | nil => rw [cpTrainFrom] at h <;> simp_all
    | cons c cs =>
      cases ds with
      | nil => rw [cpTrainFrom] at h <;> simp_all
      | cons d ds =>
        rw [cpTrainFrom] at h
        split at h
        · cases h; simp
        · next pre1 nd1 ht =>
          have hp := trainNode_pre _ _ _ _ _ _ ht
          obtain ⟨hnice, hinv⟩ := hrest nd (by simp)
          obtain ⟨a1, a2, a3, a4, a5⟩ := trainNode_ok pre pre1 nd nd1 d hpre hnice hinv ht
          have hnow : ∀ (call : CpCall σ α β), call = ⟨pre.length, pre1 ++ nd1 :: rest⟩ → ∃ i n d' n', call.index = pre.length + i ∧
              (nd :: rest)[i]? = some n ∧ (d :: ds)[i]? = some d' ∧
              call.flow[pre.length + i]? = some n' ∧ Ready n' ∧ TrainedOn (call.flow.take (pre.length + i)) n d' n' := by
            rintro call rfl
            refine ⟨0, nd, d, nd1, rfl, rfl, rfl, ?_, ?_⟩
            · simp [hp]
            · exact ⟨a3, by simpa [← hp] using a4⟩
          have hstep : ∀ m, Ready m → ∀ r fl' log, cpTrainFrom (pre1 ++ [m]) rest ds cs = (r, fl', log) →
              ∀ call ∈ log, ∃ i n d' n', call.index = pre.length + i ∧
              (nd :: rest)[i]? = some n ∧ (d :: ds)[i]? = some d' ∧
              call.flow[pre.length + i]? = some n' ∧ Ready n' ∧ TrainedOn (call.flow.take (pre.length + i)) n d' n' := by
            intro m hm r fl' log hh call hc
            obtain ⟨i, n, d', n', e1, e2, e3, e4, e5⟩ := ih _ ds cs r fl' log (by
                intro n hn
                rcases List.mem_append.1 hn with hn | hn
                · exact a2 n hn
                · rw [List.mem_singleton.1 hn]; exact hm)
              (fun n hn => hrest n (by simp [hn])) (fun f hf => hcs f (by simp [hf])) hh call hc
            simp only [List.length_append, List.length_singleton, hp] at e1 e4 e5
            rw [show pre.length + 1 + i = pre.length + (i + 1) by omega] at e1 e4 e5
            exact ⟨i + 1, n, d', n', e1, by simpa using e2, by simpa using e3, e4, e5⟩
          cases c with
          | none => exact hstep nd1 a3 _ _ _ h
          | some f =>
            simp only at h
            split at h
            · next e nd2 hf =>
              cases h
              intro call hc
              exact hnow call (List.mem_singleton.1 hc)
            · next nd2 hf =>
              generalize hR : cpTrainFrom (pre1 ++ [nd2]) rest ds cs = R at h
              obtain ⟨r0, fl0, log0⟩ := R
              simp only at h
              cases h
              intro call hc
              rcases List.mem_cons.1 hc with hc | hc
              · exact hnow call hc
              · exact hstep nd2 (hcs f (by simp) nd1 nd2 a3 hf) _ _ _ hR call hc

/-- C17: when checkpoint `i` is called, node `i` has consumed its data: if it was training, it got an
iterable `c` and was trained in each of its remaining phases on one pass over it, passed through the
nodes before it, the last phase being still open (or closed). Checkpoints may change their node, as long as
it stays a node that is finished or in its last phase. -/
theorem checkpoint_after_own_data (fl fl' : List (Nd σ α β)) (ds : List (Elem α β))
    (cs : List (Option (Checkpoint σ α β))) (r : Except Err Unit) (log : List (CpCall σ α β))
    (hfl : ∀ nd ∈ fl, Nice nd.K ∧ Reachable nd.K nd.s)
    (hcs : ∀ f, some f ∈ cs → ∀ n n', Ready n → f n = (.ok (), n') → Ready n')
    (h : CheckpointFlow.train fl (.list ds) (.list cs) = (r, fl', log)) :
    ∀ call ∈ log, ∃ nd nd', fl[call.index]? = some nd ∧ call.flow[call.index]? = some nd' ∧
      (nd.s.training = false → ts nd'.s = ts nd.s) ∧
      (nd.s.training = true → ∃ c t ws, ds[call.index]? = some (.it c) ∧
        (ws.length : Int) = remaining nd.K nd.s ∧
        (∀ j w, ws[j]? = some w → List.Forall₂ (Through (call.flow.take call.index)) (c j) w) ∧
        (ts nd'.s = ts nd.s ++ history t nd.s.phase.toNat ws ∨
         ts nd'.s ++ [.stop (nd.K.nPhases - 1) true] = ts nd.s ++ history t nd.s.phase.toNat ws)) := by
  have hinv : ∀ nd ∈ fl, Nice nd.K ∧ Inv nd.K nd.s := fun nd hn => ⟨(hfl nd hn).1, reachable_inv (hfl nd hn).1.sane (hfl nd hn).2⟩
  unfold CheckpointFlow.train at h
  split at h
  · cases h; simp
  · next l hl =>
    have hl' : l = ds := by
      simp only [checkIterables] at hl
      split at hl
      · cases hl
      · split at hl
        · cases hl
        · cases hl; rfl
    subst hl'
    split at h
    · cases h; simp
    · next cs' hcs' =>
      have : cs' = cs := by
        simp only [checkCheckpoints] at hcs'
        split at hcs'
        · cases hcs'
        · cases hcs'; rfl
      subst this
      have hmain : ∀ call ∈ (cpTrainFrom [] fl l cs').2.2, _ :=
        cpTrainFrom_trained [] fl l cs' _ _ _ (by simp) hinv hcs rfl
      have hlog : log = (cpTrainFrom [] fl l cs').2.2 := by
        split at h
        · next hh => cases h; rw [hh]
        · next hh => cases h; rw [hh]
      rw [hlog]
      intro call hc
      obtain ⟨i, nd, d, nd', e1, e2, e3, e4, -, e5, e6, e7⟩ := hmain call hc
      simp only [List.length_nil, Nat.zero_add] at e1 e4 e7
      subst e1
      have hndinv := (hinv nd (List.mem_of_getElem? e2)).2
      refine ⟨nd, nd', e2, e4, fun htr => (e6 htr).2, ?_⟩
      intro htr
      obtain ⟨c, t, ws, rfl, f1, f2, f3, f4⟩ := e7 htr
      refine ⟨c, t, ws, e3, f2, fun j w hj => (f3 j w hj).imp fun _ _ h => h.through, ?_⟩
      rcases f4 with ⟨-, f5⟩ | ⟨-, f5⟩
      · left; rw [f5, history_eq]
      · right
        have hk : nd.K.trainable = true := by
          by_contra hk
          have := (hndinv.ntr (by simpa using hk)).2.1
          rw [htr] at this; cases this
        have hlt := inv_training_phase hndinv hk htr
        have h0 := (hndinv.tr hk).1
        unfold remaining at f2
        rw [if_pos hk] at f2
        rw [f5, List.append_assoc, history_eq, ← openTrace_stop t _ ws]
        · congr 4
          omega
        · rintro rfl; simp at f2; omega

theorem cpTrainFrom_identity (pre rest : List (Nd σ α β)) (ds : List (Elem α β))
    (cs : List (Option (Checkpoint σ α β))) (hl : cs.length = rest.length)
    (hcs : ∀ f, some f ∈ cs → ∀ n, f n = (.ok (), n)) :
    ((cpTrainFrom pre rest ds cs).1, (cpTrainFrom pre rest ds cs).2.1) = trainFrom pre rest ds := by
  induction rest generalizing pre ds cs with
  | nil => rw [cpTrainFrom, trainFrom]
  | cons nd rest ih =>
    cases cs with
    | nil => simp at hl
    | cons c cs =>
      cases ds with
      | nil => rw [cpTrainFrom, trainFrom] <;> simp
      | cons d ds =>
        rw [cpTrainFrom, trainFrom]
        generalize trainNode pre nd d = R
        obtain ⟨r, pre1, nd1⟩ := R
        cases r with
        | error e => rfl
        | ok u =>
          cases u
          simp only
          cases c with
          | none => exact ih _ ds cs (by simpa using hl) fun f hf => hcs f (by simp [hf])
          | some f =>
            simp only [hcs f (by simp) nd1]
            exact ih _ ds cs (by simpa using hl) fun f hf => hcs f (by simp [hf])

/-- C17: with checkpoints that only look at the node, `CheckpointFlow.train` has exactly the outcome of
`Flow.train`. -/
theorem checkpoint_train_eq (fl : List (Nd σ α β)) (d : TrainArg α β) (cs : List (Option (Checkpoint σ α β)))
    (hl : cs.length = fl.length) (hcs : ∀ f, some f ∈ cs → ∀ n, f n = (.ok (), n)) :
    ((CheckpointFlow.train fl d (.list cs)).1, (CheckpointFlow.train fl d (.list cs)).2.1) = Flow.train fl d := by
  have hc : checkCheckpoints fl.length (.list cs) = .ok cs := by simp [checkCheckpoints, hl]
  unfold CheckpointFlow.train Flow.train
  rw [hc]
  split
  · rfl
  · next l _ =>
    simp only
    have := cpTrainFrom_identity [] fl l cs hl hcs
    rw [← this]
    generalize cpTrainFrom [] fl l cs = R
    obtain ⟨r, fl1, log⟩ := R
    cases r with
    | error e => rfl
    | ok u => cases u; rfl

/-- C17: one checkpoint stands for the same one after every node. -/
theorem checkpoint_single (fl : List (Nd σ α β)) (d : TrainArg α β) (c : Option (Checkpoint σ α β)) :
    CheckpointFlow.train fl d (.one c) = CheckpointFlow.train fl d (.list (List.replicate fl.length c)) := by
  unfold CheckpointFlow.train checkCheckpoints
  simp

/-- A run with two checkpoints: one closes the node's training, one leaves the node alone. -/
example : let f : Checkpoint Nat Nat Unit := fun n => (.ok (), n)
    let g : Checkpoint Nat Nat Unit := fun n => ((stopTraining n.K n.s).1, ⟨n.K, (stopTraining n.K n.s).2⟩)
    (CheckpointFlow.train [addNode 1, idNode] (.list [exIt, .none]) (.list [some g, some f])).1 = .ok () ∧
    (CheckpointFlow.train [addNode 1, idNode] (.list [exIt, .none]) (.list [some g, some f])).2.2.map (·.index) = [0, 1] := by
  intro f g
  have h : cpTrainFrom [] [addNode 1, idNode] [exIt, .none] [some g, some f] =
      (.ok (), [(g add1).2, idNode], [⟨0, [add1, idNode]⟩, ⟨1, [(g add1).2, idNode]⟩]) := by
    rw [cpTrainFrom, train_add1]
    rfl
  have h1 : checkIterables 2 (.list [exIt, .none] : TrainArg Nat Unit) = .ok [exIt, .none] := rfl
  have h2 : checkCheckpoints 2 (.list [some g, some f]) = .ok [some g, some f] := rfl
  unfold CheckpointFlow.train
  simp only [List.length_cons, List.length_nil]
  rw [h1]
  simp only
  rw [h2]
  simp only
  rw [h]
  exact ⟨rfl, rfl⟩

/-- Closing the training is a change of the node allowed in `checkpoint_after_own_data`. -/
example : ∀ n n' : Nd σ α β, Ready n →
    (fun n : Nd σ α β => ((stopTraining n.K n.s).1, (⟨n.K, (stopTraining n.K n.s).2⟩ : Nd σ α β))) n = (.ok (), n') → Ready n' := by
  intro n n' hr h
  simp only [Prod.mk.injEq] at h
  obtain ⟨h1, rfl⟩ := h
  have hs : stopTraining n.K n.s = (.ok (), (stopTraining n.K n.s).2) := Prod.ext h1 rfl
  obtain ⟨e1, e2, e3⟩ := stop_ok_trace n.K n.s _ hs
  have hi := stop_inv n.K n.s hr.inv
  have h0 := stop_cases n.K n.s
  have htr : n.s.training = true := by
    rcases h0 with ⟨e, he⟩ | ⟨htr, -⟩
    · rw [he] at h1; cases h1
    · exact htr
  obtain ⟨l1, l2, l3⟩ := hr.last htr
  have hpos := hr.nice.sane l2
  refine ⟨hr.nice, hi, ?_, ?_⟩
  · rintro ⟨h2, -⟩
    have h2 : (stopTraining n.K n.s).2.phase = 0 := h2
    omega
  · intro h2
    have := (hi.tr l2).2.2.1.1 h2
    omega

/-! ## C18 -/

/-- C18: something that is neither an array nor a list, a list of the wrong length or with an entry that is
not iterable is refused with a FlowException before any node changes. -/
theorem bad_train_argument (fl : List (Nd σ α β)) (d : TrainArg α β)
    (h : d = .other ∨ ∃ l, d = .list l ∧ (l.length ≠ fl.length ∨ Elem.notIterable ∈ l)) :
    Flow.train fl d = (.error .flow, fl) ∧
    ∀ c, CheckpointFlow.train fl d c = (.error .flow, fl, []) := by
  have hc : checkIterables fl.length d = .error .flow := by
    rcases h with rfl | ⟨l, rfl, hl⟩
    · rfl
    · simp only [checkIterables]
      split
      · rfl
      · next hall =>
        rcases hl with hl | hl
        · rw [if_pos hl]
        · simp only [List.all_eq_true, Bool.not_eq_false] at hall
          have := hall _ hl
          cases this
  unfold Flow.train CheckpointFlow.train
  rw [hc]
  exact ⟨rfl, fun _ => rfl⟩

/-- C18: a checkpoint list of the wrong length is refused before any node changes or checkpoint is called. -/
theorem bad_checkpoints (fl : List (Nd σ α β)) (d : TrainArg α β) (cs : List (Option (Checkpoint σ α β)))
    (h : cs.length ≠ fl.length) : CheckpointFlow.train fl d (.list cs) = (.error .flow, fl, []) := by
  unfold CheckpointFlow.train
  split
  · next e hc =>
    have : e = .flow := by
      unfold checkIterables at hc
      split at hc
      · cases hc
      · cases hc; rfl
      · split at hc
        · cases hc; rfl
        · split at hc <;> cases hc
          rfl
    rw [this]
  · simp [checkCheckpoints, h]

/-- C18: arguments of the right shape are not refused: the nodes are trained. -/
theorem good_train_argument (fl : List (Nd σ α β)) (l : List (Elem α β)) (h : l.length = fl.length)
    (h' : Elem.notIterable ∉ l) : checkIterables fl.length (.list l) = .ok l := by
  unfold checkIterables
  have : l.all Elem.iterable = true := by
    rw [List.all_eq_true]
    intro e he
    cases e with
    | notIterable => exact absurd he h'
    | none => rfl
    | it c => rfl
  simp [this, h]

example : Flow.train [addNode 1, addNode 2] (.list [exIt]) = (.error .flow, [addNode 1, addNode 2]) :=
  (bad_train_argument _ _ (.inr ⟨_, rfl, .inl (by simp)⟩)).1

end Mdp.Flow
