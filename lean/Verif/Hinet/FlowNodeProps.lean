import Verif.Hinet.FlowNodeTrain
import Verif.Node.Replay
import Verif.Flow.NodeRel

/-! # Properties of `FlowNode` (C19) -/

namespace Mdp.FlowNode

open Py Mdp.Node Mdp.Flow Mdp.Layer

variable {σ α β : Type}

theorem setDtypes_reach (t : Nat) (ns : List (Nd σ α β)) (h : ∀ nd ∈ ns, Reachable nd.K nd.s) :
    ∀ nd ∈ (setDtypes t ns).2, Reachable nd.K nd.s := by
  induction ns with
  | nil => simpa [setDtypes] using h
  | cons m r ih =>
    simp only [setDtypes]
    have h1 : Reachable m.K (setDtype m.K (some t) m.s).2 := reachable_call m.K m.s (.setDtype (some t)) (h m (by simp))
    split
    · next e s heq =>
      rw [heq] at h1
      intro nd hnd
      rcases List.mem_cons.1 hnd with rfl | hnd
      · exact h1
      · exact h nd (by simp [hnd])
    · next s heq =>
      rw [heq] at h1
      intro nd hnd
      rcases List.mem_cons.1 hnd with rfl | hnd
      · exact h1
      · exact ih (fun nd hnd => h nd (by simp [hnd])) nd hnd

theorem flowInit_facts (nodes : List (Nd σ α β)) (dtype : Option Nat) (L : Nd (List (Nd σ α β)) α β)
    (h : flowInit nodes dtype = .ok L) : L.K = flowKind nodes ∧ Inv L.K L.s ∧
      L.s.started = false ∧ L.s.training = (flowKind nodes).trainable ∧
      L.s.phase = (if (flowKind nodes).trainable then 0 else -1) ∧
      SoftL nodes L.s.st ∧ (L.s.dtype = none ∨ ∃ t, ∀ nd ∈ L.s.st, nd.s.dtype = some t) ∧
      ((∀ nd ∈ nodes, Reachable nd.K nd.s) → ∀ nd ∈ L.s.st, Reachable nd.K nd.s) := by
  unfold flowInit at h
  split at h
  · next nd r last hl =>
    generalize dtype.or last.s.dtype = t at h
    split at h
    · cases h
    · split at h
      · cases h
      · next s hs =>
        have hsane : (flowKind (nd :: r)).trainable = true → 0 < (flowKind (nd :: r)).nPhases := by
          intro e
          simp only [flowKind, Bool.not_eq_true'] at e ⊢
          exact List.length_pos_iff.2 (by intro hh; rw [hh] at e; simp at e)
        have hst := congrArg (fun r => r.2.st) hs
        simp only [init_st] at hst
        have f1 : s.phase = (if (flowKind (nd :: r)).trainable then 0 else -1) ∧
            s.training = (flowKind (nd :: r)).trainable ∧ s.started = false := by
          have := init_soft (flowKind (nd :: r)) nd.s.inputDim last.s.outputDim t
            (setDtypes? t (nd :: r)).2
          rw [hs] at this; exact this
        have f4 : Inv (flowKind (nd :: r)) s := by
          have := init_inv (flowKind (nd :: r)) hsane nd.s.inputDim last.s.outputDim t
            (setDtypes? t (nd :: r)).2
          rw [hs] at this; exact this
        obtain ⟨f1, f2, f3⟩ := f1
        split at h
        · cases h
        · next hok =>
          cases h
          refine ⟨rfl, f4, f3, f2, f1, ?_⟩
          simp only [← hst]
          cases t with
          | none =>
            refine ⟨SoftL.refl _, .inl ?_, fun hr => hr⟩
            have : ∀ i o st, (init (flowKind (nd :: r)) i o none st).2.dtype = none := by
              intro i o st
              unfold init
              have : M.Moves (fun s t : St (List (Nd σ α β)) α β => s.dtype = none → t.dtype = none)
                  (do setInputDim (flowKind (nd :: r)) i; setOutputDim (flowKind (nd :: r)) o;
                      setDtype (flowKind (nd :: r)) none) := by
                have p : M.Pre (fun s t : St (List (Nd σ α β)) α β => s.dtype = none → t.dtype = none) :=
                  ⟨fun _ h => h, fun h h' e => h' (h e)⟩
                refine .bind p ?_ fun _ => .bind p ?_ fun _ => ?_
                · intro s; unfold setInputDim setInputDimRaw; repeat' split
                  all_goals exact fun h => h
                · intro s; unfold setOutputDim setOutputDimRaw; repeat' split
                  all_goals exact fun h => h
                · intro s h; exact h
              exact this _ rfl
            have := this nd.s.inputDim last.s.outputDim (setDtypes? none (nd :: r)).2
            rw [hs] at this; exact this
          | some t =>
            simp only [setDtypes?] at hok ⊢
            have hd : setDtypes t (nd :: r) = (.ok (), (setDtypes t (nd :: r)).2) := Prod.ext hok rfl
            refine ⟨QuietL.softL (setDtypes_quiet t _ _ hd), .inr ⟨t, ?_⟩, setDtypes_reach t _⟩
            obtain ⟨g1, g2⟩ := setDtypes_get t _ _ hd
            intro n hn
            obtain ⟨i, hi⟩ := List.mem_iff_getElem?.1 hn
            have hlt : i < (nd :: r).length := by
              rw [← g1]; exact (List.getElem?_eq_some_iff.1 hi).1
            obtain ⟨s1, k1, _, k3⟩ := g2 i _ (List.getElem?_eq_getElem hlt)
            rw [hi] at k1
            cases k1
            exact k3
  · cases h

/-- C19, first half: a new flow node has as many training phases as its internal nodes together still have to
go through, and it is in training exactly when there are any. -/
theorem flownode_phase_count (nodes : List (Nd σ α β)) (dtype : Option Nat) (L : Nd (List (Nd σ α β)) α β)
    (h : flowInit nodes dtype = .ok L) :
    left L = (nodes.map left).sum ∧ (L.s.training = true ↔ 0 < (nodes.map left).sum) := by
  obtain ⟨hK, -, -, h1, h2, -⟩ := flowInit_facts nodes dtype L h
  have hl := phaseSeq_length 0 nodes
  have htr : (flowKind nodes).trainable = true ↔ 0 < (nodes.map left).sum := by
    rw [← hl]
    simp only [flowKind, Bool.not_eq_true', List.isEmpty_eq_false_iff, List.length_pos_iff]
  refine ⟨?_, by rw [h1]; exact htr⟩
  rw [left_eq, hK, h2]
  by_cases hk : (flowKind nodes).trainable = true
  · rw [if_pos hk, if_pos hk]
    simp only [flowKind, hl]
    omega
  · rw [if_neg hk]
    have := mt htr.2 hk
    omega

theorem runPhases_phase {σ : Type} (K : Kind σ α β) (hK : Sane K) (ws : List (List (Arr α × List β))) (s s' : St σ α β)
    (hi : Inv K s) (h : runPhases K ws s = (.ok (), s')) : Inv K s' ∧ s'.phase = s.phase + ws.length := by
  have htrain : ∀ (cs : List (Arr α × List β)) (s s' : St σ α β), Inv K s → trainOn K cs s = (.ok (), s') →
      Inv K s' ∧ s'.phase = s.phase := by
    intro cs
    induction cs with
    | nil => intro s s' hi h; cases h; exact ⟨hi, rfl⟩
    | cons c r ih =>
      intro s s' hi h
      obtain ⟨_, s1, h1, h⟩ := M.bind_eq_ok h
      have h2 := train_inv K hK c.1 c.2 s hi
      rw [h1] at h2
      have h3 := (train_ok_trace _ _ _ _ _ h1).2.1
      obtain ⟨h4, h5⟩ := ih s1 s' h2 h
      exact ⟨h4, h5.trans h3⟩
  induction ws generalizing s with
  | nil => cases h; exact ⟨hi, by simp⟩
  | cons w r ih =>
    obtain ⟨_, s1, h1, h⟩ := M.bind_eq_ok h
    obtain ⟨_, s2, h2, h⟩ := M.bind_eq_ok h
    obtain ⟨a1, a2⟩ := htrain w s s1 hi h1
    have b1 := stop_inv K s1 a1
    rw [h2] at b1
    have b2 := (stop_ok_trace _ _ _ h2).2.1
    obtain ⟨c1, c2⟩ := ih s2 b1 h
    exact ⟨c1, by rw [c2, b2, a2, List.length_cons]; push_cast; omega⟩

/-- All that is needed below about a flow node that went through its training. -/
theorem flownode_train_aux (nodes : List (Nd σ α β)) (hn : ∀ nd ∈ nodes, Nice nd.K ∧ Reachable nd.K nd.s)
    (dtype : Option Nat) (L : Nd (List (Nd σ α β)) α β) (hL : flowInit nodes dtype = .ok L)
    (ws : List (List (Arr α × List β))) (hw : ws.length = (nodes.map left).sum)
    (s' : St (List (Nd σ α β)) α β) (h : runPhases L.K ws L.s = (.ok (), s')) :
    s'.training = false ∧ s'.st.length = nodes.length ∧
    ∀ (i : Nat) (nd : Nd σ α β), nodes[i]? = some nd → ∃ (nd' : Nd σ α β) (t : Nat) (vs : List (List (Arr α × List β))),
      s'.st[i]? = some nd' ∧ nd'.K = nd.K ∧ Closed nd' ∧ (0 < left nd → nd'.s.dtype = some t) ∧
      (0 < left nd → ∀ n ∈ s'.st.take i, Stable n.s) ∧
      List.Forall₂ (List.Forall₂ (Proc (s'.st.take i))) ((ws.drop (phasesBefore nodes i)).take (left nd)) vs ∧
      ts nd'.s = ts nd.s ++ history t nd.s.phase.toNat vs := by
  obtain ⟨hK, hi, h1, h2, h3, h4, -, -⟩ := flowInit_facts nodes dtype L hL
  have hn' : ∀ nd ∈ nodes, Nice nd.K ∧ Inv nd.K nd.s := fun nd hnd => ⟨(hn nd hnd).1, reachable_inv (hn nd hnd).1.sane (hn nd hnd).2⟩
  rw [hK] at h hi
  have hl := phaseSeq_length 0 nodes
  have hsane : Sane (flowKind nodes) := by
    intro e
    simp only [flowKind, Bool.not_eq_true'] at e ⊢
    exact List.length_pos_iff.2 (by intro hh; rw [hh] at e; simp at e)
  obtain ⟨pre', rest', a1, a2, a3, a4⟩ := runPhases_flow nodes [] nodes [] L.s.st L.s s' ws rfl h4 rfl
    (by
      rw [h3]
      by_cases hk : (flowKind nodes).trainable = true
      · left; rw [if_pos hk]; rfl
      · right; simpa [flowKind] using hk)
    h1 (by simp) hn' (by rw [hw]; exact hl.symm) h
  cases a2
  rw [List.nil_append] at a1
  obtain ⟨b1, b2⟩ := runPhases_phase (flowKind nodes) hsane ws L.s s' hi h
  refine ⟨?_, by rw [a1, a3], fun i nd hnd => ?_⟩
  · by_cases hk : (flowKind nodes).trainable = true
    · have := (b1.tr hk).2.2.1
      by_contra e
      have := this.1 (by simpa using e)
      rw [b2, h3, if_pos hk] at this
      have hnp : (flowKind nodes).nPhases = (phaseSeq 0 nodes).length := rfl
      omega
    · exact (b1.ntr (by simpa using hk)).2.1
  · obtain ⟨nd', c1, c2, c3, -, t, vs, c4, c5, c6, c7⟩ := a4 i nd hnd
    rw [List.nil_append] at c5 c6
    rw [a1]
    exact ⟨nd', t, vs, c1, c2, c3, c4, c5, c6, by rw [history_eq]; exact c7⟩

/-- C19, second half. Go through all training phases of a new flow node (training on the chunks of each phase
and closing it, none of the calls raising). Then the flow node and all internal nodes are trained, and every
internal node went through its remaining phases on its own share of the data: the phases that follow those of
the nodes before it. In each phase its hooks saw exactly the chunks of that phase, in order, passed through the nodes
before it **as they are after training**; and every phase was closed. (For `Flow.train` the corresponding
statement is `Mdp.Flow.train_spec_partial`.) -/
theorem flownode_train (nodes : List (Nd σ α β)) (hn : ∀ nd ∈ nodes, Nice nd.K ∧ Reachable nd.K nd.s)
    (dtype : Option Nat) (L : Nd (List (Nd σ α β)) α β) (hL : flowInit nodes dtype = .ok L)
    (ws : List (List (Arr α × List β))) (hw : ws.length = (nodes.map left).sum)
    (s' : St (List (Nd σ α β)) α β) (h : runPhases L.K ws L.s = (.ok (), s')) :
    s'.training = false ∧ s'.st.length = nodes.length ∧
    ∀ (i : Nat) (nd : Nd σ α β), nodes[i]? = some nd → ∃ (nd' : Nd σ α β) (t : Nat) (vs : List (List (Arr α × List β))),
      s'.st[i]? = some nd' ∧ nd'.K = nd.K ∧ nd'.s.training = false ∧ (0 < left nd → nd'.s.dtype = some t) ∧
      List.Forall₂ (List.Forall₂ (Through (s'.st.take i)))
        ((ws.drop ((nodes.take i).map left).sum).take (left nd)) vs ∧
      ts nd'.s = ts nd.s ++ history t nd.s.phase.toNat vs := by
  obtain ⟨h1, h2, h3⟩ := flownode_train_aux nodes hn dtype L hL ws hw s' h
  refine ⟨h1, h2, fun i nd hnd => ?_⟩
  obtain ⟨nd', t, vs, a1, a2, a3, a4, -, a5, a6⟩ := h3 i nd hnd
  exact ⟨nd', t, vs, a1, a2, a3.tr, a4, a5.imp fun _ _ hh => hh.imp fun _ _ hp => hp.through, a6⟩

/-! ## The same state as after `Flow.train` -/

theorem replay_ts (K : Kind σ α β) (hp : PureExec K) (st : σ) (evs : List (Event α β))
    (h : ∀ e ∈ evs, isInv e = false) : replay K st evs = replay K st (evs.filter isTS) := by
  induction evs generalizing st with
  | nil => rfl
  | cons e r ih =>
    have ih := fun st => ih st fun e he => h e (by simp [he])
    cases e with
    | train p x args ok => rw [List.filter_cons_of_pos (by rfl), replay, replay, ih]
    | stop p ok => rw [List.filter_cons_of_pos (by rfl), replay, replay, ih]
    | exec x => simp [isTS, replay, ih, (hp st x).1]
    | inv y => have := h (.inv y) (by simp); simp [isInv] at this

/-- Private data is determined by the training history. -/
def Det (m n : Nd σ α β) : Prop :=
  n.K = m.K ∧ Rep m.K true m.s n.s ∧ Fwd m.s n.s ∧ (Sane m.K → Inv m.K m.s → Inv m.K n.s)

theorem det_rel : NodeRel (Det : Nd σ α β → Nd σ α β → Prop) where
  refl n := ⟨rfl, (rep_pre _ _).refl _, fwd_pre.refl _, fun _ h => h⟩
  trans := by
    rintro a b c ⟨h1, h2, h3, h4⟩ ⟨g1, g2, g3, g4⟩
    rw [h1] at g2 g4
    exact ⟨g1.trans h1, (rep_pre _ _).trans h2 g2, fwd_pre.trans h3 g3, fun hs hi => g4 hs (h4 hs hi)⟩
  train n x args := ⟨rfl, train_rep _ _ _ _ _, train_fwd _ _ _ _, fun hs hi => train_inv _ hs _ _ _ hi⟩
  stop n := ⟨rfl, stop_rep _ _ _, stop_fwd _ _, fun _ hi => stop_inv _ _ hi⟩
  exec n x := ⟨rfl, execute_rep _ _ _ _, execute_fwd _ _ _, fun hs hi => execute_inv _ hs _ _ hi⟩

theorem det_soft {m n : Nd σ α β} (hK : n.K = m.K) (hs : Soft m.K m.s n.s) (hst : n.s.st = m.s.st) : Det m n :=
  ⟨hK, ⟨[], by rw [hs.trace]; simp, hst, by simp⟩, hs.fwd, fun _ hi => hs.inv hi⟩

theorem det_st {m n : Nd σ α β} (h : Det m n) (hp : PureExec m.K) :
    ∃ l, ts n.s = ts m.s ++ l ∧ n.s.st = replay m.K m.s.st l := by
  obtain ⟨-, ⟨evs, h1, h2, h3⟩, -, -⟩ := h
  refine ⟨evs.filter isTS, by unfold ts; rw [h1, List.filter_append], ?_⟩
  rw [h2, replay_ts m.K hp _ _ (h3 rfl)]

theorem det_set {nd : Nd σ α β} {r : Type} (m : NodeM σ α β r) (h1 : M.Moves (Soft nd.K) m) (h2 : M.Moves SameSt m) :
    Det nd ⟨nd.K, (m nd.s).2⟩ := det_soft rfl (h1 nd.s) (h2 nd.s)

theorem setDtypes_det (t : Nat) (ns : List (Nd σ α β)) : List.Forall₂ Det ns (setDtypes t ns).2 := by
  induction ns with
  | nil => exact .nil
  | cons nd r ih =>
    have h := det_set (nd := nd) _ (setDtype_soft nd.K (some t)) (setDtype_st nd.K (some t))
    unfold setDtypes
    split
    · next e s heq => rw [heq] at h; exact .cons h (det_rel.reflL r)
    · next s heq => rw [heq] at h; exact .cons h ih

theorem prep_det (x : Arr α) (fl : List (Nd σ α β)) : List.Forall₂ Det fl (prep x fl).2 := by
  cases fl with
  | nil => exact .nil
  | cons nd r =>
    have h := det_set (nd := nd) _ (setInputDim_soft nd.K (some x.cols)) (setInputDim_st nd.K (some x.cols))
    simp only [prep]
    split
    · next e s heq => rw [heq] at h; exact .cons h (det_rel.reflL r)
    · next s heq =>
      rw [heq] at h
      have h1 : List.Forall₂ Det (nd :: r) (⟨nd.K, s⟩ :: r) := .cons h (det_rel.reflL r)
      split
      · exact h1
      · exact det_rel.transL h1 (setDtypes_det _ _)

theorem trainAt_det (i : Nat) (x : Arr α) (args : List β) (fl : List (Nd σ α β)) :
    List.Forall₂ Det fl (trainAt i x args fl).2 := by
  unfold trainAt
  split
  · exact det_rel.reflL _
  · next nd post hd =>
    have hfl : fl = fl.take i ++ nd :: post := by rw [← hd]; exact (List.take_append_drop i fl).symm
    have h1 := det_rel.execSeq 0 i (fl.take i) x
    split
    · next e pre heq =>
      rw [heq] at h1
      conv => arg 2; rw [hfl]
      exact forall₂_append h1 (det_rel.reflL _)
    · next v pre heq =>
      rw [heq] at h1
      conv => arg 2; rw [hfl]
      exact forall₂_append h1 (.cons (det_rel.train nd v args) (det_rel.reflL _))

theorem stopAt_det (i : Nat) (fl : List (Nd σ α β)) : List.Forall₂ Det fl (stopAt i fl).2 := by
  unfold stopAt
  split
  · exact det_rel.reflL _
  · next nd post hd =>
    have hfl : fl = fl.take i ++ nd :: post := by rw [← hd]; exact (List.take_append_drop i fl).symm
    conv => arg 2; rw [hfl]
    exact forall₂_append (det_rel.reflL _) (.cons (det_rel.stop nd) (det_rel.reflL _))

theorem fixInputs_det (o : Option Nat) (fl : List (Nd σ α β)) : List.Forall₂ Det fl (fixInputs o fl).2 := by
  induction fl generalizing o with
  | nil => exact .nil
  | cons nd r ih =>
    have h : Det nd ⟨nd.K, (if nd.s.inputDim = none then setInputDim nd.K o nd.s else (.ok (), nd.s)).2⟩ := by
      split
      · exact det_set (nd := nd) _ (setInputDim_soft nd.K o) (setInputDim_st nd.K o)
      · exact det_rel.refl nd
    unfold fixInputs
    split
    · next e s heq => rw [heq] at h; exact .cons h (det_rel.reflL r)
    · next s heq => rw [heq] at h; exact .cons h (ih _)

theorem fixNodes_det (fl : List (Nd σ α β)) : List.Forall₂ Det fl (fixNodes fl).2 := by
  cases fl with
  | nil => exact .nil
  | cons nd r =>
    have h := fixInputs_det nd.s.outputDim r
    simp only [fixNodes]
    split
    · next e s heq => rw [heq] at h; exact .cons (det_rel.refl nd) h
    · next s heq => rw [heq] at h; exact .cons (det_rel.refl nd) h

theorem trainHook_det (seq : List Nat) (p : Nat) (fl : List (Nd σ α β)) (x : Arr α) (args : List β) :
    List.Forall₂ Det fl (trainHook seq p fl x args).st := by
  have h := prep_det x fl
  unfold trainHook
  split
  · next e s heq => rw [heq] at h; exact h
  · next fl1 heq =>
    rw [heq] at h
    split
    · exact h
    · next i _ => exact det_rel.transL h (trainAt_det i x args fl1)

theorem stopHook_det (seq : List Nat) (p : Nat) (fl : List (Nd σ α β)) :
    List.Forall₂ Det fl (stopHook seq p fl).st := by
  unfold stopHook
  split
  · exact det_rel.reflL _
  · next i _ =>
    have h := stopAt_det i fl
    split
    · next e s heq => rw [heq] at h; exact h
    · next fl1 heq =>
      rw [heq] at h
      split
      · have h1 := fixNodes_det fl1
        split
        · next e s heq => rw [heq] at h1; exact det_rel.transL h h1
        · next s heq => rw [heq] at h1; exact det_rel.transL h h1
      · exact h

theorem runPhases_det (nodes : List (Nd σ α β)) (ws : List (List (Arr α × List β))) (s s' : St (List (Nd σ α β)) α β)
    (h : runPhases (flowKind nodes) ws s = (.ok (), s')) : List.Forall₂ Det s.st s'.st := by
  have htrain : ∀ (cs : List (Arr α × List β)) (s s' : St (List (Nd σ α β)) α β),
      trainOn (flowKind nodes) cs s = (.ok (), s') → List.Forall₂ Det s.st s'.st := by
    intro cs
    induction cs with
    | nil => intro s s' h; cases h; exact det_rel.reflL _
    | cons c r ih =>
      intro s s' h
      obtain ⟨_, s1, h1, h⟩ := M.bind_eq_ok h
      obtain ⟨t, h2, -⟩ := flow_train_ok nodes s s1 c.1 c.2 h1
      refine det_rel.transL ?_ (ih s1 s' h)
      rw [← h2]; exact trainHook_det _ _ _ _ _
  induction ws generalizing s with
  | nil => cases h; exact det_rel.reflL _
  | cons w r ih =>
    obtain ⟨_, s1, h1, h⟩ := M.bind_eq_ok h
    obtain ⟨_, s2, h2, h⟩ := M.bind_eq_ok h
    obtain ⟨h3, -⟩ := flow_stop_ok nodes s1 s2 h2
    refine det_rel.transL (htrain w s s1 h1) (det_rel.transL ?_ (ih s2 h))
    rw [← h3]; exact stopHook_det _ _ _

/-- Two trained nodes of the same class with the same private data and dtype compute the same. -/
theorem exec_agree (a b : Nd σ α β) (hK : b.K = a.K) (hst : b.s.st = a.s.st) (hdt : b.s.dtype = a.s.dtype)
    (ha : Stable a.s) (hn : Nice a.K) (hb : Closed b) (x y y' : Arr α) (h1 : (execute a.K x a.s).1 = .ok y)
    (h2 : (execute b.K x b.s).1 = .ok y') : y' = y := by
  have e1 := execute_stable a.K a.s ha x (hn.pureExec a.s.st)
  rw [e1] at h1
  split at h1
  · obtain ⟨t, ht⟩ := Option.ne_none_iff_exists'.1 ha.dt
    generalize hR : execute b.K x b.s = R at h2
    obtain ⟨res, s2⟩ := R
    simp only at h2
    subst h2
    obtain ⟨c1, c2, c3, c4, c5, c6⟩ := execute_ok_stable b.K hb.ready.nice.sane hb.ready.nice.pureExec x y' b.s s2
      hb.ready.inv hR
    have hdet : Det b ⟨b.K, s2⟩ := by
      have := det_rel.exec b x
      rw [hR] at this; exact this
    have hs2 : s2.st = b.s.st := by
      obtain ⟨l, k1, k2⟩ := det_st hdet hb.ready.nice.pureExec
      have hts : ts s2 = ts b.s := by
        obtain ⟨-, -, hl, -⟩ := execute_ready b hb.ready x y' s2 hR
        rcases hl.step with e | ⟨-, e⟩
        · rw [show s2 = b.s from e]
        · simpa [hb.tr] using e
      rw [show ts (⟨b.K, s2⟩ : Nd σ α β).s = ts s2 from rfl, hts] at k1
      have : l = [] := by
        have := congrArg List.length k1
        simpa using this
      rw [this] at k2
      exact k2
    have hd2 : s2.dtype = a.s.dtype := by
      rcases hdet.2.2.1.dt with e | e
      · rw [hdt, ht] at e; cases e
      · exact e.trans hdt
    rw [hs2, hst, hd2, hK] at c6
    rw [c6] at h1
    exact Except.ok.inj h1
  · cases h1

theorem execSeq_agree (A B : List (Nd σ α β)) (i : Nat) (x y y' : Arr α)
    (h : List.Forall₂ (fun a b => b.K = a.K ∧ b.s.st = a.s.st ∧ b.s.dtype = a.s.dtype ∧ Stable a.s ∧ Nice a.K ∧ Closed b) A B)
    (h1 : (execSeq i A.length A x).1 = .ok y) (h2 : (execSeq i B.length B x).1 = .ok y') : y' = y := by
  induction h generalizing i x with
  | nil => cases h1; cases h2; rfl
  | @cons a b r r' hab _ ih =>
    obtain ⟨g1, g2, g3, g4, g5, g6⟩ := hab
    simp only [List.length_cons, execSeq] at h1 h2
    generalize hR : execute a.K x a.s = R at h1
    obtain ⟨res, s1⟩ := R
    generalize hQ : execute b.K x b.s = Q at h2
    obtain ⟨res', s2⟩ := Q
    cases res with
    | error e => cases h1
    | ok v =>
      cases res' with
      | error e => cases h2
      | ok v' =>
        have := exec_agree a b g1 g2 g3 g4 g5 g6 x v v' (by rw [hR]) (by rw [hQ])
        subst this
        exact ih (i + 1) v' h1 h2

theorem closed_of_inv (nd : Nd σ α β) (hn : Nice nd.K) (hi : Inv nd.K nd.s) (htr : nd.s.training = false) : Closed nd := by
  refine ⟨⟨hn, hi, ?_, fun e => by rw [htr] at e; cases e⟩, htr⟩
  rintro ⟨h1, -⟩
  by_cases hk : nd.K.trainable = true
  · obtain ⟨-, h2, h3, -⟩ := hi.tr hk
    have := mt h3.2
    have hp := hn.sane hk
    have : ¬ nd.s.phase < nd.K.nPhases := by
      intro h; rw [h3.2 h] at htr; cases htr
    omega
  · have := (hi.ntr (by simpa using hk)).1
    omega

theorem forall₂_of_get {A B : Type} {R : A → B → Prop} (a : List A) (b : List B) (hl : a.length = b.length)
    (h : ∀ (i : Nat) (x : A) (y : B), a[i]? = some x → b[i]? = some y → R x y) : List.Forall₂ R a b := by
  induction a generalizing b with
  | nil => cases b with
    | nil => exact .nil
    | cons y r => simp at hl
  | cons x r ih => cases b with
    | nil => simp at hl
    | cons y r' => exact .cons (h 0 x y rfl rfl) (ih r' (by simpa using hl) fun i x y h1 h2 => h (i + 1) x y h1 h2)

theorem get_forall₂ {A B : Type} {R : A → B → Prop} {a : List A} {b : List B} (h : List.Forall₂ R a b) (i : Nat) (x : A)
    (y : B) (h1 : a[i]? = some x) (h2 : b[i]? = some y) : R x y := by
  induction h generalizing i with
  | nil => simp at h1
  | cons hab _ ih =>
    cases i with
    | zero => cases h1; cases h2; exact hab
    | succ i => exact ih i h1 h2

theorem flowInit_det (nodes : List (Nd σ α β)) (dtype : Option Nat) (L : Nd (List (Nd σ α β)) α β)
    (h : flowInit nodes dtype = .ok L) : List.Forall₂ Det nodes L.s.st := by
  unfold flowInit at h
  split at h
  · next nd r last hl =>
    generalize dtype.or last.s.dtype = t at h
    split at h
    · cases h
    · split at h
      · cases h
      · next s hs =>
        have hst := congrArg (fun r => r.2.st) hs
        simp only [init_st] at hst
        split at h
        · cases h
        · cases h
          simp only [← hst]
          cases t with
          | none => exact det_rel.reflL _
          | some t => exact setDtypes_det t _
  · cases h

/-- The nodes from position `i` on have no training left. -/
def NoneLeft (nodes : List (Nd σ α β)) (i : Nat) : Prop :=
  ∀ (j : Nat) (nd : Nd σ α β), i ≤ j → nodes[j]? = some nd → left nd = 0

/-- The result `b` that `Flow.train` leaves for a node compares to the result `a` that the flow node leaves: they have
the same training history and private data, or else `Flow.train` left the last phase open, and closing it gives
the same. -/
def SameResult (a b : Nd σ α β) : Prop :=
  b.K = a.K ∧ a.s.training = false ∧
  ((b.s.training = false ∧ ts b.s = ts a.s ∧ b.s.st = a.s.st) ∨
   (b.s.training = true ∧ ts b.s ++ [.stop (a.K.nPhases - 1) true] = ts a.s ∧
    (a.K.stopHook (a.K.nPhases - 1) b.s.st).st = a.s.st))

theorem replay_append (K : Kind σ α β) (st : σ) (l1 l2 : List (Event α β)) :
    replay K st (l1 ++ l2) = replay K (replay K st l1) l2 := by
  induction l1 generalizing st with
  | nil => rfl
  | cons e r ih => cases e <;> simp only [List.cons_append, replay, ih]

/-- C19, second half, by comparison with `Flow.train`: train a new flow node through all its phases, and train the
same flow with `Flow.train`, both successfully, such that each node gets the same chunks in each of its phases. If the
dtypes of the trained nodes agree (those that a later or the same training needed), every internal node ends up with the
same training history and private data; the only difference is that `Flow.train` may leave the last phase of the
last trainable node open. -/
theorem flownode_same_as_flow (nodes : List (Nd σ α β)) (hn : ∀ nd ∈ nodes, Nice nd.K ∧ Reachable nd.K nd.s)
    (dtype : Option Nat) (L : Nd (List (Nd σ α β)) α β) (hL : flowInit nodes dtype = .ok L)
    (ws : List (List (Arr α × List β))) (hw : ws.length = (nodes.map left).sum)
    (s' : St (List (Nd σ α β)) α β) (h : runPhases L.K ws L.s = (.ok (), s'))
    (ds : List (Elem α β)) (fl' : List (Nd σ α β)) (h' : Flow.train nodes (.list ds) = (.ok (), fl'))
    (hdata : ∀ (i : Nat) (nd : Nd σ α β) (c : Chunks α β), nodes[i]? = some nd → ds[i]? = some (.it c) →
      ∀ j < left nd, ws[((nodes.take i).map left).sum + j]? = some (c j))
    (hdt : ∀ (i : Nat) (a b : Nd σ α β), s'.st[i]? = some a → fl'[i]? = some b → a.s.dtype = b.s.dtype ∨ NoneLeft nodes i) :
    s'.st.length = nodes.length ∧ List.Forall₂ SameResult s'.st fl' := by
  obtain ⟨a1, a2, a3⟩ := flownode_train_aux nodes hn dtype L hL ws hw s' h
  obtain ⟨b1, b2⟩ := train_spec_partial nodes fl' ds hn h'
  have hA : List.Forall₂ Det nodes s'.st := by
    rw [(flowInit_facts nodes dtype L hL).1] at h
    exact det_rel.transL (flowInit_det nodes dtype L hL) (runPhases_det nodes ws L.s s' h)
  have hB : List.Forall₂ Det nodes fl' := by
    have := det_rel.flowTrain nodes (.list ds)
    rw [h'] at this; exact this
  refine ⟨a2, forall₂_of_get _ _ (by rw [a2, b1]) ?_⟩
  intro i
  induction i using Nat.strongRecOn with
  | _ i ih =>
  intro a b ha hb
  have hilt : i < nodes.length := by rw [← a2]; exact (List.getElem?_eq_some_iff.1 ha).1
  obtain ⟨nd, hnd⟩ : ∃ nd, nodes[i]? = some nd := ⟨_, List.getElem?_eq_getElem hilt⟩
  have hnice := (hn nd (List.mem_of_getElem? hnd)).1
  have hinv := reachable_inv hnice.sane (hn nd (List.mem_of_getElem? hnd)).2
  obtain ⟨_, t, vs, c1, c2, c3, c4, c5, c6, c7⟩ := a3 i nd hnd
  rw [ha] at c1; cases c1
  obtain ⟨_, d1, d2, d3, d4, d5⟩ := b2 i nd hnd
  rw [hb] at d1; cases d1
  obtain ⟨la, e1, e2⟩ := det_st (get_forall₂ hA i nd a hnd ha) hnice.pureExec
  obtain ⟨lb, e3, e4⟩ := det_st (get_forall₂ hB i nd b hnd hb) hnice.pureExec
  refine ⟨d2.trans c2.symm, c3.tr, ?_⟩
  by_cases htr : nd.s.training = true
  · have hk : nd.K.trainable = true := by
      by_contra hk
      rw [(hinv.ntr (by simpa using hk)).2.1] at htr; cases htr
    have hlpos : 0 < left nd := by
      rw [left_eq, if_pos hk]
      have := (hinv.tr hk).2.2.1.1 htr
      omega
    obtain ⟨c, t', ws', f1, f2, f3, f4, f5⟩ := d4 htr
    have hnl : ∀ k ≤ i, ¬ NoneLeft nodes k := by
      intro k hk hh
      have := hh i nd hk hnd
      omega
    have hab : a.s.dtype = b.s.dtype := (hdt i a b ha hb).resolve_right (hnl i (le_refl _))
    have htt : t = t' := by
      rw [c4 hlpos, f2] at hab
      exact Option.some.inj hab
    subst htt
    have hlw : ws'.length = left nd := by unfold left; omega
    have hpre : List.Forall₂ (fun a b => b.K = a.K ∧ b.s.st = a.s.st ∧ b.s.dtype = a.s.dtype ∧ Stable a.s ∧
        Nice a.K ∧ Closed b) (s'.st.take i) (fl'.take i) := by
      refine forall₂_of_get _ _ (by simp [a2, b1]) fun j x y hx hy => ?_
      have hji : j < i := by
        have := (List.getElem?_eq_some_iff.1 hx).1
        rw [List.length_take] at this; omega
      rw [List.getElem?_take_of_lt hji] at hx hy
      have hjlt : j < nodes.length := by omega
      obtain ⟨nj, hnj⟩ : ∃ nj, nodes[j]? = some nj := ⟨_, List.getElem?_eq_getElem hjlt⟩
      have hnicej := (hn nj (List.mem_of_getElem? hnj)).1
      have hinvj := reachable_inv hnicej.sane (hn nj (List.mem_of_getElem? hnj)).2
      obtain ⟨g1, g2, g3⟩ := ih j hji x y hx hy
      obtain ⟨_, k1, k2, -, -, k5⟩ := b2 j nj hnj
      rw [hy] at k1; cases k1
      have hytr : y.s.training = false := k5 (.inr ⟨i, nd, hji, hnd, hk⟩)
      obtain ⟨-, g4, g5⟩ : y.s.training = false ∧ ts y.s = ts x.s ∧ y.s.st = x.s.st := by
        rcases g3 with g3 | g3
        · exact g3
        · rw [hytr] at g3; cases g3.1
      have hd := get_forall₂ hB j nj y hnj hy
      refine ⟨g1, g5, ((hdt j x y hx hy).resolve_right (hnl j (by omega))).symm, c5 hlpos x ?_, ?_, ?_⟩
      · exact List.mem_of_getElem? (i := j) (by rw [List.getElem?_take_of_lt hji]; exact hx)
      · rw [← g1, k2]; exact hnicej
      · refine closed_of_inv y (by rw [k2]; exact hnicej) ?_ hytr
        rw [k2]; exact hd.2.2.2 hnicej.sane hinvj
    have hsame : vs = ws' := by
      have hlv : vs.length = left nd := by
        rw [← c6.length_eq, List.length_take, List.length_drop]
        have := hdata i nd c hnd f1 (left nd - 1) (by omega)
        have := (List.getElem?_eq_some_iff.1 this).1
        have hp : phasesBefore nodes i = ((nodes.take i).map left).sum := rfl
        omega
      refine List.ext_getElem? fun j => ?_
      by_cases hj : j < left nd
      · obtain ⟨v, hv⟩ : ∃ v, vs[j]? = some v := ⟨_, List.getElem?_eq_getElem (by omega)⟩
        obtain ⟨w, hw'⟩ : ∃ w, ws'[j]? = some w := ⟨_, List.getElem?_eq_getElem (by omega)⟩
        rw [hv, hw']
        have hwj := hdata i nd c hnd f1 j hj
        have p1 : List.Forall₂ (Proc (s'.st.take i)) (c j) v :=
          get_forall₂ c6 j (c j) v (by
            rw [List.getElem?_take_of_lt hj, List.getElem?_drop]
            exact hwj) hv
        have p2 := f4 j w hw'
        have hvw : v = w := by
          refine List.ext_getElem? fun k => ?_
          have l1 := p1.length_eq
          have l2 := p2.length_eq
          by_cases hk : k < (c j).length
          · obtain ⟨x, hx⟩ : ∃ x, (c j)[k]? = some x := ⟨_, List.getElem?_eq_getElem hk⟩
            obtain ⟨y, hy⟩ : ∃ y, v[k]? = some y := ⟨_, List.getElem?_eq_getElem (by omega)⟩
            obtain ⟨z, hz⟩ : ∃ z, w[k]? = some z := ⟨_, List.getElem?_eq_getElem (by omega)⟩
            rw [hy, hz]
            have q1 := get_forall₂ p1 k x y hx hy
            have q2 := get_forall₂ p2 k x z hx hz
            have r1 := q1.2 _ (sameVis_refl _)
            have r2 := q2.2 (fun _ _ => 0)
            have r2 : (execSeq 0 (fl'.take i).length (fl'.take i) x.1).1 = .ok z.1 := by
              simpa [Flow.execute, overInput, execCount] using r2
            have := execSeq_agree _ _ 0 x.1 y.1 z.1 hpre r1 r2
            exact congrArg some (Prod.ext this.symm (q1.1.trans q2.1.symm))
          · rw [List.getElem?_eq_none (by omega), List.getElem?_eq_none (by omega)]
        rw [hvw]
      · rw [List.getElem?_eq_none (by omega), List.getElem?_eq_none (by omega)]
    subst hsame
    rcases f5 with ⟨g1, g2⟩ | ⟨g1, g2⟩
    · left
      have : ts b.s = ts a.s := g2.trans c7.symm
      refine ⟨g1, this, ?_⟩
      rw [e1, e3] at this
      rw [e2, e4, List.append_cancel_left this]
    · right
      rw [c2]
      have hh : ts b.s ++ [.stop (nd.K.nPhases - 1) true] = ts a.s := g2.trans c7.symm
      refine ⟨g1, hh, ?_⟩
      rw [e1, e3, List.append_assoc] at hh
      rw [e2, e4, ← List.append_cancel_left hh, replay_append]
      rfl
  · have htr : nd.s.training = false := by simpa using htr
    obtain ⟨g1, g2⟩ := d3 htr
    have hl0 : left nd = 0 := by
      rw [left_eq]
      split
      · next hk =>
        have := (hinv.tr hk).2.2.1
        have : ¬ nd.s.phase < nd.K.nPhases := by intro h; rw [this.2 h] at htr; cases htr
        omega
      · rfl
    rw [hl0, List.take_zero] at c6
    cases c6
    have : ts a.s = ts nd.s := by simpa [history] using c7
    left
    refine ⟨g1, g2.trans this.symm, ?_⟩
    rw [e1] at this
    rw [e3] at g2
    rw [e2, e4, List.append_right_eq_self.1 this, List.append_right_eq_self.1 g2]

/-- The comparison when all nodes of the flow have the same dtype from the start. -/
theorem flownode_same_as_flow_dtype (nodes : List (Nd σ α β)) (hn : ∀ nd ∈ nodes, Nice nd.K ∧ Reachable nd.K nd.s)
    (t : Nat) (ht : ∀ nd ∈ nodes, nd.s.dtype = some t)
    (L : Nd (List (Nd σ α β)) α β) (hL : flowInit nodes none = .ok L)
    (ws : List (List (Arr α × List β))) (hw : ws.length = (nodes.map left).sum)
    (s' : St (List (Nd σ α β)) α β) (h : runPhases L.K ws L.s = (.ok (), s'))
    (ds : List (Elem α β)) (fl' : List (Nd σ α β)) (h' : Flow.train nodes (.list ds) = (.ok (), fl'))
    (hdata : ∀ (i : Nat) (nd : Nd σ α β) (c : Chunks α β), nodes[i]? = some nd → ds[i]? = some (.it c) →
      ∀ j < left nd, ws[((nodes.take i).map left).sum + j]? = some (c j)) :
    List.Forall₂ SameResult s'.st fl' := by
  refine (flownode_same_as_flow nodes hn none L hL ws hw s' h ds fl' h' hdata ?_).2
  have hA : List.Forall₂ Det nodes s'.st := by
    rw [(flowInit_facts nodes none L hL).1] at h
    exact det_rel.transL (flowInit_det nodes none L hL) (runPhases_det nodes ws L.s s' h)
  have hB : List.Forall₂ Det nodes fl' := by
    have := det_rel.flowTrain nodes (.list ds)
    rw [h'] at this; exact this
  intro i a b ha hb
  have hilt : i < nodes.length := by rw [hA.length_eq]; exact (List.getElem?_eq_some_iff.1 ha).1
  obtain ⟨nd, hnd⟩ : ∃ nd, nodes[i]? = some nd := ⟨_, List.getElem?_eq_getElem hilt⟩
  have hd := ht nd (List.mem_of_getElem? hnd)
  have e1 := (get_forall₂ hA i nd a hnd ha).2.2.1.dt
  have e2 := (get_forall₂ hB i nd b hnd hb).2.2.1.dt
  rw [hd] at e1 e2
  exact .inl ((e1.resolve_left (by simp)).trans (e2.resolve_left (by simp)).symm)

/-! ### Examples -/

def exNodes : List (Nd Nat Nat Unit) := [addNode 1, addNode 2]

/-- A one-phase and a two-phase node: the flow node has three phases. -/
def exL : Nd (List (Nd Nat Nat Unit)) Nat Unit := ⟨flowKind exNodes, (init (flowKind exNodes) none none none exNodes).2⟩

def exWs : List (List (Arr Nat × List Unit)) := [exC 0, exC 0, exC 0]

example : flowInit exNodes none = .ok exL ∧ left exL = 3 ∧ (exNodes.map left).sum = 3 :=
  ⟨rfl, by decide +kernel, by decide +kernel⟩

theorem pair_of_fst {A B : Type} {p : A × B} {a : A} (h : p.1 = a) : p = (a, p.2) := by rw [← h]

theorem exRun : (runPhases exL.K exWs exL.s).1 = .ok () := by decide +kernel
theorem exRunDt : (runPhases exL.K exWs exL.s).2.st.map (·.s.dtype) = [some 1, some 1] := by decide +kernel
theorem exRunSt : (runPhases exL.K exWs exL.s).2.st.map (·.s.st) = [3, 6] := by decide +kernel

/-- The hypotheses of the theorems are met, and both ways the nodes end with the sums 3 and 6 they have learnt. -/
example : ∃ s' fl', (∀ nd ∈ exNodes, Nice nd.K ∧ Reachable nd.K nd.s) ∧ flowInit exNodes none = .ok exL ∧
    exWs.length = (exNodes.map left).sum ∧ runPhases exL.K exWs exL.s = (.ok (), s') ∧
    Flow.train exNodes (.list [exIt, exIt]) = (.ok (), fl') ∧
    (∀ (i : Nat) (nd : Nd Nat Nat Unit) (c : Chunks Nat Unit), exNodes[i]? = some nd → [exIt, exIt][i]? = some (.it c) →
      ∀ j < left nd, exWs[((exNodes.take i).map left).sum + j]? = some (c j)) ∧
    s'.st.map (·.s.dtype) = fl'.map (·.s.dtype) ∧
    s'.st.map (·.s.st) = [3, 6] ∧ fl'.map (·.s.st) = [3, 6] := by
  refine ⟨(runPhases exL.K exWs exL.s).2, [add1' 4, ⟨addKind 2, ⟨some 1, none, some 1, false, 2, false, 6,
    tr2 ++ [.stop 1 true]⟩⟩], ?_, rfl, by decide +kernel, pair_of_fst exRun, ?_, ?_,
    exRunDt, exRunSt, by decide +kernel⟩
  · intro nd hn
    rcases List.mem_cons.1 hn with rfl | hn
    · exact ⟨addKind_nice 1 (by omega), addNode_reachable 1⟩
    · rw [List.mem_singleton.1 hn]; exact ⟨addKind_nice 2 (by omega), addNode_reachable 2⟩
  · unfold exNodes
    rw [train_list _ _ rfl (by rfl)]
    rw [trainFrom, train_add1]
    simp only [List.nil_append]
    rw [trainFrom, train_add2]
    rfl
  · intro i nd c h1 h2 j hj
    have hi : i < 2 := (List.getElem?_eq_some_iff.1 h1).1
    match i, hi with
    | 0, _ =>
      cases h1
      have : j = 0 := by have : left (addNode 1) = 1 := by decide +kernel
                         omega
      subst this
      cases h2
      rfl
    | 1, _ =>
      cases h1
      have : j < 2 := by have : left (addNode 2) = 2 := by decide +kernel
                         omega
      cases h2
      match j, this with
      | 0, _ => rfl
      | 1, _ => rfl

end Mdp.FlowNode
