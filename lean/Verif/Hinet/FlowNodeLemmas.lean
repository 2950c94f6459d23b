import Verif.Hinet.FlowNode
import Verif.Hinet.LayerTrainProps

/-! # Training a flow node: lemmas -/

namespace Mdp.FlowNode

open Py Mdp.Node Mdp.Flow Mdp.Layer

variable {σ α β : Type}

/-- A node that needs no more training. -/
structure Closed (nd : Nd σ α β) : Prop where
  ready : Ready nd
  tr : nd.s.training = false

/-- What happens to a node after it was trained. -/
structure Keep (m n : Nd σ α β) : Prop where
  K : n.K = m.K
  hist : ts n.s = ts m.s
  closed : Closed n
  dt : m.s.dtype = none ∨ n.s.dtype = m.s.dtype
  same : Stable m.s → visible n.s = visible m.s

theorem Keep.refl {m : Nd σ α β} (h : Closed m) : Keep m m := ⟨rfl, rfl, h, .inr rfl, fun _ => rfl⟩

theorem Keep.trans {a b c : Nd σ α β} (h : Keep a b) (h' : Keep b c) : Keep a c := by
  refine ⟨h'.K.trans h.K, h'.hist.trans h.hist, h'.closed, ?_, fun hs => ?_⟩
  · rcases h.dt with h1 | h1
    · exact .inl h1
    · rcases h'.dt with h2 | h2
      · exact .inl (h1 ▸ h2)
      · exact .inr (h2.trans h1)
  · have h1 := h.same hs
    exact (h'.same (stable_visible h1.symm hs)).trans h1

abbrev KeepL (a b : List (Nd σ α β)) : Prop := List.Forall₂ Keep a b

theorem KeepL.refl {a : List (Nd σ α β)} (h : ∀ n ∈ a, Closed n) : KeepL a a := by
  induction a with
  | nil => exact .nil
  | cons n r ih => exact .cons (.refl (h n (by simp))) (ih fun m hm => h m (by simp [hm]))

theorem KeepL.trans {a b c : List (Nd σ α β)} (h : KeepL a b) (h' : KeepL b c) : KeepL a c := by
  induction h generalizing c with
  | nil => cases h'; exact .nil
  | cons h1 _ ih =>
    cases h' with
    | cons h2 h3 => exact .cons (h1.trans h2) (ih h3)

theorem KeepL.closed {a b : List (Nd σ α β)} (h : KeepL a b) : ∀ n ∈ b, Closed n := by
  induction h with
  | nil => simp
  | cons h1 _ ih =>
    intro n hn
    rcases List.mem_cons.1 hn with rfl | hn
    · exact h1.closed
    · exact ih n hn

theorem KeepL.sameVis {a b : List (Nd σ α β)} (h : KeepL a b) (hs : ∀ n ∈ a, Stable n.s) : SameVis a b := by
  induction h with
  | nil => exact .nil
  | cons h1 _ ih => exact .cons ⟨h1.K, h1.same (hs _ (by simp))⟩ (ih fun n hn => hs n (by simp [hn]))

theorem KeepL.stable {a b : List (Nd σ α β)} (h : KeepL a b) (hs : ∀ n ∈ a, Stable n.s) : ∀ n ∈ b, Stable n.s := by
  induction h with
  | nil => simp
  | cons h1 _ ih =>
    intro n hn
    rcases List.mem_cons.1 hn with rfl | hn
    · exact stable_visible (h1.same (hs _ (by simp))).symm (hs _ (by simp))
    · exact ih (fun n hn => hs n (by simp [hn])) n hn

/-- What happens to a node before it is trained. -/
def SoftNd (m n : Nd σ α β) : Prop := n.K = m.K ∧ Soft m.K m.s n.s

theorem SoftNd.refl (m : Nd σ α β) : SoftNd m m := ⟨rfl, Soft.refl _⟩

theorem SoftNd.trans {a b c : Nd σ α β} (h : SoftNd a b) (h' : SoftNd b c) : SoftNd a c :=
  ⟨h'.1.trans h.1, h.2.trans (h.1 ▸ h'.2)⟩

abbrev SoftL (a b : List (Nd σ α β)) : Prop := List.Forall₂ SoftNd a b

theorem SoftL.refl (a : List (Nd σ α β)) : SoftL a a := by
  induction a with
  | nil => exact .nil
  | cons n r ih => exact .cons (.refl n) ih

theorem SoftL.trans {a b c : List (Nd σ α β)} (h : SoftL a b) (h' : SoftL b c) : SoftL a c := by
  induction h generalizing c with
  | nil => cases h'; exact .nil
  | cons h1 _ ih =>
    cases h' with
    | cons h2 h3 => exact .cons (h1.trans h2) (ih h3)

/-- A setter call that does not touch a node whose dimensions and dtype are known. -/
structure Quiet (m n : Nd σ α β) : Prop where
  soft : SoftNd m n
  same : Stable m.s → n.s = m.s

theorem Quiet.refl (m : Nd σ α β) : Quiet m m := ⟨.refl m, fun _ => rfl⟩

theorem Quiet.trans {a b c : Nd σ α β} (h : Quiet a b) (h' : Quiet b c) : Quiet a c :=
  ⟨h.soft.trans h'.soft, fun hs => by
    have h1 := h.same hs
    exact (h'.same (h1 ▸ hs)).trans h1⟩

abbrev QuietL (a b : List (Nd σ α β)) : Prop := List.Forall₂ Quiet a b

theorem QuietL.refl (a : List (Nd σ α β)) : QuietL a a := by
  induction a with
  | nil => exact .nil
  | cons n r ih => exact .cons (.refl n) ih

theorem QuietL.trans {a b c : List (Nd σ α β)} (h : QuietL a b) (h' : QuietL b c) : QuietL a c := by
  induction h generalizing c with
  | nil => cases h'; exact .nil
  | cons h1 _ ih =>
    cases h' with
    | cons h2 h3 => exact .cons (h1.trans h2) (ih h3)

theorem QuietL.softL {a b : List (Nd σ α β)} (h : QuietL a b) : SoftL a b := h.imp fun _ _ h => h.soft

theorem Quiet.keep {m n : Nd σ α β} (h : Quiet m n) (hm : Closed m) : Keep m n := by
  obtain ⟨hK, hs⟩ := h.soft
  obtain ⟨nK, ns⟩ := n
  subst hK
  refine ⟨rfl, ts_soft hs, ⟨⟨hm.ready.nice, hs.inv hm.ready.inv, ?_, ?_⟩, hs.training.trans hm.tr⟩, hs.dt,
    fun hst => congrArg visible (h.same hst)⟩
  · have := hm.ready.touched
    rw [← hs.phase, ← hs.started] at this; exact this
  · intro e
    have := hs.training.trans hm.tr
    rw [show ns.training = true from e] at this; cases this

theorem QuietL.keep {a b : List (Nd σ α β)} (h : QuietL a b) (hm : ∀ n ∈ a, Closed n) : KeepL a b := by
  induction h with
  | nil => exact .nil
  | cons h1 _ ih => exact .cons (h1.keep (hm _ (by simp))) (ih fun n hn => hm n (by simp [hn]))

theorem setInputDim_quiet (nd : Nd σ α β) (n : Option Nat) (s : St σ α β)
    (h : setInputDim nd.K n nd.s = (.ok (), s)) : Quiet nd ⟨nd.K, s⟩ := by
  refine ⟨⟨rfl, ?_⟩, fun hs => ?_⟩
  · have := setInputDim_soft nd.K n nd.s
    rw [h] at this; exact this
  · unfold setInputDim at h
    cases n with
    | none => cases h; rfl
    | some n =>
      simp only at h
      split at h
      · cases h
      · next h1 =>
        have hin : nd.s.inputDim = some n := by
          by_contra e
          exact h1 ⟨hs.inp, e⟩
        unfold setInputDimRaw at h
        split at h
        · split at h
          · cases h
          · next h2 =>
            have hout : nd.s.outputDim = some n := by
              by_contra e
              exact h2 ⟨hs.out, e⟩
            cases h
            obtain ⟨K, s⟩ := nd
            cases s
            simp only at hin hout ⊢
            rw [hin, hout]
        · cases h
          obtain ⟨K, s⟩ := nd
          cases s
          simp only at hin ⊢
          rw [hin]

theorem setDtype_quiet (nd : Nd σ α β) (t : Nat) (s : St σ α β)
    (h : setDtype nd.K (some t) nd.s = (.ok (), s)) : Quiet nd ⟨nd.K, s⟩ := by
  refine ⟨⟨rfl, ?_⟩, fun hs => ?_⟩
  · have := setDtype_soft nd.K (some t) nd.s
    rw [h] at this; exact this
  · unfold setDtype at h
    simp only at h
    split at h
    · cases h
    · next h1 =>
      have hdt : nd.s.dtype = some t := by
        by_contra e
        exact h1 ⟨hs.dt, e⟩
      split at h
      · cases h
      · cases h
        show _ = nd.s
        rw [← hdt]

theorem setDtypes_quiet (t : Nat) (ns ns' : List (Nd σ α β)) (h : setDtypes t ns = (.ok (), ns')) : QuietL ns ns' := by
  induction ns generalizing ns' with
  | nil => cases h; exact .nil
  | cons m r ih =>
    simp only [setDtypes] at h
    generalize hR : setDtype m.K (some t) m.s = R at h
    obtain ⟨res, s⟩ := R
    cases res with
    | error e => cases h
    | ok u =>
      simp only at h
      generalize hQ : setDtypes t r = Q at h
      obtain ⟨res, r'⟩ := Q
      cases h
      exact .cons (setDtype_quiet m t s hR) (ih r' hQ)

theorem prep_quiet (x : Arr α) (fl fl' : List (Nd σ α β)) (h : prep x fl = (.ok (), fl')) :
    QuietL fl fl' ∧ ∀ nd ∈ fl', nd.s.dtype = some x.dtype := by
  cases fl with
  | nil => cases h
  | cons nd r =>
    simp only [prep] at h
    generalize hR : setInputDim nd.K (some x.cols) nd.s = R at h
    obtain ⟨res, s⟩ := R
    cases res with
    | error e => cases h
    | ok u =>
      simp only at h
      split at h
      · cases h
      · refine ⟨QuietL.trans (.cons (setInputDim_quiet nd _ s hR) (QuietL.refl r)) (setDtypes_quiet _ _ _ h), ?_⟩
        obtain ⟨g1, g2⟩ := setDtypes_get _ _ _ h
        intro n hn
        obtain ⟨i, hi⟩ := List.mem_iff_getElem?.1 hn
        have hlt : i < (⟨nd.K, s⟩ :: r : List (Nd σ α β)).length := by
          rw [← g1]; exact (List.getElem?_eq_some_iff.1 hi).1
        obtain ⟨s1, k1, _, k3⟩ := g2 i _ (List.getElem?_eq_getElem hlt)
        rw [hi] at k1
        cases k1
        exact k3

theorem fixInputs_quiet (o : Option Nat) (fl fl' : List (Nd σ α β)) (h : fixInputs o fl = (.ok (), fl')) :
    QuietL fl fl' := by
  induction fl generalizing o fl' with
  | nil => cases h; exact .nil
  | cons nd r ih =>
    simp only [fixInputs] at h
    generalize hR : (if nd.s.inputDim = none then setInputDim nd.K o nd.s else (.ok (), nd.s)) = R at h
    obtain ⟨res, s⟩ := R
    cases res with
    | error e => cases h
    | ok u =>
      simp only at h
      generalize hQ : fixInputs s.outputDim r = Q at h
      obtain ⟨res, r'⟩ := Q
      cases h
      refine .cons ?_ (ih _ r' hQ)
      split at hR
      · exact setInputDim_quiet nd o s hR
      · cases hR; exact .refl nd

theorem fixNodes_quiet (fl fl' : List (Nd σ α β)) (h : fixNodes fl = (.ok (), fl')) : QuietL fl fl' := by
  cases fl with
  | nil => cases h
  | cons nd r =>
    simp only [fixNodes] at h
    generalize hQ : fixInputs nd.s.outputDim r = Q at h
    obtain ⟨res, r'⟩ := Q
    cases res with
    | error e => cases h
    | ok u =>
      simp only at h
      obtain rfl : nd :: r' = fl' := (Prod.ext_iff.1 h).2
      exact .cons (.refl nd) (fixInputs_quiet _ _ _ hQ)

/-- Executing nodes that are trained. -/
theorem execSeq_closed (i : Nat) (l l' : List (Nd σ α β)) (x v : Arr α) (h : ∀ n ∈ l, Closed n)
    (he : execSeq i l.length l x = (.ok v, l')) :
    KeepL l l' ∧ (∀ n ∈ l', Stable n.s) ∧ ∀ i' g, SameVis l' g → (execSeq i' l.length g x).1 = .ok v := by
  obtain ⟨h1, h2, h3, h4⟩ := execSeq_ready i l l' x v (fun n hn => (h n hn).ready) he
  refine ⟨?_, h3, h4⟩
  clear he h4 h3
  unfold LaterL at h1
  induction h1 with
  | nil => exact .nil
  | @cons m n r r' hl _ ih =>
    refine .cons ?_ (ih (fun n hn => h n (by simp [hn])) (fun n hn => h2 n (by simp [hn])))
    have hm := h m (by simp)
    have hts : ts n.s = ts m.s ∧ n.s.training = false := by
      rcases hl.step with e | ⟨e1, e2⟩
      · rw [e]; exact ⟨rfl, hm.tr⟩
      · rw [e2, hm.tr]; simp [e1.training]
    exact ⟨hl.K, hts.1, ⟨h2 n (by simp), hts.2⟩, hl.dt, hl.same⟩

/-! ### One call of the train hook, one call of the stop hook -/

theorem split_forall₂ {R : Nd σ α β → Nd σ α β → Prop} {pre post fl : List (Nd σ α β)} {nd : Nd σ α β}
    (h : List.Forall₂ R (pre ++ nd :: post) fl) : ∃ pre1 nd1 post1, fl = pre1 ++ nd1 :: post1 ∧
      List.Forall₂ R pre pre1 ∧ R nd nd1 ∧ List.Forall₂ R post post1 := by
  obtain ⟨fl1, fl2, h1, h2, rfl⟩ : ∃ a b, List.Forall₂ R pre a ∧ List.Forall₂ R (nd :: post) b ∧ fl = a ++ b := by
    induction pre generalizing fl with
    | nil => exact ⟨[], fl, .nil, h, rfl⟩
    | cons m r ih =>
      rw [List.cons_append] at h
      cases h with
      | cons h1 h2 =>
        obtain ⟨a, b, k1, k2, rfl⟩ := ih h2
        exact ⟨_ :: a, b, .cons h1 k1, k2, rfl⟩
  cases h2 with
  | cons h2 h3 => exact ⟨fl1, _, _, rfl, h1, h2, h3⟩

theorem trainHook_ok (seq : List Nat) (p : Nat) (pre post fl' : List (Nd σ α β)) (nd : Nd σ α β)
    (x : Arr α) (args : List β) (hp : seq[p]? = some pre.length) (hc : ∀ n ∈ pre, Closed n)
    (hfl : (trainHook seq p (pre ++ nd :: post) x args).st = fl')
    (hres : (trainHook seq p (pre ++ nd :: post) x args).res = .ok ()) :
    ∃ pre1 nd0 v s1 post1, fl' = pre1 ++ ⟨nd.K, s1⟩ :: post1 ∧ KeepL pre pre1 ∧ (∀ n ∈ pre1, Stable n.s) ∧
      (∀ g, SameVis pre1 g → (execSeq 0 pre1.length g x).1 = .ok v) ∧ SoftNd nd nd0 ∧
      nd0.s.dtype = some x.dtype ∧ train nd.K v args nd0.s = (.ok (), s1) ∧ SoftL post post1 := by
  unfold trainHook at hfl hres
  generalize hR : prep x (pre ++ nd :: post) = R at hfl hres
  obtain ⟨res, fl1⟩ := R
  cases res with
  | error e => cases hres
  | ok u =>
    obtain ⟨hq, hdt⟩ := prep_quiet x _ _ hR
    obtain ⟨pre0, nd0, post0, rfl, q1, q2, q3⟩ := split_forall₂ hq
    have hlen : pre0.length = pre.length := q1.length_eq.symm
    have hK0 : nd0.K = nd.K := q2.soft.1
    simp only [hp, trainAt] at hfl hres
    rw [← hlen, List.drop_left, List.take_left] at hfl hres
    simp only at hfl hres
    have hc0 := QuietL.keep q1 hc
    generalize hE : execSeq 0 pre0.length pre0 x = E at hfl hres
    obtain ⟨res, pre1⟩ := E
    cases res with
    | error e => cases hres
    | ok v =>
      obtain ⟨k1, k2, k3⟩ := execSeq_closed 0 pre0 pre1 x v (KeepL.closed hc0) hE
      have hl1 : pre1.length = pre0.length := k1.length_eq.symm
      simp only at hfl hres
      refine ⟨pre1, nd0, v, (train nd0.K v args nd0.s).2, post0, ?_, KeepL.trans hc0 k1, k2, ?_, q2.soft, ?_, ?_, QuietL.softL q3⟩
      · rw [← hfl, hK0]
      · intro g hg; rw [hl1]; exact k3 0 g hg
      · exact hdt nd0 (by simp)
      · rw [← hK0]; exact Prod.ext hres rfl

theorem stopHook_ok (seq : List Nat) (p : Nat) (pre post fl' : List (Nd σ α β)) (nd : Nd σ α β)
    (hp : seq[p]? = some pre.length) (hc : ∀ n ∈ pre, Closed n)
    (hfl : (stopHook seq p (pre ++ nd :: post)).st = fl')
    (hres : (stopHook seq p (pre ++ nd :: post)).res = .ok ()) :
    ∃ pre1 s0 nd1 post1, fl' = pre1 ++ nd1 :: post1 ∧ KeepL pre pre1 ∧ 
      stopTraining nd.K nd.s = (.ok (), s0) ∧ SoftNd ⟨nd.K, s0⟩ nd1 ∧ SoftL post post1 := by
  unfold stopHook at hfl hres
  simp only [hp, stopAt, List.drop_left, List.take_left] at hfl hres
  generalize hE : stopTraining nd.K nd.s = E at hfl hres
  obtain ⟨res, s0⟩ := E
  cases res with
  | error e => cases hres
  | ok v =>
    simp only at hfl hres
    split at hfl
    · next hlast =>
      rw [if_pos hlast] at hres
      generalize hF : fixNodes (pre ++ ⟨nd.K, s0⟩ :: post) = F at hfl hres
      obtain ⟨res, fl2⟩ := F
      cases res with
      | error e => cases hres
      | ok v =>
        obtain ⟨pre1, nd1, post1, rfl, q1, q2, q3⟩ := split_forall₂ (fixNodes_quiet _ _ hF)
        exact ⟨pre1, s0, nd1, post1, hfl.symm, QuietL.keep q1 hc, rfl, q2.soft, QuietL.softL q3⟩
    · exact ⟨pre, s0, ⟨nd.K, s0⟩, post, hfl.symm, KeepL.refl hc, rfl, .refl _, SoftL.refl _⟩

/-! ### The flow node -/

theorem flow_train_ok (nodes : List (Nd σ α β)) (s s' : St (List (Nd σ α β)) α β) (x : Arr α) (args : List β)
    (h : train (flowKind nodes) x args s = (.ok (), s')) :
    ∃ t, (trainHook (phaseSeq 0 nodes) s.phase.toNat s.st (refcast (some t) x) args).st = s'.st ∧
      (trainHook (phaseSeq 0 nodes) s.phase.toNat s.st (refcast (some t) x) args).res = .ok () := by
  rcases train_cases (flowKind nodes) x args s with ⟨e, he, _⟩ | ⟨_, _, _, he⟩ |
    ⟨h1, h2, h3, h4, s1, s2, hs1, hwf, hst, _, hr, hs'⟩
  · rw [h] at he; cases he
  · rw [h] at he; cases he
  · rw [h] at hr hs'
    simp only at hr hs'
    have hst2 : s'.st = s2.st := by rw [hs']
    have hres := runHook_ok_res _ _ _ _ _ hr
    have hhst := runHook_st (flowKind nodes) ((flowKind nodes).trainHook s.phase.toNat s1.st (refcast s1.dtype x) args)
      { s1 with started := true }
    rw [hr, hst] at hhst
    rw [hst] at hres
    simp only at hhst
    obtain ⟨t, ht⟩ : ∃ t, s1.dtype = some t := Option.ne_none_iff_exists'.1 hwf.2.2.2
    rw [ht] at hres hhst
    exact ⟨t, by rw [hst2, hhst]; rfl, hres⟩

theorem flow_stop_ok (nodes : List (Nd σ α β)) (s s' : St (List (Nd σ α β)) α β)
    (h : stopTraining (flowKind nodes) s = (.ok (), s')) :
    (stopHook (phaseSeq 0 nodes) s.phase.toNat s.st).st = s'.st ∧
    (stopHook (phaseSeq 0 nodes) s.phase.toNat s.st).res = .ok () := by
  rcases stop_cases (flowKind nodes) s with ⟨e, he⟩ | ⟨_, _, _, _, s2, hs, ⟨e, _, he⟩ | ⟨hr, he⟩⟩
  · rw [h] at he; cases he
  · rw [h] at he; cases he
  · rw [h] at he
    have hst2 : s'.st = s2.st := by cases he; rfl
    have hres := runHook_ok_res _ _ _ _ _ hr
    have hhst := runHook_st (flowKind nodes) ((flowKind nodes).stopHook s.phase.toNat s.st) s
    rw [hr] at hhst
    simp only at hhst
    exact ⟨by rw [hst2, hhst]; rfl, hres⟩

/-- `Proc` does not care about the dtype of the chunk as long as some node casts it. -/
theorem proc_cast {P : List (Nd σ α β)} (hs : ∀ n ∈ P, Stable n.s) (hp : ∀ n ∈ P, PureExec n.K)
    (t : Nat) (x v : Arr α) (args : List β)
    (h : ∀ g, SameVis P g → (execSeq 0 P.length g (refcast (some t) x)).1 = .ok v) :
    ∃ w, Proc P (x, args) (w, args) ∧ ∀ u, refcast (some u) w = refcast (some u) v := by
  cases P with
  | nil =>
    have := h [] .nil
    simp only [List.length_nil, execSeq] at this
    cases this
    refine ⟨x, ⟨rfl, fun g _ => rfl⟩, fun u => rfl⟩
  | cons n r =>
    refine ⟨v, ⟨rfl, fun g hg => ?_⟩, fun _ => rfl⟩
    rw [← h g hg]
    unfold SameVis at hg
    cases hg with
    | @cons _ m _ g' hm hg' =>
      have hst : Stable m.s := stable_visible hm.2.symm (hs n (by simp))
      have hpm : PureExec m.K := hm.1 ▸ hp n (by simp)
      have e1 := execute_stable m.K m.s hst x (hpm m.s.st)
      have e2 := execute_stable m.K m.s hst (refcast (some t) x) (hpm m.s.st)
      obtain ⟨u, hu⟩ := Option.ne_none_iff_exists'.1 hst.dt
      have e3 : execute m.K (refcast (some t) x) m.s = execute m.K x m.s := by
        rw [e1, e2, hu]; rfl
      simp only [List.length_cons, execSeq, e3]

end Mdp.FlowNode
