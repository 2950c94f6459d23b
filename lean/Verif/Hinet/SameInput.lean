import Verif.Hinet.LayerTrainProps

/-! # `SameInputLayer`: every inner node gets the whole input -/

namespace Mdp.Layer

open Py Mdp.Node Mdp.Flow

variable {σ α β : Type}

/-! ### Nothing but node operations happens to the inner nodes -/

theorem sameTrainAll_adv (x : Arr α) (args : List β) (ns : List (Nd σ α β)) : AdvL ns (sameTrainAll x args ns).2 := by
  induction ns with
  | nil => exact .nil
  | cons nd r ih =>
    unfold sameTrainAll
    split
    · have h := train_adv nd x args
      split
      · next e s heq => rw [heq] at h; exact .cons h (AdvL.refl r)
      · next s heq => rw [heq] at h; exact .cons h ih
    · exact .cons (.refl nd) ih

theorem samePreAll_adv (x : Arr α) (ns : List (Nd σ α β)) : AdvL ns (samePreAll x ns).2 := by
  induction ns with
  | nil => exact .nil
  | cons nd r ih =>
    unfold samePreAll
    have h := pre_adv nd x
    split
    · next e s heq => rw [heq] at h; exact .cons h (AdvL.refl r)
    · next s heq => rw [heq] at h; exact .cons h ih

theorem sameExecAll_adv (x : Arr α) (y : Option (Arr α)) (ns : List (Nd σ α β)) : AdvL ns (sameExecAll x y ns).2 := by
  induction ns generalizing y with
  | nil => cases y <;> exact .nil
  | cons nd r ih =>
    unfold sameExecAll
    split
    · have h := exec_adv nd x
      split
      · next e s heq => rw [heq] at h; exact .cons h (AdvL.refl r)
      · next v s heq =>
        rw [heq] at h
        split
        · exact .cons h (AdvL.refl r)
        · exact .cons h (ih _)
    · exact .refl _

theorem same_hookKeeps (nodes : List (Nd σ α β)) {P : Nd σ α β → Prop} (hP : Robust P) :
    HookKeeps (sameKind nodes) (fun ns => ∀ n ∈ ns, P n) where
  trainH _ ns x a h := hP.list (withDtype_adv _ _ (sameTrainAll_adv x a) ns) h
  stopH _ ns h := hP.list (stopHook_adv ns) h
  execH ns x h := hP.list (withDtype_adv _ _ (sameExecAll_adv x none) ns) h
  invH ns y h := hP.list (invAll_adv y none 0 ns) h

theorem sameExecute_keeps (nodes : List (Nd σ α β)) {P : Nd σ α β → Prop} (hP : Robust P) (x : Arr α) :
    M.Keeps (fun s => ∀ n ∈ s.st, P n) (SameInputLayer.execute (sameKind nodes) x) := by
  unfold SameInputLayer.execute
  refine .bind (fun s hs => hP.list (preWith_adv _ _ (samePreAll_adv x) s) hs) fun _ => ?_
  exact (same_hookKeeps nodes hP).keeps_execute x

/-- States of `SameInputLayer(nodes, dtype)` after any history of public calls, each of which may have raised. -/
inductive SameReachable (nodes : List (Nd σ α β)) : St (List (Nd σ α β)) α β → Prop
  | init {dtype L} (h : sameInit nodes dtype = .ok L) : SameReachable nodes L.s
  | call {s} (c : Call α β) (h : SameReachable nodes s) : SameReachable nodes (c.run (sameKind nodes) s)
  | exec {s} (x : Arr α) (h : SameReachable nodes s) :
      SameReachable nodes (SameInputLayer.execute (sameKind nodes) x s).2

theorem sameInit_facts (nodes : List (Nd σ α β)) (dtype : Option Nat) (L : Nd (List (Nd σ α β)) α β)
    (h : sameInit nodes dtype = .ok L) : ∃ t, checkProps nodes dtype = .ok t ∧ L.K = sameKind nodes ∧
      L.s.started = false ∧
      match t with
      | some t => L.s.dtype = some t ∧ setDtypes t nodes = (.ok (), L.s.st)
      | none => L.s.st = nodes := by
  unfold sameInit at h
  split at h
  · cases h
  · next t hc =>
    refine ⟨t, hc, ?_⟩
    cases nodes with
    | nil => cases h
    | cons nd r =>
      simp only at h
      split at h
      · cases h
      · split at h
        · cases h
        · next s hs =>
          have hst := congrArg (fun r => r.2.st) hs
          simp only [init_st] at hst
          split at h
          · cases h
          · next hok =>
            cases h
            have hf := fun st => init_soft (sameKind (nd :: r)) nd.s.inputDim (outDimSum (nd :: r)) t st
            cases t with
            | none =>
              have := hf (nd :: r)
              rw [hs] at this
              exact ⟨rfl, this.2.2, hst.symm⟩
            | some t =>
              have := hf (setDtypes t (nd :: r)).2
              rw [hs] at this
              refine ⟨rfl, this.2.2, ?_, Prod.ext hok hst⟩
              unfold init at hs
              obtain ⟨_, s1, _, hs⟩ := M.bind_eq_ok hs
              obtain ⟨_, s2, _, hs⟩ := M.bind_eq_ok hs
              exact setDtype_some_ok _ _ _ _ hs

theorem sameInit_adv (nodes : List (Nd σ α β)) (dtype : Option Nat) (L : Nd (List (Nd σ α β)) α β)
    (h : sameInit nodes dtype = .ok L) : AdvL nodes L.s.st := by
  obtain ⟨t, _, _, _, h⟩ := sameInit_facts nodes dtype L h
  cases t with
  | none => simp only at h; rw [h]; exact .refl _
  | some t => simp only at h; have := setDtypes_adv t nodes; rw [h.2] at this; exact this

theorem same_inner {nodes : List (Nd σ α β)} {P : Nd σ α β → Prop} (hP : Robust P) (hn : ∀ nd ∈ nodes, P nd)
    {s : St (List (Nd σ α β)) α β} (h : SameReachable nodes s) : ∀ nd ∈ s.st, P nd := by
  induction h with
  | init h => exact hP.list (sameInit_adv nodes _ _ h) hn
  | call c _ ih => exact (same_hookKeeps nodes hP).keeps_calls [c] _ ih
  | exec x _ ih => exact sameExecute_keeps nodes hP x _ ih

/-! ### The execution loop -/

/-- The successful calls of the inner nodes. -/
inductive SameRuns (x : Arr α) : List (Nd σ α β) → List (Nd σ α β) → List (Arr α) → Prop
  | nil : SameRuns x [] [] []
  | cons {nd s v r r' vs} (he : execute nd.K x nd.s = (.ok v, s)) (hr : SameRuns x r r' vs) :
      SameRuns x (nd :: r) (⟨nd.K, s⟩ :: r') (v :: vs)

theorem sameExecAll_ok (x : Arr α) (ns ns' : List (Nd σ α β)) (y0 : Option (Arr α)) (y : Arr α) (c : Nat)
    (pre : Nat → List α) (hh : ∀ nd ∈ ns, Honest nd.K ∧ Inv nd.K nd.s) (ha : Acc x.nrows c pre y0)
    (h : sameExecAll x y0 ns = (.ok y, ns')) :
    ∃ vs o, SameRuns x ns ns' vs ∧ outDimSum ns' = some o ∧
      Acc x.nrows (c + o) (fun k => pre k ++ (vs.map fun v => (v.data[k]?).getD []).flatten) (some y) := by
  induction ns generalizing ns' y0 c pre with
  | nil =>
    cases y0 with
    | none => simp [sameExecAll] at h
    | some z =>
      simp only [sameExecAll, Prod.mk.injEq, Except.ok.injEq] at h
      obtain ⟨rfl, rfl⟩ := h
      exact ⟨[], 0, .nil, rfl, by simpa using ha⟩
  | cons nd r ih =>
    unfold sameExecAll at h
    split at h
    · next o ho =>
      split at h
      · cases h
      · next v s he =>
        obtain ⟨e1, e2, e3⟩ := (hh nd (by simp)).1 _ _ _ _ (hh nd (by simp)).2 he
        have hf := execute_fwd nd.K x nd.s
        rw [he] at hf
        have ho' := fwd_some hf ho
        simp only at ho'
        rw [ho'] at e2
        have e2 := (Option.some.inj e2).symm
        obtain ⟨z, hz, hacc, _⟩ := store_exact x.nrows c o pre y0 v ha e1 e3 e2
        rw [hz] at h
        simp only at h
        have h1 := (Prod.ext_iff.1 h).1
        have h2 := (Prod.ext_iff.1 h).2
        simp only at h1 h2
        obtain ⟨vs, o', hr, hsum, hacc'⟩ := ih _ (some z) (c + o) _
          (fun n hn => hh n (by simp [hn])) hacc (Prod.ext h1 rfl)
        refine ⟨v :: vs, o + o', ?_, ?_, ?_⟩
        · rw [← h2]; exact .cons he hr
        · rw [← h2]; simp [outDimSum, ho', hsum]
        · rw [← Nat.add_assoc]
          simpa using hacc'
    · cases h

theorem sameRuns_get (x : Arr α) (t : Nat) (ns ns' : List (Nd σ α β)) (vs : List (Arr α))
    (h : SameRuns { x with dtype := t } ns ns' vs)
    (hg : ∀ nd ∈ ns, Sane nd.K ∧ PureExec nd.K ∧ Inv nd.K nd.s) :
    vs.length = ns'.length ∧ ∀ (i : Nat) (nd : Nd σ α β), ns'[i]? = some nd → ∃ v, vs[i]? = some v ∧ Stable nd.s ∧
      (execute nd.K x nd.s).1 = .ok v := by
  induction ns generalizing ns' vs with
  | nil => cases h; simp
  | cons nd r ih =>
    cases h with
    | cons he hr =>
      next s v r' vs =>
      obtain ⟨h1, h2⟩ := ih _ _ hr (fun n hn => hg n (by simp [hn]))
      obtain ⟨g1, g2, g3⟩ := hg nd (by simp)
      obtain ⟨hst, hinv, e1, e2, e3, e4⟩ := execute_ok_stable nd.K g1 g2 _ _ _ _ g3 he
      refine ⟨by simp [h1], ?_⟩
      intro i n hn
      cases i with
      | zero =>
        simp only [List.getElem?_cons_zero, Option.some.injEq] at hn
        subst hn
        refine ⟨v, rfl, hst, ?_⟩
        rw [execute_stable nd.K s hst _ (g2 s.st), if_pos ⟨e1, e2, e3⟩]
        exact e4
      | succ i =>
        simp only [List.getElem?_cons_succ] at hn
        obtain ⟨v', f1, f2, f3⟩ := h2 i n hn
        exact ⟨v', by simpa using f1, f2, f3⟩

/-! ### Training -/

theorem train_ok_hook {σ : Type} (K : Kind σ α β) (x : Arr α) (args : List β) (s s' : St σ α β) (t : Nat)
    (ht : s.dtype = some t) (h : train K x args s = (.ok (), s')) :
    (K.trainHook s.phase.toNat s.st (refcast (some t) x) args).res = .ok () ∧
      (K.trainHook s.phase.toNat s.st (refcast (some t) x) args).st = s'.st ∧ s'.dtype = some t := by
  have hdt : s'.dtype = some t := by
    have := (train_fwd K x args s).dt
    rw [h] at this
    rcases this with e | e
    · rw [ht] at e; cases e
    · exact e.trans ht
  rcases train_cases K x args s with ⟨e, he, _⟩ | ⟨_, _, _, he⟩ |
    ⟨h1, h2, h3, h4, s1, s2, hs1, hwf, hst, _, hr, hs'⟩
  · rw [h] at he; cases he
  · rw [h] at he; cases he
  · rw [h] at hr hs'
    simp only at hr hs'
    have hst2 : s'.st = s2.st := by rw [hs']
    have hd1 : s1.dtype = some t := by
      rcases hs1.dt with e | e
      · rw [ht] at e; cases e
      · exact e.trans ht
    have hres := runHook_ok_res _ _ _ _ _ hr
    have hhst := runHook_st K (K.trainHook s.phase.toNat s1.st (refcast s1.dtype x) args) { s1 with started := true }
    rw [hr, hst, hd1] at hhst
    rw [hst, hd1] at hres
    exact ⟨hres, hhst.symm.trans hst2.symm, hdt⟩

theorem stop_ok_hook {σ : Type} (K : Kind σ α β) (s s' : St σ α β) (h : stopTraining K s = (.ok (), s')) :
    (K.stopHook s.phase.toNat s.st).res = .ok () ∧ (K.stopHook s.phase.toNat s.st).st = s'.st ∧
      ∀ n, K.preserveDim = false → (K.stopHook s.phase.toNat s.st).sets = [.out n] → s'.outputDim = some n := by
  rcases stop_cases K s with ⟨e, he⟩ | ⟨_, _, _, _, s2, hs, ⟨e, _, he⟩ | ⟨hr, he⟩⟩
  · rw [h] at he; cases he
  · rw [h] at he; cases he
  · rw [h] at he
    have hst2 : s'.st = s2.st := by cases he; rfl
    have ho2 : s'.outputDim = s2.outputDim := by cases he; rfl
    have hres := runHook_ok_res _ _ _ _ _ hr
    have hhst := runHook_st K (K.stopHook s.phase.toNat s.st) s
    rw [hr] at hhst
    refine ⟨hres, hhst.symm.trans hst2.symm, fun n hp hset => ?_⟩
    unfold runHook at hr
    obtain ⟨_, s4, h4, hr1⟩ := M.bind_eq_ok hr
    obtain ⟨_, s5, h5, hr2⟩ := M.bind_eq_ok hr1
    rw [hset] at h5
    have h6 : s2 = s5 := ((Prod.ext_iff.1 hr2).2).symm
    obtain ⟨_, s7, h7, h8⟩ := M.bind_eq_ok h5
    have h9 : s5 = s7 := ((Prod.ext_iff.1 h8).2).symm
    rw [ho2, h6, h9]
    unfold setOutputDim setOutputDimRaw at h7
    simp only [hp] at h7
    split at h7
    · cases h7
    · cases h7; rfl

/-- Chunks as an inner node sees them: the layer has already cast them. -/
def castAll (t : Nat) (cs : List (Arr α × List β)) : List (Arr α × List β) :=
  cs.map fun c => (refcast (some t) c.1, c.2)

theorem left_training {nd : Nd σ α β} (hi : Inv nd.K nd.s) : nd.s.training = true ↔ 0 < left nd := by
  cases hk : nd.K.trainable with
  | false =>
    have h1 := hi.ntr hk
    have : left nd = 0 := by simp [left, remaining, hk]
    simp [h1.2.1, this]
  | true =>
    have h1 := hi.tr hk
    rw [h1.2.2.1]
    have : (left nd : Int) = nd.K.nPhases - nd.s.phase := by
      have := h1.2.1
      simp only [left, remaining, hk, if_true]
      omega
    omega

theorem left_stop {nd : Nd σ α β} {s2 : St σ α β} (h : stopTraining nd.K nd.s = (.ok (), s2)) :
    left ⟨nd.K, s2⟩ = left nd - 1 := by
  have := (stop_ok_trace _ _ _ h).2.1
  unfold left remaining
  simp only [this]
  split
  · omega
  · simp

theorem sameTrainAll_get (x : Arr α) (args : List β) (ns ns' : List (Nd σ α β))
    (h : sameTrainAll x args ns = (.ok (), ns')) :
    ns'.length = ns.length ∧ ∀ (i : Nat) (nd : Nd σ α β), ns[i]? = some nd → ∃ s2, ns'[i]? = some ⟨nd.K, s2⟩ ∧
      if nd.s.training then train nd.K x args nd.s = (.ok (), s2) else s2 = nd.s := by
  induction ns generalizing ns' with
  | nil => cases h; simp
  | cons m r ih =>
    simp only [sameTrainAll] at h
    split at h
    · next htr =>
      generalize hR : train m.K x args m.s = R at h
      obtain ⟨res, s⟩ := R
      cases res with
      | error e => cases h
      | ok u =>
        simp only at h
        generalize hQ : sameTrainAll x args r = Q at h
        obtain ⟨res, r'⟩ := Q
        cases h
        obtain ⟨g1, g2⟩ := ih r' hQ
        refine ⟨by simp [g1], fun i nd hi => ?_⟩
        cases i with
        | zero =>
          simp only [List.getElem?_cons_zero, Option.some.injEq] at hi ⊢
          subst hi
          refine ⟨s, rfl, ?_⟩
          rw [if_pos htr]
          exact hR
        | succ i => simpa using g2 i nd (by simpa using hi)
    · next htr =>
      generalize hQ : sameTrainAll x args r = Q at h
      obtain ⟨res, r'⟩ := Q
      cases h
      obtain ⟨g1, g2⟩ := ih r' hQ
      refine ⟨by simp [g1], fun i nd hi => ?_⟩
      cases i with
      | zero =>
        simp only [List.getElem?_cons_zero, Option.some.injEq] at hi ⊢
        subst hi
        refine ⟨m.s, rfl, ?_⟩
        rw [if_neg htr]
      | succ i => simpa using g2 i nd (by simpa using hi)

/-- All inner nodes have the dtype `t` of the layer. -/
def Typed (t : Nat) (nd : Nd σ α β) : Prop :=
  nd.s.dtype = some t ∧ nd.K.supported t = true ∧ Sane nd.K ∧ Inv nd.K nd.s

theorem typed_robust (t : Nat) : Robust (Typed t : Nd σ α β → Prop) := by
  refine ⟨fun m n h hm => ?_⟩
  obtain ⟨h1, h2, h3, h4⟩ := hm
  refine ⟨?_, h.K ▸ h2, h.K ▸ h3, h.K ▸ h.inv h3 h4⟩
  rcases h.fwd.dt with e | e
  · rw [h1] at e; cases e
  · exact e.trans h1

theorem sameTrain_step (nodes : List (Nd σ α β)) (t : Nat) (x : Arr α) (args : List β)
    (s s' : St (List (Nd σ α β)) α β) (ht : s.dtype = some t) (hty : ∀ nd ∈ s.st, Typed t nd)
    (h : train (sameKind nodes) x args s = (.ok (), s')) :
    s'.dtype = some t ∧ sameTrainAll (refcast (some t) x) args s.st = (.ok (), s'.st) ∧ ∀ nd ∈ s'.st, Typed t nd := by
  obtain ⟨h1, h2, h3⟩ := train_ok_hook _ x args s s' t ht h
  simp only [sameKind, withDtype] at h1 h2
  have e : (refcast (some t) x).dtype = t := rfl
  rw [e, setDtypes_all t s.st (fun nd hnd => ⟨(hty nd hnd).1, (hty nd hnd).2.1⟩)] at h1 h2
  simp only at h1 h2
  have h4 : sameTrainAll (refcast (some t) x) args s.st = (.ok (), s'.st) := Prod.ext h1 h2
  refine ⟨h3, h4, ?_⟩
  have := (typed_robust t).list (sameTrainAll_adv (refcast (some t) x) args s.st) hty
  rw [h4] at this
  exact this

theorem sameTrainOn_get (nodes : List (Nd σ α β)) (t : Nat) (cs : List (Arr α × List β))
    (s s' : St (List (Nd σ α β)) α β) (ht : s.dtype = some t) (hty : ∀ nd ∈ s.st, Typed t nd)
    (h : trainOn (sameKind nodes) cs s = (.ok (), s')) :
    s'.dtype = some t ∧ (∀ nd ∈ s'.st, Typed t nd) ∧ s'.st.length = s.st.length ∧
    ∀ (i : Nat) (nd : Nd σ α β), s.st[i]? = some nd → ∃ s2, s'.st[i]? = some ⟨nd.K, s2⟩ ∧ s2.training = nd.s.training ∧
      left ⟨nd.K, s2⟩ = left nd ∧
      if nd.s.training then trainOn nd.K (castAll t cs) nd.s = (.ok (), s2) else s2 = nd.s := by
  induction cs generalizing s with
  | nil =>
    cases h
    refine ⟨ht, hty, rfl, fun i nd hi => ⟨nd.s, hi, rfl, rfl, ?_⟩⟩
    split
    · rfl
    · rfl
  | cons c r ih =>
    obtain ⟨_, s1, h1, h⟩ := M.bind_eq_ok h
    obtain ⟨a1, a2, a3⟩ := sameTrain_step nodes t c.1 c.2 s s1 ht hty h1
    obtain ⟨b1, b2, b3, b4⟩ := ih s1 a1 a3 h
    obtain ⟨c1, c2⟩ := sameTrainAll_get _ _ _ _ a2
    refine ⟨b1, b2, b3.trans c1, fun i nd hi => ?_⟩
    obtain ⟨s2, d1, d2⟩ := c2 i nd hi
    obtain ⟨s3, e1, e2, e2', e3⟩ := b4 i _ d1
    simp only at e2 e3 e1
    by_cases htr : nd.s.training = true
    · rw [if_pos htr] at d2
      have f2 := train_ok_trace _ _ _ _ _ d2
      have f := f2.2.2.2.1
      have fl : left ⟨nd.K, s2⟩ = left nd := by
        unfold left remaining; simp only [f2.2.1]
      rw [if_pos (f.trans htr)] at e3
      refine ⟨s3, e1, e2.trans f, e2'.trans fl, ?_⟩
      rw [if_pos htr, castAll, List.map_cons, trainOn, M.bind_ok d2]
      exact e3
    · rw [if_neg htr] at d2
      subst d2
      rw [if_neg htr] at e3
      refine ⟨s3, e1, e2, e2', ?_⟩
      rw [if_neg htr]; exact e3

theorem sameRun_get (nodes : List (Nd σ α β)) (t : Nat) (ws : List (List (Arr α × List β)))
    (s s' : St (List (Nd σ α β)) α β) (ht : s.dtype = some t) (hty : ∀ nd ∈ s.st, Typed t nd)
    (h : runPhases (sameKind nodes) ws s = (.ok (), s')) :
    s'.st.length = s.st.length ∧
    ∀ (i : Nat) (nd : Nd σ α β), s.st[i]? = some nd → ∃ s2, s'.st[i]? = some ⟨nd.K, s2⟩ ∧
      runPhases nd.K ((ws.take (left nd)).map (castAll t)) nd.s = (.ok (), s2) := by
  induction ws generalizing s with
  | nil => cases h; exact ⟨rfl, fun i nd hi => ⟨nd.s, hi, by simp [runPhases]⟩⟩
  | cons w r ih =>
    obtain ⟨_, s1, h1, h⟩ := M.bind_eq_ok h
    obtain ⟨_, s2, h2, h⟩ := M.bind_eq_ok h
    obtain ⟨a1, a2, a3, a4⟩ := sameTrainOn_get nodes t w s s1 ht hty h1
    obtain ⟨b1, b2, -⟩ := stop_ok_hook _ _ _ h2
    have b3 : stopAll s1.st = (.ok (), s2.st) := by
      simp only [sameKind, layerKind, stopHook] at b1 b2
      generalize hR : stopAll s1.st = R at b1 b2
      obtain ⟨r, ns1⟩ := R
      cases r with
      | error e => cases b1
      | ok u => simp only at b2; rw [b2]
    have c1 : s2.dtype = some t := by
      have := (stop_fwd (sameKind nodes) s1).dt
      rw [h2] at this
      rcases this with e | e
      · rw [a1] at e; cases e
      · exact e.trans a1
    have c2 : ∀ nd ∈ s2.st, Typed t nd := by
      have := (typed_robust t).list (stopAll_adv s1.st) a2
      rw [b3] at this
      exact this
    obtain ⟨d1, d2⟩ := ih s2 c1 c2 h
    obtain ⟨e1, e2⟩ := stopAll_get _ _ b3
    refine ⟨d1.trans (e1.trans a3), fun i nd hi => ?_⟩
    obtain ⟨s3, f1, f2, f3, f4⟩ := a4 i nd hi
    obtain ⟨s4, g1, g2⟩ := e2 i _ f1
    obtain ⟨s5, k1, k2⟩ := d2 i _ g1
    simp only at f2 g2 k1 k2
    refine ⟨s5, k1, ?_⟩
    have hl := left_training (hty nd (List.mem_of_getElem? hi)).2.2.2
    by_cases htr : nd.s.training = true
    · rw [if_pos htr] at f4
      rw [if_pos (f2.trans htr)] at g2
      have hl2 := left_stop (nd := ⟨nd.K, s3⟩) g2
      rw [f3] at hl2
      simp only at hl2
      rw [hl2] at k2
      obtain ⟨k, hk⟩ : ∃ k, left nd = k + 1 := ⟨left nd - 1, by have := hl.1 htr; omega⟩
      rw [hk] at k2 ⊢
      rw [List.take_succ_cons, List.map_cons, runPhases, M.bind_ok f4, M.bind_ok g2]
      exact k2
    · rw [if_neg htr] at f4
      subst f4
      rw [if_neg htr] at g2
      subst g2
      have : left nd = 0 := by
        have := mt hl.2 htr
        omega
      rw [this] at k2 ⊢
      simpa using k2

/-! ### Properties -/

/-- C71: whatever happened to a `SameInputLayer` before, if `layer.execute(x)` returns `y`, then afterwards
every inner node is trained and `y` is the column-wise concatenation of what the inner nodes give for the
whole of `x`, in the order of the nodes; its width is the sum of their output dimensions. -/
theorem same_execute_concat (nodes : List (Nd σ α β)) (hn : ∀ nd ∈ nodes, InnerOK nd)
    (s s' : St (List (Nd σ α β)) α β) (hr : SameReachable nodes s) (x y : Arr α)
    (h : SameInputLayer.execute (sameKind nodes) x s = (.ok y, s')) :
    ∃ vs : List (Arr α), vs.length = s'.st.length ∧
      (∀ (i : Nat) (nd : Nd σ α β), s'.st[i]? = some nd → ∃ v, vs[i]? = some v ∧ Stable nd.s ∧
        (execute nd.K x nd.s).1 = .ok v) ∧
      y.ndim = 2 ∧ y.nrows = x.nrows ∧ outDimSum s'.st = some y.cols ∧
      ∀ k, k < x.nrows → y.data[k]? = some ((vs.map fun v => (v.data[k]?).getD []).flatten) := by
  have hg := same_inner innerOK_robust hn hr
  unfold SameInputLayer.execute at h
  obtain ⟨_, s1, h1, h⟩ := M.bind_eq_ok h
  have hg1 : ∀ nd ∈ s1.st, InnerOK nd := by
    have := innerOK_robust.list (preWith_adv (sameKind nodes) _ (samePreAll_adv x) s) hg
    rw [h1] at this; exact this
  obtain ⟨s2, h2, hres, hst⟩ := execute_ok_hook _ _ _ _ _ h
  have hg2 : ∀ nd ∈ s2.st, InnerOK nd := by
    have := (same_hookKeeps nodes innerOK_robust).keeps_preExec x s1 hg1
    rw [h2] at this; exact this
  simp only [sameKind, withDtype] at hres hst
  have hadv := setDtypes_adv (refcast s2.dtype x).dtype s2.st
  generalize setDtypes (refcast s2.dtype x).dtype s2.st = R at hres hst hadv
  obtain ⟨r, ns⟩ := R
  cases r with
  | error e => cases hres
  | ok u =>
    simp only at hres hst hadv
    have hg3 := innerOK_robust.list hadv hg2
    generalize hE : sameExecAll (refcast s2.dtype x) none ns = E at hres hst
    obtain ⟨r, ns'⟩ := E
    simp only at hres hst
    subst hres
    rw [hst]
    obtain ⟨vs, o, hruns, hsum, hacc⟩ := sameExecAll_ok _ _ _ none y 0 (fun _ => [])
      (fun nd hnd => ⟨(hg3 nd hnd).honest, (hg3 nd hnd).reach⟩) ⟨fun _ => ⟨rfl, fun _ => rfl⟩, by simp⟩ hE
    obtain ⟨e1, e2, e3, e4⟩ := hacc.some y rfl
    obtain ⟨g1, g2⟩ := sameRuns_get x _ ns ns' vs hruns
      (fun nd hnd => ⟨(hg3 nd hnd).sane, (hg3 nd hnd).pure, (hg3 nd hnd).reach⟩)
    refine ⟨vs, g1, g2, e1, e3, ?_, ?_⟩
    · rw [hsum, e2]; simp
    · intro k hk
      simpa using e4 k hk

theorem setDtypes_typed (t : Nat) (ns ns' : List (Nd σ α β)) (h : setDtypes t ns = (.ok (), ns'))
    (hn : ∀ nd ∈ ns, Sane nd.K ∧ Inv nd.K nd.s) : ∀ nd ∈ ns', Typed t nd := by
  induction ns generalizing ns' with
  | nil => cases h; simp
  | cons m r ih =>
    have hadv := setDtypes_adv t (m :: r)
    rw [h] at hadv
    simp only [setDtypes] at h
    generalize hR : setDtype m.K (some t) m.s = R at h
    obtain ⟨res, s⟩ := R
    cases res with
    | error e => cases h
    | ok u =>
      simp only at h
      generalize hQ : setDtypes t r = Q at h
      obtain ⟨res, r'⟩ := Q
      cases h
      intro nd hnd
      rcases List.mem_cons.1 hnd with e | e
      · subst e
        have hm := hn m (by simp)
        refine ⟨setDtype_some_ok _ _ _ _ hR, ?_, hm.1, ?_⟩
        · unfold setDtype at hR
          simp only at hR
          split at hR
          · cases hR
          · split at hR
            · cases hR
            · next hsup => simpa using hsup
        · cases hadv with
          | cons h1 _ => exact h1.inv hm.1 hm.2
      · exact ih r' hQ (fun nd hnd => hn nd (by simp [hnd])) nd e

theorem setDtypes_eq (t : Nat) (ns ns' : List (Nd σ α β)) (h : setDtypes t ns = (.ok (), ns')) (i : Nat) (nd : Nd σ α β)
    (hi : ns[i]? = some nd) : ∃ s1, ns'[i]? = some ⟨nd.K, s1⟩ ∧ setDtype nd.K (some t) nd.s = (.ok (), s1) := by
  induction ns generalizing ns' i with
  | nil => simp at hi
  | cons m r ih =>
    simp only [setDtypes] at h
    generalize hR : setDtype m.K (some t) m.s = R at h
    obtain ⟨res, s⟩ := R
    cases res with
    | error e => cases h
    | ok u =>
      simp only at h
      generalize hQ : setDtypes t r = Q at h
      obtain ⟨res, r'⟩ := Q
      cases h
      cases i with
      | zero =>
        simp only [List.getElem?_cons_zero, Option.some.injEq] at hi ⊢
        subst hi
        exact ⟨s, rfl, hR⟩
      | succ i => simpa using ih r' hQ i (by simpa using hi)

/-- C72: go through training phases of a new `SameInputLayer(nodes, dtype=t)`. Every inner node ends in the
state in which training that node alone on the very same (whole) chunks puts it, phase by phase, for as many
phases as it has. -/
theorem same_training (nodes : List (Nd σ α β)) (hK : ∀ nd ∈ nodes, Sane nd.K)
    (hr : ∀ nd ∈ nodes, Reachable nd.K nd.s) (t : Nat) (L : Nd (List (Nd σ α β)) α β)
    (hL : sameInit nodes (some t) = .ok L) (ws : List (List (Arr α × List β))) (s' : St (List (Nd σ α β)) α β)
    (h : runPhases L.K ws L.s = (.ok (), s')) :
    s'.st.length = nodes.length ∧
    ∀ (i : Nat) (nd : Nd σ α β), nodes[i]? = some nd → ∃ s1 s2, setDtype nd.K (some t) nd.s = (.ok (), s1) ∧
      s'.st[i]? = some ⟨nd.K, s2⟩ ∧
      runPhases nd.K ((ws.take (left nd)).map (castAll t)) s1 = (.ok (), s2) := by
  obtain ⟨t', ht', hLK, hst, hm⟩ := sameInit_facts nodes _ L hL
  have : t' = some t := by
    unfold checkProps at ht'
    split at ht'
    · cases ht'
    · split at ht'
      · cases ht'; rfl
      · split at ht'
        · cases ht'
        · simp only at ht'
          split at ht'
          · cases ht'; rfl
          · cases ht'
  subst this
  simp only at hm
  obtain ⟨h1, h2⟩ := hm
  rw [hLK] at h
  have hty := setDtypes_typed t nodes _ h2 fun nd hnd => ⟨hK nd hnd, reachable_inv (hK nd hnd) (hr nd hnd)⟩
  obtain ⟨g1, g2⟩ := sameRun_get nodes t ws L.s s' h1 hty h
  obtain ⟨k1, k2⟩ := setDtypes_get t nodes _ h2
  refine ⟨g1.trans k1, fun i nd hi => ?_⟩
  obtain ⟨s1, e1, e0⟩ := setDtypes_eq t nodes _ h2 i nd hi
  obtain ⟨s2, f1, f2⟩ := g2 i _ e1
  have e2 := setDtype_soft nd.K (some t) nd.s
  rw [e0] at e2
  have hl : left ⟨nd.K, s1⟩ = left nd := by
    have e3 : s1.phase = nd.s.phase := e2.phase
    unfold left remaining; simp only [e3]
  rw [hl] at f2
  exact ⟨s1, s2, e0, f1, f2⟩

end Mdp.Layer
