import Verif.Hinet.LayerInverse

/-! # Training a layer phase by phase -/

namespace Mdp.Layer

open Py Mdp.Node Mdp.Flow

variable {σ α β : Type}

/-! ### Specification -/

/-- Train a node on some chunks. -/
def trainOn {σ : Type} (K : Kind σ α β) : List (Arr α × List β) → NodeM σ α β Unit
  | [] => pure ()
  | c :: r => do train K c.1 c.2; trainOn K r

/-- Go through training phases: train on the chunks of the phase, then `stop_training`. -/
def runPhases {σ : Type} (K : Kind σ α β) : List (List (Arr α × List β)) → NodeM σ α β Unit
  | [] => pure ()
  | w :: r => do trainOn K w; stopTraining K; runPhases K r

/-- Number of training phases a node still has to go through. -/
def left (nd : Nd σ α β) : Nat := (remaining nd.K nd.s).toNat

/-- The chunks restricted to some columns. -/
def blockOf (a w : Nat) (cs : List (Arr α × List β)) : List (Arr α × List β) :=
  cs.map fun c => (colBlock c.1 a w, c.2)

/-! ### Lemmas -/

theorem fullTrace_snoc (t p : Nat) (ws : List (List (Arr α × List β))) (w : List (Arr α × List β)) :
    fullTrace t p (ws ++ [w]) = fullTrace t p ws ++ phaseEv t (p + ws.length) w ++ [.stop (p + ws.length) true] := by
  induction ws generalizing p with
  | nil => simp [fullTrace]
  | cons v r ih =>
    have : p + 1 + r.length = p + (r.length + 1) := by omega
    simp [fullTrace, ih, this]

theorem phaseEv_snoc (t p : Nat) (w : List (Arr α × List β)) (c : Arr α × List β) :
    phaseEv t p (w ++ [c]) = phaseEv t p w ++ [.train p (refcast (some t) c.1) c.2 true] := by simp [phaseEv]

/-- State of an inner node in the middle of the training of its layer: `done` are the finished phases of the
layer, `cur` is what it saw in the current one. -/
structure Track (nd0 : Nd σ α β) (a w : Nat) (done : List (List (Arr α × List β))) (cur : List (Arr α × List β))
    (nd : Nd σ α β) : Prop where
  K : nd.K = nd0.K
  inv : Inv nd.K nd.s
  phase : nd.s.phase = nd0.s.phase + (min done.length (left nd0) : Nat)
  started : nd.s.started = true ↔ done.length < left nd0 ∧ cur ≠ []
  hist : ∃ t, (nd.s.dtype = some t ∨ done = [] ∧ cur = []) ∧
    ts nd.s = ts nd0.s ++ fullTrace t nd0.s.phase.toNat ((done.take (left nd0)).map (blockOf a w)) ++
      if done.length < left nd0 then phaseEv t (nd0.s.phase.toNat + done.length) (blockOf a w cur) else []

theorem Track.training {nd0 nd : Nd σ α β} {a w : Nat} {done : List (List (Arr α × List β))}
    {cur : List (Arr α × List β)} (h : Track nd0 a w done cur nd) (h0 : Inv nd0.K nd0.s) :
    nd.s.training = true ↔ done.length < left nd0 := by
  have hp := h.phase
  cases hk : nd0.K.trainable with
  | false =>
    have h1 := h.inv.ntr (h.K ▸ hk)
    have : left nd0 = 0 := by simp [left, remaining, hk]
    simp [h1.2.1, this]
  | true =>
    have h1 := h.inv.tr (h.K ▸ hk)
    have h2 := h0.tr hk
    rw [h1.2.2.1, h.K]
    have : (left nd0 : Int) = nd0.K.nPhases - nd0.s.phase := by
      have := h2.2.1
      simp only [left, remaining, hk, if_true]
      omega
    omega

theorem ts_soft {K : Kind σ α β} {s t : St σ α β} (h : Soft K s t) : ts t = ts s := by
  unfold ts; rw [h.trace]

theorem inv_phase_nonneg {nd0 : Nd σ α β} (h0 : Inv nd0.K nd0.s) (h : 0 < left nd0) : 0 ≤ nd0.s.phase := by
  cases hk : nd0.K.trainable with
  | false => simp [left, remaining, hk] at h
  | true => have := (h0.tr hk).1; omega

theorem Track.train {nd0 nd : Nd σ α β} {a w : Nat} {done : List (List (Arr α × List β))}
    {cur : List (Arr α × List β)} (h : Track nd0 a w done cur nd) (h0 : Inv nd0.K nd0.s) (hs : Sane nd0.K)
    (s1 s2 : St σ α β) (t : Nat) (h1 : Soft nd.K nd.s s1) (ht : s1.dtype = some t) (x x' : Arr α) (args : List β)
    (hx : ∀ t, refcast (some t) x' = refcast (some t) (colBlock x a w))
    (h2 : if s1.training then Mdp.Node.train nd.K x' args s1 = (.ok (), s2) else s2 = s1) :
    Track nd0 a w done (cur ++ [(x, args)]) ⟨nd.K, s2⟩ ∧ s2.dtype = some t := by
  have htr := h.training h0
  have htr1 : s1.training = nd.s.training := h1.training
  obtain ⟨t0, hd, hh⟩ := h.hist
  have hdt : nd.s.dtype = some t0 → t0 = t := by
    intro e
    rcases h1.dt with h' | h'
    · rw [e] at h'; cases h'
    · rw [e, ht] at h'; exact (Option.some.inj h').symm
  -- the history with the dtype that is set now
  have hh' : ts nd.s = ts nd0.s ++ fullTrace t nd0.s.phase.toNat ((done.take (left nd0)).map (blockOf a w)) ++
      if done.length < left nd0 then phaseEv t (nd0.s.phase.toNat + done.length) (blockOf a w cur) else [] := by
    rcases hd with hd | ⟨hd1, hd2⟩
    · rw [hdt hd] at hh; exact hh
    · subst hd1 hd2
      simpa [fullTrace, phaseEv, blockOf] using hh
  by_cases hlt : done.length < left nd0
  · have ht1 : s1.training = true := htr1.trans (htr.2 hlt)
    rw [if_pos ht1] at h2
    obtain ⟨b1, b2, b3, b4, b5, b6, b7, b8, b9⟩ := train_ok_trace nd.K x' args s1 s2 h2
    have hinv : Inv nd.K s2 := by
      have := train_inv nd.K (h.K ▸ hs) x' args s1 (h1.inv h.inv)
      rw [h2] at this
      exact this
    have hdt2 : s2.dtype = some t := by
      have := (train_fwd nd.K x' args s1).dt
      rw [h2] at this
      rcases this with e | e
      · rw [ht] at e; cases e
      · exact e.trans ht
    refine ⟨⟨h.K, hinv, ?_, ?_, t, .inl hdt2, ?_⟩, hdt2⟩
    · show s2.phase = _
      rw [b2, h1.phase, h.phase]
    · simp [b3, hlt]
    · have e1 : ts s2 = ts nd.s ++ [.train s1.phase.toNat (refcast s2.dtype x') args true] := by
        unfold ts
        rw [b1, List.filter_append, h1.trace]
        simp [isTS]
      have e2 : s1.phase.toNat = nd0.s.phase.toNat + done.length := by
        rw [h1.phase, h.phase]
        have := inv_phase_nonneg h0 (by omega)
        omega
      rw [e1, hh', if_pos hlt, if_pos hlt, e2, hdt2, hx]
      simp only [blockOf, List.map_append, List.map_cons, List.map_nil, phaseEv_snoc, List.append_assoc]
  · have ht1 : s1.training ≠ true := fun e => hlt (htr.1 (htr1.symm.trans e))
    rw [if_neg ht1] at h2
    subst h2
    refine ⟨⟨h.K, h1.inv h.inv, h1.phase.trans h.phase, ?_, t, .inl ht, ?_⟩, ht⟩
    · rw [h1.started, h.started]; simp [hlt]
    · rw [ts_soft h1, hh', if_neg hlt, if_neg hlt]

theorem Track.stop {nd0 nd : Nd σ α β} {a w : Nat} {done : List (List (Arr α × List β))}
    {cur : List (Arr α × List β)} (h : Track nd0 a w done cur nd) (h0 : Inv nd0.K nd0.s)
    (hne : cur ≠ []) (s2 : St σ α β)
    (h2 : if nd.s.training then stopTraining nd.K nd.s = (.ok (), s2) else s2 = nd.s) :
    Track nd0 a w (done ++ [cur]) [] ⟨nd.K, s2⟩ := by
  have htr := h.training h0
  obtain ⟨t, hd, hh⟩ := h.hist
  have hd : nd.s.dtype = some t := hd.resolve_right (fun e => hne e.2)
  by_cases hlt : done.length < left nd0
  · rw [if_pos (htr.2 hlt)] at h2
    obtain ⟨b1, b2, b3⟩ := stop_ok_trace nd.K nd.s s2 h2
    have hinv : Inv nd.K s2 := by
      have := stop_inv nd.K nd.s h.inv
      rw [h2] at this
      exact this
    have hdt2 : s2.dtype = some t := by
      have := (stop_fwd nd.K nd.s).dt
      rw [h2] at this
      rcases this with e | e
      · rw [hd] at e; cases e
      · exact e.trans hd
    have e2 : nd.s.phase.toNat = nd0.s.phase.toNat + done.length := by
      rw [h.phase]
      have := inv_phase_nonneg h0 (by omega)
      omega
    refine ⟨h.K, hinv, ?_, by simp [b3], t, .inl hdt2, ?_⟩
    · show s2.phase = _
      rw [b2, h.phase, List.length_append, List.length_singleton]
      omega
    · have e1 : ts s2 = ts nd.s ++ [.stop nd.s.phase.toNat true] := by
        unfold ts
        rw [b1, List.filter_append]
        simp [isTS]
      have e3 : (done ++ [cur]).take (left nd0) = done.take (left nd0) ++ [cur] := by
        rw [List.take_of_length_le (by simp; omega), List.take_of_length_le (by omega)]
      have e4 : (done.take (left nd0)).length = done.length := by simp; omega
      rw [e1, hh, if_pos hlt, e2, e3, List.map_append, List.map_singleton, fullTrace_snoc, List.length_map, e4]
      simp [blockOf, phaseEv]
  · have ht1 : nd.s.training ≠ true := fun e => hlt (htr.1 e)
    rw [if_neg ht1] at h2
    subst h2
    have hlt' : ¬ (done ++ [cur]).length < left nd0 := by simp; omega
    refine ⟨h.K, h.inv, ?_, ?_, t, .inl hd, ?_⟩
    · show nd.s.phase = _
      rw [h.phase, List.length_append]; omega
    · show nd.s.started = true ↔ _
      rw [h.started]; simp [hlt]
    · show ts nd.s = _
      rw [hh, if_neg hlt, if_neg hlt', List.take_append_of_le_length (by omega)]

/-! ### The loops, node by node -/

theorem offset_succ (nd : Nd σ α β) (r : List (Nd σ α β)) (w i : Nat) (h : nd.s.inputDim = some w) :
    offset (nd :: r) (i + 1) = w + offset r i := by simp [offset, h]

theorem offset_congr (ms ns : List (Nd σ α β)) (h : ns.map (fun nd => nd.s.inputDim) = ms.map fun nd => nd.s.inputDim)
    (i : Nat) : offset ns i = offset ms i := by
  have e : ∀ l : List (Nd σ α β), offset l i = (((l.map fun nd => nd.s.inputDim).take i).map fun n => n.getD 0).sum := by
    intro l
    rw [offset, ← List.map_take, List.map_map]; rfl
  rw [e, e, h]

theorem setDtypes_get (t : Nat) (ns ns' : List (Nd σ α β)) (h : setDtypes t ns = (.ok (), ns')) :
    ns'.length = ns.length ∧ ∀ (i : Nat) (nd : Nd σ α β), ns[i]? = some nd → ∃ s1, ns'[i]? = some ⟨nd.K, s1⟩ ∧ Soft nd.K nd.s s1 ∧
      s1.dtype = some t := by
  induction ns generalizing ns' with
  | nil => cases h; simp
  | cons m r ih =>
    simp only [setDtypes] at h
    have hsoft := setDtype_soft m.K (some t) m.s
    generalize hR : setDtype m.K (some t) m.s = R at h hsoft
    obtain ⟨res, s⟩ := R
    cases res with
    | error e => cases h
    | ok u =>
      simp only at h
      generalize hQ : setDtypes t r = Q at h
      obtain ⟨res, r'⟩ := Q
      cases h
      obtain ⟨g1, g2⟩ := ih r' hQ
      refine ⟨by simp [g1], fun i nd hi => ?_⟩
      cases i with
      | zero =>
        simp only [List.getElem?_cons_zero, Option.some.injEq] at hi ⊢
        subst hi
        exact ⟨s, rfl, hsoft, setDtype_some_ok _ _ _ _ hR⟩
      | succ i => simpa using g2 i nd (by simpa using hi)

theorem trainAll_get (x : Arr α) (args : List β) (a : Nat) (ns ns' : List (Nd σ α β))
    (h : trainAll x args a ns = (.ok (), ns')) :
    ns'.length = ns.length ∧ ∀ (i : Nat) (nd : Nd σ α β), ns[i]? = some nd → ∃ w s2, ns'[i]? = some ⟨nd.K, s2⟩ ∧ nd.s.inputDim = some w ∧
      if nd.s.training then train nd.K (colBlock x (a + offset ns i) w) args nd.s = (.ok (), s2) else s2 = nd.s := by
  induction ns generalizing a ns' with
  | nil => cases h; simp
  | cons m r ih =>
    simp only [trainAll] at h
    cases hm : m.s.inputDim with
    | none => rw [hm] at h; cases h
    | some w =>
      rw [hm] at h
      simp only at h
      split at h
      · next htr =>
        generalize hR : train m.K (colBlock x a w) args m.s = R at h
        obtain ⟨res, s⟩ := R
        cases res with
        | error e => cases h
        | ok u =>
          simp only at h
          generalize hQ : trainAll x args (a + w) r = Q at h
          obtain ⟨res, r'⟩ := Q
          cases h
          obtain ⟨g1, g2⟩ := ih _ r' hQ
          refine ⟨by simp [g1], fun i nd hi => ?_⟩
          cases i with
          | zero =>
            simp only [List.getElem?_cons_zero, Option.some.injEq] at hi ⊢
            subst hi
            refine ⟨w, s, rfl, hm, ?_⟩
            rw [if_pos htr]
            simpa [offset] using hR
          | succ i =>
            obtain ⟨v, s2, f1, f2, f3⟩ := g2 i nd (by simpa using hi)
            refine ⟨v, s2, by simpa using f1, f2, ?_⟩
            rw [offset_succ m r w i hm, ← Nat.add_assoc]
            exact f3
      · next htr =>
        generalize hQ : trainAll x args (a + w) r = Q at h
        obtain ⟨res, r'⟩ := Q
        cases h
        obtain ⟨g1, g2⟩ := ih _ r' hQ
        refine ⟨by simp [g1], fun i nd hi => ?_⟩
        cases i with
        | zero =>
          simp only [List.getElem?_cons_zero, Option.some.injEq] at hi ⊢
          subst hi
          refine ⟨w, m.s, rfl, hm, ?_⟩
          rw [if_neg htr]
        | succ i =>
          obtain ⟨v, s2, f1, f2, f3⟩ := g2 i nd (by simpa using hi)
          refine ⟨v, s2, by simpa using f1, f2, ?_⟩
          rw [offset_succ m r w i hm, ← Nat.add_assoc]
          exact f3

theorem stopAll_get (ns ns' : List (Nd σ α β)) (h : stopAll ns = (.ok (), ns')) :
    ns'.length = ns.length ∧ ∀ (i : Nat) (nd : Nd σ α β), ns[i]? = some nd → ∃ s2, ns'[i]? = some ⟨nd.K, s2⟩ ∧
      if nd.s.training then stopTraining nd.K nd.s = (.ok (), s2) else s2 = nd.s := by
  induction ns generalizing ns' with
  | nil => cases h; simp
  | cons m r ih =>
    simp only [stopAll] at h
    split at h
    · next htr =>
      generalize hR : stopTraining m.K m.s = R at h
      obtain ⟨res, s⟩ := R
      cases res with
      | error e => cases h
      | ok u =>
        simp only at h
        generalize hQ : stopAll r = Q at h
        obtain ⟨res, r'⟩ := Q
        cases h
        obtain ⟨g1, g2⟩ := ih r' hQ
        refine ⟨by simp [g1], fun i nd hi => ?_⟩
        cases i with
        | zero =>
          simp only [List.getElem?_cons_zero, Option.some.injEq] at hi ⊢
          subst hi
          refine ⟨s, rfl, ?_⟩
          rw [if_pos htr]
          exact hR
        | succ i => simpa using g2 i nd (by simpa using hi)
    · next htr =>
      generalize hQ : stopAll r = Q at h
      obtain ⟨res, r'⟩ := Q
      cases h
      obtain ⟨g1, g2⟩ := ih r' hQ
      refine ⟨by simp [g1], fun i nd hi => ?_⟩
      cases i with
      | zero =>
        simp only [List.getElem?_cons_zero, Option.some.injEq] at hi ⊢
        subst hi
        refine ⟨m.s, rfl, ?_⟩
        rw [if_neg htr]
      | succ i => simpa using g2 i nd (by simpa using hi)

theorem runHook_ok_res {σ r : Type} (K : Kind σ α β) (h : Hooked σ r) (s s' : St σ α β) (v : r)
    (hr : runHook K h s = (.ok v, s')) : h.res = .ok v := by
  unfold runHook at hr
  obtain ⟨_, s4, h4, hr1⟩ := M.bind_eq_ok hr
  obtain ⟨_, s5, h5, hr2⟩ := M.bind_eq_ok hr1
  exact (Prod.ext_iff.1 hr2).1

/-- The inner nodes of a layer in training. -/
structure Tracks (nodes : List (Nd σ α β)) (done : List (List (Arr α × List β))) (cur : List (Arr α × List β))
    (ns : List (Nd σ α β)) : Prop where
  len : ns.length = nodes.length
  inp : ns.map (fun nd => nd.s.inputDim) = nodes.map fun nd => nd.s.inputDim
  each : ∀ (i : Nat) (nd0 : Nd σ α β) (w : Nat), nodes[i]? = some nd0 → nd0.s.inputDim = some w →
    ∃ nd, ns[i]? = some nd ∧ Track nd0 (offset nodes i) w done cur nd

theorem adv_inp {ms ns : List (Nd σ α β)} (h : AdvL ms ns) (hs : ∀ nd ∈ ms, nd.s.inputDim ≠ none) :
    ns.map (fun nd => nd.s.inputDim) = ms.map fun nd => nd.s.inputDim := by
  induction h with
  | nil => rfl
  | @cons m n r r' h1 _ ih =>
    rw [List.map_cons, List.map_cons, ih (fun nd hnd => hs nd (by simp [hnd]))]
    congr 1
    exact h1.fwd.inp.resolve_left (hs m (by simp))

theorem map_inp_ne {ms ns : List (Nd σ α β)} (h : ns.map (fun nd => nd.s.inputDim) = ms.map fun nd => nd.s.inputDim)
    (hs : ∀ nd ∈ ms, nd.s.inputDim ≠ none) : ∀ nd ∈ ns, nd.s.inputDim ≠ none := by
  intro nd hnd
  have : nd.s.inputDim ∈ ns.map fun nd => nd.s.inputDim := List.mem_map.2 ⟨nd, hnd, rfl⟩
  rw [h, List.mem_map] at this
  obtain ⟨m, hm, e⟩ := this
  rw [← e]; exact hs m hm

theorem Tracks.train {nodes ns ns1 ns2 : List (Nd σ α β)} {done : List (List (Arr α × List β))}
    {cur : List (Arr α × List β)} (h : Tracks nodes done cur ns) (hn : ∀ nd ∈ nodes, Sane nd.K ∧ Inv nd.K nd.s)
    (hs : ∀ nd ∈ nodes, nd.s.inputDim ≠ none) (x : Arr α) (t t' : Nat) (args : List β)
    (h1 : setDtypes t' ns = (.ok (), ns1)) (h2 : trainAll (refcast (some t) x) args 0 ns1 = (.ok (), ns2)) :
    Tracks nodes done (cur ++ [(x, args)]) ns2 := by
  obtain ⟨a1, a2⟩ := setDtypes_get t' ns ns1 h1
  obtain ⟨b1, b2⟩ := trainAll_get _ args 0 ns1 ns2 h2
  have i1 : ns1.map (fun nd => nd.s.inputDim) = nodes.map fun nd => nd.s.inputDim := by
    have := setDtypes_adv t' ns
    rw [h1] at this
    exact (adv_inp this (map_inp_ne h.inp hs)).trans h.inp
  have i2 : ns2.map (fun nd => nd.s.inputDim) = nodes.map fun nd => nd.s.inputDim := by
    have := trainAll_adv (refcast (some t) x) args 0 ns1
    rw [h2] at this
    exact (adv_inp this (map_inp_ne i1 hs)).trans i1
  refine ⟨by rw [b1, a1, h.len], i2, fun i nd0 w hi hw => ?_⟩
  obtain ⟨nd, hnd, htr⟩ := h.each i nd0 w hi hw
  obtain ⟨s1, hs1, hsoft, hdt⟩ := a2 i nd hnd
  obtain ⟨w', s2, hs2, hw', hres⟩ := b2 i _ hs1
  have hmem : nd0 ∈ nodes := List.mem_of_getElem? hi
  have hww : w' = w := by
    have e1 : (ns1.map fun nd => nd.s.inputDim)[i]? = some s1.inputDim := by simp [hs1]
    have e2 : (nodes.map fun nd => nd.s.inputDim)[i]? = some nd0.s.inputDim := by simp [hi]
    rw [i1, e2, hw] at e1
    simp only at hw'
    rw [hw'] at e1
    exact (Option.some.inj (Option.some.inj e1)).symm
  subst hww
  refine ⟨_, hs2, ?_⟩
  refine (htr.train (hn nd0 hmem).2 (hn nd0 hmem).1 s1 s2 t' hsoft hdt x _ args (fun u => ?_) hres).1
  rw [Nat.zero_add, offset_congr nodes ns1 i1]
  rfl

theorem Tracks.stop {nodes ns ns2 : List (Nd σ α β)} {done : List (List (Arr α × List β))}
    {cur : List (Arr α × List β)} (h : Tracks nodes done cur ns) (hn : ∀ nd ∈ nodes, Sane nd.K ∧ Inv nd.K nd.s)
    (hs : ∀ nd ∈ nodes, nd.s.inputDim ≠ none) (hne : cur ≠ []) (h2 : stopAll ns = (.ok (), ns2)) :
    Tracks nodes (done ++ [cur]) [] ns2 := by
  obtain ⟨b1, b2⟩ := stopAll_get ns ns2 h2
  have i2 : ns2.map (fun nd => nd.s.inputDim) = nodes.map fun nd => nd.s.inputDim := by
    have := stopAll_adv ns
    rw [h2] at this
    exact (adv_inp this (map_inp_ne h.inp hs)).trans h.inp
  refine ⟨by rw [b1, h.len], i2, fun i nd0 w hi hw => ?_⟩
  obtain ⟨nd, hnd, htr⟩ := h.each i nd0 w hi hw
  obtain ⟨s2, hs2, hres⟩ := b2 i _ hnd
  exact ⟨_, hs2, htr.stop (hn nd0 (List.mem_of_getElem? hi)).2 hne s2 hres⟩

/-! ### The layer -/

theorem layer_train_ok (nodes : List (Nd σ α β)) (s s' : St (List (Nd σ α β)) α β) (x : Arr α) (args : List β)
    (h : train (layerKind nodes) x args s = (.ok (), s')) :
    ∃ t t' ns1, setDtypes t' s.st = (.ok (), ns1) ∧ trainAll (refcast (some t) x) args 0 ns1 = (.ok (), s'.st) := by
  rcases train_cases (layerKind nodes) x args s with ⟨e, he, _⟩ | ⟨_, _, _, he⟩ |
    ⟨h1, h2, h3, h4, s1, s2, hs1, hwf, hst, _, hr, hs'⟩
  · rw [h] at he; cases he
  · rw [h] at he; cases he
  · rw [h] at hr hs'
    simp only at hr hs'
    have hst2 : s'.st = s2.st := by rw [hs']
    have hres := runHook_ok_res _ _ _ _ _ hr
    have hhst := runHook_st (layerKind nodes) ((layerKind nodes).trainHook s.phase.toNat s1.st (refcast s1.dtype x) args)
      { s1 with started := true }
    rw [hr, hst] at hhst
    rw [hst] at hres
    simp only at hhst
    rw [hst2, hhst]
    have hdt : ∃ t, s1.dtype = some t := Option.ne_none_iff_exists'.1 (by
      have := (train_ok_trace _ _ _ _ _ h).2.2.2.2.1
      rcases hwf with ⟨-, -, -, hw⟩
      exact hw)
    obtain ⟨t, ht⟩ := hdt
    rw [ht] at hres ⊢
    simp only [layerKind, withDtype] at hres ⊢
    generalize hR : setDtypes (refcast (some t) x).dtype s.st = R at hres ⊢
    obtain ⟨r, ns1⟩ := R
    cases r with
    | error e => cases hres
    | ok u =>
      simp only at hres ⊢
      exact ⟨t, _, ns1, hR, Prod.ext hres rfl⟩

theorem layer_stop_ok (nodes : List (Nd σ α β)) (s s' : St (List (Nd σ α β)) α β)
    (h : stopTraining (layerKind nodes) s = (.ok (), s')) : stopAll s.st = (.ok (), s'.st) := by
  rcases stop_cases (layerKind nodes) s with ⟨e, he⟩ | ⟨_, _, _, _, s2, hs, ⟨e, _, he⟩ | ⟨hr, he⟩⟩
  · rw [h] at he; cases he
  · rw [h] at he; cases he
  · rw [h] at he
    have hst2 : s'.st = s2.st := by cases he; rfl
    have hres := runHook_ok_res _ _ _ _ _ hr
    have hhst := runHook_st (layerKind nodes) ((layerKind nodes).stopHook s.phase.toNat s.st) s
    rw [hr] at hhst
    simp only at hhst
    rw [hst2, hhst]
    simp only [layerKind, stopHook] at hres ⊢
    generalize hR : stopAll s.st = R at hres ⊢
    obtain ⟨r, ns1⟩ := R
    cases r with
    | error e => cases hres
    | ok u => rfl

theorem trainOn_tracks (nodes : List (Nd σ α β)) (hn : ∀ nd ∈ nodes, Sane nd.K ∧ Inv nd.K nd.s)
    (hs : ∀ nd ∈ nodes, nd.s.inputDim ≠ none) (done : List (List (Arr α × List β))) (cur cs : List (Arr α × List β))
    (s s' : St (List (Nd σ α β)) α β) (ht : Tracks nodes done cur s.st)
    (h : trainOn (layerKind nodes) cs s = (.ok (), s')) : Tracks nodes done (cur ++ cs) s'.st ∧
      s'.phase = s.phase ∧ s'.training = s.training ∧ (cs = [] → s' = s) := by
  induction cs generalizing s cur with
  | nil => cases h; simpa using ht
  | cons c r ih =>
    obtain ⟨_, s1, h1, h⟩ := M.bind_eq_ok h
    obtain ⟨t, t', ns1, g1, g2⟩ := layer_train_ok nodes s s1 _ _ h1
    have ht1 := ht.train hn hs c.1 t t' c.2 g1 g2
    obtain ⟨f1, f2, f3, _⟩ := ih _ s1 ht1 h
    obtain ⟨_, b2, _, b4, _⟩ := train_ok_trace _ _ _ _ _ h1
    refine ⟨by simpa using f1, f2.trans b2, f3.trans b4, by simp⟩

theorem stop_started {σ : Type} (K : Kind σ α β) (s s' : St σ α β) (h : stopTraining K s = (.ok (), s')) :
    s.started = true ∧ s.training = true ∧ s'.training = decide (¬ (K.trainable = true → s.phase + 1 = K.nPhases)) := by
  rcases stop_cases K s with ⟨e, he⟩ | ⟨h1, h2, _, _, s2, hs, ⟨e, _, he⟩ | ⟨hr, he⟩⟩
  · rw [h] at he; cases he
  · rw [h] at he; cases he
  · rw [h] at he; cases he; exact ⟨h2, h1, rfl⟩

theorem runPhases_tracks (nodes : List (Nd σ α β)) (hn : ∀ nd ∈ nodes, Sane nd.K ∧ Inv nd.K nd.s)
    (hs : ∀ nd ∈ nodes, nd.s.inputDim ≠ none) (done ws : List (List (Arr α × List β)))
    (s s' : St (List (Nd σ α β)) α β) (ht : Tracks nodes done [] s.st) (hst : s.started = false)
    (h : runPhases (layerKind nodes) ws s = (.ok (), s')) :
    Tracks nodes (done ++ ws) [] s'.st ∧ s'.phase = s.phase + ws.length ∧
      (ws ≠ [] → s'.training = decide (¬ ((layerKind nodes).trainable = true → s'.phase = (layerKind nodes).nPhases))) ∧
      (ws = [] → s' = s) ∧ (ws ≠ [] → (layerKind nodes).trainable = true) := by
  induction ws generalizing s done with
  | nil => cases h; simpa using ht
  | cons w r ih =>
    obtain ⟨_, s1, h1, h⟩ := M.bind_eq_ok h
    obtain ⟨_, s2, h2, h⟩ := M.bind_eq_ok h
    obtain ⟨g1, g2, g3, g4⟩ := trainOn_tracks nodes hn hs done [] w s s1 ht h1
    obtain ⟨k1, k2, k3⟩ := stop_started _ _ _ h2
    have hw : w ≠ [] := by
      intro e
      rw [g4 e, hst] at k1
      cases k1
    have ht2 := g1.stop hn hs (by simpa using hw) (layer_stop_ok nodes s1 s2 h2)
    obtain ⟨b1, b2, b3⟩ := stop_ok_trace _ _ _ h2
    obtain ⟨f1, f2, f3, f4, f5⟩ := ih _ s2 ht2 b3 h
    have htr : (layerKind nodes).trainable = true := by
      cases w with
      | nil => exact absurd rfl hw
      | cons c w =>
        obtain ⟨_, s3, h3, _⟩ := M.bind_eq_ok h1
        exact (train_ok_trace _ _ _ _ _ h3).2.2.2.2.2.1
    refine ⟨by simpa using f1, ?_, ?_, by simp, fun _ => htr⟩
    · rw [f2, b2, g2, List.length_cons]; push_cast; omega
    · intro _
      cases r with
      | nil => rw [f4 rfl, k3, b2]
      | cons v r => exact f3 (by simp)

end Mdp.Layer
