import Verif.Hinet.FlowNodeLemmas

/-! # Training a flow node phase by phase -/

namespace Mdp.FlowNode

open Py Mdp.Node Mdp.Flow Mdp.Layer

variable {σ α β : Type}

theorem closed_pure {l : List (Nd σ α β)} (h : ∀ n ∈ l, Closed n) : ∀ n ∈ l, PureExec n.K :=
  fun n hn => (h n hn).ready.nice.pureExec

/-- Training on the chunks of one phase. -/
theorem trainOn_flow (nodes pre post : List (Nd σ α β)) (nd : Nd σ α β) (cs : List (Arr α × List β))
    (s s' : St (List (Nd σ α β)) α β) (hst : s.st = pre ++ nd :: post)
    (hp : (phaseSeq 0 nodes)[s.phase.toNat]? = some pre.length) (hc : ∀ n ∈ pre, Closed n)
    (hn : Nice nd.K) (hi : Inv nd.K nd.s) (h : trainOn (flowKind nodes) cs s = (.ok (), s')) :
    ∃ (pre' : List (Nd σ α β)) (nd' : Nd σ α β) (post' : List (Nd σ α β)), s'.st = pre' ++ nd' :: post' ∧
      KeepL pre pre' ∧ (cs ≠ [] → ∀ n ∈ pre', Stable n.s) ∧
      SoftL post post' ∧ nd'.K = nd.K ∧ Inv nd.K nd'.s ∧ nd'.s.phase = nd.s.phase ∧
      nd'.s.training = nd.s.training ∧ (nd.s.dtype = none ∨ nd'.s.dtype = nd.s.dtype) ∧
      (cs ≠ [] → nd'.s.dtype ≠ none ∧ nd.K.trainable = true ∧ nd.s.training = true) ∧
      s'.phase = s.phase ∧ (cs = [] → s' = s) ∧
      ∃ w, List.Forall₂ (Proc pre') cs w ∧
        ∀ t, nd'.s.dtype = some t → ts nd'.s = ts nd.s ++ phaseEv t nd.s.phase.toNat w := by
  induction cs generalizing s pre nd post with
  | nil =>
    cases h
    exact ⟨pre, nd, post, hst, KeepL.refl hc, by simp, SoftL.refl _, rfl, hi, rfl, rfl, .inr rfl, by simp, rfl,
      fun _ => rfl, [], .nil, by simp [phaseEv]⟩
  | cons c r ih =>
    obtain ⟨x, args⟩ := c
    obtain ⟨_, s1, h1, h⟩ := M.bind_eq_ok h
    obtain ⟨t0, g1, g2⟩ := flow_train_ok nodes s s1 x args h1
    rw [hst] at g1 g2
    obtain ⟨pre1, nd0, v, n1, post1, e1, k1, k2, k3, k4, k5, k6, k7⟩ :=
      trainHook_ok _ _ pre post s1.st nd _ args hp hc g1 g2
    obtain ⟨w0, k8, k9⟩ := proc_cast k2 (closed_pure (KeepL.closed k1)) t0 x v args k3
    obtain ⟨_, b2, _, _, _⟩ := train_ok_trace _ _ _ _ _ h1
    obtain ⟨c1, c2, c3, c4, c5, c6, c7, c8, c9⟩ := train_ok_trace nd.K v args nd0.s n1 k6
    have hsoft := k4.2
    have hi1 : Inv nd.K n1 := by
      have := train_inv nd.K hn.sane v args nd0.s (hsoft.inv hi)
      rw [k6] at this; exact this
    have hlen : pre1.length = pre.length := k1.length_eq.symm
    obtain ⟨pre', nd', post', f1, f2, f3, f4, f5, f6, f7, f8, f9, f10, f11, f12, w, f13, f14⟩ :=
      ih pre1 post1 ⟨nd.K, n1⟩ s1 e1 (by rw [b2, hlen]; exact hp) (KeepL.closed k1) hn hi1 h
    simp only at f5 f6 f7 f8 f9 f14
    refine ⟨pre', nd', post', f1, KeepL.trans k1 f2, fun _ => KeepL.stable f2 k2, SoftL.trans k7 f4, f5, f6,
      f7.trans (c2.trans hsoft.phase), f8.trans (c4.trans hsoft.training), ?_, ?_, f11.trans b2, by simp, ?_⟩
    · have hf := (train_fwd nd.K v args nd0.s).dt
      rw [k6] at hf
      rcases hsoft.dt with a | a
      · exact .inl a
      · rcases hf with b | b
        · rw [k5] at b; cases b
        · rcases f9 with d | d
          · exact absurd d c5
          · exact .inr (d.trans (b.trans a))
    · intro _
      refine ⟨?_, c6, hsoft.training ▸ c7⟩
      rcases f9 with d | d
      · exact absurd d c5
      · rw [d]; exact c5
    · refine ⟨(w0, args) :: w, .cons (k8.mono (KeepL.sameVis f2 k2)) f13, fun t ht => ?_⟩
      have hdt : n1.dtype = some t := by
        rcases f9 with d | d
        · exact absurd d c5
        · exact d.symm.trans ht
      have hts : ts n1 = ts nd.s ++ [.train nd.s.phase.toNat (refcast (some t) w0) args true] := by
        unfold ts
        rw [c1, List.filter_append, hsoft.trace, hsoft.phase, hdt, k9]
        simp [isTS]
      rw [f14 t ht, hts, c2, hsoft.phase]
      simp [phaseEv]

/-- The phases of one internal node. -/
theorem runPhases_node (nodes pre post : List (Nd σ α β)) (nd : Nd σ α β) (ws : List (List (Arr α × List β)))
    (s s' : St (List (Nd σ α β)) α β) (hst : s.st = pre ++ nd :: post) (hs0 : s.started = false)
    (hp0 : 0 ≤ s.phase)
    (hp : ∀ j, j < ws.length → (phaseSeq 0 nodes)[s.phase.toNat + j]? = some pre.length) (hc : ∀ n ∈ pre, Closed n)
    (hn : Nice nd.K) (hi : Inv nd.K nd.s) (h : runPhases (flowKind nodes) ws s = (.ok (), s')) :
    ∃ (pre' : List (Nd σ α β)) (nd' : Nd σ α β) (post' : List (Nd σ α β)), s'.st = pre' ++ nd' :: post' ∧
      KeepL pre pre' ∧ (ws ≠ [] → ∀ n ∈ pre', Stable n.s) ∧
      SoftL post post' ∧ nd'.K = nd.K ∧ Inv nd.K nd'.s ∧ nd'.s.phase = nd.s.phase + ws.length ∧
      (nd.s.dtype = none ∨ nd'.s.dtype = nd.s.dtype) ∧
      (ws ≠ [] → nd'.s.dtype ≠ none ∧ nd.K.trainable = true) ∧
      s'.phase = s.phase + ws.length ∧ s'.started = false ∧
      ∃ vs, List.Forall₂ (List.Forall₂ (Proc pre')) ws vs ∧
        ∀ t, nd'.s.dtype = some t → ts nd'.s = ts nd.s ++ fullTrace t nd.s.phase.toNat vs := by
  induction ws generalizing s pre nd post with
  | nil =>
    cases h
    exact ⟨pre, nd, post, hst, KeepL.refl hc, by simp, SoftL.refl _, rfl, hi, by simp, .inr rfl, by simp, by simp,
      hs0, [], .nil, by simp [fullTrace]⟩
  | cons w r ih =>
    obtain ⟨_, s1, h1, h⟩ := M.bind_eq_ok h
    obtain ⟨_, s2, h2, h⟩ := M.bind_eq_ok h
    have hp1 : (phaseSeq 0 nodes)[s.phase.toNat]? = some pre.length := by simpa using hp 0 (by simp)
    obtain ⟨pre1, nd1, post1, a1, a2, a3, a4, a5, a6, a7, a8, a9, a10, a11, a12, v, a13, a14⟩ :=
      trainOn_flow nodes pre post nd w s s1 hst hp1 hc hn hi h1
    obtain ⟨k1, k2, k3⟩ := stop_started _ _ _ h2
    have hw : w ≠ [] := by
      intro e
      rw [a12 e, hs0] at k1
      cases k1
    obtain ⟨b1, b2, b3⟩ := stop_ok_trace _ _ _ h2
    obtain ⟨g1, g2⟩ := flow_stop_ok nodes s1 s2 h2
    rw [a1] at g1 g2
    have hl1 : pre1.length = pre.length := a2.length_eq.symm
    obtain ⟨pre2, n0, nd2, post2, e1, e2, e3, e4, e5⟩ :=
      stopHook_ok _ _ pre1 post1 s2.st nd1 (by rw [a11, hl1]; exact hp1) (KeepL.closed a2) g1 g2
    rw [a5] at e3 e4
    obtain ⟨d1, d2, d3⟩ := stop_ok_trace nd.K nd1.s n0 e3
    have hsoft := e4.2
    have hi2 : Inv nd.K nd2.s := by
      have := stop_inv nd.K nd1.s a6
      rw [e3] at this
      exact hsoft.inv this
    have hl2 : pre2.length = pre1.length := e2.length_eq.symm
    have hK2 : nd2.K = nd.K := e4.1
    obtain ⟨hne, htr, htrn⟩ := a10 hw
    obtain ⟨pre', nd', post', f1, f2, f3, f4, f5, f6, f7, f8, f9, f10, f11, vs, f12, f13⟩ :=
      ih pre2 post2 nd2 s2 e1 b3 (by rw [b2, a11]; omega)
        (fun j hj => by
          have := hp (j + 1) (by simp; omega)
          rw [b2, a11, hl2, hl1, ← this]
          congr 1; omega)
        (KeepL.closed e2) (hK2 ▸ hn) (hK2 ▸ hi2) h
    obtain ⟨t1, ht1⟩ := Option.ne_none_iff_exists'.1 hne
    have hdt0 : n0.dtype = some t1 := by
      have := (stop_fwd nd.K nd1.s).dt
      rw [e3] at this
      rcases this with e | e
      · exact absurd e hne
      · exact e.trans ht1
    have hdt2 : nd2.s.dtype = some t1 := by
      rcases hsoft.dt with e | e
      · simp only at e; rw [hdt0] at e; cases e
      · exact e.trans hdt0
    have hdt' : nd'.s.dtype = some t1 := by
      rcases f8 with e | e
      · rw [hdt2] at e; cases e
      · exact e.trans hdt2
    have hph2 : nd2.s.phase = nd.s.phase + 1 := by
      rw [hsoft.phase]; simp only; rw [d2, a7]
    have hst1 : ∀ n ∈ pre', Stable n.s := KeepL.stable f2 (KeepL.stable e2 (a3 hw))
    refine ⟨pre', nd', post', f1, KeepL.trans a2 (KeepL.trans e2 f2), fun _ => hst1,
      SoftL.trans a4 (SoftL.trans e5 f4), f5.trans hK2, hK2 ▸ f6, ?_, ?_, fun _ => ⟨by rw [hdt']; simp, htr⟩, ?_, f11,
      v :: vs, .cons ?_ f12, fun t ht => ?_⟩
    · rw [f7, hph2, List.length_cons]; push_cast; omega
    · rw [hdt', ← ht1]; exact a9
    · rw [f10, b2, a11, List.length_cons]; push_cast; omega
    · exact Proc.monoL a13 (KeepL.sameVis (KeepL.trans e2 f2) (a3 hw))
    · have : t = t1 := by rw [hdt'] at ht; exact (Option.some.inj ht).symm
      subst this
      have hpos : 0 ≤ nd.s.phase := by
        have := (hi.tr htr).1; omega
      have hts2 : ts nd2.s = ts nd.s ++ phaseEv t nd.s.phase.toNat v ++ [.stop nd.s.phase.toNat true] := by
        have : ts nd2.s = ts n0 := ts_soft hsoft
        rw [this, ← a14 t ht1]
        unfold ts
        rw [d1, List.filter_append, a7]
        simp [isTS]
      rw [f13 t ht, hts2, fullTrace, hph2]
      have : (nd.s.phase + 1).toNat = nd.s.phase.toNat + 1 := by omega
      rw [this]
      simp

theorem runPhases_append {σ : Type} (K : Kind σ α β) (a b : List (List (Arr α × List β))) (s s' : St σ α β)
    (h : runPhases K (a ++ b) s = (.ok (), s')) :
    ∃ s1, runPhases K a s = (.ok (), s1) ∧ runPhases K b s1 = (.ok (), s') := by
  induction a generalizing s with
  | nil => exact ⟨s, rfl, h⟩
  | cons w r ih =>
    rw [List.cons_append] at h
    obtain ⟨u, s1, h1, h⟩ := M.bind_eq_ok h
    obtain ⟨u', s2, h2, h⟩ := M.bind_eq_ok h
    obtain ⟨s3, h3, h4⟩ := ih s2 h
    refine ⟨s3, ?_, h4⟩
    rw [← h3]
    simp only [runPhases, M.bind_def, h1, h2]

/-- Number of phases of the nodes before position `i`. -/
def phasesBefore (nodes : List (Nd σ α β)) (i : Nat) : Nat := ((nodes.take i).map left).sum

theorem left_eq (nd : Nd σ α β) :
    left nd = if nd.K.trainable then ((nd.K.nPhases : Int) - nd.s.phase).toNat else 0 := by
  unfold left remaining; split <;> simp

theorem phaseSeq_cons (i : Nat) (nd : Nd σ α β) (r : List (Nd σ α β)) :
    phaseSeq i (nd :: r) = List.replicate (left nd) i ++ phaseSeq (i + 1) r := by
  rw [phaseSeq, left_eq]
  split <;> simp

theorem phaseSeq_length (i : Nat) (nodes : List (Nd σ α β)) : (phaseSeq i nodes).length = (nodes.map left).sum := by
  induction nodes generalizing i with
  | nil => rfl
  | cons nd r ih => simp [phaseSeq_cons, ih]

theorem left_soft {m n : Nd σ α β} (h : SoftNd m n) : left n = left m := by
  rw [left_eq, left_eq, h.1, h.2.phase]

theorem closed_of_left {nd : Nd σ α β} (hn : Nice nd.K) (hi : Inv nd.K nd.s) (h : left nd = 0) : Closed nd := by
  rw [left_eq] at h
  by_cases hk : nd.K.trainable = true
  · rw [if_pos hk] at h
    obtain ⟨h1, h2, h3, h4⟩ := hi.tr hk
    have htr : nd.s.training = false := by
      by_contra e
      have := h3.1 (by simpa using e)
      omega
    refine ⟨⟨hn, hi, ?_, fun e => by rw [htr] at e; cases e⟩, htr⟩
    rintro ⟨a, -⟩
    have := hn.sane hk
    omega
  · have hk : nd.K.trainable = false := by simpa using hk
    obtain ⟨h1, h2, h3⟩ := hi.ntr hk
    refine ⟨⟨hn, hi, ?_, fun e => by rw [h2] at e; cases e⟩, h2⟩
    rintro ⟨a, -⟩; omega

theorem runPhases_flow (nodes : List (Nd σ α β)) (S : List Nat) (rest0 pre rest : List (Nd σ α β))
    (s s' : St (List (Nd σ α β)) α β) (ws : List (List (Arr α × List β)))
    (hst : s.st = pre ++ rest) (hsoft : SoftL rest0 rest) (hseq : phaseSeq 0 nodes = S ++ phaseSeq pre.length rest0)
    (hS : s.phase = S.length ∨ (phaseSeq pre.length rest0 = [])) (hs0 : s.started = false)
    (hc : ∀ n ∈ pre, Closed n) (hn : ∀ n ∈ rest0, Nice n.K ∧ Inv n.K n.s)
    (hw : ws.length = (phaseSeq pre.length rest0).length)
    (h : runPhases (flowKind nodes) ws s = (.ok (), s')) :
    ∃ (pre' rest' : List (Nd σ α β)), s'.st = pre' ++ rest' ∧ KeepL pre pre' ∧ rest'.length = rest0.length ∧
      ∀ (i : Nat) (nd : Nd σ α β), rest0[i]? = some nd → ∃ nd' : Nd σ α β, rest'[i]? = some nd' ∧ nd'.K = nd.K ∧
        Closed nd' ∧ (nd.s.dtype = none ∨ nd'.s.dtype = nd.s.dtype) ∧ ∃ t vs, (0 < left nd → nd'.s.dtype = some t) ∧
          (0 < left nd → ∀ n ∈ pre' ++ rest'.take i, Stable n.s) ∧
          List.Forall₂ (List.Forall₂ (Proc (pre' ++ rest'.take i))) ((ws.drop (phasesBefore rest0 i)).take (left nd)) vs ∧
          ts nd'.s = ts nd.s ++ fullTrace t nd.s.phase.toNat vs := by
  induction rest0 generalizing pre rest s ws S with
  | nil =>
    have : ws = [] := by simpa [phaseSeq] using hw
    subst this
    cases h
    cases hsoft
    exact ⟨pre, [], hst, KeepL.refl hc, rfl, by simp⟩
  | cons nd0 r0 ih =>
    cases hsoft with
    | @cons _ nd _ r hs1 hs2 =>
    obtain ⟨hn0, hi0⟩ := hn nd0 (by simp)
    have hleft : left nd = left nd0 := left_soft hs1
    have hK : nd.K = nd0.K := hs1.1
    have hi : Inv nd.K nd.s := hK ▸ hs1.2.inv hi0
    rw [phaseSeq_cons] at hseq hw hS
    -- split the data
    have hwl : ws.length = left nd0 + (phaseSeq (pre.length + 1) r0).length := by simpa using hw
    have hsplit : ws = ws.take (left nd0) ++ ws.drop (left nd0) := (List.take_append_drop _ _).symm
    have hl1 : (ws.take (left nd0)).length = left nd0 := by rw [List.length_take]; omega
    rw [hsplit] at h
    obtain ⟨s1, h1, h2⟩ := runPhases_append _ _ _ s s' h
    have hgroup : ∃ (pre' : List (Nd σ α β)) (nd' : Nd σ α β) (post' : List (Nd σ α β)), s1.st = pre' ++ nd' :: post' ∧
      KeepL pre pre' ∧ (ws.take (left nd0) ≠ [] → ∀ n ∈ pre', Stable n.s) ∧
      SoftL r post' ∧ nd'.K = nd.K ∧ Inv nd.K nd'.s ∧ nd'.s.phase = nd.s.phase + (ws.take (left nd0)).length ∧
      (nd.s.dtype = none ∨ nd'.s.dtype = nd.s.dtype) ∧
      (ws.take (left nd0) ≠ [] → nd'.s.dtype ≠ none ∧ nd.K.trainable = true) ∧
      (s1.phase = s.phase + (ws.take (left nd0)).length) ∧ s1.started = false ∧
      ∃ vs, List.Forall₂ (List.Forall₂ (Proc pre')) (ws.take (left nd0)) vs ∧
        ∀ t, nd'.s.dtype = some t ∨ left nd0 = 0 → ts nd'.s = ts nd.s ++ fullTrace t nd.s.phase.toNat vs := by
      by_cases hz : left nd0 = 0
      · rw [hz, List.take_zero] at h1 ⊢
        cases h1
        exact ⟨pre, nd, r, hst, KeepL.refl hc, by simp, SoftL.refl _, rfl, hi, by simp, .inr rfl, by simp, by simp, hs0,
          [], .nil, by simp [fullTrace]⟩
      · have hph : s.phase = S.length := by
          rcases hS with e | e
          · exact e
          · exfalso; apply hz
            have := congrArg List.length e
            simp at this
            exact this.1
        obtain ⟨pre', nd', post', a1, a2, a3, a4, a5, a6, a7, a8, a9, a10, a11, vs, a12, a13⟩ :=
          runPhases_node nodes pre r nd (ws.take (left nd0)) s s1 hst hs0 (by omega)
            (fun j hj => by
              rw [hl1] at hj
              rw [hseq, hph, List.getElem?_append_right (by omega)]
              rw [show (S.length : Int).toNat + j - S.length = j by omega, List.getElem?_append_left (by simpa using hj)]
              simp [hj]) hc (hK ▸ hn0) hi h1
        refine ⟨pre', nd', post', a1, a2, a3, a4, a5, a6, a7, a8, a9, a10, a11, vs, a12, fun t ht => ?_⟩
        exact a13 t (ht.resolve_right hz)
    obtain ⟨pre1, nd1, post1, a1, a2, a3, a4, a5, a6, a7, a8, a9, a10, a11, vs, a12, a13⟩ := hgroup
    have hcl : Closed nd1 := by
      refine closed_of_left (by rw [a5, hK]; exact hn0) (by rw [a5]; exact a6) ?_
      have e1 := left_eq nd0
      rw [left_eq, a5, a7, hl1, hK, hs1.2.phase]
      split
      · next hk => rw [if_pos hk] at e1; omega
      · rfl
    have hpl : pre1.length = pre.length := a2.length_eq.symm
    have hlen2 : (pre1 ++ [nd1]).length = pre.length + 1 := by simp [hpl]
    obtain ⟨pre2, rest', b1, b2, b3, b4⟩ := ih (S ++ List.replicate (left nd0) pre.length) (pre1 ++ [nd1]) post1 s1
      (ws.drop (left nd0)) (by rw [a1]; simp) (SoftL.trans hs2 a4) (by rw [hseq, hlen2]; simp)
      (by
        rw [hlen2]
        rcases hS with e | e
        · left; rw [a10, e, hl1]; simp
        · right
          exact (List.append_eq_nil_iff.1 e).2)
      a11 (by
        intro n hn'
        rcases List.mem_append.1 hn' with e | e
        · exact KeepL.closed a2 n e
        · rw [List.mem_singleton.1 e]; exact hcl)
      (fun n hn' => hn n (by simp [hn'])) (by rw [hlen2, List.length_drop]; omega) h2
    obtain ⟨pre', nd', post2, rfl, c1, c2, c3⟩ := split_forall₂ b2
    cases c3
    refine ⟨pre', nd' :: rest', by rw [b1]; simp, KeepL.trans a2 c1, by simp [b3], fun i m hm => ?_⟩
    cases i with
    | zero =>
      simp only [List.getElem?_cons_zero, Option.some.injEq] at hm
      subst hm
      have hdt : nd0.s.dtype = none ∨ nd'.s.dtype = nd0.s.dtype := by
        rcases hs1.2.dt with e | e
        · exact .inl e
        · rcases a8 with e' | e'
          · exact .inl (e ▸ e')
          · rcases c2.dt with e'' | e''
            · exact .inl (by rw [← e, ← e']; exact e'')
            · exact .inr (e''.trans (e'.trans e))
      have htake : ∀ h : 0 < left nd0, ws.take (left nd0) ≠ [] := by
        intro h e
        rw [e] at hl1; simp at hl1; omega
      by_cases hz : left nd0 = 0
      · refine ⟨nd', rfl, by rw [c2.K, a5, hK], c2.closed, hdt, 0, vs, fun e => by omega, fun e => by omega, ?_, ?_⟩
        · simp only [hz, List.take_zero, List.append_nil] at a12 ⊢
          cases a12; exact .nil
        · rw [c2.hist, a13 0 (.inr hz), ts_soft hs1.2, hs1.2.phase]
      · have hne := htake (by omega)
        obtain ⟨t, ht⟩ := Option.ne_none_iff_exists'.1 (a9 hne).1
        refine ⟨nd', rfl, by rw [c2.K, a5, hK], c2.closed, hdt, t, vs, fun _ => ?_, fun _ => ?_, ?_, ?_⟩
        · rcases c2.dt with e | e
          · rw [ht] at e; cases e
          · rw [e, ht]
        · simpa using KeepL.stable c1 (a3 hne)
        · simp only [phasesBefore, List.take_zero, List.map_nil, List.sum_nil, List.drop_zero, List.append_nil]
          exact a12.imp fun _ _ hh => Proc.monoL hh (KeepL.sameVis c1 (a3 hne))
        · rw [c2.hist, a13 t (.inl ht), ts_soft hs1.2, hs1.2.phase]
    | succ i =>
      obtain ⟨m', d1, d2, d3, d4, t, us, d5, d8, d6, d7⟩ := b4 i m (by simpa using hm)
      refine ⟨m', by simpa using d1, d2, d3, d4, t, us, d5, fun e => by simpa using d8 e, ?_, d7⟩
      have e1 : phasesBefore (nd0 :: r0) (i + 1) = left nd0 + phasesBefore r0 i := by simp [phasesBefore]
      rw [e1, ← List.drop_drop]
      simpa using d6

end Mdp.FlowNode
