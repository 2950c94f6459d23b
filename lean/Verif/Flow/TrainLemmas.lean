import Verif.Flow.ExecProps

namespace Mdp.Flow

open Py Mdp.Node

variable {σ α β : Type}

/-! ### Specification vocabulary -/

/-- Training and stop hook calls. -/
def isTS : Event α β → Bool
  | .train .. => true
  | .stop .. => true
  | _ => false

/-- The training history of a node. -/
def ts (s : St σ α β) : List (Event α β) := s.trace.filter isTS

/-- The hook calls of one training phase on the given (already processed) chunks. -/
def phaseEv (t : Nat) (p : Nat) (w : List (Arr α × List β)) : List (Event α β) :=
  w.map fun c => .train p (refcast (some t) c.1) c.2 true

/-- The hook calls of training phases `p, p+1, ...` each ended by its stop hook. -/
def fullTrace (t : Nat) : Nat → List (List (Arr α × List β)) → List (Event α β)
  | _, [] => []
  | p, w :: r => phaseEv t p w ++ [.stop p true] ++ fullTrace t (p + 1) r

/-- The same with the last phase left open. -/
def openTrace (t : Nat) : Nat → List (List (Arr α × List β)) → List (Event α β)
  | _, [] => []
  | p, [w] => phaseEv t p w
  | p, w :: w' :: r => phaseEv t p w ++ [.stop p true] ++ openTrace t (p + 1) (w' :: r)

theorem openTrace_stop (t p : Nat) (ws : List (List (Arr α × List β))) (h : ws ≠ []) :
    openTrace t p ws ++ [.stop (p + ws.length - 1) true] = fullTrace t p ws := by
  induction ws generalizing p with
  | nil => exact absurd rfl h
  | cons w r ih =>
    cases r with
    | nil => simp [openTrace, fullTrace]
    | cons w' r =>
      have := ih (p + 1) (by simp)
      rw [openTrace, fullTrace, ← this]
      simp only [List.length_cons, List.append_assoc]
      congr 5
      omega

/-- Hooks of the class do not raise TrainingFinishedException themselves. -/
def NoFin (K : Kind σ α β) : Prop :=
  (∀ p st x a, (K.trainHook p st x a).res ≠ .error .finished) ∧
  (∀ p st, (K.stopHook p st).res ≠ .error .finished) ∧
  (∀ st x a, K.checkTrainArgs st x a ≠ .error .finished)

/-- What is assumed about the classes of the nodes. -/
structure Nice (K : Kind σ α β) : Prop where
  sane : Sane K
  pureExec : PureExec K
  noFin : NoFin K

/-! ### Single nodes -/

/-- A node that training has dealt with: finished, or trained in its last phase. -/
structure Ready (nd : Nd σ α β) : Prop where
  nice : Nice nd.K
  inv : Inv nd.K nd.s
  touched : ¬ (nd.s.phase = 0 ∧ nd.s.started = false)
  last : nd.s.training = true → nd.s.started = true ∧ nd.K.trainable = true ∧ nd.s.phase = (nd.K.nPhases : Int) - 1

theorem ts_append (s : St σ α β) (l : List (Event α β)) :
    ts { s with trace := s.trace ++ l } = ts s ++ l.filter isTS := by simp [ts]

/-- What later executions may do to a node. -/
structure Later (m n : Nd σ α β) : Prop where
  K : n.K = m.K
  step : n.s = m.s ∨ (Stable n.s ∧ ts n.s = ts m.s ++ (if m.s.training then [.stop (m.K.nPhases - 1) true] else []))
  same : Stable m.s → visible n.s = visible m.s
  dt : m.s.dtype = none ∨ n.s.dtype = m.s.dtype

theorem Later.refl (m : Nd σ α β) : Later m m := ⟨rfl, .inl rfl, fun _ => rfl, .inr rfl⟩

theorem Later.trans {a b c : Nd σ α β} (h : Later a b) (h' : Later b c) : Later a c := by
  refine ⟨h'.K.trans h.K, ?_, ?_, ?_⟩
  · rcases h.step with h1 | ⟨h1, h2⟩
    · rcases h'.step with h3 | ⟨h3, h4⟩
      · exact .inl (h3.trans h1)
      · right; rw [h1, h.K] at h4; exact ⟨h3, h4⟩
    · right
      rcases h'.step with h3 | ⟨h3, h4⟩
      · rw [h3]; exact ⟨h1, h2⟩
      · refine ⟨h3, ?_⟩
        rw [h4, h1.training, h2]; simp
  · intro hs
    have h1 := h.same hs
    have h2 := h'.same (stable_visible h1.symm hs)
    exact h2.trans h1
  · rcases h.dt with h1 | h1
    · exact .inl h1
    · rcases h'.dt with h2 | h2
      · exact .inl (h1 ▸ h2)
      · exact .inr (h2.trans h1)

theorem execute_ready (nd : Nd σ α β) (h : Ready nd) (x y : Arr α) (s' : St σ α β)
    (he : execute nd.K x nd.s = (.ok y, s')) :
    Ready ⟨nd.K, s'⟩ ∧ Stable s' ∧ Later nd ⟨nd.K, s'⟩ ∧
    ∀ t, visible t = visible s' → (execute nd.K x t).1 = .ok y ∧ visible (execute nd.K x t).2 = visible s' := by
  obtain ⟨hst, hi', hx1, hx2, hx3, hres⟩ := execute_ok_stable nd.K h.nice.sane h.nice.pureExec x y nd.s s' h.inv he
  have hts : ts s' = ts nd.s ++ (if nd.s.training then [.stop (nd.K.nPhases - 1) true] else []) := by
    unfold execute at he
    obtain ⟨_, s1, h1, he⟩ := M.bind_eq_ok he
    have hs' : s'.trace = s1.trace ++ [.exec (refcast s1.dtype x)] := by
      simp only [M.bind_def, M.get_def, logged, runHook, M.modify_def, (h.nice.pureExec s1.st _).1,
        (h.nice.pureExec s1.st _).2, runSets, M.pure_def, M.lift_def] at he
      have h2 := (Prod.ext_iff.1 he).2
      simp only at h2
      rw [← h2]
    have h1' := h1
    unfold preExecutionChecks at h1
    obtain ⟨_, _, h0, h1⟩ := M.bind_eq_ok h1
    cases h0
    obtain ⟨_, s2, h2, h1⟩ := M.bind_eq_ok h1
    have h2 : s2 = nd.s := by
      have hw : (M.when (nd.s.phase = 0 ∧ nd.s.started = false) (trainLoop nd.K x) : NodeM σ α β Unit) nd.s =
          (.ok (), nd.s) := by simp [M.when, h.touched]
      rw [hw] at h2; cases h2; rfl
    subst h2
    obtain ⟨_, s3, h3, h1⟩ := M.bind_eq_ok h1
    have hsoft : Soft nd.K s3 s1 := by
      have p := soft_pre nd.K
      have hm : M.Moves (Soft nd.K) (do
          checkInput nd.K x
          let s ← M.get
          M.when (s.outputDim = none) (setOutputDim nd.K s.inputDim) : NodeM σ α β Unit) :=
        .bind p (checkInput_soft nd.K x) fun _ => .bind p (.get p) fun s1 => .when p (setOutputDim_soft nd.K _)
      have := hm s3
      rw [h1] at this
      exact this
    have h3' : s3.trace = nd.s.trace ++ (if nd.s.training then [.stop (nd.K.nPhases - 1) true] else []) := by
      unfold ifTrainingStopTraining at h3
      obtain ⟨_, _, h0, h3⟩ := M.bind_eq_ok h3
      cases h0
      by_cases htr : nd.s.training = true
      · rw [if_pos htr] at h3 ⊢
        obtain ⟨_, s4, h4, h3⟩ := M.bind_eq_ok h3
        obtain ⟨_, _, h0, h3⟩ := M.bind_eq_ok h3
        cases h0
        have : s4 = s3 := by split at h3 <;> cases h3; rfl
        subst this
        obtain ⟨h5, _, _⟩ := stop_ok_trace nd.K nd.s s4 h4
        rw [h5, (h.last htr).2.2]
        have := h.nice.sane (h.last htr).2.1
        congr 3
        omega
      · rw [if_neg htr] at h3 ⊢
        cases h3
        simp
    have htr : s'.trace = nd.s.trace ++ ((if nd.s.training then [.stop (nd.K.nPhases - 1) true] else []) ++
        [.exec (refcast s1.dtype x)]) := by
      rw [hs', hsoft.trace, h3', List.append_assoc]
    unfold ts
    rw [htr, List.filter_append, List.filter_append]
    split <;> simp [isTS]
  have hrep : ∀ t, visible t = visible s' →
      (execute nd.K x t).1 = .ok y ∧ visible (execute nd.K x t).2 = visible s' := by
    intro t hv
    have hstt := stable_visible hv.symm hst
    rw [execute_stable nd.K t hstt x (h.nice.pureExec t.st)]
    have hv' := hv
    simp only [visible, Prod.mk.injEq] at hv'
    obtain ⟨e1, e2, e3, e4, e5, e6, e7⟩ := hv'
    rw [if_pos ⟨hx1, e1.trans hx2, hx3⟩, e7, e3]
    refine ⟨hres, ?_⟩
    simp only [visible, e1, e2, e4, e5, e6]
  refine ⟨⟨h.nice, hi', hst.touched, fun htr => ?_⟩, hst, ⟨rfl, .inr ⟨hst, hts⟩, ?_, ?_⟩, hrep⟩
  · rw [hst.training] at htr; cases htr
  · intro hs
    have := execute_stable nd.K nd.s hs x (h.nice.pureExec nd.s.st)
    rw [he] at this
    split at this
    · have := (Prod.ext_iff.1 this).2
      simp only at this
      simp only [this]
      rfl
    · cases this
  · have := execute_fwd nd.K x nd.s
    rw [he] at this
    exact this.dt

/-! ### The nodes before the one being trained -/

def LaterL (a b : List (Nd σ α β)) : Prop := List.Forall₂ Later a b

theorem LaterL.refl (a : List (Nd σ α β)) : LaterL a a := by
  induction a with
  | nil => exact .nil
  | cons n r ih => exact .cons (.refl n) ih

theorem LaterL.trans {a b c : List (Nd σ α β)} (h : LaterL a b) (h' : LaterL b c) : LaterL a c := by
  unfold LaterL at *
  induction h generalizing c with
  | nil => cases h'; exact .nil
  | cons h1 _ ih =>
    cases h' with
    | cons h2 h3 => exact .cons (h1.trans h2) (ih h3)

theorem LaterL.sameVis {a b : List (Nd σ α β)} (h : LaterL a b) (hs : ∀ n ∈ a, Stable n.s) : SameVis a b := by
  unfold LaterL at h
  induction h with
  | nil => exact .nil
  | cons h1 _ ih =>
    exact .cons ⟨h1.K, h1.same (hs _ (by simp))⟩ (ih fun n hn => hs n (by simp [hn]))

theorem LaterL.stable {a b : List (Nd σ α β)} (h : LaterL a b) (hs : ∀ n ∈ a, Stable n.s) :
    ∀ n ∈ b, Stable n.s := by
  unfold LaterL at h
  induction h with
  | nil => simp
  | cons h1 _ ih =>
    intro n hn
    rcases List.mem_cons.1 hn with rfl | hn
    · exact stable_visible (h1.same (hs _ (by simp))).symm (hs _ (by simp))
    · exact ih (fun n hn => hs n (by simp [hn])) n hn

theorem LaterL.length {a b : List (Nd σ α β)} (h : LaterL a b) : b.length = a.length := by
  unfold LaterL at h
  exact h.length_eq.symm

theorem execSeq_ready (i : Nat) (l l' : List (Nd σ α β)) (x v : Arr α) (h : ∀ n ∈ l, Ready n)
    (he : execSeq i l.length l x = (.ok v, l')) :
    LaterL l l' ∧ (∀ n ∈ l', Ready n) ∧ (∀ n ∈ l', Stable n.s) ∧
    ∀ i' g, SameVis l' g → (execSeq i' l.length g x).1 = .ok v := by
  induction l generalizing i l' x with
  | nil =>
    cases he
    refine ⟨.nil, by simp, by simp, fun i' g hg => ?_⟩
    rfl
  | cons nd r ih =>
    simp only [List.length_cons, execSeq] at he
    split at he
    · cases he
    · next y s hex =>
      obtain ⟨h1, h2, h3, h4⟩ := execute_ready nd (h nd (by simp)) x y s hex
      generalize hR : execSeq (i + 1) r.length r y = R at he
      obtain ⟨res, r'⟩ := R
      simp only at he
      cases he
      obtain ⟨h5, h6, h7, h8⟩ := ih (i + 1) r' y (fun n hn => h n (by simp [hn])) hR
      refine ⟨.cons h3 h5, ?_, ?_, ?_⟩
      · intro n hn
        rcases List.mem_cons.1 hn with rfl | hn
        · exact h1
        · exact h6 n hn
      · intro n hn
        rcases List.mem_cons.1 hn with rfl | hn
        · exact h2
        · exact h7 n hn
      · intro i' g hg
        unfold SameVis at hg
        cases hg with
        | @cons _ m _ g' hm hg' =>
          obtain ⟨h9, _⟩ := h4 m.s hm.2
          simp only [List.length_cons, execSeq]
          have hK : m.K = nd.K := hm.1
          rw [← hK] at h9
          generalize execute m.K x m.s = R at h9
          obtain ⟨res, s'⟩ := R
          simp only at h9
          subst h9
          exact h8 (i' + 1) g' hg'

/-- `w` is the chunk `c` after passing through the nodes `P` (whatever else was executed since). -/
def Proc (P : List (Nd σ α β)) (c w : Arr α × List β) : Prop :=
  w.2 = c.2 ∧ ∀ g, SameVis P g → (execSeq 0 P.length g c.1).1 = .ok w.1

theorem Proc.mono {P Q : List (Nd σ α β)} {c w : Arr α × List β} (h : Proc P c w) (hs : SameVis P Q) :
    Proc Q c w := by
  refine ⟨h.1, fun g hg => ?_⟩
  rw [hs.length]
  exact h.2 g (hs.trans hg)

theorem Proc.monoL {P Q : List (Nd σ α β)} {cs ws : List (Arr α × List β)} (h : List.Forall₂ (Proc P) cs ws)
    (hs : SameVis P Q) : List.Forall₂ (Proc Q) cs ws := h.imp fun _ _ h => h.mono hs

/-! ### Training one node -/

theorem refcast_dt {s : St σ α β} {x : Arr α} {t : Nat} (h : s.dtype = some t) :
    refcast s.dtype x = refcast (some t) x := by rw [h]

theorem trainChunks_ok (pre pre' : List (Nd σ α β)) (nd nd' : Nd σ α β) (cs : List (Arr α × List β))
    (hpre : ∀ n ∈ pre, Ready n) (hnice : Nice nd.K) (hi : Inv nd.K nd.s)
    (h : trainChunks pre nd cs = (.ok (), pre', nd')) :
    LaterL pre pre' ∧ (∀ n ∈ pre', Ready n) ∧ (cs ≠ [] → ∀ n ∈ pre', Stable n.s) ∧
    nd'.K = nd.K ∧ Inv nd'.K nd'.s ∧ nd'.s.phase = nd.s.phase ∧ nd'.s.training = nd.s.training ∧
    (nd.s.dtype = none ∨ nd'.s.dtype = nd.s.dtype) ∧
    (cs ≠ [] → nd'.s.started = true ∧ nd.K.trainable = true ∧ nd.s.training = true ∧ nd'.s.dtype ≠ none ∧
      0 ≤ nd.s.phase ∧ nd.s.phase < nd.K.nPhases) ∧
    ∃ w, List.Forall₂ (Proc pre') cs w ∧
      ∀ t, nd'.s.dtype = some t → ts nd'.s = ts nd.s ++ phaseEv t nd.s.phase.toNat w := by
  induction cs generalizing pre nd with
  | nil =>
    cases h
    refine ⟨.refl _, hpre, by simp, rfl, hi, rfl, rfl, .inr rfl, by simp, [], .nil, by simp [phaseEv]⟩
  | cons c r ih =>
    obtain ⟨x, args⟩ := c
    rw [trainChunks] at h
    split at h
    · cases h
    · split at h
      · cases h
      · next v pre1 hex =>
        split at h
        · cases h
        · next s hs =>
          obtain ⟨a1, a2, a3, a4⟩ := execSeq_ready 0 pre pre1 x v hpre hex
          obtain ⟨b1, b2, b3, b4, b5, b6, b7, b8, b9⟩ := train_ok_trace nd.K v args nd.s s hs
          have hi1 : Inv nd.K s := by
            have := train_inv nd.K hnice.sane v args nd.s hi
            rw [hs] at this
            exact this
          obtain ⟨c1, c2, c3, c4, c5, c6, c7, c8, c9, w, c10, c11⟩ := ih pre1 ⟨nd.K, s⟩ a2 hnice hi1 h
          have hsv : SameVis pre1 pre' := c1.sameVis a3
          simp only at c4 c6 c7 c8
          refine ⟨a1.trans c1, c2, fun _ => c1.stable a3, c4, c5, c6.trans b2, c7.trans b4, ?_, ?_, ?_⟩
          · have hf := train_fwd nd.K v args nd.s
            rw [hs] at hf
            rcases hf.dt with hh | hh
            · exact .inl hh
            · simp only at hh
              rcases c8 with hh' | hh'
              · exact .inl (hh ▸ hh')
              · exact .inr (hh'.trans hh)
          · intro _
            refine ⟨?_, b6, b7, ?_, b8, b9⟩
            · cases r with
              | nil => cases h; exact b3
              | cons c r => exact (c9 (by simp)).1
            · rcases c8 with hh | hh
              · exact absurd hh b5
              · rw [hh]; exact b5
          · refine ⟨(v, args) :: w, .cons ⟨rfl, ?_⟩ c10, ?_⟩
            · intro g hg
              rw [hsv.length, a1.length]
              exact a4 0 g (hsv.trans hg)
            · intro t ht
              rw [c11 t ht]
              have hts : ts s = ts nd.s ++ [.train nd.s.phase.toNat (refcast s.dtype v) args true] := by
                unfold ts
                rw [b1, List.filter_append]
                simp [isTS]
              have hdt : s.dtype = some t := by
                rcases c8 with hh | hh
                · exact absurd hh b5
                · exact hh.symm.trans ht
              simp only [hts, b2, phaseEv, List.map_cons, List.append_assoc, List.singleton_append, hdt]

theorem inv_training_phase {K : Kind σ α β} {s : St σ α β} (hi : Inv K s) (hk : K.trainable = true)
    (h : s.training = true) : s.phase < K.nPhases := (hi.tr hk).2.2.1.1 h

theorem trainRounds_ok (pre pre' : List (Nd σ α β)) (nd nd' : Nd σ α β) (it : Chunks α β) (k : Nat)
    (hpre : ∀ n ∈ pre, Ready n) (hnice : Nice nd.K) (hi : Inv nd.K nd.s)
    (h : trainRounds pre nd it k = (.ok (), pre', nd')) :
    LaterL pre pre' ∧ (∀ n ∈ pre', Ready n) ∧ (∀ n ∈ pre', Stable n.s) ∧
    nd'.K = nd.K ∧ Ready nd' ∧ nd'.s.training = true ∧ nd.K.trainable = true ∧ nd.s.training = true ∧
    (nd.s.dtype = none ∨ nd'.s.dtype = nd.s.dtype) ∧
    ∃ t ws, nd'.s.dtype = some t ∧ (ws.length : Int) = remaining nd.K nd.s ∧
      (∀ j w, ws[j]? = some w → List.Forall₂ (Proc pre') (it (k + j)) w) ∧
      ts nd'.s = ts nd.s ++ openTrace t nd.s.phase.toNat ws := by
  generalize hm : ((nd.K.nPhases : Int) - nd.s.phase).toNat = m
  induction m using Nat.strongRecOn generalizing pre nd k with
  | _ m ih =>
    rw [trainRounds] at h
    split at h
    · cases h
    · next pre1 nd1 hch =>
      obtain ⟨c1, c2, c3, c4, c5, c6, c7, c8, c9, w, c10, c11⟩ := trainChunks_ok pre pre1 nd nd1 (it k) hpre hnice hi hch
      split at h
      · cases h
      · next hne =>
        have hne' : it k ≠ [] := by intro hh; rw [hh] at hne; simp at hne
        obtain ⟨d1, d2, d3, d4, d5, d6⟩ := c9 hne'
        obtain ⟨t1, ht1⟩ := Option.ne_none_iff_exists'.1 d4
        split at h
        · next hr =>
          split at h
          · cases h
          · next s2 hst =>
            obtain ⟨e1, e2, e3⟩ := stop_ok_trace nd1.K nd1.s s2 hst
            have hi2 : Inv nd1.K s2 := by
              have := stop_inv nd1.K nd1.s c5
              rw [hst] at this
              exact this
            have hnice1 : Nice nd1.K := by rw [c4]; exact hnice
            have hf := stop_fwd nd1.K nd1.s
            rw [hst] at hf
            obtain ⟨f1, f2, f3, f4, f5, f6, f7, f8, f9, t, ws, f10, f11, f12, f13⟩ :=
              ih (((nd1.K.nPhases : Int) - s2.phase).toNat) (by
                rw [c4]; simp only at *; omega) pre1 ⟨nd1.K, s2⟩ (k + 1) c2 hnice1 hi2 h rfl
            simp only at f4 f9 f11 f13
            have hs2t : s2.dtype = some t1 := by
              rcases hf.dt with hh | hh
              · exact absurd hh d4
              · exact hh.trans ht1
            have htt : t = t1 := by
              rcases f9 with hh | hh
              · rw [hs2t] at hh; cases hh
              · rw [f10, hs2t] at hh; exact Option.some.inj hh
            subst htt
            refine ⟨c1.trans f1, f2, f3, f4.trans c4, f5, f6, d2, d3, ?_, t, w :: ws, f10, ?_, ?_, ?_⟩
            · rw [f10]
              rcases c8 with hh | hh
              · exact .inl hh
              · exact .inr (ht1.symm.trans hh)
            · rw [c4] at f11
              unfold remaining at f11 ⊢
              rw [if_pos d2] at f11 ⊢
              simp only [List.length_cons]
              push_cast
              omega
            · intro j w' hj
              cases j with
              | zero =>
                simp at hj
                subst hj
                exact Proc.monoL c10 (f1.sameVis (c3 hne'))
              | succ j =>
                have := f12 j w' (by simpa using hj)
                rwa [show k + 1 + j = k + (j + 1) by omega] at this
            · rw [f13]
              have hts : ts s2 = ts nd1.s ++ [.stop nd.s.phase.toNat true] := by
                unfold ts
                rw [e1, List.filter_append, c6]
                simp [isTS]
              rw [hts, c11 t ht1]
              have hp1 : s2.phase.toNat = nd.s.phase.toNat + 1 := by omega
              rw [hp1]
              cases ws with
              | nil =>
                exfalso
                rw [c4] at f11
                unfold remaining at f11 hr
                rw [if_pos d2] at f11
                rw [c4, if_pos d2] at hr
                simp at f11
                omega
              | cons w' r => simp [openTrace, List.append_assoc]
        · next hr =>
          cases h
          have hphase : nd'.s.phase = (nd'.K.nPhases : Int) - 1 := by
            have hlt := d6
            unfold remaining at hr
            rw [c4, if_pos d2] at hr
            rw [c4]
            omega
          refine ⟨c1, c2, c3 hne', c4, ⟨by rw [c4]; exact hnice, c5, ?_, ?_⟩, c7.trans d3, d2, d3, c8, t1, [w], ht1, ?_, ?_, ?_⟩
          · rintro ⟨-, h2⟩; rw [d1] at h2; cases h2
          · intro _; exact ⟨d1, by rw [c4]; exact d2, hphase⟩
          · unfold remaining
            rw [if_pos d2]
            rw [c4] at hphase
            simp only [List.length_cons, List.length_nil]
            omega
          · intro j w' hj
            cases j with
            | zero => simp at hj; subst hj; exact c10
            | succ j => simp at hj
          · rw [c11 t1 ht1, openTrace]

theorem trainChunks_finished (pre pre' : List (Nd σ α β)) (nd nd' : Nd σ α β) (cs : List (Arr α × List β))
    (hpre : ∀ n ∈ pre, Ready n) (hk : nd.K.trainable = true) (htr : nd.s.training = false)
    (h : trainChunks pre nd cs = (.error .finished, pre', nd')) :
    nd' = nd ∧ LaterL pre pre' ∧ (∀ n ∈ pre', Ready n) ∧ (∀ n ∈ pre', Stable n.s) := by
  cases cs with
  | nil => cases h
  | cons c r =>
    obtain ⟨x, args⟩ := c
    rw [trainChunks] at h
    split at h
    · cases h
    · split at h
      · next e pre1 hex =>
        have hc := execSeq_cases 0 pre.length pre x (Nat.le_refl _)
        rw [hex] at hc
        cases h
        rcases hc with ⟨_, _, hh, _⟩ | ⟨_, _, _, _, _, _, _, hh, _⟩ <;> cases hh
      · next v pre1 hex =>
        have ht : train nd.K v args nd.s = (.error .finished, nd.s) := by
          unfold train
          rw [if_neg (by simp [hk])]
          simp only [M.bind_def, M.get_def]
          rw [if_pos htr]
          rfl
        rw [ht] at h
        cases h
        obtain ⟨a1, a2, a3, _⟩ := execSeq_ready 0 pre pre' x v hpre hex
        exact ⟨rfl, a1, a2, a3⟩

theorem runSets_noFin (K : Kind σ α β) (l : List SetReq) (s : St σ α β) : (runSets K l s).1 ≠ .error .finished := by
  induction l generalizing s with
  | nil => simp [runSets]
  | cons r l ih =>
    have h1 : ∀ n, (setInputDim K n s).1 ≠ .error .finished := by
      intro n; unfold setInputDim setInputDimRaw; repeat' split
      all_goals simp
    have h2 : ∀ n, (setOutputDim K n s).1 ≠ .error .finished := by
      intro n; unfold setOutputDim setOutputDimRaw; repeat' split
      all_goals simp
    have h3 : ∀ n, (setDtype K n s).1 ≠ .error .finished := by
      intro n; unfold setDtype; repeat' split
      all_goals simp
    cases r with
    | inp n =>
      simp only [runSets, M.bind_def]
      have := h1 (some n)
      generalize setInputDim K (some n) s = R at this
      obtain ⟨r, s'⟩ := R
      cases r with
      | error e => exact this
      | ok u => exact ih s'
    | out n =>
      simp only [runSets, M.bind_def]
      have := h2 (some n)
      generalize setOutputDim K (some n) s = R at this
      obtain ⟨r, s'⟩ := R
      cases r with
      | error e => exact this
      | ok u => exact ih s'
    | dtype n =>
      simp only [runSets, M.bind_def]
      have := h3 (some n)
      generalize setDtype K (some n) s = R at this
      obtain ⟨r, s'⟩ := R
      cases r with
      | error e => exact this
      | ok u => exact ih s'

theorem runHook_noFin {r : Type} (K : Kind σ α β) (hk : Hooked σ r) (h : hk.res ≠ .error .finished) (s : St σ α β) :
    (runHook K hk s).1 ≠ .error .finished := by
  unfold runHook
  simp only [M.bind_def, M.modify_def]
  have := runSets_noFin K hk.sets { s with st := hk.st }
  generalize runSets K hk.sets { s with st := hk.st } = R at this
  obtain ⟨r, s'⟩ := R
  cases r with
  | error e => intro hh; apply this; simpa using hh
  | ok u => simpa using h

theorem checkInput_noFin (K : Kind σ α β) (x : Arr α) (s : St σ α β) : (checkInput K x s).1 ≠ .error .finished := by
  have h1 : ∀ n s, (setInputDim K n s : Except Err Unit × St σ α β).1 ≠ .error .finished := by
    intro n s; unfold setInputDim setInputDimRaw; repeat' split
    all_goals simp
  have h3 : ∀ n s, (setDtype K n s : Except Err Unit × St σ α β).1 ≠ .error .finished := by
    intro n s; unfold setDtype; repeat' split
    all_goals simp
  unfold checkInput
  split
  · simp
  · simp only [M.bind_def, M.get_def]
    have hw : ∀ (c : Prop) [Decidable c] (m : NodeM σ α β Unit), (∀ s, (m s).1 ≠ .error .finished) →
        ∀ s, (M.when c m s).1 ≠ .error .finished := by
      intro c _ m hm s
      unfold M.when
      split
      · exact hm s
      · simp
    have ha := hw (s.inputDim = none) (setInputDim K (some x.cols)) (h1 _) s
    generalize M.when (s.inputDim = none) (setInputDim K (some x.cols)) s = R at ha
    obtain ⟨r, s1⟩ := R
    cases r with
    | error e => exact ha
    | ok u =>
      simp only
      have hb := hw (s1.dtype = none) (setDtype K (some x.dtype)) (h3 _) s1
      generalize M.when (s1.dtype = none) (setDtype K (some x.dtype)) s1 = R at hb
      obtain ⟨r, s2⟩ := R
      cases r with
      | error e => exact hb
      | ok u =>
        simp only
        split
        · simp
        · split <;> simp

theorem train_noFin (K : Kind σ α β) (hn : NoFin K) (x : Arr α) (args : List β) (s : St σ α β)
    (htr : s.training = true) : (train K x args s).1 ≠ .error .finished := by
  unfold train
  split
  · simp
  · simp only [M.bind_def, M.get_def]
    rw [if_neg (by simp [htr]), M.bind_def]
    have hc := checkInput_noFin K x s
    generalize checkInput K x s = R at hc
    obtain ⟨r, s1⟩ := R
    cases r with
    | error e => exact hc
    | ok u =>
      simp only [M.bind_def, M.get_def, M.lift_def]
      cases hca : K.checkTrainArgs s1.st x args with
      | error e =>
        simp only
        have := hn.2.2 s1.st x args
        rw [hca] at this
        intro hh; apply this; simpa using hh
      | ok u =>
        simp only [M.modify_def]
        split
        · exact runHook_noFin K _ (hn.1 _ _ _ _) _
        · simp

theorem stop_noFin (K : Kind σ α β) (hn : NoFin K) (s : St σ α β) (htr : s.training = true) :
    (stopTraining K s).1 ≠ .error .finished := by
  unfold stopTraining
  simp only [M.bind_def, M.get_def]
  split
  · simp
  · rw [if_neg (by simp [htr])]
    split
    · simp only [M.bind_def]
      have := runHook_noFin K (K.stopHook s.phase.toNat s.st) (hn.2.1 _ _) s
      simp only [logged]
      generalize runHook K (K.stopHook s.phase.toNat s.st) s = R at this
      obtain ⟨r, s1⟩ := R
      cases r with
      | error e => intro hh; apply this; simpa using hh
      | ok u => simp
    · simp

theorem trainChunks_noFin (pre : List (Nd σ α β)) (nd : Nd σ α β) (cs : List (Arr α × List β)) (hn : NoFin nd.K)
    (htr : nd.s.training = true) : (trainChunks pre nd cs).1 ≠ .error .finished := by
  induction cs generalizing pre nd with
  | nil => simp [trainChunks]
  | cons c r ih =>
    obtain ⟨x, args⟩ := c
    rw [trainChunks]
    split
    · simp
    · split
      · next e pre1 hex =>
        have hc := execSeq_cases 0 pre.length pre x (Nat.le_refl _)
        rw [hex] at hc
        rcases hc with ⟨_, _, hh, _⟩ | ⟨_, _, _, _, _, _, _, hh, _⟩
        · cases hh
        · cases hh; simp
      · next v pre1 hex =>
        have h1 := train_noFin nd.K hn v args nd.s htr
        split
        · next e s hs => rw [hs] at h1; exact h1
        · next s hs =>
          obtain ⟨_, _, _, b4, _⟩ := train_ok_trace nd.K v args nd.s s hs
          exact ih pre1 ⟨nd.K, s⟩ hn (b4.trans htr)

theorem trainRounds_noFin (pre : List (Nd σ α β)) (nd : Nd σ α β) (it : Chunks α β) (k : Nat)
    (hpre : ∀ n ∈ pre, Ready n) (hnice : Nice nd.K) (hi : Inv nd.K nd.s)
    (htr : nd.s.training = true) : (trainRounds pre nd it k).1 ≠ .error .finished := by
  generalize hm : ((nd.K.nPhases : Int) - nd.s.phase).toNat = m
  induction m using Nat.strongRecOn generalizing pre nd k with
  | _ m ih =>
    rw [trainRounds]
    have h1 := trainChunks_noFin pre nd (it k) hnice.noFin htr
    split
    · next e pre1 nd1 hch => rw [hch] at h1; exact h1
    · next pre1 nd1 hch =>
      obtain ⟨c1, c2, c3, c4, c5, c6, c7, c8, c9, w, c10, c11⟩ :=
        trainChunks_ok pre pre1 nd nd1 (it k) hpre hnice hi hch
      split
      · simp
      · next hne =>
        have hne' : it k ≠ [] := by intro hh; rw [hh] at hne; simp at hne
        obtain ⟨d1, d2, d3, d4, d5, d6⟩ := c9 hne'
        split
        · next hr =>
          have h2 := stop_noFin nd1.K (by rw [c4]; exact hnice.noFin) nd1.s (c7.trans htr)
          split
          · next e s hs => rw [hs] at h2; exact h2
          · next s2 hst =>
            obtain ⟨e1, e2, e3⟩ := stop_ok_trace nd1.K nd1.s s2 hst
            have hi2 : Inv nd1.K s2 := by
              have := stop_inv nd1.K nd1.s c5
              rw [hst] at this
              exact this
            have hnice1 : Nice nd1.K := by rw [c4]; exact hnice
            have htr2 : s2.training = true := by
              refine (hi2.tr (by rw [c4]; exact d2)).2.2.1.2 ?_
              unfold remaining at hr
              rw [c4, if_pos d2] at hr
              rw [c4]
              omega
            exact ih (((nd1.K.nPhases : Int) - s2.phase).toNat) (by
                rw [c4]; omega) pre1 ⟨nd1.K, s2⟩ (k + 1) c2 hnice1 hi2 htr2 rfl
        · simp

/-- What training did to one node, given its data `d` and the nodes `P` before it. -/
def TrainedOn (P : List (Nd σ α β)) (nd : Nd σ α β) (d : Elem α β) (nd' : Nd σ α β) : Prop :=
  nd'.K = nd.K ∧
  (nd.s.training = false → nd'.s.training = false ∧ ts nd'.s = ts nd.s) ∧
  (nd.s.training = true → ∃ c t ws, d = .it c ∧ nd'.s.dtype = some t ∧
    (ws.length : Int) = remaining nd.K nd.s ∧
    (∀ j w, ws[j]? = some w → List.Forall₂ (Proc P) (c j) w) ∧
    ((nd'.s.training = false ∧ ts nd'.s = ts nd.s ++ fullTrace t nd.s.phase.toNat ws) ∨
     (nd'.s.training = true ∧ ts nd'.s = ts nd.s ++ openTrace t nd.s.phase.toNat ws)))

theorem trainNode_ok (pre pre' : List (Nd σ α β)) (nd nd' : Nd σ α β) (d : Elem α β)
    (hpre : ∀ n ∈ pre, Ready n) (hnice : Nice nd.K) (hi : Inv nd.K nd.s)
    (h : trainNode pre nd d = (.ok (), pre', nd')) :
    LaterL pre pre' ∧ (∀ n ∈ pre', Ready n) ∧ Ready nd' ∧ TrainedOn pre' nd d nd' ∧
    (∀ c, d = .it c → nd.K.trainable = true → ∀ n ∈ pre', Stable n.s) := by
  have hready : nd.s.training = false → Ready nd := by
    intro htr
    refine ⟨hnice, hi, ?_, fun h => by rw [htr] at h; cases h⟩
    rintro ⟨h0, -⟩
    by_cases hk : nd.K.trainable = true
    · have h4 := hi.tr hk
      have h5 := hnice.sane hk
      have := h4.2.2.1.2 (by omega)
      rw [htr] at this; cases this
    · have := (hi.ntr (by simpa using hk)).1
      omega
  have hsame : nd.s.training = false → TrainedOn pre nd d nd := fun htr =>
    ⟨rfl, fun _ => ⟨htr, rfl⟩, fun h => by rw [htr] at h; cases h⟩
  unfold trainNode at h
  cases d with
  | notIterable => cases h
  | none =>
    simp only at h
    split at h
    · cases h
    · next htr =>
      have htr : nd.s.training = false := by simpa using htr
      split at h
      · cases h; exact ⟨.refl _, hpre, hready htr, hsame htr, fun c hc => by cases hc⟩
      · cases h
  | it c =>
    simp only at h
    split at h
    · next hk =>
      cases h
      have htr := (hi.ntr hk).2.1
      exact ⟨.refl _, hpre, hready htr, hsame htr, fun c hc hk' => by rw [hk] at hk'; cases hk'⟩
    · next hk =>
      have hk : nd.K.trainable = true := by simpa using hk
      generalize hR : trainRounds pre nd c 0 = R at h
      obtain ⟨r, p1, n1⟩ := R
      simp only at h
      obtain ⟨h1, h2, h3⟩ : handle pre.length r = .ok () ∧ p1 = pre' ∧ n1 = nd' := by
        simpa using h
      subst h2 h3
      cases r with
      | ok u =>
        obtain ⟨f1, f2, f3, f4, f5, f6, f7, f8, f9, t, ws, f10, f11, f12, f13⟩ :=
          trainRounds_ok pre p1 nd n1 c 0 hpre hnice hi hR
        refine ⟨f1, f2, f5, ⟨f4, fun hh => ?_, fun _ => ⟨c, t, ws, rfl, f10, f11, ?_, .inr ⟨f6, f13⟩⟩⟩,
          fun _ _ _ => f3⟩
        · rw [f8] at hh; cases hh
        intro j w hj
        simpa using f12 j w hj
      | error e =>
        have he : e = .finished := by
          cases e <;> simp [handle] at h1
          rfl
        subst he
        have htr : nd.s.training = false := by
          by_contra htr
          have := trainRounds_noFin pre nd c 0 hpre hnice hi (by simpa using htr)
          rw [hR] at this
          exact this rfl
        have hch : trainChunks pre nd (c 0) = (.error .finished, p1, n1) := by
          rw [trainRounds] at hR
          split at hR
          · next hh => rw [hh, hR]
          · next pre2 nd2 hh =>
            have := (trainChunks_ok pre pre2 nd nd2 (c 0) hpre hnice hi hh).2.2.2.2.2.2.2.2.1
            split at hR
            · cases hR
            · next hne =>
              have := (this (by intro hh; rw [hh] at hne; simp at hne)).2.2.1
              rw [htr] at this; cases this
        obtain ⟨rfl, g1, g2, g3⟩ := trainChunks_finished pre p1 nd n1 (c 0) hpre hk htr hch
        exact ⟨g1, g2, hready htr, ⟨rfl, fun _ => ⟨htr, rfl⟩, fun h => by rw [htr] at h; cases h⟩, fun _ _ _ => g3⟩

/-- Later executions keep `TrainedOn`. -/
theorem TrainedOn.later {P Q : List (Nd σ α β)} {nd m n : Nd σ α β} {d : Elem α β}
    (h : TrainedOn P nd d m) (hinv : Inv nd.K nd.s) (hl : Later m n)
    (hs : (∃ c, d = .it c ∧ nd.K.trainable = true) → SameVis P Q) (hk : nd.s.training = true → nd.K.trainable = true) :
    TrainedOn Q nd d n := by
  obtain ⟨h1, h2, h3⟩ := h
  refine ⟨hl.K.trans h1, ?_, ?_⟩
  · intro htr
    obtain ⟨a, b⟩ := h2 htr
    rcases hl.step with h4 | ⟨h4, h5⟩
    · rw [h4]; exact ⟨a, b⟩
    · rw [a] at h5
      exact ⟨h4.training, by simpa [b] using h5⟩
  · intro htr
    obtain ⟨c, t, ws, rfl, g1, g2, g3, g4⟩ := h3 htr
    have hsv := hs ⟨c, rfl, hk htr⟩
    refine ⟨c, t, ws, rfl, ?_, g2, fun j w hj => Proc.monoL (g3 j w hj) hsv, ?_⟩
    · rcases hl.dt with hh | hh
      · rw [g1] at hh; cases hh
      · exact hh.trans g1
    · rcases hl.step with h4 | ⟨h4, h5⟩
      · rw [h4]; exact g4
      · left
        refine ⟨h4.training, ?_⟩
        rcases g4 with ⟨g5, g6⟩ | ⟨g5, g6⟩
        · rw [h5, g5, g6]; simp
        · rw [h5, g5, g6]
          simp only [if_true, List.append_assoc]
          congr 1
          have hkk := hk htr
          have hlt := inv_training_phase hinv hkk htr
          have h0 := (hinv.tr hkk).1
          have hlen : nd.s.phase.toNat + ws.length - 1 = m.K.nPhases - 1 := by
            rw [h1]
            unfold remaining at g2
            rw [if_pos hkk] at g2
            omega
          rw [← openTrace_stop t _ ws, hlen]
          intro hh
          subst hh
          unfold remaining at g2
          rw [if_pos hkk] at g2
          simp at g2
          omega

end Mdp.Flow
