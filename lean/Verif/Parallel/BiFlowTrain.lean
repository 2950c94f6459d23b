import Verif.Parallel.BiFlowExec
import Verif.Bi.FlowNodeProps
import Verif.Bi.TrainProps

/-!
# Parallel training of a `BiFlow`

C202. Parallel training is compared with `BiFlow.train` (`Bi.trainFlow`).
-/

namespace Bi.Par

open Py Bi.FlowNode

variable {σ A V : Type} [DecidableEq V]

/-! ### Specification -/

/-- States that `E` relates cannot be told apart by the training either. -/
structure RespectsTrain (P : PFlow σ A V) (E : σ → σ → Prop) : Prop extends Respects P E where
  train : ∀ j {s t} x m, E s t → (P.train j s x m).1 = (P.train j t x m).1 ∧ E (P.train j s x m).2 (P.train j t x m).2
  plainTrain : ∀ j {s t} x, E s t →
    (P.plainTrain j s x).1 = (P.plainTrain j t x).1 ∧ E (P.plainTrain j s x).2 (P.plainTrain j t x).2
  stop : ∀ j {s t} m, E s t → (P.stop j s m).1 = (P.stop j t m).1 ∧ E (P.stop j s m).2 (P.stop j t m).2
  remaining : ∀ j {s t}, E s t → P.remaining j s = P.remaining j t
  fork : ∀ {s t f}, E s t → P.fork s = some f → ∃ f', P.fork t = some f' ∧ E f f'
  join : ∀ {a a' b b' r}, E a a' → E b b' → P.join a b = .ok r → ∃ r', P.join a' b' = .ok r' ∧ E r r'

/-- `BiFlow` trains the node `nr` with the chunk `k`, and is reset. -/
def Trains (P : PFlow σ A V) (n nr : Nat) (s : σ) (k : Option A × Option (Msg V)) (s' : σ) : Prop :=
  ∃ t, trainChunk P.toTFlow n nr n (.int 0) k.1 k.2 s = some (.ok (), t) ∧ s' = P.reset t

/-- Joining `gs` to `g`, one after the other. -/
def joinAll (P : PFlow σ A V) : σ → List σ → Except Err σ
  | g, [] => .ok g
  | g, h :: hs =>
    match P.join g h with
    | .error e => .error e
    | .ok g' => joinAll P g' hs

/-- Fork and join of the flow work: training forks on the chunks and joining them, in any order, gives the flow that was
trained with all chunks; a task leaves the flow it was forked from as it was. -/
structure ForkJoin (P : PFlow σ A V) (E : σ → σ → Prop) (n nr : Nat) : Prop where
  sound : ∀ {s f s' ks ks'}, P.fork s = some f → ks ≠ [] → trainChunks P.toTFlow n nr ks s = some (.ok (), s') →
    ks'.Perm ks →
    ∃ g gs r s'', List.Forall₂ (Trains P n nr f) ks' (g :: gs) ∧ joinAll P g gs = .ok r ∧ P.join s r = .ok s'' ∧ E s'' s'
  shared : ∀ {s f k t}, P.fork s = some f → Trains P n nr f k t → E (P.shared s t) s

/-- Messages with nothing for the flow node that `ParallelBiFlow` creates. -/
def ForFlow (P : PFlow σ A V) (m : Option (Msg V)) : Prop :=
  ∀ d, m = some d → Plain P.nodeId d ∧ ∃ ids, getMsgIdKeys P.nodeId d = .ok ids

/-- The flow node passes data on as they are. -/
def Passes (P : PFlow σ A V) : Prop := ∀ s a, P.preTrain s a = (.ok (), s) ∧ P.refcast s a = a

/-! ### Related states -/

theorem executeSeq_rel {P : PFlow σ A V} {E : σ → σ → Prop} (hR : Respects P E) {stop : Option Nat} {n : Nat}
    {i : BVal V} {x : Option A} {m : Option (Msg V)} {s t : σ} (h : E s t) {o : Out σ A V}
    (ho : executeSeq P.toBFlow stop n i x m s = some o) :
    ∃ o', executeSeq P.toBFlow stop n i x m t = some o' ∧ RelOut E o o' := by
  unfold executeSeq at ho ⊢
  exact runFuel_rel hR stop n (c := { i := i, x := x, msg := m, s := s }) ⟨rfl, rfl, rfl, rfl, h⟩ ho

theorem trainChunk_rel {P : PFlow σ A V} {E : σ → σ → Prop} (hR : RespectsTrain P E) {n nr : Nat} :
    ∀ {k : Nat} {i : BVal V} {x : Option A} {m : Option (Msg V)} {s t s' : σ}, E s t →
      trainChunk P.toTFlow n nr k i x m s = some (.ok (), s') →
      ∃ t', trainChunk P.toTFlow n nr k i x m t = some (.ok (), t') ∧ E s' t' := by
  intro k
  induction k with
  | zero => intro i x m s t s' _ h; cases h
  | succ k ih =>
    intro i x m s t s' he h
    unfold trainChunk at h ⊢
    cases ho : executeSeq P.toBFlow (some nr) n i x m s with
    | none => rw [ho] at h; cases h
    | some o =>
      rw [ho] at h
      obtain ⟨o', ho', h1, _, h2⟩ := executeSeq_rel hR.toRespects he ho
      rw [ho']
      simp only at h ⊢
      rw [← h1]
      cases hres : o.res with
      | error e => rw [hres] at h; cases h
      | ok q =>
        rw [hres] at h
        cases q with
        | stop x1 m1 =>
          simp only at h ⊢
          by_cases hb : P.isBi nr
          · rw [if_pos hb] at h ⊢
            have ht := hR.train nr x1 m1 h2
            generalize P.train nr o.s x1 m1 = q at h ht
            generalize P.train nr o'.s x1 m1 = q' at ht ⊢
            obtain ⟨q, u⟩ := q
            obtain ⟨q', u'⟩ := q'
            obtain ⟨e1, e2⟩ := ht
            simp only at e1 e2
            subst e1
            cases q with
            | error e => cases h
            | ok r =>
              have key : ∀ {i' : BVal V}, (trainChunk P.toTFlow n nr k i' r.parts.1 r.parts.2.1 u = some (.ok (), s')) →
                  ∃ t', trainChunk P.toTFlow n nr k i' r.parts.1 r.parts.2.1 u' = some (.ok (), t') ∧ E s' t' :=
                fun hh => ih e2 hh
              cases r with
              | single y =>
                cases y with
                | none => cases h; exact ⟨u', rfl, e2⟩
                | some y =>
                  simp only at h ⊢
                  cases hti : targetToIndex P.toBFlow (BRes.parts (V := V) (.single (some y))).2.2 nr with
                  | error e => rw [hti] at h; cases h
                  | ok i' => rw [hti] at h; exact key h
              | pair y mm =>
                simp only at h ⊢
                cases hti : targetToIndex P.toBFlow (BRes.parts (.pair y mm)).2.2 nr with
                | error e => rw [hti] at h; cases h
                | ok i' => rw [hti] at h; exact key h
              | triple y mm tt =>
                simp only at h ⊢
                cases hti : targetToIndex P.toBFlow (BRes.parts (.triple y mm tt)).2.2 nr with
                | error e => rw [hti] at h; cases h
                | ok i' => rw [hti] at h; exact key h
          · rw [if_neg hb] at h ⊢
            have ht := hR.plainTrain nr x1 h2
            generalize P.plainTrain nr o.s x1 = q at h ht
            generalize P.plainTrain nr o'.s x1 = q' at ht ⊢
            obtain ⟨q, u⟩ := q
            obtain ⟨q', u'⟩ := q'
            obtain ⟨e1, e2⟩ := ht
            simp only at e1 e2
            subst e1
            cases q with
            | error e => cases h
            | ok r => cases h; exact ⟨u', rfl, e2⟩
        | single x => cases h
        | pair x m => cases h
        | triple x m t => cases h

theorem trains_rel {P : PFlow σ A V} {E : σ → σ → Prop} (hR : RespectsTrain P E) {n nr : Nat} {s t s' : σ}
    {k : Option A × Option (Msg V)} (he : E s t) (h : Trains P n nr s k s') : ∃ t', Trains P n nr t k t' ∧ E s' t' := by
  obtain ⟨u, h1, rfl⟩ := h
  obtain ⟨u', h2, h3⟩ := trainChunk_rel hR he h1
  exact ⟨_, ⟨u', h2, rfl⟩, hR.reset h3⟩

theorem trainChunks_rel {P : PFlow σ A V} {E : σ → σ → Prop} (hR : RespectsTrain P E) {n nr : Nat} :
    ∀ {ks : List (Option A × Option (Msg V))} {s t s' : σ}, E s t →
      trainChunks P.toTFlow n nr ks s = some (.ok (), s') →
      ∃ t', trainChunks P.toTFlow n nr ks t = some (.ok (), t') ∧ E s' t' := by
  intro ks
  induction ks with
  | nil => intro s t s' he h; cases h; exact ⟨t, rfl, he⟩
  | cons k ks ih =>
    intro s t s' he h
    obtain ⟨x, m⟩ := k
    simp only [trainChunks] at h ⊢
    cases h1 : trainChunk P.toTFlow n nr n (.int 0) x m s with
    | none => rw [h1] at h; cases h
    | some q =>
      obtain ⟨q, u⟩ := q
      rw [h1] at h
      cases q with
      | error e => cases h
      | ok _ =>
        obtain ⟨u', h2, h3⟩ := trainChunk_rel hR he h1
        rw [h2]
        exact ih (hR.reset h3) h

/-! ### The flow node trains as the flow -/

omit [DecidableEq V] in
theorem extractKey_plain {d : Msg V} {key : Str} (h : Dict.get d key = none) : extractKey key d [] = (.none, d, []) := by
  unfold extractKey
  simp only [popIdKey, h]
  rfl

theorem getMethod_plain (F : FNode σ A V) (st : FSt σ V) : FlowNode.getMethod F BVal.none BVal.none st = (BVal.none, st) := by
  unfold FlowNode.getMethod
  rw [if_neg (by simp)]

theorem callTrain_ok {P : PFlow σ A V} (hg : GoodId P.nodeId) (hlen : 0 < P.len) (hp : Passes P) {n nr : Nat}
    {k : Option A × Option (Msg V)} (hm : ForFlow P k.2) (hk : k.1 ≠ none ∨ k.2 ≠ none) {s s' : σ}
    (h : Trains P n nr s k s') : callTrain P n nr k s = some (.ok (), s') := by
  obtain ⟨x, m⟩ := k
  obtain ⟨t, h1, rfl⟩ := h
  simp only at h1 hm hk
  have h2 := train_flownode P.toFNode hlen (last := .none) (i := 0) (.inl ⟨rfl, rfl⟩) h1
  have hc : ∀ (st : FSt σ V), trainChecks P .none x st = (.ok x, st) := by
    intro st
    cases x with
    | none => rfl
    | some a =>
      obtain ⟨e1, e2⟩ := hp st.inner a
      simp only [trainChecks, BVal.truthy, true_or, if_true, e1, e2]
  have h3 : flowTrain P n nr x m ⟨s, .none⟩ = some (.ok (.single none), ⟨t, .none⟩) := by
    unfold flowTrain
    cases m with
    | none =>
      cases x with
      | none => simp at hk
      | some a => simp only [hc, h2]
    | some d =>
      obtain ⟨⟨p1, p2, p3, p4, p5⟩, ids, hi⟩ := hm d rfl
      have hnil := ids_nil hg p1 hi
      subst hnil
      have e4 : extractArgs [kX, kMsg] d [] = (d, d.filter fun e => decide (e.1 ∈ [kX, kMsg])) := rfl
      simp only [hi, extractKey_plain p2, extractKey_plain p3, getMethod_plain, hc, e4]
      rw [get_filter_none _ _ _ p5]
      simp only [Option.isSome_none, Bool.false_eq_true, if_false, h2]
  unfold callTrain
  simp only [h3, checkTrain, biReset]

theorem localChunks_ok {P : PFlow σ A V} (hg : GoodId P.nodeId) (hlen : 0 < P.len) (hp : Passes P) {n nr : Nat} :
    ∀ {ks : List (Option A × Option (Msg V))}, (∀ k ∈ ks, ForFlow P k.2 ∧ (k.1 ≠ none ∨ k.2 ≠ none)) → ∀ {s s' : σ},
      trainChunks P.toTFlow n nr ks s = some (.ok (), s') → localChunks P n nr ks s = some (.ok (), s') := by
  intro ks
  induction ks with
  | nil => intro _ s s' h; cases h; rfl
  | cons k ks ih =>
    intro hk s s' h
    obtain ⟨x, m⟩ := k
    simp only [trainChunks] at h
    cases h1 : trainChunk P.toTFlow n nr n (.int 0) x m s with
    | none => rw [h1] at h; cases h
    | some q =>
      obtain ⟨q, u⟩ := q
      rw [h1] at h
      cases q with
      | error e => cases h
      | ok _ =>
        have h2 := callTrain_ok hg hlen hp (hk (x, m) (by simp)).1 (hk (x, m) (by simp)).2 (n := n) (nr := nr)
          ⟨u, h1, rfl⟩
        simp only [localChunks, h2]
        exact ih (fun k hk' => hk k (by simp [hk'])) h

/-- The tasks of a phase. -/
theorem trainTasks_ok {P : PFlow σ A V} {E : σ → σ → Prop} (hR : RespectsTrain P E) (hg : GoodId P.nodeId)
    (hlen : 0 < P.len) (hp : Passes P) {n nr : Nat} (hJ : ForkJoin P E n nr) {s f : σ} (hf : P.fork s = some f) :
    ∀ {ks : List (Option A × Option (Msg V))} {hs : List σ}, (∀ k ∈ ks, ForFlow P k.2 ∧ (k.1 ≠ none ∨ k.2 ≠ none)) →
      List.Forall₂ (Trains P n nr f) ks hs → ∀ {t g g' r : σ}, E s t → E g g' → joinAll P g hs = .ok r →
      ∃ r' t', trainTasks P n nr (some g') ks t = some (.ok (some r'), t') ∧ E r r' ∧ E s t' := by
  intro ks hs hk h
  induction h with
  | nil => intro t g g' r he hgg hj; cases hj; exact ⟨g', t, rfl, hgg, he⟩
  | @cons k h1 ks hs hk1 _ ih =>
    intro t g g' r he hgg hj
    obtain ⟨f', hf', hff⟩ := hR.fork he hf
    obtain ⟨u, hu, hue⟩ := trains_rel hR hff hk1
    have hc := callTrain_ok hg hlen hp (hk k (by simp)).1 (hk k (by simp)).2 hu
    simp only [joinAll] at hj
    cases hjj : P.join g h1 with
    | error e => rw [hjj] at hj; cases hj
    | ok g1 =>
      rw [hjj] at hj
      obtain ⟨g1', hg1, hg2⟩ := hR.join hgg hue hjj
      have hsh := hJ.shared hf' hu
      obtain ⟨r', t', h3, h4, h5⟩ := ih (fun k hk' => hk k (by simp [hk'])) (hR.trans he (hR.symm hsh)) hg2 hj
      refine ⟨r', t', ?_, h4, h5⟩
      simp only [trainTasks, trainTask, hf', hc, hg1, h3]

theorem flowStop_ok {P : PFlow σ A V} (hg : GoodId P.nodeId) {n nr : Nat} {m : Option (Msg V)} (hm : ForFlow P m)
    (hempty : m ≠ some []) {s s' : σ} {r : BRes A V} (h : FlowNode.stopTraining P.toFNode n nr m s = some (.ok r, s')) :
    flowStop P n nr m s = some (.ok r, s') := by
  unfold flowStop
  cases m with
  | none => exact h
  | some d =>
    cases d with
    | nil => exact absurd rfl hempty
    | cons e d =>
      obtain ⟨⟨p1, p2, p3, p4, p5⟩, ids, hi⟩ := hm _ rfl
      have hnil := ids_nil hg p1 hi
      subst hnil
      have e4 : extractArgs [kMsg] (e :: d) [] = ((e :: d), (e :: d).filter fun e => decide (e.1 ∈ [kMsg])) := rfl
      simp only [hi, extractKey_plain p2, extractKey_plain p3, getMethod_plain, e4, h, combine_none]

/-- How a node may end its training: with `None`, or with the target "exit". -/
def Quiet (P : PFlow σ A V) (nr : Nat) (m : Option (Msg V)) : Prop :=
  ∀ s r s', P.stop nr s m = (.ok r, s') → r = .single none ∨ ∃ y m', r = .triple y m' (.str sExit)

theorem close_ok {P : PFlow σ A V} {E : σ → σ → Prop} (hR : RespectsTrain P E) (hg : GoodId P.nodeId) {n nr : Nat}
    {m : Option (Msg V)} (hm : ForFlow P m) (hempty : m ≠ some []) (hq : Quiet P nr m) {s t s' : σ} (he : E s t)
    (h : stopPhase P.toTFlow n nr m s = some (.ok (), s')) {chk : BRes A V → Except Err Unit}
    (hc1 : chk (.single none) = .ok ()) (hc2 : ∀ y m', chk (.triple y m' (.str sExit)) = .ok ()) :
    ∃ t', closeWith P chk n nr m t = some (.ok (), t') ∧ E (P.reset s') t' := by
  have hst := hR.stop nr m he
  unfold stopPhase at h
  cases hs : P.stop nr s m with
  | mk q u =>
    cases ht : P.stop nr t m with
    | mk q' u' =>
      rw [hs, ht] at hst
      rw [hs] at h
      obtain ⟨e1, e2⟩ := hst
      simp only at e1 e2
      subst e1
      cases q with
      | error e => cases h
      | ok r =>
        rcases hq _ _ _ hs with rfl | ⟨y, m', rfl⟩
        · simp only at h
          cases h
          have : FlowNode.stopTraining P.toFNode n nr m t = some (.ok (.single none), u') := by
            unfold FlowNode.stopTraining
            rw [ht]
          refine ⟨P.reset u', ?_, hR.reset e2⟩
          unfold closeWith
          simp only [flowStop_ok hg hm hempty this, hc1]
        · simp only [BRes.parts, if_true] at h
          cases h
          have : FlowNode.stopTraining P.toFNode n nr m t = some (.ok (.triple y m' (.str sExit)), u') := by
            unfold FlowNode.stopTraining
            rw [ht]
            simp only [BRes.parts, afterStop]
            have : targetToIndex P.toBFlow (.str sExit) nr = .ok (.str sExit) := by
              simp [targetToIndex]
            rw [this]
          refine ⟨P.reset u', ?_, hR.reset e2⟩
          unfold closeWith
          simp only [flowStop_ok hg hm hempty this, hc2]

/-- One phase. -/
theorem phase_ok {P : PFlow σ A V} {E : σ → σ → Prop} (hR : RespectsTrain P E) (hg : GoodId P.nodeId)
    (hlen : 0 < P.len) (hp : Passes P) {n nr : Nat} (hJ : ForkJoin P E n nr) {ks : List (Option A × Option (Msg V))}
    (hk : ∀ k ∈ ks, ForFlow P k.2 ∧ (k.1 ≠ none ∨ k.2 ≠ none)) {m : Option (Msg V)} (hm : ForFlow P m)
    (hempty : m ≠ some []) (hq : Quiet P nr m) {arr : List (Option A × Option (Msg V)) → List (Option A × Option (Msg V))}
    (harr : ∀ l, (arr l).Perm l) {s t s' : σ} (he : E s t)
    (h : singlePhase P.toTFlow n nr ks m s = some (.ok (), s')) :
    ∃ t', (if (P.fork t).isSome then parPhase P n nr arr ks m t else localPhase P n nr ks m t) = some (.ok (), t') ∧
      E (P.reset s') t' := by
  unfold singlePhase at h
  cases h1 : trainChunks P.toTFlow n nr ks s with
  | none => rw [h1] at h; cases h
  | some q =>
    obtain ⟨q, s1⟩ := q
    rw [h1] at h
    cases q with
    | error e => cases h
    | ok _ =>
      have hne : ks ≠ [] := by rintro rfl; cases h
      have h2 : stopPhase P.toTFlow n nr m s1 = some (.ok (), s') := by
        cases ks with
        | nil => exact absurd rfl hne
        | cons a b => exact h
      obtain ⟨t1, h3, h4⟩ := trainChunks_rel hR he h1
      cases hf : P.fork t with
      | none =>
        simp only [Option.isSome_none, Bool.false_eq_true, if_false]
        obtain ⟨t', h5, h6⟩ := close_ok hR hg hm hempty hq h4 h2 (chk := checkStopLocal) rfl
          (fun _ _ => by simp [checkStopLocal, tolerated])
        refine ⟨t', ?_, h6⟩
        unfold localPhase
        rw [localChunks_ok hg hlen hp hk h3]
        simp only
        rw [if_neg (by simpa using hne)]
        exact h5
      | some f =>
        simp only [Option.isSome_some, if_true]
        obtain ⟨g, gs, r, s'', j1, j2, j3, j4⟩ := hJ.sound hf hne h3 (harr ks)
        have hka : ∀ k ∈ arr ks, ForFlow P k.2 ∧ (k.1 ≠ none ∨ k.2 ≠ none) := fun k hk' => hk k ((harr ks).subset hk')
        unfold parPhase
        rw [if_neg (by simpa using hne)]
        generalize arr ks = ks' at j1 hka
        cases j1 with
        | @cons k _ ks' _ hk1 hks =>
          have hc := callTrain_ok hg hlen hp (hka k (by simp)).1 (hka k (by simp)).2 hk1
          have hsh := hJ.shared hf hk1
          obtain ⟨r', t', h5, h6, h7⟩ := trainTasks_ok hR hg hlen hp hJ hf (fun k hk' => hka k (by simp [hk'])) hks
            (hR.symm hsh) (hR.refl g) j2
          have h8 : trainTasks P n nr none (k :: ks') t = some (.ok (some r'), t') := by
            simp only [trainTasks, trainTask, hf, hc, h5]
          obtain ⟨u, h9, h10⟩ := hR.join h7 h6 j3
          obtain ⟨t2, h11, h12⟩ := close_ok hR hg hm hempty hq (hR.trans h4 (hR.trans (hR.symm j4) h10)) h2
            (chk := checkStop P) rfl (fun _ _ => by simp [checkStop, tolerated])
          refine ⟨t2, ?_, h12⟩
          rw [h8]
          simp only [h9]
          exact h11

theorem phases_ok {P : PFlow σ A V} {E : σ → σ → Prop} (hR : RespectsTrain P E) (hg : GoodId P.nodeId)
    (hlen : 0 < P.len) (hp : Passes P) {n nr : Nat} (hJ : ForkJoin P E n nr) {ks : List (Option A × Option (Msg V))}
    (hk : ∀ k ∈ ks, ForFlow P k.2 ∧ (k.1 ≠ none ∨ k.2 ≠ none)) {m : Option (Msg V)} (hm : ForFlow P m)
    (hempty : m ≠ some []) (hq : Quiet P nr m)
    {arr : σ → List (Option A × Option (Msg V)) → List (Option A × Option (Msg V))} (harr : ∀ s l, (arr s l).Perm l) :
    ∀ (k : Nat) {s t s' : σ}, E s t → Bi.phases P.toTFlow n nr ks m k s = some (.ok (), s') →
      ∃ t', Par.phases P n nr arr ks m k t = some (.ok (), t') ∧ E s' t' := by
  intro k
  induction k with
  | zero => intro s t s' _ h; cases h
  | succ k ih =>
    intro s t s' he h
    simp only [Bi.phases] at h
    simp only [Par.phases]
    rw [← hR.remaining nr he]
    by_cases hr : P.remaining nr s = 0
    · rw [if_pos hr] at h ⊢
      cases h
      exact ⟨t, rfl, he⟩
    · rw [if_neg hr] at h ⊢
      cases h1 : singlePhase P.toTFlow n nr ks m s with
      | none => rw [h1] at h; cases h
      | some q =>
        obtain ⟨q, s1⟩ := q
        rw [h1] at h
        cases q with
        | error e => cases h
        | ok _ =>
          obtain ⟨t1, h2, h3⟩ := phase_ok hR hg hlen hp hJ hk hm hempty hq (harr t) he h1
          rw [h2]
          exact ih h3 h

/-! ### C202 -/

/-- **C202, partial.** If `BiFlow.train` succeeds then `ParallelBiFlow.train` on a scheduler succeeds and leaves flows that
compute the same, for every order in which the tasks of the phases finish, and whether or not the flow can be forked in a
phase. Missing: nodes that send something through the flow when their training ends. -/
theorem parallel_biflow_train_partial {P : PFlow σ A V} {E : σ → σ → Prop} (hR : RespectsTrain P E)
    (hg : GoodId P.nodeId) (hp : Passes P) {n : Nat}
    (hJ : ∀ nr, nr < P.len → P.trainable nr = true → ForkJoin P E n nr)
    {data : Nat → List (Option A × Option (Msg V))}
    (hk : ∀ i, ∀ k ∈ data i, ForFlow P k.2 ∧ (k.1 ≠ none ∨ k.2 ≠ none)) {stops : Nat → Option (Msg V)}
    (hm : ∀ i, ForFlow P (stops i) ∧ stops i ≠ some []) (hq : ∀ i, P.trainable i = true → Quiet P i (stops i))
    {arr : σ → List (Option A × Option (Msg V)) → List (Option A × Option (Msg V))} (harr : ∀ s l, (arr s l).Perm l)
    {s s' : σ} (h : trainFlow P.toTFlow n data stops s = some (.ok (), s')) :
    ∃ t', Par.train P n arr data stops s = some (.ok (), t') ∧ E s' t' := by
  have key : ∀ (k i : Nat) {s t s' : σ}, i + k = P.len → E s t →
      trainNodes P.toTFlow n data stops (fun _ s => (.ok (), s)) i k s = some (.ok (), s') →
      ∃ t', Par.nodes P n arr data stops i k t = some (.ok (), t') ∧ E s' t' := by
    intro k
    induction k with
    | zero => intro i s t s' _ he h; cases h; exact ⟨t, rfl, he⟩
    | succ k ih =>
      intro i s t s' hik he h
      simp only [trainNodes, trainNode] at h
      simp only [Par.nodes]
      by_cases ht : P.trainable i = true
      · rw [if_pos ht] at h ⊢
        cases h1 : Bi.phases P.toTFlow n i (data i) (stops i) n s with
        | none => rw [h1] at h; cases h
        | some q =>
          obtain ⟨q, s1⟩ := q
          rw [h1] at h
          cases q with
          | error e => cases h
          | ok _ =>
            obtain ⟨t1, h2, h3⟩ := phases_ok hR hg (by omega) hp (hJ i (by omega) ht) (hk i) (hm i).1 (hm i).2 (hq i ht)
              harr n he h1
            rw [h2]
            exact ih (i + 1) (by omega) h3 h
      · rw [if_neg ht] at h ⊢
        exact ih (i + 1) (by omega) he h
  exact key P.len 0 (by omega) (hR.refl _) h

/-! ### A concrete flow -/

/-- Two nodes that add one; the second gathers the sum of its training data, in as many phases as the second number
says. -/
def gather : PFlow (Nat × Nat) Nat Nat where
  len := 2
  isBi := fun _ => true
  exec := fun _ s x _ => (.ok (.single (x.map (· + 1))), s)
  plain := fun _ s x => (.ok x, s)
  hasId := fun _ _ => false
  reset := fun s => s
  trainable := fun j => j == 1
  remaining := fun _ s => s.2
  train := fun _ s x _ => (.ok (.single none), (s.1 + x.getD 0, s.2))
  plainTrain := fun _ s _ => (.ok (), s)
  stop := fun _ s _ => (.ok (.single none), (s.1, s.2 - 1))
  preExec := fun s _ => (.ok (), s)
  refcast := fun _ x => x
  useFork := fun _ => false
  fork := fun s => some (0, s.2)
  join := fun s t => .ok (s.1 + t.1, s.2)
  shared := fun s _ => s
  preTrain := fun s _ => (.ok (), s)
  third := fun _ => .ok true

/-- What a chunk adds. -/
def addend (k : Option Nat × Option (Msg Nat)) : Nat := (k.1.map (· + 1)).getD 0

theorem gather_trains (s : Nat × Nat) (k : Option Nat × Option (Msg Nat)) :
    Trains gather 5 1 s k (s.1 + addend k, s.2) := ⟨(s.1 + addend k, s.2), rfl, rfl⟩

theorem gather_chunks (ks : List (Option Nat × Option (Msg Nat))) (s : Nat × Nat) :
    trainChunks gather.toTFlow 5 1 ks s = some (.ok (), (s.1 + (ks.map addend).sum, s.2)) := by
  induction ks generalizing s with
  | nil => rfl
  | cons k ks ih =>
    obtain ⟨x, m⟩ := k
    have h : trainChunk gather.toTFlow 5 1 5 (.int 0) x m s = some (.ok (), (s.1 + addend (x, m), s.2)) := rfl
    simp only [trainChunks, h]
    have : gather.reset (s.1 + addend (x, m), s.2) = (s.1 + addend (x, m), s.2) := rfl
    simp only [this, ih, List.map_cons, List.sum_cons, Nat.add_assoc]

theorem gather_joinAll (l : Nat) (ns : List Nat) (a : Nat) :
    joinAll gather (a, l) (ns.map fun b => (b, l)) = .ok (a + ns.sum, l) := by
  induction ns generalizing a with
  | nil => rfl
  | cons b ns ih =>
    have : gather.join (a, l) (b, l) = .ok (a + b, l) := rfl
    simp only [List.map_cons, joinAll, this, ih, List.sum_cons, Nat.add_assoc]

theorem gather_forkJoin : ForkJoin gather Eq 5 1 where
  sound := by
    intro s f s' ks ks' hf hne ht hp
    cases hf
    rw [gather_chunks] at ht
    cases ht
    cases ks' with
    | nil => exact absurd hp.symm.eq_nil hne
    | cons k ks' =>
      refine ⟨(addend k, s.2), (ks'.map addend).map fun b => (b, s.2), (addend k + (ks'.map addend).sum, s.2), _, ?_,
        gather_joinAll _ _ _, rfl, ?_⟩
      · refine .cons ?_ ?_
        · simpa using gather_trains (0, s.2) k
        · clear hp
          induction ks' with
          | nil => exact .nil
          | cons a ks' ih => exact .cons (by simpa using gather_trains (0, s.2) a) ih
      · have := List.Perm.sum_nat (hp.map addend)
        rw [List.map_cons, List.sum_cons] at this
        rw [← this]
  shared := fun _ _ => rfl

/-- Non-vacuity of C202: the hypotheses hold for this flow, and a training in two phases on three chunks, whose tasks finish
in the reverse order, succeeds. -/
example : RespectsTrain gather Eq ∧ GoodId gather.nodeId ∧ Passes gather ∧
    (∀ nr, nr < gather.len → gather.trainable nr = true → ForkJoin gather Eq 5 nr) ∧
    (∀ k ∈ [(some 1, none), (some 2, some [(['a'], .int 7)]), (some 3, none)],
      ForFlow gather k.2 ∧ (k.1 ≠ none ∨ k.2 ≠ none)) ∧ (∀ i m, Quiet gather i m) ∧
    trainFlow gather.toTFlow 5 (fun _ => [(some 1, none), (some 2, some [(['a'], .int 7)]), (some 3, none)]) (fun _ => none)
      (0, 2) = some (.ok (), (18, 0)) ∧
    Par.train gather 5 (fun _ => List.reverse) (fun _ => [(some 1, none), (some 2, some [(['a'], .int 7)]), (some 3, none)])
      (fun _ => none) (0, 2) = some (.ok (), (18, 0)) := by
  refine ⟨?_, by simp [GoodId, gather], fun _ _ => ⟨rfl, rfl⟩, ?_, ?_, ?_, rfl, rfl⟩
  · exact { refl := fun _ => rfl, symm := fun h => h.symm, trans := fun h h' => h.trans h'
            exec := fun _ _ _ _ _ h => by subst h; exact ⟨rfl, rfl⟩
            plain := fun _ _ _ _ h => by subst h; exact ⟨rfl, rfl⟩
            reset := fun h => h
            train := fun _ _ _ _ _ h => by subst h; exact ⟨rfl, rfl⟩
            plainTrain := fun _ _ _ _ h => by subst h; exact ⟨rfl, rfl⟩
            stop := fun _ _ _ _ h => by subst h; exact ⟨rfl, rfl⟩
            remaining := fun _ _ _ h => by subst h; rfl
            fork := fun h hf => by subst h; exact ⟨_, hf, rfl⟩
            join := fun h h' hj => by subst h h'; exact ⟨_, hj, rfl⟩ }
  · intro nr h1 h2
    have : nr = 1 := by simpa [gather] using h2
    subst this
    exact gather_forkJoin
  · intro k hk
    simp only [List.mem_cons, List.not_mem_nil, or_false] at hk
    rcases hk with rfl | rfl | rfl
    · exact ⟨fun d hd => (nomatch hd), .inl (by simp)⟩
    · refine ⟨?_, .inl (by simp)⟩
      intro d hd
      cases hd
      refine ⟨⟨?_, by decide, by decide, by decide, by decide⟩, [], rfl⟩
      rintro k ⟨r, id, hr, _⟩
      cases hr
    · exact ⟨fun d hd => (nomatch hd), .inl (by simp)⟩
  · intro i m s r s' h
    left
    cases h
    rfl

/-! ### Violations -/

/-- The second node is the first; when its training ends it sends a message, which passes through the flow. -/
def sender : PFlow (Nat × Nat) Nat Nat :=
  { gather with
    trainable := fun j => j == 0
    exec := fun _ s x m => (.ok (.pair x m), s)
    stop := fun _ s _ => (.ok (.pair none (some [(['a'], .int 1)])), (s.1, s.2 - 1)) }

/-- **C202, violated.** A node that sends a message through the flow when its training ends: `BiFlow.train` succeeds,
`ParallelBiFlow.train` raises an IndexError, on the scheduler as well as when the phase is trained locally. -/
theorem parallel_biflow_stop_message_false :
    trainFlow sender.toTFlow 5 (fun _ => [(some 1, none)]) (fun _ => none) (0, 1) = some (.ok (), (1, 0)) ∧
    Par.train sender 5 (fun _ => id) (fun _ => [(some 1, none)]) (fun _ => none) (0, 1) =
      some (.error .indexError, (1, 0)) ∧
    Par.train { sender with fork := fun _ => none } 5 (fun _ => id) (fun _ => [(some 1, none)]) (fun _ => none) (0, 1) =
      some (.error .indexError, (1, 0)) := ⟨rfl, rfl, rfl⟩

/-- A node that answers its training data by sending them out of the flow. -/
def leaver : PFlow (Nat × Nat) Nat Nat :=
  { gather with train := fun _ s x _ => (.ok (.triple x none (.str sExit)), (s.1 + x.getD 0, s.2)) }

/-- The other way round: a node that leaves the flow in training is accepted in parallel and refused in one process. -/
theorem parallel_biflow_exit_false :
    (∃ e s', trainFlow leaver.toTFlow 5 (fun _ => [(some 1, none)]) (fun _ => none) (0, 1) = some (.error e, s')) ∧
    Par.train leaver 5 (fun _ => id) (fun _ => [(some 1, none)]) (fun _ => none) (0, 1) = some (.ok (), (2, 0)) :=
  ⟨⟨_, _, rfl⟩, rfl⟩

/-- Without data, both raise an exception, but not the same. -/
theorem parallel_biflow_no_data :
    trainFlow gather.toTFlow 5 (fun _ => []) (fun _ => none) (0, 1) = some (.error .biflow, (0, 1)) ∧
    Par.train gather 5 (fun _ => id) (fun _ => []) (fun _ => none) (0, 1) = some (.error .biflow, (0, 1)) ∧
    Par.train { gather with fork := fun _ => none } 5 (fun _ => id) (fun _ => []) (fun _ => none) (0, 1) =
      some (.error .notTrained, (0, 1)) := ⟨rfl, rfl, rfl⟩

end Bi.Par
