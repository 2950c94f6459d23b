import Verif.Parallel.FlowProps
import Verif.Parallel.NodeJoinProps

/-!
# Properties of parallel training (C100, C101, C102, C104, C105)
-/

namespace PFlow

open Py

variable {σ X D : Type}

/-- The checkpoints in force during a training. -/
def checksFor (s0 : St σ X D) (ck : Option (List (Option (Check σ)))) : List (Option (Check σ)) := ck.getD s0.checks

/-- A call of `train` on a flow that is not being trained, with arguments of the right shape. -/
structure Ready (s0 : St σ X D) (ck : Option (List (Option (Check σ)))) (data : List (Option (List D))) : Prop where
  idle : s0.i = none
  next : s0.next = none
  data : data.length = s0.nodes.length
  checks : ∀ l, ck = some l → l.length = s0.nodes.length

theorem setup_ok {s0 : St σ X D} {ck : Option (List (Option (Check σ)))} {data : List (Option (List D))}
    (h : Ready s0 ck data) : setupTraining ck data s0 =
      (.ok (), { s0 with checks := checksFor s0 ck, data := some data, i := some 0, started := false }) := by
  have h1 : setupChecks ck s0 = (.ok (), { s0 with checks := checksFor s0 ck }) := by
    cases ck with
    | none => rfl
    | some l =>
      simp only [setupChecks, M.bind_def, M.get_def, h.checks l rfl, ne_eq, not_true, if_false, M.modify_def]
      rfl
  simp only [setupTraining, M.bind_ok h1, M.bind_def, M.get_def, h.idle, h.data, ne_eq, not_true, if_false,
    M.modify_def]
  simp

/-- `train` has at most one outcome. -/
theorem trains_det {ops : Ops σ X D} {arg : SchedArg} {arr : Nat → List D → List D}
    {ck : Option (List (Option (Check σ)))} {data : List (Option (List D))} {s0 : St σ X D}
    {r r' : Except PErr Unit × TSt σ X D} (h : Trains ops arg arr ck data s0 r)
    (h' : Trains ops arg arr ck data s0 r') : r = r' := by
  unfold Trains at h h'
  split at h
  · next hc => rw [if_pos hc] at h'; rw [h, h']
  · next hc =>
    rw [if_neg hc] at h'
    generalize setupTraining ck data s0 = q at h h'
    obtain ⟨q1, q2⟩ := q
    cases q1 with
    | error e => simp only at h h'; rw [h, h']
    | ok u =>
      obtain ⟨a, h1, h2⟩ := h
      obtain ⟨b, h3, h4⟩ := h'
      rw [h2, h4, h1.det h3]

theorem finish_log (arg : SchedArg) (tr : List (Phase D)) (r : TSt σ X D) (a : Nat)
    (ha : lastForked tr = none → arg = .one) (hso : SchedOk arg ((lastForked tr).getD a) r) :
    ∃ r', finish (.ok (), r) = (.ok (), r') ∧ r'.pf = { r.pf with data := none, iter := none } ∧
      r'.used = r.used ∧ r'.given = r.given ∧ r'.shut = shutOf arg tr := by
  cases arg with
  | one =>
    obtain ⟨h1, h2, h3⟩ := hso
    refine ⟨{ r with pf := { r.pf with data := none, iter := none } }, ?_, rfl, rfl, rfl, h3⟩
    simp [finish, h2]
  | many l =>
    obtain ⟨h1, h2, h3, h4, h5, h6⟩ := hso
    cases hlf : lastForked tr with
    | none => exact absurd (ha hlf) (by simp)
    | some j =>
      rw [hlf] at h1 h3 h6
      simp only [Option.getD_some] at h1 h3 h6
      refine ⟨{ r with pf := { r.pf with data := none, iter := none }, shut := before l j ++ [j] }, ?_, rfl, rfl, rfl,
        ?_⟩
      · simp only [finish, h2, if_true, shutCur, M.bind_def, M.get_def, h1, M.modify_def, h3]
      · simp only [shutOf, hlf, before, List.range_succ, List.filter_append, List.filter_cons, h6]
        simp

/-- What a successful training does, in one statement. -/
theorem train_all {ops : Ops σ X D} {R : σ → σ → Prop} (hR : Respects ops R) (hF : ForkJoin ops R)
    (hk : KeepsPhase ops) {arg : SchedArg} {arr : Nat → List D → List D} (harr : ∀ k l, (arr k l).Perm l)
    {ck : Option (List (Option (Check σ)))} {data : List (Option (List D))} {s0 : St σ X D}
    (hgood : ∀ n ∈ s0.nodes, R n n) (hready : Ready s0 ck data) (hck : Neutral (checksFor s0 ck)) {tr : List (Phase D)} {out : List σ}
    (hseq : Seq ops data s0.nodes tr out) (he : Enough arg tr) :
    ∃ r, Trains ops arg arr ck data s0 (.ok (), r) ∧ List.Forall₂ R r.pf.nodes out ∧
      r.pf.i = none ∧ r.pf.next = none ∧ r.pf.data = none ∧ r.pf.iter = none ∧
      r.given = tasksOf tr ∧ r.used = usedOf arg tr ∧ r.shut = shutOf arg tr ∧
      r.pf.calls = s0.calls ++ callsOf (checksFor s0 ck) tr := by
  have hs := setup_ok hready
  have hrefl : List.Forall₂ R s0.nodes s0.nodes := by
    clear hseq hs
    revert hgood
    generalize s0.nodes = l
    intro hgood
    induction l with
    | nil => exact .nil
    | cons a l ih => exact .cons (hgood a (by simp)) (ih fun n hn => hgood n (by simp [hn]))
  generalize ht : ({ s0 with checks := checksFor s0 ck, data := some data, i := some 0, started := false } :
    St σ X D) = t at hs
  have hrel : Rel ops R data (checksFor s0 ck) t s0.nodes := by
    rw [← ht]; exact ⟨hrefl, rfl, rfl, rfl⟩
  have hti : t.i = some 0 := by rw [← ht]
  have htn : t.next = none := by rw [← ht]; exact hready.next
  have htc : t.calls = s0.calls := by rw [← ht]
  obtain ⟨tr1, tr2, m2, t2, htr, hloc, hseq2, hret, hrel2, hcalls2, hstops⟩ :=
    next_reach hR hF hk hck hseq t 0 hrel hti (by omega) (by intro j n hj; omega)
  rw [htn] at hstops
  have hf1 := filter_local hloc
  have hl2 : ∀ l, arg = .many l → ∀ q ∈ tr2, q.forked = true → l[q.node]? = some true := by
    intro l harg q hq
    subst harg
    exact he.2 q (by rw [htr]; simp [hq])
  have hprep : ∃ s2 a2, prepare arg { pf := t2 } = (.ok (), s2) ∧ SchedOk arg a2 s2 ∧
      Same { pf := t2 } s2 ∧ (∀ q tr', tr2 = q :: tr' → a2 = q.node) ∧ (lastForked tr2 = none → arg = .one) := by
    cases hstops with
    | done h1 h2 =>
      cases arg with
      | one =>
        refine ⟨_, 0, rfl, ⟨rfl, rfl, rfl⟩, ⟨rfl, rfl, rfl, rfl⟩, ?_, fun _ => rfl⟩
        intro q _ h; cases h
      | many l =>
        obtain ⟨⟨p, hp, hpf⟩, _⟩ := he
        rw [htr, List.append_nil] at hp
        rw [hloc p hp] at hpf
        cases hpf
    | phase q c cs tr3 h1 h2 h3 h4 h5 h6 =>
      obtain ⟨s2, h7, h8, h9⟩ := prepare_ok arg { pf := t2 } q.node h3 (fun l harg => hl2 l harg q (by simp) h1)
        rfl rfl rfl
      refine ⟨s2, q.node, h7, h8, h9, ?_, ?_⟩
      · intro q' _ h; cases h; rfl
      · intro h
        simp [lastForked, h1] at h
  obtain ⟨s2, a2, hpr, hso2, hsame, ha2, hone⟩ := hprep
  obtain ⟨r, hr, hnodes, hri, hrn, hlog, hso3⟩ := train_from_head hR hF hk hck harr arg tr2.length m2 tr2 out
    { s2 with pc := .head } 0 a2 (Nat.le_refl _) hseq2 (by simp only [hsame.pf]; exact hrel2)
    (by simp only [hsame.pf]; exact hstops) rfl hl2 ha2 (by cases arg <;> exact hso2)
  have hlf : lastForked tr = lastForked tr2 := by rw [htr]; simp [lastForked, hf1]
  obtain ⟨r', hfin, hpf, hu, hg, hsh⟩ := finish_log arg tr r a2 (by rw [hlf]; exact hone) (by rw [hlf]; exact hso3)
  refine ⟨r', ?_, ?_, ?_, ?_, ?_, ?_, ?_, ?_, hsh, ?_⟩
  · unfold Trains
    rw [if_neg (by simp [hready.idle]), hs]
    exact ⟨(.ok (), r), lift_next (s := { pf := t }) hret (.inl ⟨rfl, hpr⟩) hr, hfin.symm⟩
  · rw [hpf]; exact hnodes
  · rw [hpf]; exact hri
  · rw [hpf]; exact hrn
  · rw [hpf]
  · rw [hpf]
  · rw [hg, hlog.given]
    simp only [hsame.given, htr, tasksOf, List.filter_append, hf1]
    simp
  · rw [hu, hlog.used]
    simp only [hsame.used, htr, usedOf, List.filter_append, hf1]
    simp
  · rw [hpf]
    simp only [hlog.calls, hsame.pf, hcalls2, htc, htr, callsOf_append, List.append_assoc]

/-! ### C100: the result is that of sequential training -/

/-- C100. If the nodes fork and join properly and training the flow in one process succeeds, then training it on
schedulers succeeds as well, whatever the order in which the tasks finish, and the nodes end up in the same states (as
far as the flow can tell); the flow is ready for the next call. -/
theorem parallel_train_sequential {ops : Ops σ X D} {R : σ → σ → Prop} (hR : Respects ops R) (hF : ForkJoin ops R)
    (hk : KeepsPhase ops) {arg : SchedArg} {arr : Nat → List D → List D} (harr : ∀ k l, (arr k l).Perm l)
    {ck : Option (List (Option (Check σ)))} {data : List (Option (List D))} {s0 : St σ X D}
    (hgood : ∀ n ∈ s0.nodes, R n n) (hready : Ready s0 ck data) (hck : Neutral (checksFor s0 ck)) {tr : List (Phase D)} {out : List σ}
    (hseq : Seq ops data s0.nodes tr out) (he : Enough arg tr) :
    (∃ r, Trains ops arg arr ck data s0 r) ∧
    ∀ r, Trains ops arg arr ck data s0 r → r.1 = .ok () ∧ List.Forall₂ R r.2.pf.nodes out ∧
      r.2.pf.i = none ∧ r.2.pf.next = none ∧ r.2.pf.data = none ∧ r.2.pf.iter = none := by
  obtain ⟨r, h1, h2, h3, h4, h5, h6, _⟩ := train_all hR hF hk harr hgood hready hck hseq he
  refine ⟨⟨_, h1⟩, fun r' hr' => ?_⟩
  rw [trains_det hr' h1]
  exact ⟨rfl, h2, h3, h4, h5, h6⟩

/-! ### C101: the tasks -/

/-- C101. The tasks given to the schedulers are, phase by phase, exactly the chunks of the node being trained, in
order and each once; the callable comes with the first task of a phase only. Phases of nodes that cannot be forked
give no tasks. -/
theorem parallel_tasks {ops : Ops σ X D} {R : σ → σ → Prop} (hR : Respects ops R) (hF : ForkJoin ops R)
    (hk : KeepsPhase ops) {arg : SchedArg} {arr : Nat → List D → List D} (harr : ∀ k l, (arr k l).Perm l)
    {ck : Option (List (Option (Check σ)))} {data : List (Option (List D))} {s0 : St σ X D}
    (hgood : ∀ n ∈ s0.nodes, R n n) (hready : Ready s0 ck data) (hck : Neutral (checksFor s0 ck)) {tr : List (Phase D)} {out : List σ}
    (hseq : Seq ops data s0.nodes tr out) (he : Enough arg tr) {r : Except PErr Unit × TSt σ X D}
    (hr : Trains ops arg arr ck data s0 r) : r.2.given = tasksOf tr := by
  obtain ⟨r', h1, _, _, _, _, _, h2, _⟩ := train_all hR hF hk harr hgood hready hck hseq he
  rw [trains_det hr h1]
  exact h2

/-! ### C105: schedulers for every node -/

/-- C105. With an iterable of schedulers, the tasks of node `i` go to scheduler number `i`, and every scheduler up to
the one of the last node trained that way is shut down exactly once, in order. A single scheduler is used for
everything and is not shut down. -/
theorem parallel_schedulers {ops : Ops σ X D} {R : σ → σ → Prop} (hR : Respects ops R) (hF : ForkJoin ops R)
    (hk : KeepsPhase ops) {arg : SchedArg} {arr : Nat → List D → List D} (harr : ∀ k l, (arr k l).Perm l)
    {ck : Option (List (Option (Check σ)))} {data : List (Option (List D))} {s0 : St σ X D}
    (hgood : ∀ n ∈ s0.nodes, R n n) (hready : Ready s0 ck data) (hck : Neutral (checksFor s0 ck)) {tr : List (Phase D)} {out : List σ}
    (hseq : Seq ops data s0.nodes tr out) (he : Enough arg tr) {r : Except PErr Unit × TSt σ X D}
    (hr : Trains ops arg arr ck data s0 r) : r.2.used = usedOf arg tr ∧ r.2.shut = shutOf arg tr := by
  obtain ⟨r', h1, _, _, _, _, _, _, h2, h3, _⟩ := train_all hR hF hk harr hgood hready hck hseq he
  rw [trains_det hr h1]
  exact ⟨h2, h3⟩

/-! ### C104: checkpoints -/

/-- C104. `ParallelCheckpointFlow`: the checkpoints of the nodes trained in the call are called, each once, in the
order in which the nodes finish their last phase. -/
theorem parallel_checkpoints {ops : Ops σ X D} {R : σ → σ → Prop} (hR : Respects ops R) (hF : ForkJoin ops R)
    (hk : KeepsPhase ops) {arg : SchedArg} {arr : Nat → List D → List D} (harr : ∀ k l, (arr k l).Perm l)
    {checks : List (Option (Check σ))} {data : List (Option (List D))} {s0 : St σ X D}
    (hgood : ∀ n ∈ s0.nodes, R n n) (hready : Ready s0 (some checks) data) (hck : Neutral checks) {tr : List (Phase D)} {out : List σ}
    (hseq : Seq ops data s0.nodes tr out) (he : Enough arg tr) {r : Except PErr Unit × TSt σ X D}
    (hr : Trains ops arg arr (some checks) data s0 r) : r.2.pf.calls = s0.calls ++ callsOf checks tr := by
  obtain ⟨r', h1, _, _, _, _, _, _, _, _, h2⟩ := train_all hR hF hk harr hgood hready hck hseq he
  rw [trains_det hr h1]
  exact h2

/-! ### C102: a training that fails -/

/-- Training is underway. -/
def Busy (t : St σ X D) : Prop := t.i.isSome = true

theorem busy_onNode (i : Nat) (f : σ → Except PErr Unit × σ) : M.Keeps (Busy (X := X) (D := D)) (onNode i f) := by
  intro s hs
  simp only [onNode, M.bind_def, M.get_def]
  cases s.nodes[i]? with
  | none => exact hs
  | some n => simp only [setNode, M.modify_def, M.lift_def]; exact hs

theorem busy_fnTrain (ops : Ops σ X D) (d : D) : M.Keeps Busy (fnTrain ops d) := by
  intro s hs
  simp only [fnTrain, M.bind_def, M.get_def]
  cases firstTraining ops s.nodes with
  | none => exact hs
  | some i =>
    simp only [M.modify_def]
    cases execAll ops (s.nodes.take i) (ops.dat d) with
    | error e => exact hs
    | ok x => exact busy_onNode i _ _ hs

theorem busy_fnStop (ops : Ops σ X D) : M.Keeps Busy (fnStop ops) := by
  intro s hs
  simp only [fnStop, M.bind_def, M.get_def]
  cases firstTraining ops s.nodes with
  | none => exact hs
  | some i =>
    simp only
    split
    · exact M.Keeps.bind (busy_onNode i ops.stop) (fun _ => fun _ h => h) s hs
    · exact hs

theorem busy_fnJoin (ops : Ops σ X D) (r : σ) : M.Keeps Busy (fnJoin ops r) := by
  intro s hs
  simp only [fnJoin, M.bind_def, M.get_def]
  cases firstTraining ops s.nodes with
  | none => exact hs
  | some i =>
    simp only [M.modify_def]
    exact busy_onNode i _ _ hs

theorem busy_postStop (ops : Ops σ X D) (i : Nat) : M.Keeps Busy (postStop ops i) := by
  intro s hs
  simp only [postStop, M.bind_def, M.get_def]
  cases s.nodes[i]? with
  | none => exact hs
  | some n =>
    simp only
    cases ops.training n with
    | true => exact hs
    | false =>
      simp only [Bool.false_eq_true, if_false]
      obtain ⟨o, ho⟩ : ∃ o, s.checks[i]? = o := ⟨_, rfl⟩
      simp only [ho]
      cases o with
      | none => exact hs
      | some c => cases c with
        | none => exact hs
        | some c => exact busy_onNode i c _ hs

theorem busy_closePhase (ops : Ops σ X D) (i : Nat) : M.Keeps Busy (closePhase ops i) := by
  refine .bind (busy_fnStop ops) fun _ => .bind (busy_postStop ops i) fun _ => ?_
  intro s hs
  simp only [M.bind_def, M.get_def]
  cases s.nodes[i]? with
  | none => exact hs
  | some n =>
    simp only
    cases ops.training n with
    | true => exact hs
    | false => rfl

theorem busy_localTrain (ops : Ops σ X D) : ∀ ds : List D, M.Keeps Busy (localTrain ops ds)
  | [] => fun _ hs => hs
  | d :: ds => .bind (busy_fnTrain ops d) fun _ => busy_localTrain ops ds

theorem busy_localPhase (ops : Ops σ X D) (i : Nat) (ds : List D) : M.Keeps Busy (localPhase ops i ds) := by
  refine .bind (busy_localTrain ops ds) fun _ => ?_
  by_cases h : ds = []
  · rw [if_pos h]; exact .raise _
  · rw [if_neg h]; exact busy_closePhase ops i

theorem busy_joinAll (ops : Ops σ X D) : ∀ rs : List σ, M.Keeps Busy (joinAll ops rs)
  | [] => fun _ hs => hs
  | r :: rs => .bind (busy_fnJoin ops r) fun _ => busy_joinAll ops rs

theorem busy_useResults (ops : Ops σ X D) (rs : List σ) : M.Keeps Busy (useResults ops rs) := by
  refine .bind (busy_joinAll ops rs) fun _ => ?_
  intro s hs
  simp only [M.bind_def, M.get_def]
  obtain ⟨o, ho⟩ : ∃ o, s.i = o := ⟨_, rfl⟩
  simp only [ho]
  cases o with
  | none => exact hs
  | some i => exact busy_closePhase ops i s hs

theorem busy_getTask : M.Keeps (Busy (σ := σ) (X := X) (D := D)) getTask := by
  intro s hs
  simp only [getTask, M.bind_def, M.get_def]
  obtain ⟨o, ho⟩ : ∃ o, s.next = o := ⟨_, rfl⟩
  simp only [ho]
  cases o with
  | none => exact hs
  | some t =>
    simp only [show s.i.isSome = true from hs, if_true]
    obtain ⟨o, ho⟩ : ∃ o, s.iter = o := ⟨_, rfl⟩
    simp only [ho]
    cases o with
    | none => exact hs
    | some l => cases l <;> exact hs

theorem busy_getTasks : ∀ k, M.Keeps (Busy (σ := σ) (X := X) (D := D)) (getTasks k)
  | 0 => fun _ hs => hs
  | k + 1 => by
    intro s hs
    simp only [getTasks, M.bind_def, M.get_def]
    cases s.next.isSome with
    | false => exact hs
    | true =>
      simp only [if_true]
      refine (M.Keeps.bind busy_getTask fun t => .bind (busy_getTasks k) fun ts => ?_ :
        M.Keeps Busy (do let t ← getTask; let ts ← getTasks k; pure (t :: ts))) s hs
      exact .pure _

theorem busy_next {ops : Ops σ X D} {t : St σ X D} (h : Busy t) :
    (∀ t', nextStep ops t = .inl t' → Busy t') ∧ ∀ e t', nextStep ops t = .inr (.error e, t') → Busy t' := by
  unfold nextStep
  obtain ⟨i, hi⟩ := Option.isSome_iff_exists.1 h
  simp only [hi]
  cases t.nodes[i]? with
  | none => simp
  | some n =>
    simp only
    cases ops.training n with
    | false =>
      simp only [Bool.false_eq_true, if_false]
      exact ⟨fun t' h => (by cases h; rfl), fun e t' h => by cases h⟩
    | true =>
      simp only [if_true]
      obtain ⟨o, ho⟩ : ∃ o, t.data = o := ⟨_, rfl⟩
      simp only [ho]
      cases o with
      | none => exact ⟨fun t' h => (by cases h), fun e t' h' => by cases h'; exact h⟩
      | some ds =>
        simp only
        cases ds[i]? with
        | none => exact ⟨fun t' h => (by cases h), fun e t' h' => by cases h'; exact h⟩
        | some d =>
          simp only
          generalize fnFork ops t.nodes = q
          cases q with
          | ok f =>
            cases d with
            | none => exact ⟨fun t' h => (by cases h), fun e t' h' => by cases h'; exact h⟩
            | some l => cases l with
              | nil => exact ⟨fun t' h => (by cases h), fun e t' h' => by cases h'; rfl⟩
              | cons c cs => exact ⟨fun t' h => (by cases h), fun e t' h' => by cases h'⟩
          | error e =>
            cases e with
            | notForkable =>
              cases d with
              | none => exact ⟨fun t' h => (by cases h), fun e t' h' => by cases h'; exact h⟩
              | some cs =>
                simp only
                have hb := busy_localPhase ops i cs t h
                generalize localPhase ops i cs t = q at hb
                obtain ⟨q1, q2⟩ := q
                cases q1 with
                | ok u => exact ⟨fun t' h => (by cases h; exact hb), fun e t' h' => by cases h'⟩
                | error e => exact ⟨fun t' h => (by cases h), fun e t' h' => by cases h'; exact hb⟩
            | _ => exact ⟨fun t' h => (by cases h), fun e t' h' => by cases h'; exact h⟩

theorem busy_runPhase {ops : Ops σ X D} {arr : Nat → List D → List D} (s : TSt σ X D) (h : Busy s.pf) :
    Busy (runPhase ops arr s).2.pf := by
  simp only [runPhase, M.bind_def, M.get_def, onFlow]
  have h1 := busy_getTasks (1 + (s.pf.iter.map List.length).getD 0) s.pf h
  generalize getTasks (1 + (s.pf.iter.map List.length).getD 0) s.pf = q at h1
  obtain ⟨q1, q2⟩ := q
  cases q1 with
  | error e => exact h1
  | ok ts =>
    simp only
    obtain ⟨c, hc⟩ : ∃ c, s.cur = c := ⟨_, rfl⟩
    obtain ⟨o, ho⟩ : ∃ o, s.pf.i = o := ⟨_, rfl⟩
    simp only [hc, ho]
    cases c with
    | iterable => exact h1
    | none => exact h1
    | sched k => cases o with
      | none => exact h1
      | some i =>
        simp only [M.bind_def, M.modify_def]
        generalize runTasks ops s.pf.nodes (arr s.phase (ts.map (·.1))) = rt
        cases rt with
        | error e => exact h1
        | ok l => cases l with
          | nil => exact h1
          | cons f fs =>
            simp only
            generalize joinInto ops f fs = jt
            cases jt with
            | error e => exact h1
            | ok r => exact busy_useResults ops [r] _ h1

theorem manyKept {ops : Ops σ X D} {arr : Nat → List D → List D} (s : TSt σ X D) :
    (runPhase ops arr s).2.many = s.many := by
  simp only [runPhase, M.bind_def, M.get_def, onFlow]
  generalize getTasks (1 + (s.pf.iter.map List.length).getD 0) s.pf = q
  obtain ⟨q1, q2⟩ := q
  cases q1 with
  | error e => rfl
  | ok ts =>
    simp only
    obtain ⟨c, hc⟩ : ∃ c, s.cur = c := ⟨_, rfl⟩
    obtain ⟨o, ho⟩ : ∃ o, s.pf.i = o := ⟨_, rfl⟩
    simp only [hc, ho]
    cases c with
    | iterable => rfl
    | none => rfl
    | sched k => cases o with
      | none => rfl
      | some i =>
        simp only [M.bind_def, M.modify_def]
        generalize runTasks ops s.pf.nodes (arr s.phase (ts.map (·.1))) = rt
        cases rt with
        | error e => rfl
        | ok l => cases l with
          | nil => rfl
          | cons f fs =>
            simp only
            generalize joinInto ops f fs = jt
            cases jt <;> rfl

/-- A failure of `train` on a single scheduler leaves the training underway. -/
theorem busy_train {ops : Ops σ X D} {arr : Nat → List D → List D} {s : TSt σ X D}
    {e : PErr} {r : TSt σ X D} (hr : Returns (trainStep ops .one arr) s (.error e, r))
    (h : s.pc = .head ∨ Busy s.pf) (hm : s.many = false) : Busy r.pf ∧ r.many = false := by
  refine Returns.partial_rule (step := trainStep ops .one arr) (fun s => (s.pc = .head ∨ Busy s.pf) ∧ s.many = false)
    (fun q => ∀ e r, q = (.error e, r) → Busy r.pf ∧ r.many = false) ?_ ?_ s ⟨h, hm⟩ _ hr e r rfl
  · rintro s s' ⟨hs, hm⟩ hstep
    unfold trainStep at hstep
    obtain ⟨pc, hpc⟩ : ∃ pc, s.pc = pc := ⟨_, rfl⟩
    rw [hpc] at hstep hs
    cases pc with
    | head =>
      simp only at hstep
      by_cases hb : s.pf.i.isSome = true
      · rw [if_pos hb] at hstep
        have h1 := busy_runPhase (ops := ops) (arr := arr) s hb
        have h2 : (runPhase ops arr s).2.many = s.many := manyKept s
        generalize runPhase ops arr s = q at hstep h1 h2
        obtain ⟨q1, q2⟩ := q
        cases q1 with
        | error e => cases hstep
        | ok u => cases hstep; exact ⟨.inr h1, h2.trans hm⟩
      · rw [if_neg hb] at hstep; cases hstep
    | first =>
      simp only [reduceCtorEq, false_or] at hstep hs
      have h1 := busy_next (ops := ops) hs
      generalize nextStep ops s.pf = q at hstep h1
      cases q with
      | inl t => cases hstep; exact ⟨.inr (h1.1 t rfl), hm⟩
      | inr q =>
        obtain ⟨q1, q2⟩ := q
        cases q1 with
        | error e => cases hstep
        | ok u => cases hstep; exact ⟨.inl rfl, hm⟩
    | again =>
      simp only [reduceCtorEq, false_or] at hstep hs
      have h1 := busy_next (ops := ops) hs
      generalize nextStep ops s.pf = q at hstep h1
      cases q with
      | inl t => cases hstep; exact ⟨.inr (h1.1 t rfl), hm⟩
      | inr q =>
        obtain ⟨q1, q2⟩ := q
        cases q1 with
        | error e => cases hstep
        | ok u => cases hstep; exact ⟨.inl rfl, hm⟩
  · rintro s q ⟨hs, hm⟩ hstep e r rfl
    unfold trainStep at hstep
    obtain ⟨pc, hpc⟩ : ∃ pc, s.pc = pc := ⟨_, rfl⟩
    rw [hpc] at hstep hs
    cases pc with
    | head =>
      simp only at hstep
      by_cases hb : s.pf.i.isSome = true
      · rw [if_pos hb] at hstep
        have h1 := busy_runPhase (ops := ops) (arr := arr) s hb
        have h2 : (runPhase ops arr s).2.many = s.many := manyKept s
        generalize runPhase ops arr s = q at hstep h1 h2
        obtain ⟨q1, q2⟩ := q
        cases q1 with
        | error e => cases hstep; exact ⟨h1, h2.trans hm⟩
        | ok u => cases hstep
      · rw [if_neg hb] at hstep; cases hstep
    | first =>
      simp only [reduceCtorEq, false_or] at hstep hs
      have h1 := busy_next (ops := ops) hs
      generalize nextStep ops s.pf = q at hstep h1
      cases q with
      | inl t => cases hstep
      | inr q =>
        obtain ⟨q1, q2⟩ := q
        cases q1 with
        | error e => cases hstep; exact ⟨h1.2 _ _ rfl, hm⟩
        | ok u => cases hstep
    | again =>
      simp only [reduceCtorEq, false_or] at hstep hs
      have h1 := busy_next (ops := ops) hs
      generalize nextStep ops s.pf = q at hstep h1
      cases q with
      | inl t => cases hstep
      | inr q =>
        obtain ⟨q1, q2⟩ := q
        cases q1 with
        | error e => cases hstep; exact ⟨h1.2 _ _ rfl, hm⟩
        | ok u => cases hstep

/-- C102, violated: whatever made a parallel training fail (a node that raises, missing data, a fork or a join that
fails), from then on every call of `train` on the flow raises `ParallelFlowException` and does nothing, with any data
and any schedulers. -/
theorem failed_training_blocks {ops : Ops σ X D} {arr : Nat → List D → List D}
    {ck : Option (List (Option (Check σ)))} {data : List (Option (List D))} {s0 : St σ X D} {e : PErr} {r : TSt σ X D}
    (hready : Ready s0 ck data) (hr : Trains ops .one arr ck data s0 (.error e, r)) :
    (∀ arg' arr' ck' data' q, Trains ops arg' arr' ck' data' r.pf q ↔ q = (.error .underway, { pf := r.pf })) ∧
    (∀ data', setupTraining none data' r.pf = (.error .underway, r.pf)) ∧
    (∀ {C : Type} (c : Option C) seq, trainLocal c seq r.pf = (.error .underway, r.pf)) := by
  have hbusy : Busy r.pf := by
    unfold Trains at hr
    rw [if_neg (by simp [hready.idle]), setup_ok hready] at hr
    obtain ⟨⟨q1, q2⟩, h1, h2⟩ := hr
    cases q1 with
    | ok u =>
      have hm : q2.many = false := by
        refine Returns.partial_rule (step := trainStep ops .one arr) (fun s => s.many = false)
          (fun q => q.2.many = false) ?_ ?_ _ rfl _ h1
        · intro s s' hs hstep
          unfold trainStep at hstep
          split at hstep
          · split at hstep
            · have h2 : (runPhase ops arr s).2.many = s.many := manyKept s
              generalize runPhase ops arr s = q at hstep h2
              obtain ⟨q1, q2⟩ := q
              cases q1 with
              | error e => cases hstep
              | ok u => cases hstep; exact h2.trans hs
            · cases hstep
          all_goals
            generalize nextStep ops s.pf = q at hstep
            cases q with
            | inl t => cases hstep; exact hs
            | inr q =>
              obtain ⟨q1, q2⟩ := q
              cases q1 with
              | error e => cases hstep
              | ok u => cases hstep; exact hs
        · intro s q hs hstep
          unfold trainStep at hstep
          split at hstep
          · split at hstep
            · have h2 : (runPhase ops arr s).2.many = s.many := manyKept s
              generalize runPhase ops arr s = q at hstep h2
              obtain ⟨q1, q2⟩ := q
              cases q1 with
              | error e => cases hstep; exact h2.trans hs
              | ok u => cases hstep
            · cases hstep; exact hs
          all_goals
            generalize nextStep ops s.pf = q at hstep
            cases q with
            | inl t => cases hstep
            | inr q =>
              obtain ⟨q1, q2⟩ := q
              cases q1 with
              | error e => cases hstep; exact hs
              | ok u => cases hstep
      simp [finish, hm] at h2
    | error e' =>
      obtain ⟨h3, h4⟩ := busy_train h1 (.inr rfl) rfl
      simp only [finish, h4, Bool.false_eq_true, if_false, Prod.mk.injEq] at h2
      rw [h2.2]
      exact h3
  have hsome : r.pf.i.isSome = true := hbusy
  refine ⟨fun arg' arr' ck' data' q => ?_, fun data' => ?_, fun c seq => ?_⟩
  · unfold Trains
    rw [if_pos hsome]
  · simp only [setupTraining, setupChecks, M.bind_def, M.get_def, M.pure_def, hsome, if_true, M.raise_def]
  · simp only [trainLocal, M.bind_def, M.get_def, hsome, if_true, M.raise_def]

/-! ### Where the schedulers are not enough (C105) and the checkpoints are not called (C104) -/

/-- C105, violated: if no phase of the training can be done on a scheduler (for example because all nodes are trained
already), `train` with an iterable of schedulers raises `TypeError` after all the work has been done. -/
theorem schedulers_typeError {ops : Ops σ X D} {R : σ → σ → Prop} (hR : Respects ops R) (hF : ForkJoin ops R)
    (hk : KeepsPhase ops) {arr : Nat → List D → List D} {ck : Option (List (Option (Check σ)))}
    {data : List (Option (List D))} {s0 : St σ X D} (hgood : ∀ n ∈ s0.nodes, R n n)
    (hready : Ready s0 ck data) (hck : Neutral (checksFor s0 ck))
    {tr : List (Phase D)} {out : List σ} (hseq : Seq ops data s0.nodes tr out) (hloc : ∀ p ∈ tr, p.forked = false)
    (b : Bool) (l : List Bool) :
    ∃ r, Trains ops (.many (b :: l)) arr ck data s0 (.error .typeError, r) ∧ List.Forall₂ R r.pf.nodes out := by
  have hs := setup_ok hready
  have hrefl : List.Forall₂ R s0.nodes s0.nodes := by
    clear hseq hs
    revert hgood
    generalize s0.nodes = l
    intro hgood
    induction l with
    | nil => exact .nil
    | cons a l ih => exact .cons (hgood a (by simp)) (ih fun n hn => hgood n (by simp [hn]))
  obtain ⟨tr1, tr2, m2, t2, htr, _, hseq2, hret, hrel2, _, hstops⟩ :=
    next_reach hR hF hk hck hseq { s0 with checks := checksFor s0 ck, data := some data, i := some 0, started := false }
      0 ⟨hrefl, rfl, rfl, rfl⟩ rfl (by omega) (by intro j n hj; omega)
  cases hstops with
  | phase q c cs tr3 h1 => rw [hloc q (by rw [htr]; simp)] at h1; cases h1
  | done h1 h2 =>
    cases hseq2 with
    | done _ _ =>
      have hprep : prepare (.many (b :: l)) { pf := t2 } = (.error .typeError,
          { pf := t2, many := true, cur := if b then .sched 0 else .none, drawn := 1 }) := by
        simp [prepare, draw, M.bind_def, h1]
      have hfinal : Returns (trainStep ops (.many (b :: l)) arr) { pf := { s0 with
          checks := checksFor s0 ck, data := some data, i := some 0, started := false } } (.error .typeError,
          { pf := t2, many := true, cur := if b then .sched 0 else .none, drawn := 1 }) := by
        clear hs hseq hrefl
        revert hret
        generalize ({ s0 with checks := checksFor s0 ck, data := some data, i := some 0, started := false } :
          St σ X D) = t
        rintro ⟨n, hn⟩
        induction n generalizing t with
        | zero => simp [runFuel] at hn
        | succ n ih =>
          simp only [runFuel] at hn
          cases hst : nextStep ops t with
          | inl t' =>
            rw [hst] at hn
            exact .of_inl (s' := { pf := t' }) (by simp only [trainStep, hst]) (ih t' hn)
          | inr q =>
            rw [hst] at hn
            cases hn
            exact .of_inr (by simp only [trainStep, hst, hprep])
      refine ⟨{ pf := { t2 with data := none, iter := none }, many := true, cur := if b then .sched 0 else .none,
                drawn := 1, shut := if b then [0] else [] }, ?_, hrel2.nodes⟩
      unfold Trains
      rw [if_neg (by simp [hready.idle]), hs]
      refine ⟨_, hfinal, ?_⟩
      cases b <;> simp [finish, shutCur, M.bind_def]

/-- C104, violated: a node that is trained already gets no checkpoint call from `ParallelCheckpointFlow` (C17:
`CheckpointFlow` calls the checkpoint of every node), and without a scheduler `ParallelCheckpointFlow.train` always
raises unless it is told explicitly to use no callable class. -/
theorem checkpoint_gaps {ops : Ops σ X D} {R : σ → σ → Prop} (hR : Respects ops R) (hF : ForkJoin ops R)
    (hk : KeepsPhase ops) {arr : Nat → List D → List D} (harr : ∀ k l, (arr k l).Perm l)
    {checks : List (Option (Check σ))} {data : List (Option (List D))} {s0 : St σ X D}
    (hgood : ∀ n ∈ s0.nodes, R n n) (hready : Ready s0 (some checks) data) (hck : Neutral checks) (htr : ∀ n ∈ s0.nodes, ops.training n = false) :
    (∀ r, Trains ops .one arr (some checks) data s0 r → r.2.pf.calls = s0.calls) ∧
    ∀ {C : Type} (dflt : C) (s : St σ X D) (seq : M PErr (St σ X D) Unit),
      (trainLocal (callableArg dflt .checkpoint none) seq s).2 = s ∧
      ∃ e, (trainLocal (callableArg dflt .checkpoint none) seq s).1 = .error e := by
  refine ⟨fun r hr => ?_, fun dflt s seq => ?_⟩
  · have := parallel_checkpoints hR hF hk harr hgood hready hck (.done _ htr) (arg := .one) trivial hr
    rw [this]
    simp [callsOf]
  · simp only [trainLocal, callableArg, M.bind_def, M.get_def]
    by_cases h : s.i.isSome = true
    · rw [if_pos h]; exact ⟨rfl, _, rfl⟩
    · rw [if_neg h]; exact ⟨rfl, _, rfl⟩

/-! ### PCA nodes as an instance -/

section Pca

open Mdp Mdp.Join Mdp.Cov

variable {F : Type} [Field F] {d : Nat}

/-- A node with the training statistics of `PCANode`. -/
structure PcaNd (F : Type) (d : Nat) where
  cov : CovSt F d
  training : Bool
  forkable : Bool

/-- The operations of `PCANode` in the "parallel" extension (parallelnodes.py:179-191), without the dimension and dtype
checks. `fit`, the map computed from the statistics when training stops, is arbitrary. A node with `forkable = false`
stands for a subclass that cannot be forked. -/
def pcaOps (fit : CovSt F d → Row F d → Row F d) : Ops (PcaNd F d) (List (Row F d)) (List (Row F d)) where
  dat := id
  training n := n.training
  exec n x := if n.training then .error (.node 0) else .ok (x.map (fit n.cov))
  train n x _ := (.ok (), { n with cov := pcaTrain n.cov x })
  stop n := (.ok (), { n with training := false })
  fork n := if n.forkable then .ok { n with cov := pcaFork F d } else .error .notForkable
  join n g := match pcaJoin n.cov g.cov with
    | .ok c => (.ok (), { n with cov := c })
    | .error _ => (.error (.node 1), n)

/-- The same state, and one that training can lead to. -/
def PcaSame (a b : PcaNd F d) : Prop := a = b ∧ CovInv a.cov

theorem pca_respects (fit : CovSt F d → Row F d → Row F d) : Respects (pcaOps fit) PcaSame where
  symm := by rintro a _ ⟨rfl, h⟩; exact ⟨rfl, h⟩
  trans := by rintro a _ _ ⟨rfl, h⟩ ⟨rfl, _⟩; exact ⟨rfl, h⟩
  training := by rintro a _ ⟨rfl, h⟩; rfl
  exec := by rintro a _ x ⟨rfl, h⟩; rfl
  forks := by rintro a _ ⟨rfl, h⟩; rfl
  train := by
    rintro a _ b' x d ⟨rfl, h⟩ ht
    cases ht
    exact ⟨_, rfl, rfl, covInv_update _ _ h⟩
  stop := by
    rintro a _ b' ⟨rfl, h⟩ ht
    cases ht
    exact ⟨_, rfl, rfl, h⟩

theorem pca_keepsPhase (fit : CovSt F d → Row F d → Row F d) : KeepsPhase (pcaOps fit) where
  train _ _ _ := rfl
  join n g := by
    simp only [pcaOps]
    split <;> rfl

theorem pca_trainOn (fit : CovSt F d → Row F d → Row F d) {inp : List (Row F d) → List (Row F d)} {n n' : PcaNd F d}
    {ds : List (List (Row F d))} (h : TrainOn (pcaOps fit) inp n ds n') :
    n' = { n with cov := (ds.map inp).foldl pcaTrain n.cov } := by
  induction h with
  | nil => rfl
  | cons _ _ _ _ _ h1 _ ih => cases h1; exact ih

theorem pca_joinInto (fit : CovSt F d → Row F d → Row F d) (t fk : Bool) :
    ∀ (c : CovSt F d) (cs : List (CovSt F d)) (q : CovSt F d), cs.foldlM pcaJoin c = .ok q →
    joinInto (pcaOps fit) ⟨c, t, fk⟩ (cs.map (⟨·, t, fk⟩)) = .ok ⟨q, t, fk⟩
  | c, [], q, h => by cases h; rfl
  | c, c1 :: cs, q, h => by
    rw [List.foldlM_cons] at h
    cases hj : pcaJoin c c1 with
    | error e => rw [hj] at h; cases h
    | ok c2 =>
      rw [hj] at h
      simp only [List.map_cons, joinInto, pcaOps, hj]
      exact pca_joinInto fit t fk c2 cs q h

/-- C44 and C100 together: PCA nodes fork and join as C100 asks. -/
theorem pca_forkJoin (fit : CovSt F d → Row F d → Row F d) : ForkJoin (pcaOps fit) PcaSame where
  raises := by
    intro n e h
    simp only [pcaOps] at h
    split at h
    · cases h
    · cases h; rfl
  sound := by
    rintro ⟨c, t, fk⟩ f n' inp ds ds' ⟨_, hc⟩ _ hf hne htr hperm
    have hn' := pca_trainOn fit htr
    simp only at hn' hc
    have hfk : fk = true ∧ f = ⟨pcaFork F d, t, fk⟩ := by
      simp only [pcaOps] at hf
      split at hf
      · next h => exact ⟨h, by cases hf; rfl⟩
      · cases hf
    obtain ⟨-, rfl⟩ := hfk
    -- a fork for every chunk
    have hone : ∀ (l : List (List (Row F d))), List.Forall₂ (fun d h =>
        (pcaOps fit).train ⟨pcaFork F _, t, fk⟩ (inp d) d = (.ok (), h)) l
        ((l.map fun d => pcaTrain (pcaFork F _) (inp d)).map (⟨·, t, fk⟩)) := by
      intro l
      induction l with
      | nil => exact .nil
      | cons a l ih => exact .cons rfl ih
    obtain ⟨e, es, rfl⟩ : ∃ e es, ds' = e :: es := by
      cases ds' with
      | nil => exact absurd hperm.symm.eq_nil hne
      | cons e es => exact ⟨e, es, rfl⟩
    have hfold : ∀ (p : CovSt F d), CovInv p → ∀ l : List (List (Row F d)),
        (l.map fun d => pcaTrain (pcaFork F _) (inp d)).foldlM pcaJoin p
          = .ok ((l.map inp).foldl pcaTrain p) := by
      intro p hp l
      have := fork_join_generic (fun _ => True) pcaTrain pcaJoin CovInv (pcaFork F d) covInv_update update_comm
        (fun p hp j hj _ => pca_join_run p hp j hj) (l.map fun d => [inp d]) (l.map fun d => [inp d]) (List.Perm.refl _)
        (by simp) (by simp) p hp
      simp only [List.map_map, Function.comp_def, List.foldl_cons, List.foldl_nil] at this
      rw [this]
      congr 2
      clear this
      induction l with
      | nil => rfl
      | cons a l ih => simp [ih]
    have hinv1 : CovInv (pcaTrain (pcaFork F d) (inp e)) := covInv_update _ _ ⟨fun _ => rfl, rfl⟩
    refine ⟨⟨pcaTrain (pcaFork F _) (inp e), t, fk⟩, (es.map fun d => pcaTrain (pcaFork F _) (inp d)).map (⟨·, t, fk⟩),
      ⟨(es.map inp).foldl pcaTrain (pcaTrain (pcaFork F _) (inp e)), t, fk⟩, n', hone (e :: es),
      pca_joinInto fit t fk _ _ _ (hfold _ hinv1 es), ?_, ?_⟩
    · have hj : pcaJoin c ((es.map inp).foldl pcaTrain (pcaTrain (pcaFork F d) (inp e))) =
          .ok (((e :: es).map inp).foldl pcaTrain c) :=
        pca_join_run c hc ((e :: es).map inp) (by simp)
      have hp2 : ((e :: es).map inp).foldl pcaTrain c = (ds.map inp).foldl pcaTrain c :=
        (hperm.map inp).foldl_eq' (fun x _ y _ z => update_comm z x y) c
      simp only [pcaOps, hj, hn', hp2]
    · refine ⟨rfl, ?_⟩
      rw [hn']
      have : ∀ (l : List (List (Row F d))) (s : CovSt F d), CovInv s → CovInv (l.foldl pcaTrain s) := by
        intro l
        induction l with
        | nil => exact fun s h => h
        | cons x l ih => exact fun s h => ih _ (covInv_update s x h)
      exact this _ _ hc

/-! ### Concrete cases -/

/-- A trained node, one that can be forked, one that cannot. -/
def exNodes (x0 : List (Row F d)) : List (PcaNd F d) :=
  [⟨pcaTrain (pcaFork F d) x0, false, true⟩, ⟨pcaFork F d, true, true⟩, ⟨pcaFork F d, true, false⟩]

theorem exNodes_good (x0 : List (Row F d)) : ∀ n ∈ exNodes x0, PcaSame n n := by
  have h0 : CovInv (pcaFork F d) := ⟨fun _ => rfl, rfl⟩
  intro n hn
  simp only [exNodes, List.mem_cons, List.not_mem_nil, or_false] at hn
  rcases hn with rfl | rfl | rfl
  · exact ⟨rfl, covInv_update _ _ h0⟩
  · exact ⟨rfl, h0⟩
  · exact ⟨rfl, h0⟩

/-- A flow of these nodes is trained with two chunks for node 1, one for node 2. -/
theorem exSeq (fit : CovSt F d → Row F d → Row F d) (x0 x1 x2 x3 : List (Row F d)) : ∃ out,
    Seq (pcaOps fit) [none, some [x1, x2], some [x3]] (exNodes x0)
      [⟨1, [x1, x2], true, true⟩, ⟨2, [x3], false, true⟩] out := by
  let A : PcaNd F d := ⟨pcaTrain (pcaFork F d) x0, false, true⟩
  let i1 : List (Row F d) → List (Row F d) := fun x => x.map (fit A.cov)
  let B : PcaNd F d := ⟨pcaTrain (pcaTrain (pcaFork F d) (i1 x1)) (i1 x2), false, true⟩
  let i2 : List (Row F d) → List (Row F d) := fun x => (i1 x).map (fit B.cov)
  let C : PcaNd F d := ⟨pcaTrain (pcaFork F d) (i2 x3), false, false⟩
  refine ⟨[A, B, C], .phase (ops := pcaOps fit) [A] ⟨pcaFork F d, true, true⟩ { B with training := true } B
    [⟨pcaFork F d, true, false⟩] [x1, x2] i1 _ _ (by simp [pcaOps, A]) rfl
    rfl (by simp) (fun x _ => .cons _ _ _ _ _ rfl (.nil _)) (.cons _ _ _ _ _ rfl (.cons _ _ _ _ _ rfl (.nil _))) rfl ?_⟩
  refine .phase (ops := pcaOps fit) [A, B] ⟨pcaFork F d, true, false⟩ { C with training := true } C [] [x3] i2 _ _
    (by simp [pcaOps, A, B]) rfl rfl (by simp)
    (fun x _ => .cons _ _ _ _ _ rfl (.cons _ _ _ _ _ rfl (.nil _))) (.cons _ _ _ _ _ rfl (.nil _)) rfl ?_
  exact .done _ (by simp [pcaOps, A, B, C])

/-- The flow with a checkpoint for every node; the tasks finish in reverse order. -/
example (fit : CovSt F d → Row F d → Row F d) (x0 x1 x2 x3 : List (Row F d)) :
    ∃ out r, Trains (pcaOps fit) (.many [false, true, false]) (fun _ l => l.reverse)
        (some [none, some fun n => (.ok (), n), some fun n => (.ok (), n)]) [none, some [x1, x2], some [x3]]
        { nodes := exNodes x0 } (.ok (), r) ∧
      List.Forall₂ PcaSame r.pf.nodes out ∧ r.given = [(1, x1, true), (1, x2, false)] ∧ r.used = [(1, 1)] ∧
      r.shut = [1] ∧ r.pf.calls = [1, 2] := by
  obtain ⟨out, hout⟩ := exSeq fit x0 x1 x2 x3
  obtain ⟨r, h1, h2, _, _, _, _, h3, h4, h5, h6⟩ := train_all (pca_respects fit) (pca_forkJoin fit) (pca_keepsPhase fit)
    (arg := .many [false, true, false]) (arr := fun _ l => l.reverse) (fun _ l => l.reverse_perm)
    (ck := some [none, some fun n => (.ok (), n), some fun n => (.ok (), n)])
    (s0 := { nodes := exNodes x0 }) (exNodes_good x0) ⟨rfl, rfl, rfl, fun l h => by cases h; rfl⟩
    (by intro c hc n; simp [checksFor] at hc; rcases hc with rfl; rfl) hout
    ⟨⟨_, List.mem_cons_self .., rfl⟩, by simp⟩
  exact ⟨out, r, h1, h2, h3, h4, h5, h6⟩

/-- C102: a training that fails because there are no chunks for node 1. -/
example (fit : CovSt F d → Row F d → Row F d) (x0 x3 : List (Row F d)) (arr) :
    ∃ r, Trains (pcaOps fit) .one arr none [none, some [], some [x3]] { nodes := exNodes x0 } (.error .flow, r) := by
  refine ⟨{ pf := { nodes := exNodes x0, i := some 1 } }, ?_⟩
  unfold Trains
  rw [if_neg (by simp), setup_ok (s0 := { nodes := exNodes x0 }) (ck := none) (data := [none, some [], some [x3]])
    ⟨rfl, rfl, rfl, fun l h => by cases h⟩]
  exact ⟨_, .of_inl rfl (.of_inr rfl), rfl⟩

/-- C105 and C104: a flow that is trained already meets the hypotheses. -/
example (fit : CovSt F d → Row F d → Row F d) (x0 x1 : List (Row F d)) :
    ∃ r, Trains (pcaOps fit) (.many [true]) (fun _ l => l) none [some [x1]]
      { nodes := [⟨pcaTrain (pcaFork F d) x0, false, true⟩] } (.error .typeError, r) := by
  obtain ⟨r, h, _⟩ := schedulers_typeError (pca_respects fit) (pca_forkJoin fit) (pca_keepsPhase fit)
    (arr := fun _ l => l) (ck := none) (data := [some [x1]])
    (s0 := { nodes := [⟨pcaTrain (pcaFork F d) x0, false, true⟩] })
    (by simp only [List.mem_singleton, forall_eq]; exact ⟨rfl, covInv_update _ _ ⟨fun _ => rfl, rfl⟩⟩)
    ⟨rfl, rfl, rfl, fun l h => by cases h⟩ (by intro c hc; simp [checksFor] at hc) (.done _ (by simp [pcaOps]))
    (by simp) true []
  exact ⟨r, h⟩

end Pca

/-- C104: a list of checkpoints, or of data, whose length is not that of the flow is refused: no node is trained. -/
theorem wrong_length_refused {ops : Ops σ X D} {arg : SchedArg} {arr : Nat → List D → List D}
    {ck : Option (List (Option (Check σ)))} {data : List (Option (List D))} {s0 : St σ X D} (hi : s0.i = none)
    (h : data.length ≠ s0.nodes.length ∨ ∃ l, ck = some l ∧ l.length ≠ s0.nodes.length)
    (q : Except PErr Unit × TSt σ X D) (hq : Trains ops arg arr ck data s0 q) :
    q.1 = .error .flow ∧ q.2.pf.nodes = s0.nodes ∧ q.2.pf.i = none := by
  have key : ∃ s1, setupTraining ck data s0 = (.error .flow, s1) ∧ s1.nodes = s0.nodes ∧ s1.i = none := by
    unfold setupTraining setupChecks
    simp only [M.bind_def, M.get_def]
    cases ck with
    | none =>
      rcases h with h | ⟨l, h, -⟩
      · simp only [M.pure_def, hi, Option.isSome_none, Bool.false_eq_true, if_false, if_pos h, M.raise_def]
        exact ⟨_, rfl, rfl, hi⟩
      · cases h
    | some l =>
      simp only
      by_cases hl : l.length ≠ s0.nodes.length
      · rw [if_pos hl]; exact ⟨_, rfl, rfl, hi⟩
      · rw [if_neg hl]
        rcases h with h | ⟨l', h, h'⟩
        · simp only [M.modify_def, hi, Option.isSome_none, Bool.false_eq_true, if_false, if_pos h, M.raise_def]
          exact ⟨_, rfl, rfl, rfl⟩
        · cases h; exact absurd h' hl
  obtain ⟨s1, h1, h2, h3⟩ := key
  unfold Trains at hq
  rw [if_neg (by simp [hi]), h1] at hq
  rw [hq]
  exact ⟨rfl, h2, h3⟩

end PFlow
