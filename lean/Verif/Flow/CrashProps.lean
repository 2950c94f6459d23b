import Verif.Flow.CrashLemmas
import Verif.Flow.NodeRel

/-!
# Crash recovery, training again after a crash, and saving at checkpoints: C223-C225
-/

namespace Mdp.Flow

open Py Mdp.Node

variable {σ α β : Type}

/-! ## C223: the crash dump -/

/-- C223: crash recovery has no influence on the outcome of training nor on the flow. -/
theorem recovery_same_train (rec : Bool) (d : TrainArg α β) (fl : List (Nd σ α β)) (ds : List (List (Nd σ α β))) :
    (Flow.trainW rec d ⟨fl, ds⟩).1 = (Flow.train fl d).1 ∧ (Flow.trainW rec d ⟨fl, ds⟩).2.flow = (Flow.train fl d).2 := by
  unfold Flow.trainW Flow.train
  simp only
  cases hc : checkIterables fl.length d with
  | error e => exact ⟨rfl, rfl⟩
  | ok l =>
    simp only
    obtain ⟨h1, h2, -⟩ := trainFromW_eq rec fl.length 0 l [] fl ds rfl rfl
    simp only [List.nil_append] at h1 h2
    rcases ht : trainFrom [] fl l with ⟨res, fl'⟩
    rcases hw : trainFromW rec fl.length 0 l ⟨fl, ds⟩ with ⟨res', g, ds'⟩
    rw [ht, hw] at h1 h2
    simp only at h1 h2
    subst h1 h2
    cases res' with
    | error e => exact ⟨rfl, rfl⟩
    | ok u =>
      obtain ⟨h1, h2, -⟩ := closeLastW_eq rec g ds'
      exact ⟨h1, h2⟩

theorem trainW_dumps (rec : Bool) (d : TrainArg α β) (fl : List (Nd σ α β)) (hne : fl ≠ []) :
    Dumps rec (Flow.train fl d).1 ⟨fl, []⟩ (Flow.trainW rec d ⟨fl, []⟩).2 := by
  have hidx : (Flow.train fl d).1 ≠ .error .index := by
    intro hh
    obtain ⟨-, i, -, h, -⟩ := train_failure fl (Flow.train fl d).2 d .index hne (Prod.ext hh rfl)
    rcases h with h | ⟨e, h⟩ <;> cases h
  unfold Flow.trainW
  unfold Flow.train at hidx ⊢
  simp only
  cases hc : checkIterables fl.length d with
  | error e =>
    simp only
    refine .inl ⟨rfl, fun _ => ?_⟩
    unfold checkIterables at hc
    split at hc
    · cases hc
    · cases hc; rfl
    · split at hc
      · cases hc; rfl
      · split at hc
        · cases hc; rfl
        · cases hc
  | ok l =>
    rw [hc] at hidx
    simp only at hidx ⊢
    obtain ⟨h1, h2, h3⟩ := trainFromW_eq rec fl.length 0 l [] fl [] rfl rfl
    simp only [List.nil_append] at h1 h2 h3
    rcases ht : trainFrom [] fl l with ⟨res, fl'⟩
    rcases hw : trainFromW rec fl.length 0 l ⟨fl, []⟩ with ⟨res', g, ds'⟩
    rw [ht] at hidx
    rw [ht, hw] at h1 h2 h3
    simp only at h1 h2 h3
    subst h1 h2
    cases res' with
    | error e => exact h3 hidx
    | ok u =>
      have hds : ds' = [] := by
        rcases h3 (by simp) with ⟨h3, _⟩ | ⟨_, _, ⟨_, _, h3⟩ | h3⟩
        · exact h3
        · cases h3
        · cases h3
      subst hds
      obtain ⟨h1, h2, h3⟩ := closeLastW_eq rec g []
      simp only
      rcases h3 with ⟨a, b⟩ | ⟨a, b, c⟩
      · exact .inl ⟨a, b⟩
      · exact .inr ⟨a, b, c⟩

/-- C223: without crash recovery nothing is dumped. With it: a successful training dumps nothing; a FlowExceptionCR comes with
exactly one dump, and it is the flow as the failed call left it; and whatever is dumped is the flow as it was left, once. -/
theorem train_dump (rec : Bool) (d : TrainArg α β) (fl : List (Nd σ α β)) (hne : fl ≠ []) :
    (rec = false → (Flow.trainW rec d ⟨fl, []⟩).2.dumps = []) ∧
    ((Flow.trainW rec d ⟨fl, []⟩).1 = .ok () → (Flow.trainW rec d ⟨fl, []⟩).2.dumps = []) ∧
    (rec = true → ∀ i e, (Flow.trainW rec d ⟨fl, []⟩).1 = .error (.flowCR i e) →
      (Flow.trainW rec d ⟨fl, []⟩).2.dumps = [(Flow.trainW rec d ⟨fl, []⟩).2.flow]) ∧
    ((Flow.trainW rec d ⟨fl, []⟩).2.dumps = [] ∨
      (Flow.trainW rec d ⟨fl, []⟩).2.dumps = [(Flow.trainW rec d ⟨fl, []⟩).2.flow]) := by
  obtain ⟨h1, h2⟩ := recovery_same_train rec d fl []
  rcases trainW_dumps rec d fl hne with ⟨a, b⟩ | ⟨a, b, c⟩
  · simp only at a
    refine ⟨fun _ => a, fun _ => a, fun hr i e he => ?_, .inl a⟩
    have := b hr
    rw [← h1, he] at this
    cases this
  · simp only [List.nil_append] at a
    refine ⟨fun hr => (by rw [hr] at b; cases b), fun hok => ?_, fun _ _ _ _ => a, .inr a⟩
    rw [h1] at hok
    rcases c with ⟨i, e, c⟩ | c <;> (rw [hok] at c; cases c)

theorem executeW_eq (promote : DType → DType → DType) (rec : Bool) (x : Input α) (nodenr : Option Int)
    (fl : List (Nd σ α β)) :
    Flow.executeW promote rec x nodenr ⟨fl, []⟩ = ((Flow.execute promote fl x nodenr).1,
      ⟨(Flow.execute promote fl x nodenr).2,
        cond (rec && isCR (Flow.execute promote fl x nodenr).1) [(Flow.execute promote fl x nodenr).2] []⟩) := by
  have := overInputW_eq promote rec (fun x fl => execSeq 0 (execCount fl.length nodenr) fl x)
    (fun x w => execSeqW rec (execCount w.flow.length nodenr) 0 x w) (by
      intro x fl ds
      have := execSeqW_eq rec (execCount fl.length nodenr) 0 x [] fl [] ds rfl (.inl rfl)
      simpa using this) x fl []
  simpa [Flow.executeW, Flow.execute] using this

theorem inverseW_eq (promote : DType → DType → DType) (rec : Bool) (y : Input α) (fl : List (Nd σ α β)) :
    Flow.inverseW promote rec y ⟨fl, []⟩ = ((Flow.inverse promote fl y).1,
      ⟨(Flow.inverse promote fl y).2,
        cond (rec && isCR (Flow.inverse promote fl y).1) [(Flow.inverse promote fl y).2] []⟩) := by
  have := overInputW_eq promote rec (fun y fl => invSeq 0 fl y)
    (fun y w => invSeqW rec w.flow.length y w) (by
      intro y fl ds
      obtain ⟨w', h1, h2, h3⟩ := invSeqW_eq rec y fl [] ds 0 [] rfl fl.length (by simp)
      obtain ⟨f', ds'⟩ := w'
      simp only [List.nil_append, List.append_nil] at h1 h2 h3
      subst h2 h3
      rcases hi : invSeq 0 fl y with ⟨res, fl'⟩
      rw [hi] at h1
      cases res with
      | error e => exact h1
      | ok x => simp only at h1 ⊢; rw [h1]; simp [invSeqW, isCR]) y fl []
  simpa [Flow.inverseW, Flow.inverse] using this

/-- C223, executing: the outcome and the flow are the same with and without crash recovery; there is a dump exactly if crash
recovery is on and a FlowExceptionCR is raised, and it is the flow as the call left it. -/
theorem execute_dump (promote : DType → DType → DType) (rec : Bool) (x : Input α) (nodenr : Option Int)
    (fl : List (Nd σ α β)) :
    (Flow.executeW promote rec x nodenr ⟨fl, []⟩).1 = (Flow.execute promote fl x nodenr).1 ∧
    (Flow.executeW promote rec x nodenr ⟨fl, []⟩).2.flow = (Flow.execute promote fl x nodenr).2 ∧
    ((rec = true ∧ ∃ i e, (Flow.execute promote fl x nodenr).1 = .error (.flowCR i e)) →
      (Flow.executeW promote rec x nodenr ⟨fl, []⟩).2.dumps = [(Flow.execute promote fl x nodenr).2]) ∧
    (¬ (rec = true ∧ ∃ i e, (Flow.execute promote fl x nodenr).1 = .error (.flowCR i e)) →
      (Flow.executeW promote rec x nodenr ⟨fl, []⟩).2.dumps = []) := by
  rw [executeW_eq]
  refine ⟨rfl, rfl, ?_, ?_⟩
  · rintro ⟨rfl, i, e, he⟩
    simp [he, isCR]
  · intro hn
    cases hb : (rec && isCR (Flow.execute promote fl x nodenr).1) with
    | false => rfl
    | true =>
      simp only [Bool.and_eq_true] at hb
      refine absurd ⟨hb.1, ?_⟩ hn
      have h2 := hb.2
      unfold isCR at h2
      split at h2
      · next i e he => exact ⟨i, e, he⟩
      · cases h2

/-- C223, inverting. -/
theorem inverse_dump (promote : DType → DType → DType) (rec : Bool) (y : Input α) (fl : List (Nd σ α β)) :
    (Flow.inverseW promote rec y ⟨fl, []⟩).1 = (Flow.inverse promote fl y).1 ∧
    (Flow.inverseW promote rec y ⟨fl, []⟩).2.flow = (Flow.inverse promote fl y).2 ∧
    ((rec = true ∧ ∃ i e, (Flow.inverse promote fl y).1 = .error (.flowCR i e)) →
      (Flow.inverseW promote rec y ⟨fl, []⟩).2.dumps = [(Flow.inverse promote fl y).2]) ∧
    (¬ (rec = true ∧ ∃ i e, (Flow.inverse promote fl y).1 = .error (.flowCR i e)) →
      (Flow.inverseW promote rec y ⟨fl, []⟩).2.dumps = []) := by
  rw [inverseW_eq]
  refine ⟨rfl, rfl, ?_, ?_⟩
  · rintro ⟨rfl, i, e, he⟩
    simp [he, isCR]
  · intro hn
    cases hb : (rec && isCR (Flow.inverse promote fl y).1) with
    | false => rfl
    | true =>
      simp only [Bool.and_eq_true] at hb
      refine absurd ⟨hb.1, ?_⟩ hn
      have h2 := hb.2
      unfold isCR at h2
      split at h2
      · next i e he => exact ⟨i, e, he⟩
      · cases h2

/-- C223: the exception of a failed execute names the node that failed and carries its exception: node `j` was given the array
that came out of the nodes before it and raised `e`; the nodes after it are as before. -/
theorem execute_blames (promote : DType → DType → DType) (x : Arr α) (fl : List (Nd σ α β)) (j : Nat) (e : Err)
    (h : (Flow.execute promote fl (.arr x) none).1 = .error (.flowCR j e)) :
    ∃ nd v, fl[j]? = some nd ∧ (Flow.execute promote (fl.take j) (.arr x) none).1 = .ok v ∧
      (execute nd.K v nd.s).1 = .error e ∧
      (Flow.execute promote fl (.arr x) none).2[j]? = some ⟨nd.K, (execute nd.K v nd.s).2⟩ ∧
      (Flow.execute promote fl (.arr x) none).2.drop (j + 1) = fl.drop (j + 1) := by
  have hcnt : ∀ n, execCount n none = n := by intro n; simp [execCount]
  simp only [Flow.execute, overInput, hcnt] at h ⊢
  suffices hs : ∀ (fl : List (Nd σ α β)) (i : Nat) (x : Arr α), (execSeq i fl.length fl x).1 = .error (.flowCR j e) →
      ∃ k nd v, j = i + k ∧ fl[k]? = some nd ∧ (execSeq i (fl.take k).length (fl.take k) x).1 = .ok v ∧
        (execute nd.K v nd.s).1 = .error e ∧ (execSeq i fl.length fl x).2[k]? = some ⟨nd.K, (execute nd.K v nd.s).2⟩ ∧
        (execSeq i fl.length fl x).2.drop (k + 1) = fl.drop (k + 1) by
    obtain ⟨k, nd, v, hk, h1⟩ := hs fl 0 x h
    rw [Nat.zero_add] at hk
    subst hk
    exact ⟨nd, v, h1⟩
  intro fl
  induction fl with
  | nil => intro i x h; cases h
  | cons nd r ih =>
    intro i x h
    rw [List.length_cons, execSeq] at h ⊢
    obtain ⟨⟨res, s⟩, hx⟩ : ∃ R, execute nd.K x nd.s = R := ⟨_, rfl⟩
    simp only [hx] at h ⊢
    cases res with
    | error e' =>
      simp only at h ⊢
      cases h
      exact ⟨0, nd, x, rfl, rfl, rfl, by rw [hx], by rw [hx]; rfl, rfl⟩
    | ok y =>
      simp only at h ⊢
      obtain ⟨k, nd', v, h1, h2, h3, h4, h5, h6⟩ := ih (i + 1) y h
      refine ⟨k + 1, nd', v, by omega, h2, ?_, h4, h5, h6⟩
      rw [List.take_succ_cons, List.length_cons, execSeq, hx]
      exact h3

/-- What a user of crash recovery is promised (docstring of `set_crash_recovery`): with crash recovery, a failed training raises a
FlowExceptionCR and the flow is dumped. -/
def RecoveryPromise (fl : List (Nd σ α β)) (d : TrainArg α β) : Prop :=
  ∀ e, (Flow.trainW true d ⟨fl, []⟩).1 = .error e →
    (∃ i e', e = .flowCR i e') ∧ (Flow.trainW true d ⟨fl, []⟩).2.dumps = [(Flow.trainW true d ⟨fl, []⟩).2.flow]

theorem train_W_first (rec : Bool) (nd : Nd σ α β) (rest : List (Nd σ α β)) (c : Chunks α β) (es : List (Elem α β))
    (x : Arr α) (args : List β) (r : List (Arr α × List β)) (e : Err) (s : St σ α β)
    (hlen : es.length = rest.length) (hes : es.all Elem.iterable = true)
    (ht : nd.K.trainable = true) (hc : c 0 = (x, args) :: r) (ha : nd.K.reqArgs = 0 ∨ nd.K.reqArgs = args.length)
    (h : train nd.K x args nd.s = (.error e, s)) (he : ∀ w : World σ α β, ∃ e' w', handleW rec 0 (.error e, w) = (.error e', w')) :
    Flow.trainW rec (.list (.it c :: es)) ⟨nd :: rest, []⟩ = handleW rec 0 (.error e, ⟨⟨nd.K, s⟩ :: rest, []⟩) := by
  have hci : checkIterables (nd :: rest).length (.list (.it c :: es)) = .ok (.it c :: es) := by
    simp only [checkIterables]
    rw [if_neg, if_neg (by simp [hlen])]
    simp only [List.all_cons, hes, Bool.and_true]
    simp [Elem.iterable]
  have htr : ∀ n, trainRoundsW rec 0 c (n + 1) 0 ⟨nd :: rest, []⟩ = (.error e, ⟨⟨nd.K, s⟩ :: rest, []⟩) := by
    intro n
    have hcw : trainChunksW rec 0 (c 0) ⟨nd :: rest, []⟩ = (.error e, ⟨⟨nd.K, s⟩ :: rest, []⟩) := by
      rw [hc, trainChunksW]
      simp only [List.getElem?_cons_zero]
      rw [if_neg (by rintro ⟨h1, h2⟩; rcases ha with ha | ha <;> contradiction)]
      simp only [execSeqW, h]
      simp [World.put]
    rw [trainRoundsW, hcw]
  have hnode : trainNodeW rec 0 (.it c) ⟨nd :: rest, []⟩ = handleW rec 0 (.error e, ⟨⟨nd.K, s⟩ :: rest, []⟩) := by
    unfold trainNodeW
    simp only [List.getElem?_cons_zero]
    rw [if_neg (by simp [ht]), htr]
  obtain ⟨e', w', hw⟩ := he ⟨⟨nd.K, s⟩ :: rest, []⟩
  unfold Flow.trainW
  simp only [hci]
  rw [List.length_cons, trainFromW, hnode, hw]

/-- C223 is false for a flow within a flow: whenever the training of the first node raises a FlowExceptionCR of its own, as a node
that wraps a flow does, the outer flow raises a plain FlowException and dumps nothing, crash recovery or not. -/
theorem nested_recovery_false (nd : Nd σ α β) (rest : List (Nd σ α β)) (c : Chunks α β) (es : List (Elem α β))
    (x : Arr α) (args : List β) (r : List (Arr α × List β)) (i : Nat) (e : Err) (s : St σ α β)
    (hlen : es.length = rest.length) (hes : es.all Elem.iterable = true)
    (ht : nd.K.trainable = true) (hc : c 0 = (x, args) :: r) (ha : nd.K.reqArgs = 0 ∨ nd.K.reqArgs = args.length)
    (h : train nd.K x args nd.s = (.error (.flowCR i e), s)) :
    Flow.trainW true (.list (.it c :: es)) ⟨nd :: rest, []⟩ = (.error .flow, ⟨⟨nd.K, s⟩ :: rest, []⟩) ∧
    ¬ RecoveryPromise (nd :: rest) (.list (.it c :: es)) := by
  have h1 : Flow.trainW true (.list (.it c :: es)) ⟨nd :: rest, []⟩ = (.error .flow, ⟨⟨nd.K, s⟩ :: rest, []⟩) := by
    rw [train_W_first true nd rest c es x args r _ s hlen hes ht hc ha h (fun w => ⟨.flow, w, rfl⟩)]
    rfl
  refine ⟨h1, fun hp => ?_⟩
  obtain ⟨-, h2⟩ := hp .flow (by rw [h1])
  rw [h1] at h2
  cases h2

/-- C223: any other exception of the first node is wrapped and the flow is dumped. -/
theorem first_node_recovery (nd : Nd σ α β) (rest : List (Nd σ α β)) (c : Chunks α β) (es : List (Elem α β))
    (x : Arr α) (args : List β) (r : List (Arr α × List β)) (e : Err) (s : St σ α β)
    (hlen : es.length = rest.length) (hes : es.all Elem.iterable = true)
    (ht : nd.K.trainable = true) (hc : c 0 = (x, args) :: r) (ha : nd.K.reqArgs = 0 ∨ nd.K.reqArgs = args.length)
    (h : train nd.K x args nd.s = (.error e, s)) (he : e ≠ .finished) (hcr : ∀ i e', e ≠ .flowCR i e') :
    Flow.trainW true (.list (.it c :: es)) ⟨nd :: rest, []⟩ =
      (.error (.flowCR 0 e), ⟨⟨nd.K, s⟩ :: rest, [⟨nd.K, s⟩ :: rest]⟩) := by
  have hh : ∀ w : World σ α β, handleW true 0 (.error e, w) = propagate true 0 e w := by
    intro w
    cases e <;> first | rfl | exact absurd rfl he | exact absurd rfl (hcr _ _)
  rw [train_W_first true nd rest c es x args r _ s hlen hes ht hc ha h (fun w => by
    rw [hh]; unfold propagate; split <;> exact ⟨_, _, rfl⟩), hh]
  simp [propagate]

/-- A class whose train hook raises the FlowExceptionCR of an inner flow. -/
def nestedKind : Kind Nat Nat Unit :=
  { addKind 1 with trainHook := fun _ st _ _ => ⟨st, [], .error (.flowCR 0 .value)⟩ }

def nestedNode : Nd Nat Nat Unit := ⟨nestedKind, (init nestedKind none none none 0).2⟩

/-- A concrete case of `nested_recovery_false`. -/
example : ∃ s, train nestedNode.K X1 [] nestedNode.s = (.error (.flowCR 0 .value), s) ∧ nestedNode.K.trainable = true ∧
    exC 0 = (X1, []) :: [(X2, [])] := ⟨_, rfl, rfl, rfl⟩

/-- A class whose train hook fails on arrays with one row. -/
def pickyKind : Kind Nat Nat Unit :=
  { addKind 1 with trainHook := fun _ st x _ => if x.nrows = 1 then ⟨st, [], .error .value⟩ else ⟨st + x.nrows, [], .ok ()⟩ }

def pickyNode : Nd Nat Nat Unit := ⟨pickyKind, (init pickyKind none none none 0).2⟩

/-- A node that cannot be executed on the data, and data for it. -/
def narrowNode : Nd Nat Nat Unit := ⟨idKind, (init idKind (some 2) none none 0).2⟩

/-- C223 is false in a second way: when a node before the one in training fails on a chunk, the flow is dumped but the exception is a
plain FlowException, which has neither the exception of the node nor the name of the dump. -/
theorem upstream_recovery_false :
    (∃ fl', Flow.trainW true (.list [.none, exIt]) ⟨[narrowNode, addNode 1], []⟩ = (.error .flow, ⟨fl', [fl']⟩)) ∧
    (Flow.executeW (fun a _ => a) true (.arr X1) none ⟨[narrowNode, addNode 1], []⟩).1 = .error (.flowCR 0 .node) ∧
    ¬ RecoveryPromise [narrowNode, addNode 1] (.list [.none, exIt]) := by
  obtain ⟨fl', h⟩ : ∃ fl', Flow.trainW true (.list [.none, exIt]) ⟨[narrowNode, addNode 1], []⟩ =
      (.error .flow, ⟨fl', [fl']⟩) := ⟨_, rfl⟩
  refine ⟨⟨fl', h⟩, rfl, fun hp => ?_⟩
  obtain ⟨⟨i, e, h1⟩, -⟩ := hp .flow (by rw [h])
  cases h1

/-! ## C224: training again after a crash -/

/-- Being reached by calls from a fresh node is kept. -/
theorem reachable_rel : NodeRel (fun a b : Nd σ α β => b.K = a.K ∧ (Reachable a.K a.s → Reachable a.K b.s)) := by
  have hcall : ∀ (K : Kind σ α β) (s : St σ α β) (c : Call α β), Reachable K s → Reachable K (c.run K s) := by
    rintro K s c ⟨i, o, dt, st, cs, h1, h2⟩
    refine ⟨i, o, dt, st, cs ++ [c], h1, ?_⟩
    rw [h2]
    simp [runCalls]
  refine ⟨fun n => ⟨rfl, id⟩, ?_, fun n x args => ⟨rfl, ?_⟩, fun n => ⟨rfl, ?_⟩, fun n x => ⟨rfl, ?_⟩⟩
  · rintro a b c ⟨h1, h2⟩ ⟨h3, h4⟩
    exact ⟨h3.trans h1, fun h => h1 ▸ h4 (by rw [h1]; exact h2 h)⟩
  · exact hcall n.K n.s (.train x args)
  · exact hcall n.K n.s .stop
  · exact hcall n.K n.s (.execute x)

/-- The trace only grows. -/
def Grows (s t : St σ α β) : Prop := s.trace <+: t.trace

theorem grows_pre : M.Pre (Grows : St σ α β → St σ α β → Prop) :=
  ⟨fun _ => List.prefix_refl _, fun h h' => List.IsPrefix.trans h h'⟩

theorem soft_grows {K : Kind σ α β} {r : Type} {m : NodeM σ α β r} (h : M.Moves (Soft K) m) : M.Moves Grows m :=
  fun s => by unfold Grows; rw [(h s).trace]; exact List.prefix_refl _

theorem logged_grows {r : Type} (ev : Bool → Event α β) {m : NodeM σ α β r}
    (h : M.Moves Grows m) : M.Moves Grows (logged ev m) := fun s => (h s).trans (List.prefix_append _ _)

theorem train_grows (K : Kind σ α β) (x : Arr α) (args : List β) : M.Moves Grows (train K x args) := by
  have p := grows_pre (σ := σ) (α := α) (β := β)
  unfold train
  refine .ite (.raise p _) (.bind p (.get p) fun s1 => ?_)
  refine .ite (.raise p _) (.bind p (soft_grows (checkInput_soft K x)) fun _ => ?_)
  refine .bind p (.get p) fun s1 => ?_
  refine .bind p (.lift p _) fun _ => ?_
  refine .bind p (.modify fun s => List.prefix_refl _) fun _ => ?_
  refine .bind p (.get p) fun s1 => ?_
  exact .ite (logged_grows _ (soft_grows (runHook_soft K _))) (.raise p _)

theorem stop_grows (K : Kind σ α β) : M.Moves Grows (stopTraining K) := by
  intro s
  rcases stop_cases K s with ⟨e, h⟩ | ⟨htr, _, _, _, s2, hs, h⟩
  · rw [h]; exact grows_pre.refl s
  · rcases h with ⟨e, _, h⟩ | ⟨_, h⟩
    · rw [h]; unfold Grows; simp [hs.trace]
    · rw [h]; unfold Grows; simp [hs.trace]

theorem ifTraining_grows (K : Kind σ α β) : M.Moves Grows (ifTrainingStopTraining K) := by
  have p := grows_pre (σ := σ) (α := α) (β := β)
  unfold ifTrainingStopTraining
  refine .bind p (.get p) fun s1 => .ite (.bind p (stop_grows K) fun _ => .bind p (.get p) fun s1 => ?_) (.pure p _)
  exact .ite (.raise p _) (.pure p _)

theorem trainLoop_grows (K : Kind σ α β) (x : Arr α) : M.Moves Grows (trainLoop K x) := by
  intro s
  induction hn : ((K.nPhases : Int) - s.phase).toNat using Nat.strongRecOn generalizing s with
  | ind n ih =>
    have h1 := train_grows K x [] s
    have h4 := train_phase K x [] s
    rw [trainLoop]
    split
    · next e s1 heq => rw [heq] at h1; exact h1
    · next s1 heq =>
      rw [heq] at h1 h4
      simp only at h1 h4
      split
      · next hr =>
        have h2 := stop_grows K s1
        split
        · next e s2 heq2 => rw [heq2] at h2; exact grows_pre.trans h1 h2
        · next s2 heq2 =>
          rw [heq2] at h2
          have h3 := stopTraining_ok_phase K s1 s2 heq2
          refine grows_pre.trans (grows_pre.trans h1 h2) (ih _ ?_ s2 rfl)
          unfold SamePhase at h4
          unfold remaining at hr
          split at hr <;> omega
      · exact h1

theorem execute_grows (K : Kind σ α β) (x : Arr α) : M.Moves Grows (execute K x) := by
  have p := grows_pre (σ := σ) (α := α) (β := β)
  unfold execute
  refine .bind p ?_ fun _ => .bind p (.get p) fun s1 => logged_grows _ (soft_grows (runHook_soft K _))
  unfold preExecutionChecks
  refine .bind p (.get p) fun s1 => .bind p (.when p (trainLoop_grows K x)) fun _ => ?_
  refine .bind p (ifTraining_grows K) fun _ => .bind p (soft_grows (checkInput_soft K x)) fun _ => ?_
  exact .bind p (.get p) fun s1 => .when p (soft_grows (setOutputDim_soft K _))

/-- The training history of a node only grows. -/
theorem history_grows : NodeRel (fun a b : Nd σ α β => b.K = a.K ∧ ts a.s <+: ts b.s) := by
  have hf : ∀ {s t : St σ α β}, Grows s t → ts s <+: ts t := fun h => List.IsPrefix.filter _ h
  refine ⟨fun n => ⟨rfl, List.prefix_refl _⟩, ?_, fun n x args => ⟨rfl, hf ?_⟩, fun n => ⟨rfl, hf ?_⟩, fun n x => ⟨rfl, hf ?_⟩⟩
  · rintro a b c ⟨h1, h2⟩ ⟨h3, h4⟩
    exact ⟨h3.trans h1, h2.trans h4⟩
  · exact train_grows n.K x args n.s
  · exact stop_grows n.K n.s
  · exact execute_grows n.K x n.s

theorem forall₂_get {γ δ : Type} {R : γ → δ → Prop} {a : List γ} {b : List δ} (h : List.Forall₂ R a b) (i : Nat) (x : γ)
    (hx : a[i]? = some x) : ∃ y, b[i]? = some y ∧ R x y := by
  induction h generalizing i with
  | nil => simp at hx
  | cons h1 _ ih =>
    cases i with
    | zero => simp at hx; subst hx; exact ⟨_, rfl, h1⟩
    | succ i => simpa using ih i (by simpa using hx)

theorem crash_reachable (fl : List (Nd σ α β)) (d : TrainArg α β)
    (hfl : ∀ nd ∈ fl, Nice nd.K ∧ Reachable nd.K nd.s) : ∀ nd ∈ (Flow.train fl d).2, Nice nd.K ∧ Reachable nd.K nd.s := by
  have h := reachable_rel.flowTrain fl d
  generalize (Flow.train fl d).2 = g at h
  induction h with
  | nil => simp
  | @cons a b l l' h1 _ ih =>
    intro nd hn
    rcases List.mem_cons.1 hn with rfl | hn
    · have := hfl a (by simp)
      exact ⟨h1.1 ▸ this.1, by rw [h1.1]; exact h1.2 this.2⟩
    · exact ih (fun n hn => hfl n (by simp [hn])) nd hn

/-- C224: training again after a training that failed in any way. The history a node had when the first call failed is kept. A node
that was finished by then gets no new data; every other node gets, for each phase that was not closed, one complete pass over its
new data, on top of what it had got in the open phase before the failure. What is missing: that what it had got before the failure
does not count twice, which is false (`resume_counts_twice_false`). -/
theorem resume_partial (fl fl1 fl2 : List (Nd σ α β)) (d : TrainArg α β) (ds : List (Elem α β)) (e : Err)
    (hfl : ∀ nd ∈ fl, Nice nd.K ∧ Reachable nd.K nd.s)
    (h1 : Flow.train fl d = (.error e, fl1)) (h2 : Flow.train fl1 (.list ds) = (.ok (), fl2)) :
    ∀ (i : Nat) (nd : Nd σ α β), fl[i]? = some nd → ∃ nd1 nd2 : Nd σ α β, fl1[i]? = some nd1 ∧ fl2[i]? = some nd2 ∧
      nd1.K = nd.K ∧ nd2.K = nd.K ∧ ts nd.s <+: ts nd1.s ∧
      (nd1.s.training = false → nd2.s.training = false ∧ ts nd2.s = ts nd1.s) ∧
      (nd1.s.training = true → ∃ c t ws, ds[i]? = some (.it c) ∧ nd2.s.dtype = some t ∧
        (ws.length : Int) = remaining nd.K nd1.s ∧
        (∀ j w, ws[j]? = some w → List.Forall₂ (Through (fl2.take i)) (c j) w) ∧
        ((nd2.s.training = false ∧ ts nd2.s = ts nd1.s ++ history t nd1.s.phase.toNat ws) ∨
         (nd2.s.training = true ∧
          ts nd2.s ++ [.stop (nd.K.nPhases - 1) true] = ts nd1.s ++ history t nd1.s.phase.toNat ws))) := by
  intro i nd hi
  have hg := history_grows.flowTrain fl d
  have hr := crash_reachable fl d hfl
  rw [h1] at hg hr
  obtain ⟨nd1, hi1, hK, hp⟩ := forall₂_get hg i nd hi
  obtain ⟨-, hs⟩ := train_spec_partial fl1 fl2 ds hr h2
  obtain ⟨nd2, a1, a2, a3, a4, -⟩ := hs i nd1 hi1
  refine ⟨nd1, nd2, hi1, a1, hK, a2.trans hK, hp, a3, ?_⟩
  rw [hK] at a4
  exact a4

/-- What one expects of training again with the same data after a failure: the nodes end up in the state a training that was not
interrupted gives. -/
def ResumePromise (fl : List (Nd σ α β)) (bad : TrainArg α β) (good : TrainArg α β) : Prop :=
  ∀ e fl1 fl2 fl', Flow.train fl bad = (.error e, fl1) → Flow.train fl1 good = (.ok (), fl2) →
    Flow.train fl good = (.ok (), fl') → fl2.map (fun nd => nd.s.st) = fl'.map (fun nd => nd.s.st)

/-- Data with a chunk of the wrong shape after a good one. -/
def badIt : Elem Nat Unit := .it fun _ => [(X1, []), (⟨2, 3, 1, [[1, 2, 3]]⟩, [])]

theorem trainNode_one (pre pre' : List (Nd Nat Nat Unit)) (nd nd' : Nd Nat Nat Unit) (c : Chunks Nat Unit)
    (hk : nd.K.trainable = true)
    (h : trainChunks pre nd (c 0) = (.ok (), pre', nd')) (hc : (c 0).isEmpty = false) (hr : ¬ remaining nd'.K nd'.s > 1) :
    trainNode pre nd (.it c) = (.ok (), pre', nd') := by
  have h1 : trainRounds pre nd c 0 = (.ok (), pre', nd') := by
    rw [trainRounds, h]
    simp only [hc]
    rw [if_neg (by simp), dif_neg hr]
  unfold trainNode
  simp only
  rw [if_neg (by simp [hk]), h1]
  rfl

theorem train_one_add (nd nd' nd2 : Nd Nat Nat Unit) (c : Chunks Nat Unit) (hk : nd.K.trainable = true)
    (h : trainChunks [] nd (c 0) = (.ok (), [], nd')) (hc : (c 0).isEmpty = false) (hr : ¬ remaining nd'.K nd'.s > 1)
    (hs : closeLast [nd'] = (.ok (), [nd2])) :
    Flow.train [nd] (.list [.it c]) = (.ok (), [nd2]) := by
  rw [train_list _ _ rfl (by rfl), trainFrom, trainNode_one [] [] nd nd' c hk h hc hr]
  simp only [List.nil_append]
  rw [trainFrom]
  exact hs

/-- C224 is false: the chunks a node accepted before the failure count again when it is trained again. Here the state is the number
of rows seen: 3 rows of data give 5. -/
theorem resume_counts_twice_false :
    (∃ nd1 nd2 nd', Flow.train [addNode 1] (.list [badIt]) = (.error (.flowCR 0 .node), [nd1]) ∧
      Flow.train [nd1] (.list [exIt]) = (.ok (), [nd2]) ∧ Flow.train [addNode 1] (.list [exIt]) = (.ok (), [nd']) ∧
      nd2.s.st = 5 ∧ nd'.s.st = 3) ∧ ¬ ResumePromise [addNode 1] (.list [badIt]) (.list [exIt]) := by
  have hmain : ∃ nd1 nd2 nd', Flow.train [addNode 1] (.list [badIt]) = (.error (.flowCR 0 .node), [nd1]) ∧
      Flow.train [nd1] (.list [exIt]) = (.ok (), [nd2]) ∧ Flow.train [addNode 1] (.list [exIt]) = (.ok (), [nd']) ∧
      nd2.s.st = 5 ∧ nd'.s.st = 3 := by
    refine ⟨⟨addKind 1, ⟨some 1, none, some 1, true, 0, true, 2, [.train 0 X1 [] true]⟩⟩,
      ⟨addKind 1, ⟨some 1, none, some 1, false, 1, false, 5,
        [.train 0 X1 [] true, .train 0 X1 [] true, .train 0 X2 [] true, .stop 0 true]⟩⟩,
      ⟨addKind 1, ⟨some 1, none, some 1, false, 1, false, 3, [.train 0 X1 [] true, .train 0 X2 [] true, .stop 0 true]⟩⟩,
      ?_, ?_, ?_, rfl, rfl⟩
    · rw [train_list _ _ rfl (by rfl), trainFrom]
      have h1 : ∀ c : Chunks Nat Unit, c 0 = [(X1, []), (⟨2, 3, 1, [[1, 2, 3]]⟩, [])] →
          trainRounds [] (addNode 1) c 0 = (.error .node, [], ⟨addKind 1, ⟨some 1, none, some 1, true, 0, true, 2,
            [.train 0 X1 [] true]⟩⟩) := by
        intro c hc
        rw [trainRounds, hc]; rfl
      have h2 : trainNode [] (addNode 1) badIt = (.error (.flowCR 0 .node), [], ⟨addKind 1, ⟨some 1, none, some 1, true, 0, true, 2,
            [.train 0 X1 [] true]⟩⟩) := by
        unfold trainNode badIt
        simp only
        rw [if_neg (by simp [addNode, addKind]), h1 _ rfl]
        rfl
      rw [h2]
      rfl
    · exact train_one_add _ ⟨addKind 1, ⟨some 1, none, some 1, true, 0, true, 5,
        [.train 0 X1 [] true, .train 0 X1 [] true, .train 0 X2 [] true]⟩⟩ _ exC rfl rfl rfl (by decide +kernel) rfl
    · exact train_one_add _ add1 _ exC rfl rfl rfl (by decide +kernel) rfl
  refine ⟨hmain, fun hp => ?_⟩
  obtain ⟨nd1, nd2, nd', h1, h2, h3, h4, h5⟩ := hmain
  have := hp _ _ _ _ h1 h2 h3
  simp only [List.map_cons, List.map_nil, h4, h5] at this
  exact absurd this (by decide)

/-- A node with `st` rows seen in its open phase, then finished and executed; a node trained on what it gives. -/
def addO (st : Nat) (l : List (Event Nat Unit)) : Nd Nat Nat Unit := ⟨addKind 1, ⟨some 1, none, some 1, true, 0, true, st, l⟩⟩
def addC (st : Nat) (l : List (Event Nat Unit)) : Nd Nat Nat Unit := ⟨addKind 1, ⟨some 1, some 1, some 1, false, 1, false, st, l⟩⟩
def shifted (st : Nat) (x : Arr Nat) : Arr Nat := { x with data := x.data.map (·.map (· + st)) }

theorem train_after (st : Nat) (l : List (Event Nat Unit)) :
    trainChunks [addO st l] (addNode 1) (exC 0) =
      (.ok (), [addC st (((l ++ [.stop 0 true]) ++ [.exec X1]) ++ [.exec X2])],
        addO 3 [.train 0 (shifted st X1) [] true, .train 0 (shifted st X2) [] true]) := by
  have e1 : execute (addKind 1) X1 (addO st l).s = (.ok (shifted st X1), (addC st ((l ++ [.stop 0 true]) ++ [.exec X1])).s) := rfl
  have e2 : execute (addKind 1) X2 (addC st ((l ++ [.stop 0 true]) ++ [.exec X1])).s =
    (.ok (shifted st X2), (addC st (((l ++ [.stop 0 true]) ++ [.exec X1]) ++ [.exec X2])).s) := rfl
  have t1 : train (addKind 1) (shifted st X1) [] (addNode 1).s = (.ok (), (addO 2 [.train 0 (shifted st X1) [] true]).s) := rfl
  have t2 : train (addKind 1) (shifted st X2) [] (addO 2 [.train 0 (shifted st X1) [] true]).s =
    (.ok (), (addO 3 [.train 0 (shifted st X1) [] true, .train 0 (shifted st X2) [] true]).s) := rfl
  show trainChunks [⟨addKind 1, (addO st l).s⟩] ⟨addKind 1, (addNode 1).s⟩ [(X1, []), (X2, [])] = _
  rw [trainChunks, if_neg (by simp [addKind])]
  simp only [List.length_singleton, execSeq, e1, t1]
  rw [trainChunks, if_neg (by simp [addKind])]
  simp only [List.length_singleton, execSeq, e2, t2, trainChunks]
  rfl

def add6 : Nd Nat Nat Unit :=
  addO 6 [.train 0 X1 [] true, .train 0 X2 [] true, .train 0 X1 [] true, .train 0 X2 [] true]

/-- C224 is false in a second way: if there are no data for the second node, the first node, although it has seen all of its data,
is left in training and sees them again: 3 rows of data give 6. -/
theorem resume_previous_node_false :
    (∃ fl1 n1 n2 m1 m2, Flow.train [addNode 1, addNode 1] (.list [exIt, .none]) = (.error .flow, fl1) ∧
      Flow.train fl1 (.list [exIt, exIt]) = (.ok (), [n1, n2]) ∧
      Flow.train [addNode 1, addNode 1] (.list [exIt, exIt]) = (.ok (), [m1, m2]) ∧ n1.s.st = 6 ∧ m1.s.st = 3) ∧
    ¬ ResumePromise [addNode 1, addNode 1] (.list [exIt, .none]) (.list [exIt, exIt]) := by
  have hmain : ∃ fl1 n1 n2 m1 m2, Flow.train [addNode 1, addNode 1] (.list [exIt, .none]) = (.error .flow, fl1) ∧
      Flow.train fl1 (.list [exIt, exIt]) = (.ok (), [n1, n2]) ∧
      Flow.train [addNode 1, addNode 1] (.list [exIt, exIt]) = (.ok (), [m1, m2]) ∧ n1.s.st = 6 ∧ m1.s.st = 3 := by
    have e1 : ∃ n1 n2, trainChunks [add6] (addNode 1) (exC 0) = (.ok (), [n1], n2) ∧ n1.s.st = 6 ∧
        ¬ remaining n2.K n2.s > 1 ∧ ∃ n3, closeLast [n1, n2] = (.ok (), [n1, n3]) := by
      refine ⟨_, _, train_after 6 _, rfl, by decide +kernel, _, rfl⟩
    have e2 : ∃ n1 n2, trainChunks [add1] (addNode 1) (exC 0) = (.ok (), [n1], n2) ∧ n1.s.st = 3 ∧
        ¬ remaining n2.K n2.s > 1 ∧ ∃ n3, closeLast [n1, n2] = (.ok (), [n1, n3]) := by
      refine ⟨_, _, train_after 3 _, rfl, by decide +kernel, _, rfl⟩
    obtain ⟨n1, n2, a1, a2, a3, n3, a4⟩ := e1
    obtain ⟨m1, m2, b1, b2, b3, m3, b4⟩ := e2
    refine ⟨[add1, addNode 1], n1, n3, m1, m3, ?_, ?_, ?_, a2, b2⟩
    · rw [train_list _ _ rfl (by rfl), trainFrom, train_add1]
      rfl
    · rw [train_list _ _ rfl (by rfl), trainFrom]
      have h1 : trainNode [] add1 exIt = (.ok (), [], add6) := trainNode_one [] [] add1 add6 exC rfl rfl rfl (by decide +kernel)
      rw [h1]
      simp only [List.nil_append]
      have h2 : trainNode [add6] (addNode 1) exIt = (.ok (), [n1], n2) := trainNode_one _ _ _ _ exC rfl a1 rfl a3
      rw [trainFrom, h2]
      simp only [List.singleton_append]
      rw [trainFrom]
      exact a4
    · rw [train_list _ _ rfl (by rfl), trainFrom, train_add1]
      simp only [List.nil_append]
      have h2 : trainNode [add1] (addNode 1) exIt = (.ok (), [m1], m2) := trainNode_one _ _ _ _ exC rfl b1 rfl b3
      rw [trainFrom, h2]
      simp only [List.singleton_append]
      rw [trainFrom]
      exact b4
  refine ⟨hmain, fun hp => ?_⟩
  obtain ⟨fl1, n1, n2, m1, m2, h1, h2, h3, h4, h5⟩ := hmain
  have := hp _ _ _ _ h1 h2 h3
  simp only [List.map_cons, List.map_nil, h4, h5] at this
  exact absurd (List.cons.inj this).1 (by decide)

/-! ## C225: saving the nodes at checkpoints -/

theorem stop_ready (n : Nd σ α β) (hn : Ready n) (s : St σ α β) (hs : stopTraining n.K n.s = (.ok (), s)) :
    Ready (⟨n.K, s⟩ : Nd σ α β) ∧ n.s.training = true ∧ s.training = false ∧ ts s = ts n.s ++ [.stop (n.K.nPhases - 1) true] := by
  obtain ⟨e1, e2, e3⟩ := stop_ok_trace n.K n.s s hs
  have hi : Inv n.K s := by
    have := stop_inv n.K n.s hn.inv
    rw [hs] at this
    exact this
  have htr : n.s.training = true := by
    by_contra hc
    unfold stopTraining at hs
    simp only [M.bind_def, M.get_def] at hs
    rw [if_neg (by simp [hc]), if_pos (by simpa using hc)] at hs
    cases hs
  obtain ⟨l1, l2, l3⟩ := hn.last htr
  have hpos := hn.nice.sane l2
  have hf : s.training = false := by
    by_contra hc
    have := (hi.tr l2).2.2.1.1 (by simpa using hc)
    omega
  refine ⟨⟨hn.nice, hi, ?_, ?_⟩, htr, hf, ?_⟩
  · simp only; omega
  · simp only [hf]; intro h; cases h
  · unfold ts
    rw [e1, List.filter_append, l3]
    have e : ((n.K.nPhases : Int) - 1).toNat = n.K.nPhases - 1 := by omega
    simp [isTS, e]

theorem saveCheckpoint_ready (stop : Bool) (n n' : Nd σ α β) (hn : Ready n) (h : saveCheckpoint stop n = (.ok (), n')) :
    Ready n' ∧ n'.K = n.K ∧ (saveNode stop n).2.2 = some n' ∧
      (stop = false → n' = n) ∧
      (stop = true → n.s.training = true ∧ n'.s.training = false ∧ ts n'.s = ts n.s ++ [.stop (n.K.nPhases - 1) true]) := by
  cases stop with
  | false =>
    cases h
    exact ⟨hn, rfl, rfl, fun _ => rfl, fun h => by cases h⟩
  | true =>
    have hsave : saveNode true n = match stopTraining n.K n.s with
      | (.error e, s) => (.error e, ⟨n.K, s⟩, none)
      | (.ok (), s) => (.ok (), ⟨n.K, s⟩, some ⟨n.K, s⟩) := rfl
    unfold saveCheckpoint at h
    rcases hs : stopTraining n.K n.s with ⟨res, s⟩
    rw [hs] at hsave
    rw [hsave] at h ⊢
    cases res with
    | error e => cases h
    | ok u =>
      cases h
      obtain ⟨h1, h2, h3, h4⟩ := stop_ready n hn s hs
      exact ⟨h1, rfl, rfl, (fun h => by cases h), fun _ => ⟨h2, h3, h4⟩⟩

/-- C225: with a `CheckpointSaveFunction` for some nodes, what is in the file of node `i` after a call that did not fail is a node
with exactly the training history of node `i` at that moment: the data of `i`, one pass for each phase, passed through the nodes before
it. With `stop_training=1` its last phase is closed. -/
theorem saved_node (stop : Bool) (fl fl' : List (Nd σ α β)) (ds : List (Elem α β)) (cs : List (Option (Checkpoint σ α β)))
    (r : Except Err Unit) (log : List (CpCall σ α β))
    (hfl : ∀ nd ∈ fl, Nice nd.K ∧ Reachable nd.K nd.s)
    (hcs : ∀ c ∈ cs, c = none ∨ c = some (saveCheckpoint stop))
    (h : CheckpointFlow.train fl (.list ds) (.list cs) = (r, fl', log)) :
    ∀ call ∈ log, ∃ nd nd', fl[call.index]? = some nd ∧ call.flow[call.index]? = some nd' ∧
      ((saveNode stop nd').1 = .ok () → ∃ f, (saveNode stop nd').2.2 = some f ∧ f.K = nd'.K ∧
        (stop = true → f.s.training = false) ∧
        (nd.s.training = true → ∃ c t ws, ds[call.index]? = some (.it c) ∧
          (ws.length : Int) = remaining nd.K nd.s ∧
          (∀ j w, ws[j]? = some w → List.Forall₂ (Through (call.flow.take call.index)) (c j) w) ∧
          (ts f.s = ts nd.s ++ history t nd.s.phase.toNat ws ∨
           (stop = false ∧ ts f.s ++ [.stop (nd.K.nPhases - 1) true] = ts nd.s ++ history t nd.s.phase.toNat ws)))) := by
  have hinv : ∀ nd ∈ fl, Nice nd.K ∧ Inv nd.K nd.s := fun nd hn => ⟨(hfl nd hn).1, reachable_inv (hfl nd hn).1.sane (hfl nd hn).2⟩
  have hready : ∀ f, some f ∈ cs → ∀ n n', Ready n → f n = (.ok (), n') → Ready n' := by
    intro f hf n n' hn hh
    rcases hcs _ hf with h0 | h0
    · cases h0
    · cases h0
      exact (saveCheckpoint_ready stop n n' hn hh).1
  unfold CheckpointFlow.train at h
  split at h
  · cases h; simp
  · next l hl =>
    have hl' : l = ds := by
      simp only [checkIterables] at hl
      split at hl
      · cases hl
      · split at hl
        · cases hl
        · cases hl; rfl
    subst hl'
    split at h
    · cases h; simp
    · next cs' hcs' =>
      have : cs' = cs := by
        simp only [checkCheckpoints] at hcs'
        split at hcs'
        · cases hcs'
        · cases hcs'; rfl
      subst this
      have hlog : log = (cpTrainFrom [] fl l cs').2.2 := by
        split at h
        · next hh => cases h; rw [hh]
        · next hh => cases h; rw [hh]
      rw [hlog]
      intro call hc
      obtain ⟨i, nd, d, nd', e1, e2, e3, e4, hrd, e5, e6, e7⟩ :=
        cpTrainFrom_trained [] fl l cs' _ _ _ (by simp) hinv hready rfl call hc
      simp only [List.length_nil, Nat.zero_add] at e1 e4 e7
      subst e1
      have hndinv := (hinv nd (List.mem_of_getElem? e2)).2
      refine ⟨nd, nd', e2, e4, fun hok => ?_⟩
      obtain ⟨n', hn'⟩ : ∃ n', saveCheckpoint stop nd' = (.ok (), n') := ⟨_, Prod.ext hok rfl⟩
      obtain ⟨-, g2, g3, g4, g5⟩ := saveCheckpoint_ready stop nd' n' hrd hn'
      refine ⟨n', g3, g2, fun hs => (g5 hs).2.1, ?_⟩
      intro htr
      obtain ⟨c, t, ws, rfl, f1, f2, f3, f4⟩ := e7 htr
      refine ⟨c, t, ws, e3, f2, fun j w hj => (f3 j w hj).imp fun _ _ h => h.through, ?_⟩
      have hopen : openTrace t nd.s.phase.toNat ws ++ [.stop (nd.K.nPhases - 1) true] = history t nd.s.phase.toNat ws := by
        have hk : nd.K.trainable = true := by
          by_contra hk
          have := (hndinv.ntr (by simpa using hk)).2.1
          rw [htr] at this; cases this
        have hlt := inv_training_phase hndinv hk htr
        have h0 := (hndinv.tr hk).1
        unfold remaining at f2
        rw [if_pos hk] at f2
        rw [history_eq, ← openTrace_stop t _ ws]
        · congr 3
          omega
        · rintro rfl; simp at f2; omega
      cases stop with
      | false =>
        rw [g4 rfl]
        rcases f4 with ⟨-, f5⟩ | ⟨-, f5⟩
        · left; rw [f5, history_eq]
        · right; exact ⟨rfl, by rw [f5, List.append_assoc, hopen]⟩
      | true =>
        obtain ⟨k1, -, k3⟩ := g5 rfl
        left
        rcases f4 with ⟨f4, -⟩ | ⟨-, f5⟩
        · rw [k1] at f4; cases f4
        · rw [k3, f5, e5, List.append_assoc, hopen]

/-- Two nodes, the data of both, and a file for each: the files hold the nodes with their own data. -/
example : (saveNode true add1).1 = .ok () ∧
    ∃ f, (saveNode true add1).2.2 = some f ∧ f.s.training = false ∧
      f.s.trace = [.train 0 X1 [] true, .train 0 X2 [] true, .stop 0 true] := ⟨rfl, _, rfl, rfl, rfl⟩

/-- C225 is false for nodes that need no training: `CheckpointSaveFunction` with `stop_training=1` as the checkpoint of a flow whose
first node is not in training makes training fail with the TrainingFinishedException of the node, not wrapped into a
FlowException; no node is trained, and nothing is in the file. -/
theorem save_untrainable_false (nd : Nd σ α β) (rest : List (Nd σ α β)) (d : Elem α β) (ds : List (Elem α β))
    (hlen : ds.length = rest.length) (hds : ds.all Elem.iterable = true) (hd : d = .none ∨ ∃ c, d = .it c)
    (hk : nd.K.trainable = false) (ht : nd.s.training = false) :
    (∃ log, CheckpointFlow.train (nd :: rest) (.list (d :: ds)) (.one (some (saveCheckpoint true))) =
      (.error .finished, nd :: rest, log)) ∧ (saveNode true nd).2.2 = none := by
  have hci : checkIterables (nd :: rest).length (.list (d :: ds)) = .ok (d :: ds) := by
    simp only [checkIterables]
    have h0 : d.iterable = true := by rcases hd with rfl | ⟨c, rfl⟩ <;> rfl
    rw [if_neg (by rw [List.all_cons, h0, hds]; simp), if_neg (by simp [hlen])]
  have hst : stopTraining nd.K nd.s = (.error .finished, nd.s) := by
    unfold stopTraining
    simp only [M.bind_def, M.get_def]
    rw [if_neg (by simp [ht]), if_pos ht]
    rfl
  have hsave : saveNode true nd = (.error .finished, nd, none) := by
    unfold saveNode
    rw [if_pos rfl, hst]
  have hnode : trainNode [] nd d = (.ok (), [], nd) := by
    unfold trainNode
    rcases hd with rfl | ⟨c, rfl⟩
    · simp [ht, hk]
    · simp [hk]
  refine ⟨?_, by rw [hsave]⟩
  have hcp : ∀ cs, ∃ log, cpTrainFrom [] (nd :: rest) (d :: ds) (some (saveCheckpoint true) :: cs) =
      (.error .finished, nd :: rest, log) := by
    intro cs
    rw [cpTrainFrom, hnode]
    simp only [saveCheckpoint, hsave]
    exact ⟨_, rfl⟩
  obtain ⟨log, hlog⟩ := hcp (List.replicate rest.length (some (saveCheckpoint true)))
  refine ⟨log, ?_⟩
  unfold CheckpointFlow.train
  simp only [hci]
  show (match cpTrainFrom [] (nd :: rest) (d :: ds)
      (some (saveCheckpoint true) :: List.replicate rest.length (some (saveCheckpoint true))) with
    | (.error e, fl', log) => ((.error e : Except Err Unit), fl', log)
    | (.ok (), fl', log) => ((closeLast fl').1, (closeLast fl').2, log)) = _
  rw [hlog]

/-- A concrete case: an identity node in front of a trainable one. -/
example : idNode.K.trainable = false ∧ idNode.s.training = false ∧ [exIt].length = [addNode 1].length ∧
    [exIt].all Elem.iterable = true := ⟨rfl, rfl, rfl, rfl⟩

end Mdp.Flow
