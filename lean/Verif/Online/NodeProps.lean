import Verif.Online.NodeLemmas

/-! # Properties of `OnlineNode` (C63) -/

namespace Mdp.Online

open Py Mdp.Node

variable {σ α β : Type}

/-- A node class for the examples: two phases; private data is the list of what the hooks saw; the
execution function of phase 0 doubles the data; the stop hook of phase 1 fails if phase 1 saw a 9. -/
def odemo : OKind (List (Nat × List (List Nat))) Nat Unit where
  trainable := true
  invertible := true
  preserveDim := false
  nPhases := 2
  supported := fun _ => true
  reqArgs := 0
  checkTrainArgs := fun _ _ _ => .ok ()
  trainHook := fun p st x _ => ⟨st ++ [(p, x.data)], [], if x.data = [[7]] then .error (.user 1) else .ok ()⟩
  stopHook := fun p st => ⟨st ++ [(p + 10, [])], [],
    if p = 1 ∧ (1, [[9]]) ∈ st ∧ (11, []) ∉ st then .error (.user 2) else .ok ()⟩
  execHook := fun st x => ⟨st, [], .ok x⟩
  invHook := fun st x => ⟨st, [], .ok x⟩
  types := [.incremental, .batch]
  phaseExec := fun p => if p = 0 then some fun st x _ => ⟨st, [], .ok x⟩ else none
  checkParams := fun st _ => ⟨st, [], .ok ()⟩

def odemo0 : OSt (List (Nat × List (List Nat))) Nat Unit := (oinit odemo none none none []).2

def ox (rows : List (List Nat)) : Arr Nat := ⟨2, 1, 1, rows⟩

theorem odemo0_reachable : OReachable odemo odemo0 := ⟨none, none, none, [], [], rfl, rfl⟩

/-! ## Training -/

/-- C63: an accepted `train(x, *args)` cuts the data (cast to the node's dtype) into single samples, or
takes it as a whole for batch training, and feeds every block, in order, through all the phases, each
phase seeing what the previous one made of the block; the iteration count grows by the number of
samples. The training type is the chosen one or else the first supported one. -/
theorem online_train (K : OKind σ α β) (x : Arr α) (args : List β) (s s' : OSt σ α β)
    (h : otrain K x args s = (.ok (), s')) :
    ∃ (t : TType) (evs : List (List (OEvent α β))), s'.ttype = some t ∧
      s.ttype.or K.types.head? = some t ∧
      List.Forall₂ (fun b e => Fed K args 0 b e) (blocks t (refcast s'.node.dtype x)) evs ∧
      s'.trace = s.trace ++ evs.flatten ∧ s'.iter = s.iter + x.nrows := by
  rcases otrain_cases K x args s with ⟨e, s2, h2, _⟩ | ⟨_, _, t, k, full, rest, h1, h2, _, h3, h4, h5, h6, h7, _⟩
  · rw [h] at h2; cases h2
  · rw [h] at h2 h3 h4 h5 h6 h7
    obtain ⟨rfl, rfl⟩ := h7 rfl
    simp only [List.take_length] at h4 h6
    refine ⟨t, full, h2, h1, h4, by simpa using h5, ?_⟩
    rw [h6]
    congr 1
    cases t with
    | incremental =>
      simp only [blocks, List.map_map, Function.comp_def, refcast, Arr.nrows, List.length_singleton]
      rw [List.map_const', List.sum_replicate_nat, Nat.mul_one]
    | batch => simp [blocks, refcast, Arr.nrows]

/-- C63: if `train` raises, either no training hook was called, or the hooks called are those of some
number of complete blocks, which are counted, followed by those of one block up to the hook that
raised, which is not counted. -/
theorem online_train_raises (K : OKind σ α β) (x : Arr α) (args : List β) (s s' : OSt σ α β) (e : Err)
    (h : otrain K x args s = (.error e, s')) :
    (s'.trace = s.trace ∧ s'.iter = s.iter) ∨
    ∃ (t : TType) (pre : List (Arr α)) (b : Arr α) (post : List (Arr α))
      (evs : List (List (OEvent α β))) (last : List (OEvent α β)),
      blocks t (refcast s'.node.dtype x) = pre ++ b :: post ∧ s.ttype.or K.types.head? = some t ∧
      List.Forall₂ (fun b e => Fed K args 0 b e) pre evs ∧ Broken K args 0 b last ∧
      s'.trace = s.trace ++ evs.flatten ++ last ∧ s'.iter = s.iter + (pre.map Arr.nrows).sum := by
  rcases otrain_cases K x args s with ⟨e2, s2, h2, hq⟩ | ⟨_, _, t, k, full, rest, h1, _, _, _, h4, h5, h6, _, h8⟩
  · rw [h] at h2; cases h2; exact .inl ⟨hq.1, hq.2.1⟩
  · right
    rw [h] at h4 h5 h6 h8
    obtain ⟨b, hb, hbr⟩ := h8 e rfl
    obtain ⟨hk, hb'⟩ := List.getElem?_eq_some_iff.mp hb
    refine ⟨t, (blocks t (refcast s'.node.dtype x)).take k, b,
      (blocks t (refcast s'.node.dtype x)).drop (k + 1), full, rest, ?_, h1, h4, hbr, h5, h6⟩
    rw [← hb', List.getElem_cons_drop, List.take_append_drop]

example : let r := otrain odemo (ox [[1], [2]]) [] odemo0
    isOk r.1 = true ∧ r.2.iter = 2 ∧
    r.2.node.st = [(0, [[1]]), (1, [[1]]), (0, [[2]]), (1, [[2]])] := by decide +kernel

example : let r := otrain odemo (ox [[1], [7], [2]]) [] odemo0
    isOk r.1 = false ∧ r.2.iter = 1 ∧
    r.2.node.st = [(0, [[1]]), (1, [[1]]), (0, [[7]])] := by decide +kernel

/-! ## Only `stop_training` ends training -/

/-- C63: no call except `stop_training`, whether it returns or raises, closes (or reopens) the training
phase or moves the phase number; in particular `execute` and `inverse` do not. -/
theorem only_stop_closes (K : OKind σ α β) (s : OSt σ α β) (c : OCall α β) (hc : c ≠ .stop) :
    (c.run K s).node.training = s.node.training ∧ (c.run K s).node.phase = s.node.phase := by
  cases c with
  | stop => exact absurd rfl hc
  | train x args => exact otrain_keepOpen K x args s
  | execute x => exact oexecute_keepOpen K x s
  | inverse y => exact oinverse_keepOpen K y s
  | setType t => simp only [OCall.run, setTrainingType]; split <;> exact ⟨rfl, rfl⟩
  | setInputDim n => exact onNode_keepOpen (setInputDim_soft K.toKind n) s
  | setOutputDim n => exact onNode_keepOpen (setOutputDim_soft K.toKind n) s
  | setDtype t => exact onNode_keepOpen (setDtype_soft K.toKind t) s

/-- C63: `stop_training` on a node that is closed or was never trained is refused and changes nothing;
otherwise it calls the stop hooks of all phases once each, in order, and closes the node - unless a
hook raises, in which case no later hook is called and the node stays open. -/
theorem online_stop (K : OKind σ α β) (s : OSt σ α β) :
    (s.node.training = false ∧ ostop K s = (.error .finished, s)) ∨
    (s.node.training = true ∧ s.node.started = false ∧ ostop K s = (.error .training, s)) ∨
    (s.node.training = true ∧ s.node.started = true ∧ ∃ e k, k < K.nPhases ∧ (ostop K s).1 = .error e ∧
      (ostop K s).2.trace = s.trace ++ (List.range k).map (fun p => .stop p true) ++ [.stop k false] ∧
      (ostop K s).2.iter = s.iter ∧ (ostop K s).2.node.training = true ∧
      (ostop K s).2.node.phase = s.node.phase) ∨
    (s.node.training = true ∧ s.node.started = true ∧ (ostop K s).1 = .ok () ∧
      (ostop K s).2.trace = s.trace ++ (List.range K.nPhases).map (fun p => .stop p true) ∧
      (ostop K s).2.iter = s.iter ∧ (ostop K s).2.node.phase = K.nPhases ∧
      (ostop K s).2.node.training = false) := by
  rcases ostop_cases K s with h | h | ⟨h1, h2, e, k, h3, h4, h5, h6, h7⟩ | ⟨h1, h2, h3, h4, h5, h6, h7, _⟩
  · exact .inl h
  · exact .inr (.inl h)
  · exact .inr (.inr (.inl ⟨h1, h2, e, k, h3, h4, h5, h6, h7.training.trans h1, h7.phase⟩))
  · exact .inr (.inr (.inr ⟨h1, h2, h3, h4, h5, h6, h7⟩))

/-- Events of the training sequence. -/
def OEvent.isTraining : OEvent α β → Bool
  | .train .. => true
  | .pass .. => true
  | .stop .. => true
  | _ => false

/-- Nothing of the training sequence happens. -/
def Still (s t : OSt σ α β) : Prop :=
  s.node.training = false → s.node.phase ≠ 0 → t.node.training = false ∧ t.node.phase ≠ 0 ∧ t.iter = s.iter ∧
    t.trace.filter OEvent.isTraining = s.trace.filter OEvent.isTraining

theorem still_pre : M.Pre (Still : OSt σ α β → OSt σ α β → Prop) := by
  refine ⟨fun s h h' => ⟨h, h', rfl, rfl⟩, fun h h' h1 h2 => ?_⟩
  obtain ⟨a1, a2, a3, a4⟩ := h h1 h2
  obtain ⟨b1, b2, b3, b4⟩ := h' a1 a2
  exact ⟨b1, b2, b3.trans a3, b4.trans a4⟩

theorem quiet_still {r : Type} {m : OM σ α β r} (hq : M.Moves Quiet m) (ho : M.Moves KeepOpen m) :
    M.Moves Still m := fun s h1 h2 =>
  ⟨(ho s).1.trans h1, by rw [(ho s).2]; exact h2, (hq s).2.1, by rw [(hq s).1]⟩

theorem olog_still {r : Type} {ev : Except Err r → OEvent α β} (hev : ∀ o, (ev o).isTraining = false)
    {m : OM σ α β r} (h : M.Moves Still m) : M.Moves Still (olog ev m) := fun s h1 h2 => by
  obtain ⟨a1, a2, a3, a4⟩ := h s h1 h2
  refine ⟨a1, a2, a3, ?_⟩
  simp only [olog, List.filter_append, a4, List.filter_cons, hev]
  simp

theorem onNode_still {r : Type} {K : Kind σ α β} {m : NodeM σ α β r} (h : M.Moves (Soft K) m) :
    M.Moves Still (onNode m) := quiet_still (onNode_quiet m) (onNode_keepOpen h)

theorem ocheckInput_still (K : OKind σ α β) (x : Arr α) : M.Moves Still (ocheckInput K x) :=
  quiet_still (ocheckInput_quiet K x) (ocheckInput_keepOpen K x)

theorem otrain_closed (K : OKind σ α β) (x : Arr α) (args : List β) (s : OSt σ α β)
    (h : s.node.training = false) :
    otrain K x args s = (.error (if K.trainable then .finished else .notTrainable), s) := by
  unfold otrain
  cases hK : K.trainable <;> simp [h, M.bind_def]

theorem call_still (K : OKind σ α β) (c : OCall α β) (s : OSt σ α β) : Still s (c.run K s) := by
  have p := still_pre (σ := σ) (α := α) (β := β)
  cases c with
  | stop =>
    intro h1 h2
    simp only [OCall.run]
    rcases ostop_cases K s with ⟨_, h⟩ | ⟨h, _⟩ | ⟨h, _⟩ | ⟨h, _⟩
    · rw [h]; exact ⟨h1, h2, rfl, rfl⟩
    all_goals rw [h1] at h; cases h
  | train x args =>
    intro h1 h2
    simp only [OCall.run]
    rw [otrain_closed K x args s h1]
    exact ⟨h1, h2, rfl, rfl⟩
  | execute x =>
    intro h1 h2
    have : oexecute K x s = (do
        (do ocheckInput K x
            let s ← M.get
            onNode (runHook K.toKind (K.checkParams s.node.st x))
            let s ← M.get
            M.when (s.node.outputDim = none) (onNode (setOutputDim K.toKind s.node.inputDim)) : OM σ α β Unit)
        let s ← M.get
        let x' := refcast s.node.dtype x
        olog (fun _ => .exec x') (onNode (runHook K.toKind (K.execHook s.node.st x'))) : OM σ α β (Arr α)) s := by
      simp [oexecute, opreExec, M.bind_def, M.when, h2]
    simp only [OCall.run]
    rw [this]
    refine (M.Moves.bind p ?_ fun _ => .bind p (.get p) fun s => olog_still (fun _ => rfl)
      (onNode_still (runHook_soft K.toKind _))) s h1 h2
    refine .bind p (ocheckInput_still K x) fun _ => .bind p (.get p) fun s => ?_
    refine .bind p (onNode_still (runHook_soft K.toKind _)) fun _ => .bind p (.get p) fun s => ?_
    exact .when p (onNode_still (setOutputDim_soft K.toKind _))
  | inverse y =>
    simp only [OCall.run]
    refine (M.Moves.bind p ?_ fun _ => .bind p (.get p) fun s => olog_still (fun _ => rfl)
      (onNode_still (runHook_soft K.toKind _)) : M.Moves Still (oinverse K y)) s
    unfold opreInv
    refine .ite (.raise p _) (.bind p (.get p) fun s => ?_)
    refine .bind p (.when p (.ite (.raise p _) (onNode_still (setOutputDim_soft K.toKind _)))) fun _ => ?_
    exact onNode_still (checkOutput_soft K.toKind y)
  | setType t =>
    simp only [OCall.run, setTrainingType]
    split
    · exact fun h1 h2 => ⟨h1, h2, rfl, rfl⟩
    · exact p.refl s
  | setInputDim n => exact onNode_still (setInputDim_soft K.toKind n) s
  | setOutputDim n => exact onNode_still (setOutputDim_soft K.toKind n) s
  | setDtype t => exact onNode_still (setDtype_soft K.toKind t) s

/-- C63: once training is closed it stays closed: whatever is called afterwards, no hook of the training
sequence is ever called again and the iteration count does not move. -/
theorem closed_forever (K : OKind σ α β) (s : OSt σ α β) (cs : List (OCall α β))
    (h : s.node.training = false) (hp : s.node.phase ≠ 0) :
    (orunCalls K s cs).node.training = false ∧ (orunCalls K s cs).iter = s.iter ∧
    (orunCalls K s cs).trace.filter OEvent.isTraining = s.trace.filter OEvent.isTraining := by
  have : Still s (orunCalls K s cs) := by
    clear h hp
    induction cs generalizing s with
    | nil => exact still_pre.refl s
    | cons c r ih => exact still_pre.trans (call_still K c s) (ih _)
  obtain ⟨a, _, b, c⟩ := this h hp
  exact ⟨a, b, c⟩

/-- The phase number is 0 while training, and never 0 once training is over. -/
theorem oreachable_phase (K : OKind σ α β) (hK : 0 < K.nPhases) (s : OSt σ α β) (h : OReachable K s) :
    (K.trainable = true → (s.node.training = true ∧ s.node.phase = 0) ∨
      (s.node.training = false ∧ s.node.phase = K.nPhases)) ∧
    (K.trainable = false → s.node.training = false ∧ s.node.phase = -1) := by
  obtain ⟨i, o, t, st, cs, h1, rfl⟩ := h
  have hstart : (oinit K i o t st).2.node.training = K.trainable ∧
      (oinit K i o t st).2.node.phase = if K.trainable then 0 else -1 := by
    have hs : Soft K.toKind
        { inputDim := none, outputDim := none, dtype := none,
          training := K.trainable, phase := if K.trainable then 0 else -1, started := false,
          st := st, trace := [] } (oinit K i o t st).2.node := by
      have p := soft_pre K.toKind
      exact M.Moves.bind p (setInputDim_soft K.toKind i) (fun _ => .bind p (setOutputDim_soft K.toKind o)
        fun _ => setDtype_soft K.toKind t) _
    exact ⟨hs.training, hs.phase⟩
  generalize (oinit K i o t st).2 = s0 at hstart
  have hinv : ∀ s : OSt σ α β, ((K.trainable = true → (s.node.training = true ∧ s.node.phase = 0) ∨
      (s.node.training = false ∧ s.node.phase = K.nPhases)) ∧
      (K.trainable = false → s.node.training = false ∧ s.node.phase = -1)) → ∀ c : OCall α β,
      ((K.trainable = true → ((c.run K s).node.training = true ∧ (c.run K s).node.phase = 0) ∨
      ((c.run K s).node.training = false ∧ (c.run K s).node.phase = K.nPhases)) ∧
      (K.trainable = false → (c.run K s).node.training = false ∧ (c.run K s).node.phase = -1)) := by
    intro s hs c
    by_cases hc : c = .stop
    · subst hc
      simp only [OCall.run]
      rcases ostop_cases K s with ⟨_, h⟩ | ⟨_, _, h⟩ | ⟨_, _, e, k, _, _, _, _, h7⟩ | ⟨h1, _, _, _, _, h6, h7, _⟩
      · rw [h]; exact hs
      · rw [h]; exact hs
      · rw [h7.training, h7.phase]; exact hs
      · rw [h6, h7]
        refine ⟨fun _ => .inr ⟨rfl, rfl⟩, fun hf => ?_⟩
        rw [(hs.2 hf).1] at h1; cases h1
    · obtain ⟨h1, h2⟩ := only_stop_closes K s c hc
      rw [h1, h2]; exact hs
  have h0 : ((K.trainable = true → (s0.node.training = true ∧ s0.node.phase = 0) ∨
      (s0.node.training = false ∧ s0.node.phase = K.nPhases)) ∧
      (K.trainable = false → s0.node.training = false ∧ s0.node.phase = -1)) := by
    rw [hstart.1, hstart.2]
    cases K.trainable <;> simp
  clear hstart h1
  induction cs generalizing s0 with
  | nil => exact h0
  | cons c r ih => exact ih _ (hinv s0 h0 c)

/-- C63: in every history, an accepted `stop_training` is the only one, and after it all training hooks
are over: later calls of `train` and `stop_training` are refused without any effect. -/
theorem stop_only_once (K : OKind σ α β) (hK : 0 < K.nPhases) (s s' : OSt σ α β) (h : OReachable K s)
    (hs : ostop K s = (.ok (), s')) (cs : List (OCall α β)) :
    let t := orunCalls K s' cs
    t.trace.filter OEvent.isTraining =
      s.trace.filter OEvent.isTraining ++ (List.range K.nPhases).map (fun p => .stop p true) ∧
    t.iter = s.iter ∧ ostop K t = (.error .finished, t) ∧
    ∀ x args, otrain K x args t = (.error .finished, t) := by
  have hc := ostop_cases K s
  rw [hs] at hc
  rcases hc with ⟨_, h2⟩ | ⟨_, _, h2⟩ | ⟨_, _, e, k, _, h4, _⟩ | ⟨h1, _, _, h4, h5, h6, h7, _⟩
  · cases h2
  · cases h2
  · cases h4
  simp only at h4 h5 h6 h7
  have htr : K.trainable = true := by
    by_contra hn
    have := ((oreachable_phase K hK s h).2 (by simpa using hn)).1
    rw [h1] at this; cases this
  obtain ⟨a, b, c⟩ := closed_forever K s' cs h7 (by rw [h6]; omega)
  refine ⟨?_, b.trans h5, ?_, fun x args => ?_⟩
  · rw [c, h4, List.filter_append]
    congr 1
    rw [List.filter_eq_self]
    intro ev hev
    obtain ⟨p, _, rfl⟩ := List.mem_map.mp hev
    rfl
  · rcases ostop_cases K (orunCalls K s' cs) with ⟨_, h⟩ | ⟨h, _⟩ | ⟨h, _⟩ | ⟨h, _⟩
    · exact h
    all_goals rw [a] at h; cases h
  · rw [otrain_closed K x args _ a, if_pos htr]

/-- C63 is violated if a stop hook raises: the hooks of earlier phases have already run and run again when
`stop_training` is called again. -/
theorem stop_hook_repeated :
    ∃ (s : OSt (List (Nat × List (List Nat))) Nat Unit), OReachable odemo s ∧ s.node.training = false ∧
      (s.trace.filter fun e => match e with | .stop 0 true => true | _ => false).length = 2 :=
  ⟨orunCalls odemo odemo0 [.train (ox [[9]]) [], .stop, .stop],
    ⟨none, none, none, [], _, rfl, rfl⟩, by decide +kernel, by decide +kernel⟩

/-- Events that are hook calls of `train`. -/
def OEvent.isTrain : OEvent α β → Bool
  | .train .. => true
  | .pass .. => true
  | _ => false

/-- C63: `execute` on a node that was never trained first trains it on the given data, exactly like
`train(x)`; otherwise it trains nothing. Then, if the checks pass, it calls the execution hook once. -/
theorem execute_trace (K : OKind σ α β) (x : Arr α) (s : OSt σ α β) :
    (s.node.phase = 0 ∧ s.node.started = false →
      (∀ e s1, otrain K x [] s = (.error e, s1) → oexecute K x s = (.error e, s1)) ∧
      (∀ s1, otrain K x [] s = (.ok (), s1) → ∃ tail, (oexecute K x s).2.trace = s1.trace ++ tail ∧
        (tail = [] ∨ ∃ x', tail = [.exec x']) ∧ (oexecute K x s).2.iter = s1.iter)) ∧
    (¬ (s.node.phase = 0 ∧ s.node.started = false) →
      ∃ tail, (oexecute K x s).2.trace = s.trace ++ tail ∧
        (tail = [] ∨ ∃ x', tail = [.exec x']) ∧ (oexecute K x s).2.iter = s.iter) := by
  have hrest : ∀ s : OSt σ α β, let r := (do
        (do ocheckInput K x
            let s ← M.get
            onNode (runHook K.toKind (K.checkParams s.node.st x))
            let s ← M.get
            M.when (s.node.outputDim = none) (onNode (setOutputDim K.toKind s.node.inputDim)) : OM σ α β Unit)
        let s ← M.get
        let x' := refcast s.node.dtype x
        olog (fun _ => .exec x') (onNode (runHook K.toKind (K.execHook s.node.st x'))) : OM σ α β (Arr α)) s
      ∃ tail, r.2.trace = s.trace ++ tail ∧ (tail = [] ∨ ∃ x', tail = [.exec x']) ∧ r.2.iter = s.iter := by
    intro s r
    have p := quiet_pre (σ := σ) (α := α) (β := β)
    have hq : M.Moves Quiet (do
            ocheckInput K x
            let s ← M.get
            onNode (runHook K.toKind (K.checkParams s.node.st x))
            let s ← M.get
            M.when (s.node.outputDim = none) (onNode (setOutputDim K.toKind s.node.inputDim)) : OM σ α β Unit) := by
      refine .bind p (ocheckInput_quiet K x) fun _ => .bind p (.get p) fun s => ?_
      refine .bind p (onNode_quiet _) fun _ => .bind p (.get p) fun s => .when p (onNode_quiet _)
    have hqs := hq s
    show ∃ tail, r.2.trace = _ ∧ _ ∧ r.2.iter = _
    simp only [r]
    rw [M.bind_def]
    split
    · next s1 heq =>
      rw [heq] at hqs
      exact ⟨[.exec (refcast s1.node.dtype x)], by simpa [M.bind_def, olog, onNode] using hqs.1, .inr ⟨_, rfl⟩,
        by simpa [M.bind_def, olog, onNode] using hqs.2.1⟩
    · next e s1 heq =>
      rw [heq] at hqs
      exact ⟨[], by simpa using hqs.1, .inl rfl, hqs.2.1⟩
  have hassoc : ∀ s : OSt σ α β, oexecute K x s = (do
      M.when (s.node.phase = 0 ∧ s.node.started = false) (otrain K x [])
      (do
        (do ocheckInput K x
            let s ← M.get
            onNode (runHook K.toKind (K.checkParams s.node.st x))
            let s ← M.get
            M.when (s.node.outputDim = none) (onNode (setOutputDim K.toKind s.node.inputDim)) : OM σ α β Unit)
        let s ← M.get
        let x' := refcast s.node.dtype x
        olog (fun _ => .exec x') (onNode (runHook K.toKind (K.execHook s.node.st x'))) : OM σ α β (Arr α))
        : OM σ α β (Arr α)) s := by
    intro s
    unfold oexecute opreExec
    simp only [M.bind_def, M.get_def]
    generalize M.when (s.node.phase = 0 ∧ s.node.started = false) (otrain K x []) s = r
    obtain ⟨_ | _, s1⟩ := r <;> rfl
  rw [hassoc s]
  refine ⟨fun hc => ?_, fun hc => ?_⟩
  · rw [when_true hc]
    refine ⟨fun e s1 h => by rw [M.bind_error h], fun s1 h => ?_⟩
    rw [M.bind_ok h]
    exact hrest s1
  · rw [when_false hc]
    exact hrest s

/-- A node that was trained, executed, trained again and closed. -/
example : let s := orunCalls odemo odemo0 [.execute (ox [[1]]), .train (ox [[2], [3]]) [], .execute (ox [[4]])]
    s.node.training = true ∧ s.iter = 3 ∧ isOk (ostop odemo s).1 = true ∧
    (ostop odemo s).2.node.training = false := by decide +kernel

end Mdp.Online
