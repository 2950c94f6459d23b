import Verif.Bi.NodeLemmas

/-!
# Properties of `BiNode`

C61 (routing of message entries), C93 (the caller's message), C94 (training phases).
-/

namespace Bi

open Py

variable {σ A V : Type}

/-! ### Reading results -/

/-- The data of a result. -/
def BRes.data : BRes A V → Option A
  | .single y => y
  | .pair y _ => y
  | .triple y _ _ => y

/-- The entry of the outgoing message. -/
def BRes.entry (r : BRes A V) (key : Str) : Option (BVal V) :=
  match r with
  | .single _ => none
  | .pair _ m => m.bind (Dict.get · key)
  | .triple _ m _ => m.bind (Dict.get · key)

/-- The target of a result; `none` if the result gives none. -/
def BRes.target : BRes A V → Option (BVal V)
  | .triple _ _ t => some t
  | _ => none

/-- The message of a result is a dictionary (its keys are distinct). -/
def BRes.Ok : BRes A V → Prop
  | .single _ => True
  | .pair _ m => ∀ d, m = some d → Dict.Ok d
  | .triple _ m _ => ∀ d, m = some d → Dict.Ok d

theorem combineMsg_entry (own m : Option (Msg V)) (ho : ∀ d, own = some d → Dict.Ok d) (key : Str) :
    (combineMsg own m).bind (Dict.get · key) = (own.bind (Dict.get · key)).or (m.bind (Dict.get · key)) := by
  unfold combineMsg
  cases m with
  | none => simp [truthyMsg]
  | some m =>
    cases m with
    | nil =>
      simp only [truthyMsg, List.isEmpty_nil, Bool.not_true, Bool.false_eq_true, if_false, Option.bind_some, Dict.get,
        Option.or_none]
    | cons e m =>
      simp only [truthyMsg, List.isEmpty_cons, Bool.not_false, if_true]
      cases own with
      | none => simp
      | some o =>
        simp only [Option.bind_some]
        exact Dict.get_update _ _ (ho o rfl) key

theorem combine_entry (r : BRes A V) (m : Option (Msg V)) (t : BVal V) (ho : r.Ok) (key : Str) :
    (combine r m t).entry key = (r.entry key).or (m.bind (Dict.get · key)) := by
  cases r with
  | triple y own t' => exact combineMsg_entry own m ho key
  | pair y own =>
    simp only [combine]
    split
    · exact combineMsg_entry own m ho key
    · exact combineMsg_entry own m ho key
  | single y =>
    simp only [combine]
    split
    · rename_i h
      simp only [Bool.and_eq_true, Bool.not_eq_true'] at h
      cases m with
      | none => rfl
      | some m =>
        cases m with
        | nil => rfl
        | cons e m => simp [truthyMsg] at h
    · split
      · simp [BRes.entry]
      · simp [BRes.entry]

theorem combine_data (r : BRes A V) (m : Option (Msg V)) (t : BVal V) : (combine r m t).data = r.data := by
  cases r with
  | triple y own t' => rfl
  | pair y own => simp only [combine]; split <;> rfl
  | single y =>
    simp only [combine]
    split
    · rfl
    · split <;> rfl

theorem combine_target (r : BRes A V) (m : Option (Msg V)) (t : BVal V) :
    (combine r m t).target = r.target.or (if t.isSome then some t else none) := by
  cases r with
  | triple y own t' => rfl
  | pair y own => simp only [combine]; split <;> rename_i h <;> simp [BRes.target]
  | single y =>
    simp only [combine]
    cases h : t.isSome
    · simp only [Bool.not_false, Bool.and_true]
      split
      · rfl
      · rfl
    · simp [BRes.target]

/-! ### C61: routing of message entries -/

/-- The method the message asks for. -/
def Asked (K : BKind σ A V) (name : BVal V) (dflt meth : BMethod σ A V) : Prop :=
  (name.truthy = false ∧ meth = dflt) ∨ (name = .str sInverse ∧ meth = K.inv) ∨
    ∃ s, name = .str s ∧ s ≠ [] ∧ s ≠ sInverse ∧ K.method s = some meth

theorem getMethod_asked {K : BKind σ A V} {name t t' : BVal V} {dflt meth : BMethod σ A V}
    (h : getMethod K name dflt t = .ok (meth, t')) :
    Asked K name dflt meth ∧ (name = .str sInverse → t.isSome = false → t' = .int (-1)) ∧
      (name ≠ .str sInverse ∨ t.isSome = true → t' = t) := by
  unfold getMethod at h
  split at h
  · rename_i ht
    split at h
    · rename_i s
      split at h
      · rename_i hs
        subst hs
        cases h
        refine ⟨.inr (.inl ⟨rfl, rfl⟩), ?_, ?_⟩
        · intro _ e
          simp [e]
        · rintro (e | e)
          · exact absurd rfl e
          · simp [e]
      · rename_i hs
        split at h
        · rename_i m hm
          cases h
          refine ⟨.inr (.inr ⟨s, rfl, ?_, hs, hm⟩), ?_, fun _ => rfl⟩
          · rintro rfl
            simp [BVal.truthy] at ht
          · intro e
            cases e
            exact absurd rfl hs
        · cases h
    · cases h
  · rename_i ht
    cases h
    refine ⟨.inl ⟨by simpa using ht, rfl⟩, ?_, fun _ => rfl⟩
    rintro rfl
    exact absurd (by simp [BVal.truthy, sInverse] : BVal.truthy (V := V) (.str sInverse) = true) ht

/-- The state of the node after a call that does not touch the phases. -/
theorem onInner_ok {α : Type} {f : σ → Except Err α × σ} {s s' : St σ V} {a : α}
    (h : onInner f s = (.ok a, s')) : f s.inner = (.ok a, s'.inner) ∧ s'.cell = s.cell := by
  unfold onInner at h
  have h1 := (Prod.mk.inj h).1
  have h2 := (Prod.mk.inj h).2
  rw [← h2]
  exact ⟨by rw [← h1], rfl⟩

theorem call_ok {p : Parsed σ A V} {x : Option A} {s s' : St σ V} {r : BRes A V}
    (h : call p x s = (.ok r, s')) : p.meth.run s.inner x p.args p.msgArg = (.ok r, s'.inner) ∧ s'.cell = s.cell := by
  unfold call at h
  split at h
  · cases h
  · exact onInner_ok h

theorem execChecks_cell (K : BKind σ A V) (n : BVal V) (x : A) (s : St σ V) :
    ((execChecks K n x) s).2.cell = s.cell := by
  unfold execChecks
  split
  · simp only [M.bind_def, onInner, M.get_def]
    generalize K.preExec s.inner x = q
    obtain ⟨q, i⟩ := q
    cases q <;> rfl
  · split
    · simp only [M.bind_def, onInner]
      generalize K.preInv s.inner x = q
      obtain ⟨q, i⟩ := q
      cases q <;> rfl
    · rfl

theorem combineWith_ok {p : Parsed σ A V} {r r' : BRes A V} {s s' : St σ V} (h : combineWith r p s = (.ok r', s')) :
    r' = combine r (if p.kept then some s.cell else none) p.target ∧
      s' = { s with cell := if p.kept ∧ s.cell ≠ [] then combineCell r s.cell else s.cell } := by
  unfold combineWith at h
  simp only [M.bind_def, M.get_def] at h
  cases hk : p.kept with
  | false =>
    simp only [hk, Bool.false_eq_true, if_false] at h
    cases h
    simp
  | true =>
    simp only [hk, if_true] at h
    cases hc : s.cell with
    | nil =>
      simp only [hc, List.isEmpty_nil, if_true] at h
      cases h
      simp [← hc]
    | cons e l =>
      simp only [hc, List.isEmpty_cons, Bool.false_eq_true, if_false, M.bind_def, M.modify_def] at h
      cases h
      simp [hc]

/-- What `execute` with a message does, in terms of the method called. -/
theorem execute_parts {K : BKind σ A V} {x : Option A} {s s' : St σ V} {r' : BRes A V}
    (h : execute K x true s = (.ok r', s')) :
    ∃ p s1 i x' r s2, parse K K.exec s = (.ok p, s1) ∧ p.meth.run i x' p.args p.msgArg = (.ok r, s2.inner) ∧
      s2.cell = s1.cell ∧ (x = none → x' = none) ∧ (x'.isSome = x.isSome) ∧
      combineWith r p s2 = (.ok r', s') := by
  unfold execute at h
  simp only [if_true] at h
  obtain ⟨p, s1, h1, h⟩ := M.bind_eq_ok h
  obtain ⟨x', s2, h2, h⟩ := M.bind_eq_ok h
  obtain ⟨r, s3, h3, h⟩ := M.bind_eq_ok h
  obtain ⟨g1, g2⟩ := call_ok h3
  refine ⟨p, s1, s2.inner, x', r, s3, h1, g1, ?_, ?_, ?_, h⟩
  · rw [g2]
    cases x with
    | none => cases h2; rfl
    | some a =>
      simp only at h2
      obtain ⟨b, s2', h4, h5⟩ := M.bind_eq_ok h2
      have := execChecks_cell K p.name a s1
      rw [h4] at this
      cases h5
      exact this
  · rintro rfl
    cases h2; rfl
  · cases x with
    | none => cases h2; rfl
    | some a =>
      simp only at h2
      obtain ⟨b, s2', h4, h5⟩ := M.bind_eq_ok h2
      cases h5; rfl

/-- **C61.** Whenever `execute` with a message returns, there is a method — the one the message asks for, else
`_execute` — that was called with the named arguments from the message, where an entry addressed to this node wins over
a plain one; and with `r` the result of that method:
* the data are those of `r`;
* an entry of the outgoing message is the one of `r`, if there is one; otherwise it is the one of the incoming message,
  unless that entry is addressed to this node, or the method took the message as its argument `msg`;
* the target is the one of `r`, if there is one; otherwise the one of the message (`-1` for an inversion without). -/
theorem execute_routes {K : BKind σ A V} {x : Option A} {s s' : St σ V} {r' : BRes A V}
    (hg : GoodId K.nodeId) (hm : Dict.Ok s.cell) (h : execute K x true s = (.ok r', s')) :
    ∃ meth i x' args marg r i', Asked K (want K.nodeId s.cell kMethod) K.exec meth ∧
      meth.run i x' args marg = (.ok r, i') ∧ x'.isSome = x.isSome ∧
      (∀ k, ¬ HasSep k → k ≠ kTarget → k ≠ kMethod → k ≠ kMsg → Dict.get args k =
        if k ∈ meth.argKeys then (mine K.nodeId s.cell k).or (Dict.get s.cell k) else none) ∧
      (marg.isSome = true ↔ kMsg ∈ meth.argKeys) ∧
      (∀ d, marg = some d → ∀ key, (Addressed K.nodeId key → Dict.get d key = none) ∧
        (¬ Addressed K.nodeId key → Dict.get d key = Dict.get s.cell key)) ∧
      r'.data = r.data ∧
      (r.Ok → ∀ key, (kMsg ∈ meth.argKeys ∨ Addressed K.nodeId key → r'.entry key = r.entry key) ∧
        (kMsg ∉ meth.argKeys → ¬ Addressed K.nodeId key → r'.entry key = (r.entry key).or (Dict.get s.cell key))) ∧
      (∀ t, r.target = some t → r'.target = some t) ∧
      (r.target = none → (want K.nodeId s.cell kTarget).isSome = true →
        r'.target = some (want K.nodeId s.cell kTarget)) ∧
      (r.target = none → (want K.nodeId s.cell kTarget).isSome = false →
        (want K.nodeId s.cell kMethod = .str sInverse → r'.target = some (.int (-1))) ∧
          (want K.nodeId s.cell kMethod ≠ .str sInverse → r'.target = none)) := by
  obtain ⟨p, s1, i, x', r, s2, h1, h2, h3, _, h5, h6⟩ := execute_parts h
  obtain ⟨p1, p2, p3, p4, p5, p6, p7, p8, p9, p10, p11⟩ := parse_spec hg hm h1
  obtain ⟨e1, e2⟩ := combineWith_ok h6
  obtain ⟨a1, a2, a3⟩ := getMethod_asked p2
  rw [p1] at a1 a2 a3
  refine ⟨p.meth, i, x', p.args, p.msgArg, r, s2.inner, a1, h2, h5, p5, ?_, ?_, ?_, ?_, ?_, ?_, ?_⟩
  · rw [p8]
    by_cases hk : kMsg ∈ p.meth.argKeys
    · simp only [hk, if_true, Option.isSome_some]
    · rw [if_neg hk]
      exact ⟨fun h => absurd h (by simp), fun h => absurd h hk⟩
  · intro d hd key
    rw [p8] at hd
    split at hd
    · cases hd
      exact ⟨p3 key, p4 key⟩
    · cases hd
  · rw [e1, combine_data]
  · intro ho key
    rw [e1, combine_entry _ _ _ ho]
    constructor
    · intro hk
      by_cases hkm : kMsg ∈ p.meth.argKeys
      · rw [p9]; simp [hkm]
      · have ha := hk.resolve_left hkm
        rw [p9]
        simp [hkm, h3, p3 key ha]
    · intro hkm hk
      rw [p9]
      simp [hkm, h3, p4 key hk]
  · intro t ht
    rw [e1, combine_target, ht]; rfl
  · intro ht hw
    rw [e1, combine_target, ht, a3 (.inr hw), hw]; rfl
  · intro ht hw
    rw [e1, combine_target, ht]
    constructor
    · intro hn
      rw [a2 hn hw]; rfl
    · intro hn
      rw [a3 (.inl hn), hw]; rfl

/-- **C61**, error branch: a key of more than two parts, whatever node it is addressed to, makes every call with the
message a `ValueError`, and changes nothing. -/
theorem execute_bad_key (K : BKind σ A V) (x : Option A) (s : St σ V) (h : ¬ WellAddressed s.cell) :
    execute K x true s = (.error .valueError, s) := by
  unfold execute
  simp only [if_true]
  exact M.bind_error (parse_bad h)

/-- **C61**, error branch: no data and no message. -/
theorem execute_nothing (K : BKind σ A V) (s : St σ V) : execute K none false s = (.error .binode, s) := rfl

/-- **C61**: for a method that takes no message, an empty message is the same as none. -/
theorem execute_empty (K : BKind σ A V) (a : A) (s : St σ V) (h : kMsg ∉ K.exec.argKeys) :
    execute K (some a) true { s with cell := [] } = execute K (some a) false { s with cell := [] } := by
  unfold execute
  simp only [if_true, Bool.false_eq_true, if_false]
  have hp : parse K K.exec { s with cell := [] } =
      (.ok { meth := K.exec, name := .none, target := .none, args := [], msgArg := none, kept := true },
        { s with cell := [] }) := by
    rw [parse_eq]
    simp only [getMsgIdKeys, Dict.keys, List.map_nil, idKeysLoop, extractKey, popIdKey, Dict.get, Option.getD_none,
      getMethod, BVal.truthy, parsedOf, extractArgs, argsLoop, List.filter_nil]
    simp [h]
  rw [M.bind_ok hp]
  simp only
  have hc : execChecks K (.none : BVal V) a = (do
      onInner fun i => K.preExec i a
      let s ← M.get
      pure (K.refcast s.inner a)) := by
    unfold execChecks
    rw [if_pos (.inl rfl)]
  rw [hc]
  simp only [M.bind_def, onInner, M.get_def]
  generalize K.preExec s.inner a = q
  obtain ⟨q, i⟩ := q
  cases q with
  | error e => rfl
  | ok u =>
    simp only [M.pure_def, call, Dict.get, Option.isSome_none, Bool.or_self, Bool.false_eq_true, if_false, onInner]
    generalize K.exec.run i (some (K.refcast i a)) [] none = q
    obtain ⟨q, i'⟩ := q
    cases q with
    | error e => rfl
    | ok r =>
      simp only [combineWith, M.bind_def, M.get_def, if_true, List.isEmpty_nil, M.pure_def]
      congr 2
      cases r with
      | single y => rfl
      | pair y o => rfl
      | triple y o t => rfl

/-! ### C93: the caller's message -/

/-- A node with id "n" that returns its data. -/
def echo : BKind Unit Nat Unit where
  nodeId := some ['n']
  nPhases := 1
  exec := { argKeys := [kSelf, kX, ['a']], run := fun i x args _ =>
    (.ok (match Dict.get args ['a'] with
      | some (.int 1) => .single (x.map (· + 1))
      | _ => .single x), i) }
  inv := { argKeys := [kSelf, kX], run := fun i x _ _ => (.ok (.single x), i) }
  train := fun _ => { argKeys := [kSelf, kX], run := fun i _ _ _ => (.ok (.single none), i) }
  stop := fun _ => { argKeys := [kSelf], run := fun i _ _ _ => (.ok (.single none), i) }
  method := fun _ => none
  preExec := fun i _ => (.ok (), i)
  preInv := fun i _ => (.ok (), i)
  checkInput := fun i _ => (.ok (), i)
  checkTrainArgs := fun _ _ _ => .ok ()
  refcast := fun _ x => x
  stopResult := none

/-- The message `{"n->a": 1, "m->a": 2, "b": 3}`. -/
def demoMsg : Msg Unit :=
  [(addr ['n'] ['a'], .int 1), (addr ['m'] ['a'], .int 2), (['b'], .int 3)]

/-- Data of an outcome. -/
def dataOf : Except Err (BRes A V) → Option (Option A)
  | .ok r => some r.data
  | .error _ => none

/-- Non-vacuity of C61: the node takes the entry addressed to it (the data are incremented), drops it from the message
and passes the others on. -/
example : GoodId echo.nodeId ∧ Dict.Ok demoMsg ∧ WellAddressed demoMsg ∧
    dataOf (execute echo (some 5) true { inner := (), cell := demoMsg }).1 = some (some 6) ∧
    (execute echo (some 5) true { inner := (), cell := demoMsg }).2.cell =
      [(addr ['m'] ['a'], .int 2), (['b'], .int 3)] := by
  refine ⟨?_, by unfold Dict.Ok; decide, ?_, by decide, by decide⟩
  · intro id h
    cases h
    refine ⟨by simp, ?_⟩
    rcases key_cases ['n'] with h | ⟨a, b, _, _, _, h'⟩
    · exact h.1
    · exfalso
      have : find ['n'] = -1 := by decide
      rw [this] at h'
      omega
  · exact (idKeysLoop_ok (some ['n']) _ []).1 ⟨[(['a'], addr ['n'] ['a'])], rfl⟩

/-- **C93, violated.** `execute` changes the message of its caller: the entry addressed to the node is gone
afterwards, and executing again with the same objects gives a different result. -/
theorem execute_consumes_message :
    ∃ (K : BKind Unit Nat Unit) (s : St Unit Unit) (x : Nat),
      (execute K (some x) true s).2.cell ≠ s.cell ∧
        dataOf (execute K (some x) true (execute K (some x) true s).2).1 ≠ dataOf (execute K (some x) true s).1 :=
  ⟨echo, { inner := (), cell := demoMsg }, 5, by decide, by decide⟩

theorem update_nil_of {m : Msg V} : Dict.update m [] = m := rfl

/-- Erasing a missing key changes nothing. -/
theorem erase_of_none {m : Msg V} {k : Str} (h : Dict.get m k = none) : Dict.erase m k = m := by
  induction m with
  | nil => rfl
  | cons p m ih =>
    obtain ⟨a, b⟩ := p
    unfold Dict.get at h
    unfold Dict.erase
    split at h
    · cases h
    · rename_i hk
      rw [if_neg hk, ih h]

/-- **C93, partial.** A message with no entry addressed to the node is changed only by the method's own message: if the
method returns none (or takes the message over), the dictionary of the caller is what it was. -/
theorem execute_keeps_message_partial {K : BKind σ A V} {x : Option A} {s s' : St σ V} {r' : BRes A V}
    (hg : GoodId K.nodeId) (hn : ∀ key ∈ Dict.keys s.cell, ¬ Addressed K.nodeId key)
    (hr : ∀ meth i x' args marg r i', meth.run i x' args marg = (.ok r, i') →
      Asked K (want K.nodeId s.cell kMethod) K.exec meth → kMsg ∈ meth.argKeys ∨ ∃ y, r = .single y)
    (hm : Dict.Ok s.cell) (h : execute K x true s = (.ok r', s')) : s'.cell = s.cell := by
  obtain ⟨p, s1, i, x', r, s2, h1, h2, h3, _, h5, h6⟩ := execute_parts h
  obtain ⟨p1, p2, p3, p4, p5, p6, p7, p8, p9, p10, p11⟩ := parse_spec hg hm h1
  have hp : s1.cell = s.cell := by
    rw [parse_eq] at h1
    cases hi : getMsgIdKeys K.nodeId s.cell with
    | error e => rw [hi] at h1; cases h1
    | ok ids =>
      have I := Inv.start hg hm hi
      have : ids = [] := by
        cases ids with
        | nil => rfl
        | cons q r =>
          obtain ⟨k, full⟩ := q
          have := (I.mem k full).1 List.mem_cons_self
          exact absurd ⟨k, this.2⟩ (hn full this.1)
      subst this
      rw [hi] at h1
      simp only [extractKey, popIdKey] at h1
      split at h1
      · cases h1
      · rw [← (Prod.mk.inj h1).2]
        rfl
  obtain ⟨e1, e2⟩ := combineWith_ok h6
  have ha := (getMethod_asked p2).1
  rw [p1] at ha
  rw [e2]
  simp only
  rw [h3, hp]
  split
  · rename_i hk
    rcases hr p.meth i x' p.args p.msgArg r _ h2 ha with hkm | ⟨y, rfl⟩
    · rw [p9] at hk
      simp [hkm] at hk
    · rfl
  · rfl

example : (execute echo (some 5) true { inner := (), cell := [(addr ['m'] ['a'], .int 2)] }).2.cell =
    [(addr ['m'] ['a'], .int 2)] := by decide

/-! ### C94: training phases -/

/-- A call of the training interface. -/
inductive TrainOp (A V : Type) where
  | train (x : Option A) (msg : Option (Msg V))
  | stop (msg : Option (Msg V))

/-- The node after a call (with the message as the object passed). -/
def trainStep (K : BKind σ A V) (s : St σ V) (op : TrainOp A V) : Except Err (BRes A V) × St σ V :=
  match op with
  | .train x m => train K x m.isSome { s with cell := m.getD [] }
  | .stop m => stopTraining K m.isSome { s with cell := m.getD [] }

/-- Number of successful `stop_training` calls in a history, and the state after it. -/
def trainRun (K : BKind σ A V) : List (TrainOp A V) → Nat × St σ V → Nat × St σ V
  | [], c => c
  | op :: r, c =>
    let q := trainStep K c.2 op
    trainRun K r (match op, q.1 with
      | .stop _, .ok _ => c.1 + 1
      | _, _ => c.1, q.2)

/-- The phases of `s` and `s'` agree. -/
def SamePhase (s s' : St σ V) : Prop := s'.phase = s.phase ∧ s'.training = s.training

theorem samePhase_pre : M.Pre (SamePhase (σ := σ) (V := V)) where
  refl := fun _ => ⟨rfl, rfl⟩
  trans := fun h1 h2 => ⟨h2.1.trans h1.1, h2.2.trans h1.2⟩

theorem onInner_same {α : Type} (f : σ → Except Err α × σ) (s : St σ V) : SamePhase s (onInner f s).2 := ⟨rfl, rfl⟩

theorem parse_same (K : BKind σ A V) (d : BMethod σ A V) (s : St σ V) : SamePhase s (parse K d s).2 := by
  rw [parse_eq]
  split
  · exact ⟨rfl, rfl⟩
  · simp only
    split <;> exact ⟨rfl, rfl⟩

theorem call_same (p : Parsed σ A V) (x : Option A) (s : St σ V) : SamePhase s (call p x s).2 := by
  unfold call
  split <;> exact ⟨rfl, rfl⟩

theorem callStop_same (p : Parsed σ A V) (s : St σ V) : SamePhase s (callStop p s).2 := by
  unfold callStop
  split <;> exact ⟨rfl, rfl⟩

theorem combineWith_same (r : BRes A V) (p : Parsed σ A V) (s : St σ V) : SamePhase s (combineWith r p s).2 := by
  unfold combineWith
  simp only [M.bind_def, M.get_def]
  split
  · split <;> exact ⟨rfl, rfl⟩
  · exact ⟨rfl, rfl⟩

theorem trainChecks_same (K : BKind σ A V) (n : BVal V) (x : A) (a : Msg V) (s : St σ V) :
    SamePhase s (trainChecks K n x a s).2 := by
  unfold trainChecks
  split
  · simp only [M.bind_def, onInner, M.get_def]
    generalize K.checkInput s.inner x = q
    obtain ⟨q, i⟩ := q
    cases q with
    | error e => exact ⟨rfl, rfl⟩
    | ok u =>
      simp only
      generalize K.checkTrainArgs i x a = c
      cases c with
      | error e => cases e <;> exact ⟨rfl, rfl⟩
      | ok u => exact ⟨rfl, rfl⟩
  · split
    · simp only [M.bind_def, onInner]
      generalize K.preInv s.inner x = q
      obtain ⟨q, i⟩ := q
      cases q <;> exact ⟨rfl, rfl⟩
    · exact ⟨rfl, rfl⟩

/-- `train` does not end a phase. -/
theorem train_same (K : BKind σ A V) (x : Option A) (b : Bool) : M.Moves SamePhase (train (V := V) K x b) := by
  have P := samePhase_pre (σ := σ) (V := V)
  unfold train
  refine .ite (.raise P _) ?_
  refine .bind P (.get P) fun s => ?_
  refine .ite (.raise P _) (.ite ?_ ?_)
  · refine .bind P (parse_same K _) fun p => ?_
    refine .bind P ?_ fun x' => ?_
    · cases x with
      | none => exact .pure P _
      | some a => exact .bind P (trainChecks_same K _ a _) fun b => .pure P _
    · refine .bind P (call_same p x') fun r => ?_
      split
      · exact .pure P _
      · exact .bind P (combineWith_same _ p) fun _ => .pure P _
  · cases x with
    | none => exact .raise P _
    | some a => exact .bind P (trainChecks_same K _ a _) fun b => onInner_same _

/-- What `closePhase` does. -/
def Closed (K : BKind σ A V) (s s' : St σ V) : Prop :=
  s'.phase = s.phase + 1 ∧ s'.training = if K.nPhases = 0 ∨ K.nPhases = s.phase + 1 then false else s.training

theorem Closed.of_same {K : BKind σ A V} {s s1 s2 s3 : St σ V} (h1 : SamePhase s s1) (h2 : Closed K s1 s2)
    (h3 : SamePhase s2 s3) : Closed K s s3 := by
  refine ⟨by rw [h3.1, h2.1, h1.1], ?_⟩
  rw [h3.2, h2.2, h1.1, h1.2]

/-- `stop_training` ends exactly one phase if it returns, and none if it raises; it returns only in a started phase. -/
theorem stop_closes (K : BKind σ A V) (b : Bool) (s : St σ V) :
    (∀ e s', stopTraining K b s = (.error e, s') → SamePhase s s') ∧
      (∀ r s', stopTraining K b s = (.ok r, s') → Closed K s s' ∧ s.training = true ∧ s.started = true) := by
  unfold stopTraining
  simp only [M.bind_def, M.get_def]
  by_cases h1 : s.training = true ∧ s.started = false
  · rw [if_pos h1]
    refine ⟨?_, ?_⟩
    · rintro e s' h; cases h; exact ⟨rfl, rfl⟩
    · rintro r s' h; cases h
  rw [if_neg h1]
  by_cases h2 : s.training = false
  · rw [if_pos h2]
    refine ⟨?_, ?_⟩
    · rintro e s' h; cases h; exact ⟨rfl, rfl⟩
    · rintro r s' h; cases h
  rw [if_neg h2]
  have ht : s.training = true := by simpa using h2
  have hst : s.started = true := by
    cases hs : s.started with
    | true => rfl
    | false => exact absurd ⟨ht, hs⟩ h1
  by_cases h3 : b = false ∨ s.cell = []
  · rw [if_pos h3]
    simp only [M.bind_def, onInner, closePhase, M.modify_def]
    generalize (K.stop s.phase).run s.inner none [] none = q
    obtain ⟨q, i⟩ := q
    cases q with
    | error e =>
      refine ⟨?_, ?_⟩
      · rintro e s' h; cases h; exact ⟨rfl, rfl⟩
      · rintro r s' h; cases h
    | ok r =>
      simp only
      cases K.stopResult with
      | none =>
        refine ⟨?_, ?_⟩
        · rintro e s' h; cases h
        · rintro r s' h; cases h; exact ⟨⟨rfl, rfl⟩, ht, hst⟩
      | some f =>
        refine ⟨?_, ?_⟩
        · rintro e s' h; cases h
        · rintro r s' h; cases h; exact ⟨⟨rfl, rfl⟩, ht, hst⟩
  · rw [if_neg h3]
    simp only [M.bind_def]
    have hp := parse_same K (K.stop s.phase) s
    generalize parse K (K.stop s.phase) s = q at hp
    obtain ⟨q, s1⟩ := q
    cases q with
    | error e =>
      refine ⟨?_, ?_⟩
      · rintro e s' h; cases h; exact hp
      · rintro r s' h; cases h
    | ok p =>
      simp only
      have hc := callStop_same p s1
      generalize callStop p s1 = q at hc
      obtain ⟨q, s2⟩ := q
      cases q with
      | error e =>
        refine ⟨?_, ?_⟩
        · rintro e s' h; cases h; exact samePhase_pre.trans hp hc
        · rintro r s' h; cases h
      | ok r =>
        simp only [closePhase, M.modify_def]
        have hs := samePhase_pre.trans hp hc
        cases K.stopResult with
        | some f =>
          simp only [M.bind_def, M.get_def, M.pure_def]
          refine ⟨?_, ?_⟩
          · rintro e s' h; cases h
          · rintro r s' h
            cases h
            exact ⟨.of_same hs ⟨rfl, rfl⟩ ⟨rfl, rfl⟩, ht, hst⟩
        | none =>
          simp only
          refine ⟨?_, ?_⟩
          · intro e s' h
            exfalso
            unfold combineWith at h
            simp only [M.bind_def, M.get_def] at h
            split at h
            · split at h <;> cases h
            · cases h
          · intro r s' h
            obtain ⟨_, e2⟩ := combineWith_ok h
            rw [e2]
            exact ⟨.of_same hs ⟨rfl, rfl⟩ ⟨rfl, rfl⟩, ht, hst⟩

/-- The invariant of a history: the count is the phase, and the node is in training exactly while phases are left. -/
structure PhaseInv (K : BKind σ A V) (n : Nat) (s : St σ V) : Prop where
  count : s.phase = n
  le : n ≤ K.nPhases
  training : s.training = decide (n < K.nPhases)

theorem PhaseInv.step {K : BKind σ A V} {n : Nat} {s : St σ V} (h : PhaseInv K n s) (op : TrainOp A V) :
    PhaseInv K (match op, (trainStep K s op).1 with
      | .stop _, .ok _ => n + 1
      | _, _ => n) (trainStep K s op).2 := by
  cases op with
  | train x m =>
    have := train_same K x m.isSome { s with cell := m.getD [] }
    exact ⟨this.1.trans h.count, h.le, this.2.trans h.training⟩
  | stop m =>
    obtain ⟨h1, h2⟩ := stop_closes K m.isSome { s with cell := m.getD [] }
    simp only [trainStep]
    generalize stopTraining K m.isSome { s with cell := m.getD [] } = q at h1 h2
    obtain ⟨q, s'⟩ := q
    cases q with
    | error e =>
      have := h1 e s' rfl
      exact ⟨this.1.trans h.count, h.le, this.2.trans h.training⟩
    | ok r =>
      obtain ⟨⟨c1, c2⟩, ht, _⟩ := h2 r s' rfl
      have hlt : n < K.nPhases := by
        have := h.training.symm.trans ht
        simpa using this
      refine ⟨by rw [c1, h.count], hlt, ?_⟩
      simp only [c2, h.count, h.training]
      by_cases e : K.nPhases = n + 1
      · rw [if_pos (.inr e), e]
        simp
      · rw [if_neg (by omega)]
        simp only [decide_eq_decide]
        omega

/-- **C94.** In every history of `train` and `stop_training` calls with any data and messages: the current phase is the
number of `stop_training` calls that returned, never more than the number of phases, and the node is in training exactly
while phases are left. -/
theorem phases_counted (K : BKind σ A V) (i : σ) (ops : List (TrainOp A V)) (hK : 0 < K.nPhases) :
    let c := trainRun K ops (0, { inner := i })
    c.2.phase = c.1 ∧ c.1 ≤ K.nPhases ∧ c.2.training = decide (c.1 < K.nPhases) := by
  have key : ∀ ops (c : Nat × St σ V), PhaseInv K c.1 c.2 → PhaseInv K (trainRun K ops c).1 (trainRun K ops c).2 := by
    intro ops
    induction ops with
    | nil => exact fun _ h => h
    | cons op r ih => exact fun c h => ih _ (h.step op)
  have := key ops (0, { inner := i }) ⟨rfl, Nat.zero_le _, by simp [hK]⟩
  exact ⟨this.count, this.le, this.training⟩

/-- **C94.** Once that many calls have returned, both `train` and `stop_training` raise and change no phase. -/
theorem training_finished (K : BKind σ A V) (i : σ) (ops : List (TrainOp A V)) (hK : 0 < K.nPhases)
    (hc : (trainRun K ops (0, { inner := i })).1 = K.nPhases) (op : TrainOp A V) :
    (trainStep K (trainRun K ops (0, { inner := i })).2 op).1 = .error .trainingFinished := by
  obtain ⟨_, _, h⟩ := phases_counted K i ops hK
  rw [hc] at h
  have ht : (trainRun K ops (0, { inner := i })).2.training = false := by simpa using h
  generalize (trainRun K ops (0, { inner := i })).2 = s at ht
  cases op with
  | train x m =>
    simp only [trainStep, train]
    rw [if_neg (by omega)]
    simp only [M.bind_def, M.get_def, ht, if_true]
    rfl
  | stop m =>
    simp only [trainStep, stopTraining, M.bind_def, M.get_def, ht]
    simp

theorem trainChecks_starts {K : BKind σ A V} {n : BVal V} {x b : A} {a : Msg V} {s s' : St σ V}
    (hn : n.truthy = false ∨ execChecks.isStr n sTrain = true) (h : trainChecks K n x a s = (.ok b, s')) : s'.started = true := by
  unfold trainChecks at h
  rw [if_pos hn] at h
  obtain ⟨u, s1, _, h⟩ := M.bind_eq_ok h
  obtain ⟨s2, s3, _, h⟩ := M.bind_eq_ok h
  generalize K.checkTrainArgs s2.inner x a = c at h
  cases c with
  | error e => cases e <;> cases h
  | ok u => cases h; rfl

/-- C94: a successful `train` starts the training phase (so that it can be stopped). -/
theorem train_starts {K : BKind σ A V} {x : Option A} {s s' : St σ V} {r : BRes A V}
    (h : train K x false s = (.ok r, s')) : s'.started = true := by
  unfold train at h
  split at h
  · cases h
  · simp only [M.bind_def, M.get_def] at h
    split at h
    · cases h
    · simp only [Bool.false_eq_true, if_false] at h
      cases x with
      | none => cases h
      | some a =>
        obtain ⟨b, s1, h1, h2⟩ := M.bind_eq_ok h
        have h3 := trainChecks_starts (.inl rfl) h1
        simp only [onInner, Prod.mk.injEq] at h2
        rw [← h2.2]
        exact h3

/-- **C94.** `train` asks for a continuation only with data or a target: a result with neither is the result `None`. -/
theorem train_result {K : BKind σ A V} {x : Option A} {s s' : St σ V} {r : BRes A V}
    (h : train K x true s = (.ok r, s')) : r = .single none ∨ r.data.isSome = true ∨ r.target.isSome = true := by
  unfold train at h
  split at h
  · cases h
  · simp only [M.bind_def, M.get_def] at h
    split at h
    · cases h
    · simp only [if_true] at h
      obtain ⟨p, s1, _, h⟩ := M.bind_eq_ok h
      obtain ⟨x', s2, _, h⟩ := M.bind_eq_ok h
      obtain ⟨r0, s3, _, h⟩ := M.bind_eq_ok h
      split at h
      · cases h; exact .inl rfl
      · obtain ⟨r1, s4, _, h⟩ := M.bind_eq_ok h
        cases h
        cases r1 with
        | single y => cases y <;> simp [dropEmpty, BRes.data]
        | pair y m => cases y <;> simp [dropEmpty, BRes.data]
        | triple y m t => exact .inr (.inr rfl)

/-- Non-vacuity of C94: training, stopping, and a second stop that raises. -/
example : (train echo (some 1) false { inner := () }).1.isOk = true ∧ (train echo (some 1) false { inner := () }).2.started = true := by decide

example : (trainRun echo [.train (some 1) none, .stop none, .stop none] (0, { inner := () })).1 = 1 ∧
    (trainRun echo [.stop none, .train (some 1) (some demoMsg)] (0, { inner := () })).1 = 0 := by decide

end Bi
