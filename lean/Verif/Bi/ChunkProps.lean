import Mathlib.Data.List.Forall2
import Verif.Bi.FlowProps
import Verif.Bi.NodeProps

/-!
# Properties of `BiFlow.execute` over several chunks

C62 (chunks without data), C95 (chunks are independent), C96 (joining the messages of the chunks), and a message that
keeps a flow running for ever.
-/

namespace Bi

open Py

variable {σ A V : Type} [DecidableEq V]

/-! ### The chunks one after the other -/

/-- How a run through the flow may end for `execute`: behind the last node, without or with a message; in front of the
first node; or with the exit target. -/
inductive Ends : SRes A V → Option A → Option (Msg V) → Prop where
  | data (y : Option A) : Ends (.single y) y none
  | message (y : Option A) (m : Option (Msg V)) : Ends (.pair y m) y m
  | front (y : Option A) (m : Option (Msg V)) : Ends (.triple y m (.int (-1))) y m
  | behind (y : Option A) (m : Option (Msg V)) : Ends (.triple y m (.int 1)) y m
  | exit (y : Option A) (m : Option (Msg V)) : Ends (.triple y m (.str ['e', 'x', 'i', 't'])) y m
  | stop (y : Option A) (m : Option (Msg V)) : Ends (.stop y m) y m

theorem ends_iff {r : SRes A V} {y : Option A} {m : Option (Msg V)} : readResult r = .ok (y, m) ↔ Ends r y m := by
  constructor
  · intro h
    cases r with
    | single x => cases h; exact .data _
    | pair x m => cases h; exact .message _ _
    | stop x m => cases h; exact .stop _ _
    | triple x m t =>
      simp only [readResult] at h
      split at h
      · rename_i ht
        cases h
        rcases ht with rfl | rfl | rfl
        · exact .behind _ _
        · exact .front _ _
        · exact .exit _ _
      · cases h
  · intro h
    cases h with
    | data => rfl
    | message => rfl
    | stop => rfl
    | front => simp [readResult]
    | behind => simp [readResult]
    | exit => simp [readResult, sExit]

/-- Executing one chunk from the state `s` gives the data `y`, the message `m` and, after the reset, the state `s'`. -/
def ChunkRun (F : BFlow σ A V) (n : Nat) (s : σ) (k : Chunk A V) (y : Option A) (m : Option (Msg V)) (s' : σ) : Prop :=
  ∃ i o r, (if k.target.truthy then targetToIndex F k.target 0 else .ok (.int 0)) = .ok i ∧
    executeSeq F none n i k.x k.msg s = some o ∧ o.res = .ok r ∧ Ends r y m ∧ s' = F.reset o.s

/-- All chunks run one after the other; `outs` are their data and messages. -/
inductive ChunksRun (F : BFlow σ A V) (n : Nat) : σ → List (Chunk A V) → List (Option A × Option (Msg V)) → σ → Prop where
  | nil {s} : ChunksRun F n s [] [] s
  | cons {s k y m s' ks outs s''} : ChunkRun F n s k y m s' → ChunksRun F n s' ks outs s'' →
      ChunksRun F n s (k :: ks) ((y, m) :: outs) s''

/-- Adding the data of the chunks one after the other. -/
def foldY : List (Option A) → YRes A → Except Err (YRes A)
  | [], a => .ok a
  | y :: ys, a =>
    match addY a y with
    | .ok a' => foldY ys a'
    | .error e => .error e

/-- Adding the messages of the chunks one after the other. -/
def foldMsg (O : ValOps V) : List (Option (Msg V)) → Container V → Except Err (Container V)
  | [], c => .ok c
  | m :: ms, c =>
    match addMessage O c (m.getD []) with
    | .ok c' => foldMsg O ms c'
    | .error e => .error e

theorem execChunk_of_run {F : BFlow σ A V} (O : ValOps V) {n : Nat} {st : ExSt σ A V} {k : Chunk A V} {y : Option A}
    {m : Option (Msg V)} {s' : σ} (h : ChunkRun F n st.s k y m s') :
    ∃ tr, execChunk F O n st k =
      match addMessage O st.c (m.getD []) with
      | .error e => some (.error e, s')
      | .ok c =>
        match addY st.y y with
        | .error e => some (.error e, s')
        | .ok ys => some (.ok { y := ys, c := c, s := s', starts := st.starts ++ [st.s], traces := st.traces ++ [tr] }, s') := by
  obtain ⟨i, o, r, h1, h2, h3, h4, h5⟩ := h
  refine ⟨o.seen, ?_⟩
  unfold execChunk
  rw [h1]
  simp only [h2, h3, ends_iff.2 h4, h5]
  rfl

theorem execChunk_ok {F : BFlow σ A V} {O : ValOps V} {n : Nat} {st st' : ExSt σ A V} {k : Chunk A V} {s' : σ}
    (h : execChunk F O n st k = some (.ok st', s')) :
    ∃ y m, ChunkRun F n st.s k y m st'.s ∧ addMessage O st.c (m.getD []) = .ok st'.c ∧ addY st.y y = .ok st'.y ∧
      s' = st'.s := by
  unfold execChunk at h
  cases h1 : (if k.target.truthy then targetToIndex F k.target 0 else .ok (.int 0)) with
  | error e => rw [h1] at h; cases h
  | ok i =>
    rw [h1] at h
    simp only at h
    cases h2 : executeSeq F none n i k.x k.msg st.s with
    | none => rw [h2] at h; cases h
    | some o =>
      rw [h2] at h
      simp only at h
      cases h3 : o.res with
      | error e => rw [h3] at h; cases h
      | ok r =>
        rw [h3] at h
        simp only at h
        cases h4 : readResult r with
        | error e => rw [h4] at h; cases h
        | ok q =>
          obtain ⟨y, m⟩ := q
          rw [h4] at h
          simp only at h
          cases h5 : addMessage O st.c (m.getD []) with
          | error e => rw [h5] at h; cases h
          | ok c =>
            rw [h5] at h
            simp only at h
            cases h6 : addY st.y y with
            | error e => rw [h6] at h; cases h
            | ok ys =>
              rw [h6] at h
              cases h
              exact ⟨y, m, ⟨i, o, r, h1, h2, h3, ends_iff.1 h4, rfl⟩, h5, h6, rfl⟩

/-- **C60**: a run that leaves the flow. A target that leads out of the flow ends `execute` with an error, unless it is
`1`, `-1` or `"exit"`; with one of these the data and the message are the result of the chunk. -/
theorem leaving_targets (F : BFlow σ A V) (O : ValOps V) (n : Nat) (st : ExSt σ A V) (k : Chunk A V) (o : Out σ A V)
    (y : Option A) (m : Option (Msg V)) (t : BVal V) (h0 : k.target.truthy = false)
    (hr : executeSeq F none n (.int 0) k.x k.msg st.s = some o) (ho : o.res = .ok (.triple y m t)) :
    ((t = .int 1 ∨ t = .int (-1) ∨ t = .str ['e', 'x', 'i', 't']) → ChunkRun F n st.s k y m (F.reset o.s)) ∧
    (¬ (t = .int 1 ∨ t = .int (-1) ∨ t = .str ['e', 'x', 'i', 't']) →
      execChunk F O n st k = some (.error .biflow, o.s)) := by
  have hi : (if k.target.truthy then targetToIndex F k.target 0 else .ok (.int 0)) = .ok (.int 0) := by
    rw [if_neg (by simp [h0])]
  constructor
  · intro ht
    refine ⟨.int 0, o, _, hi, hr, ho, ?_, rfl⟩
    rcases ht with rfl | rfl | rfl
    · exact .behind _ _
    · exact .front _ _
    · exact .exit _ _
  · intro ht
    have hb : readResult (.triple y m t) = .error .biflow := by
      exact if_neg ht
    unfold execChunk
    rw [hi]
    simp only [hr, ho, hb]

/-- A flow of one node that returns its input and a target. -/
def targetFlow (t : BVal Unit) : BFlow Nat Nat Unit :=
  { len := 1, isBi := fun _ => true, exec := fun _ s x _ => (.ok (.triple x none t), s), plain := fun _ s x => (.ok x, s),
    hasId := fun _ _ => false, reset := fun s => s }

example : (executeSeq (targetFlow (.int (-1))) none 3 (.int 0) (some 7) none 0).map (·.res) =
    some (.ok (.triple (some 7) none (.int (-1)))) := rfl

example : (executeSeq (targetFlow (.str ['e', 'x', 'i', 't'])) none 3 (.int 0) (some 7) none 0).map (·.res) =
    some (.ok (.triple (some 7) none (.str ['e', 'x', 'i', 't']))) := rfl

example : (executeSeq (targetFlow (.str ['z'])) none 3 (.int 0) (some 7) none 0).map (·.res) =
    some (.ok (.triple (some 7) none (.str ['z']))) := rfl

/-- If all chunks run and their messages combine, the loop returns what the data give. -/
theorem execLoop_of_runs {F : BFlow σ A V} (O : ValOps V) {n : Nat} {ks : List (Chunk A V)}
    {outs : List (Option A × Option (Msg V))} {s s' : σ} (h : ChunksRun F n s ks outs s') :
    ∀ (st : ExSt σ A V) (c : Container V), st.s = s → foldMsg O (outs.map Prod.snd) st.c = .ok c →
      match foldY (outs.map Prod.fst) st.y with
      | .error e => ∃ s1, execLoop F O n st ks = some (.error e, s1)
      | .ok y => ∃ st', execLoop F O n st ks = some (.ok st', s') ∧ st'.y = y ∧ st'.c = c := by
  induction h with
  | nil =>
    intro st c hs hm
    cases hm
    exact ⟨st, by rw [← hs]; rfl, rfl, rfl⟩
  | @cons s k y m s' ks outs s'' hk hr ih =>
    intro st c hs hm
    subst hs
    obtain ⟨tr, he⟩ := execChunk_of_run O hk
    simp only [List.map_cons, foldMsg] at hm
    cases h1 : addMessage O st.c (m.getD []) with
    | error e => rw [h1] at hm; cases hm
    | ok c1 =>
      rw [h1] at hm he
      simp only at hm he
      simp only [List.map_cons, foldY, execLoop, he]
      cases h2 : addY st.y y with
      | error e => exact ⟨_, rfl⟩
      | ok ys =>
        exact ih { y := ys, c := c1, s := s', starts := st.starts ++ [st.s], traces := st.traces ++ [tr] } c rfl hm

theorem execLoop_runs {F : BFlow σ A V} {O : ValOps V} {n : Nat} {ks : List (Chunk A V)} :
    ∀ {st st' : ExSt σ A V} {s' : σ}, execLoop F O n st ks = some (.ok st', s') →
      ∃ outs, ChunksRun F n st.s ks outs s' ∧ foldMsg O (outs.map Prod.snd) st.c = .ok st'.c ∧
        foldY (outs.map Prod.fst) st.y = .ok st'.y := by
  induction ks with
  | nil =>
    intro st st' s' h
    cases h
    exact ⟨[], .nil, rfl, rfl⟩
  | cons k ks ih =>
    intro st st' s' h
    simp only [execLoop] at h
    cases h1 : execChunk F O n st k with
    | none => rw [h1] at h; cases h
    | some q =>
      obtain ⟨q, s1⟩ := q
      rw [h1] at h
      cases q with
      | error e => cases h
      | ok st1 =>
        simp only at h
        obtain ⟨y, m, g1, g2, g3, _⟩ := execChunk_ok h1
        obtain ⟨outs, g4, g5, g6⟩ := ih h
        refine ⟨(y, m) :: outs, .cons g1 g4, ?_, ?_⟩
        · simp only [List.map_cons, foldMsg, g2]; exact g5
        · simp only [List.map_cons, foldY, g3]; exact g6

/-! ### C62: chunks without data -/

theorem foldY_all (ys zs : List A) : foldY (ys.map some) (.list zs) = .ok (.list (zs ++ ys)) := by
  induction ys generalizing zs with
  | nil => simp [foldY]
  | cons y ys ih => simp [foldY, addY, ih]

theorem foldY_mixed (ys : List (Option A)) (zs : List A) (h : none ∈ ys) : foldY ys (.list zs) = .error .biflow := by
  induction ys generalizing zs with
  | nil => cases h
  | cons y ys ih =>
    cases y with
    | none => rfl
    | some y =>
      simp only [foldY, addY]
      exact ih _ (by simpa using h)

theorem foldY_false (ys : List (Option A)) (h : ys ≠ []) : foldY ys (.false : YRes A) = .error .biflow := by
  cases ys with
  | nil => exact absurd rfl h
  | cons y ys => cases y <;> rfl

/-- **C62, partial.** If all chunks run and their messages combine, then:
* if every chunk returned data, the result is the list of them (which the code concatenates);
* if some but not all chunks returned data, the result is an error.
Missing (and false, see the next theorems): that chunks that all return no data are no error. -/
theorem some_but_not_all_partial {F : BFlow σ A V} (O : ValOps V) {n : Nat} {ks : List (Chunk A V)}
    {outs : List (Option A × Option (Msg V))} {s s' : σ} (h : ChunksRun F n (F.reset s) ks outs s') (hk : ks ≠ [])
    {c : Container V} {m : Msg V} (hc : foldMsg O (outs.map Prod.snd) {} = .ok c) (hm : getMessage O c = .ok m) :
    (∀ ys, outs.map Prod.fst = ys.map some → execute' F O n ks s = some (.ok { y := .list ys, msg := m }, s')) ∧
      (none ∈ outs.map Prod.fst → (∃ y, some y ∈ outs.map Prod.fst) →
        ∃ s1, execute' F O n ks s = some (.error .biflow, s1)) := by
  have hl := execLoop_of_runs O h { s := F.reset s } c rfl hc
  constructor
  · intro ys hys
    rw [hys] at hl
    have : foldY (ys.map some) (.none : YRes A) = .ok (.list ys) := by
      cases ys with
      | nil =>
        exfalso
        cases h with
        | nil => exact hk rfl
        | cons _ _ => cases hys
      | cons y ys =>
        simp only [List.map_cons, foldY, addY]
        rw [foldY_all]; rfl
    rw [this] at hl
    obtain ⟨st', h1, h2, h3⟩ := hl
    unfold execute'
    rw [h1]
    cases ks with
    | nil => exact absurd rfl hk
    | cons k ks => simp only [h3, hm, h2]
  · intro hn hs
    have : foldY (outs.map Prod.fst) (.none : YRes A) = .error .biflow := by
      generalize outs.map Prod.fst = l at hn hs
      cases l with
      | nil => cases hn
      | cons y l =>
        cases y with
        | none =>
          simp only [foldY, addY]
          refine foldY_false l ?_
          rintro rfl
          obtain ⟨y, hy⟩ := hs
          simp at hy
        | some y =>
          simp only [foldY, addY]
          exact foldY_mixed l _ (by simpa using hn)
    rw [this] at hl
    obtain ⟨s1, h1⟩ := hl
    exact ⟨s1, by unfold execute'; rw [h1]⟩

/-- A flow that never returns data, only a message. -/
def muteFlow : BFlow Nat Nat Unit where
  len := 1
  isBi := fun _ => true
  exec := fun _ s _ _ => (.ok (.pair none (some [(['a'], .int 1)])), s)
  plain := fun _ s x => (.ok x, s)
  hasId := fun _ _ => false
  reset := fun s => s

/-- Integers are added. -/
def intOps : ValOps Unit where
  isArr := fun _ => false
  add := fun v w =>
    match v, w with
    | .int a, .int b => some (.int (a + b))
    | _, _ => none
  concat := fun _ => .none

/-- The outcome of `execute'`, for concrete runs. -/
def yOf (r : Option (Except Err (ExRes A V) × σ)) : Option (Except Err (YRes A)) :=
  r.map fun q => q.1.map (·.y)

/-- The error of an outcome. -/
def errOf {α : Type} : Except Err α → Option Err
  | .error e => some e
  | .ok _ => none

/-- **C62, violated.** Two chunks that both return no data raise the error that some but not all of them did. -/
theorem all_none_raises :
    ∃ (F : BFlow Nat Nat Unit) (ks : List (Chunk Nat Unit)) (outs : List (Option Nat × Option (Msg Unit))) (s' : Nat),
      ChunksRun F 3 (F.reset 0) ks outs s' ∧ outs.map Prod.fst = [none, none] ∧
        (yOf (execute' F intOps 3 ks 0)).bind errOf = some .biflow := by
  refine ⟨muteFlow, [{ x := some 1 }, { x := some 2 }],
    [(none, some [(['a'], .int 1)]), (none, some [(['a'], .int 1)])], 0, ?_, rfl, by decide⟩
  have : ∀ x, ChunkRun muteFlow 3 0 { x := x } none (some [(['a'], .int 1)]) 0 := by
    intro x
    exact ⟨.int 0, _, _, rfl, rfl, rfl, ends_iff.1 rfl, rfl⟩
  exact .cons (this _) (.cons (this _) .nil)

/-- **C62, violated.** A single chunk without data gives `False` in place of `None`. -/
theorem single_none_is_false (F : BFlow σ A V) (O : ValOps V) {n : Nat} {k : Chunk A V} {m : Option (Msg V)} {s s' : σ}
    (h : ChunkRun F n (F.reset s) k none m s') {c : Container V} {m' : Msg V}
    (hc : addMessage O {} (m.getD []) = .ok c) (hm : getMessage O c = .ok m') :
    execute' F O n [k] s = some (.ok { y := .false, msg := m' }, s') := by
  have hl := execLoop_of_runs O (.cons h .nil) { s := F.reset s } c rfl (by simp [foldMsg, hc])
  simp only [List.map_cons, List.map_nil, foldY, addY] at hl
  obtain ⟨st', h1, h2, h3⟩ := hl
  unfold execute'
  rw [h1]
  simp only [h3, hm, h2]

example : ∃ m, ChunkRun muteFlow 3 (muteFlow.reset 0) { x := some 1 } none m 0 :=
  ⟨_, .int 0, _, _, rfl, rfl, rfl, ends_iff.1 rfl, rfl⟩

/-- Non-vacuity of the partial theorem: a flow that returns data for one chunk but not for the other. -/
example : ∃ (F : BFlow Nat Nat Unit) (outs : List (Option Nat × Option (Msg Unit))) (s' : Nat),
    ChunksRun F 3 (F.reset 0) [{ x := some 1 }, { x := some 2 }] outs s' ∧ none ∈ outs.map Prod.fst ∧
      some 1 ∈ outs.map Prod.fst ∧ ∃ c m, foldMsg intOps (outs.map Prod.snd) {} = .ok c ∧ getMessage intOps c = .ok m := by
  refine ⟨{ len := 1, isBi := fun _ => true,
            exec := fun _ s x _ => (.ok (.pair (if x = some 1 then x else none) (some [(['a'], .int 1)])), s)
            plain := fun _ s x => (.ok x, s), hasId := fun _ _ => false, reset := fun s => s },
    [(some 1, some [(['a'], .int 1)]), (none, some [(['a'], .int 1)])], 0, ?_, by simp, by simp, _, _, rfl, rfl⟩
  refine .cons (s' := 0) ?_ (.cons (s' := 0) ?_ .nil)
  · exact ⟨.int 0, _, _, rfl, rfl, rfl, ends_iff.1 rfl, rfl⟩
  · exact ⟨.int 0, _, _, rfl, rfl, rfl, ends_iff.1 rfl, rfl⟩

/-! ### C95: chunks are independent -/

/-- Execution changes only what a reset restores. -/
def Temporary (F : BFlow σ A V) : Prop :=
  (∀ s, F.reset (F.reset s) = F.reset s) ∧ (∀ j s x m, F.reset (F.exec j s x m).2 = F.reset s) ∧
    (∀ j s x, F.reset (F.plain j s x).2 = F.reset s)

omit [DecidableEq V] in
theorem runNode_reset {F : BFlow σ A V} (h : Temporary F) (j : Nat) (s : σ) (x : Option A) (m : Option (Msg V)) :
    F.reset (runNode F j s x m).2 = F.reset s := by
  unfold runNode
  split
  · have := h.2.1 j s x m
    generalize F.exec j s x m = q at this
    obtain ⟨q, s'⟩ := q
    cases q with
    | error e => exact this
    | ok r => cases r <;> exact this
  · have := h.2.2 j s x
    generalize F.plain j s x = q at this
    obtain ⟨q, s'⟩ := q
    cases q <;> exact this

/-- The state of the nodes after a round. -/
def endState : Cfg σ A V ⊕ Out σ A V → σ
  | .inl c => c.s
  | .inr o => o.s

theorem afterNode_state (F : BFlow σ A V) (i : Int) (y : Option A) (m : Option (Msg V)) (t : BVal V) (s : σ)
    (seen : List Nat) : endState (afterNode F i y m t s seen) = s := by
  unfold afterNode
  cases t with
  | int k =>
    simp only
    split
    · rfl
    · split <;> rfl
  | none =>
    simp only
    cases targetToIndex F .none i with
    | error e => rfl
    | ok q => cases q <;> rfl
  | str u =>
    simp only
    cases targetToIndex F (.str u) i with
    | error e => rfl
    | ok q => cases q <;> rfl
  | other v =>
    simp only
    cases targetToIndex F (.other v) i with
    | error e => rfl
    | ok q => cases q <;> rfl

theorem seqStep_reset {F : BFlow σ A V} (h : Temporary F) (stop : Option Nat) (c : Cfg σ A V) :
    F.reset (endState (seqStep F stop c)) = F.reset c.s := by
  unfold seqStep
  cases c.i with
  | int i =>
    simp only
    split
    · rfl
    · cases pyIndex F.len i with
      | none => rfl
      | some j =>
        simp only
        have := runNode_reset h j c.s c.x c.msg
        generalize runNode F j c.s c.x c.msg = q at this
        obtain ⟨q, s'⟩ := q
        cases q with
        | error e => exact this
        | ok q =>
          obtain ⟨y, m, t⟩ := q
          simp only
          rw [afterNode_state]
          exact this
  | none => rfl
  | str u => rfl
  | other v => rfl

theorem runFuel_reset {F : BFlow σ A V} (h : Temporary F) (stop : Option Nat) :
    ∀ n (c : Cfg σ A V) o, runFuel (seqStep F stop) n c = some o → F.reset o.s = F.reset c.s := by
  intro n
  induction n with
  | zero => intro c o h; cases h
  | succ n ih =>
    intro c o hr
    rw [runFuel] at hr
    have hs := seqStep_reset h stop c
    generalize seqStep F stop c = z at hs hr
    cases z with
    | inl c' => exact (ih c' o hr).trans hs
    | inr o' => cases hr; exact hs

theorem ChunkRun.reset_eq {F : BFlow σ A V} (h : Temporary F) {n : Nat} {s s' : σ} {k : Chunk A V} {y : Option A}
    {m : Option (Msg V)} (hr : ChunkRun F n (F.reset s) k y m s') : s' = F.reset s := by
  obtain ⟨i, o, r, _, h2, _, _, rfl⟩ := hr
  rw [runFuel_reset h none n _ o h2]
  exact h.1 s

/-- **C95.** If execution changes only what a reset restores, the chunks of an iteration do not influence one another:
whenever the execution returns, every chunk alone, executed from the same state, gives its own data and message, and the
result is the combination of these. -/
theorem chunks_independent {F : BFlow σ A V} {O : ValOps V} (h : Temporary F) {n : Nat} {ks : List (Chunk A V)} {s s' : σ}
    {r : ExRes A V} (he : execute' F O n ks s = some (.ok r, s')) :
    ∃ outs : List (Option A × Option (Msg V)),
      List.Forall₂ (fun k o => ChunkRun F n (F.reset s) k o.1 o.2 (F.reset s)) ks outs ∧
        foldY (outs.map Prod.fst) .none = .ok r.y ∧ ∃ c, foldMsg O (outs.map Prod.snd) {} = .ok c ∧
          getMessage O c = .ok r.msg := by
  unfold execute' at he
  cases h1 : execLoop F O n { s := F.reset s } ks with
  | none => rw [h1] at he; cases he
  | some q =>
    obtain ⟨q, s1⟩ := q
    rw [h1] at he
    cases q with
    | error e => cases he
    | ok st =>
      obtain ⟨outs, g1, g2, g3⟩ := execLoop_runs h1
      simp only at he g1 g2 g3
      have key : ∀ {s0 ks outs s1}, ChunksRun F n s0 ks outs s1 → s0 = F.reset s →
          List.Forall₂ (fun k (o : Option A × Option (Msg V)) => ChunkRun F n (F.reset s) k o.1 o.2 (F.reset s)) ks outs := by
        intro s0 ks outs s1 hc
        induction hc with
        | nil => exact fun _ => .nil
        | @cons s0 k y m s2 ks outs s3 hk _ ih =>
          rintro rfl
          have e := hk.reset_eq h
          rw [e] at hk
          exact .cons hk (ih e)
      refine ⟨outs, key g1 rfl, ?_⟩
      split at he
      · cases he
      · cases hg : getMessage O st.c with
        | error e => rw [hg] at he; cases he
        | ok m =>
          rw [hg] at he
          cases he
          exact ⟨g3, st.c, g2, hg⟩

/-- The result of a single chunk, for comparison. -/
theorem single_chunk {F : BFlow σ A V} (O : ValOps V) {n : Nat} {k : Chunk A V} {s s' : σ} {y : A} {m : Option (Msg V)}
    (h : ChunkRun F n (F.reset s) k (some y) m s') {c : Container V} {m' : Msg V}
    (hc : addMessage O {} (m.getD []) = .ok c) (hm : getMessage O c = .ok m') :
    execute' F O n [k] s = some (.ok { y := .list [y], msg := m' }, s') := by
  have := (some_but_not_all_partial O (.cons h .nil) (by simp) (c := c) (m := m') (by simp [foldMsg, hc]) hm).1 [y] rfl
  exact this

/-- A flow whose node counts the calls within a chunk; a reset starts the count again. -/
def countFlow : BFlow Nat Nat Unit where
  len := 1
  isBi := fun _ => true
  exec := fun _ s x _ => (.ok (if s < 2 then .triple (x.map (· + 1)) none (.int 0) else .single x), s + 1)
  plain := fun _ s x => (.ok x, s)
  hasId := fun _ _ => false
  reset := fun _ => 0

/-- Non-vacuity of C95: the node is called three times for each chunk. -/
example : Temporary countFlow ∧
    (yOf (execute' countFlow intOps 5 [{ x := some 10 }, { x := some 20 }] 7)).bind Except.toOption =
      some (.list [12, 22]) := by
  refine ⟨⟨fun _ => rfl, fun _ _ _ _ => rfl, fun _ _ _ => rfl⟩, by decide⟩

/-! ### C96: joining messages -/

/-- All values of a key, in order. -/
def valuesOf (k : Str) (es : List (Str × BVal V)) : List (BVal V) := es.filterMap fun e => if e.1 = k then some e.2 else none

/-- The sum, from the left, of values that can be added; `none` if an addition raises. -/
def sumFrom (O : ValOps V) : BVal V → List (BVal V) → Option (BVal V)
  | v, [] => some v
  | v, w :: ws => (O.add v w).bind fun u => sumFrom O u ws

/-- All entries of the messages of the chunks, in order. -/
def allEntries (ms : List (Option (Msg V))) : List (Str × BVal V) := ms.flatMap fun m => m.getD []

/-- The relation between a container and the entries added so far. -/
structure Holds (O : ValOps V) (es : List (Str × BVal V)) (c : Container V) : Prop where
  ok : Dict.Ok c.arrays
  arrays : ∀ k, Dict.get c.arrays k =
    if (valuesOf k es).filter O.isArr = [] then none else some ((valuesOf k es).filter O.isArr)
  other : ∀ k, match (valuesOf k es).filter fun v => !O.isArr v with
    | [] => Dict.get c.other k = none
    | v :: vs => ∃ w, sumFrom O v vs = some w ∧ Dict.get c.other k = some w

omit [DecidableEq V] in
theorem sumFrom_append (O : ValOps V) (v w u : BVal V) (vs : List (BVal V)) (h : sumFrom O v vs = some w)
    : sumFrom O v (vs ++ [u]) = O.add w u := by
  induction vs generalizing v with
  | nil =>
    cases h
    simp only [List.nil_append, sumFrom]
    cases O.add w u <;> rfl
  | cons x vs ih =>
    simp only [List.cons_append, sumFrom] at h ⊢
    cases hx : O.add v x with
    | none => rw [hx] at h; cases h
    | some z =>
      rw [hx] at h
      simp only [Option.bind_some] at h ⊢
      exact ih z h

omit [DecidableEq V] in
theorem valuesOf_append (k : Str) (es : List (Str × BVal V)) (e : Str × BVal V) :
    valuesOf k (es ++ [e]) = valuesOf k es ++ if e.1 = k then [e.2] else [] := by
  unfold valuesOf
  rw [List.filterMap_append]
  congr 1
  by_cases h : e.1 = k
  · simp [h]
  · simp [h]

omit [DecidableEq V] in
theorem Holds.step {O : ValOps V} {es : List (Str × BVal V)} {c c' : Container V} (h : Holds O es c) {e : Str × BVal V}
    (he : addEntry O c e = .ok c') : Holds O (es ++ [e]) c' := by
  unfold addEntry at he
  by_cases ha : O.isArr e.2 = true
  · rw [if_pos ha] at he
    cases he
    refine ⟨Dict.set_ok _ _ _ h.ok, ?_, ?_⟩
    · intro k
      rw [Dict.get_set, valuesOf_append, List.filter_append]
      by_cases hk : e.1 = k
      · subst hk
        rw [if_pos rfl, if_pos rfl, h.arrays]
        have : List.filter O.isArr [e.2] = [e.2] := by simp [ha]
        rw [this]
        generalize (valuesOf e.1 es).filter O.isArr = l
        cases l with
        | nil => rfl
        | cons a l => rfl
      · rw [if_neg hk, if_neg hk, h.arrays]
        simp
    · intro k
      have := h.other k
      rw [valuesOf_append, List.filter_append]
      by_cases hk : e.1 = k
      · rw [if_pos hk]
        have e0 : List.filter (fun v => !O.isArr v) [e.2] = [] := by simp [ha]
        rw [e0, List.append_nil]
        exact this
      · rw [if_neg hk]
        simpa using this
  · rw [if_neg ha] at he
    have hk0 := h.other e.1
    have key : ∀ k, e.1 ≠ k → ∀ m : Msg V, (∀ k, e.1 ≠ k → Dict.get m k = Dict.get c.other k) →
        match (valuesOf k (es ++ [e])).filter fun v => !O.isArr v with
        | [] => Dict.get m k = none
        | v :: vs => ∃ w, sumFrom O v vs = some w ∧ Dict.get m k = some w := by
      intro k hk m hm
      rw [valuesOf_append, if_neg hk, List.append_nil, hm k hk]
      exact h.other k
    have harr : ∀ k, Dict.get c.arrays k =
        if (valuesOf k (es ++ [e])).filter O.isArr = [] then none else some ((valuesOf k (es ++ [e])).filter O.isArr) := by
      intro k
      rw [valuesOf_append, List.filter_append]
      have : List.filter O.isArr (if e.1 = k then [e.2] else []) = [] := by
        split <;> simp [ha]
      rw [this, List.append_nil]
      exact h.arrays k
    have hv : (valuesOf e.1 (es ++ [e])).filter (fun v => !O.isArr v) =
        (valuesOf e.1 es).filter (fun v => !O.isArr v) ++ [e.2] := by
      rw [valuesOf_append, if_pos rfl, List.filter_append]
      congr 1
      simp [ha]
    cases hg : Dict.get c.other e.1 with
    | none =>
      rw [hg] at he hk0
      cases he
      refine ⟨h.ok, harr, ?_⟩
      intro k
      by_cases hk : e.1 = k
      · subst hk
        rw [hv]
        generalize (valuesOf e.1 es).filter (fun v => !O.isArr v) = l at hk0
        cases l with
        | nil => exact ⟨e.2, rfl, by rw [Dict.get_set, if_pos rfl]⟩
        | cons v vs =>
          obtain ⟨w, _, h2⟩ := hk0
          cases h2
      · exact key k hk _ fun k hk => by rw [Dict.get_set, if_neg hk]
    | some v0 =>
      rw [hg] at he hk0
      simp only at he
      cases hadd : O.add v0 e.2 with
      | none => rw [hadd] at he; cases he
      | some w0 =>
        rw [hadd] at he
        cases he
        refine ⟨h.ok, harr, ?_⟩
        intro k
        by_cases hk : e.1 = k
        · subst hk
          rw [hv]
          generalize (valuesOf e.1 es).filter (fun v => !O.isArr v) = l at hk0
          cases l with
          | nil => cases hk0
          | cons v vs =>
            obtain ⟨w, h1, h2⟩ := hk0
            cases h2
            refine ⟨w0, ?_, by rw [Dict.get_set, if_pos rfl]⟩
            exact (sumFrom_append O v v0 e.2 vs h1).trans hadd
        · exact key k hk _ fun k hk => by rw [Dict.get_set, if_neg hk]

omit [DecidableEq V] in
theorem addMessage_holds {O : ValOps V} (m : Msg V) : ∀ {es : List (Str × BVal V)} {c c' : Container V}, Holds O es c →
    addMessage O c m = .ok c' → Holds O (es ++ m) c' := by
  induction m with
  | nil =>
    intro es c c' h he
    cases he
    simpa using h
  | cons e m ih =>
    intro es c c' h he
    simp only [addMessage] at he
    cases h1 : addEntry O c e with
    | error er => rw [h1] at he; cases he
    | ok c1 =>
      rw [h1] at he
      have := ih (h.step h1) he
      simpa using this

omit [DecidableEq V] in
theorem foldMsg_holds {O : ValOps V} (ms : List (Option (Msg V))) : ∀ {es : List (Str × BVal V)} {c c' : Container V},
    Holds O es c → foldMsg O ms c = .ok c' → Holds O (es ++ allEntries ms) c' := by
  induction ms with
  | nil =>
    intro es c c' h he
    cases he
    simpa [allEntries] using h
  | cons m ms ih =>
    intro es c c' h he
    simp only [foldMsg] at he
    cases h1 : addMessage O c (m.getD []) with
    | error er => rw [h1] at he; cases he
    | ok c1 =>
      rw [h1] at he
      have := ih (addMessage_holds _ h h1) he
      simpa [allEntries] using this

omit [DecidableEq V] in
theorem getLoop_spec {O : ValOps V} : ∀ (as : Dict Str (List (BVal V))) {m m' : Msg V}, Dict.Ok as →
    getLoop O as m = .ok m' →
    ∀ k, (match Dict.get as k with
      | some vs => Dict.get m k = none ∧ Dict.get m' k = some (O.concat vs)
      | none => Dict.get m' k = Dict.get m k) := by
  intro as
  induction as with
  | nil =>
    intro m m' _ h k
    cases h
    rfl
  | cons p as ih =>
    obtain ⟨a, vs⟩ := p
    intro m m' ho h k
    have ho' : a ∉ Dict.keys as ∧ Dict.Ok as := List.nodup_cons.1 ho
    simp only [getLoop] at h
    cases hg : Dict.get m a with
    | some v => rw [hg] at h; cases h
    | none =>
      rw [hg] at h
      have := ih ho'.2 h k
      simp only [Dict.get]
      by_cases hk : a = k
      · subst hk
        rw [if_pos rfl]
        simp only
        rw [(Dict.get_none as a).2 ho'.1] at this
        simp only at this
        exact ⟨hg, by rw [this, Dict.get_set, if_pos rfl]⟩
      · rw [if_neg hk]
        rw [Dict.get_set, if_neg hk] at this
        exact this

/-- **C96.** Whenever the messages of the chunks are joined without an error, then for every key, with `vs` the values
under that key in all messages in order: all of them are arrays, and the result is their concatenation; or none of them
is, and the result is their sum from the left; a key that does not occur is not in the result. -/
theorem joined_message {O : ValOps V} {ms : List (Option (Msg V))} {c : Container V} {r : Msg V}
    (h1 : foldMsg O ms {} = .ok c) (h2 : getMessage O c = .ok r) (k : Str) :
    let vs := valuesOf k (allEntries ms)
    (vs = [] ∧ Dict.get r k = none) ∨
      (vs ≠ [] ∧ (∀ v ∈ vs, O.isArr v = true) ∧ Dict.get r k = some (O.concat vs)) ∨
      (∃ v ws w, vs = v :: ws ∧ (∀ v ∈ vs, O.isArr v = false) ∧ sumFrom O v ws = some w ∧ Dict.get r k = some w) := by
  have H : Holds O (allEntries ms) c := by
    have h0 : Holds O [] ({} : Container V) := by
      refine ⟨List.nodup_nil, fun k => ?_, fun k => ?_⟩
      · simp [valuesOf, Dict.get]
      · simp [valuesOf, Dict.get]
    simpa using foldMsg_holds ms h0 h1
  have G := getLoop_spec c.arrays H.ok h2 k
  have Ha := H.arrays k
  have Ho := H.other k
  generalize valuesOf k (allEntries ms) = vs at *
  intro _
  by_cases hn : vs.filter O.isArr = []
  · rw [if_pos hn] at Ha
    rw [Ha] at G
    simp only at G
    have hall : ∀ v ∈ vs, O.isArr v = false := by
      intro v hv
      have := List.filter_eq_nil_iff.1 hn v hv
      simpa using this
    have hf : vs.filter (fun v => !O.isArr v) = vs := by
      rw [List.filter_eq_self]
      intro v hv
      simp [hall v hv]
    rw [hf] at Ho
    cases vs with
    | nil => exact .inl ⟨rfl, by rw [G]; exact Ho⟩
    | cons v ws =>
      obtain ⟨w, e1, e2⟩ := Ho
      exact .inr (.inr ⟨v, ws, w, rfl, hall, e1, by rw [G, e2]⟩)
  · rw [if_neg hn] at Ha
    rw [Ha] at G
    simp only at G
    have hno : vs.filter (fun v => !O.isArr v) = [] := by
      generalize hq : vs.filter (fun v => !O.isArr v) = q at Ho
      cases q with
      | nil => rfl
      | cons v ws =>
        obtain ⟨w, _, e2⟩ := Ho
        rw [G.1] at e2
        cases e2
    have hall : ∀ v ∈ vs, O.isArr v = true := by
      intro v hv
      have := List.filter_eq_nil_iff.1 hno v hv
      simpa using this
    have hf : vs.filter O.isArr = vs := List.filter_eq_self.2 hall
    rw [hf] at G hn
    exact .inr (.inl ⟨hn, hall, G.2⟩)

/-- **C96, violated** for repeated use: the joined message can be asked for only once, because the arrays are moved into
the same dictionary: asking again raises if there was an array. -/
theorem get_message_twice {O : ValOps V} {c : Container V} {m : Msg V} (hok : Dict.Ok c.arrays)
    (h : getMessage O c = .ok m) (ha : c.arrays ≠ []) : getMessage O { c with other := m } = .error .biflow := by
  obtain ⟨other, arrays⟩ := c
  cases arrays with
  | nil => exact absurd rfl ha
  | cons p as =>
    obtain ⟨k, vs⟩ := p
    have := getLoop_spec ((k, vs) :: as) hok h k
    simp only [Dict.get, if_true] at this
    simp only [getMessage, getLoop, this.2]

/-- Values: `other` are arrays. -/
def demoOps : ValOps Nat where
  isArr := fun v => match v with | .other _ => true | _ => false
  add := fun v w =>
    match v, w with
    | .int a, .int b => some (.int (a + b))
    | _, _ => none
  concat := fun vs => .int vs.length

/-- Non-vacuity of C96: a number and an array in two chunks. -/
example : ∃ c m, foldMsg demoOps [some [(['a'], .int 1), (['b'], .other 5)], none, some [(['b'], .other 6), (['a'], .int 2)]] {}
    = .ok c ∧ getMessage demoOps c = .ok m ∧ m = [(['a'], .int 3), (['b'], .int 2)] ∧ c.arrays ≠ [] :=
  ⟨_, _, rfl, rfl, rfl, by decide⟩

/-! ### A message that keeps a flow running -/

/-- A flow of one node: `echo`, with id "n". -/
def echoFlow : BFlow Unit Nat Unit where
  len := 1
  isBi := fun _ => true
  exec := fun _ s x m => ((execute echo x m.isSome { inner := (), cell := m.getD [] }).1, s)
  plain := fun _ s x => (.ok x, s)
  hasId := fun _ t => t = .str ['n']
  reset := fun s => s

/-- **C60**: a target given in a message without the address of a node is obeyed by every node and never removed. With
the message `{"target": "n"}` the flow of the single node "n" never returns, however many rounds it runs. -/
theorem plain_target_never_returns (n : Nat) :
    executeSeq echoFlow none n (.int 0) (some 5) (some [(kTarget, .str ['n'])]) () = none := by
  have key : ∀ n seen, runFuel (seqStep echoFlow none) n
      { i := .int 0, x := some 5, msg := some [(kTarget, .str ['n'])], s := (), seen := seen } = none := by
    intro n
    induction n with
    | zero => exact fun _ => rfl
    | succ n ih =>
      intro seen
      rw [runFuel]
      have : seqStep echoFlow none
          { i := .int 0, x := some 5, msg := some [(kTarget, .str ['n'])], s := (), seen := seen } =
          .inl { i := .int 0, x := some 5, msg := some [(kTarget, .str ['n'])], s := (), seen := seen ++ [0] } := rfl
      rw [this]
      exact ih _
  exact key n []

end Bi
