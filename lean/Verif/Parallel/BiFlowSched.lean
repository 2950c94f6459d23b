import Verif.Parallel.BiFlowTrain

/-!
# `ParallelBiFlow.train` with one scheduler per node, and `ParallelCheckpointBiFlow`

C203. The loop of `train` is modelled with the number of the node being trained (`_i_train_node`), which
`Verif.Parallel.BiFlow` leaves out.
-/

namespace Bi.Par

open Py Bi.FlowNode

variable {σ A V : Type} [DecidableEq V]

/-- parallelbiflow.py:290-359 `_next_train_phase` from node `i`: the next node whose phase goes to a scheduler, `none` when
everything is trained. The first number bounds the rounds of the loop. -/
def nextPhase (P : PFlow σ A V) (n : Nat) (data : Nat → List (Option A × Option (Msg V))) (stops : Nat → Option (Msg V)) :
    Nat → Nat → σ → Option (Except Err (Option Nat) × σ)
  | 0, _, _ => none
  | k + 1, i, s =>
    if P.len ≤ i then some (.ok none, s)
    else if P.trainable i = false ∨ P.remaining i s = 0 then nextPhase P n data stops k (i + 1) s
    else if (P.fork s).isSome then
      if (data i).isEmpty then some (.error .biflow, s) else some (.ok (some i), s)
    else
      match localPhase P n i (data i) (stops i) s with
      | none => none
      | some (.error e, s') => some (.error e, s')
      | some (.ok (), s') => nextPhase P n data stops k (if P.remaining i s' = 0 then i + 1 else i) s'

/-- The `scheduler` argument: a scheduler, or an iterable of schedulers of which some may be `None` (`false`). -/
inductive SchedArg where
  | one
  | many (l : List Bool)

/-- The current scheduler (`none`: it is `None`) and how many have been taken from the iterable. -/
structure Cur where
  cur : Bool := false
  drawn : Nat := 0

/-- `for _ in range(k): ... scheduler = next(schedulers)` (190-193, 226-229). `none` is the `StopIteration`. Shutting down
schedulers is left out. -/
def draws (l : List Bool) : Nat → Cur → Option Cur
  | 0, c => some c
  | k + 1, c =>
    match l[c.drawn]? with
    | none => none
    | some b => draws l k { cur := b, drawn := c.drawn + 1 }

/-- parallelbiflow.py:183-203: preparing the schedulers. `None > 0` (188) is a TypeError. -/
def prepareSched (arg : SchedArg) (i : Option Nat) : Except Err Cur :=
  match arg with
  | .one => .ok { cur := true }
  | .many l =>
    match draws l 1 {} with
    | none => .error .hook
    | some c =>
      match i with
      | none => .error .typeError
      | some i =>
        match draws l i c with
        | none => .error .hook
        | some c => .ok c

/-- parallelbiflow.py:223-230: the next scheduler, if there is one for each node. `None > last_trained_node` (224) is a
TypeError. -/
def switch (arg : SchedArg) (i : Option Nat) (last : Nat) (c : Cur) : Except Err (Cur × Nat) :=
  match arg with
  | .one => .ok (c, last)
  | .many l =>
    match i with
    | none => .error .typeError
    | some i =>
      if last < i then
        match draws l (i - last) c with
        | none => .error .hook
        | some c => .ok (c, i)
      else .ok (c, last)

/-- parallelbiflow.py:211-237: the loop `while self.is_parallel_training`. `K` and the last number bound the rounds. -/
def schedLoop (P : PFlow σ A V) (n : Nat) (arr : σ → List (Option A × Option (Msg V)) → List (Option A × Option (Msg V)))
    (data : Nat → List (Option A × Option (Msg V))) (stops : Nat → Option (Msg V)) (arg : SchedArg) (K : Nat) :
    Nat → Option Nat → Nat → Cur → σ → Option (Except Err Unit × σ)
  | 0, _, _, _, _ => none
  | _ + 1, none, _, _, s => some (.ok (), s)
  | k + 1, some i, last, c, s =>
    if c.cur = false then some (.error .attributeError, s)
    else
      match parPhase P n i (arr s) (data i) (stops i) s with
      | none => none
      | some (.error e, s') => some (.error e, s')
      | some (.ok (), s') =>
        match nextPhase P n data stops K (if P.remaining i s' = 0 then i + 1 else i) s' with
        | none => none
        | some (.error e, s'') => some (.error e, s'')
        | some (.ok i', s'') =>
          match switch arg i' last c with
          | .error e => some (.error e, s'')
          | .ok (c', last') => schedLoop P n arr data stops arg K k i' last' c' s''

/-- parallelbiflow.py:121-243 `train`, with a scheduler or an iterable of schedulers. `K` bounds the rounds of its loops. -/
def trainSched (P : PFlow σ A V) (n K : Nat) (arr : σ → List (Option A × Option (Msg V)) → List (Option A × Option (Msg V)))
    (data : Nat → List (Option A × Option (Msg V))) (stops : Nat → Option (Msg V)) (arg : SchedArg) (s : σ) :
    Option (Except Err Unit × σ) :=
  match nextPhase P n data stops K 0 (P.reset s) with
  | none => none
  | some (.error e, s') => some (.error e, s')
  | some (.ok i, s') =>
    match prepareSched arg i with
    | .error e => some (.error e, s')
    | .ok c => schedLoop P n arr data stops arg K K i (i.getD 0) c s'

/-- parallelbiflow.py:605-639 `ParallelCheckpointBiFlow.train`, with no checkpoint functions in the list of checkpoints.
`stop_messages` is not given on (620-626). Without a scheduler, line 167 calls `BiCheckpointFlow.train(data_iterables,
msg_iterables, stop_messages, checkpoints=checkpoints)`, which gives two values for `checkpoints` (biflow.py:580): a
TypeError. -/
def trainCheck (P : PFlow σ A V) (n K : Nat) (arr : σ → List (Option A × Option (Msg V)) → List (Option A × Option (Msg V)))
    (data : Nat → List (Option A × Option (Msg V))) (_stops : Nat → Option (Msg V)) (arg : Option SchedArg) (s : σ) :
    Option (Except Err Unit × σ) :=
  match arg with
  | none => some (.error .typeError, s)
  | some arg => trainSched P n K arr data (fun _ => none) arg s

/-! ### With one scheduler the loop trains node after node -/

/-- From node `i` and the state `s` the loop ends without an exception in `s'`. -/
def Go (P : PFlow σ A V) (n : Nat) (arr : σ → List (Option A × Option (Msg V)) → List (Option A × Option (Msg V)))
    (data : Nat → List (Option A × Option (Msg V))) (stops : Nat → Option (Msg V)) (i : Nat) (s s' : σ) : Prop :=
  ∃ k, ∀ K, k ≤ K → ∃ o s2, nextPhase P n data stops K i s = some (.ok o, s2) ∧
    ∀ M, k ≤ M → ∀ last c, c.cur = true → schedLoop P n arr data stops .one K M o last c s2 = some (.ok (), s')

section
variable {P : PFlow σ A V} {n : Nat} {arr : σ → List (Option A × Option (Msg V)) → List (Option A × Option (Msg V))}
  {data : Nat → List (Option A × Option (Msg V))} {stops : Nat → Option (Msg V)}

theorem nextPhase_mono : ∀ (k i : Nat) (s : σ) r, nextPhase P n data stops k i s = some r →
    nextPhase P n data stops (k + 1) i s = some r := by
  intro k
  induction k with
  | zero => intro i s r h; cases h
  | succ k ih =>
    intro i s r h
    rw [nextPhase] at h ⊢
    split
    · rename_i hl; rw [if_pos hl] at h; exact h
    · rename_i hl
      rw [if_neg hl] at h
      split
      · rename_i ht; rw [if_pos ht] at h; exact ih _ _ _ h
      · rename_i ht
        rw [if_neg ht] at h
        split
        · rename_i hf; rw [if_pos hf] at h; exact h
        · rename_i hf
          rw [if_neg hf] at h
          cases hl : localPhase P n i (data i) (stops i) s with
          | none => rw [hl] at h; cases h
          | some q =>
            obtain ⟨q, u⟩ := q
            rw [hl] at h
            cases q with
            | error e => exact h
            | ok _ => exact ih _ _ _ h

theorem go_end {i : Nat} (h : P.len ≤ i) (s : σ) : Go P n arr data stops i s s := by
  refine ⟨1, fun K hK => ⟨none, s, ?_, ?_⟩⟩
  · obtain ⟨K, rfl⟩ : ∃ k, K = k + 1 := ⟨K - 1, by omega⟩
    simp only [nextPhase]
    rw [if_pos h]
  · intro M hM last c hc
    obtain ⟨M, rfl⟩ : ∃ k, M = k + 1 := ⟨M - 1, by omega⟩
    rfl

theorem go_skip {i : Nat} {s s' : σ} (hi : i < P.len) (h : P.trainable i = false ∨ P.remaining i s = 0)
    (hg : Go P n arr data stops (i + 1) s s') : Go P n arr data stops i s s' := by
  obtain ⟨k, hg⟩ := hg
  refine ⟨k + 1, fun K hK => ?_⟩
  obtain ⟨K, rfl⟩ : ∃ k, K = k + 1 := ⟨K - 1, by omega⟩
  obtain ⟨o, s2, h1, h2⟩ := hg K (by omega)
  obtain ⟨o', s2', h1', h2'⟩ := hg (K + 1) (by omega)
  have heq := nextPhase_mono _ _ _ _ h1
  rw [h1'] at heq
  cases heq
  refine ⟨o, s2, ?_, fun M hM => h2' M (by omega)⟩
  rw [nextPhase, if_neg (by omega), if_pos h]
  exact h1

theorem go_phase {i : Nat} {s s1 s' : σ} (hi : i < P.len) (ht : P.trainable i = true) (hr : P.remaining i s ≠ 0)
    (hp : (if (P.fork s).isSome then parPhase P n i (arr s) (data i) (stops i) s
      else localPhase P n i (data i) (stops i) s) = some (.ok (), s1))
    (hg : Go P n arr data stops (if P.remaining i s1 = 0 then i + 1 else i) s1 s') : Go P n arr data stops i s s' := by
  obtain ⟨k, hg⟩ := hg
  refine ⟨k + 1, fun K hK => ?_⟩
  obtain ⟨K, rfl⟩ : ∃ k, K = k + 1 := ⟨K - 1, by omega⟩
  have hnot : ¬(P.trainable i = false ∨ P.remaining i s = 0) := by
    rintro (h | h)
    · rw [ht] at h; cases h
    · exact hr h
  by_cases hf : (P.fork s).isSome = true
  · rw [if_pos hf] at hp
    have hne : (data i).isEmpty = false := by
      unfold parPhase at hp
      by_contra h
      rw [if_pos (by simpa using h)] at hp
      cases hp
    refine ⟨some i, s, ?_, ?_⟩
    · rw [nextPhase, if_neg (by omega), if_neg hnot, if_pos hf, if_neg (by simp [hne])]
    · intro M hM last c hc
      obtain ⟨M, rfl⟩ : ∃ k, M = k + 1 := ⟨M - 1, by omega⟩
      obtain ⟨o, s2, h1, h2⟩ := hg (K + 1) (by omega)
      rw [schedLoop, if_neg (by simp [hc]), hp]
      simp only [h1, switch]
      exact h2 M (by omega) last c hc
  · rw [if_neg hf] at hp
    obtain ⟨o, s2, h1, h2⟩ := hg K (by omega)
    obtain ⟨o', s2', h1', h2'⟩ := hg (K + 1) (by omega)
    have heq := nextPhase_mono _ _ _ _ h1
    rw [h1'] at heq
    cases heq
    refine ⟨o, s2, ?_, fun M hM => h2' M (by omega)⟩
    rw [nextPhase, if_neg (by omega), if_neg hnot, if_neg hf, hp]
    exact h1

theorem go_phases {i : Nat} (hi : i < P.len) (ht : P.trainable i = true) {s1 s' : σ}
    (hg : Go P n arr data stops (i + 1) s1 s') :
    ∀ (j : Nat) (s : σ), Par.phases P n i arr (data i) (stops i) j s = some (.ok (), s1) → Go P n arr data stops i s s' := by
  intro j
  induction j with
  | zero => intro s h; cases h
  | succ j ih =>
    intro s h
    simp only [Par.phases] at h
    by_cases hr : P.remaining i s = 0
    · rw [if_pos hr] at h
      cases h
      exact go_skip hi (.inr hr) hg
    · rw [if_neg hr] at h
      cases hp : (if (P.fork s).isSome then parPhase P n i (arr s) (data i) (stops i) s
          else localPhase P n i (data i) (stops i) s) with
      | none => rw [hp] at h; cases h
      | some q =>
        obtain ⟨q, s2⟩ := q
        rw [hp] at h
        cases q with
        | error e => cases h
        | ok _ =>
          simp only at h
          refine go_phase hi ht hr hp ?_
          by_cases hr2 : P.remaining i s2 = 0
          · rw [if_pos hr2]
            cases j with
            | zero => cases h
            | succ j =>
              simp only [Par.phases] at h
              rw [if_pos hr2] at h
              cases h
              exact hg
          · rw [if_neg hr2]
            exact ih s2 h

theorem go_nodes : ∀ (k i : Nat) {s s' : σ}, i + k = P.len →
    Par.nodes P n arr data stops i k s = some (.ok (), s') → Go P n arr data stops i s s' := by
  intro k
  induction k with
  | zero => intro i s s' hi h; cases h; exact go_end (by omega) s
  | succ k ih =>
    intro i s s' hi h
    simp only [Par.nodes] at h
    by_cases ht : P.trainable i = true
    · rw [if_pos ht] at h
      cases h1 : Par.phases P n i arr (data i) (stops i) n s with
      | none => rw [h1] at h; cases h
      | some q =>
        obtain ⟨q, s1⟩ := q
        rw [h1] at h
        cases q with
        | error e => cases h
        | ok _ => exact go_phases (by omega) ht (ih (i + 1) (by omega) h) n s h1
    · rw [if_neg ht] at h
      exact go_skip (by omega) (.inl (by simpa using ht)) (ih (i + 1) (by omega) h)

end

/-! ### C203 -/

/-- **C203, with one scheduler.** If `BiFlow.train` succeeds, the loop of `ParallelBiFlow.train` ends without an exception and
leaves flows that compute the same, under the conditions of C202. -/
theorem one_scheduler_partial {P : PFlow σ A V} {E : σ → σ → Prop} (hR : RespectsTrain P E)
    (hg : GoodId P.nodeId) (hp : Passes P) {n : Nat}
    (hJ : ∀ nr, nr < P.len → P.trainable nr = true → ForkJoin P E n nr)
    {data : Nat → List (Option A × Option (Msg V))}
    (hk : ∀ i, ∀ k ∈ data i, ForFlow P k.2 ∧ (k.1 ≠ none ∨ k.2 ≠ none)) {stops : Nat → Option (Msg V)}
    (hm : ∀ i, ForFlow P (stops i) ∧ stops i ≠ some []) (hq : ∀ i, P.trainable i = true → Quiet P i (stops i))
    {arr : σ → List (Option A × Option (Msg V)) → List (Option A × Option (Msg V))} (harr : ∀ s l, (arr s l).Perm l)
    {s s' : σ} (h : trainFlow P.toTFlow n data stops s = some (.ok (), s')) :
    ∃ k t', (∀ K, k ≤ K → trainSched P n K arr data stops .one s = some (.ok (), t')) ∧ E s' t' := by
  obtain ⟨t', h1, h2⟩ := parallel_biflow_train_partial hR hg hp hJ hk hm hq harr h
  obtain ⟨k, hgo⟩ := go_nodes P.len 0 (by omega) h1
  refine ⟨k, t', fun K hK => ?_, h2⟩
  obtain ⟨o, s2, h3, h4⟩ := hgo K hK
  unfold trainSched
  rw [h3]
  simp only [prepareSched]
  exact h4 K hK _ _ rfl

/-- **C203, violated.** With an iterable of schedulers `ParallelBiFlow.train` never returns, whatever the flow, the data and
the schedulers are: once all nodes are trained it raises an exception. -/
theorem schedulers_per_node_false (P : PFlow σ A V) (n K : Nat)
    (arr : σ → List (Option A × Option (Msg V)) → List (Option A × Option (Msg V)))
    (data : Nat → List (Option A × Option (Msg V))) (stops : Nat → Option (Msg V)) (l : List Bool) (s s' : σ) :
    trainSched P n K arr data stops (.many l) s ≠ some (.ok (), s') := by
  have key : ∀ (k i last : Nat) (c : Cur) (s : σ),
      schedLoop P n arr data stops (.many l) K k (some i) last c s ≠ some (.ok (), s') := by
    intro k
    induction k with
    | zero => intro i last c s h; cases h
    | succ k ih =>
      intro i last c s h
      simp only [schedLoop] at h
      split at h
      · cases h
      · split at h
        · cases h
        · cases h
        · split at h
          · cases h
          · cases h
          · rename_i i' s'' _
            cases i' with
            | none => simp only [switch] at h; cases h
            | some i' =>
              split at h
              · cases h
              · exact ih _ _ _ _ h
  intro h
  unfold trainSched at h
  split at h
  · cases h
  · cases h
  · rename_i i s1 _
    cases i with
    | none =>
      simp only [prepareSched] at h
      split at h
      · cases h
      · rename_i hc
        split at hc
        · cases hc
        · cases hc
    | some i =>
      split at h
      · cases h
      · exact key _ _ _ _ _ h

/-- The same training with one scheduler succeeds, and with one scheduler for each node the exception comes when the nodes
have been trained. -/
theorem schedulers_per_node_trained :
    trainSched gather 9 9 (fun _ => List.reverse) (fun _ => [(some 1, none), (some 2, none), (some 3, none)])
      (fun _ => none) .one (0, 2) = some (.ok (), (18, 0)) ∧
    trainSched gather 9 9 (fun _ => List.reverse) (fun _ => [(some 1, none), (some 2, none), (some 3, none)])
      (fun _ => none) (.many [true, true]) (0, 2) = some (.error .typeError, (18, 0)) ∧
    trainSched gather 9 9 (fun _ => List.reverse) (fun _ => [(some 1, none), (some 2, none), (some 3, none)])
      (fun _ => none) (.many [true, true]) (0, 0) = some (.error .typeError, (0, 0)) := ⟨rfl, rfl, rfl⟩

/-- A flow whose second node stores the value of "a" in the message of `stop_training`. -/
def keeper : PFlow (Nat × Nat) Nat Nat :=
  { gather with
    stop := fun _ s m =>
      (.ok (.single none), (match m.bind fun d => Dict.get d ['a'] with | some (.other v) => v | _ => s.1, s.2 - 1)) }

/-- **C204, violated.** The messages given for `stop_training` reach the nodes in `BiCheckpointFlow.train` and in
`ParallelBiFlow.train`, but not in `ParallelCheckpointBiFlow.train`. -/
theorem checkpoint_stop_messages_false :
    trainFlow keeper.toTFlow 9 (fun _ => [(some 1, none)]) (fun _ => some [(['a'], .other 5)]) (0, 1) =
      some (.ok (), (5, 0)) ∧
    trainSched keeper 9 9 (fun _ => id) (fun _ => [(some 1, none)]) (fun _ => some [(['a'], .other 5)]) .one (0, 1) =
      some (.ok (), (5, 0)) ∧
    trainCheck keeper 9 9 (fun _ => id) (fun _ => [(some 1, none)]) (fun _ => some [(['a'], .other 5)]) (some .one) (0, 1) =
      some (.ok (), (2, 0)) := ⟨rfl, rfl, rfl⟩

/-- **C204, violated.** Without a scheduler `ParallelCheckpointBiFlow.train` always raises a TypeError. -/
theorem checkpoint_no_scheduler_false (P : PFlow σ A V) (n K : Nat)
    (arr : σ → List (Option A × Option (Msg V)) → List (Option A × Option (Msg V)))
    (data : Nat → List (Option A × Option (Msg V))) (stops : Nat → Option (Msg V)) (s : σ) :
    trainCheck P n K arr data stops none s = some (.error .typeError, s) := rfl

theorem draws_eq (l : List Bool) : ∀ (k m : Nat) (x b : Bool), l[m + k]? = some b →
    draws l (k + 1) ⟨x, m⟩ = some ⟨b, m + k + 1⟩ := by
  intro k
  induction k with
  | zero => intro m x b h; rw [Nat.add_zero] at h; simp only [draws, h, Nat.add_zero]
  | succ k ih =>
    intro m x b h
    have h1 : m < l.length := by
      obtain ⟨h2, _⟩ := List.getElem?_eq_some_iff.1 h; omega
    rw [draws, List.getElem?_eq_getElem h1]
    simp only
    rw [ih (m + 1) l[m] b (by rw [← h]; congr 1; omega)]
    congr 2; omega

theorem draws_none (l : List Bool) : ∀ (k m : Nat) (x : Bool), l[m + k]? = none → draws l (k + 1) ⟨x, m⟩ = none := by
  intro k
  induction k with
  | zero => intro m x h; rw [Nat.add_zero] at h; simp only [draws, h]
  | succ k ih =>
    intro m x h
    rw [draws]
    split
    · rfl
    · exact ih (m + 1) _ (by rw [← h]; congr 1; omega)

/-- **C203: with an iterable of schedulers node `i` gets the scheduler at position `i`**, both at the start, whatever nodes are
trained already, and when the training goes on from node `last` to a later node. If the iterable ends before, training fails. -/
theorem scheduler_of_node (l : List Bool) (i : Nat) :
    (∀ b, l[i]? = some b → ∃ c, prepareSched (.many l) (some i) = .ok c ∧ c.cur = b ∧ c.drawn = i + 1) ∧
    (l[i]? = none → ∃ e, prepareSched (.many l) (some i) = .error e) ∧
    ∀ (last : Nat) (c : Cur), c.drawn = last + 1 → last < i →
      (∀ b, l[i]? = some b → ∃ c', switch (.many l) (some i) last c = .ok (c', i) ∧ c'.cur = b ∧ c'.drawn = i + 1) ∧
      (l[i]? = none → ∃ e, switch (.many l) (some i) last c = .error e) := by
  refine ⟨fun b hb => ?_, fun hn => ?_, fun last c hc hl => ⟨fun b hb => ?_, fun hn => ?_⟩⟩
  · have h0 : 0 < l.length := by obtain ⟨h, _⟩ := List.getElem?_eq_some_iff.1 hb; omega
    have h1 : draws l 1 {} = some ⟨l[0], 1⟩ := draws_eq l 0 0 false l[0] (by simp [h0])
    cases i with
    | zero =>
      refine ⟨⟨l[0], 1⟩, by simp only [prepareSched, h1]; rfl, ?_, rfl⟩
      rw [List.getElem?_eq_getElem h0] at hb
      injection hb
    | succ i =>
      have h2 := draws_eq l i 1 l[0] b (by rw [← hb]; congr 1; omega)
      exact ⟨⟨b, 1 + i + 1⟩, by simp only [prepareSched, h1, h2], rfl, by simp only; omega⟩
  · simp only [prepareSched]
    by_cases h0 : 0 < l.length
    · have h1 : draws l 1 {} = some ⟨l[0], 1⟩ := draws_eq l 0 0 false l[0] (by simp [h0])
      rw [h1]
      simp only
      cases i with
      | zero => rw [List.getElem?_eq_getElem h0] at hn; cases hn
      | succ i =>
        rw [draws_none l i 1 l[0] (by rw [← hn]; congr 1; omega)]
        exact ⟨_, rfl⟩
    · have h1 : draws l 1 {} = none := draws_none l 0 0 false (List.getElem?_eq_none (by omega))
      rw [h1]
      exact ⟨_, rfl⟩
  · obtain ⟨k, rfl⟩ : ∃ k, i = last + (k + 1) := ⟨i - last - 1, by omega⟩
    obtain ⟨x, m⟩ := c
    subst hc
    have h2 := draws_eq l k (last + 1) x b (by rw [← hb]; congr 1; omega)
    exact ⟨⟨b, last + 1 + k + 1⟩, by simp only [switch, if_pos hl, Nat.add_sub_cancel_left, h2], rfl, by simp only; omega⟩
  · obtain ⟨k, rfl⟩ : ∃ k, i = last + (k + 1) := ⟨i - last - 1, by omega⟩
    obtain ⟨x, m⟩ := c
    subst hc
    have h2 := draws_none l k (last + 1) x (by rw [← hn]; congr 1; omega)
    exact ⟨.hook, by simp only [switch, if_pos hl, Nat.add_sub_cancel_left, h2]⟩

example : ∃ c, prepareSched (.many [false, true, true]) (some 1) = .ok c ∧ c.cur = true ∧ c.drawn = 2 :=
  ⟨_, rfl, rfl, rfl⟩

end Bi.Par
