import Verif.Online.FlowProps

/-!
# Incremental training does not depend on how the samples are cut into chunks (C153)

Model: `otrain` (Online/Node.lean). The classes considered leave `_check_train_args` alone and have a `_check_params`
(mdp/signal_node_online.py:234-236) that initialises the node at the first call and does nothing after that.
-/

namespace Mdp.Online

open Py Mdp.Node

variable {σ α β : Type}

/-! ### Specification -/

/-- `_check_params` initialises once: `P` says that the private data are initialised. What the first call does depends
on the array only through its number of columns and its dtype; later calls do nothing; training keeps `P`. -/
structure Settles (K : OKind σ α β) (P : σ → Prop) : Prop where
  shape : ∀ st (x x' : Arr α), x.ndim = x'.ndim → x.cols = x'.cols → x.dtype = x'.dtype →
    K.checkParams st x = K.checkParams st x'
  first : ∀ st x, (K.checkParams st x).res = .ok () → P (K.checkParams st x).st
  again : ∀ st x, P st → K.checkParams st x = ⟨st, [], .ok ()⟩
  train : ∀ p st x a, P st → P (K.trainHook p st x a).st
  pass : ∀ p f st x a, K.phaseExec p = some f → P st → P (f st x a).st

/-- `node.train(c)` for every chunk `c`, the rows of all of them having the same length and dtype. -/
def trainChunks (K : OKind σ α β) (cols : Nat) (dt : DType) (args : List β) :
    List (List (List α)) → OM σ α β Unit
  | [] => pure ()
  | c :: r => do otrain K ⟨2, cols, dt, c⟩ args; trainChunks K cols dt args r

/-! ### Lemmas -/

/-- Rows behind rows. -/
theorem runRows_append (K : OKind σ α β) (args : List β) (x : Arr α) (l l' : List (List α)) (s : OSt σ α β) :
    runRows K args x (l ++ l') s = (runRows K args x l >>= fun _ => runRows K args x l') s := by
  induction l generalizing s with
  | nil => rfl
  | cons q r ih =>
    rw [List.cons_append, runRows, runRows]
    simp only [M.bind_def]
    split
    · next u s1 h1 =>
      simp only [M.modify_def]
      rw [ih]
      simp only [M.bind_def]
    · rfl

/-- Only the shape of the array matters, the rows are given separately. -/
theorem runRows_data (K : OKind σ α β) (args : List β) (x : Arr α) (d l : List (List α)) :
    runRows K args { x with data := d } l = runRows K args x l := by
  induction l with
  | nil => rfl
  | cons q r ih => rw [runRows, runRows, ih]

/-- The node is open, initialised and incremental. -/
def Ready (P : σ → Prop) (cols : Nat) (t : DType) (s : OSt σ α β) : Prop :=
  s.node.training = true ∧ s.node.started = true ∧ s.node.inputDim = some cols ∧ s.node.dtype = some t ∧
    s.ttype = some .incremental ∧ P s.node.st

theorem runSets_st (K : Kind σ α β) (l : List SetReq) (s : St σ α β) : (runSets K l s).2.st = s.st := by
  have hR : M.Pre (fun s t : St σ α β => t.st = s.st) := ⟨fun _ => rfl, fun h h' => h'.trans h⟩
  have h1 : ∀ n, M.Moves (fun s t : St σ α β => t.st = s.st) (setInputDim K n) := by
    intro n s; unfold setInputDim setInputDimRaw; repeat' split
    all_goals rfl
  have h2 : ∀ n, M.Moves (fun s t : St σ α β => t.st = s.st) (setOutputDim K n) := by
    intro n s; unfold setOutputDim setOutputDimRaw; repeat' split
    all_goals rfl
  have h3 : ∀ n, M.Moves (fun s t : St σ α β => t.st = s.st) (setDtype K n) := by
    intro n s; unfold setDtype; repeat' split
    all_goals rfl
  suffices h : M.Moves (fun s t : St σ α β => t.st = s.st) (runSets K l) from h s
  induction l with
  | nil => exact .pure hR _
  | cons r l ih =>
    cases r with
    | inp n => exact .bind hR (h1 _) fun _ => ih
    | out n => exact .bind hR (h2 _) fun _ => ih
    | dtype n => exact .bind hR (h3 _) fun _ => ih

theorem runHook_st {r : Type} (K : Kind σ α β) (h : Hooked σ r) (s : St σ α β) : (runHook K h s).2.st = h.st := by
  unfold runHook
  simp only [M.bind_def, M.modify_def]
  have := runSets_st K h.sets { s with st := h.st }
  split
  · next a s' he => rw [he] at this; exact this
  · next e s' he => rw [he] at this; exact this

theorem ready_hook {r : Type} {P : σ → Prop} {cols : Nat} {t : DType} (K : Kind σ α β) (h : Hooked σ r)
    (s : OSt σ α β) (hs : Ready P cols t s) (hp : P h.st) : Ready P cols t (onNode (runHook K h) s).2 := by
  have h1 := runHook_soft K h s.node
  have h2 := runHook_st K h s.node
  obtain ⟨a, b, c, d, e, f⟩ := hs
  refine ⟨h1.training.trans a, h1.started.trans b, ?_, ?_, e, ?_⟩
  · rcases h1.inp with h | h
    · rw [c] at h; cases h
    · exact h.trans c
  · rcases h1.dt with h | h
    · rw [d] at h; cases h
    · exact h.trans d
  · show P (runHook K h s.node).2.st
    rw [h2]; exact hp

theorem runPhases_ready {K : OKind σ α β} {P : σ → Prop} (hK : Settles K P) {cols : Nat} {t : DType} (args : List β)
    (l : List Nat) (x : Arr α) (s : OSt σ α β) (hs : Ready P cols t s) :
    Ready P cols t (runPhases K args l x s).2 := by
  induction l generalizing x s with
  | nil => exact hs
  | cons q r ih =>
    rw [runPhases]
    simp only [M.bind_def, M.get_def]
    have h1 := ready_hook K.toKind (K.trainHook q s.node.st x args) s hs (hK.train q _ x args hs.2.2.2.2.2)
    simp only [olog]
    generalize onNode (runHook K.toKind (K.trainHook q s.node.st x args)) s = z at h1
    obtain ⟨_ | u, s1⟩ := z
    · exact h1
    · simp only
      cases hq : K.phaseExec q with
      | none => exact ih x _ h1
      | some f =>
        simp only [M.bind_def, M.get_def, olog]
        have h2 := ready_hook K.toKind (f s1.node.st x args)
          { s1 with trace := s1.trace ++ [.train q x args (isOk (.ok u : Except Err Unit))] } h1
          (hK.pass q f _ x args hq h1.2.2.2.2.2)
        generalize onNode (runHook K.toKind (f s1.node.st x args))
          { s1 with trace := s1.trace ++ [.train q x args (isOk (.ok u : Except Err Unit))] } = z at h2
        obtain ⟨_ | y, s2⟩ := z
        · exact h2
        · exact ih y _ h2

theorem runRows_ready {K : OKind σ α β} {P : σ → Prop} (hK : Settles K P) {cols : Nat} {t : DType} (args : List β)
    (x : Arr α) (l : List (List α)) (s : OSt σ α β) (hs : Ready P cols t s) :
    Ready P cols t (runRows K args x l s).2 := by
  induction l generalizing s with
  | nil => exact hs
  | cons q r ih =>
    rw [runRows]
    simp only [M.bind_def]
    have h1 := runPhases_ready hK args (List.range K.nPhases) { x with data := [q] } s hs
    generalize runPhases K args (List.range K.nPhases) { x with data := [q] } s = z at h1
    obtain ⟨_ | u, s1⟩ := z
    · exact h1
    · exact ih _ h1

/-- The check looks at the shape only. -/
theorem ocheckInput_shape (K : OKind σ α β) (cols : Nat) (dt : DType) (l l' : List (List α)) (hl : l ≠ [])
    (hl' : l' ≠ []) : ocheckInput K ⟨2, cols, dt, l⟩ = ocheckInput K ⟨2, cols, dt, l'⟩ := by
  have h : checkInput K.toKind ⟨2, cols, dt, l⟩ = checkInput K.toKind ⟨2, cols, dt, l'⟩ := by
    unfold checkInput Arr.nrows
    have a : ¬ l.length = 0 := by simpa using hl
    have b : ¬ l'.length = 0 := by simpa using hl'
    simp only [a, b, if_false]
  unfold ocheckInput
  rw [h]

/-- The part of `train` behind the first two tests. -/
def otail (K : OKind σ α β) (x : Arr α) (args : List β) : OM σ α β Unit := do
  ocheckInput K x
  let s ← M.get
  M.lift (K.checkTrainArgs s.node.st x args)
  onNode (runHook K.toKind (K.checkParams s.node.st x))
  M.modify (fun s => { s with node := { s.node with started := true } })
  let s ← M.get
  let x' := refcast s.node.dtype x
  if s.ttype = some .incremental then runRows K args x' x'.data
  else do
    runPhases K args (List.range K.nPhases) x'
    M.modify (fun s => { s with iter := s.iter + x'.nrows })

theorem otrain_eq (K : OKind σ α β) (x : Arr α) (args : List β) (s : OSt σ α β) :
    otrain K x args s = if K.trainable = false then (.error .notTrainable, s)
      else if s.node.training = false then (.error .finished, s) else otail K x args s := by
  unfold otrain
  by_cases h : K.trainable = false
  · rw [if_pos h, if_pos h]; rfl
  · rw [if_neg h, if_neg h, M.bind_def, M.get_def]
    dsimp only
    by_cases h' : s.node.training = false
    · rw [if_pos h', if_pos h']; rfl
    · rw [if_neg h', if_neg h']; rfl

theorem otail_step (K : OKind σ α β) (x : Arr α) (args : List β) (s s1 s2 : OSt σ α β)
    (h1 : ocheckInput K x s = (.ok (), s1)) (h2 : K.checkTrainArgs s1.node.st x args = .ok ())
    (h3 : onNode (runHook K.toKind (K.checkParams s1.node.st x)) s1 = (.ok (), s2)) (hi : s2.ttype = some .incremental) :
    otail K x args s = runRows K args (refcast s2.node.dtype x) x.data
      { s2 with node := { s2.node with started := true } } := by
  unfold otail
  rw [M.bind_ok h1, M.bind_ok (M.get_def s1), M.bind_ok (a := ()) (s' := s1) (by rw [M.lift_def, h2]), M.bind_ok h3,
    M.bind_ok (M.modify_def _ _), M.bind_ok (M.get_def _)]
  dsimp only
  rw [if_pos hi]
  rfl

/-- Training a ready node: just the rows. -/
theorem otrain_ready {K : OKind σ α β} {P : σ → Prop} (hK : Settles K P) (hT : K.trainable = true)
    (hA : ∀ st x a, K.checkTrainArgs st x a = .ok ()) {cols : Nat} {t : DType} (dt : DType) (args : List β)
    (l : List (List α)) (hl : l ≠ []) (s : OSt σ α β) (hs : Ready P cols t s) :
    otrain K ⟨2, cols, dt, l⟩ args s = runRows K args ⟨2, cols, t, []⟩ l s := by
  obtain ⟨a, b, c, d, e, f⟩ := hs
  have h1 : checkInput K.toKind ⟨2, cols, dt, l⟩ s.node = (.ok (), s.node) := by
    unfold checkInput
    have a : ¬ l.length = 0 := by simpa using hl
    simp [M.bind_def, c, d, M.when, Arr.nrows, a, hl]
  have h2 : ocheckInput K ⟨2, cols, dt, l⟩ s = (.ok (), s) := by
    unfold ocheckInput
    have h0 : onNode (checkInput K.toKind ⟨2, cols, dt, l⟩) s = (.ok (), s) := by unfold onNode; rw [h1]
    rw [M.bind_ok h0, M.bind_ok (M.get_def s), when_false (by rw [e]; simp)]
    rfl
  have h3 : onNode (runHook K.toKind (K.checkParams s.node.st ⟨2, cols, dt, l⟩)) s = (.ok (), s) := by
    rw [hK.again _ _ f]; rfl
  have h4 : ({ s with node := { s.node with started := true } } : OSt σ α β) = s := by
    cases s with | mk n i tt tr => cases n; cases b; rfl
  rw [otrain_eq, if_neg (by rw [hT]; decide), if_neg (by rw [a]; decide), otail_step K _ args s s s h2 (hA _ _ _) h3 e,
    h4, d]
  exact congrFun (runRows_data K args ⟨2, cols, t, []⟩ l l) s

/-- The first call: either it is refused before any sample, whatever the samples, or it trains the rows and leaves a
ready node. -/
theorem otrain_first {K : OKind σ α β} {P : σ → Prop} (hK : Settles K P)
    (hA : ∀ st x a, K.checkTrainArgs st x a = .ok ()) (cols : Nat) (dt : DType) (args : List β)
    (s : OSt σ α β) (hs : s.ttype.or K.types.head? ≠ some .batch) :
    (∃ e s', ∀ l : List (List α), l ≠ [] → otrain K ⟨2, cols, dt, l⟩ args s = (.error e, s')) ∨
    ∃ t s', K.trainable = true ∧ Ready P cols t s' ∧
      ∀ l : List (List α), l ≠ [] → otrain K ⟨2, cols, dt, l⟩ args s = runRows K args ⟨2, cols, t, []⟩ l s' := by
  by_cases hT : K.trainable = false
  · exact .inl ⟨_, s, fun l _ => by rw [otrain_eq, if_pos hT]⟩
  by_cases ho : s.node.training = false
  · exact .inl ⟨_, s, fun l _ => by rw [otrain_eq, if_neg hT, if_pos ho]⟩
  have hot : ∀ x, otrain K x args s = otail K x args s := fun x => by rw [otrain_eq, if_neg hT, if_neg ho]
  simp only [hot]
  by_cases hne : ∃ l0 : List (List α), l0 ≠ []
  swap
  · exact .inl ⟨.node, s, fun l hl => absurd ⟨l, hl⟩ hne⟩
  obtain ⟨l0, hl0⟩ := hne
  have hci := fun l hl => ocheckInput_shape K cols dt l l0 hl hl0
  have hok := ocheckInput_ok K ⟨2, cols, dt, l0⟩ s
  have hko := ocheckInput_keepOpen K ⟨2, cols, dt, l0⟩ s
  cases hc : ocheckInput K ⟨2, cols, dt, l0⟩ s with | mk r1 s1 => ?_
  rw [hc] at hko hok
  cases r1 with
  | error e =>
    refine .inl ⟨e, s1, fun l hl => ?_⟩
    unfold otail
    exact M.bind_error (by rw [hci l hl, hc])
  | ok u1 =>
    obtain ⟨⟨w1, w2, w3, w4⟩, tt, ht1, ht2⟩ := hok s1 rfl
    have htt : s1.ttype = some .incremental := by
      cases tt with
      | incremental => exact ht1
      | batch => exact absurd ht2 hs
    have hsh := fun l => hK.shape s1.node.st (⟨2, cols, dt, l⟩ : Arr α) ⟨2, cols, dt, l0⟩ rfl rfl rfl
    have hsoft := runHook_soft K.toKind (K.checkParams s1.node.st ⟨2, cols, dt, l0⟩) s1.node
    have hst := runHook_st K.toKind (K.checkParams s1.node.st ⟨2, cols, dt, l0⟩) s1.node
    have hres : ∀ s2 u, runHook K.toKind (K.checkParams s1.node.st ⟨2, cols, dt, l0⟩) s1.node = (.ok u, s2) →
        (K.checkParams s1.node.st ⟨2, cols, dt, l0⟩).res = .ok () := by
      intro s2 u h
      unfold runHook at h
      obtain ⟨_, s3, _, h⟩ := M.bind_eq_ok h
      obtain ⟨_, s4, _, h⟩ := M.bind_eq_ok h
      exact (Prod.mk.inj h).1
    cases hh : runHook K.toKind (K.checkParams s1.node.st ⟨2, cols, dt, l0⟩) s1.node with | mk r2 s2 => ?_
    rw [hh] at hsoft hst
    cases r2 with
    | error e =>
      refine .inl ⟨e, { s1 with node := s2 }, fun l hl => ?_⟩
      unfold otail
      rw [M.bind_ok (by rw [hci l hl, hc]), M.bind_ok (M.get_def _), M.bind_ok (a := ()) (s' := s1) (by rw [M.lift_def, hA])]
      exact M.bind_error (by unfold onNode; rw [hsh l, hh])
    | ok u2 =>
      have hp := hK.first _ _ (hres s2 u2 hh)
      rw [← hst] at hp
      have hdt : ∃ t, s2.dtype = some t := by
        rcases hsoft.dt with h | h
        · exact absurd h w4
        · cases hd : s1.node.dtype with
          | none => exact absurd hd w4
          | some t => exact ⟨t, h.trans hd⟩
      have hin : s2.inputDim = some cols := by
        rcases hsoft.inp with h | h
        · rw [h] at w3; cases w3
        · exact h.trans w3
      obtain ⟨t, hdt⟩ := hdt
      refine .inr ⟨t, { s1 with node := { s2 with started := true } }, by simpa using hT, ⟨?_, rfl, hin, hdt, htt, hp⟩, fun l hl => ?_⟩
      · show s2.training = true
        rw [hsoft.training, hko.1]
        cases h : s.node.training with
        | false => exact absurd h ho
        | true => rfl
      · rw [otail_step K _ args s s1 { s1 with node := s2 } (by rw [hci l hl, hc]) (hA _ _ _)
          (by unfold onNode; rw [hsh l, hh]) htt]
        dsimp only
        rw [hdt]
        exact congrFun (runRows_data K args ⟨2, cols, t, []⟩ l l) _

/-! ### Property -/

theorem trainChunks_ready {K : OKind σ α β} {P : σ → Prop} (hK : Settles K P) (hT : K.trainable = true)
    (hA : ∀ st x a, K.checkTrainArgs st x a = .ok ()) {cols : Nat} {t : DType} (dt : DType) (args : List β)
    (cs : List (List (List α))) (hne : ∀ c ∈ cs, c ≠ []) (s : OSt σ α β) (hs : Ready P cols t s) :
    trainChunks K cols dt args cs s = runRows K args ⟨2, cols, t, []⟩ cs.flatten s := by
  induction cs generalizing s with
  | nil => rfl
  | cons c r ih =>
    rw [trainChunks, List.flatten_cons, runRows_append, M.bind_def, M.bind_def,
      otrain_ready hK hT hA dt args c (hne c (by simp)) s hs]
    have h := runRows_ready hK args ⟨2, cols, t, []⟩ c s hs
    generalize runRows K args ⟨2, cols, t, []⟩ c s = z at h
    obtain ⟨_ | u, s1⟩ := z
    · rfl
    · exact ih (fun c hc => hne c (by simp [hc])) s1 h

/-- C153: a node of such a class that trains incrementally does not notice how its samples are cut into chunks: training
chunk after chunk is training the concatenation of the chunks in one call. The two nodes are equal (private data,
dimensions, dtype, iteration count, and the calls of the hooks), and so are the exceptions, wherever a hook raises. -/
theorem incremental_chunks {K : OKind σ α β} {P : σ → Prop} (hK : Settles K P)
    (hA : ∀ st x a, K.checkTrainArgs st x a = .ok ()) (cols : Nat) (dt : DType) (args : List β)
    (cs : List (List (List α))) (hcs : cs ≠ []) (hne : ∀ c ∈ cs, c ≠ []) (s : OSt σ α β)
    (hs : s.ttype.or K.types.head? ≠ some .batch) :
    trainChunks K cols dt args cs s = otrain K ⟨2, cols, dt, cs.flatten⟩ args s := by
  obtain ⟨c, r, rfl⟩ := List.exists_cons_of_ne_nil hcs
  have hc : c ≠ [] := hne c (by simp)
  have hf : (c :: r).flatten ≠ [] := by simp [hc]
  rw [trainChunks]
  rcases otrain_first hK hA cols dt args s hs with ⟨e, s', h⟩ | ⟨t, s', hT, hr, h⟩
  · rw [h _ hf, M.bind_error (h c hc)]
  · rw [h _ hf, List.flatten_cons, runRows_append, M.bind_def, M.bind_def, h c hc]
    have h1 := runRows_ready hK args ⟨2, cols, t, []⟩ c s' hr
    generalize runRows K args ⟨2, cols, t, []⟩ c s' = z at h1
    obtain ⟨_ | u, s1⟩ := z
    · rfl
    · exact trainChunks_ready hK hT hA dt args r (fun c hc => hne c (by simp [hc])) s1 h1

/-- C153: two ways of cutting the same samples lead to the same node. -/
theorem incremental_cuts {K : OKind σ α β} {P : σ → Prop} (hK : Settles K P)
    (hA : ∀ st x a, K.checkTrainArgs st x a = .ok ()) (cols : Nat) (dt : DType) (args : List β)
    (cs ds : List (List (List α))) (hcs : cs ≠ []) (hne : ∀ c ∈ cs, c ≠ []) (hde : ∀ d ∈ ds, d ≠ [])
    (hcd : cs.flatten = ds.flatten) (s : OSt σ α β) (hs : s.ttype.or K.types.head? ≠ some .batch) :
    trainChunks K cols dt args cs s = trainChunks K cols dt args ds s := by
  have hds : ds ≠ [] := by
    rintro rfl
    obtain ⟨c, r, rfl⟩ := List.exists_cons_of_ne_nil hcs
    have := hne c (by simp)
    simp at hcd
    exact this hcd.1
  rw [incremental_chunks hK hA cols dt args cs hcs hne s hs, incremental_chunks hK hA cols dt args ds hds hde s hs, hcd]

/-- A class for the examples: `_check_params` creates a counter (and the output dimension) once, `_train` adds the
sample to it and refuses the sample 7. -/
def sumKind : OKind (Option Nat) Nat Unit :=
  { odemo with
    nPhases := 1
    trainHook := fun _ st x _ => ⟨st.map (· + x.data.flatten.sum), [], if x.data = [[7]] then .error (.user 1) else .ok ()⟩
    stopHook := fun _ st => ⟨st, [], .ok ()⟩
    execHook := fun st x => ⟨st, [], .ok x⟩
    invHook := fun st x => ⟨st, [], .ok x⟩
    checkTrainArgs := fun _ _ _ => .ok ()
    phaseExec := fun _ => none
    checkParams := fun st x => if st.isSome then ⟨st, [], .ok ()⟩ else ⟨some 100, [.out x.cols], .ok ()⟩ }

theorem sumKind_settles : Settles sumKind (fun st => st.isSome = true) where
  shape := fun st x x' _ hc _ => by simp only [sumKind, hc]
  first := fun st x _ => by
    simp only [sumKind]
    split
    · assumption
    · rfl
  again := fun st x h => by simp only [sumKind, h, if_true]
  train := fun p st x a h => by simpa [sumKind] using h
  pass := fun p f st x a h => by simp [sumKind] at h

/-- The hypotheses of C153 hold, and the node does learn from every sample. -/
example : trainChunks sumKind 1 1 [] [[[1]], [[2], [3]]] (oinit sumKind none none none none).2 =
    otrain sumKind ⟨2, 1, 1, [[1], [2], [3]]⟩ [] (oinit sumKind none none none none).2 :=
  incremental_chunks sumKind_settles (fun _ _ _ => rfl) 1 1 [] _ (by simp) (by simp) _ (by simp [oinit, sumKind, odemo])

example : (otrain sumKind ⟨2, 1, 1, [[1], [2], [3]]⟩ [] (oinit sumKind none none none none).2).2.node.st = some 106 := by
  decide +kernel

/-- A sample that is refused: the same exception, and the same state. -/
example : (trainChunks sumKind 1 1 [] [[[1], [7]], [[3]]] (oinit sumKind none none none none).2).1 = .error (.user 1) ∧
    (trainChunks sumKind 1 1 [] [[[1], [7]], [[3]]] (oinit sumKind none none none none).2).2.node.st = some 108 ∧
    (otrain sumKind ⟨2, 1, 1, [[1], [7], [3]]⟩ [] (oinit sumKind none none none none).2).2.node.st = some 108 := by
  decide +kernel

/-- Batch training does depend on the chunks: every chunk is one call of the hook. -/
theorem batch_chunks_false : ¬ ∀ (cs : List (List (List Nat))), cs ≠ [] → (∀ c ∈ cs, c ≠ []) →
    ∀ s : OSt (List (Nat × List (List Nat))) Nat Unit, s.ttype = some .batch →
      (trainChunks odemo 1 1 [] cs s).2.node.st = (otrain odemo ⟨2, 1, 1, cs.flatten⟩ [] s).2.node.st := by
  intro h
  have := h [[[1]], [[2]]] (by simp) (by simp) { odemo0 with ttype := some .batch } rfl
  revert this
  decide +kernel

end Mdp.Online
