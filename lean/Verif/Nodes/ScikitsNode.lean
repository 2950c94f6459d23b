import Verif.Node.HookInv
import Verif.Node.Cumulator
import Verif.Nodes.ClassifierBase

/-! # Nodes made from algorithms of sklearn: training and execution (C343-C345)

The algorithm is a parameter: `fit` and `transform` (or `predict`) are arbitrary functions that may raise. -/

namespace Mdp.ScikitsNode

open Mdp.Node Py

/-! ## Model -/

variable {Q α : Type}

/-- An algorithm of sklearn whose method `fit` is called with the data only.  `apply` is `transform` for a transformer and
`predict` for a predictor (whose result has one dimension). -/
structure Alg (Q α : Type) where
  fit : Arr α → Except Err Q
  apply : Q → Arr α → Except Err (Arr α)

/-- The private data: `self.data`, `self.tlen`, the fitted algorithm, and (ghost) the arguments of the calls of `fit`. -/
structure Sk (Q α : Type) where
  cell : Cell α
  tlen : Nat
  model : Option Q
  fits : List (Arr α)

/-- `__init__`. /repo/mdp/nodes/scikits_nodes.py 309-333, 401-425. -/
def Sk.new : Sk Q α := ⟨.lst [], 0, none, []⟩

/-- The classes which `wrap_scikits_transformer` and `wrap_scikits_predictor` make; `ok` are the supported dtypes.  An
algorithm that is executed without a successful `fit` raises (`NotFittedError`).
/repo/mdp/nodes/scikits_nodes.py 298-366, 390-456, mdp/signal_node.py 774-784. -/
def skKind (A : Alg Q α) (ok : Nat → Bool) : Kind (Sk Q α) α Unit where
  trainable := true
  invertible := false
  preserveDim := false
  nPhases := 1
  supported := ok
  reqArgs := 0
  checkTrainArgs := fun _ _ _ => .ok ()
  trainHook := fun _ st x _ =>
    match st.cell with
    | .lst l => { st := { st with cell := .lst (l ++ [x]), tlen := st.tlen + x.nrows }, sets := [], res := .ok () }
    | .arr _ => { st := { st with tlen := st.tlen + x.nrows }, sets := [], res := .error .attribute }
  stopHook := fun _ st =>
    match concatCell st.cell with
    | .error e => { st := st, sets := [], res := .error e }
    | .ok a =>
      match A.fit a with
      | .error e => { st := { st with cell := .arr a, fits := st.fits ++ [a] }, sets := [], res := .error e }
      | .ok m => { st := { st with cell := .arr a, fits := st.fits ++ [a], model := some m }, sets := [], res := .ok () }
  execHook := fun st x =>
    match st.model with
    | none => { st := st, sets := [], res := .error (.user 0) }
    | some m => { st := st, sets := [], res := A.apply m x }
  invHook := fun st y => { st := st, sets := [], res := .ok y }

/-- The constructor; `output_dim` is refused (`ScikitsException`, here `user 1`).
/repo/mdp/nodes/scikits_nodes.py 325-333. -/
def new (A : Alg Q α) (ok : Nat → Bool) (inp out : Option Nat) (t : Option Nat) : Except Err Unit × St (Sk Q α) α Unit :=
  if out ≠ none then (.error (.user 1), (init (skKind A ok) none none none Sk.new).2)
  else init (skKind A ok) inp none t Sk.new

/-! ## Specification -/

/-- Data with `d` columns and at least one row. -/
def Fits (d : Nat) (x : Arr α) : Prop := x.ndim = 2 ∧ 0 < x.nrows ∧ x.cols = d

/-- All the rows in one array of dtype `t`. -/
def joined (d t : Nat) (chunks : List (Arr α)) : Arr α := ⟨2, d, t, chunks.flatMap (·.data)⟩

/-! ## Lemmas -/

theorem sk_train_step (A : Alg Q α) (ok : Nat → Bool) (x : Arr α) (s : St (Sk Q α) α Unit) (d t : Nat) (L : List (Arr α))
    (htr : s.training = true) (hph : s.phase = 0) (hin : s.inputDim = none ∨ s.inputDim = some d)
    (hdt : (s.dtype = none ∧ x.dtype = t ∧ ok t = true) ∨ s.dtype = some t)
    (hx : Fits d x) (hc : s.st.cell = .lst L) :
    ∃ s', train (skKind A ok) x [] s = (.ok (), s') ∧ s'.training = true ∧ s'.phase = 0 ∧
      s'.started = true ∧ s'.inputDim = some d ∧ s'.dtype = some t ∧ s'.outputDim = s.outputDim ∧
      s'.st = { s.st with cell := .lst (L ++ [refcast (some t) x]), tlen := s.st.tlen + x.nrows } := by
  obtain ⟨h1, h2, h3⟩ := hx
  have hci := checkInput_eq (skKind A ok) x s t rfl ⟨h1, h2⟩ (by rw [h3]; exact hin) hdt
  have h := train_eq (skKind A ok) x [] s _ rfl htr hci rfl (by simp [hph, skKind])
  simp only [hph, skKind, hc, logged, runHook, M.bind_def, M.modify_def, runSets, M.pure_def, M.lift_def] at h
  exact ⟨_, h, htr, rfl, rfl, by simp [h3], rfl, rfl, rfl⟩

theorem sk_trainAll (A : Alg Q α) (ok : Nat → Bool) (chunks : List (Arr α)) (s : St (Sk Q α) α Unit) (d t : Nat)
    (L : List (Arr α)) (htr : s.training = true) (hph : s.phase = 0)
    (hin : s.inputDim = some d) (hdt : s.dtype = some t) (hst : s.started = true)
    (hx : ∀ c ∈ chunks, Fits d c) (hc : s.st.cell = .lst L) :
    ∃ s', trainAll (skKind A ok) (chunks.map fun c => (c, [])) s = (.ok (), s') ∧ s'.training = true ∧ s'.phase = 0 ∧
      s'.started = true ∧ s'.inputDim = some d ∧ s'.dtype = some t ∧ s'.outputDim = s.outputDim ∧
      s'.st = { s.st with cell := .lst (L ++ chunks.map (refcast (some t))),
                          tlen := s.st.tlen + (chunks.map Arr.nrows).sum } := by
  induction chunks generalizing s L with
  | nil => exact ⟨s, rfl, htr, hph, hst, hin, hdt, rfl, by simp [← hc]⟩
  | cons c r ih =>
    obtain ⟨s1, h1, h2, h3, h4, h5, h6, h7, h8⟩ := sk_train_step A ok c s d t L htr hph
      (.inr hin) (.inr hdt) (hx c (by simp)) hc
    obtain ⟨s2, g1, g2, g3, g4, g5, g6, g7, g8⟩ := ih s1 _ h2 h3 h5 h6 h4 (fun c hc => hx c (by simp [hc]))
      (by rw [h8])
    refine ⟨s2, ?_, g2, g3, g4, g5, g6, g7.trans h7, ?_⟩
    · rw [List.map_cons, trainAll, M.bind_def, h1]; exact g1
    · rw [g8, h8]; simp [Nat.add_assoc]

theorem concat_joined (d t : Nat) (chunks : List (Arr α)) (hne : chunks ≠ []) (hx : ∀ c ∈ chunks, Fits d c) :
    concatCell (.lst (chunks.map (refcast (some t)))) = .ok (joined d t chunks) := by
  obtain ⟨c, r, rfl⟩ := List.exists_cons_of_ne_nil hne
  have hc := hx c (by simp)
  simp only [concatCell, List.map_cons, concatenate]
  rw [if_pos]
  · simp [refcast, joined, hc.1, hc.2.2, List.flatMap_map]
  · rw [List.all_eq_true]
    intro b hb
    obtain ⟨e, he, rfl⟩ := List.mem_map.1 hb
    have h := hx e (by simp [he])
    simp [refcast, h.1, h.2.2, hc.1, hc.2.2]

/-- Everything up to the end of the data: the state before `fit`. -/
theorem sk_collect (A : Alg Q α) (ok : Nat → Bool) (d t : Nat) (chunks : List (Arr α)) (hne : chunks ≠ [])
    (hx : ∀ c ∈ chunks, Fits d c) (ht : ∀ c ∈ chunks.head?, c.dtype = t) (hok : ok t = true) :
    ∃ s1, trainAll (skKind A ok) (chunks.map fun c => (c, [])) (new A ok none none none).2 = (.ok (), s1) ∧
      s1.training = true ∧ s1.phase = 0 ∧ s1.started = true ∧ s1.inputDim = some d ∧ s1.dtype = some t ∧
      s1.outputDim = none ∧
      s1.st = ⟨.lst (chunks.map (refcast (some t))), (chunks.map Arr.nrows).sum, none, []⟩ := by
  obtain ⟨c, r, rfl⟩ := List.exists_cons_of_ne_nil hne
  obtain ⟨s1, h1, h2, h3, h4, h5, h6, h7, h8⟩ := sk_train_step A ok c (new A ok none none none).2 d t [] rfl rfl
    (.inl rfl) (.inl ⟨rfl, ht c (by simp), hok⟩) (hx c (by simp)) rfl
  obtain ⟨s2, g1, g2, g3, g4, g5, g6, g7, g8⟩ := sk_trainAll A ok r s1 d t [refcast (some t) c] h2 h3 h5 h6 h4
    (fun c hc => hx c (by simp [hc])) (by rw [h8]; rfl)
  refine ⟨s2, ?_, g2, g3, g4, g5, g6, g7.trans (h7.trans rfl), ?_⟩
  · rw [List.map_cons, trainAll, M.bind_def, h1]; exact g1
  · rw [g8, h8]; change Sk.mk _ _ _ _ = _; simp [Sk.new, new, init, setInputDim, setOutputDim, setDtype, M.bind_def]

theorem sk_execute (A : Alg Q α) (ok : Nat → Bool) (s : St (Sk Q α) α Unit) (d t : Nat) (m : Q) (x : Arr α)
    (htr : s.training = false) (hph : s.phase = 1) (hin : s.inputDim = some d) (hdt : s.dtype = some t)
    (hm : s.st.model = some m) (hx : Fits d x) (ho : s.outputDim = none ∨ s.outputDim = some d) :
    ∃ s', execute (skKind A ok) x s = (A.apply m (refcast (some t) x), s') ∧ s'.outputDim = some d ∧ s'.st = s.st ∧
      s'.training = false ∧ s'.phase = 1 ∧ s'.inputDim = some d ∧ s'.dtype = some t := by
  obtain ⟨h1, h2, h3⟩ := hx
  have hci := checkInput_eq (skKind A ok) x s t rfl ⟨h1, h2⟩ (by rw [h3]; exact .inr hin) (.inr hdt)
  have hp : preExecutionChecks (skKind A ok) x s = (.ok (), { s with outputDim := some d }) := by
    have hw : (M.when (s.phase = 0 ∧ s.started = false) (trainLoop (skKind A ok) x) : NodeM (Sk Q α) α Unit Unit) s
        = (.ok (), s) := by
      simp [M.when, hph]
    unfold preExecutionChecks
    rw [M.bind_ok (M.get_def s), M.bind_ok hw, M.bind_ok (s' := s) (a := ())
      (by simp [ifTrainingStopTraining, M.bind_def, htr]), M.bind_ok hci, M.bind_ok (M.get_def _)]
    rcases ho with ho | ho
    · rw [when_true (by simp [ho])]
      simp [setOutputDim, setOutputDimRaw, skKind, h3, ho, ← hin, ← hdt]
    · rw [when_false (by simp [ho])]
      simp [h3, ho, ← hin, ← hdt]
  refine ⟨{ s with outputDim := some d, trace := s.trace ++ [.exec (refcast (some t) x)] }, ?_, rfl, rfl, htr, hph, hin, hdt⟩
  unfold execute
  rw [M.bind_def, hp]
  simp only [M.bind_def, M.get_def, logged, runHook, skKind, hm, M.modify_def, runSets, M.pure_def, M.lift_def, hdt]

/-! ## Theorems -/

/-- **C343.** The node collects any number of training calls; `stop_training` calls `fit` exactly once, with all the rows of
all the calls in their order, and executing gives what the fitted algorithm gives for the data. -/
theorem sk_trained (A : Alg Q α) (ok : Nat → Bool) (d t : Nat) (chunks : List (Arr α)) (hne : chunks ≠ [])
    (hx : ∀ c ∈ chunks, Fits d c) (ht : ∀ c ∈ chunks.head?, c.dtype = t) (hok : ok t = true)
    (m : Q) (hfit : A.fit (joined d t chunks) = .ok m) :
    ∃ s1 s2, trainAll (skKind A ok) (chunks.map fun c => (c, [])) (new A ok none none none).2 = (.ok (), s1) ∧
      stopTraining (skKind A ok) s1 = (.ok (), s2) ∧ s2.training = false ∧ s2.st.fits = [joined d t chunks] ∧
      s2.st.tlen = (joined d t chunks).nrows ∧
      ∀ x, Fits d x → (execute (skKind A ok) x s2).1 = A.apply m (refcast (some t) x) := by
  obtain ⟨s1, h1, h2, h3, h4, h5, h6, h7, h8⟩ := sk_collect A ok d t chunks hne hx ht hok
  have hs := stop_eq (skKind A ok) s1
    { s1 with st := ⟨.arr (joined d t chunks), (chunks.map Arr.nrows).sum, some m, [joined d t chunks]⟩ } rfl h2 h4
    (by simp [h3, skKind]) (by
      simp only [runHook, M.bind_def, M.modify_def, M.lift_def, skKind, h8, concat_joined d t chunks hne hx, hfit, runSets,
        M.pure_def, List.nil_append])
  refine ⟨s1, _, h1, hs, by simp [h3, skKind], rfl, ?_, fun x hx => ?_⟩
  · simp only [joined, Arr.nrows, List.length_flatMap]; rfl
  · obtain ⟨s3, e, _⟩ := sk_execute A ok (d := d) (t := t) (m := m) (x := x) (s := { s1 with
        st := ⟨.arr (joined d t chunks), (chunks.map Arr.nrows).sum, some m, [joined d t chunks]⟩
        trace := s1.trace ++ [.stop s1.phase.toNat true], phase := s1.phase + 1, started := false,
        training := decide (s1.phase + 1 ≠ (skKind A ok).nPhases) })
      (by simp [h3, skKind]) (by simp [h3]) h5 h6 rfl hx (.inl h7)
    rw [e]

/-- A trained node knows how many columns its results have. -/
def OutputDimRight (A : Alg Q α) (ok : Nat → Bool) : Prop := ∀ (s s' : St (Sk Q α) α Unit) (x y : Arr α),
  Reachable (skKind A ok) s → execute (skKind A ok) x s = (.ok y, s') → s'.outputDim = some y.cols

/-- **C343, false.** The output dimension is set to the number of columns of the input, whatever the algorithm returns, and
it cannot be given to the constructor: it is wrong for every algorithm that changes the number of columns. -/
theorem sk_output_dim_violation (A : Alg Q α) (ok : Nat → Bool) (d t : Nat) (chunks : List (Arr α)) (hne : chunks ≠ [])
    (hx : ∀ c ∈ chunks, Fits d c) (ht : ∀ c ∈ chunks.head?, c.dtype = t) (hok : ok t = true)
    (m : Q) (hfit : A.fit (joined d t chunks) = .ok m)
    (hred : ∀ x y, A.apply m x = .ok y → y.cols ≠ d) (x y : Arr α) (hxd : Fits d x)
    (hy : A.apply m (refcast (some t) x) = .ok y) :
    ¬ OutputDimRight A ok ∧ ∀ k, (new A ok none (some k) none).1 = .error (.user 1) := by
  refine ⟨fun hall => ?_, fun k => by simp [new]⟩
  obtain ⟨s1, h1, h2, h3, h4, h5, h6, h7, h8⟩ := sk_collect A ok d t chunks hne hx ht hok
  have hs := stop_eq (skKind A ok) s1
    { s1 with st := ⟨.arr (joined d t chunks), (chunks.map Arr.nrows).sum, some m, [joined d t chunks]⟩ } rfl h2 h4
    (by simp [h3, skKind]) (by
      simp only [runHook, M.bind_def, M.modify_def, M.lift_def, skKind, h8, concat_joined d t chunks hne hx, hfit, runSets,
        M.pure_def, List.nil_append])
  obtain ⟨s3, e, ho, _⟩ := sk_execute A ok (d := d) (t := t) (m := m) (x := x) (s := { s1 with
        st := ⟨.arr (joined d t chunks), (chunks.map Arr.nrows).sum, some m, [joined d t chunks]⟩
        trace := s1.trace ++ [.stop s1.phase.toNat true], phase := s1.phase + 1, started := false,
        training := decide (s1.phase + 1 ≠ (skKind A ok).nPhases) })
      (by simp [h3, skKind]) (by simp [h3]) h5 h6 rfl hxd (.inl h7)
  have hreach : Reachable (skKind A ok) (stopTraining (skKind A ok) s1).2 := by
    have hcalls : ∀ (l : List (Arr α)) (s s' : St (Sk Q α) α Unit),
        trainAll (skKind A ok) (l.map fun c => (c, [])) s = (.ok (), s') →
        s' = runCalls (skKind A ok) s (l.map fun c => .train c []) := by
      intro l
      induction l with
      | nil => intro s s' h; simp [trainAll] at h; simp [runCalls, h]
      | cons c l ih =>
        intro s s' h
        rw [List.map_cons, trainAll] at h
        obtain ⟨_, s2, e1, e2⟩ := M.bind_eq_ok h
        rw [ih s2 s' e2]
        simp only [runCalls, List.map_cons, List.foldl_cons, Call.run, e1]
    refine ⟨none, none, none, Sk.new, chunks.map (fun c => .train c []) ++ [.stop], rfl, ?_⟩
    have e1 := hcalls chunks _ s1 h1
    simp only [runCalls, List.foldl_append] at e1 ⊢
    have e2 : (new A ok none none none).2 = (init (skKind A ok) none none none Sk.new).2 := rfl
    rw [e2] at e1
    rw [← e1]
    rfl
  rw [hs] at hreach
  have := hall _ _ x y hreach (by rw [e, hy])
  rw [ho] at this
  exact hred _ y hy (Option.some.inj this).symm

/-- What holds for the private data once an attempt to fit has failed. -/
def Stuck (F : List (Arr α)) (st : Sk Q α) : Prop :=
  ∃ b more, st.cell = .arr b ∧ b.ndim ≤ 2 ∧ st.fits = F ++ more ∧ ∀ c ∈ more, c.ndim ≤ 1

theorem stuck_keeps (A : Alg Q α) (ok : Nat → Bool) (F : List (Arr α)) : HookKeeps (skKind A ok) (Stuck F) := by
  refine ⟨fun p st x args h => ?_, fun p st h => ?_, fun st x h => ?_, fun st y h => ?_⟩
  · obtain ⟨b, more, h1, h2, h3, h4⟩ := h
    simp only [skKind, h1]
    exact ⟨b, more, rfl, h2, h3, h4⟩
  · obtain ⟨b, more, h1, h2, h3, h4⟩ := h
    simp only [skKind, h1, concatCell]
    by_cases hb : b.nrows = 0 ∨ b.ndim ≤ 1
    · rw [if_pos hb]
      exact ⟨b, more, h1, h2, h3, h4⟩
    · rw [if_neg hb]
      simp only
      split <;>
      · refine ⟨_, more ++ [_], rfl, ?_, by rw [h3, List.append_assoc], ?_⟩
        · simp only; omega
        · intro c hc
          rcases List.mem_append.1 hc with hc | hc
          · exact h4 c hc
          · rw [List.mem_singleton.1 hc]; simp only; omega
  · simp only [skKind]; split <;> exact h
  · exact h

/-- **C344.** If `fit` raises, the exception reaches the caller of `stop_training` and the node remains in training. -/
theorem sk_fit_failed (A : Alg Q α) (ok : Nat → Bool) (d t : Nat) (chunks : List (Arr α)) (hne : chunks ≠ [])
    (hx : ∀ c ∈ chunks, Fits d c) (ht : ∀ c ∈ chunks.head?, c.dtype = t) (hok : ok t = true)
    (e : Err) (hfit : A.fit (joined d t chunks) = .error e) :
    ∃ s1 s2, trainAll (skKind A ok) (chunks.map fun c => (c, [])) (new A ok none none none).2 = (.ok (), s1) ∧
      stopTraining (skKind A ok) s1 = (.error e, s2) ∧ s2.training = true ∧ s2.st.fits = [joined d t chunks] ∧
      s2.st.model = none := by
  obtain ⟨s1, h1, h2, h3, h4, h5, h6, h7, h8⟩ := sk_collect A ok d t chunks hne hx ht hok
  refine ⟨s1, { s1 with
    st := ⟨.arr (joined d t chunks), (chunks.map Arr.nrows).sum, none, [joined d t chunks]⟩
    trace := s1.trace ++ [.stop 0 false] }, h1, ?_, h2, rfl, rfl⟩
  unfold stopTraining
  simp only [M.bind_def, M.get_def]
  rw [if_neg (by simp [h4]), if_neg (by simp [h2]), if_pos (by simp [h3, skKind])]
  simp only [M.bind_def, logged, runHook, h3, M.modify_def, M.lift_def, skKind, h8, concat_joined d t chunks hne hx, hfit,
    runSets, M.pure_def, List.nil_append, isOk, Int.toNat_zero]

/-- After a failed `fit` the training can be completed: with some further calls `fit` gets data with two dimensions. -/
def Retry (A : Alg Q α) (ok : Nat → Bool) (s : St (Sk Q α) α Unit) : Prop :=
  ∃ cs, ∃ a ∈ ((runCalls (skKind A ok) s cs).st.fits.drop s.st.fits.length), a.ndim = 2

/-- **C344, false.** After a failed `fit` no history of calls gives `fit` the training data again: data can no longer be
added, and a second `stop_training` hands over the numbers as an array of one dimension. -/
theorem sk_retry_violation (A : Alg Q α) (ok : Nat → Bool) (d t : Nat) (chunks : List (Arr α)) (hne : chunks ≠ [])
    (hx : ∀ c ∈ chunks, Fits d c) (ht : ∀ c ∈ chunks.head?, c.dtype = t) (hok : ok t = true)
    (e : Err) (hfit : A.fit (joined d t chunks) = .error e) :
    ∃ s1 s2, trainAll (skKind A ok) (chunks.map fun c => (c, [])) (new A ok none none none).2 = (.ok (), s1) ∧
      stopTraining (skKind A ok) s1 = (.error e, s2) ∧ ¬ Retry A ok s2 ∧
      ∀ cs x, (train (skKind A ok) x [] (runCalls (skKind A ok) s2 cs)).1 ≠ .ok () := by
  obtain ⟨s1, h1, h2, h3, h4, h5, h6, h7, h8⟩ := sk_collect A ok d t chunks hne hx ht hok
  have hstop : stopTraining (skKind A ok) s1 = (.error e, { s1 with
    st := ⟨.arr (joined d t chunks), (chunks.map Arr.nrows).sum, none, [joined d t chunks]⟩
    trace := s1.trace ++ [.stop 0 false] }) := by
    unfold stopTraining
    simp only [M.bind_def, M.get_def]
    rw [if_neg (by simp [h4]), if_neg (by simp [h2]), if_pos (by simp [h3, skKind])]
    simp only [M.bind_def, logged, runHook, h3, M.modify_def, M.lift_def, skKind, h8, concat_joined d t chunks hne hx, hfit,
      runSets, M.pure_def, List.nil_append, isOk, Int.toNat_zero]
  refine ⟨s1, _, h1, hstop, ?_, ?_⟩
  · rintro ⟨cs, a, ha, h2a⟩
    obtain ⟨b, more, k1, k2, k3, k4⟩ := (stuck_keeps A ok [joined d t chunks]).keeps_calls cs
      { s1 with
        st := ⟨.arr (joined d t chunks), (chunks.map Arr.nrows).sum, none, [joined d t chunks]⟩
        trace := s1.trace ++ [.stop 0 false] } ⟨joined d t chunks, [], rfl, by simp [joined], rfl, by simp⟩
    rw [k3] at ha
    have := k4 a (by simpa using ha)
    omega
  · intro cs x
    obtain ⟨b, more, k1, k2, k3, k4⟩ := (stuck_keeps A ok [joined d t chunks]).keeps_calls cs
      { s1 with
        st := ⟨.arr (joined d t chunks), (chunks.map Arr.nrows).sum, none, [joined d t chunks]⟩
        trace := s1.trace ++ [.stop 0 false] } ⟨joined d t chunks, [], rfl, by simp [joined], rfl, by simp⟩
    generalize runCalls (skKind A ok) _ cs = s at k1
    intro hok'
    generalize hT : train (skKind A ok) x [] s = T at hok'
    obtain ⟨r, s'⟩ := T
    simp only at hok'
    subst hok'
    unfold train at hT
    rw [if_neg (by simp [skKind])] at hT
    obtain ⟨s0, s0', e0, hT⟩ := M.bind_eq_ok hT
    simp only [M.get_def, Prod.mk.injEq, Except.ok.injEq] at e0
    obtain ⟨rfl, rfl⟩ := e0
    split at hT
    · cases hT
    obtain ⟨_, sa, ea, hT⟩ := M.bind_eq_ok hT
    have hst : sa.st = s.st := by
      have := checkInput_st (skKind A ok) x s
      rw [ea] at this; exact this
    obtain ⟨s0, s0', e0, hT⟩ := M.bind_eq_ok hT
    simp only [M.get_def, Prod.mk.injEq, Except.ok.injEq] at e0
    obtain ⟨rfl, rfl⟩ := e0
    obtain ⟨_, sb, eb, hT⟩ := M.bind_eq_ok hT
    simp only [M.lift_def, Prod.mk.injEq] at eb
    obtain ⟨_, rfl⟩ := eb
    obtain ⟨_, sc, ec, hT⟩ := M.bind_eq_ok hT
    simp only [M.modify_def, Prod.mk.injEq] at ec
    obtain ⟨_, rfl⟩ := ec
    obtain ⟨s0, s0', e0, hT⟩ := M.bind_eq_ok hT
    simp only [M.get_def, Prod.mk.injEq, Except.ok.injEq] at e0
    obtain ⟨rfl, rfl⟩ := e0
    split at hT
    · simp only [logged, runHook, skKind, M.bind_def, M.modify_def, hst, k1, runSets, M.pure_def, M.lift_def] at hT
      cases hT
    · cases hT

/-! ### Algorithms whose `fit` needs targets -/

/-- The flag `is_training()` stays as it is. -/
def SameTr (s t : St (Sk Q α) α Unit) : Prop := t.training = s.training

theorem sameTr_pre : M.Pre (SameTr : St (Sk Q α) α Unit → St (Sk Q α) α Unit → Prop) :=
  ⟨fun _ => rfl, fun h h' => Eq.trans h' h⟩

theorem soft_tr {K : Kind (Sk Q α) α Unit} {r : Type} {m : NodeM (Sk Q α) α Unit r} (h : M.Moves (Soft K) m) :
    M.Moves SameTr m := fun s => (h s).training

theorem logged_tr {r : Type} (ev : Bool → Event α Unit) {m : NodeM (Sk Q α) α Unit r}
    (h : M.Moves SameTr m) : M.Moves SameTr (logged ev m) := fun s => h s

theorem train_tr (K : Kind (Sk Q α) α Unit) (x : Arr α) (args : List Unit) : M.Moves SameTr (train K x args) := by
  have p := sameTr_pre (Q := Q) (α := α)
  unfold train
  refine .ite (.raise p _) (.bind p (.get p) fun s1 => ?_)
  refine .ite (.raise p _) (.bind p (soft_tr (checkInput_soft K x)) fun _ => ?_)
  refine .bind p (.get p) fun s1 => ?_
  refine .bind p (.lift p _) fun _ => ?_
  refine .bind p (.modify fun s => rfl) fun _ => ?_
  refine .bind p (.get p) fun s1 => ?_
  exact .ite (logged_tr _ (soft_tr (runHook_soft K _))) (.raise p _)

theorem runHook_error {K : Kind (Sk Q α) α Unit} {h : Hooked (Sk Q α) Unit} {e : Err} (he : h.res = .error e)
    {s s' : St (Sk Q α) α Unit} : runHook K h s ≠ (.ok (), s') := by
  intro hk
  unfold runHook at hk
  obtain ⟨_, s1, _, hk⟩ := M.bind_eq_ok hk
  obtain ⟨_, s2, _, hk⟩ := M.bind_eq_ok hk
  simp [he] at hk

theorem stop_tr (A : Alg Q α) (ok : Nat → Bool) (hA : ∀ a, ∃ e, A.fit a = .error e) :
    M.Moves SameTr (stopTraining (skKind A ok)) := by
  intro s
  rcases stop_cases (skKind A ok) s with ⟨e, h⟩ | ⟨htr, _, _, _, s2, hs, h⟩
  · rw [h]; exact rfl
  · rcases h with ⟨e, _, h⟩ | ⟨hk, h⟩
    · rw [h]; exact hs.training
    · exfalso
      have : ∃ e, ((skKind A ok).stopHook s.phase.toNat s.st).res = .error e := by
        simp only [skKind]
        split
        · exact ⟨_, rfl⟩
        · next a _ =>
          obtain ⟨e, he⟩ := hA a
          rw [he]; exact ⟨_, rfl⟩
      obtain ⟨e, he⟩ := this
      exact runHook_error he hk

theorem trainLoop_tr (A : Alg Q α) (ok : Nat → Bool) (hA : ∀ a, ∃ e, A.fit a = .error e) (x : Arr α) :
    M.Moves SameTr (trainLoop (skKind A ok) x) := by
  intro s
  have h1 := train_tr (skKind A ok) x [] s
  rw [trainLoop]
  split
  · next e s1 heq => rw [heq] at h1; exact h1
  · next s1 heq =>
    rw [heq] at h1
    split
    · next hr =>
      have h2 := stop_tr A ok hA s1
      split
      · next e s2 heq2 => rw [heq2] at h2; exact sameTr_pre.trans h1 h2
      · next s2 heq2 =>
        exfalso
        rcases stop_cases (skKind A ok) s1 with ⟨e, h⟩ | ⟨htr, _, _, _, s2', hs, h⟩
        · rw [heq2] at h; cases h
        · rcases h with ⟨e, _, h⟩ | ⟨hk, h⟩
          · rw [heq2] at h; cases h
          · have : ∃ e, ((skKind A ok).stopHook s1.phase.toNat s1.st).res = .error e := by
              simp only [skKind]
              split
              · exact ⟨_, rfl⟩
              · next a _ =>
                obtain ⟨e, he⟩ := hA a
                rw [he]; exact ⟨_, rfl⟩
            obtain ⟨e, he⟩ := this
            exact runHook_error he hk
    · exact h1

theorem call_tr (A : Alg Q α) (ok : Nat → Bool) (hA : ∀ a, ∃ e, A.fit a = .error e) (c : Call α Unit)
    (s : St (Sk Q α) α Unit) : SameTr s (c.run (skKind A ok) s) := by
  have p := sameTr_pre (Q := Q) (α := α)
  have hif : M.Moves SameTr (ifTrainingStopTraining (skKind A ok)) := by
    unfold ifTrainingStopTraining
    refine .bind p (.get p) fun s1 => .ite (.bind p (stop_tr A ok hA) fun _ => .bind p (.get p) fun s1 => ?_) (.pure p _)
    exact .ite (.raise p _) (.pure p _)
  cases c with
  | train x args => exact train_tr _ x args s
  | stop => exact stop_tr A ok hA s
  | execute x =>
    have : M.Moves SameTr (execute (skKind A ok) x) := by
      unfold execute preExecutionChecks
      refine .bind p (.bind p (.get p) fun s1 => .bind p (.when p (trainLoop_tr A ok hA x)) fun _ => ?_) fun _ =>
        .bind p (.get p) fun s1 => logged_tr _ (soft_tr (runHook_soft _ _))
      refine .bind p hif fun _ => .bind p (soft_tr (checkInput_soft _ x)) fun _ => ?_
      exact .bind p (.get p) fun s1 => .when p (soft_tr (setOutputDim_soft _ _))
    exact this s
  | inverse y =>
    have : inverse (skKind A ok) y s = (.error .notInvertible, s) := by
      simp [inverse, preInversionChecks, M.bind_def, skKind]
    simp only [Call.run, this]
    exact rfl
  | setInputDim n => exact (setInputDim_soft _ n s).training
  | setOutputDim n => exact (setOutputDim_soft _ n s).training
  | setDtype t => exact (setDtype_soft _ t s).training

/-- **C345.** An algorithm whose `fit` needs targets (a regressor) cannot be trained by the calls a flow makes, nor by
executing the node: `fit` is called with the data only and raises, and in no history of calls does the training end.
(It can be trained by hand, with the targets as a keyword argument of `stop_training`.) -/
theorem sk_supervised_violation (A : Alg Q α) (ok : Nat → Bool) (hA : ∀ a, A.fit a = .error .type)
    (s : St (Sk Q α) α Unit) (hs : Reachable (skKind A ok) s) : s.training = true := by
  obtain ⟨inp, out, dt, st, cs, h0, rfl⟩ := hs
  have hinit : (init (skKind A ok) inp out dt st).2.training = true := by
    have : M.Moves (Soft (skKind A ok))
        (do setInputDim (skKind A ok) inp; setOutputDim (skKind A ok) out; setDtype (skKind A ok) dt :
          NodeM (Sk Q α) α Unit Unit) :=
      .bind (soft_pre _) (setInputDim_soft _ _) fun _ => .bind (soft_pre _) (setOutputDim_soft _ _) fun _ => setDtype_soft _ _
    exact (this _).training
  generalize (init (skKind A ok) inp out dt st).2 = s at hinit
  induction cs generalizing s with
  | nil => exact hinit
  | cons c cs ih => exact ih _ ((call_tr A ok (fun a => ⟨_, hA a⟩) c s).trans hinit)

/-! ### Classifiers -/

/-- The classes which `wrap_scikits_classifier` makes: `fit` gets data and labels; `proba` is `predict_proba`, which some
algorithms have.  `_stop_training`, `_label` and `_prob` of the node (`_prob` is that of `ClassifierNode`, which raises
`NotImplementedError`, here `user 2`); the checks of the data are those of `execute`.
/repo/mdp/nodes/scikits_nodes.py 213-285, mdp/classifier_node.py 33-78. -/
structure ClsAlg (Q α L : Type) where
  fit : List α → List L → Except Err Q
  predict : Q → Arr α → Except Err (List L)
  proba : Option (Q → Arr α → Except Err (List (List (L × α))))

variable {L : Type}

/-- `_stop_training`: the first component of `Cum.stop` are the numbers of the data. -/
def clsStop (A : ClsAlg Q α L) (s : Classifier.Cum α L) : Except Err Q :=
  match s.stop with
  | .error _ => .error .value
  | .ok (d, l) => A.fit d l

/-- `_label`: a column. -/
def clsLabel (A : ClsAlg Q α L) (m : Q) (x : Arr α) : Except Err (List (List L)) := (A.predict m x).map fun l => l.map fun a => [a]

/-- `_prob`, used by `prob` and `rank`. -/
def clsProb (_A : ClsAlg Q α L) (_m : Q) (_x : Arr α) : Except Err (List (List (L × α))) := .error (.user 2)

/-- **C345.** A classifier is fitted with all the rows and all the labels of the training calls, in their order, and labels
each row with what the algorithm predicts for it. -/
theorem cls_trained (A : ClsAlg Q α L) (cs : List (List (List α) × List L)) (h : ∀ c ∈ cs, c.2.length = c.1.length)
    (m : Q) (x : Arr α) (l : List L) (hp : A.predict m x = .ok l) :
    (∃ s, Classifier.Cum.new.trainAll (cs.map fun c => (c.1, .array1 c.2)) = (none, s) ∧
      clsStop A s = A.fit (cs.flatMap fun c => c.1).flatten (cs.flatMap fun c => c.2)) ∧
    clsLabel A m x = .ok (l.map fun a => [a]) := by
  obtain ⟨s, h1, h2, _⟩ := Classifier.labels_collected cs h
  refine ⟨⟨s, h1, ?_⟩, ?_⟩
  · unfold clsStop; rw [h2]
  · simp [clsLabel, hp, Except.map]

/-- `prob` gives the probabilities of the algorithm, if it has them. -/
def ProbRight (A : ClsAlg Q α L) : Prop := ∀ f, A.proba = some f → ∀ m x, clsProb A m x = f m x

/-- **C345, false.** `prob` (and so `rank`) raises for every classifier of sklearn, also for those that give probabilities,
although its docstring is taken from `predict_proba`. -/
theorem cls_prob_violation (A : ClsAlg Q α L) (f : Q → Arr α → Except Err (List (List (L × α)))) (hf : A.proba = some f)
    (m : Q) (x : Arr α) (p : List (List (L × α))) (hp : f m x = .ok p) :
    clsProb A m x = .error (.user 2) ∧ ¬ ProbRight A :=
  ⟨rfl, fun h => by have := h f hf m x; rw [hp] at this; cases this⟩

/-! ## Cases that meet the hypotheses -/

/-- An algorithm that keeps the first column, and refuses fewer than three rows. -/
def exAlg : Alg Nat Nat where
  fit a := if a.nrows < 3 then .error (.user 7) else .ok a.nrows
  apply m x := .ok ⟨2, 1, x.dtype, x.data.map fun r => [r.headD 0 + m]⟩

def exChunks : List (Arr Nat) := [⟨2, 2, 1, [[1, 2], [3, 4]]⟩, ⟨2, 2, 1, [[5, 6]]⟩]

example : exChunks ≠ [] ∧ (∀ c ∈ exChunks, Fits 2 c) ∧ (∀ c ∈ exChunks.head?, c.dtype = 1) ∧
    exAlg.fit (joined 2 1 exChunks) = .ok 3 ∧ (∀ x y, exAlg.apply 3 x = .ok y → y.cols ≠ 2) := by
  refine ⟨by simp [exChunks], by simp [exChunks, Fits, Arr.nrows], by simp [exChunks], rfl, ?_⟩
  intro x y h
  simp only [exAlg, Except.ok.injEq] at h
  subst h
  simp

example : exAlg.fit (joined 2 1 [⟨2, 2, 1, [[1, 2]]⟩]) = .error (.user 7) := rfl

/-- A regressor without targets. -/
def exReg : Alg Nat Nat := ⟨fun _ => .error .type, fun _ x => .ok x⟩

example : Reachable (skKind exReg fun _ => true)
    (runCalls (skKind exReg fun _ => true) (init (skKind exReg fun _ => true) none none none Sk.new).2
      [.train ⟨2, 1, 1, [[1]]⟩ [], .stop]) := ⟨none, none, none, Sk.new, _, rfl, rfl⟩

/-- A classifier with probabilities. -/
def exCls : ClsAlg Nat Nat Bool :=
  ⟨fun d _ => .ok d.length, fun m x => .ok (x.data.map fun r => r.length < m),
   some fun _ x => .ok (x.data.map fun _ => [(true, 1)])⟩

example : exCls.predict 3 ⟨2, 1, 1, [[1], [2]]⟩ = .ok [true, true] ∧
    (exCls.proba.map fun f => f 3 ⟨2, 1, 1, [[1]]⟩) = some (.ok [[(true, 1)]]) := ⟨rfl, rfl⟩

end Mdp.ScikitsNode
