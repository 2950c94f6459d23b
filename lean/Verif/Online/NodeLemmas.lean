import Verif.Online.Node

/-! # Lemmas and specification vocabulary for `OnlineNode` -/

namespace Mdp.Online

open Py Mdp.Node

variable {σ α β : Type}

/-! ### Specification: what feeding one block of data through all phases means -/

/-- `evs` are the hook calls made when the block `x` is fed to the phases from `p` on and every hook
returns: each phase is trained on the block, then its execution function, if there is one, makes the
block for the next phase. -/
inductive Fed (K : OKind σ α β) (args : List β) : Nat → Arr α → List (OEvent α β) → Prop where
  | done (x : Arr α) : Fed K args K.nPhases x []
  | pair {p : Nat} {x : Arr α} {evs : List (OEvent α β)} (hp : p < K.nPhases)
      (hn : K.phaseExec p = none) (h : Fed K args (p + 1) x evs) :
      Fed K args p x (.train p x args true :: evs)
  | triple {p : Nat} {x y : Arr α} {evs : List (OEvent α β)} (hp : p < K.nPhases)
      (hn : K.phaseExec p ≠ none) (h : Fed K args (p + 1) y evs) :
      Fed K args p x (.train p x args true :: .pass p x (some y) :: evs)

/-- The same, but some hook raised: nothing is called after it. -/
inductive Broken (K : OKind σ α β) (args : List β) : Nat → Arr α → List (OEvent α β) → Prop where
  | train {p : Nat} {x : Arr α} (hp : p < K.nPhases) : Broken K args p x [.train p x args false]
  | pass {p : Nat} {x : Arr α} (hp : p < K.nPhases) (hn : K.phaseExec p ≠ none) :
      Broken K args p x [.train p x args true, .pass p x none]
  | pair {p : Nat} {x : Arr α} {evs : List (OEvent α β)} (hp : p < K.nPhases)
      (hn : K.phaseExec p = none) (h : Broken K args (p + 1) x evs) :
      Broken K args p x (.train p x args true :: evs)
  | triple {p : Nat} {x y : Arr α} {evs : List (OEvent α β)} (hp : p < K.nPhases)
      (hn : K.phaseExec p ≠ none) (h : Broken K args (p + 1) y evs) :
      Broken K args p x (.train p x args true :: .pass p x (some y) :: evs)

/-- The blocks an array is cut into: single samples, or the whole array. -/
def blocks (t : TType) (x : Arr α) : List (Arr α) :=
  match t with
  | .incremental => x.data.map fun row => { x with data := [row] }
  | .batch => [x]

/-- States of an online node that a program can observe. -/
def OReachable (K : OKind σ α β) (s : OSt σ α β) : Prop :=
  ∃ inp out dt st cs, (oinit K inp out dt st).1 = .ok () ∧ s = orunCalls K (oinit K inp out dt st).2 cs

/-! ### Everything but `stop_training` leaves the training state alone -/

/-- Training is neither closed nor reopened. -/
def KeepOpen (s t : OSt σ α β) : Prop :=
  t.node.training = s.node.training ∧ t.node.phase = s.node.phase

theorem keepOpen_pre : M.Pre (KeepOpen : OSt σ α β → OSt σ α β → Prop) :=
  ⟨fun _ => ⟨rfl, rfl⟩, fun h h' => ⟨h'.1.trans h.1, h'.2.trans h.2⟩⟩

theorem onNode_keepOpen {r : Type} {K : Kind σ α β} {m : NodeM σ α β r} (h : M.Moves (Soft K) m) :
    M.Moves KeepOpen (onNode m) := fun s => ⟨(h s.node).training, (h s.node).phase⟩

theorem olog_keepOpen {r : Type} (ev : Except Err r → OEvent α β) {m : OM σ α β r}
    (h : M.Moves KeepOpen m) : M.Moves KeepOpen (olog ev m) := fun s => h s

theorem ocheckInput_keepOpen (K : OKind σ α β) (x : Arr α) : M.Moves KeepOpen (ocheckInput K x) := by
  have p := keepOpen_pre (σ := σ) (α := α) (β := β)
  unfold ocheckInput
  refine .bind p (onNode_keepOpen (checkInput_soft _ x)) fun _ => .bind p (.get p) fun s => ?_
  refine .when p ?_
  split
  · exact .raise p _
  · exact .modify fun _ => ⟨rfl, rfl⟩

theorem runPhases_keepOpen (K : OKind σ α β) (args : List β) (l : List Nat) (x : Arr α) :
    M.Moves KeepOpen (runPhases K args l x) := by
  have p := keepOpen_pre (σ := σ) (α := α) (β := β)
  induction l generalizing x with
  | nil => exact .pure p _
  | cons q r ih =>
    rw [runPhases]
    refine .bind p (.get p) fun s => .bind p (olog_keepOpen _ (onNode_keepOpen (runHook_soft _ _))) fun _ => ?_
    split
    · exact ih x
    · refine .bind p (.get p) fun s => ?_
      exact .bind p (olog_keepOpen _ (onNode_keepOpen (runHook_soft _ _))) fun y => ih y

theorem runRows_keepOpen (K : OKind σ α β) (args : List β) (x : Arr α) (l : List (List α)) :
    M.Moves KeepOpen (runRows K args x l) := by
  have p := keepOpen_pre (σ := σ) (α := α) (β := β)
  induction l with
  | nil => exact .pure p _
  | cons q r ih =>
    rw [runRows]
    exact .bind p (runPhases_keepOpen K args _ _) fun _ => .bind p (.modify fun _ => ⟨rfl, rfl⟩) fun _ => ih

theorem otrain_keepOpen (K : OKind σ α β) (x : Arr α) (args : List β) :
    M.Moves KeepOpen (otrain K x args) := by
  have p := keepOpen_pre (σ := σ) (α := α) (β := β)
  unfold otrain
  refine .ite (.raise p _) (.bind p (.get p) fun s => .ite (.raise p _) ?_)
  refine .bind p (ocheckInput_keepOpen K x) fun _ => .bind p (.get p) fun s => ?_
  refine .bind p (.lift p _) fun _ => .bind p (onNode_keepOpen (runHook_soft _ _)) fun _ => ?_
  refine .bind p (.modify fun _ => ⟨rfl, rfl⟩) fun _ => .bind p (.get p) fun s => ?_
  refine .ite (runRows_keepOpen K args _ _) ?_
  exact .bind p (runPhases_keepOpen K args _ _) fun _ => .modify fun _ => ⟨rfl, rfl⟩

theorem oexecute_keepOpen (K : OKind σ α β) (x : Arr α) : M.Moves KeepOpen (oexecute K x) := by
  have p := keepOpen_pre (σ := σ) (α := α) (β := β)
  unfold oexecute opreExec
  refine .bind p ?_ fun _ => .bind p (.get p) fun s => olog_keepOpen _ (onNode_keepOpen (runHook_soft _ _))
  refine .bind p (.get p) fun s => .bind p (.when p (otrain_keepOpen K x [])) fun _ => ?_
  refine .bind p (ocheckInput_keepOpen K x) fun _ => .bind p (.get p) fun s => ?_
  refine .bind p (onNode_keepOpen (runHook_soft _ _)) fun _ => .bind p (.get p) fun s => ?_
  exact .when p (onNode_keepOpen (setOutputDim_soft _ _))

theorem checkOutput_soft (K : Kind σ α β) (y : Arr α) :
    M.Moves (Soft K) (checkOutput y : NodeM σ α β Unit) := fun s => by
  rw [checkOutput_keep]; exact Soft.refl s

theorem oinverse_keepOpen (K : OKind σ α β) (y : Arr α) : M.Moves KeepOpen (oinverse K y) := by
  have p := keepOpen_pre (σ := σ) (α := α) (β := β)
  unfold oinverse opreInv
  refine .bind p ?_ fun _ => .bind p (.get p) fun s => olog_keepOpen _ (onNode_keepOpen (runHook_soft _ _))
  refine .ite (.raise p _) (.bind p (.get p) fun s => ?_)
  refine .bind p (.when p (.ite (.raise p _) (onNode_keepOpen (setOutputDim_soft K.toKind _)))) fun _ => ?_
  exact onNode_keepOpen (checkOutput_soft K.toKind y)

/-! ### `train` -/

/-- The hook calls of one pass through the phases, the iteration count and the dtype. -/
theorem runPhases_spec (K : OKind σ α β) (args : List β) (m p : Nat) (hm : p + m = K.nPhases) (x : Arr α)
    (s : OSt σ α β) : ∃ evs, (runPhases K args (List.range' p m) x s).2.trace = s.trace ++ evs ∧
      (runPhases K args (List.range' p m) x s).2.iter = s.iter ∧
      (runPhases K args (List.range' p m) x s).2.ttype = s.ttype ∧
      (s.node.dtype ≠ none → (runPhases K args (List.range' p m) x s).2.node.dtype = s.node.dtype) ∧
      ((runPhases K args (List.range' p m) x s).1 = .ok () → Fed K args p x evs) ∧
      (∀ e, (runPhases K args (List.range' p m) x s).1 = .error e → Broken K args p x evs) := by
  induction m generalizing p x s with
  | zero =>
    obtain rfl : p = K.nPhases := by omega
    exact ⟨[], by simp [runPhases], rfl, rfl, fun _ => rfl, fun _ => .done x, fun e h => by
      simp [runPhases] at h⟩
  | succ m ih =>
    have hp : p < K.nPhases := by omega
    rw [List.range'_succ, runPhases]
    simp only [M.bind_def, M.get_def]
    have hsoft := runHook_soft K.toKind (K.trainHook p s.node.st x args) s.node
    generalize hr : (runHook K.toKind (K.trainHook p s.node.st x args) s.node) = rr at hsoft
    obtain ⟨r1, n1⟩ := rr
    simp only [olog, onNode, hr]
    cases r1 with
    | error e =>
      refine ⟨[.train p x args false], rfl, rfl, rfl, fun h => ?_, fun h => (by cases h), fun e' _ => .train hp⟩
      exact hsoft.dt.resolve_left h
    | ok u =>
      simp only
      cases hx : K.phaseExec p with
      | none =>
        simp only
        obtain ⟨evs, h1, h2, h3, h4, h5, h6⟩ := ih (p + 1) (by omega) x
          { s with node := n1, trace := s.trace ++ [.train p x args true] }
        refine ⟨.train p x args true :: evs, by rw [show isOk (.ok u : Except Err Unit) = true from rfl, h1]; simp,
          h2, h3, fun h => ?_, fun h => .pair hp hx (h5 h), fun e h => .pair hp hx (h6 e h)⟩
        have hd := hsoft.dt.resolve_left h
        have := h4 (by simp only at hd ⊢; rw [hd]; exact h)
        exact this.trans hd
      | some f =>
        simp only [M.bind_def, M.get_def]
        have hsoft2 := runHook_soft K.toKind (f n1.st x args) n1
        generalize hr2 : (runHook K.toKind (f n1.st x args) n1) = rr at hsoft2
        obtain ⟨r2, n2⟩ := rr
        simp only [olog, onNode, hr2]
        have hne : K.phaseExec p ≠ none := by rw [hx]; simp
        have hd2 : s.node.dtype ≠ none → n2.dtype = s.node.dtype := fun h => by
          have h1 := hsoft.dt.resolve_left h
          simp only at h1
          have h2 := hsoft2.dt.resolve_left (by rw [h1]; exact h)
          exact h2.trans h1
        cases r2 with
        | error e =>
          refine ⟨[.train p x args true, .pass p x none], ?_, rfl, rfl, hd2, fun h => (by cases h),
            fun e' _ => .pass hp hne⟩
          simp [isOk, Except.toOption]
        | ok y =>
          simp only
          obtain ⟨evs, h1, h2, h3, h4, h5, h6⟩ := ih (p + 1) (by omega) y
            { s with node := n2, trace := (s.trace ++ [.train p x args true]) ++ [.pass p x (some y)] }
          refine ⟨.train p x args true :: .pass p x (some y) :: evs, ?_,
            h2, h3, fun h => ?_, fun h => .triple hp hne (h5 h), fun e h => .triple hp hne (h6 e h)⟩
          · rw [show isOk (.ok u : Except Err Unit) = true from rfl,
              show (Except.ok y : Except Err (Arr α)).toOption = some y from rfl, h1]
            simp
          · have := h4 (by simp only; rw [hd2 h]; exact h)
            exact this.trans (hd2 h)

theorem runRows_spec (K : OKind σ α β) (args : List β) (x : Arr α) (rows : List (List α)) (s : OSt σ α β) :
    ∃ (k : Nat) (full : List (List (OEvent α β))) (rest : List (OEvent α β)), k ≤ rows.length ∧
      List.Forall₂ (fun b evs => Fed K args 0 b evs)
        ((rows.map fun row => { x with data := [row] }).take k) full ∧
      (runRows K args x rows s).2.trace = s.trace ++ full.flatten ++ rest ∧
      (runRows K args x rows s).2.iter = s.iter + k ∧
      (runRows K args x rows s).2.ttype = s.ttype ∧
      (s.node.dtype ≠ none → (runRows K args x rows s).2.node.dtype = s.node.dtype) ∧
      ((runRows K args x rows s).1 = .ok () → k = rows.length ∧ rest = []) ∧
      (∀ e, (runRows K args x rows s).1 = .error e →
        ∃ b, (rows.map fun row => { x with data := [row] })[k]? = some b ∧ Broken K args 0 b rest) := by
  induction rows generalizing s with
  | nil =>
    exact ⟨0, [], [], by simp, by simp, by simp [runRows], by simp [runRows], rfl, fun _ => rfl,
      fun _ => ⟨rfl, rfl⟩, fun e h => by simp [runRows] at h⟩
  | cons row r ih =>
    rw [runRows]
    obtain ⟨evs, h1, h2, h3, h4, h5, h6⟩ := runPhases_spec K args K.nPhases 0 (by omega) { x with data := [row] } s
    rw [← List.range_eq_range'] at h1 h2 h3 h4 h5 h6
    generalize hr : runPhases K args (List.range K.nPhases) { x with data := [row] } s = rr at h1 h2 h3 h4 h5 h6
    obtain ⟨r1, s1⟩ := rr
    simp only [M.bind_def, hr]
    cases r1 with
    | error e =>
      refine ⟨0, [], evs, by omega, by simp, by simpa using h1, h2, h3, h4, fun h => (by cases h), fun e' _ => ?_⟩
      exact ⟨_, rfl, h6 e rfl⟩
    | ok u =>
      simp only [M.modify_def]
      obtain ⟨k, full, rest, g1, g2, g3, g4, g5, g6, g7, g8⟩ := ih { s1 with iter := s1.iter + 1 }
      refine ⟨k + 1, evs :: full, rest, by simp; omega, ?_, ?_, ?_, g5.trans h3, ?_, ?_, ?_⟩
      · simp only [List.map_cons, List.take_succ_cons]
        exact .cons (h5 rfl) g2
      · rw [g3]; simp only at h1; rw [h1]; simp
      · rw [g4]; simp only at h2 ⊢; rw [h2]; omega
      · intro h
        have hd := h4 h
        exact (g6 (by simp only at hd ⊢; rw [hd]; exact h)).trans hd
      · intro h
        have := g7 h
        exact ⟨by simp; omega, this.2⟩
      · intro e h
        obtain ⟨b, hb, hb'⟩ := g8 e h
        exact ⟨b, by simpa using hb, hb'⟩

/-- No hook of the training sequence was called and the count is unchanged. -/
def Quiet (s t : OSt σ α β) : Prop :=
  t.trace = s.trace ∧ t.iter = s.iter ∧ (s.ttype = none ∨ t.ttype = s.ttype)

theorem quiet_pre : M.Pre (Quiet : OSt σ α β → OSt σ α β → Prop) := by
  refine ⟨fun _ => ⟨rfl, rfl, .inr rfl⟩, fun h h' => ⟨h'.1.trans h.1, h'.2.1.trans h.2.1, ?_⟩⟩
  rcases h.2.2 with h1 | h1
  · exact .inl h1
  · rcases h'.2.2 with h2 | h2
    · exact .inl (h1 ▸ h2)
    · exact .inr (h2.trans h1)

theorem onNode_quiet {r : Type} (m : NodeM σ α β r) : M.Moves Quiet (onNode m) :=
  fun _ => ⟨rfl, rfl, .inr rfl⟩

theorem ocheckInput_quiet (K : OKind σ α β) (x : Arr α) : M.Moves Quiet (ocheckInput K x) := by
  have p := quiet_pre (σ := σ) (α := α) (β := β)
  unfold ocheckInput
  refine .bind p (onNode_quiet _) fun _ => ?_
  intro s
  simp only [M.bind_def, M.get_def, M.when]
  split
  · next h =>
    cases K.types with
    | nil => exact ⟨rfl, rfl, .inl h⟩
    | cons t r => exact ⟨rfl, rfl, .inl h⟩
  · exact ⟨rfl, rfl, .inr rfl⟩

/-- After a successful check the array fits and the training type is the chosen or the default one. -/
theorem ocheckInput_ok (K : OKind σ α β) (x : Arr α) (s s' : OSt σ α β)
    (h : ocheckInput K x s = (.ok (), s')) :
    WellFormed s'.node x ∧ ∃ t, s'.ttype = some t ∧ (s.ttype.or K.types.head?) = some t := by
  unfold ocheckInput at h
  obtain ⟨_, s1, h1, h⟩ := M.bind_eq_ok h
  obtain ⟨_, s2, h2, h⟩ := M.bind_eq_ok h
  cases h2
  have hs : s1.ttype = s.ttype := by
    unfold onNode at h1; rw [← (Prod.mk.inj h1).2]
  have hw : WellFormed s1.node x := by
    unfold onNode at h1
    obtain ⟨h3, h4⟩ := Prod.mk.inj h1
    rw [← h4]
    exact checkInput_ok K.toKind x s.node _ (Prod.ext h3 rfl)
  unfold M.when at h
  split at h
  · next hn =>
    cases ht : K.types with
    | nil => rw [ht] at h; cases h
    | cons t r =>
      rw [ht] at h
      cases h
      refine ⟨hw, t, rfl, ?_⟩
      rw [← hs, hn]; rfl
  · next hn =>
    obtain rfl : s1 = s' := (Prod.mk.inj h).2
    cases ht : s1.ttype with
    | none => exact absurd ht hn
    | some t => exact ⟨hw, t, rfl, by rw [← hs, ht]; rfl⟩

/-- Every way `train` can go. -/
theorem otrain_cases (K : OKind σ α β) (x : Arr α) (args : List β) (s : OSt σ α β) :
    (∃ e s', otrain K x args s = (.error e, s') ∧ Quiet s s') ∨
    (K.trainable = true ∧ s.node.training = true ∧
      ∃ (t : TType) (k : Nat) (full : List (List (OEvent α β))) (rest : List (OEvent α β)),
        s.ttype.or K.types.head? = some t ∧ (otrain K x args s).2.ttype = some t ∧
        (∃ d, (otrain K x args s).2.node.dtype = some d) ∧
        let bs := blocks t (refcast (otrain K x args s).2.node.dtype x)
        k ≤ bs.length ∧ List.Forall₂ (fun b evs => Fed K args 0 b evs) (bs.take k) full ∧
        (otrain K x args s).2.trace = s.trace ++ full.flatten ++ rest ∧
        (otrain K x args s).2.iter = s.iter + ((bs.take k).map Arr.nrows).sum ∧
        ((otrain K x args s).1 = .ok () → k = bs.length ∧ rest = []) ∧
        (∀ e, (otrain K x args s).1 = .error e → ∃ b, bs[k]? = some b ∧ Broken K args 0 b rest)) := by
  by_cases ht : K.trainable = true
  swap
  · exact .inl ⟨.notTrainable, s, by simp [otrain, ht], quiet_pre.refl s⟩
  by_cases htr : s.node.training = true
  swap
  · exact .inl ⟨.finished, s, by simp [otrain, ht, htr, M.bind_def], quiet_pre.refl s⟩
  have hq := ocheckInput_quiet K x s
  generalize h1 : ocheckInput K x s = r1 at hq
  obtain ⟨r1, s1⟩ := r1
  have he : otrain K x args s = ((do
      ocheckInput K x
      let s ← M.get
      M.lift (K.checkTrainArgs s.node.st x args)
      onNode (runHook K.toKind (K.checkParams s.node.st x))
      M.modify (fun s => { s with node := { s.node with started := true } })
      let s ← M.get
      let x' := refcast s.node.dtype x
      if s.ttype = some TType.incremental then runRows K args x' x'.data
      else do
        runPhases K args (List.range K.nPhases) x'
        M.modify (fun s => { s with iter := s.iter + x'.nrows }) : OM σ α β Unit)) s := by
    simp [otrain, ht, htr, M.bind_def]
  rw [he]
  cases r1 with
  | error e => exact .inl ⟨e, s1, by rw [M.bind_error h1], hq⟩
  | ok u =>
    obtain ⟨hw, t, ht1, ht2⟩ := ocheckInput_ok K x s s1 h1
    rw [M.bind_ok h1, M.bind_ok (M.get_def s1)]
    cases h2 : K.checkTrainArgs s1.node.st x args with
    | error e => exact .inl ⟨e, s1, rfl, hq⟩
    | ok u =>
      rw [M.bind_ok (M.lift_def _ s1)]
      have hq2 := onNode_quiet (runHook K.toKind (K.checkParams s1.node.st x)) s1
      have hs2 := runHook_soft K.toKind (K.checkParams s1.node.st x) s1.node
      generalize h3 : onNode (runHook K.toKind (K.checkParams s1.node.st x)) s1 = r3 at hq2
      obtain ⟨r3, s3⟩ := r3
      have hn3 : s3.node = (runHook K.toKind (K.checkParams s1.node.st x) s1.node).2 := by
        unfold onNode at h3; rw [← (Prod.mk.inj h3).2]
      have ht3 : s3.ttype = some t := by
        unfold onNode at h3; rw [← (Prod.mk.inj h3).2]; exact ht1
      rw [← hn3] at hs2
      cases r3 with
      | error e => exact .inl ⟨e, s3, by rw [M.bind_error h3], quiet_pre.trans hq hq2⟩
      | ok u =>
        rw [M.bind_ok h3, M.bind_ok (M.modify_def _ _), M.bind_ok (M.get_def _)]
        have hdt : s3.node.dtype ≠ none := by
          rw [hs2.dt.resolve_left hw.2.2.2]; exact hw.2.2.2
        have hq3 := quiet_pre.trans hq hq2
        refine .inr ⟨ht, htr, ?_⟩
        obtain ⟨s4, hs4⟩ : ∃ s4 : OSt σ α β, s4 = { s3 with node := { s3.node with started := true } } := ⟨_, rfl⟩
        have e1 : s4.ttype = some t := by rw [hs4]; exact ht3
        have e2 : s4.trace = s.trace := by rw [hs4]; exact hq3.1
        have e3 : s4.iter = s.iter := by rw [hs4]; exact hq3.2.1
        have e4 : s4.node.dtype ≠ none := by rw [hs4]; exact hdt
        rw [← hs4]
        clear hs4 hdt ht3 hq3 hs2 hn3 h3 hq2 hq he
        obtain ⟨d, hd⟩ := Option.ne_none_iff_exists'.mp e4
        cases t with
        | incremental =>
          rw [if_pos e1]
          obtain ⟨k, full, rest, g1, g2, g3, g4, g5, g6, g7, g8⟩ := runRows_spec K args
            (refcast s4.node.dtype x) (refcast s4.node.dtype x).data s4
          have hd6 := g6 e4
          refine ⟨.incremental, k, full, rest, ht2, g5.trans e1, ?_⟩
          rw [hd6]
          refine ⟨⟨d, hd⟩, by simpa [blocks] using g1, g2, ?_, ?_, by simpa [blocks] using g7, g8⟩
          · rw [g3, e2]
          · rw [g4, e3]
            have hall : ∀ b ∈ (blocks .incremental (refcast s4.node.dtype x)).take k, Arr.nrows b = 1 := by
              intro b hb
              obtain ⟨row, _, rfl⟩ := List.mem_map.mp (List.mem_of_mem_take hb)
              rfl
            rw [List.map_congr_left (g := fun _ => 1) hall]
            simp only [List.map_const', List.sum_replicate_nat, List.length_take, blocks, List.length_map]
            omega
        | batch =>
          rw [if_neg (show ¬ (s4.ttype = some TType.incremental) by rw [e1]; simp)]
          obtain ⟨evs, g1, g2, g3, g4, g5, g6⟩ := runPhases_spec K args K.nPhases 0 (by omega)
            (refcast s4.node.dtype x) s4
          rw [← List.range_eq_range'] at g1 g2 g3 g4 g5 g6
          generalize hr : runPhases K args (List.range K.nPhases) (refcast s4.node.dtype x) s4 = rr at g1 g2 g3 g4 g5 g6
          obtain ⟨r5, s5⟩ := rr
          have hd4 := g4 e4
          simp only at hd4 g1 g2 g3
          cases r5 with
          | error e =>
            rw [M.bind_error hr]
            refine ⟨.batch, 0, [], evs, ht2, g3.trans e1, ⟨d, hd4.trans hd⟩, by simp, by simp, ?_, ?_,
              fun h => (by cases h), fun e' _ => ⟨_, rfl, ?_⟩⟩
            · simpa [e2] using g1
            · simpa [e3] using g2
            · simp only; rw [hd4]; exact g6 e rfl
          | ok u =>
            rw [M.bind_ok hr]
            simp only [M.modify_def]
            refine ⟨.batch, 1, [evs], [], ht2, g3.trans e1, ⟨d, hd4.trans hd⟩, by simp [blocks], ?_, ?_, ?_,
              fun _ => ⟨by simp [blocks], rfl⟩, fun e h => (by cases h)⟩
            · rw [hd4]; exact .cons (g5 rfl) .nil
            · simpa [e2] using g1
            · rw [g2, e3]
              simp [blocks, refcast, Arr.nrows]

/-! ### `stop_training` -/

/-- The state except for the private data and dims. -/
theorem runStops_spec (K : OKind σ α β) (l : List Nat) (s : OSt σ α β) :
    ∃ (k : Nat) (rest : List (OEvent α β)), k ≤ l.length ∧
      (runStops K l s).2.trace = s.trace ++ (l.take k).map (fun p => .stop p true) ++ rest ∧
      (runStops K l s).2.iter = s.iter ∧ Soft K.toKind s.node (runStops K l s).2.node ∧
      ((runStops K l s).1 = .ok () → k = l.length ∧ rest = []) ∧
      (∀ e, (runStops K l s).1 = .error e → ∃ p, l[k]? = some p ∧ rest = [.stop p false]) := by
  induction l generalizing s with
  | nil =>
    exact ⟨0, [], by simp, by simp [runStops], rfl, Soft.refl _, fun _ => ⟨rfl, rfl⟩,
      fun e h => by simp [runStops] at h⟩
  | cons p r ih =>
    rw [runStops]
    simp only [M.bind_def, M.get_def]
    have hsoft := runHook_soft K.toKind (K.stopHook p s.node.st) s.node
    generalize hr : (runHook K.toKind (K.stopHook p s.node.st) s.node) = rr at hsoft
    obtain ⟨r1, n1⟩ := rr
    simp only [olog, onNode, hr]
    cases r1 with
    | error e =>
      exact ⟨0, [.stop p false], by omega, by simp [isOk], rfl, hsoft, fun h => (by cases h),
        fun e' _ => ⟨p, rfl, rfl⟩⟩
    | ok u =>
      simp only
      obtain ⟨k, rest, h1, h2, h3, h4, h5, h6⟩ := ih { s with node := n1, trace := s.trace ++ [.stop p true] }
      refine ⟨k + 1, rest, by simp; omega, ?_, h3, hsoft.trans h4, fun h => ?_, fun e h => ?_⟩
      · rw [show isOk (.ok u : Except Err Unit) = true from rfl, h2]; simp
      · have := h5 h; exact ⟨by simp; omega, this.2⟩
      · obtain ⟨q, hq, hq'⟩ := h6 e h
        exact ⟨q, by simpa using hq, hq'⟩

/-- Every way `stop_training` can go. -/
theorem ostop_cases (K : OKind σ α β) (s : OSt σ α β) :
    (s.node.training = false ∧ ostop K s = (.error .finished, s)) ∨
    (s.node.training = true ∧ s.node.started = false ∧ ostop K s = (.error .training, s)) ∨
    (s.node.training = true ∧ s.node.started = true ∧ ∃ e k, k < K.nPhases ∧ (ostop K s).1 = .error e ∧
      (ostop K s).2.trace = s.trace ++ (List.range k).map (fun p => .stop p true) ++ [.stop k false] ∧
      (ostop K s).2.iter = s.iter ∧ Soft K.toKind s.node (ostop K s).2.node) ∨
    (s.node.training = true ∧ s.node.started = true ∧ (ostop K s).1 = .ok () ∧
      (ostop K s).2.trace = s.trace ++ (List.range K.nPhases).map (fun p => .stop p true) ∧
      (ostop K s).2.iter = s.iter ∧ (ostop K s).2.node.phase = K.nPhases ∧
      (ostop K s).2.node.training = false ∧ (ostop K s).2.node.started = false) := by
  by_cases htr : s.node.training = true
  swap
  · left; exact ⟨by simpa using htr, by simp [ostop, htr, M.bind_def]⟩
  by_cases hst : s.node.started = true
  swap
  · right; left; exact ⟨htr, by simpa using hst, by simp [ostop, htr, hst, M.bind_def]⟩
  right; right
  have he : ostop K s = (do
    runStops K (List.range K.nPhases)
    M.modify (fun s => { s with node := { s.node with phase := K.nPhases, started := false } })
    M.modify (fun s =>
      if remaining K.toKind s.node = 0 then { s with node := { s.node with training := false } } else s)) s := by
    simp [ostop, htr, hst, M.bind_def]
  obtain ⟨k, rest, h1, h2, h3, h4, h5, h6⟩ := runStops_spec K (List.range K.nPhases) s
  generalize hr : runStops K (List.range K.nPhases) s = rr at h2 h3 h4 h5 h6
  obtain ⟨r1, s1⟩ := rr
  cases r1 with
  | error e =>
    left
    rw [he, M.bind_error hr]
    obtain ⟨p, hp, rfl⟩ := h6 e rfl
    have hk : k < K.nPhases := by
      by_contra hc
      rw [List.getElem?_eq_none (by simpa using hc)] at hp
      cases hp
    rw [List.getElem?_range hk] at hp
    cases hp
    refine ⟨htr, hst, e, k, hk, rfl, ?_, h3, h4⟩
    simp only at h2 ⊢
    rw [h2, List.take_range, Nat.min_eq_left (by omega)]
  | ok u =>
    right
    rw [he, M.bind_ok hr, M.bind_ok (M.modify_def _ _)]
    simp only [M.modify_def]
    obtain ⟨rfl, rfl⟩ := h5 rfl
    have hrem : remaining K.toKind ({ s1.node with phase := (K.nPhases : Int), started := false }) = 0 := by
      simp [remaining]
    simp only [hrem, if_true]
    refine ⟨htr, hst, trivial, ?_, h3, trivial, trivial, trivial⟩
    simpa using h2

end Mdp.Online
