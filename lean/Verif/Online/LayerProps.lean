import Verif.Online.Layer
import Verif.Online.Chunks

/-! # Online layers: lemmas and properties (C154, C155) -/

namespace Mdp.Online

open Py Mdp.Node Mdp.Flow Mdp.Layer

variable {σ α β : Type}

/-! ### Specification -/

/-- `node.train(b, *args)` for every array `b`, ending with the first exception. -/
def Mem.trainEach (args : List β) : List (Arr α) → Mem σ α β → Except Err Unit × Mem σ α β
  | [], m => (.ok (), m)
  | b :: r, m =>
    match m.train b args with
    | (.error e, m') => (.error e, m')
    | (.ok (), m') => Mem.trainEach args r m'

/-- The input dimension of a node. -/
def width (m : Mem σ α β) : Nat := (Dims.inp m).getD 0

/-- Column at which the input of the `i`-th node starts. -/
def moffset (ns : List (Mem σ α β)) (i : Nat) : Nat := ((ns.take i).map width).sum

/-- `m'` is the node `m` after its dtype was set to `t` and, if it is in training, it was trained with the arrays `bs`, all
calls having returned. -/
def TrainedAlone (t : DType) (args : List β) (bs : List (Arr α)) (m m' : Mem σ α β) : Prop :=
  ∃ m1, m.setDtype t = (.ok (), m1) ∧
    (m.isTraining = true → m1.trainEach args bs = (.ok (), m')) ∧ (m.isTraining = false → m' = m1)

/-! ### Node classes with one training phase that only calls a function -/

/-- The phase calls `H` and hands the data on. -/
structure Single (K : OKind σ α β) (H : σ → Arr α → List β → Except Err Unit × σ) : Prop where
  phases : K.nPhases = 1
  hook : ∀ st x a, K.trainHook 0 st x a = ⟨(H st x a).2, [], (H st x a).1⟩
  pass : K.phaseExec 0 = some fun st x _ => ⟨st, [], .ok x⟩
  check : ∀ st x, K.checkParams st x = ⟨st, [], .ok ()⟩
  args : ∀ st x a, K.checkTrainArgs st x a = .ok ()

/-- `H` for one array after the other. -/
def feedBlocks (H : σ → Arr α → List β → Except Err Unit × σ) (args : List β) :
    List (Arr α) → σ → Except Err Unit × σ
  | [], st => (.ok (), st)
  | b :: r, st =>
    match H st b args with
    | (.error e, st') => (.error e, st')
    | (.ok (), st') => feedBlocks H args r st'

theorem runHook_plain {r : Type} (K : Kind σ α β) (st : σ) (res : Except Err r) (s : St σ α β) :
    runHook K ⟨st, [], res⟩ s = (res, { s with st := st }) := rfl

theorem runPhases_single {K : OKind σ α β} {H : σ → Arr α → List β → Except Err Unit × σ} (hK : Single K H)
    (args : List β) (x : Arr α) (s : OSt σ α β) :
    (runPhases K args (List.range K.nPhases) x s).1 = (H s.node.st x args).1 ∧
    (runPhases K args (List.range K.nPhases) x s).2.node.st = (H s.node.st x args).2 := by
  rw [hK.phases, show List.range 1 = [0] from rfl, runPhases]
  simp only [M.bind_def, M.get_def, olog, onNode, hK.hook, runHook_plain]
  generalize H s.node.st x args = z
  obtain ⟨_ | u, st⟩ := z
  · exact ⟨rfl, rfl⟩
  · simp only [hK.pass, M.bind_def, M.get_def, runPhases]
    exact ⟨rfl, rfl⟩

theorem runRows_single {K : OKind σ α β} {H : σ → Arr α → List β → Except Err Unit × σ} (hK : Single K H)
    (args : List β) (x : Arr α) (l : List (List α)) (s : OSt σ α β) :
    (runRows K args x l s).1 = (feedBlocks H args (l.map fun r => { x with data := [r] }) s.node.st).1 ∧
    (runRows K args x l s).2.node.st = (feedBlocks H args (l.map fun r => { x with data := [r] }) s.node.st).2 := by
  induction l generalizing s with
  | nil => exact ⟨rfl, rfl⟩
  | cons q r ih =>
    rw [runRows, List.map_cons, feedBlocks]
    simp only [M.bind_def]
    obtain ⟨h1, h2⟩ := runPhases_single hK args { x with data := [q] } s
    generalize runPhases K args (List.range K.nPhases) { x with data := [q] } s = z at h1 h2
    generalize H s.node.st { x with data := [q] } args = z' at h1 h2
    obtain ⟨r1, s1⟩ := z
    obtain ⟨r2, s2⟩ := z'
    simp only at h1 h2
    subst h1
    cases r1 with
    | error e => exact ⟨rfl, h2⟩
    | ok u =>
      simp only [M.modify_def]
      rw [← h2]
      exact ih { s1 with iter := s1.iter + 1 }

theorem checkInput_st (K : Kind σ α β) (x : Arr α) (s : St σ α β) : (checkInput K x s).2.st = s.st := by
  have hR : M.Pre (fun s t : St σ α β => t.st = s.st) := ⟨fun _ => rfl, fun h h' => h'.trans h⟩
  have h1 : ∀ n, M.Moves (fun s t : St σ α β => t.st = s.st) (setInputDim K n) := by
    intro n s; unfold setInputDim setInputDimRaw; repeat' split
    all_goals rfl
  have h3 : ∀ n, M.Moves (fun s t : St σ α β => t.st = s.st) (Node.setDtype K n) := by
    intro n s; unfold Node.setDtype; repeat' split
    all_goals rfl
  suffices h : M.Moves (fun s t : St σ α β => t.st = s.st) (checkInput K x) from h s
  unfold checkInput
  refine .ite (.raise hR _) (.bind hR (.get hR) fun _ => .bind hR (.when hR (h1 _)) fun _ => .bind hR (.get hR) fun _ => ?_)
  refine .bind hR (.when hR (h3 _)) fun _ => .bind hR (.get hR) fun _ => ?_
  exact .ite (.raise hR _) (.ite (.raise hR _) (.pure hR _))

theorem ocheckInput_st (K : OKind σ α β) (x : Arr α) (s : OSt σ α β) :
    (ocheckInput K x s).2.node.st = s.node.st := by
  have hR : M.Pre (fun s t : OSt σ α β => t.node.st = s.node.st) := ⟨fun _ => rfl, fun h h' => h'.trans h⟩
  suffices h : M.Moves (fun s t : OSt σ α β => t.node.st = s.node.st) (ocheckInput K x) from h s
  unfold ocheckInput
  refine .bind hR (fun s => checkInput_st K.toKind x s.node) fun _ => .bind hR (.get hR) fun _ => .when hR ?_
  split
  · exact .raise hR _
  · exact .modify fun _ => rfl

/-- Training such a node: `H` is called for the blocks of the data. -/
theorem otrain_single {K : OKind σ α β} {H : σ → Arr α → List β → Except Err Unit × σ} (hK : Single K H)
    (x : Arr α) (args : List β) (s s1 : OSt σ α β) (hT : K.trainable = true) (ho : s.node.training = true)
    (hc : ocheckInput K x s = (.ok (), s1)) :
    ∃ t, s1.ttype = some t ∧ s.ttype.or K.types.head? = some t ∧
      (otrain K x args s).1 = (feedBlocks H args (blocks t (refcast s1.node.dtype x)) s.node.st).1 ∧
      (otrain K x args s).2.node.st = (feedBlocks H args (blocks t (refcast s1.node.dtype x)) s.node.st).2 := by
  obtain ⟨_, t, ht, ht'⟩ := ocheckInput_ok K x s s1 hc
  have hst := ocheckInput_st K x s
  rw [hc] at hst
  refine ⟨t, ht, ht', ?_⟩
  rw [otrain_eq, if_neg (by rw [hT]; decide), if_neg (by rw [ho]; decide)]
  unfold otail
  rw [M.bind_ok hc, M.bind_ok (M.get_def _), M.bind_ok (a := ()) (s' := s1) (by rw [M.lift_def, hK.args]),
    M.bind_ok (a := ()) (s' := s1) (by rw [hK.check]; rfl), M.bind_ok (M.modify_def _ _), M.bind_ok (M.get_def _)]
  dsimp only
  cases t with
  | incremental =>
    rw [if_pos ht, ← hst]
    exact runRows_single hK args _ _ _
  | batch =>
    rw [if_neg (by rw [ht]; decide)]
    have h := runPhases_single hK args (refcast s1.node.dtype x) { s1 with node := { s1.node with started := true } }
    simp only [M.bind_def, blocks, feedBlocks]
    dsimp only at h
    rw [← hst]
    generalize runPhases K args (List.range K.nPhases) (refcast s1.node.dtype x)
      { s1 with node := { s1.node with started := true } } = z at h
    generalize H s1.node.st (refcast s1.node.dtype x) args = z' at h
    obtain ⟨r1, s2⟩ := z
    obtain ⟨r2, s3⟩ := z'
    simp only at h
    obtain ⟨rfl, h⟩ := h
    cases r1 with
    | error e => exact ⟨rfl, h⟩
    | ok u => exact ⟨rfl, h⟩

/-- A successful training passed the checks. -/
theorem otrain_ok_checks (K : OKind σ α β) (x : Arr α) (args : List β) (s s' : OSt σ α β)
    (h : otrain K x args s = (.ok (), s')) :
    K.trainable = true ∧ s.node.training = true ∧ ∃ s1, ocheckInput K x s = (.ok (), s1) := by
  rw [otrain_eq] at h
  split at h
  · cases h
  · next h1 =>
    split at h
    · cases h
    · next h2 =>
      refine ⟨by simpa using h1, by simpa using h2, ?_⟩
      unfold otail at h
      obtain ⟨_, s1, h3, _⟩ := M.bind_eq_ok h
      exact ⟨s1, h3⟩

/-! ### Inner nodes: what setting the dtype and training keeps -/

/-- The dtype is set to `t`, which the class supports. -/
def Typed (t : DType) (m : Mem σ α β) : Prop := m.dtype = some t ∧ m.supported t = true

theorem nodeSetDtype_ok {K : Kind σ α β} {t : DType} {s s' : St σ α β} (h : Node.setDtype K (some t) s = (.ok (), s')) :
    s'.dtype = some t ∧ K.supported t = true ∧ s'.inputDim = s.inputDim ∧ s'.training = s.training := by
  unfold Node.setDtype at h
  simp only at h
  split at h
  · cases h
  · split at h
    · cases h
    · next h2 =>
      cases h
      exact ⟨rfl, by simpa using h2, rfl, rfl⟩

theorem setDtype_ok {t : DType} {m m' : Mem σ α β} (h : m.setDtype t = (.ok (), m')) :
    Typed t m' ∧ Dims.inp m' = Dims.inp m ∧ m'.isTraining = m.isTraining := by
  cases m with
  | plain K s =>
    obtain ⟨h1, rfl⟩ := Prod.mk.inj h
    obtain ⟨a, b, c, d⟩ := nodeSetDtype_ok (K := K) (t := t) (s := s) (Prod.ext h1 rfl)
    exact ⟨⟨a, b⟩, c, d⟩
  | online K s =>
    obtain ⟨h1, rfl⟩ := Prod.mk.inj h
    obtain ⟨a, b, c, d⟩ := nodeSetDtype_ok (K := K.toKind) (t := t) (s := s.node) (Prod.ext h1 rfl)
    exact ⟨⟨a, b⟩, c, d⟩

theorem setDtype_typed {t : DType} {m : Mem σ α β} (h : Typed t m) : m.setDtype t = (.ok (), m) := by
  obtain ⟨h1, h2⟩ := h
  cases m with
  | plain K s =>
    have h1 : s.dtype = some t := h1
    have h2 : K.supported t = true := h2
    have : Node.setDtype K (some t) s = (.ok (), s) := by
      unfold Node.setDtype
      simp only [h1, h2]
      cases s; cases h1; simp
    simp only [Mem.setDtype, this]
  | online K s =>
    have h1 : s.node.dtype = some t := h1
    have h2 : K.supported t = true := h2
    have : Node.setDtype K.toKind (some t) s.node = (.ok (), s.node) := by
      unfold Node.setDtype
      simp only [h1, h2]
      cases s with | mk n i tt tr => cases n; cases h1; simp
    simp only [Mem.setDtype, onNode, this]

/-- Everything in `train` but the hooks' private data: dimensions and dtype are only set once. -/
def SoftO (s t : OSt σ α β) : Prop :=
  (s.node.inputDim = none ∨ t.node.inputDim = s.node.inputDim) ∧
  (s.node.dtype = none ∨ t.node.dtype = s.node.dtype)

theorem softO_pre : M.Pre (SoftO : OSt σ α β → OSt σ α β → Prop) := by
  refine ⟨fun _ => ⟨.inr rfl, .inr rfl⟩, fun {a b c} h h' => ⟨?_, ?_⟩⟩
  · rcases h.1 with h1 | h1
    · exact .inl h1
    · rcases h'.1 with h2 | h2
      · exact .inl (h1 ▸ h2)
      · exact .inr (h2.trans h1)
  · rcases h.2 with h1 | h1
    · exact .inl h1
    · rcases h'.2 with h2 | h2
      · exact .inl (h1 ▸ h2)
      · exact .inr (h2.trans h1)

theorem onNode_softO {r : Type} {K : Kind σ α β} {m : NodeM σ α β r} (h : M.Moves (Soft K) m) :
    M.Moves SoftO (onNode m) := fun s => ⟨(h s.node).inp, (h s.node).dt⟩

theorem runPhases_softO (K : OKind σ α β) (args : List β) (l : List Nat) (x : Arr α) :
    M.Moves SoftO (runPhases K args l x) := by
  have p := softO_pre (σ := σ) (α := α) (β := β)
  induction l generalizing x with
  | nil => exact .pure p _
  | cons q r ih =>
    rw [runPhases]
    refine .bind p (.get p) fun s => .bind p (fun s => onNode_softO (runHook_soft _ _) s) fun _ => ?_
    split
    · exact ih x
    · refine .bind p (.get p) fun s => ?_
      exact .bind p (fun s => onNode_softO (runHook_soft _ _) s) fun y => ih y

theorem runRows_softO (K : OKind σ α β) (args : List β) (x : Arr α) (l : List (List α)) :
    M.Moves SoftO (runRows K args x l) := by
  have p := softO_pre (σ := σ) (α := α) (β := β)
  induction l with
  | nil => exact .pure p _
  | cons q r ih =>
    rw [runRows]
    exact .bind p (runPhases_softO K args _ _) fun _ => .bind p (.modify fun _ => ⟨.inr rfl, .inr rfl⟩) fun _ => ih

theorem ocheckInput_softO (K : OKind σ α β) (x : Arr α) : M.Moves SoftO (ocheckInput K x) := by
  have p := softO_pre (σ := σ) (α := α) (β := β)
  unfold ocheckInput
  refine .bind p (onNode_softO (checkInput_soft _ x)) fun _ => .bind p (.get p) fun s => ?_
  refine .when p ?_
  split
  · exact .raise p _
  · exact .modify fun _ => ⟨.inr rfl, .inr rfl⟩

theorem otrain_softO (K : OKind σ α β) (x : Arr α) (args : List β) : M.Moves SoftO (otrain K x args) := by
  have p := softO_pre (σ := σ) (α := α) (β := β)
  unfold otrain
  refine .ite (.raise p _) (.bind p (.get p) fun s => .ite (.raise p _) ?_)
  refine .bind p (ocheckInput_softO K x) fun _ => .bind p (.get p) fun s => ?_
  refine .bind p (.lift p _) fun _ => .bind p (onNode_softO (runHook_soft _ _)) fun _ => ?_
  refine .bind p (.modify fun _ => ⟨.inr rfl, .inr rfl⟩) fun _ => .bind p (.get p) fun s => ?_
  refine .ite (runRows_softO K args _ _) ?_
  exact .bind p (runPhases_softO K args _ _) fun _ => .modify fun _ => ⟨.inr rfl, .inr rfl⟩

theorem trainMem_keeps {x : Arr α} {args : List β} (m : Mem σ α β) :
    (∀ t, Typed t m → Typed t (m.train x args).2) ∧ (Dims.inp m ≠ none → Dims.inp (m.train x args).2 = Dims.inp m) ∧
    (m.train x args).2.isTraining = m.isTraining := by
  cases m with
  | plain K s =>
    have h := train_fwd K x args s
    have ht := train_training K x args s
    refine ⟨fun t ⟨h1, h2⟩ => ⟨?_, h2⟩, fun hn => ?_, ht⟩
    · rcases h.dt with h | h
      · have h1 : s.dtype = some t := h1
        rw [h] at h1; cases h1
      · exact h.trans h1
    · rcases h.inp with h | h
      · exact absurd h hn
      · exact h
  | online K s =>
    have h := otrain_softO K x args s
    have ht := (otrain_keepOpen K x args s).1
    refine ⟨fun t ⟨h1, h2⟩ => ⟨?_, h2⟩, fun hn => ?_, ht⟩
    · rcases h.2 with h | h
      · have h1 : s.node.dtype = some t := h1
        rw [h] at h1; cases h1
      · exact h.trans h1
    · rcases h.1 with h | h
      · exact absurd h hn
      · exact h

/-! ### Node by node -/

/-- `R a m m'` for every node `m` of the first list and the node `m'` at the same place of the second list, where `a` is the
column at which the input of the node starts. -/
def Side (R : Nat → Mem σ α β → Mem σ α β → Prop) : Nat → List (Mem σ α β) → List (Mem σ α β) → Prop
  | _, [], [] => True
  | a, m :: r, m' :: r' => R a m m' ∧ Side R (a + width m) r r'
  | _, _, _ => False

theorem side_mono {R S : Nat → Mem σ α β → Mem σ α β → Prop} (h : ∀ a m m', R a m m' → S a m m') :
    ∀ (a : Nat) (l l' : List (Mem σ α β)), Side R a l l' → Side S a l l'
  | _, [], [], h' => h'
  | a, m :: r, m' :: r', h' => ⟨h a m m' h'.1, side_mono h (a + width m) r r' h'.2⟩
  | _, [], _ :: _, h' => h'
  | _, _ :: _, [], h' => h'

theorem side_comp {R S : Nat → Mem σ α β → Mem σ α β → Prop} (hR : ∀ a m m', R a m m' → width m' = width m)
    (a : Nat) (l l'' : List (Mem σ α β)) :
    (∃ l', Side R a l l' ∧ Side S a l' l'') ↔ Side (fun a m m'' => ∃ m', R a m m' ∧ S a m' m'') a l l'' := by
  constructor
  · rintro ⟨l', h1, h2⟩
    induction l generalizing a l' l'' with
    | nil =>
      cases l' with
      | nil => cases l'' with
        | nil => trivial
        | cons _ _ => exact h2
      | cons _ _ => exact h1.elim
    | cons m r ih =>
      cases l' with
      | nil => exact h1.elim
      | cons m' r' =>
        cases l'' with
        | nil => exact h2.elim
        | cons m'' r'' =>
          refine ⟨⟨m', h1.1, h2.1⟩, ih _ _ _ h1.2 ?_⟩
          rw [← hR a m m' h1.1]; exact h2.2
  · intro h
    induction l generalizing a l'' with
    | nil =>
      cases l'' with
      | nil => exact ⟨[], trivial, trivial⟩
      | cons _ _ => exact h.elim
    | cons m r ih =>
      cases l'' with
      | nil => exact h.elim
      | cons m'' r'' =>
        obtain ⟨⟨m', h1, h2⟩, h3⟩ := h
        obtain ⟨r', h4, h5⟩ := ih _ _ h3
        refine ⟨m' :: r', ⟨h1, h4⟩, h2, ?_⟩
        rw [hR a m m' h1]; exact h5

theorem side_get {R : Nat → Mem σ α β → Mem σ α β → Prop} (a : Nat) (l l' : List (Mem σ α β)) :
    Side R a l l' ↔ l'.length = l.length ∧ ∀ i m m', l[i]? = some m → l'[i]? = some m' → R (a + moffset l i) m m' := by
  induction l generalizing a l' with
  | nil =>
    cases l' with
    | nil => simp [Side]
    | cons _ _ => simp [Side]
  | cons m r ih =>
    cases l' with
    | nil => simp [Side]
    | cons m' r' =>
      simp only [Side, ih, List.length_cons, Nat.add_right_cancel_iff]
      constructor
      · rintro ⟨h1, h2, h3⟩
        refine ⟨h2, fun i n n' hn hn' => ?_⟩
        cases i with
        | zero =>
          simp only [List.getElem?_cons_zero, Option.some.injEq] at hn hn'
          subst hn hn'
          simpa [moffset] using h1
        | succ i =>
          simp only [List.getElem?_cons_succ] at hn hn'
          have := h3 i n n' hn hn'
          have e : a + moffset (m :: r) (i + 1) = a + width m + moffset r i := by simp [moffset]; omega
          rw [e]; exact this
      · rintro ⟨h2, h3⟩
        refine ⟨by simpa [moffset] using h3 0 m m' rfl rfl, h2, fun i n n' hn hn' => ?_⟩
        have := h3 (i + 1) n n' (by simpa using hn) (by simpa using hn')
        have e : a + moffset (m :: r) (i + 1) = a + width m + moffset r i := by simp [moffset]; omega
        rw [e] at this; exact this

theorem msetDtypes_ok (t : DType) (a : Nat) (l l' : List (Mem σ α β)) :
    msetDtypes t l = (.ok (), l') ↔ Side (fun _ m m' => m.setDtype t = (.ok (), m')) a l l' := by
  induction l generalizing a l' with
  | nil => cases l' <;> simp [msetDtypes, Side]
  | cons m r ih =>
    cases l' with
    | nil =>
      simp only [msetDtypes, Side]
      split
      · simp
      · simp
    | cons m' r' =>
      simp only [msetDtypes, Side, ← ih]
      cases m.setDtype t with | mk q m1 => ?_
      cases q with
      | error e => simp
      | ok u =>
        cases msetDtypes t r with | mk q2 r1 => ?_
        simp only [Prod.mk.injEq, List.cons.injEq, true_and]
        constructor
        · rintro ⟨rfl, rfl, rfl⟩; exact ⟨rfl, rfl, rfl⟩
        · rintro ⟨rfl, rfl, rfl⟩; exact ⟨rfl, rfl, rfl⟩

theorem mtrainAll_ok (cut : Arr α → Nat → Nat → Arr α) (x : Arr α) (args : List β) (a : Nat) (l l' : List (Mem σ α β)) :
    mtrainAll cut x args a l = (.ok (), l') ↔
      Side (fun a m m' => Dims.inp m ≠ none ∧ m.step (cut x a (width m)) args = (.ok (), m')) a l l' := by
  induction l generalizing a l' with
  | nil => cases l' <;> simp [mtrainAll, Side]
  | cons m r ih =>
    cases l' with
    | nil =>
      simp only [mtrainAll, Side]
      split
      · simp
      · split <;> simp
    | cons m' r' =>
      simp only [mtrainAll, Side]
      cases hw : Dims.inp m with
      | none => simp
      | some w =>
        have e : width m = w := by simp [width, hw]
        simp only [e, ← ih]
        cases m.step (cut x a w) args with | mk q m1 => ?_
        cases q with
        | error e => simp
        | ok u =>
          cases mtrainAll cut x args (a + w) r with | mk q2 r1 => ?_
          simp only [Prod.mk.injEq, List.cons.injEq, true_and, ne_eq, reduceCtorEq, not_false_eq_true]
          constructor
          · rintro ⟨rfl, rfl, rfl⟩; exact ⟨rfl, rfl, rfl⟩
          · rintro ⟨rfl, rfl, rfl⟩; exact ⟨rfl, rfl, rfl⟩

/-- What the training hook of a layer does. -/
def layerH (cut : Arr α → Nat → Nat → Arr α) (ns : List (Mem σ α β)) (x : Arr α) (args : List β) :
    Except Err Unit × List (Mem σ α β) :=
  match msetDtypes x.dtype ns with
  | (.error e, ns') => (.error e, ns')
  | (.ok (), ns') => mtrainAll cut x args 0 ns'

theorem olayer_single (cut : Arr α → Nat → Nat → Arr α) (nodes : List (Mem σ α β)) :
    Single (olayerKind cut nodes) (layerH cut) where
  phases := rfl
  hook := fun st x a => by
    simp only [olayerKind, mwithDtype, layerH]
    rcases msetDtypes x.dtype st with ⟨q, l⟩
    cases q <;> rfl
  pass := rfl
  check := fun _ _ => rfl
  args := fun _ _ _ => rfl

/-- A node trained with a list of arrays, if it is in training. -/
def stepEach (args : List β) (bs : List (Arr α)) (m : Mem σ α β) : Except Err Unit × Mem σ α β :=
  if m.isTraining then m.trainEach args bs else (.ok (), m)

/-- One node of a layer: its dtype is set, then it is trained with its part of every block. -/
def Blk (cut : Arr α → Nat → Nat → Arr α) (t : DType) (args : List β) (bs : List (Arr α)) (a : Nat)
    (m m' : Mem σ α β) : Prop :=
  Dims.inp m ≠ none ∧ ∃ m1, m.setDtype t = (.ok (), m1) ∧
    stepEach args (bs.map fun b => cut b a (width m)) m1 = (.ok (), m')

theorem trainEach_keeps {args : List β} (bs : List (Arr α)) (m : Mem σ α β) :
    (∀ t, Typed t m → Typed t (m.trainEach args bs).2) ∧
    (Dims.inp m ≠ none → Dims.inp (m.trainEach args bs).2 = Dims.inp m) ∧
    (m.trainEach args bs).2.isTraining = m.isTraining := by
  induction bs generalizing m with
  | nil => exact ⟨fun _ h => h, fun _ => rfl, rfl⟩
  | cons b r ih =>
    obtain ⟨h1, h2, h3⟩ := trainMem_keeps (x := b) (args := args) m
    simp only [Mem.trainEach]
    cases hm : m.train b args with | mk q m1 => ?_
    rw [hm] at h1 h2 h3
    cases q with
    | error e => exact ⟨h1, h2, h3⟩
    | ok u =>
      obtain ⟨g1, g2, g3⟩ := ih m1
      exact ⟨fun t h => g1 t (h1 t h), fun h => (g2 (by rw [h2 h]; exact h)).trans (h2 h), g3.trans h3⟩

theorem stepEach_keeps {args : List β} (bs : List (Arr α)) (m m' : Mem σ α β) (h : stepEach args bs m = (.ok (), m')) :
    (∀ t, Typed t m → Typed t m') ∧ (Dims.inp m ≠ none → Dims.inp m' = Dims.inp m) ∧ m'.isTraining = m.isTraining := by
  unfold stepEach at h
  split at h
  · have := trainEach_keeps (args := args) bs m
    rw [h] at this; exact this
  · cases h; exact ⟨fun _ h => h, fun _ => rfl, rfl⟩

theorem stepEach_cons {args : List β} (b : Arr α) (bs : List (Arr α)) (m m' : Mem σ α β) :
    stepEach args (b :: bs) m = (.ok (), m') ↔ ∃ m1, m.step b args = (.ok (), m1) ∧ stepEach args bs m1 = (.ok (), m') := by
  unfold stepEach Mem.step
  by_cases ht : m.isTraining = true
  · simp only [ht, if_true, Mem.trainEach]
    have h3 := (trainMem_keeps (x := b) (args := args) m).2.2
    cases hm : m.train b args with | mk q m1 => ?_
    rw [hm] at h3
    cases q with
    | error e => simp
    | ok u =>
      have h3 : m1.isTraining = true := h3.trans ht
      constructor
      · intro h; exact ⟨m1, rfl, by rw [if_pos h3]; exact h⟩
      · rintro ⟨m2, h1, h2⟩
        cases h1
        rw [if_pos h3] at h2; exact h2
  · simp only [ht]
    constructor
    · intro h
      have : m = m' := by simpa using h
      subst this
      exact ⟨m, by simp, by simp [ht]⟩
    · rintro ⟨m1, h1, h2⟩
      have : m = m1 := by simpa using h1
      subst this
      simpa [ht] using h2

theorem blk_width {cut : Arr α → Nat → Nat → Arr α} {t : DType} {args : List β} {bs : List (Arr α)} (a : Nat)
    (m m' : Mem σ α β) (h : Blk cut t args bs a m m') : width m' = width m := by
  obtain ⟨h1, m1, h2, h3⟩ := h
  obtain ⟨_, g2, _⟩ := setDtype_ok h2
  obtain ⟨_, g5, _⟩ := stepEach_keeps _ _ _ h3
  unfold width
  rw [g5 (by rw [g2]; exact h1), g2]

theorem layerH_ok (cut : Arr α → Nat → Nat → Arr α) (x : Arr α) (args : List β) (l l' : List (Mem σ α β)) :
    layerH cut l x args = (.ok (), l') ↔ Side (Blk cut x.dtype args [x]) 0 l l' := by
  have hw : ∀ (a : Nat) (m m' : Mem σ α β), m.setDtype x.dtype = (.ok (), m') → width m' = width m := by
    intro a m m' h
    unfold width; rw [(setDtype_ok h).2.1]
  have h1 : layerH cut l x args = (.ok (), l') ↔
      ∃ l1, msetDtypes x.dtype l = (.ok (), l1) ∧ mtrainAll cut x args 0 l1 = (.ok (), l') := by
    unfold layerH
    cases msetDtypes x.dtype l with | mk q l1 => ?_
    cases q with
    | error e => simp
    | ok u => simp
  rw [h1]
  simp only [msetDtypes_ok x.dtype 0, mtrainAll_ok]
  rw [side_comp hw]
  have : ∀ (a : Nat) (m m'' : Mem σ α β), (∃ m', m.setDtype x.dtype = (.ok (), m') ∧ Dims.inp m' ≠ none ∧
      m'.step (cut x a (width m')) args = (.ok (), m'')) ↔ Blk cut x.dtype args [x] a m m'' := by
    intro a m m''
    unfold Blk
    constructor
    · rintro ⟨m', h1, h2, h3⟩
      rw [hw a m m' h1] at h3
      rw [(setDtype_ok h1).2.1] at h2
      refine ⟨h2, m', h1, ?_⟩
      rw [List.map_singleton, stepEach_cons]
      exact ⟨m'', h3, by unfold stepEach Mem.trainEach; split <;> rfl⟩
    · rintro ⟨h2, m', h1, h3⟩
      rw [List.map_singleton, stepEach_cons] at h3
      obtain ⟨m1, h3, h4⟩ := h3
      have : m1 = m'' := by
        unfold stepEach Mem.trainEach at h4
        split at h4 <;> exact (Prod.mk.inj h4).2
      subst this
      refine ⟨m', h1, by rw [(setDtype_ok h1).2.1]; exact h2, ?_⟩
      rw [hw a m m' h1]; exact h3
  constructor
  · exact side_mono (fun a m m' => (this a m m').1) 0 l l'
  · exact side_mono (fun a m m' => (this a m m').2) 0 l l'

/-- All blocks, all nodes: the blocks can be given to one node after the other. -/
theorem feed_layer (cut : Arr α → Nat → Nat → Arr α) (args : List β) (t : DType) (bs : List (Arr α)) (hb : bs ≠ [])
    (ht : ∀ b ∈ bs, b.dtype = t) (l l' : List (Mem σ α β)) :
    feedBlocks (layerH cut) args bs l = (.ok (), l') ↔ Side (Blk cut t args bs) 0 l l' := by
  induction bs generalizing l l' with
  | nil => exact absurd rfl hb
  | cons b r ih =>
    have hbt : b.dtype = t := ht b (by simp)
    have e1 : feedBlocks (layerH cut) args (b :: r) l = (.ok (), l') ↔
        ∃ l1, layerH cut l b args = (.ok (), l1) ∧ feedBlocks (layerH cut) args r l1 = (.ok (), l') := by
      simp only [feedBlocks]
      cases layerH cut l b args with | mk q l1 => ?_
      cases q with
      | error e => simp
      | ok u => simp
    rw [e1]
    cases r with
    | nil =>
      simp only [feedBlocks, layerH_ok, hbt]
      constructor
      · rintro ⟨l1, h1, h2⟩; cases h2; exact h1
      · intro h; exact ⟨l', h, rfl⟩
    | cons b' r' =>
      simp only [layerH_ok, hbt]
      simp only [ih (by simp) (fun c hc => ht c (by simp [hc]))]
      rw [side_comp (fun a m m' h => blk_width a m m' h)]
      have : ∀ (a : Nat) (m m'' : Mem σ α β), (∃ m', Blk cut t args [b] a m m' ∧ Blk cut t args (b' :: r') a m' m'') ↔
          Blk cut t args (b :: b' :: r') a m m'' := by
        intro a m m''
        constructor
        · rintro ⟨m', h1, h2⟩
          have hw := blk_width a m m' h1
          obtain ⟨g1, m1, g2, g3⟩ := h1
          obtain ⟨g4, m2, g5, g6⟩ := h2
          refine ⟨g1, m1, g2, ?_⟩
          rw [List.map_singleton, stepEach_cons] at g3
          obtain ⟨m3, g7, g8⟩ := g3
          have e : m3 = m' := by
            unfold stepEach Mem.trainEach at g8
            split at g8 <;> exact (Prod.mk.inj g8).2
          subst e
          rw [List.map_cons, stepEach_cons]
          refine ⟨m3, g7, ?_⟩
          have hty : Typed t m3 := (stepEach_keeps [cut b a (width m)] m1 m3
            (by rw [stepEach_cons]; exact ⟨m3, g7, by unfold stepEach Mem.trainEach; split <;> rfl⟩)).1 t (setDtype_ok g2).1
          rw [setDtype_typed hty] at g5
          cases g5
          rw [← hw]; exact g6
        · rintro ⟨g1, m1, g2, g3⟩
          rw [List.map_cons, stepEach_cons] at g3
          obtain ⟨m3, g7, g8⟩ := g3
          have g9 : stepEach args [cut b a (width m)] m1 = (.ok (), m3) := by
            rw [stepEach_cons]; exact ⟨m3, g7, by unfold stepEach Mem.trainEach; split <;> rfl⟩
          have hk := stepEach_keeps _ _ _ g9
          have hi : Dims.inp m3 = Dims.inp m := by
            rw [hk.2.1 (by rw [(setDtype_ok g2).2.1]; exact g1), (setDtype_ok g2).2.1]
          refine ⟨m3, ⟨g1, m1, g2, g9⟩, by rw [hi]; exact g1, m3, setDtype_typed (hk.1 t (setDtype_ok g2).1), ?_⟩
          have : width m3 = width m := by unfold width; rw [hi]
          rw [this]; exact g8
      constructor
      · exact side_mono (fun a m m' => (this a m m').1) 0 l l'
      · exact side_mono (fun a m m' => (this a m m').2) 0 l l'

theorem blk_iff (cut : Arr α → Nat → Nat → Arr α) (t : DType) (args : List β) (bs : List (Arr α)) (a : Nat)
    (m m' : Mem σ α β) (hm : Dims.inp m ≠ none) :
    Blk cut t args bs a m m' ↔ TrainedAlone t args (bs.map fun b => cut b a (width m)) m m' := by
  unfold Blk TrainedAlone
  constructor
  · rintro ⟨_, m1, h1, h2⟩
    have ht := (setDtype_ok h1).2.2
    refine ⟨m1, h1, fun h => ?_, fun h => ?_⟩
    · unfold stepEach at h2
      rw [if_pos (ht.trans h)] at h2; exact h2
    · unfold stepEach at h2
      rw [if_neg (by rw [ht, h]; decide)] at h2; exact (Prod.mk.inj h2).2.symm
  · rintro ⟨m1, h1, h2, h3⟩
    have ht := (setDtype_ok h1).2.2
    refine ⟨hm, m1, h1, ?_⟩
    unfold stepEach
    split
    · next h => exact h2 (ht.symm.trans h)
    · next h => rw [h3 (by rw [← ht]; simpa using h)]

theorem blocks_dtype (t : TType) (x : Arr α) : ∀ b ∈ blocks t x, b.dtype = x.dtype := by
  intro b hb
  cases t with
  | incremental =>
    simp only [blocks, List.mem_map] at hb
    obtain ⟨_, _, rfl⟩ := hb; rfl
  | batch =>
    simp only [blocks, List.mem_singleton] at hb
    rw [hb]

theorem layer_train_core (cut : Arr α → Nat → Nat → Arr α) (nodes : List (Mem σ α β)) (x : Arr α) (args : List β)
    (s s1 : OSt (List (Mem σ α β)) α β) (hT : nodes.any Mem.isTraining = true) (ho : s.node.training = true)
    (hi : ∀ m ∈ s.node.st, Dims.inp m ≠ none) (hc : ocheckInput (olayerKind cut nodes) x s = (.ok (), s1)) :
    ∃ t dt, s.ttype.or (some .incremental) = some t ∧ s1.node.dtype = some dt ∧
      ∀ l', ((otrain (olayerKind cut nodes) x args s).1 = .ok () ∧
          (otrain (olayerKind cut nodes) x args s).2.node.st = l') ↔
        l'.length = s.node.st.length ∧ ∀ i m m', s.node.st[i]? = some m → l'[i]? = some m' →
          TrainedAlone dt args
            ((blocks t { x with dtype := dt }).map fun b => cut b (moffset s.node.st i) (width m)) m m' := by
  obtain ⟨t, _, ht, h1, h2⟩ := otrain_single (olayer_single cut nodes) x args s s1 hT ho hc
  obtain ⟨hw, _⟩ := ocheckInput_ok _ x s s1 hc
  obtain ⟨dt, hdt⟩ : ∃ dt, s1.node.dtype = some dt := by
    cases h : s1.node.dtype with
    | none => exact absurd h hw.2.2.2
    | some d => exact ⟨d, rfl⟩
  refine ⟨t, dt, ht, hdt, fun l' => ?_⟩
  have hr : refcast s1.node.dtype x = { x with dtype := dt } := by rw [hdt]; rfl
  rw [hr] at h1 h2
  rw [h1, h2]
  have hne : blocks t { x with dtype := dt } ≠ [] := by
    cases t with
    | batch => simp [blocks]
    | incremental =>
      have : x.nrows ≠ 0 := Nat.pos_iff_ne_zero.1 hw.2.1
      simp only [blocks, ne_eq, List.map_eq_nil_iff]
      intro h
      apply this
      unfold Arr.nrows
      rw [h]; rfl
  have hf := feed_layer cut args dt (blocks t { x with dtype := dt }) hne
    (fun b hb => blocks_dtype t _ b hb) s.node.st l'
  have : (feedBlocks (layerH cut) args (blocks t { x with dtype := dt }) s.node.st).1 = .ok () ∧
      (feedBlocks (layerH cut) args (blocks t { x with dtype := dt }) s.node.st).2 = l' ↔
      feedBlocks (layerH cut) args (blocks t { x with dtype := dt }) s.node.st = (.ok (), l') := by
    constructor
    · rintro ⟨a, b⟩; exact Prod.ext a b
    · intro h; rw [h]; exact ⟨rfl, rfl⟩
  rw [this, hf, side_get]
  refine and_congr_right fun _ => ?_
  constructor
  · intro h i m m' hm hm'
    have := h i m m' hm hm'
    rw [Nat.zero_add, blk_iff _ _ _ _ _ _ _ (hi m (List.mem_of_getElem? hm))] at this
    exact this
  · intro h i m m' hm hm'
    rw [Nat.zero_add, blk_iff _ _ _ _ _ _ _ (hi m (List.mem_of_getElem? hm))]
    exact h i m m' hm hm'

theorem ocheckInput_accepts {K : OKind σ α β} {x : Arr α} {s : OSt σ α β} {dt : DType} {t0 : TType}
    (hty : K.types.head? = some t0) (hx : x.ndim = 2)
    (hn : x.data ≠ []) (hin : s.node.inputDim = some x.cols)
    (hd : s.node.dtype = some dt ∨ s.node.dtype = none ∧ dt = x.dtype ∧ K.supported dt = true) :
    ∃ s1, ocheckInput K x s = (.ok (), s1) ∧ s1.node.dtype = some dt := by
  have hn' : x.nrows ≠ 0 := by
    unfold Arr.nrows
    simpa using hn
  have hw : ∀ {c : Prop} [Decidable c] (m : NodeM σ α β Unit) (n : St σ α β), ¬ c → M.when c m n = (.ok (), n) := by
    intro c _ m n h
    unfold M.when
    rw [if_neg h]; rfl
  have h1 : ∃ n1, checkInput K.toKind x s.node = (.ok (), n1) ∧ n1.dtype = some dt := by
    unfold checkInput
    rw [if_neg (by simp [hx]), M.bind_ok (M.get_def _), M.bind_ok (hw _ _ (by rw [hin]; simp)), M.bind_ok (M.get_def _)]
    rcases hd with hd | ⟨hd, rfl, hs⟩
    · rw [M.bind_ok (hw _ _ (by rw [hd]; simp)), M.bind_ok (M.get_def _), if_neg (by simp [hin]), if_neg hn']
      exact ⟨_, rfl, hd⟩
    · have h2 : M.when (s.node.dtype = none) (Node.setDtype K.toKind (some x.dtype)) s.node =
          (.ok (), { s.node with dtype := some x.dtype }) := by
        unfold M.when
        rw [if_pos hd]
        unfold Node.setDtype
        simp [hd, hs]
      rw [M.bind_ok h2, M.bind_ok (M.get_def _), if_neg (by simp [hin]), if_neg hn']
      exact ⟨_, rfl, rfl⟩
  obtain ⟨n1, h1, h2⟩ := h1
  unfold ocheckInput
  have h3 : onNode (checkInput K.toKind x) s = (.ok (), { s with node := n1 }) := by unfold onNode; rw [h1]
  rw [M.bind_ok h3, M.bind_ok (M.get_def _)]
  cases hk : K.types with
  | nil => rw [hk] at hty; cases hty
  | cons t r =>
    by_cases ht : s.ttype = none
    · refine ⟨{ s with node := n1, ttype := some t }, ?_, h2⟩
      unfold M.when
      rw [if_pos ht]; rfl
    · refine ⟨{ s with node := n1 }, ?_, h2⟩
      unfold M.when
      rw [if_neg ht]; rfl

end Mdp.Online
