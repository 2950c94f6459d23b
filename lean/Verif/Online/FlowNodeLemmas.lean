import Verif.Online.FlowNode
import Verif.Online.LayerProps
import Verif.Online.CircularProps

/-! # Online flow nodes: specification and lemmas (C208 - C212) -/

namespace Mdp.Online

open Py Mdp.Node Mdp.Flow Mdp.Layer

variable {σ α β : Type}

/-! ### Specification -/

/-- `node.train(x, *args)` if the node is trainable. -/
def Mem.learns (x : Arr α) (args : List β) (m : Mem σ α β) : Except Err Unit × Mem σ α β :=
  if m.trainable then m.train x args else (.ok (), m)

/-- Training the nodes from number `i` on with one array, as an online flow does it: every trainable node is trained with
what the nodes before it make of the data, then executed to get the data for the next one. Nothing is executed that no
trainable node needs. -/
def walk (args : List β) : Nat → List (Mem σ α β) → Arr α → Except Err Unit × List (Mem σ α β)
  | _, [], _ => (.ok (), [])
  | i, m :: r, x =>
    match m.learns x args with
    | (.error e, m1) => (.error e, m1 :: r)
    | (.ok (), m1) =>
      if r.any Mem.trainable then
        match m1.execute x with
        | (.error e, m2) => (.error (.flowCR i e), m2 :: r)
        | (.ok y, m2) => ((walk args (i + 1) r y).1, m2 :: (walk args (i + 1) r y).2)
      else (.ok (), m1 :: r)

/-- `walk` for one array after the other. -/
def walks (args : List β) : List (Arr α) → List (Mem σ α β) → Except Err Unit × List (Mem σ α β)
  | [], ms => (.ok (), ms)
  | b :: r, ms =>
    match walk args 0 ms b with
    | (.error e, ms') => (.error e, ms')
    | (.ok (), ms') => walks args r ms'

/-- One round of the ring from node number `i` on: every node is trained, if it is trainable, and then executed. -/
def lap (args : List β) : Nat → List (Mem σ α β) → Arr α → Except Err (Arr α) × List (Mem σ α β)
  | _, [], x => (.ok x, [])
  | i, m :: r, x =>
    match m.learns x args with
    | (.error e, m1) => (.error e, m1 :: r)
    | (.ok (), m1) =>
      match m1.execute x with
      | (.error e, m2) => (.error (.flowCR i e), m2 :: r)
      | (.ok y, m2) => ((lap args (i + 1) r y).1, m2 :: (lap args (i + 1) r y).2)

/-- `n` rounds, each on the output of the one before. -/
def laps (args : List β) : Nat → List (Mem σ α β) → Arr α → Except Err (Arr α) × List (Mem σ α β)
  | 0, ms, x => (.ok x, ms)
  | n + 1, ms, x =>
    match lap args 0 ms x with
    | (.error e, ms') => (.error e, ms')
    | (.ok y, ms') => laps args n ms' y

/-- Training the ring: for every array `n` rounds, starting with the array or with the stored input, and the last output
is stored. `w` is the stored input. -/
def rounds (args : List β) (n : Nat) (ignore : Bool) :
    List (Arr α) → List (Mem σ α β) → Option (Arr α) → Except Err Unit × List (Mem σ α β) × Option (Arr α)
  | [], ms, w => (.ok (), ms, w)
  | b :: r, ms, w =>
    match (if ignore then w else some b) with
    | none => (.error .training, ms, w)
    | some z =>
      match laps args n ms z with
      | (.error e, ms') => (.error e, ms', w)
      | (.ok y, ms') => rounds args n ignore r ms' (some y)

/-- The flow nodes are of the classes they were at construction: the same nodes are trainable. -/
def SameTrainable (ms ms' : List (Mem σ α β)) : Prop := ms'.map Mem.trainable = ms.map Mem.trainable

/-! ### Which nodes are trainable never changes -/

theorem train_trainable (x : Arr α) (a : List β) (m : Mem σ α β) : (m.train x a).2.trainable = m.trainable := by
  cases m <;> rfl

theorem execute_trainable (x : Arr α) (m : Mem σ α β) : (m.execute x).2.trainable = m.trainable := by
  cases m <;> rfl

theorem stop_trainable (m : Mem σ α β) : m.stop.2.trainable = m.trainable := by
  cases m <;> rfl

theorem setDtype_trainable (t : DType) (m : Mem σ α β) : (m.setDtype t).2.trainable = m.trainable := by
  cases m <;> rfl

theorem setInp_trainable (n : Option Nat) (m : Mem σ α β) : (m.setInp n).2.trainable = m.trainable := by
  cases m <;> rfl

theorem learns_trainable (x : Arr α) (a : List β) (m : Mem σ α β) : (m.learns x a).2.trainable = m.trainable := by
  unfold Mem.learns
  split
  · exact train_trainable x a m
  · rfl

theorem walk_trainable (args : List β) (ms : List (Mem σ α β)) :
    ∀ (i : Nat) (x : Arr α), SameTrainable ms (walk args i ms x).2 := by
  unfold SameTrainable
  induction ms with
  | nil => intro i x; rfl
  | cons m r ih =>
    intro i x
    unfold walk
    have h1 := learns_trainable x args m
    split
    · next e m1 he => rw [he] at h1; simp only [List.map_cons, h1]
    · next m1 he =>
      rw [he] at h1
      split
      · have h2 := execute_trainable x m1
        split
        · next e m2 he2 => rw [he2] at h2; simp only [List.map_cons, h1, h2]
        · next y m2 he2 => rw [he2] at h2; simp only [List.map_cons, h1, h2, ih]
      · simp only [List.map_cons, h1]

theorem lap_trainable (args : List β) (ms : List (Mem σ α β)) :
    ∀ (i : Nat) (x : Arr α), SameTrainable ms (lap args i ms x).2 := by
  unfold SameTrainable
  induction ms with
  | nil => intro i x; rfl
  | cons m r ih =>
    intro i x
    unfold lap
    have h1 := learns_trainable x args m
    split
    · next e m1 he => rw [he] at h1; simp only [List.map_cons, h1]
    · next m1 he =>
      rw [he] at h1
      have h2 := execute_trainable x m1
      split
      · next e m2 he2 => rw [he2] at h2; simp only [List.map_cons, h1, h2]
      · next y m2 he2 => rw [he2] at h2; simp only [List.map_cons, h1, h2, ih]

theorem laps_trainable (args : List β) (n : Nat) :
    ∀ (ms : List (Mem σ α β)) (x : Arr α), SameTrainable ms (laps args n ms x).2 := by
  induction n with
  | zero => intro ms x; rfl
  | succ n ih =>
    intro ms x
    have h := lap_trainable args ms 0 x
    unfold laps
    split
    · next e ms' he => rw [he] at h; exact h
    · next y ms' he => rw [he] at h; exact (ih ms' y).trans h

theorem msetDtypes_trainable (t : DType) (ms : List (Mem σ α β)) : SameTrainable ms (msetDtypes t ms).2 := by
  unfold SameTrainable
  induction ms with
  | nil => rfl
  | cons m r ih =>
    have h1 := setDtype_trainable t m
    unfold msetDtypes
    split
    · next e m' he => rw [he] at h1; simp only [List.map_cons, h1]
    · next m' he => rw [he] at h1; simp only [List.map_cons, h1, ih]

theorem fsetInp_trainable (n : Nat) (ms : List (Mem σ α β)) : SameTrainable ms (fsetInp n ms).2 := by
  unfold SameTrainable
  cases ms with
  | nil => rfl
  | cons m r =>
    have h1 := setInp_trainable (some n) m
    simp only [fsetInp]
    split
    · next e m' he => rw [he] at h1; simp only [List.map_cons, h1]
    · next m' he => rw [he] at h1; simp only [List.map_cons, h1]

theorem forward_trainable (x : Arr α) (f : FN σ α β) : SameTrainable f.nodes (f.forward x).2.nodes := by
  have h1 : SameTrainable f.nodes (f.forwardInp x.cols).2.nodes := by
    unfold FN.forwardInp
    have h := fsetInp_trainable x.cols f.nodes
    split
    · rfl
    · split
      · next he => rw [he] at h; exact h
      · next he => rw [he] at h; exact h
  have h2 : ∀ g : FN σ α β, SameTrainable g.nodes (g.forwardDtype x.dtype).2.nodes := by
    intro g
    unfold FN.forwardDtype
    have h := msetDtypes_trainable x.dtype g.nodes
    split
    · rfl
    · split
      · next he => rw [he] at h; exact h
      · next he => rw [he] at h; exact h
  unfold FN.forward
  split
  · next he => rw [he] at h1; exact h1
  · next he => rw [he] at h1; exact (h2 _).trans h1

/-- Forwarding is done once. -/
theorem forward_done (x : Arr α) (f : FN σ α β) (h1 : f.inpSet = true) (h2 : f.dtSet = true) :
    f.forward x = (.ok (), f) := by
  unfold FN.forward FN.forwardInp
  rw [if_pos h1]
  simp only [FN.forwardDtype, h2, if_true]

theorem forward_sets (x : Arr α) (f f' : FN σ α β) (h : f.forward x = (.ok (), f')) :
    f'.inpSet = true ∧ f'.dtSet = true ∧ f'.stored = f.stored := by
  unfold FN.forward at h
  split at h
  · cases h
  · next g hg =>
    have hi : g.inpSet = true ∧ g.stored = f.stored := by
      unfold FN.forwardInp at hg
      split at hg
      · next h1 => cases hg; exact ⟨h1, rfl⟩
      · split at hg
        · cases hg
        · cases hg; exact ⟨rfl, rfl⟩
    unfold FN.forwardDtype at h
    split at h
    · next h1 => cases h; exact ⟨hi.1, h1, hi.2⟩
    · split at h
      · cases h
      · cases h; exact ⟨hi.1, rfl, hi.2⟩

theorem forward_stored (x : Arr α) (f : FN σ α β) : (f.forward x).2.stored = f.stored := by
  have h1 : (f.forwardInp x.cols).2.stored = f.stored := by
    unfold FN.forwardInp
    repeat' split
    all_goals rfl
  unfold FN.forward
  split
  · next he => rw [he] at h1; exact h1
  · next g he =>
    rw [he] at h1
    rw [← h1]
    unfold FN.forwardDtype
    repeat' split
    all_goals rfl

/-! ### The positions of the trainable nodes -/

theorem trainableNrs_congr (ms ms' : List (Mem σ α β)) (h : SameTrainable ms ms') (i : Nat) :
    trainableNrs i ms' = trainableNrs i ms := by
  induction ms generalizing ms' i with
  | nil =>
    cases ms' with
    | nil => rfl
    | cons a r => cases h
  | cons m r ih =>
    cases ms' with
    | nil => cases h
    | cons a q =>
      obtain ⟨h1, h2⟩ := List.cons.inj h
      unfold trainableNrs
      rw [h1, ih q h2]

theorem trainableNrs_nil (ms : List (Mem σ α β)) (i : Nat) (h : ms.any Mem.trainable = false) :
    trainableNrs i ms = [] := by
  induction ms generalizing i with
  | nil => rfl
  | cons m r ih =>
    simp only [List.any_cons, Bool.or_eq_false_iff] at h
    unfold trainableNrs
    rw [h.1]
    exact ih _ h.2

/-- A list with a trainable node: the nodes before the first one, and the rest. -/
theorem split_trainable (ms : List (Mem σ α β)) (h : ms.any Mem.trainable = true) :
    ∃ N m r, ms = N ++ m :: r ∧ N.any Mem.trainable = false ∧ m.trainable = true := by
  induction ms with
  | nil => cases h
  | cons m r ih =>
    cases hm : m.trainable with
    | true => exact ⟨[], m, r, rfl, rfl, hm⟩
    | false =>
      simp only [List.any_cons, hm, Bool.false_or] at h
      obtain ⟨N, m', r', rfl, h1, h2⟩ := ih h
      exact ⟨m :: N, m', r', rfl, by simp [hm, h1], h2⟩

theorem trainableNrs_append (N B : List (Mem σ α β)) (i : Nat) (h : N.any Mem.trainable = false) :
    trainableNrs i (N ++ B) = trainableNrs (i + N.length) B := by
  induction N generalizing i with
  | nil => rfl
  | cons m r ih =>
    simp only [List.any_cons, Bool.or_eq_false_iff] at h
    rw [List.cons_append, trainableNrs, h.1, if_neg (by decide), ih _ h.2, List.length_cons]
    congr 1
    omega

/-! ### Executing nodes that are not trainable -/

theorem cexec_append (N B : List (Mem σ α β)) (i : Nat) (x : Arr α) (k : Nat) :
    cexec i (N.length + k) (N ++ B) x =
      match cexec i N.length N x with
      | (.error e, N') => (.error e, N' ++ B)
      | (.ok y, N') => ((cexec (i + N.length) k B y).1, N' ++ (cexec (i + N.length) k B y).2) := by
  induction N generalizing i x with
  | nil => simp [cexec]
  | cons m r ih =>
    rw [show (m :: r).length + k = (r.length + k) + 1 by simp; omega, List.cons_append, List.length_cons]
    simp only [cexec]
    generalize m.execute x = z
    obtain ⟨res, m'⟩ := z
    cases res with
    | error e => rfl
    | ok y =>
      simp only [ih]
      rw [show i + 1 + r.length = i + (r.length + 1) by omega]
      generalize cexec (i + 1) r.length r y = q
      obtain ⟨res', r'⟩ := q
      cases res' <;> rfl

theorem cexec_append0 (N B : List (Mem σ α β)) (i : Nat) (x : Arr α) :
    cexec i N.length (N ++ B) x = ((cexec i N.length N x).1, (cexec i N.length N x).2 ++ B) := by
  have h := cexec_append N B i x 0
  rw [Nat.add_zero] at h
  rw [h]
  generalize cexec i N.length N x = q
  obtain ⟨res, N'⟩ := q
  cases res <;> rfl

theorem walk_skip (args : List β) (N B : List (Mem σ α β)) (i : Nat) (x : Arr α)
    (hN : N.any Mem.trainable = false) (hB : B.any Mem.trainable = true) :
    walk args i (N ++ B) x =
      match cexec i N.length N x with
      | (.error e, N') => (.error e, N' ++ B)
      | (.ok y, N') => ((walk args (i + N.length) B y).1, N' ++ (walk args (i + N.length) B y).2) := by
  induction N generalizing i x with
  | nil => rfl
  | cons m r ih =>
    simp only [List.any_cons, Bool.or_eq_false_iff] at hN
    rw [List.cons_append, walk]
    simp only [Mem.learns, hN.1]
    simp only [Bool.false_eq_true, if_false]
    rw [if_pos (by rw [List.any_append, hB, Bool.or_true])]
    simp only [List.length_cons, cexec]
    generalize m.execute x = z
    obtain ⟨res, m'⟩ := z
    cases res with
    | error e => rfl
    | ok y =>
      simp only [ih _ _ hN.2]
      rw [show i + 1 + r.length = i + (r.length + 1) by omega]
      generalize cexec (i + 1) r.length r y = q
      obtain ⟨res', r'⟩ := q
      cases res' <;> rfl

theorem lap_skip (args : List β) (N B : List (Mem σ α β)) (i : Nat) (x : Arr α)
    (hN : N.any Mem.trainable = false) :
    lap args i (N ++ B) x =
      match cexec i N.length N x with
      | (.error e, N') => (.error e, N' ++ B)
      | (.ok y, N') => ((lap args (i + N.length) B y).1, N' ++ (lap args (i + N.length) B y).2) := by
  induction N generalizing i x with
  | nil => rfl
  | cons m r ih =>
    simp only [List.any_cons, Bool.or_eq_false_iff] at hN
    rw [List.cons_append, lap]
    simp only [Mem.learns, hN.1]
    simp only [Bool.false_eq_true, if_false]
    simp only [List.length_cons, cexec]
    generalize m.execute x = z
    obtain ⟨res, m'⟩ := z
    cases res with
    | error e => rfl
    | ok y =>
      simp only [ih _ _ hN.2]
      rw [show i + 1 + r.length = i + (r.length + 1) by omega]
      generalize cexec (i + 1) r.length r y = q
      obtain ⟨res', r'⟩ := q
      cases res' <;> rfl

/-! ### The items one after the other -/

/-- The training and execution functions of the items in turn. -/
def runItems (args : List β) : List Item → FN σ α β → Arr α → Except Err (Arr α) × FN σ α β
  | [], f, x => (.ok x, f)
  | it :: r, f, x =>
    match it.train x args f with
    | (.error e, f1) => (.error e, f1)
    | (.ok (), f1) =>
      match it.pass x f1 with
      | (.error e, f2) => (.error e, f2)
      | (.ok y, f2) => runItems args r f2 y

theorem runItems_append (args : List β) (l l' : List Item) (f : FN σ α β) (x : Arr α) :
    runItems args (l ++ l') f x =
      match runItems args l f x with
      | (.error e, f') => (.error e, f')
      | (.ok y, f') => runItems args l' f' y := by
  induction l generalizing f x with
  | nil => rfl
  | cons it r ih =>
    simp only [List.cons_append, runItems]
    generalize it.train x args f = z
    obtain ⟨res, f1⟩ := z
    cases res with
    | error e => rfl
    | ok u =>
      dsimp only
      generalize it.pass x f1 = z2
      obtain ⟨res2, f2⟩ := z2
      cases res2 with
      | error e => rfl
      | ok y => exact ih f2 y

/-- forget the value -/
def void {r : Type} : Except Err r → Except Err Unit
  | .ok _ => .ok ()
  | .error e => .error e

/-- What the training sequence does with one array. -/
def fnRun (its : List Item) (f : FN σ α β) (x : Arr α) (args : List β) : Except Err Unit × FN σ α β :=
  match f.forward x with
  | (.error e, f') => (.error e, f')
  | (.ok (), f') => (void (runItems args its f' x).1, (runItems args its f' x).2)

theorem runPhases_rest (its : List Item) (fix : Bool) (out : Int) (nodes : List (Mem σ α β)) (args : List β)
    (pre l : List Item) (hits : its = pre ++ l) (hp : pre ≠ []) (x : Arr α) (s : OSt (FN σ α β) α β) :
    (runPhases (fnKind its fix out nodes) args (List.range' pre.length l.length) x s).1 =
      void (runItems args l s.node.st x).1 ∧
    (runPhases (fnKind its fix out nodes) args (List.range' pre.length l.length) x s).2.node.st =
      (runItems args l s.node.st x).2 := by
  induction l generalizing pre x s with
  | nil => exact ⟨rfl, rfl⟩
  | cons it r ih =>
    have hit : its[pre.length]? = some it := by rw [hits]; simp
    have hpl : pre.length ≠ 0 := fun h => hp (List.length_eq_zero_iff.1 h)
    have e1 : fnTrain its pre.length s.node.st x args =
        ⟨(it.train x args s.node.st).2, [], (it.train x args s.node.st).1⟩ := by
      unfold fnTrain
      rw [if_neg hpl]
      simp only [hit]
    rw [List.length_cons, List.range'_succ, runPhases]
    simp only [M.bind_def, M.get_def, olog, onNode]
    rw [show (fnKind its fix out nodes).trainHook = fnTrain its from rfl, e1]
    simp only [runHook_plain, runItems]
    generalize it.train x args s.node.st = z
    obtain ⟨res, f1⟩ := z
    cases res with
    | error e => exact ⟨rfl, rfl⟩
    | ok u =>
      have e2 : ∀ f : FN σ α β, fnPass its pre.length f x = ⟨(it.pass x f).2, [], (it.pass x f).1⟩ := by
        intro f; unfold fnPass; simp only [hit]
      have e3 : (fnKind its fix out nodes).phaseExec pre.length = some fun f x _ => fnPass its pre.length f x := rfl
      simp only [e3, M.bind_def, M.get_def, e2, runHook_plain]
      generalize it.pass x f1 = z2
      obtain ⟨res2, f2⟩ := z2
      cases res2 with
      | error e => exact ⟨rfl, rfl⟩
      | ok y =>
        have := ih (pre ++ [it]) (by rw [hits]; simp) (by simp) y
        rw [List.length_append, List.length_singleton] at this
        exact this _

theorem runPhases_items (its : List Item) (hne : its ≠ []) (fix : Bool) (out : Int) (nodes : List (Mem σ α β))
    (args : List β) (x : Arr α) (s : OSt (FN σ α β) α β) :
    (runPhases (fnKind its fix out nodes) args (List.range (fnKind its fix out nodes).nPhases) x s).1 =
      (fnRun its s.node.st x args).1 ∧
    (runPhases (fnKind its fix out nodes) args (List.range (fnKind its fix out nodes).nPhases) x s).2.node.st =
      (fnRun its s.node.st x args).2 := by
  obtain ⟨it, r, rfl⟩ := List.exists_cons_of_ne_nil hne
  have hn : (fnKind (it :: r) fix out nodes).nPhases = r.length + 1 := rfl
  rw [hn, List.range_eq_range', List.range'_succ, runPhases]
  simp only [M.bind_def, M.get_def, olog, onNode]
  have e1 : (fnKind (it :: r) fix out nodes).trainHook 0 s.node.st x args =
      ⟨(match s.node.st.forward x with
        | (.error e, f') => ((.error e, f') : Except Err Unit × FN σ α β)
        | (.ok (), f') => it.train x args f').2, [], (match s.node.st.forward x with
        | (.error e, f') => ((.error e, f') : Except Err Unit × FN σ α β)
        | (.ok (), f') => it.train x args f').1⟩ := by
    show fnTrain (it :: r) 0 s.node.st x args = _
    unfold fnTrain
    rw [if_pos rfl]
    generalize s.node.st.forward x = z
    obtain ⟨res, f1⟩ := z
    cases res <;> rfl
  rw [e1]
  simp only [runHook_plain, fnRun]
  generalize s.node.st.forward x = z
  obtain ⟨res, f0⟩ := z
  cases res with
  | error e => exact ⟨rfl, rfl⟩
  | ok u =>
    simp only [runItems]
    generalize it.train x args f0 = z
    obtain ⟨res, f1⟩ := z
    cases res with
    | error e => exact ⟨rfl, rfl⟩
    | ok u =>
      have e2 : ∀ f : FN σ α β, fnPass (it :: r) 0 f x = ⟨(it.pass x f).2, [], (it.pass x f).1⟩ := fun f => rfl
      have e3 : (fnKind (it :: r) fix out nodes).phaseExec 0 = some fun f x _ => fnPass (it :: r) 0 f x := rfl
      simp only [e3, M.bind_def, M.get_def, e2, runHook_plain]
      generalize it.pass x f1 = z2
      obtain ⟨res2, f2⟩ := z2
      cases res2 with
      | error e => exact ⟨rfl, rfl⟩
      | ok y =>
        have := runPhases_rest (it :: r) fix out nodes args [it] r rfl (by simp) y
        exact this _

/-! ### Training as a fold over the blocks -/

/-- The phases together apply `H`. -/
structure Runs (K : OKind σ α β) (H : σ → Arr α → List β → Except Err Unit × σ) : Prop where
  run : ∀ (args : List β) (x : Arr α) (s : OSt σ α β),
    (runPhases K args (List.range K.nPhases) x s).1 = (H s.node.st x args).1 ∧
    (runPhases K args (List.range K.nPhases) x s).2.node.st = (H s.node.st x args).2
  check : ∀ st x, K.checkParams st x = ⟨st, [], .ok ()⟩
  args : ∀ st x a, K.checkTrainArgs st x a = .ok ()

theorem runRows_runs {K : OKind σ α β} {H : σ → Arr α → List β → Except Err Unit × σ} (hK : Runs K H)
    (args : List β) (x : Arr α) (l : List (List α)) (s : OSt σ α β) :
    (runRows K args x l s).1 = (feedBlocks H args (l.map fun r => { x with data := [r] }) s.node.st).1 ∧
    (runRows K args x l s).2.node.st = (feedBlocks H args (l.map fun r => { x with data := [r] }) s.node.st).2 := by
  induction l generalizing s with
  | nil => exact ⟨rfl, rfl⟩
  | cons q r ih =>
    rw [runRows, List.map_cons, feedBlocks]
    simp only [M.bind_def]
    obtain ⟨h1, h2⟩ := hK.run args { x with data := [q] } s
    generalize runPhases K args (List.range K.nPhases) { x with data := [q] } s = z at h1 h2
    generalize H s.node.st { x with data := [q] } args = z' at h1 h2
    obtain ⟨r1, s1⟩ := z
    obtain ⟨r2, s2⟩ := z'
    simp only at h1 h2
    subst h1
    cases r1 with
    | error e => exact ⟨rfl, h2⟩
    | ok u =>
      simp only [M.modify_def]
      rw [← h2]
      exact ih { s1 with iter := s1.iter + 1 }

theorem otrain_runs {K : OKind σ α β} {H : σ → Arr α → List β → Except Err Unit × σ} (hK : Runs K H)
    (x : Arr α) (args : List β) (s s1 : OSt σ α β) (hT : K.trainable = true) (ho : s.node.training = true)
    (hc : ocheckInput K x s = (.ok (), s1)) :
    ∃ t, s.ttype.or K.types.head? = some t ∧
      (otrain K x args s).1 = (feedBlocks H args (blocks t (refcast s1.node.dtype x)) s.node.st).1 ∧
      (otrain K x args s).2.node.st = (feedBlocks H args (blocks t (refcast s1.node.dtype x)) s.node.st).2 := by
  obtain ⟨_, t, ht, ht'⟩ := ocheckInput_ok K x s s1 hc
  have hst := ocheckInput_st K x s
  rw [hc] at hst
  refine ⟨t, ht', ?_⟩
  rw [otrain_eq, if_neg (by rw [hT]; decide), if_neg (by rw [ho]; decide)]
  unfold otail
  rw [M.bind_ok hc, M.bind_ok (M.get_def _), M.bind_ok (a := ()) (s' := s1) (by rw [M.lift_def, hK.args]),
    M.bind_ok (a := ()) (s' := s1) (by rw [hK.check]; rfl), M.bind_ok (M.modify_def _ _), M.bind_ok (M.get_def _)]
  dsimp only
  cases t with
  | incremental =>
    rw [if_pos ht, ← hst]
    exact runRows_runs hK args _ _ _
  | batch =>
    rw [if_neg (by rw [ht]; decide)]
    have h := hK.run args (refcast s1.node.dtype x) { s1 with node := { s1.node with started := true } }
    simp only [M.bind_def, blocks, feedBlocks]
    dsimp only at h
    rw [← hst]
    generalize runPhases K args (List.range K.nPhases) (refcast s1.node.dtype x)
      { s1 with node := { s1.node with started := true } } = z at h
    generalize H s1.node.st (refcast s1.node.dtype x) args = z' at h
    obtain ⟨r1, s2⟩ := z
    obtain ⟨r2, s3⟩ := z'
    simp only at h
    obtain ⟨rfl, h⟩ := h
    cases r1 with
    | error e => exact ⟨rfl, h⟩
    | ok u => exact ⟨rfl, h⟩

end Mdp.Online
