import Verif.Parallel.Hinet
import Verif.Parallel.NodeJoinProps

/-!
# Forking and joining of hierarchical nodes: properties

C148: the law "train forks, then join them" is kept by layers, flow nodes and clone layers, to any depth. C149: results that
nodes gather in execution.
-/

namespace PHinet

variable {S U X : Type}

/-! ### Specification -/

/-- Training with one chunk after the other. -/
inductive Trained (N : PN S X) : S → List X → S → Prop where
  | nil (s) : Trained N s [] s
  | cons {s s1 s' x xs} : N.train s x = .ok s1 → Trained N s1 xs s' → Trained N s (x :: xs) s'

/-- Executing one chunk after the other, with the outputs. -/
inductive Executed (N : PN S X) : S → List X → List X → S → Prop where
  | nil (s) : Executed N s [] [] s
  | cons {s s1 s' x y xs ys} : N.exec s x = .ok (y, s1) → Executed N s1 xs ys s' → Executed N s (x :: xs) (y :: ys) s'

/-- What parallel training and execution rely on, for states with a property `I`. A fork of `s0` that is trained with a job
and then joined into a descendant `s` of `s0` is as good as training `s` with the job; the same for execution, if the node
asks for it, with the same outputs; otherwise execution does not change the node. -/
structure Lawful (N : PN S X) (I : S → Prop) : Prop where
  train_ok : ∀ {s x s'}, I s → N.train s x = .ok s' →
    I s' ∧ N.training s = true ∧ N.training s' = true ∧ N.execFork s' = N.execFork s
  exec_ok : ∀ {s x y s'}, I s → N.exec s x = .ok (y, s') →
    I s' ∧ N.training s' = N.training s ∧ N.execFork s' = N.execFork s ∧ (N.execFork s = false → s' = s)
  fork_ok : ∀ {s f}, I s → N.fork s = .ok f → I f ∧ N.training f = N.training s ∧ N.execFork f = N.execFork s
  trains : ∀ {s0 f prior s js}, I s0 → N.training s0 = true → N.fork s0 = .ok f → Trained N s0 prior s → js ≠ [] →
    ∀ s', Trained N s js s' ↔ ∃ f', Trained N f js f' ∧ N.join s f' = .ok s'
  execs : ∀ {s0 f prior outs s js}, I s0 → N.training s0 = false → N.execFork s0 = true → N.fork s0 = .ok f →
    Executed N s0 prior outs s → ∀ ys s', Executed N s js ys s' ↔ ∃ f', Executed N f js ys f' ∧ N.join s f' = .ok s'

/-! ### Runs -/

theorem trained_nil {N : PN S X} {s s' : S} : Trained N s [] s' ↔ s' = s := by
  constructor
  · intro h; cases h; rfl
  · rintro rfl; exact .nil _

theorem trained_cons {N : PN S X} {s s' : S} {x : X} {xs : List X} :
    Trained N s (x :: xs) s' ↔ ∃ s1, N.train s x = .ok s1 ∧ Trained N s1 xs s' := by
  constructor
  · intro h; cases h with | cons h1 h2 => exact ⟨_, h1, h2⟩
  · rintro ⟨s1, h1, h2⟩; exact .cons h1 h2

theorem trained_append {N : PN S X} {s s' : S} {xs ys : List X} :
    Trained N s (xs ++ ys) s' ↔ ∃ s1, Trained N s xs s1 ∧ Trained N s1 ys s' := by
  induction xs generalizing s with
  | nil => simp [trained_nil]
  | cons x xs ih =>
    simp only [List.cons_append, trained_cons, ih]
    constructor
    · rintro ⟨s1, h1, s2, h2, h3⟩; exact ⟨s2, ⟨s1, h1, h2⟩, h3⟩
    · rintro ⟨s2, ⟨s1, h1, h2⟩, h3⟩; exact ⟨s1, h1, s2, h2, h3⟩

theorem executed_nil {N : PN S X} {s s' : S} {ys : List X} : Executed N s [] ys s' ↔ ys = [] ∧ s' = s := by
  constructor
  · intro h; cases h; exact ⟨rfl, rfl⟩
  · rintro ⟨rfl, rfl⟩; exact .nil _

theorem executed_cons {N : PN S X} {s s' : S} {x : X} {xs ys : List X} :
    Executed N s (x :: xs) ys s' ↔ ∃ y s1 ys1, ys = y :: ys1 ∧ N.exec s x = .ok (y, s1) ∧ Executed N s1 xs ys1 s' := by
  constructor
  · intro h; cases h with | cons h1 h2 => exact ⟨_, _, _, rfl, h1, h2⟩
  · rintro ⟨y, s1, ys1, rfl, h1, h2⟩; exact .cons h1 h2

theorem executed_length {N : PN S X} {s s' : S} {xs ys : List X} (h : Executed N s xs ys s') : ys.length = xs.length := by
  induction h with
  | nil => rfl
  | cons _ _ ih => simp [ih]

theorem Lawful.trained {N : PN S X} {I : S → Prop} (L : Lawful N I) {s s' : S} {xs : List X} (hi : I s)
    (h : Trained N s xs s') : I s' ∧ N.training s' = N.training s ∧ N.execFork s' = N.execFork s := by
  induction h with
  | nil => exact ⟨hi, rfl, rfl⟩
  | cons h1 _ ih =>
    obtain ⟨a, b, c, d⟩ := L.train_ok hi h1
    obtain ⟨a', b', c'⟩ := ih a
    exact ⟨a', by rw [b', c, b], by rw [c', d]⟩

theorem Lawful.executed {N : PN S X} {I : S → Prop} (L : Lawful N I) {s s' : S} {xs ys : List X} (hi : I s)
    (h : Executed N s xs ys s') :
    I s' ∧ N.training s' = N.training s ∧ N.execFork s' = N.execFork s ∧ (N.execFork s = false → s' = s) := by
  induction h with
  | nil => exact ⟨hi, rfl, rfl, fun _ => rfl⟩
  | cons h1 _ ih =>
    obtain ⟨a, b, c, d⟩ := L.exec_ok hi h1
    obtain ⟨a', b', c', d'⟩ := ih a
    refine ⟨a', by rw [b', b], by rw [c', c], fun he => ?_⟩
    rw [d' (by rw [c, he]), d he]

/-! ### C148: many forks -/

/-- **C148**: a node that obeys the law can be trained with any number of forks: forking the node for every job, training
every fork with its (nonempty) job and joining the forks gives exactly the states that training the node with all the
chunks, in the order of the joins, gives. -/
theorem fork_join_train {N : PN S X} {I : S → Prop} (L : Lawful N I) {s0 f : S} (hi : I s0)
    (ht : N.training s0 = true) (hf : N.fork s0 = .ok f) (jobs : List (List X)) (hj : ∀ j ∈ jobs, j ≠ []) (s' : S) :
    Trained N s0 jobs.flatten s' ↔
      ∃ fs, List.Forall₂ (fun j f' => Trained N f j f') jobs fs ∧ fs.foldlM N.join s0 = .ok s' := by
  have key : ∀ (jobs : List (List X)) (prior : List X) (s : S), (∀ j ∈ jobs, j ≠ []) → Trained N s0 prior s →
      (Trained N s jobs.flatten s' ↔
        ∃ fs, List.Forall₂ (fun j f' => Trained N f j f') jobs fs ∧ fs.foldlM N.join s = .ok s') := by
    intro jobs
    induction jobs with
    | nil =>
      intro prior s _ _
      simp only [List.flatten_nil, trained_nil, List.forall₂_nil_left_iff]
      constructor
      · rintro rfl; exact ⟨[], rfl, rfl⟩
      · rintro ⟨fs, rfl, h⟩
        cases h
        rfl
    | cons j jobs ih =>
      intro prior s hj hs
      rw [List.flatten_cons, trained_append]
      constructor
      · rintro ⟨s1, h1, h2⟩
        obtain ⟨f', h3, h4⟩ := (L.trains hi ht hf hs (hj j (by simp)) s1).1 h1
        obtain ⟨fs, h5, h6⟩ := (ih (prior ++ j) s1 (fun k hk => hj k (by simp [hk]))
          (trained_append.2 ⟨s, hs, h1⟩)).1 h2
        refine ⟨f' :: fs, .cons h3 h5, ?_⟩
        rw [List.foldlM_cons, h4]
        exact h6
      · rintro ⟨fs, h1, h2⟩
        cases h1 with
        | cons h3 h5 =>
          rename_i f' fs
          rw [List.foldlM_cons] at h2
          cases h4 : N.join s f' with
          | error e => rw [h4] at h2; cases h2
          | ok s1 =>
            rw [h4] at h2
            have h1 := (L.trains hi ht hf hs (hj j (by simp)) s1).2 ⟨f', h3, h4⟩
            exact ⟨s1, h1, (ih (prior ++ j) s1 (fun k hk => hj k (by simp [hk]))
              (trained_append.2 ⟨s, hs, h1⟩)).2 ⟨fs, h5, h2⟩⟩
  exact key jobs [] s0 hj (.nil _)

/-- **C149**: the same for execution of a trained node that asks to be forked: outputs and the state after the joins are
those of executing all chunks in the order of the joins. -/
theorem fork_join_exec {N : PN S X} {I : S → Prop} (L : Lawful N I) {s0 f : S} (hi : I s0)
    (ht : N.training s0 = false) (he : N.execFork s0 = true) (hf : N.fork s0 = .ok f) (jobs : List (List X)) (outs : List (List X))
    (s' : S) :
    (∃ fs, List.Forall₂ (fun (p : List X × List X) f' => Executed N f p.1 p.2 f') (jobs.zip outs) fs ∧
        fs.foldlM N.join s0 = .ok s' ∧ jobs.length = outs.length) →
      Executed N s0 jobs.flatten outs.flatten s' := by
  have happ : ∀ {xs ys xs' ys' : List X} {s s1 s2 : S}, Executed N s xs ys s1 → Executed N s1 xs' ys' s2 →
      Executed N s (xs ++ xs') (ys ++ ys') s2 := by
    intro xs ys xs' ys' s s1 s2 h
    induction h with
    | nil => exact id
    | cons h1 _ ih => exact fun h2 => .cons h1 (ih h2)
  have key : ∀ (jobs outs : List (List X)) (prior zs : List X) (s : S), jobs.length = outs.length →
      Executed N s0 prior zs s → (∃ fs, List.Forall₂ (fun (p : List X × List X) f' => Executed N f p.1 p.2 f')
        (jobs.zip outs) fs ∧ fs.foldlM N.join s = .ok s') → Executed N s jobs.flatten outs.flatten s' := by
    intro jobs
    induction jobs with
    | nil =>
      rintro outs prior zs s hl hs ⟨fs, h1, h2⟩
      cases outs with
      | cons _ _ => simp at hl
      | nil =>
        simp only [List.zip_nil_right, List.forall₂_nil_left_iff] at h1
        subst h1
        cases h2
        exact .nil _
    | cons j jobs ih =>
      rintro outs prior zs s hl hs ⟨fs, h1, h2⟩
      cases outs with
      | nil => simp at hl
      | cons o outs =>
        rw [List.zip_cons_cons] at h1
        cases h1 with
        | cons h3 h5 =>
          rename_i f' fs
          rw [List.foldlM_cons] at h2
          cases h4 : N.join s f' with
          | error e => rw [h4] at h2; cases h2
          | ok s1 =>
            rw [h4] at h2
            have h1 := (L.execs hi ht he hf hs o s1).2 ⟨f', h3, h4⟩
            rw [List.flatten_cons, List.flatten_cons]
            exact happ h1 (ih outs _ _ s1 (by simpa using hl) (happ hs h1) ⟨fs, h5, h2⟩)
  rintro ⟨fs, h1, h2, h3⟩
  exact key jobs outs [] [] s0 h3 (.nil _) ⟨fs, h1, h2⟩

/-! ### Clone layers -/

/-- The chunks the node of a clone layer is trained with. -/
def cloneChunks (part : Nat → X → X) (n : Nat) (xs : List X) : List X :=
  xs.flatMap fun x => (List.range n).map fun i => part i x

theorem cloneTrain_iff {N : PN S X} {I : S → Prop} (L : Lawful N I) (part : Nat → X → X) (x : X) :
    ∀ (n i : Nat) {s : S}, I s → N.training s = true → ∀ s', (cloneTrain part N i n s x = .ok s' ↔
      Trained N s ((List.range' i n).map fun k => part k x) s') := by
  intro n
  induction n with
  | zero =>
    intro i s _ _ s'
    simp only [cloneTrain, List.range'_zero, List.map_nil, trained_nil, Except.ok.injEq]
    exact eq_comm
  | succ n ih =>
    intro i s hi ht s'
    simp only [cloneTrain, ht, if_true, List.range'_succ, List.map_cons, trained_cons]
    cases h : N.train s (part i x) with
    | error e => simp
    | ok s1 =>
      obtain ⟨a, b, c, _⟩ := L.train_ok hi h
      simp only [Except.ok.injEq, exists_eq_left']
      exact ih (i + 1) a c s'

theorem clone_trained {N : PN S X} {I : S → Prop} (L : Lawful N I) (part : Nat → X → X) (gather scatter : X → X)
    (n : Nat) : ∀ (xs : List X) {s : S}, I s → N.training s = true → ∀ s',
      (Trained (clone part gather scatter N n) s xs s' ↔ Trained N s (cloneChunks part n xs) s') := by
  intro xs
  induction xs with
  | nil => intro s _ _ s'; simp [cloneChunks, trained_nil]
  | cons x xs ih =>
    intro s hi ht s'
    have e : cloneChunks part n (x :: xs) = ((List.range' 0 n).map fun k => part k x) ++ cloneChunks part n xs := by
      simp [cloneChunks, List.range_eq_range']
    rw [e, trained_append, trained_cons]
    have h1 : ∀ s1, (clone part gather scatter N n).train s x = .ok s1 ↔
        Trained N s ((List.range' 0 n).map fun k => part k x) s1 := by
      intro s1
      simp only [clone, ht, if_true]
      exact cloneTrain_iff L part x n 0 hi ht s1
    constructor
    · rintro ⟨s1, h, h'⟩
      have h := (h1 s1).1 h
      obtain ⟨a, b, _⟩ := L.trained hi h
      exact ⟨s1, h, (ih a (by rw [b, ht]) s').1 h'⟩
    · rintro ⟨s1, h, h'⟩
      obtain ⟨a, b, _⟩ := L.trained hi h
      exact ⟨s1, (h1 s1).2 h, (ih a (by rw [b, ht]) s').2 h'⟩

theorem clone_executed {N : PN S X} (part : Nat → X → X) (gather scatter : X → X) (n : Nat) :
    ∀ (xs : List X) {s : S} (ys : List X) (s' : S), (Executed (clone part gather scatter N n) s xs ys s' ↔
      ∃ zs, ys = zs.map scatter ∧ Executed N s (xs.map gather) zs s') := by
  intro xs
  induction xs with
  | nil =>
    intro s ys s'
    simp only [executed_nil, List.map_nil]
    constructor
    · rintro ⟨rfl, rfl⟩; exact ⟨[], rfl, rfl, rfl⟩
    · rintro ⟨zs, rfl, rfl, rfl⟩; exact ⟨rfl, rfl⟩
  | cons x xs ih =>
    intro s ys s'
    simp only [executed_cons, List.map_cons, ih]
    constructor
    · rintro ⟨y, s1, ys1, rfl, h1, zs, rfl, h2⟩
      simp only [clone] at h1
      cases h : N.exec s (gather x) with
      | error e => rw [h] at h1; cases h1
      | ok r =>
        rw [h] at h1
        cases h1
        exact ⟨r.1 :: zs, rfl, r.1, r.2, zs, rfl, rfl, h2⟩
    · rintro ⟨zs, rfl, y, s1, ys1, rfl, h1, h2⟩
      refine ⟨scatter y, s1, ys1.map scatter, rfl, ?_, ys1, rfl, h2⟩
      simp only [clone, h1]

/-- **C148, C149** for `CloneLayer`: a clone layer of at least one clone obeys the law if its node does. -/
theorem clone_lawful {N : PN S X} {I : S → Prop} (L : Lawful N I) (part : Nat → X → X) (gather scatter : X → X)
    {n : Nat} (hn : 0 < n) : Lawful (clone part gather scatter N n) I where
  train_ok := by
    intro s x s' hi h
    cases ht : N.training s with
    | false => simp [clone, ht] at h
    | true =>
      have h : Trained (clone part gather scatter N n) s [x] s' := .cons h (.nil _)
      have h := (clone_trained L part gather scatter n [x] hi ht s').1 h
      obtain ⟨a, b, c⟩ := L.trained hi h
      exact ⟨a, ht, b.trans ht, c⟩
  exec_ok := by
    intro s x y s' hi h
    simp only [clone] at h
    cases h' : N.exec s (gather x) with
    | error e => rw [h'] at h; cases h
    | ok r =>
      rw [h'] at h
      cases h
      exact L.exec_ok hi h'
  fork_ok := L.fork_ok
  trains := by
    intro s0 f prior s js hi ht hf hp hj s'
    have hp := (clone_trained L part gather scatter n prior hi ht s).1 hp
    obtain ⟨a, b, _⟩ := L.trained hi hp
    obtain ⟨a', b', _⟩ := L.fork_ok hi hf
    have hj' : cloneChunks part n js ≠ [] := by
      cases js with
      | nil => exact absurd rfl hj
      | cons x js =>
        cases n with
        | zero => omega
        | succ n => simp [cloneChunks, List.range_succ]
    rw [clone_trained L part gather scatter n js a (by rw [b]; exact ht) s', L.trains hi ht hf hp hj' s']
    constructor
    · rintro ⟨f', h1, h2⟩
      exact ⟨f', (clone_trained L part gather scatter n js a' (by rw [b']; exact ht) f').2 h1, h2⟩
    · rintro ⟨f', h1, h2⟩
      exact ⟨f', (clone_trained L part gather scatter n js a' (by rw [b']; exact ht) f').1 h1, h2⟩
  execs := by
    intro s0 f prior outs s js hi ht he hf hp ys s'
    obtain ⟨zs, _, hp⟩ := (clone_executed part gather scatter n prior outs s).1 hp
    rw [clone_executed]
    constructor
    · rintro ⟨ws, rfl, h⟩
      obtain ⟨f', h1, h2⟩ := (L.execs hi ht he hf hp ws s').1 h
      exact ⟨f', (clone_executed part gather scatter n js _ f').2 ⟨ws, rfl, h1⟩, h2⟩
    · rintro ⟨f', h1, h2⟩
      obtain ⟨ws, rfl, h3⟩ := (clone_executed part gather scatter n js _ f').1 h1
      exact ⟨ws, rfl, (L.execs hi ht he hf hp ws s').2 ⟨f', h3, h2⟩⟩

end PHinet
