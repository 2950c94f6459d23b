import Verif.Parallel.FlowExec
import Verif.Parallel.SchedProps

/-!
# Properties of parallel execution (C103)
-/

namespace PFlow.Exec

open PFlow

variable {σ α : Type}

/-! ### Specification -/

/-- `x` sent through the nodes comes out as `y`. -/
inductive Out (ops : EOps σ α) : List σ → List α → List α → Prop
  | nil (x) : Out ops [] x x
  | cons (n n' ns x y z) : ops.exec n x = .ok (y, n') → Out ops ns y z → Out ops (n :: ns) x z

/-- What parallel execution needs of the nodes: a node with `use_execute_fork` can be forked, its forks need to be
joined too, give the same output, and can be joined; executing does not change `use_execute_fork`. -/
structure Faithful (ops : EOps σ α) : Prop where
  forks : ∀ n, ops.useFork n = true → ∃ f, ops.fork n = .ok f
  useFork : ∀ n f, ops.useFork n = true → ops.fork n = .ok f → ops.useFork f = true
  out : ∀ n f x, ops.useFork n = true → ops.fork n = .ok f → (ops.exec f x).map (·.1) = (ops.exec n x).map (·.1)
  joins : ∀ n f, ∃ n', ops.join n f = .ok n'

/-! ### Proofs -/

theorem out_iff (ops : EOps σ α) (ns : List σ) (x y : List α) :
    Out ops ns x y ↔ ∃ ns', execSeq ops ns x = .ok (y, ns') := by
  induction ns generalizing x with
  | nil =>
    constructor
    · intro h; cases h; exact ⟨_, rfl⟩
    · rintro ⟨ns', h⟩; cases h; exact .nil _
  | cons n ns ih =>
    constructor
    · intro h
      cases h with
      | cons _ n' _ _ z _ h1 h2 =>
        obtain ⟨ns', h3⟩ := (ih z).1 h2
        exact ⟨n' :: ns', by simp only [execSeq, h1, h3]⟩
    · rintro ⟨ns', h⟩
      simp only [execSeq] at h
      cases hz : ops.exec n x with
      | error e => rw [hz] at h; cases h
      | ok p =>
        obtain ⟨z, n'⟩ := p
        rw [hz] at h
        simp only at h
        cases hw : execSeq ops ns z with
        | error e => rw [hw] at h; cases h
        | ok q =>
          obtain ⟨w, ns''⟩ := q
          rw [hw] at h
          cases h
          exact .cons _ n' _ _ z _ hz ((ih z).2 ⟨_, hw⟩)

theorem forkAll_ok {ops : EOps σ α} (hF : Faithful ops) (ns : List σ) : ∃ fs, forkAll ops ns = .ok fs ∧
    fs.length = ns.length ∧ fs.any ops.useFork = ns.any ops.useFork ∧
    ∀ x, (execSeq ops fs x).map (·.1) = (execSeq ops ns x).map (·.1) := by
  induction ns with
  | nil => exact ⟨[], rfl, rfl, rfl, fun _ => rfl⟩
  | cons n ns ih =>
    obtain ⟨fs, h1, h2, h3, h4⟩ := ih
    have key : ∀ f, (if ops.useFork n then ops.fork n else .ok n) = .ok f → ops.useFork f = ops.useFork n →
        (∀ x, (ops.exec f x).map (·.1) = (ops.exec n x).map (·.1)) →
        ∃ fs, forkAll ops (n :: ns) = .ok fs ∧ fs.length = (n :: ns).length ∧
          fs.any ops.useFork = (n :: ns).any ops.useFork ∧
          ∀ x, (execSeq ops fs x).map (·.1) = (execSeq ops (n :: ns) x).map (·.1) := by
      intro f hf hu ho
      refine ⟨f :: fs, by simp only [forkAll, hf, h1], by simp [h2], by simp [hu, h3], fun x => ?_⟩
      have := ho x
      simp only [execSeq]
      cases ha : ops.exec f x with
      | error e =>
        cases hb : ops.exec n x with
        | error e' => rw [ha, hb] at this; exact this
        | ok q => rw [ha, hb] at this; cases this
      | ok p =>
        cases hb : ops.exec n x with
        | error e' => rw [ha, hb] at this; cases this
        | ok q =>
          obtain ⟨y, f'⟩ := p
          obtain ⟨y', n'⟩ := q
          rw [ha, hb] at this
          simp only [Except.map, Except.ok.injEq] at this
          subst this
          have h5 := h4 y
          simp only
          generalize execSeq ops fs y = a at h5
          generalize execSeq ops ns y = b at h5
          cases a with
          | error e => cases b with
            | error e' => exact h5
            | ok b => cases h5
          | ok a => cases b with
            | error e' => cases h5
            | ok b =>
              obtain ⟨a1, a2⟩ := a
              obtain ⟨b1, b2⟩ := b
              exact h5
    by_cases hu : ops.useFork n = true
    · obtain ⟨f, hf⟩ := hF.forks n hu
      exact key f (by rw [if_pos hu]; exact hf) (by rw [hF.useFork n f hu hf, hu]) (fun x => hF.out n f x hu hf)
    · exact key n (by rw [if_neg hu]) rfl fun _ => rfl

theorem joinNodes_ok {ops : EOps σ α} (hF : Faithful ops) : ∀ ns fs : List σ, ∃ ns', joinNodes ops ns fs = .ok ns'
  | [], fs => ⟨[], by cases fs <;> rfl⟩
  | n :: ns, [] => ⟨n :: ns, rfl⟩
  | n :: ns, f :: fs => by
    obtain ⟨ns', h1⟩ := joinNodes_ok hF ns fs
    obtain ⟨n', h2⟩ : ∃ n', (if ops.useFork f then ops.join n f else .ok n) = .ok n' := by
      split
      · exact hF.joins n f
      · exact ⟨n, rfl⟩
    exact ⟨n' :: ns', by simp only [joinNodes, h1, h2]⟩

theorem task_ok {ops : EOps σ α} (hF : Faithful ops) (nodes : List σ) (x : List α) :
    (∀ y, Out ops nodes x y → ∃ f, task ops nodes none x = .ok (y, f) ∧
      (nodes.any ops.useFork = false → f = none)) ∧
    ((∀ y, ¬ Out ops nodes x y) → ∃ e, task ops nodes none x = .error e) := by
  obtain ⟨fs, h1, h2, h3, h4⟩ := forkAll_ok hF nodes
  have h5 := h4 x
  constructor
  · intro y hy
    obtain ⟨ns', h6⟩ := (out_iff ops nodes x y).1 hy
    rw [h6] at h5
    cases h7 : execSeq ops fs x with
    | error e => rw [h7] at h5; cases h5
    | ok p =>
      obtain ⟨y', fs'⟩ := p
      rw [h7] at h5
      simp only [Except.map, Except.ok.injEq] at h5
      subst h5
      simp only [task, h1, List.take_length, h7, h3]
      exact ⟨_, rfl, fun h => by rw [h]; rfl⟩
  · intro hno
    cases h7 : execSeq ops fs x with
    | error e => exact ⟨e, by simp only [task, h1, List.take_length, h7]⟩
    | ok p =>
      rw [h7] at h5
      cases h8 : execSeq ops nodes x with
      | error e => rw [h8] at h5; cases h5
      | ok q =>
        obtain ⟨y, ns'⟩ := q
        exact absurd ((out_iff ops nodes x y).2 ⟨_, h8⟩) (hno y)

theorem addResult_ok {ops : EOps σ α} (hF : Faithful ops) (c : Cont σ α) (r : List α × Option (List σ)) (k : Nat) :
    ∃ c', addResult ops c r k = .ok c' ∧ c'.results = c.results ++ [(r.1, k)] ∧ (r.2 = none → c'.fn = c.fn) := by
  obtain ⟨y, f⟩ := r
  cases f with
  | none => exact ⟨_, rfl, rfl, fun _ => rfl⟩
  | some f =>
    cases hc : c.fn with
    | none => exact ⟨⟨c.results ++ [(y, k)], some f⟩, by simp only [addResult, hc], rfl, by simp⟩
    | some g =>
      obtain ⟨g', hg⟩ := joinNodes_ok hF g f
      exact ⟨⟨c.results ++ [(y, k)], some g'⟩, by simp only [addResult, hc, hg], rfl, by simp⟩

theorem runAll_ok {ops : EOps σ α} (hF : Faithful ops) (nodes : List σ) (out : List α → List α) :
    ∀ (ts : List (List α × Nat)) (c : Cont σ α), (∀ t ∈ ts, Out ops nodes t.1 (out t.1)) →
    ∃ c', runAll ops nodes none c ts = .ok c' ∧ c'.results = c.results ++ ts.map (fun t => (out t.1, t.2)) ∧
      (nodes.any ops.useFork = false → c'.fn = c.fn)
  | [], c, _ => ⟨c, rfl, by simp, fun _ => rfl⟩
  | (x, k) :: ts, c, h => by
    obtain ⟨f, h1, h2⟩ := (task_ok hF nodes x).1 _ (h (x, k) (by simp))
    obtain ⟨c1, h3, h4, h5⟩ := addResult_ok hF c (out x, f) k
    obtain ⟨c2, h6, h7, h8⟩ := runAll_ok hF nodes out ts c1 fun t ht => h t (by simp [ht])
    refine ⟨c2, by simp only [runAll, h1, h3, h6], by simp [h7, h4], fun hu => ?_⟩
    rw [h8 hu, h5 (h2 hu)]

theorem runAll_error {ops : EOps σ α} (hF : Faithful ops) (nodes : List σ) :
    ∀ (ts : List (List α × Nat)) (c : Cont σ α), (∃ t ∈ ts, ∀ y, ¬ Out ops nodes t.1 y) →
    ∃ e, runAll ops nodes none c ts = .error e
  | [], c, h => by obtain ⟨t, ht, _⟩ := h; cases ht
  | (x, k) :: ts, c, h => by
    by_cases hx : ∀ y, ¬ Out ops nodes x y
    · obtain ⟨e, he⟩ := (task_ok hF nodes x).2 hx
      exact ⟨e, by simp only [runAll, he]⟩
    · have ⟨y, hy⟩ : ∃ y, Out ops nodes x y := by
        by_contra hc
        exact hx fun y hy => hc ⟨y, hy⟩
      obtain ⟨f, h1, h2⟩ := (task_ok hF nodes x).1 _ hy
      obtain ⟨c1, h3, h4, h5⟩ := addResult_ok hF c (y, f) k
      obtain ⟨t, ht, hno⟩ := h
      obtain ⟨e, he⟩ := runAll_error hF nodes ts c1 (by
        cases ht with
        | head => exact absurd hno hx
        | tail _ ht => exact ⟨t, ht, hno⟩)
      exact ⟨e, by simp only [runAll, h1, h3, he]⟩

theorem takeResults_zipIdx {R : Type} {ys : List R} {l : List (R × Nat)} (hne : ys ≠ []) (h : l.Perm ys.zipIdx) :
    Mdp.Sched.takeResults true l = some ys := by
  have hl : l ≠ [] := by
    rintro rfl
    have := h.symm.eq_nil
    simp at this
    exact hne this
  obtain ⟨vs, hvs⟩ : ∃ vs, Mdp.Sched.takeResults true l = some vs := by
    simp only [Mdp.Sched.takeResults, if_true]
    rw [if_neg (by simpa using hl)]
    exact ⟨_, rfl⟩
  obtain ⟨l', p1, rfl, p2⟩ := Mdp.Sched.takeResults_perm hvs
  have hp := p1.trans h
  have : l' = ys.zipIdx := by
    refine List.Perm.eq_of_pairwise (le := fun a b => a.2 ≤ b.2) ?_ ?_ ?_ hp
    · rintro ⟨a, i⟩ ⟨b, j⟩ h1 h2 h3 h4
      have h1 := hp.subset h1
      simp only at h3 h4
      have : i = j := by omega
      subst this
      rw [List.mem_zipIdx_iff_getElem?] at h1 h2
      simp only at h1 h2
      rw [h1] at h2
      cases h2
      rfl
    · have := p2 rfl
      rwa [List.pairwise_map] at this
    · rw [← List.pairwise_map (f := fun a : R × Nat => a.2) (R := (· ≤ ·)), List.zipIdx_map_snd]
      exact (List.pairwise_lt_range' (s := 0)).imp (fun h => Nat.le_of_lt h)
  rw [hvs, this, List.zipIdx_map_fst]

/-- C103. Whatever the order in which the tasks finish, and whatever the scheduler was used for before, parallel
execution of the whole flow gives the outputs of the chunks, in the order of the chunks, joined together; it raises if
and only if there are no chunks or one of them cannot be executed. Nodes without `use_execute_fork` are not changed. -/
theorem parallel_execute_partial {ops : EOps σ α} (hF : Faithful ops)
    {arr : List (List α × Nat) → List (List α × Nat)} (harr : ∀ l, (arr l).Perm l) (c : Cont σ α) (hc : c.results = [])
    (nodes : List σ) (chunks : List (List α)) :
    (∀ ys, chunks ≠ [] → List.Forall₂ (Out ops nodes) chunks ys →
      ∃ nodes' c', execute ops false arr c nodes chunks none = .ok (ys.flatten, nodes', c') ∧ c'.results = [] ∧
        (nodes.any ops.useFork = false → nodes' = nodes ∧ c'.fn = c.fn)) ∧
    ((chunks = [] ∨ ∃ x ∈ chunks, ∀ y, ¬ Out ops nodes x y) →
      ∃ e, execute ops false arr c nodes chunks none = .error e) := by
  constructor
  · intro ys hne hall
    -- the outputs as a function of the chunk
    have hdet : ∀ x y z, Out ops nodes x y → Out ops nodes x z → y = z := by
      intro x y z h1 h2
      obtain ⟨a, ha⟩ := (out_iff ops nodes x y).1 h1
      obtain ⟨b, hb⟩ := (out_iff ops nodes x z).1 h2
      rw [ha] at hb
      cases hb
      rfl
    let out : List α → List α := fun x => match execSeq ops nodes x with
      | .ok p => p.1
      | .error _ => x
    have hout : ∀ x y, Out ops nodes x y → out x = y := by
      intro x y h
      obtain ⟨a, ha⟩ := (out_iff ops nodes x y).1 h
      simp only [out, ha]
    have hys : ys = chunks.map out ∧ ∀ x ∈ chunks, Out ops nodes x (out x) := by
      clear hne
      induction hall with
      | nil => simp
      | cons h _ ih =>
        obtain ⟨ih1, ih2⟩ := ih
        refine ⟨by rw [ih1, List.map_cons, hout _ _ h], ?_⟩
        intro x hx
        cases hx with
        | head => rw [hout _ _ h]; exact h
        | tail _ hx => exact ih2 x hx
    obtain ⟨rfl, hok⟩ := hys
    have hperm := harr chunks.zipIdx
    obtain ⟨c1, h1, h2, h3⟩ := runAll_ok hF nodes out (arr chunks.zipIdx) c (by
      rintro ⟨x, k⟩ ht
      exact hok x (List.fst_mem_of_mem_zipIdx (hperm.subset ht)))
    have hres : c1.results.Perm (chunks.map out).zipIdx := by
      rw [h2, hc, List.nil_append, List.zipIdx_map]
      have : (arr chunks.zipIdx).map (fun t => (out t.1, t.2)) = (arr chunks.zipIdx).map (Prod.map out id) := rfl
      rw [this]
      exact hperm.map _
    have htake := takeResults_zipIdx (by simpa using hne) hres
    have hget : getResults c1 = some (chunks.map out, c1.fn, { c1 with results := [] }) := by
      simp only [getResults, htake, Option.map_some]
    by_cases hu : nodes.any ops.useFork = true
    · cases hfn : c1.fn with
      | none =>
        refine ⟨nodes, { c1 with results := [] }, ?_, rfl, by simp [hu]⟩
        simp only [execute, Bool.false_eq_true, if_false, hne, h1, hget, hu, if_true, hfn]
      | some f =>
        obtain ⟨nodes', hj⟩ := joinNodes_ok hF nodes f
        refine ⟨nodes', { c1 with results := [] }, ?_, rfl, by simp [hu]⟩
        simp only [execute, Bool.false_eq_true, if_false, hne, h1, hget, hu, if_true, hfn, hj]
    · refine ⟨nodes, { c1 with results := [] }, ?_, rfl, fun h => ⟨rfl, h3 h⟩⟩
      simp only [execute, Bool.false_eq_true, if_false, hne, h1, hget, hu]
  · rintro (rfl | ⟨x, hx, hno⟩)
    · exact ⟨.flow, rfl⟩
    · have hne : chunks ≠ [] := by rintro rfl; cases hx
      obtain ⟨k, hk⟩ := List.getElem?_of_mem hx
      have hm : (x, k) ∈ arr chunks.zipIdx := (harr _).symm.subset (List.mem_zipIdx_iff_getElem?.2 hk)
      obtain ⟨e, he⟩ := runAll_error hF nodes (arr chunks.zipIdx) c ⟨_, hm, hno⟩
      exact ⟨e, by simp only [execute, Bool.false_eq_true, if_false, hne, he]⟩

/-- C102: while a training is underway, which includes the time after a failed one, `execute` raises. -/
theorem execute_underway (ops : EOps σ α) (arr : List (List α × Nat) → List (List α × Nat)) (c : Cont σ α)
    (nodes : List σ) (chunks : List (List α)) (nodenr : Option Nat) :
    execute ops true arr c nodes chunks nodenr = .error .underway := rfl

/-! ### Where parallel execution goes wrong -/

/-- C103, violated: `nodenr` has no effect. -/
theorem nodenr_ignored (ops : EOps σ α) (b : Bool) (arr : List (List α × Nat) → List (List α × Nat)) (c : Cont σ α)
    (nodes : List σ) (chunks : List (List α)) (k : Nat) :
    execute ops b arr c nodes chunks (some k) = execute ops b arr c nodes chunks none := rfl

/-- Two nodes that add one; up to node 0 the output for `[5]` is `[6]`. -/
def addOps : EOps Unit Nat := ⟨fun _ x => .ok (x.map (· + 1), ()), fun _ => false, fun _ => .ok (), fun _ _ => .ok ()⟩

theorem addOps_faithful : Faithful addOps where
  forks n h := by cases h
  useFork n f h := by cases h
  out n f x h := by cases h
  joins n f := ⟨_, rfl⟩

example : Out addOps [(), ()] [5] [7] := .cons () () _ _ [6] _ rfl (.cons () () _ _ [7] _ rfl (.nil _))

/-- C103: three chunks, finished in reverse order; `nodenr=0` gives the same. -/
example : ∃ nodes' c', execute addOps false List.reverse {} [(), ()] [[5], [1, 2], [8]] none
    = .ok ([7, 3, 4, 10], nodes', c') ∧ execute addOps false List.reverse {} [(), ()] [[5], [1, 2], [8]] (some 0)
    = .ok ([7, 3, 4, 10], nodes', c') := by
  have h : ∀ x, Out addOps [(), ()] x ((x.map (· + 1)).map (· + 1)) := fun x =>
    .cons () () _ _ _ _ rfl (.cons () () _ _ _ _ rfl (.nil _))
  obtain ⟨n, c, h1, _⟩ := (parallel_execute_partial addOps_faithful (fun l => l.reverse_perm) {} rfl [(), ()]
    [[5], [1, 2], [8]]).1 _ (by simp) (.cons (h [5]) (.cons (h [1, 2]) (.cons (h [8]) .nil)))
  exact ⟨n, c, h1, by rw [nodenr_ignored]; exact h1⟩

/-- C103: the output up to node 0, which `nodenr=0` asks for, is another one. -/
example : Out addOps [()] [5] [6] ∧ ¬ Out addOps [(), ()] [5] [6] := by
  refine ⟨.cons () () _ _ [6] _ rfl (.nil _), fun h => ?_⟩
  obtain ⟨ns, hns⟩ := (out_iff _ _ _ _).1 h
  cases hns

/-- A node that counts its executions (the node of mdp/test/test_parallelflows.py:210-250): forks start at zero, joining
adds. -/
def countOps (α : Type) : EOps Nat α :=
  ⟨fun n x => .ok (x, n + 1), fun _ => true, fun _ => .ok 0, fun n f => .ok (n + f)⟩

theorem countOps_faithful : Faithful (countOps α) where
  forks _ _ := ⟨_, rfl⟩
  useFork _ _ _ _ := rfl
  out _ _ _ _ _ := rfl
  joins _ _ := ⟨_, rfl⟩

theorem count_runAll (n : Nat) : ∀ (ts : List (List α × Nat)) (c : Cont Nat α), c.fn.all (·.length = 1) →
    (ts ≠ [] ∨ c.fn.isSome) → ∃ c', runAll (countOps α) [n] none c ts = .ok c' ∧
      c'.results = c.results ++ ts ∧ c'.fn = some [((c.fn.getD []).headD 0) + ts.length]
  | [], c, hc, hs => by
    obtain ⟨g, hg⟩ : ∃ g, c.fn = some g := Option.isSome_iff_exists.1 (hs.resolve_left (by simp))
    rw [hg] at hc
    match g, hc with
    | [m], _ => exact ⟨c, rfl, by simp, by simp [hg]⟩
  | (x, k) :: ts, c, hc, _ => by
    have h1 : task (countOps α) [n] none x = .ok (x, some [1]) := rfl
    obtain ⟨c1, h2, h3, h4⟩ : ∃ c1, addResult (countOps α) c (x, some [1]) k = .ok c1 ∧
        c1.results = c.results ++ [(x, k)] ∧ c1.fn = some [(c.fn.getD []).headD 0 + 1] := by
      cases hg : c.fn with
      | none => exact ⟨⟨c.results ++ [(x, k)], some [1]⟩, by simp only [addResult, hg], rfl, rfl⟩
      | some g =>
        rw [hg] at hc
        match g, hc with
        | [m], _ =>
          refine ⟨⟨c.results ++ [(x, k)], some [m + 1]⟩, ?_, rfl, rfl⟩
          simp only [addResult, hg]
          rfl
    obtain ⟨c2, h5, h6, h7⟩ := count_runAll n ts c1 (by rw [h4]; rfl) (.inr (by rw [h4]; rfl))
    refine ⟨c2, by simp only [runAll, h1, h2, h5], by simp [h6, h3], ?_⟩
    rw [h7, h4]
    simp only [Option.getD_some, List.headD_cons, List.length_cons]
    congr 2
    omega

/-- A sequence of calls of `execute` on the same scheduler. -/
def session (ops : EOps σ α) (arr : List (List α × Nat) → List (List α × Nat)) :
    Cont σ α → List σ → List (List (List α)) → Except PErr (List σ)
  | _, nodes, [] => .ok nodes
  | c, nodes, chunks :: rest => match execute ops false arr c nodes chunks none with
    | .error e => .error e
    | .ok (_, nodes', c') => session ops arr c' nodes' rest

theorem count_session {arr : List (List α × Nat) → List (List α × Nat)} (harr : ∀ l, (arr l).Perm l) (n : Nat) :
    ∀ (hist : List (List (List α))) (c : Cont Nat α) (m : Nat), (∀ chunks ∈ hist, chunks ≠ []) → c.results = [] →
    c.fn.all (·.length = 1) → 
    session (countOps α) arr c [m] hist = .ok [m + ((List.range hist.length).map fun k =>
      (c.fn.getD []).headD 0 + ((hist.take (k + 1)).map List.length).sum).sum]
  | [], c, m, _, _, _ => by simp [session]
  | chunks :: rest, c, m, hne, hc, hfn => by
    have hp := harr chunks.zipIdx
    have hchunks := hne chunks (by simp)
    obtain ⟨c1, h1, h2, h3⟩ := count_runAll m (arr chunks.zipIdx) c hfn (.inl (by
      intro h
      rw [h] at hp
      have := hp.symm.eq_nil
      simp at this
      exact hchunks this))
    rw [hp.length_eq, List.length_zipIdx] at h3
    rw [hc, List.nil_append] at h2
    have htake := takeResults_zipIdx hchunks (h2 ▸ hp)
    have hget : getResults c1 = some (chunks, c1.fn, { c1 with results := [] }) := by
      simp only [getResults, htake, Option.map_some]
    have hex : execute (countOps α) false arr c [m] chunks none = .ok (chunks.flatten,
        [m + ((c.fn.getD []).headD 0 + chunks.length)], { c1 with results := [] }) := by
      simp only [execute, Bool.false_eq_true, if_false, hchunks, h1, hget, h3]
      rfl
    simp only [session, hex]
    rw [count_session harr n rest { c1 with results := [] } _ (fun x hx => hne x (by simp [hx])) rfl (by simp [h3])]
    simp only [h3, Option.getD_some, List.headD_cons, List.length_cons, List.range_succ_eq_map, List.map_cons,
      List.map_map, Function.comp_def, List.take_succ_cons, List.sum_cons, List.take_zero, List.map_nil, List.sum_nil,
      Nat.add_zero]
    congr 2
    rw [Nat.add_assoc]
    congr 2
    simp only [Nat.add_assoc]

/-- C103, violated: on a scheduler that is used again, the forks of all earlier calls are joined once more. A node that
counts its executions ends up, after calls with `k₁, k₂, …` chunks, with `k₁ + (k₁ + k₂) + (k₁ + k₂ + k₃) + …`. -/
theorem stale_forks {arr : List (List α × Nat) → List (List α × Nat)} (harr : ∀ l, (arr l).Perm l) (m : Nat)
    (hist : List (List (List α))) (hne : ∀ chunks ∈ hist, chunks ≠ []) :
    session (countOps α) arr {} [m] hist = .ok [m + ((List.range hist.length).map fun k =>
      ((hist.take (k + 1)).map List.length).sum).sum] := by
  rw [count_session harr 0 hist {} m hne rfl rfl]
  simp

/-- Two calls with two chunks each: the node has been executed four times and says six. -/
example : session (countOps Nat) List.reverse {} [0] [[[1], [2]], [[3], [4]]] = .ok [6] := by
  rw [stale_forks (fun l => l.reverse_perm) 0 _ (by simp)]
  rfl

end PFlow.Exec
