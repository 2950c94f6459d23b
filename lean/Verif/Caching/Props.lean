import Verif.Caching.Model

/-!
# Properties of the caching extension (C48, C49)
-/

namespace Mdp.Caching

variable {C S X Y E D : Type} [DecidableEq C] [DecidableEq S] [DecidableEq X] [DecidableEq D]

/-! ## Specification -/

/-- The same operations when the caching extension does not exist: the results of the executions and the states. -/
def plain (K : Sem C S X Y E) (cls : Nat → C) (st : Nat → S) : List (Op C S X D) → List (Except E Y) × (Nat → S)
  | [] => ([], st)
  | .execute n x :: os =>
    let r := K.exec (cls n) (st n) x
    let t := plain K cls (setSt st n r.2) os
    (r.1 :: t.1, t.2)
  | .modify n f :: os => plain K cls (setSt st n (f (st n))) os
  | .setInst _ _ :: os => plain K cls st os
  | .activate _ _ _ :: os => plain K cls st os
  | .deactivate :: os => plain K cls st os

/-- No check will change the node any more (its dimensions are set, its training is finished). -/
def Settled (K : Sem C S X Y E) (c : C) (s : S) : Prop := ∀ x, (K.pre c s x).2 = s

/-- What is asked of the checks of the classes: `Inv` holds of all node states, and once the checks have passed the
node is settled and passes them again. -/
structure Lawful (K : Sem C S X Y E) (Inv : C → S → Prop) : Prop where
  keeps : ∀ c s x, Inv c s → Inv c (K.pre c s x).2
  settles : ∀ c s x s', Inv c s → K.pre c s x = (.ok (), s') → Settled K c s' ∧ K.pre c s' x = (.ok (), s')

/-- The uncached history: every execution leaves its node settled (which it does if the checks pass), and no other
operation makes a settled node unsettled again. -/
def Calm (K : Sem C S X Y E) (Inv : C → S → Prop) (cls : Nat → C) (st : Nat → S) : List (Op C S X D) → Prop
  | [] => True
  | .execute n x :: os =>
    Settled K (cls n) (K.pre (cls n) (st n) x).2 ∧ Calm K Inv cls (setSt st n (K.exec (cls n) (st n) x).2) os
  | .modify n f :: os =>
    Inv (cls n) (f (st n)) ∧ (Settled K (cls n) (st n) → Settled K (cls n) (f (st n))) ∧
      Calm K Inv cls (setSt st n (f (st n))) os
  | .setInst _ _ :: os => Calm K Inv cls st os
  | .activate _ _ _ :: os => Calm K Inv cls st os
  | .deactivate :: os => Calm K Inv cls st os

/-- A cache directory contains only right results, obtained from settled nodes. -/
def Right (K : Sem C S X Y E) (t : Store C S X Y) : Prop :=
  ∀ k y, (k, y) ∈ t → K.exec k.1 k.2.1 k.2.2 = (.ok y, k.2.1)

/-! ## Transparency -/

structure Good (K : Sem C S X Y E) (Inv : C → S → Prop) (cls : Nat → C) (w : World C S X Y D) : Prop where
  inv : ∀ n, Inv (cls n) (w.st n)
  temp : Right K w.temp
  files : ∀ d, Right K (w.files d)
  methods : ∀ n ∈ w.methods, Settled K (cls n) (w.st n)

theorem exec_snd (K : Sem C S X Y E) (c : C) (s : S) (x : X) : (K.exec c s x).2 = (K.pre c s x).2 := by
  unfold Sem.exec
  split <;> rename_i h <;> rw [h]

theorem lookup_mem {α β : Type} [BEq α] [LawfulBEq α] {l : List (α × β)} {k : α} {v : β} (h : l.lookup k = some v) :
    (k, v) ∈ l := by
  induction l with
  | nil => simp at h
  | cons p t ih =>
    obtain ⟨a, b⟩ := p
    rw [List.lookup_cons] at h
    by_cases e : k = a
    · subst e; simp at h; simp [h]
    · have : (k == a) = false := by simpa using e
      rw [this] at h
      exact List.mem_cons_of_mem _ (ih h)

variable {K : Sem C S X Y E} {Inv : C → S → Prop} {cls : Nat → C}

theorem Good.store {w : World C S X Y D} (g : Good K Inv cls w) : Right K w.store := by
  unfold World.store
  split
  · intro k y h; cases h
  · exact g.temp
  · exact g.files _

theorem Right.cons {t : Store C S X Y} (h : Right K t) {k : C × S × X} {y : Y}
    (hk : K.exec k.1 k.2.1 k.2.2 = (.ok y, k.2.1)) : Right K ((k, y) :: t) := by
  intro k' y' hm
  rcases List.mem_cons.1 hm with h' | h'
  · cases h'; exact hk
  · exact h _ _ h'

theorem Good.put {w : World C S X Y D} (g : Good K Inv cls w) {k : C × S × X} {y : Y}
    (hk : K.exec k.1 k.2.1 k.2.2 = (.ok y, k.2.1)) : Good K Inv cls (w.put k y) := by
  unfold World.put
  split
  · exact g
  · exact ⟨g.inv, g.temp.cons hk, g.files, g.methods⟩
  · refine ⟨g.inv, g.temp, fun d => ?_, g.methods⟩
    dsimp only
    split
    · exact (g.files _).cons hk
    · exact g.files d

theorem put_st (w : World C S X Y D) (k : C × S × X) (y : Y) : (w.put k y).st = w.st := by
  unfold World.put; split <;> rfl

theorem setSt_self (f : Nat → S) (n : Nat) : setSt f n (f n) = f := by
  funext m; unfold setSt; split <;> simp_all

theorem setSt_same (f : Nat → S) (n : Nat) (s : S) : setSt f n s n = s := by simp [setSt]

/-- Changing the state of one node keeps the invariant, if settled methods stay settled. -/
theorem Good.set {w : World C S X Y D} (g : Good K Inv cls w) (n : Nat) (s : S) (hi : Inv (cls n) s)
    (hs : n ∈ w.methods → Settled K (cls n) s) : Good K Inv cls { w with st := setSt w.st n s } := by
  refine ⟨fun m => ?_, g.temp, g.files, fun m hm => ?_⟩ <;> by_cases e : m = n
  · subst e; simpa [setSt] using hi
  · simpa [setSt, e] using g.inv m
  · subst e; simpa [setSt] using hs hm
  · simpa [setSt, e] using g.methods m hm

/-- The cached call itself (line 124). -/
theorem cached_call (w : World C S X Y D) (g : Good K Inv cls w) (n : Nat) (x : X)
    (hs : Settled K (cls n) (w.st n)) :
    Good K Inv cls (w.call K cls n x).2 ∧ (w.call K cls n x).1 = (K.exec (cls n) (w.st n) x).1 ∧
      (w.call K cls n x).2.st = w.st := by
  have h2 : (K.exec (cls n) (w.st n) x).2 = w.st n := by rw [exec_snd]; exact hs x
  unfold World.call
  cases hl : w.store.lookup (cls n, w.st n, x) with
  | some y =>
    have := g.store _ _ (lookup_mem hl)
    exact ⟨g, by rw [this], rfl⟩
  | none =>
    simp only [h2, setSt_self]
    cases hx : (K.exec (cls n) (w.st n) x).1 with
    | error e => exact ⟨g, rfl, rfl⟩
    | ok y =>
      have := g.put (k := (cls n, w.st n, x)) (y := y) (Prod.ext hx h2)
      exact ⟨⟨g.inv, this.temp, this.files, fun m hm => by
        have := this.methods m hm; rwa [put_st] at this⟩, rfl, rfl⟩

theorem execute_step (law : Lawful K Inv) (w : World C S X Y D) (g : Good K Inv cls w) (n : Nat) (x : X)
    (hc : Settled K (cls n) (K.pre (cls n) (w.st n) x).2) :
    Good K Inv cls (w.execute K cls n x).2 ∧ (w.execute K cls n x).1 = (K.exec (cls n) (w.st n) x).1 ∧
      (w.execute K cls n x).2.st = setSt w.st n (K.exec (cls n) (w.st n) x).2 := by
  have hk := law.keeps (cls n) (w.st n) x (g.inv n)
  unfold World.execute
  by_cases ha : (w.active && w.isCached cls n) = true
  · rw [if_pos ha]
    by_cases hm : w.methods.contains n = true
    · rw [if_pos hm]
      have hs := g.methods n (by simpa using hm)
      have h2 : (K.exec (cls n) (w.st n) x).2 = w.st n := by rw [exec_snd]; exact hs x
      rw [h2, setSt_self]
      exact cached_call w g n x hs
    · rw [if_neg hm]
      generalize hp : K.pre (cls n) (w.st n) x = p at hc hk
      obtain ⟨a, s⟩ := p
      simp only at hc hk
      have g' : Good K Inv cls { w with methods := n :: w.methods, st := setSt w.st n s } := by
        refine ⟨fun m => ?_, g.temp, g.files, fun m hm => ?_⟩ <;> by_cases e : m = n
        · subst e; simpa [setSt] using hk
        · simpa [setSt, e] using g.inv m
        · subst e; simpa [setSt] using hc
        · have := (List.mem_cons.1 hm).resolve_left e
          simpa [setSt, e] using g.methods m this
      cases a with
      | error e =>
        have hx : K.exec (cls n) (w.st n) x = (.error e, s) := by unfold Sem.exec; rw [hp]
        rw [hx]
        exact ⟨g', rfl, rfl⟩
      | ok u =>
        obtain ⟨-, h4⟩ := law.settles _ _ _ _ (g.inv n) hp
        have hx : K.exec (cls n) (w.st n) x = (K.body (cls n) s x, s) := by unfold Sem.exec; rw [hp]
        have hx' : K.exec (cls n) s x = (K.body (cls n) s x, s) := by unfold Sem.exec; rw [h4]
        obtain ⟨c1, c2, c3⟩ := cached_call { w with methods := n :: w.methods, st := setSt w.st n s } g' n x
          (by simpa [setSt] using hc)
        simp only [setSt_same, hx'] at c2
        rw [hx]
        exact ⟨c1, c2, c3⟩
  · rw [if_neg ha]
    exact ⟨g.set n _ (by rw [exec_snd]; exact hk) (fun _ => by rw [exec_snd]; exact hc), rfl, rfl⟩

theorem Good.setDir {w : World C S X Y D} (g : Good K Inv cls w) (d : Option D) :
    Good K Inv cls (w.setDir d) ∧ (w.setDir d).st = w.st := by
  unfold World.setDir
  cases d with
  | none => exact ⟨⟨g.inv, fun _ _ h => by simp at h, g.files, fun _ h => by simp at h⟩, rfl⟩
  | some d =>
    dsimp only
    split
    · exact ⟨g, rfl⟩
    · exact ⟨⟨g.inv, g.temp, g.files, fun _ h => by simp at h⟩, rfl⟩

theorem run_transparent (law : Lawful K Inv) (os : List (Op C S X D)) (w : World C S X Y D) (g : Good K Inv cls w)
    (hc : Calm K Inv cls w.st os) :
    (w.run K cls os).1 = (plain K cls w.st os).1 ∧ (w.run K cls os).2.st = (plain K cls w.st os).2 := by
  induction os generalizing w with
  | nil => exact ⟨rfl, rfl⟩
  | cons o os ih =>
    cases o with
    | execute n x =>
      obtain ⟨h1, h2, h3⟩ := execute_step law w g n x hc.1
      have := ih (w.execute K cls n x).2 h1 (by rw [h3]; exact hc.2)
      rw [h3] at this
      simp only [World.run, World.op, plain, Option.toList, List.cons_append, List.nil_append, h2]
      exact ⟨by rw [this.1], this.2⟩
    | modify n f =>
      have := ih { w with st := setSt w.st n (f (w.st n)) }
        (g.set n _ hc.1 fun hm => hc.2.1 (g.methods n hm)) hc.2.2
      simpa [World.run, World.op, plain] using this
    | setInst n on =>
      have e : (w.setInst n on).st = w.st := by unfold World.setInst; split <;> [rfl; split <;> rfl]
      have g' : Good K Inv cls (w.setInst n on) := by
        unfold World.setInst
        split
        · exact g
        · split <;> exact ⟨g.inv, g.temp, g.files, g.methods⟩
      have := ih _ g' (by rw [e]; exact hc)
      rw [e] at this
      simpa [World.run, World.op, plain] using this
    | activate d c i =>
      obtain ⟨g', e⟩ := g.setDir d
      have := ih (w.activate d c i) ⟨g'.inv, g'.temp, g'.files, g'.methods⟩ (by
        change Calm K Inv cls (w.setDir d).st os; rw [e]; exact hc)
      have e' : (w.activate d c i).st = w.st := e
      rw [e'] at this
      simpa [World.run, World.op, plain] using this
    | deactivate =>
      have := ih w.deactivate ⟨g.inv, g.temp, g.files, fun _ h => by simp [World.deactivate] at h⟩ hc
      have e' : w.deactivate.st = w.st := rfl
      rw [e'] at this
      simpa [World.run, World.op, plain] using this

/-- C48 (partial): for every history of executions on any nodes, other changes of nodes, and switching of the cache
in any way, executions return (or raise) exactly what they would without the extension, and leave the nodes in the
same states, provided that every execution leaves its node settled; directories may contain right results from
before. Missing: a first execution that fails in the checks (see `cache_not_transparent`). -/
theorem cache_transparent_partial (law : Lawful K Inv) (os : List (Op C S X D)) (files : D → Store C S X Y)
    (st : Nat → S) (hf : ∀ d, Right K (files d)) (hi : ∀ n, Inv (cls n) (st n)) (hc : Calm K Inv cls st os) :
    ((World.start files st).run K cls os).1 = (plain K cls st os).1 ∧
      ((World.start files st).run K cls os).2.st = (plain K cls st os).2 :=
  run_transparent law os _ ⟨hi, fun _ _ h => by simp [World.start] at h, hf, fun _ h => by simp [World.start] at h⟩ hc

/-! ### A class to try it on: a node that doubles numbers and whose `input_dim` is set by the first data -/

/-- State: `input_dim`. Data: width and number of rows. The result is twice the number of rows. A width of zero is
refused before anything is set, another width or a chunk without rows afterwards, as in `_check_input`
(signal_node.py 477-501). -/
def demo : Sem Unit (Option Nat) (Nat × Nat) Nat Unit where
  pre _ s x :=
    if x.1 = 0 then (.error (), s)
    else (if s.getD x.1 ≠ x.1 ∨ x.2 = 0 then .error () else .ok (), some (s.getD x.1))
  body _ _ x := .ok (2 * x.2)
  mro c := [c]

theorem demo_settled (k : Nat) : Settled demo () (some k) := by
  intro x
  simp only [demo, Option.getD_some]
  split <;> rfl

theorem demo_lawful : Lawful demo (fun _ _ => True) := by
  refine ⟨fun _ _ _ _ => trivial, fun c s x s' _ h => ?_⟩
  simp only [demo] at h
  split at h
  · cases h
  · next h0 =>
    split at h
    · cases h
    · next hn =>
      cases h
      refine ⟨demo_settled _, ?_⟩
      simp only [demo, Option.getD_some]
      rw [if_neg h0, if_neg hn]

def demoOps : List (Op Unit (Option Nat) (Nat × Nat) Bool) :=
  [.activate (some true) none none, .execute 0 (3, 2), .execute 1 (3, 2), .execute 1 (3, 2), .execute 1 (4, 2),
    .deactivate, .execute 1 (3, 5), .activate (some true) none (some [1]), .execute 1 (3, 2)]

example : Calm demo (fun _ _ => True) (fun _ => ()) (fun _ => none) demoOps :=
  ⟨demo_settled 3, demo_settled 3, demo_settled 3, demo_settled 3, demo_settled 3, demo_settled 3, trivial⟩

/-- The third execution and the last one are answered from the cache. -/
example : ((World.start (fun _ => []) (fun _ => none)).run demo (fun _ => ()) demoOps).1 =
    [.ok 4, .ok 4, .ok 4, .error (), .ok 10, .ok 4] := rfl

/-! ### Without the condition the claim is false -/

/-- C48, violation: two new nodes whose first call is refused. The second one gets its next result from the cache, so
its `input_dim` is never set and it accepts data of another width, which the node without the cache refuses. -/
theorem cache_not_transparent :
    let os : List (Op Unit (Option Nat) (Nat × Nat) Bool) := [.activate none none none, .execute 0 (0, 1),
      .execute 1 (0, 1), .execute 0 (3, 2), .execute 1 (3, 2), .execute 1 (4, 2)]
    ((World.start (fun _ => []) (fun _ => none)).run demo (fun _ => ()) os).1 =
        [.error (), .error (), .ok 4, .ok 4, .ok 4] ∧
      (plain demo (fun _ => ()) (fun _ => none) os).1 = [.error (), .error (), .ok 4, .ok 4, .error ()] :=
  ⟨rfl, rfl⟩

/-! ## Which nodes are cached -/

/-- How often the instance has been switched on more than off, since the caching was (re)activated with a list of
instances or deactivated; whether caching is global; which classes are listed. Specification of the switches. -/
structure Switch (C : Type) where
  active : Bool := false
  glob : Bool := true
  classes : C → Bool := fun _ => false
  count : Nat → Nat := fun _ => 0

def Switch.op (v : Switch C) : Op C S X D → Switch C
  | .setInst n on =>
    if v.active then
      { v with count := fun m => if m = n then (if on then v.count n + 1 else v.count n - 1) else v.count m }
    else v
  | .activate _ cs is =>
    { active := true
      glob := cs.isNone && is.isNone
      classes := match cs with | some l => fun c => l.contains c | none => v.classes
      count := match is with | some l => fun n => l.count n | none => v.count }
  | .deactivate => {}
  | .execute _ _ => v
  | .modify _ _ => v

structure Matches (v : Switch C) (w : World C S X Y D) : Prop where
  active : w.active = v.active
  glob : w.glob = v.glob
  classes : ∀ c, w.classes.contains c = v.classes c
  insts : ∀ n, w.insts.count n = v.count n

theorem call_keeps (K : Sem C S X Y E) (cls : Nat → C) (w : World C S X Y D) (n : Nat) (x : X) :
    (w.call K cls n x).2.active = w.active ∧ (w.call K cls n x).2.glob = w.glob ∧
      (w.call K cls n x).2.classes = w.classes ∧ (w.call K cls n x).2.insts = w.insts := by
  unfold World.call
  split
  · exact ⟨rfl, rfl, rfl, rfl⟩
  · dsimp only
    split
    · exact ⟨rfl, rfl, rfl, rfl⟩
    · unfold World.put; dsimp only; split <;> exact ⟨rfl, rfl, rfl, rfl⟩

theorem execute_keeps (K : Sem C S X Y E) (cls : Nat → C) (w : World C S X Y D) (n : Nat) (x : X) :
    (w.execute K cls n x).2.active = w.active ∧ (w.execute K cls n x).2.glob = w.glob ∧
      (w.execute K cls n x).2.classes = w.classes ∧ (w.execute K cls n x).2.insts = w.insts := by
  unfold World.execute
  split
  · split
    · exact call_keeps K cls w n x
    · dsimp only
      split
      · exact ⟨rfl, rfl, rfl, rfl⟩
      · exact call_keeps K cls _ n x
  · exact ⟨rfl, rfl, rfl, rfl⟩

theorem setDir_keeps (w : World C S X Y D) (d : Option D) :
    (w.setDir d).classes = w.classes ∧ (w.setDir d).insts = w.insts := by
  unfold World.setDir; split <;> [exact ⟨rfl, rfl⟩; split <;> exact ⟨rfl, rfl⟩]

theorem matches_op (K : Sem C S X Y E) (cls : Nat → C) (v : Switch C) (w : World C S X Y D) (m : Matches v w)
    (o : Op C S X D) : Matches (v.op o) (w.op K cls o).2 := by
  cases o with
  | execute n x =>
    obtain ⟨h1, h2, h3, h4⟩ := execute_keeps K cls w n x
    exact ⟨h1.trans m.active, h2.trans m.glob, fun c => (congrArg (·.contains c) h3).trans (m.classes c),
      fun k => (congrArg (List.count k) h4).trans (m.insts k)⟩
  | modify n f => exact ⟨m.active, m.glob, m.classes, m.insts⟩
  | setInst n on =>
    simp only [Switch.op, World.op, World.setInst]
    cases ha : w.active with
    | false =>
      rw [if_neg (by simp [← m.active, ha]), if_pos (by simp)]
      exact m
    | true =>
      have hv : v.active = true := by rw [← m.active, ha]
      rw [if_pos hv]
      cases on with
      | true =>
        refine ⟨hv.symm, m.glob, m.classes, fun k => ?_⟩
        by_cases e : k = n
        · subst e; simp [m.insts]
        · have : ¬ n = k := fun h => e h.symm
          simp [e, m.insts, this]
      | false =>
        refine ⟨hv.symm, m.glob, m.classes, fun k => ?_⟩
        by_cases e : k = n
        · subst e; simp [m.insts]
        · have : ¬ n = k := fun h => e h.symm
          simp [e, List.count_erase, m.insts, this]
  | activate d cs is =>
    obtain ⟨h3, h4⟩ := setDir_keeps w d
    refine ⟨rfl, rfl, fun c => ?_, fun n => ?_⟩
    · cases cs with
      | none => simp only [World.op, World.activate, Option.getD_none, Switch.op, h3]; exact m.classes c
      | some l => rfl
    · cases is with
      | none => simp only [World.op, World.activate, Option.getD_none, Switch.op, h4]; exact m.insts n
      | some l => rfl
  | deactivate => exact ⟨rfl, rfl, fun _ => rfl, fun _ => rfl⟩

theorem matches_run (K : Sem C S X Y E) (cls : Nat → C) (os : List (Op C S X D)) (v : Switch C) (w : World C S X Y D)
    (m : Matches v w) : Matches (os.foldl Switch.op v) (w.run K cls os).2 := by
  induction os generalizing v w with
  | nil => exact m
  | cons o os ih => exact ih _ _ (matches_op K cls v w m o)

/-- C49 (partial): after any history a node is cached exactly if caching is global, or its own class was listed, or
the instance has been switched on more often than off. Missing: classes it inherits from (`subclass_not_cached`). -/
theorem cached_iff_partial (K : Sem C S X Y E) (cls : Nat → C) (os : List (Op C S X D)) (files : D → Store C S X Y)
    (st : Nat → S) (n : Nat) :
    let v : Switch C := os.foldl Switch.op {}
    ((World.start files st).run K cls os).2.isCached cls n = true ↔
      v.glob = true ∨ v.classes (cls n) = true ∨ 0 < v.count n := by
  intro v
  have m := matches_run K cls os {} (World.start files st) ⟨rfl, rfl, fun _ => rfl, fun _ => rfl⟩
  simp only [World.isCached, Bool.or_eq_true, m.glob, m.classes, List.contains_iff_mem, or_assoc]
  rw [← List.count_pos_iff, m.insts]

/-- C49: switching an instance on and off again restores the previous state of every node, whatever happened before. -/
theorem on_off_restores (cls : Nat → C) (w : World C S X Y D) (n k : Nat) :
    ((w.setInst n true).setInst n false).isCached cls k = w.isCached cls k := by
  cases ha : w.active with
  | false => simp [World.setInst, ha]
  | true =>
    have : ∀ l : List Nat, (l ++ [n]).erase n = l ∨ ((l ++ [n]).erase n).Perm l := by
      intro l
      right
      have : (l ++ [n]).Perm (n :: l) := List.perm_append_singleton n l
      simpa using this.erase n
    simp only [World.setInst, ha, not_true_eq_false, if_true, if_false, World.isCached, Bool.false_eq_true]
    rcases this w.insts with h | h
    · rw [h]
    · rw [show ((w.insts ++ [n]).erase n).contains k = w.insts.contains k from by
        rw [Bool.eq_iff_iff, List.contains_iff_mem, List.contains_iff_mem]; exact h.mem_iff]

/-- C49, violation: a node of a class that inherits from a listed class is not cached. -/
theorem subclass_not_cached :
    let K : Sem Bool Unit Unit Unit Unit := ⟨fun _ s _ => (.ok (), s), fun _ _ _ => .ok (),
      fun c => if c then [true, false] else [false]⟩
    let w := ((World.start (fun _ => []) (fun _ => ())).run (D := Unit) K (fun _ => true)
      [.activate none (some [false]) none]).2
    false ∈ K.mro true ∧ w.isCached (fun _ => true) 0 = false ∧ w.isCached (fun _ => false) 0 = true :=
  ⟨by decide, rfl, rfl⟩

/-- C49: an instance switched on twice stays cached when switched off once. -/
theorem on_on_off_cached (cls : Nat → C) (w : World C S X Y D) (n : Nat) (h : w.active = true) :
    (((w.setInst n true).setInst n true).setInst n false).isCached cls n = true := by
  have h1 : ((w.insts ++ [n] ++ [n]).erase n).contains n = true := by
    rw [List.contains_iff_mem, ← List.count_pos_iff]
    simp [List.count_erase]
  simp only [World.setInst, h, not_true_eq_false, if_true, if_false, World.isCached, h1, Bool.or_true,
    Bool.false_eq_true]

/-- C49: activating again with a list of classes only keeps the instances listed before. -/
theorem reactivation_keeps_instances (cls : Nat → C) (w : World C S X Y D) (d d' : Option D) (n : Nat) (l : List Nat)
    (h : n ∈ l) (cs : List C) : ((w.activate d none (some l)).activate d' (some cs) none).isCached cls n = true := by
  have : ((w.activate d none (some l)).activate d' (some cs) none).insts = l := by
    simp only [World.activate, Option.getD_none]
    rw [(setDir_keeps _ d').2]; rfl
  simp [World.isCached, this, h]

/-- C49: after deactivation no execution is cached: it computes what the plain node does. -/
theorem deactivated_plain (K : Sem C S X Y E) (cls : Nat → C) (w : World C S X Y D) (n : Nat) (x : X) :
    (w.deactivate.execute K cls n x).1 = (K.exec (cls n) (w.st n) x).1 ∧
      (w.deactivate.execute K cls n x).2.files = w.files := ⟨rfl, rfl⟩

/-- C49: a result enters the cache directory exactly if the node is cached, the checks pass, and there was no entry
before. So a node that is not cached leaves the directory alone. -/
theorem not_cached_not_stored (K : Sem C S X Y E) (cls : Nat → C) (w : World C S X Y D) (n : Nat) (x : X)
    (h : w.isCached cls n = false) : (w.execute K cls n x).2.store = w.store ∧
      (w.execute K cls n x).1 = (K.exec (cls n) (w.st n) x).1 := by
  unfold World.execute
  rw [if_neg (by simp [h])]
  exact ⟨rfl, rfl⟩

/-- C49: a successful execution of a cached node leaves its result in the cache directory, under its class, its state
and the data. -/
theorem cached_stored (K : Sem C S X Y E) (cls : Nat → C) (w : World C S X Y D) (n : Nat) (x : X) (y : Y)
    (w' : World C S X Y D) (ha : w.active = true) (hd : w.dir ≠ .unset) (h : w.isCached cls n = true)
    (hr : w.execute K cls n x = (.ok y, w')) : ∃ s, w'.store.lookup (cls n, s, x) = some y := by
  have key : ∀ v : World C S X Y D, v.dir ≠ .unset → v.call K cls n x = (.ok y, w') →
      ∃ s, w'.store.lookup (cls n, s, x) = some y := by
    intro v hv hr
    unfold World.call at hr
    cases hl : v.store.lookup (cls n, v.st n, x) with
    | some z =>
      rw [hl] at hr
      cases hr
      exact ⟨_, hl⟩
    | none =>
      rw [hl] at hr
      generalize K.exec (cls n) (v.st n) x = r at hr
      obtain ⟨a, s⟩ := r
      cases a with
      | error e => cases hr
      | ok z =>
        cases hr
        refine ⟨v.st n, ?_⟩
        unfold World.put World.store
        cases hdir : v.dir with
        | unset => exact absurd hdir hv
        | temp => simp [hdir]
        | named d => simp [hdir]
  unfold World.execute at hr
  rw [if_pos (by simp [h, ha])] at hr
  by_cases hm : w.methods.contains n = true
  · rw [if_pos hm] at hr
    exact key w hd hr
  · rw [if_neg hm] at hr
    generalize K.pre (cls n) (w.st n) x = p at hr
    obtain ⟨a, s⟩ := p
    cases a with
    | error e => cases hr
    | ok u => exact key { w with methods := n :: w.methods, st := setSt w.st n s } hd hr

end Mdp.Caching
