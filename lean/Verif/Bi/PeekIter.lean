import Mathlib.Data.List.Basic
import Mathlib.Tactic.Common

/-!
# Looking at the first element of the training data

Models `bimdp/inspection/utils.py`, lines 50-92 (`first_iterable_elem`, `PeekIterator`) and the part
of `bimdp/inspection/facade.py`, lines 158-185, that replaces the training data of each node by an
equivalent iterable whose first element has been looked at.

A Python iterator is the list of the elements it will still deliver; `StopIteration` is `none`.
-/

namespace Bi.Peek

variable {A : Type}

/-- `PeekIterator` (utils.py 66-92): the wrapped iterator and the list `cache`. -/
structure PeekIter (A : Type) where
  iterator : List A
  cache : List A
deriving DecidableEq, Repr

/-- `PeekIterator.__init__`. -/
def wrap (it : List A) : PeekIter A := { iterator := it, cache := [] }

/-- `PeekIterator.__next__` (lines 85-89): `cache.pop()` takes the last element of the cache. -/
def next (p : PeekIter A) : Option A × PeekIter A :=
  match p.cache.getLast? with
  | some a => (some a, { p with cache := p.cache.dropLast })
  | none => match p.iterator with
    | [] => (none, p)
    | a :: r => (some a, { p with iterator := r })

/-- `PeekIterator.peek` (lines 73-83): the element goes to the front of the cache. -/
def peek (p : PeekIter A) : Option A × PeekIter A :=
  match next p with
  | (some a, p') => (some a, { p' with cache := a :: p'.cache })
  | (none, p') => (none, p')

/-- What a user of the iterator can do. -/
inductive Op where
  | next | peek
deriving DecidableEq, Repr

/-- The answers to a sequence of calls. -/
def run : PeekIter A → List Op → List (Option A)
  | _, [] => []
  | p, .next :: r => (next p).1 :: run (next p).2 r
  | p, .peek :: r => (peek p).1 :: run (peek p).2 r

/-! ### Specification -/

/-- The answers a queue with the given elements gives: `next` takes the first element, `peek` shows
it. -/
def Answers : List A → List Op → List (Option A)
  | _, [] => []
  | q, .next :: r => q.head? :: Answers q.tail r
  | q, .peek :: r => q.head? :: Answers q r

/-- The elements still to come, and the cache never holds more than one. -/
def Holds (p : PeekIter A) (q : List A) : Prop :=
  (p.cache = [] ∧ p.iterator = q) ∨ ∃ a, p.cache = [a] ∧ q = a :: p.iterator

theorem next_holds {p : PeekIter A} {q : List A} (h : Holds p q) :
    (next p).1 = q.head? ∧ Holds (next p).2 q.tail := by
  rcases h with ⟨hc, hi⟩ | ⟨a, hc, rfl⟩
  · unfold next
    rw [hc, hi]
    cases q with
    | nil => exact ⟨rfl, Or.inl ⟨hc, hi⟩⟩
    | cons a r => exact ⟨rfl, Or.inl ⟨rfl, rfl⟩⟩
  · unfold next
    rw [hc]
    exact ⟨rfl, Or.inl ⟨rfl, rfl⟩⟩

theorem peek_holds {p : PeekIter A} {q : List A} (h : Holds p q) :
    (peek p).1 = q.head? ∧ Holds (peek p).2 q := by
  rcases h with ⟨hc, hi⟩ | ⟨a, hc, rfl⟩
  · unfold peek next
    rw [hc, hi]
    cases q with
    | nil => exact ⟨rfl, Or.inl ⟨hc, hi⟩⟩
    | cons a r => exact ⟨rfl, Or.inr ⟨a, by simp [hc], rfl⟩⟩
  · unfold peek next
    rw [hc]
    exact ⟨rfl, Or.inr ⟨a, rfl, rfl⟩⟩

theorem run_holds (ops : List Op) : ∀ {p : PeekIter A} {q : List A}, Holds p q →
    run p ops = Answers q ops := by
  induction ops with
  | nil => intro p q _; rfl
  | cons o r ih =>
    intro p q h
    cases o with
    | next => rw [run, Answers, (next_holds h).1, ih (next_holds h).2]
    | peek => rw [run, Answers, (peek_holds h).1, ih (peek_holds h).2]

/-- **Looking ahead.**  However `next` and `peek` are interleaved, the wrapped iterator answers like a
queue: `peek` shows the element that `next` will deliver, and `next` delivers every element of the
original iterator once, in order. -/
theorem peek_iterator_queue (it : List A) (ops : List Op) : run (wrap it) ops = Answers it ops :=
  run_holds ops (Or.inl ⟨rfl, rfl⟩)

example : run (wrap [1, 2]) [.peek, .peek, .next, .peek, .next, .peek, .next] =
    [some 1, some 1, some 1, some 2, some 2, none, none] := by decide

/-! ### Taking a sample -/

/-- A training iterable: a collection, that can be iterated again and again, an iterator, or (after
sampling) a wrapped iterator. -/
inductive Data (A : Type) where
  | collection (xs : List A)
  | iterator (xs : List A)
  | peeked (p : PeekIter A)
deriving DecidableEq, Repr

/-- The answers to `next` until the end, at most `n` of them: what a `for` loop over the data sees. -/
def pull : Nat → PeekIter A → List A
  | 0, _ => []
  | n + 1, p => match next p with
    | (some a, p') => a :: pull n p'
    | (none, _) => []

/-- What a `for` loop over an iterable sees. -/
def loop : Data A → List A
  | .collection xs => xs
  | .iterator xs => xs
  | .peeked p => pull (p.cache.length + p.iterator.length) p

/-- `first_iterable_elem` (lines 50-63); an empty iterable lets `StopIteration` through (`none`).
A wrapped iterator is an iterator like any other and is wrapped once more. -/
def firstElem : Data A → Option (A × Data A)
  | .collection [] => none
  | .collection (a :: r) => some (a, .collection (a :: r))
  | .iterator xs => match peek (wrap xs) with
    | (some a, p) => some (a, .peeked p)
    | (none, _) => none
  | .peeked q => match peek (wrap (loop (.peeked q))) with
    | (some a, p) => some (a, .peeked p)
    | (none, _) => none

theorem pull_holds (n : Nat) : ∀ {p : PeekIter A} {q : List A}, Holds p q → q.length ≤ n →
    pull n p = q := by
  induction n with
  | zero =>
    intro p q _ hl
    have : q = [] := by simpa using hl
    rw [this]; rfl
  | succ n ih =>
    intro p q h hl
    have h1 := next_holds h
    unfold pull
    cases q with
    | nil =>
      have : (next p).1 = none := h1.1
      split
      · rename_i heq; rw [heq] at this; simp at this
      · rfl
    | cons a r =>
      have ha : (next p).1 = some a := h1.1
      split
      · rename_i b p' heq
        rw [heq] at ha h1
        simp at ha
        rw [ha, ih h1.2 (by simpa using hl)]
        rfl
      · rename_i heq; rw [heq] at ha; simp at ha

/-- **Sampling does not consume.**  The sample is the first element, and a loop over the returned
iterable sees exactly what a loop over the given one would have seen. -/
theorem first_elem_spec (d : Data A) (a : A) (d' : Data A)
    (h : firstElem d = some (a, d')) : (loop d).head? = some a ∧ loop d' = loop d := by
  have key : ∀ xs : List A, (match peek (wrap xs) with
      | (some a, p) => some (a, Data.peeked p)
      | (none, _) => none) = some (a, d') → xs.head? = some a ∧ loop d' = xs := by
    intro xs h
    have hp := peek_holds (p := wrap xs) (q := xs) (Or.inl ⟨rfl, rfl⟩)
    split at h
    · rename_i b p heq
      simp only [Option.some.injEq, Prod.mk.injEq] at h
      obtain ⟨rfl, rfl⟩ := h
      rw [heq] at hp
      refine ⟨hp.1.symm, ?_⟩
      refine pull_holds _ hp.2 ?_
      rcases hp.2 with ⟨hc, hi⟩ | ⟨b, hc, hq⟩
      · simp only at hc hi
        simp [hc, hi]
      · simp only at hc hq
        simp [hc, hq]
        omega
    · simp at h
  cases d with
  | collection xs =>
    cases xs with
    | nil => simp [firstElem] at h
    | cons b r =>
      simp only [firstElem, Option.some.injEq, Prod.mk.injEq] at h
      obtain ⟨rfl, rfl⟩ := h
      exact ⟨rfl, rfl⟩
  | iterator xs => exact key xs h
  | peeked p => exact key _ h

/-- An empty iterable has no sample: `StopIteration` reaches the caller. -/
theorem first_elem_empty (d : Data A) : firstElem d = none ↔ loop d = [] := by
  have key : ∀ xs : List A, (match peek (wrap xs) with
      | (some a, p) => some (a, Data.peeked p)
      | (none, _) => none) = none ↔ xs = [] := by
    intro xs
    cases xs with
    | nil => simp [wrap, peek, next]
    | cons a r => simp [wrap, peek, next]
  cases d with
  | collection xs => cases xs <;> simp [firstElem, loop]
  | iterator xs => exact key xs
  | peeked p => exact key _

/-- The loop of `show_training` (facade.py 158-165): each entry is replaced by its sampled version
(`None` entries stay); the samples are collected.  `none`: an exception left the loop. -/
def samples : List (Option (Data A)) → Option (List (Option A) × List (Option (Data A)))
  | [] => some ([], [])
  | none :: r => (samples r).map (fun (s, d) => (none :: s, none :: d))
  | some d :: r => match firstElem d with
    | none => none
    | some (a, d') => (samples r).map (fun (s, ds) => (some a :: s, some d' :: ds))

/-- **Data for training.**  After taking the samples, training gets for each node exactly the data
that was given, in the same order, and the sample of a node is the first element of its data. No iterator is passed on itself: it has lost
its first element. -/
theorem samples_spec (ds : List (Option (Data A)))
    (s : List (Option A)) (ds' : List (Option (Data A))) (h : samples ds = some (s, ds')) :
    ds'.map (Option.map loop) = ds.map (Option.map loop) ∧
    s = ds.map (fun o => o.bind (fun d => (loop d).head?)) ∧
    ∀ xs, some (Data.iterator xs) ∉ ds' := by
  induction ds generalizing s ds' with
  | nil =>
    simp only [samples, Option.some.injEq, Prod.mk.injEq] at h
    rw [← h.1, ← h.2]
    simp
  | cons o r ih =>
    cases o with
    | none =>
      simp only [samples, Option.map_eq_some_iff] at h
      obtain ⟨⟨s1, d1⟩, h1, h2⟩ := h
      simp only [Prod.mk.injEq] at h2
      obtain ⟨e1, e2, e3⟩ := ih s1 d1 h1
      rw [← h2.1, ← h2.2, List.map_cons, List.map_cons, List.map_cons, e1, e2]
      exact ⟨rfl, rfl, fun xs => by simp [e3 xs]⟩
    | some d =>
      simp only [samples] at h
      split at h
      · simp at h
      · rename_i a d' heq
        simp only [Option.map_eq_some_iff] at h
        obtain ⟨⟨s1, d1⟩, h1, h2⟩ := h
        simp only [Prod.mk.injEq] at h2
        obtain ⟨e1, e2, e3⟩ := ih s1 d1 h1
        obtain ⟨f1, f2⟩ := first_elem_spec d a d' heq
        have f3 : ∀ xs, Data.iterator xs ≠ d' := by
          intro xs hx
          subst hx
          cases d with
          | collection l => cases l <;> simp [firstElem] at heq
          | iterator l => simp only [firstElem] at heq; split at heq <;> simp at heq
          | peeked q => simp only [firstElem] at heq; split at heq <;> simp at heq
        rw [← h2.1, ← h2.2, List.map_cons, List.map_cons, List.map_cons, e1, e2]
        exact ⟨by simp [f2], by simp [f1], fun xs => by simp [e3 xs, f3 xs]⟩

example : samples [some (.iterator [1, 2, 3]), none, some (.collection [7])] =
    some ([some 1, none, some 7],
      [some (.peeked ⟨[2, 3], [1]⟩), none, some (.collection [7])]) := by decide

example : (loop (.peeked ⟨[2, 3], [1]⟩)) = [1, 2, 3] := by decide

end Bi.Peek
