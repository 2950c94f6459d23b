import Verif.Bi.Phases
import Mathlib.Tactic.Linarith
import Mathlib.Data.List.Basic

/-!
# Theorems on the phases of a training of a `BiFlow` (C366, C367)
-/

namespace Mdp.BiPhases

variable {A B S : Type}

/-! ## Specification -/

/-- The data with the messages at the same positions; `None` goes with everything. -/
def pairs : Src A → Src B → List (A × B)
  | .ever _, .ever _ => []
  | .ever x, .again l | .ever x, .once l => l.map fun m => (x, m)
  | .again xs, .ever m | .once xs, .ever m => xs.map fun x => (x, m)
  | .again xs, .again l | .again xs, .once l | .once xs, .again l | .once xs, .once l => xs.zip l

/-- An object that can be iterated over again and again. -/
def Repeats : Src A → Prop
  | .once _ => False
  | _ => True

/-- Data or messages come to an end. -/
def Ends : Src A → Src B → Prop
  | .ever _, .ever _ => False
  | _, _ => True

/-- The number of elements, if they come to an end. -/
def size : Src A → Nat
  | .again l | .once l => l.length
  | .ever _ => 0

/-! ## The loops -/

theorem zip_nil (fuel : Nat) (a : Src A) (b : Src B) (h : a.next = none) : zipLoop (fuel + 1) a b = some ([], a, b) := by
  simp only [zipLoop, zipNext, h]

theorem zipLoop_pairs : ∀ (fuel : Nat) (a : Src A) (b : Src B), Ends a b → (size a + size b) < fuel →
    ∃ a' b', zipLoop fuel a b = some (pairs a b, a', b') := by
  intro fuel
  induction fuel with
  | zero => intro a b _ h; omega
  | succ fuel ih =>
    intro a b he h
    rcases a with (_ | ⟨x, xs⟩) | (_ | ⟨x, xs⟩) | x <;> rcases b with (_ | ⟨m, ms⟩) | (_ | ⟨m, ms⟩) | m <;>
      simp only [Ends] at he <;> simp only [zipLoop, zipNext, Src.next, pairs, List.zip_nil_left, List.zip_nil_right, List.map_nil,
        List.zip_cons_cons, List.map_cons] <;> try exact ⟨_, _, rfl⟩
    all_goals
      simp only [size, List.length_cons] at h
      first
      | (obtain ⟨a', b', h'⟩ := ih (.again xs) (.again ms) trivial (by simp only [size]; omega); rw [h']; exact ⟨_, _, rfl⟩)
      | (obtain ⟨a', b', h'⟩ := ih (.again xs) (.once ms) trivial (by simp only [size]; omega); rw [h']; exact ⟨_, _, rfl⟩)
      | (obtain ⟨a', b', h'⟩ := ih (.once xs) (.again ms) trivial (by simp only [size]; omega); rw [h']; exact ⟨_, _, rfl⟩)
      | (obtain ⟨a', b', h'⟩ := ih (.once xs) (.once ms) trivial (by simp only [size]; omega); rw [h']; exact ⟨_, _, rfl⟩)
      | (obtain ⟨a', b', h'⟩ := ih (.again xs) (.ever m) trivial (by simp only [size]; omega); rw [h']; exact ⟨_, _, rfl⟩)
      | (obtain ⟨a', b', h'⟩ := ih (.once xs) (.ever m) trivial (by simp only [size]; omega); rw [h']; exact ⟨_, _, rfl⟩)
      | (obtain ⟨a', b', h'⟩ := ih (.ever x) (.again ms) trivial (by simp only [size]; omega); rw [h']; exact ⟨_, _, rfl⟩)
      | (obtain ⟨a', b', h'⟩ := ih (.ever x) (.once ms) trivial (by simp only [size]; omega); rw [h']; exact ⟨_, _, rfl⟩)

theorem after_repeats {a : Src A} (h : Repeats a) (it : Src A) : a.after it = a := by
  cases a <;> simp_all [Src.after, Repeats]

/-! ## Training -/

/-- The events of the phases `p`, …, `p + k - 1` of node `i`. -/
theorem seqPhases_repeat (fuel i : Nat) (st : S) (a : Src A) (b : Src B) (ha : Repeats a) (hb : Repeats b) (he : Ends a b)
    (h0 : pairs a b ≠ []) (hf : size a + size b < fuel) : ∀ k p, seqPhases fuel i st k p a b =
      some ((List.range k).flatMap fun q => (pairs a b).map (fun c => Ev.train i (p + q) c.1 c.2) ++ [.stop i (p + q) st], none) := by
  intro k
  induction k with
  | zero => intro p; rfl
  | succ k ih =>
    intro p
    obtain ⟨a', b', h⟩ := zipLoop_pairs fuel a b he hf
    have h1 : (pairs a b).isEmpty = false := by simpa using h0
    simp only [seqPhases, h, h1, after_repeats ha, after_repeats hb, ih (p + 1), before, Option.map_some, chunkEvs]
    simp only [Bool.false_eq_true, if_false, List.range_succ_eq_map, List.flatMap_cons, List.flatMap_map, Nat.add_zero]
    simp only [Nat.succ_eq_add_one, Nat.add_assoc, Nat.add_comm 1]

theorem seqNodes_repeat (fuel : Nat) (data : List (Src A)) (msgs : List (Src B)) (stops : List S) (a : Nat → Src A) (b : Nat → Src B) (s : Nat → S) :
    ∀ (nodes : List Nat) (i : Nat),
    (∀ k, k < nodes.length → data[i + k]? = some (a (i + k)) ∧ msgs[i + k]? = some (b (i + k)) ∧ stops[i + k]? = some (s (i + k))) →
    (∀ k, k < nodes.length → Repeats (a (i + k)) ∧ Repeats (b (i + k)) ∧ Ends (a (i + k)) (b (i + k)) ∧ pairs (a (i + k)) (b (i + k)) ≠ [] ∧
      size (a (i + k)) + size (b (i + k)) < fuel) →
    seqNodes fuel data msgs stops i nodes = some ((List.range nodes.length).flatMap fun j => (List.range (nodes.getD j 0)).flatMap fun q =>
      (pairs (a (i + j)) (b (i + j))).map (fun c => Ev.train (i + j) q c.1 c.2) ++ [.stop (i + j) q (s (i + j))], none) := by
  intro nodes
  induction nodes with
  | nil => intro i _ _; rfl
  | cons k rest ih =>
    intro i h1 h2
    obtain ⟨g1, g2, g3⟩ := h1 0 (by simp)
    obtain ⟨r1, r2, r3, r4, r5⟩ := h2 0 (by simp)
    rw [Nat.add_zero] at g1 g2 g3 r1 r2 r3 r4 r5
    have := ih (i + 1) (fun k hk => by have := h1 (k + 1) (by simpa using hk); rwa [Nat.add_assoc, Nat.add_comm 1])
      (fun k hk => by have := h2 (k + 1) (by simpa using hk); rwa [Nat.add_assoc, Nat.add_comm 1])
    simp only [seqNodes, g1, g2, g3, seqPhases_repeat fuel i (s i) (a i) (b i) r1 r2 r3 r4 r5 k 0, andThen, this, before, Option.map_some]
    simp only [List.length_cons, List.range_succ_eq_map, List.flatMap_cons, List.flatMap_map, Nat.add_zero, List.getD_cons_zero,
      List.getD_cons_succ, Nat.succ_eq_add_one, Nat.zero_add, Nat.add_assoc, Nat.add_comm 1]

/-- C366. If data and messages can be repeated then each phase of each node gets all of them, in order, and is closed with the stop
message of the node before the next phase begins; the nodes are trained one after the other. -/
theorem phases_repeat (nodes : List Nat) (data : List (Src A)) (msgs : List (Src B)) (stops : List S) (a : Nat → Src A) (b : Nat → Src B)
    (s : Nat → S) (hargs : ∀ i < nodes.length, data[i]? = some (a i) ∧ msgs[i]? = some (b i) ∧ stops[i]? = some (s i))
    (hrep : ∀ i < nodes.length, Repeats (a i) ∧ Repeats (b i) ∧ Ends (a i) (b i) ∧ pairs (a i) (b i) ≠ [])
    (fuel : Nat) (hf : ∀ i < nodes.length, size (a i) + size (b i) < fuel) :
    train fuel nodes data msgs stops = some ((List.range nodes.length).flatMap fun i => (List.range (nodes.getD i 0)).flatMap fun p =>
      (pairs (a i) (b i)).map (fun c => Ev.train i p c.1 c.2) ++ [.stop i p (s i)], none) := by
  have := seqNodes_repeat fuel data msgs stops a b s nodes 0 (fun k hk => by simpa using hargs k hk)
    (fun k hk => by
      obtain ⟨h1, h2, h3, h4⟩ := hrep k hk
      rw [Nat.zero_add]
      exact ⟨h1, h2, h3, h4, hf k hk⟩)
  simpa only [train, Nat.zero_add] using this

example : train 10 [2, 0] [.again [1, 2], .ever 0] [.again [7, 8], .again [5]] ["a", "b"] = some ([.train 0 0 1 7, .train 0 0 2 8, .stop 0 0 "a",
    .train 0 1 1 7, .train 0 1 2 8, .stop 0 1 "a"], none) := by
  have := phases_repeat [2, 0] [.again [1, 2], .ever 0] [.again [7, 8], .again [5]] ["a", "b"] (fun i => if i = 0 then .again [1, 2] else .ever 0)
    (fun i => if i = 0 then .again [7, 8] else .again [5]) (fun i => if i = 0 then "a" else "b")
    (fun i hi => by have : i = 0 ∨ i = 1 := by simp at hi; omega
                    rcases this with rfl | rfl <;> simp)
    (fun i hi => by have : i = 0 ∨ i = 1 := by simp at hi; omega
                    rcases this with rfl | rfl <;> simp [Repeats, Ends, pairs])
    10 (fun i hi => by have : i = 0 ∨ i = 1 := by simp at hi; omega
                       rcases this with rfl | rfl <;> simp [size])
  exact this

/-! ### Iterators -/

/-- Nothing is left of an iterator. -/
def Done (a : Src A) : Prop := a.next = none

/-- The length of what is left decides: after a complete round of a pair of equal lengths nothing is left of an iterator. -/
theorem zipLoop_used : ∀ (fuel : Nat) (a : Src A) (b : Src B), Ends a b → size a + size b < fuel →
    ((∃ m, b = .ever m) ∨ (∃ x, a = .ever x) ∨ size a = size b) →
    ∃ a' b', zipLoop fuel a b = some (pairs a b, a', b') ∧ ((∃ x, a = .ever x) ∨ Done a') ∧
      ((∃ x, b = .ever x) ∨ Done b') := by
  intro fuel
  induction fuel with
  | zero => intro a b _ h; omega
  | succ fuel ih =>
    intro a b he h hl
    rcases a with (_ | ⟨x, xs⟩) | (_ | ⟨x, xs⟩) | x <;> rcases b with (_ | ⟨m, ms⟩) | (_ | ⟨m, ms⟩) | m <;>
      simp only [Ends] at he <;> simp [size] at hl <;> simp only [zipLoop, zipNext, Src.next, pairs, List.zip_nil_left, List.zip_nil_right, List.map_nil,
        List.zip_cons_cons, List.map_cons] <;> try (refine ⟨_, _, rfl, ?_, ?_⟩ <;> simp [Done, Src.next])
    all_goals
      simp only [size, List.length_cons] at h
      first
      | (obtain ⟨a', b', h', h1, h2⟩ := ih (.again xs) (.again ms) trivial (by simp only [size]; omega) (by simp [size]; try omega)
         rw [h']; exact ⟨_, _, rfl, by simpa using h1, by simpa using h2⟩)
      | (obtain ⟨a', b', h', h1, h2⟩ := ih (.again xs) (.once ms) trivial (by simp only [size]; omega) (by simp [size]; try omega)
         rw [h']; exact ⟨_, _, rfl, by simpa using h1, by simpa using h2⟩)
      | (obtain ⟨a', b', h', h1, h2⟩ := ih (.again xs) (.ever m) trivial (by simp only [size]; omega) (by simp [size]; try omega)
         rw [h']; exact ⟨_, _, rfl, by simpa using h1, by simpa using h2⟩)
      | (obtain ⟨a', b', h', h1, h2⟩ := ih (.once xs) (.again ms) trivial (by simp only [size]; omega) (by simp [size]; try omega)
         rw [h']; exact ⟨_, _, rfl, by simpa using h1, by simpa using h2⟩)
      | (obtain ⟨a', b', h', h1, h2⟩ := ih (.once xs) (.once ms) trivial (by simp only [size]; omega) (by simp [size]; try omega)
         rw [h']; exact ⟨_, _, rfl, by simpa using h1, by simpa using h2⟩)
      | (obtain ⟨a', b', h', h1, h2⟩ := ih (.once xs) (.ever m) trivial (by simp only [size]; omega) (by simp [size]; try omega)
         rw [h']; exact ⟨_, _, rfl, by simpa using h1, by simpa using h2⟩)
      | (obtain ⟨a', b', h', h1, h2⟩ := ih (.ever x) (.again ms) trivial (by simp only [size]; omega) (by simp [size]; try omega)
         rw [h']; exact ⟨_, _, rfl, by simpa using h1, by simpa using h2⟩)
      | (obtain ⟨a', b', h', h1, h2⟩ := ih (.ever x) (.once ms) trivial (by simp only [size]; omega) (by simp [size]; try omega)
         rw [h']; exact ⟨_, _, rfl, by simpa using h1, by simpa using h2⟩)

theorem zip_nil_right (fuel : Nat) (a : Src A) (b : Src B) (h : b.next = none) : ∃ a', zipLoop (fuel + 1) a b = some ([], a', b) := by
  rcases ha : a.next with _ | ⟨x, a'⟩
  · exact ⟨a, zip_nil fuel a b ha⟩
  · exact ⟨a', by simp only [zipLoop, zipNext, ha, h]⟩

/-- The nodes before some node are trained, then the others. -/
theorem seqNodes_append (fuel : Nat) (data : List (Src A)) (msgs : List (Src B)) (stops : List S) (rest : List Nat) :
    ∀ (nodes : List Nat) (i : Nat) (l : List (Ev A B S)), seqNodes fuel data msgs stops i nodes = some (l, none) →
    seqNodes fuel data msgs stops i (nodes ++ rest) = before l (seqNodes fuel data msgs stops (i + nodes.length) rest) := by
  intro nodes
  induction nodes with
  | nil =>
    intro i l h
    simp only [seqNodes, Option.some.injEq, Prod.mk.injEq] at h
    obtain ⟨rfl, -⟩ := h
    rw [List.nil_append, List.length_nil, Nat.add_zero]
    rcases seqNodes fuel data msgs stops i rest with _ | ⟨l, o⟩ <;> simp [before]
  | cons p nodes ih =>
    intro i l h
    rw [List.cons_append]
    simp only [seqNodes] at h ⊢
    rcases hd : data[i]? with _ | a <;> rcases hm : msgs[i]? with _ | b <;> rcases hst : stops[i]? with _ | s <;>
      simp only [hd, hm, hst] at h ⊢ <;> try simp at h
    rcases hp : seqPhases fuel i s p 0 a b with _ | ⟨l1, _ | e⟩ <;> simp only [hp, andThen] at h ⊢
    · simp at h
    · rcases hr : seqNodes fuel data msgs stops (i + 1) nodes with _ | ⟨l2, o⟩
      · simp [hr, before] at h
      · simp only [hr, before, Option.map_some, Option.some.injEq, Prod.mk.injEq] at h
        obtain ⟨rfl, rfl⟩ := h
        rw [ih (i + 1) l2 hr, List.length_cons, Nat.add_right_comm, Nat.add_assoc]
        rcases seqNodes fuel data msgs stops (i + (nodes.length + 1)) rest with _ | ⟨l3, o⟩ <;> simp [before]
    · simp at h

/-- C366. If the data or the messages of a node with several phases are an iterator, which cannot be repeated, then, after the nodes
before it, the first phase is trained with all of them and the training ends with an exception. (Data and messages are of the same
length, or one of them is left out.) -/
theorem iterator_refused (k : Nat) (pre rest : List Nat) (a : Src A) (b : Src B) (s : S) (data : List (Src A)) (msgs : List (Src B))
    (stops : List S) (hd : data[pre.length]? = some a) (hm : msgs[pre.length]? = some b) (hs : stops[pre.length]? = some s)
    (ho : ¬Repeats a ∨ ¬Repeats b) (hl : (∃ m, b = .ever m) ∨ (∃ x, a = .ever x) ∨ size a = size b) (h0 : pairs a b ≠ [])
    (fuel : Nat) (hf : size a + size b < fuel) (l : List (Ev A B S)) (hpre : train fuel pre data msgs stops = some (l, none)) :
    train fuel (pre ++ (k + 2) :: rest) data msgs stops =
      some (l ++ ((pairs a b).map (fun c => Ev.train pre.length 0 c.1 c.2) ++ [.stop pre.length 0 s]), some .empty) := by
  have he : Ends a b := by
    cases a <;> cases b <;> simp_all [Ends, Repeats]
  obtain ⟨a', b', h, h1, h2⟩ := zipLoop_used fuel a b he hf hl
  obtain ⟨f, rfl⟩ : ∃ f, fuel = f + 1 := ⟨fuel - 1, by omega⟩
  have h3 : ∃ a'' b'', zipLoop (f + 1) (a.after a') (b.after b') = some ([], a'', b'') := by
    rcases ho with ho | ho
    · have e : a.after a' = a' := by cases a <;> simp_all [Src.after, Repeats]
      have n : a'.next = none := h1.resolve_left (by rintro ⟨x, rfl⟩; simp [Repeats] at ho)
      rw [e]
      exact ⟨_, _, zip_nil f a' _ n⟩
    · have e : b.after b' = b' := by cases b <;> simp_all [Src.after, Repeats]
      have n : b'.next = none := h2.resolve_left (by rintro ⟨x, rfl⟩; simp [Repeats] at ho)
      rw [e]
      obtain ⟨a'', h⟩ := zip_nil_right f (a.after a') b' n
      exact ⟨_, _, h⟩
  obtain ⟨a'', b'', h3⟩ := h3
  have h4 : (pairs a b).isEmpty = false := by simpa using h0
  rw [train, seqNodes_append _ _ _ _ _ pre 0 l hpre, Nat.zero_add]
  simp only [seqNodes, hd, hm, hs, seqPhases, h, h4, h3, before, andThen, chunkEvs, List.isEmpty_nil, if_true,
    Option.map_some, List.append_nil, Bool.false_eq_true, if_false]

example : train 10 [1, 2] [.again [5], .once [1, 2]] [.ever 0, .ever 0] ["a", "b"] =
    some ([.train 0 0 5 0, .stop 0 0 "a", .train 1 0 1 0, .train 1 0 2 0, .stop 1 0 "b"], some .empty) :=
  iterator_refused 0 [1] [] (.once [1, 2]) (.ever 0) "b" [.again [5], .once [1, 2]] [.ever 0, .ever 0] ["a", "b"] rfl rfl rfl
    (.inl (by simp [Repeats])) (.inl ⟨0, rfl⟩) (by simp [pairs]) 10 (by simp [size]) [.train 0 0 5 0, .stop 0 0 "a"] rfl

/-- C366 is false of the code for an iterator of more messages than data: the second phase gets the same data with other messages, and
nothing is raised. -/
theorem iterator_rest_violation (xs : List A) (ms ms' : List B) (s : S) (h0 : xs ≠ []) (hl : ms.length = xs.length)
    (hl' : ms'.length = xs.length) (fuel : Nat) (hf : xs.length < fuel) :
    train fuel [2] [.again xs] [.once (ms ++ ms')] [s] =
      some ((xs.zip ms).map (fun c => Ev.train 0 0 c.1 c.2) ++ [.stop 0 0 s] ++
        ((xs.zip ms').map (fun c => Ev.train 0 1 c.1 c.2) ++ [.stop 0 1 s]), none) := by
  have key : ∀ (xs : List A) (ms ms' : List B) (fuel : Nat), ms.length = xs.length → xs.length < fuel →
      ∃ a', zipLoop fuel (.again xs) (.once (ms ++ ms')) = some (xs.zip ms, a', .once ms') := by
    intro xs
    induction xs with
    | nil =>
      intro ms ms' fuel h hf
      obtain rfl := List.length_eq_zero_iff.1 h
      obtain ⟨f, rfl⟩ : ∃ f, fuel = f + 1 := ⟨fuel - 1, by omega⟩
      exact ⟨_, rfl⟩
    | cons x xs ih =>
      intro ms ms' fuel h hf
      obtain ⟨f, rfl⟩ : ∃ f, fuel = f + 1 := ⟨fuel - 1, by omega⟩
      rcases ms with _ | ⟨m, ms⟩
      · simp at h
      obtain ⟨a', h'⟩ := ih ms ms' f (by simpa using h) (by simpa using hf)
      exact ⟨a', by simp only [zipLoop, zipNext, Src.next, List.cons_append, h', Option.map_some, List.zip_cons_cons]⟩
  obtain ⟨a1, h1⟩ := key xs ms ms' fuel hl hf
  obtain ⟨a2, h2⟩ := key xs ms' [] fuel hl' hf
  rw [List.append_nil] at h2
  have n1 : (xs.zip ms).isEmpty = false := by
    rcases xs with _ | ⟨x, xs⟩ <;> rcases ms with _ | ⟨m, ms⟩ <;> simp_all
  have n2 : (xs.zip ms').isEmpty = false := by
    rcases xs with _ | ⟨x, xs⟩ <;> rcases ms' with _ | ⟨m, ms⟩ <;> simp_all
  simp only [train, seqNodes, List.getElem?_cons_zero, seqPhases, h1, n1, Src.after, h2, n2, before, andThen, chunkEvs, Option.map_some,
    List.append_nil, Bool.false_eq_true, if_false]

example : train 10 [2] [.again [1, 2]] [.once [7, 8, 9, 10]] ["a"] = some ([.train 0 0 1 7, .train 0 0 2 8, .stop 0 0 "a",
    .train 0 1 1 9, .train 0 1 2 10, .stop 0 1 "a"], none) :=
  iterator_rest_violation [1, 2] [7, 8] [9, 10] "a" (by simp) rfl rfl 10 (by simp)

/-- Too few stop messages: the nodes that have one are trained, then the training ends with an IndexError, also if the other nodes are
not trainable. -/
theorem short_stops_violation (nodes rest : List Nat) (data : List (Src A)) (msgs : List (Src B)) (stops : List S) (k : Nat)
    (hs : stops.length = nodes.length) (fuel : Nat) (l : List (Ev A B S)) (h : train fuel nodes data msgs stops = some (l, none)) :
    train fuel (nodes ++ k :: rest) data msgs stops = some (l, some .index) := by
  have : stops[nodes.length]? = none := by simp [hs]
  rw [train, seqNodes_append _ _ _ _ _ nodes 0 l h, Nat.zero_add]
  simp only [seqNodes, this]
  cases data[nodes.length]? <;> cases msgs[nodes.length]? <;> simp [before]

example : train 10 [1, 0] [.again [1], .ever 0] [.ever 0, .ever 0] ["a"] = some ([.train 0 0 1 0, .stop 0 0 "a"], some .index) :=
  short_stops_violation [1] [] [.again [1], .ever 0] [.ever 0, .ever 0] ["a"] 0 rfl 10 _ rfl

/-! ## In parallel -/

theorem createTask_eq (a : Src A) (b : Src B) : createTask a b = zipNext a b := rfl

theorem taskLoop_eq : ∀ (fuel : Nat) (a : Src A) (b : Src B), taskLoop fuel (createTask a b).1 (createTask a b).2.1 (createTask a b).2.2 =
    zipLoop (fuel + 1) a b := by
  intro fuel
  induction fuel with
  | zero =>
    intro a b
    rw [createTask_eq, zipLoop]
    rcases zipNext a b with ⟨_ | c, a', b'⟩
    · rfl
    · rfl
  | succ fuel ih =>
    intro a b
    rw [createTask_eq, zipLoop]
    rcases zipNext a b with ⟨_ | c, a', b'⟩
    · rfl
    · simp only [taskLoop, ← ih a' b']

theorem parPhases_eq (fuel : Nat) (fork : Nat → Bool) (i : Nat) (s : S) : ∀ (k p : Nat) (a : Src A) (b : Src B) (ev : List (Ev A B S))
    (o : Option Err), seqPhases (fuel + 1) i s k p a b = some (ev, o) →
    ∃ o', parPhases fuel fork i (some s) k p a b = some (ev, o') ∧ (o' = none ↔ o = none) := by
  intro k
  induction k with
  | zero =>
    intro p a b ev o h
    simp only [seqPhases, Option.some.injEq, Prod.mk.injEq] at h
    obtain ⟨rfl, rfl⟩ := h
    exact ⟨none, rfl, Iff.rfl⟩
  | succ k ih =>
    intro p a b ev o h
    have ht := taskLoop_eq fuel a b
    simp only [seqPhases] at h
    rcases hz : zipLoop (fuel + 1) a b with _ | ⟨l, a', b'⟩
    · simp [hz] at h
    simp only [hz] at h
    rcases l with _ | ⟨c, l⟩
    · simp only [List.isEmpty_nil, if_true, Option.some.injEq, Prod.mk.injEq] at h
      obtain ⟨rfl, rfl⟩ := h
      by_cases hk : fork p = true
      · rcases hc : createTask a b with ⟨_ | first, a2, b2⟩
        · exact ⟨some .empty, by simp only [parPhases, hk, if_true, hc], by simp⟩
        · exfalso
          rw [hc, hz] at ht
          cases fuel with
          | zero => simp [taskLoop] at ht
          | succ f =>
            simp only [taskLoop] at ht
            rcases ht' : taskLoop f (createTask a2 b2).1 (createTask a2 b2).2.1 (createTask a2 b2).2.2 with _ | r <;> simp [ht'] at ht
      · refine ⟨some .untrained, ?_, by simp⟩
        simp only [parPhases, if_neg hk, hz, close, List.isEmpty_nil, Bool.not_true, Bool.false_eq_true, if_false, chunkEvs, List.map_nil]
    · simp only [List.isEmpty_cons, Bool.false_eq_true, if_false] at h
      rcases hr : seqPhases (fuel + 1) i s k (p + 1) (a.after a') (b.after b') with _ | ⟨ev2, o2⟩
      · simp [hr, before] at h
      simp only [hr, before, Option.map_some, Option.some.injEq, Prod.mk.injEq] at h
      obtain ⟨rfl, rfl⟩ := h
      obtain ⟨o', h1, h2⟩ := ih (p + 1) (a.after a') (b.after b') ev2 o2 hr
      refine ⟨o', ?_, h2⟩
      by_cases hk : fork p = true
      · rcases hc : createTask a b with ⟨_ | first, a2, b2⟩
        · rw [hc, hz] at ht
          simp [taskLoop] at ht
        · rw [hc, hz] at ht
          simp only at ht
          simp only [parPhases, hk, if_true, hc, ht, close, h1, before, Option.map_some]
      · simp only [parPhases, if_neg hk, hz, close, List.isEmpty_cons, Bool.not_false, if_true, h1, before, Option.map_some]

theorem parNodes_eq (fuel : Nat) (fork : Nat → Nat → Bool) (data : List (Src A)) (msgs : List (Src B)) (stops : List S) :
    ∀ (nodes : List Nat) (i : Nat) (ev : List (Ev A B S)) (o : Option Err), seqNodes (fuel + 1) data msgs stops i nodes = some (ev, o) →
    o ≠ some .index → ∃ o', parNodes fuel fork data msgs stops i nodes = some (ev, o') ∧ (o' = none ↔ o = none) := by
  intro nodes
  induction nodes with
  | nil =>
    intro i ev o h _
    simp only [seqNodes, Option.some.injEq, Prod.mk.injEq] at h
    obtain ⟨rfl, rfl⟩ := h
    exact ⟨none, rfl, Iff.rfl⟩
  | cons k nodes ih =>
    intro i ev o h ho
    simp only [seqNodes] at h
    rcases hd : data[i]? with _ | a <;> rcases hm : msgs[i]? with _ | b <;> rcases hst : stops[i]? with _ | s <;>
      simp only [hd, hm, hst, Option.some.injEq, Prod.mk.injEq] at h <;> try exact absurd h.2.symm ho
    rcases hp : seqPhases (fuel + 1) i s k 0 a b with _ | ⟨l1, o1⟩
    · simp [hp, andThen] at h
    obtain ⟨o1', g1, g2⟩ := parPhases_eq fuel (fork i) i s k 0 a b l1 o1 hp
    simp only [parNodes, hd, hm, hst]
    rcases o1 with _ | e
    · obtain rfl := g2.2 rfl
      simp only [hp, andThen] at h
      rcases hr : seqNodes (fuel + 1) data msgs stops (i + 1) nodes with _ | ⟨l2, o2⟩
      · simp [hr, before] at h
      simp only [hr, before, Option.map_some, Option.some.injEq, Prod.mk.injEq] at h
      obtain ⟨rfl, rfl⟩ := h
      obtain ⟨o', h1, h2⟩ := ih (i + 1) l2 o2 hr ho
      refine ⟨o', ?_, h2⟩
      by_cases hk : k = 0
      · subst hk
        simp only [seqPhases, Option.some.injEq, Prod.mk.injEq] at hp
        obtain ⟨rfl, -⟩ := hp
        rw [if_pos rfl, h1, List.nil_append]
      · rw [if_neg hk, g1, h1]
        rfl
    · simp only [hp, andThen, Option.some.injEq, Prod.mk.injEq] at h
      obtain ⟨rfl, rfl⟩ := h
      by_cases hk : k = 0
      · subst hk
        simp [seqPhases] at hp
      · rcases o1' with _ | e'
        · simp at g2
        · exact ⟨some e', by rw [if_neg hk, g1]; rfl, by simp⟩

/-- C367. The tasks of a parallel training are the chunks and messages of the sequential training, in the same phases and in the same
order, and each phase is closed with the same stop message, whichever phases can be forked. If the sequential training ends with an
exception because there are no data, so does the parallel one, after the same phases. -/
theorem parallel_training (fuel : Nat) (fork : Nat → Nat → Bool) (nodes : List Nat) (data : List (Src A)) (msgs : List (Src B)) (stops : List S)
    (ev : List (Ev A B S)) (o : Option Err) (h : train (fuel + 1) nodes data msgs stops = some (ev, o)) (ho : o ≠ some .index) :
    ∃ o', parTrain fuel fork nodes data msgs stops = some (ev, o') ∧ (o' = none ↔ o = none) :=
  parNodes_eq fuel fork data msgs stops nodes 0 ev o h ho

example : ∃ o', parTrain 9 (fun _ p => p == 0) [2, 1] [.again [1, 2], .once []] [.again [7, 8], .ever 0] ["a", "b"] =
    some ([.train 0 0 1 7, .train 0 0 2 8, .stop 0 0 "a", .train 0 1 1 7, .train 0 1 2 8, .stop 0 1 "a"], o') ∧
    (o' = none ↔ some Err.empty = none) :=
  parallel_training 9 (fun _ p => p == 0) [2, 1] [.again [1, 2], .once []] [.again [7, 8], .ever 0] ["a", "b"] _ _ rfl (by simp)

/-- C367. The two differ if there are too few stop messages and the nodes without one are not trainable: the parallel training
succeeds, the sequential one ends with an IndexError when all nodes are trained. -/
theorem parallel_stops_violation (fuel : Nat) (fork : Nat → Nat → Bool) (nodes : List Nat) (data : List (Src A)) (msgs : List (Src B))
    (stops : List S) (n : Nat) (hs : stops.length = nodes.length) (l : List (Ev A B S))
    (h : train (fuel + 1) nodes data msgs stops = some (l, none)) :
    train (fuel + 1) (nodes ++ List.replicate (n + 1) 0) data msgs stops = some (l, some .index) ∧
    parTrain fuel fork (nodes ++ List.replicate (n + 1) 0) data msgs stops = some (l, none) := by
  refine ⟨short_stops_violation nodes (List.replicate n 0) data msgs stops 0 hs (fuel + 1) l h, ?_⟩
  obtain ⟨o', h1, h2⟩ := parallel_training fuel fork nodes data msgs stops l none h (by simp)
  obtain rfl := h2.2 rfl
  have zero : ∀ n i, parNodes fuel fork data msgs stops i (List.replicate n 0) = some ([], none) := by
    intro n
    induction n with
    | zero => intro i; rfl
    | succ n ih => intro i; rw [List.replicate_succ, parNodes, if_pos rfl, ih]
  have key : ∀ (nodes : List Nat) (i : Nat) (l : List (Ev A B S)), parNodes fuel fork data msgs stops i nodes = some (l, none) →
      parNodes fuel fork data msgs stops i (nodes ++ List.replicate (n + 1) 0) = some (l, none) := by
    intro nodes
    induction nodes with
    | nil =>
      intro i l h
      rw [List.nil_append, zero]
      exact h
    | cons k nodes ih =>
      intro i l h
      rw [List.cons_append]
      simp only [parNodes] at h ⊢
      by_cases hk : k = 0
      · rw [if_pos hk] at h ⊢
        exact ih (i + 1) l h
      rw [if_neg hk] at h ⊢
      rcases hd : data[i]? with _ | a <;> rcases hm : msgs[i]? with _ | b <;> simp only [hd, hm] at h ⊢ <;> try simp at h
      rcases hp : parPhases fuel (fork i) i stops[i]? k 0 a b with _ | ⟨l1, _ | e⟩ <;> simp only [hp, andThen] at h ⊢
      · simp at h
      · rcases hr : parNodes fuel fork data msgs stops (i + 1) nodes with _ | ⟨l2, o⟩
        · simp [hr, before] at h
        · simp only [hr, before, Option.map_some, Option.some.injEq, Prod.mk.injEq] at h
          obtain ⟨rfl, rfl⟩ := h
          rw [ih (i + 1) l2 hr]
          rfl
      · simp at h
  exact key nodes 0 l h1

example : train 10 ([1] ++ List.replicate 1 0) [.again [1], .ever 0] [.ever 0, .ever 0] ["a"] = some ([.train 0 0 1 0, .stop 0 0 "a"], some .index) ∧
    parTrain 9 (fun _ _ => true) ([1] ++ List.replicate 1 0) [.again [1], .ever 0] [.ever 0, .ever 0] ["a"] =
      some ([.train 0 0 1 0, .stop 0 0 "a"], none) :=
  parallel_stops_violation 9 (fun _ _ => true) [1] [.again [1], .ever 0] [.ever 0, .ever 0] ["a"] 0 rfl _ rfl

theorem parNodes_append (fuel : Nat) (fork : Nat → Nat → Bool) (data : List (Src A)) (msgs : List (Src B)) (stops : List S) (rest : List Nat) :
    ∀ (nodes : List Nat) (i : Nat) (l : List (Ev A B S)), parNodes fuel fork data msgs stops i nodes = some (l, none) →
    parNodes fuel fork data msgs stops i (nodes ++ rest) = before l (parNodes fuel fork data msgs stops (i + nodes.length) rest) := by
  intro nodes
  induction nodes with
  | nil =>
    intro i l h
    simp only [parNodes, Option.some.injEq, Prod.mk.injEq] at h
    obtain ⟨rfl, -⟩ := h
    rw [List.nil_append, List.length_nil, Nat.add_zero]
    rcases parNodes fuel fork data msgs stops i rest with _ | ⟨l, o⟩ <;> simp [before]
  | cons k nodes ih =>
    intro i l h
    rw [List.cons_append]
    have e : i + (k :: nodes).length = i + 1 + nodes.length := by rw [List.length_cons]; omega
    rw [e]
    simp only [parNodes] at h ⊢
    by_cases hk : k = 0
    · rw [if_pos hk] at h ⊢
      exact ih (i + 1) l h
    rw [if_neg hk] at h ⊢
    rcases hd : data[i]? with _ | a <;> rcases hm : msgs[i]? with _ | b <;> simp only [hd, hm] at h ⊢ <;> try simp at h
    rcases hp : parPhases fuel (fork i) i stops[i]? k 0 a b with _ | ⟨l1, _ | e⟩ <;> simp only [hp, andThen] at h ⊢
    · simp at h
    · rcases hr : parNodes fuel fork data msgs stops (i + 1) nodes with _ | ⟨l2, o⟩
      · simp [hr, before] at h
      · simp only [hr, before, Option.map_some, Option.some.injEq, Prod.mk.injEq] at h
        obtain ⟨rfl, rfl⟩ := h
        rw [ih (i + 1) l2 hr]
        rcases parNodes fuel fork data msgs stops (i + 1 + nodes.length) rest with _ | ⟨l3, o⟩ <;> simp [before]
    · simp at h

/-- C367. If a trainable node has no stop message then the parallel training ends with an IndexError, too, after the first phase of this
node was trained but before it is closed. -/
theorem parallel_stop_missing (fuel : Nat) (fork : Nat → Nat → Bool) (pre rest : List Nat) (k : Nat) (data : List (Src A)) (msgs : List (Src B))
    (stops : List S) (hs : stops.length = pre.length) (a : Src A) (b : Src B) (hd : data[pre.length]? = some a) (hm : msgs[pre.length]? = some b)
    (he : Ends a b) (h0 : pairs a b ≠ []) (hf : size a + size b < fuel + 1) (l : List (Ev A B S))
    (h : parTrain fuel fork pre data msgs stops = some (l, none)) :
    parTrain fuel fork (pre ++ (k + 1) :: rest) data msgs stops =
      some (l ++ (pairs a b).map (fun c => Ev.train pre.length 0 c.1 c.2), some .index) := by
  have hn : stops[pre.length]? = none := by simp [hs]
  obtain ⟨a', b', hz⟩ := zipLoop_pairs (fuel + 1) a b he hf
  have ht := taskLoop_eq fuel a b
  rw [parTrain, parNodes_append _ _ _ _ _ _ pre 0 l h, Nat.zero_add]
  simp only [parNodes, hd, hm, hn, Nat.add_eq_zero_iff, one_ne_zero, and_false, if_false]
  suffices hp : parPhases fuel (fork pre.length) pre.length (none : Option S) (k + 1) 0 a b =
      some ((pairs a b).map (fun c => Ev.train pre.length 0 c.1 c.2), some .index) by
    rw [hp]; rfl
  by_cases hk : fork pre.length 0 = true
  · rcases hc : createTask a b with ⟨_ | first, a2, b2⟩
    · rw [hc, hz] at ht
      simp only [taskLoop, Option.some.injEq, Prod.mk.injEq] at ht
      exact absurd ht.1.symm h0
    · rw [hc, hz] at ht
      simp only at ht
      simp only [parPhases, hk, if_true, hc, ht, close, chunkEvs]
  · simp only [parPhases, if_neg hk, hz, close, chunkEvs]

example : parTrain 9 (fun _ _ => true) ([1] ++ 2 :: []) [.again [1], .again [2, 3]] [.ever 0, .ever 0] ["a"] =
    some ([.train 0 0 1 0, .stop 0 0 "a"] ++ [.train 1 0 2 0, .train 1 0 3 0], some .index) :=
  parallel_stop_missing 9 (fun _ _ => true) [1] [] 1 [.again [1], .again [2, 3]] [.ever 0, .ever 0] ["a"] rfl (.again [2, 3]) (.ever 0) rfl rfl
    trivial (by simp [pairs]) (by simp [size]) [.train 0 0 1 0, .stop 0 0 "a"] rfl

end Mdp.BiPhases
