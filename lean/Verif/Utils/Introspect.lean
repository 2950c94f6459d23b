import Mathlib.Data.List.SplitOn
import Mathlib.Data.List.Nodup
import Mathlib.Data.List.Dedup
import Mathlib.Tactic.Ring
import Mathlib.Tactic.Linarith
import Verif.Utils.Progress

/-!
# Model of `mdp/utils/introspection.py`, C294, C295

Objects are numbers; `attrs` is what `dir` and `getattr` give for an object. The heap does not change during the search and attributes give the same
object each time (`getattr` of a property that makes a new array each time is not modelled). The depth of the recursion is not limited. Names are lists
of characters. -/

namespace Mdp.Introspect

abbrev Name := List Char

inductive Kind where
  | array
  /-- `int`, `float`, method -/
  | leaf
  | other
deriving DecidableEq

structure Heap where
  attrs : Nat → List (Name × Nat)
  kind : Nat → Kind

/-- `name.startswith('__')` (48). -/
def priv (n : Name) : Bool := n.take 2 = ['_', '_']

/-- The search: calls that are not finished (with the names so far and the attributes still to be looked at), objects that are known, arrays. -/
structure State where
  stack : List (List Name × List (Name × Nat))
  seen : List Nat
  found : List (List Name × Nat)

/-- One round of the loop of `_Walk.__call__` (26-60) in the innermost call, or the return from it. -/
def step (H : Heap) (s : State) : Option State :=
  match s.stack with
  | [] => none
  | (_, []) :: st => some { s with stack := st }
  | (p, (n, o) :: r) :: st =>
    if o ∈ s.seen then some { s with stack := (p, r) :: st }
    else
      match H.kind o with
      | .array => some ⟨(p, r) :: st, o :: s.seen, s.found ++ [(p ++ [n], o)]⟩
      | .leaf => some ⟨(p, r) :: st, o :: s.seen, s.found⟩
      | .other =>
        if priv n then some ⟨(p, r) :: st, o :: s.seen, s.found⟩
        else some ⟨(p ++ [n], H.attrs o) :: (p, r) :: st, o :: s.seen, s.found⟩

/-- The search comes to an end with the arrays `r`. -/
inductive Ends (H : Heap) : State → List (List Name × Nat) → Prop
  | done {s} : step H s = none → Ends H s s.found
  | step {s s' r} : step H s = some s' → Ends H s' r → Ends H s r

/-- The beginning (19-22, 24-25). The object itself is not among those that are known. -/
def start (H : Heap) (x : Nat) : State := ⟨[([], H.attrs x)], [], []⟩

/-- `struct` (37-42). -/
def key (p : List Name) : Name := ['.'].intercalate p

/-! ## Specification -/

/-- `y` is reached from `x` through attributes that are not private, over objects that are neither arrays nor numbers nor methods. -/
inductive Public (H : Heap) (x : Nat) : List Name → Nat → Prop
  | root : Public H x [] x
  | attr {p y n o} : Public H x p y → (n, o) ∈ H.attrs y → priv n = false → H.kind o = .other → Public H x (p ++ [n]) o

/-- The array `a` is the attribute with the names `p` of `x`. -/
def HasArray (H : Heap) (x : Nat) (p : List Name) (a : Nat) : Prop :=
  ∃ q y n, p = q ++ [n] ∧ Public H x q y ∧ (n, a) ∈ H.attrs y ∧ H.kind a = .array

/-- What the object consists of is finite. -/
def Finite (H : Heap) (x : Nat) : Prop := ∃ U : List Nat, x ∈ U ∧ ∀ y ∈ U, ∀ a ∈ H.attrs y, a.2 ∈ U

/-! ## The search -/

/-- Which calls are open, and what was found. -/
structure Inv (H : Heap) (x : Nat) (s : State) : Prop where
  frames : ∀ f ∈ s.stack, ∃ y, Public H x f.1 y ∧ ∀ a ∈ f.2, a ∈ H.attrs y
  sound : ∀ e ∈ s.found, HasArray H x e.1 e.2
  seen : ∀ e ∈ s.found, e.2 ∈ s.seen
  nodup : (s.found.map (·.2)).Nodup
  arrays : ∀ o ∈ s.seen, H.kind o = .array → o ∈ s.found.map (·.2)

theorem inv_start (H : Heap) (x : Nat) : Inv H x (start H x) :=
  ⟨by simp [start]; exact ⟨x, .root, fun _ _ h => h⟩, by simp [start], by simp [start], by simp [start], by simp [start]⟩

theorem inv_step {H : Heap} {x : Nat} {s s' : State} (h : Inv H x s) (hs : step H s = some s') : Inv H x s' := by
  obtain ⟨hf, h1, h2, h3, h4⟩ := h
  unfold step at hs
  split at hs
  · exact absurd hs (by simp)
  · next p st e =>
    obtain rfl := Option.some.inj hs
    rw [e] at hf
    exact ⟨fun f hf' => hf f (List.mem_cons_of_mem _ hf'), h1, h2, h3, h4⟩
  · next p n o r st e =>
    rw [e] at hf
    obtain ⟨y, hy, ha⟩ := hf _ List.mem_cons_self
    have hrest : ∀ f ∈ (p, r) :: st, ∃ y, Public H x f.1 y ∧ ∀ a ∈ f.2, a ∈ H.attrs y := by
      intro f hm
      rcases List.mem_cons.1 hm with rfl | hm
      · exact ⟨y, hy, fun a h => ha a (List.mem_cons_of_mem _ h)⟩
      · exact hf f (List.mem_cons_of_mem _ hm)
    have hno : (n, o) ∈ H.attrs y := ha _ List.mem_cons_self
    split at hs
    · obtain rfl := Option.some.inj hs
      exact ⟨hrest, h1, h2, h3, h4⟩
    · next hseen =>
      split at hs
      · next hk =>
        obtain rfl := Option.some.inj hs
        refine ⟨hrest, ?_, ?_, ?_, ?_⟩
        · intro e he
          rcases List.mem_append.1 he with he | he
          · exact h1 e he
          · rw [List.mem_singleton.1 he]
            exact ⟨p, y, n, rfl, hy, hno, hk⟩
        · intro e he
          rcases List.mem_append.1 he with he | he
          · exact List.mem_cons_of_mem _ (h2 e he)
          · rw [List.mem_singleton.1 he]
            exact List.mem_cons_self
        · simp only [List.map_append, List.map_cons, List.map_nil]
          refine List.Nodup.append h3 (List.nodup_singleton _) ?_
          intro a ha hb
          obtain ⟨e, he, rfl⟩ := List.mem_map.1 ha
          rw [List.mem_singleton] at hb
          exact hseen (hb ▸ h2 e he)
        · intro a ha hka
          simp only [List.map_append, List.mem_append, List.map_cons, List.map_nil, List.mem_singleton]
          rcases List.mem_cons.1 ha with rfl | ha
          · exact .inr rfl
          · exact .inl (h4 a ha hka)
      · next hk =>
        obtain rfl := Option.some.inj hs
        refine ⟨hrest, h1, fun e he => List.mem_cons_of_mem _ (h2 e he), h3, ?_⟩
        intro a ha hka
        rcases List.mem_cons.1 ha with rfl | ha
        · rw [hk] at hka; exact absurd hka (by simp)
        · exact h4 a ha hka
      · next hk =>
        have harr : ∀ a ∈ o :: s.seen, H.kind a = .array → a ∈ s.found.map (·.2) := by
          intro a ha hka
          rcases List.mem_cons.1 ha with rfl | ha
          · rw [hk] at hka; exact absurd hka (by simp)
          · exact h4 a ha hka
        split at hs
        · obtain rfl := Option.some.inj hs
          exact ⟨hrest, h1, fun e he => List.mem_cons_of_mem _ (h2 e he), h3, harr⟩
        · next hp =>
          obtain rfl := Option.some.inj hs
          refine ⟨?_, h1, fun e he => List.mem_cons_of_mem _ (h2 e he), h3, harr⟩
          intro f hm
          rcases List.mem_cons.1 hm with rfl | hm
          · exact ⟨o, .attr hy hno (by simpa using hp) hk, fun a h => h⟩
          · exact hrest f hm

theorem inv_ends {H : Heap} {x : Nat} {s : State} {r : List (List Name × Nat)} (h : Inv H x s) (hr : Ends H s r) :
    (∀ e ∈ r, HasArray H x e.1 e.2) ∧ (r.map (·.2)).Nodup := by
  induction hr with
  | done _ => exact ⟨h.sound, h.nodup⟩
  | step hs _ ih => exact ih (inv_step h hs)

/-- C294: every array that is reported belongs to the node under the name that is reported, and no array is reported twice. -/
theorem dig_sound {H : Heap} {x : Nat} {r : List (List Name × Nat)} (hr : Ends H (start H x) r) :
    (∀ e ∈ r, HasArray H x e.1 e.2) ∧ (r.map (·.2)).Nodup := inv_ends (inv_start H x) hr

/-! ### The search ends -/

/-- How much of the universe is not known yet. -/
def unseen (U seen : List Nat) : Nat := (U.filter (· ∉ seen)).length

theorem unseen_lt {U seen : List Nat} {o : Nat} (ho : o ∈ U) (hs : o ∉ seen) : unseen U (o :: seen) < unseen U seen := by
  unfold unseen
  have e : U.filter (· ∉ o :: seen) = (U.filter (· ∉ seen)).filter (· ≠ o) := by
    rw [List.filter_filter]
    refine List.filter_congr fun a _ => ?_
    simp only [List.mem_cons, not_or, Bool.decide_and, ne_eq]
  rw [e]
  refine List.length_filter_lt_length_iff_exists.2 ⟨o, List.mem_filter.2 ⟨ho, by simpa using hs⟩, by simp⟩

/-- Work left in the open calls. -/
def work (st : List (List Name × List (Name × Nat))) : Nat := (st.map fun f => f.2.length + 1).sum

theorem ends_exists (H : Heap) (U : List Nat) (hU : ∀ y ∈ U, ∀ a ∈ H.attrs y, a.2 ∈ U) (s : State) (hs : ∀ f ∈ s.stack, ∀ a ∈ f.2, a.2 ∈ U) :
    ∃ r, Ends H s r := by
  generalize hu : unseen U s.seen = u
  induction u using Nat.strong_induction_on generalizing s with
  | _ u ihu =>
    generalize hw : work s.stack = w
    induction w using Nat.strong_induction_on generalizing s with
    | _ w ihw =>
      rcases e : step H s with _ | s'
      · exact ⟨_, .done e⟩
      · suffices h : ∃ r, Ends H s' r by
          obtain ⟨r, hr⟩ := h
          exact ⟨r, .step e hr⟩
        have e0 := e
        unfold step at e
        split at e
        · exact absurd e (by simp)
        · next p st es =>
          obtain rfl := Option.some.inj e
          refine ihw (work st) ?_ _ ?_ hu rfl
          · rw [← hw, es]; simp [work]
          · intro f hf; exact hs f (by rw [es]; exact List.mem_cons_of_mem _ hf)
        · next p n o r st es =>
          have ho : o ∈ U := hs (p, (n, o) :: r) (by rw [es]; exact List.mem_cons_self) (n, o) List.mem_cons_self
          have hrest : ∀ f ∈ (p, r) :: st, ∀ a ∈ f.2, a.2 ∈ U := by
            intro f hf a ha
            rcases List.mem_cons.1 hf with rfl | hf
            · exact hs (p, (n, o) :: r) (by rw [es]; exact List.mem_cons_self) a (List.mem_cons_of_mem _ ha)
            · exact hs f (by rw [es]; exact List.mem_cons_of_mem _ hf) a ha
          split at e
          · obtain rfl := Option.some.inj e
            refine ihw (work ((p, r) :: st)) ?_ _ hrest hu rfl
            rw [← hw, es]; simp [work]
          · next hseen =>
            have hlt := unseen_lt ho hseen
            rw [hu] at hlt
            split at e
            · obtain rfl := Option.some.inj e
              exact ihu _ hlt _ hrest rfl
            · obtain rfl := Option.some.inj e
              exact ihu _ hlt _ hrest rfl
            · split at e
              · obtain rfl := Option.some.inj e
                exact ihu _ hlt _ hrest rfl
              · obtain rfl := Option.some.inj e
                refine ihu _ hlt _ ?_ rfl
                intro f hf a ha
                rcases List.mem_cons.1 hf with rfl | hf
                · exact hU o ho a ha
                · exact hrest f hf a ha

/-- C294: the search ends, whatever cycles the attributes have. -/
theorem dig_ends {H : Heap} {x : Nat} (h : Finite H x) : ∃ r, Ends H (start H x) r := by
  obtain ⟨U, hx, hU⟩ := h
  refine ends_exists H U hU _ ?_
  intro f hf a ha
  rw [List.mem_singleton.1 hf] at ha
  exact hU x hx a ha

/-! ### Nothing is missed -/

/-- No object that the search would look into is met under a private name. -/
def Plain (H : Heap) (x : Nat) : Prop := ∀ p y n o, Public H x p y → (n, o) ∈ H.attrs y → priv n = true → o ≠ x → ∀ q, ¬ Public H x q o

/-- Attributes of objects that were looked into are known or to be looked at. -/
def Covered (H : Heap) (x : Nat) (s : State) : Prop :=
  ∀ p o, Public H x p o → o = x ∨ o ∈ s.seen → ∀ a ∈ H.attrs o, a.2 ∈ s.seen ∨ ∃ f ∈ s.stack, a ∈ f.2

theorem covered_step {H : Heap} {x : Nat} (hp : Plain H x) {s s' : State} (hi : Inv H x s) (h : Covered H x s) (hs : step H s = some s') : Covered H x s' := by
  unfold step at hs
  split at hs
  · exact absurd hs (by simp)
  · next p st e =>
    obtain rfl := Option.some.inj hs
    intro q o ho hk a ha
    rcases h q o ho hk a ha with h1 | ⟨f, hf, haf⟩
    · exact .inl h1
    · rw [e] at hf
      rcases List.mem_cons.1 hf with rfl | hf
      · exact absurd haf (by simp)
      · exact .inr ⟨f, hf, haf⟩
  · next p n o r st e =>
    obtain ⟨y, hy, hya⟩ := hi.frames _ (by rw [e]; exact List.mem_cons_self)
    have hno : (n, o) ∈ H.attrs y := hya _ List.mem_cons_self
    -- what was covered before stays covered as soon as `o` is known
    have keep : ∀ (seen' : List Nat) (st' : List (List Name × List (Name × Nat))), o ∈ seen' → (∀ v ∈ s.seen, v ∈ seen') → (∀ f ∈ (p, r) :: st, f ∈ st') →
        ∀ a : Name × Nat, (a.2 ∈ s.seen ∨ ∃ f ∈ s.stack, a ∈ f.2) → (a.2 ∈ seen' ∨ ∃ f ∈ st', a ∈ f.2) := by
      intro seen' st' h1 h2 h3 a ha
      rcases ha with ha | ⟨f, hf, haf⟩
      · exact .inl (h2 _ ha)
      · rw [e] at hf
        rcases List.mem_cons.1 hf with rfl | hf
        · rcases List.mem_cons.1 haf with rfl | haf
          · exact .inl h1
          · exact .inr ⟨(p, r), h3 _ List.mem_cons_self, haf⟩
        · exact .inr ⟨f, h3 _ (List.mem_cons_of_mem _ hf), haf⟩
    split at hs
    · next hseen =>
      obtain rfl := Option.some.inj hs
      intro q v hv hk a ha
      exact keep s.seen _ hseen (fun _ h => h) (fun _ h => h) a (h q v hv hk a ha)
    · next hseen =>
      -- nothing has to be covered for `o` itself
      have other : (∀ q, Public H x q o → o = x) → ∀ s'' : State, s''.seen = o :: s.seen → (∀ f ∈ (p, r) :: st, f ∈ s''.stack) → Covered H x s'' := by
        intro hnot s'' h1 h2 q v hv hk a ha
        have := keep s''.seen s''.stack (by rw [h1]; exact List.mem_cons_self) (fun v hv => by rw [h1]; exact List.mem_cons_of_mem _ hv) h2 a
        refine this (h q v hv ?_ a ha)
        rcases hk with hk | hk
        · exact .inl hk
        · rw [h1] at hk
          rcases List.mem_cons.1 hk with rfl | hk
          · exact .inl (hnot q hv)
          · exact .inr hk
      have kinds : H.kind o ≠ .other → ∀ q, Public H x q o → o = x := by
        intro hk q hq
        cases hq with
        | root => rfl
        | attr _ _ _ h => exact absurd h hk
      split at hs
      · next hk =>
        obtain rfl := Option.some.inj hs
        exact other (kinds (by rw [hk]; simp)) _ rfl (fun _ h => h)
      · next hk =>
        obtain rfl := Option.some.inj hs
        exact other (kinds (by rw [hk]; simp)) _ rfl (fun _ h => h)
      · next hk =>
        split at hs
        · next hpr =>
          obtain rfl := Option.some.inj hs
          refine other ?_ _ rfl (fun _ h => h)
          intro q hq
          by_contra hx
          exact hp p y n o hy hno hpr hx q hq
        · obtain rfl := Option.some.inj hs
          intro q v hv hk' a ha
          by_cases hvo : v = o
          · subst hvo
            exact .inr ⟨_, List.mem_cons_self, ha⟩
          · refine keep (o :: s.seen) _ List.mem_cons_self (fun v hv => List.mem_cons_of_mem _ hv) (fun _ h => List.mem_cons_of_mem _ h) a (h q v hv ?_ a ha)
            rcases hk' with hk' | hk'
            · exact .inl hk'
            · exact .inr ((List.mem_cons.1 hk').resolve_left hvo)

theorem covered_ends {H : Heap} {x : Nat} (hp : Plain H x) {s : State} {r : List (List Name × Nat)} (hi : Inv H x s) (h : Covered H x s) (hr : Ends H s r) :
    ∀ p a, HasArray H x p a → a ∈ r.map (·.2) := by
  induction hr with
  | @done s hs =>
    have he : s.stack = [] := by
      unfold step at hs
      split at hs
      · assumption
      · exact absurd hs (by simp)
      · split at hs
        · exact absurd hs (by simp)
        · split at hs
          · exact absurd hs (by simp)
          · exact absurd hs (by simp)
          · split at hs <;> exact absurd hs (by simp)
    have known : ∀ q y, Public H x q y → y = x ∨ y ∈ s.seen := by
      intro q y hy
      induction hy with
      | root => exact .inl rfl
      | @attr q' y' n' o' h1 h2 _ _ ih =>
        rcases h q' y' h1 ih _ h2 with h3 | ⟨f, hf, _⟩
        · exact .inr h3
        · rw [he] at hf; exact absurd hf (by simp)
    rintro p a ⟨q, y, n, rfl, hy, hn, hk⟩
    rcases h q y hy (known q y hy) _ hn with h3 | ⟨f, hf, _⟩
    · exact hi.arrays a h3 hk
    · rw [he] at hf; exact absurd hf (by simp)
  | step hs _ ih => exact ih (inv_step hi hs) (covered_step hp hi h hs)

/-- C294: every array of the node is reported, if no object that holds one is met under a private name (`__…`). -/
theorem dig_complete_partial {H : Heap} {x : Nat} (hp : Plain H x) {r : List (List Name × Nat)} (hr : Ends H (start H x) r) :
    ∀ p a, HasArray H x p a → a ∈ r.map (·.2) := by
  refine covered_ends hp (inv_start H x) ?_ hr
  intro p o ho hk a ha
  rcases hk with rfl | hk
  · exact .inr ⟨_, List.mem_singleton.2 rfl, ha⟩
  · exact absurd hk (by simp [start])

theorem public_unique {H : Heap} {x : Nat} (hn : ∀ y, ((H.attrs y).map (·.1)).Nodup) {p : List Name} {y z : Nat} (hy : Public H x p y) (hz : Public H x p z) :
    y = z := by
  induction hy generalizing z with
  | root =>
    generalize hq : ([] : List Name) = q at hz
    cases hz with
    | root => rfl
    | attr => exact absurd hq (by simp)
  | @attr p y n o h1 h2 h3 h4 ih =>
    generalize hq : p ++ [n] = q at hz
    cases hz with
    | root => exact absurd hq (by simp)
    | @attr p' y' n' _ g1 g2 g3 g4 =>
      obtain ⟨rfl, e⟩ := List.append_inj' hq rfl
      obtain rfl : n = n' := by simpa using e
      obtain rfl := ih g1
      exact congrArg Prod.snd (List.inj_on_of_nodup_map (hn y) h2 g2 rfl)

/-- C294: the names under which arrays are reported are different, so that none replaces another in the dictionary, if names of attributes have no dots. -/
theorem dig_names {H : Heap} {x : Nat} (hn : ∀ y, ((H.attrs y).map (·.1)).Nodup) (hd : ∀ y, ∀ a ∈ H.attrs y, '.' ∉ a.1) {r : List (List Name × Nat)}
    (hr : Ends H (start H x) r) : (r.map fun e => key e.1).Nodup := by
  obtain ⟨h1, h2⟩ := dig_sound hr
  have dots : ∀ q y, Public H x q y → ∀ n ∈ q, '.' ∉ n := by
    intro q y hy
    induction hy with
    | root => simp
    | attr _ h2 _ _ ih =>
      intro n hn
      rcases List.mem_append.1 hn with hn | hn
      · exact ih n hn
      · rw [List.mem_singleton.1 hn]; exact hd _ _ h2
  have hkey : ∀ e ∈ r, (key e.1).splitOn '.' = e.1 := by
    intro e he
    obtain ⟨q, y, n, hq, hy, hna, _⟩ := h1 e he
    refine List.splitOn_intercalate '.' ?_ (by rw [hq]; simp)
    intro m hm
    rw [hq] at hm
    rcases List.mem_append.1 hm with hm | hm
    · exact dots q y hy m hm
    · rw [List.mem_singleton.1 hm]; exact hd _ _ hna
  refine List.Nodup.map_on ?_ (List.Nodup.of_map _ h2)
  intro e he e' he' hee
  have hpe : e.1 = e'.1 := by rw [← hkey e he, ← hkey e' he', hee]
  refine Prod.ext hpe ?_
  obtain ⟨q, y, n, hq, hy, hna, _⟩ := h1 e he
  obtain ⟨q', y', n', hq', hy', hna', _⟩ := h1 e' he'
  rw [hpe, hq'] at hq
  obtain ⟨rfl, e2⟩ := List.append_inj' hq rfl
  obtain rfl : n' = n := by simpa using e2
  obtain rfl := public_unique hn hy hy'
  have e3 := List.inj_on_of_nodup_map (hn y) hna hna' rfl
  injection e3

/-! ### The report -/

inductive Err where
  /-- ValueError: `max` of nothing -/
  | value
  /-- Exception: Cannot dig -/
  | notNode
  /-- IndexError -/
  | index
deriving DecidableEq

structure Arr where
  shape : List Nat
  itemsize : Nat

/-- The size of one array (91-96). -/
def Arr.bytes (a : Arr) : Nat := a.itemsize * if a.shape = [] then 1 else a.shape.prod

/-- `dig_node` (80-98) for the arrays the search found: the dictionary and the numbers in the last line of the text, how many arrays and bytes. -/
def report (isNode : Bool) (arr : Nat → Arr) (found : List (List Name × Nat)) : Except Err (List (Name × Nat × Nat) × Nat × Nat) :=
  if isNode = false then .error .notNode
  else
    let d := found.map fun e => (key e.1, (arr e.2).bytes, e.2)
    if d = [] then .error .value else .ok (d, d.length, (d.map fun e => e.2.1).sum)

/-- C294: the sizes: the product of the shape times the size of an item, and their sum. -/
theorem dig_sizes (arr : Nat → Arr) {found : List (List Name × Nat)} (h : found ≠ []) :
    report true arr found = .ok (found.map fun e => (key e.1, (arr e.2).itemsize * (arr e.2).shape.prod, e.2), found.length,
      (found.map fun e => (arr e.2).itemsize * (arr e.2).shape.prod).sum) := by
  have e : ∀ a : Arr, a.bytes = a.itemsize * a.shape.prod := by
    intro a
    unfold Arr.bytes
    split
    · next h => rw [h]; rfl
    · rfl
  simp [report, e, h, List.map_map, Function.comp_def]

/-- C294, false: a node without arrays cannot be dug: ValueError. -/
theorem dig_none_violation (arr : Nat → Arr) : report true arr [] = .error .value := rfl

/-- The heap of the example: 0 has `__a` and `b`, both object 1, which has the array 2. -/
def hidden : Heap :=
  ⟨fun o => match o with | 0 => [(['_', '_', 'a'], 1), (['b'], 1)] | 1 => [(['c'], 2)] | _ => [], fun o => if o = 2 then .array else .other⟩

/-- C294, false: an object that is met under a private name first is not looked into under its other name. -/
theorem dig_hidden_violation : HasArray hidden 0 [['b'], ['c']] 2 ∧ Ends hidden (start hidden 0) [] := by
  refine ⟨⟨[['b']], 1, ['c'], rfl, ?_, ?_, ?_⟩, ?_⟩
  · exact .attr (p := []) .root (by simp [hidden]) (by decide) (by decide)
  · simp [hidden]
  · decide
  · refine .step (s' := ⟨[([], [(['b'], 1)])], [1], []⟩) rfl ?_
    refine .step (s' := ⟨[([], [])], [1], []⟩) rfl ?_
    refine .step (s' := ⟨[], [1], []⟩) rfl ?_
    exact .done rfl

/-- A node with a cycle: 0 has `b` (1) and `w` (2, an array), 1 has `n` (0) and `v` (3, an array). -/
def ring : Heap :=
  ⟨fun o => match o with | 0 => [(['b'], 1), (['w'], 2)] | 1 => [(['n'], 0), (['v'], 3)] | _ => [], fun o => if 2 ≤ o then .array else .other⟩

/-- The node itself is looked into once more, and its array has the longer name. -/
example : Ends ring (start ring 0) [([['b'], ['n'], ['w']], 2), ([['b'], ['v']], 3)] := by
  refine .step (s' := ⟨[([['b']], [(['n'], 0), (['v'], 3)]), ([], [(['w'], 2)])], [1], []⟩) rfl ?_
  refine .step (s' := ⟨[([['b'], ['n']], [(['b'], 1), (['w'], 2)]), ([['b']], [(['v'], 3)]), ([], [(['w'], 2)])], [0, 1], []⟩) rfl ?_
  refine .step (s' := ⟨[([['b'], ['n']], [(['w'], 2)]), ([['b']], [(['v'], 3)]), ([], [(['w'], 2)])], [0, 1], []⟩) rfl ?_
  refine .step (s' := ⟨[([['b'], ['n']], []), ([['b']], [(['v'], 3)]), ([], [(['w'], 2)])], [2, 0, 1], [([['b'], ['n'], ['w']], 2)]⟩) rfl ?_
  refine .step (s' := ⟨[([['b']], [(['v'], 3)]), ([], [(['w'], 2)])], [2, 0, 1], [([['b'], ['n'], ['w']], 2)]⟩) rfl ?_
  refine .step (s' := ⟨[([['b']], []), ([], [(['w'], 2)])], [3, 2, 0, 1], [([['b'], ['n'], ['w']], 2), ([['b'], ['v']], 3)]⟩) rfl ?_
  refine .step (s' := ⟨[([], [(['w'], 2)])], [3, 2, 0, 1], [([['b'], ['n'], ['w']], 2), ([['b'], ['v']], 3)]⟩) rfl ?_
  refine .step (s' := ⟨[([], [])], [3, 2, 0, 1], [([['b'], ['n'], ['w']], 2), ([['b'], ['v']], 3)]⟩) rfl ?_
  refine .step (s' := ⟨[], [3, 2, 0, 1], [([['b'], ['n'], ['w']], 2), ([['b'], ['v']], 3)]⟩) rfl ?_
  exact .done rfl

/-- The hypotheses can be met: the node with the cycle. -/
example : Finite ring 0 ∧ Plain ring 0 := by
  refine ⟨⟨[0, 1, 2, 3], by simp, ?_⟩, ?_⟩
  · intro y hy a ha
    simp only [List.mem_cons, List.not_mem_nil, or_false] at hy
    rcases hy with rfl | rfl | rfl | rfl <;> simp [ring] at ha <;> rcases ha with rfl | rfl <;> simp
  · intro p y n o _ hm hpr
    exfalso
    rcases y with _ | _ | y <;> simp [ring] at hm
    · rcases hm with ⟨rfl, _⟩ | ⟨rfl, _⟩ <;> exact absurd hpr (by decide)
    · rcases hm with ⟨rfl, _⟩ | ⟨rfl, _⟩ <;> exact absurd hpr (by decide)

/-! ## Sizes as text -/

/-- The loop `while size > base**(scale+1)` (130-131) with at most `fuel` rounds. -/
def scaleLoop (b n : Nat) : Nat → Nat → Nat
  | 0, s => s
  | fuel + 1, s => if n > b ^ (s + 1) then scaleLoop b n fuel (s + 1) else s

/-- The text (133-142) as its parts: the tenths that are displayed (`%.1f`), or the number of bytes, and the index of the prefix. -/
inductive Text where
  | bytes (n : Nat)
  | scaled (tenths : Int) (pfx : Nat)
deriving DecidableEq

/-- `_memory_size_str` (119-142); both tuples of prefixes have seven entries. -/
def sizeText (si : Bool) (n : Nat) : Except Err Text :=
  let b := if si then 1000 else 1024
  let s := scaleLoop b n n 0
  if s = 0 then .ok (.bytes n)
  else if s < 7 then .ok (.scaled (Progress.pyRound (10 * n / (b ^ s : Nat))) s) else .error .index

theorem scaleLoop_spec {b n : Nat} (hb : 2 ≤ b) (fuel s : Nat) (h : n ≤ b ^ (s + fuel + 1)) (hs : s = 0 ∨ b ^ s < n) :
    n ≤ b ^ (scaleLoop b n fuel s + 1) ∧ (scaleLoop b n fuel s = 0 ∨ b ^ scaleLoop b n fuel s < n) := by
  induction fuel generalizing s with
  | zero => exact ⟨by simpa [scaleLoop] using h, hs⟩
  | succ f ih =>
    simp only [scaleLoop]
    split
    · next hg => exact ih (s + 1) (by rw [show s + 1 + f + 1 = s + (f + 1) + 1 by ring]; exact h) (.inr hg)
    · next hg => exact ⟨by omega, hs⟩

theorem scale_exact {b n : Nat} (hb : 2 ≤ b) :
    n ≤ b ^ (scaleLoop b n n 0 + 1) ∧ (scaleLoop b n n 0 = 0 ∨ b ^ scaleLoop b n n 0 < n) := by
  refine scaleLoop_spec hb n 0 ?_ (.inl rfl)
  have h1 : n < 2 ^ n := Nat.lt_two_pow_self
  have h2 : 2 ^ n ≤ b ^ n := Nat.pow_le_pow_left hb n
  have h3 : b ^ n ≤ b ^ (0 + n + 1) := Nat.pow_le_pow_right (by omega) (by omega)
  omega

theorem pyRound_error (x : ℚ) : |(Progress.pyRound x : ℚ) - x| ≤ 1 / 2 := by
  have h1 := Int.floor_le x
  have h2 := Int.lt_floor_add_one x
  rw [abs_le]
  simp only [Progress.pyRound]
  split
  · constructor <;> linarith
  · split
    · push_cast; constructor <;> linarith
    · split
      · constructor <;> linarith
      · push_cast; constructor <;> linarith

/-- C295: up to the base a size is displayed in bytes; above, in the unit for which the number is above one and at most the base, and what is displayed is wrong by
at most a twentieth of the unit. Above the seventh power of the base there is an IndexError. -/
theorem size_text (si : Bool) (n : Nat) : let b := if si then 1000 else 1024
    (n ≤ b → sizeText si n = .ok (.bytes n)) ∧
    (∀ s, 0 < s → s < 7 → b ^ s < n → n ≤ b ^ (s + 1) → ∃ t : Int, sizeText si n = .ok (.scaled t s) ∧ |(t : ℚ) / 10 - n / (b : ℚ) ^ s| ≤ 1 / 20) ∧
    (b ^ 7 < n → sizeText si n = .error .index) := by
  intro b
  have hb : 2 ≤ b := by simp only [b]; split <;> omega
  obtain ⟨h1, h2⟩ := scale_exact (b := b) (n := n) hb
  have mono : ∀ {i j : Nat}, b ^ i < n → n ≤ b ^ j → i < j := by
    intro i j hi hj
    exact (Nat.pow_lt_pow_iff_right (by omega)).1 (lt_of_lt_of_le hi hj)
  refine ⟨?_, ?_, ?_⟩
  · intro h
    have : scaleLoop b n n 0 = 0 := by
      rcases h2 with h2 | h2
      · exact h2
      · have := mono (j := 1) h2 (by simpa using h)
        omega
    simp only [sizeText]
    rw [if_pos this]
  · intro s hs h7 ha hz
    have : scaleLoop b n n 0 = s := by
      have g1 := mono ha h1
      rcases h2 with h2 | h2
      · rw [h2] at g1; omega
      · have := mono h2 hz; omega
    refine ⟨Progress.pyRound (10 * n / (b ^ s : Nat)), ?_, ?_⟩
    · simp only [sizeText]
      rw [this, if_neg (by omega), if_pos h7]
    · have e := pyRound_error (10 * n / (b ^ s : Nat))
      have hpos : (0 : ℚ) < (b : ℚ) ^ s := by
        have : (0 : ℚ) < b := by exact_mod_cast (show 0 < b by omega)
        positivity
      generalize Progress.pyRound (10 * (n : ℚ) / (b ^ s : Nat)) = t at *
      push_cast at e
      rw [mul_div_assoc] at e
      generalize (n : ℚ) / (b : ℚ) ^ s = q at *
      rw [abs_le] at e ⊢
      constructor <;> linarith [e.1, e.2]
  · intro h
    have g := mono h h1
    simp only [sizeText]
    rw [if_neg (by simp only [b] at g; omega), if_neg (by simp only [b] at g; omega)]

example : sizeText false 1024 = .ok (.bytes 1024) ∧ sizeText false 1536 = .ok (.scaled 15 1) ∧ sizeText true 2500000 = .ok (.scaled 25 2) := by decide +kernel

end Mdp.Introspect
