import Mathlib.Data.List.Basic
import Mathlib.Data.Finset.Card
import Mathlib.Data.Finset.Range
import Mathlib.Tactic.Common

/-!
# Modules of exported objects

Models `fixup_namespace` (`mdp/utils/__init__.py` 123-228): the `__module__` of everything a package exports, and of what
is reachable from it, is changed from the module of the definition to the package; then the names of these modules are
deleted from the package.

Objects are numbers. Their attributes (`getattr`) and the names of their attributes (`dir`) do not change; only the
`__module__` does. Simplification: each object has a `__module__` of its own (instances read the one of their class until
they get one); `getattr` returns the same object each time. A bound method has the `__module__` of its function.
-/

namespace Mdp.Fixup

abbrev Name := List Char

/-- What assigning `item.__module__` does (lines 212-223): it works; for a bound method it raises, and the function gets
it; it raises and there is no function. -/
inductive Kind where
  | plain
  | method (f : Nat)
  | fixed
  deriving DecidableEq

/-- `getattr(p, n)` (`none`: `AttributeError`), `dir(p)`. -/
structure World where
  attr : Nat → Name → Option Nat
  dir : Nat → List Name
  kind : Nat → Kind

/-- The attribute `__module__` of the objects. -/
abbrev Mods := Nat → Option Name

def upd (m : Mods) (i : Nat) (n : Name) : Mods := fun j => if j = i then some n else m j

/-- `getattr(item, '__module__', None)` (line 206). -/
def read (w : World) (m : Mods) (i : Nat) : Option Name :=
  match w.kind i with
  | .method f => m f
  | _ => m i

/-- `_without_prefix` (lines 123-127). -/
def withoutPrefix (name pre : Name) : Option Name :=
  if pre.isPrefixOf name then some (name.drop pre.length) else none

/-- The condition of lines 207-208. -/
def inOld (mname : Name) (old : List Name) (c : Option Name) : Bool :=
  match c with
  | none => false
  | some c => match withoutPrefix c (mname ++ ['.']) with
    | none => false
    | some r => decide (r ∈ old)

def dunder (n : Name) : Bool := ['_', '_'].isPrefixOf n

/-- Lines 224-225. -/
def wanted (n : Name) : Bool := dunder n || !(['_'].isPrefixOf n)

/-- A loop over names; `(true, m)`: an `AttributeError` ended it. -/
def loop (step : Name → Mods → Option (Bool × Mods)) : List Name → Mods → Option (Bool × Mods)
  | [], m => some (false, m)
  | n :: r, m => match step n m with
    | none => none
    | some (true, m') => some (true, m')
    | some (false, m') => loop step r m'

/-- `_fixup_namespace_item` (lines 199-228) with at most `k` levels of recursion. -/
def fixItem (w : World) (mname : Name) (old : List Name) : Nat → Nat → Name → Mods → Option (Bool × Mods)
  | 0, _, _, _ => none
  | k + 1, p, name, m =>
    match w.attr p name with
    | none => some (!dunder name, m)
    | some i =>
      if inOld mname old (read w m i) then
        match w.kind i with
        | .fixed => some (false, m)
        | .method f => some (false, upd m f mname)
        | .plain => loop (fixItem w mname old k i) ((w.dir i).filter wanted) (upd m i mname)
      else some (false, m)

/-- Deleting the old modules (lines 183-196). -/
def strip (old keep ns : List Name) : List Name :=
  old.foldl (fun ns f => if f ∈ keep then ns else ns.filter fun x => x ≠ f) ns

/-- `fixup_namespace(mname, names, old, keep)` (lines 172-196) for the module object `root` with the names `ns`. -/
def fixup (w : World) (mname : Name) (old keep : List Name) (root : Nat) (names : Option (List Name)) (k : Nat)
    (m : Mods) (ns : List Name) : Option (Bool × Mods × List Name) :=
  let names := names.getD ((w.dir root).filter fun n => !(['_'].isPrefixOf n))
  match loop (fixItem w mname old k root) names m with
  | none => none
  | some (true, m') => some (true, m', ns)
  | some (false, m') => some (false, m', strip old keep ns)

/-! ### Specification -/

/-- The module is one of the private modules of the package. -/
def Private (mname : Name) (old : List Name) (c : Option Name) : Prop := ∃ r ∈ old, c = some (mname ++ '.' :: r)

/-- A name that is followed: not private, or with two underscores. -/
def Followed (n : Name) : Prop := (∃ r, n = '_' :: '_' :: r) ∨ ¬ ∃ r, n = '_' :: r

/-- What the package exports: the objects with the given names, and the attributes of exported objects from private
modules. -/
inductive Exposed (w : World) (mname : Name) (old : List Name) (m : Mods) (root : Nat) (names : List Name) : Nat → Prop where
  | top {n i} : n ∈ names → w.attr root n = some i → Exposed w mname old m root names i
  | sub {i n j} : Exposed w mname old m root names i → w.kind i = .plain → Private mname old (m i) →
      n ∈ w.dir i → Followed n → w.attr i n = some j → Exposed w mname old m root names j

/-- The objects whose `__module__` is to change: exported, from a private module; for bound methods the function. -/
def Target (w : World) (mname : Name) (old : List Name) (m : Mods) (root : Nat) (names : List Name) (i : Nat) : Prop :=
  Private mname old (m i) ∧
    ((Exposed w mname old m root names i ∧ w.kind i = .plain) ∨
      ∃ k, Exposed w mname old m root names k ∧ w.kind k = .method i)

/-! ### Lemmas -/

theorem isPrefixOf_iff (p n : Name) : p.isPrefixOf n = true ↔ ∃ r, n = p ++ r := by
  rw [List.isPrefixOf_iff_prefix]
  constructor
  · rintro ⟨r, rfl⟩; exact ⟨r, rfl⟩
  · rintro ⟨r, rfl⟩; exact ⟨r, rfl⟩

theorem inOld_iff (mname : Name) (old : List Name) (c : Option Name) : inOld mname old c = true ↔ Private mname old c := by
  unfold inOld Private
  cases c with
  | none => simp
  | some c =>
    simp only [withoutPrefix]
    by_cases h : (mname ++ ['.']).isPrefixOf c = true
    · rw [if_pos h]
      obtain ⟨r, rfl⟩ := (isPrefixOf_iff _ _).1 h
      simp only [List.drop_left, decide_eq_true_eq, Option.some.injEq]
      constructor
      · intro hr; exact ⟨r, hr, by simp⟩
      · rintro ⟨r', hr', he⟩
        have : r = r' := by simpa using he
        rw [this]; exact hr'
    · rw [if_neg h]
      simp only [Bool.false_eq_true, false_iff]
      rintro ⟨r, _, he⟩
      apply h
      rw [isPrefixOf_iff]
      cases he
      exact ⟨r, by simp⟩

theorem wanted_iff (n : Name) : wanted n = true ↔ Followed n := by
  unfold wanted dunder Followed
  rw [Bool.or_eq_true, isPrefixOf_iff, Bool.not_eq_true', ← Bool.not_eq_true, isPrefixOf_iff]
  rfl

theorem not_private_self (mname : Name) (old : List Name) : ¬ Private mname old (some mname) := by
  rintro ⟨r, _, h⟩
  have := congrArg (fun x : Option Name => (x.getD []).length) h
  simp at this

/-- Only the mark is written. -/
def Le (mname : Name) (m m' : Mods) : Prop := ∀ i, m' i = m i ∨ m' i = some mname

theorem Le.refl (mname : Name) (m : Mods) : Le mname m m := fun _ => .inl rfl

theorem Le.trans {mname : Name} {a b c : Mods} (h : Le mname a b) (h' : Le mname b c) : Le mname a c := by
  intro i
  rcases h' i with q | q
  · rcases h i with q' | q'
    · exact .inl (q.trans q')
    · exact .inr (q.trans q')
  · exact .inr q

theorem Le.upd (mname : Name) (m : Mods) (i : Nat) : Le mname m (upd m i mname) := by
  intro j
  unfold Fixup.upd
  by_cases h : j = i
  · simp [h]
  · simp [h]

/-- Nothing is left to do for the object itself. -/
def Handled (w : World) (mname : Name) (old : List Name) (m : Mods) (j : Nat) : Prop :=
  w.kind j = .fixed ∨ ¬ Private mname old (read w m j)

theorem Handled.mono {w : World} {mname : Name} {old : List Name} {m m' : Mods} {j : Nat} (h : Le mname m m')
    (hj : Handled w mname old m j) : Handled w mname old m' j := by
  rcases hj with hj | hj
  · exact .inl hj
  · right
    have key : ∀ i, ¬ Private mname old (m i) → ¬ Private mname old (m' i) := by
      intro i hi
      rcases h i with q | q
      · rw [q]; exact hi
      · rw [q]; exact not_private_self mname old
    unfold read at hj ⊢
    cases hk : w.kind j with
    | method f => rw [hk] at hj; exact key f hj
    | plain => rw [hk] at hj; exact key j hj
    | fixed => rw [hk] at hj; exact key j hj

/-- The attributes of an object are handled. -/
def Closed (w : World) (mname : Name) (old : List Name) (m : Mods) (i : Nat) : Prop :=
  ∀ n ∈ w.dir i, Followed n → ∀ j, w.attr i n = some j → Handled w mname old m j

/-- What a part of the work guarantees: only marks are written, and what it marked among the plain objects is closed. -/
def Good (w : World) (mname : Name) (old : List Name) (m m' : Mods) : Prop :=
  Le mname m m' ∧ ∀ i, w.kind i = .plain → Private mname old (m i) → (∀ k, w.kind k ≠ .method i) → m' i = some mname →
    Closed w mname old m' i

theorem Good.trans {w : World} {mname : Name} {old : List Name} {a b c : Mods} (h : Good w mname old a b)
    (h' : Good w mname old b c) : Good w mname old a c := by
  refine ⟨h.1.trans h'.1, ?_⟩
  intro i hk hp hm hc
  rcases h.1 i with q | q
  · exact h'.2 i hk (by rw [q]; exact hp) hm hc
  · intro n hn hf j hj
    exact (h.2 i hk hp hm q n hn hf j hj).mono h'.1

theorem loop_good {w : World} {mname : Name} {old : List Name} {p : Nat} {step : Name → Mods → Option (Bool × Mods)}
    (hs : ∀ n m m', step n m = some (false, m') → Good w mname old m m' ∧ ∀ j, w.attr p n = some j → Handled w mname old m' j) :
    ∀ (l : List Name) (m m' : Mods), loop step l m = some (false, m') →
      Good w mname old m m' ∧ ∀ n ∈ l, ∀ j, w.attr p n = some j → Handled w mname old m' j := by
  intro l
  induction l with
  | nil =>
    intro m m' h
    cases h
    refine ⟨⟨Le.refl _ _, ?_⟩, by simp⟩
    intro i _ hp _ hc
    rw [hc] at hp
    exact absurd hp (not_private_self _ _)
  | cons n r ih =>
    intro m m' h
    simp only [loop] at h
    split at h
    · cases h
    · cases h
    · rename_i m1 h1
      obtain ⟨g1, a1⟩ := hs n m m1 h1
      obtain ⟨g2, a2⟩ := ih m1 m' h
      refine ⟨g1.trans g2, ?_⟩
      intro n' hn'
      rcases List.mem_cons.1 hn' with rfl | hn'
      · intro j hj
        exact (a1 j hj).mono g2.1
      · exact a2 n' hn'

theorem fixItem_good (w : World) (mname : Name) (old : List Name) : ∀ (k p : Nat) (name : Name) (m m' : Mods),
    fixItem w mname old k p name m = some (false, m') →
      Good w mname old m m' ∧ ∀ j, w.attr p name = some j → Handled w mname old m' j := by
  have same : ∀ m : Mods, Good w mname old m m := by
    intro m
    refine ⟨Le.refl _ _, ?_⟩
    intro i _ hp _ hc
    rw [hc] at hp
    exact absurd hp (not_private_self _ _)
  intro k
  induction k with
  | zero => intro p name m m' h; cases h
  | succ k ih =>
    intro p name m m' h
    simp only [fixItem] at h
    split at h
    · rename_i ha
      cases hd : dunder name with
      | false => rw [hd] at h; cases h
      | true =>
        rw [hd] at h
        cases h
        exact ⟨same m, by intro j hj; rw [ha] at hj; cases hj⟩
    · rename_i i ha
      by_cases hp : inOld mname old (read w m i) = true
      · rw [if_pos hp] at h
        split at h
        · rename_i hk
          cases h
          refine ⟨same m, ?_⟩
          intro j hj
          rw [ha] at hj
          cases hj
          exact .inl hk
        · rename_i f hk
          cases h
          refine ⟨⟨Le.upd _ _ _, ?_⟩, ?_⟩
          · intro j _ hp' hm hc
            by_cases hj : j = f
            · subst hj
              exact absurd hk (hm i)
            · simp only [upd, if_neg hj] at hc
              rw [hc] at hp'
              exact absurd hp' (not_private_self _ _)
          · intro j hj
            rw [ha] at hj
            cases hj
            right
            simp only [read, hk, upd, if_true]
            exact not_private_self _ _
        · rename_i hk
          obtain ⟨g, a⟩ := loop_good (w := w) (mname := mname) (old := old) (p := i)
            (fun n m m' h => ih i n m m' h) _ _ _ h
          have hi : m' i = some mname := by
            rcases g.1 i with q | q
            · rw [q]; simp [upd]
            · exact q
          refine ⟨⟨(Le.upd _ _ _).trans g.1, ?_⟩, ?_⟩
          · intro j hkj hpj hmj hcj
            by_cases hj : j = i
            · subst hj
              intro n hn hf j' hj'
              exact a n (by rw [List.mem_filter]; exact ⟨hn, (wanted_iff n).2 hf⟩) j' hj'
            · exact g.2 j hkj (by simp only [upd, if_neg hj]; exact hpj) hmj hcj
          · intro j hj
            rw [ha] at hj
            cases hj
            right
            simp only [read, hk, hi]
            exact not_private_self _ _
      · rw [if_neg hp] at h
        cases h
        refine ⟨same m, ?_⟩
        intro j hj
        rw [ha] at hj
        cases hj
        right
        rw [← inOld_iff]
        exact hp

/-! ### Only targets are changed -/

theorem loop_inv {step : Name → Mods → Option (Bool × Mods)} {I : Mods → Prop} {l : List Name}
    (hs : ∀ n ∈ l, ∀ m b m', I m → step n m = some (b, m') → I m') :
    ∀ (m : Mods) (b : Bool) (m' : Mods), I m → loop step l m = some (b, m') → I m' := by
  induction l with
  | nil => intro m b m' hi h; cases h; exact hi
  | cons n r ih =>
    intro m b m' hi h
    simp only [loop] at h
    split at h
    · cases h
    · rename_i m1 h1
      cases h
      exact hs n (by simp) m _ _ hi h1
    · rename_i m1 h1
      exact ih (fun n hn => hs n (by simp [hn])) m1 b m' (hs n (by simp) m _ _ hi h1) h

/-- Every object has its old module, or is a target and has the new one. -/
def Sound (w : World) (mname : Name) (old : List Name) (m0 : Mods) (root : Nat) (names : List Name) (m : Mods) : Prop :=
  ∀ i, m i = m0 i ∨ (m i = some mname ∧ Target w mname old m0 root names i)

theorem Sound.priv {w : World} {mname : Name} {old : List Name} {m0 m : Mods} {root : Nat} {names : List Name}
    (h : Sound w mname old m0 root names m) {i : Nat} (hp : Private mname old (m i)) : Private mname old (m0 i) := by
  rcases h i with q | ⟨q, _⟩
  · rw [← q]; exact hp
  · rw [q] at hp; exact absurd hp (not_private_self _ _)

theorem fixItem_sound (w : World) (mname : Name) (old : List Name) (m0 : Mods) (root : Nat) (names : List Name) :
    ∀ (k p : Nat) (name : Name), (∀ j, w.attr p name = some j → Exposed w mname old m0 root names j) →
      ∀ (m : Mods) (b : Bool) (m' : Mods), Sound w mname old m0 root names m →
        fixItem w mname old k p name m = some (b, m') → Sound w mname old m0 root names m' := by
  have hupd : ∀ (m : Mods) (i : Nat), Sound w mname old m0 root names m → Target w mname old m0 root names i →
      Sound w mname old m0 root names (upd m i mname) := by
    intro m i h ht j
    by_cases hj : j = i
    · subst hj
      right
      exact ⟨by simp [upd], ht⟩
    · simp only [upd, if_neg hj]
      exact h j
  intro k
  induction k with
  | zero => intro p name _ m b m' _ h; cases h
  | succ k ih =>
    intro p name he m b m' hs h
    simp only [fixItem] at h
    split at h
    · cases h; exact hs
    · rename_i i ha
      have hei := he i ha
      by_cases hp : inOld mname old (read w m i) = true
      · rw [if_pos hp] at h
        rw [inOld_iff] at hp
        split at h
        · cases h; exact hs
        · rename_i f hk
          cases h
          simp only [read, hk] at hp
          exact hupd m f hs ⟨hs.priv hp, .inr ⟨i, hei, hk⟩⟩
        · rename_i hk
          simp only [read, hk] at hp
          have hp0 := hs.priv hp
          refine loop_inv (I := Sound w mname old m0 root names) ?_ _ _ _ (hupd m i hs ⟨hp0, .inl ⟨hei, hk⟩⟩) h
          intro n hn m1 b1 m2 hs1 h1
          rw [List.mem_filter, wanted_iff] at hn
          exact ih i n (fun j hj => .sub hei hk hp0 hn.1 hn.2 hj) m1 b1 m2 hs1 h1
      · rw [if_neg hp] at h
        cases h
        exact hs

/-! ### Termination -/

/-- The plain objects from private modules. -/
def pending (w : World) (mname : Name) (old : List Name) (N : Nat) (m : Mods) : Finset Nat :=
  (Finset.range N).filter fun i => w.kind i = .plain ∧ inOld mname old (m i) = true

theorem pending_mono {w : World} {mname : Name} {old : List Name} {N : Nat} {m m' : Mods} (h : Le mname m m') :
    (pending w mname old N m').card ≤ (pending w mname old N m).card := by
  apply Finset.card_le_card
  intro i hi
  simp only [pending, Finset.mem_filter] at hi ⊢
  refine ⟨hi.1, hi.2.1, ?_⟩
  rcases h i with q | q
  · rw [← q]; exact hi.2.2
  · rw [q, inOld_iff] at hi
    exact absurd hi.2.2 (not_private_self _ _)

theorem loop_le {step : Name → Mods → Option (Bool × Mods)} {mname : Name} {l : List Name}
    (hs : ∀ n m b m', step n m = some (b, m') → Le mname m m') (m : Mods) (b : Bool) (m' : Mods)
    (h : loop step l m = some (b, m')) : Le mname m m' :=
  loop_inv (I := Le mname m) (fun n _ _ _ _ hi h => hi.trans (hs n _ _ _ h)) m b m' (Le.refl _ _) h

theorem fixItem_le (w : World) (mname : Name) (old : List Name) : ∀ (k p : Nat) (name : Name) (m : Mods) (b : Bool) (m' : Mods),
    fixItem w mname old k p name m = some (b, m') → Le mname m m' := by
  intro k
  induction k with
  | zero => intro p name m b m' h; cases h
  | succ k ih =>
    intro p name m b m' h
    simp only [fixItem] at h
    split at h
    · cases h; exact Le.refl _ _
    · split at h
      · split at h
        · cases h; exact Le.refl _ _
        · cases h; exact Le.upd _ _ _
        · exact (Le.upd _ _ _).trans (loop_le (fun n m b m' h => ih _ n m b m' h) _ _ _ h)
      · cases h; exact Le.refl _ _

theorem loop_some {step : Name → Mods → Option (Bool × Mods)} {I : Mods → Prop} (l : List Name)
    (hs : ∀ n m, I m → ∃ b m', step n m = some (b, m') ∧ I m') :
    ∀ m, I m → ∃ b m', loop step l m = some (b, m') := by
  induction l with
  | nil => intro m _; exact ⟨false, m, rfl⟩
  | cons n r ih =>
    intro m hi
    obtain ⟨b, m', h1, h2⟩ := hs n m hi
    cases b with
    | true => exact ⟨true, m', by simp only [loop, h1]⟩
    | false =>
      obtain ⟨b', m'', h3⟩ := ih m' h2
      exact ⟨b', m'', by simp only [loop, h1, h3]⟩

theorem fixItem_some (w : World) (mname : Name) (old : List Name) (N : Nat) (hN : ∀ p n i, w.attr p n = some i → i < N) :
    ∀ (k p : Nat) (name : Name) (m : Mods), (pending w mname old N m).card < k →
      ∃ b m', fixItem w mname old k p name m = some (b, m') := by
  intro k
  induction k with
  | zero => intro p name m h; omega
  | succ k ih =>
    intro p name m h
    simp only [fixItem]
    split
    · exact ⟨_, _, rfl⟩
    · rename_i i ha
      split
      · rename_i hp
        split
        · exact ⟨_, _, rfl⟩
        · exact ⟨_, _, rfl⟩
        · rename_i hk
          simp only [read, hk] at hp
          have hlt : (pending w mname old N (upd m i mname)).card < (pending w mname old N m).card := by
            apply Finset.card_lt_card
            refine ⟨?_, ?_⟩
            · intro j hj
              simp only [pending, Finset.mem_filter] at hj ⊢
              refine ⟨hj.1, hj.2.1, ?_⟩
              by_cases hji : j = i
              · rw [hji]; exact hp
              · have := hj.2.2
                simpa only [upd, if_neg hji] using this
            · intro hsub
              have hi : i ∈ pending w mname old N m := by
                simp only [pending, Finset.mem_filter, Finset.mem_range]
                exact ⟨hN p name i ha, hk, hp⟩
              have := hsub hi
              simp only [pending, Finset.mem_filter] at this
              have h3 := this.2.2
              rw [inOld_iff] at h3
              simp only [upd, if_true] at h3
              exact not_private_self _ _ h3
          refine loop_some (I := fun m1 => (pending w mname old N m1).card < k) _ ?_ _ (by omega)
          intro n m1 hm1
          obtain ⟨b, m2, h2⟩ := ih i n m1 hm1
          exact ⟨b, m2, h2, lt_of_le_of_lt (pending_mono (fixItem_le w mname old _ _ _ _ _ _ h2)) hm1⟩
      · exact ⟨_, _, rfl⟩

/-! ### Theorems -/

/-- **It ends**, however the attributes refer to each other: the depth of the recursion is at most the number of objects
plus one. -/
theorem fixup_ends (w : World) (mname : Name) (old keep : List Name) (root : Nat) (names : Option (List Name)) (N : Nat)
    (hN : ∀ p n i, w.attr p n = some i → i < N) (m : Mods) (ns : List Name) :
    (fixup w mname old keep root names (N + 1) m ns).isSome := by
  have hc : ∀ m, (pending w mname old N m).card < N + 1 := by
    intro m
    have : (pending w mname old N m).card ≤ (Finset.range N).card := Finset.card_filter_le _ _
    rw [Finset.card_range] at this
    omega
  unfold fixup
  simp only
  obtain ⟨b, m', h⟩ := loop_some (step := fixItem w mname old (N + 1) root) (I := fun _ => True)
    (names.getD ((w.dir root).filter fun n => !(['_'].isPrefixOf n)))
    (fun n m1 _ => by
      obtain ⟨b, m2, h2⟩ := fixItem_some w mname old N hN (N + 1) root n m1 (hc m1)
      exact ⟨b, m2, h2, trivial⟩) m trivial
  rw [h]
  cases b <;> rfl

theorem mem_strip (old keep : List Name) : ∀ (ns : List Name) (x : Name),
    x ∈ strip old keep ns ↔ x ∈ ns ∧ (x ∉ old ∨ x ∈ keep) := by
  unfold strip
  induction old with
  | nil => intro ns x; simp
  | cons f r ih =>
    intro ns x
    rw [List.foldl_cons, ih]
    by_cases hf : f ∈ keep
    · rw [if_pos hf]
      constructor
      · rintro ⟨h1, h2⟩
        refine ⟨h1, ?_⟩
        by_cases hx : x = f
        · right; rw [hx]; exact hf
        · rcases h2 with h2 | h2
          · left; simp [hx, h2]
          · exact .inr h2
      · rintro ⟨h1, h2⟩
        refine ⟨h1, ?_⟩
        rcases h2 with h2 | h2
        · left; intro q; exact h2 (by simp [q])
        · exact .inr h2
    · rw [if_neg hf]
      simp only [List.mem_filter, decide_eq_true_eq, List.mem_cons, not_or]
      constructor
      · rintro ⟨⟨h1, h2⟩, h3⟩
        refine ⟨h1, ?_⟩
        rcases h3 with h3 | h3
        · exact .inl ⟨h2, h3⟩
        · exact .inr h3
      · rintro ⟨h1, h2⟩
        rcases h2 with ⟨h2, h3⟩ | h2
        · exact ⟨⟨h1, h2⟩, .inl h3⟩
        · refine ⟨⟨h1, ?_⟩, .inr h2⟩
          rintro rfl
          exact hf h2

/-- The names the package exports: those given, or all that do not begin with an underscore. -/
def Names (w : World) (root : Nat) (names : Option (List Name)) (n : Name) : Prop :=
  match names with
  | some l => n ∈ l
  | none => n ∈ w.dir root ∧ ¬ ∃ r, n = '_' :: r

/-- **Exactly the exported objects from the private modules** get the name of the package as their module, and exactly
the private modules that are not to be kept are deleted from it. The functions of bound methods must not be attributes
themselves. -/
theorem fixup_spec (w : World) (mname : Name) (old keep : List Name) (root : Nat) (names : List Name) (k : Nat)
    (m m' : Mods) (ns ns' : List Name) (hf : ∀ i f, w.kind i = .method f → ∀ p n, w.attr p n ≠ some f)
    (h : fixup w mname old keep root (some names) k m ns = some (false, m', ns')) :
    (∀ i, Target w mname old m root names i → m' i = some mname) ∧
    (∀ i, ¬ Target w mname old m root names i → m' i = m i) ∧
    (∀ x, x ∈ ns' ↔ x ∈ ns ∧ (x ∉ old ∨ x ∈ keep)) := by
  unfold fixup at h
  simp only [Option.getD_some] at h
  split at h
  · cases h
  · cases h
  · rename_i m1 h1
    cases h
    obtain ⟨g, a⟩ := loop_good (w := w) (mname := mname) (old := old) (p := root)
      (fun n m m' h => fixItem_good w mname old k root n m m' h) _ _ _ h1
    have hsound : Sound w mname old m root names m' := by
      refine loop_inv (I := Sound w mname old m root names) ?_ _ _ _ (fun i => .inl rfl) h1
      intro n hn m1 b1 m2 hs1 h2
      exact fixItem_sound w mname old m root names k root n (fun j hj => .top hn hj) m1 b1 m2 hs1 h2
    have hattr : ∀ {j}, Exposed w mname old m root names j → ∃ p n, w.attr p n = some j := by
      intro j hj
      cases hj with
      | top _ h => exact ⟨_, _, h⟩
      | sub _ _ _ _ _ h => exact ⟨_, _, h⟩
    have hmark : ∀ {j}, w.kind j = .plain → Private mname old (m j) → Handled w mname old m' j → m' j = some mname := by
      intro j hk hp hh
      rcases hh with hh | hh
      · rw [hk] at hh; cases hh
      · simp only [read, hk] at hh
        rcases hsound j with q | ⟨q, _⟩
        · rw [q] at hh; exact absurd hp hh
        · exact q
    have hall : ∀ j, Exposed w mname old m root names j → Handled w mname old m' j := by
      intro j hj
      induction hj with
      | top hn h => exact a _ hn _ h
      | sub he hk hp hn hfo hj ih =>
        have hm := hmark hk hp ih
        obtain ⟨p, n, hpn⟩ := hattr he
        exact g.2 _ hk hp (fun q hq => hf q _ hq p n hpn) hm _ hn hfo _ hj
    refine ⟨?_, ?_, mem_strip old keep ns⟩
    · rintro i ⟨hp, hi⟩
      rcases hi with ⟨he, hk⟩ | ⟨q, he, hk⟩
      · exact hmark hk hp (hall i he)
      · rcases hall q he with hh | hh
        · rw [hk] at hh; cases hh
        · simp only [read, hk] at hh
          rcases hsound i with e | ⟨e, _⟩
          · rw [e] at hh; exact absurd hp hh
          · exact e
    · intro i hi
      rcases hsound i with q | ⟨_, q⟩
      · exact q
      · exact absurd q hi

/-- Without names all public names of the module are taken. -/
theorem fixup_all (w : World) (mname : Name) (old keep : List Name) (root k : Nat) (m : Mods) (ns : List Name) :
    ∃ l, (∀ n, n ∈ l ↔ Names w root none n) ∧
      fixup w mname old keep root none k m ns = fixup w mname old keep root (some l) k m ns := by
  refine ⟨(w.dir root).filter fun n => !(['_'].isPrefixOf n), ?_, rfl⟩
  intro n
  rw [List.mem_filter, Bool.not_eq_true', ← Bool.not_eq_true, isPrefixOf_iff]
  rfl

/-- **A missing name** without two underscores ends it with an `AttributeError`, before the modules are deleted. -/
theorem fixup_missing (w : World) (mname : Name) (old keep : List Name) (root k : Nat) (m : Mods) (ns : List Name)
    (n : Name) (rest : List Name) (h : w.attr root n = none) (hd : ¬ ∃ r, n = '_' :: '_' :: r) :
    fixup w mname old keep root (some (n :: rest)) (k + 1) m ns = some (true, m, ns) := by
  have hd' : dunder n = false := by
    rw [← Bool.not_eq_true]
    unfold dunder
    rw [isPrefixOf_iff]
    exact hd
  unfold fixup
  simp only [Option.getD_some, loop, fixItem, h, hd', Bool.not_false]

/-! ### A concrete case -/

/-- The package 0 exports the class 1 as `A`; 1 has a method 2 as `f` whose class attribute refers back to 1, a class
method 3 with the function 4, and a hidden attribute 5. -/
def exWorld : World where
  attr p n := match p, n with
    | 0, ['A'] => some 1
    | 1, ['f'] => some 2
    | 1, ['c'] => some 3
    | 1, ['_', 'h'] => some 5
    | 2, ['_', '_', 'o'] => some 1
    | _, _ => none
  dir p := match p with
    | 0 => [['A'], ['x']]
    | 1 => [['f'], ['c'], ['_', 'h']]
    | 2 => [['_', '_', 'o']]
    | _ => []
  kind i := if i = 3 then .method 4 else .plain

def exMods : Mods := fun _ => some ['m', '.', 'x']

example : (fixup exWorld ['m'] [['x']] [] 0 (some [['A']]) 7 exMods [['A'], ['x']]).map
    (fun r => (r.1, (List.range 6).map r.2.1, r.2.2)) =
    some (false, [some ['m', '.', 'x'], some ['m'], some ['m'], some ['m', '.', 'x'], some ['m'], some ['m', '.', 'x']], [['A']]) := by
  decide +kernel

example : ∀ i f, exWorld.kind i = .method f → ∀ p n, exWorld.attr p n ≠ some f := by
  intro i f h p n
  simp only [exWorld] at h
  split at h
  · cases h
    simp only [exWorld]
    split <;> simp
  · cases h

end Mdp.Fixup
