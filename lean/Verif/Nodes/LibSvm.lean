import Mathlib.Data.List.Basic
import Mathlib.Tactic.Common

/-!
# The parameters of `LibSVMClassifier`

Models `mdp/nodes/libsvm_classifier.py`, lines 44-136: the constructor (which fills the
`svm_parameter` object of the library) and the methods `set_kernel` and `set_classifier`.

The library itself is external.  What is used of it is kept abstract: the object
`svm_parameter("-q")` is a list of valid names (`_names`) and a list of attributes with their
values, and the constants of the module (`libsvmutil.RBF`, …) are a function from names to values.
Python's `str.upper` is modelled on ASCII letters (`Char.toUpper`).
-/

namespace Mdp.LibSvm

/-- A Python identifier, as its characters. -/
abbrev Name := List Char

/-- The exceptions the code raises (`libsvm_classifier.py` 95, 101, 124, 140). -/
inductive Err where
  | nodeException | attributeError | typeError
deriving DecidableEq, Repr

/-- The object returned by `libsvmutil.svm_parameter("-q")`: its `_names` and its attributes. -/
structure Param (V : Type) where
  names : List Name
  attrs : List (Name × V)
deriving DecidableEq, Repr

variable {V : Type}

/-- `getattr(parameter, k)` (`none`: no such attribute). -/
def Param.get (p : Param V) (k : Name) : Option V := p.attrs.lookup k

/-- `setattr(parameter, k, v)`: the newest assignment of a name is the one read. -/
def Param.put (p : Param V) (k : Name) (v : V) : Param V := { p with attrs := (k, v) :: p.attrs }

/-- `LibSVMClassifier.kernels` (line 49). -/
def kernels : List Name :=
  [['R','B','F'], ['L','I','N','E','A','R'], ['P','O','L','Y'], ['S','I','G','M','O','I','D']]

/-- `LibSVMClassifier.classifiers` (line 50). -/
def classifiers : List Name :=
  [['C','_','S','V','C'], ['N','U','_','S','V','C'], ['O','N','E','_','C','L','A','S','S'],
   ['E','P','S','I','L','O','N','_','S','V','R'], ['N','U','_','S','V','R']]

def kKernel : Name := ['k','e','r','n','e','l','_','t','y','p','e']
def kSvm : Name := ['s','v','m','_','t','y','p','e']
def kProb : Name := ['p','r','o','b','a','b','i','l','i','t','y']

/-- `s.upper()` on ASCII text. -/
def upper (s : Name) : Name := s.map Char.toUpper

/-- `set_kernel` (lines 126-141). -/
def setKernel (code : Name → V) (p : Param V) (k : Name) : Except Err (Param V) :=
  if upper k ∈ kernels then .ok (p.put kKernel (code (upper k))) else .error .typeError

/-- `set_classifier` (lines 109-124). -/
def setClassifier (code : Name → V) (p : Param V) (c : Name) : Except Err (Param V) :=
  if upper c ∈ classifiers then .ok (p.put kSvm (code (upper c))) else .error .typeError

/-- One turn of the loop over `params.items()` (lines 92-102). -/
def setOne (p : Param V) (kv : Name × V) : Except Err (Param V) :=
  if kv.1 ∉ p.names then .error .nodeException
  else if (p.get kv.1).isSome then .ok (p.put kv.1 kv.2) else .error .attributeError

/-- The loop over `params.items()` (lines 92-102). -/
def setAll : Param V → List (Name × V) → Except Err (Param V)
  | p, [] => .ok p
  | p, kv :: r => match setOne p kv with
    | .ok p' => setAll p' r
    | .error e => .error e

/-- An optional text argument is used when it is given and not empty (`if kernel:`). -/
def given (o : Option Name) : Option Name :=
  match o with
  | some (c :: cs) => some (c :: cs)
  | _ => none

/-- `LibSVMClassifier.__init__` (lines 52-102): `fresh` is what the library's constructor returned,
`one` the value `1`.  An exception leaves no node, so only the value of a successful call is kept. -/
def init (code : Name → V) (one : V) (fresh : Param V) (kernel classifier : Option Name)
    (probability : Bool) (params : List (Name × V)) : Except Err (Param V) :=
  let p0 := if probability then fresh.put kProb one else fresh
  match (match given kernel with
    | some k => setKernel code p0 k
    | none => .ok p0) with
  | .error e => .error e
  | .ok p1 =>
    match (match given classifier with
      | some c => setClassifier code p1 c
      | none => .ok p1) with
    | .error e => .error e
    | .ok p2 => setAll p2 params

/-! ### Specification -/

/-- Two characters agree up to the case of ASCII letters. -/
def SameLetter (a b : Char) : Prop := a = b ∨ a.toUpper = b

/-- The text `s` spells the name `n` (written in capitals) in any mixture of cases. -/
def Spells (s n : Name) : Prop := List.Forall₂ SameLetter s n

/-- All characters of the name are fixed by `toUpper` (capital letters, digits, underscores). -/
def Capital (n : Name) : Prop := ∀ c ∈ n, c.toUpper = c

instance (n : Name) : Decidable (Capital n) := inferInstanceAs (Decidable (∀ c ∈ n, c.toUpper = c))

/-- The documented kernels (lines 28-34). -/
def DocKernels : List Name :=
  [['R','B','F'], ['L','I','N','E','A','R'], ['P','O','L','Y'], ['S','I','G','M','O','I','D']]

/-- The documented types of classifiers (lines 36-43). -/
def DocClassifiers : List Name :=
  [['C','_','S','V','C'], ['N','U','_','S','V','C'], ['O','N','E','_','C','L','A','S','S'],
   ['E','P','S','I','L','O','N','_','S','V','R'], ['N','U','_','S','V','R']]

theorem kernels_capital : ∀ n ∈ kernels, Capital n := by decide +kernel

theorem classifiers_capital : ∀ n ∈ classifiers, Capital n := by decide +kernel

theorem spells_iff {s n : Name} (hn : Capital n) : Spells s n ↔ upper s = n := by
  unfold Spells upper
  constructor
  · intro h
    induction h with
    | nil => rfl
    | @cons a b s n hab hs ih =>
      have hb : b.toUpper = b := hn b (by simp)
      have hn' : Capital n := fun c hc => hn c (List.mem_cons_of_mem _ hc)
      rw [List.map_cons, ih hn']
      rcases hab with rfl | hab
      · rw [hb]
      · rw [hab]
  · intro h
    subst h
    clear hn
    induction s with
    | nil => exact .nil
    | cons a s ih => exact .cons (Or.inr rfl) ih

/-- `set_kernel` accepts exactly the texts that spell one of the four documented kernels in any
case; the kernel type becomes the library's constant of that kernel and no other attribute
changes.  Any other text is a `TypeError`. -/
theorem kernel_spec (code : Name → V) (p : Param V) (k : Name) :
    (∀ n ∈ DocKernels, Spells k n → ∃ q, setKernel code p k = .ok q ∧ q.names = p.names ∧
      q.get kKernel = some (code n) ∧ ∀ a, a ≠ kKernel → q.get a = p.get a) ∧
    ((∀ n ∈ DocKernels, ¬ Spells k n) → setKernel code p k = .error .typeError) := by
  constructor
  · intro n hn hs
    have hu := (spells_iff (kernels_capital n hn)).1 hs
    refine ⟨p.put kKernel (code n), ?_, rfl, ?_, ?_⟩
    · unfold setKernel
      rw [hu]
      exact if_pos hn
    · simp [Param.get, Param.put, List.lookup]
    · intro a ha
      have : (a == kKernel) = false := by simpa using ha
      simp [Param.get, Param.put, List.lookup, this]
  · intro h
    unfold setKernel
    rw [if_neg]
    intro hm
    exact h _ hm ((spells_iff (kernels_capital _ hm)).2 rfl)

/-- The same for `set_classifier` and the five documented types of classifier. -/
theorem classifier_spec (code : Name → V) (p : Param V) (c : Name) :
    (∀ n ∈ DocClassifiers, Spells c n → ∃ q, setClassifier code p c = .ok q ∧ q.names = p.names ∧
      q.get kSvm = some (code n) ∧ ∀ a, a ≠ kSvm → q.get a = p.get a) ∧
    ((∀ n ∈ DocClassifiers, ¬ Spells c n) → setClassifier code p c = .error .typeError) := by
  constructor
  · intro n hn hs
    have hu := (spells_iff (classifiers_capital n hn)).1 hs
    refine ⟨p.put kSvm (code n), ?_, rfl, ?_, ?_⟩
    · unfold setClassifier
      rw [hu]
      exact if_pos hn
    · simp [Param.get, Param.put, List.lookup]
    · intro a ha
      have : (a == kSvm) = false := by simpa using ha
      simp [Param.get, Param.put, List.lookup, this]
  · intro h
    unfold setClassifier
    rw [if_neg]
    intro hm
    exact h _ hm ((spells_iff (classifiers_capital _ hm)).2 rfl)

/-! ### The loop over the remaining parameters -/

theorem put_get (p : Param V) (k a : Name) (v : V) :
    (p.put k v).get a = if a = k then some v else p.get a := by
  unfold Param.get Param.put
  by_cases h : a = k
  · subst h
    simp [List.lookup]
  · have : (a == k) = false := by simpa using h
    simp [List.lookup, this, h]

/-- The loop succeeds exactly when each name is known to the library and is an attribute; then
each given parameter has its given value, all others are untouched. -/
theorem setAll_ok (l : List (Name × V)) : ∀ (p : Param V), (l.map Prod.fst).Nodup →
    (∀ kv ∈ l, kv.1 ∈ p.names ∧ (p.get kv.1).isSome) →
    ∃ q, setAll p l = .ok q ∧ q.names = p.names ∧ (∀ kv ∈ l, q.get kv.1 = some kv.2) ∧
      ∀ a, a ∉ l.map Prod.fst → q.get a = p.get a := by
  induction l with
  | nil => intro p _ _; exact ⟨p, rfl, rfl, by simp, fun _ _ => rfl⟩
  | cons kv r ih =>
    intro p hn h
    obtain ⟨h1, h2⟩ := h kv (by simp)
    rw [List.map_cons, List.nodup_cons] at hn
    obtain ⟨q, hq, hnm, hv, ho⟩ := ih (p.put kv.1 kv.2) hn.2 (by
      intro x hx
      refine ⟨(h x (List.mem_cons_of_mem _ hx)).1, ?_⟩
      rw [put_get]
      split
      · rfl
      · exact (h x (List.mem_cons_of_mem _ hx)).2)
    refine ⟨q, ?_, hnm, ?_, ?_⟩
    · have : setOne p kv = .ok (p.put kv.1 kv.2) := by
        unfold setOne
        rw [if_neg (by simpa using h1), if_pos h2]
      rw [setAll, this]
      exact hq
    · intro x hx
      rcases List.mem_cons.1 hx with rfl | hx
      · rw [ho _ hn.1, put_get, if_pos rfl]
      · exact hv x hx
    · intro a ha
      rw [List.map_cons, List.mem_cons, not_or] at ha
      rw [ho a ha.2, put_get, if_neg ha.1]

theorem setAll_bad (l : List (Name × V)) : ∀ (p : Param V),
    (∃ kv ∈ l, kv.1 ∉ p.names) → (∀ kv ∈ l, kv.1 ∈ p.names → (p.get kv.1).isSome) →
    setAll p l = .error .nodeException := by
  induction l with
  | nil => intro p h _; simp at h
  | cons kv r ih =>
    intro p h hs
    by_cases hk : kv.1 ∈ p.names
    · have h2 := hs kv (by simp) hk
      have : setOne p kv = .ok (p.put kv.1 kv.2) := by
        unfold setOne
        rw [if_neg (by simpa using hk), if_pos h2]
      rw [setAll, this]
      apply ih
      · obtain ⟨x, hx, hxn⟩ := h
        rcases List.mem_cons.1 hx with rfl | hx
        · exact absurd hk hxn
        · exact ⟨x, hx, hxn⟩
      · intro x hx hxn
        rw [put_get]
        split
        · rfl
        · exact hs x (List.mem_cons_of_mem _ hx) hxn
    · have : setOne p kv = .error .nodeException := by
        unfold setOne
        rw [if_pos hk]
      rw [setAll, this]

/-! ### The constructor -/

/-- What the kernel argument asks for: nothing, or the documented kernel it spells. -/
def Asks (o : Option Name) (docd : List Name) (r : Option Name) : Prop :=
  match o, r with
  | none, none => True
  | some [], none => True
  | some (c :: cs), some n => n ∈ docd ∧ Spells (c :: cs) n
  | _, _ => False

/-- The value an attribute has after a successful construction: the parameter dictionary wins over
the `kernel` and `classifier` arguments, these over the `probability` flag and the library's
default. -/
def Wanted (code : Name → V) (one : V) (fresh : Param V) (rk rc : Option Name) (probability : Bool)
    (params : List (Name × V)) (a : Name) : Option V :=
  match params.lookup a with
  | some v => some v
  | none =>
    if a = kSvm ∧ rc.isSome then rc.map code
    else if a = kKernel ∧ rk.isSome then rk.map code
    else if a = kProb ∧ probability then some one
    else fresh.get a

theorem lookup_none_iff {l : List (Name × V)} {a : Name} :
    l.lookup a = none ↔ a ∉ l.map Prod.fst := by
  induction l with
  | nil => simp
  | cons x r ih =>
    obtain ⟨k, v⟩ := x
    by_cases h : a = k
    · subst h
      simp [List.lookup]
    · have h' : (a == k) = false := by simpa using h
      rw [List.map_cons, List.mem_cons, not_or, List.lookup_cons, h']
      simp only [Bool.false_eq_true, if_false]
      rw [ih]
      exact ⟨fun q => ⟨h, q⟩, fun q => q.2⟩

theorem lookup_some_mem {l : List (Name × V)} {a : Name} {v : V} (h : l.lookup a = some v) :
    (a, v) ∈ l := by
  induction l with
  | nil => simp at h
  | cons x r ih =>
    obtain ⟨k, w⟩ := x
    by_cases hk : a = k
    · subst hk
      simp [List.lookup] at h
      simp [h]
    · have h' : (a == k) = false := by simpa using hk
      rw [List.lookup_cons, h'] at h
      exact List.mem_cons_of_mem _ (ih (by simpa using h))

/-- **Construction.**  If the kernel and classifier arguments are missing or spell a documented
name and each extra parameter is a parameter of the library, the constructor succeeds, and each
attribute of the parameter object has the wanted value. -/
theorem init_spec (code : Name → V) (one : V) (fresh : Param V) (kernel classifier rk rc : Option Name)
    (probability : Bool) (params : List (Name × V))
    (hk : Asks kernel DocKernels rk) (hc : Asks classifier DocClassifiers rc)
    (hnd : (params.map Prod.fst).Nodup)
    (hp : ∀ kv ∈ params, kv.1 ∈ fresh.names ∧ (fresh.get kv.1).isSome) :
    ∃ q, init code one fresh kernel classifier probability params = .ok q ∧
      ∀ a, q.get a = Wanted code one fresh rk rc probability params a := by
  have step : ∀ (p0 p1 p2 : Param V),
      p0 = (if probability then fresh.put kProb one else fresh) →
      p1 = rk.elim p0 (fun n => p0.put kKernel (code n)) →
      p2 = rc.elim p1 (fun n => p1.put kSvm (code n)) →
      init code one fresh kernel classifier probability params = setAll p2 params := by
    intro p0 p1 p2 h0 h1 h2
    have hk' : (match given kernel with
        | some k => setKernel code p0 k
        | none => Except.ok p0) = .ok p1 := by
      match kernel, rk, hk, h1 with
      | none, none, _, h1 => rw [h1]; rfl
      | some [], none, _, h1 => rw [h1]; rfl
      | some (c :: cs), some n, hk, h1 =>
        have hu := (spells_iff (kernels_capital n hk.1)).1 hk.2
        rw [h1]
        simp only [given]
        unfold setKernel
        rw [hu]
        exact if_pos hk.1
    have hc' : (match given classifier with
        | some c => setClassifier code p1 c
        | none => Except.ok p1) = .ok p2 := by
      match classifier, rc, hc, h2 with
      | none, none, _, h2 => rw [h2]; rfl
      | some [], none, _, h2 => rw [h2]; rfl
      | some (c :: cs), some n, hc, h2 =>
        have hu := (spells_iff (classifiers_capital n hc.1)).1 hc.2
        rw [h2]
        simp only [given]
        unfold setClassifier
        rw [hu]
        exact if_pos hc.1
    unfold init
    simp only [← h0]
    rw [hk']
    simp only
    rw [hc']
  obtain ⟨p0, h0⟩ : ∃ p0, p0 = (if probability then fresh.put kProb one else fresh) := ⟨_, rfl⟩
  obtain ⟨p1, h1⟩ : ∃ p1, p1 = rk.elim p0 (fun n => p0.put kKernel (code n)) :=
    ⟨_, rfl⟩
  obtain ⟨p2, h2⟩ : ∃ p2, p2 = rc.elim p1 (fun n => p1.put kSvm (code n)) :=
    ⟨_, rfl⟩
  have g0 : p0.names = fresh.names ∧
      ∀ a, p0.get a = if a = kProb ∧ probability then some one else fresh.get a := by
    rw [h0]
    cases probability with
    | true => exact ⟨rfl, fun a => by simp [put_get]⟩
    | false => exact ⟨rfl, fun a => by simp⟩
  have g1 : p1.names = fresh.names ∧
      ∀ a, p1.get a = if a = kKernel ∧ rk.isSome then rk.map code else p0.get a := by
    rw [h1]
    cases rk with
    | some n => exact ⟨g0.1, fun a => by simp [put_get]⟩
    | none => exact ⟨g0.1, fun a => by simp⟩
  have g2 : p2.names = fresh.names ∧
      ∀ a, p2.get a = if a = kSvm ∧ rc.isSome then rc.map code else p1.get a := by
    rw [h2]
    cases rc with
    | some n => exact ⟨g1.1, fun a => by simp [put_get]⟩
    | none => exact ⟨g1.1, fun a => by simp⟩
  obtain ⟨q, hq, _, hv, ho⟩ := setAll_ok params p2 hnd (by
    intro kv hkv
    obtain ⟨ha, hb⟩ := hp kv hkv
    refine ⟨by rw [g2.1]; exact ha, ?_⟩
    rw [g2.2, g1.2, g0.2]
    split
    · rename_i h; simpa using h.2
    · split
      · rename_i h; simpa using h.2
      · split
        · rfl
        · exact hb)
  refine ⟨q, by rw [step p0 p1 p2 h0 h1 h2, hq], ?_⟩
  intro a
  unfold Wanted
  cases hl : params.lookup a with
  | some v => exact hv (a, v) (lookup_some_mem hl)
  | none =>
    rw [ho a (lookup_none_iff.1 hl), g2.2, g1.2, g0.2]

/-- A kernel text that spells no documented kernel makes the construction fail with a `TypeError`,
whatever the other arguments. -/
theorem init_bad_kernel (code : Name → V) (one : V) (fresh : Param V) (k : Name) (hk : k ≠ [])
    (hbad : ∀ n ∈ DocKernels, ¬ Spells k n) (classifier : Option Name) (probability : Bool)
    (params : List (Name × V)) :
    init code one fresh (some k) classifier probability params = .error .typeError := by
  unfold init
  obtain ⟨c, cs, rfl⟩ := List.exists_cons_of_ne_nil hk
  simp only [given]
  rw [(kernel_spec code _ _).2 hbad]

/-- An unknown name in the parameter dictionary is a `NodeException` (the library's valid names
being attributes). -/
theorem init_bad_param (code : Name → V) (one : V) (fresh : Param V) (probability : Bool)
    (params : List (Name × V)) (hall : ∀ n ∈ fresh.names, (fresh.get n).isSome)
    (hbad : ∃ kv ∈ params, kv.1 ∉ fresh.names) :
    init code one fresh none none probability params = .error .nodeException := by
  have hn : ∀ p0 : Param V, p0 = (if probability then fresh.put kProb one else fresh) →
      p0.names = fresh.names ∧ ∀ n ∈ p0.names, (p0.get n).isSome := by
    intro p0 h0
    subst h0
    cases probability with
    | false => exact ⟨rfl, hall⟩
    | true =>
      refine ⟨rfl, fun n hn => ?_⟩
      simp only [if_true]
      rw [put_get]
      split
      · rfl
      · exact hall n hn
  obtain ⟨h1, h2⟩ := hn _ rfl
  unfold init
  simp only [given]
  apply setAll_bad
  · obtain ⟨kv, hm, hb⟩ := hbad
    exact ⟨kv, hm, by rw [h1]; exact hb⟩
  · intro kv _ hk
    exact h2 _ hk

/-! ### Concrete cases -/

def exFresh : Param Int :=
  { names := [kSvm, kKernel, kProb, ['C']], attrs := [(kSvm, 0), (kKernel, 2), (kProb, 0), (['C'], 1)] }

def exCode : Name → Int := fun n => n.length

example : Spells ['p','O','l','y'] ['P','O','L','Y'] :=
  (spells_iff (by decide +kernel)).2 (by decide +kernel)

example : Asks (some ['p','O','l','y']) DocKernels (some ['P','O','L','Y']) :=
  ⟨by decide +kernel, (spells_iff (by decide +kernel)).2 (by decide +kernel)⟩

example : ∃ q, init exCode 1 exFresh (some ['p','O','l','y']) (some []) true [(['C'], 7)] = .ok q ∧
    q.get kKernel = some 4 ∧ q.get ['C'] = some 7 ∧ q.get kProb = some 1 ∧ q.get kSvm = some 0 :=
  ⟨_, rfl, by decide +kernel⟩

example : init exCode 1 exFresh (some ['p','o','l']) none true [] = .error .typeError := by
  decide +kernel

example : init exCode 1 exFresh none none true [(['C'], 7), (['D'], 7)] = .error .nodeException := by
  decide +kernel

end Mdp.LibSvm
