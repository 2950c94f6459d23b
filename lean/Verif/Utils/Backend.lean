import Mathlib.Data.List.Basic
import Mathlib.Tactic.Common

/-!
# Choosing the numerical backend; comparing versions

Models `mdp/configuration.py`: `get_numx` (lines 277-346) and `_version_too_old` (366-395).
-/

namespace Mdp.Backend

/-! ### The numerical backend -/

/-- The environment variable `MDPNUMX`: not set, empty, one of the two supported names, another text. -/
inductive Env where
  | unset | empty | numpy | scipy | other
deriving DecidableEq, Repr

inductive Module where
  | numpy | scipy
deriving DecidableEq, Repr

/-- The result: the backend, or an `ImportError`; `found` and `failed` are the entries made for `numx`
in the table of external dependencies, in order. -/
structure Outcome where
  backend : Option Module
  found : List Module
  failed : Bool
deriving DecidableEq, Repr

/-- How the import of a backend with its four submodules goes. -/
inductive Import where
  | ok | importError
deriving DecidableEq, Repr

/-- `get_numx` (lines 277-346).  The patching of deprecated names of new versions of scipy is not
modelled. -/
def getNumx (env : Env) (scipy numpy : Import) : Outcome :=
  if env = .other then { backend := none, found := [], failed := false }
  else
    let tryScipy := env = .unset ∨ env = .scipy
    if tryScipy ∧ scipy = .importError ∧ env = .scipy then
      { backend := none, found := [], failed := false }
    else
      let d : Option Module := if tryScipy ∧ scipy = .ok then some .scipy else none
      let found : List Module := if tryScipy ∧ scipy = .ok then [.scipy] else []
      if env = .numpy ∨ d = none then
        if numpy = .ok then { backend := some .numpy, found := found ++ [.numpy], failed := false }
        else { backend := d, found := found, failed := true }
      else { backend := d, found := found, failed := false }

/-- Specification of a user's wish: the variable names a backend. -/
def Names : Env → Option Module
  | .numpy => some .numpy
  | .scipy => some .scipy
  | _ => none

def Usable (scipy numpy : Import) : Module → Prop
  | .scipy => scipy = .ok
  | .numpy => numpy = .ok

/-- **A named backend is used or nothing is.**  If the variable names a backend, that backend is used if
it can be imported, and otherwise the import of the package fails; there is no silent change to the
other one. -/
theorem named_backend (env : Env) (m : Module) (h : Names env = some m) (scipy numpy : Import) :
    (Usable scipy numpy m → (getNumx env scipy numpy).backend = some m) ∧
    (¬ Usable scipy numpy m → (getNumx env scipy numpy).backend = none) := by
  cases env <;> cases scipy <;> cases numpy <;> cases m <;> simp [Names] at h <;>
    simp [getNumx, Usable]

/-- **Otherwise scipy is preferred.**  Without the variable scipy is used if it can be imported, else
numpy, and the import of the package fails only if neither can be imported. -/
theorem default_backend (scipy numpy : Import) :
    (scipy = .ok → (getNumx .unset scipy numpy).backend = some .scipy) ∧
    (scipy ≠ .ok → numpy = .ok → (getNumx .unset scipy numpy).backend = some .numpy) ∧
    (scipy ≠ .ok → numpy ≠ .ok → (getNumx .unset scipy numpy).backend = none) := by
  cases scipy <;> cases numpy <;> decide

/-- An unsupported name is refused whatever is installed; an empty variable is not like an unset one:
it selects numpy. -/
theorem other_values (scipy numpy : Import) :
    (getNumx .other scipy numpy).backend = none ∧
    (numpy = .ok → (getNumx .empty scipy numpy).backend = some .numpy) := by
  cases scipy <;> cases numpy <;> decide

/-- The backend is the last one recorded as found, and nothing else is recorded. -/
theorem backend_recorded (env : Env) (scipy numpy : Import) :
    (getNumx env scipy numpy).found = (getNumx env scipy numpy).backend.toList := by
  cases env <;> cases scipy <;> cases numpy <;> decide

/-! ### Versions -/

/-- `_version_too_old` (lines 366-395).  The version is given by its dot-separated parts, each parsed as
an integer (`none`: not a number); the result is Python's `True`, `False` or `None`. -/
def versionTooOld : List (Option Int) → List Int → Option Bool
  | p :: ps, e :: es =>
    match p with
    | none => none
    | some p => if p < e then some true else if p > e then some false else versionTooOld ps es
  | _, _ => some false

/-- Specification: the version differs from the known good one first at a part where it is smaller. -/
def Smaller (v k : List Int) : Prop :=
  ∃ (c : List Int) (a b : Int) (v' k' : List Int), v = c ++ a :: v' ∧ k = c ++ b :: k' ∧ a < b

/-- Specification: the usual order of tuples, in which a proper beginning is smaller. -/
def TupleLt (v k : List Int) : Prop := Smaller v k ∨ ∃ b k', k = v ++ b :: k'

/-- **Confidently too old.**  The result is `True` exactly if all parts up to the first different one
are numbers and that part is smaller. -/
theorem too_old_iff (parts : List (Option Int)) (k : List Int) :
    versionTooOld parts k = some true ↔
      ∃ (c : List Int) (a b : Int) (r : List (Option Int)) (k' : List Int),
        parts = c.map some ++ some a :: r ∧ k = c ++ b :: k' ∧ a < b := by
  induction parts generalizing k with
  | nil =>
    constructor
    · intro h; simp [versionTooOld] at h
    · rintro ⟨c, a, b, r, k', h, _⟩; simp at h
  | cons p ps ih =>
    cases k with
    | nil =>
      constructor
      · intro h; simp [versionTooOld] at h
      · rintro ⟨c, a, b, r, k', _, h, _⟩; simp at h
    | cons e es =>
      cases p with
      | none =>
        constructor
        · intro h; simp [versionTooOld] at h
        · rintro ⟨c, a, b, r, k', h, _⟩
          cases c <;> simp at h
      | some p =>
        simp only [versionTooOld]
        constructor
        · intro h
          split at h
          · rename_i hlt
            exact ⟨[], p, e, ps, es, rfl, rfl, hlt⟩
          · split at h
            · simp at h
            · obtain ⟨c, a, b, r, k', h1, h2, h3⟩ := (ih es).1 h
              have : p = e := by omega
              exact ⟨p :: c, a, b, r, k', by simp [h1], by simp [h2, this], h3⟩
        · rintro ⟨c, a, b, r, k', h1, h2, h3⟩
          cases c with
          | nil =>
            simp only [List.map_nil, List.nil_append, List.cons.injEq, Option.some.injEq] at h1 h2
            rw [if_pos (by omega)]
          | cons x c =>
            simp only [List.map_cons, List.cons_append, List.cons.injEq, Option.some.injEq] at h1 h2
            rw [if_neg (by omega), if_neg (by omega)]
            exact (ih es).2 ⟨c, a, b, r, k', h1.2, h2.2, h3⟩

/-- For versions of numbers only the answer is never `None`, and it is `True` exactly if the version is
smaller at the first difference. -/
theorem numeric_version (v k : List Int) :
    (versionTooOld (v.map some) k = some true ↔ Smaller v k) ∧
    versionTooOld (v.map some) k ≠ none := by
  constructor
  · rw [too_old_iff]
    constructor
    · rintro ⟨c, a, b, r, k', h1, h2, h3⟩
      obtain ⟨X, Y', rfl, hX, hY'⟩ := List.map_eq_append_iff.1 h1
      obtain ⟨y, Y, rfl, hy, _⟩ := List.map_eq_cons_iff.1 hY'
      have hXc : X = c := List.map_injective_iff.2 (fun _ _ h => Option.some.inj h) hX
      simp only [Option.some.injEq] at hy
      subst hXc hy
      exact ⟨X, y, b, Y, k', rfl, h2, h3⟩
    · rintro ⟨c, a, b, v', k', rfl, rfl, h⟩
      exact ⟨c, a, b, v'.map some, k', by simp, rfl, h⟩
  · induction v generalizing k with
    | nil => simp [versionTooOld]
    | cons p ps ih =>
      cases k with
      | nil => simp [versionTooOld]
      | cons e es =>
        simp only [List.map_cons, versionTooOld]
        split
        · simp
        · split
          · simp
          · exact ih es

/-- For versions with at least as many parts as the known good one, `True` means smaller as a tuple. -/
theorem version_order_partial (v k : List Int) (hl : k.length ≤ v.length) :
    versionTooOld (v.map some) k = some true ↔ TupleLt v k := by
  rw [(numeric_version v k).1]
  constructor
  · exact Or.inl
  · rintro (h | ⟨b, k', rfl⟩)
    · exact h
    · simp only [List.length_append, List.length_cons] at hl
      omega

/-- **A short version is never too old.**  Although the documentation says "True iff a version is
smaller than a tuple of integers", a version that is a proper beginning of the known good one gets
`False`. -/
theorem short_version_violation (v : List Int) (b : Int) (k' : List Int) :
    TupleLt v (v ++ b :: k') ∧ versionTooOld (v.map some) (v ++ b :: k') = some false := by
  refine ⟨Or.inr ⟨b, k', rfl⟩, ?_⟩
  induction v with
  | nil => rfl
  | cons p ps ih =>
    simp only [List.map_cons, List.cons_append, versionTooOld]
    rw [if_neg (by omega), if_neg (by omega)]
    exact ih

example : versionTooOld [some 0, some 4, some 2] [0, 4, 3] = some true := by decide
example : versionTooOld [some 0, some 5, none] [0, 4, 3] = some false := by decide
example : versionTooOld [some 0, some 4, none] [0, 4, 3] = none := by decide
example : versionTooOld [some 0, some 4] [0, 4, 3] = some false := by decide

end Mdp.Backend
