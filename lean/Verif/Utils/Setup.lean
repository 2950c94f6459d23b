import Verif.Utils.Config
import Verif.Utils.Backend

/-!
# Optional dependencies at import (C359) and the supported dtypes (C360)

Models `set_configuration` and `_pp_needs_monkeypatching` (mdp/configuration.py 397-569) and `get_dtypes` (mdp/utils/routines.py 274-296).
Texts are lists of characters. The outcomes of imports and of the attributes read are parameters; `int(part)` of the parts of versions, too. -/

namespace Mdp.Setup

open Py Mdp.Config

/-- Exceptions, with their text. -/
inductive Exc where
  | importError (m : Str)
  | attributeError (m : Str)
  | typeError (m : Str)
  | other (m : Str)
deriving DecidableEq

/-- `str(exc)` -/
def Exc.text : Exc → Str
  | .importError m => m
  | .attributeError m => m
  | .typeError m => m
  | .other m => m

/-- What `set_configuration` finds. The version of a module is an outcome of its own, as reading it may raise. -/
structure World where
  /-- `os.getenv` -/
  env : Str → Option Str
  /-- `sys.version_info`, joined by dots -/
  python : Str
  /-- `mdp.__version__` and `mdp.__revision__` -/
  version : Str
  revision : Str
  /-- `import pp`, with `pp.version` -/
  pp : Except Exc Str
  /-- `import user`, with `user.pp_secret` if there is one -/
  user : Except Exc (Option Str)
  /-- `pp.Server()` and `destroy()` -/
  server : Except Exc Unit
  /-- `mdp._pp_needs_monkeypatching`, if it has been set by an earlier import -/
  known : Option Bool
  /-- what pp prints, and raises, when it is tried -/
  output : Str
  raised : Option Exc
  /-- the imports for shogun, with `Version_get_version_release()` -/
  shogun : Except Exc (Except Exc Str)
  /-- `import svmutil` and `svmutil.libsvm._name`; `import libsvm` and `libsvm.__version__` -/
  svmutil : Except Exc Str
  libsvm : Except Exc Str
  /-- `import joblib`, with `joblib.__version__` -/
  joblib : Except Exc (Except Exc Str)
  /-- `import sklearn` and `import scikits.learn`, with `__version__` -/
  sklearn : Except Exc (Except Exc Str)
  scikits : Except Exc (Except Exc Str)
  /-- the parts of a version, as integers where they are -/
  parts : Str → List (Option Int)

/-- `if os.getenv(name)`: set to something that is not empty. -/
def World.isSet (w : World) (name : Str) : Bool :=
  match w.env name with
  | none => false
  | some t => !t.isEmpty

/-- `config.ExternalDepFound`, `config.ExternalDepFailed` (112-147). -/
def found (name text : Str) : Call := ⟨name, true, text⟩
def failed (name text : Str) : Call := ⟨name, false, text⟩

def nPython : Str := "python".toList
def nMdp : Str := "mdp".toList
def nPp : Str := "parallel_python".toList
def nShogun : Str := "shogun".toList
def nLibsvm : Str := "libsvm".toList
def nJoblib : Str := "joblib".toList
def nSklearn : Str := "sklearn".toList
def disabled : Str := "disabled".toList
def vPp : Str := "MDP_DISABLE_PARALLEL_PYTHON".toList
def vPatch : Str := "MDP_DISABLE_MONKEYPATCH_PP".toList
def vShogun : Str := "MDP_DISABLE_SHOGUN".toList
def vLibsvm : Str := "MDP_DISABLE_LIBSVM".toList
def vJoblib : Str := "MDP_DISABLE_JOBLIB".toList
def vSklearn : Str := "MDP_DISABLE_SKLEARN".toList
def vSecret : Str := "MDP_PP_SECRET".toList

/-- `_pp_needs_monkeypatching` (397-431). -/
def World.needsPatch (w : World) : Except Exc Bool :=
  match w.known with
  | some b => .ok b
  | none =>
    match w.raised with
    | none => .ok (decide ("ImportError".toList <:+: w.output))
    | some (.typeError _) => .ok (decide ("ImportError".toList <:+: w.output))
    | some e => .error e

/-- Parallel python (444-480). -/
def World.ppDep (w : World) : Except Exc Call :=
  match w.pp with
  | .error (.importError m) => .ok (failed nPp m)
  | .error e => .error e
  | .ok v =>
    match w.user with
    | .error (.importError m) => .ok (failed nPp m)
    | .error e => .error e
    | .ok _ =>
      if w.isSet vPp then .ok (failed nPp disabled)
      else
        match w.server with
        | .error e => .ok (failed nPp e.text)
        | .ok () =>
          match w.needsPatch with
          | .error e => .error e
          | .ok true => if w.isSet vPatch then .ok (failed nPp (v ++ " broken on Debian".toList)) else .ok (found nPp (v ++ "-monkey-patched".toList))
          | .ok false => .ok (found nPp v)

/-- `user.pp_secret` afterwards (447-454). -/
def World.secret (w : World) : Option Str :=
  match w.pp, w.user with
  | .ok _, .ok (some s) => some s
  | .ok _, .ok none => some (if w.isSet vSecret then (w.env vSecret).getD [] else "mdp-pp-support-password".toList)
  | _, _ => none

/-- shogun (483-507). -/
def World.shogunDep (w : World) : Except Exc Call :=
  match w.shogun with
  | .error (.importError m) => .ok (failed nShogun m)
  | .error e => .error e
  | .ok r =>
    if w.isSet vShogun then .ok (failed nShogun disabled)
    else
      match r with
      | .error (.attributeError _) => .ok (failed nShogun "only shogun v1 is supported".toList)
      | .error e => .error e
      | .ok v => if "v1.".toList.isPrefixOf v then .ok (found nShogun v) else .ok (failed nShogun "only shogun v1 is supported".toList)

/-- libsvm (510-533). -/
def World.libsvmDep (w : World) : Except Exc Call :=
  if w.isSet vLibsvm then .ok (failed nLibsvm disabled)
  else
    match w.svmutil with
    | .ok v => .ok (found nLibsvm v)
    | .error (.importError m) =>
      match w.libsvm with
      | .ok v => .ok (found nLibsvm v)
      | .error (.importError m') => .ok (failed nLibsvm (m ++ [' '] ++ m'))
      | .error e => .error e
    | .error e => .error e

/-- `'version %s is too old' % version` -/
def tooOld (v : Str) : Str := "version ".toList ++ v ++ " is too old".toList

/-- joblib (536-548). -/
def World.joblibDep (w : World) : Except Exc Call :=
  match w.joblib with
  | .error (.importError m) => .ok (failed nJoblib m)
  | .error e => .error e
  | .ok (.error e) => .error e
  | .ok (.ok v) =>
    if w.isSet vJoblib then .ok (failed nJoblib disabled)
    else if Backend.versionTooOld (w.parts v) [0, 4, 3] = some true then .ok (failed nJoblib (tooOld v))
    else .ok (found nJoblib v)

/-- The module used for sklearn (552-556). -/
def World.learn (w : World) : Except Exc Str :=
  match w.sklearn with
  | .ok v => v
  | .error (.importError _) =>
    match w.scikits with
    | .ok v => v
    | .error e => .error e
  | .error e => .error e

/-- sklearn (551-569). -/
def World.sklearnDep (w : World) : Except Exc Call :=
  match w.learn with
  | .error (.importError m) => .ok (failed nSklearn m)
  | .error (.attributeError m) => .ok (failed nSklearn m)
  | .error e => .error e
  | .ok v =>
    if w.isSet vSklearn then .ok (failed nSklearn disabled)
    else if Backend.versionTooOld (w.parts v) [0, 6] = some true then .ok (failed nSklearn (tooOld v))
    else .ok (found nSklearn v)

/-- One registration after the other, up to the first exception. -/
def steps : List (Except Exc Call) → Except Exc Unit × List Call
  | [] => (.ok (), [])
  | .error e :: _ => (.error e, [])
  | .ok c :: r => ((steps r).1, c :: (steps r).2)

/-- `set_configuration` (434-569): what it raises, and the registrations made. -/
def World.configure (w : World) : Except Exc Unit × List Call :=
  steps [.ok (found nPython w.python),
    .ok (found nMdp (if w.revision.isEmpty then w.version else w.version ++ [',', ' '] ++ w.revision)),
    w.ppDep, w.shogunDep, w.libsvmDep, w.joblibDep, w.sklearnDep]

/-- `bool(config.has_<name>)` afterwards; `none` if there is no such attribute. -/
def World.has (w : World) (name : Str) : Option Bool := (Dict.get (run w.configure.2).has name).map Dep.ok

/-! ## Specification -/

/-- A variable is set to a text that is not empty. -/
def On (w : World) (name : String) : Prop := ∃ c t, w.env name.toList = some (c :: t)

/-- The first integer in which a version differs from the one required is smaller. -/
def Old (w : World) (v : Str) (k : List Int) : Prop :=
  ∃ (c : List Int) (a b : Int) (r : List (Option Int)) (k' : List Int), w.parts v = c.map some ++ some a :: r ∧ k = c ++ b :: k' ∧ a < b

/-- pp shows the defect of some Debian versions. -/
def Broken (w : World) : Prop := w.known = some true ∨ (w.known = none ∧ "ImportError".toList <:+: w.output)

/-- The optional dependencies, with their names. -/
inductive Optional where
  | pp | shogun | libsvm | joblib | sklearn

def Optional.name : Optional → String
  | .pp => "parallel_python"
  | .shogun => "shogun"
  | .libsvm => "libsvm"
  | .joblib => "joblib"
  | .sklearn => "sklearn"

/-- When an optional dependency is there and may be used. -/
def Usable (w : World) : Optional → Prop
  | .pp => (∃ v, w.pp = .ok v) ∧ (∃ s, w.user = .ok s) ∧ ¬ On w "MDP_DISABLE_PARALLEL_PYTHON" ∧ w.server = .ok () ∧
      ¬ (Broken w ∧ On w "MDP_DISABLE_MONKEYPATCH_PP")
  | .shogun => (∃ v, w.shogun = .ok (.ok v) ∧ "v1.".toList <+: v) ∧ ¬ On w "MDP_DISABLE_SHOGUN"
  | .libsvm => ((∃ v, w.svmutil = .ok v) ∨ ∃ v, w.libsvm = .ok v) ∧ ¬ On w "MDP_DISABLE_LIBSVM"
  | .joblib => (∃ v, w.joblib = .ok (.ok v) ∧ ¬ Old w v [0, 4, 3]) ∧ ¬ On w "MDP_DISABLE_JOBLIB"
  | .sklearn => (∃ v, (w.sklearn = .ok (.ok v) ∨ (∃ m, w.sklearn = .error (.importError m)) ∧ w.scikits = .ok (.ok v)) ∧ ¬ Old w v [0, 6]) ∧
      ¬ On w "MDP_DISABLE_SKLEARN"

/-- An outcome is a value or an ImportError. -/
def Tame {α : Type} (r : Except Exc α) : Prop := ∀ e, r = .error e → ∃ m, e = .importError m

/-- Imports raise nothing but ImportErrors, modules have the attributes that are read (a version of shogun or sklearn may be missing), and trying
pp raises nothing but a TypeError. -/
structure Orderly (w : World) : Prop where
  pp : Tame w.pp
  user : Tame w.user
  probe : ∀ e, w.raised = some e → ∃ m, e = .typeError m
  shogun : Tame w.shogun
  shogunVersion : ∀ r e, w.shogun = .ok r → r = .error e → ∃ m, e = .attributeError m
  svmutil : Tame w.svmutil
  libsvm : Tame w.libsvm
  joblib : Tame w.joblib
  joblibVersion : ∀ r e, w.joblib = .ok r → r ≠ .error e
  sklearn : Tame w.sklearn
  scikits : Tame w.scikits
  learnVersion : ∀ r e, w.sklearn = .ok r ∨ w.scikits = .ok r → r = .error e → ∃ m, e = .attributeError m

/-! ## Proofs -/

theorem isSet_iff (w : World) (name : String) : w.isSet name.toList = true ↔ On w name := by
  unfold World.isSet On
  cases h : w.env name.toList with
  | none => simp
  | some t => cases t <;> simp

theorem too_old (w : World) (v : Str) (k : List Int) : Backend.versionTooOld (w.parts v) k = some true ↔ Old w v k :=
  Backend.too_old_iff (w.parts v) k

/-- A step gives a registration for `name` that found it exactly if `P`. -/
def Gives (r : Except Exc Call) (name : Str) (P : Prop) : Prop := ∃ c, r = .ok c ∧ c.name = name ∧ (c.found = true ↔ P)

theorem gives_found {name text : Str} {P : Prop} (h : P) : Gives (.ok (found name text)) name P := ⟨_, rfl, rfl, by simp [found, h]⟩

theorem gives_failed {name text : Str} {P : Prop} (h : ¬ P) : Gives (.ok (failed name text)) name P := ⟨_, rfl, rfl, by simp [failed, h]⟩

theorem needsPatch_ok {w : World} (h : Orderly w) : ∃ b, w.needsPatch = .ok b ∧ (b = true ↔ Broken w) := by
  have key : w.known = none → (decide ("ImportError".toList <:+: w.output) = true ↔ Broken w) := by
    intro hk
    unfold Broken
    generalize "ImportError".toList = t
    rw [hk, decide_eq_true_iff]
    simp
  unfold World.needsPatch
  cases hk : w.known with
  | some b => exact ⟨b, rfl, by unfold Broken; rw [hk]; generalize "ImportError".toList = t; simp⟩
  | none =>
    cases hr : w.raised with
    | none => exact ⟨_, rfl, key hk⟩
    | some e =>
      obtain ⟨m, rfl⟩ := h.probe e hr
      exact ⟨_, rfl, key hk⟩

theorem pp_gives {w : World} (h : Orderly w) : Gives w.ppDep nPp (Usable w .pp) := by
  unfold World.ppDep
  simp only [Usable]
  cases hp : w.pp with
  | error e =>
    obtain ⟨m, rfl⟩ := h.pp e hp
    exact gives_failed (by rintro ⟨⟨v, hv⟩, _⟩; cases hv)
  | ok v =>
    cases hu : w.user with
    | error e =>
      obtain ⟨m, rfl⟩ := h.user e hu
      exact gives_failed (by rintro ⟨_, ⟨v, hv⟩, _⟩; cases hv)
    | ok s =>
      have hon := isSet_iff w "MDP_DISABLE_PARALLEL_PYTHON"
      dsimp only
      by_cases hs : w.isSet vPp = true
      · rw [if_pos hs]
        exact gives_failed (by rintro ⟨_, _, h', _⟩; exact h' (hon.1 hs))
      · rw [if_neg hs]
        have hs' : ¬ On w "MDP_DISABLE_PARALLEL_PYTHON" := fun h' => hs (hon.2 h')
        cases hv : w.server with
        | error e => exact gives_failed (by rintro ⟨_, _, _, h', _⟩; cases h')
        | ok u =>
          obtain ⟨b, hb, hbr⟩ := needsPatch_ok h
          rw [hb]
          dsimp only
          have hop := isSet_iff w "MDP_DISABLE_MONKEYPATCH_PP"
          cases b with
          | false => exact gives_found ⟨⟨v, rfl⟩, ⟨s, rfl⟩, hs', rfl, fun h' => absurd (hbr.2 h'.1) (by simp)⟩
          | true =>
            by_cases hm : w.isSet vPatch = true
            · rw [if_pos hm]
              exact gives_failed (by rintro ⟨_, _, _, _, h'⟩; exact h' ⟨hbr.1 rfl, hop.1 hm⟩)
            · rw [if_neg hm]
              exact gives_found ⟨⟨v, rfl⟩, ⟨s, rfl⟩, hs', rfl, fun h' => hm (hop.2 h'.2)⟩

theorem shogun_gives {w : World} (h : Orderly w) : Gives w.shogunDep nShogun (Usable w .shogun) := by
  unfold World.shogunDep
  simp only [Usable]
  cases hp : w.shogun with
  | error e =>
    obtain ⟨m, rfl⟩ := h.shogun e hp
    exact gives_failed (by rintro ⟨⟨v, hv, _⟩, _⟩; cases hv)
  | ok r =>
    have hon := isSet_iff w "MDP_DISABLE_SHOGUN"
    dsimp only
    by_cases hs : w.isSet vShogun = true
    · rw [if_pos hs]
      exact gives_failed (by rintro ⟨_, h'⟩; exact h' (hon.1 hs))
    · rw [if_neg hs]
      cases r with
      | error e =>
        obtain ⟨m, rfl⟩ := h.shogunVersion _ e hp rfl
        exact gives_failed (by rintro ⟨⟨v, hv, _⟩, _⟩; cases hv)
      | ok v =>
        dsimp only
        by_cases hv : "v1.".toList.isPrefixOf v = true
        · rw [if_pos hv]
          exact gives_found ⟨⟨v, rfl, List.isPrefixOf_iff_prefix.1 hv⟩, fun h' => hs (hon.2 h')⟩
        · rw [if_neg hv]
          refine gives_failed ?_
          rintro ⟨⟨v', hv', hp'⟩, _⟩
          cases hv'
          exact hv (List.isPrefixOf_iff_prefix.2 hp')

theorem libsvm_gives {w : World} (h : Orderly w) : Gives w.libsvmDep nLibsvm (Usable w .libsvm) := by
  unfold World.libsvmDep
  simp only [Usable]
  have hon := isSet_iff w "MDP_DISABLE_LIBSVM"
  by_cases hs : w.isSet vLibsvm = true
  · rw [if_pos hs]
    exact gives_failed (by rintro ⟨_, h'⟩; exact h' (hon.1 hs))
  · rw [if_neg hs]
    have hs' : ¬ On w "MDP_DISABLE_LIBSVM" := fun h' => hs (hon.2 h')
    cases hp : w.svmutil with
    | ok v => exact gives_found ⟨.inl ⟨v, rfl⟩, hs'⟩
    | error e =>
      obtain ⟨m, rfl⟩ := h.svmutil e hp
      dsimp only
      cases hq : w.libsvm with
      | ok v => exact gives_found ⟨.inr ⟨v, rfl⟩, hs'⟩
      | error e =>
        obtain ⟨m', rfl⟩ := h.libsvm e hq
        exact gives_failed (by rintro ⟨⟨v, hv⟩ | ⟨v, hv⟩, _⟩ <;> cases hv)

theorem joblib_gives {w : World} (h : Orderly w) : Gives w.joblibDep nJoblib (Usable w .joblib) := by
  unfold World.joblibDep
  simp only [Usable]
  have hon := isSet_iff w "MDP_DISABLE_JOBLIB"
  cases hp : w.joblib with
  | error e =>
    obtain ⟨m, rfl⟩ := h.joblib e hp
    exact gives_failed (by rintro ⟨⟨v, hv, _⟩, _⟩; cases hv)
  | ok r =>
    cases r with
    | error e => exact absurd rfl (h.joblibVersion _ e hp)
    | ok v =>
      dsimp only
      by_cases hs : w.isSet vJoblib = true
      · rw [if_pos hs]
        exact gives_failed (by rintro ⟨_, h'⟩; exact h' (hon.1 hs))
      · rw [if_neg hs]
        by_cases ho : Backend.versionTooOld (w.parts v) [0, 4, 3] = some true
        · rw [if_pos ho]
          refine gives_failed ?_
          rintro ⟨⟨v', hv', hp'⟩, _⟩
          cases hv'
          exact hp' ((too_old w v _).1 ho)
        · rw [if_neg ho]
          exact gives_found ⟨⟨v, rfl, fun h' => ho ((too_old w v _).2 h')⟩, fun h' => hs (hon.2 h')⟩

theorem sklearn_gives {w : World} (h : Orderly w) : Gives w.sklearnDep nSklearn (Usable w .sklearn) := by
  have hl : (∃ v, w.learn = .ok v ∧ ∀ v', (w.sklearn = .ok (.ok v') ∨ (∃ m, w.sklearn = .error (.importError m)) ∧ w.scikits = .ok (.ok v')) ↔ v' = v) ∨
      ∃ e, w.learn = .error e ∧ ((∃ m, e = .importError m) ∨ ∃ m, e = .attributeError m) ∧
        ∀ v', ¬ (w.sklearn = .ok (.ok v') ∨ (∃ m, w.sklearn = .error (.importError m)) ∧ w.scikits = .ok (.ok v')) := by
    unfold World.learn
    cases hp : w.sklearn with
    | ok r =>
      cases r with
      | ok v => exact .inl ⟨v, rfl, fun v' => by simp [eq_comm]⟩
      | error e => exact .inr ⟨e, rfl, .inr (h.learnVersion _ e (.inl hp) rfl), fun v' => by simp⟩
    | error e =>
      obtain ⟨m, rfl⟩ := h.sklearn e hp
      dsimp only
      cases hq : w.scikits with
      | ok r =>
        cases r with
        | ok v => exact .inl ⟨v, rfl, fun v' => by simp [eq_comm]⟩
        | error e => exact .inr ⟨e, rfl, .inr (h.learnVersion _ e (.inr hq) rfl), fun v' => by simp⟩
      | error e => exact .inr ⟨e, rfl, .inl (h.scikits e hq), fun v' => by simp⟩
  unfold World.sklearnDep
  simp only [Usable]
  have hon := isSet_iff w "MDP_DISABLE_SKLEARN"
  rcases hl with ⟨v, hv, hu⟩ | ⟨e, he, hi, hu⟩
  · rw [hv]
    dsimp only
    by_cases hs : w.isSet vSklearn = true
    · rw [if_pos hs]
      exact gives_failed (by rintro ⟨_, h'⟩; exact h' (hon.1 hs))
    · rw [if_neg hs]
      by_cases ho : Backend.versionTooOld (w.parts v) [0, 6] = some true
      · rw [if_pos ho]
        refine gives_failed ?_
        rintro ⟨⟨v', hv', hp'⟩, _⟩
        have := (hu v').1 hv'
        subst this
        exact hp' ((too_old w v' _).1 ho)
      · rw [if_neg ho]
        exact gives_found ⟨⟨v, (hu v).2 rfl, fun h' => ho ((too_old w v _).2 h')⟩, fun h' => hs (hon.2 h')⟩
  · rw [he]
    have hno : ∀ t, Gives (.ok (failed nSklearn t)) nSklearn ((∃ v, (w.sklearn = .ok (.ok v) ∨ (∃ m, w.sklearn = .error (.importError m)) ∧ w.scikits = .ok (.ok v)) ∧ ¬ Old w v [0, 6]) ∧
        ¬ On w "MDP_DISABLE_SKLEARN") := fun t => gives_failed (by rintro ⟨⟨v, hv, _⟩, _⟩; exact hu v hv)
    rcases hi with ⟨m, rfl⟩ | ⟨m, rfl⟩ <;> exact hno _

theorem run_get (cs : List Call) (hn : (cs.map (·.name)).Nodup) (c : Call) (hc : c ∈ cs) :
    (Dict.get (run cs).has c.name).map Dep.ok = some c.found := by
  induction cs using List.reverseRecOn with
  | nil => simp at hc
  | append_singleton cs a ih =>
    obtain ⟨d, h1, h2, h3⟩ := config_bool cs a
    rw [List.map_append, List.nodup_append] at hn
    rcases List.mem_append.1 hc with h | h
    · have hne : c.name ≠ a.name := fun he => hn.2.2 c.name (List.mem_map_of_mem h) a.name (by simp) he
      rw [h3 _ hne]
      exact ih hn.1 h
    · rw [List.mem_singleton] at h
      subst h
      rw [h1, ← h2]
      rfl

theorem run_none (cs : List Call) (n : Str) (hn : n ∉ cs.map (·.name)) : Dict.get (run cs).has n = none := by
  induction cs using List.reverseRecOn with
  | nil => rfl
  | append_singleton cs a ih =>
    obtain ⟨d, h1, h2, h3⟩ := config_bool cs a
    rw [List.map_append, List.mem_append, not_or] at hn
    rw [h3 n (fun h => hn.2 (by simp [h]))]
    exact ih hn.1

/-- **C359**: if imports raise nothing but ImportErrors and modules have what is read, the configuration succeeds, whatever is missing or disabled;
afterwards `config` has `has_…` for python, mdp and the five optional dependencies, each registered once and in this order, and an optional
dependency counts as available exactly if it is there, in a usable version, and not disabled by a variable that is set to a text. -/
theorem dependencies_partial (w : World) (h : Orderly w) :
    w.configure.1 = .ok () ∧ w.configure.2.map (·.name) = ["python", "mdp", "parallel_python", "shogun", "libsvm", "joblib", "sklearn"].map (·.toList) ∧
    w.has "python".toList = some true ∧ w.has "mdp".toList = some true ∧
    ∀ n : Optional, ∃ b, w.has n.name.toList = some b ∧ (b = true ↔ Usable w n) := by
  obtain ⟨c1, e1, n1, p1⟩ := pp_gives h
  obtain ⟨c2, e2, n2, p2⟩ := shogun_gives h
  obtain ⟨c3, e3, n3, p3⟩ := libsvm_gives h
  obtain ⟨c4, e4, n4, p4⟩ := joblib_gives h
  obtain ⟨c5, e5, n5, p5⟩ := sklearn_gives h
  set ca := found nPython w.python with hca
  set cb := found nMdp (if w.revision.isEmpty then w.version else w.version ++ [',', ' '] ++ w.revision) with hcb
  have hcfg : w.configure = (.ok (), [ca, cb, c1, c2, c3, c4, c5]) := by
    unfold World.configure
    rw [e1, e2, e3, e4, e5]
    rfl
  have hnames : [ca, cb, c1, c2, c3, c4, c5].map (·.name) = ["python", "mdp", "parallel_python", "shogun", "libsvm", "joblib", "sklearn"].map (·.toList) := by
    simp only [List.map_cons, List.map_nil, n1, n2, n3, n4, n5, hca, hcb]
    rfl
  have hnd : ([ca, cb, c1, c2, c3, c4, c5].map (·.name)).Nodup := by
    rw [hnames]
    decide +kernel
  have key : ∀ c ∈ [ca, cb, c1, c2, c3, c4, c5], w.has c.name = some c.found := by
    intro c hc
    unfold World.has
    rw [hcfg]
    exact run_get _ hnd c hc
  refine ⟨by rw [hcfg], by rw [hcfg]; exact hnames, key ca (by simp), key cb (by simp), ?_⟩
  intro n
  cases n
  · exact ⟨c1.found, by have := key c1 (by simp); rwa [n1] at this, p1⟩
  · exact ⟨c2.found, by have := key c2 (by simp); rwa [n2] at this, p2⟩
  · exact ⟨c3.found, by have := key c3 (by simp); rwa [n3] at this, p3⟩
  · exact ⟨c4.found, by have := key c4 (by simp); rwa [n4] at this, p4⟩
  · exact ⟨c5.found, by have := key c5 (by simp); rwa [n5] at this, p5⟩

/-- **C359, false** for other exceptions: joblib is imported even if it is disabled, and an exception other than ImportError when it is imported, or a
missing version, ends the import of mdp (if the dependencies before it give no exception). -/
theorem disabled_import_violation (w : World) (hp : ∃ c, w.ppDep = .ok c) (hs : ∃ c, w.shogunDep = .ok c) (hl : ∃ c, w.libsvmDep = .ok c)
    (e : Exc) (h : (w.joblib = .error e ∧ ∀ m, e ≠ .importError m) ∨ w.joblib = .ok (.error e)) :
    w.configure.1 = .error e ∧ w.has "joblib".toList = none := by
  obtain ⟨c1, e1⟩ := hp
  obtain ⟨c2, e2⟩ := hs
  obtain ⟨c3, e3⟩ := hl
  have ej : w.joblibDep = .error e := by
    unfold World.joblibDep
    rcases h with ⟨h, hm⟩ | h
    · rw [h]
      cases e with
      | importError m => exact absurd rfl (hm m)
      | attributeError m => rfl
      | typeError m => rfl
      | other m => rfl
    · rw [h]
  have n1 : c1.name = nPp := by
    have : ∀ c, w.ppDep = .ok c → c.name = nPp := by
      intro c hc
      unfold World.ppDep at hc
      repeat' split at hc
      all_goals first
        | (cases hc; rfl)
        | cases hc
    exact this c1 e1
  have n2 : c2.name = nShogun := by
    have : ∀ c, w.shogunDep = .ok c → c.name = nShogun := by
      intro c hc
      unfold World.shogunDep at hc
      repeat' split at hc
      all_goals first
        | (cases hc; rfl)
        | cases hc
    exact this c2 e2
  have n3 : c3.name = nLibsvm := by
    have : ∀ c, w.libsvmDep = .ok c → c.name = nLibsvm := by
      intro c hc
      unfold World.libsvmDep at hc
      repeat' split at hc
      all_goals first
        | (cases hc; rfl)
        | cases hc
    exact this c3 e3
  have hcfg : w.configure = (.error e, [found nPython w.python,
      found nMdp (if w.revision.isEmpty then w.version else w.version ++ [',', ' '] ++ w.revision), c1, c2, c3]) := by
    unfold World.configure
    rw [e1, e2, e3, ej]
    rfl
  refine ⟨by rw [hcfg], ?_⟩
  unfold World.has
  rw [hcfg, run_none]
  · rfl
  · simp only [List.map_cons, List.map_nil, n1, n2, n3, found]
    decide +kernel

/-- **C359**: libsvm is not imported if it is disabled: then what its modules do has no effect. -/
theorem libsvm_disabled (w : World) (h : On w "MDP_DISABLE_LIBSVM") (a b : Except Exc Str) :
    World.configure { w with svmutil := a, libsvm := b } = w.configure := by
  have h1 : w.isSet vLibsvm = true := (isSet_iff w "MDP_DISABLE_LIBSVM").2 h
  have e : World.libsvmDep { w with svmutil := a, libsvm := b } = w.libsvmDep := by
    unfold World.libsvmDep
    rw [if_pos h1, if_pos (show World.isSet { w with svmutil := a, libsvm := b } vLibsvm = true from h1)]
  unfold World.configure
  rw [e]
  rfl

/-- **C359**: without the module `user` (Python 3) parallel python is never available. -/
theorem pp_python3 (w : World) (m : Str) (h : w.user = .error (.importError m)) (c : Call) (hc : w.ppDep = .ok c) : c.found = false := by
  unfold World.ppDep at hc
  rw [h] at hc
  dsimp only at hc
  split at hc <;> cases hc <;> rfl

/-- **C359**: a secret of pp that is there is kept; otherwise it is that of the variable, if set to a text, or the default one. -/
theorem pp_secret (w : World) (v : Str) (hp : w.pp = .ok v) :
    (∀ s, w.user = .ok (some s) → w.secret = some s) ∧
    (∀ c t, w.user = .ok none → w.env "MDP_PP_SECRET".toList = some (c :: t) → w.secret = some (c :: t)) ∧
    (w.user = .ok none → ¬ On w "MDP_PP_SECRET" → w.secret = some "mdp-pp-support-password".toList) := by
  unfold World.secret
  rw [hp]
  refine ⟨fun s hs => by rw [hs], fun c t hs he => ?_, fun hs hn => ?_⟩
  · rw [hs]
    dsimp only
    rw [if_pos (show w.isSet vSecret = true from (isSet_iff w "MDP_PP_SECRET").2 ⟨c, t, he⟩), show w.env vSecret = some (c :: t) from he]
    rfl
  · rw [hs]
    dsimp only
    rw [if_neg (fun h : w.isSet vSecret = true => hn ((isSet_iff w "MDP_PP_SECRET").1 h))]

/-! ## An environment -/

/-- Python 3 with a current joblib and sklearn, sklearn disabled, joblib's variable set to nothing. -/
def plain : World where
  env := fun n => if n = vSklearn then some ['1'] else if n = vJoblib then some [] else none
  python := "3.8.2".toList
  version := "3.6".toList
  revision := []
  pp := .error (.importError "No module named 'pp'".toList)
  user := .error (.importError "No module named 'user'".toList)
  server := .ok ()
  known := none
  output := []
  raised := none
  shogun := .error (.importError [])
  svmutil := .error (.importError ['a'])
  libsvm := .ok "3.23".toList
  joblib := .ok (.ok "1.0".toList)
  sklearn := .ok (.ok "0.24".toList)
  scikits := .error (.importError [])
  parts := fun v => if v = "1.0".toList then [some 1, some 0] else [some 0, some 24]

theorem plain_orderly : Orderly plain := by
  constructor
  case joblibVersion =>
    intro r e hr h
    subst h
    cases hr
  case learnVersion =>
    intro r e hr h
    subst h
    rcases hr with hr | hr <;> cases hr
  all_goals simp [plain, Tame]

example : plain.has "parallel_python".toList = some false ∧ plain.has "libsvm".toList = some true ∧ plain.has "joblib".toList = some true ∧
    plain.has "sklearn".toList = some false := by
  decide +kernel

/-- joblib is disabled and broken: mdp cannot be imported. -/
example : (World.configure { plain with env := fun _ => some ['1'], joblib := .error (.other ['x']) }).1 = .error (.other ['x']) :=
  (disabled_import_violation { plain with env := fun _ => some ['1'], joblib := .error (.other ['x']) } ⟨_, rfl⟩ ⟨_, rfl⟩ ⟨_, rfl⟩ _
    (.inl ⟨rfl, by simp⟩)).1

/-! ## Supported types (routines.py 274-296) -/

/-- Types of numbers: the ones that matter here. -/
inductive Ty where
  | half | single | double | long | csingle | cdouble | clong | int
deriving DecidableEq

/-- `_UNSAFE_DTYPES` (299-300). -/
def unsafeTypes : List Ty := [.half, .long, .clong]

/-- Values that are compared: an `_ExternalDep` (configuration.py 90-110), which defines no `__eq__`, is equal to itself only, not to a text. -/
inductive Value where
  | dep (d : Dep)
  | text (s : Str)
deriving DecidableEq

/-- `==` -/
def Value.eq : Value → Value → Bool
  | .dep a, .dep b => decide (a = b)
  | .text a, .text b => decide (a = b)
  | _, _ => false

/-- `get_dtypes` (274-296) for the types that exist (`numx.dtype` raises TypeError for others). -/
def getDtypes (hasSymeig : Value) (codes : List (Option Ty)) (safe : Bool) : List Ty :=
  codes.filterMap fun c => c.bind fun t =>
    if safe && !(hasSymeig.eq (.text "scipy.linalg.eigh".toList)) && decide (t ∈ unsafeTypes) then none else some t

/-- What is documented: all types of the codes, without the large ones (and half) if the backend does not support them. -/
def Documented (scipyEigh : Bool) (codes : List (Option Ty)) (t : Ty) : Prop :=
  some t ∈ codes ∧ (scipyEigh = false → t ∉ [Ty.half, Ty.long, Ty.clong])

/-- **C360**: without the solver of scipy, `get_dtypes` gives the types of the codes but the unsafe ones; with `_safe=False` all of them. -/
theorem dtypes_partial (d : Dep) (codes : List (Option Ty)) (t : Ty) :
    (t ∈ getDtypes (.dep d) codes true ↔ Documented false codes t) ∧ (t ∈ getDtypes (.dep d) codes false ↔ some t ∈ codes) := by
  have h : ∀ safe, t ∈ getDtypes (.dep d) codes safe ↔ some t ∈ codes ∧ ¬ (safe = true ∧ t ∈ unsafeTypes) := by
    intro safe
    unfold getDtypes
    rw [List.mem_filterMap]
    constructor
    · rintro ⟨c, hc, hb⟩
      cases c with
      | none => cases hb
      | some u =>
        simp only [Option.bind_some, Value.eq, Bool.not_false, Bool.and_true] at hb
        split at hb
        · cases hb
        · next hn =>
          cases hb
          exact ⟨hc, fun h => hn (by simp [h.1, h.2])⟩
    · rintro ⟨hc, hn⟩
      refine ⟨some t, hc, ?_⟩
      simp only [Option.bind_some, Value.eq, Bool.not_false, Bool.and_true]
      rw [if_neg]
      intro h'
      rw [Bool.and_eq_true, decide_eq_true_eq] at h'
      exact hn h'
  refine ⟨?_, by rw [h]; simp⟩
  rw [h]
  unfold Documented unsafeTypes
  simp

/-- **C360, false** with the solver of scipy: `config.has_symeig` is an object, not a text, so the comparison always fails and the large types are never
supported. -/
theorem dtypes_violation (d : Dep) (codes : List (Option Ty)) (t : Ty) (ht : t ∈ unsafeTypes) : t ∉ getDtypes (.dep d) codes true := by
  intro h
  exact ((dtypes_partial d codes t).1.1 h).2 rfl ht

/-- numpy's codes of floats, with scipy: the type `long` is documented to be supported, and is not. -/
example : Documented true [some .half, some .single, some .double, some .long] .long ∧
    getDtypes (.dep ⟨7, "scipy.linalg.eigh".toList, none⟩) [some .half, some .single, some .double, some .long] true = [.single, .double] := by
  refine ⟨⟨by simp, fun h => by cases h⟩, by decide +kernel⟩

end Mdp.Setup
