import Verif.Py.State

/-!
# Model of the extension mechanism (mdp/extension.py)

Node classes `C` have attributes named `A`. The class dictionaries hold three sorts of attributes that matter:
the attribute itself, the original attribute stored under `"_non_extension_" + name` (line 41) and the marker
`"_extension_for_" + name` (line 44) that holds the name of the extension. They are kept apart here as three maps.

Simplifications:
* attributes that an extension declares do not themselves have one of the two prefixes;
* the registry does not change between activation and deactivation (registration is modelled separately);
* `getattr` on a class looks along the method resolution order and binds the value it finds (`bind`, the
  descriptor protocol); attributes of metaclasses and `__getattr__` hooks are not modelled;
* setup and teardown functions do not touch the node classes or the registry; whether they raise is given;
* the set of active extensions is enumerated in the order of activation.
-/

namespace Mdp.Ext

open Py

/-- Exceptions that occur. -/
inductive Err
  /-- ExtensionException: unknown name -/
  | unknown
  /-- ExtensionException: name collision -/
  | collision
  /-- AttributeError -/
  | attribute
  /-- raised by a setup function -/
  | setup
  /-- raised by a teardown function -/
  | teardown
  /-- raised by the body of a `with` statement or decorated function -/
  | body (n : Nat)
  deriving DecidableEq, Repr

variable {C A V E : Type} [DecidableEq C] [DecidableEq A] [DecidableEq V] [DecidableEq E]

/-- What is fixed about the classes: the strict ancestors in method resolution order (`cls.__mro__[1:]`), how
`getattr(cls, name)` turns a value of a class dictionary into a result, and the object `None`. -/
structure Layout (C V : Type) where
  anc : C → List C
  bind : C → V → V
  pyNone : V

/-- A registered extension: an entry of `_extensions` (line 66). `setup`/`teardown` tell whether there is such a
function and whether it raises; `entries` are the node classes with their attributes in the order of the two nested loops
(307-310, 354-357). -/
structure ExtDef (C A V : Type) where
  setup : Option Bool
  teardown : Option Bool
  entries : List (C × A × V)

/-- Calls of setup and teardown functions, for the record. -/
inductive Call (E : Type) | setup (e : E) | teardown (e : E)
  deriving DecidableEq, Repr

/-- The class dictionaries and `_active_extensions`. -/
structure S (C A V E : Type) where
  attr : C → A → Option V
  orig : C → A → Option V
  tag : C → A → Option E
  active : List E
  log : List (Call E)

abbrev X (C A V E : Type) := M Err (S C A V E)

/-- `setattr` (`some`) and `delattr` (`none`) on a class dictionary. -/
def upd {W : Type} (f : C → A → Option W) (c : C) (a : A) (w : Option W) : C → A → Option W :=
  fun c' a' => if c' = c ∧ a' = a then w else f c' a'

/-- First value found along the method resolution order; `name in dir(cls)` is that there is one. -/
def find {W : Type} (L : Layout C V) (f : C → A → Option W) (c : C) (a : A) : Option W :=
  (c :: L.anc c).findSome? fun d => f d a

/-- `getattr(cls, name)`. -/
def getattr (L : Layout C V) (f : C → A → Option V) (c : C) (a : A) : Option V := (find L f c a).map (L.bind c)

/-- One round of the loop of `activate_extension` (314-338). -/
def actOne (L : Layout C V) (e : E) (c : C) (a : A) (v : V) : X C A V E Unit := fun s =>
  match getattr L s.attr c a with
  | some o =>
    if (s.tag c a).isSome then (.error .collision, s)
    else
      let orig' := if (find L s.tag c a).isNone then upd s.orig c a (some o) else s.orig
      (.ok (), { s with attr := upd s.attr c a (some v), orig := orig', tag := upd s.tag c a (some e) })
  | none => (.ok (), { s with attr := upd s.attr c a (some v), tag := upd s.tag c a (some e) })

/-- The loops of `activate_extension` (307-338). -/
def actAll (L : Layout C V) (e : E) : List (C × A × V) → X C A V E Unit
  | [] => M.ret ()
  | (c, a, v) :: r => do actOne L e c a v; actAll L e r

/-- One round of the loop of `deactivate_extension` (357-388). -/
def deactOne (L : Layout C V) (c : C) (a : A) : X C A V E Unit := fun s =>
  match s.orig c a with
  | some w =>
    if (s.attr c a).isNone then (.error .attribute, s)
    else
      let attr' := upd s.attr c a none
      let o := L.bind c w
      let attr'' := if (L.anc c).all fun x => (getattr L attr' x a).getD L.pyNone ≠ o then upd attr' c a (some o) else attr'
      (.ok (), { s with attr := attr'', orig := upd s.orig c a none, tag := upd s.tag c a none })
  | none => (.ok (), { s with attr := upd s.attr c a none, tag := upd s.tag c a none })

/-- The loops of `deactivate_extension` (354-388). -/
def deactAll (L : Layout C V) : List (C × A × V) → X C A V E Unit
  | [] => M.ret ()
  | (c, a, _) :: r => do deactOne L c a; deactAll L r

/-- Call a setup or teardown function, if there is one. -/
def callHook (h : Option Bool) (ev : Call E) (err : Err) : X C A V E Unit := fun s =>
  match h with
  | none => (.ok (), s)
  | some raises => (if raises then .error err else .ok (), { s with log := s.log ++ [ev] })

/-- `deactivate_extension` (345-390). -/
def deactivate (L : Layout C V) (reg : E → Option (ExtDef C A V)) (e : E) : X C A V E Unit := fun s =>
  match reg e with
  | none => (.error .unknown, s)
  | some x =>
    if e ∈ s.active then
      (do deactAll L x.entries
          callHook x.teardown (.teardown e) .teardown
          M.modify fun s => { s with active := s.active.filter (· ≠ e) }) s
    else (.ok (), s)

/-- `activate_extension` (296-343). An exception raised while the activation is reverted replaces the first. -/
def activate (L : Layout C V) (reg : E → Option (ExtDef C A V)) (e : E) : X C A V E Unit := fun s =>
  match reg e with
  | none => (.error .unknown, s)
  | some x =>
    if e ∈ s.active then (.ok (), s)
    else
      M.tryCatch (do callHook x.setup (.setup e) .setup; actAll L e x.entries)
        (fun err => do deactivate L reg e; M.raise err) { s with active := s.active ++ [e] }

/-- `deactivate_extensions` (407-413). -/
def deactivateList (L : Layout C V) (reg : E → Option (ExtDef C A V)) : List E → X C A V E Unit
  | [] => M.ret ()
  | e :: r => do deactivate L reg e; deactivateList L reg r

/-- The loop of `activate_extensions` (397-399). -/
def activateLoop (L : Layout C V) (reg : E → Option (ExtDef C A V)) : List E → X C A V E Unit
  | [] => M.ret ()
  | e :: r => do activate L reg e; activateLoop L reg r

/-- `activate_extensions` (392-405): on failure all active extensions are deactivated. -/
def activateList (L : Layout C V) (reg : E → Option (ExtDef C A V)) (es : List E) : X C A V E Unit :=
  M.tryCatch (activateLoop L reg es) (fun err => do
    let s ← M.get
    deactivateList L reg s.active
    M.raise err)

/-- `try: m finally: f`; an exception in `f` replaces the outcome. -/
def finally_ {R : Type} (m : X C A V E R) (f : X C A V E Unit) : X C A V E R := fun s =>
  match m s with
  | (r, s') => match f s' with
    | (.ok (), s'') => (r, s'')
    | (.error e, s'') => (.error e, s'')

/-- Calling a function decorated by `with_extension` (437-448); `body` is the call of the function. -/
def withExtension {R : Type} (L : Layout C V) (reg : E → Option (ExtDef C A V)) (e : E) (body : X C A V E R) :
    X C A V E R := fun s =>
  if e ∈ s.active then body s
  else finally_ (do activate L reg e; body) (deactivate L reg e) s

/-- `with extension(names): body` (`__enter__` 479-483, `__exit__` 485-486). If `__enter__` raises the body does not run
and `__exit__` is not called. -/
def withExtensions {R : Type} (L : Layout C V) (reg : E → Option (ExtDef C A V)) (es : List E) (body : X C A V E R) :
    X C A V E R := fun s =>
  match activateList L reg es s with
  | (.error e, s') => (.error e, s')
  | (.ok (), s') => finally_ body (deactivateList L reg (es.filter (· ∉ s.active))) s'

end Mdp.Ext
