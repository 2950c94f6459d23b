import Mathlib.Data.List.Basic

/-!
# Model of the caching extension (caching/caching_extension.py)

Nodes have an identity, a class and a state. Executing a node first runs its checks, which may change its state, and
then computes a result from state and data (signal_node.py 641-654). joblib is modelled by a table from the arguments
of a call, that is class and state of the node and the data, to the result: hashing is taken to be free of collisions,
the table to persist per directory. Extra arguments of `execute` are part of the data.
-/

namespace Mdp.Caching

/-- What a node class does when executed. -/
structure Sem (C S X Y E : Type) where
  /-- `_pre_execution_checks` -/
  pre : C → S → X → Except E Unit × S
  /-- `_execute`; it does not change the node -/
  body : C → S → X → Except E Y
  /-- the classes a class inherits from, itself first -/
  mro : C → List C

variable {C S X Y E D : Type} [DecidableEq C] [DecidableEq S] [DecidableEq X] [DecidableEq D]

/-- The original `execute` (signal_node.py 641-654). -/
def Sem.exec (K : Sem C S X Y E) (c : C) (s : S) (x : X) : Except E Y × S :=
  match K.pre c s x with
  | (.error e, s') => (.error e, s')
  | (.ok (), s') => (K.body c s' x, s')

/-- The table of one cache directory. -/
abbrev Store (C S X Y : Type) := List ((C × S × X) × Y)

/-- Which cache directory is set: none yet, a temporary one, a named one. -/
inductive Dir (D : Type) where
  | unset
  | temp
  | named (d : D)
deriving DecidableEq

/-- Global variables of the module (18-32), contents of the directories, states of the nodes. -/
structure World (C S X Y D : Type) where
  active : Bool
  glob : Bool
  classes : List C
  insts : List Nat
  methods : List Nat
  dir : Dir D
  temp : Store C S X Y
  files : D → Store C S X Y
  st : Nat → S

/-- The table in use. -/
def World.store (w : World C S X Y D) : Store C S X Y :=
  match w.dir with
  | .unset => []
  | .temp => w.temp
  | .named d => w.files d

/-- Add an entry to the table in use. -/
def World.put (w : World C S X Y D) (k : C × S × X) (y : Y) : World C S X Y D :=
  match w.dir with
  | .unset => w
  | .temp => { w with temp := (k, y) :: w.temp }
  | .named d => { w with files := fun d' => if d' = d then (k, y) :: w.files d else w.files d' }

def setSt (f : Nat → S) (n : Nat) (s : S) : Nat → S := fun m => if m = n then s else f m

/-- `set_cachedir` (34-60). A temporary directory is always a new one. -/
def World.setDir (w : World C S X Y D) (d : Option D) : World C S X Y D :=
  match d with
  | none => { w with dir := .temp, temp := [], methods := [] }
  | some d => if w.dir = .named d then w else { w with dir := .named d, methods := [] }

/-- `activate_caching` (131-163). -/
def World.activate (w : World C S X Y D) (d : Option D) (classes : Option (List C)) (insts : Option (List Nat)) :
    World C S X Y D :=
  let w := w.setDir d
  { w with
    glob := classes.isNone && insts.isNone
    classes := classes.getD w.classes
    insts := insts.getD w.insts
    active := true }

/-- `deactivate_caching` (165-177). -/
def World.deactivate (w : World C S X Y D) : World C S X Y D :=
  { w with active := false, glob := true, classes := [], insts := [], methods := [] }

/-- `is_cached` (84-91). -/
def World.isCached (w : World C S X Y D) (cls : Nat → C) (n : Nat) : Bool :=
  w.glob || w.classes.contains (cls n) || w.insts.contains n

/-- `set_instance_cache` (93-105); an `AttributeError` while the extension is not active. -/
def World.setInst (w : World C S X Y D) (n : Nat) (on : Bool) : World C S X Y D :=
  if ¬ w.active then w
  else if on then { w with insts := w.insts ++ [n] } else { w with insts := w.insts.erase n }

/-- The call of the method wrapped by joblib (124): the stored result, or the original method, whose result is
stored under the arguments as they were before the call, unless it raises. -/
def World.call (K : Sem C S X Y E) (cls : Nat → C) (w : World C S X Y D) (n : Nat) (x : X) :
    Except E Y × World C S X Y D :=
  match w.store.lookup (cls n, w.st n, x) with
  | some y => (.ok y, w)
  | none =>
    let r := K.exec (cls n) (w.st n) x
    match r.1 with
    | .error e => (.error e, { w with st := setSt w.st n r.2 })
    | .ok y => (.ok y, { w.put (cls n, w.st n, x) y with st := setSt w.st n r.2 })

/-- `execute` of the extension (107-124), or the original one if the extension is not active. -/
def World.execute (K : Sem C S X Y E) (cls : Nat → C) (w : World C S X Y D) (n : Nat) (x : X) :
    Except E Y × World C S X Y D :=
  if w.active && w.isCached cls n then
    if w.methods.contains n then w.call K cls n x
    else
      let p := K.pre (cls n) (w.st n) x
      let w := { w with methods := n :: w.methods, st := setSt w.st n p.2 }
      match p.1 with
      | .error e => (.error e, w)
      | .ok () => w.call K cls n x
  else
    let r := K.exec (cls n) (w.st n) x
    (r.1, { w with st := setSt w.st n r.2 })

/-- Something a user does. -/
inductive Op (C S X D : Type) where
  | execute (n : Nat) (x : X)
  /-- anything else that changes the state of a node (training, setting attributes, creating it) -/
  | modify (n : Nat) (f : S → S)
  | setInst (n : Nat) (on : Bool)
  | activate (d : Option D) (classes : Option (List C)) (insts : Option (List Nat))
  | deactivate

/-- One operation; the result if it is an execution. -/
def World.op (K : Sem C S X Y E) (cls : Nat → C) (w : World C S X Y D) :
    Op C S X D → Option (Except E Y) × World C S X Y D
  | .execute n x => let r := w.execute K cls n x; (some r.1, r.2)
  | .modify n f => (none, { w with st := setSt w.st n (f (w.st n)) })
  | .setInst n on => (none, w.setInst n on)
  | .activate d c i => (none, w.activate d c i)
  | .deactivate => (none, w.deactivate)

/-- The results of a sequence of operations, and the world afterwards. -/
def World.run (K : Sem C S X Y E) (cls : Nat → C) (w : World C S X Y D) :
    List (Op C S X D) → List (Except E Y) × World C S X Y D
  | [] => ([], w)
  | o :: os =>
    let r := w.op K cls o
    let t := r.2.run K cls os
    (r.1.toList ++ t.1, t.2)

/-- Module just imported: nothing cached, `_cache_active_global = True`. Directories may have contents from before. -/
def World.start (files : D → Store C S X Y) (st : Nat → S) : World C S X Y D :=
  ⟨false, true, [], [], [], .unset, [], files, st⟩

end Mdp.Caching
