import Verif.Bi.Msg
import Verif.Py.State
import Verif.Py.Dict

/-!
# Coroutines as methods of a `BiNode` (`bimdp/binode.py`)

The body of a coroutine is given by its start and by what it does when it is resumed: it yields a value and waits, it
returns (perhaps a value), or it raises an exception. Bodies that call their own method again, and effects of the body on
the node, are not modelled. `A` is the type of argument tuples, `R` that of results, `G` that of suspended bodies.
-/

namespace Bi.Coroutine

open Py

variable {A R G : Type}

/-- One step of the body. -/
inductive Step (R G : Type) where
  | yields (r : R) (g : G)
  | returns (v : Option R)
  | raises (e : Err)

/-- A coroutine: the body up to its first `yield`, and from one `yield` to the next. -/
structure Body (A R G : Type) where
  start : A → Step R G
  resume : G → A → Step R G

/-- What a call gives: a yielded value, the one-tuple `exception.args` of a returned value, or `None`. -/
inductive Res (R : Type) where
  | value (r : R)
  | tuple (v : R)
  | none
  deriving DecidableEq

/-- A generator object: suspended, or finished by an exception. -/
inductive Inst (G : Type) where
  | live (g : G)
  | dead

/-- The parts of the node that coroutines change: `_coroutine_instances`, and the instance attributes that shadow the
methods of the class. -/
structure Node (G : Type) where
  instances : Option (Dict Str (Inst G)) := .none
  attrs : List Str := []

/-- `delattr(self, name)` -/
def delattr (name : Str) : M Err (Node G) Unit := fun s =>
  if name ∈ s.attrs then (.ok (), { s with attrs := s.attrs.filter (· ≠ name) }) else (.error .attributeError, s)

/-- `del self._coroutine_instances[name]` -/
def delInstance (name : Str) : M Err (Node G) Unit := fun s =>
  match s.instances with
  | .none => (.error .typeError, s)
  | some d =>
    match Dict.get d name with
    | .none => (.error .keyError, s)
    | some _ => (.ok (), { s with instances := some (Dict.erase d name) })

/-- `self._coroutine_instances[name] = i` for a dictionary that exists -/
def setInstance (name : Str) (i : Inst G) : M Err (Node G) Unit := fun s =>
  (.ok (), { s with instances := some (Dict.set (s.instances.getD []) name i) })

/-- binode.py:530-536, 555-561: what is done with the end of the body. -/
def finish (name : Str) (v : Option R) : M Err (Node G) (Res R) := do
  delattr name
  delInstance name
  match v with
  | some v => pure (.tuple v)
  | .none => pure .none

/-- The outcome of `next` or `send`: a generator that has raised an exception is finished. -/
def outcome (name : Str) (st : Step R G) : M Err (Node G) (Res R) :=
  match st with
  | .yields r g => do
    setInstance name (.live g)
    pure (.value r)
  | .returns v => finish name v
  | .raises e => do
    setInstance name .dead
    M.raise e

/-- binode.py:527-536 `_coroutine_interface`: `send` to a finished generator raises `StopIteration` without arguments. -/
def interface (b : Body A R G) (name : Str) (a : A) : M Err (Node G) (Res R) := do
  let s ← M.get
  match s.instances with
  | .none => M.raise .typeError
  | some d =>
    match Dict.get d name with
    | .none => M.raise .keyError
    | some (.live g) => outcome name (b.resume g a)
    | some .dead => finish name .none

/-- binode.py:545-561 `_coroutine_initialization`. -/
def initialization (b : Body A R G) (name : Str) (a : A) : M Err (Node G) (Res R) := do
  M.modify fun s => { s with
    instances := some (Dict.set (s.instances.getD []) name .dead),
    attrs := if name ∈ s.attrs then s.attrs else s.attrs ++ [name] }
  outcome name (b.start a)

/-- A call of the method: the instance attribute shadows the method of the class. -/
def call (b : Body A R G) (name : Str) (a : A) : M Err (Node G) (Res R) := do
  let s ← M.get
  if name ∈ s.attrs then interface b name a else initialization b name a

/-- binode.py:310-311: the loop of `bi_reset`. -/
def delAll : List Str → M Err (Node G) Unit
  | [] => pure ()
  | k :: r => do
    delattr k
    delAll r

/-- binode.py:295-314 `bi_reset`. -/
def biReset : M Err (Node G) Unit := do
  let s ← M.get
  match s.instances with
  | .none => pure ()
  | some d => do
    delAll (Dict.keys d)
    M.modify fun s => { s with instances := .none }

/-- What happens to a node: its coroutine methods are called and it is reset. -/
inductive Event (A : Type) where
  | call (name : Str) (a : A)
  | reset

/-- A history: the results of the calls, in order, exceptions included. -/
def history (bodies : Str → Body A R G) : List (Event A) → Node G → List (Except Err (Res R)) × Node G
  | [], s => ([], s)
  | .reset :: r, s => history bodies r (biReset s).2
  | .call name a :: r, s =>
    let q := call (bodies name) name a s
    let h := history bodies r q.2
    (q.1 :: h.1, h.2)

end Bi.Coroutine
