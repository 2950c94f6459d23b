import Verif.Bi.Layer
import Verif.Bi.MsgLemmas

/-!
# What a `CloneBiLayer` is expected to do: specification

Blocks of columns, parts of a message, and the calls of the nodes; none of it uses the functions of the model.
-/

namespace Bi.Layer

open Py

variable {σ C V : Type}

/-- `b` is block number `i` if the columns of `a` are cut into `n` blocks of the same size. -/
def IsBlock (n i : Nat) (a b : Arr C) : Prop :=
  b.rows = a.rows ∧ n * b.cols.length = a.cols.length ∧
    ∀ j, j < b.cols.length → b.cols[j]? = a.cols[i * b.cols.length + j]?

/-- The data for node `i`. -/
def DataPart (n i : Nat) : Option (Arr C) → Option (Arr C) → Prop
  | none, none => True
  | some a, some b => IsBlock n i a b
  | _, _ => False

/-- The part of a message value for node `i`: arrays whose number of columns is divisible by the number of nodes are cut,
everything else is handed on. -/
def ValPart (n i : Nat) (v w : Option (BVal (LVal C V))) : Prop :=
  (∃ a b, v = some (.other (.arr a)) ∧ n ∣ a.cols.length ∧ w = some (.other (.arr b)) ∧ IsBlock n i a b) ∨
    ((∀ a, v = some (.other (.arr a)) → ¬ n ∣ a.cols.length) ∧ w = v)

/-- The message for node `i`. No message and the empty message give none. -/
def MsgPart (n i : Nat) : Option (LMsg C V) → Option (LMsg C V) → Prop
  | none, w => w = none
  | some m, w => (m = [] ∧ w = none) ∨ (m ≠ [] ∧ ∃ m', w = some m' ∧ ∀ key, ValPart n i (Dict.get m key) (Dict.get m' key))

/-- The same content: arrays with the same rows and columns, or the same value. -/
def SameVal (v w : Option (BVal (LVal C V))) : Prop :=
  v = w ∨ ∃ a b, v = some (.other (.arr a)) ∧ w = some (.other (.arr b)) ∧ a.rows = b.rows ∧ a.cols = b.cols

/-- The calls of the nodes on the inputs `ins` with the results `rs`: one node after the other. A shared node is called
again and again; copies are called once each. -/
def Called (f : NodeFn σ C V) (ins : List (Option (Arr C) × Option (LMsg C V))) (rs : List (LRes C V)) :
    Nodes σ → Nodes σ → Prop
  | .shared s n, .shared s' n' => n' = n ∧ rs.length = ins.length ∧ ∃ t : Nat → σ, t 0 = s ∧ t ins.length = s' ∧
      ∀ (i : Nat) x m r, ins[i]? = some (x, m) → rs[i]? = some r → f (t i) x m = (.ok r, t (i + 1))
  | .copies ss, .copies ss' => ss'.length = ss.length ∧ rs.length = ins.length ∧
      ∀ (i : Nat) s s' x m r, ss[i]? = some s → ss'[i]? = some s' → ins[i]? = some (x, m) → rs[i]? = some r →
        f s x m = (.ok r, s')
  | _, _ => False

/-- Messages that do not mention the flag for copies, neither plain nor addressed to the layer. -/
def NoFlag (nodeId : Option Str) (m : LMsg C V) : Prop :=
  Dict.get m kCopies = none ∧ ∀ k, Addressed nodeId k → Dict.get m k = none

/-- The message of a result. -/
def msgOf : LRes C V → Option (LMsg C V)
  | .single _ => none
  | .pair _ m => m
  | .triple _ m _ => m

/-- The messages of the results that are tuples. -/
def tupleMsgs (rs : List (LRes C V)) : List (Option (LMsg C V)) :=
  rs.filterMap fun r =>
    match r with
    | .single _ => none
    | .pair _ m => some m
    | .triple _ m _ => some m

/-- The value is an array. -/
def IsArr (v : BVal (LVal C V)) : Prop := ∃ a, v = .other (.arr a)

/-- No flag in any message of the results of the nodes. -/
def Quiet (nodeId : Option Str) (f : NodeFn σ C V) : Prop :=
  ∀ s x m r s' d, f s x m = (.ok r, s') → msgOf r = some d → NoFlag nodeId d

end Bi.Layer
