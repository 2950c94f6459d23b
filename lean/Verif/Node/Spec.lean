import Verif.Node.Model

/-! # Specification vocabulary for nodes -/

namespace Mdp.Node

open Py

variable {σ α β : Type}

/-- The states of a node that a program can observe: the constructor returned, then any finite
history of public calls was made, each of which may have returned or raised. -/
def Reachable (K : Kind σ α β) (s : St σ α β) : Prop :=
  ∃ inp out dt st cs, (init K inp out dt st).1 = .ok () ∧ s = runCalls K (init K inp out dt st).2 cs

/-- A trainable node class has at least one training phase (`_get_train_seq` is never empty in MDP). -/
def Sane (K : Kind σ α β) : Prop := K.trainable = true → 0 < K.nPhases

/-- Number of stop hooks in a trace that returned. -/
def okStops (tr : List (Event α β)) : Nat :=
  tr.countP (fun e => match e with | .stop _ true => true | _ => false)

/-- What must have happened before a hook call. -/
def EvOK (K : Kind σ α β) (pre : List (Event α β)) : Event α β → Prop
  | .train p _ _ _ => K.trainable = true ∧ p = okStops pre ∧ p < K.nPhases
  | .stop p _ => K.trainable = true ∧ p = okStops pre ∧ p < K.nPhases ∧
      ∃ x args ok, Event.train p x args ok ∈ pre
  | .exec _ => K.trainable = true → okStops pre = K.nPhases
  | .inv _ => K.invertible = true ∧ (K.trainable = true → okStops pre = K.nPhases)

def TraceOK (K : Kind σ α β) (tr : List (Event α β)) : Prop :=
  ∀ pre ev post, tr = pre ++ ev :: post → EvOK K pre ev

/-- Data seen by hooks fits the dimensions and dtype. -/
def DataOK (s : St σ α β) : Event α β → Prop
  | .train _ x _ _ => x.ndim = 2 ∧ 0 < x.nrows ∧ s.inputDim = some x.cols ∧ s.dtype = some x.dtype
  | .exec x => x.ndim = 2 ∧ 0 < x.nrows ∧ s.inputDim = some x.cols ∧ s.dtype = some x.dtype
  | .inv y => y.ndim = 2 ∧ s.outputDim = some y.cols
  | .stop _ _ => True


/-- The training phase a hook call belongs to. -/
def phaseOf : Event α β → Option Nat
  | .train p _ _ _ => some p
  | .stop p _ => some p
  | _ => none

/-- Everything a user can observe about a node except the ghost trace. -/
def visible (s : St σ α β) : Option Nat × Option Nat × Option Nat × Bool × Int × Bool × σ :=
  (s.inputDim, s.outputDim, s.dtype, s.training, s.phase, s.started, s.st)

/-- Rejection because of the shape of the data: wrong rank, wrong width, or no rows. -/
def BadShape (s : St σ α β) (x : Arr α) : Prop :=
  x.ndim ≠ 2 ∨ (s.inputDim ≠ none ∧ s.inputDim ≠ some x.cols) ∨ x.nrows = 0

end Mdp.Node
