import Verif.Bi.Flow

/-!
# `BiFlow.train` and `BiCheckpointFlow.train` (`bimdp/biflow.py`)

Data and messages of a node are a list of pairs that can be iterated again for every phase. That a node changes the
message objects it gets (see C93) is not modelled here: every phase sees the messages as they were given.
-/

namespace Bi

open Py

variable {σ A V : Type} [DecidableEq V]

/-- A flow with the training interface of its nodes. `train` is `BiNode.train` (`single none` is the result `None`),
`plainTrain` is `Node.train`, `stop` is `stop_training`; `remaining` is `get_remaining_train_phase`. -/
structure TFlow (σ A V : Type) extends BFlow σ A V where
  trainable : Nat → Bool
  remaining : Nat → σ → Nat
  train : Nat → σ → Option A → Option (Msg V) → Except Err (BRes A V) × σ
  plainTrain : Nat → σ → Option A → Except Err Unit × σ
  stop : Nat → σ → Option (Msg V) → Except Err (BRes A V) × σ

/-- biflow.py:226-239, 268-279: the three forms of a result; `None` as target if there is none. -/
def BRes.parts : BRes A V → Option A × Option (Msg V) × BVal V
  | .single y => (y, none, .none)
  | .pair y m => (y, m, .none)
  | .triple y m t => (y, m, t)

/-- biflow.py:181-240: the loop `while True` for one chunk: execute up to the node, train it, go on if it asks for it.
`n` bounds the rounds of the executions, the last number those of the loop itself. -/
def trainChunk (F : TFlow σ A V) (n nr : Nat) : Nat → BVal V → Option A → Option (Msg V) → σ →
    Option (Except Err Unit × σ)
  | 0, _, _, _, _ => none
  | k + 1, i, x, m, s =>
    match executeSeq F.toBFlow (some nr) n i x m s with
    | none => none
    | some o =>
      match o.res with
      | .error e => some (.error e, o.s)
      | .ok (.stop x m) =>
        if F.isBi nr then
          match F.train nr o.s x m with
          | (.error e, s') => some (.error e, s')
          | (.ok (.single none), s') => some (.ok (), s')
          | (.ok r, s') =>
            match targetToIndex F.toBFlow r.parts.2.2 nr with
            | .error e => some (.error e, s')
            | .ok i' => trainChunk F n nr k i' r.parts.1 r.parts.2.1 s'
        else
          match F.plainTrain nr o.s x with
          | (.error e, s') => some (.error e, s')
          | (.ok (), s') => some (.ok (), s')
      | .ok _ => some (.error .biflow, o.s)

/-- biflow.py:177-241: all chunks of a phase, with a reset after each. -/
def trainChunks (F : TFlow σ A V) (n nr : Nat) : List (Option A × Option (Msg V)) → σ → Option (Except Err Unit × σ)
  | [], s => some (.ok (), s)
  | (x, m) :: r, s =>
    match trainChunk F n nr n (.int 0) x m s with
    | none => none
    | some (.error e, s') => some (.error e, s')
    | some (.ok (), s') => trainChunks F n nr r (F.reset s')

/-- biflow.py:257-285: ending a phase, and the execution that the node may ask for. -/
def stopPhase (F : TFlow σ A V) (n nr : Nat) (stopMsg : Option (Msg V)) (s : σ) : Option (Except Err Unit × σ) :=
  match F.stop nr s stopMsg with
  | (.error e, s') => some (.error e, s')
  | (.ok (.single none), s') => some (.ok (), s')
  | (.ok r, s') =>
    if r.parts.2.2 = .str sExit then some (.ok (), s')
    else
      match targetToIndex F.toBFlow r.parts.2.2 nr with
      | .error e => some (.error e, s')
      | .ok i =>
        match executeSeq F.toBFlow none n i r.parts.1 r.parts.2.1 s' with
        | none => none
        | some o =>
          match o.res with
          | .error e => some (.error e, o.s)
          | .ok (.triple _ _ t) =>
            if t = .int 1 ∨ t = .int (-1) ∨ t = .str sExit then some (.ok (), o.s) else some (.error .biflow, o.s)
          | .ok _ => some (.ok (), o.s)

/-- biflow.py:170-285 `_train_node_single_phase`. -/
def singlePhase (F : TFlow σ A V) (n nr : Nat) (ks : List (Option A × Option (Msg V))) (stopMsg : Option (Msg V))
    (s : σ) : Option (Except Err Unit × σ) :=
  match trainChunks F n nr ks s with
  | none => none
  | some (.error e, s') => some (.error e, s')
  | some (.ok (), s') =>
    match ks with
    | [] => some (.error .biflow, s')
    | _ => stopPhase F n nr stopMsg s'

/-- biflow.py:160-168: the loop over the phases of a node, with at most as many rounds as the last number. -/
def phases (F : TFlow σ A V) (n nr : Nat) (ks : List (Option A × Option (Msg V))) (stopMsg : Option (Msg V)) :
    Nat → σ → Option (Except Err Unit × σ)
  | 0, _ => none
  | k + 1, s =>
    if F.remaining nr s = 0 then some (.ok (), s)
    else
      match singlePhase F n nr ks stopMsg s with
      | none => none
      | some (.error e, s') => some (.error e, s')
      | some (.ok (), s') => phases F n nr ks stopMsg k (F.reset s')

/-- biflow.py:145-168 `_train_node`. -/
def trainNode (F : TFlow σ A V) (n nr : Nat) (ks : List (Option A × Option (Msg V))) (stopMsg : Option (Msg V))
    (s : σ) : Option (Except Err Unit × σ) :=
  if F.trainable nr then phases F n nr ks stopMsg n s else some (.ok (), s)

/-- biflow.py:133-143: the loop over the nodes `i`, …, `i + k - 1`. `after` is what happens after a node has been trained:
nothing for a `BiFlow`, the checkpoint for a `BiCheckpointFlow`. -/
def trainNodes (F : TFlow σ A V) (n : Nat) (data : Nat → List (Option A × Option (Msg V)))
    (stops : Nat → Option (Msg V)) (after : Nat → σ → Except Err Unit × σ) : Nat → Nat → σ →
    Option (Except Err Unit × σ)
  | _, 0, s => some (.ok (), s)
  | i, k + 1, s =>
    match trainNode F n i (data i) (stops i) s with
    | none => none
    | some (.error e, s') => some (.error e, s')
    | some (.ok (), s') =>
      match after i s' with
      | (.error e, s'') => some (.error e, s'')
      | (.ok (), s'') => trainNodes F n data stops after (i + 1) k s''

/-- biflow.py:107-143 `BiFlow.train`, with data and messages after `_sanitize_training_iterables`. -/
def trainFlow (F : TFlow σ A V) (n : Nat) (data : Nat → List (Option A × Option (Msg V)))
    (stops : Nat → Option (Msg V)) (s : σ) : Option (Except Err Unit × σ) :=
  trainNodes F n data stops (fun _ s => (.ok (), s)) 0 F.len (F.reset s)

/-- What a checkpoint function returns: an exception, a dictionary or `None`. -/
inductive CkRes (D : Type) where
  | raises (e : Err)
  | dict (d : D)
  | none

/-- biflow.py:606-611: calling the checkpoint function of a node, if there is one. The test `if dict:` asks the type
`dict`, not the result, so it is always true, and `update(None)` is a `TypeError`. -/
def checkpoint {D : Type} (ck : Nat → Option (σ → CkRes D × σ)) (add : D → σ → σ) (i : Nat) (s : σ) :
    Except Err Unit × σ :=
  match ck i with
  | none => (.ok (), s)
  | some f =>
    match f s with
    | (.raises e, s') => (.error e, s')
    | (.dict d, s') => (.ok (), add d s')
    | (.none, s') => (.error .typeError, s')

/-- biflow.py:580-613 `BiCheckpointFlow.train`. -/
def trainCheckpoint {D : Type} (F : TFlow σ A V) (n : Nat) (data : Nat → List (Option A × Option (Msg V)))
    (stops : Nat → Option (Msg V)) (ck : Nat → Option (σ → CkRes D × σ)) (add : D → σ → σ) (s : σ) :
    Option (Except Err Unit × σ) :=
  trainNodes F n data stops (checkpoint ck add) 0 F.len (F.reset s)

end Bi
