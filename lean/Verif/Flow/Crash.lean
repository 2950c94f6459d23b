import Verif.Flow.Model

/-!
# Model of crash recovery (linear_flows.py 24-87, 125-136, 138-420) and of `CheckpointSaveFunction` (653-687)

The functions of `Flow` once more, on the flow as a whole and with the list of dumps written so far. A dump is the flow at the
moment it is written. Simplifications: writing a dump never fails; the name of the file and the text of the exceptions are
left out; the nodes of a flow are distinct objects.
-/

namespace Mdp.Flow

open Py Mdp.Node

variable {σ α β : Type}

/-- A flow and the dumps written so far. -/
structure World (σ α β : Type) where
  flow : List (Nd σ α β)
  dumps : List (List (Nd σ α β)) := []

/-- The state of node `i` has become `s`. -/
def World.put (w : World σ α β) (i : Nat) (s : St σ α β) : World σ α β :=
  { w with flow := w.flow.modify i fun nd => ⟨nd.K, s⟩ }

/-- `_propagate_exception` (125-136) and `FlowExceptionCR.__init__` (67-87): looking up the node is an IndexError if there is
none; the dump is written while the exception is made. -/
def propagate {r : Type} (rec : Bool) (i : Nat) (e : Err) (w : World σ α β) : Except Err r × World σ α β :=
  if i < w.flow.length then
    (.error (.flowCR i e), if rec then { w with dumps := w.dumps ++ [w.flow] } else w)
  else (.error .index, w)

/-- `_execute_seq` (352-362) from node `i` on, `k` nodes. -/
def execSeqW (rec : Bool) : Nat → Nat → Arr α → World σ α β → Except Err (Arr α) × World σ α β
  | 0, _, x, w => (.ok x, w)
  | k + 1, i, x, w =>
    match w.flow[i]? with
    | none => propagate rec i .index w
    | some nd =>
      match execute nd.K x nd.s with
      | (.error e, s) => propagate rec i e (w.put i s)
      | (.ok y, s) => execSeqW rec k (i + 1) y (w.put i s)

/-- `_inverse_seq` (386-394) for nodes `k-1, ..., 0`. -/
def invSeqW (rec : Bool) : Nat → Arr α → World σ α β → Except Err (Arr α) × World σ α β
  | 0, y, w => (.ok y, w)
  | i + 1, y, w =>
    match w.flow[i]? with
    | none => propagate rec i .index w
    | some nd =>
      match inverse nd.K y nd.s with
      | (.error e, s) => propagate rec i e (w.put i s)
      | (.ok x, s) => invSeqW rec i x (w.put i s)

/-- One pass over the data (171-196). -/
def trainChunksW (rec : Bool) (i : Nat) : List (Arr α × List β) → World σ α β → Except Err Unit × World σ α β
  | [], w => (.ok (), w)
  | (x, args) :: r, w =>
    match w.flow[i]? with
    | none => (.error .index, w)
    | some nd =>
      if nd.K.reqArgs ≠ 0 ∧ nd.K.reqArgs ≠ args.length then (.error .flow, w)
      else
        match execSeqW rec i 0 x w with
        | (.error e, w) => (.error e, w)
        | (.ok v, w) =>
          match train nd.K v args nd.s with
          | (.error e, s) => (.error e, w.put i s)
          | (.ok (), s) => trainChunksW rec i r (w.put i s)

/-- The `while True` loop (168-215); `n` bounds the number of rounds, every one of which closes a phase. -/
def trainRoundsW (rec : Bool) (i : Nat) (it : Chunks α β) : Nat → Nat → World σ α β → Except Err Unit × World σ α β
  | 0, _, w => (.error .index, w)
  | n + 1, k, w =>
    match trainChunksW rec i (it k) w with
    | (.error e, w) => (.error e, w)
    | (.ok (), w) =>
      if (it k).isEmpty then (.error .flow, w)
      else
        match w.flow[i]? with
        | none => (.error .index, w)
        | some nd =>
          if remaining nd.K nd.s > 1 then
            match stopTraining nd.K nd.s with
            | (.error e, s) => (.error e, w.put i s)
            | (.ok (), s) => trainRoundsW rec i it n (k + 1) (w.put i s)
          else (.ok (), w)

/-- The exception handlers of `_train_node` (216-232). -/
def handleW (rec : Bool) (i : Nat) : Except Err Unit × World σ α β → Except Err Unit × World σ α β
  | (.ok (), w) => (.ok (), w)
  | (.error .finished, w) => (.ok (), w)
  | (.error (.flowCR _ _), w) => (.error .flow, w)
  | (.error e, w) => propagate rec i e w

/-- `_train_node` (138-232). -/
def trainNodeW (rec : Bool) (i : Nat) (d : Elem α β) (w : World σ α β) : Except Err Unit × World σ α β :=
  match w.flow[i]? with
  | none => (.error .index, w)
  | some nd =>
    match d with
    | .it c =>
      if nd.K.trainable = false then (.ok (), w)
      else handleW rec i (trainRoundsW rec i c (((nd.K.nPhases : Int) - nd.s.phase).toNat + 1) 0 w)
    | .none =>
      if nd.s.training = true then (.error .flow, w)
      else if nd.K.trainable = false then (.ok (), w)
      else propagate rec i .type w
    | .notIterable => propagate rec i .type w

/-- The loop of `train` (341-348) from node `i` on. -/
def trainFromW (rec : Bool) : Nat → Nat → List (Elem α β) → World σ α β → Except Err Unit × World σ α β
  | 0, _, _, w => (.ok (), w)
  | _ + 1, _, [], w => (.error .index, w)
  | n + 1, i, d :: ds, w =>
    match trainNodeW rec i d w with
    | (.error e, w) => (.error e, w)
    | (.ok (), w) => trainFromW rec n (i + 1) ds w

/-- `_close_last_node` (287-295). -/
def closeLastW (rec : Bool) (w : World σ α β) : Except Err Unit × World σ α β :=
  match w.flow.getLast? with
  | none => (.error .index, w)
  | some nd =>
    match stopTraining nd.K nd.s with
    | (.ok (), s) => (.ok (), w.put (w.flow.length - 1) s)
    | (.error .finished, s) => (.ok (), w.put (w.flow.length - 1) s)
    | (.error e, s) => propagate rec (w.flow.length - 1) e (w.put (w.flow.length - 1) s)

/-- `Flow.train` (315-350). -/
def Flow.trainW (rec : Bool) (d : TrainArg α β) (w : World σ α β) : Except Err Unit × World σ α β :=
  match checkIterables w.flow.length d with
  | .error e => (.error e, w)
  | .ok l =>
    match trainFromW rec w.flow.length 0 l w with
    | (.error e, w) => (.error e, w)
    | (.ok (), w) => closeLastW rec w

/-- The loop over an iterable (377-380, 413-416). -/
def mapChunksW (f : Arr α → World σ α β → Except Err (Arr α) × World σ α β) :
    List (Arr α) → World σ α β → Except Err (List (Arr α)) × World σ α β
  | [], w => (.ok [], w)
  | x :: xs, w =>
    match f x w with
    | (.error e, w) => (.error e, w)
    | (.ok y, w) =>
      match mapChunksW f xs w with
      | (.error e, w) => (.error e, w)
      | (.ok ys, w) => (.ok (y :: ys), w)

/-- Arrays and iterables (372-384, 408-420). -/
def overInputW (promote : DType → DType → DType) (f : Arr α → World σ α β → Except Err (Arr α) × World σ α β)
    (w : World σ α β) : Input α → Except Err (Arr α) × World σ α β
  | .arr x => f x w
  | .chunks xs =>
    match mapChunksW f xs w with
    | (.error e, w) => (.error e, w)
    | (.ok ys, w) => if xs.isEmpty then (.error .flow, w) else (concat promote ys, w)

/-- `Flow.execute` (364-384). -/
def Flow.executeW (promote : DType → DType → DType) (rec : Bool) (x : Input α) (nodenr : Option Int) (w : World σ α β) :
    Except Err (Arr α) × World σ α β :=
  overInputW promote (fun x w => execSeqW rec (execCount w.flow.length nodenr) 0 x w) w x

/-- `Flow.inverse` (396-420). -/
def Flow.inverseW (promote : DType → DType → DType) (rec : Bool) (y : Input α) (w : World σ α β) :
    Except Err (Arr α) × World σ α β :=
  overInputW promote (fun y w => invSeqW rec w.flow.length y w) w y

/-- `CheckpointSaveFunction.__call__` (681-687): the file is opened before the phase is closed, so that a failure leaves an
empty file. The result, the node and what is in the file afterwards. -/
def saveNode (stop : Bool) (nd : Nd σ α β) : Except Err Unit × Nd σ α β × Option (Nd σ α β) :=
  if stop then
    match stopTraining nd.K nd.s with
    | (.error e, s) => (.error e, ⟨nd.K, s⟩, none)
    | (.ok (), s) => (.ok (), ⟨nd.K, s⟩, some ⟨nd.K, s⟩)
  else (.ok (), nd, some nd)

/-- The save function as a checkpoint of `CheckpointFlow`. -/
def saveCheckpoint (stop : Bool) : Checkpoint σ α β := fun nd => ((saveNode stop nd).1, (saveNode stop nd).2.1)

end Mdp.Flow
