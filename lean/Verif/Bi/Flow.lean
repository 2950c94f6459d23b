import Verif.Bi.Node
import Verif.Py.Loop

/-!
# `BiFlow` (`bimdp/biflow.py`)

`σ` is the state of all nodes together. The loop of `_execute_seq` may run forever, so it is a step function with the
semantics of `Verif.Py.Loop`; the functions that use it take a bound on its number of rounds and return `none` if the
bound was too small, which stands for no result at all.
-/

namespace Bi

open Py

variable {σ A V : Type}

/-- biflow.py:24 `EXIT_TARGET` -/
def sExit : Str := ['e', 'x', 'i', 't']

/-- A flow: the nodes by position. `exec` is `BiNode.execute`, `plain` is `Node.execute` of a node that is not a
`BiNode`; `hasId i t` says that `_request_node_id(t)` finds something in node `i`; `reset` is `bi_reset` of all nodes. -/
structure BFlow (σ A V : Type) where
  len : Nat
  isBi : Nat → Bool
  exec : Nat → σ → Option A → Option (Msg V) → Except Err (BRes A V) × σ
  plain : Nat → σ → Option A → Except Err (Option A) × σ
  hasId : Nat → BVal V → Bool
  reset : σ → σ

/-- Index of a Python list: negative numbers count from the end. -/
def pyIndex (len : Nat) (i : Int) : Option Nat :=
  if 0 ≤ i ∧ i < len then some i.toNat
  else if i < 0 ∧ 0 ≤ i + len then some (i + len).toNat
  else none

/-- biflow.py:492-495: the search for the node with an id. -/
def findId (F : BFlow σ A V) (t : BVal V) : Nat → Nat → Option Nat
  | _, 0 => none
  | i, n + 1 => if F.isBi i && F.hasId i t then some i else findId F t (i + 1) n

/-- biflow.py:470-507 `_target_to_index`. -/
def targetToIndex [DecidableEq V] (F : BFlow σ A V) (t : BVal V) (cur : Int) : Except Err (BVal V) :=
  if t = .str sExit then .ok (.str sExit)
  else
    match (if t = .none then .int 1 else t) with
    | .int k =>
      if cur + k < 0 then .error .biflow
      else if cur + k ≥ F.len then .error .biflow
      else .ok (.int (cur + k))
    | t =>
      match findId F t 0 F.len with
      | some i => .ok (.int i)
      | none => .ok t

/-- The results of `_execute_seq`: `x`, `(x, msg)`, `(x, msg, target)`, and `(x, msg, True)` for the node to stop at. -/
inductive SRes (A V : Type) where
  | single (x : Option A)
  | pair (x : Option A) (msg : Option (Msg V))
  | triple (x : Option A) (msg : Option (Msg V)) (target : BVal V)
  | stop (x : Option A) (msg : Option (Msg V))

/-- The variables of the loop, and the positions visited so far (a ghost). -/
structure Cfg (σ A V : Type) where
  i : BVal V
  x : Option A
  msg : Option (Msg V)
  s : σ
  seen : List Nat := []

/-- The outcome of the loop, the state of the nodes, and the positions visited. -/
structure Out (σ A V : Type) where
  res : Except Err (SRes A V)
  s : σ
  seen : List Nat

/-- biflow.py:528-552: executing node `j`: data, message, target (`True` of the code is `1`). -/
def runNode (F : BFlow σ A V) (j : Nat) (s : σ) (x : Option A) (msg : Option (Msg V)) :
    Except Err (Option A × Option (Msg V) × BVal V) × σ :=
  if F.isBi j then
    match F.exec j s x msg with
    | (.error e, s') => (.error e, s')
    | (.ok (.single y), s') => (.ok (y, none, .int 1), s')
    | (.ok (.pair y m), s') => (.ok (y, m, .int 1), s')
    | (.ok (.triple y m t), s') => (.ok (y, m, t), s')
  else
    match F.plain j s x with
    | (.error e, s') => (.error e, s')
    | (.ok y, s') => (.ok (y, msg, .int 1), s')

/-- biflow.py:554-565: where to go after a node. -/
def afterNode [DecidableEq V] (F : BFlow σ A V) (i : Int) (y : Option A) (m : Option (Msg V)) (t : BVal V) (s : σ)
    (seen : List Nat) : Cfg σ A V ⊕ Out σ A V :=
  match t with
  | .int k =>
    if i + k = F.len then
      .inr { res := .ok (if truthyMsg m then .pair y m else .single y), s := s, seen := seen }
    else if i + k = -1 then .inr { res := .ok (.triple y m (.int (-1))), s := s, seen := seen }
    else .inl { i := .int (i + k), x := y, msg := m, s := s, seen := seen }
  | t =>
    match targetToIndex F t i with
    | .error e => .inr { res := .error e, s := s, seen := seen }
    | .ok (.int j) => .inl { i := .int j, x := y, msg := m, s := s, seen := seen }
    | .ok _ => .inr { res := .ok (.triple y m t), s := s, seen := seen }

/-- biflow.py:527-568: one round of `_execute_seq`. `stop` is `stop_at_node`. -/
def seqStep [DecidableEq V] (F : BFlow σ A V) (stop : Option Nat) (c : Cfg σ A V) : Cfg σ A V ⊕ Out σ A V :=
  match c.i with
  | .int i =>
    if stop.map Int.ofNat = some i then .inr { res := .ok (.stop c.x c.msg), s := c.s, seen := c.seen }
    else
      match pyIndex F.len i with
      | none => .inr { res := .error .indexError, s := c.s, seen := c.seen }
      | some j =>
        match runNode F j c.s c.x c.msg with
        | (.error e, s') => .inr { res := .error e, s := s', seen := c.seen ++ [j] }
        | (.ok (y, m, t), s') => afterNode F i y m t s' (c.seen ++ [j])
  | _ => .inr { res := .error .typeError, s := c.s, seen := c.seen }

/-- biflow.py:511-568 `_execute_seq` with at most `n` rounds. -/
def executeSeq [DecidableEq V] (F : BFlow σ A V) (stop : Option Nat) (n : Nat) (i : BVal V) (x : Option A)
    (msg : Option (Msg V)) (s : σ) : Option (Out σ A V) :=
  runFuel (seqStep F stop) n { i := i, x := x, msg := msg, s := s }

/-! ### Combining the results of the chunks -/

/-- Operations on message values: `type(v) is ndarray`, `v += w` (`none` if it raises) and `concatenate`. -/
structure ValOps (V : Type) where
  isArr : BVal V → Bool
  add : BVal V → BVal V → Option (BVal V)
  concat : List (BVal V) → BVal V

/-- biflow.py:48-51 `MessageResultContainer` -/
structure Container (V : Type) where
  other : Msg V := []
  arrays : Dict Str (List (BVal V)) := []

/-- biflow.py:61-77: one entry of `add_message`. The branch on the type comes first. -/
def addEntry (O : ValOps V) (c : Container V) (e : Str × BVal V) : Except Err (Container V) :=
  if O.isArr e.2 then
    .ok { c with arrays := Dict.set c.arrays e.1 ((Dict.get c.arrays e.1).getD [] ++ [e.2]) }
  else
    match Dict.get c.other e.1 with
    | none => .ok { c with other := Dict.set c.other e.1 e.2 }
    | some v =>
      match O.add v e.2 with
      | some w => .ok { c with other := Dict.set c.other e.1 w }
      | none => .error .biflow

/-- biflow.py:53-77 `add_message`. -/
def addMessage (O : ValOps V) (c : Container V) : Msg V → Except Err (Container V)
  | [] => .ok c
  | e :: r =>
    match addEntry O c e with
    | .ok c' => addMessage O c' r
    | .error err => .error err

/-- biflow.py:79-89: the loop of `get_message`. -/
def getLoop (O : ValOps V) : Dict Str (List (BVal V)) → Msg V → Except Err (Msg V)
  | [], m => .ok m
  | (k, vs) :: r, m =>
    match Dict.get m k with
    | some _ => .error .biflow
    | none => getLoop O r (Dict.set m k (O.concat vs))

/-- biflow.py:79-89 `get_message`: the arrays are moved into the other results. -/
def getMessage (O : ValOps V) (c : Container V) : Except Err (Msg V) := getLoop O c.arrays c.other

/-- `y_results`: `None`, `False` or the list of chunk results. -/
inductive YRes (A : Type) where
  | none
  | false
  | list (ys : List A)
  deriving DecidableEq

/-- biflow.py:337-351: storing one result. -/
def addY (acc : YRes A) (y : Option A) : Except Err (YRes A) :=
  match y, acc with
  | some y, .none => .ok (.list [y])
  | some _, .false => .error .biflow
  | some y, .list ys => .ok (.list (ys ++ [y]))
  | none, .none => .ok .false
  | none, _ => .error .biflow

/-- biflow.py:315-332: reading the result of one chunk. `1` and `True` are equal in Python, so a result for the node to
stop at would be accepted; `execute` gives no such node. -/
def readResult [DecidableEq V] : SRes A V → Except Err (Option A × Option (Msg V))
  | .single x => .ok (x, none)
  | .pair x m => .ok (x, m)
  | .triple x m t =>
    if t = .int 1 ∨ t = .int (-1) ∨ t = .str sExit then .ok (x, m) else .error .biflow
  | .stop x m => .ok (x, m)

/-- One chunk: data, message and target. -/
structure Chunk (A V : Type) where
  x : Option A
  msg : Option (Msg V) := none
  target : BVal V := .none

/-- The variables of the loop over the chunks; `starts` and `traces` are ghosts: the states of the nodes at the start of
every chunk, and the positions visited for every chunk. -/
structure ExSt (σ A V : Type) where
  y : YRes A := .none
  c : Container V := {}
  s : σ
  starts : List σ := []
  traces : List (List Nat) := []

/-- biflow.py:309-351: one chunk. -/
def execChunk [DecidableEq V] (F : BFlow σ A V) (O : ValOps V) (n : Nat) (st : ExSt σ A V) (k : Chunk A V) :
    Option (Except Err (ExSt σ A V) × σ) :=
  match (if k.target.truthy then targetToIndex F k.target 0 else .ok (.int 0)) with
  | .error e => some (.error e, st.s)
  | .ok i =>
    match executeSeq F none n i k.x k.msg st.s with
    | none => none
    | some o =>
      match o.res with
      | .error e => some (.error e, o.s)
      | .ok r =>
        match readResult r with
        | .error e => some (.error e, o.s)
        | .ok (y, m) =>
          let s' := F.reset o.s
          match addMessage O st.c (m.getD []) with
          | .error e => some (.error e, s')
          | .ok c =>
            match addY st.y y with
            | .error e => some (.error e, s')
            | .ok ys =>
              some (.ok { y := ys, c := c, s := s', starts := st.starts ++ [st.s], traces := st.traces ++ [o.seen] }, s')

/-- biflow.py:309-351: the loop over the chunks. -/
def execLoop [DecidableEq V] (F : BFlow σ A V) (O : ValOps V) (n : Nat) (st : ExSt σ A V) :
    List (Chunk A V) → Option (Except Err (ExSt σ A V) × σ)
  | [] => some (.ok st, st.s)
  | k :: r =>
    match execChunk F O n st k with
    | none => none
    | some (.error e, s') => some (.error e, s')
    | some (.ok st', _) => execLoop F O n st' r

/-- What `execute` returns: `y_results` (for a list, its concatenation) and the message. -/
structure ExRes (A V : Type) where
  y : YRes A
  msg : Msg V

/-- biflow.py:287-361 `BiFlow.execute`, with the chunks after `_sanitize_iterables`. The concatenation of the data is
left to the reader of the result (`YRes.list`); `concatenate` of chunks that do not fit is not modelled. -/
def execute' [DecidableEq V] (F : BFlow σ A V) (O : ValOps V) (n : Nat) (ks : List (Chunk A V)) (s : σ) :
    Option (Except Err (ExRes A V) × σ) :=
  match execLoop F O n { s := F.reset s } ks with
  | none => none
  | some (.error e, s') => some (.error e, s')
  | some (.ok st, s') =>
    match ks with
    | [] => some (.error .biflow, s')
    | _ =>
      match getMessage O st.c with
      | .error e => some (.error e, s')
      | .ok m => some (.ok { y := st.y, msg := m }, s')

end Bi
