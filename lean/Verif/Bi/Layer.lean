import Verif.Bi.Node
import Verif.Hinet.Switchboard

/-!
# `CloneBiLayer` and `BiSwitchboard` (`bimdp/hinet/bilayer.py`, `bimdp/hinet/biswitchboard.py`)

An array with at least two axes is the list of its slices along the second axis, here called columns, and its number of
rows (the other axes are not modelled); other arrays are opaque objects. Object identity of arrays is a list of numbers:
the pieces of an array get its number with the index of the piece in front. The identity of arrays made by joining is not
tracked. The checks of `mdp.Node` (which the layer switches off for the input, bilayer.py:100-105) are not modelled, nor
are the type casts.
-/

namespace Bi.Layer

open Py

variable {σ C V : Type}

/-- An array with at least two axes. -/
structure Arr (C : Type) where
  id : List Nat
  rows : Nat
  cols : List C

/-- A message value other than `None`, numbers and strings. -/
inductive LVal (C V : Type) where
  | arr (a : Arr C)
  | obj (v : V)

/-- Messages with arrays. -/
abbrev LMsg (C V : Type) := Msg (LVal C V)

/-- Results of nodes on arrays. -/
abbrev LRes (C V : Type) := BRes (Arr C) (LVal C V)

/-- What a node does in a call with data and message (`execute` or `train` of the inner node). -/
abbrev NodeFn (σ C V : Type) := σ → Option (Arr C) → Option (LMsg C V) → Except Err (LRes C V) × σ

/-- The nodes of the layer: `n` times the same node (bilayer.py:87-88 and `CloneLayer.__init__`), or copies. `node is
None` says that copies are used (58-60). -/
inductive Nodes (σ : Type) where
  | shared (s : σ) (n : Nat)
  | copies (ss : List σ)

/-- `len(self.nodes)` -/
def Nodes.size : Nodes σ → Nat
  | .shared _ n => n
  | .copies ss => ss.length

/-- bilayer.py:58-60 `_get_use_copies` -/
def Nodes.useCopies : Nodes σ → Bool
  | .shared _ _ => false
  | .copies _ => true

/-- The layer: its nodes and `is_training()`. -/
structure LSt (σ : Type) where
  nodes : Nodes σ
  training : Bool := false

/-- The message key of the flag. -/
def kCopies : Str := ['u', 's', 'e', '_', 'c', 'o', 'p', 'i', 'e', 's']

/-- bilayer.py:62-88 `_set_use_copies`. `node.copy()` has the state of the node. There is no method `is_bi_training` in
`BiNode`, `CloneLayer` or their bases (only `BiSwitchboard` has one), so line 83 raises `AttributeError`. -/
def setUseCopies (flag : Bool) : M Err (LSt σ) Unit := fun l =>
  match l.nodes, flag with
  | .shared s n, true => (.ok (), { l with nodes := .copies (List.replicate n s) })
  | .copies _, false => if l.training then (.error .layer, l) else (.error .attributeError, l)
  | _, _ => (.ok (), l)

/-- bilayer.py:291-299 `_extract_message_copy_flag`; the message afterwards. -/
def extractFlag (nodeId : Option Str) (m : LMsg C V) : M Err (LSt σ) (LMsg C V) := do
  let ids ← M.lift (getMsgIdKeys nodeId m)
  let r := extractKey kCopies m ids
  if r.1.isSome then do
    setUseCopies r.1.truthy
    pure r.2.1
  else pure r.2.1

/-- `hsplit(value, n)[i]` -/
def piece (n i : Nat) (a : Arr C) : Arr C :=
  { id := i :: a.id, rows := a.rows, cols := (a.cols.drop (i * (a.cols.length / n))).take (a.cols.length / n) }

/-- bilayer.py:308-318: the value of an entry for node `i`. -/
def splitValue (n i : Nat) (v : BVal (LVal C V)) : BVal (LVal C V) :=
  match v with
  | .other (.arr a) => if a.cols.length % n = 0 then .other (.arr (piece n i a)) else .other (.arr a)
  | v => v

/-- bilayer.py:305-319: the message for node `i` (the keys of the message are distinct). -/
def nodeMsg (n i : Nat) (m : LMsg C V) : LMsg C V := m.map fun e => (e.1, splitValue n i e.2)

/-- bilayer.py:301-319 `_get_split_messages`. -/
def splitMsgs (n : Nat) (m : Option (LMsg C V)) : List (Option (LMsg C V)) :=
  match m with
  | none => List.replicate n none
  | some m => if m.isEmpty then List.replicate n none else (List.range n).map fun i => some (nodeMsg n i m)

/-- `hstack` of arrays: `ValueError` for no arrays or different numbers of rows. -/
def hstack : List (Arr C) → Except Err (Arr C)
  | [] => .error .valueError
  | a :: r =>
    if r.all fun b => b.rows == a.rows then .ok { id := [], rows := a.rows, cols := ((a :: r).map Arr.cols).flatten }
    else .error .valueError

/-- The arrays under a key in all messages, for `hstack` (bilayer.py:337): `TypeError` for a message `None`, `KeyError` for
a missing key; `hstack` refuses other values among arrays with two axes. -/
def arraysAt (key : Str) : List (Option (LMsg C V)) → Except Err (List (Arr C))
  | [] => .ok []
  | none :: _ => .error .typeError
  | some m :: r =>
    match Dict.get m key with
    | none => .error .keyError
    | some v =>
      match arraysAt key r with
      | .error e => .error e
      | .ok l =>
        match v with
        | .other (.arr a) => .ok (a :: l)
        | _ => .error .valueError

/-- bilayer.py:332-340: one entry of the last message; `first` is `msgs[0]`. -/
def combineEntry (msgs : List (Option (LMsg C V))) (first : Option (LMsg C V)) (key : Str) (one : BVal (LVal C V)) :
    Except Err (BVal (LVal C V)) :=
  match first with
  | none => .error .typeError
  | some f =>
    match Dict.get f key with
    | none => .error .keyError
    | some other =>
      match one with
      | .other (.arr a) =>
        if sameArr a other then .ok one
        else
          match arraysAt key msgs with
          | .error e => .error e
          | .ok l =>
            match hstack l with
            | .error e => .error e
            | .ok b => .ok (.other (.arr b))
      | _ => .ok one
where
  /-- `one_value is other_value` -/
  sameArr (a : Arr C) : BVal (LVal C V) → Bool
    | .other (.arr b) => a.id == b.id
    | _ => false

/-- bilayer.py:332-341: the loop over the entries of the last message. -/
def combineLoop (msgs : List (Option (LMsg C V))) (first : Option (LMsg C V)) : LMsg C V → Except Err (LMsg C V)
  | [] => .ok []
  | (k, v) :: r =>
    match combineEntry msgs first k v with
    | .error e => .error e
    | .ok w =>
      match combineLoop msgs first r with
      | .error e => .error e
      | .ok m => .ok ((k, w) :: m)

/-- bilayer.py:321-341 `_get_combined_message`. -/
def combineMsgs : List (Option (LMsg C V)) → Except Err (Option (LMsg C V))
  | [] => .ok none
  | first :: rest =>
    match (first :: rest).getLast (by simp) with
    | none => .ok none
    | some last =>
      if rest = [] then .ok first
      else
        match combineLoop (first :: rest) first last with
        | .error e => .error e
        | .ok m => .ok (some m)

/-- bilayer.py:115-124, 165-174: the data for node `i`. -/
def block (n i : Nat) (x : Option (Arr C)) : Option (Arr C) :=
  match x with
  | none => none
  | some a =>
    if a.cols.length / n = 0 then none
    else some { id := i :: a.id, rows := a.rows,
                cols := (a.cols.drop (a.cols.length / n * i)).take (a.cols.length / n) }

/-- bilayer.py:126-129: an empty message is not passed on. -/
def orNone (m : Option (LMsg C V)) : Option (LMsg C V) := if truthyMsg m then m else none

/-- bilayer.py:120-137 for one node instance. -/
def runShared (f : NodeFn σ C V) : σ → List (Option (Arr C) × Option (LMsg C V)) → Except Err (List (LRes C V)) × σ
  | s, [] => (.ok [], s)
  | s, (x, m) :: r =>
    match f s x (orNone m) with
    | (.error e, s') => (.error e, s')
    | (.ok y, s') =>
      match runShared f s' r with
      | (.error e, s'') => (.error e, s'')
      | (.ok ys, s'') => (.ok (y :: ys), s'')

/-- bilayer.py:120-137 for copies. -/
def runCopies (f : NodeFn σ C V) : List σ → List (Option (Arr C) × Option (LMsg C V)) →
    Except Err (List (LRes C V)) × List σ
  | s :: ss, (x, m) :: r =>
    match f s x (orNone m) with
    | (.error e, s') => (.error e, s' :: ss)
    | (.ok y, s') =>
      match runCopies f ss r with
      | (.error e, ss') => (.error e, s' :: ss')
      | (.ok ys, ss') => (.ok (y :: ys), s' :: ss')
  | ss, _ => (.ok [], ss)

/-- bilayer.py:120-137: the loop over the nodes. -/
def runNodes (f : NodeFn σ C V) (ins : List (Option (Arr C) × Option (LMsg C V))) :
    M Err (LSt σ) (List (LRes C V)) := fun l =>
  match l.nodes with
  | .shared s n => ((runShared f s ins).1, { l with nodes := .shared (runShared f s ins).2 n })
  | .copies ss => ((runCopies f ss ins).1, { l with nodes := .copies (runCopies f ss ins).2 })

/-- The data of a result. -/
def dataOf : LRes C V → Option (Arr C)
  | .single y => y
  | .pair y _ => y
  | .triple y _ _ => y

/-- bilayer.py:131-135: the messages of the results that are tuples. -/
def msgsOf : List (LRes C V) → List (Option (LMsg C V))
  | [] => []
  | .single _ :: r => msgsOf r
  | .pair _ m :: r => m :: msgsOf r
  | .triple _ m _ :: r => m :: msgsOf r

/-- bilayer.py:113, 136-137: the target of the last result that has one. -/
def targetOf : List (LRes C V) → BVal (LVal C V) → BVal (LVal C V)
  | [], t => t
  | .triple _ _ t' :: r, _ => targetOf r t'
  | _ :: r, t => targetOf r t

/-- All are arrays, otherwise `hstack` refuses (a `None` among arrays with two axes). -/
def allArrs : List (Option (Arr C)) → Except Err (List (Arr C))
  | [] => .ok []
  | none :: _ => .error .valueError
  | some a :: r =>
    match allArrs r with
    | .error e => .error e
    | .ok l => .ok (a :: l)

/-- bilayer.py:140-143: joining the data. -/
def joinData (ys : List (Option (Arr C))) : Except Err (Option (Arr C)) :=
  match ys.getLast? with
  | none => .ok none
  | some none => .ok none
  | some (some _) =>
    match allArrs ys with
    | .error e => .error e
    | .ok l =>
      match hstack l with
      | .error e => .error e
      | .ok a => .ok (some a)

/-- bilayer.py:109-110, 145-146: the flag of a message that is not `None`. -/
def flagOf (nodeId : Option Str) (m : Option (LMsg C V)) : M Err (LSt σ) (Option (LMsg C V)) :=
  match m with
  | none => pure none
  | some m => do
    let m ← extractFlag nodeId m
    pure (some m)

/-- bilayer.py:147-153: the result. -/
def resultOf (y : Option (Arr C)) (m : Option (LMsg C V)) (t : BVal (LVal C V)) : LRes C V :=
  if t.isSome then .triple y m t
  else if truthyMsg m then .pair y m
  else .single y

/-- bilayer.py:138-153: combining the results of the nodes. -/
def collect (nodeId : Option Str) (rs : List (LRes C V)) : M Err (LSt σ) (LRes C V) := do
  let m ← M.lift (combineMsgs (msgsOf rs))
  let y ← M.lift (joinData (rs.map dataOf))
  let m ← flagOf nodeId m
  pure (resultOf y m (targetOf rs .none))

/-- bilayer.py:107-153 `_execute` and 155-203 `_train`, which differ only in the method `f` of the inner nodes. -/
def run (nodeId : Option Str) (f : NodeFn σ C V) (x : Option (Arr C)) (m : Option (LMsg C V)) :
    M Err (LSt σ) (LRes C V) := do
  let m ← flagOf nodeId m
  let l ← M.get
  let n := l.nodes.size
  let rs ← runNodes f ((List.range n).map (block n · x) |>.zip (splitMsgs n m))
  collect nodeId rs

/-- bilayer.py:205-257 `_stop_training`; `g` is `stop_training` of the inner nodes. -/
def stop (nodeId : Option Str) (g : σ → Option (LMsg C V) → Except Err (LRes C V) × σ) (m : Option (LMsg C V)) :
    M Err (LSt σ) (LRes C V) := do
  let m ← flagOf nodeId m
  let l ← M.get
  match l.nodes with
  | .copies ss => do
    let rs ← runNodes (fun s _ m => g s m) ((List.replicate ss.length none).zip (splitMsgs ss.length m))
    collect nodeId rs
  | .shared s n => do
    M.modify fun l => { l with nodes := .shared (g s m).2 n }
    let r ← M.lift (g s m).1
    match r with
    | .single y => pure (.single y)
    | .pair y m => do
      let m ← flagOf nodeId m
      pure (resultOf y m .none)
    | .triple y m t => do
      let m ← flagOf nodeId m
      pure (resultOf y m t)

/-- `BiNode.execute` (binode.py:129-163) for a layer and a message that is not `None`: `_get_method` gives `_execute`
and the target unchanged (bilayer.py:90-96); the arguments of `_execute` are `self`, `x` and `msg`, so the message goes to
the layer and none of it is left for `_combine_result`. -/
def nodeExecute (nodeId : Option Str) (f : NodeFn σ C V) (x : Option (Arr C)) (m : LMsg C V) :
    M Err (LSt σ) (LRes C V) := do
  let ids ← M.lift (getMsgIdKeys nodeId m)
  let t := extractKey kTarget m ids
  let n := extractKey kMethod t.2.1 t.2.2
  let e := extractArgs [kSelf, kX, kMsg] n.2.1 n.2.2
  if (Dict.get e.2 kSelf).isSome || (Dict.get e.2 kX).isSome then M.raise .typeError
  else do
    let r ← run nodeId f x (some e.1)
    pure (combine r none t.1)

/-! ### BiSwitchboard -/

/-- Exceptions of a switchboard as exceptions of a node; the codes tell them apart from those of the node. -/
def routeErr : Mdp.Switchboard.Err → Err
  | .index => .indexError
  | _ => .layer

/-- `Switchboard._execute` or `_inverse` on the columns of an array. -/
def route (f : List C → Except Mdp.Switchboard.Err (List C)) (a : Arr C) : Except Err (Arr C) :=
  match f a.cols with
  | .error e => .error (routeErr e)
  | .ok cs => .ok { id := [], rows := a.rows, cols := cs }

/-- biswitchboard.py:68-74, 81-87: the loop over the entries; `dim` is the dimension an array must have. -/
def routeEntries (f : List C → Except Mdp.Switchboard.Err (List C)) (dim : Nat) : LMsg C V → Except Err (LMsg C V)
  | [] => .ok []
  | (k, .other (.arr a)) :: r =>
    if a.cols.length = dim then
      match route f a with
      | .error e => .error e
      | .ok b =>
        match routeEntries f dim r with
        | .error e => .error e
        | .ok m => .ok ((k, .other (.arr b)) :: m)
    else
      match routeEntries f dim r with
      | .error e => .error e
      | .ok m => .ok ((k, .other (.arr a)) :: m)
  | (k, v) :: r =>
    match routeEntries f dim r with
    | .error e => .error e
    | .ok m => .ok ((k, v) :: m)

/-- biswitchboard.py:63-66, 76-79: an empty message gives `None`. -/
def routeMsg (f : List C → Except Mdp.Switchboard.Err (List C)) (dim : Nat) (m : Option (LMsg C V)) :
    Except Err (Option (LMsg C V)) :=
  match m with
  | none => .ok none
  | some m =>
    if m.isEmpty then .ok none
    else
      match routeEntries f dim m with
      | .error e => .error e
      | .ok m => .ok (some m)

/-- biswitchboard.py:36-39, 48-51: data may be `None`. -/
def routeData (f : List C → Except Mdp.Switchboard.Err (List C)) (x : Option (Arr C)) : Except Err (Option (Arr C)) :=
  match x with
  | none => .ok none
  | some a =>
    match route f a with
    | .error e => .error e
    | .ok b => .ok (some b)

/-- biswitchboard.py:34-56: data first, then the message. -/
def routeBoth (f : List C → Except Mdp.Switchboard.Err (List C)) (dim : Nat) (x : Option (Arr C))
    (m : Option (LMsg C V)) : Except Err (LRes C V) :=
  match routeData f x with
  | .error e => .error e
  | .ok y =>
    match routeMsg f dim m with
    | .error e => .error e
    | .ok m => .ok (if truthyMsg m then .pair y m else .single y)

/-- biswitchboard.py:34-44 `_execute`. -/
def switchExecute (s : Mdp.Switchboard.SB) (x : Option (Arr C)) (m : Option (LMsg C V)) : Except Err (LRes C V) :=
  routeBoth s.execute s.inputDim x m

/-- biswitchboard.py:46-56 `_inverse`. -/
def switchInverse (s : Mdp.Switchboard.SB) (x : Option (Arr C)) (m : Option (LMsg C V)) : Except Err (LRes C V) :=
  routeBoth s.inverse s.connections.length x m

end Bi.Layer
