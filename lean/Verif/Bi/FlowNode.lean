import Verif.Bi.Train

/-!
# `BiFlowNode` (`bimdp/hinet/biflownode.py`)

A flow as a node. The checks of `mdp.Node` before an execution, which also fix dimensions (`FlowNode._set_output_dim`),
are a parameter, as in `Verif.Bi.Node`.
-/

namespace Bi.FlowNode

open Py

variable {σ A V : Type} [DecidableEq V]

/-- A flow node: its flow, its id, `_pre_execution_checks` and `_refcast`. -/
structure FNode (σ A V : Type) extends TFlow σ A V where
  nodeId : Option Str := none
  preExec : σ → A → Except Err Unit × σ
  refcast : σ → A → A

/-- The state: that of the inner nodes, and `_last_id_request` (biflownode.py:48). -/
structure FSt (σ V : Type) where
  inner : σ
  last : BVal V := .none

/-- biflownode.py:50-62 `_get_target`: only a request that is true in the sense of Python is used and reset. -/
def getTarget (st : FSt σ V) : BVal V × FSt σ V :=
  if st.last.truthy then (st.last, { st with last := .none }) else (.int 0, st)

/-- biflownode.py:64-78 `_get_method`: the method is always the default; this is the target and the state. -/
def getMethod (F : FNode σ A V) (name target : BVal V) (st : FSt σ V) : BVal V × FSt σ V :=
  if name = .str sInverse then
    if st.last = .none then
      let target := if target = .int (-1) then .none else target
      if target = .none then (target, { st with last := .int ((F.len : Int) - 1) }) else (target, st)
    else (target, st)
  else (target, st)

/-- The result of `_execute_seq` as the result of a node. Without a node to stop at there is no result `(x, msg, True)`;
`True` is `1`. -/
def toRes : SRes A V → BRes A V
  | .single x => .single x
  | .pair x m => .pair x m
  | .triple x m t => .triple x m t
  | .stop x m => .triple x m (.int 1)

/-- biflownode.py:80-84 `_execute`. -/
def exec (F : FNode σ A V) (n : Nat) (x : Option A) (m : Option (Msg V)) (st : FSt σ V) :
    Option (Except Err (BRes A V) × FSt σ V) :=
  match targetToIndex F.toBFlow (getTarget st).1 0 with
  | .error e => some (.error e, (getTarget st).2)
  | .ok i =>
    match executeSeq F.toBFlow none n i x m st.inner with
    | none => none
    | some o =>
      match o.res with
      | .error e => some (.error e, { (getTarget st).2 with inner := o.s })
      | .ok r => some (.ok (toRes r), { (getTarget st).2 with inner := o.s })

/-- binode.py:154-157: checks and cast, if there is data and the message names no other method. -/
def checks (F : FNode σ A V) (name : BVal V) (x : Option A) (st : FSt σ V) : Except Err (Option A) × FSt σ V :=
  match x with
  | none => (.ok none, st)
  | some a =>
    if name.truthy = false ∨ name = .str sExecute then
      match F.preExec st.inner a with
      | (.error e, s') => (.error e, { st with inner := s' })
      | (.ok (), s') => (.ok (some (F.refcast s' a)), { st with inner := s' })
    else (.ok (some a), st)

/-- binode.py:143-163 `BiNode.execute` for a flow node. The arguments of `_execute` are `self`, `x` and `msg`, so the
message goes to the flow and none of it is left for `_combine_result`. -/
def execute (F : FNode σ A V) (n : Nat) (x : Option A) (m : Option (Msg V)) (st : FSt σ V) :
    Option (Except Err (BRes A V) × FSt σ V) :=
  match m with
  | none =>
    match x with
    | none => some (.error .binode, st)
    | some a =>
      match checks F .none (some a) st with
      | (.error e, st) => some (.error e, st)
      | (.ok x, st) => exec F n x none st
  | some m =>
    match getMsgIdKeys F.nodeId m with
    | .error e => some (.error e, st)
    | .ok ids =>
      let t := extractKey kTarget m ids
      let nm := extractKey kMethod t.2.1 t.2.2
      let g := getMethod F nm.1 t.1 st
      let e := extractArgs [kSelf, kX, kMsg] nm.2.1 nm.2.2
      match checks F nm.1 x g.2 with
      | (.error e, st) => some (.error e, st)
      | (.ok x, st) =>
        if (Dict.get e.2 kSelf).isSome || (Dict.get e.2 kX).isSome then some (.error .typeError, st)
        else
          match exec F n x (some e.1) st with
          | none => none
          | some (.error e, st) => some (.error e, st)
          | some (.ok r, st) => some (.ok (combine r none g.1), st)

/-- biflownode.py:231-235 `_bi_reset`; `reset` is `bi_reset` of the inner nodes. -/
def biReset (F : FNode σ A V) (st : FSt σ V) : FSt σ V := { inner := F.reset st.inner, last := .none }

/-- biflownode.py:237-246 `_request_node_id`: whether a node was found. Requests of flow nodes inside are not modelled. -/
def request (F : FNode σ A V) (t : BVal V) (st : FSt σ V) : Bool × FSt σ V :=
  if F.nodeId.map BVal.str = some t then (true, st)
  else
    match findId F.toBFlow t 0 F.len with
    | some _ => (true, { st with last := t })
    | none => (false, st)

/-! ### Training -/

/-- biflownode.py:93-110 `_get_train_seq`: the inner node of every training phase. `total` is `len(_get_train_seq())` of
a node and `pre` its `_pretrained_phase`. The wrapper (107-109) is put around the last entry. -/
def trainSeq (F : FNode σ A V) (total pre : Nat → Nat) : Except Err (List Nat) :=
  let l := (List.range F.len).flatMap fun i => if F.trainable i then List.replicate (total i - pre i) i else []
  if F.trainable (F.len - 1) ∧ l = [] then .error .indexError else .ok l

/-- biflownode.py:119-168: the function that trains node `nr` with a chunk, from the position `i`. The numbers bound the
rounds of the executions and of the loop. -/
def trainFrom (F : FNode σ A V) (n nr : Nat) : Nat → BVal V → Option A → Option (Msg V) → σ →
    Option (Except Err (BRes A V) × σ)
  | 0, _, _, _, _ => none
  | k + 1, i, x, m, s =>
    match executeSeq F.toBFlow (some nr) n i x m s with
    | none => none
    | some o =>
      match o.res with
      | .error e => some (.error e, o.s)
      | .ok (.stop x m) =>
        if F.isBi nr then
          match F.train nr o.s x m with
          | (.error e, s') => some (.error e, s')
          | (.ok (.single none), s') => some (.ok (.single none), s')
          | (.ok r, s') =>
            match r.parts.2.2 with
            | .int j =>
              if (nr : Int) + j = F.len then
                some (.ok (if truthyMsg r.parts.2.1 then .pair r.parts.1 r.parts.2.1 else .single r.parts.1), s')
              else if (nr : Int) + j = -1 then some (.ok (.triple r.parts.1 r.parts.2.1 (.int (-1))), s')
              else trainFrom F n nr k (.int ((nr : Int) + j)) r.parts.1 r.parts.2.1 s'
            | t =>
              match targetToIndex F.toBFlow t nr with
              | .error e => some (.error e, s')
              | .ok (.int j) => trainFrom F n nr k (.int j) r.parts.1 r.parts.2.1 s'
              | .ok _ => some (.ok (.triple r.parts.1 r.parts.2.1 t), s')
        else
          match F.plainTrain nr o.s x with
          | (.error e, s') => some (.error e, s')
          | (.ok (), s') => some (.ok (.single none), s')
      | .ok r => some (.ok (toRes r), o.s)

/-- biflownode.py:114-170 `_get_train_function`. -/
def train (F : FNode σ A V) (n nr : Nat) (x : Option A) (m : Option (Msg V)) (st : FSt σ V) :
    Option (Except Err (BRes A V) × FSt σ V) :=
  match targetToIndex F.toBFlow (getTarget st).1 0 with
  | .error e => some (.error e, (getTarget st).2)
  | .ok i =>
    match trainFrom F n nr n i x m st.inner with
    | none => none
    | some (r, s') => some (r, { (getTarget st).2 with inner := s' })

/-- biflownode.py:205-217: where the execution goes that the ended training asks for. -/
def afterStop (F : FNode σ A V) (n nr : Nat) (x : Option A) (m : Option (Msg V)) (t : BVal V) (s : σ) :
    Option (Except Err (BRes A V) × σ) :=
  match t with
  | .int j =>
    if (nr : Int) + j = F.len then some (.ok (.triple x m (.int 1)), s)
    else if (nr : Int) + j = -1 then some (.ok (.triple x m (.int (-1))), s)
    else go (.int ((nr : Int) + j))
  | t =>
    match targetToIndex F.toBFlow t nr with
    | .error e => some (.error e, s)
    | .ok (.int j) => go (.int j)
    | .ok _ => some (.ok (.triple x m t), s)
where
  /-- line 217 -/
  go (i : BVal V) : Option (Except Err (BRes A V) × σ) :=
    match executeSeq F.toBFlow none n i x m s with
    | none => none
    | some o =>
      match o.res with
      | .error e => some (.error e, o.s)
      | .ok r => some (.ok (toRes r), o.s)

/-- biflownode.py:172-219 `_get_stop_training_function`; `F.stop` drops the message for a node that is not a `BiNode`. -/
def stopTraining (F : FNode σ A V) (n nr : Nat) (m : Option (Msg V)) (s : σ) : Option (Except Err (BRes A V) × σ) :=
  match F.stop nr s m with
  | (.error e, s') => some (.error e, s')
  | (.ok (.single none), s') => some (.ok (.single none), s')
  | (.ok r, s') => afterStop F n nr r.parts.1 r.parts.2.1 r.parts.2.2 s'

end Bi.FlowNode
