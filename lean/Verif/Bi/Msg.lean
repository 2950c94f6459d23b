import Verif.Py.Dict

/-!
# Messages of bidirectional nodes (`bimdp/binode.py`)

Message keys are strings, modelled as lists of characters, so that the address syntax `node_id->key` is modelled by
the string operations the code uses and not by a data type. Values are the ones the code distinguishes (`None`,
integers, strings) and opaque other objects.
-/

namespace Bi

open Py

/-- Python strings -/
abbrev Str := List Char

/-- A value in a message, or a target. `other` stands for any other object; such objects count as true
(simplification: empty containers, which are false, are not modelled). -/
inductive BVal (V : Type) where
  | none
  | int (i : Int)
  | str (s : Str)
  | other (v : V)
  deriving DecidableEq

namespace BVal

variable {V : Type}

/-- `bool(v)` -/
def truthy : BVal V → Bool
  | none => false
  | int i => i != 0
  | str s => !s.isEmpty
  | other _ => true

/-- `v is not None` -/
def isSome : BVal V → Bool
  | none => false
  | _ => true

end BVal

/-- A message: a dictionary with string keys. -/
abbrev Msg (V : Type) := Dict Str (BVal V)

/-- The exceptions of the modelled code. `hook` stands for whatever a hook of the node raises. -/
inductive Err where
  | valueError
  | typeError
  | indexError
  | binode
  | biflow
  | notTrainable
  | trainingFinished
  | notTrained
  | keyError
  | attributeError
  | layer
  | hook
  deriving DecidableEq

/-- The keys with a meaning of their own. -/
def kTarget : Str := ['t', 'a', 'r', 'g', 'e', 't']
/-- -/
def kMethod : Str := ['m', 'e', 't', 'h', 'o', 'd']
/-- -/
def kMsg : Str := ['m', 's', 'g']
/-- -/
def kX : Str := ['x']
/-- -/
def kSelf : Str := ['s', 'e', 'l', 'f']
/-- -/
def sInverse : Str := ['i', 'n', 'v', 'e', 'r', 's', 'e']
/-- -/
def sExecute : Str := ['e', 'x', 'e', 'c', 'u', 't', 'e']
/-- -/
def sTrain : Str := ['t', 'r', 'a', 'i', 'n']

/-- `s.find("->")` (a builtin of Python) -/
def find : Str → Int
  | [] => -1
  | '-' :: '>' :: _ => 0
  | _ :: r => if find r < 0 then -1 else find r + 1

/-- `s.split("->")` (a builtin of Python) -/
def split : Str → List Str
  | [] => [[]]
  | '-' :: '>' :: r => [] :: split r
  | c :: r =>
    match split r with
    | [] => [[c]]
    | h :: t => (c :: h) :: t

/-- binode.py:337-348 `BiNode._get_msg_id_keys`: the loop over the keys of the message. The tuple assignment raises
`ValueError` if the split does not give two parts. `node_id` is `none` for a node without id. -/
def idKeysLoop (nodeId : Option Str) : List Str → List (Str × Str) → Except Err (List (Str × Str))
  | [], acc => .ok acc
  | full :: r, acc =>
    if find full > 0 then
      match split full with
      | [a, k] => if some a = nodeId then idKeysLoop nodeId r (acc ++ [(k, full)]) else idKeysLoop nodeId r acc
      | _ => .error .valueError
    else idKeysLoop nodeId r acc

variable {V : Type}

/-- binode.py:337-348 -/
def getMsgIdKeys (nodeId : Option Str) (m : Msg V) : Except Err (List (Str × Str)) :=
  idKeysLoop nodeId (Dict.keys m) []

/-- binode.py:359-366: first entry of `msg_id_keys` with the key, and the list without it. -/
def popIdKey (key : Str) : List (Str × Str) → Option (Str × List (Str × Str))
  | [] => none
  | (k, full) :: r =>
    if key = k then some (full, r)
    else
      match popIdKey key r with
      | none => none
      | some (f, r') => some (f, (k, full) :: r')

/-- binode.py:350-366 `_extract_message_key`: value, message and id keys afterwards. -/
def extractKey (key : Str) (m : Msg V) (ids : List (Str × Str)) : BVal V × Msg V × List (Str × Str) :=
  match popIdKey key ids with
  | some (full, ids') => ((Dict.get m full).getD .none, Dict.erase m full, ids')
  | none => ((Dict.get m key).getD .none, m, ids)

/-- binode.py:376-381: the loop over the remaining id keys. -/
def argsLoop (argKeys : List Str) : List (Str × Str) → Msg V → Msg V → Msg V × Msg V
  | [], m, args => (m, args)
  | (k, full) :: r, m, args =>
    if k ∈ argKeys then argsLoop argKeys r (Dict.erase m full) (Dict.set args k ((Dict.get m full).getD .none))
    else argsLoop argKeys r (Dict.erase m full) args

/-- binode.py:368-385 `_extract_method_args`, apart from the special key `msg`: the message without the keys for this
node and the keyword arguments. -/
def extractArgs (argKeys : List Str) (m : Msg V) (ids : List (Str × Str)) : Msg V × Msg V :=
  argsLoop argKeys ids m (m.filter fun e => decide (e.1 ∈ argKeys))

end Bi
