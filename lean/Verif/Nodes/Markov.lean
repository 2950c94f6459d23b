import Mathlib.Data.List.Sort
import Mathlib.Data.List.Count
import Mathlib.Algebra.Field.Rat
import Mathlib.Algebra.Order.Field.Rat

/-!
# Model of SimpleMarkovClassifier (nodes/classifier_nodes.py 118-239), ClassifierNode.rank (classifier_node.py 60-78)
and weighted_choice (utils/routines.py 429-455)

A dictionary is a list of keys and values in order of insertion. Floats are rational numbers.
-/

namespace Mdp.Markov

/-- `d[k]`; `none`: KeyError. -/
def get {K : Type} [DecidableEq K] (d : List (K × Nat)) (k : K) : Option Nat := d.lookup k

/-- `if k in d: d[k] += 1 else: d[k] = 1`. -/
def inc {K : Type} [DecidableEq K] (d : List (K × Nat)) (k : K) : List (K × Nat) :=
  match get d k with
  | some _ => d.map fun p => if p.1 = k then (p.1, p.2 + 1) else p
  | none => d ++ [(k, 1)]

variable {Ft L : Type} [DecidableEq Ft] [DecidableEq L]

/-- The attributes (149-153). -/
structure St (Ft L : Type) where
  total : Nat
  features : List (Ft × Nat)
  labels : List (L × Nat)
  conns : List ((Ft × L) × Nat)

def St.new (Ft L : Type) : St Ft L := ⟨0, [], [], []⟩

/-- The argument `labels`: a value that is not iterable, a list, tuple or array, or another iterable (for instance a
string, which is the sequence of its characters). -/
inductive LabelArg (L : Type) where
  | scalar (l : L)
  | array (ls : List L)
  | iter (ls : List L)

/-- `_check_train_args` (161-169): whether the labels are accepted for `n` rows. -/
def LabelArg.check (n : Nat) : LabelArg L → Bool
  | .scalar _ => true
  | .array ls => ls.length = n
  | .iter _ => true

/-- `izip_stretched(x, labels)` (routines.py 389-426). -/
def stretched (x : List Ft) : LabelArg L → List (Ft × L)
  | .scalar l => x.map fun f => (f, l)
  | .array ls => x.zip ls
  | .iter ls => x.zip ls

/-- `_learn` (186-204). -/
def St.learn (s : St Ft L) (feature : Ft) (label : L) : St Ft L :=
  ⟨s.total + 1, inc s.features feature, inc s.labels label, inc s.conns (feature, label)⟩

/-- `train` (161-184); `false`: TrainingException. -/
def St.train (s : St Ft L) (x : List Ft) (labels : LabelArg L) : Bool × St Ft L :=
  if labels.check x.length then (true, (stretched x labels).foldl (fun s p => s.learn p.1 p.2) s)
  else (false, s)

/-- Division; `none`: ZeroDivisionError. -/
def div? (a b : Rat) : Option Rat := if b = 0 then none else some (a / b)

/-- The body of the loop of `_prob_one` for one label (222-238). -/
def St.probLabel (s : St Ft L) (feature : Ft) (nFeature : Nat) (label : L) : Option (L × Rat) :=
  let nConn := (get s.conns (feature, label)).getD 0
  let nLabel := (get s.labels label).getD 0
  (div? nConn nLabel).bind fun pFeatureGivenLabel =>
  (div? nLabel s.total).bind fun pLabel =>
  (div? nFeature s.total).bind fun pFeature =>
  (div? (pFeatureGivenLabel * pLabel) pFeature).map fun prob => (label, prob)

/-- `_prob_one` (209-239); `none`: ZeroDivisionError. -/
def St.probOne (s : St Ft L) (feature : Ft) : Option (List (L × Rat)) :=
  match get s.features feature with
  | none => some []
  | some nFeature => s.labels.mapM fun p => s.probLabel feature nFeature p.1

/-- `ClassifierNode.rank` for the probabilities of one row (classifier_node.py 70-77). `sorted` with `reverse=True`
keeps the order of equal elements. -/
def rank (prob : List (L × Rat)) (threshold : Option Rat) : List L :=
  let ranking := match threshold with
    | none => prob
    | some t => prob.filter fun p => p.2 > t
  (ranking.insertionSort fun a b => a.2 ≥ b.2).map fun p => p.1

/-- The loop of `weighted_choice` (450-455). -/
def choose (r : Rat) : Rat → List (L × Rat) → Option L
  | _, [] => none
  | total, (key, val) :: d => if total + val > r then some key else choose r (total + val) d

/-- `weighted_choice` with the random number `r` (429-455); outer `none`: ZeroDivisionError. -/
def weightedChoice (d : List (L × Rat)) (normalize : Bool) (r : Rat) : Option (Option L) :=
  if normalize then
    (d.mapM fun p => (div? p.2 (d.map fun p => p.2).sum).map fun v => (p.1, v)).map fun d => choose r 0 d
  else some (choose r 0 d)

end Mdp.Markov
