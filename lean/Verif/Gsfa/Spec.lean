import Verif.Gsfa.Model
import Verif.Gsfa.Sums

/-!
# Specification of the training graphs of GSFA

A training graph gives a weight `v i` to each sample and a weight `e i j` to each pair of samples. GSFA needs the weighted sum
of the samples and of their products, the sum of the weights of the samples, the weighted sum of the products of the
differences along the edges, and the sum of the weights of the edges.
-/

namespace Mdp.Gsfa

open Mdp.Cov Finset

variable {F : Type} [Field F] {d : Nat}

/-- The sums in the accumulators; `None` counts as zero. -/
def Acc.prod (a : Acc F d) (k l : Fin d) : F := match a.sums with | none => 0 | some s => s.1 k l
def Acc.sum (a : Acc F d) (k : Fin d) : F := match a.sums with | none => 0 | some s => s.2 k
def Acc.diff (a : Acc F d) (k l : Fin d) : F := match a.diffs with | none => 0 | some p => p k l

/-- Product of two components of the difference between samples `i` and `j`. -/
def sq (x : Rows F d) (k l : Fin d) (i j : Nat) : F := (x.row j k - x.row i k) * (x.row j l - x.row i l)

/-- From `a` to `a'` the graph with samples `x`, node weights `v` and edge weights `e` has been added. -/
structure Adds (a a' : Acc F d) (x : Rows F d) (v : Nat → F) (e : Nat → Nat → F) : Prop where
  sum : ∀ k, a'.sum k = a.sum k + ∑ i ∈ range x.n, v i * x.row i k
  prod : ∀ k l, a'.prod k l = a.prod k l + ∑ i ∈ range x.n, v i * (x.row i k * x.row i l)
  num : a'.num = a.num + ∑ i ∈ range x.n, v i
  diff : ∀ k l, a'.diff k l = a.diff k l + ∑ i ∈ range x.n, ∑ j ∈ range x.n, e i j * sq x k l i j
  numDiffs : a'.numDiffs = a.numDiffs + ∑ i ∈ range x.n, ∑ j ∈ range x.n, e i j
  some_sums : a'.sums.isSome
  some_diffs : a'.diffs.isSome

/-- Each sample is connected to the next one. -/
def chainEdge (i j : Nat) : F := if j = i + 1 then 1 else 0

/-- Each sample is connected to the next `w` ones. -/
def windowEdge (w i j : Nat) : F := if i < j ∧ j ≤ i + w then 1 else 0

/-- All samples at a distance of at most `w` are connected, in both directions. -/
def windowEdges (w i j : Nat) : F := if i ≠ j ∧ j ≤ i + w ∧ i ≤ j + w then 1 else 0

/-- The number of samples at a distance of at most `w`, relative to a full window. -/
def windowNode (n w i : Nat) : F := ((min i w + min (n - 1 - i) w : Nat) : F) / (2 * w)

/-- The sample at position `m` of the data with `w` samples reflected at both ends. -/
def reflect (n w m : Nat) : Nat := if m < w then w - 1 - m else if m < n + w then m - w else 2 * n + w - 1 - m

/-- Each sample is connected to the samples in a window of the reflected data, as often as they occur, the centre excluded. -/
def mirrorEdge (n w i j : Nat) : F :=
  ∑ o ∈ range (2 * w + 1), if o ≠ w ∧ reflect n w (i + o) = j then 1 else 0

/-- All samples of a block of size `b` are connected with one another and with themselves. -/
def blockEdge (b i j : Nat) : F := if i / b = j / b then 1 / b else 0

/-- All samples of a block of size `b` are connected with one another. -/
def blockEdge' (b i j : Nat) : F := if i / b = j / b ∧ i ≠ j then 1 / ((b : F) - 1) else 0

/-- All samples of successive blocks are connected, in both directions. -/
def serialEdge (b i j : Nat) : F := if i / b + 1 = j / b ∨ j / b + 1 = i / b then 1 / b else 0

/-- The number of blocks before or after the block of a sample. -/
def serialNode (n b i : Nat) : F := (if 0 < i / b then 1 else 0) + (if i / b + 1 < n / b then 1 else 0)

/-- The samples of a block are connected, in the first and last block with double weight, and the samples of
successive blocks. -/
def mixedEdge (n b i j : Nat) : F :=
  (if i / b = 0 ∨ i / b + 1 = n / b then 2 else 1) * blockEdge b i j + serialEdge b i j

/-- Samples with the same label are connected; the weight is one over the number of samples with this label. -/
def classEdge (labels : List Int) (i j : Nat) : F :=
  if labels.getD i 0 = labels.getD j 0 then 1 / (labels.count (labels.getD i 0) : F) else 0

/-- All samples of a block are connected with one another and with themselves, for blocks of given sizes. -/
def blocksEdge (sizes : List Nat) (i j : Nat) : F :=
  ∑ t ∈ range sizes.length,
    if (sizes.take t).sum ≤ i ∧ i < (sizes.take (t + 1)).sum ∧ (sizes.take t).sum ≤ j ∧ j < (sizes.take (t + 1)).sum
      then 1 / (sizes.getD t 0 : F) else 0

end Mdp.Gsfa
