import Mathlib.Data.List.FinRange
import Mathlib.Order.Defs.LinearOrder

/-!
# Model of OneDimensionalHitParade and HitParadeNode (nodes/misc_nodes.py 38-259)

Values come from a linear order. The arrays of length `n` are functions on `Fin (m+1)`, so `n ≥ 1`: for `n = 0`
`argmin` raises at the first sample. `argsort` is some permutation that sorts (numpy's default is not stable).
-/

namespace Mdp.HitParade

variable {V : Type} [LinearOrder V] {m : Nat}

/-- The arrays `M`, `iM` and the index `lM` (or `m`, `im`, `lm`). -/
structure Half (V : Type) (m : Nat) where
  M : Fin (m + 1) → V
  i : Fin (m + 1) → Int
  l : Fin (m + 1)

/-- `a[k] = v`. -/
def setAt {W : Type} (a : Fin (m + 1) → W) (k : Fin (m + 1)) (v : W) : Fin (m + 1) → W := fun j => if j = k then v else a j

/-- `M.argmin()`: the first index of the minimum. -/
def argmin (M : Fin (m + 1) → V) : Fin (m + 1) :=
  (List.finRange (m + 1)).foldl (fun b i => if M i < M b then i else b) 0

/-- `m.argmax()`. -/
def argmax (M : Fin (m + 1) → V) : Fin (m + 1) :=
  (List.finRange (m + 1)).foldl (fun b i => if M i > M b then i else b) 0

/-- The part of the loop of `update` about maxima (101-111). -/
def stepMax (d : Int) (s : Half V m) (x : V) (ix : Int) : Half V m :=
  let k := argmin s.M
  if x > s.M k then
    if ix - s.i s.l ≤ d ∧ x > s.M s.l then ⟨setAt s.M s.l x, setAt s.i s.l ix, s.l⟩
    else if ix - s.i s.l > d then ⟨setAt s.M k x, setAt s.i k ix, k⟩
    else s
  else s

/-- The part of the loop of `update` about minima (102, 112-119). -/
def stepMin (d : Int) (s : Half V m) (x : V) (ix : Int) : Half V m :=
  let k := argmax s.M
  if x < s.M k then
    if ix - s.i s.l ≤ d ∧ x < s.M s.l then ⟨setAt s.M s.l x, setAt s.i s.l ix, s.l⟩
    else if ix - s.i s.l > d then ⟨setAt s.M k x, setAt s.i k ix, k⟩
    else s
  else s

/-- A OneDimensionalHitParade. -/
structure Parade (V : Type) (m : Nat) where
  mx : Half V m
  mn : Half V m

/-- `__init__` (44-75): `lo` and `hi` are the smallest and largest number of the dtype. -/
def Parade.new (m : Nat) (lo hi : V) : Parade V m := ⟨⟨fun _ => lo, fun _ => 0, 0⟩, ⟨fun _ => hi, fun _ => 0, 0⟩⟩

/-- `update` (77-123). -/
def Parade.update (d : Int) (p : Parade V m) (inp : List (V × Int)) : Parade V m :=
  inp.foldl (fun p a => ⟨stepMax d p.mx a.1 a.2, stepMin d p.mn a.1 a.2⟩) p

/-- The recorded pairs of value and index. -/
def Half.pairs (h : Half V m) : List (V × Int) := (List.finRange (m + 1)).map fun k => (h.M k, h.i k)

/-- `get_maxima` (125-138) may return these pairs. -/
def Parade.maxima (p : Parade V m) (out : List (V × Int)) : Prop :=
  out.Perm p.mx.pairs ∧ out.Pairwise fun a b => a.1 ≥ b.1

/-- `get_minima` (140-153) may return these pairs. -/
def Parade.minima (p : Parade V m) (out : List (V × Int)) : Prop :=
  out.Perm p.mn.pairs ∧ out.Pairwise fun a b => a.1 ≤ b.1

/-- The attributes `hit` and `tlen` of a HitParadeNode for data with `c` columns. -/
structure Node (V : Type) (m c : Nat) where
  hit : Option (Fin c → Parade V m)
  tlen : Nat

/-- `__init__` (165-190). -/
def Node.new (V : Type) (m c : Nat) : Node V m c := ⟨none, 0⟩

/-- `_train` (205-217). -/
def Node.train {c : Nat} (lo hi : V) (d : Int) (s : Node V m c) (x : List (Fin c → V)) : Node V m c :=
  let hit := s.hit.getD fun _ => Parade.new m lo hi
  let tlen := s.tlen + x.length
  -- numx.arange(old_tlen, tlen)
  let indices := (List.range x.length).map fun i => ((s.tlen + i : Nat) : Int)
  ⟨some fun j => (hit j).update d ((x.map fun r => r j).zip indices), tlen⟩

end Mdp.HitParade
