import Mathlib.Data.List.FinRange
import Mathlib.Algebra.Ring.Defs
import Mathlib.Algebra.BigOperators.Group.List.Basic

/-!
# Model of the polynomial expansion (utils/routines.py, nodes/expansion_nodes.py)

Arrays of one row: `_execute` treats the rows of `x` (the columns of `dexp`) all in the same way.
-/

namespace Mdp.Expansion

/-- `comb` (routines.py 259-267). `//` is the floor division of Python. -/
def comb (N k : Int) : Int :=
  -- range(N, N-k, -1)
  let ret := (List.range k.toNat).foldl (fun ret (i : Nat) => ret * (N - i)) 1
  -- range(1, k+1)
  (List.range k.toNat).foldl (fun ret (i : Nat) => Int.fdiv ret ((i : Int) + 1)) ret

/-- `nmonomials` (expansion_nodes.py 11-25). -/
def nmonomials (degree nvariables : Int) : Int := comb (nvariables + degree - 1) degree

/-- `expanded_dim` (27-42). -/
def expandedDim (degree nvariables : Int) : Int := comb (nvariables + degree) degree - 1

/-- numpy's `a[i:j]` for `0 ≤ i`, `0 ≤ j`. -/
def slice {F : Type} (a : List F) (i j : Nat) : List F := (a.take j).drop i

/-- `a[k:k+len(v)] = v`: the slice is cut off at the end of `a`; then the lengths must agree, or `v` must have length
one, in which case it is repeated (here: zero times). -/
def write {F : Type} (a : List F) (k : Nat) (v : List F) : Option (List F) :=
  let t := (slice a k (k + v.length)).length
  if t = v.length then some (a.take k ++ v ++ a.drop (k + v.length))
  else if v.length = 1 then some a
  else none

/-- `cumsum`. -/
def cumsum (l : List Nat) : List Nat := (List.range l.length).map fun i => (l.take (i + 1)).sum

variable {F : Type} [CommRing F] {n : Nat}

structure PolySt (F : Type) where
  dexp : List F
  k : Nat
  nextLens : List Nat

/-- The body of the loop over the variables (136-142). `prec` is a view on `dexp`. `none`: an exception. -/
def polyVar (x : Fin n → F) (precStart precEnd : Nat) (lens : List Nat) (s : PolySt F) (j : Fin n) :
    Option (PolySt F) := do
  let factor := (slice s.dexp precStart precEnd).drop (← lens[j.1]?)
  let len := factor.length
  let dexp ← write s.dexp s.k (factor.map fun a => x j * a)
  some ⟨dexp, s.k + len, s.nextLens.set (j + 1) len⟩

/-- The body of the loop over the degrees (129-142). -/
def polyDegree (x : Fin n → F) (p : Nat × PolySt F) (i : Nat) : Option (Nat × PolySt F) := do
  let precStart := p.1
  let precEnd := p.1 + (nmonomials (i - 1) n).toNat
  let lens := cumsum p.2.nextLens.dropLast
  let s ← (List.finRange n).foldlM (polyVar x precStart precEnd lens)
    { p.2 with nextLens := List.replicate (n + 1) 0 }
  some (precEnd, s)

/-- `PolynomialExpansionNode._execute` (116-144); `output_dim` is `expanded_dim(degree, input_dim)` (59-61, 105-114). -/
def polyExecute (degree : Nat) (x : Fin n → F) : Option (List F) := do
  let dexp ← write (List.replicate (expandedDim degree n).toNat 0) 0 ((List.finRange n).map x)
  let r ← (List.range' 2 (degree - 1)).foldlM (polyDegree x)
    (0, ⟨dexp, n, 0 :: List.replicate n 1⟩)
  some r.2.dexp

end Mdp.Expansion
