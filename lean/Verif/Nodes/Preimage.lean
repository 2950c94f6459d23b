import Mathlib.Algebra.Order.BigOperators.Group.List
import Mathlib.Analysis.SpecialFunctions.Pow.Real
import Mathlib.Data.List.GetD

/-!
# Approximate inverses by least squares: `residuals`, `invert_exp_funcs2` (mdp/utils/routines.py:517-568), `GeneralExpansionNode.pseudo_inverse`
(mdp/nodes/expansion_nodes.py:475-502), `f_residual` and `iGSFANode.nonlinear_inverse` (mdp/nodes/gsfa_nodes.py:1876-1928, 2021-2027); C349

Numbers are real. `scipy.optimize.leastsq` is a parameter: a function that gets the residuals and a starting point. Expansion functions and
`execute` work row by row. Messages and the error of the whole data, which is only printed, are not modelled.
-/

namespace Mdp.Preimage

/-- `leastsq`: residuals and starting point give a point. -/
abbrev Solver := (List ℝ → List ℝ) → List ℝ → List ℝ

/-- The sum of squares. -/
def sumSq (l : List ℝ) : ℝ := (l.map fun a => a * a).sum

/-- `concatenate([func(x) for func in exp_funcs], axis=1)` for one row (521, 567). -/
def expand (fs : List (List ℝ → List ℝ)) (x : List ℝ) : List ℝ := fs.flatMap fun f => f x

/-- `residuals` (517-525). -/
noncomputable def residuals (k : ℝ) (y : List ℝ) (fs : List (List ℝ → List ℝ)) (x0 x : List ℝ) : List ℝ :=
  (List.zipWith (fun a b => (1 - k) ^ (0.5 : ℝ) * (a - b) / √(y.length : ℝ)) y (expand fs x)) ++
    List.zipWith (fun a b => k ^ (0.5 : ℝ) * (a - b) / √(x0.length : ℝ)) x0 x

/-- The argument `use_hint` of `invert_exp_funcs2`: an array, `True`, something else (`False`, `None`). -/
inductive Hint where
  | array (a : List (List ℝ))
  | yes
  | no

/-- The starting points (553-558) for the data `ys`. `random` is what the generator returns. -/
def starts (dim : Nat) (random : List (List ℝ)) (ys : List (List ℝ)) : Hint → List (List ℝ)
  | .array a => a
  | .yes => ys.map fun y => y.take dim
  | .no => random

/-- The loop (560-564): the rows are overwritten one after the other. `store` is the conversion to the type of the array: the identity for floating
point, cutting off for integers. -/
noncomputable def fill (solve : Solver) (store : ℝ → ℝ) (k : ℝ) (fs : List (List ℝ → List ℝ)) (ys app : List (List ℝ)) : List (List ℝ) :=
  (List.range ys.length).foldl
    (fun app r => app.set r ((solve (residuals k (ys.getD r []) fs (app.getD r [])) (app.getD r [])).map store)) app

/-- `invert_exp_funcs2` (528-568): the first result. -/
noncomputable def invert (solve : Solver) (store : ℝ → ℝ) (k : ℝ) (fs : List (List ℝ → List ℝ)) (dim : Nat) (random : List (List ℝ)) (hint : Hint)
    (ys : List (List ℝ)) : List (List ℝ) := fill solve store k fs ys (starts dim random ys hint)

/-- `pseudo_inverse` (expansion_nodes.py:475-502) for a node with floating point data. -/
noncomputable def pseudoInverse (solve : Solver) (store : ℝ → ℝ) (fs : List (List ℝ → List ℝ)) (dim : Nat) (random : List (List ℝ)) (hint : Hint)
    (ys : List (List ℝ)) : List (List ℝ) := invert solve store 0.000001 fs dim random hint ys

/-! ## The nonlinear inverse of iGSFA -/

/-- `f_residual` (2021-2027) for the padded output `yLong`: the difference in the first places, zeros behind. -/
def fResidual (exec : List ℝ → List ℝ) (out : Nat) (yLong : List ℝ) (x : List ℝ) : List ℝ :=
  let res := List.zipWith (fun a b => a - b) (yLong.take out) (exec x)
  res ++ List.replicate (yLong.length - res.length) 0

/-- `nonlinear_inverse` (1876-1928) for the linear inverse `lin` and the output dimension `out`; `y_long` is filled with zeros up to the input dimension
and used again for every row. -/
def nonlinear (solve : Solver) (exec lin : List ℝ → List ℝ) (out : Nat) (ys : List (List ℝ)) : List (List ℝ) :=
  ys.map fun y =>
    let x0 := lin y
    solve (fResidual exec out (y ++ List.replicate (x0.length - y.length) 0)) x0

/-! ## Specification -/

/-- The squared distance of two lists. -/
def dist2 (a b : List ℝ) : ℝ := (List.zipWith (fun u v => (u - v) ^ 2) a b).sum

/-- The documented objective: `(1-k) * ||f(x) - y||**2 / output_dim + k * ||x - start||**2 / input_dim`. -/
noncomputable def objective (k : ℝ) (y fx start x : List ℝ) : ℝ := (1 - k) * dist2 y fx / y.length + k * dist2 start x / start.length

/-- The routine never returns a point with larger residuals than the starting point, and a point of the same dimension. -/
def Descends (solve : Solver) : Prop := ∀ g x0, sumSq (g (solve g x0)) ≤ sumSq (g x0) ∧ (solve g x0).length = x0.length

/-! ## Proofs -/

theorem sumSq_append (a b : List ℝ) : sumSq (a ++ b) = sumSq a + sumSq b := by simp [sumSq]

theorem half_sq {k : ℝ} (h : 0 ≤ k) : k ^ (0.5 : ℝ) * k ^ (0.5 : ℝ) = k := by
  rw [← Real.rpow_add_of_nonneg h (by norm_num) (by norm_num)]; norm_num

theorem sumSq_zip (c : ℝ) (n : Nat) (a b : List ℝ) : sumSq (List.zipWith (fun u v => c * (u - v) / √(n : ℝ)) a b) = c * c * dist2 a b / n := by
  unfold sumSq dist2
  induction a generalizing b with
  | nil => simp
  | cons u a ih =>
    cases b with
    | nil => simp
    | cons v b =>
      simp only [List.zipWith_cons_cons, List.map_cons, List.sum_cons, ih]
      have e : c * (u - v) / √(n : ℝ) * (c * (u - v) / √(n : ℝ)) = c * c * (u - v) ^ 2 / n := by
        rw [div_mul_div_comm, Real.mul_self_sqrt (Nat.cast_nonneg _)]; ring
      rw [e]; ring

/-- C349: the squared residuals are the documented objective, for every weight from 0 to 1. -/
theorem residuals_objective (k : ℝ) (h0 : 0 ≤ k) (h1 : k ≤ 1) (y : List ℝ) (fs : List (List ℝ → List ℝ)) (x0 x : List ℝ) :
    sumSq (residuals k y fs x0 x) = objective k y (fs.flatMap fun f => f x) x0 x := by
  unfold residuals objective expand
  rw [sumSq_append, sumSq_zip, sumSq_zip, half_sq h0, half_sq (by linarith)]

theorem fill_get (solve : Solver) (store : ℝ → ℝ) (k : ℝ) (fs : List (List ℝ → List ℝ)) (ys app : List (List ℝ)) (n : Nat) :
    ∀ r, ((List.range n).foldl (fun app r => app.set r ((solve (residuals k (ys.getD r []) fs (app.getD r [])) (app.getD r [])).map store)) app)[r]? =
      if r < n then app[r]?.map fun s => (solve (residuals k (ys.getD r []) fs s) s).map store else app[r]? := by
  induction n with
  | zero => intro r; simp
  | succ n ih =>
    intro r
    rw [List.range_succ, List.foldl_append, List.foldl_cons, List.foldl_nil]
    set acc := (List.range n).foldl (fun app r => app.set r ((solve (residuals k (ys.getD r []) fs (app.getD r [])) (app.getD r [])).map store)) app with hacc
    rw [List.getElem?_set]
    by_cases hr : n = r
    · subst hr
      have e := ih n
      rw [if_neg (lt_irrefl n)] at e
      rw [if_pos rfl, if_pos (Nat.lt_succ_self n)]
      by_cases hl : n < acc.length
      · rw [if_pos hl]
        have e2 : acc.getD n [] = acc[n] := List.getD_eq_getElem _ _ hl
        rw [← e, List.getElem?_eq_getElem hl, e2]
        rfl
      · rw [if_neg hl, ← e, List.getElem?_eq_none (by omega)]
        rfl
    · rw [if_neg hr, ih r]
      by_cases h : r < n
      · rw [if_pos h, if_pos (by omega)]
      · rw [if_neg h, if_neg (by omega)]

/-- Every row is treated on its own: it depends on its own output and its own starting point. -/
theorem invert_get (solve : Solver) (store : ℝ → ℝ) (k : ℝ) (fs : List (List ℝ → List ℝ)) (dim : Nat) (random : List (List ℝ)) (hint : Hint)
    (ys : List (List ℝ)) (r : Nat) (y s : List ℝ) (hy : ys[r]? = some y) (hs : (starts dim random ys hint)[r]? = some s) :
    (invert solve store k fs dim random hint ys)[r]? = some ((solve (residuals k y fs s) s).map store) := by
  obtain ⟨hr, rfl⟩ := List.getElem?_eq_some_iff.1 hy
  unfold invert fill
  rw [fill_get, if_pos hr, hs, List.getD_eq_getElem _ _ hr]
  rfl

/-- The starting point of a row as documented: the row of the hint, the first elements of the row, a random row. -/
def Start (dim : Nat) (random : List (List ℝ)) (hint : Hint) (r : Nat) (y s : List ℝ) : Prop :=
  match hint with
  | .array a => a[r]? = some s
  | .yes => s = y.take dim
  | .no => random[r]? = some s

theorem starts_get {dim : Nat} {random : List (List ℝ)} {hint : Hint} {ys : List (List ℝ)} {r : Nat} {y s : List ℝ} (hy : ys[r]? = some y)
    (h : Start dim random hint r y s) : (starts dim random ys hint)[r]? = some s := by
  cases hint with
  | array a => exact h
  | yes => simp only [Start] at h; simp [starts, hy, h]
  | no => exact h

theorem dist2_nonneg (a b : List ℝ) : 0 ≤ dist2 a b := by
  unfold dist2
  induction a generalizing b with
  | nil => simp
  | cons u a ih =>
    cases b with
    | nil => simp
    | cons v b => simp only [List.zipWith_cons_cons, List.sum_cons]; have := ih b; positivity

theorem dist2_self (a : List ℝ) : dist2 a a = 0 := by
  unfold dist2
  induction a with
  | nil => rfl
  | cons u a ih => simp only [List.zipWith_cons_cons, List.sum_cons, ih]; ring

/-- C349 (pseudo_inverse): with floating point data, the documented objective of every row of the result is not larger than that of its starting
point, and its image is not farther from the data. -/
theorem pseudo_inverse_improves (solve : Solver) (hs : Descends solve) (fs : List (List ℝ → List ℝ)) (dim : Nat) (random : List (List ℝ)) (hint : Hint)
    (ys : List (List ℝ)) (r : Nat) (y s : List ℝ) (hy : ys[r]? = some y) (hst : Start dim random hint r y s) (hne : y ≠ []) :
    ∃ x, (pseudoInverse solve id fs dim random hint ys)[r]? = some x ∧ x.length = s.length ∧
      objective 0.000001 y (fs.flatMap fun f => f x) s x ≤ objective 0.000001 y (fs.flatMap fun f => f s) s s ∧
      dist2 y (fs.flatMap fun f => f x) ≤ dist2 y (fs.flatMap fun f => f s) := by
  refine ⟨_, invert_get solve id 0.000001 fs dim random hint ys r y s hy (starts_get hy hst), ?_, ?_, ?_⟩
  · rw [List.map_id]; exact (hs _ _).2
  · rw [List.map_id, ← residuals_objective _ (by norm_num) (by norm_num), ← residuals_objective _ (by norm_num) (by norm_num)]
    exact (hs _ _).1
  · rw [List.map_id]
    have h := (hs (residuals 0.000001 y fs s) s).1
    rw [residuals_objective _ (by norm_num) (by norm_num), residuals_objective _ (by norm_num) (by norm_num)] at h
    unfold objective at h
    rw [dist2_self] at h
    set x := solve (residuals 0.000001 y fs s) s
    have hn : (0 : ℝ) < y.length := by exact_mod_cast List.length_pos_of_ne_nil hne
    have h2 : 0 ≤ (0.000001 : ℝ) * dist2 s x / s.length := div_nonneg (mul_nonneg (by norm_num) (dist2_nonneg _ _)) (Nat.cast_nonneg _)
    have h3 : (1 - 0.000001) * dist2 y (fs.flatMap fun f => f x) / y.length ≤ (1 - 0.000001) * dist2 y (fs.flatMap fun f => f s) / y.length := by
      rw [mul_zero, zero_div, add_zero] at h; linarith
    rw [div_le_div_iff_of_pos_right hn] at h3
    exact le_of_mul_le_mul_left h3 (by norm_num)

/-- Cutting off the digits behind the point. -/
noncomputable def trunc (x : ℝ) : ℝ := if 0 ≤ x then (⌊x⌋ : ℝ) else (⌈x⌉ : ℝ)

/-- C349, false: a hint (or data) of integer type makes the result integer. With the identity as expansion, the output -0.9 and the hint -1, every routine
that finds the least squares ends up with 0, which is farther from the data than the hint. -/
theorem integer_hint_violation (solve : Solver) (hlen : ∀ g x0, (solve g x0).length = x0.length)
    (hopt : ∀ z, objective 0.000001 [-0.9] (solve (residuals 0.000001 [-0.9] [fun x => x] [-1]) [-1]) [-1]
      (solve (residuals 0.000001 [-0.9] [fun x => x] [-1]) [-1]) ≤ objective 0.000001 [-0.9] [z] [-1] [z]) :
    pseudoInverse solve trunc [fun x => x] 1 [] (.array [[-1]]) [[-0.9]] = [[0]] ∧ dist2 [-0.9] [-1] < dist2 [-0.9] [0] := by
  refine ⟨?_, by norm_num [dist2]⟩
  unfold pseudoInverse
  obtain ⟨z, hz⟩ := List.length_eq_one_iff.1 (hlen (residuals 0.000001 [-0.9] [fun x => x] [-1]) [-1])
  have h := hopt (-0.9)
  rw [hz] at h
  norm_num [objective, dist2] at h
  have h1 : -1 < z := by nlinarith
  have h2 : z < 0 := by nlinarith
  have ht : trunc z = 0 := by
    unfold trunc
    rw [if_neg (by linarith)]
    have : ⌈z⌉ = 0 := Int.ceil_eq_zero_iff.2 ⟨h1, h2.le⟩
    rw [this]; norm_num
  have e := invert_get solve trunc 0.000001 [fun x => x] 1 [] (.array [[-1]]) [[-0.9]] 0 [-0.9] [-1] rfl rfl
  have hl : (invert solve trunc 0.000001 [fun x => x] 1 [] (.array [[-1]]) [[-0.9]]).length = 1 := by
    simp [invert, fill, starts, List.range_succ]
  obtain ⟨w, hw⟩ := List.length_eq_one_iff.1 hl
  rw [hw] at e ⊢
  simp only [List.getElem?_cons_zero, Option.some.injEq] at e
  rw [e, hz]
  simp [ht]

theorem sumSq_pad (l : List ℝ) (n : Nat) : sumSq (l ++ List.replicate n 0) = sumSq l := by
  rw [sumSq_append]; simp [sumSq]

theorem sumSq_sub (a b : List ℝ) : sumSq (List.zipWith (fun u v => u - v) a b) = dist2 a b := by
  unfold sumSq dist2
  induction a generalizing b with
  | nil => simp
  | cons u a ih =>
    cases b with
    | nil => simp
    | cons v b => simp only [List.zipWith_cons_cons, List.map_cons, List.sum_cons, ih]; ring

/-- C349 (iGSFA): the nonlinear inverse of a row never has a larger output error than the linear inverse of the row. The routine always gets at least
as many residuals as unknowns, which it demands. -/
theorem nonlinear_improves (solve : Solver) (hs : Descends solve) (exec lin : List ℝ → List ℝ) (out : Nat) (hout : ∀ x, (exec x).length = out)
    (ys : List (List ℝ)) (hys : ∀ y ∈ ys, y.length = out) (r : Nat) (y : List ℝ) (hy : ys[r]? = some y) :
    (∃ x, (nonlinear solve exec lin out ys)[r]? = some x ∧ dist2 y (exec x) ≤ dist2 y (exec (lin y))) ∧
    ∀ x, (lin y).length ≤ (fResidual exec out (y ++ List.replicate ((lin y).length - y.length) 0) x).length := by
  have hl : y.length = out := hys y (List.mem_of_getElem? hy)
  have e : ∀ n x, sumSq (fResidual exec out (y ++ List.replicate n 0) x) = dist2 y (exec x) := by
    intro n x
    unfold fResidual
    simp only []
    rw [sumSq_pad, ← hl, List.take_left', sumSq_sub]
    rfl
  constructor
  · refine ⟨_, by simp only [nonlinear, List.getElem?_map, hy, Option.map_some]; rfl, ?_⟩
    rw [← e ((lin y).length - y.length), ← e ((lin y).length - y.length)]
    exact (hs _ _).1
  · intro x
    unfold fResidual
    simp only [List.length_append, List.length_replicate, List.length_zipWith, List.length_take, hout, hl]
    omega

/-! ## Examples -/

example : Descends fun _ x0 => x0 := fun _ _ => ⟨le_rfl, rfl⟩

example : Start 1 [] .yes 0 [3, 9] [3] := rfl

example : ∃ solve : Solver, Descends solve ∧ ∃ g x0, solve g x0 ≠ x0 := by
  classical
  refine ⟨fun g x0 => if sumSq (g [0]) ≤ sumSq (g x0) ∧ x0.length = 1 then [0] else x0, ?_, fun x => x, [1], ?_⟩
  · intro g x0
    beta_reduce
    by_cases h : sumSq (g [0]) ≤ sumSq (g x0) ∧ x0.length = 1
    · rw [if_pos h]; exact ⟨h.1, h.2.symm⟩
    · rw [if_neg h]; exact ⟨le_rfl, rfl⟩
  · beta_reduce
    rw [if_pos (by norm_num [sumSq])]; simp

/-- The least squares of the counterexample exist. -/
example : ∃ w : ℝ, ∀ z, objective 0.000001 [-0.9] [w] [-1] [w] ≤ objective 0.000001 [-0.9] [z] [-1] [z] := by
  refine ⟨-0.9 - 0.0000001, fun z => ?_⟩
  norm_num [objective, dist2]
  nlinarith [sq_nonneg (z + 0.9 + 0.0000001)]

end Mdp.Preimage
