import Verif.Nodes.IncSfaProps

/-!
# The inverse of `IncSFANode` (mdp/nodes/sfa_nodes_online.py:233-238); C351
-/

namespace Mdp.IncSfa

open Mdp.Cov (Row Mat)
open Mdp.Pca (dot)
open Mdp.OnlineStats Mdp.Ccipca

variable {d p : Nat}

/-- `_inverse` (233-238) for a row: `mult(y, pinv(sf)) + avgnode.avg`. `pinv` gives the rows of the pseudo-inverse. There is no `avgnode` if the mean is
not removed. -/
noncomputable def ISt.inv (pinv : List (Row ℝ d) → List (Row ℝ d)) (s : ISt d p) (y : List ℝ) : Except Err (Row ℝ d) :=
  match s.sf with
  | none => .error .typeError
  | some sf => match s.avg with
    | none => .error .attribute
    | some a => .ok fun k => (List.zipWith (fun c w => c * w k) y (pinv sf)).sum + a.avg.getD 0 k

/-! ## Specification -/

/-- The Penrose equations for the matrix with the columns `v` and the matrix with the rows `g` that are needed: `A G A = A` and `A G` is symmetric. -/
structure Penrose {k : Nat} (v g : Fin k → Row ℝ d) : Prop where
  gen : ∀ l a, ∑ j, v j a * dot (g j) (v l) = v l a
  symm : ∀ a b, ∑ j, v j a * g j b = ∑ j, v j b * g j a

/-- No vector is a combination of the others. -/
def Independent {k : Nat} (v : Fin k → Row ℝ d) : Prop := ∀ c : Fin k → ℝ, (∀ a, ∑ j, c j * v j a = 0) → ∀ j, c j = 0

/-- The squared length. -/
def len2 (x : Row ℝ d) : ℝ := ∑ k, x k * x k

/-! ## Proofs -/

theorem Penrose.left {k : Nat} {v g : Fin k → Row ℝ d} (h : Penrose v g) (hi : Independent v) (j l : Fin k) : dot (g j) (v l) = if j = l then 1 else 0 := by
  have := hi (fun j => dot (g j) (v l) - if j = l then 1 else 0) (fun a => by
    simp only [sub_mul, Finset.sum_sub_distrib, ite_mul, one_mul, zero_mul, Finset.sum_ite_eq', Finset.mem_univ, if_true]
    rw [sub_eq_zero, ← h.gen l a]
    exact Finset.sum_congr rfl fun j _ => mul_comm _ _) j
  simpa [sub_eq_zero] using this

theorem zip_ofFn {k : Nat} (f : ℝ → Row ℝ d → ℝ) (c : Fin k → ℝ) (g : Fin k → Row ℝ d) :
    (List.zipWith f (List.ofFn c) (List.ofFn g)).sum = ∑ j, f (c j) (g j) := by
  have : List.zipWith f (List.ofFn c) (List.ofFn g) = List.ofFn fun j => f (c j) (g j) := by
    apply List.ext_getElem (by simp)
    intro i h1 h2
    simp
  rw [this, List.sum_ofFn]

theorem dot_comb' {k : Nat} (c : Fin k → ℝ) (g : Fin k → Row ℝ d) (w : Row ℝ d) : dot (fun a => ∑ j, c j * g j a) w = ∑ j, c j * dot (g j) w := by
  simp only [dot, Finset.sum_mul, Finset.mul_sum]
  rw [Finset.sum_comm]
  exact Finset.sum_congr rfl fun i _ => Finset.sum_congr rfl fun k _ => by ring

/-- C351 (execution of the inverse): after at least two samples, if the slow features are independent, execution of the inverse of an output gives
this output. -/
theorem exec_inverse {k : Nat} (s : ISt d p) (a : CSt ℝ d) (ha : s.avg = some a) (h2 : 2 ≤ a.iter) (v g : Fin k → Row ℝ d)
    (hs : s.sf = some (List.ofFn v)) (pinv : List (Row ℝ d) → List (Row ℝ d)) (hg : pinv (List.ofFn v) = List.ofFn g) (hp : Penrose v g)
    (hi : Independent v) (y : List ℝ) (hy : y.length = k) : ∃ x, s.inv pinv y = .ok x ∧ s.exec x = .ok y := by
  obtain ⟨c, rfl⟩ : ∃ c : Fin k → ℝ, y = List.ofFn c := by subst hy; exact ⟨fun i => y[i.1], by simp⟩
  refine ⟨fun b => (∑ j, c j * g j b) + a.avg.getD 0 b, by simp only [ISt.inv, hs, ha, hg, zip_ofFn], ?_⟩
  simp only [ISt.exec, hs, ha, centered, center]
  rw [if_neg (by omega)]
  have e : (fun b => (∑ j, c j * g j b) + a.avg.getD 0 b) - a.avg.getD 0 = fun b => ∑ j, c j * g j b := by
    funext b; simp
  rw [e, List.map_ofFn]
  congr 2
  funext l
  simp only [Function.comp, dot_comb', hp.left hi, mul_ite, mul_one, mul_zero, Finset.sum_ite_eq', Finset.mem_univ, if_true]

/-- C351 (inverse of an execution): after at least two samples, the inverse of the output of an input is the point nearest to the input among the average
plus all combinations of the slow features. -/
theorem inverse_nearest {k : Nat} (s : ISt d p) (a : CSt ℝ d) (ha : s.avg = some a) (h2 : 2 ≤ a.iter) (v g : Fin k → Row ℝ d)
    (hs : s.sf = some (List.ofFn v)) (pinv : List (Row ℝ d) → List (Row ℝ d)) (hg : pinv (List.ofFn v) = List.ofFn g) (hp : Penrose v g)
    (x : Row ℝ d) : ∃ y x', s.exec x = .ok y ∧ s.inv pinv y = .ok x' ∧
      (∃ c : Fin k → ℝ, x' = fun b => (∑ j, c j * v j b) + a.avg.getD 0 b) ∧
      ∀ c : Fin k → ℝ, len2 (x - x') ≤ len2 (x - fun b => (∑ j, c j * v j b) + a.avg.getD 0 b) := by
  set m : Row ℝ d := a.avg.getD 0 with hm
  have hy : s.exec x = .ok (List.ofFn fun j => dot (x - m) (v j)) := by
    simp only [ISt.exec, hs, ha, centered, center]
    rw [if_neg (by omega), List.map_ofFn]
    rfl
  have hx : s.inv pinv (List.ofFn fun j => dot (x - m) (v j)) = .ok fun b => (∑ j, dot (x - m) (v j) * g j b) + m b := by
    simp only [ISt.inv, hs, ha, hg, zip_ofFn, ← hm]
  -- the projection
  have hP : ∀ b, ∑ j, dot (x - m) (v j) * g j b = ∑ j, dot (g j) (x - m) * v j b := by
    intro b
    simp only [dot, Finset.sum_mul]
    rw [Finset.sum_comm]
    conv_rhs => rw [Finset.sum_comm]
    refine Finset.sum_congr rfl fun e _ => ?_
    have := hp.symm e b
    calc ∑ j, (x - m) e * v j e * g j b = (x - m) e * ∑ j, v j e * g j b := by rw [Finset.mul_sum]; exact Finset.sum_congr rfl fun j _ => by ring
      _ = (x - m) e * ∑ j, v j b * g j e := by rw [this]
      _ = _ := by rw [Finset.mul_sum]; exact Finset.sum_congr rfl fun j _ => by ring
  refine ⟨_, _, hy, hx, ⟨fun j => dot (g j) (x - m), ?_⟩, ?_⟩
  · funext b; rw [hP]
  intro c
  set q : Row ℝ d := fun b => ∑ j, dot (x - m) (v j) * g j b with hq
  have hort : ∀ l, dot (x - m - q) (v l) = 0 := by
    intro l
    have e1 : dot q (v l) = dot (x - m) (v l) := by
      rw [hq, dot_comb']
      have : ∀ b, ∑ j, v j b * dot (g j) (v l) = v l b := hp.gen l
      calc ∑ j, dot (x - m) (v j) * dot (g j) (v l) = ∑ b, (x - m) b * ∑ j, v j b * dot (g j) (v l) := by
            simp only [Finset.mul_sum]
            rw [Finset.sum_comm]
            refine Finset.sum_congr rfl fun j _ => ?_
            rw [dot, Finset.sum_mul]
            exact Finset.sum_congr rfl fun b _ => by ring
        _ = dot (x - m) (v l) := by simp only [this]; rfl
    have e2 : dot (x - m - q) (v l) = dot (x - m) (v l) - dot q (v l) := by
      simp only [dot, Pi.sub_apply, sub_mul, Finset.sum_sub_distrib]
    rw [e2, e1, sub_self]
  set w : Row ℝ d := fun b => ∑ j, (dot (g j) (x - m) - c j) * v j b with hw
  have hz : dot (x - m - q) w = 0 := by
    have : dot (x - m - q) w = dot w (x - m - q) := by simp only [dot]; exact Finset.sum_congr rfl fun b _ => mul_comm _ _
    rw [this, hw, dot_comb']
    refine Finset.sum_eq_zero fun j _ => ?_
    have e : dot (v j) (x - m - q) = dot (x - m - q) (v j) := by simp only [dot]; exact Finset.sum_congr rfl fun b _ => mul_comm _ _
    rw [e, hort, mul_zero]
  have hr : (x - fun b => (∑ j, c j * v j b) + m b) = (x - m - q) + w := by
    funext b
    simp only [Pi.sub_apply, Pi.add_apply, hw, sub_mul, Finset.sum_sub_distrib, ← hP, hq]
    ring
  have hl : (x - fun b => q b + m b) = x - m - q := by funext b; simp only [Pi.sub_apply]; ring
  have key : len2 ((x - m - q) + w) = len2 (x - m - q) + len2 w := by
    have : len2 ((x - m - q) + w) = len2 (x - m - q) + 2 * dot (x - m - q) w + len2 w := by
      simp only [len2, dot, Finset.mul_sum, ← Finset.sum_add_distrib, Pi.add_apply]
      exact Finset.sum_congr rfl fun b _ => by ring
    rw [this, hz]; ring
  have hw0 : 0 ≤ len2 w := Finset.sum_nonneg fun b _ => mul_self_nonneg _
  rw [hr, key]
  have : len2 (x - fun b => (∑ j, dot (x - m) (v j) * g j b) + m b) = len2 (x - m - q) := by rw [← hl]
  rw [this]
  linarith

/-- C351, false after a single sample: execution does not subtract the average yet, but the inverse adds it, so execution of the inverse is off by the
response to the average. -/
theorem inverse_violation {k : Nat} (s : ISt d p) (a : CSt ℝ d) (ha : s.avg = some a) (h2 : a.iter ≤ 1) (v g : Fin k → Row ℝ d)
    (hs : s.sf = some (List.ofFn v)) (pinv : List (Row ℝ d) → List (Row ℝ d)) (hg : pinv (List.ofFn v) = List.ofFn g) (hp : Penrose v g)
    (hi : Independent v) (c : Fin k → ℝ) :
    ∃ x, s.inv pinv (List.ofFn c) = .ok x ∧ s.exec x = .ok (List.ofFn fun j => c j + dot (a.avg.getD 0) (v j)) := by
  refine ⟨fun b => (∑ j, c j * g j b) + a.avg.getD 0 b, by simp only [ISt.inv, hs, ha, hg, zip_ofFn], ?_⟩
  simp only [ISt.exec, hs, ha, centered, center]
  rw [if_pos h2, List.map_ofFn]
  congr 2
  funext l
  have e : dot (fun b => (∑ j, c j * g j b) + a.avg.getD 0 b) (v l) = dot (fun b => ∑ j, c j * g j b) (v l) + dot (a.avg.getD 0) (v l) := by
    simp only [dot, add_mul, Finset.sum_add_distrib]
  simp only [Function.comp]
  rw [e, dot_comb']
  simp only [hp.left hi, mul_ite, mul_one, mul_zero, Finset.sum_ite_eq', Finset.mem_univ, if_true]

/-! ## A concrete case -/

def exV : Fin 1 → Row ℝ 2 := ![![2, 0]]
noncomputable def exG : Fin 1 → Row ℝ 2 := ![![1 / 2, 0]]

theorem exPenrose : Penrose exV exG where
  gen := by intro l a; fin_cases l; fin_cases a <;> norm_num [exV, exG, dot]
  symm := by intro a b; fin_cases a <;> fin_cases b <;> norm_num [exV, exG]

theorem exIndependent : Independent exV := by
  intro c h j
  have := h 0
  fin_cases j
  norm_num [exV] at this ⊢
  exact this

/-- A node after two samples; the first feature is twice the first coordinate. -/
noncomputable def exSt : ISt 2 1 :=
  { ISt.new 0.05 none true none ⟨20, 200, 2000, 3⟩ none none none true with sf := some (List.ofFn exV), avg := some ([![1, 0], ![3, 2]].foldl CSt.row { avgN := none }) }

example : ∃ a, exSt.avg = some a ∧ 2 ≤ a.iter ∧ exSt.sf = some (List.ofFn exV) := ⟨_, rfl, le_refl _, rfl⟩

end Mdp.IncSfa
