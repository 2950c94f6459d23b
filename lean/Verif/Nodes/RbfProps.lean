import Verif.Nodes.Rbf
import Verif.Nodes.NeuralGasOut
import Mathlib.LinearAlgebra.Matrix.PosDef
import Mathlib.Algebra.BigOperators.Field
import Mathlib.Tactic.Linarith
import Mathlib.Tactic.Positivity

/-!
# Radial basis and general expansions (C252-C254)
-/

namespace Mdp.Rbf

open Mdp.Cov (Row)
open Mdp.NeuralGas (S P)

/-- The squared distance. -/
def distSq {d : Nat} (x c : Row ℝ d) : ℝ := ∑ i, (x i - c i) ^ 2

/-- The quadratic form `(x-c)^T M (x-c)`. -/
def form {d : Nat} (M : Matrix (Fin d) (Fin d) ℝ) (x c : Row ℝ d) : ℝ := ∑ i, ∑ j, (x i - c i) * M i j * (x j - c j)

theorem distSq_nonneg {d : Nat} (x c : Row ℝ d) : 0 ≤ distSq x c := Finset.sum_nonneg fun i _ => sq_nonneg _

theorem distSq_zero {d : Nat} (x c : Row ℝ d) : distSq x c = 0 ↔ x = c := by
  unfold distSq
  rw [Finset.sum_eq_zero_iff_of_nonneg fun i _ => sq_nonneg _]
  constructor
  · intro h
    funext i
    have := h i (Finset.mem_univ i)
    exact sub_eq_zero.1 (pow_eq_zero_iff (two_ne_zero)|>.1 this)
  · rintro rfl i _
    rw [sub_self, zero_pow two_ne_zero]

theorem exp_bell (q : ℝ) (hq : 0 ≤ q) :
    0 < Real.exp (-(1 / 2) * q) ∧ Real.exp (-(1 / 2) * q) ≤ 1 ∧ (Real.exp (-(1 / 2) * q) = 1 ↔ q = 0) := by
  refine ⟨Real.exp_pos _, Real.exp_le_one_iff.2 (by linarith), ?_⟩
  rw [Real.exp_eq_one_iff]
  constructor <;> intro h <;> linarith

/-- C252: isotropic functions: one output for every centre, `exp(-|x-c|^2/(2 s))`, between zero and one, one exactly at the centre. -/
theorem rbf_isotropic {d : Nat} (centers : List (Row ℝ d)) (sizes : List ℝ) (hc : centers ≠ []) (hl : sizes.length = centers.length)
    (hs : ∀ s ∈ sizes, 0 < s) :
    ∃ nd, init id id centers (.list (sizes.map some)) = .ok nd ∧ ∀ x, (nd.execute x).length = centers.length ∧
      ∀ (i : Nat) c s, centers[i]? = some c → sizes[i]? = some s →
        ∃ y, (nd.execute x)[i]? = some (some y) ∧ y = Real.exp (-(1 / 2) / s * distSq x c) ∧ 0 < y ∧ y ≤ 1 ∧ (y = 1 ↔ x = c) := by
  refine ⟨⟨centers, .iso (sizes.map some)⟩, ?_, ?_⟩
  · unfold init
    rw [if_neg (by simpa using hc)]
    simp only [id, List.map_id', List.length_map, hl, ne_eq, not_true_eq_false, if_false, List.map_map]
    congr 3
  · intro x
    refine ⟨by simp [Node.execute, hl], fun i c s h1 h2 => ⟨Real.exp (-(1 / 2) / s * distSq x c), ?_, rfl, ?_⟩⟩
    · have hp := hs s (List.mem_of_getElem? h2)
      simp only [Node.execute, List.getElem?_zipWith, h1, List.getElem?_map, h2, Option.map_some]
      simp only [isoValue]
      rw [if_neg hp.ne']
      congr 3
      unfold distSq
      ring
    · have hp := hs s (List.mem_of_getElem? h2)
      have e : -(1 / 2) / s * distSq x c = -(1 / 2) * (distSq x c / s) := by ring
      obtain ⟨h3, h4, h5⟩ := exp_bell (distSq x c / s) (div_nonneg (distSq_nonneg x c) hp.le)
      rw [e]
      refine ⟨h3, h4, h5.trans ?_⟩
      rw [div_eq_zero_iff, or_iff_left hp.ne', distSq_zero]

/-- The matrix of a table of numbers. -/
def toMatrix (d : Nat) (m : Nat → Nat → ℝ) : Matrix (Fin d) (Fin d) ℝ := Matrix.of fun i j => m i j

theorem invert_id {d : Nat} (m : Nat → Nat → ℝ) : invert id (Matrix.of fun i j : Fin d => id (m i j)) =
    if (toMatrix d m).det = 0 then .error .singular else .ok (toMatrix d m)⁻¹ := rfl

theorem mapM_invert {d : Nat} (l : List (Nat → Nat → ℝ)) (h : ∀ m ∈ l, (toMatrix d m).det ≠ 0) :
    (l.mapM fun m => invert id (Matrix.of fun i j : Fin d => id (m i j))) = .ok (l.map fun m => (toMatrix d m)⁻¹) := by
  induction l with
  | nil => rfl
  | cons m l ih =>
    rw [List.mapM_cons, ih fun m hm => h m (List.mem_cons_of_mem _ hm)]
    have h0 : invert id (Matrix.of fun i j : Fin d => id (m i j)) = .ok (toMatrix d m)⁻¹ := by
      rw [invert_id, if_neg (h m List.mem_cons_self)]
    rw [h0]
    rfl

theorem form_eq {d : Nat} (M : Matrix (Fin d) (Fin d) ℝ) (x c : Row ℝ d) :
    ∑ j, (x j - c j) * ∑ i, (x i - c i) * M i j = form M x c := by
  unfold form
  rw [Finset.sum_comm]
  refine Finset.sum_congr rfl fun j _ => ?_
  rw [Finset.mul_sum]
  refine Finset.sum_congr rfl fun i _ => ?_
  ring

theorem aniso_ok {d : Nat} (centers : List (Row ℝ d)) (l : List (Nat → Nat → ℝ)) (h : ∀ m ∈ l, (toMatrix d m).det ≠ 0) :
    aniso id centers d d l = .ok ⟨centers, .aniso (l.map fun m => (toMatrix d m)⁻¹)⟩ := by
  unfold aniso
  rw [if_neg (by simp), mapM_invert l h]

theorem matrices_ok {d : Nat} (centers : List (Row ℝ d)) (l : List (Nat → Nat → ℝ)) (hc : centers ≠ []) (hl : l.length = centers.length)
    (h : ∀ m ∈ l, (toMatrix d m).det ≠ 0) :
    init id id centers (.matrices d d l) = .ok ⟨centers, .aniso (l.map fun m => (toMatrix d m)⁻¹)⟩ := by
  unfold init
  rw [if_neg (by simpa using hc)]
  simp only [id, List.map_id', hl, ne_eq, not_true_eq_false, if_false]
  exact aniso_ok centers l h

/-- C252: anisotropic functions with covariance matrices: `exp(-(x-c)^T S^-1 (x-c)/2)`, between zero and one, one exactly at the centre. -/
theorem rbf_anisotropic {d : Nat} (centers : List (Row ℝ d)) (sizes : List (Nat → Nat → ℝ)) (hc : centers ≠ [])
    (hl : sizes.length = centers.length) (hs : ∀ m ∈ sizes, (toMatrix d m).PosDef) :
    ∃ nd, init id id centers (.matrices d d sizes) = .ok nd ∧ ∀ x, (nd.execute x).length = centers.length ∧
      ∀ (i : Nat) c m, centers[i]? = some c → sizes[i]? = some m →
        ∃ y M, M * toMatrix d m = 1 ∧ (nd.execute x)[i]? = some (some y) ∧ y = Real.exp (-(1 / 2) * form M x c) ∧ 0 < y ∧ y ≤ 1 ∧
          (y = 1 ↔ x = c) := by
  have hdet : ∀ m ∈ sizes, (toMatrix d m).det ≠ 0 := fun m hm => ((Matrix.isUnit_iff_isUnit_det _).1 (hs m hm).isUnit).ne_zero
  refine ⟨_, matrices_ok centers sizes hc hl hdet, ?_⟩
  intro x
  refine ⟨by simp [Node.execute, hl], fun i c m h1 h2 => ?_⟩
  have hm := List.mem_of_getElem? h2
  have hpos := (hs m hm).inv
  have hf : form (toMatrix d m)⁻¹ x c = dotProduct (star (x - c)) (((toMatrix d m)⁻¹).mulVec (x - c)) := by
    unfold form dotProduct Matrix.mulVec dotProduct
    refine Finset.sum_congr rfl fun i _ => ?_
    rw [Finset.mul_sum]
    refine Finset.sum_congr rfl fun j _ => ?_
    simp [mul_assoc]
  have hz : form (toMatrix d m)⁻¹ x c = 0 ↔ x = c := by
    constructor
    · intro h
      by_contra hne
      have := hpos.dotProduct_mulVec_pos (x := x - c) (sub_ne_zero.2 hne)
      rw [← hf, h] at this
      exact lt_irrefl _ this
    · rintro rfl
      simp [form]
  have hn : 0 ≤ form (toMatrix d m)⁻¹ x c := by
    rw [hf]
    exact hpos.posSemidef.dotProduct_mulVec_nonneg (x - c)
  obtain ⟨h3, h4, h5⟩ := exp_bell _ hn
  refine ⟨Real.exp (-(1 / 2) * form (toMatrix d m)⁻¹ x c), (toMatrix d m)⁻¹,
    Matrix.nonsing_inv_mul _ (isUnit_iff_ne_zero.2 (hdet m hm)), ?_, rfl, h3, h4, h5.trans hz⟩
  simp only [Node.execute, List.getElem?_zipWith, h1, List.getElem?_map, h2, Option.map_some, anisoValue]
  rw [form_eq]
  norm_num

/-- C252: a function with the variance `s` is the same as one with the covariance matrix `s` times identity. -/
theorem rbf_isotropic_anisotropic {d : Nat} (centers : List (Row ℝ d)) (hc : centers ≠ []) (s : ℝ) (hs : 0 < s) :
    ∃ nd nd', init id id centers (.scalar (some s)) = .ok nd ∧
      init id id centers (.matrix d d fun i j => if i = j then s else 0) = .ok nd' ∧ ∀ x, nd.execute x = nd'.execute x := by
  have hM : toMatrix d (fun i j => if i = j then s else 0) = s • (1 : Matrix (Fin d) (Fin d) ℝ) := by
    ext i j
    simp [toMatrix, Matrix.one_apply, Fin.ext_iff]
  have hdet : (toMatrix d (fun i j => if i = j then s else 0)).det ≠ 0 := by
    rw [hM, Matrix.det_smul, Matrix.det_one, mul_one]
    exact pow_ne_zero _ hs.ne'
  have hinv : (toMatrix d (fun i j => if i = j then s else 0))⁻¹ = s⁻¹ • (1 : Matrix (Fin d) (Fin d) ℝ) := by
    refine Matrix.inv_eq_left_inv ?_
    rw [hM, smul_mul_smul_comm, Matrix.one_mul, inv_mul_cancel₀ hs.ne', one_smul]
  have hc' : ¬ centers.length = 0 := by simpa using hc
  refine ⟨⟨centers, .iso (List.replicate centers.length (some s))⟩,
    ⟨centers, .aniso ((List.replicate centers.length (fun i j => if i = j then s else 0)).map fun m => (toMatrix d m)⁻¹)⟩, ?_, ?_, ?_⟩
  · unfold init
    rw [if_neg hc']
    simp
  · unfold init
    rw [if_neg hc']
    simp only [id, List.map_id']
    exact aniso_ok centers _ fun m hm => by rw [List.eq_of_mem_replicate hm]; exact hdet
  · intro x
    simp only [Node.execute]
    refine List.ext_getElem? fun i => ?_
    rw [List.getElem?_zipWith, List.getElem?_zipWith, List.map_replicate, List.getElem?_replicate, List.getElem?_replicate]
    by_cases hi : i < centers.length
    · rw [if_pos hi, if_pos hi, List.getElem?_eq_getElem hi]
      simp only [isoValue, anisoValue]
      rw [if_neg hs.ne', hinv]
      congr 4
      rw [Finset.sum_div]
      refine Finset.sum_congr rfl fun j _ => ?_
      rw [Finset.sum_eq_single j]
      · simp
        ring
      · intro i _ hij
        simp [Matrix.one_apply, hij]
      · simp
    · rw [if_neg hi, if_neg hi, List.getElem?_eq_none (by omega)]

/-- C252: one number or matrix stands for the same one for all centres. -/
theorem rbf_single {d : Nat} (castC castS : ℝ → ℝ) (centers : List (Row ℝ d)) (s : Option ℝ) (r c : Nat) (m : Nat → Nat → ℝ) :
    init castC castS centers (.scalar s) = init castC castS centers (.list (List.replicate centers.length s)) ∧
      init castC castS centers (.matrix r c m) = init castC castS centers (.matrices r c (List.replicate centers.length m)) := by
  unfold init
  constructor <;> simp

/-- C252: another number of sizes than of centres, matrices of another dimension and singular matrices are refused. -/
theorem rbf_refused {d : Nat} (centers : List (Row ℝ d)) (hc : centers ≠ []) :
    (∀ l : List (Option ℝ), l.length ≠ centers.length → init id id centers (.list l) = .error .node) ∧
    (∀ r c (l : List (Nat → Nat → ℝ)), l.length ≠ centers.length → init id id centers (.matrices r c l) = .error .node) ∧
    (∀ r c m, r ≠ d ∨ c ≠ d → init id id centers (.matrix r c m) = .error .node) ∧
    (∀ m, (toMatrix d m).det = 0 → init id id centers (.matrix d d m) = .error .singular) := by
  have hc' : ¬ centers.length = 0 := by simpa using hc
  refine ⟨fun l hl => ?_, fun r c l hl => ?_, fun r c m h => ?_, fun m h => ?_⟩
  · unfold init
    rw [if_neg hc']
    simp [hl]
  · unfold init
    rw [if_neg hc']
    simp [hl]
  · unfold init aniso
    rw [if_neg hc']
    simp only
    rw [if_pos h]
  · obtain ⟨k, hk⟩ : ∃ k, centers.length = k + 1 := ⟨centers.length - 1, by omega⟩
    unfold init aniso
    rw [if_neg hc']
    simp only [List.length_map]
    rw [if_neg (by simp), hk, List.replicate_succ, List.mapM_cons]
    have h0 : invert id (Matrix.of fun i j : Fin d => id (m i j)) = .error .singular := by
      rw [invert_id, if_pos h]
    rw [h0]
    rfl

/-- Conversion to an integer type. -/
noncomputable def toInt (x : ℝ) : ℝ := if 0 ≤ x then ⌊x⌋ else ⌈x⌉

/-- C252 (violated): with a covariance matrix of integers, the inverse is converted to integers; twice the identity gives one for all data. -/
theorem rbf_integer_false {d : Nat} (centers : List (Row ℝ d)) (hc : centers ≠ []) :
    ∃ nd, init id toInt centers (.matrix d d fun i j => if i = j then 2 else 0) = .ok nd ∧
      ∀ x, nd.execute x = List.replicate centers.length (some 1) := by
  have hc' : ¬ centers.length = 0 := by simpa using hc
  have h2 : toInt 2 = 2 := by
    unfold toInt
    rw [if_pos (by norm_num)]
    exact_mod_cast Int.floor_natCast (R := ℝ) 2
  have h0 : toInt 0 = 0 := by
    unfold toInt
    rw [if_pos (le_refl _), Int.floor_zero, Int.cast_zero]
  have hM : (Matrix.of fun i j : Fin d => toInt (if i.val = j.val then 2 else 0)) = (2 : ℝ) • (1 : Matrix (Fin d) (Fin d) ℝ) := by
    ext i j
    by_cases h : i = j
    · simp [h, h2]
    · simp [h, Fin.ext_iff, h0, Matrix.one_apply, mt Fin.ext h]
  have hinv : ((2 : ℝ) • (1 : Matrix (Fin d) (Fin d) ℝ))⁻¹ = (2 : ℝ)⁻¹ • (1 : Matrix (Fin d) (Fin d) ℝ) := by
    refine Matrix.inv_eq_left_inv ?_
    rw [smul_mul_smul_comm, Matrix.one_mul, inv_mul_cancel₀ two_ne_zero, one_smul]
  have hhalf : toInt 2⁻¹ = 0 := by
    unfold toInt
    rw [if_pos (by norm_num), Int.cast_eq_zero, Int.floor_eq_zero_iff]
    constructor <;> norm_num
  have hi : invert toInt (Matrix.of fun i j : Fin d => toInt (if i.val = j.val then 2 else 0)) = .ok 0 := by
    unfold invert
    rw [if_neg, hM, hinv]
    · congr 1
      ext i j
      rw [Matrix.of_apply]
      by_cases h : i = j
      · subst h
        simp only [Matrix.smul_apply, Matrix.one_apply_eq, smul_eq_mul, mul_one]
        exact hhalf
      · simp [Matrix.one_apply_ne h, h0]
    · rw [hM, Matrix.det_smul, Matrix.det_one, mul_one]
      exact pow_ne_zero _ two_ne_zero
  have hmap : ∀ k, ((List.replicate k fun i j : Nat => if i = j then (2 : ℝ) else 0).mapM
      fun m => invert toInt (Matrix.of fun i j : Fin d => toInt (m i j))) = .ok (List.replicate k 0) := by
    intro k
    induction k with
    | zero => rfl
    | succ k ih =>
      rw [List.replicate_succ, List.mapM_cons, ih, hi]
      rfl
  refine ⟨⟨centers, .aniso (List.replicate centers.length 0)⟩, ?_, ?_⟩
  · unfold init aniso
    rw [if_neg hc']
    simp only [id, List.map_id']
    rw [if_neg (by simp), hmap]
  · intro x
    simp only [Node.execute]
    refine List.ext_getElem? fun i => ?_
    rw [List.getElem?_zipWith, List.getElem?_replicate, List.getElem?_replicate]
    by_cases hi : i < centers.length
    · rw [if_pos hi, if_pos hi, List.getElem?_eq_getElem hi]
      simp [anisoValue]
    · rw [if_neg hi, if_neg hi, List.getElem?_eq_none (by omega)]

/-! ## Growing neural gas -/

theorem meanOf_some {l : List ℝ} (h : l ≠ []) : meanOf l = some (l.sum / l.length) := by
  unfold meanOf
  rw [if_neg (by simpa using h)]

theorem gas_node {d : Nat} (s : S ℝ d) (hn : s.g.nodes ≠ []) :
    (gasStop s).2 = .ok ⟨s.g.nodes.map s.pos, .iso (gasSizes s)⟩ := by
  unfold gasStop init
  rw [if_neg (by simpa using hn)]
  simp [gasSizes]

/-- C253: after training, whatever the data and their chunks, every node of the graph has one output; its size is the mean squared distance to
the nodes joined with it, of which there is one at least; unless they all are at the same place the output is `exp(-|x-c|^2/(2 size))`. -/
theorem gas_expansion {d : Nat} (P : P ℝ) (argsort : List ℝ → List Nat) (ha : Mdp.NeuralGas.IsArgsort argsort) (sqrt : ℝ → ℝ)
    (hA : 0 ≤ P.maxAge) (hl : P.lam ≠ 0) (start : Option (Row ℝ d × Row ℝ d)) (cs : List ((Row ℝ d × Row ℝ d) × List (Row ℝ d)))
    (hne : start.isSome ∨ cs ≠ []) (hcs : ∀ c ∈ cs, c.2 ≠ []) :
    ∃ s nd, Mdp.NeuralGas.trainAll P argsort sqrt cs (Mdp.NeuralGas.new start) = .ok s ∧ gasStop s = (s.g.nodes.length, .ok nd) ∧
      2 ≤ s.g.nodes.length ∧ s.g.nodes.length ≤ max 2 P.maxNodes ∧
      ∀ x, (nd.execute x).length = s.g.nodes.length ∧
        ∀ (i : Nat) n, s.g.nodes[i]? = some n → ∃ nb : List Nat, nb ≠ [] ∧ nb.Nodup ∧
          (∀ m, m ∈ nb ↔ m ∈ s.g.nodes ∧ ∃ e ∈ s.g.edges, Mdp.NeuralGas.Joins e n m) ∧
          ((∃ m ∈ nb, s.pos m ≠ s.pos n) → ∃ y, (nd.execute x)[i]? = some (some y) ∧
            y = Real.exp (-(1 / 2) * (distSq x (s.pos n) / ((nb.map fun m => distSq (s.pos n) (s.pos m)).sum / nb.length))) ∧
            0 < y ∧ y ≤ 1 ∧ (y = 1 ↔ x = s.pos n)) := by
  obtain ⟨s, h1, h2, h3, -⟩ := Mdp.NeuralGas.trainAll_ok P ha sqrt hA hl (fun _ => True) (Mdp.NeuralGas.kept_true P) start
    (fun _ _ _ => ⟨trivial, trivial⟩) cs hne (fun _ _ _ => ⟨trivial, trivial⟩) (fun _ _ _ _ => trivial)
  have hiso : Mdp.NeuralGas.NoIsolated s.g := by
    refine h3 ?_
    rcases hne with h | h
    · exact .inl h
    · obtain ⟨c, cs', rfl⟩ := List.exists_cons_of_ne_nil h
      exact .inr ⟨c, List.mem_cons_self, hcs c List.mem_cons_self⟩
  have hn : s.g.nodes ≠ [] := by
    intro h
    have := h2.two
    rw [h] at this
    simp at this
  refine ⟨s, _, h1, Prod.ext rfl (gas_node s hn), h2.two, h2.bound, fun x => ⟨by simp [Node.execute, gasSizes], fun i n hi => ?_⟩⟩
  have hmem : ∀ m, m ∈ Mdp.Graph.neighbors s.g n ↔ ∃ e ∈ s.g.edges, Mdp.NeuralGas.Joins e n m := Mdp.NeuralGas.mem_neighbors h2.cons n
  have hnb : Mdp.Graph.neighbors s.g n ≠ [] := by
    obtain ⟨e, he, h⟩ := hiso n (List.mem_of_getElem? hi)
    rcases h with h | h
    · exact List.ne_nil_of_mem ((hmem e.tail).2 ⟨e, he, .inl ⟨h, rfl⟩⟩)
    · exact List.ne_nil_of_mem ((hmem e.head).2 ⟨e, he, .inr ⟨rfl, h⟩⟩)
  refine ⟨_, hnb, Mdp.NeuralGas.neighbors_nodup h2.cons h2.simple n, fun m => ?_, ?_⟩
  · rw [hmem]
    constructor
    · rintro ⟨e, he, hj⟩
      refine ⟨?_, e, he, hj⟩
      rcases hj with ⟨-, rfl⟩ | ⟨rfl, -⟩
      · exact (h2.cons.ends e he).2
      · exact (h2.cons.ends e he).1
    · exact fun h => h.2
  · rintro ⟨m, hm, hpos⟩
    have hlen : (0 : ℝ) < (Mdp.Graph.neighbors s.g n).length := by
      exact_mod_cast List.length_pos_iff.2 hnb
    have hsum : 0 < ((Mdp.Graph.neighbors s.g n).map fun m => distSq (s.pos n) (s.pos m)).sum := by
      have hle := List.single_le_sum (l := (Mdp.Graph.neighbors s.g n).map fun m => distSq (s.pos n) (s.pos m)) (by
        intro v hv
        obtain ⟨k, -, rfl⟩ := List.mem_map.1 hv
        exact distSq_nonneg _ _) _ (List.mem_map_of_mem hm)
      have h0 : distSq (s.pos n) (s.pos m) ≠ 0 := fun h => hpos ((distSq_zero _ _).1 h).symm
      exact lt_of_lt_of_le (lt_of_le_of_ne (distSq_nonneg _ _) (Ne.symm h0)) hle
    have hq := div_pos hsum hlen
    obtain ⟨h4, h5, h6⟩ := exp_bell _ (div_nonneg (distSq_nonneg x (s.pos n)) hq.le)
    refine ⟨_, ?_, rfl, h4, h5, h6.trans ?_⟩
    · simp only [Node.execute, gasSizes, List.getElem?_zipWith, List.getElem?_map, hi, Option.map_some]
      rw [meanOf_some (by simpa using hnb), List.length_map]
      simp only [isoValue]
      rw [if_neg (by exact hq.ne')]
      congr 3
      norm_num
      rfl
    · rw [div_eq_zero_iff, or_iff_left hq.ne', distSq_zero]

/-- A stable sort of real numbers, and the default parameters. -/
noncomputable def sortReal (l : List ℝ) : List Nat := (List.range l.length).insertionSort fun i j => l.getD i 0 ≤ l.getD j 0

example : Mdp.NeuralGas.IsArgsort sortReal ∧ 0 ≤ (⟨0.2, 0.006, 50, 100, 0.5, 0.995, 100⟩ : P ℝ).maxAge ∧
    (⟨0.2, 0.006, 50, 100, 0.5, 0.995, 100⟩ : P ℝ).lam ≠ 0 := by
  refine ⟨fun l => ⟨List.perm_insertionSort _ _, ?_⟩, by norm_num, by simp⟩
  have : Std.Total fun i j => l.getD i 0 ≤ l.getD j 0 := ⟨fun a b => le_total _ _⟩
  have : IsTrans Nat fun i j => l.getD i 0 ≤ l.getD j 0 := ⟨fun a b c => le_trans⟩
  refine (List.pairwise_insertionSort (fun i j => l.getD i 0 ≤ l.getD j 0) _).imp ?_
  intro i j h a b ha hb
  simpa [List.getD, ha, hb] using h

/-- C253 (violated): if the start positions and all data are one point, all outputs for it are nan. -/
theorem gas_coincident_violation {d : Nat} (P : P ℝ) (argsort : List ℝ → List Nat) (ha : Mdp.NeuralGas.IsArgsort argsort) (sqrt : ℝ → ℝ)
    (hA : 0 ≤ P.maxAge) (hl : P.lam ≠ 0) (p : Row ℝ d) (n : Nat) (r : Row ℝ d × Row ℝ d) :
    ∃ s nd, Mdp.NeuralGas.trainAll P argsort sqrt [(r, List.replicate (n + 1) p)] (Mdp.NeuralGas.new (some (p, p))) = .ok s ∧
      gasStop s = (s.g.nodes.length, .ok nd) ∧ nd.execute p = List.replicate s.g.nodes.length none := by
  obtain ⟨s, h1, h2, h3, -⟩ := Mdp.NeuralGas.trainAll_ok P ha sqrt hA hl (fun q => q = p) (by
      rintro t - a b rfl rfl
      funext i
      rw [sub_self, mul_zero, add_zero]) (some (p, p))
    (by rintro _ _ ⟨⟩; exact ⟨rfl, rfl⟩) [(r, List.replicate (n + 1) p)] (.inl rfl) (fun _ h _ => nomatch h) (by
      intro c hc x hx
      rw [List.mem_singleton] at hc
      subst hc
      exact List.eq_of_mem_replicate hx)
  have hiso := h3 (.inl rfl)
  have hn : s.g.nodes ≠ [] := by
    intro h
    have := h2.two
    rw [h] at this
    simp at this
  refine ⟨s, _, h1, Prod.ext rfl (gas_node s hn), ?_⟩
  simp only [Node.execute, gasSizes]
  refine List.ext_getElem? fun i => ?_
  rw [List.getElem?_zipWith, List.getElem?_map, List.getElem?_map, List.getElem?_replicate]
  by_cases hi : i < s.g.nodes.length
  · rw [if_pos hi, List.getElem?_eq_getElem hi]
    have hm := List.getElem_mem hi
    generalize s.g.nodes[i] = k at hm
    have hmem : ∀ m, m ∈ Mdp.Graph.neighbors s.g k ↔ ∃ e ∈ s.g.edges, Mdp.NeuralGas.Joins e k m := Mdp.NeuralGas.mem_neighbors h2.cons k
    have hnb : Mdp.Graph.neighbors s.g k ≠ [] := by
      obtain ⟨e, he, h⟩ := hiso k hm
      rcases h with h | h
      · exact List.ne_nil_of_mem ((hmem e.tail).2 ⟨e, he, .inl ⟨h, rfl⟩⟩)
      · exact List.ne_nil_of_mem ((hmem e.head).2 ⟨e, he, .inr ⟨rfl, h⟩⟩)
    have hz : ((Mdp.Graph.neighbors s.g k).map fun m => ∑ i, (s.pos k i - s.pos m i) ^ 2) =
        List.replicate (Mdp.Graph.neighbors s.g k).length 0 := by
      rw [← List.map_const']
      refine List.map_congr_left fun m hm' => ?_
      have : m ∈ s.g.nodes := by
        obtain ⟨e, he, hj⟩ := (hmem m).1 hm'
        rcases hj with ⟨-, rfl⟩ | ⟨rfl, -⟩
        · exact (h2.cons.ends e he).2
        · exact (h2.cons.ends e he).1
      rw [h2.pos k hm, h2.pos m this]
      simp
    simp only [Option.map_some]
    rw [hz, meanOf_some (by simpa using hnb), List.sum_replicate, smul_zero, zero_div, h2.pos k hm]
    simp [isoValue]
  · rw [if_neg hi, List.getElem?_eq_none (by omega)]
    rfl

/-! ## General expansion -/

/-- What the node asks of a function: as many rows as its argument, and a number of columns that depends on that of the argument only. -/
def Regular (w : Nat → Nat) (f : Arr → Arr) : Prop := ∀ x, (f x).rows = x.rows ∧ (f x).cols = w x.cols

theorem fill_ok (x : Arr) (fs : List ((Nat → Nat) × (Arr → Arr))) (h : ∀ f ∈ fs, Regular f.1 f.2) (k : Nat) (out : Arr)
    (hr : out.rows = x.rows) :
    ∃ y, fill x (fs.map Prod.snd) (fs.map fun f => f.1 x.cols) k out = some y ∧ y.rows = out.rows ∧ y.cols = out.cols ∧
      (∀ t q, q < k → y.get t q = out.get t q) ∧
      ∀ (pre : List ((Nat → Nat) × (Arr → Arr))) f post, fs = pre ++ f :: post → ∀ t q, t < x.rows → q < f.1 x.cols →
        y.get t (k + (pre.map fun f => f.1 x.cols).sum + q) = (f.2 x).get t q := by
  induction fs generalizing k out with
  | nil =>
    refine ⟨out, rfl, rfl, rfl, fun _ _ _ => rfl, ?_⟩
    intro pre f post h
    simp at h
  | cons f fs ih =>
    obtain ⟨h1, h2⟩ := h f List.mem_cons_self x
    rw [List.map_cons, List.map_cons, fill]
    unfold assign
    rw [if_pos ⟨.inl (h1.trans hr.symm), .inl h2⟩, Option.bind_some]
    obtain ⟨y, e1, e2, e3, e4, e5⟩ := ih (fun g hg => h g (List.mem_cons_of_mem _ hg)) (k + f.1 x.cols) (Arr.mk out.rows out.cols fun t q =>
        if k ≤ q ∧ q < k + (f.1 x.cols) then (f.2 x).get (if (f.2 x).rows = 1 then 0 else t) (if (f.2 x).cols = 1 then 0 else q - k)
        else out.get t q) hr
    refine ⟨y, e1, e2, e3, ?_, ?_⟩
    · intro t q hq
      rw [e4 t q (by omega)]
      simp only
      rw [if_neg (by omega)]
    · intro pre g post hs t q ht hq
      cases pre with
      | nil =>
        simp only [List.nil_append, List.cons.injEq] at hs
        obtain ⟨rfl, -⟩ := hs
        simp only [List.map_nil, List.sum_nil, Nat.add_zero]
        rw [e4 t (k + q) (by omega)]
        simp only
        rw [if_pos (by omega), h1, h2]
        congr 1
        · split
          · omega
          · rfl
        · split
          · omega
          · omega
      | cons f' pre =>
        simp only [List.cons_append, List.cons.injEq] at hs
        obtain ⟨rfl, rfl⟩ := hs
        have := e5 pre g post rfl t q ht hq
        rw [List.map_cons, List.sum_cons, ← Nat.add_assoc]
        exact this

/-- C254: the output is the concatenation of what the functions give: column `q` of function `f` comes after all columns of those before. -/
theorem general_values (fs : List ((Nat → Nat) × (Arr → Arr))) (h : ∀ f ∈ fs, Regular f.1 f.2) (x : Arr) :
    ∃ y, general (fs.map Prod.snd) x = some y ∧ y.rows = x.rows ∧ y.cols = (fs.map fun f => f.1 x.cols).sum ∧
      expandedDim (fs.map Prod.snd) x.cols = y.cols ∧
      ∀ pre f post, fs = pre ++ f :: post → ∀ t q, t < x.rows → q < f.1 x.cols →
        y.get t ((pre.map fun f => f.1 x.cols).sum + q) = (f.2 x).get t q := by
  have hs : outputSizes (fs.map Prod.snd) x.cols = fs.map fun f => f.1 x.cols := by
    unfold outputSizes
    rw [List.map_map]
    refine List.map_congr_left fun f hf => ?_
    exact (h f hf _).2
  unfold general expandedDim
  rw [hs]
  obtain ⟨y, e1, e2, e3, -, e5⟩ := fill_ok x fs h 0 (Arr.zeros x.rows (fs.map fun f => f.1 x.cols).sum) rfl
  refine ⟨y, e1, e2, e3, e3.symm, ?_⟩
  intro pre f post hp t q ht hq
  have := e5 pre f post hp t q ht hq
  rwa [Nat.zero_add] at this

/-- C254 (violated): a function that gives one column only where two were found for zeros is not refused: the column is repeated. The same
with one row only. -/
theorem general_repeated_violation (f : Arr → Arr) (x : Arr) (hz : (f (Arr.zeros 1 x.cols)).cols = 2) (hf : (f x).rows = 1 ∧ (f x).cols = 1) :
    ∃ y, general [f] x = some y ∧ y.rows = x.rows ∧ y.cols = 2 ∧ ∀ t q, q < 2 → y.get t q = (f x).get 0 0 := by
  unfold general expandedDim outputSizes
  simp only [List.map_cons, List.map_nil, hz, List.sum_cons, List.sum_nil, fill, assign, hf]
  rw [if_pos ⟨.inr trivial, .inr trivial⟩]
  refine ⟨_, rfl, rfl, rfl, fun t q hq => ?_⟩
  simp only
  rw [if_pos (by omega)]
  simp

/-- The identity and the sum of each row. -/
example : Regular id id ∧ Regular (fun _ => 1) fun x => ⟨x.rows, 1, fun t _ => ((List.range x.cols).map (x.get t)).sum⟩ :=
  ⟨fun _ => ⟨rfl, rfl⟩, fun _ => ⟨rfl, rfl⟩⟩

/-- A function whose number of columns depends on the data. -/
example : ∃ (f : Arr → Arr) (x : Arr), (f (Arr.zeros 1 x.cols)).cols = 2 ∧ (f x).rows = 1 ∧ (f x).cols = 1 ∧ x.rows = 1 :=
  ⟨fun x => ⟨x.rows, if x.get 0 0 = 0 then 2 else 1, x.get⟩, ⟨1, 3, fun _ _ => 1⟩, by simp [Arr.zeros], rfl, by simp, rfl⟩

/-- A covariance matrix for two inputs. -/
example : (toMatrix 2 fun i j => if i = j then 2 else 1).PosDef := by
  refine Matrix.PosDef.of_dotProduct_mulVec_pos ?_ ?_
  · ext i j
    fin_cases i <;> fin_cases j <;> simp [toMatrix]
  · intro x hx
    have : x 0 ≠ 0 ∨ x 1 ≠ 0 := by
      by_contra hh
      push Not at hh
      refine hx ?_
      funext i
      fin_cases i
      · exact hh.1
      · exact hh.2
    have e : dotProduct (star x) ((toMatrix 2 fun i j => if i = j then 2 else 1).mulVec x) = x 0 ^ 2 + x 1 ^ 2 + (x 0 + x 1) ^ 2 := by
      simp [toMatrix, dotProduct, Matrix.mulVec, Fin.sum_univ_two]
      ring
    rw [e]
    rcases this with h | h
    · have := pow_pos (abs_pos.2 h) 2
      rw [sq_abs] at this
      positivity
    · have := pow_pos (abs_pos.2 h) 2
      rw [sq_abs] at this
      positivity

end Mdp.Rbf
