import Verif.Nodes.Sfa
import Verif.Nodes.PcaOut

/-!
# What an SFA node computes (C113-C115)
-/

namespace Mdp.Sfa

open Mdp.Cov Mdp.Join Mdp.Pca

variable {F : Type} [Field F] [LinearOrder F] {d : Nat}

/-! ## Specification -/

/-- Differences of consecutive entries. -/
def differences {α : Type} [Sub α] : List α → List α
  | x :: y :: l => (y - x) :: differences (y :: l)
  | _ => []

/-- A call of `train`: the chunk and `include_last_sample`. -/
abbrev Call (F : Type) (d : Nat) := List (Row F d) × Option Bool

/-- The samples whose mean and covariance count: all of the chunk, or all but the last one. -/
def samples (incl : Bool) (cs : List (Call F d)) : List (Row F d) :=
  cs.flatMap fun c => if c.2.getD incl then c.1 else c.1.dropLast

/-- The changes of a signal that is a function of the input, within the chunks. -/
def changes {α : Type} [Sub α] (f : Row F d → α) (cs : List (Call F d)) : List α := cs.flatMap fun c => differences (c.1.map f)

/-- The delta value of a signal: the sum of its squared changes divided by their number minus one. -/
def delta (f : Row F d → F) (cs : List (Call F d)) : F :=
  ((changes f cs).map fun a => a ^ 2).sum / (((changes f cs).length : F) - 1)

/-- Matrix of the second moments of the changes, normalised in the same way. -/
def moment (cs : List (Call F d)) : Mat F d d :=
  fun i j => ((changes id cs).map fun x => x i * x j).sum / (((changes id cs).length : F) - 1)

/-- `x` times `B` times `y`. -/
def form (B : Mat F d d) (x y : Row F d) : F := ∑ k, ∑ l, x k * B k l * y l

/-- `lam` are the generalised eigenvalues of `A` and `B` in ascending order, `v` are eigenvectors that are orthonormal for
`B`. -/
structure GenSpectrum (A B : Mat F d d) (lam : Fin d → F) (v : Fin d → Row F d) : Prop where
  eigen : ∀ i k, ∑ l, A k l * v i l = lam i * ∑ l, B k l * v i l
  ortho : ∀ i j, form B (v i) (v j) = if i = j then 1 else 0
  asc : ∀ i j, i ≤ j → lam i ≤ lam j

/-- The solver works for `A` and `B`: asked for all or for the `k` smallest, it returns eigenvalues and eigenvectors. -/
structure Solves (solver : Solver F d) (A B : Mat F d d) (lam : Fin d → F) (v : Fin d → Row F d) : Prop where
  spec : GenSpectrum A B lam v
  all : solver A B none = some (List.ofFn fun i => (lam i, v i))
  smallest : ∀ k, 1 ≤ k → k ≤ d → solver A B (some (1, k)) = some ((List.ofFn fun i => (lam i, v i)).take k)

/-- A node on which `train` has been called, whether or not calls raised. -/
def trained (incl : Bool) (out : Option Nat) (cs : List (Call F d)) : St F d :=
  cs.foldl (fun s c => (s.train c.1 c.2).2) { acc := some (sfaNew F d incl), outDim := out }

/-! ## Statistics -/

theorem differences_eq (x : List (Row F d)) : timeDerivative x = differences x := by
  induction x with
  | nil => rfl
  | cons a x ih => cases x with
    | nil => rfl
    | cons b x =>
      simp only [timeDerivative, List.drop_succ_cons, List.drop_zero, List.dropLast_cons₂, List.zipWith_cons_cons,
        differences] at ih ⊢
      rw [ih]

theorem differences_map (f : Row F d → F) (hf : ∀ x y, f (x - y) = f x - f y) (x : List (Row F d)) :
    differences (x.map f) = (differences x).map f := by
  induction x with
  | nil => rfl
  | cons a x ih => cases x with
    | nil => rfl
    | cons b x =>
      simp only [List.map_cons, differences, hf] at ih ⊢
      rw [ih]

theorem changes_map (f : Row F d → F) (hf : ∀ x y, f (x - y) = f x - f y) (cs : List (Call F d)) :
    changes f cs = (changes id cs).map f := by
  simp only [changes, List.map_id, List.map_flatMap]
  congr 1
  funext c
  exact differences_map f hf c.1

theorem trained_eq (incl : Bool) (out : Option Nat) (cs : List (Call F d)) (h2 : ∀ c ∈ cs, 2 ≤ c.1.length) :
    trained incl out cs = {
      acc := some ⟨(cs.map fun c => if c.2.getD incl then c.1 else c.1.dropLast).foldl CovSt.update (CovSt.new F d false),
        (cs.map fun c => differences c.1).foldl CovSt.update (CovSt.new F d false), incl⟩
      outDim := out } := by
  unfold trained sfaNew
  generalize CovSt.new F d false = a
  have key : ∀ a b : CovSt F d, cs.foldl (fun s c => (s.train c.1 c.2).2)
      ({ acc := some ⟨a, b, incl⟩, outDim := out } : St F d) =
      { acc := some ⟨(cs.map fun c => if c.2.getD incl then c.1 else c.1.dropLast).foldl CovSt.update a,
        (cs.map fun c => differences c.1).foldl CovSt.update b, incl⟩, outDim := out } := by
    induction cs with
    | nil => intro a b; rfl
    | cons c cs ih =>
      intro a b
      have hc := h2 c (by simp)
      have h1 : (({ acc := some ⟨a, b, incl⟩, outDim := out } : St F d).train c.1 c.2).2 =
          { acc := some ⟨a.update (if c.2.getD incl then c.1 else c.1.dropLast), b.update (differences c.1), incl⟩,
            outDim := out } := by
        simp only [St.train, sfaTrain, if_neg (not_lt.2 hc), differences_eq]
      rw [List.foldl_cons, h1, ih (fun c hc => h2 c (List.mem_cons_of_mem _ hc))]
      simp only [List.map_cons, List.foldl_cons]
  exact key a a

variable [IsStrictOrderedRing F]

theorem form_moment (cs : List (Call F d)) (w u : Row F d) :
    form (moment cs) w u = ((changes id cs).map fun x => dot x w * dot x u).sum / (((changes id cs).length : F) - 1) := by
  have h1 : ∀ x : Row F d, dot x w * dot x u = ∑ k, ∑ l, (w k * u l) * (x k * x l) := by
    intro x
    rw [dot, dot, Finset.sum_mul_sum]
    exact Finset.sum_congr rfl fun k _ => Finset.sum_congr rfl fun l _ => by ring
  simp only [form, moment, h1]
  rw [sum_swap, Finset.sum_div]
  refine Finset.sum_congr rfl fun k _ => ?_
  rw [sum_swap, Finset.sum_div]
  refine Finset.sum_congr rfl fun l _ => ?_
  rw [sum_map_mul]
  ring

theorem dot_sub (w x y : Row F d) : dot (x - y) w = dot x w - dot y w := by
  simp only [dot, Pi.sub_apply, sub_mul, Finset.sum_sub_distrib]

theorem differences_shift (l : List F) (b : F) : differences (l.map (· - b)) = differences l := by
  induction l with
  | nil => rfl
  | cons a x ih => cases x with
    | nil => rfl
    | cons c x =>
      simp only [List.map_cons, differences, sub_sub_sub_cancel_right] at ih ⊢
      rw [ih]

theorem delta_dot (cs : List (Call F d)) (w : Row F d) (b : F) :
    delta (fun x => dot x w - b) cs = form (moment cs) w w := by
  have h0 : changes (fun x => dot x w - b) cs = changes (fun x => dot x w) cs := by
    unfold changes
    congr 1
    funext c
    rw [← differences_shift (c.1.map fun x => dot x w) b, List.map_map]
    rfl
  rw [form_moment, delta, h0, changes_map _ (dot_sub w), List.map_map, List.length_map]
  congr 2
  refine List.map_congr_left fun x _ => ?_
  simp only [Function.comp, sq]

theorem stop_trained (incl : Bool) (out : Option Nat) (cs : List (Call F d)) (h2 : ∀ c ∈ cs, 2 ≤ c.1.length)
    (hn : 2 ≤ (samples incl cs).length) (hm : 2 ≤ (changes id cs).length) (solver : Solver F d) :
    ∃ avg, (∀ i, avg i = mean ((samples incl cs).map fun x => x i)) ∧
      (trained incl out cs).stop solver =
        ({ acc := none, fixed := some ⟨covOf (samples incl cs), avg, moment cs⟩, outDim := out } : St F d).solve solver
          ⟨covOf (samples incl cs), avg, moment cs⟩ := by
  rw [trained_eq incl out cs h2]
  have hfl : (cs.map fun c => if c.2.getD incl then c.1 else c.1.dropLast).flatten = samples incl cs := by
    rw [samples, List.flatMap_def]
  have hfd : (cs.map fun c => differences c.1).flatten = changes id cs := by
    rw [changes, List.flatMap_def]; simp
  obtain ⟨C, avg, h1, h3, h4⟩ := covariance_correct (F := F) false
    (cs.map fun c => if c.2.getD incl then c.1 else c.1.dropLast) (by rw [hfl]; simpa using hn)
  rw [hfl] at h1 h3 h4
  have hC : C = covOf (samples incl cs) := by funext i j; exact h3 i j
  subst hC
  have hne : (cs.map fun c => differences c.1) ≠ [] := by
    intro h0
    rw [← hfd, h0] at hm
    simp at hm
  obtain ⟨r1, r2, r3⟩ := CovSt.run_acc (cs.map fun c => differences c.1) (CovSt.new F d false) (Or.inl hne)
  rw [hfd] at r1 r2
  refine ⟨avg, h4, ?_⟩
  simp only [St.stop, h1]
  generalize (cs.map fun c => differences c.1).foldl CovSt.update (CovSt.new F d false) = dc at r1 r2 r3
  obtain ⟨da, dt, db⟩ := dc
  simp only [CovSt.new, Option.getD_none, zero_add] at r1 r2 r3
  subst r1; subst r2; subst r3
  have hmm : divM (multT (changes id cs) (changes id cs)) (((changes id cs).length : F) - 1) = moment cs := by
    funext i j
    simp only [divM, moment, multT, List.zipWith_self]
  simp only [CovSt.fix, Bool.false_eq_true, if_false, hmm]

end Mdp.Sfa
