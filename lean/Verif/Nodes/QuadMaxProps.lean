import Verif.Nodes.QuadMax
import Verif.Nodes.Sfa2Props
import Mathlib.Algebra.Order.Archimedean.Basic
import Mathlib.Tactic.FieldSimp

/-!
# Extrema of quadratic forms (C120)
-/

namespace Mdp.Quad

open Mdp.Cov Mdp.Pca Mdp.Sfa

variable {F : Type} [Field F] [LinearOrder F] [IsStrictOrderedRing F] {n : Nat}

/-! ## Specification -/

/-- `mu` are the eigenvalues of `H` in ascending order, `v` are eigenvectors of length one, pairwise orthogonal. -/
structure EigAsc (H : Mat F (n + 1) (n + 1)) (mu : Fin (n + 1) → F) (v : Fin (n + 1) → Row F (n + 1)) : Prop where
  eigen : ∀ i k, ∑ l, H k l * v i l = mu i * v i k
  ortho : Orthonormal v
  asc : ∀ i j, i ≤ j → mu i ≤ mu j

/-- `nv` is the length of `v`. -/
def IsNorm (nv : F) (v : Row F (n + 1)) : Prop := 0 ≤ nv ∧ nv ^ 2 = dot v v

theorem IsNorm.pos {nv : F} {f : Row F (n + 1)} (hf : IsNorm nv f) (hf0 : f ≠ 0) : 0 < nv := by
  refine lt_of_le_of_ne hf.1 fun h0 => hf0 ?_
  have h1 := hf.2
  rw [← h0] at h1
  funext k
  have h2 : ∑ k, f k * f k = 0 := by
    show dot f f = 0
    rw [← h1]; ring
  have := (Finset.sum_eq_zero_iff_of_nonneg fun k _ => mul_self_nonneg (f k)).1 h2 k (Finset.mem_univ _)
  simpa using this

/-! ## Quadratic functions in the coordinates of the eigenvectors -/

theorem sumF_eq (f : Fin (n + 1) → F) : sumF f = ∑ i, f i := by
  unfold sumF
  rw [← List.ofFn_eq_map, List.sum_ofFn]

variable {H : Mat F (n + 1) (n + 1)} {f : Row F (n + 1)} {mu : Fin (n + 1) → F} {v : Fin (n + 1) → Row F (n + 1)}

theorem EigAsc.spectrum (h : EigAsc H mu v) : Spectrum (fun i j => - H i j) (fun i => - mu i) v := by
  refine ⟨fun i k => ?_, h.ortho, fun i j hij => neg_le_neg (h.asc i j hij)⟩
  simp only [neg_mul, Finset.sum_neg_distrib, h.eigen]

theorem dot_comm' (a b : Row F (n + 1)) : dot a b = dot b a := Finset.sum_congr rfl fun _ _ => mul_comm _ _

theorem EigAsc.value (h : EigAsc H mu v) (c : F) (y : Row F (n + 1)) :
    quadratic H f c y = ∑ i, (1 / 2 * mu i * dot y (v i) ^ 2 + dot (v i) f * dot y (v i)) + c := by
  have h1 := h.spectrum.quad_self y
  simp only [mul_neg, neg_mul, Finset.sum_neg_distrib, neg_inj] at h1
  have h2 : ∑ i, f i * y i = ∑ i, dot (v i) f * dot y (v i) := by
    have : ∀ k, f k * y k = ∑ i, dot y (v i) * (v i k * f k) := by
      intro k
      conv_lhs => rw [h.ortho.expand y k, Finset.mul_sum]
      exact Finset.sum_congr rfl fun i _ => by ring
    simp only [this]
    rw [Finset.sum_comm]
    refine Finset.sum_congr rfl fun i _ => ?_
    rw [← Finset.mul_sum, mul_comm]
    rfl
  simp only [Sfa.quadratic, h1, h2, Finset.mul_sum, Finset.sum_add_distrib]
  congr 2
  exact Finset.sum_congr rfl fun i _ => by ring

/-- A point where the gradient is a multiple of the point, by a number that is not less than the eigenvalues. -/
theorem EigAsc.stationary (h : EigAsc H mu v) (c l : F) (x y : Row F (n + 1)) (hx : ∀ i, dot (v i) f = (l - mu i) * dot x (v i))
    (hl : ∀ i, mu i ≤ l) (hy : l * dot y y ≤ l * dot x x) : quadratic H f c y ≤ quadratic H f c x := by
  rw [h.value, h.value]
  have h1 : ∑ i, (1 / 2 * mu i * dot x (v i) ^ 2 + dot (v i) f * dot x (v i)) -
      ∑ i, (1 / 2 * mu i * dot y (v i) ^ 2 + dot (v i) f * dot y (v i)) =
      ∑ i, 1 / 2 * (l - mu i) * (dot x (v i) - dot y (v i)) ^ 2 + 1 / 2 * (l * dot x x - l * dot y y) := by
    rw [← h.ortho.parseval x, ← h.ortho.parseval y, Finset.mul_sum, Finset.mul_sum, ← Finset.sum_sub_distrib,
      ← Finset.sum_sub_distrib, Finset.mul_sum, ← Finset.sum_add_distrib]
    refine Finset.sum_congr rfl fun i _ => ?_
    rw [hx i]
    ring
  have h2 : 0 ≤ ∑ i, 1 / 2 * (l - mu i) * (dot x (v i) - dot y (v i)) ^ 2 := by
    refine Finset.sum_nonneg fun i _ => ?_
    have := hl i
    have := sq_nonneg (dot x (v i) - dot y (v i))
    exact mul_nonneg (mul_nonneg (by norm_num) (by linarith)) this
  linarith

/-- The vector that `_maximize` returns for a multiplier. -/
theorem coords (h : Orthonormal v) (a : Fin (n + 1) → F) (i : Fin (n + 1)) :
    dot (fun k => ∑ j, v j k * a j) (v i) = a i := by
  have : dot (fun k => ∑ j, v j k * a j) (v i) = ∑ j, a j * dot (v j) (v i) := by
    simp only [dot, Finset.sum_mul, Finset.mul_sum]
    rw [Finset.sum_comm]
    exact Finset.sum_congr rfl fun j _ => Finset.sum_congr rfl fun k _ => by ring
  rw [this]
  have h2 : ∀ j, dot (v j) (v i) = if j = i then 1 else 0 := fun j => h j i
  simp [h2]

/-! ## The bisection -/

/-- The squared length of the solution for the multiplier `l`. -/
def lengthSq (mu alpha : Fin (n + 1) → F) (l : F) : F := ∑ i, alpha i ^ 2 * (1 / (l - mu i)) ^ 2

/-- What holds at the head of the loop. -/
structure Inv (norm : F) (mu alpha : Fin (n + 1) → F) (s : Loop F) : Prop where
  low : mu (Fin.last n) ≤ s.ll
  lt : s.ll < s.lr
  right : lengthSq mu alpha s.lr ≤ norm ^ 2
  left : s.ll = mu (Fin.last n) ∨ norm ^ 2 < lengthSq mu alpha s.ll
  lam : ∀ l, s.lambd = some l → s.nx = lengthSq mu alpha l ∧ mu (Fin.last n) < l ∧ (l = s.ll ∨ l = s.lr)

theorem Inv.step {norm : F} {alpha : Fin (n + 1) → F} {s : Loop F} (h : Inv norm mu alpha s) :
    Inv norm mu alpha (s.step norm mu alpha) := by
  have h1 := h.lt
  have h2 := h.low
  have hm : mu (Fin.last n) < 1 / 2 * (s.lr - s.ll) + s.ll := by linarith
  simp only [Loop.step, sumF_eq]
  split
  · rename_i hgt
    refine ⟨hm.le, by simp only; linarith, h.right, Or.inr hgt, ?_⟩
    intro l hl
    cases hl
    exact ⟨rfl, hm, Or.inl rfl⟩
  · rename_i hle
    refine ⟨h2, by simp only; linarith, not_lt.1 hle, h.left, ?_⟩
    intro l hl
    cases hl
    exact ⟨rfl, hm, Or.inr rfl⟩

theorem run_inv (tol norm epsilon : F) (alpha : Fin (n + 1) → F) (fuel : Nat) (s t : Loop F)
    (h : Inv norm mu alpha s) (hr : Loop.run tol norm epsilon mu alpha fuel s = some t) :
    Inv norm mu alpha t ∧ t.goes tol norm epsilon = false := by
  induction fuel generalizing s with
  | zero =>
    simp only [Loop.run] at hr
    split at hr
    · cases hr
    · rename_i hg
      cases hr
      exact ⟨h, by simpa using hg⟩
  | succ fuel ih =>
    simp only [Loop.run] at hr
    split at hr
    · exact ih _ h.step hr
    · rename_i hg
      cases hr
      exact ⟨h, by simpa using hg⟩

theorem inv_init {norm nf : F} {alpha : Fin (n + 1) → F} (hn : 0 < norm) (hf : 0 < nf) (ha : nf ^ 2 = ∑ i, alpha i ^ 2)
    (hasc : ∀ i, mu i ≤ mu (Fin.last n)) : Inv norm mu alpha (Loop.init nf norm mu) := by
  have hq : 0 < nf / norm := div_pos hf hn
  refine ⟨le_refl _, by simp only [Loop.init]; linarith, ?_, Or.inl rfl, fun l hl => by cases hl⟩
  have h1 : ∀ i, alpha i ^ 2 * (1 / ((Loop.init nf norm mu).lr - mu i)) ^ 2 ≤ alpha i ^ 2 * (norm / nf) ^ 2 := by
    intro i
    refine mul_le_mul_of_nonneg_left ?_ (sq_nonneg _)
    have hd : nf / norm ≤ (Loop.init nf norm mu).lr - mu i := by
      simp only [Loop.init]; linarith [hasc i]
    have h2 : 1 / ((Loop.init nf norm mu).lr - mu i) ≤ norm / nf := by
      have := one_div_le_one_div_of_le hq hd
      rwa [one_div_div] at this
    exact pow_le_pow_left₀ (one_div_nonneg.2 (hq.le.trans hd)) h2 2
  calc lengthSq mu alpha (Loop.init nf norm mu).lr ≤ ∑ i, alpha i ^ 2 * (norm / nf) ^ 2 :=
        Finset.sum_le_sum fun i _ => h1 i
    _ = nf ^ 2 * (norm / nf) ^ 2 := by rw [← Finset.sum_mul, ha]
    _ = norm ^ 2 := by field_simp

/-- `_maximize`: the vector has the largest value of all vectors of its length; its length is the one asked for up to the
tolerance, or the multiplier is known to the given relative precision. -/
theorem maximize_spec (e : Env F n) (c norm tol : F) (fuel : Nat) (x : Row F (n + 1))
    (he : EigAsc H (e.eig H).1 (e.eig H).2) (hn : 0 < norm) (hf : IsNorm (e.norm2 f) f) (hf0 : f ≠ 0)
    (h : maximize e H f norm tol fuel = .ok x) :
    (∀ y, dot y y = dot x x → quadratic H f c y ≤ quadratic H f c x) ∧
    (|dot x x - norm ^ 2| ≤ tol ∨ ∃ ll lr l, ll < lr ∧ (l = ll ∨ l = lr) ∧
      (lr = 0 ∨ (lr - ll) / lr ≤ e.epsilon) ∧
      (∀ k, ∑ j, H k j * x j + f k = l * x k) ∧ (e.eig H).1 (Fin.last n) < l) := by
  rcases hev : e.eig H with ⟨mu, v⟩
  simp only [hev] at he
  simp only [maximize, hev] at h
  have halpha : ∀ i, (sumF fun k => v i k * f k) = dot (v i) f := by
    intro i; rw [sumF_eq]; rfl
  simp only [halpha] at h
  have hpos := hf.pos hf0
  have ha : e.norm2 f ^ 2 = ∑ i, dot (v i) f ^ 2 := by
    rw [hf.2, ← he.ortho.parseval f]
    exact Finset.sum_congr rfl fun i _ => by rw [dot_comm']
  split at h
  · cases h
  · rename_i s hrun
    obtain ⟨hinv, hgoes⟩ := run_inv tol norm e.epsilon _ fuel _ s
      (inv_init hn hpos ha fun i => he.asc i _ (Fin.le_last i)) hrun
    split at h
    · cases h
    · rename_i l hl
      obtain ⟨hnx, hlt, hlr⟩ := hinv.lam l hl
      cases h
      have hne : ∀ i, l - mu i ≠ 0 := by
        intro i
        have := he.asc i _ (Fin.le_last i)
        exact ne_of_gt (by linarith)
      generalize hxdef : (fun k => sumF fun i => v i k * dot (v i) f * (1 / (l - mu i))) = x
      have hx : ∀ i, dot x (v i) = dot (v i) f * (1 / (l - mu i)) := by
        intro i
        rw [← coords he.ortho (fun i => dot (v i) f * (1 / (l - mu i))) i, ← hxdef]
        congr 1
        funext k
        rw [sumF_eq]
        exact Finset.sum_congr rfl fun j _ => by ring
      have hcoord : ∀ i, dot (v i) f = (l - mu i) * dot x (v i) := by
        intro i
        rw [hx]
        field_simp [hne i]
      have hlen : dot x x = lengthSq mu (fun i => dot (v i) f) l := by
        rw [← he.ortho.parseval x]
        refine Finset.sum_congr rfl fun i _ => ?_
        rw [hx, mul_pow]
      refine ⟨fun y hy => he.stationary c l x y hcoord ?_ (by rw [hy]), ?_⟩
      · intro i
        exact (he.asc i _ (Fin.le_last i)).trans hlt.le
      · simp only [Loop.goes, Bool.and_eq_false_iff, decide_eq_false_iff_not, not_lt] at hgoes
        rcases hgoes with hg | hg
        · exact Or.inl (by rw [hlen, ← hnx]; exact hg)
        · refine Or.inr ⟨s.ll, s.lr, l, hinv.lt, hlr, ?_, ?_, hlt⟩
          · split at hg
            · exact Or.inl (by assumption)
            · exact Or.inr (by simpa using hg)
          · intro k
            have h1 : ∑ j, H k j * x j = ∑ i, dot x (v i) * (mu i * v i k) := by
              have : ∀ j, H k j * x j = ∑ i, dot x (v i) * (H k j * v i j) := by
                intro j
                conv_lhs => rw [he.ortho.expand x j, Finset.mul_sum]
                exact Finset.sum_congr rfl fun i _ => by ring
              simp only [this]
              rw [Finset.sum_comm]
              refine Finset.sum_congr rfl fun i _ => ?_
              rw [← Finset.mul_sum, he.eigen]
            rw [h1, he.ortho.expand f k, he.ortho.expand x k, Finset.mul_sum, ← Finset.sum_add_distrib]
            refine Finset.sum_congr rfl fun i _ => ?_
            rw [dot_comm' f, hcoord i]
            ring

theorem quadratic_neg (H : Mat F (n + 1) (n + 1)) (f : Row F (n + 1)) (c : F) (x : Row F (n + 1)) :
    quadratic (fun i j => -1 * H i j) (fun i => -1 * f i) (-c) x = - quadratic H f c x := by
  simp only [quadratic]
  have h1 : ∀ i j, x i * (-1 * H i j) * x j = - (x i * H i j * x j) := fun i j => by ring
  have h2 : ∀ i, -1 * f i * x i = - (f i * x i) := fun i => by ring
  simp only [h1, h2, Finset.sum_neg_distrib]
  ring

/-- The solution of the linear system, in coordinates. -/
theorem solve_coord (he : EigAsc H mu v) (hH : ∀ i j, H i j = H j i) (x0 : Row F (n + 1))
    (hx : ∀ k, ∑ l, - H k l * x0 l = f k) (i : Fin (n + 1)) : dot (v i) f = (0 - mu i) * dot x0 (v i) := by
  have h1 : dot (v i) f = - ∑ k, ∑ l, v i k * H k l * x0 l := by
    simp only [dot, ← hx, Finset.mul_sum, ← Finset.sum_neg_distrib]
    exact Finset.sum_congr rfl fun k _ => Finset.sum_congr rfl fun l _ => by ring
  have h2 : ∑ k, ∑ l, v i k * H k l * x0 l = ∑ l, x0 l * ∑ k, H l k * v i k := by
    rw [Finset.sum_comm]
    refine Finset.sum_congr rfl fun l _ => ?_
    rw [Finset.mul_sum]
    exact Finset.sum_congr rfl fun k _ => by rw [hH k l]; ring
  rw [h1, h2]
  simp only [he.eigen, dot, Finset.mul_sum, zero_sub, neg_mul, ← Finset.sum_neg_distrib]
  exact Finset.sum_congr rfl fun k _ => by ring

/-- How close the length of a result is to the length asked for: equal; or shorter, and then the result is the best of all
vectors (`best`); or up to the tolerance; or up to the precision of the multiplier. -/
def Close (H : Mat F (n + 1) (n + 1)) (f : Row F (n + 1)) (norm tol epsilon : F) (best : Prop) (x : Row F (n + 1)) : Prop :=
  dot x x = norm ^ 2 ∨ (dot x x ≤ norm ^ 2 ∧ best) ∨ |dot x x - norm ^ 2| ≤ tol ∨
    ∃ ll lr l, ll < lr ∧ (l = ll ∨ l = lr) ∧ (lr = 0 ∨ (lr - ll) / lr ≤ epsilon) ∧ ∀ k, ∑ j, H k j * x j + f k = l * x k

/-- **C120**: the vectors that `get_extrema` returns have the largest and the smallest value of all vectors of the same
length. -/
theorem extrema_optimal (e : Env F n) (H : Mat F (n + 1) (n + 1)) (f : Row F (n + 1)) (c norm tol : F) (fuel : Nat)
    (hH : ∀ i j, H i j = H j i)
    (he : EigAsc H (e.eig H).1 (e.eig H).2)
    (he' : EigAsc (fun i j => -1 * H i j) (e.eig fun i j => -1 * H i j).1 (e.eig fun i j => -1 * H i j).2)
    (hs : ∀ x, e.solve (fun i j => - H i j) f = some x → (∀ k, ∑ l, - H k l * x l = f k) ∧ IsNorm (e.norm2 x) x)
    (hf : IsNorm (e.norm2 f) f) (hf' : IsNorm (e.norm2 fun i => -1 * f i) fun i => -1 * f i)
    (hf0 : f = 0 ∨ ∃ i, e.eps ≤ |f i|) (heps : 0 < e.eps) (hn : 0 < norm) (xmax xmin : Row F (n + 1))
    (h : getExtrema e H f norm tol fuel = .ok (xmax, xmin)) :
    (∀ y, dot y y = dot xmax xmax → quadratic H f c y ≤ quadratic H f c xmax) ∧
    (∀ y, dot y y = dot xmin xmin → quadratic H f c xmin ≤ quadratic H f c y) ∧
    Close H f norm tol e.epsilon (∀ y, quadratic H f c y ≤ quadratic H f c xmax) xmax ∧
    Close (fun i j => -1 * H i j) (fun i => -1 * f i) norm tol e.epsilon (∀ y, quadratic H f c xmin ≤ quadratic H f c y) xmin := by
  unfold getExtrema at h
  split at h
  · rename_i hsmall
    have hz : f = 0 := by
      rcases hf0 with h0 | ⟨i, hi⟩
      · exact h0
      · exact absurd (hsmall i) (not_lt.2 hi)
    cases h
    have hlen : ∀ i, dot (fun k => (e.eig H).2 i k * norm) (fun k => (e.eig H).2 i k * norm) = norm ^ 2 := by
      intro i
      have h1 := he.ortho i i
      rw [if_pos rfl] at h1
      have : dot (fun k => (e.eig H).2 i k * norm) (fun k => (e.eig H).2 i k * norm) =
          dot ((e.eig H).2 i) ((e.eig H).2 i) * norm ^ 2 := by
        simp only [dot, Finset.sum_mul]
        exact Finset.sum_congr rfl fun k _ => by ring
      rw [this, h1, one_mul]
    have hco : ∀ i j, dot (fun k => (e.eig H).2 i k * norm) ((e.eig H).2 j) = if i = j then norm else 0 := by
      intro i j
      have h1 := he.ortho i j
      have : dot (fun k => (e.eig H).2 i k * norm) ((e.eig H).2 j) = dot ((e.eig H).2 i) ((e.eig H).2 j) * norm := by
        simp only [dot, Finset.sum_mul]
        exact Finset.sum_congr rfl fun k _ => by ring
      rw [this, h1]
      split <;> simp
    have hval : ∀ i, quadratic H f c (fun k => (e.eig H).2 i k * norm) = 1 / 2 * (e.eig H).1 i * norm ^ 2 + c := by
      intro i
      have h0 : ∀ i, dot ((e.eig H).2 i) 0 = 0 := fun i => by simp [dot]
      rw [he.value, hz]
      simp only [hco, h0]
      simp
    have hvy : ∀ y, quadratic H f c y = ∑ i, 1 / 2 * (e.eig H).1 i * dot y ((e.eig H).2 i) ^ 2 + c := by
      intro y
      rw [he.value, hz]
      simp [dot]
    refine ⟨fun y hy => ?_, fun y hy => ?_, Or.inl (hlen _), Or.inl (hlen _)⟩
    · rw [hlen, ← he.ortho.parseval] at hy
      rw [hval, hvy, ← hy, Finset.mul_sum]
      refine add_le_add (Finset.sum_le_sum fun i _ => ?_) (le_refl _)
      have := he.asc i _ (Fin.le_last i)
      exact mul_le_mul_of_nonneg_right (by linarith) (sq_nonneg _)
    · rw [hlen, ← he.ortho.parseval] at hy
      rw [hval, hvy, ← hy, Finset.mul_sum]
      refine add_le_add (Finset.sum_le_sum fun i _ => ?_) (le_refl _)
      have := he.asc 0 i (Fin.zero_le i)
      exact mul_le_mul_of_nonneg_right (by linarith) (sq_nonneg _)
  · rename_i hbig
    have hfne : f ≠ 0 := by
      rintro rfl
      exact hbig fun i => by simpa using heps
    have hfne' : (fun i => -1 * f i) ≠ 0 := by
      intro h0
      refine hfne (funext fun i => ?_)
      have := congrFun h0 i
      simpa using this
    cases hsol : e.solve (fun i j => - H i j) f with
    | none => rw [hsol] at h; cases h
    | some x0 =>
      obtain ⟨hx0, hx0n⟩ := hs x0 hsol
      have hxc := solve_coord he hH x0 hx0
      rw [hsol] at h
      simp only at h
      split at h
      · cases h
      rename_i a hmin
      split at h
      · cases h
      rename_i b hmax
      cases h
      unfold xminOf at hmin
      unfold xmaxOf at hmax
      have hball : e.norm2 x0 ≤ norm → dot x0 x0 ≤ norm ^ 2 := by
        intro hle
        rw [← hx0n.2]
        exact pow_le_pow_left₀ hx0n.1 hle 2
      have hM : (∀ y, dot y y = dot xmax xmax → quadratic H f c y ≤ quadratic H f c xmax) ∧
          Close H f norm tol e.epsilon (∀ y, quadratic H f c y ≤ quadratic H f c xmax) xmax := by
        split at hmax
        · rename_i hc
          cases hmax
          simp only [Bool.and_eq_true, decide_eq_true_eq] at hc
          have hbest : ∀ y, quadratic H f c y ≤ quadratic H f c xmax := fun y =>
            he.stationary c 0 xmax y hxc (fun i => (he.asc i _ (Fin.le_last i)).trans hc.1.2) (by simp)
          exact ⟨fun y _ => hbest y, Or.inr (Or.inl ⟨hball hc.2, hbest⟩)⟩
        · obtain ⟨h1, h2⟩ := maximize_spec e c norm tol fuel xmax he hn hf hfne hmax
          refine ⟨h1, ?_⟩
          rcases h2 with h2 | ⟨ll, lr, l, g1, g2, g3, g4, -⟩
          · exact Or.inr (Or.inr (Or.inl h2))
          · exact Or.inr (Or.inr (Or.inr ⟨ll, lr, l, g1, g2, g3, g4⟩))
      have hm : (∀ y, dot y y = dot xmin xmin → quadratic H f c xmin ≤ quadratic H f c y) ∧
          Close (fun i j => -1 * H i j) (fun i => -1 * f i) norm tol e.epsilon
            (∀ y, quadratic H f c xmin ≤ quadratic H f c y) xmin := by
        have hneg : ∀ x y, quadratic (fun i j => -1 * H i j) (fun i => -1 * f i) (-c) y ≤
            quadratic (fun i j => -1 * H i j) (fun i => -1 * f i) (-c) x → quadratic H f c x ≤ quadratic H f c y := by
          intro x y hxy
          rw [quadratic_neg, quadratic_neg] at hxy
          linarith
        split at hmin
        · rename_i hc
          cases hmin
          simp only [Bool.and_eq_true, decide_eq_true_eq] at hc
          have hbest : ∀ y, quadratic H f c xmin ≤ quadratic H f c y := by
            intro y
            rw [he.value, he.value]
            have h1 : ∑ i, (1 / 2 * (e.eig H).1 i * dot y ((e.eig H).2 i) ^ 2 + dot ((e.eig H).2 i) f * dot y ((e.eig H).2 i)) -
                ∑ i, (1 / 2 * (e.eig H).1 i * dot xmin ((e.eig H).2 i) ^ 2 + dot ((e.eig H).2 i) f * dot xmin ((e.eig H).2 i)) =
                ∑ i, 1 / 2 * (e.eig H).1 i * (dot y ((e.eig H).2 i) - dot xmin ((e.eig H).2 i)) ^ 2 := by
              rw [← Finset.sum_sub_distrib]
              refine Finset.sum_congr rfl fun i _ => ?_
              rw [hxc i]
              ring
            have h2 : 0 ≤ ∑ i, 1 / 2 * (e.eig H).1 i * (dot y ((e.eig H).2 i) - dot xmin ((e.eig H).2 i)) ^ 2 := by
              refine Finset.sum_nonneg fun i _ => ?_
              have := he.asc 0 i (Fin.zero_le i)
              exact mul_nonneg (mul_nonneg (by norm_num) (le_trans hc.1 this)) (sq_nonneg _)
            linarith
          exact ⟨fun y _ => hbest y, Or.inr (Or.inl ⟨hball hc.2, hbest⟩)⟩
        · obtain ⟨h1, h2⟩ := maximize_spec e (-c) norm tol fuel xmin he' hn hf' hfne' hmin
          refine ⟨fun y hy => hneg _ _ (h1 y hy), ?_⟩
          rcases h2 with h2 | ⟨ll, lr, l, g1, g2, g3, g4, -⟩
          · exact Or.inr (Or.inr (Or.inl h2))
          · exact Or.inr (Or.inr (Or.inr ⟨ll, lr, l, g1, g2, g3, g4⟩))
      exact ⟨hM.1, hm.1, hM.2, hm.2⟩

/-- For lengths whose square does not exceed the tolerance the search raises: its result is not bound. -/
theorem maximize_unbound (e : Env F n) (H : Mat F (n + 1) (n + 1)) (f : Row F (n + 1)) (norm tol : F) (fuel : Nat)
    (h : norm ^ 2 ≤ tol) : maximize e H f norm tol fuel = .error .unbound := by
  have hg : (Loop.init (e.norm2 f) norm (e.eig H).1).goes tol norm e.epsilon = false := by
    simp only [Loop.goes, Loop.init, zero_sub, abs_neg, abs_of_nonneg (sq_nonneg norm), gt_iff_lt, not_lt.2 h, decide_false,
      Bool.false_and]
  have hrun : ∀ alpha, Loop.run tol norm e.epsilon (e.eig H).1 alpha fuel (Loop.init (e.norm2 f) norm (e.eig H).1) =
      some (Loop.init (e.norm2 f) norm (e.eig H).1) := by
    intro alpha
    cases fuel <;> simp only [Loop.run, hg, Bool.false_eq_true, if_false]
  simp only [maximize, hrun]
  rfl

/-- **C121**: `get_extrema` raises for every singular matrix, unless the linear part vanishes. -/
theorem extrema_singular (e : Env F n) (H : Mat F (n + 1) (n + 1)) (f : Row F (n + 1)) (norm tol : F) (fuel : Nat)
    (hf : ∃ i, e.eps ≤ |f i|) (hs : e.solve (fun i j => - H i j) f = none) :
    getExtrema e H f norm tol fuel = .error .singular := by
  unfold getExtrema
  rw [if_neg (fun h => by obtain ⟨i, hi⟩ := hf; exact absurd (h i) (not_lt.2 hi)), hs]

/-- **C121**: it raises for every length whose square does not exceed the tolerance, unless the linear part vanishes. -/
theorem extrema_short (e : Env F n) (H : Mat F (n + 1) (n + 1)) (f : Row F (n + 1)) (norm tol : F) (fuel : Nat)
    (hf : ∃ i, e.eps ≤ |f i|) (h : norm ^ 2 ≤ tol) : ∃ er, getExtrema e H f norm tol fuel = .error er := by
  unfold getExtrema
  rw [if_neg (fun h => by obtain ⟨i, hi⟩ := hf; exact absurd (h i) (not_lt.2 hi))]
  cases e.solve (fun i j => - H i j) f with
  | none => exact ⟨_, rfl⟩
  | some x0 =>
    simp only [xminOf, xmaxOf, maximize_unbound e _ _ norm tol fuel h]
    by_cases hp : (e.eig H).1 0 ≥ 0
    · by_cases hx : e.norm2 x0 ≤ norm <;> simp [hp, hx]
    · simp [hp]

theorem run_terminates {tol norm epsilon : F} {alpha : Fin (n + 1) → F} (hmu : 0 < mu (Fin.last n)) (fuel : Nat) (s : Loop F)
    (h : Inv norm mu alpha s) (he : 0 < epsilon) (hw : s.lr - s.ll ≤ epsilon * mu (Fin.last n) * 2 ^ fuel) :
    Loop.run tol norm epsilon mu alpha fuel s ≠ none := by
  induction fuel generalizing s with
  | zero =>
    have hlr : 0 < s.lr := lt_of_lt_of_le hmu (h.low.trans h.lt.le)
    have hg : s.goes tol norm epsilon = false := by
      have h1 : (s.lr - s.ll) / s.lr ≤ epsilon := by
        rw [div_le_iff₀ hlr]
        have := mul_le_mul_of_nonneg_left (h.low.trans h.lt.le) he.le
        simp only [pow_zero, mul_one] at hw
        linarith
      simp [Loop.goes, hlr.ne', h1]
    simp [Loop.run, hg]
  | succ fuel ih =>
    simp only [Loop.run]
    split
    · refine ih _ h.step ?_
      have h1 : (s.step norm mu alpha).lr - (s.step norm mu alpha).ll = (s.lr - s.ll) / 2 := by
        simp only [Loop.step]
        split <;> simp only <;> ring
      rw [h1]
      rw [pow_succ] at hw
      linarith
    · simp

/-- **C120**: the search ends if the largest eigenvalue is positive. -/
theorem maximize_terminates [Archimedean F] (e : Env F n) (norm tol : F)
    (he : EigAsc H (e.eig H).1 (e.eig H).2) (hn : 0 < norm) (hf : IsNorm (e.norm2 f) f) (hf0 : f ≠ 0) (hep : 0 < e.epsilon)
    (hmu : 0 < (e.eig H).1 (Fin.last n)) : ∃ fuel, ∀ m, fuel ≤ m → maximize e H f norm tol m ≠ .error .fuel := by
  have hpos := hf.pos hf0
  have hc : 0 < e.epsilon * (e.eig H).1 (Fin.last n) := mul_pos hep hmu
  obtain ⟨N, hN⟩ := Archimedean.arch (e.norm2 f / norm) hc
  refine ⟨N, fun m hm => ?_⟩
  have halpha : ∀ i, (sumF fun k => (e.eig H).2 i k * f k) = dot ((e.eig H).2 i) f := by
    intro i; rw [sumF_eq]; rfl
  have ha : e.norm2 f ^ 2 = ∑ i, dot ((e.eig H).2 i) f ^ 2 := by
    rw [hf.2, ← he.ortho.parseval f]
    exact Finset.sum_congr rfl fun i _ => by rw [dot_comm']
  have hrun := run_terminates (tol := tol) (epsilon := e.epsilon) hmu m _
    (inv_init hn hpos ha fun i => he.asc i _ (Fin.le_last i)) hep (by
      simp only [Loop.init, add_sub_cancel_right]
      refine hN.trans ?_
      rw [nsmul_eq_mul, mul_comm]
      refine mul_le_mul_of_nonneg_left ?_ hc.le
      have h1 : N ≤ 2 ^ m := hm.trans Nat.lt_two_pow_self.le
      exact_mod_cast h1)
  simp only [maximize, halpha]
  split
  · rename_i h0; exact absurd h0 hrun
  · split <;> simp

/-! ## Concrete cases -/

/-- One dimension. -/
def ex1 : Env ℚ 0 where
  eig H := (fun _ => H 0 0, fun _ _ => 1)
  solve H f := if H 0 0 = 0 then none else some fun _ => f 0 / H 0 0
  norm2 v := |v 0|
  eps := 1 / 10 ^ 15
  epsilon := 1 / 10 ^ 14

theorem ex1_eig (H : Mat ℚ 1 1) : EigAsc H (ex1.eig H).1 (ex1.eig H).2 := by
  refine ⟨fun i k => ?_, fun i j => ?_, fun i j _ => le_refl _⟩
  · have hk : k = 0 := by omega
    simp [ex1, hk]
  · have : i = j := by omega
    simp [ex1, dot, this]

theorem ex1_norm (v : Row ℚ 1) : IsNorm (ex1.norm2 v) v := by
  refine ⟨abs_nonneg _, ?_⟩
  simp [ex1, dot, sq]

/-- `x^2/2 + x` on the vectors of length 2: the search is made for the maximum, the minimum lies inside. -/
example : ((getExtrema ex1 (fun _ _ => 1) (fun _ => 1) 2 (1 / 100) 20).toOption.map fun p => (decide (|p.1 0 - 2| < 1 / 100), p.2 0)) =
    some (true, -1) := by decide +kernel

example := extrema_optimal ex1 (fun _ _ => 1) (fun _ => 1) 0 2 (1 / 100) 20 (fun _ _ => rfl) (ex1_eig _) (ex1_eig _)
  (fun x hx => by cases hx; exact ⟨by decide +kernel, ex1_norm _⟩) (ex1_norm _) (ex1_norm _)
  (Or.inr ⟨0, by decide +kernel⟩) (by decide +kernel) (by decide)

example := extrema_short ex1 (fun _ _ => 1) (fun _ => 1) (1 / 100) (1 / 10000) 20 ⟨0, by decide +kernel⟩ (by decide +kernel)
example := extrema_singular ex1 (fun _ _ => 0) (fun _ => 1) 1 (1 / 10000) 20 ⟨0, by decide +kernel⟩ rfl

/-- Two dimensions, for the form `(-x^2 + y^2)/2 + x` only. -/
def ex2H : Mat ℚ 2 2 := ![![-1, 0], ![0, 1]]
def ex2f : Row ℚ 2 := ![1, 0]
def ex2 : Env ℚ 1 where
  eig H := if H = ex2H then (![-1, 1], ![![1, 0], ![0, 1]]) else (![-1, 1], ![![0, 1], ![1, 0]])
  solve _ _ := some ![1, 0]
  norm2 _ := 1
  eps := 1 / 10 ^ 15
  epsilon := 1 / 1000

/-- **C121**: the maximum is missed when the linear part has no component along the eigenvector of the largest eigenvalue: the
vector is shorter than asked for, and there are vectors of the length asked for with a larger value. -/
theorem extrema_length_false : ∃ xmax xmin, getExtrema ex2 ex2H ex2f 10 (1 / 10000) 20 = .ok (xmax, xmin) ∧
    dot xmax xmax < 1 ∧ ∃ y, dot y y = 10 ^ 2 ∧ quadratic ex2H ex2f 0 xmax < 1 ∧ 40 < quadratic ex2H ex2f 0 y := by
  obtain ⟨p, hp⟩ : ∃ p, getExtrema ex2 ex2H ex2f 10 (1 / 10000) 20 = .ok p := by
    cases h : getExtrema ex2 ex2H ex2f 10 (1 / 10000) 20 with
    | ok p => exact ⟨p, rfl⟩
    | error _ =>
      have : (getExtrema ex2 ex2H ex2f 10 (1 / 10000) 20).toBool = true := by decide +kernel
      rw [h] at this
      cases this
  have h1 : ((getExtrema ex2 ex2H ex2f 10 (1 / 10000) 20).toOption.map fun p =>
      decide (dot p.1 p.1 < 1) && decide (quadratic ex2H ex2f 0 p.1 < 1)) = some true := by decide +kernel
  rw [hp] at h1
  simp only [Except.toOption, Option.map_some, Option.some.injEq, Bool.and_eq_true, decide_eq_true_eq] at h1
  exact ⟨p.1, p.2, hp, h1.1, ![0, 10], by decide +kernel, h1.2, by decide +kernel⟩

/-- The parameters meet the requirements. -/
example : EigAsc ex2H (ex2.eig ex2H).1 (ex2.eig ex2H).2 ∧
    EigAsc (fun i j => -1 * ex2H i j) (ex2.eig fun i j => -1 * ex2H i j).1 (ex2.eig fun i j => -1 * ex2H i j).2 ∧
    (∀ k, ∑ l, - ex2H k l * (![1, 0] : Row ℚ 2) l = ex2f k) ∧ IsNorm (ex2.norm2 ex2f) ex2f :=
  ⟨⟨by decide +kernel, by unfold Orthonormal; decide +kernel, by decide +kernel⟩,
    ⟨by decide +kernel, by unfold Orthonormal; decide +kernel, by decide +kernel⟩, by decide +kernel,
    by unfold IsNorm; decide +kernel⟩

end Mdp.Quad
