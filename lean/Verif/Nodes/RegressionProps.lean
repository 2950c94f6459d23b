import Verif.Nodes.Regression
import Verif.Num.CovProps
import Mathlib.LinearAlgebra.Matrix.DotProduct
import Mathlib.LinearAlgebra.Matrix.Trace
import Mathlib.Algebra.Order.Field.Basic
import Mathlib.Algebra.Order.Ring.Rat
import Mathlib.Tactic.Linarith

/-!
# Linear regression minimises the squared error (C106)
-/

namespace Mdp.Regression

open Mdp.Cov

variable {F : Type} [Field F] {d e : Nat}

/-! ### Specification -/

/-- The linear model with coefficients `b`; the constant term, if there is one, is the first. -/
def predict : (bias : Bool) → Mat F (size bias d) e → Row F d → Row F e
  | true, b, x => fun j => b (0 : Fin (d + 1)) j + ∑ k : Fin d, x k * b k.succ j
  | false, b, x => fun j => ∑ k : Fin d, x k * b k j

/-- Sum of squared errors of the model over all observations and outputs. -/
def loss (bias : Bool) (b : Mat F (size bias d) e) (l : List (Row F d × Row F e)) : F :=
  (l.map fun p => ∑ j, (p.2 j - predict bias b p.1 j) ^ 2).sum

/-- The observations in the chunks that are not rejected. -/
def data (cs : List (List (Row F d) × List (Row F e))) : List (Row F d × Row F e) :=
  (cs.filter fun c => c.1.length = c.2.length).flatMap fun c => c.1.zip c.2

/-- `inv` returns generalised inverses only: the inverse and the pseudo-inverse are such. -/
def GInverse {m : Nat} (inv : Mat F m m → Option (Mat F m m)) : Prop :=
  ∀ a b, inv a = some b → ∀ i j, ∑ k, ∑ l, a i k * b k l * a l j = a i j

/-- `inv` returns true inverses only. -/
def Inverse {m : Nat} (inv : Mat F m m → Option (Mat F m m)) : Prop :=
  ∀ a b, inv a = some b → ∀ i j, ∑ k, b i k * a k j = if i = j then 1 else 0

/-! ### Least squares -/

section LeastSquares

variable {n m o : Type} [Fintype n] [Fintype m] [Fintype o] [DecidableEq m]

open Matrix

theorem normal_equations [LinearOrder F] [IsStrictOrderedRing F] (X : Matrix n m F) (Y : Matrix n o F)
    (P : Matrix m m F) (h : Xᵀ * X * P * (Xᵀ * X) = Xᵀ * X) : Xᵀ * X * (P * (Xᵀ * Y)) = Xᵀ * Y := by
  have h1 : Xᵀ * X * (Pᵀ * (Xᵀ * X) - 1) = 0 := by
    have := congrArg transpose h
    simp only [transpose_mul, transpose_transpose] at this
    rw [Matrix.mul_sub, Matrix.mul_one, sub_eq_zero]
    simpa only [Matrix.mul_assoc] using this
  have h2 : X * (Pᵀ * (Xᵀ * X) - 1) = 0 := by
    generalize Pᵀ * (Xᵀ * X) - 1 = M at h1 ⊢
    have h3 : (X * M)ᵀ * (X * M) = 0 := by
      rw [transpose_mul, Matrix.mul_assoc, ← Matrix.mul_assoc Xᵀ, h1, Matrix.mul_zero]
    ext i j
    have h4 : ((X * M)ᵀ * (X * M)) j j = 0 := by rw [h3]; rfl
    rw [Matrix.mul_apply'] at h4
    have h5 : (fun i => (X * M) i j) = 0 := dotProduct_self_eq_zero.1 h4
    exact congrFun h5 i
  have h3 := congrArg transpose h2
  simp only [transpose_mul, transpose_sub, transpose_transpose, transpose_one, transpose_zero] at h3
  have h4 := congrArg (· * Y) h3
  simp only [Matrix.sub_mul, Matrix.one_mul, Matrix.zero_mul, sub_eq_zero] at h4
  simpa only [Matrix.mul_assoc] using h4

theorem least_squares [LinearOrder F] [IsStrictOrderedRing F] (X : Matrix n m F) (Y : Matrix n o F) (B B' : Matrix m o F)
    (h : Xᵀ * X * B = Xᵀ * Y) :
    ∑ i, ∑ j, (Y i j - (X * B') i j) ^ 2
      = ∑ i, ∑ j, (Y i j - (X * B) i j) ^ 2 + ∑ i, ∑ j, ((X * (B - B')) i j) ^ 2 := by
  have hR : Xᵀ * (Y - X * B) = 0 := by rw [Matrix.mul_sub, ← Matrix.mul_assoc, h, sub_self]
  have hx : (X * (B - B'))ᵀ * (Y - X * B) = 0 := by
    rw [transpose_mul, Matrix.mul_assoc, hR, Matrix.mul_zero]
  have key : ∑ i, ∑ j, (X * (B - B')) i j * (Y i j - (X * B) i j) = 0 := by
    rw [Finset.sum_comm]
    refine Finset.sum_eq_zero fun j _ => ?_
    exact congrFun (congrFun hx j) j
  have : ∀ i j, (Y i j - (X * B') i j) ^ 2 = (Y i j - (X * B) i j) ^ 2 + ((X * (B - B')) i j) ^ 2
      + 2 * ((X * (B - B')) i j * (Y i j - (X * B) i j)) := by
    intro i j
    rw [Matrix.mul_sub, Matrix.sub_apply]
    ring
  simp only [this, Finset.sum_add_distrib, ← Finset.mul_sum, key]
  ring

end LeastSquares

/-! ### Proofs -/

theorem predict_eq (bias : Bool) (b : Mat F (size bias d) e) (x : Row F d) (j : Fin e) :
    predict bias b x j = ∑ k, addConstant bias x k * b k j := by
  cases bias with
  | false => rfl
  | true =>
    show b (0 : Fin (d + 1)) j + _ = ∑ k : Fin (d + 1), (Fin.cons (1 : F) x : Fin (d + 1) → F) k * b k j
    rw [Fin.sum_univ_succ]
    simp

/-- The sums after training. -/
theorem trains_acc (bias : Bool) (cs : List (List (Row F d) × List (Row F e))) (s : RSt F bias d e)
    (l : List (Row F d × Row F e)) (hs : s.acc.getD (0, 0) = (mom (l.map fun p => (addConstant bias p.1, addConstant bias p.1)),
      mom (l.map fun p => (addConstant bias p.1, p.2)))) (ht : s.tlen = l.length) :
    let s' := trains bias s cs
    s'.acc.getD (0, 0) = (mom ((l ++ data cs).map fun p => (addConstant bias p.1, addConstant bias p.1)),
      mom ((l ++ data cs).map fun p => (addConstant bias p.1, p.2))) ∧ s'.tlen = (l ++ data cs).length ∧
    s'.beta = s.beta ∧ (s.acc.isSome = true ∨ (∃ c ∈ cs, c.1.length = c.2.length) ↔ s'.acc.isSome = true) := by
  induction cs generalizing s l with
  | nil => simp [trains, data, hs, ht]
  | cons c cs ih =>
    obtain ⟨x, y⟩ := c
    simp only [trains, List.foldl_cons]
    by_cases hl : x.length = y.length
    · have hd : data ((x, y) :: cs) = x.zip y ++ data cs := by simp [data, hl]
      have htr : (train bias s x y).2 = { s with
          acc := some ((s.acc.getD (0, 0)).1 + multT (x.map (addConstant bias)) (x.map (addConstant bias)),
            (s.acc.getD (0, 0)).2 + multT (x.map (addConstant bias)) y),
          tlen := s.tlen + (x.map (addConstant bias)).length } := by
        simp only [train, hl, ne_eq, not_true, if_false]
      have h1 := ih (train bias s x y).2 (l ++ x.zip y) (by
        rw [htr]
        simp only [Option.getD_some, hs, multT_eq_mom, ← mom_append, List.map_append]
        congr 2
        · congr 1
          have hx : (x.zip y).map (fun p => (addConstant bias p.1, addConstant bias p.1))
              = ((x.zip y).map Prod.fst).map fun a => (addConstant bias a, addConstant bias a) := by
            rw [List.map_map]; rfl
          rw [List.zip_map', hx, List.map_fst_zip (by omega)]
        · congr 1
          rw [List.zip_map_left]
          rfl) (by rw [htr]; simp [ht, hl])
      rw [hd, ← List.append_assoc]
      refine ⟨h1.1, h1.2.1, h1.2.2.1.trans (by rw [htr]), ?_⟩
      rw [htr] at h1
      simp only [Option.isSome_some, true_or, true_iff] at h1
      rw [htr]
      simp [hl, trains] at h1 ⊢
      exact h1.2.2.2
    · have hd : data ((x, y) :: cs) = data cs := by simp [data, hl]
      have htr : (train bias s x y).2 = s := by
        simp only [train]
        rw [if_pos (by omega)]
      rw [htr, hd]
      have h1 := ih s l hs ht
      refine ⟨h1.1, h1.2.1, h1.2.2.1, ?_⟩
      simp only [List.mem_cons, exists_eq_or_imp, hl, false_or]
      exact h1.2.2.2

theorem sum_getElem {α : Type} (l : List α) (f : α → F) : (l.map f).sum = ∑ i : Fin l.length, f l[i] := by
  rw [← List.sum_ofFn]
  congr 1
  conv_lhs => rw [← List.ofFn_getElem (xs := l)]
  rw [List.map_ofFn]
  rfl

theorem mul_apply' {l m n : Nat} (a : Mat F l m) (b : Mat F m n) (i : Fin l) (j : Fin n) :
    mul a b i j = ∑ k, a i k * b k j := by
  unfold mul
  rw [← List.ofFn_eq_map, List.sum_ofFn]

theorem loss_eq (bias : Bool) (b : Mat F (size bias d) e) (l : List (Row F d × Row F e)) :
    loss bias b l = ∑ i : Fin l.length, ∑ j, (Matrix.of (fun (i : Fin l.length) j => l[i].2 j) i j -
      (Matrix.of (fun (i : Fin l.length) k => addConstant bias l[i].1 k) * (Matrix.of b)) i j) ^ 2 := by
  unfold loss
  rw [sum_getElem]
  refine Finset.sum_congr rfl fun i _ => Finset.sum_congr rfl fun j _ => ?_
  rw [predict_eq, Matrix.mul_apply]
  rfl

theorem mom_eq {m : Nat} (l : List (Row F d × Row F e)) (f : Row F d × Row F e → Row F m) {o : Nat}
    (g : Row F d × Row F e → Row F o) : mom (l.map fun p => (f p, g p)) =
      (Matrix.of (fun (i : Fin l.length) k => f l[i] k)).transpose * Matrix.of (fun (i : Fin l.length) k => g l[i] k) := by
  ext i j
  simp only [mom, List.map_map, Function.comp_def]
  rw [sum_getElem, Matrix.mul_apply]
  rfl

/-- C106. Whatever the chunks (those with different numbers of inputs and outputs are rejected without effect), a
stop of the training that returns leaves coefficients that minimise the sum of squared errors over all observations
that were accepted, and `execute` then gives the predictions of that linear model. If the true inverse is used, the
minimum is the only one. -/
theorem regression_least_squares [LinearOrder F] [IsStrictOrderedRing F] (bias : Bool)
    (inv : Mat F (size bias d) (size bias d) → Option (Mat F (size bias d) (size bias d))) (hinv : GInverse inv)
    (cs : List (List (Row F d) × List (Row F e))) (s : RSt F bias d e)
    (h : stop bias inv (trains bias {} cs) = (.ok (), s)) :
    ∃ b, s.beta = some b ∧ (∀ b', loss bias b (data cs) ≤ loss bias b' (data cs)) ∧
      (∀ x, execute bias s x = .ok (x.map (predict bias b))) ∧
      (Inverse inv → ∀ b', loss bias b' (data cs) ≤ loss bias b (data cs) → b' = b) := by
  obtain ⟨h1, -, -, h4⟩ := trains_acc bias cs ({} : RSt F bias d e) [] (by simp [mom]; try exact ⟨rfl, rfl⟩) rfl
  simp only [List.nil_append] at h1
  generalize trains bias {} cs = t at h h1 h4
  obtain ⟨acc, tl, bt⟩ := t
  cases acc with
  | none => simp [stop] at h
  | some a =>
    obtain ⟨xx, xy⟩ := a
    simp only [Option.getD_some, Prod.mk.injEq] at h1
    obtain ⟨rfl, rfl⟩ := h1
    simp only [stop] at h
    generalize hxx : mom ((data cs).map fun p => (addConstant bias p.1, addConstant bias p.1)) = xx at h
    cases hi : inv xx with
    | none => rw [hi] at h; cases h
    | some P =>
      rw [hi] at h
      simp only [Prod.mk.injEq, true_and] at h
      subst h
      generalize hX : (Matrix.of (fun (i : Fin (data cs).length) k => addConstant bias (data cs)[i].1 k)) = X
      generalize hY : (Matrix.of (fun (i : Fin (data cs).length) j => (data cs)[i].2 j)) = Y
      have hA : (Matrix.of xx) = X.transpose * X := by
        rw [← hxx, ← hX]
        exact mom_eq (data cs) (fun p => addConstant bias p.1) (fun p => addConstant bias p.1)
      have hC : (Matrix.of (mom ((data cs).map fun p => (addConstant bias p.1, p.2)))) = X.transpose * Y := by
        rw [← hX, ← hY]
        exact mom_eq (data cs) (fun p => addConstant bias p.1) (fun p => p.2)
      have hg : X.transpose * X * Matrix.of P * (X.transpose * X) = X.transpose * X := by
        rw [← hA]
        ext i j
        simp only [Matrix.mul_apply, Matrix.of_apply, Finset.sum_mul]
        rw [Finset.sum_comm]
        exact hinv xx P hi i j
      have hB : Matrix.of (mul P (mom ((data cs).map fun p => (addConstant bias p.1, p.2))))
          = Matrix.of P * (X.transpose * Y) := by
        rw [← hC]
        ext i j
        rw [Matrix.mul_apply]
        exact mul_apply' _ _ _ _
      have hN := normal_equations X Y (Matrix.of P) hg
      rw [← hB] at hN
      have hloss : ∀ b', loss bias b' (data cs) = loss bias (mul P (mom ((data cs).map fun p =>
          (addConstant bias p.1, p.2)))) (data cs) + ∑ i, ∑ j, ((X * (Matrix.of (mul P (mom ((data cs).map fun p =>
          (addConstant bias p.1, p.2)))) - Matrix.of b')) i j) ^ 2 := by
        intro b'
        rw [loss_eq, loss_eq, hX, hY]
        exact least_squares X Y _ _ hN
      refine ⟨_, rfl, fun b' => ?_, fun x => ?_, fun hI b' hb' => ?_⟩
      · rw [hloss b']
        exact le_add_of_nonneg_right (Finset.sum_nonneg fun i _ => Finset.sum_nonneg fun j _ => sq_nonneg _)
      · simp only [execute, List.map_map, Function.comp_def]
        congr 2
        funext r j
        rw [predict_eq, ← List.ofFn_eq_map, List.sum_ofFn]
      · rw [hloss b'] at hb'
        generalize hD : Matrix.of (mul P (mom ((data cs).map fun p => (addConstant bias p.1, p.2)))) - Matrix.of b' = D
          at hb'
        have h0 : ∑ i, ∑ j, ((X * D) i j) ^ 2 = 0 := by
          have h1 : 0 ≤ ∑ i, ∑ j, ((X * D) i j) ^ 2 :=
            Finset.sum_nonneg fun i _ => Finset.sum_nonneg fun j _ => sq_nonneg _
          linarith
        have hXD : X * D = 0 := by
          ext i j
          have h1 := (Finset.sum_eq_zero_iff_of_nonneg
            (fun i _ => Finset.sum_nonneg fun j _ => sq_nonneg _)).1 h0 i (Finset.mem_univ _)
          have h2 := (Finset.sum_eq_zero_iff_of_nonneg (fun j _ => sq_nonneg _)).1 h1 j (Finset.mem_univ _)
          exact (pow_eq_zero_iff (two_ne_zero)).1 h2
        have hPA : Matrix.of P * (X.transpose * X) = 1 := by
          rw [← hA]
          ext i j
          rw [Matrix.mul_apply, Matrix.one_apply]
          exact hI xx P hi i j
        have hD0 : D = 0 := by
          rw [← Matrix.one_mul D, ← hPA, Matrix.mul_assoc, Matrix.mul_assoc, hXD, Matrix.mul_zero, Matrix.mul_zero]
        rw [hD0] at hD
        exact (sub_eq_zero.1 hD).symm

/-- C106: if the observations follow a linear model exactly and the true inverse is used, its coefficients are found. -/
theorem regression_exact [LinearOrder F] [IsStrictOrderedRing F] (bias : Bool)
    (inv : Mat F (size bias d) (size bias d) → Option (Mat F (size bias d) (size bias d))) (hinv : GInverse inv)
    (hI : Inverse inv) (cs : List (List (Row F d) × List (Row F e))) (s : RSt F bias d e)
    (h : stop bias inv (trains bias {} cs) = (.ok (), s)) (b : Mat F (size bias d) e)
    (hb : ∀ p ∈ data cs, p.2 = predict bias b p.1) : s.beta = some b := by
  obtain ⟨b0, h1, h2, -, h4⟩ := regression_least_squares bias inv hinv cs s h
  have h0 : loss bias b (data cs) = 0 := by
    unfold loss
    refine List.sum_eq_zero fun a ha => ?_
    obtain ⟨p, hp, rfl⟩ := List.mem_map.1 ha
    rw [hb p hp]
    simp
  have hn : 0 ≤ loss bias b0 (data cs) := by
    unfold loss
    refine List.sum_nonneg fun a ha => ?_
    obtain ⟨p, hp, rfl⟩ := List.mem_map.1 ha
    exact Finset.sum_nonneg fun j _ => sq_nonneg _
  rw [h1, h4 hI b (by rw [h0]; exact hn)]

/-- C106: the training can be stopped if at least one chunk has been accepted and the matrix `xᵀx` of the accepted
observations can be inverted; otherwise the call raises and nothing is lost. -/
theorem regression_stops (bias : Bool) (inv : Mat F (size bias d) (size bias d) → Option (Mat F (size bias d) (size bias d)))
    (cs : List (List (Row F d) × List (Row F e))) :
    ((∃ c ∈ cs, c.1.length = c.2.length) ∧ (inv fun i j => ((data cs).map fun p =>
        addConstant bias p.1 i * addConstant bias p.1 j).sum).isSome = true ↔
      (stop bias inv (trains bias {} cs)).1 = .ok ()) ∧
    ∀ e, (stop bias inv (trains bias {} cs)).1 = .error e →
      (stop bias inv (trains bias {} cs)).2 = trains bias {} cs := by
  obtain ⟨h1, -, -, h4⟩ := trains_acc bias cs ({} : RSt F bias d e) [] (by simp [mom]; try exact ⟨rfl, rfl⟩) rfl
  simp only [List.nil_append] at h1
  simp only [Option.isSome_none, Bool.false_eq_true, false_or] at h4
  rw [h4]
  generalize trains bias {} cs = t at h1
  obtain ⟨acc, tl, bt⟩ := t
  cases acc with
  | none => simp [stop]
  | some a =>
    obtain ⟨xx, xy⟩ := a
    simp only [Option.getD_some, Prod.mk.injEq] at h1
    obtain ⟨rfl, rfl⟩ := h1
    have : (mom ((data cs).map fun p => (addConstant bias p.1, addConstant bias p.1))) = fun i j =>
        ((data cs).map fun p => addConstant bias p.1 i * addConstant bias p.1 j).sum := by
      funext i j
      simp only [mom, List.map_map, Function.comp_def]
    simp only [stop, this]
    cases inv _ with
    | none => simp
    | some P => simp

/-- C106, a chunk with different numbers of inputs and outputs is rejected. -/
theorem regression_rejects (bias : Bool) (s : RSt F bias d e) (x : List (Row F d)) (y : List (Row F e)) :
    (train bias s x y).1 = .ok () ↔ x.length = y.length := by
  simp only [train]
  split
  · simp; omega
  · simp; omega

/-! ### Concrete case -/

/-- Inverse of a 2×2 matrix. -/
def inv2 (a : Mat ℚ 2 2) : Option (Mat ℚ 2 2) :=
  let det := a 0 0 * a 1 1 - a 0 1 * a 1 0
  if det = 0 then none else some ![![a 1 1 / det, - a 0 1 / det], ![- a 1 0 / det, a 0 0 / det]]

theorem inv2_inverse : Inverse inv2 := by
  intro a b h
  simp only [inv2] at h
  split at h
  · cases h
  · next hd =>
    cases h
    generalize hD : a 0 0 * a 1 1 - a 0 1 * a 1 0 = D at hd ⊢
    intro i j
    fin_cases i <;> fin_cases j <;> simp [Fin.sum_univ_two] <;> field_simp <;> linarith

theorem inv2_ginverse : GInverse inv2 := by
  intro a b h i j
  have h1 := inv2_inverse a b h
  have : ∀ k, ∑ l, a i k * b k l * a l j = a i k * (if k = j then 1 else 0) := by
    intro k
    rw [← h1 k j, Finset.mul_sum]
    exact Finset.sum_congr rfl fun l _ => by ring
  simp [this]

/-- Three observations of `y = 1 + 2 x` in two chunks and a chunk that is rejected: the coefficients are found. -/
example : (stop true inv2 (trains true ({} : RSt ℚ true 1 1)
    [([![0], ![1]], [![1], ![3]]), ([![7]], []), ([![2]], [![5]])])).2.beta = some ![![1], ![2]] := by
  refine regression_exact (e := 1) true inv2 inv2_ginverse inv2_inverse _ _ (Prod.ext ?_ rfl) _ ?_
  · refine ((regression_stops true inv2 _).1).1 ⟨⟨_, List.mem_cons_self .., rfl⟩, ?_⟩
    decide +kernel
  · intro p hp
    simp [data] at hp
    rcases hp with rfl | rfl | rfl <;> funext j <;> fin_cases j <;> norm_num [predict]

end Mdp.Regression
