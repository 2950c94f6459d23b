import Verif.Bi.GradientLemmas
import Verif.Nodes.ExpansionProps

/-!
# Gradients of nodes are Jacobians
-/

namespace Bi.Gradient

open Mdp.Expansion (monos block ev upto polyExecute expandedDim)

/-- **Specification**: for every row, `_get_grad` gives the Jacobian matrix of `_execute`. -/
def Good (N : GNode ℝ) : Prop :=
  ∀ x, x.length = N.inDim → ∃ J, N.grad x = .ok J ∧ IsJac N.exec N.inDim N.outDim x J

theorem getD_ofFn {i : Nat} (v : Fin i → ℝ) (m : Nat) (h : m < i) : (List.ofFn v).getD m 0 = v ⟨m, h⟩ := by
  simp [List.getD_eq_getElem?_getD, h]

theorem setDiag_ok (r c d : Nat) (hr : d ≤ r) (hc : d ≤ c) :
    setDiag (zeros ℝ r c) d = .ok ⟨r, c, fun k j => if k = j ∧ k < d then 1 else 0⟩ := by
  simp [setDiag, zeros, hr, hc]

theorem isJac_id (d : Nat) (x : List ℝ) : IsJac (fun v => v) d d x ⟨d, d, fun k j => if k = j ∧ k < d then 1 else 0⟩ := by
  have h := isJac_slice d 0 d (le_refl d) x
  refine h.congr rfl rfl ?_ ?_
  · intro k hk j _
    simp only [Nat.zero_add]
    have hk' : k < d := by omega
    simp [hk']
  · intro v hv
    rw [slice, List.drop_zero, List.take_of_length_le (by omega)]

theorem identity_good (d : Nat) : Good (identity ℝ d) := by
  intro x _
  exact ⟨_, setDiag_ok d d d (le_refl d) (le_refl d), isJac_id d x⟩

theorem sfa_good (i o : Nat) (sf : Nat → Nat → ℝ) (bias : Nat → ℝ) : Good (sfa i o sf bias) := by
  intro x _
  refine ⟨_, rfl, rfl, rfl, fun v _ => by simp [sfa], fun k hk => ?_⟩
  have hk : k < o := hk
  have h1 : (fun v : Fin i → ℝ => ((sfa i o sf bias).exec (List.ofFn v)).getD k 0) =
      fun v => (∑ j : Fin i, sf j k • (ContinuousLinearMap.proj j : (Fin i → ℝ) →L[ℝ] ℝ) : (Fin i → ℝ) →L[ℝ] ℝ) v - bias k := by
    funext v
    simp only [sfa, List.getD_eq_getElem?_getD, List.getElem?_map, List.getElem?_range hk, Option.map_some,
      Option.getD_some, Finset.sum_range]
    refine congrArg (· - bias k) ?_
    simp only [ContinuousLinearMap.coe_sum', Finset.sum_apply, ContinuousLinearMap.coe_smul', Pi.smul_apply,
      ContinuousLinearMap.proj_apply, smul_eq_mul]
    refine Finset.sum_congr rfl fun j _ => ?_
    rw [← List.getD_eq_getElem?_getD, getD_ofFn v j j.2, mul_comm]
  have h2 := (ContinuousLinearMap.hasFDerivAt (x := fun j : Fin i => x.getD j 0)
    (∑ j : Fin i, sf j k • (ContinuousLinearMap.proj j : (Fin i → ℝ) →L[ℝ] ℝ))).sub_const (bias k)
  rw [← h1] at h2
  exact h2

/-! ### The quadratic expansion -/

/-- The place of the first monomial `x_i x_j`. -/
def start (n : Nat) : Nat → Nat
  | 0 => n
  | i + 1 => start n i + (n - i)

theorem start_mono (n : Nat) {a b : Nat} (h : a ≤ b) : start n a ≤ start n b := by
  induction h with
  | refl => exact le_refl _
  | step _ ih => exact le_trans ih (by simp [start])

theorem quadList (n : Nat) : upto n 2 = ((List.finRange n).map fun j => [j]) ++
    (List.finRange n).flatMap fun i : Fin n => ((List.finRange n).drop i).map fun j => [i, j] := by
  rw [Mdp.Expansion.upto_succ, Mdp.Expansion.upto_succ, Mdp.Expansion.monos_zero]
  simp only [upto, List.range_zero, List.flatMap_nil, List.nil_append]
  congr 1
  simp only [monos]
  congr 1
  funext i
  simp only [block]
  have : ∀ l : List (Fin n), (l.flatMap fun a => [[a]]) = l.map fun a => [a] := by
    intro l
    induction l with
    | nil => rfl
    | cons a l ih => simp [ih]
  rw [this, List.map_map]
  rfl

theorem prefix_length (n : Nat) : ∀ m ≤ n,
    n + (((List.finRange n).take m).flatMap fun i : Fin n => ((List.finRange n).drop i).map fun j => [i, j]).length = start n m := by
  intro m
  induction m with
  | zero => intro _; simp [start]
  | succ m ih =>
    intro h
    have h2 := ih (by omega)
    rw [List.take_add_one, List.getElem?_eq_getElem (by simp; omega)]
    simp only [Option.toList_some, List.flatMap_append, List.flatMap_cons, List.flatMap_nil, List.append_nil,
      List.length_append, List.length_map, List.length_drop, List.length_finRange, start, List.getElem_finRange,
      Fin.val_cast]
    omega

theorem outDim_eq (n : Nat) : (quad ℝ n).outDim = start n n := by
  have h := Mdp.Expansion.length_upto (n := n) 2
  have h1 := prefix_length n n (le_refl n)
  rw [List.take_of_length_le (by simp)] at h1
  have h2 : (upto n 2).length = start n n := by
    rw [quadList, List.length_append, List.length_map, List.length_finRange, h1]
  show (expandedDim 2 n).toNat = _
  have h3 : ((2 : Nat) : Int) = 2 := rfl
  rw [h3, h2] at h
  omega

theorem quad_exec (n : Nat) (x : List ℝ) : (quad ℝ n).exec x = (upto n 2).map (ev fun k : Fin n => x.getD k 0) := by
  show (polyExecute 2 fun k : Fin n => x.getD k 0).getD [] = _
  rw [Mdp.Expansion.polyExecute_eq 1]
  rfl

theorem quad_len (n : Nat) (x : List ℝ) : ((quad ℝ n).exec x).length = start n n := by
  rw [quad_exec, List.length_map, quadList, List.length_append, List.length_map, List.length_finRange]
  have h1 := prefix_length n n (le_refl n)
  rwa [List.take_of_length_le (by simp)] at h1

theorem quad_linear (n : Nat) (x : List ℝ) (k : Nat) (h : k < n) : ((quad ℝ n).exec x).getD k 0 = x.getD k 0 := by
  rw [quad_exec, quadList]
  simp [List.getD_eq_getElem?_getD, h, List.getElem?_append_left, ev]

theorem quad_mono (n : Nat) (x : List ℝ) (i j : Nat) (hij : i ≤ j) (hj : j < n) :
    ((quad ℝ n).exec x).getD (start n i + (j - i)) 0 = x.getD i 0 * x.getD j 0 := by
  have h1 := prefix_length n i (by omega)
  rw [quad_exec, quadList]
  have hsplit : (List.finRange n).flatMap (fun i : Fin n => ((List.finRange n).drop i).map fun j => [i, j]) =
      (((List.finRange n).take i).flatMap fun i : Fin n => ((List.finRange n).drop i).map fun j => [i, j]) ++
      ((((List.finRange n).drop i).map fun j => [(⟨i, by omega⟩ : Fin n), j]) ++
      ((List.finRange n).drop (i + 1)).flatMap fun i : Fin n => ((List.finRange n).drop i).map fun j => [i, j]) := by
    have hs : List.finRange n = (List.finRange n).take i ++ (⟨i, by omega⟩ :: (List.finRange n).drop (i + 1)) := by
      conv_lhs => rw [← List.take_append_drop i (List.finRange n)]
      rw [List.drop_eq_getElem_cons (by simp; omega)]
      simp
    have hg : ∀ (g : Fin n → List (List (Fin n))), (List.finRange n).flatMap g =
        ((List.finRange n).take i).flatMap g ++ (g ⟨i, by omega⟩ ++ ((List.finRange n).drop (i + 1)).flatMap g) := by
      intro g
      conv_lhs => rw [hs]
      rw [List.flatMap_append, List.flatMap_cons]
    exact hg _
  rw [hsplit, ← List.append_assoc, List.map_append, List.getD_eq_getElem?_getD, List.getElem?_append_right (by
    simp only [List.length_map, List.length_append, List.length_finRange]; omega)]
  simp only [List.length_map, List.length_append, List.length_finRange, h1, Nat.add_sub_cancel_left]
  rw [List.map_append, List.getElem?_append_left (by simp; omega)]
  have h2 : i + (j - i) = j := by omega
  simp [ev, hj, h2]

theorem quad_cover (n : Nat) : ∀ m ≤ n, ∀ k, n ≤ k → k < start n m → ∃ i j, i < m ∧ i ≤ j ∧ j < n ∧ k = start n i + (j - i) := by
  intro m
  induction m with
  | zero => intro _ k h1 h2; simp [start] at h2; omega
  | succ m ih =>
    intro hm k h1 h2
    by_cases h : k < start n m
    · obtain ⟨i, j, a, b, c, d⟩ := ih (by omega) k h1 h
      exact ⟨i, j, by omega, b, c, d⟩
    · simp only [start] at h2
      exact ⟨m, m + (k - start n m), by omega, by omega, by omega, by omega⟩

theorem quad_loop (n : Nat) (x : List ℝ) (hx : x.length = n) : ∀ m ≤ n, ∃ e : Nat → Nat → ℝ,
    (List.range m).foldlM (quadStep n x) (⟨start n n, n, fun k j => if k = j ∧ k < n then 1 else 0⟩, n) =
      .ok (⟨start n n, n, e⟩, start n m) ∧
    (∀ k < n, ∀ c, e k c = if k = c then 1 else 0) ∧
    (∀ i < m, ∀ j, i ≤ j → j < n → ∀ c,
      e (start n i + (j - i)) c = (if c = i then x.getD j 0 else 0) + (if c = j then x.getD i 0 else 0)) ∧
    (∀ k, start n m ≤ k → ∀ c, e k c = 0) := by
  intro m
  induction m with
  | zero =>
    intro _
    refine ⟨_, rfl, ?_, ?_, ?_⟩
    · intro k hk c
      simp [hk]
    · intro i hi; omega
    · intro k hk c
      simp only [start] at hk
      rw [if_neg]
      omega
  | succ m ih =>
    intro hm
    obtain ⟨e, h1, h2, h3, h4⟩ := ih (by omega)
    have hS : start n m + (n - m) ≤ start n n := start_mono n (show m + 1 ≤ n from hm)
    have hnS : n ≤ start n m := start_mono n (Nat.zero_le m)
    have hvl : (x.drop m).length = n - m := by simp [hx]
    have hmin : min (start n m + n - m) (start n n) = start n m + (n - m) := by omega
    rw [List.range_succ, List.foldlM_append, h1]
    have hfit : fits (min (start n m + n - m) (start n n) - start n m) (x.drop m).length = true := by
      rw [hmin, hvl]
      simp [fits]
    have hstep : quadStep n x (⟨start n n, n, e⟩, start n m) m = .ok (⟨start n n, n, fun k c =>
        if start n m ≤ k ∧ k - start n m < n - m ∧ c = k - start n m + m then
          (if c = m ∧ start n m ≤ k ∧ k < start n m + (n - m) then
            (x.drop m).getD (bidx (x.drop m).length (k - start n m)) 0 else e k c) + x.getD m 0
        else (if c = m ∧ start n m ≤ k ∧ k < start n m + (n - m) then
            (x.drop m).getD (bidx (x.drop m).length (k - start n m)) 0 else e k c)⟩, start n m + (n - m)) := by
      simp only [quadStep]
      rw [if_neg (by omega), if_pos hfit, if_neg (by omega), if_pos (by omega), hmin]
    have hfold : ([m].foldlM (quadStep n x) (⟨start n n, n, e⟩, start n m)) =
        quadStep n x (⟨start n n, n, e⟩, start n m) m := by
      rw [List.foldlM_cons]
      simp only [List.foldlM_nil]
      exact bind_pure _
    refine ⟨_, (show _ = _ from hfold.trans hstep), ?_, ?_, ?_⟩
    · intro k hk c
      rw [if_neg (by omega), if_neg (by omega)]
      exact h2 k hk c
    · intro i hi j hij hj c
      by_cases him : i < m
      · have hlt : start n i + (j - i) < start n m := by
          have : start n (i + 1) ≤ start n m := start_mono n him
          simp only [start] at this
          omega
        rw [if_neg (by omega), if_neg (by omega)]
        exact h3 i him j hij hj c
      · have hi : i = m := by omega
        subst hi
        have hidx : (x.drop i).getD (bidx (x.drop i).length (start n i + (j - i) - start n i)) 0 = x.getD j 0 := by
          rw [hvl]
          have : bidx (n - i) (start n i + (j - i) - start n i) = j - i := by
            unfold bidx
            split <;> omega
          rw [this, List.getD_eq_getElem?_getD, List.getElem?_drop, List.getD_eq_getElem?_getD,
            show i + (j - i) = j by omega]
        have he : e (start n i + (j - i)) c = 0 := h4 _ (by omega) c
        rw [hidx, he]
        have hc1 : (c = i ∧ start n i ≤ start n i + (j - i) ∧ start n i + (j - i) < start n i + (n - i)) ↔ c = i := by
          constructor
          · exact fun h => h.1
          · intro h; exact ⟨h, by omega, by omega⟩
        have hc2 : (start n i ≤ start n i + (j - i) ∧ start n i + (j - i) - start n i < n - i ∧
            c = start n i + (j - i) - start n i + i) ↔ c = j := by
          constructor
          · rintro ⟨_, _, h⟩; omega
          · intro h; exact ⟨by omega, by omega, by omega⟩
        simp only [hc1, hc2]
        split_ifs <;> simp
    · intro k hk c
      have hk' : start n m + (n - m) ≤ k := hk
      rw [if_neg (by omega), if_neg (by omega)]
      exact h4 k (by omega) c

theorem quad_good (n : Nat) : Good (quad ℝ n) := by
  intro x hx
  have hx : x.length = n := hx
  obtain ⟨e, h1, h2, h3, -⟩ := quad_loop n x hx n (le_refl n)
  have hn : n ≤ start n n := start_mono n (Nat.zero_le n)
  refine ⟨⟨start n n, n, e⟩, ?_, ?_⟩
  · show quadGrad n (quad ℝ n).outDim x = _
    rw [outDim_eq]
    simp only [quadGrad]
    rw [setDiag_ok _ _ _ hn (le_refl n)]
    show (do
      let p ← (List.range n).foldlM (quadStep n x) (⟨start n n, n, fun k j => if k = j ∧ k < n then 1 else 0⟩, n)
      pure p.1 : Except Err (Jac ℝ)) = _
    rw [h1]
    rfl
  · rw [outDim_eq]
    refine ⟨rfl, rfl, fun v _ => quad_len n v, fun k hk => ?_⟩
    show HasFDerivAt (fun v : Fin n → ℝ => ((quad ℝ n).exec (List.ofFn v)).getD k 0)
      (∑ j : Fin n, e k j • (ContinuousLinearMap.proj j : (Fin n → ℝ) →L[ℝ] ℝ)) (fun j => x.getD j 0)
    by_cases hkn : k < n
    · have hf : (fun v : Fin n → ℝ => ((quad ℝ n).exec (List.ofFn v)).getD k 0) =
          (ContinuousLinearMap.proj (⟨k, hkn⟩ : Fin n) : (Fin n → ℝ) →L[ℝ] ℝ) := by
        funext v
        rw [quad_linear n _ k hkn, getD_ofFn v k hkn]
        rfl
      rw [hf]
      refine (ContinuousLinearMap.hasFDerivAt _).congr_fderiv ?_
      ext h
      simp only [h2 k hkn, ContinuousLinearMap.coe_sum', Finset.sum_apply, ContinuousLinearMap.coe_smul', Pi.smul_apply,
        ContinuousLinearMap.proj_apply, smul_eq_mul, ite_mul, one_mul, zero_mul]
      rw [Finset.sum_eq_single ⟨k, hkn⟩]
      · simp
      · intro b _ hb
        rw [if_neg]
        intro e'
        exact hb (Fin.ext e'.symm)
      · simp
    · obtain ⟨i, j, -, hij, hj, rfl⟩ := quad_cover n n (le_refl n) k (by omega) hk
      have hi : i < n := by omega
      have hf : (fun v : Fin n → ℝ => ((quad ℝ n).exec (List.ofFn v)).getD (start n i + (j - i)) 0) =
          fun v => (ContinuousLinearMap.proj (⟨i, hi⟩ : Fin n) : (Fin n → ℝ) →L[ℝ] ℝ) v *
            (ContinuousLinearMap.proj (⟨j, hj⟩ : Fin n) : (Fin n → ℝ) →L[ℝ] ℝ) v := by
        funext v
        rw [quad_mono n _ i j hij hj, getD_ofFn v i hi, getD_ofFn v j hj]
        rfl
      rw [hf]
      refine ((ContinuousLinearMap.hasFDerivAt _).mul (ContinuousLinearMap.hasFDerivAt _)).congr_fderiv ?_
      ext h
      simp only [h3 i hi j hij hj, ContinuousLinearMap.coe_sum', Finset.sum_apply, ContinuousLinearMap.coe_smul',
        Pi.smul_apply, ContinuousLinearMap.proj_apply, smul_eq_mul, ContinuousLinearMap.add_apply, add_mul, ite_mul,
        zero_mul, Finset.sum_add_distrib]
      have hs : ∀ (a : Nat) (ha : a < n) (y : ℝ), ∑ q : Fin n, (if (q : Nat) = a then y * h q else 0) = y * h ⟨a, ha⟩ := by
        intro a ha y
        rw [Finset.sum_eq_single ⟨a, ha⟩]
        · simp
        · intro b _ hb
          rw [if_neg]
          intro e'
          exact hb (Fin.ext e')
        · simp
      rw [hs i hi, hs j hj]
      ring

/-- A composition of two nodes. -/
theorem comp_good {i m o : Nat} {f g : List ℝ → List ℝ} {x : List ℝ} {J K : Jac ℝ} (hx : x.length = i)
    (hf : IsJac f i m x J) (hg : IsJac g m o (f x) K) : ∃ D, dot K J = .ok D ∧ IsJac (fun v => g (f v)) i o x D := by
  refine ⟨⟨K.rows, J.cols, fun k j => ∑ l ∈ Finset.range K.cols, K.e k l * J.e l j⟩, ?_, ?_⟩
  · rw [dot, if_pos (by rw [hg.cols, hf.rows])]
  · have h := hf.comp hx hg
    refine h.congr hg.rows hf.cols ?_ (fun _ _ => rfl)
    intro k _ j _
    show ∑ l ∈ Finset.range K.cols, K.e k l * J.e l j = _
    rw [hg.cols]

theorem sfa2_good (d o : Nat) (sf : Nat → Nat → ℝ) (bias : Nat → ℝ) : Good (sfa2 d o sf bias) := by
  intro x hx
  obtain ⟨J, h1, h2⟩ := quad_good d x hx
  obtain ⟨K, h3, h4⟩ := sfa_good (quad ℝ d).outDim o sf bias ((quad ℝ d).exec x) (h2.len x hx)
  have h3' : (sfa (quad ℝ d).outDim o sf bias).grad x = .ok K := h3
  obtain ⟨D, h5, h6⟩ := comp_good hx h2 h4
  refine ⟨D, ?_, h6⟩
  simp only [sfa2]
  rw [h1, h3']
  exact h5

end Bi.Gradient
