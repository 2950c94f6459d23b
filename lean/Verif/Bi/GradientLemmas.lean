import Verif.Bi.Gradient
import Mathlib.Analysis.Calculus.FDeriv.Pi
import Mathlib.Analysis.Calculus.FDeriv.Mul
import Mathlib.Analysis.Calculus.FDeriv.Comp

/-!
# Jacobians of functions on rows: specification and rules
-/

namespace Bi.Gradient

/-- **Specification**: `f` maps rows of length `i` to rows of length `o`, and `J` is its Jacobian matrix at `x`: the total
derivative of output `k` is `h ↦ ∑ j, J k j * h j`. -/
structure IsJac (f : List ℝ → List ℝ) (i o : Nat) (x : List ℝ) (J : Jac ℝ) : Prop where
  rows : J.rows = o
  cols : J.cols = i
  len : ∀ v : List ℝ, v.length = i → (f v).length = o
  deriv : ∀ k < o, HasFDerivAt (fun v : Fin i → ℝ => (f (List.ofFn v)).getD k 0)
    (∑ j : Fin i, J.e k j • (ContinuousLinearMap.proj j : (Fin i → ℝ) →L[ℝ] ℝ)) (fun j => x.getD j 0)

theorem ofFn_getD (m : Nat) (l : List ℝ) (h : l.length = m) : List.ofFn (fun j : Fin m => l.getD j 0) = l := by
  subst h
  apply List.ext_getElem
  · simp
  · intro n h1 h2
    simp [List.getD_eq_getElem?_getD, List.getElem?_eq_getElem h2]

theorem IsJac.congr {f g : List ℝ → List ℝ} {i o : Nat} {x : List ℝ} {J K : Jac ℝ} (h : IsJac f i o x J)
    (hr : K.rows = o) (hc : K.cols = i) (hJ : ∀ k < o, ∀ j < i, K.e k j = J.e k j)
    (hf : ∀ v : List ℝ, v.length = i → g v = f v) : IsJac g i o x K := by
  refine ⟨hr, hc, fun v hv => by rw [hf v hv]; exact h.len v hv, fun k hk => ?_⟩
  have h1 : (fun v : Fin i → ℝ => (g (List.ofFn v)).getD k 0) = fun v => (f (List.ofFn v)).getD k 0 := by
    funext v
    rw [hf _ (by simp)]
  have h2 : (∑ j : Fin i, K.e k j • (ContinuousLinearMap.proj j : (Fin i → ℝ) →L[ℝ] ℝ)) =
      ∑ j : Fin i, J.e k j • ContinuousLinearMap.proj j :=
    Finset.sum_congr rfl fun j _ => by rw [hJ k hk j j.2]
  rw [h1, h2]
  exact h.deriv k hk

/-- Chain rule. -/
theorem IsJac.comp {f g : List ℝ → List ℝ} {i m o : Nat} {x : List ℝ} {J K : Jac ℝ} (hf : IsJac f i m x J)
    (hx : x.length = i) (hg : IsJac g m o (f x) K) :
    IsJac (fun v => g (f v)) i o x ⟨o, i, fun k j => ∑ l ∈ Finset.range m, K.e k l * J.e l j⟩ := by
  refine ⟨rfl, rfl, fun v hv => hg.len _ (hf.len v hv), fun k hk => ?_⟩
  let F : (Fin i → ℝ) → (Fin m → ℝ) := fun v l => (f (List.ofFn v)).getD l 0
  have hF : HasFDerivAt F (ContinuousLinearMap.pi fun l : Fin m =>
      ∑ j : Fin i, J.e l j • (ContinuousLinearMap.proj j : (Fin i → ℝ) →L[ℝ] ℝ)) (fun j => x.getD j 0) :=
    hasFDerivAt_pi.2 fun l => hf.deriv l l.2
  have hFx : F (fun j => x.getD j 0) = fun l : Fin m => (f x).getD l 0 := by
    funext l
    simp only [F]
    rw [ofFn_getD i x hx]
  have hG := hg.deriv k hk
  rw [← hFx] at hG
  have hc := hG.comp _ hF
  have h1 : (fun v : Fin i → ℝ => (g (f (List.ofFn v))).getD k 0) =
      (fun w : Fin m → ℝ => (g (List.ofFn w)).getD k 0) ∘ F := by
    funext v
    simp only [Function.comp, F]
    rw [ofFn_getD m (f (List.ofFn v)) (hf.len _ (by simp))]
  rw [h1]
  refine hc.congr_fderiv ?_
  symm
  ext h
  simp only [ContinuousLinearMap.coe_sum', Finset.sum_apply, ContinuousLinearMap.coe_smul', Pi.smul_apply,
    ContinuousLinearMap.proj_apply, smul_eq_mul, ContinuousLinearMap.comp_apply, ContinuousLinearMap.coe_pi',
    Finset.sum_mul, Finset.mul_sum]
  rw [Finset.sum_comm]
  rw [Finset.sum_range]
  refine Finset.sum_congr rfl fun l _ => Finset.sum_congr rfl fun j _ => by ring

/-- Selection of inputs. -/
theorem isJac_select (i : Nat) (c : List Nat) (hc : ∀ a ∈ c, a < i) (x : List ℝ) :
    IsJac (fun v => c.map fun a => v.getD a 0) i c.length x
      ⟨c.length, i, fun k j => if c.getD k 0 = j then 1 else 0⟩ := by
  refine ⟨rfl, rfl, fun v _ => by simp, fun k hk => ?_⟩
  have hk' : c[k] < i := hc _ (List.getElem_mem hk)
  have h1 : (fun v : Fin i → ℝ => ((c.map fun a => (List.ofFn v).getD a 0)).getD k 0) =
      (ContinuousLinearMap.proj (⟨c[k], hk'⟩ : Fin i) : (Fin i → ℝ) →L[ℝ] ℝ) := by
    funext v
    simp [List.getD_eq_getElem?_getD, hk, hk']
  rw [h1]
  refine (ContinuousLinearMap.proj (⟨c[k], hk'⟩ : Fin i) : (Fin i → ℝ) →L[ℝ] ℝ).hasFDerivAt.congr_fderiv ?_
  symm
  ext h
  simp only [ContinuousLinearMap.coe_sum', Finset.sum_apply, ContinuousLinearMap.coe_smul', Pi.smul_apply,
    ContinuousLinearMap.proj_apply, smul_eq_mul, List.getD_eq_getElem?_getD, List.getElem?_eq_getElem hk,
    Option.getD_some, ite_mul, one_mul, zero_mul]
  rw [Finset.sum_eq_single ⟨c[k], hk'⟩]
  · simp
  · intro b _ hb
    rw [if_neg]
    intro e
    exact hb (Fin.ext e.symm)
  · simp

/-- Outputs one behind the other. -/
theorem IsJac.append {f g : List ℝ → List ℝ} {i o p : Nat} {x : List ℝ} {J K : Jac ℝ} (hf : IsJac f i o x J)
    (hg : IsJac g i p x K) :
    IsJac (fun v => f v ++ g v) i (o + p) x ⟨o + p, i, fun k j => if k < o then J.e k j else K.e (k - o) j⟩ := by
  refine ⟨rfl, rfl, fun v hv => by simp [hf.len v hv, hg.len v hv], fun k hk => ?_⟩
  by_cases h : k < o
  · have h1 : (fun v : Fin i → ℝ => (f (List.ofFn v) ++ g (List.ofFn v)).getD k 0) =
        fun v => (f (List.ofFn v)).getD k 0 := by
      funext v
      have := hf.len (List.ofFn v) (by simp)
      rw [List.getD_eq_getElem?_getD, List.getD_eq_getElem?_getD, List.getElem?_append_left (by omega)]
    rw [h1]
    simp only [if_pos h]
    exact hf.deriv k h
  · have h1 : (fun v : Fin i → ℝ => (f (List.ofFn v) ++ g (List.ofFn v)).getD k 0) =
        fun v => (g (List.ofFn v)).getD (k - o) 0 := by
      funext v
      have := hf.len (List.ofFn v) (by simp)
      rw [List.getD_eq_getElem?_getD, List.getD_eq_getElem?_getD, List.getElem?_append_right (by omega), this]
    rw [h1]
    simp only [if_neg h]
    exact hg.deriv (k - o) (by omega)

/-- No outputs. -/
theorem isJac_nil (i : Nat) (x : List ℝ) (e : Nat → Nat → ℝ) : IsJac (fun _ => []) i 0 x ⟨0, i, e⟩ :=
  ⟨rfl, rfl, fun _ _ => rfl, fun k hk => absurd hk (by omega)⟩

theorem slice_select (i a b : Nat) (hb : b ≤ i) (v : List ℝ) (hv : v.length = i) :
    slice v a b = (List.range' a (b - a)).map fun c => v.getD c 0 := by
  apply List.ext_getElem
  · simp [slice]; omega
  · intro n h1 h2
    simp only [slice, List.length_drop, List.length_take] at h1
    have h3 : a + n < v.length := by omega
    simp [slice, List.getD_eq_getElem?_getD, List.getElem?_eq_getElem h3]

/-- A block of the inputs. -/
theorem isJac_slice (i a b : Nat) (hb : b ≤ i) (x : List ℝ) :
    IsJac (fun v => slice v a b) i (b - a) x ⟨b - a, i, fun k j => if a + k = j then 1 else 0⟩ := by
  have h := isJac_select i (List.range' a (b - a)) (by
    intro c hc
    rw [List.mem_range'_1] at hc
    omega) x
  rw [List.length_range'] at h
  refine h.congr rfl rfl ?_ (fun v hv => slice_select i a b hb v hv)
  intro k hk j _
  simp [List.getD_eq_getElem?_getD, hk]

end Bi.Gradient
