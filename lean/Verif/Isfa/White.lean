import Verif.Isfa.Node
import Verif.Ica.Node

/-!
# The outputs of ISFA are white (C273)
-/

namespace Mdp.Isfa

open Mdp.Ica Matrix

variable {n T : Nat}

/-- **C273** (isfa_white): if the (whitened) data have mean zero, variance one and no correlations, so have the outputs. -/
theorem isfa_white {p : Par (T + 1)} {order : (Fin n → ℝ) → List (Fin n) → List (Fin n)} (hs : Sorts order) {draw : Nat → Draw p.R n}
    (hd : ∀ k, (draw k).Ok) (hR : p.R ≤ n) {fuel : Nat} {rp0 : Option (Matrix (Fin n) (Fin n) ℝ)} (hr : ∀ rp, rp0 = some rp → rpᵀ * rp = 1)
    {c : Covs (T + 1) n} (hc : ∀ t a b, c t a b = c t b a) {r : Res (T + 1) n} (h : stop p order draw fuel rp0 c = some (.ok r))
    (data : List (Vec n)) (hm : ∀ i, Cov.mean (data.map fun x => x i) = 0)
    (hw : ∀ i j, Cov.cov false (data.map fun x => (x i, x j)) = if i = j then 1 else 0) (k l : Nat) (hk : k < p.R) (hl : l < p.R) :
    Cov.mean (data.map fun x => (r.execute x).getD k 0) = 0 ∧
    Cov.cov false (data.map fun x => ((r.execute x).getD k 0, (r.execute x).getD l 0)) = if k = l then 1 else 0 := by
  obtain ⟨h1, h2, h3, _⟩ := isfa_outputs hs hd hR hr hc h
  have hk' : k < r.rp.length := h1 ▸ hk
  have hl' : l < r.rp.length := h1 ▸ hl
  have e : ∀ (m : Nat) (hm : m < r.rp.length) (x : Vec n), (r.execute x).getD m 0 = ∑ i, x i * r.rp[m] i := by
    intro m hm x
    simp [Res.execute, List.getD_eq_getElem?_getD, hm, dotProduct]
  simp only [e k hk', e l hl']
  refine ⟨mean_sum data (fun i x => x i) _ hm, ?_⟩
  rw [cov_sum data (fun i x => x i) _ _ hm]
  simp only [hw, mul_ite, mul_one, mul_zero, Finset.sum_ite_eq, Finset.mem_univ, if_true]
  change r.rp[k] ⬝ᵥ r.rp[l] = _
  split
  · next hkl => subst hkl; exact h2 _ (List.getElem_mem _)
  · next hkl =>
    rcases lt_or_gt_of_ne hkl with hlt | hlt
    · exact List.pairwise_iff_getElem.1 h3 k l hk' hl' hlt
    · rw [dotProduct_comm]; exact List.pairwise_iff_getElem.1 h3 l k hl' hk' hlt

end Mdp.Isfa
