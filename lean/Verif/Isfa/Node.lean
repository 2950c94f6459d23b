import Verif.Isfa.Props
import Mathlib.Tactic.FinCases
import Mathlib.LinearAlgebra.Matrix.NonsingularInverse

/-!
# The outputs of ISFA, two signals, the limit of the iterations (C273-C277)
-/

namespace Mdp.Isfa

open Mdp.Ica Matrix

variable {n T : Nat}

/-! ## Outputs -/

/-- `argsort`: a permutation, the values grow. -/
def Sorts (order : (Fin n → ℝ) → List (Fin n) → List (Fin n)) : Prop :=
  ∀ d l, (order d l).Perm l ∧ (order d l).Pairwise fun i j => d i ≤ d j

theorem filter_length (R : Nat) (h : R ≤ n) : ((List.finRange n).filter fun i => i.1 < R).length = R := by
  have h1 : ((List.finRange n).filter fun i => i.1 < R).length = ((List.range n).filter fun i => i < R).length := by
    rw [← List.map_coe_finRange_eq_range, List.filter_map, List.length_map]
    rfl
  rw [h1]
  clear h1
  induction n with
  | zero => simp; omega
  | succ n ih =>
    rw [List.range_succ, List.filter_append, List.length_append]
    rcases Nat.lt_or_ge n R with h2 | h2
    · have : R = n + 1 := by omega
      subst this
      rw [List.filter_eq_self.2]
      · simp
      · intro a ha; simp at ha ⊢; omega
    · rw [ih h2]; simp; omega

/-- **C273** (isfa_outputs): there are `output_dim` filters, they are orthonormal, and the first time-lag correlation of the outputs does not grow
from one to the next: the slowest output comes first. -/
theorem isfa_outputs {p : Par (T + 1)} {order : (Fin n → ℝ) → List (Fin n) → List (Fin n)} (hs : Sorts order) {draw : Nat → Draw p.R n}
    (hd : ∀ k, (draw k).Ok) (hR : p.R ≤ n) {fuel : Nat} {rp0 : Option (Matrix (Fin n) (Fin n) ℝ)} (hr : ∀ rp, rp0 = some rp → rpᵀ * rp = 1)
    {c : Covs (T + 1) n} (hc : ∀ t a b, c t a b = c t b a) {r : Res (T + 1) n} (h : stop p order draw fuel rp0 c = some (.ok r)) :
    r.rp.length = p.R ∧ (∀ v ∈ r.rp, v ⬝ᵥ v = 1) ∧ r.rp.Pairwise (fun v w => v ⬝ᵥ w = 0) ∧
    r.rp.Pairwise (fun v w => w ⬝ᵥ (Matrix.of (c 0) *ᵥ w) ≤ v ⬝ᵥ (Matrix.of (c 0) *ᵥ v)) := by
  obtain ⟨h1, h2, _, _⟩ := isfa_rotation hd hc h
  obtain ⟨_, _, _, _, _, _, h3⟩ := stop_ok h
  have ho := h1 hr
  obtain ⟨hp, hm⟩ := hs (fun i => r.covs 0 i i) ((List.finRange n).filter fun i => i.1 < p.R)
  generalize order (fun i => r.covs 0 i i) ((List.finRange n).filter fun i => i.1 < p.R) = idx at h3 hp hm
  have hdot : ∀ a b : Fin n, (fun i => r.rpc i a) ⬝ᵥ (fun i => r.rpc i b) = if a = b then 1 else 0 := by
    intro a b
    have := congrFun (congrFun ho a) b
    rw [Matrix.mul_apply, Matrix.one_apply] at this
    exact this
  have hnd : idx.reverse.Nodup := by
    rw [List.nodup_reverse, hp.nodup_iff]
    exact (List.nodup_finRange n).filter _
  have hd0 : ∀ a : Fin n, (fun i => r.rpc i a) ⬝ᵥ (Matrix.of (c 0) *ᵥ fun i => r.rpc i a) = r.covs 0 a a := by
    intro a
    rw [h2]
    change _ = (r.rpcᵀ * Matrix.of (c 0) * r.rpc) a a
    rw [Matrix.mul_assoc, Matrix.mul_apply]
    rfl
  refine ⟨?_, ?_, ?_, ?_⟩
  · rw [h3, List.length_map, List.length_reverse, hp.length_eq, filter_length _ hR]
  · intro v hv
    rw [h3, List.mem_map] at hv
    obtain ⟨a, _, rfl⟩ := hv
    rw [hdot, if_pos rfl]
  · rw [h3, List.pairwise_map]
    refine List.Pairwise.imp (fun {a b} hab => ?_) hnd
    rw [hdot, if_neg hab]
  · rw [h3, List.pairwise_map, List.pairwise_reverse]
    refine List.Pairwise.imp (fun {a b} hab => ?_) hm
    rw [hd0, hd0]
    exact hab

theorem zip_dot : ∀ (l : List (Vec n)) (y : List ℝ) (v : Vec n), l.length = y.length →
    (fun i => (List.zipWith (fun a v => a * v i) y l).sum) ⬝ᵥ v = (List.zipWith (fun a w => a * (w ⬝ᵥ v)) y l).sum
  | [], [], v, _ => by simp
  | w :: l, a :: y, v, h => by
    have ih := zip_dot l y v (by simpa using h)
    simp only [List.zipWith_cons_cons, List.sum_cons]
    rw [← ih]
    simp only [dotProduct, Finset.mul_sum, ← Finset.sum_add_distrib]
    exact Finset.sum_congr rfl fun i _ => by ring

theorem zip_sum (l : List (Vec n)) (hn : ∀ v ∈ l, v ⬝ᵥ v = 1) (hp : l.Pairwise fun v w => v ⬝ᵥ w = 0) : ∀ (y : List ℝ), l.length = y.length →
    l.map (fun v => (List.zipWith (fun a w => a * (w ⬝ᵥ v)) y l).sum) = y := by
  induction l with
  | nil => intro y h; cases y with
    | nil => rfl
    | cons a y => exact nomatch h
  | cons w l ih =>
    intro y h
    cases y with
    | nil => exact nomatch h
    | cons a y =>
      rw [List.pairwise_cons] at hp
      have hl : l.length = y.length := by simpa using h
      simp only [List.map_cons, List.zipWith_cons_cons, List.sum_cons]
      have hz : (List.zipWith (fun a u => a * (u ⬝ᵥ w)) y l).sum = 0 := by
        apply List.sum_eq_zero
        intro x hx
        rw [List.mem_iff_getElem] at hx
        obtain ⟨k, hk, rfl⟩ := hx
        rw [List.getElem_zipWith, dotProduct_comm, hp.1 _ (List.getElem_mem _), mul_zero]
      rw [hz, hn w (by simp), mul_one, add_zero]
      congr 1
      refine (List.map_congr_left fun v hv => ?_).trans (ih (fun v hv => hn v (by simp [hv])) hp.2 y hl)
      rw [hp.1 v hv, mul_zero, zero_add]

/-- **C274** (isfa_round_trip): every output is the output of its inverse; with as many outputs as inputs the inverse of the output is the input. Both
after the whitening. -/
theorem isfa_round_trip {p : Par (T + 1)} {order : (Fin n → ℝ) → List (Fin n) → List (Fin n)} (hs : Sorts order) {draw : Nat → Draw p.R n}
    (hd : ∀ k, (draw k).Ok) (hR : p.R ≤ n) {fuel : Nat} {rp0 : Option (Matrix (Fin n) (Fin n) ℝ)} (hr : ∀ rp, rp0 = some rp → rpᵀ * rp = 1)
    {c : Covs (T + 1) n} (hc : ∀ t a b, c t a b = c t b a) {r : Res (T + 1) n} (h : stop p order draw fuel rp0 c = some (.ok r)) :
    (∀ y : List ℝ, y.length = p.R → r.execute (r.inverse y) = y) ∧
    (p.R = n → ∀ x : Vec n, r.inverse (r.execute x) = x) := by
  obtain ⟨h1, h2, h3, _⟩ := isfa_outputs hs hd hR hr hc h
  refine ⟨fun y hy => ?_, fun hn x => ?_⟩
  · unfold Res.execute Res.inverse
    refine (List.map_congr_left fun v _ => ?_).trans (zip_sum r.rp h2 h3 y (h1.trans hy.symm))
    exact zip_dot r.rp y v (h1.trans hy.symm)
  · obtain ⟨_, _, _, _, _, _, h4⟩ := stop_ok h
    have ho : r.rpc * r.rpcᵀ = 1 := mul_eq_one_comm.1 ((isfa_rotation hd hc h).1 hr)
    have hp := (hs (fun i => r.covs 0 i i) ((List.finRange n).filter fun i => i.1 < p.R)).1
    generalize order (fun i => r.covs 0 i i) ((List.finRange n).filter fun i => i.1 < p.R) = idx at h4 hp
    have hf : ((List.finRange n).filter fun i => i.1 < p.R) = List.finRange n := by
      rw [List.filter_eq_self]; intro a _; simp [hn]
    rw [hf] at hp
    funext i
    unfold Res.inverse Res.execute
    rw [h4, List.map_map]
    have e : (List.zipWith (fun a (v : Vec n) => a * v i) (List.map ((fun v => x ⬝ᵥ v) ∘ fun j i => r.rpc i j) idx.reverse) (List.map (fun j i => r.rpc i j) idx.reverse))
        = idx.reverse.map fun j => (x ⬝ᵥ fun i => r.rpc i j) * r.rpc i j := by
      rw [List.zipWith_map]
      simp [List.zipWith_self]
    rw [e, List.map_reverse, List.sum_reverse, (hp.map _).sum_eq, ← List.ofFn_eq_map, List.sum_ofFn]
    simp only [dotProduct, Finset.sum_mul]
    rw [Finset.sum_comm]
    have : ∀ k, ∑ j, x k * r.rpc k j * r.rpc i j = x k * if k = i then 1 else 0 := by
      intro k
      have := congrFun (congrFun ho k) i
      rw [Matrix.mul_apply, Matrix.one_apply] at this
      rw [← this, Finset.mul_sum]
      exact Finset.sum_congr rfl fun j _ => by rw [Matrix.transpose_apply]; ring
    rw [Finset.sum_congr rfl fun k _ => this k]
    simp

end Mdp.Isfa
