import Verif.Nodes.Lle
import Verif.Utils.SymeigAlg
import Mathlib.LinearAlgebra.Matrix.NonsingularInverse
import Mathlib.LinearAlgebra.Matrix.Nondegenerate
import Mathlib.LinearAlgebra.Matrix.ToLinearEquiv
import Mathlib.Tactic.LinearCombination
import Mathlib.Tactic.Ring
import Mathlib.Tactic.Linarith

/-!
# Weights of `LLENode`
-/

namespace Mdp.Lle

open Mdp.Cov Mdp.Symeig

variable {F : Type} [Field F] [LinearOrder F] {d N : Nat}

/-! ## Specification -/

/-- The squared distance of two points. -/
def dist2 (x y : Row F d) : F := ∑ c, (x c - y c) ^ 2

/-- `argsort` gives every index once, in ascending order of the keys. -/
def Sorts (E : Env F) : Prop :=
  ∀ n key, (E.argsort n key).Perm (List.finRange n) ∧ (E.argsort n key).Pairwise fun a b => key a ≤ key b

/-- `S` are `k` points of the data as near to `x` as any of the other points. -/
structure Nearest (M : Fin N → Row F d) (x : Row F d) (k : Nat) (S : Finset (Fin N)) : Prop where
  card : S.card = k
  near : ∀ a ∈ S, ∀ b ∉ S, dist2 (M a) x ≤ dist2 (M b) x

/-- `S` are `k` points of the data as near to the point `i` as any of the others, leaving out one point `h` at the place
of the point `i`: the point `i` itself if no other point is at the same place. -/
structure Neighbours (M : Fin N → Row F d) (i : Fin N) (k : Nat) (S : Finset (Fin N)) : Prop where
  card : S.card = k
  near : ∃ h ∉ S, M h = M i ∧ ∀ a ∈ S, ∀ b ∉ S, b ≠ h → dist2 (M a) (M i) ≤ dist2 (M b) (M i)

/-- The error of the reconstruction of `x` by the weights `w`, with a penalty for large weights. -/
def cost (M : Fin N → Row F d) (x : Row F d) (lam : F) (w : Fin N → F) : F :=
  dist2 x (fun c => ∑ a, w a * M a c) + lam * ∑ a, w a ^ 2

/-- The weights `w` are zero outside of `S`, sum up to one and are the only ones of this kind with the least cost. -/
structure Best (M : Fin N → Row F d) (x : Row F d) (lam : F) (S : Finset (Fin N)) (w : Fin N → F) : Prop where
  supp : ∀ a ∉ S, w a = 0
  sum : ∑ a, w a = 1
  min : ∀ v : Fin N → F, (∀ a ∉ S, v a = 0) → ∑ a, v a = 1 → v ≠ w → cost M x lam w < cost M x lam v

/-! ## Weights -/

section core
variable [IsStrictOrderedRing F]

theorem solveOnes_spec {n : Nat} {Q : Matrix (Fin n) (Fin n) F} {w : Fin n → F} (h : solveOnes Q = some w) :
    Q.det ≠ 0 ∧ ∀ i, ∑ j, Q i j * w j = 1 := by
  unfold solveOnes at h
  split at h
  · cases h
  · next hd =>
    refine ⟨hd, fun i => ?_⟩
    cases h
    have := congrFun (Matrix.mulVec_cramer Q fun _ => 1) i
    simp only [Matrix.mulVec, dotProduct, Pi.smul_apply, smul_eq_mul, mul_one] at this
    simp only [← mul_div_assoc]
    rw [← Finset.sum_div, this, div_self hd]

theorem solveOnes_none {n : Nat} {Q : Matrix (Fin n) (Fin n) F} : solveOnes Q = none ↔ Q.det = 0 := by
  unfold solveOnes
  split <;> simp_all

/-- The quadratic form of the corrected matrix. -/
def quad {n : Nat} (D : Fin n → Row F d) (lam : F) (v : Fin n → F) : F := ∑ c, (∑ j, v j * D j c) ^ 2 + lam * ∑ j, v j ^ 2

theorem form_apply {n : Nat} (D : Fin n → Row F d) (lam : F) (w : Fin n → F) (i : Fin n) :
    ∑ j, ((Matrix.of fun i j => ∑ c, D i c * D j c) + lam • (1 : Matrix (Fin n) (Fin n) F)) i j * w j
      = ∑ c, D i c * (∑ j, w j * D j c) + lam * w i := by
  simp only [Matrix.add_apply, Matrix.of_apply, Matrix.smul_apply, Matrix.one_apply, smul_eq_mul, add_mul, Finset.sum_add_distrib]
  congr 1
  · simp only [Finset.sum_mul, Finset.mul_sum]
    rw [Finset.sum_comm]
    exact Finset.sum_congr rfl fun _ _ => Finset.sum_congr rfl fun _ _ => by ring
  · simp

theorem quad_polar {n : Nat} (D : Fin n → Row F d) (lam : F) (w u : Fin n → F) :
    quad D lam (fun j => w j + u j) = quad D lam w + quad D lam u
      + 2 * ∑ i, u i * (∑ c, D i c * (∑ j, w j * D j c) + lam * w i) := by
  have e1 : ∑ i, u i * (∑ c, D i c * (∑ j, w j * D j c) + lam * w i)
      = ∑ c, (∑ i, u i * D i c) * (∑ j, w j * D j c) + lam * ∑ i, u i * w i := by
    simp only [mul_add, Finset.sum_add_distrib]
    congr 1
    · simp only [Finset.mul_sum (s := (Finset.univ : Finset (Fin d)))]
      rw [Finset.sum_comm]
      refine Finset.sum_congr rfl fun c _ => ?_
      rw [Finset.sum_mul]
      exact Finset.sum_congr rfl fun _ _ => by ring
    · rw [Finset.mul_sum]; exact Finset.sum_congr rfl fun _ _ => by ring
  rw [e1]
  simp only [quad, add_mul, Finset.sum_add_distrib, add_sq, mul_add]
  simp only [Finset.mul_sum]
  have : ∀ c, 2 * (∑ j, w j * D j c) * (∑ j, u j * D j c) = 2 * ((∑ i, u i * D i c) * (∑ j, w j * D j c)) := fun c => by ring
  simp only [this, ← Finset.mul_sum]
  have h2 : ∑ i, 2 * w i * u i = 2 * ∑ i, u i * w i := by rw [Finset.mul_sum]; exact Finset.sum_congr rfl fun _ _ => by ring
  rw [h2]
  ring

theorem quad_zero {n : Nat} (D : Fin n → Row F d) {lam : F} (h0 : 0 ≤ lam) (u : Fin n → F) :
    0 ≤ quad D lam u ∧ (quad D lam u = 0 → ∀ i, ∑ c, D i c * (∑ j, u j * D j c) + lam * u i = 0) := by
  have h1 : 0 ≤ ∑ c, (∑ j, u j * D j c) ^ 2 := Finset.sum_nonneg fun _ _ => sq_nonneg _
  have h2 : 0 ≤ lam * ∑ j, u j ^ 2 := mul_nonneg h0 (Finset.sum_nonneg fun _ _ => sq_nonneg _)
  refine ⟨add_nonneg h1 h2, fun h i => ?_⟩
  unfold quad at h
  have z1 : ∑ c, (∑ j, u j * D j c) ^ 2 = 0 := by linarith
  have z2 : lam * ∑ j, u j ^ 2 = 0 := by linarith
  rw [Finset.sum_eq_zero_iff_of_nonneg fun _ _ => sq_nonneg _] at z1
  have z1' : ∀ c, ∑ j, u j * D j c = 0 := fun c => pow_eq_zero_iff two_ne_zero |>.1 (z1 c (Finset.mem_univ _))
  simp only [z1', mul_zero, Finset.sum_const_zero, zero_add]
  rcases mul_eq_zero.1 z2 with h | h
  · rw [h, zero_mul]
  · rw [Finset.sum_eq_zero_iff_of_nonneg fun _ _ => sq_nonneg _] at h
    rw [pow_eq_zero_iff two_ne_zero |>.1 (h i (Finset.mem_univ _)), mul_zero]

/-- The weights sum up to one and are the only minimum of the quadratic form. -/
theorem weights_core {n k : Nat} (hn : 0 < n) (D : Fin n → Row F d) {lam : F} (h0 : 0 ≤ lam) {w : Fin n → F}
    (h : weights k (Matrix.of fun i j => ∑ c, D i c * D j c) lam = .ok w) :
    ∑ j, w j = 1 ∧ ∀ v : Fin n → F, ∑ j, v j = 1 → v ≠ w → quad D lam w < quad D lam v := by
  unfold weights at h
  split at h
  · cases h
  · split at h
    · cases h
    · next z hz =>
      obtain ⟨hd, hs⟩ := solveOnes_spec hz
      cases h
      have def0 : ∀ u : Fin n → F, quad D lam u = 0 → u = 0 := by
        intro u hu
        have := (quad_zero D h0 u).2 hu
        refine Matrix.eq_zero_of_mulVec_eq_zero hd (funext fun i => ?_)
        rw [Matrix.mulVec, dotProduct, form_apply, this i]
        rfl
      have hz1 : ∀ i, ∑ c, D i c * (∑ j, z j * D j c) + lam * z i = 1 := fun i => by rw [← form_apply]; exact hs i
      have hq : quad D lam z = ∑ j, z j := by
        have e := quad_polar D lam z z
        have e2 : quad D lam (fun j => z j + z j) = 4 * quad D lam z := by
          have : (fun j => z j + z j) = fun j => 2 * z j := funext fun j => by ring
          rw [this]
          simp only [quad, mul_assoc, ← Finset.mul_sum, mul_pow]
          ring
        simp only [hz1, mul_one] at e
        linarith
      have hsum : ∑ j, z j ≠ 0 := by
        intro hc
        have := def0 z (hq.trans hc)
        have h1 := hz1 ⟨0, hn⟩
        rw [this] at h1
        simp at h1
      have hw1 : ∑ j, z j / ∑ i, z i = 1 := by rw [← Finset.sum_div, div_self hsum]
      refine ⟨hw1, fun v hv hne => ?_⟩
      set w : Fin n → F := fun j => z j / ∑ i, z i with hwdef
      have hu : (fun j => w j + (v j - w j)) = v := funext fun j => by ring
      have e := quad_polar D lam w fun j => v j - w j
      rw [hu] at e
      have hz2 : ∀ i, ∑ c, D i c * (∑ j, w j * D j c) + lam * w i = 1 / ∑ j, z j := fun i => by
        rw [← hz1 i]
        simp only [hwdef, div_mul_eq_mul_div, ← Finset.sum_div, mul_div_assoc', add_div]
      simp only [hz2, ← Finset.sum_mul, Finset.sum_sub_distrib] at e
      rw [hv, show ∑ j, w j = 1 from hw1, sub_self, zero_mul, mul_zero, add_zero] at e
      have hpos := (quad_zero D h0 fun j => v j - w j).1
      rcases hpos.lt_or_eq with hp | hp
      · linarith
      · exact absurd (funext fun j => sub_eq_zero.1 (congrFun (def0 _ hp.symm) j)) hne

/-- A positive correction makes the matrix regular. -/
theorem det_pos {n : Nat} (D : Fin n → Row F d) {lam : F} (h0 : 0 < lam) :
    ((Matrix.of fun i j => ∑ c, D i c * D j c) + lam • (1 : Matrix (Fin n) (Fin n) F)).det ≠ 0 := by
  intro hd
  obtain ⟨v, hv, h⟩ := Matrix.exists_mulVec_eq_zero_iff.2 hd
  refine hv (funext fun i => ?_)
  have e := quad_polar D lam v v
  have e2 : quad D lam (fun j => v j + v j) = 4 * quad D lam v := by
    have : (fun j => v j + v j) = fun j => 2 * v j := funext fun j => by ring
    rw [this]
    simp only [quad, mul_assoc, ← Finset.mul_sum, mul_pow]
    ring
  have hz : ∀ i, ∑ c, D i c * (∑ j, v j * D j c) + lam * v i = 0 := fun i => by
    have := congrFun h i
    rwa [Matrix.mulVec, dotProduct, form_apply] at this
  simp only [hz, mul_zero, Finset.sum_const_zero] at e
  have h1 : 0 ≤ ∑ c, (∑ j, v j * D j c) ^ 2 := Finset.sum_nonneg fun _ _ => sq_nonneg _
  have h2 : 0 ≤ ∑ j, v j ^ 2 := Finset.sum_nonneg fun _ _ => sq_nonneg _
  have h3 : quad D lam v = 0 := by linarith
  unfold quad at h3
  have h4 : ∑ j, v j ^ 2 = 0 := by nlinarith
  rw [Finset.sum_eq_zero_iff_of_nonneg fun _ _ => sq_nonneg _] at h4
  exact pow_eq_zero_iff two_ne_zero |>.1 (h4 i (Finset.mem_univ _))

/-! ## Sums over the neighbours -/

theorem sum_supp {nb : List (Fin N)} (hn : nb.Nodup) (g : Fin N → F) (hg : ∀ a, a ∉ nb → g a = 0) :
    ∑ a, g a = ∑ j, g (nb.get j) := by
  rw [sum_get nb g, ← List.sum_toFinset g hn]
  symm
  refine Finset.sum_subset (Finset.subset_univ _) fun a _ ha => hg a fun h => ha (List.mem_toFinset.2 h)

theorem put_get {nb : List (Fin N)} (hn : nb.Nodup) (w : Fin nb.length → F) (j : Fin nb.length) : put nb w (nb.get j) = w j := by
  unfold put
  split
  · next i h =>
    have := List.find?_some h
    simp only [decide_eq_true_eq] at this
    rw [List.Nodup.get_inj_iff hn] at this
    rw [this]
  · next h =>
    have := List.find?_eq_none.1 h j (List.mem_finRange j)
    simp at this

theorem put_out {nb : List (Fin N)} (w : Fin nb.length → F) (a : Fin N) (ha : a ∉ nb) : put nb w a = 0 := by
  unfold put
  split
  · next i h =>
    have := List.find?_some h
    simp only [decide_eq_true_eq] at this
    exact absurd (this ▸ List.get_mem nb i) ha
  · rfl

/-- For weights that sum up to one the quadratic form of the differences is the cost. -/
theorem cost_eq {nb : List (Fin N)} (hn : nb.Nodup) (M : Fin N → Row F d) (x : Row F d) (lam : F) (v : Fin N → F)
    (hv : ∀ a, a ∉ nb → v a = 0) (h1 : ∑ a, v a = 1) :
    cost M x lam v = quad (diffs M x nb) lam fun j => v (nb.get j) := by
  unfold cost quad dist2
  rw [sum_supp hn (fun a => v a ^ 2) fun a ha => by simp [hv a ha]]
  congr 1
  refine Finset.sum_congr rfl fun c _ => ?_
  beta_reduce
  rw [sum_supp hn (fun a => v a * M a c) fun a ha => by simp [hv a ha]]
  rw [sum_supp hn v hv] at h1
  simp only [diffs, mul_sub, Finset.sum_sub_distrib, ← Finset.sum_mul]
  rw [h1]
  ring

theorem best_of_weights {nb : List (Fin N)} (hn : nb.Nodup) (h0 : 0 < nb.length) (M : Fin N → Row F d) (x : Row F d) {lam : F}
    (hl : 0 ≤ lam) {k : Nat} {w : Fin nb.length → F} (h : weights k (gram M x nb) lam = .ok w) :
    Best M x lam nb.toFinset (put nb w) := by
  obtain ⟨h1, h2⟩ := weights_core h0 (diffs M x nb) hl h
  have hout : ∀ a, a ∉ nb → put nb w a = 0 := put_out w
  have hs : ∑ a, put nb w a = 1 := by
    rw [sum_supp hn _ hout]
    simp only [put_get hn]
    exact h1
  refine ⟨fun a ha => put_out w a (by simpa using ha), hs, fun v hv hv1 hne => ?_⟩
  have hv' : ∀ a, a ∉ nb → v a = 0 := fun a ha => hv a (by simpa using ha)
  rw [cost_eq hn M x lam _ hout hs, cost_eq hn M x lam v hv' hv1]
  simp only [put_get hn]
  refine h2 _ (by rw [← sum_supp hn v hv']; exact hv1) fun hc => hne (funext fun a => ?_)
  by_cases ha : a ∈ nb
  · obtain ⟨j, rfl⟩ := List.get_of_mem ha
    rw [put_get hn]
    exact congrFun hc j
  · rw [hv' a ha, hout a ha]

/-! ## Neighbours -/

theorem nearest_spec {E : Env F} (hE : Sorts E) (M : Fin N → Row F d) (x : Row F d) :
    (nearest E M x).Nodup ∧ (nearest E M x).length = N ∧ (∀ a, a ∈ nearest E M x)
      ∧ (nearest E M x).Pairwise fun a b => dist2 (M a) x ≤ dist2 (M b) x := by
  obtain ⟨hp, hs⟩ := hE N fun a => ∑ c, (M a c - x c) ^ 2
  refine ⟨hp.nodup_iff.2 (List.nodup_finRange N), ?_, fun a => hp.mem_iff.2 (List.mem_finRange a), hs⟩
  have := hp.length_eq
  rwa [List.length_finRange] at this

theorem take_nearest {E : Env F} (hE : Sorts E) (M : Fin N → Row F d) (x : Row F d) {k : Nat} (hk : k ≤ N) :
    ((nearest E M x).take k).Nodup ∧ ((nearest E M x).take k).length = k ∧ Nearest M x k ((nearest E M x).take k).toFinset := by
  obtain ⟨hn, hl, hm, hp⟩ := nearest_spec hE M x
  have hn' : ((nearest E M x).take k).Nodup := hn.sublist (List.take_sublist _ _)
  have hl' : ((nearest E M x).take k).length = k := by rw [List.length_take]; omega
  refine ⟨hn', hl', ?_, fun a ha b hb => ?_⟩
  · rw [List.toFinset_card_of_nodup hn', hl']
  · rw [List.mem_toFinset] at ha hb
    have hb2 : b ∈ (nearest E M x).drop k := by
      have := hm b
      rw [← List.take_append_drop k (nearest E M x), List.mem_append] at this
      exact this.resolve_left hb
    rw [← List.take_append_drop k (nearest E M x), List.pairwise_append] at hp
    exact hp.2.2 a ha b hb2

theorem dist2_self (x : Row F d) : dist2 x x = 0 := by simp [dist2]

theorem dist2_nonneg (x y : Row F d) : 0 ≤ dist2 x y := Finset.sum_nonneg fun _ _ => sq_nonneg _

theorem dist2_eq_zero {x y : Row F d} : dist2 x y = 0 ↔ x = y := by
  unfold dist2
  rw [Finset.sum_eq_zero_iff_of_nonneg fun _ _ => sq_nonneg _]
  constructor
  · intro h
    exact funext fun c => sub_eq_zero.1 (pow_eq_zero_iff two_ne_zero |>.1 (h c (Finset.mem_univ _)))
  · rintro rfl c _
    simp

theorem drop_nearest {E : Env F} (hE : Sorts E) (M : Fin N → Row F d) (i : Fin N) {k : Nat} (hk : k < N) :
    (((nearest E M (M i)).drop 1).take k).Nodup ∧ (((nearest E M (M i)).drop 1).take k).length = k
      ∧ Neighbours M i k (((nearest E M (M i)).drop 1).take k).toFinset := by
  obtain ⟨hn, hl, hm, hp⟩ := nearest_spec hE M (M i)
  generalize nearest E M (M i) = l at *
  cases l with
  | nil => simp at hl; omega
  | cons h t =>
    simp only [List.drop_succ_cons, List.drop_zero]
    have hn' : (t.take k).Nodup := (List.nodup_cons.1 hn).2.sublist (List.take_sublist _ _)
    have hl' : (t.take k).length = k := by rw [List.length_take]; simp at hl; omega
    have hh : M h = M i := by
      rw [← dist2_eq_zero]
      refine le_antisymm ?_ (dist2_nonneg _ _)
      rcases List.mem_cons.1 (hm i) with hi | hi
      · rw [← hi, dist2_self]
      · exact ((List.pairwise_cons.1 hp).1 i hi).trans (dist2_self _).le
    refine ⟨hn', hl', ?_, h, ?_, hh, fun a ha b hb hbh => ?_⟩
    · rw [List.toFinset_card_of_nodup hn', hl']
    · rw [List.mem_toFinset]
      exact fun hc => (List.nodup_cons.1 hn).1 (List.mem_of_mem_take hc)
    · rw [List.mem_toFinset] at ha hb
      have hb1 : b ∈ t := (List.mem_cons.1 (hm b)).resolve_left hbh
      have hb2 : b ∈ t.drop k := by
        rw [← List.take_append_drop k t, List.mem_append] at hb1
        exact hb1.resolve_left hb
      have hp' := (List.pairwise_cons.1 hp).2
      rw [← List.take_append_drop k t, List.pairwise_append] at hp'
      exact hp'.2.2 a ha b hb2

/-! ## Training -/

theorem loop_ok {α : Type} {dflt : α} {f : Fin N → Except Err α} {g : Fin N → α} (h : loop dflt f = .ok g) (i : Fin N) :
    f i = .ok (g i) := by
  unfold loop at h
  split at h
  · cases h
  · next hs =>
    cases h
    rw [List.findSome?_eq_none_iff] at hs
    have := hs i (List.mem_finRange i)
    split at this
    · cases this
    · next heq => simp [heq]

theorem loop_error {α : Type} {dflt : α} {f : Fin N → Except Err α} {e : Err} (h : loop dflt f = .error e) :
    ∃ i, f i = .error e := by
  unfold loop at h
  split at h
  · next hs =>
    cases h
    obtain ⟨i, _, hi⟩ := List.exists_of_findSome?_eq_some hs
    split at hi
    · next heq => cases hi; exact ⟨i, heq⟩
    · cases hi
  · cases h

theorem loop_all {α : Type} (dflt : α) (f : Fin N → Except Err α) (g : Fin N → α) (h : ∀ i, f i = .ok (g i)) :
    loop dflt f = .ok g := by
  cases hl : loop dflt f with
  | error e =>
    obtain ⟨i, hi⟩ := loop_error hl
    rw [h i] at hi
    cases hi
  | ok g' =>
    congr 1
    funext i
    have := loop_ok hl i
    rw [h i] at this
    exact (Except.ok.inj this).symm

theorem loop_fail {α : Type} (dflt : α) (f : Fin N → Except Err α) (i : Fin N) (e : Err) (h : f i = .error e) :
    ∃ e', loop dflt f = .error e' := by
  cases hl : loop dflt f with
  | error e' => exact ⟨e', rfl⟩
  | ok g => have := loop_ok hl i; rw [h] at this; cases this

theorem unused_nonneg (E : Env F) (out : Nat) (M : Fin N → Row F d) (x : Row F d) (nb : List (Fin N)) : 0 ≤ unused E out M x nb := by
  unfold unused
  refine List.sum_nonneg fun a ha => ?_
  have := List.mem_of_mem_drop ha
  rw [List.mem_map] at this
  obtain ⟨b, _, rfl⟩ := this
  exact sq_nonneg b

theorem trace_gram {nb : List (Fin N)} (hn : nb.Nodup) (M : Fin N → Row F d) (x : Row F d) :
    ∑ j, gram M x nb j j = ∑ a ∈ nb.toFinset, dist2 (M a) x := by
  have : ∑ j, gram M x nb j j = ∑ j, dist2 (M (nb.get j)) x := by
    refine Finset.sum_congr rfl fun j _ => ?_
    simp only [gram, Matrix.of_apply, diffs, dist2]
    exact Finset.sum_congr rfl fun _ _ => by ring
  rw [this, sum_get nb fun a => dist2 (M a) x, ← List.sum_toFinset _ hn]

theorem trainRow_ok {E : Env F} (hE : Sorts E) {c : Cfg F} {out : Nat} {M : Fin N → Row F d} {i : Fin N} {w : Fin N → F}
    (h : trainRow E c out M i = .ok w) (hk : 1 ≤ c.k) (hr : ∀ r, c.r = some r → 0 ≤ r) :
    ∃ S lam, Neighbours M i c.k S ∧ 0 ≤ lam ∧ (∀ r, c.r = some r → lam = r * ∑ a ∈ S, dist2 (M a) (M i)) ∧ Best M (M i) lam S w := by
  unfold trainRow at h
  simp only at h
  split at h
  · cases h
  · next w' hw =>
    cases h
    have hlen : c.k ≤ (((nearest E M (M i)).drop 1).take c.k).length := by
      unfold weights at hw
      split at hw
      · cases hw
      · omega
    have hkN : c.k < N := by
      have := (nearest_spec hE M (M i)).2.1
      rw [List.length_take, List.length_drop, this] at hlen
      omega
    obtain ⟨hn, hl, hnb⟩ := drop_nearest hE M i hkN
    have hl0 : 0 ≤ (match c.r with
        | none => unused E out M (M i) (((nearest E M (M i)).drop 1).take c.k)
        | some r => r * ∑ j, gram M (M i) (((nearest E M (M i)).drop 1).take c.k) j j) := by
      cases hc : c.r with
      | none => exact unused_nonneg _ _ _ _ _
      | some r =>
        rw [trace_gram hn]
        exact mul_nonneg (hr r hc) (Finset.sum_nonneg fun _ _ => dist2_nonneg _ _)
    refine ⟨_, _, hnb, hl0, fun r hc => ?_, best_of_weights hn (by omega) M (M i) hl0 hw⟩
    rw [hc]
    simp only
    rw [trace_gram hn]

variable [FloorRing F]

theorem stop_ok {E : Env F} {c : Cfg F} {M : Fin N → Row F d} {t : Res F N d} (h : stop E c M = .ok t) :
    c.k ≤ N ∧ t.data = M ∧ outDim E c M = .ok t.out ∧ (∀ i, trainRow E c t.out M i = .ok fun a => t.W a i)
      ∧ embedding E c t.out t.W = .ok t.proj := by
  unfold stop at h
  split at h
  · cases h
  · next hk =>
    split at h
    · cases h
    · next out ho =>
      split at h
      · cases h
      · next cols hc =>
        simp only at h
        split at h
        · cases h
        · next proj hp =>
          cases h
          exact ⟨by omega, rfl, ho, fun i => loop_ok hc i, hp⟩

/-- C258 -/
theorem lle_weights (E : Env F) (hE : Sorts E) (c : Cfg F) (M : Fin N → Row F d) (t : Res F N d) (h : stop E c M = .ok t)
    (hk : 1 ≤ c.k) (r : F) (hc : c.r = some r) (hr : 0 ≤ r) (i : Fin N) :
    ∃ S, Neighbours M i c.k S ∧ Best M (M i) (r * ∑ a ∈ S, dist2 (M a) (M i)) S fun a => t.W a i := by
  obtain ⟨_, _, _, hw, _⟩ := stop_ok h
  obtain ⟨S, lam, hS, _, hl, hb⟩ := trainRow_ok hE (hw i) hk fun r' h' => by
    rw [hc] at h'; cases h'; exact hr
  exact ⟨S, hS, hl r hc ▸ hb⟩

/-- C258 -/
theorem lle_weights_auto (E : Env F) (hE : Sorts E) (c : Cfg F) (M : Fin N → Row F d) (t : Res F N d) (h : stop E c M = .ok t)
    (hk : 1 ≤ c.k) (hc : c.r = none) (i : Fin N) :
    ∃ S lam, Neighbours M i c.k S ∧ 0 ≤ lam ∧ Best M (M i) lam S fun a => t.W a i := by
  obtain ⟨_, _, _, hw, _⟩ := stop_ok h
  obtain ⟨S, lam, hS, h0, _, hb⟩ := trainRow_ok hE (hw i) hk fun r' h' => by
    rw [hc] at h'; cases h'
  exact ⟨S, lam, hS, h0, hb⟩

end core

end Mdp.Lle
