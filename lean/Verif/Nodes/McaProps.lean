import Verif.Nodes.CcipcaProps
import Mathlib.Analysis.SpecificLimits.Basic
import Mathlib.Analysis.Normed.Group.Continuity
import Mathlib.Algebra.Order.Chebyshev

/-!
# Theorems about `MCANode`
-/

namespace Mdp.Ccipca

open Mdp.Cov Mdp.Pca

variable {d : Nat}

/-! ## Specification -/

/-- `v` is an eigenvector of `c` with eigenvalue `lam`. -/
def Eigen (c : Mat ℝ d d) (lam : ℝ) (v : Row ℝ d) : Prop := ∀ k, ∑ l, c k l * v l = lam * v k

/-- The first component. -/
noncomputable def MSt.first (s : MSt d) : Row ℝ d := match s.comps with
  | some (c :: _) => c.v
  | _ => 0

/-! ## Lemmas -/

theorem step_ok {s s' : MSt d} {x : List (Row ℝ d)} (h : s.step x = .ok s') : ∃ l n l', s.comps = some l ∧
    s.outDim = some n ∧ minors s.eps s.gamma s.normalize 0 (gram x) l = some l' ∧
    s' = { s with comps := some l', iter := s.iter + x.length } := by
  unfold MSt.step at h
  split at h
  · rename_i l n h1 h2
    split at h
    · simp at h
    · rename_i l' h3
      simp only [Except.ok.injEq] at h
      exact ⟨l, n, l', h1, h2, h3, h.symm⟩
  · simp at h

theorem minors_spec (eps gamma : ℝ) (nz : Bool) (l : List (MComp d)) : ∀ (j : Nat) (c : Mat ℝ d d) (l' : List (MComp d)),
    minors eps gamma nz j c l = some l' → l'.length = l.length ∧
    ∀ m ∈ l', if nz then Unit m.v ∧ 0 < m.e else m.e = nrm m.v := by
  induction l with
  | nil => intro j c l' h; simp only [minors, Option.some.injEq] at h; subst h; simp
  | cons m l ih =>
    intro j c l' h
    rw [minors] at h
    by_cases h1 : dot (fun k => (1.5 - (if nz then eps / (1 + j * 1.2) else eps / (1 + j * 1.2) * m.e ^ 2)) * m.v k
        - eps / (1 + j * 1.2) * mulV c m.v k) (fun k => (1.5 - (if nz then eps / (1 + j * 1.2) else
        eps / (1 + j * 1.2) * m.e ^ 2)) * m.v k - eps / (1 + j * 1.2) * mulV c m.v k) = 0 ∧ (nz = true ∨ l ≠ [])
    · rw [if_pos h1] at h
      simp at h
    · rw [if_neg h1, Option.map_eq_some_iff] at h
      obtain ⟨t, ht, rfl⟩ := h
      have := ih _ _ _ ht
      refine ⟨by simp [this.1], ?_⟩
      intro m' hm
      simp only [List.mem_cons] at hm
      rcases hm with rfl | hm
      · cases nz with
        | false => simp only [Bool.false_eq_true, if_false, nrm]
        | true =>
          simp only [true_or, and_true, if_true] at h1
          simp only [if_true]
          have hp := lt_of_le_of_ne (dot_self_nonneg _) (Ne.symm h1)
          refine ⟨?_, Real.sqrt_pos.2 hp⟩
          simp only [Unit]
          rw [dot_smul_div, Real.mul_self_sqrt hp.le]
          exact div_self h1
      · exact this.2 m' hm

/-! ## Length -/

/-- After a training step of a normalising node (the default) every component has length one; otherwise the number kept with it
is its length. -/
theorem minor_unit {s s' : MSt d} {x : List (Row ℝ d)} (h : s.step x = .ok s') :
    ∃ l, s'.comps = some l ∧ ∀ m ∈ l, if s.normalize then Unit m.v ∧ 0 < m.e else m.e = nrm m.v := by
  obtain ⟨l, n, l', _, _, h3, rfl⟩ := step_ok h
  exact ⟨l', rfl, (minors_spec _ _ _ _ _ _ _ h3).2⟩

/-- Initial vectors given to the constructor are never used: every training step raises. -/
theorem minor_constructor_false (eps gamma : ℝ) (nz : Bool) (vs : List (Row ℝ d)) (out : Option Nat) (rnd : Nat → List (Row ℝ d))
    (x : List (Row ℝ d)) : ((MSt.new eps gamma nz (some vs) out).check rnd).step x = .error .typeError := rfl

/-! ## The first component -/

/-- The update of the first component of a normalising node, up to a positive factor. -/
theorem first_step {s s' : MSt d} {x : List (Row ℝ d)} (hz : s.normalize = true) (h : s.step x = .ok s')
    (hs : ∃ c l, s.comps = some (c :: l)) :
    ∃ (e : ℝ) (l : List (MComp d)), 0 < e ∧ s'.comps = some (⟨s'.first, e⟩ :: l) ∧
      (∀ k, e * s'.first k = (3 / 2 - s.eps) * s.first k - s.eps * ∑ l, gram x k l * s.first l) ∧
      (fun (a b : MSt d) => a.normalize = b.normalize ∧ a.eps = b.eps) s' s := by
  obtain ⟨c, l, hs⟩ := hs
  obtain ⟨l0, n, l', h1, h2, h3, rfl⟩ := step_ok h
  rw [hs] at h1
  simp only [Option.some.injEq] at h1
  subst h1
  simp only [minors, hz, true_or, and_true, if_true, Nat.cast_zero, zero_mul, add_zero, div_one] at h3
  split at h3
  · simp at h3
  · rename_i h4
    simp only [Option.map_eq_some_iff] at h3
    obtain ⟨t, ht, rfl⟩ := h3
    have hp := lt_of_le_of_ne (dot_self_nonneg _) (Ne.symm h4)
    refine ⟨_, t, Real.sqrt_pos.2 hp, rfl, ?_, rfl, rfl⟩
    intro k
    simp only [MSt.first, hs]
    rw [mul_div_cancel₀ _ (Real.sqrt_pos.2 hp).ne']
    norm_num [mulV]

theorem gram_symm (x : List (Row ℝ d)) (k l : Fin d) : gram x k l = gram x l k := by
  simp only [gram]
  congr 1
  exact List.map_congr_left fun r _ => mul_comm _ _

theorem dot_eigen {c : Mat ℝ d d} (hc : ∀ k l, c k l = c l k) {lam : ℝ} {a : Row ℝ d} (ha : Eigen c lam a) (v : Row ℝ d) :
    ∑ k, (∑ l, c k l * v l) * a k = lam * dot v a := by
  have h1 : ∑ k, (∑ l, c k l * v l) * a k = ∑ l, v l * ∑ k, c l k * a k := by
    simp only [Finset.sum_mul, Finset.mul_sum]
    rw [Finset.sum_comm]
    exact Finset.sum_congr rfl fun l _ => Finset.sum_congr rfl fun k _ => by rw [hc k l]; ring
  rw [h1, dot, Finset.mul_sum]
  exact Finset.sum_congr rfl fun l _ => by rw [ha l]; ring

/-- The projection of the first component on an eigenvector of the data is multiplied with `3/2 - eps (1 + lam)`, up to the
normalisation. -/
theorem first_projection {s s' : MSt d} {x : List (Row ℝ d)} {e : ℝ}
    (h : ∀ k, e * s'.first k = (3 / 2 - s.eps) * s.first k - s.eps * ∑ l, gram x k l * s.first l) {lam : ℝ} {a : Row ℝ d}
    (ha : Eigen (gram x) lam a) : e * dot s'.first a = (3 / 2 - s.eps * (1 + lam)) * dot s.first a := by
  have h1 : e * dot s'.first a = ∑ k, ((3 / 2 - s.eps) * s.first k - s.eps * ∑ l, gram x k l * s.first l) * a k := by
    simp only [dot, Finset.mul_sum]
    exact Finset.sum_congr rfl fun k _ => by rw [← mul_assoc, h k, Finset.mul_sum]
  have h2 : ∑ k, ((3 / 2 - s.eps) * s.first k - s.eps * ∑ l, gram x k l * s.first l) * a k
      = (3 / 2 - s.eps) * dot s.first a - s.eps * ∑ k, (∑ l, gram x k l * s.first l) * a k := by
    simp only [dot, Finset.mul_sum, ← Finset.sum_sub_distrib]
    exact Finset.sum_congr rfl fun k _ => by rw [← Finset.mul_sum]; ring
  rw [h1, h2, dot_eigen (gram_symm x) ha]
  ring

/-- A component along an eigenvector of the data stays there; the number reported for it is `|3/2 - eps (1 + lam)|`. -/
theorem minor_fixed {s s' : MSt d} {x : List (Row ℝ d)} {lam : ℝ} (hz : s.normalize = true) (h : s.step x = .ok s')
    (hs : ∃ c l, s.comps = some (c :: l)) (hu : Unit s.first) (ha : Eigen (gram x) lam s.first) :
    (s'.first = s.first ∨ s'.first = -s.first) ∧
    ∃ l, s'.comps = some (⟨s'.first, |3 / 2 - s.eps * (1 + lam)|⟩ :: l) := by
  have hun := minor_unit h
  obtain ⟨e, l, he, hc, hv, _⟩ := first_step hz h hs
  have hq : ∀ k, e * s'.first k = (3 / 2 - s.eps * (1 + lam)) * s.first k := fun k => by
    rw [hv k, ha k]; ring
  obtain ⟨l1, hl1, hl2⟩ := hun
  rw [hc] at hl1
  simp only [Option.some.injEq] at hl1
  have hu' : Unit s'.first := by
    have := hl2 ⟨s'.first, e⟩ (by rw [← hl1]; simp)
    rw [hz] at this
    exact this.1
  have h1 : e * e = (3 / 2 - s.eps * (1 + lam)) * (3 / 2 - s.eps * (1 + lam)) := by
    have h2 : dot (fun k => e * s'.first k) (fun k => e * s'.first k) = e * e * dot s'.first s'.first := by
      simp only [dot, Finset.mul_sum]; exact Finset.sum_congr rfl fun k _ => by ring
    have h3 : dot (fun k => e * s'.first k) (fun k => e * s'.first k)
        = (3 / 2 - s.eps * (1 + lam)) * (3 / 2 - s.eps * (1 + lam)) * dot s.first s.first := by
      simp only [dot, Finset.mul_sum]; exact Finset.sum_congr rfl fun k _ => by rw [hq k]; ring
    rw [h2, hu', hu] at h3
    linarith
  have h4 : e = |3 / 2 - s.eps * (1 + lam)| := by
    have := (mul_self_inj (a := e) he.le (abs_nonneg (3 / 2 - s.eps * (1 + lam)))).1 (by rw [h1, abs_mul_abs_self])
    exact this
  refine ⟨?_, l, by rw [hc, ← h4]⟩
  rcases abs_cases (3 / 2 - s.eps * (1 + lam)) with ⟨h5, _⟩ | ⟨h5, _⟩
  · left
    funext k
    have := hq k
    rw [← h5, ← h4] at this
    exact mul_left_cancel₀ he.ne' this
  · right
    funext k
    have := hq k
    rw [show 3 / 2 - s.eps * (1 + lam) = -e by rw [h4, h5]; ring] at this
    simp only [Pi.neg_apply]
    have h6 : e * s'.first k = e * (-s.first k) := by rw [this]; ring
    exact mul_left_cancel₀ he.ne' h6

/-- A first component that a training step leaves where it is, is an eigenvector of the data. -/
theorem minor_fixed_converse {s s' : MSt d} {x : List (Row ℝ d)} (hz : s.normalize = true) (he : s.eps ≠ 0)
    (h : s.step x = .ok s') (hs : ∃ c l, s.comps = some (c :: l)) (hk : s'.first = s.first) :
    ∃ lam, Eigen (gram x) lam s.first := by
  obtain ⟨e, l, _, _, hv, _⟩ := first_step hz h hs
  refine ⟨((3 / 2 - s.eps) - e) / s.eps, fun k => ?_⟩
  have := hv k
  rw [hk] at this
  rw [div_mul_eq_mul_div, eq_div_iff he]
  linarith

theorem dot_le_one {a b : Row ℝ d} (ha : Unit a) (hb : Unit b) : |dot a b| ≤ 1 := by
  have h1 : 0 ≤ dot (fun k => a k - b k) (fun k => a k - b k) := dot_self_nonneg _
  have h2 : 0 ≤ dot (fun k => a k + b k) (fun k => a k + b k) := dot_self_nonneg _
  have e1 : dot (fun k => a k - b k) (fun k => a k - b k) = dot a a - 2 * dot a b + dot b b := by
    simp only [dot, Finset.mul_sum, ← Finset.sum_sub_distrib, ← Finset.sum_add_distrib]
    exact Finset.sum_congr rfl fun k _ => by ring
  have e2 : dot (fun k => a k + b k) (fun k => a k + b k) = dot a a + 2 * dot a b + dot b b := by
    simp only [dot, Finset.mul_sum, ← Finset.sum_add_distrib]
    exact Finset.sum_congr rfl fun k _ => by ring
  rw [show dot a a = 1 from ha, show dot b b = 1 from hb] at e1 e2
  rw [abs_le]
  constructor <;> linarith

/-- Training again and again with the same data: let `a` be an eigenvector of the data (of length one) to which the initial vector
is not orthogonal, and `b` one with a larger eigenvalue. Then the projection of the first component on `b` vanishes
geometrically: only the directions of the smallest eigenvalue stay. The step size has to satisfy `eps (1 + mu) < 3/2`. `S k` is
the node after `k` steps. -/
theorem minor_converges (S : Nat → MSt d) (x : List (Row ℝ d)) (lam mu : ℝ) (a b : Row ℝ d) (hz : (S 0).normalize = true)
    (hs : ∃ c l, (S 0).comps = some (c :: l)) (h : ∀ k, (S k).step x = .ok (S (k + 1)))
    (ha : Eigen (gram x) lam a) (hb : Eigen (gram x) mu b) (hu : Unit a) (hlm : lam < mu)
    (he : 0 < (S 0).eps) (hmu : (S 0).eps * (1 + mu) < 3 / 2) (h0 : dot (S 0).first a ≠ 0) :
    Filter.Tendsto (fun k => dot (S k).first b) Filter.atTop (nhds 0) ∧
    ∀ k, 0 < k → |dot (S k).first b| ≤
      ((3 / 2 - (S 0).eps * (1 + mu)) / (3 / 2 - (S 0).eps * (1 + lam))) ^ k * (|dot (S 0).first b| / |dot (S 0).first a|) := by
  set q := 3 / 2 - (S 0).eps * (1 + mu) with hq
  set p := 3 / 2 - (S 0).eps * (1 + lam) with hp
  have hq0 : 0 < q := by linarith
  have hpq : q < p := by nlinarith
  have hp0 : 0 < p := by linarith
  have key : ∀ k, (S k).normalize = true ∧ (S k).eps = (S 0).eps ∧ (∃ c l, (S k).comps = some (c :: l)) ∧
      ∃ e : ℝ, 0 < e ∧ e * dot (S k).first a = p ^ k * dot (S 0).first a ∧ e * dot (S k).first b = q ^ k * dot (S 0).first b := by
    intro k
    induction k with
    | zero => exact ⟨hz, rfl, hs, 1, one_pos, by simp, by simp⟩
    | succ k ih =>
      obtain ⟨h1, h2, h3, e, h4, h5, h6⟩ := ih
      obtain ⟨e', l, he', hc, hv, hn, hee⟩ := first_step h1 (h k) h3
      have g1 := first_projection hv ha
      have g2 := first_projection hv hb
      rw [h2] at g1 g2
      refine ⟨by rw [hn, h1], by rw [hee, h2], ⟨_, _, hc⟩, e * e', by positivity, ?_, ?_⟩
      · rw [mul_assoc, g1, ← hp, pow_succ, mul_left_comm, h5]; ring
      · rw [mul_assoc, g2, ← hq, pow_succ, mul_left_comm, h6]; ring
  have hunit : ∀ k, 0 < k → Unit (S k).first := by
    intro k hk
    obtain ⟨j, rfl⟩ : ∃ j, k = j + 1 := ⟨k - 1, by omega⟩
    obtain ⟨l, hl, hl2⟩ := minor_unit (h j)
    obtain ⟨_, _, ⟨c, t, hc⟩, _⟩ := key (j + 1)
    rw [hc] at hl
    simp only [Option.some.injEq] at hl
    have := hl2 c (by rw [← hl]; simp)
    rw [(key j).1] at this
    simpa [MSt.first, hc] using this.1
  have bound : ∀ k, 0 < k → |dot (S k).first b| ≤ (q / p) ^ k * (|dot (S 0).first b| / |dot (S 0).first a|) := by
    intro k hk
    obtain ⟨_, _, _, e, h4, h5, h6⟩ := key k
    have h7 := dot_le_one (hunit k hk) hu
    have h8 : e * |dot (S k).first a| = p ^ k * |dot (S 0).first a| := by
      have := congrArg abs h5
      rwa [abs_mul, abs_mul, abs_of_pos h4, abs_of_pos (pow_pos hp0 k)] at this
    have h9 : e * |dot (S k).first b| = q ^ k * |dot (S 0).first b| := by
      have := congrArg abs h6
      rwa [abs_mul, abs_mul, abs_of_pos h4, abs_of_pos (pow_pos hq0 k)] at this
    have h10 : p ^ k * |dot (S 0).first a| ≤ e := by rw [← h8]; nlinarith
    have hA : 0 < |dot (S 0).first a| := abs_pos.2 h0
    have hpk : 0 < p ^ k := by positivity
    rw [div_pow, div_mul_div_comm, le_div_iff₀ (by positivity), ← h9]
    have := abs_nonneg (dot (S k).first b)
    nlinarith
  refine ⟨?_, bound⟩
  have h1 : Filter.Tendsto (fun k : Nat => (q / p) ^ k * (|dot (S 0).first b| / |dot (S 0).first a|)) Filter.atTop (nhds 0) := by
    have := (tendsto_pow_atTop_nhds_zero_of_lt_one (r := q / p) (by positivity) ((div_lt_one hp0).2 hpq)).mul_const
      (|dot (S 0).first b| / |dot (S 0).first a|)
    simpa using this
  rw [tendsto_zero_iff_abs_tendsto_zero]
  refine squeeze_zero' (Filter.Eventually.of_forall fun k => abs_nonneg _) ?_ h1
  filter_upwards [Filter.eventually_gt_atTop 0] with k hk
  exact bound k hk

/-- A node with one component can be trained on and on as long as the component is not orthogonal to an eigenvector `a` of the data
with `eps (1 + lam) < 3/2`; it then never becomes orthogonal to it. -/
theorem minor_total {s : MSt d} {x : List (Row ℝ d)} {lam : ℝ} {a : Row ℝ d} {c : MComp d} (hz : s.normalize = true)
    (hs : s.comps = some [c]) (ho : s.outDim ≠ none) (ha : Eigen (gram x) lam a) (he : s.eps * (1 + lam) < 3 / 2)
    (h0 : dot s.first a ≠ 0) : ∃ s' c', s.step x = .ok s' ∧ s'.comps = some [c'] ∧ dot s'.first a ≠ 0 ∧
      s'.normalize = s.normalize ∧ s'.eps = s.eps ∧ s'.outDim = s.outDim := by
  obtain ⟨n, ho⟩ := Option.ne_none_iff_exists'.1 ho
  have hv : dot (fun k => (1.5 - s.eps) * c.v k - s.eps * mulV (gram x) c.v k)
      (fun k => (1.5 - s.eps) * c.v k - s.eps * mulV (gram x) c.v k) ≠ 0 := by
    intro h
    have h1 := dot_eq_zero h
    have h2 := first_projection (s := s) (s' := s) (x := x) (e := 0) (fun k => by
      have := congrFun h1 k
      simp only [MSt.first, hs]
      simp only [mulV, Pi.zero_apply] at this
      norm_num at this ⊢
      linarith) ha
    have h3 : 3 / 2 - s.eps * (1 + lam) ≠ 0 := by linarith
    rw [zero_mul] at h2
    exact mul_ne_zero h3 h0 h2.symm
  have hstep : ∃ s', s.step x = .ok s' := by
    simp only [MSt.step, hs, ho, minors, hz, true_or, and_true, if_true, Nat.cast_zero, zero_mul, add_zero, div_one, hv, if_false,
      Option.map_some]
    exact ⟨_, rfl⟩
  obtain ⟨s', hs'⟩ := hstep
  obtain ⟨e, l, he', hc, hv', hn, hee⟩ := first_step hz hs' ⟨c, [], hs⟩
  obtain ⟨l0, n', l', h1, h2, h3, h4⟩ := step_ok hs'
  rw [hs] at h1
  simp only [Option.some.injEq] at h1
  subst h1
  have hlen := (minors_spec _ _ _ _ _ _ _ h3).1
  obtain ⟨c', rfl⟩ := List.length_eq_one_iff.1 hlen
  refine ⟨s', c', hs', by rw [h4], ?_, hn, hee, by rw [h4]⟩
  intro h
  have := first_projection hv' ha
  rw [h, mul_zero] at this
  have h3 : 3 / 2 - s.eps * (1 + lam) ≠ 0 := by linarith
  exact mul_ne_zero h3 h0 this.symm

/-- The hypotheses of `minor_converges`: a node with the initial vector `(1, 1)`, trained with `(0, 1)` on and on. -/
example : ∃ (S : Nat → MSt 2) (x : List (Row ℝ 2)) (a b : Row ℝ 2), (S 0).normalize = true ∧
    (∃ c l, (S 0).comps = some (c :: l)) ∧ (∀ k, (S k).step x = .ok (S (k + 1))) ∧ Eigen (gram x) 0 a ∧ Eigen (gram x) 1 b ∧
    Unit a ∧ 0 < (S 0).eps ∧ (S 0).eps * (1 + 1) < 3 / 2 ∧ dot (S 0).first a ≠ 0 := by
  have hg : Eigen (gram [![0, 1]]) 0 (![1, 0] : Row ℝ 2) := by
    intro k
    fin_cases k <;> simp [gram, Fin.sum_univ_two]
  have hg1 : Eigen (gram [![0, 1]]) 1 (![0, 1] : Row ℝ 2) := by
    intro k
    fin_cases k <;> simp [gram, Fin.sum_univ_two]
  let P : MSt 2 → Prop := fun s => s.normalize = true ∧ (∃ c, s.comps = some [c]) ∧ s.outDim ≠ none ∧ s.eps = 1 / 10 ∧
    dot s.first ![1, 0] ≠ 0
  have hstep : ∀ s : {s : MSt 2 // P s}, ∃ s' : {s : MSt 2 // P s}, s.1.step [![0, 1]] = .ok s'.1 := by
    rintro ⟨s, h1, ⟨c, h2⟩, h3, h4, h5⟩
    obtain ⟨s', c', g1, g2, g3, g4, g5, g6⟩ := minor_total h1 h2 h3 hg (by rw [h4]; norm_num) h5
    exact ⟨⟨s', by rw [g4, h1], ⟨c', g2⟩, by rw [g6]; exact h3, by rw [g5, h4], g3⟩, g1⟩
  choose f hf using hstep
  let s0 : {s : MSt 2 // P s} := ⟨{ eps := 1 / 10, comps := some [⟨![1, 1], 1⟩], outDim := some 1 }, rfl, ⟨_, rfl⟩, by simp, rfl,
    by simp [MSt.first, dot, Fin.sum_univ_two]⟩
  refine ⟨fun k => (f^[k] s0).1, [![0, 1]], ![1, 0], ![0, 1], rfl, ⟨_, _, rfl⟩, fun k => ?_, hg, hg1, ?_, ?_, ?_, ?_⟩
  · show (f^[k] s0).1.step _ = .ok (f^[k + 1] s0).1
    rw [Function.iterate_succ_apply']
    exact hf _
  · simp [Unit, dot, Fin.sum_univ_two]
  · show (0 : ℝ) < 1 / 10
    norm_num
  · show (1 / 10 : ℝ) * (1 + 1) < 3 / 2
    norm_num
  · exact s0.2.2.2.2.2

/-- The documented "d: eigenvalues" is false: data with the eigenvalue 1 along the component; the number reported is
`|3/2 - 1/10 · 2| = 13/10`. -/
theorem minor_eigenvalue_false : ∃ (s s' : MSt 1) (x : List (Row ℝ 1)) (l : List (MComp 1)), s.normalize = true ∧
    s.step x = .ok s' ∧ Eigen (gram x) 1 s.first ∧ s'.comps = some (⟨s'.first, 13 / 10⟩ :: l) := by
  let s : MSt 1 := { eps := 1 / 10, comps := some [⟨fun _ => 1, 1⟩], outDim := some 1 }
  have hg : Eigen (gram [fun _ => 1]) 1 s.first := by
    intro k
    simp [gram, MSt.first, s]
  have hu : Unit s.first := by simp [Unit, dot, MSt.first, s]
  obtain ⟨s', c', h1, h2, _⟩ := minor_total (s := s) (c := ⟨fun _ => 1, 1⟩) rfl rfl (by simp [s]) hg
    (by show (1 / 10 : ℝ) * (1 + 1) < 3 / 2; norm_num) (by rw [hu]; norm_num)
  obtain ⟨_, l, hl⟩ := minor_fixed (s := s) rfl h1 ⟨_, _, rfl⟩ hu hg
  refine ⟨s, s', _, l, rfl, h1, hg, ?_⟩
  rw [hl]
  have : |3 / 2 - s.eps * (1 + 1)| = 13 / 10 := by
    show |3 / 2 - (1 / 10 : ℝ) * (1 + 1)| = 13 / 10
    norm_num
  rw [this]

/-! ## All components -/

theorem unit_parallel {u v : Row ℝ d} {e q : ℝ} (he : 0 < e) (hu : Unit u) (hv : Unit v) (h : ∀ k, e * u k = q * v k) :
    u = v ∨ u = -v := by
  have h1 : e * e = q * q := by
    have h2 : dot (fun k => e * u k) (fun k => e * u k) = e * e * dot u u := by
      simp only [dot, Finset.mul_sum]; exact Finset.sum_congr rfl fun k _ => by ring
    have h3 : dot (fun k => e * u k) (fun k => e * u k) = q * q * dot v v := by
      simp only [dot, Finset.mul_sum]; exact Finset.sum_congr rfl fun k _ => by rw [h k]; ring
    rw [h2, show dot u u = 1 from hu, show dot v v = 1 from hv] at h3
    linarith
  rcases mul_self_eq_mul_self_iff.1 h1 with h4 | h4
  · left; funext k; exact mul_left_cancel₀ he.ne' (by rw [h k, ← h4])
  · right; funext k
    have h6 : e * u k = e * (-v k) := by rw [h k, show q = -e by linarith]; ring
    exact mul_left_cancel₀ he.ne' h6

theorem minors_get (eps gamma : ℝ) (l : List (MComp d)) : ∀ (j0 : Nat) (c : Mat ℝ d d) (l' : List (MComp d)),
    minors eps gamma true j0 c l = some l' → l'.length = l.length ∧ ∀ (j : Nat) (m m' : MComp d), l[j]? = some m → l'[j]? = some m' →
      0 < m'.e ∧ ∀ k, m'.e * m'.v k = (3 / 2 - eps / (1 + (j0 + j : Nat) * (6 / 5))) * m.v k - eps / (1 + (j0 + j : Nat) * (6 / 5)) *
        ∑ i, (c k i + gamma * ((l'.take j).map fun t => t.v k * t.v i).sum) * m.v i := by
  induction l with
  | nil => intro j0 c l' h; simp only [minors, Option.some.injEq] at h; subst h; simp
  | cons m0 l ih =>
    intro j0 c l' h
    simp only [minors, true_or, and_true, if_true] at h
    split at h
    · simp at h
    · rename_i h4
      rw [Option.map_eq_some_iff] at h
      obtain ⟨t, ht, rfl⟩ := h
      have hp := lt_of_le_of_ne (dot_self_nonneg _) (Ne.symm h4)
      obtain ⟨i1, i2⟩ := ih _ _ _ ht
      refine ⟨by simp [i1], ?_⟩
      intro j m m' hm hm'
      cases j with
      | zero =>
        simp only [List.getElem?_cons_zero, Option.some.injEq] at hm hm'
        subst hm; subst hm'
        refine ⟨Real.sqrt_pos.2 hp, fun k => ?_⟩
        simp only
        rw [mul_div_cancel₀ _ (Real.sqrt_pos.2 hp).ne']
        norm_num [mulV]
      | succ j =>
        simp only [List.getElem?_cons_succ] at hm hm'
        obtain ⟨p1, p2⟩ := i2 j m m' hm hm'
        refine ⟨p1, fun k => ?_⟩
        rw [p2 k]
        have e1 : j0 + 1 + j = j0 + (j + 1) := by omega
        rw [e1]
        congr 2
        refine Finset.sum_congr rfl fun i _ => ?_
        congr 1
        simp only [List.take_succ_cons, List.map_cons, List.sum_cons]
        rw [div_mul_div_comm, Real.mul_self_sqrt hp.le]
        ring

/-- The whole training step of a normalising node: component `j` (from zero) is moved, up to a positive factor, with the rate
`eps / (1 + 1.2 j)` and the autocorrelation of the data plus `gamma` times the projections on the components before it. -/
theorem component_step {s s' : MSt d} {x : List (Row ℝ d)} (hz : s.normalize = true) (h : s.step x = .ok s') :
    ∃ l l', s.comps = some l ∧ s'.comps = some l' ∧ l'.length = l.length ∧
      ∀ (j : Nat) (m m' : MComp d), l[j]? = some m → l'[j]? = some m' → 0 < m'.e ∧ Unit m'.v ∧
        ∀ k, m'.e * m'.v k = (3 / 2 - s.eps / (1 + j * (6 / 5))) * m.v k - s.eps / (1 + j * (6 / 5)) *
          ∑ i, ((x.map fun r => r k * r i).sum + s.gamma * ((l'.take j).map fun t => t.v k * t.v i).sum) * m.v i := by
  obtain ⟨l, n, l', h1, h2, h3, rfl⟩ := step_ok h
  rw [hz] at h3
  have hu := (minors_spec _ _ _ _ _ _ _ h3).2
  obtain ⟨p1, p2⟩ := minors_get _ _ _ _ _ _ h3
  refine ⟨l, l', h1, rfl, p1, fun j m m' hm hm' => ?_⟩
  obtain ⟨q1, q2⟩ := p2 j m m' hm hm'
  refine ⟨q1, ?_, fun k => ?_⟩
  · have := hu m' (List.mem_of_getElem? hm')
    simp only [if_true] at this
    exact this.1
  · simpa [gram] using q2 k

/-- The projection of a component on an eigenvector `b` of the data to which the components before it are orthogonal is multiplied
with `3/2 - eps_j (1 + lam)`; on the eigenvector that is the component number `i` before it (the others orthogonal) with
`3/2 - eps_j (1 + lam + gamma)`: what has been found is repelled. -/
theorem component_projection {s s' : MSt d} {x : List (Row ℝ d)} (hz : s.normalize = true) (h : s.step x = .ok s')
    {l l' : List (MComp d)} (hl : s.comps = some l) (hl' : s'.comps = some l') {j : Nat} {m m' : MComp d} (hm : l[j]? = some m)
    (hm' : l'[j]? = some m') {lam : ℝ} {b : Row ℝ d} (hb : Eigen (gram x) lam b) :
    m'.e * dot m'.v b = (3 / 2 - s.eps / (1 + j * (6 / 5)) * (1 + lam)) * dot m.v b
      - s.eps / (1 + j * (6 / 5)) * s.gamma * ((l'.take j).map fun t => dot m.v t.v * dot t.v b).sum := by
  obtain ⟨l0, l0', h1, h2, _, h3⟩ := component_step hz h
  rw [hl, Option.some.injEq] at h1
  rw [hl', Option.some.injEq] at h2
  subst h1; subst h2
  obtain ⟨_, _, h4⟩ := h3 j m m' hm hm'
  set n := s.eps / (1 + j * (6 / 5))
  have e1 : m'.e * dot m'.v b = ∑ k, (m'.e * m'.v k) * b k := by
    simp only [dot, Finset.mul_sum]; exact Finset.sum_congr rfl fun k _ => by ring
  rw [e1]
  have e2 : ∀ L : List (MComp d), ∑ k, (∑ i, (L.map fun t => t.v k * t.v i).sum * m.v i) * b k =
      (L.map fun t => dot m.v t.v * dot t.v b).sum := by
    intro L
    induction L with
    | nil => simp
    | cons t L ih =>
      simp only [List.map_cons, List.sum_cons, ← ih, add_mul, Finset.sum_add_distrib]
      congr 1
      simp only [dot, Finset.mul_sum]
      refine Finset.sum_congr rfl fun k _ => ?_
      rw [Finset.sum_mul, Finset.sum_mul]
      exact Finset.sum_congr rfl fun i _ => by ring
  have e3 := dot_eigen (gram_symm x) hb m.v
  calc ∑ k, (m'.e * m'.v k) * b k
      = ∑ k, ((3 / 2 - n) * (m.v k * b k) - n * ((∑ i, gram x k i * m.v i) * b k)
          - n * s.gamma * ((∑ i, ((l'.take j).map fun t => t.v k * t.v i).sum * m.v i) * b k)) := by
        refine Finset.sum_congr rfl fun k _ => ?_
        rw [h4 k]
        simp only [add_mul, Finset.sum_add_distrib, gram]
        have : ∑ i, s.gamma * ((l'.take j).map fun t => t.v k * t.v i).sum * m.v i
            = s.gamma * ∑ i, ((l'.take j).map fun t => t.v k * t.v i).sum * m.v i := by
          rw [Finset.mul_sum]; exact Finset.sum_congr rfl fun i _ => by ring
        rw [this]
        ring
    _ = _ := by
        rw [Finset.sum_sub_distrib, Finset.sum_sub_distrib, ← Finset.mul_sum, ← Finset.mul_sum, ← Finset.mul_sum, e2, e3]
        simp only [dot]
        ring

/-- Components that are orthogonal eigenvectors of the data stay where they are, up to the sign. -/
theorem components_fixed {s s' : MSt d} {x : List (Row ℝ d)} (hz : s.normalize = true) (h : s.step x = .ok s')
    {l l' : List (MComp d)} (hl : s.comps = some l) (hl' : s'.comps = some l')
    (he : ∀ m ∈ l, Unit m.v ∧ ∃ lam, Eigen (gram x) lam m.v)
    (ho : ∀ (i j : Nat) (m m' : MComp d), i < j → l[i]? = some m → l[j]? = some m' → dot m.v m'.v = 0) :
    ∀ (j : Nat) (m m' : MComp d), l[j]? = some m → l'[j]? = some m' → m'.v = m.v ∨ m'.v = -m.v := by
  obtain ⟨l0, l0', h1, h2, hlen, h3⟩ := component_step hz h
  rw [hl, Option.some.injEq] at h1
  rw [hl', Option.some.injEq] at h2
  subst h1; subst h2
  intro j
  induction j using Nat.strong_induction_on with
  | _ j ih =>
    intro m m' hm hm'
    obtain ⟨p1, p2, p3⟩ := h3 j m m' hm hm'
    obtain ⟨hu, lam, hlam⟩ := he m (List.mem_of_getElem? hm)
    set n := s.eps / (1 + j * (6 / 5))
    have hd : ∀ t ∈ l'.take j, dot t.v m.v = 0 := by
      intro t ht
      obtain ⟨i, hi, hit⟩ := List.mem_iff_getElem.1 ht
      simp only [List.length_take, lt_min_iff] at hi
      have hi' : l'[i]? = some t := by rw [List.getElem?_eq_getElem hi.2]; simpa using hit
      have hil : i < l.length := by omega
      have hm0 : l[i]? = some l[i] := List.getElem?_eq_getElem hil
      have ho' := ho i j _ m hi.1 hm0 hm
      rcases ih i hi.1 _ t hm0 hi' with h5 | h5
      · rw [h5, ho']
      · rw [h5]
        have : dot (-(l[i]).v) m.v = -dot (l[i]).v m.v := by simp [dot, Finset.sum_neg_distrib]
        rw [this, ho', neg_zero]
    have hz2 : ∀ (L : List (MComp d)) (k : Fin d), (∀ t ∈ L, dot t.v m.v = 0) →
        ∑ i, (L.map fun t => t.v k * t.v i).sum * m.v i = 0 := by
      intro L k hL
      induction L with
      | nil => simp
      | cons t L ihL =>
        simp only [List.map_cons, List.sum_cons, add_mul, Finset.sum_add_distrib]
        rw [ihL fun t' ht' => hL t' (by simp [ht']), add_zero]
        have := hL t (by simp)
        simp only [dot] at this
        calc ∑ i, t.v k * t.v i * m.v i = t.v k * ∑ i, t.v i * m.v i := by
              rw [Finset.mul_sum]; exact Finset.sum_congr rfl fun i _ => by ring
          _ = 0 := by rw [this, mul_zero]
    have hq : ∀ k, m'.e * m'.v k = (3 / 2 - n * (1 + lam)) * m.v k := by
      intro k
      rw [p3 k]
      simp only [add_mul, Finset.sum_add_distrib]
      have e1 : ∑ i, s.gamma * ((l'.take j).map fun t => t.v k * t.v i).sum * m.v i = 0 := by
        have := hz2 (l'.take j) k hd
        calc _ = s.gamma * ∑ i, ((l'.take j).map fun t => t.v k * t.v i).sum * m.v i := by
              rw [Finset.mul_sum]; exact Finset.sum_congr rfl fun i _ => by ring
          _ = 0 := by rw [this, mul_zero]
      have e2 := hlam k
      simp only [gram] at e2
      rw [e1, e2]
      ring
    exact unit_parallel p1 p2 hu hq

/-- Two components, data along the first one. -/
example : ∃ s s' : MSt 2, s.normalize = true ∧ s.step [![1, 0]] = .ok s' ∧
    s.comps = some [⟨![1, 0], 1⟩, ⟨![0, 1], 1⟩] ∧ Unit (![1, 0] : Row ℝ 2) ∧ Unit (![0, 1] : Row ℝ 2) ∧
    Eigen (gram [![1, 0]]) 1 ![1, 0] ∧ Eigen (gram [![1, 0]]) 0 ![0, 1] ∧ dot (![1, 0] : Row ℝ 2) ![0, 1] = 0 := by
  refine ⟨{ comps := some [⟨![1, 0], 1⟩, ⟨![0, 1], 1⟩], outDim := some 2 }, ?_⟩
  suffices h : ∃ l', minors (0.1 : ℝ) 1 true 0 (gram [![1, 0]]) [(⟨![1, 0], 1⟩ : MComp 2), ⟨![0, 1], 1⟩] = some l' by
    obtain ⟨l', h⟩ := h
    exact ⟨{ comps := some l', outDim := some 2, iter := 0 + 1 }, rfl, by simp only [MSt.step, h]; rfl, rfl, by simp [Unit, dot], by simp [Unit, dot],
      by intro k; fin_cases k <;> simp [gram], by intro k; fin_cases k <;> simp [gram], by simp [dot]⟩
  simp only [minors, if_true, true_or, and_true]
  rw [if_neg (by norm_num [dot, mulV, gram]), if_neg (by norm_num [dot, mulV, gram])]
  exact ⟨_, rfl⟩

end Mdp.Ccipca
