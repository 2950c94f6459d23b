import Verif.Utils.Reg
import Verif.Nodes.LleReal

/-!
# The solvers with exact routines over the real numbers, cases for C283 and C284
-/

namespace Mdp.Symeig

open Mdp.Cov Mdp.Sfa Mdp.Pca Mdp.Join

open Classical in
/-- Exact routines over the real numbers. -/
noncomputable def libR : Env ℝ where
  eigh _ A := if h : ∀ i j, A i j = A j i then some ((Lle.exists_eig A h).choose.insertionSort fun p q => p.1 ≤ q.1) else none
  svd _ _ := none
  sqrt := Real.sqrt

theorem EigList.perm {F : Type} [Field F] [LinearOrder F] [IsStrictOrderedRing F] {d : Nat} {M : Mat F d d} {l l' : List (F × Row F d)} (h : EigList M l) (hp : l'.Perm l) : EigList M l' := by
  refine ⟨fun p hm => h.eigen p (hp.mem_iff.1 hm), fun p hm => h.unit p (hp.mem_iff.1 hm), ?_, hp.length_eq.trans h.full⟩
  exact (hp.pairwise_iff fun {a b} e => by rw [dot_comm]; exact e).2 h.orth

theorem libR_eigh {d : Nat} {A : Mat ℝ d d} (h : Sym A) : ∃ l, libR.eigh d A = some l ∧ EigList A l ∧ l.Pairwise fun p q => p.1 ≤ q.1 := by
  classical
  refine ⟨_, by simp only [libR]; exact dif_pos h, ?_, ?_⟩
  · exact (Lle.exists_eig A h).choose_spec.perm (List.perm_insertionSort _ _)
  · haveI : Std.Total (fun p q : ℝ × Row ℝ d => p.1 ≤ q.1) := ⟨fun a b => le_total _ _⟩
    haveI : IsTrans (ℝ × Row ℝ d) (fun p q => p.1 ≤ q.1) := ⟨fun _ _ _ => le_trans⟩
    exact List.pairwise_insertionSort _ _

theorem libR_exact : Exact libR := by
  refine ⟨fun d M l hM h => ?_, fun d M l _ _ h => by simp [libR] at h⟩
  obtain ⟨l', e, h1, h2⟩ := libR_eigh hM
  rw [e] at h
  cases h
  exact ⟨h1, h2⟩

theorem libR_sqrt : ExactSqrt libR := fun x hx => ⟨Real.sqrt_nonneg x, Real.mul_self_sqrt hx⟩

/-- The solver for a positive definite matrix always succeeds. -/
theorem libR_fake {d : Nat} {A B : Mat ℝ d d} (hA : Sym A) (hB : Sym B) (hp : Psd B) : ∃ l, libR.fake A B none = .ok l := by
  obtain ⟨l, e, h1, -⟩ := libR_eigh hB
  obtain ⟨m, e', -, -⟩ := libR_eigh (colsForm_sym hA (libR.scale l))
  simp only [Env.fake, e]
  rw [if_neg]
  · rw [e']
    exact ⟨_, rfl⟩
  · rw [List.any_eq_true]
    rintro ⟨p, hm, hlt⟩
    rw [decide_eq_true_eq] at hlt
    have := form_eigen (h1.eigen p hm) p.2
    rw [h1.unit p hm, mul_one] at this
    linarith [hp p.2]

theorem regular_psd {d : Nat} {thr : ℝ} (ht : 0 < thr) {B : Mat ℝ d d} (hp : Psd B) : Psd (regular thr B) := fun u => by
  rw [form_regular]
  have := mul_nonneg ht.le (dot_self_nonneg u)
  have := hp u
  linarith

/-- Diagonal matrices of size two. -/
def diag2 (a b : ℝ) : Mat ℝ 2 2 := ![![a, 0], ![0, b]]

theorem diag2_sym (a b : ℝ) : Sym (diag2 a b) := by
  intro k l
  fin_cases k <;> fin_cases l <;> rfl

theorem form_diag2 (a b : ℝ) (x y : Row ℝ 2) : form (diag2 a b) x y = a * (x 0 * y 0) + b * (x 1 * y 1) := by
  simp [form, diag2, Fin.sum_univ_two]
  ring

theorem dot2 (x y : Row ℝ 2) : dot x y = x 0 * y 0 + x 1 * y 1 := by simp [dot, Fin.sum_univ_two]

theorem diag2_psd {a b : ℝ} (ha : 0 ≤ a) (hb : 0 ≤ b) : Psd (diag2 a b) := fun u => by
  rw [form_diag2]
  have := mul_nonneg ha (mul_self_nonneg (u 0))
  have := mul_nonneg hb (mul_self_nonneg (u 1))
  linarith

/-- C283: the first variable has variance one, the second is constant; one vector is returned, and the rank deficit is one. -/
example : ∃ l df, libR.reg (1 / 100) 7 (diag2 1 0) (diag2 1 0) none = .ok (l, df) ∧ (∀ p ∈ l, 1 - 1 / 101 ≤ form (diag2 1 0) p.2 p.2) ∧
    df = if l.length < 2 then 2 - l.length else 7 := by
  have hg : Gap 1 (diag2 1 0) := by
    intro u h
    have := h ![0, 1] (by simp [form_diag2])
    simp [dot2] at this
    simp [form_diag2, dot2, this]
  have hps := diag2_psd (a := 1) (b := 0) (by norm_num) (le_refl 0)
  obtain ⟨l0, h0⟩ := libR_fake (diag2_sym 1 0) (regular_sym (thr := 1 / 100) (diag2_sym 1 0)) (regular_psd (by norm_num) hps)
  obtain ⟨⟨l, df⟩, h⟩ := reg_succeeds libR_exact libR_sqrt (thr := 1 / 100) (mu := 1) (by norm_num) (by norm_num) (diag2_sym 1 0) (diag2_sym 1 0) hps hps (fun _ => Iff.rfl) hg 7 h0
    (w := ![1, 0]) (by simp [form_diag2]) none
  obtain ⟨h1, -, -, -, -, h2, -⟩ := reg_correct libR_exact libR_sqrt (thr := 1 / 100) (mu := 1) (by norm_num) (by norm_num) (diag2_sym 1 0) (diag2_sym 1 0) hps hps (fun _ => Iff.rfl) hg h
  refine ⟨l, df, h, fun p hp => ?_, h2 (by norm_num)⟩
  have := (h1 p hp).1
  norm_num at this ⊢
  exact this

/-- C284: the second variable has variance zero, but a change (as with `include_last_sample=False`): one vector is left out, the rank deficit
remains 7. -/
theorem reg_deficit_case : ∃ k, libR.reg (1 / 100) 7 (diag2 1 1) (diag2 1 0) none = .ok (k, 7) ∧ k.length < 2 := by
  have hps := diag2_psd (a := 1) (b := 0) (by norm_num) (le_refl 0)
  have hpr := regular_psd (thr := 1 / 100) (by norm_num) hps
  have hpos : ∀ u : Row ℝ 2, u ≠ 0 → 0 < form (regular (1 / 100) (diag2 1 0)) u u := fun u hu => by
    rw [form_regular]
    have := mul_pos (show (0 : ℝ) < 1 / 100 by norm_num) (dot_self_pos hu)
    have := hps u
    linarith
  obtain ⟨l0, h0⟩ := libR_fake (diag2_sym 1 1) (regular_sym (thr := 1 / 100) (diag2_sym 1 0)) hpr
  obtain ⟨hR, hl, he, -⟩ := fake_correct libR libR_exact (diag2_sym 1 1) (regular_sym (thr := 1 / 100) (diag2_sym 1 0)) (fun m w hw hm => by
    have h1 : form (regular (1 / 100) (diag2 1 0)) w w = m * dot w w := form_eigen (p := (m, w)) hm w
    have h2 := hpos w hw
    rw [h1] at h2
    have hm : 0 < m := by
      by_contra hc
      have := mul_nonneg (neg_nonneg.2 (not_lt.1 hc)) (dot_self_nonneg w)
      linarith
    exact ⟨hm, (libR_sqrt m hm.le).2⟩) h0
  obtain ⟨p, q, rfl⟩ : ∃ p q, l0 = [p, q] := by
    match l0, hl with
    | [p, q], _ => exact ⟨p, q, rfl⟩
  have hreg : ∀ x y : Row ℝ 2, form (regular (1 / 100) (diag2 1 0)) x y = 101 / 100 * (x 0 * y 0) + 1 / 100 * (x 1 * y 1) := by
    intro x y
    rw [form_regular, form_diag2, dot2]
    ring
  have hone : ∀ r ∈ [p, q], (r.2 1 = 0 ∧ r.2 0 * r.2 0 = 100 / 101 ∧ r.1 = 100 / 101) ∨ (r.2 0 = 0 ∧ r.2 1 * r.2 1 = 100 ∧ r.1 = 100) := by
    intro r hr
    have e0 := he r hr 0
    have e1 := he r hr 1
    have hu := hR.unit r hr
    have hv := hR.value r hr
    rw [hreg] at hu
    rw [form_diag2] at hv
    simp [Fin.sum_univ_two, diag2, regular] at e0 e1
    have f0 : r.2 0 * (1 - r.1 * (101 / 100)) = 0 := by linarith
    have f1 : r.2 1 * (1 - r.1 * (1 / 100)) = 0 := by linarith
    rcases mul_eq_zero.1 f0 with g | g
    · right
      rw [g] at hu hv
      refine ⟨g, by linarith, by linarith⟩
    · left
      have : r.2 1 = 0 := (mul_eq_zero.1 f1).resolve_right (by intro g'; linarith)
      rw [this] at hu hv
      exact ⟨this, by linarith, by linarith⟩
  have hasc : p.1 ≤ q.1 := by simpa using hR.asc
  have horth : form (regular (1 / 100) (diag2 1 0)) p.2 q.2 = 0 := by simpa using hR.orth
  rw [hreg] at horth
  have hp := hone p (by simp)
  have hq := hone q (by simp)
  have hcase : (p.2 1 = 0 ∧ p.2 0 * p.2 0 = 100 / 101) ∧ q.2 0 = 0 := by
    rcases hp with ⟨a, b, c⟩ | ⟨a, b, c⟩ <;> rcases hq with ⟨a', b', c'⟩ | ⟨a', b', c'⟩
    · exfalso
      rw [a, a'] at horth
      have h3 : p.2 0 * q.2 0 = 0 := by linarith
      rcases mul_eq_zero.1 h3 with g | g
      · rw [g] at b; norm_num at b
      · rw [g] at b'; norm_num at b'
    · exact ⟨⟨a, b⟩, a'⟩
    · exfalso; rw [c, c'] at hasc; norm_num at hasc
    · exfalso
      rw [a, a'] at horth
      have h3 : p.2 1 * q.2 1 = 0 := by linarith
      rcases mul_eq_zero.1 h3 with g | g
      · rw [g] at b; norm_num at b
      · rw [g] at b'; norm_num at b'
  obtain ⟨k, h1, -, h3⟩ := reg_deficit_violation libR_sqrt hps h0 (by rw [form_diag2, hcase.1.2]; norm_num) (by rw [form_diag2, hcase.1.2]; norm_num) (List.mem_singleton.2 rfl)
    (by rw [form_diag2, hcase.2]; ring) 7
  exact ⟨k, h1, h3⟩

/-- C284: constant data. -/
example : ∃ l, libR.fake (diag2 0 0) (regular (1 / 100) (diag2 0 0)) none = .ok l ∧ libR.reg (1 / 100) 7 (diag2 0 0) (diag2 0 0) none = .error .index := by
  obtain ⟨l0, h0⟩ := libR_fake (diag2_sym 0 0) (regular_sym (thr := 1 / 100) (diag2_sym 0 0)) (regular_psd (by norm_num) (diag2_psd (le_refl 0) (le_refl 0)))
  refine ⟨l0, h0, reg_constant_violation libR_sqrt (fun i j => ?_) h0 7 none⟩
  fin_cases i <;> fin_cases j <;> rfl

end Mdp.Symeig
