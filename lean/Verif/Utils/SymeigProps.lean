import Verif.Utils.SymeigAlg

/-!
# The solvers for singular matrices and the test for blank data (C122, C124-C126)
-/

namespace Mdp.Symeig

open Mdp.Cov Mdp.Sfa Mdp.Pca Mdp.Join

variable {F : Type} [Field F] [LinearOrder F] {d n : Nat}

/-! ## Specification -/

def Sym (M : Mat F d d) : Prop := ∀ k l, M k l = M l k

def Psd (M : Mat F d d) : Prop := ∀ u, 0 ≤ form M u u

/-- What the numerical library returns is exact: `eigh` gives the eigenvalues in ascending order; `svd`, for a semidefinite
matrix, in descending order. -/
structure Exact (E : Env F) : Prop where
  eigh : ∀ d M l, Sym M → E.eigh d M = some l → EigList M l ∧ l.Pairwise fun p q => p.1 ≤ q.1
  svd : ∀ d M l, Sym M → Psd M → E.svd d M = some l → EigList M l ∧ l.Pairwise fun p q => q.1 ≤ p.1

/-- Each eigenvalue of `B` is zero or not below the threshold, and then the square root is exact. -/
def Separated (E : Env F) (thr : F) (B : Mat F d d) : Prop :=
  ∀ (mu : F) (w : Row F d), w ≠ 0 → (∀ k, ∑ j, B k j * w j = mu * w k) → mu = 0 ∨ (thr ≤ mu ∧ E.sqrt mu * E.sqrt mu = mu)

/-- The test for blank data leaves out only variables whose variance and covariances are zero. -/
def OnlyBlank (thr : F) (B : Mat F (n + 1) (n + 1)) : Prop := ∀ nz, blank thr B = some nz → ∀ j, j ∉ nz → ∀ k, B j k = 0

/-! ## Cutting -/

theorem finish_none {m : Nat} {l : List (F × Row F d)} (h : l.Pairwise fun p q => p.1 ≤ q.1) : finish m none l = l := by
  simp only [finish]
  exact List.Pairwise.insertionSort_eq h

theorem finish_some {m : Nat} {l : List (F × Row F d)} (h : l.Pairwise fun p q => p.1 ≤ q.1) (hl : l.length = m) (k : Nat)
    (hk : 1 ≤ k) : finish m (some (1, k)) l = l.take k := by
  simp only [finish]
  rw [List.Pairwise.insertionSort_eq h]
  subst hl
  cases l with
  | nil => simp [slice]
  | cons a l =>
    simp only [clampRange, slice, lt_irrefl, if_false, List.length_cons]
    rw [if_neg (by omega : ¬ 1 > l.length + 1)]
    by_cases hkl : k > l.length + 1
    · rw [if_pos hkl, if_neg (by omega)]
      simp only [Nat.sub_self, List.drop_zero]
      rw [List.take_of_length_le (by simp), List.take_of_length_le (by simp; omega)]
    · rw [if_neg hkl, if_neg (by omega)]
      simp

theorem clampRange_spec (m : Nat) (r : Nat × Nat) (hm : 1 ≤ m) (h : 1 ≤ r.2) : 1 ≤ (clampRange m r).1 ∧
    (clampRange m r).1 ≤ (clampRange m r).2 ∧ (clampRange m r).2 ≤ m := by
  simp only [clampRange]
  by_cases h1 : r.1 < 1 <;> by_cases h3 : r.2 > m <;> simp only [h1, h3, if_true, if_false]
  · rw [if_neg (by omega : ¬ 1 > m), if_neg (by omega)]; simp only; omega
  · rw [if_neg (by omega : ¬ 1 > m), if_neg (by omega)]; simp only; omega
  · by_cases h2 : r.1 > m
    · simp only [h2, if_true, lt_irrefl, gt_iff_lt, if_false]; omega
    · simp only [h2, if_false]; omega
  · by_cases h2 : r.1 > m <;> simp only [h2, if_true, if_false]
    · by_cases h4 : m > r.2
      · rw [if_pos h4]; simp only; omega
      · rw [if_neg h4]; simp only; omega
    · by_cases h4 : r.1 > r.2
      · rw [if_pos h4]; simp only; omega
      · rw [if_neg h4]; simp only; omega

/-! ## `_symeig_fake` -/

variable [IsStrictOrderedRing F]

theorem colsForm_sym {A : Mat F d d} (hA : Sym A) (S : List (Row F d)) : Sym (colsForm A S) := by
  intro i j
  rw [colsForm_eq, colsForm_eq, form_comm hA]

/-- **C125**: the solver for two matrices, with a positive definite `B`: it gives the eigenvalues in ascending order and
vectors that are orthonormal for `B` and diagonalise `A`; they solve the equation `A v = λ B v`. With the range `(1, k)` it
gives the first `k`. -/
theorem fake_correct (E : Env F) (hE : Exact E) {A B : Mat F d d} (hA : Sym A) (hB : Sym B)
    (hpos : ∀ (mu : F) (w : Row F d), w ≠ 0 → (∀ k, ∑ j, B k j * w j = mu * w k) → 0 < mu ∧ E.sqrt mu * E.sqrt mu = mu)
    {l : List (F × Row F d)} (h : E.fake A B none = .ok l) :
    RankList A B l ∧ l.length = d ∧ (∀ p ∈ l, ∀ k, ∑ j, A k j * p.2 j = p.1 * ∑ j, B k j * p.2 j) ∧
      ∀ k, 1 ≤ k → E.fake A B (some (1, k)) = .ok (l.take k) := by
  simp only [Env.fake] at h ⊢
  split at h
  · cases h
  next P hP =>
  obtain ⟨hP1, hP2⟩ := hE.eigh d B P hB hP
  have hmu : ∀ p ∈ P, 0 < p.1 ∧ E.sqrt p.1 * E.sqrt p.1 = p.1 := by
    intro p hp
    refine hpos p.1 p.2 (fun h0 => ?_) (hP1.eigen p hp)
    have := hP1.unit p hp
    rw [h0] at this
    simp [dot] at this
  split at h
  · cases h
  next hneg =>
  split at h
  · cases h
  next m hm =>
  obtain ⟨hm1, hm2⟩ := hE.eigh _ _ m (colsForm_sym hA _) hm
  have hlen : m.length = d := by rw [hm1.full]; simp [Env.scale, hP1.full]
  have hasc : (m.map fun p => (p.1, back (E.scale P) p.2)).Pairwise fun p q => p.1 ≤ q.1 := by
    rw [List.pairwise_map]; exact hm2
  rw [finish_none hasc] at h
  cases h
  have hR := whiten (D := []) hA hB E hP1 (by simp) (List.Sublist.refl P) (by simp)
    (fun p hp => ⟨(hmu p hp).2, ne_of_gt (hmu p hp).1⟩) hm1 hm2
  refine ⟨hR, by simpa using hlen, ?_, fun k hk => ?_⟩
  · -- the vectors span, so that the equation follows from the two forms
    have hBpos : ∀ u, form B u u = 0 → u = 0 := by
      intro u hu
      have e : form B u u = (P.map fun p => p.1 * dot u p.2 ^ 2).sum := by
        have h1 : form B u u = form B u fun k => ∑ i : Fin P.length, dot u (P.get i).2 * (P.get i).2 k := by
          congr 1
          funext k
          rw [sum_get P fun p => dot u p.2 * p.2 k]
          exact hP1.expand u k
        rw [h1, form_sum', ← sum_get P]
        refine Finset.sum_congr rfl fun i _ => ?_
        rw [form_eigen (hP1.eigen _ (List.get_mem _ _))]
        ring
      rw [e, ← sum_get P] at hu
      have hz := (Finset.sum_eq_zero_iff_of_nonneg fun i _ =>
        mul_nonneg (hmu _ (List.get_mem P i)).1.le (sq_nonneg _)).1 hu
      funext k
      rw [hP1.expand u k, ← sum_get P fun p => dot u p.2 * p.2 k]
      simp only [Pi.zero_apply]
      refine Finset.sum_eq_zero fun i hi => ?_
      have := (mul_eq_zero.1 (hz i hi)).resolve_left (ne_of_gt (hmu _ (List.get_mem P i)).1)
      rw [pow_eq_zero_iff (by norm_num)] at this
      rw [this, zero_mul]
    set R := m.map fun p => (p.1, back (E.scale P) p.2) with hRdef
    have hspan : ∀ (w : Row F d) k, w k = ∑ i : Fin R.length, form B (R.get i).2 w * (R.get i).2 k := by
      intro w k
      have := congrFun (hBpos _ (hR.span w)) k
      simp only [Pi.zero_apply, sub_eq_zero] at this
      rw [sum_get R fun p => form B p.2 w * p.2 k]
      exact this
    have hsp := hR.spectrum hA hB
    intro p hp k
    obtain ⟨i, rfl⟩ := List.get_of_mem hp
    -- test with the unit vector
    have h1 : ∀ M : Mat F d d, ∀ y : Row F d, ∑ j, M k j * y j = form M (fun l => if l = k then 1 else 0) y := by
      intro M y
      simp [form]
    rw [h1 A, h1 B]
    have h2 : (fun l => if l = k then (1 : F) else 0) = fun l => ∑ j : Fin R.length, form B (R.get j).2 (fun l => if l = k then (1 : F) else 0) * (R.get j).2 l :=
      funext fun l => hspan (fun l => if l = k then (1 : F) else 0) l
    rw [form_comm hA, form_comm hB]
    conv_lhs => rw [h2]
    conv_rhs => rw [h2]
    rw [form_sum', form_sum']
    simp only [hsp.diag, hsp.ortho, mul_ite, mul_one, mul_zero, Finset.sum_ite_eq, Finset.mem_univ, if_true]
    ring
  · rw [finish_some hasc (by simpa using hlen) k hk, if_neg hneg]

/-! ## Blank data -/

theorem blank_nodup {thr : F} {B : Mat F (n + 1) (n + 1)} {nz : List (Fin (n + 1))} (h : blank thr B = some nz) : nz.Nodup := by
  simp only [blank] at h
  split at h
  · split at h
    · cases h
      exact (List.nodup_finRange _).filter _
    · cases h
  · cases h

theorem blank_some {thr : F} {B : Mat F (n + 1) (n + 1)} {j : Fin (n + 1)}
    (hpos : 0 < ((List.finRange (n + 1)).filter fun j => decide (|B 0 j| < thr)).length)
    (hm : j ∈ (List.finRange (n + 1)).filter fun j => decide
      ((((List.finRange (n + 1)).filter fun j => decide (|B 0 j| < thr)).map fun i => |B i j|).sum /
      (((List.finRange (n + 1)).filter fun j => decide (|B 0 j| < thr)).length : F) < thr)) :
    ∃ nz, blank thr B = some nz ∧ j ∉ nz := by
  rcases hb : blank thr B with _ | nz
  · simp only [blank] at hb
    rw [if_pos hpos, if_pos (List.length_pos_of_mem hm)] at hb
    cases hb
  · refine ⟨nz, rfl, ?_⟩
    simp only [blank] at hb
    rw [if_pos hpos, if_pos (List.length_pos_of_mem hm)] at hb
    cases hb
    intro h
    exact (of_decide_eq_true (List.mem_filter.1 h).2) hm

/-- **C124**: if the first variable varies, but is uncorrelated with some variable - a constant one for example - then the
first variable is taken for blank and left out. -/
theorem blank_drops_first {thr : F} {B : Mat F (n + 1) (n + 1)} (hB : Sym B) (h0 : thr ≤ |B 0 0|) (j : Fin (n + 1))
    (hj : |B 0 j| < thr) : ∃ nz, blank thr B = some nz ∧ 0 ∉ nz := by
  have hz : j ∈ (List.finRange (n + 1)).filter fun j => decide (|B 0 j| < thr) := by simp [hj]
  have hpos : 0 < ((List.finRange (n + 1)).filter fun j => decide (|B 0 j| < thr)).length := List.length_pos_of_mem hz
  have hm : (0 : Fin (n + 1)) ∈ (List.finRange (n + 1)).filter fun j => decide
      ((((List.finRange (n + 1)).filter fun j => decide (|B 0 j| < thr)).map fun i => |B i j|).sum /
      (((List.finRange (n + 1)).filter fun j => decide (|B 0 j| < thr)).length : F) < thr) := by
    simp only [List.mem_filter, List.mem_finRange, true_and, decide_eq_true_eq]
    rw [div_lt_iff₀ (by exact_mod_cast hpos)]
    have : ∀ l : List (Fin (n + 1)), l ≠ [] → (∀ i ∈ l, |B i 0| < thr) → (l.map fun i => |B i 0|).sum < thr * (l.length : F) := by
      intro l hne hl
      induction l with
      | nil => exact absurd rfl hne
      | cons a l ih =>
        simp only [List.map_cons, List.sum_cons, List.length_cons, Nat.cast_add, Nat.cast_one]
        have h1 := hl a (by simp)
        by_cases hn : l = []
        · subst hn; simpa using h1
        · have := ih hn fun i hi => hl i (List.mem_cons_of_mem _ hi)
          linarith
    refine this _ (List.ne_nil_of_mem hz) fun i hi => ?_
    rw [hB]
    simpa using hi
  exact blank_some hpos hm

/-- **C124**: all constant variables are left out. -/
theorem blank_finds_constant {thr : F} (ht : 0 < thr) {B : Mat F (n + 1) (n + 1)} (j : Fin (n + 1)) (hj : ∀ i, B i j = 0) :
    ∃ nz, blank thr B = some nz ∧ j ∉ nz := by
  have hz : j ∈ (List.finRange (n + 1)).filter fun j => decide (|B 0 j| < thr) := by simp [hj, ht]
  have hpos : 0 < ((List.finRange (n + 1)).filter fun j => decide (|B 0 j| < thr)).length := List.length_pos_of_mem hz
  have hm : j ∈ (List.finRange (n + 1)).filter fun j => decide
      ((((List.finRange (n + 1)).filter fun j => decide (|B 0 j| < thr)).map fun i => |B i j|).sum /
      (((List.finRange (n + 1)).filter fun j => decide (|B 0 j| < thr)).length : F) < thr) := by
    simp [hj, ht]
  exact blank_some hpos hm

/-- **C124**, first case where the test is right: the first variable is correlated with all variables. -/
theorem blank_correlated {thr : F} {B : Mat F (n + 1) (n + 1)} (h : ∀ j, thr ≤ |B 0 j|) : blank thr B = none := by
  have : (List.finRange (n + 1)).filter (fun j => decide (|B 0 j| < thr)) = [] := by
    rw [List.filter_eq_nil_iff]
    simp [h]
  simp [blank, this]

/-- **C124**, second case where the test is right: the first variable is constant, and those that are not constant have large
enough covariances. -/
theorem blank_constant_first {thr : F} (ht : 0 < thr) {B : Mat F (n + 1) (n + 1)} (h0 : ∀ j, B 0 j = 0)
    (h : ∀ j, (∀ i, B i j = 0) ∨ ∃ i, thr * ((n : F) + 1) ≤ |B i j|) (hB : Sym B) :
    OnlyBlank thr B := by
  intro nz hnz j hj k
  rw [hB]
  have hz : (List.finRange (n + 1)).filter (fun j => decide (|B 0 j| < thr)) = List.finRange (n + 1) := by
    rw [List.filter_eq_self]; simp [h0, ht]
  simp only [blank, hz, List.length_finRange] at hnz
  rw [if_pos (by omega)] at hnz
  split at hnz
  · cases hnz
    rcases h j with hj0 | ⟨i, hi⟩
    · exact hj0 k
    · exfalso
      apply hj
      simp only [List.mem_filter, List.mem_finRange, true_and, decide_eq_true_eq, not_lt]
      rw [le_div_iff₀ (by positivity)]
      refine le_trans (by simpa using hi) ?_
      exact List.single_le_sum (fun x hx => by obtain ⟨y, _, rfl⟩ := List.mem_map.1 hx; exact abs_nonneg _) _
        (List.mem_map.2 ⟨i, List.mem_finRange _, rfl⟩)
  · cases hnz

/-! ## `symeig_semidefinite_pca` -/

theorem Separated.sub {E : Env F} {thr : F} {B : Mat F (n + 1) (n + 1)} (h : Separated E thr B) (hB : Sym B)
    {nz : List (Fin (n + 1))} (hn : nz.Nodup) (hz : ∀ j, j ∉ nz → ∀ k, B j k = 0) : Separated E thr (Symeig.sub nz B) := by
  intro mu w hw he
  refine h mu (embed nz w) (fun h0 => hw ?_) fun k => ?_
  · funext i
    rw [← embed_get hn w i, h0]; rfl
  · rw [sum_sub hn _ fun j hj => by rw [embed_out _ j hj, mul_zero]]
    by_cases hk : k ∈ nz
    · obtain ⟨i, rfl⟩ := List.get_of_mem hk
      rw [embed_get hn, ← he i]
      exact Finset.sum_congr rfl fun j _ => by rw [embed_get hn]; rfl
    · rw [embed_out _ k hk, mul_zero]
      exact Finset.sum_eq_zero fun j _ => by rw [hz k hk, zero_mul]

theorem sub_sym {B : Mat F n n} (hB : Sym B) (nz : List (Fin n)) : Sym (sub nz B) := fun _ _ => hB _ _

theorem EigList.sep {E : Env F} {thr : F} {B : Mat F d d} (h : Separated E thr B) {P : List (F × Row F d)} (hP : EigList B P) :
    ∀ p ∈ P, p.1 = 0 ∨ (thr ≤ p.1 ∧ E.sqrt p.1 * E.sqrt p.1 = p.1) := by
  intro p hp
  refine h p.1 p.2 (fun h0 => ?_) (hP.eigen p hp)
  have := hP.unit p hp
  rw [h0] at this
  simp [dot] at this

theorem mem_takeWhile {α : Type} {q : α → Bool} {l : List α} {a : α} (h : a ∈ l.takeWhile q) : q a = true :=
  List.all_eq_true.1 List.all_takeWhile a h

theorem pcaCore_correct (E : Env F) (hE : Exact E) {thr : F} (ht : 0 < thr) {A B : Mat F d d} (hA : Sym A) (hB : Sym B)
    (hs : Separated E thr B) {l : List (F × Row F d)} {df : Nat} (h : E.pcaCore thr none d A B = .ok (l, df)) :
    RankList A B l ∧ l.length + df = d ∧ ∀ k, 1 ≤ k → E.pcaCore thr (some (1, k)) d A B = .ok (l.take k, df) := by
  simp only [Env.pcaCore, Env.std] at h ⊢
  rcases hP : E.eigh d B with _ | P
  · rw [hP] at h; cases h
  · obtain ⟨hP1, hP2⟩ := hE.eigh d B P hB hP
    rw [hP] at h
    simp only [finish_none hP2] at h ⊢
    have hsub : (P.dropWhile fun p => decide (p.1 < thr)).Sublist P := List.dropWhile_sublist _
    have happ : P.takeWhile (fun p => decide (p.1 < thr)) ++ P.dropWhile (fun p => decide (p.1 < thr)) = P :=
      List.takeWhile_append_dropWhile
    have hkept : ∀ p ∈ P.dropWhile (fun p => decide (p.1 < thr)), thr ≤ p.1 := by
      intro p hp
      have hne : P.dropWhile (fun p => decide (p.1 < thr)) ≠ [] := List.ne_nil_of_mem hp
      have h1 := List.head_dropWhile_not (fun p : F × Row F d => decide (p.1 < thr)) hne
      have hp2 := hP2.sublist hsub
      generalize P.dropWhile (fun p => decide (p.1 < thr)) = L at *
      cases L with
      | nil => cases hp
      | cons a L =>
        replace h1 : thr ≤ a.1 := not_lt.1 (of_decide_eq_false h1)
        rcases List.mem_cons.1 hp with rfl | hp
        · exact h1
        · exact le_trans h1 ((List.pairwise_cons.1 hp2).1 p hp)
    have hdrop : ∀ p ∈ P.takeWhile (fun p => decide (p.1 < thr)), p.1 = 0 := by
      intro p hp
      have h1 := mem_takeWhile hp
      simp only [decide_eq_true_eq] at h1
      rcases hP1.sep hs p ((List.takeWhile_sublist _).subset hp) with h2 | h2
      · exact h2
      · exact absurd h2.1 (not_le.2 h1)
    have hsq : ∀ p ∈ P.dropWhile (fun p => decide (p.1 < thr)), E.sqrt p.1 * E.sqrt p.1 = p.1 ∧ p.1 ≠ 0 := by
      intro p hp
      have h1 := hkept p hp
      have h2 : p.1 ≠ 0 := by intro h0; rw [h0] at h1; exact absurd ht (not_lt.2 h1)
      exact ⟨((hP1.sep hs p (hsub.subset hp)).resolve_left h2).2, h2⟩
    have hcount : (P.takeWhile (fun p => decide (p.1 < thr))).length +
        (P.dropWhile (fun p => decide (p.1 < thr))).length = d := by
      rw [← List.length_append, happ, hP1.full]
    have hperm : P.Perm (P.takeWhile (fun p => decide (p.1 < thr)) ++ P.dropWhile (fun p => decide (p.1 < thr))) := by rw [happ]
    generalize P.takeWhile (fun p => decide (p.1 < thr)) = D at *
    generalize P.dropWhile (fun p => decide (p.1 < thr)) = L at *
    simp only [Env.pcaTail, Env.std] at h ⊢
    by_cases hk : L.length = 0
    · rw [if_pos hk] at h; cases h
    · rw [if_neg hk] at h
      rcases hm : E.eigh (E.scale L).length (colsForm A (E.scale L)) with _ | m
      · rw [hm] at h; cases h
      · obtain ⟨hm1, hm2⟩ := hE.eigh _ _ m (colsForm_sym hA _) hm
        rw [hm] at h
        simp only [finish_none hm2] at h
        cases h
        refine ⟨whiten hA hB E hP1 hperm hsub hdrop hsq hm1 hm2, ?_, fun k hk' => ?_⟩
        · rw [List.length_map, hm1.full]
          simp only [Env.scale, List.length_map]
          omega
        · rw [if_neg hk]
          simp only [finish_some hm2 hm1.full k hk', List.map_take]

/-- **C122**: the solver by principal components solves the generalised problem for a singular `B`, if no variable is wrongly
taken for blank. `rank_deficit` is the number of missing components. -/
theorem pca_correct (E : Env F) (hE : Exact E) {thr : F} (ht : 0 < thr) {A B : Mat F (n + 1) (n + 1)} (hA : Sym A) (hB : Sym B)
    (hs : Separated E thr B) (hb : OnlyBlank thr B) {l : List (F × Row F (n + 1))} {df : Nat}
    (h : E.pca thr A B none = .ok (l, df)) :
    RankList A B l ∧ l.length + df = n + 1 ∧ ∀ k, 1 ≤ k → E.pca thr A B (some (1, k)) = .ok (l.take k, df) := by
  simp only [Env.pca, withBlank] at h ⊢
  rcases hz : blank thr B with _ | nz
  · rw [hz] at h
    exact pcaCore_correct E hE ht hA hB hs h
  · rw [hz] at h
    simp only at h ⊢
    have hn := blank_nodup hz
    rcases hc : E.pcaCore thr none nz.length (sub nz A) (sub nz B) with e | ⟨l', df'⟩
    · rw [hc] at h; cases h
    · rw [hc] at h
      cases h
      obtain ⟨h1, h2, h3⟩ := pcaCore_correct E hE ht (sub_sym hA nz) (sub_sym hB nz) (hs.sub hB hn (hb nz hz)) hc
      have hle : nz.length ≤ n + 1 := by
        have := hn.length_le_card
        simpa using this
      refine ⟨h1.embed hn hB (hb nz hz), by rw [List.length_map]; omega, fun k hk => ?_⟩
      rw [h3 k hk]
      simp only [List.map_take]

theorem EigList.zero {B : Mat F d d} {P : List (F × Row F d)} (hP : EigList B P) (h : ∀ p ∈ P, p.1 = 0) (i j : Fin d) :
    B i j = 0 := by
  have h3 : B i j = ∑ l, B i l * (if l = j then 1 else 0) := by simp
  have hex : ∀ l, (if l = j then (1 : F) else 0) =
      ∑ a : Fin P.length, dot (fun l => if l = j then (1 : F) else 0) (P.get a).2 * (P.get a).2 l := by
    intro l
    rw [sum_get P fun p => dot (fun l => if l = j then (1 : F) else 0) p.2 * p.2 l]
    exact hP.expand (fun l => if l = j then (1 : F) else 0) l
  rw [h3]
  have h4 : ∀ l, B i l * (if l = j then (1 : F) else 0) =
      ∑ a : Fin P.length, dot (fun l => if l = j then (1 : F) else 0) (P.get a).2 * (B i l * (P.get a).2 l) := by
    intro l
    conv_lhs => rw [hex l]
    rw [Finset.mul_sum]
    exact Finset.sum_congr rfl fun a _ => by ring
  rw [Finset.sum_congr rfl fun l _ => h4 l, Finset.sum_comm]
  refine Finset.sum_eq_zero fun a _ => ?_
  rw [← Finset.mul_sum, hP.eigen _ (List.get_mem P a), h _ (List.get_mem P a), zero_mul, mul_zero]

/-- **C122**: the solver fails only if the numerical library fails or if `B` is zero. -/
theorem pca_error (E : Env F) (hE : Exact E) {thr : F} (ht : 0 < thr) {A B : Mat F (n + 1) (n + 1)} (hB : Sym B)
    (hs : Separated E thr B) (hb : OnlyBlank thr B) {e : Err} {rng} (h : E.pca thr A B rng = .error e) :
    e = .symeig ∨ (e = .index ∧ ∀ i j, B i j = 0) := by
  have core : ∀ d (A B : Mat F d d), Sym B → Separated E thr B → E.pcaCore thr rng d A B = .error e →
      e = .symeig ∨ (e = .index ∧ ∀ i j, B i j = 0) := by
    intro d A B hB hs h
    simp only [Env.pcaCore, Env.std] at h
    rcases hP : E.eigh d B with _ | P
    · rw [hP] at h; cases h; exact Or.inl rfl
    · obtain ⟨hP1, hP2⟩ := hE.eigh d B P hB hP
      rw [hP] at h
      simp only [finish_none hP2, Env.pcaTail, Env.std] at h
      split at h
      · next hk =>
        cases h
        refine Or.inr ⟨rfl, fun i j => ?_⟩
        have hall : ∀ p ∈ P, p.1 = 0 := by
          intro p hp
          have happ : P.takeWhile (fun p => decide (p.1 < thr)) ++ P.dropWhile (fun p => decide (p.1 < thr)) = P :=
            List.takeWhile_append_dropWhile
          rw [List.length_eq_zero_iff.1 hk, List.append_nil] at happ
          have h1 := mem_takeWhile (happ.symm ▸ hp)
          simp only [decide_eq_true_eq] at h1
          rcases hP1.sep hs p hp with h2 | h2
          · exact h2
          · exact absurd h2.1 (not_le.2 h1)
        exact hP1.zero hall i j
      · split at h
        · next h1 =>
          cases h
          split at h1
          · cases h1; exact Or.inl rfl
          · cases h1
        · cases h
  simp only [Env.pca, withBlank] at h
  rcases hz : blank thr B with _ | nz
  · rw [hz] at h
    exact core _ _ _ hB hs h
  · rw [hz] at h
    simp only at h
    rcases hc : E.pcaCore thr rng nz.length (sub nz A) (sub nz B) with e' | ⟨l', df'⟩
    · rw [hc] at h
      cases h
      rcases core _ _ _ (sub_sym hB nz) (hs.sub hB (blank_nodup hz) (hb nz hz)) hc with h1 | ⟨h1, h2⟩
      · exact Or.inl h1
      · refine Or.inr ⟨h1, fun i j => ?_⟩
        by_cases hi : i ∈ nz
        · by_cases hj : j ∈ nz
          · obtain ⟨a, rfl⟩ := List.get_of_mem hi
            obtain ⟨b, rfl⟩ := List.get_of_mem hj
            exact h2 a b
          · rw [hB]; exact hb nz hz j hj i
        · exact hb nz hz i hi j
    · rw [hc] at h; cases h

end Mdp.Symeig
