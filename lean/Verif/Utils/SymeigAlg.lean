import Verif.Utils.Symeig
import Verif.Nodes.SfaRank

/-!
# Whitening and embedding: the algebra of the solvers
-/

namespace Mdp.Symeig

open Mdp.Cov Mdp.Sfa Mdp.Pca

variable {F : Type} [Field F] [LinearOrder F] {d r : Nat}

/-! ## Specification -/

/-- `l` is a full system of eigenvalues and eigenvectors of `M`; the vectors have length one and are pairwise orthogonal. -/
structure EigList (M : Mat F d d) (l : List (F × Row F d)) : Prop where
  eigen : ∀ p ∈ l, ∀ k, ∑ j, M k j * p.2 j = p.1 * p.2 k
  unit : ∀ p ∈ l, dot p.2 p.2 = 1
  orth : l.Pairwise fun p q => dot p.2 q.2 = 0
  full : l.length = d

/-- The same as `RankSpectrum` for a list of pairs. -/
structure RankList (A B : Mat F d d) (l : List (F × Row F d)) : Prop where
  unit : ∀ p ∈ l, form B p.2 p.2 = 1
  orth : l.Pairwise fun p q => form B p.2 q.2 = 0
  value : ∀ p ∈ l, form A p.2 p.2 = p.1
  diag : l.Pairwise fun p q => form A p.2 q.2 = 0
  span : ∀ w : Row F d, form B (fun k => w k - (l.map fun p => form B p.2 w * p.2 k).sum)
    (fun k => w k - (l.map fun p => form B p.2 w * p.2 k).sum) = 0
  asc : l.Pairwise fun p q => p.1 ≤ q.1

/-! ## Lists and indices -/

theorem sum_get {α : Type} (l : List α) (g : α → F) : ∑ i : Fin l.length, g (l.get i) = (l.map g).sum := by
  have := List.sum_ofFn (f := fun i : Fin l.length => g (l.get i))
  rw [← this]
  congr 1
  have h : (fun i : Fin l.length => g (l.get i)) = g ∘ l.get := rfl
  rw [h, ← List.map_ofFn, List.ofFn_get]

theorem get_orth {l : List (F × Row F d)} (f : Row F d → Row F d → F) (hc : ∀ x y, f x y = f y x)
    (ho : l.Pairwise fun p q => f p.2 q.2 = 0) (i j : Fin l.length) (hij : i ≠ j) : f (l.get i).2 (l.get j).2 = 0 := by
  rcases lt_or_gt_of_ne hij with h | h
  · exact List.pairwise_iff_get.1 ho i j h
  · rw [hc]; exact List.pairwise_iff_get.1 ho j i h

variable [IsStrictOrderedRing F]

theorem RankList.spectrum {A B : Mat F d d} {l : List (F × Row F d)} (h : RankList A B l) (hA : ∀ k l, A k l = A l k)
    (hB : ∀ k l, B k l = B l k) : RankSpectrum A B (fun i => (l.get i).1) (fun i => (l.get i).2) := by
  refine ⟨fun i j => ?_, fun i j => ?_, fun w => ⟨fun i => form B (l.get i).2 w, ?_⟩, fun i j hij => ?_⟩
  · split
    · next h1 => subst h1; exact h.unit _ (List.get_mem _ _)
    · next h1 => exact get_orth (form B) (form_comm hB) h.orth i j h1
  · split
    · next h1 => subst h1; exact h.value _ (List.get_mem _ _)
    · next h1 => exact get_orth (form A) (form_comm hA) h.diag i j h1
  · have := h.span w
    simp only [← sum_get] at this
    exact this
  · rcases lt_or_eq_of_le hij with h1 | rfl
    · exact List.pairwise_iff_get.1 h.asc i j h1
    · exact le_refl _

theorem EigList.expand {M : Mat F d d} {l : List (F × Row F d)} (h : EigList M l) (w : Row F d) (k : Fin d) :
    w k = (l.map fun p => dot w p.2 * p.2 k).sum := by
  have ho : Orthonormal fun i : Fin d => (l.get (i.cast h.full.symm)).2 := by
    intro i j
    split
    · next h1 => subst h1; exact h.unit _ (List.get_mem _ _)
    · next h1 => exact get_orth dot (fun x y => Finset.sum_congr rfl fun _ _ => mul_comm _ _) h.orth _ _ (by simpa [Fin.ext_iff] using h1)
  rw [← sum_get]
  rw [ho.expand w k]
  exact Equiv.sum_comp (finCongr h.full.symm) fun i : Fin l.length => dot w (l.get i).2 * (l.get i).2 k

/-! ## Whitening -/

theorem back_eq (S : List (Row F d)) (u : Row F S.length) (k : Fin d) : back S u k = ∑ i, u i * S.get i k := by
  simp only [back, dotL_eq, dot]
  exact Finset.sum_congr rfl fun i _ => mul_comm _ _

theorem form_back (M : Mat F d d) (S : List (Row F d)) (w : Row F d) (u : Row F S.length) :
    form M w (back S u) = ∑ i, u i * form M w (S.get i) := by
  have : back S u = fun k => ∑ i, u i * S.get i k := funext fun k => back_eq S u k
  rw [this, form_sum']

theorem colsForm_eq (A : Mat F d d) (S : List (Row F d)) (i j : Fin S.length) : colsForm A S i j = form A (S.get i) (S.get j) := by
  simp only [colsForm, dotL_eq, dot, form, Finset.mul_sum, mul_assoc]

theorem form_eigen {B : Mat F d d} {p : F × Row F d} (h : ∀ k, ∑ j, B k j * p.2 j = p.1 * p.2 k) (w : Row F d) :
    form B w p.2 = p.1 * dot w p.2 := by
  simp only [form, dot, Finset.mul_sum]
  refine Finset.sum_congr rfl fun k _ => ?_
  have : ∑ l, w k * B k l * p.2 l = w k * ∑ l, B k l * p.2 l := by
    rw [Finset.mul_sum]; exact Finset.sum_congr rfl fun l _ => by ring
  rw [this, h]; ring

theorem dot_comm (x y : Row F d) : dot x y = dot y x := Finset.sum_congr rfl fun _ _ => mul_comm _ _

/-- Eigenvectors of `B`, scaled, and then eigenvectors of what `A` becomes. -/
theorem whiten {A B : Mat F d d} (hA : ∀ k l, A k l = A l k) (hB : ∀ k l, B k l = B l k) (E : Env F)
    {P D L : List (F × Row F d)} (hP : EigList B P) (hPD : P.Perm (D ++ L)) (hL : L.Sublist P) (hD : ∀ p ∈ D, p.1 = 0)
    (hs : ∀ p ∈ L, E.sqrt p.1 * E.sqrt p.1 = p.1 ∧ p.1 ≠ 0)
    {m : List (F × Row F (E.scale L).length)} (hm : EigList (colsForm A (E.scale L)) m) (hasc : m.Pairwise fun p q => p.1 ≤ q.1) :
    RankList A B (m.map fun p => (p.1, back (E.scale L) p.2)) := by
  have hlen : (E.scale L).length = L.length := by simp [Env.scale]
  have hget : ∀ i : Fin (E.scale L).length, (E.scale L).get i =
      fun k => (1 / E.sqrt (L.get (i.cast hlen)).1) * (L.get (i.cast hlen)).2 k := by
    intro i
    funext k
    have h1 : (E.scale L)[i.1]'i.2 = fun k => (L[i.1]'(hlen ▸ i.2)).2 k * (1 / E.sqrt (L[i.1]'(hlen ▸ i.2)).1) := by
      simp only [Env.scale, List.getElem_map]
    rw [List.get_eq_getElem, h1, mul_comm]
    rfl
  have hsq : ∀ i, E.sqrt (L.get i).1 * E.sqrt (L.get i).1 = (L.get i).1 := fun i => (hs _ (List.get_mem _ _)).1
  have hs0 : ∀ i, E.sqrt (L.get i).1 ≠ 0 := fun i h => (hs _ (List.get_mem L i)).2 (by rw [← hsq, h, zero_mul])
  have heig : ∀ i w, form B w (L.get i).2 = (L.get i).1 * dot w (L.get i).2 := fun i w =>
    form_eigen (hP.eigen _ (hL.subset (List.get_mem _ _))) w
  have hdot : ∀ i j : Fin L.length, dot (L.get i).2 (L.get j).2 = if i = j then 1 else 0 := by
    intro i j
    split
    · next h1 => subst h1; exact hP.unit _ (hL.subset (List.get_mem _ _))
    · next h1 => exact get_orth dot dot_comm (hP.orth.sublist hL) _ _ h1
  have hSw : ∀ i w, form B w ((E.scale L).get i) = E.sqrt (L.get (i.cast hlen)).1 * dot w (L.get (i.cast hlen)).2 := by
    intro i w
    rw [hget, form_smul, heig, ← mul_assoc]
    congr 1
    rw [one_div, inv_mul_eq_iff_eq_mul₀ (hs0 _), hsq]
  have hSS : ∀ i j : Fin (E.scale L).length, form B ((E.scale L).get i) ((E.scale L).get j) = if i = j then 1 else 0 := by
    intro i j
    rw [hSw, hget i]
    have : dot (fun k => (1 / E.sqrt (L.get (i.cast hlen)).1) * (L.get (i.cast hlen)).2 k) (L.get (j.cast hlen)).2 =
        (1 / E.sqrt (L.get (i.cast hlen)).1) * dot (L.get (i.cast hlen)).2 (L.get (j.cast hlen)).2 := by
      simp only [dot, Finset.mul_sum, mul_assoc]
    rw [this, hdot]
    by_cases hij : i = j
    · subst hij
      have := hs0 (i.cast hlen)
      simp only [if_true]
      field_simp
    · rw [if_neg hij, if_neg (by simpa [Fin.ext_iff] using hij)]
      ring
  have hBB : ∀ u u', form B (back (E.scale L) u) (back (E.scale L) u') = dot u u' := by
    intro u u'
    rw [form_back]
    simp only [form_comm hB (back (E.scale L) u), form_back, hSS, mul_ite, mul_one, mul_zero, Finset.sum_ite_eq, Finset.mem_univ, if_true, dot]
    exact Finset.sum_congr rfl fun i _ => mul_comm _ _
  have hAA : ∀ u, ∀ p ∈ m, form A (back (E.scale L) u) (back (E.scale L) p.2) = p.1 * dot u p.2 := by
    intro u p hp
    rw [← form_eigen (hm.eigen p hp) u, form_back]
    have h1 : ∀ j, form A (back (E.scale L) u) ((E.scale L).get j) = ∑ i, u i * colsForm A (E.scale L) i j := by
      intro j
      rw [form_comm hA, form_back]
      exact Finset.sum_congr rfl fun i _ => by rw [colsForm_eq, form_comm hA]
    simp only [h1]
    simp only [Finset.mul_sum, form]
    rw [Finset.sum_comm]
    exact Finset.sum_congr rfl fun i _ => Finset.sum_congr rfl fun j _ => by ring
  refine ⟨?_, ?_, ?_, ?_, ?_, ?_⟩
  · simp only [List.mem_map, forall_exists_index, and_imp]
    rintro _ p hp rfl
    simp only
    rw [hBB, hm.unit p hp]
  · rw [List.pairwise_map]
    exact hm.orth.imp fun {p q} h => by simp only; rw [hBB, h]
  · simp only [List.mem_map, forall_exists_index, and_imp]
    rintro _ p hp rfl
    simp only
    rw [hAA _ p hp, hm.unit p hp, mul_one]
  · rw [List.pairwise_map]
    refine List.Pairwise.imp_of_mem ?_ hm.orth
    intro p q hp hq h
    simp only
    rw [hAA _ q hq, h, mul_zero]
  · intro w
    -- the part of `w` outside the null space
    have e1 : ∀ k, (m.map fun p => form B (back (E.scale L) p.2) w * back (E.scale L) p.2 k).sum =
        (L.map fun p => dot w p.2 * p.2 k).sum := by
      intro k
      let a : Row F (E.scale L).length := fun i => E.sqrt (L.get (i.cast hlen)).1 * dot w (L.get (i.cast hlen)).2
      have h1 : ∀ u, form B (back (E.scale L) u) w = dot a u := by
        intro u
        rw [form_comm hB, form_back]
        simp only [hSw, dot, a]
        exact Finset.sum_congr rfl fun i _ => mul_comm _ _
      have h2 : (m.map fun p => form B (back (E.scale L) p.2) w * back (E.scale L) p.2 k).sum = back (E.scale L) a k := by
        simp only [h1, back_eq]
        have : ∀ i, a i = (m.map fun p => dot a p.2 * p.2 i).sum := hm.expand a
        conv_rhs => enter [2, i]; rw [this i]
        rw [← sum_get]
        simp only [← sum_get m, Finset.mul_sum, Finset.sum_mul]
        rw [Finset.sum_comm]
        exact Finset.sum_congr rfl fun i _ => Finset.sum_congr rfl fun j _ => by ring
      rw [h2, back_eq, ← sum_get, ← Equiv.sum_comp (finCongr hlen)]
      refine Finset.sum_congr rfl fun i _ => ?_
      rw [hget]
      simp only [a, finCongr_apply]
      have := hs0 (i.cast hlen)
      field_simp
    have e2 : ∀ k, w k - (L.map fun p => dot w p.2 * p.2 k).sum = (D.map fun p => dot w p.2 * p.2 k).sum := by
      intro k
      have h1 := hP.expand w k
      rw [(hPD.map _).sum_eq, List.map_append, List.sum_append] at h1
      rw [h1]; ring
    have e3 : ∀ x, form B x (fun k => (D.map fun p => dot w p.2 * p.2 k).sum) = 0 := by
      intro x
      simp only [← sum_get D]
      rw [form_sum']
      refine Finset.sum_eq_zero fun i _ => ?_
      have hmem : D.get i ∈ P := hPD.symm.subset (List.mem_append_left _ (List.get_mem _ _))
      rw [form_eigen (hP.eigen _ hmem), hD _ (List.get_mem _ _)]
      ring
    simp only [List.map_map, Function.comp_def, e1, e2]
    exact e3 _
  · rw [List.pairwise_map]
    exact hasc

/-! ## Leaving out blank variables -/

theorem embed_get {n : Nat} {nz : List (Fin n)} (hn : nz.Nodup) (v : Row F nz.length) (i : Fin nz.length) :
    embed nz v (nz.get i) = v i := by
  have h : nz.idxOf (nz.get i) = i := List.get_idxOf hn i
  simp only [embed]
  rw [dif_pos (by rw [h]; exact i.2)]
  congr 1
  exact Fin.ext h

theorem embed_out {n : Nat} {nz : List (Fin n)} (v : Row F nz.length) (k : Fin n) (hk : k ∉ nz) : embed nz v k = 0 := by
  simp only [embed]
  rw [dif_neg]
  rw [List.idxOf_lt_length_iff]
  exact hk

/-- A sum whose terms vanish outside of `nz`. -/
theorem sum_sub {n : Nat} {nz : List (Fin n)} (hn : nz.Nodup) (g : Fin n → F) (hg : ∀ k, k ∉ nz → g k = 0) :
    ∑ k, g k = ∑ i : Fin nz.length, g (nz.get i) := by
  rw [sum_get nz g, ← List.sum_toFinset g hn]
  symm
  refine Finset.sum_subset (Finset.subset_univ _) fun k _ hk => hg k fun h => hk (List.mem_toFinset.2 h)

theorem form_embed {n : Nat} {nz : List (Fin n)} (hn : nz.Nodup) (M : Mat F n n) (x y : Row F nz.length) :
    form M (embed nz x) (embed nz y) = form (sub nz M) x y := by
  simp only [form]
  rw [sum_sub hn _ fun k hk => by simp [embed_out _ k hk]]
  refine Finset.sum_congr rfl fun i _ => ?_
  rw [sum_sub hn _ fun k hk => by simp [embed_out _ k hk]]
  exact Finset.sum_congr rfl fun j _ => by rw [embed_get hn, embed_get hn]; rfl

theorem form_blank {n : Nat} {nz : List (Fin n)} (hn : nz.Nodup) {B : Mat F n n} (hB : ∀ k l, B k l = B l k)
    (hz : ∀ j, j ∉ nz → ∀ k, B j k = 0) (x y : Row F n) :
    form B x y = form (sub nz B) (fun i => x (nz.get i)) (fun i => y (nz.get i)) := by
  simp only [form]
  rw [sum_sub hn _ fun k hk => Finset.sum_eq_zero fun l _ => by rw [hz k hk]; ring]
  refine Finset.sum_congr rfl fun i _ => ?_
  rw [sum_sub hn _ fun k hk => by rw [hB, hz k hk]; ring]
  rfl

/-- Leaving out variables whose rows in `B` are zero. -/
theorem RankList.embed {n : Nat} {nz : List (Fin n)} (hn : nz.Nodup) {A B : Mat F n n} (hB : ∀ k l, B k l = B l k)
    (hz : ∀ j, j ∉ nz → ∀ k, B j k = 0) {l : List (F × Row F nz.length)} (h : RankList (sub nz A) (sub nz B) l) :
    RankList A B (l.map fun p => (p.1, Symeig.embed nz p.2)) := by
  refine ⟨?_, ?_, ?_, ?_, ?_, ?_⟩
  · simp only [List.mem_map, forall_exists_index, and_imp]
    rintro _ p hp rfl
    simp only
    rw [form_embed hn, h.unit p hp]
  · rw [List.pairwise_map]
    exact h.orth.imp fun {p q} h => by simp only; rw [form_embed hn, h]
  · simp only [List.mem_map, forall_exists_index, and_imp]
    rintro _ p hp rfl
    simp only
    rw [form_embed hn, h.value p hp]
  · rw [List.pairwise_map]
    exact h.diag.imp fun {p q} h => by simp only; rw [form_embed hn, h]
  · intro w
    rw [form_blank hn hB hz]
    simp only [List.map_map, Function.comp_def, form_blank hn hB hz _ w, embed_get hn]
    exact h.span _
  · rw [List.pairwise_map]
    exact h.asc

end Mdp.Symeig
