import Verif.Utils.SymeigProps

/-!
# The regularised solver (mdp/utils/symeig_semidefinite.py 61-130), C283, C284
-/

namespace Mdp.Symeig

open Mdp.Cov Mdp.Sfa Mdp.Pca Mdp.Join

variable {F : Type} [Field F] [LinearOrder F] {d : Nat}

/-- `Bflat[idx] += rank_threshold` (97-102). -/
def regular (thr : F) (B : Mat F d d) : Mat F d d := fun i j => if i = j then B i j + thr else B i j

/-- An entry of `m` (107-108). -/
def Env.defect (E : Env F) (B : Mat F d d) (p : F × Row F d) : F := |E.sqrt |dotL p.2 fun k => dotL (B k) p.2| - 1|

/-- 109-126: the pairs that are kept, and `rank_deficit`, which is `old` before the call. -/
def Env.regKeep (E : Env F) (old : Nat) (B : Mat F d d) (l : List (F × Row F d)) : Except Err (List (F × Row F d) × Nat) :=
  let off := (l.takeWhile fun p => decide (1 / 2 < E.defect B p)).length
  if off = l.length then .error .index
  else if ((l.drop off).map fun p => E.defect B p).sum < 1 / 2 then .ok (l.drop off, if off > 0 then off else old)
  else .ok (l.filter fun p => decide (E.defect B p < 1 / 2), old)

/-- `symeig_semidefinite_reg` (61-130). -/
def Env.reg (E : Env F) (thr : F) (old : Nat) (A B : Mat F d d) (rng : Option (Nat × Nat)) : Except Err (List (F × Row F d) × Nat) :=
  match E.fake A (regular thr B) none with
  | .error e => .error e
  | .ok l =>
    match E.regKeep old B l with
    | .error e => .error e
    | .ok (k, df) => .ok (match rng with | none => k | some r => slice r k, df)

/-! ## Proofs -/

variable [IsStrictOrderedRing F]

theorem form_regular (thr : F) (B : Mat F d d) (x y : Row F d) : form (regular thr B) x y = form B x y + thr * dot x y := by
  simp only [form, dot, Finset.mul_sum]
  rw [← Finset.sum_add_distrib]
  refine Finset.sum_congr rfl fun k _ => ?_
  have : ∀ l, x k * regular thr B k l * y l = x k * B k l * y l + if k = l then thr * (x k * y l) else 0 := by
    intro l
    simp only [regular]
    split <;> ring
  simp only [this, Finset.sum_add_distrib, Finset.sum_ite_eq, Finset.mem_univ, if_true]

theorem regular_sym {thr : F} {B : Mat F d d} (hB : Sym B) : Sym (regular thr B) := by
  intro k l
  simp only [regular]
  by_cases h : k = l
  · subst h; rfl
  · rw [if_neg h, if_neg (Ne.symm h), hB]

theorem dot_self_nonneg (x : Row F d) : 0 ≤ dot x x := Finset.sum_nonneg fun _ _ => mul_self_nonneg _

theorem dot_self_pos {x : Row F d} (hx : x ≠ 0) : 0 < dot x x := by
  obtain ⟨i, hi⟩ := Function.ne_iff.1 hx
  exact Finset.sum_pos' (fun _ _ => mul_self_nonneg _) ⟨i, Finset.mem_univ _, mul_self_pos.2 hi⟩

/-- The square root is exact. -/
def ExactSqrt (E : Env F) : Prop := ∀ x, 0 ≤ x → 0 ≤ E.sqrt x ∧ E.sqrt x * E.sqrt x = x

/-- All variances that are not zero are at least `mu`: so for vectors orthogonal to those of variance zero. -/
def Gap (mu : F) (B : Mat F d d) : Prop := ∀ u, (∀ w, form B w w = 0 → dot u w = 0) → mu * dot u u ≤ form B u u

theorem defect_eq (E : Env F) {B : Mat F d d} (hp : Psd B) (p : F × Row F d) : E.defect B p = |E.sqrt (form B p.2 p.2) - 1| := by
  have : (dotL p.2 fun k => dotL (B k) p.2) = form B p.2 p.2 := by
    simp only [dotL_eq, dot, form, Finset.mul_sum, mul_assoc]
  rw [Env.defect, this, abs_of_nonneg (hp p.2)]

theorem defect_null {E : Env F} (hs : ExactSqrt E) {B : Mat F d d} (hp : Psd B) {p : F × Row F d} (h : form B p.2 p.2 = 0) : E.defect B p = 1 := by
  have := (hs 0 (le_refl 0)).2
  rw [defect_eq E hp, h, mul_self_eq_zero.1 this]
  simp

/-- `1 - sqrt(1 - a) ≤ a`. -/
theorem defect_small {E : Env F} (hs : ExactSqrt E) {B : Mat F d d} (hp : Psd B) {p : F × Row F d} {a : F} (h1 : form B p.2 p.2 ≤ 1) (h : 1 - a ≤ form B p.2 p.2) :
    E.defect B p ≤ a := by
  obtain ⟨h2, h3⟩ := hs _ (hp p.2)
  rw [defect_eq E hp]
  have h4 : E.sqrt (form B p.2 p.2) ≤ 1 := by nlinarith
  rw [abs_of_nonpos (by linarith)]
  nlinarith

/-- What is known about the pairs the solver gives for the regularised matrix. -/
theorem fake_regular {E : Env F} (hE : Exact E) (hs : ExactSqrt E) {thr mu : F} (ht : 0 < thr) (hmu : thr < mu) {A B : Mat F d d} (hA : Sym A) (hB : Sym B)
    (hpA : Psd A) (hpB : Psd B) (hnull : ∀ u, form A u u = 0 ↔ form B u u = 0) (hg : Gap mu B) {l : List (F × Row F d)}
    (h : E.fake A (regular thr B) none = .ok l) :
    RankList A (regular thr B) l ∧ l.length = d ∧ (∀ p ∈ l, 0 ≤ p.1) ∧ (∀ p ∈ l, p.1 = 0 → form B p.2 p.2 = 0) ∧
      ∀ p ∈ l, p.1 ≠ 0 → form B p.2 p.2 ≤ 1 ∧ 1 - thr / (mu + thr) ≤ form B p.2 p.2 ∧ (mu + thr) * dot p.2 p.2 ≤ 1 := by
  have hpos : ∀ u : Row F d, u ≠ 0 → 0 < form (regular thr B) u u := fun u hu => by
    rw [form_regular]
    have := mul_pos ht (dot_self_pos hu)
    have := hpB u
    linarith
  obtain ⟨hR, hl, he, -⟩ := fake_correct E hE hA (regular_sym hB) (fun m w hw hm => by
    have h1 : form (regular thr B) w w = m * dot w w := form_eigen (p := (m, w)) hm w
    have h2 := hpos w hw
    rw [h1] at h2
    have hm : 0 < m := by
      by_contra hc
      have := mul_nonneg (neg_nonneg.2 (not_lt.1 hc)) (dot_self_nonneg w)
      linarith
    exact ⟨hm, (hs m hm.le).2⟩) h
  have h0 : ∀ p ∈ l, 0 ≤ p.1 := fun p hp => by rw [← hR.value p hp]; exact hpA _
  refine ⟨hR, hl, h0, fun p hp hz => (hnull p.2).1 (by rw [hR.value p hp, hz]), fun p hp hz => ?_⟩
  have hort : ∀ w, form B w w = 0 → dot p.2 w = 0 := by
    intro w hw
    have hAw : form A w p.2 = 0 := form_null hA hpA ((hnull w).2 hw) _
    have hBw : form B w p.2 = 0 := form_null hB hpB hw _
    have e : form A w p.2 = p.1 * form (regular thr B) w p.2 := by
      simp only [form]
      rw [Finset.mul_sum]
      refine Finset.sum_congr rfl fun k _ => ?_
      have h1 : ∀ M : Mat F d d, ∑ j, w k * M k j * p.2 j = w k * ∑ j, M k j * p.2 j := by
        intro M
        rw [Finset.mul_sum]
        exact Finset.sum_congr rfl fun j _ => by ring
      rw [h1, h1, he p hp k]
      ring
    rw [hAw, form_regular, hBw, zero_add] at e
    have := (mul_eq_zero.1 ((mul_eq_zero.1 e.symm).resolve_left hz)).resolve_left ht.ne'
    rw [dot_comm, this]
  have h1 := hg p.2 hort
  have h2 := hR.unit p hp
  rw [form_regular] at h2
  have h3 := dot_self_nonneg p.2
  have h4 : (mu + thr) * dot p.2 p.2 ≤ 1 := by nlinarith
  refine ⟨by nlinarith, ?_, h4⟩
  have hm : 0 < mu + thr := by linarith
  have h5 : dot p.2 p.2 ≤ 1 / (mu + thr) := by rw [le_div_iff₀ hm]; linarith
  have h6 := mul_le_mul_of_nonneg_left h5 ht.le
  rw [mul_one_div] at h6
  linarith

theorem takeWhile_asc {α : Type} (q : α → Bool) (l : List α) (k : Nat → α → Prop) (h : l.Pairwise fun a b => q b = true → q a = true) :
    l.takeWhile q = l.filter q ∧ l.dropWhile q = l.filter fun a => !q a := by
  induction l with
  | nil => simp
  | cons a l ih =>
    rw [List.pairwise_cons] at h
    obtain ⟨h1, h2⟩ := ih h.2
    by_cases ha : q a = true
    · simp [ha, h1, h2]
    · have hn : ∀ b ∈ l, q b = false := fun b hb => by
        by_contra hc
        exact ha (h.1 b hb (by simpa using hc))
      have e1 : l.filter q = [] := List.filter_eq_nil_iff.2 fun b hb => by simp [hn b hb]
      have e2 : (l.filter fun a => !q a) = l := List.filter_eq_self.2 fun b hb => by simp [hn b hb]
      simp [ha, e1, e2]

theorem drop_takeWhile {α : Type} (q : α → Bool) (l : List α) : l.drop (l.takeWhile q).length = l.dropWhile q := by
  induction l with
  | nil => simp
  | cons a l ih => by_cases ha : q a = true <;> simp [ha, ih]

theorem form_list (M : Mat F d d) (w : Row F d) (c : F × Row F d → F) (l : List (F × Row F d)) :
    form M w (fun k => (l.map fun p => c p * p.2 k).sum) = (l.map fun p => c p * form M w p.2).sum := by
  rw [← sum_get l fun p => c p * form M w p.2, ← form_sum' M w (fun i => c (l.get i)) fun i => (l.get i).2]
  congr 1
  funext k
  rw [← sum_get l fun p => c p * p.2 k]

/-- The pairs that are kept are those with an eigenvalue that is not zero; if the threshold is small enough for the number of variables, `rank_deficit`
is the number of the others. -/
theorem regKeep_spec {E : Env F} (hs : ExactSqrt E) {thr mu : F} (ht : 0 < thr) (hmu : thr < mu) {A B : Mat F d d} (hpB : Psd B)
    {l : List (F × Row F d)} (hasc : l.Pairwise fun p q => p.1 ≤ q.1) (h0 : ∀ p ∈ l, 0 ≤ p.1) (hz : ∀ p ∈ l, p.1 = 0 → form B p.2 p.2 = 0)
    (hn : ∀ p ∈ l, p.1 ≠ 0 → form B p.2 p.2 ≤ 1 ∧ 1 - thr / (mu + thr) ≤ form B p.2 p.2) {old : Nat} {k : List (F × Row F d)} {df : Nat}
    (h : E.regKeep old B l = .ok (k, df)) :
    k = l.filter (fun p => decide (p.1 ≠ 0)) ∧ ((l.length : F) * thr * 2 ≤ mu → df = if k.length < l.length then l.length - k.length else old) := by
  have hm : 0 < mu + thr := by linarith
  have ha : thr / (mu + thr) < 1 / 2 := by rw [div_lt_div_iff₀ hm (by norm_num)]; linarith
  have hd1 : ∀ p ∈ l, p.1 = 0 → E.defect B p = 1 := fun p hp e => defect_null hs hpB (hz p hp e)
  have hd2 : ∀ p ∈ l, p.1 ≠ 0 → E.defect B p ≤ thr / (mu + thr) := fun p hp e => defect_small hs hpB (hn p hp e).1 (hn p hp e).2
  have hq : ∀ p ∈ l, decide (1 / 2 < E.defect B p) = decide (p.1 = 0) := by
    intro p hp
    by_cases e : p.1 = 0
    · have : (1 : F) / 2 < 1 := by norm_num
      rw [hd1 p hp e, decide_eq_true this, decide_eq_true e]
    · have := hd2 p hp e
      simp only [e, decide_false, decide_eq_false_iff_not, not_lt]
      linarith
  have hpw : l.Pairwise fun a b => decide (1 / 2 < E.defect B b) = true → decide (1 / 2 < E.defect B a) = true := by
    refine hasc.imp_of_mem fun {a b} hma hmb hab => ?_
    rw [hq a hma, hq b hmb]
    simp only [decide_eq_true_eq]
    intro e
    exact le_antisymm (e ▸ hab) (h0 a hma)
  obtain ⟨e1, e2⟩ := takeWhile_asc _ l (fun _ _ => True) hpw
  have e3 : (l.filter fun a => !decide (1 / 2 < E.defect B a)) = l.filter fun p => decide (p.1 ≠ 0) :=
    List.filter_congr fun p hp => by rw [hq p hp]; simp
  have e4 : (l.filter fun p => decide (E.defect B p < 1 / 2)) = l.filter fun p => decide (p.1 ≠ 0) :=
    List.filter_congr fun p hp => by
      by_cases e : p.1 = 0
      · have : ¬(1 : F) < 1 / 2 := by norm_num
        rw [hd1 p hp e, decide_eq_false this, decide_eq_false (not_not.2 e)]
      · have := hd2 p hp e
        simp only [ne_eq, e, not_false_eq_true, decide_true, decide_eq_true_eq]
        linarith
  have hlen : (l.takeWhile fun p => decide (1 / 2 < E.defect B p)).length + (l.filter fun p => decide (p.1 ≠ 0)).length = l.length := by
    rw [← e3, ← e2, ← List.length_append, List.takeWhile_append_dropWhile]
  simp only [Env.regKeep, drop_takeWhile, e2, e3, e4] at h
  split at h
  · cases h
  · rename_i hoff
    split at h
    · cases h
      refine ⟨rfl, fun _ => ?_⟩
      by_cases hc : (l.takeWhile fun p => decide (1 / 2 < E.defect B p)).length > 0
      · rw [if_pos hc, if_pos (by omega)]; omega
      · rw [if_neg hc, if_neg (by omega)]
    · rename_i hsum
      cases h
      refine ⟨rfl, fun hlarge => absurd ?_ hsum⟩
      have hb : ∀ l' : List (F × Row F d), (∀ p ∈ l', E.defect B p ≤ thr / (mu + thr)) → (l'.map fun p => E.defect B p).sum ≤ l'.length * (thr / (mu + thr)) := by
        intro l' hl'
        induction l' with
        | nil => simp
        | cons p l' ih =>
          have := ih fun q hq => hl' q (by simp [hq])
          have := hl' p (by simp)
          simp only [List.map_cons, List.sum_cons, List.length_cons, Nat.cast_add, Nat.cast_one]
          linarith
      have h1 := hb (l.filter fun p => decide (p.1 ≠ 0)) fun p hp => by
        rw [List.mem_filter, decide_eq_true_eq] at hp
        exact hd2 p hp.1 hp.2
      refine lt_of_le_of_lt h1 ?_
      have h2 : ((l.filter fun p => decide (p.1 ≠ 0)).length : F) ≤ l.length := by exact_mod_cast List.length_filter_le _ _
      have h3 : ((l.filter fun p => decide (p.1 ≠ 0)).length : F) * (thr / (mu + thr)) ≤ l.length * (thr / (mu + thr)) :=
        mul_le_mul_of_nonneg_right h2 (div_nonneg ht.le hm.le)
      refine lt_of_le_of_lt h3 ?_
      rw [← mul_div_assoc, div_lt_div_iff₀ hm (by norm_num)]
      linarith

/-- What is not spanned by the vectors with an eigenvalue that is not zero has variance zero. -/
theorem regular_span {thr : F} (ht : 0 < thr) {A B : Mat F d d} (hB : Sym B) (hpB : Psd B) {l0 : List (F × Row F d)} (hR : RankList A (regular thr B) l0)
    (hz : ∀ p ∈ l0, p.1 = 0 → form B p.2 p.2 = 0) (w : Row F d) :
    form B (fun k => w k - ((l0.filter fun p => decide (p.1 ≠ 0)).map fun p => form (regular thr B) p.2 w * p.2 k).sum)
      (fun k => w k - ((l0.filter fun p => decide (p.1 ≠ 0)).map fun p => form (regular thr B) p.2 w * p.2 k).sum) = 0 := by
  have hres : ∀ k, w k = (l0.map fun p => form (regular thr B) p.2 w * p.2 k).sum := by
    have hs0 := hR.span w
    rw [form_regular] at hs0
    have h1 := hpB fun k => w k - (l0.map fun p => form (regular thr B) p.2 w * p.2 k).sum
    have h2 := dot_self_nonneg fun k => w k - (l0.map fun p => form (regular thr B) p.2 w * p.2 k).sum
    have h3 : (fun k => w k - (l0.map fun p => form (regular thr B) p.2 w * p.2 k).sum) = 0 := by
      by_contra hc
      have := mul_pos ht (dot_self_pos hc)
      linarith
    intro k
    exact sub_eq_zero.1 (congrFun h3 k)
  have hsplit : ∀ k, w k - ((l0.filter fun p => decide (p.1 ≠ 0)).map fun p => form (regular thr B) p.2 w * p.2 k).sum =
      ((l0.filter fun p => decide (p.1 = 0)).map fun p => form (regular thr B) p.2 w * p.2 k).sum := by
    intro k
    conv_lhs => rw [hres k]
    have : ∀ l : List (F × Row F d), (l.map fun p => form (regular thr B) p.2 w * p.2 k).sum =
        ((l.filter fun p => decide (p.1 = 0)).map fun p => form (regular thr B) p.2 w * p.2 k).sum +
        ((l.filter fun p => decide (p.1 ≠ 0)).map fun p => form (regular thr B) p.2 w * p.2 k).sum := by
      intro l
      induction l with
      | nil => simp
      | cons p l ih =>
        by_cases e : p.1 = 0
        · simp only [List.map_cons, List.sum_cons, List.filter_cons, e, ne_eq, not_true_eq_false, decide_true, decide_false, if_true, Bool.false_eq_true, if_false, ih]
          ring
        · simp only [List.map_cons, List.sum_cons, List.filter_cons, e, ne_eq, not_false_eq_true, decide_true, decide_false, if_true, Bool.false_eq_true, if_false, ih]
          ring
    rw [this l0]
    ring
  rw [show (fun k => w k - ((l0.filter fun p => decide (p.1 ≠ 0)).map fun p => form (regular thr B) p.2 w * p.2 k).sum) = _ from funext hsplit]
  rw [form_list]
  have hz0 : ∀ p ∈ l0.filter (fun p => decide (p.1 = 0)), ∀ x, form B x p.2 = 0 := fun p hp x => by
    rw [List.mem_filter, decide_eq_true_eq] at hp
    rw [form_comm hB]
    exact form_null hB hpB (hz p hp.1 hp.2) x
  generalize hx : (fun k => ((l0.filter fun p => decide (p.1 = 0)).map fun p => form (regular thr B) p.2 w * p.2 k).sum) = x
  refine List.sum_eq_zero fun y hy => ?_
  obtain ⟨p, hp, rfl⟩ := List.mem_map.1 hy
  rw [hz0 p hp, mul_zero]

/-- **C283**: the regularised solver for two covariance matrices whose null spaces agree and with variances of zero or at least `mu`, above the threshold.
It leaves out exactly what has variance zero. The vectors diagonalise `A`, the values are in ascending order; variances are one and covariances zero
for `B`, up to `threshold / (mu + threshold)`. -/
theorem reg_correct {E : Env F} (hE : Exact E) (hs : ExactSqrt E) {thr mu : F} (ht : 0 < thr) (hmu : thr < mu) {A B : Mat F d d} (hA : Sym A) (hB : Sym B)
    (hpA : Psd A) (hpB : Psd B) (hnull : ∀ u, form A u u = 0 ↔ form B u u = 0) (hg : Gap mu B) {old df : Nat} {l : List (F × Row F d)}
    (h : E.reg thr old A B none = .ok (l, df)) :
    (∀ p ∈ l, 1 - thr / (mu + thr) ≤ form B p.2 p.2 ∧ form B p.2 p.2 ≤ 1) ∧
    (l.Pairwise fun p q => |form B p.2 q.2| ≤ thr / (mu + thr)) ∧
    (∀ p ∈ l, form A p.2 p.2 = p.1 ∧ 0 < p.1) ∧
    (l.Pairwise fun p q => form A p.2 q.2 = 0 ∧ p.1 ≤ q.1) ∧
    (∀ w : Row F d, ∃ c : F × Row F d → F, form B (fun k => w k - (l.map fun p => c p * p.2 k).sum) (fun k => w k - (l.map fun p => c p * p.2 k).sum) = 0) ∧
    ((d : F) * thr * 2 ≤ mu → df = if l.length < d then d - l.length else old) ∧
    ∀ k, E.reg thr old A B (some (1, k)) = .ok (l.take k, df) := by
  simp only [Env.reg] at h ⊢
  split at h
  · cases h
  rename_i l0 hl0
  split at h
  · cases h
  rename_i k df' hk
  cases h
  obtain ⟨hR, hlen, h0, hz, hn⟩ := fake_regular hE hs ht hmu hA hB hpA hpB hnull hg hl0
  obtain ⟨rfl, hdf⟩ := regKeep_spec (A := A) hs ht hmu hpB hR.asc h0 hz (fun p hp e => ⟨(hn p hp e).1, (hn p hp e).2.1⟩) hk
  have hm : 0 < mu + thr := by linarith
  have hmem : ∀ p ∈ l0.filter (fun p => decide (p.1 ≠ 0)), p ∈ l0 ∧ p.1 ≠ 0 := fun p hp => by
    rw [List.mem_filter, decide_eq_true_eq] at hp; exact hp
  have hsub := List.filter_sublist (l := l0) (p := fun p => decide (p.1 ≠ 0))
  refine ⟨fun p hp => ?_, ?_, fun p hp => ?_, ?_, fun w => ?_, ?_, fun k => ?_⟩
  · obtain ⟨a, b⟩ := hmem p hp
    exact ⟨(hn p a b).2.1, (hn p a b).1⟩
  · refine (hR.orth.sublist hsub).imp_of_mem fun {p q} hp hq e => ?_
    obtain ⟨hp1, hp2⟩ := hmem p hp
    obtain ⟨hq1, hq2⟩ := hmem q hq
    rw [form_regular] at e
    have e' : form B p.2 q.2 = -(thr * dot p.2 q.2) := by linarith
    rw [e', abs_neg, abs_mul, abs_of_pos ht]
    have ha : dot p.2 p.2 ≤ 1 / (mu + thr) := by rw [le_div_iff₀ hm]; linarith [(hn p hp1 hp2).2.2]
    have hb : dot q.2 q.2 ≤ 1 / (mu + thr) := by rw [le_div_iff₀ hm]; linarith [(hn q hq1 hq2).2.2]
    have hc : |dot p.2 q.2| ≤ 1 / (mu + thr) := by
      have s1 : 0 ≤ dot p.2 p.2 + dot q.2 q.2 - 2 * dot p.2 q.2 := by
        have : dot p.2 p.2 + dot q.2 q.2 - 2 * dot p.2 q.2 = ∑ k, (p.2 k - q.2 k) * (p.2 k - q.2 k) := by
          simp only [dot, Finset.mul_sum]
          rw [← Finset.sum_add_distrib, ← Finset.sum_sub_distrib]
          exact Finset.sum_congr rfl fun k _ => by ring
        rw [this]; exact Finset.sum_nonneg fun k _ => mul_self_nonneg _
      have s2 : 0 ≤ dot p.2 p.2 + dot q.2 q.2 + 2 * dot p.2 q.2 := by
        have : dot p.2 p.2 + dot q.2 q.2 + 2 * dot p.2 q.2 = ∑ k, (p.2 k + q.2 k) * (p.2 k + q.2 k) := by
          simp only [dot, Finset.mul_sum]
          rw [← Finset.sum_add_distrib, ← Finset.sum_add_distrib]
          exact Finset.sum_congr rfl fun k _ => by ring
        rw [this]; exact Finset.sum_nonneg fun k _ => mul_self_nonneg _
      rw [abs_le]
      constructor <;> linarith
    have := mul_le_mul_of_nonneg_left hc ht.le
    rwa [mul_one_div] at this
  · obtain ⟨a, b⟩ := hmem p hp
    exact ⟨hR.value p a, lt_of_le_of_ne (h0 p a) (Ne.symm b)⟩
  · exact (hR.diag.and hR.asc).sublist hsub
  · exact ⟨fun p => form (regular thr B) p.2 w, regular_span ht hB hpB hR hz w⟩
  · rw [hlen] at hdf
    exact hdf
  · simp only [hl0, hk, slice]
    simp

/-- **C283**: it succeeds if the solver does and some variance is not zero. -/
theorem reg_succeeds {E : Env F} (hE : Exact E) (hs : ExactSqrt E) {thr mu : F} (ht : 0 < thr) (hmu : thr < mu) {A B : Mat F d d} (hA : Sym A) (hB : Sym B)
    (hpA : Psd A) (hpB : Psd B) (hnull : ∀ u, form A u u = 0 ↔ form B u u = 0) (hg : Gap mu B) (old : Nat) {l : List (F × Row F d)}
    (h : E.fake A (regular thr B) none = .ok l) {w : Row F d} (hw : form B w w ≠ 0) (rng : Option (Nat × Nat)) : ∃ r, E.reg thr old A B rng = .ok r := by
  obtain ⟨hR, hlen, h0, hz, hn⟩ := fake_regular hE hs ht hmu hA hB hpA hpB hnull hg h
  have hk : ∃ r, E.regKeep old B l = .ok r := by
    simp only [Env.regKeep]
    split
    · rename_i hoff
      exfalso
      have hall : l.takeWhile (fun p => decide (1 / 2 < E.defect B p)) = l := (List.takeWhile_sublist _).eq_of_length hoff
      have hm : 0 < mu + thr := by linarith
      have ha : thr / (mu + thr) < 1 / 2 := by rw [div_lt_div_iff₀ hm (by norm_num)]; linarith
      have hzero : ∀ p ∈ l, p.1 = 0 := by
        intro p hp
        by_contra hc
        have h1 : decide (1 / 2 < E.defect B p) = true := mem_takeWhile (q := fun p => decide (1 / 2 < E.defect B p)) (l := l) (by rw [hall]; exact hp)
        rw [decide_eq_true_eq] at h1
        have := defect_small hs hpB (hn p hp hc).1 (hn p hp hc).2.1
        linarith
      have hf : (l.filter fun p => decide (p.1 ≠ 0)) = [] := List.filter_eq_nil_iff.2 fun p hp => by simp [hzero p hp]
      have := regular_span ht hB hpB hR hz w
      rw [hf] at this
      simp only [List.map_nil, List.sum_nil, sub_zero] at this
      exact hw this
    · split
      · exact ⟨_, rfl⟩
      · exact ⟨_, rfl⟩
  obtain ⟨⟨k, df⟩, hk⟩ := hk
  simp only [Env.reg, h, hk]
  exact ⟨_, rfl⟩

/-- **C284**, false: if the first vector has a variance of at least a quarter and another one has variance zero (it changes, so that it is not
among the first), the vector is left out, but `rank_deficit` keeps its old value. -/
theorem reg_deficit_violation {E : Env F} (hs : ExactSqrt E) {thr : F} {A B : Mat F d d} (hpB : Psd B) {p q : F × Row F d} {l : List (F × Row F d)}
    (h : E.fake A (regular thr B) none = .ok (p :: l)) (hp : 1 / 4 ≤ form B p.2 p.2) (hp1 : form B p.2 p.2 ≤ 1) (hq : q ∈ l) (hq0 : form B q.2 q.2 = 0) (old : Nat) :
    ∃ k, E.reg thr old A B none = .ok (k, old) ∧ q ∉ k ∧ k.length < (p :: l).length := by
  have hd : E.defect B p ≤ 1 / 2 := by
    obtain ⟨h2, h3⟩ := hs _ (hpB p.2)
    rw [defect_eq E hpB]
    have h4 : E.sqrt (form B p.2 p.2) ≤ 1 := by nlinarith
    rw [abs_of_nonpos (by linarith)]
    nlinarith
  have hdq : E.defect B q = 1 := defect_null hs hpB hq0
  have htw : ((p :: l).takeWhile fun p => decide (1 / 2 < E.defect B p)) = [] := by
    rw [List.takeWhile_cons, decide_eq_false (not_lt.2 hd)]; rfl
  have hsum : ¬((p :: l).map fun p => E.defect B p).sum < 1 / 2 := by
    rw [not_lt]
    have : E.defect B q ≤ ((p :: l).map fun p => E.defect B p).sum :=
      List.single_le_sum (fun x hx => by obtain ⟨a, _, rfl⟩ := List.mem_map.1 hx; exact abs_nonneg _) _ (List.mem_map.2 ⟨q, by simp [hq], rfl⟩)
    rw [hdq] at this
    linarith
  have hnot : ¬E.defect B q < 1 / 2 := by rw [hdq]; norm_num
  refine ⟨(p :: l).filter fun p => decide (E.defect B p < 1 / 2), ?_, ?_, ?_⟩
  · simp only [Env.reg, h, Env.regKeep, htw, List.length_nil, List.length_cons, List.drop_zero, if_neg hsum]
    rw [if_neg (Nat.succ_ne_zero _).symm]
  · rw [List.mem_filter, decide_eq_true_eq]
    exact fun hc => hnot hc.2
  · refine lt_of_le_of_ne (List.length_filter_le _ _) fun he => ?_
    have := List.filter_eq_self.1 ((List.filter_sublist).eq_of_length he) q (by simp [hq])
    rw [decide_eq_true_eq] at this
    exact hnot this

/-- **C284**, false: for constant data the search for the first vector runs over the end: IndexError. -/
theorem reg_constant_violation {E : Env F} (hs : ExactSqrt E) {thr : F} {A B : Mat F d d} (hB : ∀ i j, B i j = 0) {l : List (F × Row F d)}
    (h : E.fake A (regular thr B) none = .ok l) (old : Nat) (rng : Option (Nat × Nat)) : E.reg thr old A B rng = .error .index := by
  have h0 : ∀ x y : Row F d, form B x y = 0 := fun x y => by simp [form, hB]
  have hd : ∀ p, E.defect B p = 1 := fun p => defect_null hs (fun u => (h0 u u).ge) (h0 _ _)
  have hlt : (1 : F) / 2 < 1 := by norm_num
  have : l.takeWhile (fun p => decide (1 / 2 < E.defect B p)) = l := by
    simp only [hd, decide_eq_true hlt]
    clear h
    induction l with
    | nil => rfl
    | cons a l ih => rw [List.takeWhile_cons, if_pos rfl, ih]
  simp only [Env.reg, h, Env.regKeep, this, if_true]

end Mdp.Symeig
