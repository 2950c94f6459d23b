import Verif.Utils.SymeigProps

/-!
# `symeig_semidefinite_svd`, and slow feature analysis with the solvers (C122-C126)
-/

namespace Mdp.Symeig

open Mdp.Cov Mdp.Sfa Mdp.Pca Mdp.Join

variable {F : Type} [Field F] [LinearOrder F] {d n : Nat}

theorem dot_comm0 (x y : Row F d) : dot x y = dot y x := Finset.sum_congr rfl fun _ _ => mul_comm _ _

theorem EigList.reverse {M : Mat F d d} {l : List (F × Row F d)} (h : EigList M l) : EigList M l.reverse :=
  ⟨fun p hp => h.eigen p (List.mem_reverse.1 hp), fun p hp => h.unit p (List.mem_reverse.1 hp),
    List.pairwise_reverse.2 (h.orth.imp fun h => by rw [dot_comm0]; exact h), by rw [List.length_reverse]; exact h.full⟩

variable [IsStrictOrderedRing F]

theorem colsForm_form (A : Mat F d d) (S : List (Row F d)) (u u' : Row F S.length) :
    form (colsForm A S) u u' = form A (back S u) (back S u') := by
  rw [form_back]
  have h1 : ∀ j, form A (back S u) (S.get j) = ∑ i, u i * colsForm A S i j := by
    intro j
    have : back S u = fun k => ∑ i, u i * S.get i k := funext fun k => back_eq S u k
    rw [this]
    simp only [colsForm_eq, form, Finset.sum_mul, Finset.mul_sum]
    have h2 : ∀ k, ∑ l, ∑ i, u i * S.get i k * A k l * S.get j l = ∑ i, ∑ l, u i * (S.get i k * A k l * S.get j l) := by
      intro k
      rw [Finset.sum_comm]
      exact Finset.sum_congr rfl fun i _ => Finset.sum_congr rfl fun l _ => by ring
    simp only [h2]
    rw [Finset.sum_comm]
  simp only [h1]
  simp only [Finset.mul_sum, form]
  rw [Finset.sum_comm]
  exact Finset.sum_congr rfl fun i _ => Finset.sum_congr rfl fun j _ => by ring

theorem colsForm_psd {A : Mat F d d} (hA : Psd A) (S : List (Row F d)) : Psd (colsForm A S) := fun u => by
  rw [colsForm_form]; exact hA _

theorem sub_psd {B : Mat F n n} (hB : Psd B) {nz : List (Fin n)} (hn : nz.Nodup) : Psd (sub nz B) := fun u => by
  rw [← form_embed hn]; exact hB _

theorem svdCore_correct (E : Env F) (hE : Exact E) {thr : F} (ht : 0 < thr) {A B : Mat F d d} (hA : Sym A) (hB : Sym B)
    (hpA : Psd A) (hpB : Psd B) (hs : Separated E thr B) {old : Nat} {l : List (F × Row F d)} {df : Nat}
    (h : E.svdCore thr old none d A B = .ok (l, df)) :
    RankList A B l ∧ ((0 < df ∧ l.length + df = d) ∨ (l.length = d ∧ df = old)) ∧
      ∀ k, 1 ≤ k → E.svdCore thr old (some (1, k)) d A B = .ok (l.take k, df) := by
  simp only [Env.svdCore] at h ⊢
  rcases hP : E.svd d B with _ | P
  · rw [hP] at h; cases h
  · obtain ⟨hP1, hP2⟩ := hE.svd d B P hB hpB hP
    rw [hP] at h
    simp only at h ⊢
    have happ : P.reverse.takeWhile (fun p => decide (p.1 < thr)) ++ P.reverse.dropWhile (fun p => decide (p.1 < thr)) = P.reverse :=
      List.takeWhile_append_dropWhile
    have hL : P.take (P.length - (P.reverse.takeWhile fun p => decide (p.1 < thr)).length) =
        (P.reverse.dropWhile fun p => decide (p.1 < thr)).reverse := by
      have h1 := congrArg List.reverse happ
      rw [List.reverse_append, List.reverse_reverse] at h1
      have gen : ∀ X Y P : List (F × Row F d), Y.reverse ++ X.reverse = P → P.take (P.length - X.length) = Y.reverse := by
        rintro X Y _ rfl
        rw [List.take_left']
        simp only [List.length_append, List.length_reverse]
        omega
      exact gen _ _ _ h1
    have hsub : (P.take (P.length - (P.reverse.takeWhile fun p => decide (p.1 < thr)).length)).Sublist P := List.take_sublist _ _
    have hkept : ∀ p ∈ P.take (P.length - (P.reverse.takeWhile fun p => decide (p.1 < thr)).length), thr ≤ p.1 := by
      rw [hL]
      intro p hp
      rw [List.mem_reverse] at hp
      have hne : P.reverse.dropWhile (fun p => decide (p.1 < thr)) ≠ [] := List.ne_nil_of_mem hp
      have h1 := List.head_dropWhile_not (fun p : F × Row F d => decide (p.1 < thr)) hne
      have hp2 := (List.pairwise_reverse.2 hP2).sublist (List.dropWhile_sublist fun p : F × Row F d => decide (p.1 < thr))
      clear happ hL hsub h
      generalize P.reverse.dropWhile (fun p => decide (p.1 < thr)) = L at *
      cases L with
      | nil => cases hp
      | cons a L =>
        replace h1 : thr ≤ a.1 := not_lt.1 (of_decide_eq_false h1)
        rcases List.mem_cons.1 hp with rfl | hp
        · exact h1
        · exact le_trans h1 ((List.pairwise_cons.1 hp2).1 p hp)
    have hdrop : ∀ p ∈ P.reverse.takeWhile (fun p => decide (p.1 < thr)), p.1 = 0 := by
      intro p hp
      have h1 := mem_takeWhile hp
      simp only [decide_eq_true_eq] at h1
      rcases hP1.sep hs p (List.mem_reverse.1 ((List.takeWhile_sublist _).subset hp)) with h2 | h2
      · exact h2
      · exact absurd h2.1 (not_le.2 h1)
    have hcount : (P.reverse.takeWhile (fun p => decide (p.1 < thr))).length +
        (P.take (P.length - (P.reverse.takeWhile fun p => decide (p.1 < thr)).length)).length = d := by
      rw [hL, List.length_reverse, ← List.length_append, happ, List.length_reverse, hP1.full]
    have hperm : P.Perm (P.reverse.takeWhile (fun p => decide (p.1 < thr)) ++
        P.take (P.length - (P.reverse.takeWhile fun p => decide (p.1 < thr)).length)) := by
      rw [hL]
      refine (List.reverse_perm P).symm.trans ?_
      conv_lhs => rw [← happ]
      exact List.Perm.append_left _ (List.reverse_perm _).symm
    have hsq : ∀ p ∈ P.take (P.length - (P.reverse.takeWhile fun p => decide (p.1 < thr)).length),
        E.sqrt p.1 * E.sqrt p.1 = p.1 ∧ p.1 ≠ 0 := by
      intro p hp
      have h1 := hkept p hp
      have h2 : p.1 ≠ 0 := by intro h0; rw [h0] at h1; exact absurd ht (not_lt.2 h1)
      exact ⟨((hP1.sep hs p (hsub.subset hp)).resolve_left h2).2, h2⟩
    clear hL happ
    generalize P.take (P.length - (P.reverse.takeWhile fun p => decide (p.1 < thr)).length) = L at *
    generalize P.reverse.takeWhile (fun p => decide (p.1 < thr)) = D at *
    simp only [Env.svdTail] at h ⊢
    by_cases hk : L.length = 0
    · rw [if_pos hk] at h; cases h
    · rw [if_neg hk] at h
      rcases hm : E.svd (E.scale L).length (colsForm A (E.scale L)) with _ | m
      · rw [hm] at h; cases h
      · obtain ⟨hm1, hm2⟩ := hE.svd _ _ m (colsForm_sym hA _) (colsForm_psd hpA _) hm
        have hR := whiten hA hB E hP1 hperm hsub hdrop hsq hm1.reverse (List.pairwise_reverse.2 hm2)
        have hes : (m.map fun p => (dotL (back (E.scale L) p.2) fun k => dotL (A k) (back (E.scale L) p.2),
            back (E.scale L) p.2)).reverse = m.reverse.map fun p => (p.1, back (E.scale L) p.2) := by
          rw [← List.map_reverse]
          refine List.map_congr_left fun p hp => ?_
          have := hR.value _ (List.mem_map.2 ⟨p, hp, rfl⟩)
          simp only at this
          rw [Prod.mk.injEq]
          refine ⟨?_, rfl⟩
          rw [← this]
          simp only [dotL_eq, dot, form, Finset.mul_sum, mul_assoc]
        rw [hm] at h
        simp only [hes] at h ⊢
        cases h
        have hlen : (m.reverse.map fun p => (p.1, back (E.scale L) p.2)).length + D.length = d := by
          rw [List.length_map, List.length_reverse, hm1.full]
          simp only [Env.scale, List.length_map]
          omega
        refine ⟨hR, ?_, fun k hk' => ?_⟩
        · by_cases hD : D.length > 0
          · rw [if_pos hD]; exact Or.inl ⟨hD, hlen⟩
          · rw [if_neg hD]; exact Or.inr ⟨by omega, rfl⟩
        · rw [if_neg hk]
          simp [slice]

/-- **C122**: the same for the solver by singular values. -/
theorem svd_correct (E : Env F) (hE : Exact E) {thr : F} (ht : 0 < thr) {A B : Mat F (n + 1) (n + 1)} (hA : Sym A) (hB : Sym B)
    (hpA : Psd A) (hpB : Psd B) (hs : Separated E thr B) (hb : OnlyBlank thr B) {l : List (F × Row F (n + 1))} {df : Nat}
    (h : E.svdSolve thr 0 A B none = .ok (l, df)) :
    RankList A B l ∧ l.length + df = n + 1 ∧ ∀ k, 1 ≤ k → E.svdSolve thr 0 A B (some (1, k)) = .ok (l.take k, df) := by
  simp only [Env.svdSolve, withBlank] at h ⊢
  rcases hz : blank thr B with _ | nz
  · rw [hz] at h
    obtain ⟨h1, h2, h3⟩ := svdCore_correct E hE ht hA hB hpA hpB hs h
    exact ⟨h1, by omega, h3⟩
  · rw [hz] at h
    simp only at h ⊢
    have hn := blank_nodup hz
    rcases hc : E.svdCore thr 0 none nz.length (sub nz A) (sub nz B) with e | ⟨l', df'⟩
    · rw [hc] at h; cases h
    · rw [hc] at h
      cases h
      obtain ⟨h1, h2, h3⟩ := svdCore_correct E hE ht (sub_sym hA nz) (sub_sym hB nz) (sub_psd hpA hn) (sub_psd hpB hn)
        (hs.sub hB hn (hb nz hz)) hc
      have hle : nz.length ≤ n + 1 := by
        have := hn.length_le_card
        simpa using this
      refine ⟨h1.embed hn hB (hb nz hz), by rw [List.length_map]; omega, fun k hk => ?_⟩
      rw [h3 k hk]
      simp only [List.map_take]

/-- **C126**: the solver by singular values does not reset `rank_deficit`: if there is no deficit the old value remains. -/
theorem svd_deficit_stale (E : Env F) (hE : Exact E) {thr : F} (ht : 0 < thr) {A B : Mat F (n + 1) (n + 1)} (hA : Sym A)
    (hB : Sym B) (hpA : Psd A) (hpB : Psd B) (hs : Separated E thr B) (hb : blank thr B = none) {old : Nat}
    {l : List (F × Row F (n + 1))} {df : Nat} (h : E.svdSolve thr old A B none = .ok (l, df)) (hfull : l.length = n + 1) :
    df = old := by
  simp only [Env.svdSolve, withBlank, hb] at h
  obtain ⟨_, h2, _⟩ := svdCore_correct E hE ht hA hB hpA hpB hs h
  rcases h2 with h2 | h2
  · omega
  · exact h2.2

/-! ## Slow feature analysis -/

variable {incl : Bool} {out : Option Nat} {cs : List (Call F (n + 1))}

theorem pca_solves (E : Env F) (hE : Exact E) {thr : F} (ht : 0 < thr) {A B : Mat F (n + 1) (n + 1)} (hA : Sym A) (hB : Sym B)
    (hs : Separated E thr B) (hb : OnlyBlank thr B) {l : List (F × Row F (n + 1))} {df : Nat}
    (h : E.pca thr A B none = .ok (l, df)) :
    RankSolves (asSolver (E.pca thr)) A B (fun i => (l.get i).1) (fun i => (l.get i).2) ∧ l.length ≤ n + 1 := by
  obtain ⟨h1, h2, h3⟩ := pca_correct E hE ht hA hB hs hb h
  refine ⟨⟨h1.spectrum hA hB, ?_, fun k hk _ => ?_⟩, by omega⟩
  · simp only [asSolver, h, Prod.mk.eta, List.ofFn_get]
  · simp only [asSolver, h3 k hk, Prod.mk.eta, List.ofFn_get]

theorem svd_solves (E : Env F) (hE : Exact E) {thr : F} (ht : 0 < thr) {A B : Mat F (n + 1) (n + 1)} (hA : Sym A) (hB : Sym B)
    (hpA : Psd A) (hpB : Psd B) (hs : Separated E thr B) (hb : OnlyBlank thr B) {l : List (F × Row F (n + 1))} {df : Nat}
    (h : E.svdSolve thr 0 A B none = .ok (l, df)) :
    RankSolves (asSolver (E.svdSolve thr 0)) A B (fun i => (l.get i).1) (fun i => (l.get i).2) ∧ l.length ≤ n + 1 := by
  obtain ⟨h1, h2, h3⟩ := svd_correct E hE ht hA hB hpA hpB hs hb h
  refine ⟨⟨h1.spectrum hA hB, ?_, fun k hk _ => ?_⟩, by omega⟩
  · simp only [asSolver, h, Prod.mk.eta, List.ofFn_get]
  · simp only [asSolver, h3 k hk, Prod.mk.eta, List.ofFn_get]

/-- **C122**: slow feature analysis with `rank_deficit_method='pca'` on data of any rank: the outputs have mean zero and
variance one and are uncorrelated, their delta values are the attribute `d`, and they are the slowest ones. -/
theorem sfa_pca (E : Env F) (hE : Exact E) {thr : F} (ht : 0 < thr) (h2 : ∀ c ∈ cs, 2 ≤ c.1.length)
    (hi : ∀ c ∈ cs, c.2.getD incl = true) (hn : 2 ≤ (samples incl cs).length) (hm : 2 ≤ (changes id cs).length)
    (ho : Valid out (n + 1)) (hs : Separated E thr (covOf (samples incl cs))) (hb : OnlyBlank thr (covOf (samples incl cs)))
    {l : List (F × Row F (n + 1))} {df : Nat} (h : E.pca thr (moment cs) (covOf (samples incl cs)) none = .ok (l, df)) :
    ∃ s res, (trained incl out cs).stop (asSolver (E.pca thr)) = (.ok (), s) ∧ s.res = some res ∧ res.ds.Pairwise (· ≤ ·) ∧
      res.ds.length = min (out.getD (n + 1)) (n + 1 - df) ∧
      (∀ x, ∃ y, s.execute none x = .ok y ∧ y.length = res.ds.length) ∧
      (∀ (i j : Nat) (hi : i < res.ds.length) (_ : j < res.ds.length),
        mean ((samples incl cs).map (s.out i)) = 0 ∧
        cov false ((samples incl cs).map fun x => (s.out i x, s.out j x)) = (if i = j then 1 else 0) ∧
        delta (s.out i) cs = res.ds[i]) ∧
      ∀ (m : Nat), m ≤ res.ds.length → ∀ (w : Fin m → Row F (n + 1)),
        (∀ a b, cov false ((samples incl cs).map fun x => (dot x (w a), dot x (w b))) = if a = b then 1 else 0) →
        (res.ds.take m).sum ≤ ∑ a, delta (fun x => dot x (w a)) cs := by
  obtain ⟨hsol, hle⟩ := pca_solves E hE ht (moment_comm cs) (covOf_comm _) hs hb h
  obtain ⟨_, hdf, _⟩ := pca_correct E hE ht (moment_comm cs) (covOf_comm _) hs hb h
  obtain ⟨s, res, e1, e2, e3, e4, e5, e6⟩ := sfa_rank_outputs incl out cs h2 hn hm _ hsol ho hle
  refine ⟨s, res, e1, e2, e3, ?_, e5, e6, fun m hm' w hw => ?_⟩
  · rw [e4]; congr 1; omega
  · exact sfa_rank_slowest incl out cs h2 hi hn hm _ hsol ho hle s res e1 e2 m hm' w hw

/-- **C122**: the same with `rank_deficit_method='svd'`. -/
theorem sfa_svd (E : Env F) (hE : Exact E) {thr : F} (ht : 0 < thr) (h2 : ∀ c ∈ cs, 2 ≤ c.1.length)
    (hi : ∀ c ∈ cs, c.2.getD incl = true) (hn : 2 ≤ (samples incl cs).length) (hm : 2 ≤ (changes id cs).length)
    (ho : Valid out (n + 1)) (hs : Separated E thr (covOf (samples incl cs))) (hb : OnlyBlank thr (covOf (samples incl cs)))
    {l : List (F × Row F (n + 1))} {df : Nat} (h : E.svdSolve thr 0 (moment cs) (covOf (samples incl cs)) none = .ok (l, df)) :
    ∃ s res, (trained incl out cs).stop (asSolver (E.svdSolve thr 0)) = (.ok (), s) ∧ s.res = some res ∧
      res.ds.Pairwise (· ≤ ·) ∧ res.ds.length = min (out.getD (n + 1)) (n + 1 - df) ∧
      (∀ x, ∃ y, s.execute none x = .ok y ∧ y.length = res.ds.length) ∧
      (∀ (i j : Nat) (hi : i < res.ds.length) (_ : j < res.ds.length),
        mean ((samples incl cs).map (s.out i)) = 0 ∧
        cov false ((samples incl cs).map fun x => (s.out i x, s.out j x)) = (if i = j then 1 else 0) ∧
        delta (s.out i) cs = res.ds[i]) ∧
      ∀ (m : Nat), m ≤ res.ds.length → ∀ (w : Fin m → Row F (n + 1)),
        (∀ a b, cov false ((samples incl cs).map fun x => (dot x (w a), dot x (w b))) = if a = b then 1 else 0) →
        (res.ds.take m).sum ≤ ∑ a, delta (fun x => dot x (w a)) cs := by
  obtain ⟨hsol, hle⟩ := svd_solves E hE ht (moment_comm cs) (covOf_comm _) (moment_nonneg cs hm) (covOf_nonneg _ hn) hs hb h
  obtain ⟨_, hdf, _⟩ := svd_correct E hE ht (moment_comm cs) (covOf_comm _) (moment_nonneg cs hm) (covOf_nonneg _ hn) hs hb h
  obtain ⟨s, res, e1, e2, e3, e4, e5, e6⟩ := sfa_rank_outputs incl out cs h2 hn hm _ hsol ho hle
  refine ⟨s, res, e1, e2, e3, ?_, e5, e6, fun m hm' w hw => ?_⟩
  · rw [e4]; congr 1; omega
  · exact sfa_rank_slowest incl out cs h2 hi hn hm _ hsol ho hle s res e1 e2 m hm' w hw

theorem withBlank_zero {thr : F} {A B : Mat F (n + 1) (n + 1)} {nz : List (Fin (n + 1))} (hb : blank thr B = some nz)
    {j : Fin (n + 1)} (hj : j ∉ nz) {core} {l : List (F × Row F (n + 1))} {df : Nat}
    (h : withBlank thr A B core = .ok (l, df)) : ∀ p ∈ l, p.2 j = 0 := by
  simp only [withBlank, hb] at h
  split at h
  · cases h
  · cases h
    intro p hp
    obtain ⟨q, _, rfl⟩ := List.mem_map.1 hp
    exact embed_out _ j hj

/-- **C124**: slow feature analysis with `rank_deficit_method` `'pca'`, `'svd'` or `'auto'`: if the variance of the first
variable is not below the threshold and its covariance with some other variable is - with a constant one for example - the
outputs do not depend on the first variable at all. -/
theorem sfa_ignores_first (E : Env F) {thr : F} (h2 : ∀ c ∈ cs, 2 ≤ c.1.length)
    (hn : 2 ≤ (samples incl cs).length) (hm : 2 ≤ (changes id cs).length) (h0 : thr ≤ |covOf (samples incl cs) 0 0|)
    (j : Fin (n + 1)) (hj : |covOf (samples incl cs) 0 j| < thr) (solver : Sfa.Solver F (n + 1))
    (hsol : solver = asSolver (E.pca thr) ∨ solver = asSolver (E.svdSolve thr 0)) (s : St F (n + 1))
    (h : (trained incl out cs).stop solver = (.ok (), s)) (x : Row F (n + 1)) (a : F) :
    s.execute none (Function.update x 0 a) = s.execute none x := by
  obtain ⟨avg, hav, he⟩ := stop_trained incl out cs h2 hn hm solver
  rw [he] at h
  obtain ⟨nz, hnz, h0nz⟩ := blank_drops_first (covOf_comm _) h0 j hj
  have hz : ∀ rng l, solver (moment cs) (covOf (samples incl cs)) rng = some l → ∀ p ∈ l, p.2 0 = 0 := by
    intro rng l hl
    rcases hsol with rfl | rfl <;> simp only [asSolver] at hl <;> split at hl <;> cases hl
    · next h1 => exact withBlank_zero hnz h0nz h1
    · next h1 => exact withBlank_zero hnz h0nz h1
  simp only [St.solve] at h
  split at h
  · cases h
  next rng k hr =>
  split at h
  · cases h
  next l hl =>
  split at h
  · cases h
  next hneg =>
  clear hneg
  cases h
  simp only [St.execute]
  congr 1
  have hzl := hz _ _ hl
  clear hl
  induction l with
  | nil => rfl
  | cons p l ih =>
    simp only [List.map_cons, List.zipWith_cons_cons]
    rw [ih (fun q hq => hzl q (List.mem_cons_of_mem _ hq))]
    congr 2
    simp only [dotL_eq, dot]
    refine Finset.sum_congr rfl fun k _ => ?_
    by_cases hk : k = 0
    · subst hk; rw [hzl p (by simp)]; simp
    · rw [Function.update_of_ne hk]

/-- **C125**: so that the solver is one for which the theorems about slow feature analysis with a regular covariance matrix
hold. -/
theorem plain_solves (E : Env F) (hE : Exact E) {A B : Mat F d d} (hA : Sym A) (hB : Sym B)
    (hpos : ∀ (mu : F) (w : Row F d), w ≠ 0 → (∀ k, ∑ j, B k j * w j = mu * w k) → 0 < mu ∧ E.sqrt mu * E.sqrt mu = mu)
    {l : List (F × Row F d)} (h : E.fake A B none = .ok l) : ∃ lam v, Sfa.Solves E.plain A B lam v := by
  obtain ⟨h1, h2, h3, h4⟩ := fake_correct E hE hA hB hpos h
  have hsp := h1.spectrum hA hB
  have hl : l = List.ofFn fun i : Fin d => ((l.get (i.cast h2.symm)).1, (l.get (i.cast h2.symm)).2) := by
    refine List.ext_getElem (by simp [h2]) fun i hi hi' => ?_
    simp
  refine ⟨fun i => (l.get (i.cast h2.symm)).1, fun i => (l.get (i.cast h2.symm)).2, ⟨fun i k => ?_, fun i j => ?_, fun i j hij => ?_⟩, ?_, fun k hk _ => ?_⟩
  · exact h3 _ (List.get_mem _ _) k
  · rw [hsp.ortho]
    simp [Fin.ext_iff]
  · exact hsp.asc _ _ hij
  · rw [← hl]; simp only [Env.plain, h]
  · rw [← hl]; simp only [Env.plain, h4 k hk]

/-! ## Examples -/

/-- Rank one: the samples are multiples of (3, 4). -/
def exRank : List (Call ℚ 2) := [([![3, 4], ![0, 0], ![-3, -4]], none)]

/-- A library that knows some answers. -/
def exEnv : Env ℚ where
  eigh
    | 0, _ => some []
    | 1, M => some [(M 0 0, ![1])]
    | 2, M => if M = fun i j => (![![9, 12], ![12, 16]] : Fin 2 → Fin 2 → ℚ) i j then
        some [(0, ![4 / 5, -3 / 5]), (25, ![3 / 5, 4 / 5])] else none
    | _, _ => none
  svd
    | 0, _ => some []
    | 1, M => some [(M 0 0, ![1])]
    | 2, M => if M = fun i j => (![![9, 12], ![12, 16]] : Fin 2 → Fin 2 → ℚ) i j then
        some [(25, ![3 / 5, 4 / 5]), (0, ![4 / 5, -3 / 5])] else none
    | _, _ => none
  sqrt x := if x = 25 then 5 else 1

theorem exExact : Exact exEnv := by
  constructor
  · intro d M l hM h
    match d, M, l, h with
    | 0, M, l, h => cases h; exact ⟨⟨by simp, by simp, by simp, rfl⟩, by simp⟩
    | 1, M, l, h =>
      cases h
      refine ⟨⟨?_, ?_, by simp, rfl⟩, by simp⟩
      · intro p hp k
        rw [List.mem_singleton] at hp
        subst hp
        have : k = 0 := Subsingleton.elim _ _
        subst this
        simp
      · intro p hp
        rw [List.mem_singleton] at hp
        subst hp
        simp [dot]
    | 2, M, l, h =>
      simp only [exEnv] at h
      split at h
      · next hM => subst hM; cases h; exact ⟨⟨by decide +kernel, by decide +kernel, by decide +kernel, rfl⟩, by decide +kernel⟩
      · cases h
    | _ + 3, M, l, h => cases h
  · intro d M l hM hp h
    match d, M, l, h with
    | 0, M, l, h => cases h; exact ⟨⟨by simp, by simp, by simp, rfl⟩, by simp⟩
    | 1, M, l, h =>
      cases h
      refine ⟨⟨?_, ?_, by simp, rfl⟩, by simp⟩
      · intro p hp k
        rw [List.mem_singleton] at hp
        subst hp
        have : k = 0 := Subsingleton.elim _ _
        subst this
        simp
      · intro p hp
        rw [List.mem_singleton] at hp
        subst hp
        simp [dot]
    | 2, M, l, h =>
      simp only [exEnv] at h
      split at h
      · next hM => subst hM; cases h; exact ⟨⟨by decide +kernel, by decide +kernel, by decide +kernel, rfl⟩, by decide +kernel⟩
      · cases h
    | _ + 3, M, l, h => cases h

theorem exCov : covOf (samples true exRank) = fun i j => (![![9, 12], ![12, 16]] : Fin 2 → Fin 2 → ℚ) i j := by decide +kernel

theorem exSep : Separated exEnv 1 (covOf (samples true exRank)) := by
  intro mu w hw h
  rw [exCov] at h
  have h0 := h 0
  have h1 := h 1
  simp [Fin.sum_univ_two] at h0 h1
  have e : mu * (25 - mu) * w 0 = 0 := by linear_combination (-25 + mu + 9) * h0 + 12 * h1 + (16 * 0) * h0
  have e' : mu * (25 - mu) * w 1 = 0 := by linear_combination 12 * h0 + (mu - 9) * h1
  have hne : w 0 ≠ 0 ∨ w 1 ≠ 0 := by
    by_contra hc
    push Not at hc
    exact hw (funext fun k => by fin_cases k; exacts [hc.1, hc.2])
  have : mu * (25 - mu) = 0 := by
    rcases hne with h | h
    · exact (mul_eq_zero.1 e).resolve_right h
    · exact (mul_eq_zero.1 e').resolve_right h
  rcases mul_eq_zero.1 this with h | h
  · exact Or.inl h
  · have : mu = 25 := by linarith
    subst this
    exact Or.inr ⟨by norm_num, by decide +kernel⟩

theorem exBlank : blank 1 (covOf (samples true exRank)) = none := blank_correlated (by decide +kernel)

theorem exOnly : OnlyBlank 1 (covOf (samples true exRank)) := fun nz h => by rw [exBlank] at h; cases h

theorem exPca : ∃ l df, exEnv.pca 1 (moment exRank) (covOf (samples true exRank)) none = .ok (l, df) := by
  have : (match exEnv.pca 1 (moment exRank) (covOf (samples true exRank)) none with | .ok _ => true | .error _ => false) = true := by
    decide +kernel
  revert this
  rcases exEnv.pca 1 (moment exRank) (covOf (samples true exRank)) none with e | ⟨l, df⟩
  · intro h; cases h
  · intro _; exact ⟨l, df, rfl⟩

theorem exSvd : ∃ l df, exEnv.svdSolve 1 0 (moment exRank) (covOf (samples true exRank)) none = .ok (l, df) := by
  have : (match exEnv.svdSolve 1 0 (moment exRank) (covOf (samples true exRank)) none with
    | .ok _ => true | .error _ => false) = true := by
    decide +kernel
  revert this
  rcases exEnv.svdSolve 1 0 (moment exRank) (covOf (samples true exRank)) none with e | ⟨l, df⟩
  · intro h; cases h
  · intro _; exact ⟨l, df, rfl⟩

/-- The hypotheses of `sfa_pca` hold for data of rank one. -/
example : True := by
  obtain ⟨l, df, h⟩ := exPca
  have := sfa_pca (incl := true) (out := none) (cs := exRank) exEnv exExact (by norm_num : (0 : ℚ) < 1) (by decide) (by decide)
    (by decide) (by decide) (fun _ h => by cases h) exSep exOnly h
  trivial

example : True := by
  obtain ⟨l, df, h⟩ := exSvd
  have := sfa_svd (incl := true) (out := none) (cs := exRank) exEnv exExact (by norm_num : (0 : ℚ) < 1) (by decide) (by decide)
    (by decide) (by decide) (fun _ h => by cases h) exSep exOnly h
  trivial

/-- A library for diagonal matrices. -/
def exDiag : Env ℚ where
  eigh
    | 2, M => if M 0 1 = 0 ∧ M 1 0 = 0 ∧ M 0 0 ≤ M 1 1 then some [(M 0 0, ![1, 0]), (M 1 1, ![0, 1])] else none
    | _, _ => none
  svd _ _ := none
  sqrt x := if x = 25 then 5 else 1

theorem exDiagExact : Exact exDiag := by
  constructor
  · intro d M l hM h
    match d, M, l, h with
    | 0, M, l, h => cases h
    | 1, M, l, h => cases h
    | 2, M, l, h =>
      simp only [exDiag] at h
      split at h
      · next h1 =>
        cases h
        refine ⟨⟨?_, ?_, ?_, rfl⟩, ?_⟩
        · intro p hp k
          simp only [List.mem_cons, List.not_mem_nil, or_false] at hp
          rcases hp with rfl | rfl <;> fin_cases k <;> simp [Fin.sum_univ_two, h1]
        · intro p hp
          simp only [List.mem_cons, List.not_mem_nil, or_false] at hp
          rcases hp with rfl | rfl <;> simp [dot]
        · simp [dot]
        · simp [h1]
      · cases h
    | _ + 3, M, l, h => cases h
  · intro d M l hM hp h
    cases h

/-- The hypotheses of `fake_correct` hold for two matrices. -/
example : ∃ lam v, Sfa.Solves exDiag.plain (fun i j : Fin 2 => if i = j then 3 * (i.1 : ℚ) else 0) (fun i j => if i = j then 25 else 0) lam v := by
  have h : (match exDiag.fake (fun i j : Fin 2 => if i = j then 3 * (i.1 : ℚ) else 0) (fun i j => if i = j then 25 else 0) none with
      | .ok _ => true | .error _ => false) = true := by decide +kernel
  rcases hl : exDiag.fake (fun i j : Fin 2 => if i = j then 3 * (i.1 : ℚ) else 0) (fun i j => if i = j then 25 else 0) none with e | l
  · rw [hl] at h; cases h
  · refine plain_solves exDiag exDiagExact (fun k l => ?_) (fun k l => ?_) (fun mu w hw he => ?_) hl
    · by_cases hkl : k = l
      · subst hkl; rfl
      · rw [if_neg hkl, if_neg (Ne.symm hkl)]
    · simp only [eq_comm]
    · have : mu = 25 := by
        have hne : w 0 ≠ 0 ∨ w 1 ≠ 0 := by
          by_contra hc
          push Not at hc
          exact hw (funext fun k => by fin_cases k; exacts [hc.1, hc.2])
        have h0 := he 0
        have h1 := he 1
        simp [Fin.sum_univ_two] at h0 h1
        rcases hne with hne | hne
        · exact (h0.resolve_right hne).symm
        · exact (h1.resolve_right hne).symm
      subst this
      exact ⟨by norm_num, by decide +kernel⟩

/-- **C124**: the first of two uncorrelated variables changes more slowly, and yet the node gives only the second one. -/
theorem sfa_pca_not_slowest_false :
    covOf (samples true exCalls) = (fun i j => if i = j then 1 else 0) ∧
    delta (fun x => x 0) exCalls = 2 / 3 ∧ delta (fun x => x 1) exCalls = 10 / 3 ∧
    ((trained true none exCalls).stop (asSolver (exEnv.pca (1 / 1000)))).2.res.map (·.ds) = some [10 / 3] := by
  refine ⟨by decide +kernel, by decide +kernel, by decide +kernel, by decide +kernel⟩

/-- **C122**: one variable that varies and a constant one: the solver by principal components finds nothing to solve. -/
theorem pca_constant_variable_false :
    (match exEnv.pca (1 / 1000) (fun i j => if i = 0 ∧ j = 0 then (2 : ℚ) else 0) (fun (i j : Fin 2) => if i = 0 ∧ j = 0 then 1 else 0)
      none with | .ok _ => none | .error e => some e) = some .index := by decide +kernel

/-- Data of rank one: the output dimension is 2, but there is one output. -/
example : ∃ s, (trained true none exRank).stop (asSolver (exEnv.pca 1)) = (.ok (), s) ∧ s.outDim = some 2 ∧
    ∀ x, ∃ y, s.execute none x = .ok y ∧ y.length = 1 := by
  obtain ⟨l, df, h⟩ := exPca
  have hl : (match exEnv.pca 1 (moment exRank) (covOf (samples true exRank)) none with
    | .ok (l, _) => l.length | .error _ => 0) = 1 := by decide +kernel
  rw [h] at hl
  obtain ⟨hsol, hle⟩ := pca_solves exEnv exExact (by norm_num : (0 : ℚ) < 1) (moment_comm _) (covOf_comm _) exSep exOnly h
  obtain ⟨s, h1, h2, h3⟩ := sfa_rank_output_dim_false true none exRank (by decide) (by decide) (by decide) _ hsol
    (fun _ h => by cases h) hle (by simp only at hl; rw [hl]; decide)
  exact ⟨s, h1, h2, fun x => by obtain ⟨y, hy, hy'⟩ := h3 x; exact ⟨y, hy, hy'.trans hl⟩⟩

/-- `pca_correct` for these data: one component, one missing. -/
example : ∃ l df, exEnv.pca 1 (moment exRank) (covOf (samples true exRank)) none = .ok (l, df) ∧
    RankList (moment exRank) (covOf (samples true exRank)) l ∧ l.length + df = 2 ∧
    exEnv.pca 1 (moment exRank) (covOf (samples true exRank)) (some (1, 1)) = .ok (l.take 1, df) := by
  obtain ⟨l, df, h⟩ := exPca
  obtain ⟨h1, h2, h3⟩ := pca_correct exEnv exExact (by norm_num : (0 : ℚ) < 1) (moment_comm _) (covOf_comm _) exSep exOnly h
  exact ⟨l, df, h, h1, h2, h3 1 le_rfl⟩

/-- `sfa_rank_outputs` for these data: one output. -/
example : ∃ s res, (trained true none exRank).stop (asSolver (exEnv.pca 1)) = (.ok (), s) ∧ s.res = some res ∧
    ∀ h : 0 < res.ds.length, mean ((samples true exRank).map (s.out 0)) = 0 ∧ delta (s.out 0) exRank = res.ds[0] := by
  obtain ⟨l, df, h⟩ := exPca
  obtain ⟨hsol, hle⟩ := pca_solves exEnv exExact (by norm_num : (0 : ℚ) < 1) (moment_comm _) (covOf_comm _) exSep exOnly h
  obtain ⟨s, res, h1, h2, _, _, _, h6⟩ := sfa_rank_outputs true none exRank (by decide) (by decide) (by decide) _ hsol
    (fun _ h => by cases h) hle
  exact ⟨s, res, h1, h2, fun h => ⟨(h6 0 0 h h).1, (h6 0 0 h h).2.2⟩⟩

/-- Uncorrelated variables: the first is dropped. A constant last variable is found. Correlated variables: none is dropped. -/
example : (∃ nz, blank 1 (fun i j : Fin 2 => if i = j then (4 : ℚ) else 0) = some nz ∧ 0 ∉ nz) ∧
    (∃ nz, blank 1 (fun i j : Fin 3 => if i = 2 ∨ j = 2 then (0 : ℚ) else 5) = some nz ∧ 2 ∉ nz) ∧
    blank 1 (fun _ _ : Fin 3 => (5 : ℚ)) = none ∧
    OnlyBlank 1 (fun i j : Fin 3 => if i = 0 ∨ j = 0 then (0 : ℚ) else 5) := by
  refine ⟨blank_drops_first (fun i j => by simp [eq_comm]) (by norm_num) 1 (by norm_num), blank_finds_constant one_pos 2 (by simp),
    blank_correlated (fun _ => by norm_num), blank_constant_first one_pos (by simp) (fun j => ?_) (fun i j => by simp [or_comm])⟩
  by_cases h : j = 0
  · exact .inl fun i => by simp [h]
  · exact .inr ⟨1, by simp [h]; norm_num⟩

/-- An old value of `rank_deficit` remains. -/
example : (match exEnv.svdSolve 1 3 (fun _ _ : Fin 1 => (2 : ℚ)) (fun _ _ => 25) none with
    | .ok (l, df) => some (l.length, df) | .error _ => none) = some (1, 3) := by decide +kernel

end Mdp.Symeig
