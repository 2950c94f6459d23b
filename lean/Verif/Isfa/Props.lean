import Verif.Isfa.Loop

/-!
# Training of ISFA (C271-C274)
-/

namespace Mdp.Isfa

open Mdp.Ica Matrix

variable {n T : Nat}

theorem doSweep_ok {p : Par T} {ax : List (Fin n × Fin n)} {o o' : Opt T n} {mi : WithTop ℝ} (h : doSweep p ax o = .ok (mi, o')) :
    ∃ v, (pairLoop p ⟨((-1 : ℝ) : WithTop ℝ), o.covs, o.q, o.contrast, none⟩ ax).cur = some v ∧
      mi = (pairLoop p ⟨((-1 : ℝ) : WithTop ℝ), o.covs, o.q, o.contrast, none⟩ ax).maxInc ∧
      o' = { o with covs := (pairLoop p ⟨((-1 : ℝ) : WithTop ℝ), o.covs, o.q, o.contrast, none⟩ ax).covs,
                    q := (pairLoop p ⟨((-1 : ℝ) : WithTop ℝ), o.covs, o.q, o.contrast, none⟩ ax).q, contrast := v } := by
  unfold doSweep at h
  generalize pairLoop p ⟨((-1 : ℝ) : WithTop ℝ), o.covs, o.q, o.contrast, none⟩ ax = s at h
  simp only [] at h
  split at h
  · exact nomatch h
  · next v hv =>
    injection h with h
    injection h with h1 h2
    exact ⟨v, hv, h1.symm, h2.symm⟩

theorem decide_zero (p : Par T) (mi : WithTop ℝ) (sweep : Nat) (pert : Int) (part : Nat) : (decide' p mi 0 sweep pert part).1 = false := by
  unfold decide'
  simp only [or_true, if_true]
  split_ifs <;> rfl

/-- What a sweep of the loop does. -/
theorem optLoop_step {p : Par T} {draw : Nat → Draw p.R n} {fuel sweep : Nat} {o r : Opt T n}
    (h : optLoop p draw (fuel + 1) sweep o = some (.ok r)) :
    ∃ mi o1, doSweep p (draw (sweep + 1)).axes o = .ok (mi, o1) ∧ sweep + 1 ≠ p.maxIter ∧
      ((∃ pe pa, r = { o1 with perturbed := pe, part := pa }) ∨
       (o1.contrast ≠ 0 ∧ ∃ o2 : Opt T n, optLoop p draw fuel (sweep + 1) o2 = some (.ok r) ∧ o2.contrast = o1.contrast ∧
        ((o2.covs = o1.covs ∧ o2.q = o1.q) ∨
         (o2.covs = trCovs (draw (sweep + 1)).matrix o1.covs ∧ o2.q = o1.q * (draw (sweep + 1)).matrix)))) := by
  unfold optLoop at h
  simp only [] at h
  split at h
  · exact nomatch h
  · next mi o1 hs =>
    refine ⟨mi, o1, hs, ?_⟩
    have hz : o1.contrast = 0 → (decide' p mi o1.contrast (sweep + 1) o.perturbed o.part).1 = false := fun e => by rw [e]; exact decide_zero ..
    obtain ⟨v, _, _, ho⟩ := doSweep_ok hs
    have e1 : o1.perturbed = o.perturbed := by rw [ho]
    have e2 : o1.part = o.part := by rw [ho]
    rw [e1, e2] at h
    generalize decide' p mi o1.contrast (sweep + 1) o.perturbed o.part = D at h hz
    obtain ⟨sw, pe, pa⟩ := D
    simp only [] at h hz
    split at h
    · exact nomatch h
    · next hm =>
      refine ⟨hm, ?_⟩
      split at h
      · next hsw =>
        right
        refine ⟨fun e => absurd ((hz e).symm.trans hsw) (by decide), _, h, ?_⟩
        split
        · exact ⟨rfl, Or.inr ⟨rfl, rfl⟩⟩
        · exact ⟨rfl, Or.inl ⟨rfl, rfl⟩⟩
      · next hsw =>
        left
        injection h with h
        injection h with h
        refine ⟨pe, pa, ?_⟩
        rw [← h, if_neg (fun c => hsw c.2)]

theorem optLoop_good {p : Par T} {draw : Nat → Draw p.R n} (hd : ∀ k, (draw k).Ok) {c0 : Covs T n} (h0 : ∀ t a b, c0 t a b = c0 t b a)
    {r : Opt T n} (fuel : Nat) : ∀ (sweep : Nat) (o : Opt T n), Good c0 o.covs o.q → optLoop p draw fuel sweep o = some (.ok r) →
      Good c0 r.covs r.q := by
  induction fuel with
  | zero => intro sweep o _ h; exact nomatch h
  | succ fuel ih =>
    intro sweep o hg h
    obtain ⟨mi, o1, hs, _, hr⟩ := optLoop_step h
    obtain ⟨v, _, _, ho⟩ := doSweep_ok hs
    have h1 := (pairLoop_ok p h0 _ (fun x hx => axes_lt (hd (sweep + 1)) hx) ⟨((-1 : ℝ) : WithTop ℝ), o.covs, o.q, o.contrast, none⟩ hg).1
    have h1 : Good c0 o1.covs o1.q := by rw [ho]; exact h1
    rcases hr with ⟨pe, pa, hr⟩ | ⟨_, o2, h2, _, h3⟩
    · rw [hr]; exact h1
    · refine ih _ o2 ?_ h2
      rcases h3 with ⟨e1, e2⟩ | ⟨e1, e2⟩
      · rw [e1, e2]; exact h1
      · rw [e1, e2, transform_changed]; exact h1.mul (matrix_orthogonal (hd _))

/-- All pairs are in the output space. -/
theorem optLoop_decreases {p : Par T} {draw : Nat → Draw p.R n} (hd : ∀ k, (draw k).Ok) (hR : n ≤ p.R) {c0 : Covs T n}
    (h0 : ∀ t a b, c0 t a b = c0 t b a) {r : Opt T n} (fuel : Nat) : ∀ (sweep : Nat) (o : Opt T n), Good c0 o.covs o.q →
      o.contrast = objective p o.covs → optLoop p draw fuel sweep o = some (.ok r) → objective p r.covs ≤ objective p o.covs := by
  induction fuel with
  | zero => intro sweep o _ _ h; exact nomatch h
  | succ fuel ih =>
    intro sweep o hg he h
    obtain ⟨mi, o1, hs, _, hr⟩ := optLoop_step h
    obtain ⟨v, hv, _, ho⟩ := doSweep_ok hs
    obtain ⟨h1, h2⟩ := pairLoop_ok p h0 _ (fun x hx => axes_lt (hd (sweep + 1)) hx) ⟨((-1 : ℝ) : WithTop ℝ), o.covs, o.q, o.contrast, none⟩ hg
    obtain ⟨h2, h3⟩ := h2 he
    have hne : (draw (sweep + 1)).axes ≠ [] := by
      intro e; rw [e] at hv; exact nomatch hv
    have h4 := pairLoop_in p h0 (draw (sweep + 1)).axes
      (fun x hx => ⟨lt_of_lt_of_le x.2.2 hR, (axes_lt (hd (sweep + 1)) hx).2⟩) ⟨((-1 : ℝ) : WithTop ℝ), o.covs, o.q, o.contrast, none⟩ hg he (Or.inr hne)
    have g1 : Good c0 o1.covs o1.q := by rw [ho]; exact h1
    have g2 : objective p o1.covs ≤ objective p o.covs := by rw [ho]; simp only []; rw [← h2, ← he]; exact h3
    rcases hr with ⟨pe, pa, hr⟩ | ⟨hz, o2, h5, e0, h6⟩
    · rw [hr]; exact g2
    · have e3 : o1.contrast = objective p o1.covs := by
        rcases h4 with h4 | h4
        · rw [h4] at hv; injection hv with hv
          rw [ho]; simp only []; rw [← h2, hv]
        · rw [h4] at hv; injection hv with hv
          rw [ho] at hz; exact absurd hv.symm hz
      rcases h6 with ⟨e1, e2⟩ | ⟨e1, e2⟩
      · refine le_trans (ih _ o2 ?_ ?_ h5) ?_
        · rw [e1, e2]; exact g1
        · rw [e0, e1, e3]
        · rw [e1]; exact g2
      · have e4 : objective p o2.covs = objective p o1.covs := by rw [e1, transform_changed, objective_perturb]
        refine le_trans (ih _ o2 ?_ ?_ h5) ?_
        · rw [e1, e2, transform_changed]; exact g1.mul (matrix_orthogonal (hd _))
        · rw [e0, e4, e3]
        · rw [e4]; exact g2

/-! ## Training -/

/-- The starting rotation. -/
def start (rp0 : Option (Matrix (Fin n) (Fin n) ℝ)) : Matrix (Fin n) (Fin n) ℝ := rp0.getD 1

theorem optimize_ok {p : Par T} {draw : Nat → Draw p.R n} {fuel : Nat} {c : Covs T n} {q : Matrix (Fin n) (Fin n) ℝ} {c0 c1 : ℝ × ℝ}
    (h : optimize p draw fuel c = some (.ok (q, c0, c1))) : ∃ o : Opt T n,
      optLoop p draw fuel 0 ⟨c, 1, (contrast p c).1 + (contrast p c).2, if n = p.R then -1 else 0, 0⟩ = some (.ok o) ∧
      q = o.q ∧ c0 = contrast p c ∧ c1 = contrast p o.covs := by
  unfold optimize at h
  simp only [] at h
  split at h
  · exact nomatch h
  · exact nomatch h
  · next o ho =>
    injection h with h
    injection h with h
    simp only [Prod.mk.injEq] at h
    exact ⟨o, ho, h.1.symm, h.2.1.symm, h.2.2.symm⟩

theorem stop_ok {p : Par (T + 1)} {order : (Fin n → ℝ) → List (Fin n) → List (Fin n)} {draw : Nat → Draw p.R n} {fuel : Nat}
    {rp0 : Option (Matrix (Fin n) (Fin n) ℝ)} {c : Covs (T + 1) n} {r : Res (T + 1) n} (h : stop p order draw fuel rp0 c = some (.ok r)) :
    ∃ o : Opt (T + 1) n, optLoop p draw fuel 0 ⟨changed (start rp0) c, 1, (contrast p (changed (start rp0) c)).1 + (contrast p (changed (start rp0) c)).2,
        if n = p.R then -1 else 0, 0⟩ = some (.ok o) ∧
      r.initial = contrast p (changed (start rp0) c) ∧ r.final = contrast p o.covs ∧ r.rpc = start rp0 * o.q ∧
      r.covs = changed (start rp0 * o.q) c ∧
      r.rp = (order (fun i => r.covs 0 i i) ((List.finRange n).filter fun i => i.1 < p.R)).reverse.map fun j i => r.rpc i j := by
  have key : ∃ q c0 c1, optimize p draw fuel (changed (start rp0) c) = some (.ok (q, c0, c1)) ∧
      r = ⟨trCovs q (changed (start rp0) c), start rp0 * q,
        (order (fun i => trCovs q (changed (start rp0) c) 0 i i) ((List.finRange n).filter fun i => i.1 < p.R)).reverse.map fun j i => (start rp0 * q) i j, c0, c1⟩ := by
    unfold stop at h
    cases rp0 with
    | none =>
      simp only [start, Option.getD_none, changed_one] at h ⊢
      split at h
      · exact nomatch h
      · exact nomatch h
      · next q c0 c1 ho =>
        injection h with h
        injection h with h
        exact ⟨q, c0, c1, ho, h.symm⟩
    | some rp =>
      simp only [start, Option.getD_some, transform_changed] at h ⊢
      split at h
      · exact nomatch h
      · exact nomatch h
      · next q c0 c1 ho =>
        injection h with h
        injection h with h
        exact ⟨q, c0, c1, ho, h.symm⟩
  obtain ⟨q, c0, c1, h1, h2⟩ := key
  obtain ⟨o, h3, h4, h5, h6⟩ := optimize_ok h1
  refine ⟨o, h3, ?_⟩
  rw [h2, ← h4]
  refine ⟨h5, h6, rfl, ?_, rfl⟩
  simp only [transform_changed, changed_mul]

theorem good_start (c : Covs T n) : Good c c 1 := ⟨by simp, by rw [changed_one]⟩

/-- **C271** (isfa_rotation): for every order of the axes and all random rotations and permutations, the rotation found is orthogonal if the
starting rotation is, the matrices at the end are those of the beginning in its coordinates, and the final contrast is their objective. -/
theorem isfa_rotation {p : Par (T + 1)} {order : (Fin n → ℝ) → List (Fin n) → List (Fin n)} {draw : Nat → Draw p.R n} (hd : ∀ k, (draw k).Ok)
    {fuel : Nat} {rp0 : Option (Matrix (Fin n) (Fin n) ℝ)} {c : Covs (T + 1) n} (hc : ∀ t a b, c t a b = c t b a) {r : Res (T + 1) n}
    (h : stop p order draw fuel rp0 c = some (.ok r)) :
    ((∀ rp, rp0 = some rp → rpᵀ * rp = 1) → r.rpcᵀ * r.rpc = 1) ∧ r.covs = changed r.rpc c ∧
    r.initial.1 + r.initial.2 = objective p (changed (rp0.getD 1) c) ∧ r.final.1 + r.final.2 = objective p r.covs := by
  obtain ⟨o, ho, h1, h2, h3, h4, _⟩ := stop_ok h
  have hs := changed_symm (start rp0) c hc
  have hg := optLoop_good hd hs fuel _ _ (good_start (changed (start rp0) c)) ho
  refine ⟨fun hr => ?_, by rw [h4, h3], ?_, ?_⟩
  · have : (start rp0)ᵀ * start rp0 = 1 := by
      cases rp0 with
      | none => simp [start]
      | some rp => exact hr rp rfl
    rw [h3, Matrix.transpose_mul, Matrix.mul_assoc, ← Matrix.mul_assoc (start rp0)ᵀ, this, Matrix.one_mul, hg.1]
  · rw [h1, contrast_eq _ _ hs]; rfl
  · rw [h2, contrast_eq _ _ (hg.symm hs), h4, hg.2, changed_mul]

/-- **C272** (isfa_improves): with as many outputs as inputs the final contrast is never above the initial contrast. -/
theorem isfa_improves_partial {p : Par (T + 1)} {order : (Fin n → ℝ) → List (Fin n) → List (Fin n)} {draw : Nat → Draw p.R n} (hd : ∀ k, (draw k).Ok)
    (hR : p.R = n) {fuel : Nat} {rp0 : Option (Matrix (Fin n) (Fin n) ℝ)} {c : Covs (T + 1) n} (hc : ∀ t a b, c t a b = c t b a) {r : Res (T + 1) n}
    (h : stop p order draw fuel rp0 c = some (.ok r)) : r.final.1 + r.final.2 ≤ r.initial.1 + r.initial.2 := by
  obtain ⟨o, ho, h1, h2, h3, h4, _⟩ := stop_ok h
  have hs := changed_symm (start rp0) c hc
  have hg := optLoop_good hd hs fuel _ _ (good_start (changed (start rp0) c)) ho
  have := optLoop_decreases hd hR.ge hs fuel _ _ (good_start (changed (start rp0) c)) (contrast_eq _ _ hs) ho
  rw [h1, h2, contrast_eq _ _ hs, contrast_eq _ _ (hg.symm hs)]
  exact this

/-- **C272**, with outer space: a sweep that starts with the contrast of its matrices does not raise the objective, and a perturbation of the outer
space does not change it. -/
theorem isfa_sweep_partial {p : Par T} {d : Draw p.R n} (hd : d.Ok) {o o1 : Opt T n} {mi : WithTop ℝ} (hc : ∀ t a b, o.covs t a b = o.covs t b a)
    (he : o.contrast = objective p o.covs) (h : doSweep p d.axes o = .ok (mi, o1)) :
    objective p o1.covs ≤ objective p o.covs ∧ objective p (trCovs d.matrix o1.covs) = objective p o1.covs := by
  refine ⟨?_, by rw [transform_changed, objective_perturb]⟩
  obtain ⟨v, _, _, ho⟩ := doSweep_ok h
  have key : ∀ (l : List (Fin n × Fin n)) (s s' : Sweep T n), s.covs = s'.covs → s.prev = s'.prev → s.maxInc = s'.maxInc → s.cur = s'.cur →
      (pairLoop p s l).covs = (pairLoop p s' l).covs := by
    intro l
    induction l with
    | nil => intro s s' h1 _ _ _; exact h1
    | cons x l ih =>
      obtain ⟨i, j⟩ := x
      intro s s' h1 h2 h3 h4
      unfold pairLoop
      simp only [h1, h2, h3]
      split
      · rfl
      · split
        · exact ih _ _ rfl rfl rfl rfl
        · exact ih _ _ rfl rfl rfl rfl
  have h1 := (pairLoop_ok p (c0 := o.covs) hc d.axes (fun x hx => axes_lt hd hx) ⟨((-1 : ℝ) : WithTop ℝ), o.covs, 1, o.contrast, none⟩ (good_start _)).2 he
  rw [ho]
  simp only []
  rw [key d.axes ⟨((-1 : ℝ) : WithTop ℝ), o.covs, o.q, o.contrast, none⟩ ⟨((-1 : ℝ) : WithTop ℝ), o.covs, 1, o.contrast, none⟩ rfl rfl rfl rfl, ← h1.1, ← he]
  exact h1.2

end Mdp.Isfa
