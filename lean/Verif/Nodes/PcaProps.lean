import Verif.Nodes.PcaAlg

/-!
# Principal components and whitening (C109-C113)
-/

namespace Mdp.Pca

open Mdp.Cov

variable {F : Type} [Field F] [LinearOrder F] [IsStrictOrderedRing F] {d : Nat}

/-! ## Specification -/

/-- The eigenvalue solver works for the matrix `C`: asked for all, or for the `k` largest eigenvalues, it returns them with
eigenvectors, in ascending order. -/
structure Solves (solve : Solver F d) (C : Mat F d d) (lam : Fin d → F) (v : Fin d → Row F d) : Prop where
  spec : Spectrum C lam v
  all : solve C none = some (List.ofFn fun i => (lam i, v i)).reverse
  largest : ∀ k : Nat, 1 ≤ k → k ≤ d →
    solve C (some ((d : Int) - k + 1, d)) = some ((List.ofFn fun i => (lam i, v i)).take k).reverse

/-- The output dimension is either not set, a number of components between one and the input dimension, or a fraction of
the variance, positive and at most one; the absolute threshold of `reduce` is not negative. -/
def Valid (c : Cfg F) (d : Nat) : Prop :=
  (∀ k, c.outDim = some k → 1 ≤ k ∧ k ≤ d ∧ c.desired = none) ∧ (∀ p, c.desired = some p → 0 < p ∧ p ≤ 1) ∧
  (c.reduce = true → 0 ≤ c.varAbs)

/-- The covariance object after training with these chunks. -/
abbrev trained (chunks : List (List (Row F d))) : CovSt F d := chunks.foldl CovSt.update (CovSt.new F d false)

/-! ## Lists -/

theorem filter_prefix {l : List F} (p : F → Bool) (hl : l.Pairwise (· ≥ ·)) (hp : ∀ a b, a ≤ b → p a = true → p b = true) :
    l.filter p = l.take (l.filter p).length := by
  induction l with
  | nil => rfl
  | cons a l ih =>
    rw [List.pairwise_cons] at hl
    by_cases h : p a = true
    · rw [List.filter_cons_of_pos h, List.length_cons, List.take_succ_cons, ← ih hl.2]
    · have : (a :: l).filter p = [] := by
        rw [List.filter_eq_nil_iff]
        intro b hb hpb
        rcases List.mem_cons.1 hb with rfl | hb
        · exact h hpb
        · exact h (hp b a (hl.1 b hb) hpb)
      rw [this]
      rfl

theorem cumsum_length (a : F) (l : List F) : (cumsum a l).length = l.length := by
  induction l generalizing a with
  | nil => rfl
  | cons x l ih => simp [cumsum, ih]

theorem cumsum_get (a : F) (l : List F) (i : Nat) (h : i < (cumsum a l).length) :
    (cumsum a l)[i] = a + (l.take (i + 1)).sum := by
  induction l generalizing a i with
  | nil => simp [cumsum] at h
  | cons x l ih =>
    cases i with
    | zero => simp [cumsum]
    | succ i =>
      simp only [cumsum, List.getElem_cons_succ, List.take_succ_cons, List.sum_cons]
      rw [ih, add_assoc]

theorem takeWhile_length_spec (l : List F) (p : F) :
    (∀ (i : Nat) (h : i < l.length), i < searchsorted l p → l[i] < p) ∧
    (∀ h : searchsorted l p < l.length, p ≤ l[searchsorted l p]) := by
  unfold searchsorted
  induction l with
  | nil => simp
  | cons a l ih =>
    by_cases h : a < p
    · simp only [List.takeWhile_cons, h, decide_true, if_true, List.length_cons]
      refine ⟨fun i hi hlt => ?_, fun hlt => ?_⟩
      · cases i with
        | zero => exact h
        | succ i => exact ih.1 i (by simpa using hi) (by omega)
      · exact ih.2 (by omega)
    · simp only [List.takeWhile_cons, h, decide_false, Bool.false_eq_true, if_false, List.length_nil, List.length_cons]
      exact ⟨fun i _ hi => absurd hi (by omega), fun _ => not_lt.1 h⟩

theorem sum_map_div (l : List F) (c : F) : (l.map (· / c)).sum = l.sum / c := by
  induction l with
  | nil => simp
  | cons a l ih => simp only [List.map_cons, List.sum_cons, ih, add_div]

theorem trace_eq (c : Mat F d d) : trace c = ∑ i, c i i := by
  unfold trace
  rw [← List.ofFn_eq_map, List.sum_ofFn]

theorem proj_eq (avg x w : Row F d) : proj avg x w = ∑ k, (x k - avg k) * w k := by
  unfold proj
  rw [← List.ofFn_eq_map, List.sum_ofFn]

/-! ## What `stop_training` keeps -/

theorem ofFn_desc {C : Mat F d d} {lam : Fin d → F} {v : Fin d → Row F d} (h : Spectrum C lam v) :
    (List.ofFn lam).Pairwise (· ≥ ·) := by
  rw [List.pairwise_iff_getElem]
  intro i j hi hj hij
  simp only [List.getElem_ofFn]
  exact h.desc _ _ (by rw [Fin.le_def]; simp only; omega)

theorem lam_nonneg {rows : List (Row F d)} (hn : 2 ≤ rows.length) {lam : Fin d → F} {v : Fin d → Row F d}
    (h : Spectrum (covOf rows) lam v) (i : Fin d) : 0 ≤ lam i := by
  have h1 := variance_nonneg (rows.map fun x => dot x (v i)) (by simpa using hn)
  rwa [variance_dot, h.quad, h.ortho i i, if_pos rfl, mul_one] at h1

theorem total_eq (rows : List (Row F d)) : totalVariance rows = ∑ i, covOf rows i i := by
  simp only [totalVariance, variance, covOf, List.map_map, Function.comp_def]

/-- What is kept: the first `m` components. -/
structure Prefix (lam : Fin d → F) (v : Fin d → Row F d) (m : Nat) (k : Kept F d) : Prop where
  le : m ≤ d
  ds : k.1 = (List.ofFn lam).take m
  vs : k.2.1 = (List.ofFn v).take m
  out : k.2.2 = some m

/-- The first steps of `stop_training`. -/
theorem stop_eq (c : Cfg F) (solve : Solver F d) (chunks : List (List (Row F d))) (hn : 2 ≤ chunks.flatten.length)
    {lam : Fin d → F} {v : Fin d → Row F d} (hs : Solves solve (covOf chunks.flatten) lam v) (hc : Valid c d) :
    ∃ avg, (∀ i, avg i = mean (chunks.flatten.map fun x => x i)) ∧
      stop c solve (trained chunks) =
        conclude c avg (totalVariance chunks.flatten) ((List.ofFn lam).take (c.outDim.getD d),
          (List.ofFn v).take (c.outDim.getD d), if c.desired.isSome then none else some (c.outDim.getD d)) := by
  obtain ⟨C, avg, h1, h2, h3⟩ := covariance_correct (F := F) false chunks (by simpa using hn)
  have hC : C = covOf chunks.flatten := by funext i j; exact h2 i j
  subst hC
  refine ⟨avg, h3, ?_⟩
  simp only [stop, trained, h1, trace_eq, ← total_eq]
  have hneg : ∀ l : List (F × Row F d), (∀ p ∈ l, 0 ≤ p.1) → l.any (fun p => decide (p.1 < 0)) = false := by
    intro l hl
    rw [List.any_eq_false]
    intro p hp
    simp [not_lt.2 (hl p hp)]
  have hpos : ∀ p ∈ List.ofFn fun i => (lam i, v i), 0 ≤ p.1 := by
    intro p hp
    obtain ⟨i, rfl⟩ := (List.mem_ofFn' _ _).1 hp
    exact lam_nonneg hn hs.spec i
  have hm1 : (List.ofFn fun i => (lam i, v i)).map (·.1) = List.ofFn lam := by rw [List.map_ofFn]; rfl
  have hm2 : (List.ofFn fun i => (lam i, v i)).map (·.2) = List.ofFn v := by rw [List.map_ofFn]; rfl
  cases ho : c.outDim with
  | none =>
    have ha : (adjust c d).2 = none ∧ (adjust c d).1 = if c.desired.isSome then none else some d := by
      cases hd : c.desired <;> simp [adjust, ho, hd]
    obtain ⟨o, ho'⟩ : ∃ o, adjust c d = o := ⟨_, rfl⟩
    rw [ho'] at ha ⊢
    obtain ⟨o1, o2⟩ := o
    simp only at ha
    obtain ⟨rfl, rfl⟩ := ha
    simp only [hs.all, hneg _ (fun p hp => hpos p (List.mem_reverse.1 hp)), Bool.and_false, Bool.false_eq_true, if_false,
      List.reverse_reverse, hm1, hm2, Option.getD_none]
    rw [List.take_of_length_le (by simp), List.take_of_length_le (by simp)]
  | some k =>
    obtain ⟨hk1, hk2, hd⟩ := hc.1 k ho
    have ha : adjust c d = (some k, some ((d : Int) - k + 1, (d : Int))) := by simp [adjust, ho, hd, hk1]
    simp only [ha, hs.largest k hk1 hk2, hneg _ (fun p hp => hpos p (List.mem_of_mem_take (List.mem_reverse.1 hp))),
      Bool.and_false, Bool.false_eq_true, if_false, List.reverse_reverse, List.map_take, hm1, hm2, Option.getD_some, hd,
      Option.isSome_none]


theorem byVariance_prefix (c : Cfg F) (p : F) (hp : c.desired = some p) (h0 : 0 < p) (h1 : p ≤ 1)
    {C : Mat F d d} {lam : Fin d → F} {v : Fin d → Row F d} (hs : Spectrum C lam v) (hpos : ∀ i, 0 ≤ lam i)
    (ht : ∑ i, lam i ≠ 0) : ∃ m, 1 ≤ m ∧ Prefix lam v m ((List.ofFn lam).take m, (List.ofFn v).take m, some m) ∧
      byVariance c (∑ i, lam i) ((List.ofFn lam), (List.ofFn v), none)
        = .ok ((List.ofFn lam).take m, (List.ofFn v).take m, some m) ∧
      p ≤ ((List.ofFn lam).take m).sum / ∑ i, lam i ∧ ∀ k < m, ((List.ofFn lam).take k).sum / ∑ i, lam i < p := by
  set t := ∑ i, lam i with htd
  set A := List.ofFn lam with hA
  set ds := A.filter (fun x => decide (0 < x)) with hds
  set n := searchsorted (cumsum 0 (ds.map (· / t))) p with hn
  have hdesc := ofFn_desc hs
  have hpre : ds = A.take ds.length := filter_prefix _ hdesc (by
    intro a b hab ha
    simp only [decide_eq_true_eq] at ha ⊢
    exact lt_of_lt_of_le ha hab)
  have hsum : ds.sum = t := by
    have h2 : ∀ l : List F, (∀ x ∈ l, 0 ≤ x) → (l.filter (fun x => decide (0 < x))).sum = l.sum := by
      intro l hl
      induction l with
      | nil => rfl
      | cons a l ih =>
        have ih' := ih fun x hx => hl x (List.mem_cons_of_mem _ hx)
        by_cases ha : 0 < a
        · rw [List.filter_cons_of_pos (by simpa using ha), List.sum_cons, List.sum_cons, ih']
        · have : a = 0 := le_antisymm (not_lt.1 ha) (hl a (by simp))
          rw [List.filter_cons_of_neg (by simpa using ha), List.sum_cons, ih', this, zero_add]
    rw [hds, h2 A (by
      intro x hx
      obtain ⟨i, rfl⟩ := (List.mem_ofFn' _ _).1 hx
      exact hpos i), hA, List.sum_ofFn]
  have hlen : ds.length ≤ d := by
    have : ds.length ≤ A.length := List.length_filter_le _ _
    rwa [hA, List.length_ofFn] at this
  have hne : ds ≠ [] := by
    intro h
    rw [h] at hsum
    exact ht hsum.symm
  have hL : (cumsum 0 (ds.map (· / t))).length = ds.length := by rw [cumsum_length, List.length_map]
  obtain ⟨hlt, hge⟩ := takeWhile_length_spec (cumsum 0 (ds.map (· / t))) p
  have hget : ∀ i (hi : i < (cumsum 0 (ds.map (· / t))).length), (cumsum 0 (ds.map (· / t)))[i] = (ds.take (i + 1)).sum / t := by
    intro i hi
    rw [cumsum_get, zero_add, ← List.map_take, sum_map_div]
  have hnlt : n < ds.length := by
    by_contra hcon
    have hpos' : 0 < ds.length := List.length_pos_iff.2 hne
    have := hlt (ds.length - 1) (by omega) (by omega)
    rw [hget, List.take_of_length_le (by omega), hsum, div_self ht] at this
    exact absurd h1 (not_le.2 this)
  have htake : ∀ k ≤ ds.length, ds.take k = A.take k := by
    intro k hk
    conv_lhs => rw [hpre]
    rw [List.take_take, min_eq_left hk]
  have hres : byVariance c t (A, List.ofFn v, none) = .ok (A.take (n + 1), (List.ofFn v).take (n + 1), some (n + 1)) := by
    simp only [byVariance, hp, true_or, if_true]
    rw [← htake (n + 1) hnlt]
  refine ⟨n + 1, by omega, ⟨by omega, rfl, rfl, rfl⟩, hres, ?_, ?_⟩
  · have := hge (by rw [hL]; exact hnlt)
    rw [hget] at this
    rw [← htake (n + 1) hnlt]
    exact this
  · intro k hk
    cases k with
    | zero => simpa using h0
    | succ k =>
      have := hlt k (by rw [hL]; omega) (by omega)
      rw [hget, htake _ (by omega)] at this
      exact this


theorem foldl_max {a : F} {l : List F} (h : (a :: l).Pairwise (· ≥ ·)) : l.foldl max a = a := by
  induction l with
  | nil => rfl
  | cons b l ih =>
    simp only [List.pairwise_cons, List.mem_cons] at h
    rw [List.foldl_cons, max_eq_left (h.1 b (by simp))]
    exact ih (List.pairwise_cons.2 ⟨fun x hx => h.1 x (Or.inr hx), h.2.2⟩)

/-- The condition of the automatic reduction, for a variance `x`; `big` is the largest one. -/
def Kept.cond (c : Cfg F) (big total x : F) : Bool :=
  decide (c.varAbs < x) && decide (c.varRel < x / big) && (match c.varPart with
    | none => true
    | some p => decide (p < x / total))

theorem byReduce_eq (c : Cfg F) (hr : c.reduce = true) (ha : 0 ≤ c.varAbs) {t : F} {A : List F} {B : List (Row F d)}
    {o : Option Nat} (hA : A.Pairwise (· ≥ ·)) (hmax : ∀ x ∈ A, x ≤ t) :
    ((∀ x ∈ A, x ≤ c.varAbs) ∧ byReduce c t (A, B, o) = .error .reduced) ∨
    ∃ big r m, A = big :: r ∧ c.varAbs < big ∧ m ≤ A.length ∧ A.filter (Kept.cond c big t) = A.take m ∧
      byReduce c t (A, B, o) = .ok (A.take m, B.take m, some m) := by
  by_cases h : ∀ x ∈ A, x ≤ c.varAbs
  · refine Or.inl ⟨h, ?_⟩
    have : A.filter (fun x => decide (c.varAbs < x)) = [] := by
      rw [List.filter_eq_nil_iff]
      intro x hx
      simp [h x hx]
    simp only [byReduce, hr, if_true, this]
  · right
    push Not at h
    obtain ⟨x, hx, hxa⟩ := h
    obtain ⟨big, r, rfl⟩ : ∃ big r, A = big :: r := by
      cases A with
      | nil => simp at hx
      | cons a r => exact ⟨a, r, rfl⟩
    have hbig : c.varAbs < big := by
      rcases List.mem_cons.1 hx with rfl | hx
      · exact hxa
      · exact lt_of_lt_of_le hxa ((List.pairwise_cons.1 hA).1 x hx)
    have hbig0 : 0 < big := lt_of_le_of_lt ha hbig
    have ht0 : 0 < t := lt_of_lt_of_le hbig0 (hmax big (by simp))
    have hfirst : (big :: r).filter (fun x => decide (c.varAbs < x)) = big :: r.filter (fun x => decide (c.varAbs < x)) :=
      List.filter_cons_of_pos (by simpa using hbig)
    have hm : (r.filter (fun x => decide (c.varAbs < x))).foldl max big = big := by
      refine foldl_max ?_
      rw [← hfirst]
      exact hA.filter _
    have hall : (match c.varPart with
        | none => ((big :: r).filter (fun x => decide (c.varAbs < x))).filter (fun x => decide (c.varRel < x / big))
        | some p => (((big :: r).filter (fun x => decide (c.varAbs < x))).filter
            (fun x => decide (c.varRel < x / big))).filter (fun x => decide (p < x / t)))
        = (big :: r).filter (Kept.cond c big t) := by
      cases hp : c.varPart with
      | none =>
        simp only [List.filter_filter]
        refine List.filter_congr fun x _ => ?_
        simp [Kept.cond, hp, Bool.and_comm]
      | some p =>
        simp only [List.filter_filter]
        refine List.filter_congr fun x _ => ?_
        simp only [Kept.cond, hp]
        rw [Bool.and_comm, Bool.and_comm (decide (c.varRel < x / big))]
    have hpre := filter_prefix (Kept.cond c big t) hA (by
      intro a b hab h
      simp only [Kept.cond, Bool.and_eq_true, decide_eq_true_eq] at h ⊢
      refine ⟨⟨lt_of_lt_of_le h.1.1 hab, lt_of_lt_of_le h.1.2 (div_le_div_of_nonneg_right hab hbig0.le)⟩, ?_⟩
      have h2 := h.2
      cases hp : c.varPart with
      | none => rfl
      | some p =>
        rw [hp] at h2
        simp only [decide_eq_true_eq] at h2 ⊢
        exact lt_of_lt_of_le h2 (div_le_div_of_nonneg_right hab ht0.le))
    refine ⟨big, r, ((big :: r).filter (Kept.cond c big t)).length, rfl, hbig, List.length_filter_le _ _, hpre, ?_⟩
    rw [← hpre, ← hall]
    simp only [byReduce, hr, if_true, hfirst, hm]
    cases c.varPart <;> rfl

/-- Every accepted `stop_training` keeps the components with the largest variances. -/
theorem stop_prefix (c : Cfg F) (solve : Solver F d) (chunks : List (List (Row F d))) (hn : 2 ≤ chunks.flatten.length)
    {lam : Fin d → F} {v : Fin d → Row F d} (hs : Solves solve (covOf chunks.flatten) lam v) (hc : Valid c d)
    (ht : c.desired.isSome = true → totalVariance chunks.flatten ≠ 0) (r : Res F d)
    (h : stop c solve (trained chunks) = .ok r) :
    ∃ m, Prefix lam v m (r.ds, r.vs, r.outDim) ∧ (∀ i, r.avg i = mean (chunks.flatten.map fun x => x i)) ∧
      r.total = totalVariance chunks.flatten ∧ r.explained = r.ds.sum / totalVariance chunks.flatten := by
  obtain ⟨avg, hav, he⟩ := stop_eq c solve chunks hn hs hc
  rw [he] at h
  have htr : totalVariance chunks.flatten = ∑ i, lam i := by rw [total_eq, hs.spec.trace]
  have hpos := fun i => lam_nonneg hn hs.spec i
  have hle : ∀ m, ∀ x ∈ (List.ofFn lam).take m, x ≤ ∑ i, lam i := by
    intro m x hx
    obtain ⟨i, rfl⟩ := (List.mem_ofFn' _ _).1 (List.mem_of_mem_take hx)
    exact Finset.single_le_sum (fun i _ => hpos i) (Finset.mem_univ i)
  -- after the selection by the fraction of variance
  have hfin : ∀ m ≤ d, ∀ k, byReduce c (totalVariance chunks.flatten) ((List.ofFn lam).take m, (List.ofFn v).take m, some m) = .ok k →
      ∃ m, Prefix lam v m k := by
    intro m hm k hk
    by_cases hr : c.reduce = true
    · rcases byReduce_eq c hr (hc.2.2 hr) (t := totalVariance chunks.flatten) (B := (List.ofFn v).take m) (o := some m) (hA := ((ofFn_desc hs.spec).sublist
        (List.take_sublist m _))) (hmax := by rw [htr]; exact hle m) with ⟨_, h2⟩ | ⟨big, r', m', _, _, hm', _, h2⟩
      · rw [h2] at hk; cases hk
      · rw [h2] at hk
        cases hk
        have hm2 : m' ≤ m := by
          have := hm'
          simp at this
          omega
        refine ⟨m', by omega, ?_, ?_, rfl⟩
        · simp only [List.take_take, min_eq_left hm2]
        · simp only [List.take_take, min_eq_left hm2]
    · simp only [byReduce, hr, Bool.false_eq_true, if_false] at hk
      cases hk
      exact ⟨m, hm, rfl, rfl, rfl⟩
  cases hd : c.desired with
  | none =>
    have hb : ∀ k : Kept F d, byVariance c (totalVariance chunks.flatten) k = .ok k := fun k => by simp [byVariance, hd]
    simp only [conclude, hb, hd, Option.isSome_none, Bool.false_eq_true, if_false] at h
    split at h
    · cases h
    · rename_i ds vs o hk
      obtain ⟨m, hm⟩ := hfin (c.outDim.getD d) (by
        cases ho : c.outDim with
        | none => simp
        | some k => exact (hc.1 k ho).2.1) _ hk
      cases h
      exact ⟨m, hm, hav, rfl, rfl⟩
  | some p =>
    have ho : c.outDim = none := by
      cases ho : c.outDim with
      | none => rfl
      | some k => rw [(hc.1 k ho).2.2] at hd; cases hd
    obtain ⟨m, hm1, hm, hb, _, _⟩ := byVariance_prefix c p hd (hc.2.1 p hd).1 (hc.2.1 p hd).2 hs.spec hpos
      (by rw [← htr]; exact ht (by rw [hd]; rfl))
    rw [← htr] at hb
    simp only [conclude, hd, ho, Option.getD_none, Option.isSome_some, if_true] at h
    rw [List.take_of_length_le (by simp), List.take_of_length_le (by simp), hb] at h
    simp only at h
    split at h
    · cases h
    · rename_i ds vs o hk
      obtain ⟨m, hm⟩ := hfin m hm.le _ hk
      cases h
      exact ⟨m, hm, hav, rfl, rfl⟩

end Mdp.Pca
