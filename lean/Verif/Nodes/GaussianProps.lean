import Verif.Nodes.Gaussian
import Verif.Nodes.NearestProps
import Verif.Num.CovProps
import Mathlib.Data.List.Sort

/-!
# Properties of GaussianClassifier (C86)
-/

namespace Mdp.Gaussian

open Cov Join

variable {d : Nat} {L : Type}

/-! ## Specification -/

section Spec
variable [DecidableEq L]

/-- The mean of the rows with a label. -/
noncomputable def classMean (rs : List (L × Row ℝ d)) (l : L) : Row ℝ d := fun i => Cov.mean ((rowsOf l rs).map fun r => r i)

/-- The sample covariance matrix of the rows with a label. -/
noncomputable def classCov (rs : List (L × Row ℝ d)) (l : L) : Mat ℝ d d :=
  fun i j => Cov.cov false ((rowsOf l rs).map fun r => (r i, r j))

/-- The fraction of rows with a label. -/
noncomputable def prior (rs : List (L × Row ℝ d)) (l : L) : ℝ := ((rowsOf l rs).length : ℝ) / (rs.length : ℝ)

/-- The density of the normal distribution with mean `μ`, covariance of determinant `δ` and inverse `q`. -/
noncomputable def density (μ : Row ℝ d) (δ : ℝ) (q : Mat ℝ d d) (x : Row ℝ d) : ℝ :=
  (2 * Real.pi) ^ (-(d : ℝ) / 2) / Real.sqrt δ *
    Real.exp (-(1 / 2) * ∑ i, ∑ j, (x i - μ i) * q i j * (x j - μ j))

/-- Prior times density of the fitted distribution. -/
noncomputable def weight (det : Mat ℝ d d → ℝ) (inv : Mat ℝ d d → Mat ℝ d d) (rs : List (L × Row ℝ d)) (x : Row ℝ d)
    (l : L) : ℝ :=
  density (classMean rs l) (det (classCov rs l)) (inv (classCov rs l)) x * prior rs l

end Spec

/-! ## Training -/

theorem gauss_sums [DecidableEq L] (cs : List (List (Row ℝ d) × Labels L)) (hok : ∀ c ∈ cs, labelsOk c.1 c.2 = true) :
    ∃ q, cs.foldlM (fun m c => gaussTrain m c.1 c.2) (fun _ => none) = .ok q
      ∧ ∀ k, q k = if k ∈ cs.flatMap named
          then some (multT (rowsOf k (cs.flatMap lrows)) (rowsOf k (cs.flatMap lrows)),
            colSum (rowsOf k (cs.flatMap lrows)), (rowsOf k (cs.flatMap lrows)).length) else none := by
  let f : List (Row ℝ d) → Mat ℝ d d × Row ℝ d × Nat := fun x => (multT x x, colSum x, x.length)
  refine ⟨_, foldlM_ok (fun c => labelsOk c.1 c.2 = true) _ (labT (· + ·) f)
    (fun m c hc => labTrain_ok _ _ zero_add _ m c hc) cs hok _, ?_⟩
  clear hok
  intro k
  induction cs with
  | nil => simp
  | cons c cs ih =>
    rw [List.foldl_cons, labT_run (· + ·) add_assoc, ih]
    have hn : k ∉ cs.flatMap named → rowsOf k (cs.flatMap lrows) = [] := by
      clear ih
      intro h
      induction cs with
      | nil => rfl
      | cons c cs ih =>
        simp only [List.flatMap_cons, List.mem_append, not_or] at h
        rw [List.flatMap_cons, rowsOf_append, ih h.2, rowsOf_not_named k c h.1, List.append_nil]
    simp only [labT, oplus_none_left, contrib_eq, List.flatMap_cons, List.mem_append, rowsOf_append]
    by_cases h1 : k ∈ named c <;> by_cases h2 : k ∈ cs.flatMap named
    · simp only [h1, h2, or_self, if_true, oplus, f, Prod.mk_add_mk, colSum_append, List.length_append, multT_append]
    · simp only [h1, h2, or_false, if_true, if_false, oplus_none_right, f, hn h2, List.append_nil]
    · simp only [h1, h2, or_true, if_true, if_false, oplus_none_left, rowsOf_not_named k c h1, List.nil_append]
    · simp [h1, h2]

theorem mapM_ok {A B E : Type} (f : A → Except E B) (g : A → B) (l : List A) (h : ∀ a ∈ l, f a = .ok (g a)) :
    l.mapM f = .ok (l.map g) := by
  induction l with
  | nil => rfl
  | cons a l ih =>
    rw [List.mapM_cons, h a (by simp), ih fun a ha => h a (by simp [ha])]
    rfl

theorem stopOne_eq [DecidableEq L] (det : Mat ℝ d d → ℝ) (inv : Mat ℝ d d → Mat ℝ d d)
    (rs : List (L × Row ℝ d)) (m : L → Option (Mat ℝ d d × Row ℝ d × Nat)) (l : L)
    (hm : m l = some (multT (rowsOf l rs) (rowsOf l rs), colSum (rowsOf l rs), (rowsOf l rs).length))
    (h2 : 2 ≤ (rowsOf l rs).length) (hdet : 0 < det (classCov rs l)) :
    stopOne det inv m l = .ok (⟨l, Real.sqrt (det (classCov rs l)), inv (classCov rs l), classMean rs l,
      ((rowsOf l rs).length : ℝ)⟩, (rowsOf l rs).length) := by
  obtain ⟨c, avg, e, hc, ha⟩ := covariance_correct (F := ℝ) (d := d) false [rowsOf l rs] (by simpa using h2)
  simp only [List.foldl_cons, List.foldl_nil, List.flatten_cons, List.flatten_nil, List.append_nil] at e hc ha
  have hst : (CovSt.new ℝ d false).update (rowsOf l rs) =
      CovSt.mk (some (multT (rowsOf l rs) (rowsOf l rs), colSum (rowsOf l rs))) (rowsOf l rs).length false := by
    simp [CovSt.new, CovSt.update]
  rw [hst] at e
  have hc : c = classCov rs l := by funext i j; exact hc i j
  have ha : avg = classMean rs l := by funext i; exact ha i
  subst hc ha
  unfold stopOne
  rw [hm]
  simp only [e]
  rw [if_neg (ne_of_gt (Real.sqrt_pos.2 hdet))]

/-- C86: after training with any chunks (each label given to at least two rows, no covariance matrix singular) there is
one fitted normal distribution per label, in increasing order of labels: mean, inverse covariance and fraction of all
rows of that label. -/
theorem gaussian_fit [LinearOrder L] (det : Mat ℝ d d → ℝ) (inv : Mat ℝ d d → Mat ℝ d d)
    (cs : List (List (Row ℝ d) × Labels L)) (hok : ∀ c ∈ cs, labelsOk c.1 c.2 = true)
    (keys : List L) (hnd : keys.Nodup) (hmem : ∀ l, l ∈ keys ↔ l ∈ cs.flatMap named)
    (h2 : ∀ l ∈ cs.flatMap named, 2 ≤ (rowsOf l (cs.flatMap lrows)).length)
    (hdet : ∀ l ∈ cs.flatMap named, 0 < det (classCov (cs.flatMap lrows) l)) :
    ∃ q, ∃ ls : List L, cs.foldlM (fun m c => gaussTrain m c.1 c.2) (fun _ => none) = .ok q ∧
      (∀ l, l ∈ ls ↔ l ∈ cs.flatMap named) ∧ ls.Pairwise (· < ·) ∧
      stop det inv keys q = .ok (ls.map fun l => ⟨l, Real.sqrt (det (classCov (cs.flatMap lrows) l)),
        inv (classCov (cs.flatMap lrows) l), classMean (cs.flatMap lrows) l, prior (cs.flatMap lrows) l⟩) := by
  obtain ⟨q, hq, hs⟩ := gauss_sums cs hok
  have hperm := List.perm_insertionSort (· ≤ ·) keys
  have hnames : ∀ p ∈ cs.flatMap lrows, p.1 ∈ keys := by
    intro p hp
    obtain ⟨c, hc, hpc⟩ := List.mem_flatMap.1 hp
    exact (hmem p.1).2 (List.mem_flatMap.2 ⟨c, hc, Nearest.lrows_named c p hpc⟩)
  refine ⟨q, keys.insertionSort (· ≤ ·), hq, fun l => hperm.mem_iff.trans (hmem l), ?_, ?_⟩
  · have h1 := List.pairwise_insertionSort (· ≤ ·) keys
    have h3 : (keys.insertionSort (· ≤ ·)).Nodup := hperm.nodup_iff.2 hnd
    have h3 : (keys.insertionSort (· ≤ ·)).Pairwise (· ≠ ·) := h3
    exact (List.Pairwise.and h1 h3).imp fun h => lt_of_le_of_ne h.1 h.2
  generalize hrs : cs.flatMap lrows = rs at *
  have hmap : (keys.insertionSort (· ≤ ·)).mapM (stopOne det inv q) = .ok ((keys.insertionSort (· ≤ ·)).map fun l =>
      ((⟨l, Real.sqrt (det (classCov rs l)), inv (classCov rs l), classMean rs l, ((rowsOf l rs).length : ℝ)⟩ : Cls d L),
        (rowsOf l rs).length)) := by
    apply mapM_ok
    intro l hl
    have hl := (hmem l).1 (hperm.mem_iff.1 hl)
    exact stopOne_eq det inv rs q l (by rw [hs l, if_pos hl]) (h2 l hl) (hdet l hl)
  have htot : ((keys.insertionSort (· ≤ ·)).map fun l => (rowsOf l rs).length).sum = rs.length := by
    rw [(hperm.map _).sum_eq, ← (Nearest.perm_by_label keys hnd rs hnames).length_eq, List.length_flatMap]
    simp
  unfold stop
  rw [hmap]
  simp only [List.map_map, Except.ok.injEq]
  have : ((fun c : Cls d L × Nat => c.2) ∘ fun l => ((⟨l, Real.sqrt (det (classCov rs l)), inv (classCov rs l),
      classMean rs l, ((rowsOf l rs).length : ℝ)⟩ : Cls d L), (rowsOf l rs).length)) = fun l => (rowsOf l rs).length := rfl
  rw [this, htot]
  rfl

/-! ## Classification -/

/-- C86: the probabilities of the classes of a row are the normalised products of prior and density; they are positive
and sum to one; the label returned has the largest product. -/
theorem gaussian_posterior [DecidableEq L] (det : Mat ℝ d d → ℝ) (inv : Mat ℝ d d → Mat ℝ d d) (rs : List (L × Row ℝ d))
    (ls : List L) (hls : ls ≠ []) (hpos : ∀ l ∈ ls, rowsOf l rs ≠ []) (hdet : ∀ l ∈ ls, 0 < det (classCov rs l))
    (cls : List (Cls d L)) (hcls : cls = ls.map fun l => ⟨l, Real.sqrt (det (classCov rs l)),
        inv (classCov rs l), classMean rs l, prior rs l⟩) (x : Row ℝ d) :
    prob cls x = ls.map (fun l => (l, weight det inv rs x l / (ls.map (weight det inv rs x)).sum)) ∧
    ((prob cls x).map (·.2)).sum = 1 ∧ (∀ p ∈ prob cls x, 0 < p.2) ∧
    ∃ l ∈ ls, label cls x = some l ∧ ∀ l' ∈ ls, weight det inv rs x l' ≤ weight det inv rs x l := by
  have hg : ∀ l, gaussianProb (⟨l, Real.sqrt (det (classCov rs l)), inv (classCov rs l), classMean rs l, prior rs l⟩ : Cls d L) x
      * prior rs l = weight det inv rs x l := by
    intro l
    unfold gaussianProb weight density
    simp only
    congr 4
    rw [Finset.sum_comm]
    exact Finset.sum_congr rfl fun j _ => Finset.sum_mul _ _ _
  have hw : ∀ l ∈ ls, 0 < weight det inv rs x l := by
    intro l hl
    unfold weight density prior
    have h1 : 0 < (rowsOf l rs).length := List.length_pos_iff.2 (hpos l hl)
    have h2 : (rowsOf l rs).length ≤ rs.length := by
      unfold rowsOf
      rw [List.length_map]
      exact List.length_filter_le _ _
    have h3 : (0 : ℝ) < (rowsOf l rs).length := by exact_mod_cast h1
    have h4 : (0 : ℝ) < rs.length := by exact_mod_cast lt_of_lt_of_le h1 h2
    have h5 := Real.sqrt_pos.2 (hdet l hl)
    have h6 := Real.pi_pos
    positivity
  generalize weight det inv rs x = w at hg hw
  have hS : 0 < (ls.map w).sum := by
    obtain ⟨a, l, rfl⟩ := List.exists_cons_of_ne_nil hls
    rw [List.map_cons, List.sum_cons]
    have : 0 ≤ (l.map w).sum := List.sum_nonneg fun v hv => by
      obtain ⟨b, hb, rfl⟩ := List.mem_map.1 hv
      exact le_of_lt (hw b (by simp [hb]))
    have := hw a (by simp)
    linarith
  have hcp : classProbabilities cls x = ls.map fun l => w l / (ls.map w).sum := by
    unfold classProbabilities
    simp only [hcls, List.map_map, Function.comp_def, hg]
  have hlab : cls.map (fun c => c.label) = ls := by
    rw [hcls, List.map_map]
    conv_rhs => rw [← List.map_id ls]
    rfl
  have hprob : prob cls x = ls.map fun l => (l, w l / (ls.map w).sum) := by
    unfold prob
    rw [hcp, hlab]
    generalize (ls.map w).sum = S
    clear * -
    induction ls with
    | nil => rfl
    | cons a ls ih => simp [ih]
  refine ⟨hprob, ?_, ?_, ?_⟩
  · rw [hprob, List.map_map]
    have : ∀ (l : List L) (S : ℝ), (l.map ((·.2) ∘ fun a => (a, w a / S))).sum = (l.map w).sum / S := by
      intro l S
      induction l with
      | nil => simp
      | cons a l ih => rw [List.map_cons, List.sum_cons, ih, List.map_cons, List.sum_cons, add_div]; rfl
    rw [this]
    exact div_self (ne_of_gt hS)
  · intro p hp
    rw [hprob] at hp
    obtain ⟨l, hl, rfl⟩ := List.mem_map.1 hp
    exact div_pos (hw l hl) hS
  · obtain ⟨i, v, h1, h2, h3⟩ := Nearest.argmax_spec (classProbabilities cls x) (by rw [hcp]; simpa using hls)
    rw [hcp, List.getElem?_map] at h2
    obtain ⟨l, hl, rfl⟩ := Option.map_eq_some_iff.1 h2
    refine ⟨l, List.mem_of_getElem? hl, ?_, fun l' hl' => ?_⟩
    · unfold label
      rw [h1, hlab]; exact hl
    · have := h3 (w l' / (ls.map w).sum) (by rw [hcp]; exact List.mem_map_of_mem hl')
      exact (div_le_div_iff_of_pos_right hS).1 this

theorem stopOne_singular [DecidableEq L] (det : Mat ℝ d d → ℝ) (inv : Mat ℝ d d → Mat ℝ d d)
    (rs : List (L × Row ℝ d)) (m : L → Option (Mat ℝ d d × Row ℝ d × Nat)) (l : L)
    (hm : m l = some (multT (rowsOf l rs) (rowsOf l rs), colSum (rowsOf l rs), (rowsOf l rs).length))
    (h2 : 2 ≤ (rowsOf l rs).length) (hdet : det (classCov rs l) = 0) :
    stopOne det inv m l = .error .singular := by
  obtain ⟨c, avg, e, hc, ha⟩ := covariance_correct (F := ℝ) (d := d) false [rowsOf l rs] (by simpa using h2)
  simp only [List.foldl_cons, List.foldl_nil, List.flatten_cons, List.flatten_nil, List.append_nil] at e hc ha
  have hst : (CovSt.new ℝ d false).update (rowsOf l rs) =
      CovSt.mk (some (multT (rowsOf l rs) (rowsOf l rs), colSum (rowsOf l rs))) (rowsOf l rs).length false := by
    simp [CovSt.new, CovSt.update]
  rw [hst] at e
  have hc : c = classCov rs l := by funext i j; exact hc i j
  subst hc
  unfold stopOne
  rw [hm]
  simp only [e]
  rw [if_pos (by rw [hdet, Real.sqrt_zero])]

/-- C86: if the covariance matrix of the rows of some label is singular, `stop_training` raises. -/
theorem gaussian_singular [LinearOrder L] (det : Mat ℝ d d → ℝ) (inv : Mat ℝ d d → Mat ℝ d d)
    (cs : List (List (Row ℝ d) × Labels L)) (hok : ∀ c ∈ cs, labelsOk c.1 c.2 = true)
    (keys : List L) (hmem : ∀ l, l ∈ keys ↔ l ∈ cs.flatMap named)
    (h2 : ∀ l ∈ cs.flatMap named, 2 ≤ (rowsOf l (cs.flatMap lrows)).length)
    (hdet : ∀ l ∈ cs.flatMap named, 0 ≤ det (classCov (cs.flatMap lrows) l))
    (hsing : ∃ l ∈ cs.flatMap named, det (classCov (cs.flatMap lrows) l) = 0) :
    ∃ q, cs.foldlM (fun m c => gaussTrain m c.1 c.2) (fun _ => none) = .ok q ∧
      stop det inv keys q = .error .singular := by
  obtain ⟨q, hq, hs⟩ := gauss_sums cs hok
  refine ⟨q, hq, ?_⟩
  have hperm := List.perm_insertionSort (· ≤ ·) keys
  have hm : ∀ ls : List L, (∀ l ∈ ls, l ∈ cs.flatMap named) →
      (∃ l ∈ ls, det (classCov (cs.flatMap lrows) l) = 0) → ls.mapM (stopOne det inv q) = .error .singular := by
    intro ls
    induction ls with
    | nil => intro _ h; obtain ⟨l, hl, _⟩ := h; simp at hl
    | cons a ls ih =>
      intro hn hx
      rw [List.mapM_cons]
      have ha := hn a (by simp)
      have hqa := hs a
      rw [if_pos ha] at hqa
      rcases eq_or_lt_of_le (hdet a ha) with h0 | hp
      · rw [stopOne_singular det inv _ q a hqa (h2 a ha) h0.symm]; rfl
      · rw [stopOne_eq det inv _ q a hqa (h2 a ha) hp]
        have : ls.mapM (stopOne det inv q) = .error .singular := by
          refine ih (fun l hl => hn l (by simp [hl])) ?_
          obtain ⟨l, hl, h0⟩ := hx
          rcases List.mem_cons.1 hl with rfl | hl
          · exact absurd h0 (ne_of_gt hp)
          · exact ⟨l, hl, h0⟩
        rw [this]; rfl
  unfold stop
  obtain ⟨l, hl, h0⟩ := hsing
  rw [hm (keys.insertionSort (· ≤ ·)) (fun l hl => (hmem l).1 (hperm.mem_iff.1 hl))
    ⟨l, hperm.mem_iff.2 ((hmem l).2 hl), h0⟩]

/-! ## Examples -/

/-- Chunks for the examples, with one column. -/
def exChunks : List (List (Row ℝ 1) × Labels Nat) :=
  [([fun _ => 0, fun _ => 2], .one 7), ([fun _ => 5, fun _ => 9], .each [3, 3])]

example : (∀ c ∈ exChunks, labelsOk c.1 c.2 = true) ∧ (∀ l, l ∈ [7, 3] ↔ l ∈ exChunks.flatMap named) ∧
    (∀ l ∈ exChunks.flatMap named, 2 ≤ (rowsOf l (exChunks.flatMap lrows)).length) ∧
    (∀ l ∈ exChunks.flatMap named, 0 < (fun m : Mat ℝ 1 1 => m 0 0) (classCov (exChunks.flatMap lrows) l)) := by
  refine ⟨by simp [exChunks, labelsOk], fun l => by simp [exChunks, named], by
    simp [exChunks, named, lrows, rowsOf], ?_⟩
  simp [exChunks, named, lrows, rowsOf, classCov, Cov.cov, Cov.codev, Cov.mean]
  norm_num

end Mdp.Gaussian
