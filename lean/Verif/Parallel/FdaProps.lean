import Verif.Parallel.NodeJoinProps

/-!
# FDANode and class means: what is gathered, sequentially and in parallel (C44, C80)
-/

namespace Mdp.Join

open Cov

variable {F : Type} [Field F] {d : Nat} {L : Type} [DecidableEq L] {M : Type}

/-! ## Specification -/

/-- The labelled rows of a chunk. -/
def lrows (c : List (Row F d) × Labels L) : List (L × Row F d) :=
  match c.2 with
  | .one l => c.1.map fun x => (l, x)
  | .each ls => ls.zip c.1

/-- The labels named by a chunk. -/
def named (c : List (Row F d) × Labels L) : List L :=
  match c.2 with
  | .one l => [l]
  | .each ls => ls

/-- The rows with a label. -/
def rowsOf (k : L) (rs : List (L × Row F d)) : List (Row F d) := (rs.filter fun p => p.1 = k).map (·.2)

/-- Scatter of labelled rows around given centres. -/
def scatter (m : L → Row F d) (rs : List (L × Row F d)) : Mat F d d :=
  fun i j => (rs.map fun p => (p.2 i - m p.1 i) * (p.2 j - m p.1 j)).sum

/-! ## Class sums -/

theorem rowsOf_append (k : L) (a b : List (L × Row F d)) : rowsOf k (a ++ b) = rowsOf k a ++ rowsOf k b := by
  simp [rowsOf]

theorem rowsOf_one (k : L) (x : List (Row F d)) : rowsOf k (x.map fun a => (k, a)) = x := by
  simp [rowsOf, List.filter_map, Function.comp_def]

theorem rowsOf_not_named (k : L) (c : List (Row F d) × Labels L) (h : k ∉ named c) : rowsOf k (lrows c) = [] := by
  obtain ⟨x, l⟩ := c
  cases l with
  | one l =>
    simp only [named, List.mem_singleton] at h
    simp only [rowsOf, lrows, List.map_eq_nil_iff, List.filter_eq_nil_iff, List.mem_map, decide_eq_true_eq]
    rintro p ⟨a, -, rfl⟩ rfl
    exact h rfl
  | each ls =>
    simp only [named] at h
    simp only [rowsOf, lrows, List.map_eq_nil_iff, List.filter_eq_nil_iff, decide_eq_true_eq]
    rintro ⟨a, b⟩ hp rfl
    exact h (List.of_mem_zip hp).1

theorem lookup_dedup_map (ls : List L) (g : L → M) (k : L) :
    (ls.dedup.map fun l => (l, g l)).lookup k = if k ∈ ls then some (g k) else none := by
  have : ∀ D : List L, (D.map fun l => (l, g l)).lookup k = if k ∈ D then some (g k) else none := by
    intro D
    induction D with
    | nil => rfl
    | cons a D ih =>
      simp only [List.map_cons, List.lookup_cons]
      by_cases h : k = a
      · subst h; simp
      · rw [show (k == a) = false by simpa using h, ih]; simp [h]
  rw [this]
  simp only [List.mem_dedup]

theorem contrib_eq (f : List (Row F d) → M) (c : List (Row F d) × Labels L) (k : L) :
    contrib f c k = if k ∈ named c then some (f (rowsOf k (lrows c))) else none := by
  obtain ⟨x, l⟩ := c
  cases l with
  | one l =>
    simp only [contrib, groups, named, List.mem_singleton, List.lookup_cons, List.lookup_nil]
    by_cases h : k = l
    · subst h; simp [lrows, rowsOf_one]
    · rw [show (k == l) = false by simpa using h, if_neg h]; rfl
  | each ls =>
    change ((groups x (.each ls)).lookup k).map f = if k ∈ ls then _ else _
    simp only [groups]
    rw [lookup_dedup_map ls (fun l => ((ls.zip x).filter fun p => p.1 = l).map (·.2)) k]
    by_cases h : k ∈ ls
    · rw [if_pos h, if_pos h]; rfl
    · rw [if_neg h, if_neg h]; rfl

/-- **C44**, **C57**: after training with any chunks, every label named has the sum and the number of the rows with
that label, other labels have no entry. -/
theorem class_sums (cs : List (List (Row F d) × Labels L)) (hok : ∀ c ∈ cs, labelsOk c.1 c.2 = true) :
    ∃ q, cs.foldlM (fun m c => meanTrain m c.1 c.2) (fun _ => none) = .ok q
      ∧ ∀ k, q k = if k ∈ cs.flatMap named
          then some (colSum (rowsOf k (cs.flatMap lrows)), (rowsOf k (cs.flatMap lrows)).length) else none := by
  let f : List (Row F d) → Row F d × Nat := fun x => (colSum x, x.length)
  refine ⟨_, foldlM_ok (fun c => labelsOk c.1 c.2 = true) _ (labT (· + ·) f)
    (fun m c hc => labTrain_ok _ _ zero_add _ m c hc) cs hok _, ?_⟩
  clear hok
  intro k
  induction cs with
  | nil => simp
  | cons c cs ih =>
    rw [List.foldl_cons, labT_run (· + ·) add_assoc, ih]
    have hn : k ∉ cs.flatMap named → rowsOf k (cs.flatMap lrows) = [] := by
      clear ih
      intro h
      induction cs with
      | nil => rfl
      | cons c cs ih =>
        simp only [List.flatMap_cons, List.mem_append, not_or] at h
        rw [List.flatMap_cons, rowsOf_append, ih h.2, rowsOf_not_named k c h.1, List.append_nil]
    simp only [labT, oplus_none_left, contrib_eq, List.flatMap_cons, List.mem_append, rowsOf_append]
    by_cases h1 : k ∈ named c <;> by_cases h2 : k ∈ cs.flatMap named
    · simp only [h1, h2, or_self, if_true, oplus, f, Prod.mk_add_mk, colSum_append, List.length_append]
    · simp only [h1, h2, or_false, if_true, if_false, oplus_none_right, f, hn h2, List.append_nil]
    · simp only [h1, h2, or_true, if_true, if_false, oplus_none_left, rowsOf_not_named k c h1, List.nil_append]
    · simp [h1, h2]

/-! ## FDANode, second phase -/

theorem sum_filter_dedup (D : List L) (hD : D.Nodup) (rs : List (L × Row F d)) (h : ∀ p ∈ rs, p.1 ∈ D)
    (g : L → Row F d → F) :
    (D.map fun l => ((rowsOf l rs).map (g l)).sum).sum = (rs.map fun p => g p.1 p.2).sum := by
  induction rs with
  | nil => simp [rowsOf]
  | cons p rs ih =>
    have hstep : ∀ l, ((rowsOf l (p :: rs)).map (g l)).sum
        = (if l = p.1 then g p.1 p.2 else 0) + ((rowsOf l rs).map (g l)).sum := by
      intro l
      by_cases hl : p.1 = l
      · subst hl; simp [rowsOf]
      · simp [rowsOf, hl, Ne.symm hl]
    simp only [hstep, List.sum_map_add]
    rw [ih fun q hq => h q (by simp [hq]), List.map_cons, List.sum_cons]
    congr 1
    have hp := h p (by simp)
    clear hstep ih h
    induction D with
    | nil => simp at hp
    | cons a D ihD =>
      simp only [List.nodup_cons] at hD
      simp only [List.map_cons, List.sum_cons]
      by_cases ha : a = p.1
      · subst ha
        have : (D.map fun l => if l = p.1 then g p.1 p.2 else 0) = D.map fun _ => 0 := by
          apply List.map_congr_left
          intro l hl
          rw [if_neg]
          rintro rfl
          exact hD.1 hl
        simp [this]
      · rw [if_neg ha, zero_add]
        exact ihD hD.2 (by simpa [Ne.symm ha] using hp)

theorem multT_sub (m : Row F d) (x : List (Row F d)) (i j : Fin d) :
    multT (x.map fun a => a - m) (x.map fun a => a - m) i j = (x.map fun a => (a i - m i) * (a j - m j)).sum := by
  simp [multT, List.zipWith_self, Function.comp_def]

theorem addSW_ok (means : L → Option (Row F d)) (gs : List (L × List (Row F d))) (sw : Mat F d d)
    (h : ∀ g ∈ gs, means g.1 ≠ none) :
    addSW means sw gs = (.ok (), sw + fun i j => (gs.map fun g =>
      (g.2.map fun a => (a i - (means g.1).getD 0 i) * (a j - (means g.1).getD 0 j)).sum).sum) := by
  induction gs generalizing sw with
  | nil => simp [addSW]; rfl
  | cons g gs ih =>
    rw [addSW]
    cases hm : means g.1 with
    | none => exact absurd hm (h g (by simp))
    | some m =>
      simp only
      rw [ih _ fun g hg => h g (by simp [hg])]
      congr 1
      funext i j
      simp only [Pi.add_apply, multT_sub, List.map_cons, List.sum_cons, hm, Option.getD_some, add_assoc]

theorem named_groups (c : List (Row F d) × Labels L) (g : L × List (Row F d)) (hg : g ∈ groups c.1 c.2) :
    g.1 ∈ named c := by
  obtain ⟨x, l⟩ := c
  cases l with
  | one l => simp [groups] at hg; simp [named, hg]
  | each ls =>
    simp only [groups, List.mem_map, List.mem_dedup] at hg
    obtain ⟨l, hl, rfl⟩ := hg
    exact hl

theorem groups_sum (c : List (Row F d) × Labels L) (g : L → Row F d → F) :
    ((groups c.1 c.2).map fun p => (p.2.map (g p.1)).sum).sum = ((lrows c).map fun p => g p.1 p.2).sum := by
  obtain ⟨x, l⟩ := c
  cases l with
  | one l => simp [groups, lrows, Function.comp_def]
  | each ls =>
    have := sum_filter_dedup ls.dedup (List.nodup_dedup ls) (ls.zip x)
      (fun p hp => List.mem_dedup.mpr (List.of_mem_zip (a := p.1) (b := p.2) hp).1) g
    simpa only [groups, lrows, rowsOf, List.map_map, Function.comp_def] using this

/-- Training with a chunk whose labels are known. -/
def fdaT (means : L → Option (Row F d)) (s : FdaSt F d L) (c : List (Row F d) × Labels L) : FdaSt F d L :=
  { s with sw := some (s.sw.getD 0 + scatter (fun l => (means l).getD 0) (lrows c)), allcov := s.allcov.update c.1 }

/-- A chunk with as many labels as rows, all known from the first phase. -/
def Known (means : L → Option (Row F d)) (c : List (Row F d) × Labels L) : Prop :=
  labelsOk c.1 c.2 = true ∧ ∀ l ∈ named c, means l ≠ none

theorem fdaTrain_ok (s : FdaSt F d L) (c : List (Row F d) × Labels L) (hc : Known s.means c) :
    fdaTrain s c.1 c.2 = (.ok (), fdaT s.means s c) := by
  unfold fdaTrain
  rw [if_pos hc.1]
  simp only
  rw [addSW_ok s.means _ _ fun g hg => hc.2 _ (named_groups c g hg)]
  unfold fdaT scatter
  simp only
  congr 4
  funext i j
  exact groups_sum c fun l a => (a i - (s.means l).getD 0 i) * (a j - (s.means l).getD 0 j)

/-- Train with chunks one after the other, up to the first exception. -/
def fdaRun (s : FdaSt F d L) (cs : List (List (Row F d) × Labels L)) : Except Err (FdaSt F d L) :=
  cs.foldlM (fun s c => match fdaTrain s c.1 c.2 with
    | (.ok (), s') => .ok s'
    | (.error e, _) => .error e) s

theorem fdaRun_ok (s : FdaSt F d L) (cs : List (List (Row F d) × Labels L)) (hc : ∀ c ∈ cs, Known s.means c) :
    fdaRun s cs = .ok (cs.foldl (fdaT s.means) s) := by
  suffices h : ∀ (means : L → Option (Row F d)) (s : FdaSt F d L), s.means = means → (∀ c ∈ cs, Known means c) →
      fdaRun s cs = .ok (cs.foldl (fdaT means) s) from h s.means s rfl hc
  clear hc s
  intro means
  induction cs with
  | nil => intros; rfl
  | cons c cs ih =>
    intro s hs hc
    subst hs
    rw [fdaRun, List.foldlM_cons, fdaTrain_ok s c (hc c (by simp))]
    exact ih (fdaT s.means s c) rfl fun c hc' => hc c (by simp [hc'])

theorem scatter_append (m : L → Row F d) (a b : List (L × Row F d)) : scatter m (a ++ b) = scatter m a + scatter m b := by
  funext i j; simp [scatter]

theorem fdaT_run (means : L → Option (Row F d)) (s : FdaSt F d L) (cs : List (List (Row F d) × Labels L))
    (h : cs ≠ [] ∨ s.sw ≠ none) :
    cs.foldl (fdaT means) s = ⟨s.means,
      some (s.sw.getD 0 + scatter (fun l => (means l).getD 0) (cs.flatMap lrows)),
      (cs.map (·.1)).foldl CovSt.update s.allcov⟩ := by
  induction cs generalizing s with
  | nil =>
    obtain ⟨m, _ | w, a⟩ := s
    · simp at h
    · simp [scatter]; rfl
  | cons c cs ih =>
    rw [List.foldl_cons, ih _ (Or.inr (by simp [fdaT]))]
    simp only [fdaT, Option.getD_some, List.flatMap_cons, scatter_append, add_assoc, List.map_cons, List.foldl_cons]

def FdaInv (means : L → Option (Row F d)) (s : FdaSt F d L) : Prop :=
  s.means = means ∧ CovInv s.allcov ∧ (s.sw = none ↔ s.allcov.acc = none)

theorem fda_join_run (means : L → Option (Row F d)) (s : FdaSt F d L) (hs : FdaInv means s)
    (j : List (List (Row F d) × Labels L)) (hne : j ≠ []) :
    fdaJoin s (j.foldl (fdaT means) ⟨means, none, CovSt.new F d false⟩) = .ok (j.foldl (fdaT means) s) := by
  obtain ⟨rfl, h2, h3⟩ := hs
  rw [fdaT_run _ _ _ (Or.inl hne), fdaT_run _ _ _ (Or.inl hne)]
  have e := pca_join_run s.allcov h2 (j.map (·.1)) (by simpa using hne)
  simp only [pcaJoin] at e
  unfold fdaJoin
  cases hw : s.sw with
  | none =>
    rw [h3.mp hw] at e
    simp only [Except.ok.injEq] at e
    dsimp only
    rw [e]
  | some w =>
    cases ha : s.allcov.acc with
    | none => rw [h3.mpr ha] at hw; cases hw
    | some a =>
      rw [ha] at e
      dsimp only at e ⊢
      rw [e]
      simp only [Option.getD_none, zero_add, Option.getD_some]

/-- **C44**, FDANode, second phase: however the chunks are distributed over forks and in whatever order these are
joined, the within-class scatter and the total covariance are those of sequential training. `sums`: the result of the
first phase; `prior`: the chunks given to the node itself before. -/
theorem fda_fork_join (sums : L → Option (Row F d × Nat)) (prior : List (List (Row F d) × Labels L))
    (jobs jobs' : List (List (List (Row F d) × Labels L))) (hperm : jobs'.Perm jobs) (hne : ∀ j ∈ jobs, j ≠ [])
    (hk : ∀ c ∈ prior ++ jobs.flatten, labelsOk c.1 c.2 = true ∧ ∀ l ∈ named c, sums l ≠ none) :
    ∃ p forks q, fdaRun (fdaStart sums) prior = .ok p
      ∧ (jobs'.mapM fun j => fdaRun (fdaFork p) j) = .ok forks
      ∧ forks.foldlM fdaJoin p = .ok q
      ∧ fdaRun (fdaStart sums) (prior ++ jobs.flatten) = .ok q := by
  have hk' : ∀ c ∈ prior ++ jobs.flatten, Known (stopMeans sums) c := by
    intro c hc
    refine ⟨(hk c hc).1, fun l hl h => (hk c hc).2 l hl ?_⟩
    simpa [stopMeans] using h
  generalize hm : stopMeans sums = means at hk'
  have hstart : fdaStart sums = ⟨means, none, CovSt.new F d false⟩ := by rw [fdaStart, hm]
  rw [hstart]
  have hinvT : ∀ p (c : List (Row F d) × Labels L), FdaInv means p → FdaInv means (fdaT means p c) :=
    fun p c h => ⟨h.1, covInv_update _ _ h.2.1, by simp [fdaT, CovSt.update]⟩
  have h0 : FdaInv means (⟨means, none, CovSt.new F d false⟩ : FdaSt F d L) := ⟨rfl, ⟨fun _ => rfl, rfl⟩, by simp [CovSt.new]⟩
  have hp : FdaInv means (prior.foldl (fdaT means) ⟨means, none, CovSt.new F d false⟩) := by
    clear hk hk'
    generalize (⟨means, none, CovSt.new F d false⟩ : FdaSt F d L) = s at h0
    induction prior generalizing s with
    | nil => exact h0
    | cons c l ih => exact ih _ (hinvT s c h0)
  have hrun := fork_join_generic (Known means) (fdaT means) fdaJoin (FdaInv means) ⟨means, none, CovSt.new F d false⟩
    hinvT (fun p x y => by
      unfold fdaT
      simp only [Option.getD_some]
      rw [update_comm, add_right_comm])
    (fun p hp j hj _ => fda_join_run means p hp j hj) jobs jobs' hperm hne
    (fun j hj x hx => hk' x (by simp only [List.mem_append, List.mem_flatten]; exact Or.inr ⟨j, hj, hx⟩)) _ hp
  have hfork : fdaFork (prior.foldl (fdaT means) ⟨means, none, CovSt.new F d false⟩)
      = ⟨means, none, CovSt.new F d false⟩ := by simp only [fdaFork, hp.1]
  refine ⟨_, _, _, fdaRun_ok _ prior (fun c hc => hk' c (by simp [hc])), mapM_ok _ _ _ ?_, hrun, ?_⟩
  · intro j hj
    rw [hfork]
    refine fdaRun_ok _ j fun c hc => hk' c ?_
    simp only [List.mem_append, List.mem_flatten]
    exact Or.inr ⟨j, hperm.mem_iff.mp hj, hc⟩
  · rw [fdaRun_ok _ _ hk', List.foldl_append]

/-- **C80**: two passes over the same labelled data, cut into chunks in any two ways, give the scatter of the rows
around the means of their classes, and all rows are counted in the total covariance. -/
theorem fda_within_class (cs cs' : List (List (Row F d) × Labels L)) (hne : cs' ≠ [])
    (hok : ∀ c ∈ cs ++ cs', labelsOk c.1 c.2 = true)
    (hsame : ∀ c ∈ cs', ∀ l ∈ named c, l ∈ cs.flatMap named) (hrows : cs'.flatMap lrows = cs.flatMap lrows) :
    ∃ sums q, cs.foldlM (fun m c => meanTrain m c.1 c.2) (fun _ => none) = .ok sums
      ∧ fdaRun (fdaStart sums) cs' = .ok q
      ∧ q.sw = some (scatter (fun l i => mean ((rowsOf l (cs.flatMap lrows)).map fun x => x i)) (cs.flatMap lrows))
      ∧ q.allcov = (cs'.map (·.1)).foldl CovSt.update (CovSt.new F d false) := by
  obtain ⟨sums, h1, h2⟩ := class_sums cs fun c hc => hok c (by simp [hc])
  have hk : ∀ c ∈ cs', Known (stopMeans sums) c := by
    intro c hc
    refine ⟨hok c (by simp [hc]), fun l hl h => ?_⟩
    rw [stopMeans, h2, if_pos (hsame c hc l hl)] at h
    cases h
  refine ⟨sums, _, h1, fdaRun_ok (fdaStart sums) cs' hk, ?_, ?_⟩
  · rw [fdaT_run _ _ _ (Or.inl hne)]
    simp only [fdaStart, Option.getD_none, zero_add, hrows]
    congr 1
    funext i j
    unfold scatter
    congr 1
    apply List.map_congr_left
    intro p hp
    have hin : p.1 ∈ cs.flatMap named := by
      obtain ⟨c, hc, hp⟩ := List.mem_flatMap.mp hp
      refine List.mem_flatMap.mpr ⟨c, hc, ?_⟩
      by_contra hn
      have := rowsOf_not_named p.1 c hn
      have hmem : p.2 ∈ rowsOf p.1 (lrows c) := by
        simp only [rowsOf, List.mem_map, List.mem_filter, decide_eq_true_eq]
        exact ⟨p, ⟨hp, rfl⟩, rfl⟩
      rw [this] at hmem
      cases hmem
    have hm : ∀ i, (stopMeans sums p.1).getD 0 i = mean ((rowsOf p.1 (cs.flatMap lrows)).map fun x => x i) := by
      intro i
      simp [stopMeans, h2, hin, divR, colSum, mean]
    dsimp only
    rw [hm, hm]
  · rw [fdaT_run _ _ _ (Or.inl hne)]
    rfl

/-- Labels given one by one in the first pass, chunks of one class in the second. -/
example : (∀ c ∈ [(([![1], ![2], ![4]] : List (Row ℚ 1)), Labels.each [0, 1, 1])]
      ++ [([![1]], Labels.one 0), ([![2], ![4]], Labels.one 1)], labelsOk c.1 c.2 = true)
    ∧ [(([![1]] : List (Row ℚ 1)), Labels.one 0), ([![2], ![4]], Labels.one 1)].flatMap lrows
      = [(([![1], ![2], ![4]] : List (Row ℚ 1)), Labels.each [0, 1, 1])].flatMap lrows := by
  constructor
  · decide
  · rfl

/-- A label that was not seen in the first phase raises in the second, after the chunk has been counted in the total
covariance. -/
theorem fda_unknown_label (sums : L → Option (Row F d × Nat)) (x : List (Row F d)) (l : L) (h : sums l = none) :
    (fdaTrain (fdaStart sums) x (.one l)).1 = .error .key
    ∧ (fdaTrain (fdaStart sums) x (.one l)).2.allcov.tlen = x.length := by
  simp [fdaTrain, labelsOk, groups, addSW, fdaStart, stopMeans, h, CovSt.update, CovSt.new]

end Mdp.Join
