import Verif.Nodes.IncSfa
import Verif.Nodes.McaProps
import Verif.Online.StatsProps

/-!
# Theorems about `IncSFANode`
-/

namespace Mdp.IncSfa

open Mdp.Cov (Row Mat)
open Mdp.Pca (dot)
open Mdp.OnlineStats Mdp.Ccipca

variable {d p : Nat}

/-! ## One sample -/

/-- What a step is: the parts of the node after it. -/
theorem step_ok {s s' : ISt d p} {x : Row ℝ d} {c : Option ℝ} (h : s.step x = .ok (s', c)) :
    ∃ wh y, s.wh.row (centered (s.avg.map fun a => a.row x) x) = .ok wh ∧
      whiten p wh (centered (s.avg.map fun a => a.row x) x) = .ok y ∧
      s'.avg = (s.avg.map fun a => a.row x) ∧ s'.wh = wh ∧ s'.td = s.td.step [y] ∧ s'.newEp = s.newEp ∧
      s'.initSf = s.initSf ∧ s'.incremental = s.incremental ∧ s'.iter = s.iter ∧
      (s.newEp = some true → s'.mca = s.mca ∧ s'.sf = s.sf ∧ c = none) ∧
      (s.newEp ≠ some true → s.mca.step (diffs (s.td.step [y]) y) = .ok s'.mca ∧
        s'.sf = some (mulCols (whV wh) (mcaV s'.mca))) := by
  unfold ISt.step at h
  simp only at h
  split at h
  · simp at h
  · rename_i wh h1
    split at h
    · simp at h
    · rename_i y h2
      split at h
      · rename_i h3
        simp only [Except.ok.injEq, Prod.mk.injEq] at h
        obtain ⟨rfl, rfl⟩ := h
        exact ⟨wh, y, h1, h2, rfl, rfl, rfl, rfl, rfl, rfl, rfl, fun _ => ⟨rfl, rfl, rfl⟩, fun h => absurd h3 h⟩
      · rename_i h3
        split at h
        · simp at h
        · rename_i mca h4
          simp only [Except.ok.injEq, Prod.mk.injEq] at h
          obtain ⟨rfl, rfl⟩ := h
          exact ⟨wh, y, h1, h2, rfl, rfl, rfl, rfl, rfl, rfl, rfl, fun h => absurd h h3, fun _ => ⟨h4, rfl⟩⟩

theorem row_ok {s s' : ISt d p} {x : Row ℝ d} {ne : Option Bool} (h : s.row ne x = .ok s') :
    ∃ t c, ({ s with newEp := ne.or s.newEp } : ISt d p).step x = .ok (t, c) ∧
      s' = { t with wv := some (whV t.wh), sfChange := c, iter := t.iter + 1 } := by
  have h' : (match ({ s with newEp := ne.or s.newEp } : ISt d p).step x with
      | .error e => .error e
      | .ok (s, c) => .ok { s with wv := some (whV s.wh), sfChange := c, iter := s.iter + 1 }) = Except.ok s' := by
    cases ne <;> exact h
  clear h
  revert h'
  generalize ({ s with newEp := ne.or s.newEp } : ISt d p).step x = r
  intro h
  split at h
  · simp at h
  · rename_i t c
    simp only [Except.ok.injEq] at h
    exact ⟨t, c, rfl, h.symm⟩

theorem setInit_fields (s : PSt d) (vs : List (Row ℝ d)) : (s.setInit vs).2.iter = s.iter ∧
    (s.setInit vs).2.started = s.started ∧ (s.setInit vs).2.incremental = s.incremental ∧ (s.setInit vs).2.initV = some vs := by
  obtain ⟨_, _, _, _, comps, _, out, _, _, _, _⟩ := s
  cases comps <;> cases out with
  | none => exact ⟨rfl, rfl, rfl, rfl⟩
  | some n =>
    by_cases h : n = vs.length
    · simp only [PSt.setInit]; rw [if_pos h]; exact ⟨rfl, rfl, rfl, rfl⟩
    · simp only [PSt.setInit]; rw [if_neg h]; exact ⟨rfl, rfl, rfl, rfl⟩

theorem mca_setInit_iter (s : MSt d) (vs : List (Row ℝ d)) : (s.setInit vs).2.iter = s.iter := by
  obtain ⟨_, _, _, _, comps, out, _, _⟩ := s
  cases comps <;> cases out with
  | none => rfl
  | some n =>
    by_cases h : n = vs.length
    · simp only [MSt.setInit]; rw [if_pos h]
    · simp only [MSt.setInit]; rw [if_neg h]

theorem wh_row_iter {s s' : PSt d} {x : Row ℝ d} (h : s.row x = .ok s') : s'.iter = s.iter + 1 := by
  obtain ⟨_, _, _, _, _, _, rfl⟩ := Ccipca.row_ok h
  rfl

theorem wh_rows_iter (xs : List (Row ℝ d)) : ∀ {s s' : PSt d}, s.rows xs = .ok s' → s'.iter = s.iter + xs.length := by
  induction xs with
  | nil => intro s s' h; simp only [PSt.rows, Except.ok.injEq] at h; subst h; rfl
  | cons x xs ih =>
    intro s s' h
    simp only [PSt.rows] at h
    split at h
    · simp at h
    · rename_i t h1
      rw [ih h, wh_row_iter h1]
      simp only [List.length_cons]
      omega

/-- The number of samples a part has been trained with: averaging, whitening, minor components. -/
def counts (s : ISt d p) : Option Nat × Nat × Nat := (s.avg.map CSt.iter, s.wh.iter, s.mca.iter)

/-- After a sample the buffer of the time differences holds one whitened sample. -/
def Ready (s : ISt d p) : Prop := ∃ a y, s.td.bufs = some (a, [y])

theorem rows_episode (xs : List (Row ℝ d)) : ∀ {s s' : ISt d p} {ne : Option Bool}, ne.or s.newEp = some true →
    s.rows ne xs = .ok s' → s'.mca = s.mca ∧ s'.sf = s.sf ∧ s'.newEp = (if xs = [] then s.newEp else some true) ∧
      s'.avg.map CSt.iter = s.avg.map (fun a => a.iter + xs.length) ∧ s'.wh.iter = s.wh.iter + xs.length ∧
      s'.initSf = s.initSf ∧ s'.incremental = s.incremental ∧ (xs ≠ [] → Ready s') := by
  induction xs with
  | nil =>
    intro s s' ne _ h
    simp only [ISt.rows, Except.ok.injEq] at h
    subst h
    simp
  | cons x xs ih =>
    intro s s' ne hn h
    simp only [ISt.rows] at h
    split at h
    · simp at h
    · rename_i t h1
      obtain ⟨t', c, h2, rfl⟩ := row_ok h1
      obtain ⟨wh, y, g1, g2, g3, g4, g5, g6, g7, g8, g9, g10, _⟩ := step_ok h2
      have gm := g10 hn
      have hn' : ne.or t'.newEp = some true := by
        rw [g6]
        simp only
        rw [hn]
        cases ne <;> simp_all
      obtain ⟨k1, k2, k3, k4, k5, k6, k7, k8⟩ := ih (s := { t' with wv := some (whV t'.wh), sfChange := c, iter := t'.iter + 1 }) hn' h
      refine ⟨by rw [k1]; exact gm.1, by rw [k2]; exact gm.2.1, ?_, ?_, ?_, by rw [k6]; exact g7, by rw [k7]; exact g8, fun _ => ?_⟩
      · rw [k3]
        simp only [reduceCtorEq, if_false]
        split
        · simp only [g6, hn]
        · rfl
      · rw [k4]
        simp only [g3]
        cases s.avg with
        | none => rfl
        | some a =>
          simp only [Option.map_some, CSt.row, List.length_cons]
          congr 1
          omega
      · rw [k5]
        simp only [g4, wh_row_iter g1, List.length_cons]
        omega
      · by_cases hx : xs = []
        · subst hx
          simp only [ISt.rows, Except.ok.injEq] at h
          subst h
          refine ⟨(s.td.bufs.getD ([], [])).2, y, ?_⟩
          simp only [g5]
          rfl
        · exact k8 hx

theorem mca_step_iter {s s' : MSt d} {x : List (Row ℝ d)} (h : s.step x = .ok s') : s'.iter = s.iter + x.length := by
  obtain ⟨_, _, _, _, _, _, rfl⟩ := Ccipca.step_ok h
  rfl

theorem diffs_ready (t : DSt ℝ p) (a : List (Row ℝ p)) (y0 y : Row ℝ p) (h : t.bufs = some (a, [y0])) :
    diffs (t.step [y]) y = [y - y0] := by
  simp [diffs, DSt.step, h]

theorem rows_within (xs : List (Row ℝ d)) : ∀ {s s' : ISt d p} {ne : Option Bool}, ne.or s.newEp ≠ some true → Ready s →
    s.rows ne xs = .ok s' → s'.mca.iter = s.mca.iter + xs.length ∧
      s'.avg.map CSt.iter = s.avg.map (fun a => a.iter + xs.length) ∧ s'.wh.iter = s.wh.iter + xs.length ∧ Ready s' ∧
      s'.incremental = s.incremental ∧ s'.initSf = s.initSf ∧ (s'.newEp = s.newEp ∨ s'.newEp = ne.or s.newEp) ∧
      (xs ≠ [] → s'.sf = some (mulCols (whV s'.wh) (mcaV s'.mca)) ∧ s'.wv = some (whV s'.wh)) := by
  induction xs with
  | nil =>
    intro s s' ne _ hr h
    simp only [ISt.rows, Except.ok.injEq] at h
    subst h
    simp [hr]
  | cons x xs ih =>
    intro s s' ne hn hr h
    simp only [ISt.rows] at h
    split at h
    · simp at h
    · rename_i t h1
      obtain ⟨t', c, h2, rfl⟩ := row_ok h1
      obtain ⟨wh, y, g1, g2, g3, g4, g5, g6, g7, g8, g9, _, g11⟩ := step_ok h2
      obtain ⟨a, y0, hr⟩ := hr
      have gm := g11 hn
      have hd := diffs_ready s.td a y0 y hr
      simp only [hd] at gm
      have hn' : ne.or t'.newEp ≠ some true := by
        rw [g6]
        simp only
        cases ne <;> simp_all
      have hr' : Ready { t' with wv := some (whV t'.wh), sfChange := c, iter := t'.iter + 1 } :=
        ⟨(s.td.bufs.getD ([], [])).2, y, by simp only [g5]; rfl⟩
      obtain ⟨k1, k2, k3, k4, k5, k6, k7, k8⟩ := ih (s := { t' with wv := some (whV t'.wh), sfChange := c, iter := t'.iter + 1 }) hn' hr' h
      refine ⟨?_, ?_, ?_, k4, by rw [k5]; exact g8, by rw [k6]; exact g7, ?_, fun _ => ?_⟩
      · rw [k1]
        simp only [mca_step_iter gm.1, List.length_cons, List.length_nil]
        omega
      · rw [k2]
        simp only [g3]
        cases s.avg with
        | none => rfl
        | some a =>
          simp only [Option.map_some, CSt.row, List.length_cons]
          congr 1
          omega
      · rw [k3]
        simp only [g4, wh_row_iter g1, List.length_cons]
        omega
      · right
        rcases k7 with k7 | k7 <;> rw [k7]
        · exact g6
        · simp only [g6]
          cases ne <;> simp
      · by_cases hx : xs = []
        · subst hx
          simp only [ISt.rows, Except.ok.injEq] at h
          subst h
          simp only [g4]
          exact ⟨gm.2, trivial⟩
        · exact k8 hx

/-! ## The first call -/

/-- A node that is not to remove the mean cannot be trained: every call raises an AttributeError. -/
theorem keep_mean_false (eps : ℝ) (whOut : Option Nat) (avgN : Option Nat) (amn : Amn) (initPca : Option (List (Row ℝ d)))
    (initMca : Option (List (Row ℝ p))) (out : Option Nat) (rndW : Nat → List (Row ℝ d)) (rndM : Nat → List (Row ℝ p))
    (ne : Option Bool) (x : List (Row ℝ d)) :
    (ISt.new eps whOut false avgN amn initPca initMca out true).train rndW rndM ne x = .error .attribute := rfl

theorem avg_fold_iter (x : List (Row ℝ d)) : ∀ a : CSt ℝ d, (x.foldl CSt.row a).iter = a.iter + x.length ∧
    (x.foldl CSt.row a).started = a.started ∧ (x.foldl CSt.row a).stopped = a.stopped := by
  induction x with
  | nil => exact fun a => ⟨rfl, rfl, rfl⟩
  | cons r x ih =>
    intro a
    obtain ⟨h1, h2, h3⟩ := ih (a.row r)
    refine ⟨?_, h2, h3⟩
    rw [List.foldl_cons, h1]
    simp only [CSt.row, List.length_cons]
    omega

theorem rowsM_length {α β : Type} (f : α → Except Err β) (l : List α) : ∀ ys, rowsM f l = .ok ys → ys.length = l.length := by
  induction l with
  | nil => intro ys h; simp only [rowsM, Except.ok.injEq] at h; subst h; rfl
  | cons a l ih =>
    intro ys h
    simp only [rowsM] at h
    split at h
    · simp at h
    · split at h
      · simp at h
      · rename_i ys' h1
        simp only [Except.ok.injEq] at h
        subst h
        simp [ih _ h1]

/-- What the first call finds after its checks. -/
theorem setup_counts {eps : ℝ} {whOut avgN : Option Nat} {amn : Amn} {out : Option Nat} {inc : Bool} {rndW : Nat → List (Row ℝ d)}
    {rndM : Nat → List (Row ℝ p)} {x : List (Row ℝ d)} {s' : ISt d p}
    (h : (ISt.new eps whOut true avgN amn none none out inc : ISt d p).check rndW rndM x = .ok s') :
    s'.avg.map CSt.iter = some x.length ∧ s'.wh.iter = x.length ∧ s'.mca.iter = 0 ∧ s'.newEp = some true ∧
      s'.mca = (MSt.new eps 1 true none out).check rndM ∧ s'.sf = s'.initSf ∧ s'.initSf ≠ none ∧ s'.incremental = inc ∧
      s'.td.bufs = some (x.map fun _ => 0, x.map fun _ => 0) := by
  unfold ISt.check at h
  simp only [ISt.new, if_true] at h
  split at h
  · simp at h
  · rename_i t ht
    simp only [ISt.setup] at ht
    split at ht
    · simp at ht
    · rename_i wh hw
      split at ht
      · simp at ht
      · rename_i y hy
        simp only [Except.ok.injEq] at ht
        subst ht
        simp only [Except.ok.injEq] at h
        subst h
        obtain ⟨hit, hst, hin, hin3⟩ : ((PSt.new true amn 1 none whOut).check rndW).iter = 0 ∧
            ((PSt.new true amn 1 none whOut).check rndW).started = false ∧
            ((PSt.new true amn 1 none whOut).check rndW).incremental = true ∧
            ((PSt.new true amn 1 none whOut).check rndW).initV = some (rndW (whOut.getD d)) :=
          setInit_fields _ _
        have hiv : ∀ t : PSt d, t.initV ≠ none → t.check rndW = t := by
          intro t ht
          unfold PSt.check
          split
          · rfl
          · rename_i h0; exact absurd h0 ht
        have hin2 : ((PSt.new true amn 1 none whOut).check rndW).initV ≠ none := by rw [hin3]; simp
        rw [hst] at hw
        simp only [Bool.false_eq_true, if_false, PSt.train, hiv _ hin2, hin, if_true] at hw
        have hwi := wh_rows_iter _ hw
        simp only [hit, zero_add] at hwi
        have hlen : (({ avgN := avgN } : CSt ℝ d).check.execute x).1.length = x.length := by
          simp only [CSt.execute]
          split_ifs <;> simp
        have hmi : ((MSt.new eps 1 true none out : MSt p).check rndM).iter = 0 := mca_setInit_iter _ _
        refine ⟨?_, by rw [hwi, hlen], hmi, rfl, rfl, rfl, by simp, rfl, ?_⟩
        · have := (avg_fold_iter x { ({ avgN := avgN } : CSt ℝ d).check.check with started := true }).1
          simp only [CSt.check, zero_add, Option.map_some, CSt.execute, Bool.not_false, Bool.and_self, if_true] at this ⊢
          rw [this]
        · have hyl := rowsM_length _ _ _ hy
          rw [hlen] at hyl
          simp only [DSt.check, Option.getD_none]
          rw [List.map_const', List.map_const', hyl]

/-- The first chunk of incremental training, whatever its length: it trains the averaging and the whitening node twice with every
sample, and does not train the minor components at all; the slow features stay the initial ones. -/
theorem first_chunk {eps : ℝ} {whOut avgN : Option Nat} {amn : Amn} {out : Option Nat} {rndW : Nat → List (Row ℝ d)}
    {rndM : Nat → List (Row ℝ p)} {x : List (Row ℝ d)} {s' : ISt d p}
    (h : (ISt.new eps whOut true avgN amn none none out true : ISt d p).train rndW rndM none x = .ok s') :
    counts s' = (some (2 * x.length), 2 * x.length, 0) ∧ s'.mca = (MSt.new eps 1 true none out).check rndM ∧
      s'.sf = s'.initSf ∧ s'.sf ≠ none ∧ s'.newEp = some true ∧ s'.incremental = true ∧ (x ≠ [] → Ready s') := by
  have hinc : (ISt.new eps whOut true avgN amn none none out true : ISt d p).incremental = true := rfl
  simp only [ISt.train, hinc, Bool.not_true, Bool.false_and, Bool.false_eq_true, if_false] at h
  split at h
  · simp at h
  · rename_i t ht
    obtain ⟨h1, h2, h3, h4, h5, h6, h7, h8, h9⟩ := setup_counts ht
    rw [h8, if_pos rfl] at h
    obtain ⟨k1, k2, k3, k4, k5, k6, k7, k8⟩ := rows_episode x (s := t) (by simp [h4]) h
    have ha : s'.avg.map CSt.iter = some (2 * x.length) := by
      rw [k4]
      cases hav : t.avg with
      | none => rw [hav] at h1; simp at h1
      | some a =>
        rw [hav] at h1
        simp only [Option.map_some, Option.some.injEq] at h1 ⊢
        omega
    refine ⟨?_, by rw [k1, h5], by rw [k2, k6, h6], by rw [k2, h6]; exact h7, ?_, by rw [k7, h8], k8⟩
    · simp only [counts, ha, k5, h2, k1, h3]
      congr 2
      omega
    · rw [k3]
      split
      · exact h4
      · rfl

/-- A later chunk (incremental, without `new_episode`): every sample trains all parts once. -/
theorem later_chunk {s s' : ISt d p} {rndW : Nat → List (Row ℝ d)} {rndM : Nat → List (Row ℝ p)} {x : List (Row ℝ d)}
    (hi : s.incremental = true) (hs : s.initSf ≠ none) (he : s.newEp ≠ none) (hr : Ready s)
    (h : s.train rndW rndM none x = .ok s') :
    s'.mca.iter = s.mca.iter + x.length ∧ s'.avg.map CSt.iter = s.avg.map (fun a => a.iter + x.length) ∧
      s'.wh.iter = s.wh.iter + x.length ∧ Ready s' ∧ s'.incremental = true ∧ s'.initSf ≠ none ∧ s'.newEp = some false ∧
      (x ≠ [] → s'.sf = some (mulCols (whV s'.wh) (mcaV s'.mca)) ∧ s'.wv = some (whV s'.wh)) := by
  obtain ⟨b, he⟩ := Option.ne_none_iff_exists'.1 he
  obtain ⟨v, hs⟩ := Option.ne_none_iff_exists'.1 hs
  simp only [ISt.train, ISt.check, hs, he, hi, Bool.not_true, Bool.false_and, Bool.false_eq_true, if_false, if_true] at h
  obtain ⟨k1, k2, k3, k4, k5, k6, k7, k8⟩ := rows_within x (by simp) (by exact hr) h
  refine ⟨k1, k2, k3, k4, by rw [k5], by rw [k6]; simp, ?_, k8⟩
  rcases k7 with k7 | k7 <;> rw [k7] <;> rfl

/-- Incremental training depends on how the samples are cut into chunks: given at once, `n` samples leave the minor components
untrained; given as one sample and the rest, they train them `n - 1` times. The two nodes differ whenever `n` is at least 2. -/
theorem chunks_false {eps : ℝ} {whOut avgN : Option Nat} {amn : Amn} {out : Option Nat} {rndW : Nat → List (Row ℝ d)}
    {rndM : Nat → List (Row ℝ p)} {x : Row ℝ d} {xs : List (Row ℝ d)} (hx : xs ≠ []) {s1 s2 s3 : ISt d p}
    (h1 : (ISt.new eps whOut true avgN amn none none out true : ISt d p).train rndW rndM none (x :: xs) = .ok s1)
    (h2 : (ISt.new eps whOut true avgN amn none none out true : ISt d p).train rndW rndM none [x] = .ok s2)
    (h3 : s2.train rndW rndM none xs = .ok s3) :
    counts s1 = (some (2 * (xs.length + 1)), 2 * (xs.length + 1), 0) ∧
    counts s3 = (some (xs.length + 2), xs.length + 2, xs.length) ∧ counts s1 ≠ counts s3 := by
  obtain ⟨a1, _⟩ := first_chunk h1
  obtain ⟨b1, _, b3, b4, b5, b6, b7⟩ := first_chunk h2
  obtain ⟨c1, c2, c3, _⟩ := later_chunk b6 (by rw [← b3]; exact b4) (by rw [b5]; simp) (b7 (by simp)) h3
  have e1 : counts s3 = (some (xs.length + 2), xs.length + 2, xs.length) := by
    simp only [counts, Prod.mk.injEq, List.length_cons, List.length_nil] at b1 ⊢
    refine ⟨?_, by omega, by omega⟩
    rw [c2]
    cases hav : s2.avg with
    | none => rw [hav] at b1; simp at b1
    | some a =>
      rw [hav] at b1
      simp only [Option.map_some, Option.some.injEq] at b1 ⊢
      omega
  refine ⟨by simpa using a1, e1, ?_⟩
  rw [e1, a1]
  intro h
  simp only [Prod.mk.injEq] at h
  exact hx (List.length_eq_zero_iff.1 h.2.2.symm)

/-! ## What is learned and computed -/

/-- What is subtracted from an input: nothing up to one sample, then the average of the samples of training. -/
theorem centered_spec (n : Option Nat) (xs : List (Row ℝ d)) (z : Row ℝ d) :
    centered (some (xs.foldl CSt.row { avgN := n })) z = if xs.length ≤ 1 then z else z - avgOf n xs := by
  have h1 := (fold_fields xs ({ avgN := n } : CSt ℝ d)).2.1
  simp only [centered, center, h1, Nat.zero_add]
  split_ifs with h
  · rfl
  · rw [fold_avg_eq xs ({ avgN := n } : CSt ℝ d) [] rfl (by simp) (by rintro h0; simp only [List.nil_append] at h0; simp [h0] at h)]
    simp

example : centered (some ([![1, 0], ![3, 2]].foldl CSt.row { avgN := none })) (![5, 5] : Row ℝ 2) = ![3, 4] := by
  rw [centered_spec]
  have h : meanRow [![1, 0], ![3, 2]] = (![2, 1] : Row ℝ 2) := by
    funext k
    fin_cases k <;> norm_num [meanRow, Mdp.Cov.mean]
  rw [if_neg (by decide), avgOf, h]
  funext k
  fin_cases k <;> norm_num

/-- Execution after a chunk without a new episode: the input minus the average, whitened, projected on the minor components. -/
theorem execute_spec {s s' : ISt d p} {rndW : Nat → List (Row ℝ d)} {rndM : Nat → List (Row ℝ p)} {x : List (Row ℝ d)}
    (hi : s.incremental = true) (hs : s.initSf ≠ none) (he : s.newEp ≠ none) (hr : Ready s) (hx : x ≠ [])
    (h : s.train rndW rndM none x = .ok s') (z : Row ℝ d) (hc : s'.wh.comps ≠ none) (hm : s'.mca.comps ≠ none)
    (hp : ∀ l, s'.wh.comps = some l → l.length = p) :
    ∃ y : Row ℝ p, whiten p s'.wh (centered s'.avg z) = .ok y ∧ s'.exec z = s'.mca.exec none y := by
  obtain ⟨_, _, _, _, _, _, _, k8⟩ := later_chunk hi hs he hr h
  obtain ⟨hsf, _⟩ := k8 hx
  obtain ⟨l, hc⟩ := Option.ne_none_iff_exists'.1 hc
  obtain ⟨m, hm⟩ := Option.ne_none_iff_exists'.1 hm
  have hlen := hp l hc
  generalize hz : (centered s'.avg z) = z'
  refine ⟨fun j => (l.map fun c => dot z' c.v).getD j 0, by simp [whiten, PSt.exec, hc], ?_⟩
  simp only [ISt.exec, hsf, MSt.exec, hm, Option.getD_none, List.take_length, mulCols, List.map_map, mcaV, Option.getD_some, hz]
  congr 1
  refine List.map_congr_left fun c _ => ?_
  simp only [Function.comp, dot, whV, hc, Option.getD_some]
  have e1 : ∀ j : Fin p, (l.map fun c => ∑ k, z' k * c.v k).getD j 0 = ∑ k, z' k * ((l.map Comp.v).getD j 0) k := by
    intro j
    have hj : (j : Nat) < l.length := by rw [hlen]; exact j.2
    simp [List.getD_eq_getElem?_getD, List.getElem?_map, List.getElem?_eq_getElem hj]
  simp only [e1, Finset.sum_mul, Finset.mul_sum]
  rw [Finset.sum_comm]
  exact Finset.sum_congr rfl fun j _ => Finset.sum_congr rfl fun k _ => by ring

/-- Two samples in a row, the second not starting an episode: the minor components are trained with the difference of the two
whitened samples, each whitened when it was seen. -/
theorem derivative {s t u : ISt d p} {x1 x2 : Row ℝ d} {n1 : Option Bool} (h1 : s.row n1 x1 = .ok t) (hn : t.newEp ≠ some true)
    (h2 : t.row none x2 = .ok u) : ∃ z1 z2 y1 y2, whiten p t.wh z1 = .ok y1 ∧ whiten p u.wh z2 = .ok y2 ∧
      z1 = centered t.avg x1 ∧ z2 = centered u.avg x2 ∧
      t.mca.step [y2 - y1] = .ok u.mca := by
  obtain ⟨t', c1, k1, rfl⟩ := row_ok h1
  obtain ⟨u', c2, k2, rfl⟩ := row_ok h2
  obtain ⟨w1, y1, g1, g2, g3, g4, g5, _⟩ := step_ok k1
  obtain ⟨w2, y2, f1, f2, f3, f4, f5, _, _, _, _, _, f11⟩ := step_ok k2
  refine ⟨_, _, y1, y2, ?_, ?_, rfl, rfl, ?_⟩
  · simp only [g3, g4]
    exact g2
  · simp only [f3, f4]
    exact f2
  · have f := (f11 (by simpa using hn)).1
    have hb : t'.td.bufs = some ((s.td.bufs.getD ([], [])).2, [y1]) := by rw [g5]; rfl
    rw [diffs_ready _ _ y1 y2 hb] at f
    exact f

/-- A sample that starts an episode does not touch the minor components and the slow features. -/
theorem new_episode {s s' : ISt d p} {x : Row ℝ d} (h : s.row (some true) x = .ok s') : s'.mca = s.mca ∧ s'.sf = s.sf ∧
    s'.sfChange = none ∧ s'.wh.iter = s.wh.iter + 1 := by
  obtain ⟨t, c, h1, rfl⟩ := row_ok h
  obtain ⟨wh, y, g1, g2, g3, g4, g5, g6, g7, g8, g9, g10, _⟩ := step_ok h1
  obtain ⟨k1, k2, k3⟩ := g10 rfl
  exact ⟨k1, k2, k3, by simp only [g4]; exact wh_row_iter g1⟩

theorem steps_count (xs : List (Row ℝ d)) : ∀ {s s' : ISt d p} {c c' : Option ℝ}, s.newEp = some false → Ready s →
    s.steps c xs = .ok (s', c') → s'.mca.iter = s.mca.iter + xs.length ∧ s'.wh.iter = s.wh.iter + xs.length ∧
      (xs ≠ [] → s'.sf = some (mulCols (whV s'.wh) (mcaV s'.mca))) := by
  induction xs with
  | nil =>
    intro s s' c c' _ _ h
    simp only [ISt.steps, Except.ok.injEq, Prod.mk.injEq] at h
    obtain ⟨rfl, rfl⟩ := h
    simp
  | cons x xs ih =>
    intro s s' c c' hn hr h
    simp only [ISt.steps] at h
    split at h
    · simp at h
    · rename_i t c1 h1
      obtain ⟨wh, y, g1, g2, g3, g4, g5, g6, g7, g8, g9, _, g11⟩ := step_ok h1
      obtain ⟨a, y0, hr⟩ := hr
      have gm := g11 (by rw [hn]; simp)
      rw [diffs_ready s.td a y0 y hr] at gm
      obtain ⟨k1, k2, k3⟩ := ih (s := { t with newEp := some false }) rfl ⟨(s.td.bufs.getD ([], [])).2, y, by simp only [g5]; rfl⟩ h
      refine ⟨?_, ?_, fun _ => ?_⟩
      · rw [k1]
        simp only [mca_step_iter gm.1, List.length_cons, List.length_nil]
        omega
      · rw [k2]
        simp only [g4, wh_row_iter g1, List.length_cons]
        omega
      · by_cases hx : xs = []
        · subst hx
          simp only [ISt.steps, Except.ok.injEq, Prod.mk.injEq] at h
          obtain ⟨rfl, rfl⟩ := h
          simp only [g4]
          exact gm.2
        · exact k3 hx

/-- Batch training: every chunk of a trained node is an episode. Its `n` samples train the whitening `n` times and the minor
components `n - 1` times; the slow features are then those of the two parts. Chunks with less than two samples are refused. -/
theorem batch_chunk {s : ISt d p} {rndW : Nat → List (Row ℝ d)} {rndM : Nat → List (Row ℝ p)} {ne : Option Bool} {x : List (Row ℝ d)}
    (hi : s.incremental = false) (hs : s.initSf ≠ none) :
    (x.length < 2 → s.train rndW rndM ne x = .error .training) ∧
    ∀ s', s.train rndW rndM ne x = .ok s' → s'.mca.iter = s.mca.iter + (x.length - 1) ∧ s'.wh.iter = s.wh.iter + x.length ∧
      s'.sf = some (mulCols (whV s'.wh) (mcaV s'.mca)) ∧ s'.wv = some (whV s'.wh) := by
  obtain ⟨v, hs⟩ := Option.ne_none_iff_exists'.1 hs
  constructor
  · intro h
    simp [ISt.train, hi, h]
  · intro s' h
    have hx : ¬ x.length < 2 := fun hx => by simp [ISt.train, hi, hx] at h
    obtain ⟨x0, x1, xs, rfl⟩ : ∃ x0 x1 xs, x = x0 :: x1 :: xs := by
      match x, hx with
      | [], h => simp at h
      | [_], h => simp at h
      | a :: b :: c, _ => exact ⟨a, b, c, rfl⟩
    have hcheck : ∃ t, s.check rndW rndM (x0 :: x1 :: xs) = .ok t ∧ t.mca = s.mca ∧ t.wh = s.wh ∧ t.td = s.td ∧ t.incremental = false := by
      simp only [ISt.check, hs]
      cases s.newEp <;> exact ⟨_, rfl, rfl, rfl, rfl, hi⟩
    obtain ⟨t, ht, ht1, ht2, ht3, ht4⟩ := hcheck
    simp only [ISt.train, hi, ht, ht4, hx, Bool.not_false, Bool.true_and, decide_false, Bool.false_eq_true, if_false] at h
    split at h
    · simp at h
    · rename_i u c hu
      simp only [Except.ok.injEq] at h
      subst h
      simp only [ISt.steps] at hu
      split at hu
      · simp at hu
      · rename_i t1 c1 h1
        obtain ⟨wh, y, g1, g2, g3, g4, g5, g6, g7, g8, g9, g10, _⟩ := step_ok h1
        obtain ⟨m1, m2, _⟩ := g10 rfl
        obtain ⟨k1, k2, k3⟩ := steps_count (x1 :: xs) (c := c1) (s := { t1 with newEp := some false }) rfl
          ⟨(t.td.bufs.getD ([], [])).2, y, by simp only [g5]; rfl⟩ (by simpa only [ISt.steps] using hu)
        refine ⟨?_, ?_, k3 (by simp), rfl⟩
        · rw [k1]
          simp only [m1, ht1, List.length_cons]
          omega
        · rw [k2]
          simp only [g4, wh_row_iter g1, ht2, List.length_cons]
          omega

/-! ## A run that succeeds -/

/-- Nothing but zeros seen so far, one minor component with a projection on `a`. -/
def Zero (a : Row ℝ p) (s : ISt d p) : Prop :=
  (∃ v, s.avg = some v ∧ v.avg.getD 0 = 0) ∧ s.wh.amn = ⟨20, 200, 2000, 3⟩ ∧
  (∃ l, s.wh.comps = some l ∧ s.wh.outDim = some l.length ∧ ∀ c ∈ l, Good c) ∧
  (s.mca.normalize = true ∧ s.mca.eps = 1 / 20 ∧ s.mca.outDim ≠ none ∧ (∃ c, s.mca.comps = some [c]) ∧ dot s.mca.first a ≠ 0) ∧
  (∃ b c, s.td.bufs = some (b, c) ∧ (∀ y ∈ b, y = 0) ∧ ∀ y ∈ c, y = 0)

theorem center_zero (v : CSt ℝ d) (h : v.avg.getD 0 = 0) : center v 0 = 0 := by
  simp [center, h]

theorem row_zero (v : CSt ℝ d) (h : v.avg.getD 0 = 0) : (v.row 0).avg.getD 0 = 0 := by
  simp [CSt.row, h]

theorem whiten_zero (wh : PSt d) (l : List (Comp d)) (h : wh.comps = some l) : whiten p wh 0 = .ok 0 := by
  simp only [whiten, PSt.exec, h]
  congr 1
  funext j
  simp only [List.getD_eq_getElem?_getD, List.getElem?_map, Pi.zero_apply, dot, zero_mul, Finset.sum_const_zero]
  cases (l.take ((none : Option Nat).getD l.length))[(j : Nat)]? <;> rfl

theorem gram_zero (l : List (Row ℝ p)) (h : ∀ y ∈ l, y = 0) : gram l = 0 := by
  funext k j
  simp only [gram, Pi.zero_apply]
  apply List.sum_eq_zero
  intro x hx
  simp only [List.mem_map] at hx
  obtain ⟨y, hy, rfl⟩ := hx
  rw [h y hy]
  simp

theorem zipWith_zero (a b : List (Row ℝ p)) (ha : ∀ y ∈ a, y = 0) (hb : ∀ y ∈ b, y = 0) :
    ∀ y ∈ List.zipWith (fun a b => a - b) a b, y = 0 := by
  induction a generalizing b with
  | nil => simp
  | cons x a ih =>
    cases b with
    | nil => simp
    | cons z b =>
      simp only [List.zipWith_cons_cons, List.mem_cons]
      rintro y (rfl | hy)
      · rw [ha x (by simp), hb z (by simp), sub_zero]
      · exact ih b (fun y hy => ha y (by simp [hy])) (fun y hy => hb y (by simp [hy])) y hy

theorem zero_step (a : Row ℝ p) (s : ISt d p) (h : Zero a s) : ∃ s' c, s.step 0 = .ok (s', c) ∧ Zero a s' := by
  obtain ⟨⟨v, h1, h2⟩, h3, ⟨l, h4, h5, h6⟩, ⟨h7, h8, h9, ⟨c, h10⟩, h11⟩, b, b', h12, h13, h14⟩ := h
  have hc : centered (s.avg.map fun a => a.row 0) 0 = 0 := by
    simp only [h1, Option.map_some, centered]
    exact center_zero _ (row_zero v h2)
  obtain ⟨w, lw, g1, g2, g3, g4, g5, g6, g7⟩ := rows_good s.wh h3 _ h5 [0] l h4 rfl h6
  have g1' : s.wh.row 0 = .ok w := by
    simp only [PSt.rows] at g1
    split at g1
    · simp at g1
    · rename_i t ht
      simp only [Except.ok.injEq] at g1
      rw [ht, g1]
  have gamn : w.amn = s.wh.amn := by
    obtain ⟨_, _, _, _, _, _, rfl⟩ := Ccipca.row_ok g1'
    rfl
  have hd : ∀ y ∈ diffs (s.td.step [0]) (0 : Row ℝ p), y = 0 := by
    have hz : ∀ y ∈ b' ++ [0], y = 0 := by
      intro y hy
      simp only [List.mem_append, List.mem_singleton] at hy
      rcases hy with hy | hy
      · exact h14 y hy
      · exact hy
    simp only [diffs, DSt.step, h12, Option.getD_some]
    exact zipWith_zero _ _ (fun y hy => hz y (List.mem_of_mem_drop hy)) (fun y hy => hz y (List.mem_of_mem_take hy))
  obtain ⟨m, c', k1, k2, k3, k4, k5, k6⟩ := minor_total (x := diffs (s.td.step [0]) (0 : Row ℝ p)) (lam := 0) (a := a) h7 h10 h9
    (by intro k; rw [gram_zero _ hd]; simp) (by rw [h8]; norm_num) h11
  have hb : (s.td.step [0]).bufs = some (b', [0]) := by simp [DSt.step, h12]
  have hz0 : ∀ y ∈ ([0] : List (Row ℝ p)), y = 0 := by simp
  by_cases hn : s.newEp = some true
  · refine ⟨{ s with avg := s.avg.map fun a => a.row 0, wh := w, td := s.td.step [0] }, none, ?_,
      ⟨v.row 0, by simp [h1], row_zero v h2⟩, by rw [gamn, h3], ⟨lw, g2, by rw [g6, g3], g4⟩,
      ⟨h7, h8, h9, ⟨c, h10⟩, h11⟩, b', [0], hb, h14, hz0⟩
    simp only [ISt.step, hc, g1', whiten_zero w lw g2, hn, if_true]
  · refine ⟨{ s with avg := s.avg.map fun a => a.row 0, wh := w, td := s.td.step [0], mca := m, sf := some (mulCols (whV w) (mcaV m)) },
      some (distM (mulCols (whV w) (mcaV m)) (s.sf.getD [])), ?_, ⟨v.row 0, by simp [h1], row_zero v h2⟩, by rw [gamn, h3],
      ⟨lw, g2, by rw [g6, g3], g4⟩, ⟨by rw [k4, h7], by rw [k5, h8], by rw [k6]; exact h9, ⟨c', k2⟩, k3⟩, b', [0], hb, h14, hz0⟩
    simp only [ISt.step, hc, g1', whiten_zero w lw g2, hn, if_false, k1]

theorem zero_rows (a : Row ℝ p) (n : Nat) : ∀ s : ISt d p, Zero a s → ∃ s', s.rows none (List.replicate n 0) = .ok s' ∧ Zero a s' := by
  induction n with
  | zero => exact fun s h => ⟨s, rfl, h⟩
  | succ n ih =>
    intro s h
    obtain ⟨t, c, h1, h2⟩ := zero_step a s h
    obtain ⟨s', h3, h4⟩ := ih { t with wv := some (whV t.wh), sfChange := c, iter := t.iter + 1 } h2
    exact ⟨s', by simp only [List.replicate_succ, ISt.rows, ISt.row, h1]; exact h3, h4⟩

theorem fold_zero (n : Nat) : ∀ v : CSt ℝ d, v.avg.getD 0 = 0 → ((List.replicate n 0).foldl CSt.row v).avg.getD 0 = 0 := by
  induction n with
  | zero => exact fun v h => h
  | succ n ih => exact fun v h => ih _ (row_zero v h)

theorem execute_zero (v : CSt ℝ d) (n : Nat) (h : v.avg.getD 0 = 0) :
    (v.execute (List.replicate n 0)).1 = List.replicate n 0 ∧ (v.execute (List.replicate n 0)).2.avg.getD 0 = 0 := by
  have key : ∀ w : CSt ℝ d, w.avg.getD 0 = 0 → (if w.iter ≤ 1 then List.replicate n 0 else (List.replicate n 0).map fun r => r - w.avg.getD 0)
      = List.replicate n 0 := by
    intro w hw
    split_ifs
    · rfl
    · rw [hw]; simp
  have h2 : ∀ w : CSt ℝ d, w.avg.getD 0 = 0 → w.check.avg.getD 0 = 0 := fun w hw => by simp [CSt.check, hw]
  have h4 : ∀ w : CSt ℝ d, w.avg.getD 0 = 0 → ((List.replicate n 0).foldl CSt.row { w.check with started := true }).avg.getD 0 = 0 := fun w hw =>
    fold_zero n _ (h2 w hw)
  unfold CSt.execute
  by_cases h3 : (!v.stopped && !v.started) = true
  · simp only [h3, if_true]
    exact ⟨key _ (h2 _ (h4 v h)), h2 _ (h4 v h)⟩
  · simp only [h3, if_false]
    exact ⟨key _ (h2 _ h), h2 _ h⟩

theorem rowsM_zero (wh : PSt d) (l : List (Comp d)) (h : wh.comps = some l) (n : Nat) :
    rowsM (whiten p wh) (List.replicate n 0) = .ok (List.replicate n 0) := by
  induction n with
  | zero => rfl
  | succ n ih => simp only [List.replicate_succ, rowsM, whiten_zero wh l h, ih]

theorem rows_amn (xs : List (Row ℝ d)) : ∀ {s s' : PSt d}, s.rows xs = .ok s' → s'.amn = s.amn := by
  induction xs with
  | nil => intro s s' h; simp only [PSt.rows, Except.ok.injEq] at h; subst h; rfl
  | cons x xs ih =>
    intro s s' h
    simp only [PSt.rows] at h
    split at h
    · simp at h
    · rename_i t h1
      rw [ih h]
      obtain ⟨_, _, _, _, _, _, rfl⟩ := Ccipca.row_ok h1
      rfl

theorem zero_check (n : Nat) (rndW : Nat → List (Row ℝ d)) (rndM : Nat → List (Row ℝ p)) (a : Row ℝ p)
    (hw : ∀ n, (rndW n).length = n ∧ ∀ v ∈ rndW n, v ≠ 0) (hm : ∃ v, rndM 1 = [v] ∧ dot v a ≠ 0) :
    ∃ t, (ISt.new (1 / 20) none true none ⟨20, 200, 2000, 3⟩ none none (some 1) true : ISt d p).check rndW rndM
        (List.replicate n 0) = .ok t ∧ Zero a t := by
  obtain ⟨v, hv, hva⟩ := hm
  have e0 : (({ avgN := none } : CSt ℝ d).check).avg.getD 0 = 0 := rfl
  obtain ⟨e1, e2⟩ := execute_zero ({ avgN := none } : CSt ℝ d).check n e0
  have hwc : (PSt.new true ⟨20, 200, 2000, 3⟩ 1 none none : PSt d).check rndW = { (PSt.new true ⟨20, 200, 2000, 3⟩ 1 none none : PSt d) with
      initV := some (rndW d), outDim := some (rndW d).length, comps := some ((rndW d).map fun u => ⟨u, fun k => u k / nrm u, nrm u⟩) } := rfl
  obtain ⟨w, lw, g1, g2, g3, g4, g5, g6, g7⟩ := rows_good ({ (PSt.new true ⟨20, 200, 2000, 3⟩ 1 none none : PSt d) with
      initV := some (rndW d), outDim := some (rndW d).length, comps := some ((rndW d).map fun u => ⟨u, fun k => u k / nrm u, nrm u⟩),
      started := true } : PSt d) rfl _ rfl (List.replicate n 0) _ rfl (by simp) (by
    intro c hc
    simp only [List.mem_map] at hc
    obtain ⟨u, hu, rfl⟩ := hc
    exact ⟨nrm_pos ((hw _).2 u hu), rfl⟩)
  have gamn : w.amn = ⟨20, 200, 2000, 3⟩ := rows_amn _ g1
  have hmc : (MSt.new (1 / 20) 1 true none (some 1) : MSt p).check rndM = { (MSt.new (1 / 20) 1 true none (some 1) : MSt p) with
      initV := some [v], comps := some [⟨v, nrm v⟩] } := by
    simp only [MSt.check, MSt.new, Option.getD_some, hv, MSt.setInit, List.length_cons, List.length_nil]
    rfl
  refine ⟨{ (ISt.new (1 / 20) none true none ⟨20, 200, 2000, 3⟩ none none (some 1) true : ISt d p) with
      avg := some (({ avgN := none } : CSt ℝ d).check.execute (List.replicate n 0)).2, wh := w,
      td := ({} : DSt ℝ p).check (List.replicate n 0),
      mca := { (MSt.new (1 / 20) 1 true none (some 1) : MSt p) with initV := some [v], comps := some [⟨v, nrm v⟩] },
      initSf := some (mulCols (w.initV.getD []) [v]), sf := some (mulCols (w.initV.getD []) [v]), newEp := some true }, ?_,
    ⟨_, rfl, e2⟩, gamn, ⟨lw, g2, by rw [g6, g3], g4⟩, ⟨rfl, rfl, by simp [MSt.new], ⟨⟨v, nrm v⟩, rfl⟩, hva⟩, ?_⟩
  · have hst : ((PSt.new true ⟨20, 200, 2000, 3⟩ 1 none none : PSt d).check rndW).started = false := rfl
    have htr : ((PSt.new true ⟨20, 200, 2000, 3⟩ 1 none none : PSt d).check rndW).train rndW (List.replicate n 0) = .ok w := g1
    simp only [ISt.check, ISt.new, if_true, ISt.setup, e1, hst, htr, Bool.false_eq_true, if_false, rowsM_zero w lw g2, hmc]
    rfl
  · simp only [DSt.check]
    refine ⟨_, _, rfl, ?_, ?_⟩ <;> simp

/-- A default node with one output trains with zeros of any number, in one or two chunks: the hypotheses of `first_chunk`, `later_chunk`,
`chunks_false`, `execute_spec` and `derivative` are met. -/
theorem zero_train (n m : Nat) (hn : 0 < n) (rndW : Nat → List (Row ℝ d)) (rndM : Nat → List (Row ℝ p)) (a : Row ℝ p)
    (hw : ∀ n, (rndW n).length = n ∧ ∀ v ∈ rndW n, v ≠ 0) (hm : ∃ v, rndM 1 = [v] ∧ dot v a ≠ 0) :
    ∃ s1 s2, (ISt.new (1 / 20) none true none ⟨20, 200, 2000, 3⟩ none none (some 1) true : ISt d p).train rndW rndM none
        (List.replicate n 0) = .ok s1 ∧ s1.train rndW rndM none (List.replicate m 0) = .ok s2 := by
  obtain ⟨t, ht, hz⟩ := zero_check (d := d) n rndW rndM a hw hm
  obtain ⟨_, _, _, _, _, _, _, hi, _⟩ := setup_counts ht
  obtain ⟨s1, h1, h2⟩ := zero_rows a n t hz
  have h3 : (ISt.new (1 / 20) none true none ⟨20, 200, 2000, 3⟩ none none (some 1) true : ISt d p).train rndW rndM none
        (List.replicate n 0) = .ok s1 := by
    have hinc : (ISt.new (1 / 20) none true none ⟨20, 200, 2000, 3⟩ none none (some 1) true : ISt d p).incremental = true := rfl
    simp only [ISt.train, hinc, Bool.not_true, Bool.false_and, Bool.false_eq_true, if_false, ht, hi, if_true, h1]
  obtain ⟨_, _, k3, k4, k5, k6, _⟩ := first_chunk h3
  rw [k3] at k4
  obtain ⟨v, k4⟩ := Option.ne_none_iff_exists'.1 k4
  obtain ⟨s2, h4, _⟩ := zero_rows a m { s1 with newEp := some false } h2
  refine ⟨s1, s2, h3, ?_⟩
  simp only [ISt.train, ISt.check, k4, k5, k6, Bool.not_true, Bool.false_and, Bool.false_eq_true, if_false, if_true]
  rw [← h4, ← k6, ← k4]

end Mdp.IncSfa
