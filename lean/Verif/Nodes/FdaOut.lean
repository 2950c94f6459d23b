import Verif.Nodes.Fda
import Verif.Nodes.SfaOut
import Verif.Parallel.FdaProps

/-!
# Outputs of FDA nodes (C219-C222)
-/

namespace Mdp.Fda

open Mdp.Cov Mdp.Join Mdp.Sfa Mdp.Pca

variable {F : Type} [Field F] [LinearOrder F] [IsStrictOrderedRing F] {d : Nat} {L : Type} [DecidableEq L]

/-! ## Specification -/

/-- Scatter of a signal within the classes: the squared deviations from the means of the classes. -/
def within (f : Row F d → F) (rs : List (L × Row F d)) : F :=
  (rs.map fun p => (f p.2 - mean ((rs.filter fun q => q.1 = p.1).map fun q => f q.2)) ^ 2).sum

/-- A chunk with its labels. -/
abbrev Chunk (F : Type) (d : Nat) (L : Type) := List (Row F d) × Labels L

/-- The node at the beginning of the second phase. -/
def started (out : Option Nat) (cs : List (Chunk F d L)) : Except Join.Err (St F d L) :=
  match cs.foldlM (fun m c => meanTrain m c.1 c.2) (fun _ => none) with
  | .error e => .error e
  | .ok sums => .ok { acc := some (fdaStart sums), outDim := out }

/-- The node after both phases, with chunks `cs` and `cs'`, before `stop_training`. -/
def trained (out : Option Nat) (cs cs' : List (Chunk F d L)) : Except Join.Err (St F d L) :=
  match started out cs with
  | .error e => .error e
  | .ok s => .ok (cs'.foldl (fun s c => (s.train c.1 c.2).2) s)

/-- Both phases have the same labelled rows, in chunks whose labels fit. -/
structure Data (cs cs' : List (Chunk F d L)) : Prop where
  ok : ∀ c ∈ cs ++ cs', labelsOk c.1 c.2 = true
  same : ∀ c ∈ cs', ∀ l ∈ named c, l ∈ cs.flatMap named
  rows : cs'.flatMap lrows = cs.flatMap lrows
  two : 2 ≤ (cs.flatMap lrows).length

/-- The data without labels. -/
def points (cs : List (Chunk F d L)) : List (Row F d) := (cs.flatMap lrows).map (·.2)

/-- The scatter matrix within the classes. -/
def scatterW (cs : List (Chunk F d L)) : Mat F d d := fun i j =>
  ((cs.flatMap lrows).map fun p =>
    (p.2 i - mean (((cs.flatMap lrows).filter fun q => q.1 = p.1).map fun q => q.2 i)) *
    (p.2 j - mean (((cs.flatMap lrows).filter fun q => q.1 = p.1).map fun q => q.2 j))).sum

/-! ## Lemmas -/

theorem lrows_snd (c : Chunk F d L) (h : labelsOk c.1 c.2 = true) : (lrows c).map (·.2) = c.1 := by
  obtain ⟨x, l⟩ := c
  cases l with
  | one l => simp [lrows]
  | each ls =>
    have : ls.length = x.length := by simpa [labelsOk] using h
    simp only [lrows]
    exact List.map_snd_zip this.ge

theorem points_eq (cs : List (Chunk F d L)) (h : ∀ c ∈ cs, labelsOk c.1 c.2 = true) : points cs = (cs.map (·.1)).flatten := by
  induction cs with
  | nil => rfl
  | cons c cs ih =>
    have := ih fun c hc => h c (by simp [hc])
    simp only [points, List.flatMap_cons, List.map_append, List.map_cons, List.flatten_cons] at this ⊢
    rw [this, lrows_snd c (h c (by simp))]

theorem train_run (out : Option Nat) (a q : FdaSt F d L) (cs : List (Chunk F d L)) (h : fdaRun a cs = .ok q) :
    cs.foldl (fun s c => (s.train c.1 c.2).2) ({ acc := some a, outDim := out } : St F d L) = { acc := some q, outDim := out } := by
  induction cs generalizing a with
  | nil =>
    simp only [fdaRun, List.foldlM_nil] at h
    cases h
    rfl
  | cons c cs ih =>
    simp only [fdaRun, List.foldlM_cons] at h
    rw [List.foldl_cons]
    rcases hr : fdaTrain a c.1 c.2 with ⟨r, a'⟩
    cases r with
    | error e => simp [hr] at h; cases h
    | ok _ =>
      simp only [St.train, hr]
      rw [hr] at h
      exact ih a' h

theorem form_scatterW (cs : List (Chunk F d L)) (w : Row F d) (b : F) :
    form (scatterW cs) w w = within (fun x => dot x w - b) (cs.flatMap lrows) := by
  generalize hrs : cs.flatMap lrows = rs
  have hm : ∀ p ∈ rs, mean ((rs.filter fun q => q.1 = p.1).map fun q => dot q.2 w - b) =
      dot (fun i => mean ((rs.filter fun q => q.1 = p.1).map fun q => q.2 i)) w - b := by
    intro p hp
    have hne : (rs.filter fun q => q.1 = p.1) ≠ [] := by
      intro h0
      have : p ∈ rs.filter fun q => q.1 = p.1 := by simp [hp]
      rw [h0] at this
      cases this
    generalize (rs.filter fun q => q.1 = p.1) = g at hne
    have h1 := mean_dot (g.map (·.2)) w
    have h2 := mean_shift ((g.map fun q => dot q.2 w)) (by simpa using hne) b
    simp only [List.map_map, Function.comp_def] at h1 h2
    rw [h2, h1]
    rfl
  unfold within
  have h3 : (rs.map fun p => (dot p.2 w - b - mean ((rs.filter fun q => q.1 = p.1).map fun q => dot q.2 w - b)) ^ 2) =
      rs.map fun p => dot (fun i => p.2 i - mean ((rs.filter fun q => q.1 = p.1).map fun q => q.2 i)) w ^ 2 := by
    refine List.map_congr_left fun p hp => ?_
    rw [hm p hp]
    congr 1
    have := dot_sub w p.2 (fun i => mean ((rs.filter fun q => q.1 = p.1).map fun q => q.2 i))
    have h4 : (p.2 - fun i => mean ((rs.filter fun q => q.1 = p.1).map fun q => q.2 i)) =
      fun i => p.2 i - mean ((rs.filter fun q => q.1 = p.1).map fun q => q.2 i) := rfl
    rw [h4] at this
    rw [this]
    ring
  rw [h3]
  have h5 : ∀ x : Row F d, dot x w ^ 2 = ∑ k, ∑ l, (w k * w l) * (x k * x l) := by
    intro x
    rw [sq, dot, Finset.sum_mul_sum]
    exact Finset.sum_congr rfl fun k _ => Finset.sum_congr rfl fun l _ => by ring
  simp only [h5, form, scatterW, hrs]
  rw [sum_swap]
  refine Finset.sum_congr rfl fun k _ => ?_
  rw [sum_swap]
  refine Finset.sum_congr rfl fun l _ => ?_
  rw [sum_map_mul]
  ring

/-- What `stop_training` leaves. -/
theorem stop_ok (out : Option Nat) (cs cs' : List (Chunk F d L)) (hd : Data cs cs') (solver : Sfa.Solver F d) {lam : Fin d → F}
    {v : Fin d → Row F d} (hs : Solves solver (scatterW cs) (covOf (points cs)) lam v) (ho : Sfa.Valid out d) :
    ∃ s avg, trained out cs cs' = .ok s ∧ (∀ i, avg i = mean ((points cs).map fun x => x i)) ∧ out.getD d ≤ d ∧
      s.stop solver = (.ok (), ⟨none, some (out.getD d), some avg, some ((List.ofFn v).take (out.getD d))⟩) := by
  have hne : cs' ≠ [] := by
    rintro rfl
    have := hd.two
    rw [← hd.rows] at this
    simp at this
  obtain ⟨sums, q, h1, h2, h3, h4⟩ := fda_within_class cs cs' hne hd.ok hd.same hd.rows
  have hpts : (cs'.map (·.1)).flatten = points cs := by
    rw [← points_eq cs' fun c hc => hd.ok c (by simp [hc])]
    simp only [points, hd.rows]
  have hlen : 2 ≤ (cs'.map (·.1)).flatten.length := by
    rw [hpts]
    simpa [points] using hd.two
  obtain ⟨C, avg, h5, h6, h7⟩ := covariance_correct (F := F) false (cs'.map (·.1)) (by simpa using hlen)
  rw [hpts] at h5 h6 h7
  have hC : C = covOf (points cs) := by funext i j; exact h6 i j
  subst hC
  rw [← h4] at h5
  have hsw : q.sw = some (scatterW cs) := by
    rw [h3]
    congr 1
    funext i j
    simp only [scatter, scatterW, rowsOf, List.map_map, Function.comp_def]
  refine ⟨{ acc := some q, outDim := out }, avg, ?_, h7, ?_, ?_⟩
  · simp only [trained, started, h1, train_run out _ q cs' h2]
  · cases out with
    | none => simp
    | some k => exact (ho k rfl).2
  · have hm2 : (List.ofFn fun i => (lam i, v i)).map (·.2) = List.ofFn v := by rw [List.map_ofFn]; rfl
    cases out with
    | none =>
      simp only [St.stop, h5, hsw, hs.all, Option.getD_none, hm2]
      rw [List.take_of_length_le (by simp)]
    | some k =>
      obtain ⟨hk1, hk2⟩ := ho k rfl
      simp only [St.stop, h5, hsw, hs.smallest k hk1 hk2, Option.getD_some, List.map_take, hm2]

/-- Output `i` of a node for an input, zero if there is none. -/
def St.out (s : St F d L) (i : Nat) (x : Row F d) : F := match s.execute none x with
  | .ok y => y.getD i 0
  | .error _ => 0

theorem out_eq (m : Nat) (hm : m ≤ d) (avg : Row F d) (v : Fin d → Row F d) (i : Nat) (hi : i < m) :
    St.out (⟨none, some m, some avg, some ((List.ofFn v).take m)⟩ : St F d L) i =
      fun x => dot x (v ⟨i, by omega⟩) - dot avg (v ⟨i, by omega⟩) := by
  funext x
  simp only [St.out, St.execute, dotL_eq]
  rw [List.getD_eq_getElem?_getD, List.getElem?_eq_getElem (by simp [hi]; omega)]
  simp [dot_sub]

/-! ## Theorems -/

/-- **C219**: two passes over the same labelled data, in any two cuttings, train the node; the outputs for the data have mean
zero, variance one and are uncorrelated; their scatter within the classes does not decrease from one to the next; there are
as many as asked for, or as inputs; `n` gives the first `n` of them, zero gives all. -/
theorem fda_outputs (out : Option Nat) (cs cs' : List (Chunk F d L)) (hd : Data cs cs') (solver : Sfa.Solver F d) {lam : Fin d → F}
    {v : Fin d → Row F d} (hs : Solves solver (scatterW cs) (covOf (points cs)) lam v) (ho : Sfa.Valid out d) :
    ∃ s s', trained out cs cs' = .ok s ∧ s.stop solver = (.ok (), s') ∧
      (∀ x, ∃ y, s'.execute none x = .ok y ∧ y.length = out.getD d ∧ s'.execute (some 0) x = .ok y ∧
        ∀ n, s'.execute (some (n + 1)) x = .ok (y.take (n + 1))) ∧
      ∀ i j, i < out.getD d → j < out.getD d →
        mean ((points cs).map (s'.out i)) = 0 ∧
        cov false ((points cs).map fun x => (s'.out i x, s'.out j x)) = (if i = j then 1 else 0) ∧
        (i ≤ j → within (s'.out i) (cs.flatMap lrows) ≤ within (s'.out j) (cs.flatMap lrows)) := by
  obtain ⟨s, avg, h1, hav, hle, h2⟩ := stop_ok out cs cs' hd solver hs ho
  generalize out.getD d = m at hle h2
  have hne : points cs ≠ [] := by
    intro h
    have := hd.two
    simp only [points, List.map_eq_nil_iff] at h
    rw [h] at this
    simp at this
  refine ⟨s, _, h1, h2, ?_, ?_⟩
  · intro x
    refine ⟨_, rfl, by simp [hle], rfl, fun n => ?_⟩
    simp only [St.execute, List.map_take]
  · intro i j hi hj
    have hproj : ∀ x w : Row F d, dot x w - dot avg w = proj avg x w := by
      intro x w
      rw [proj_eq, ← dot_sub]
      rfl
    have hw : ∀ i (hi : i < m), within (St.out (⟨none, some m, some avg, some ((List.ofFn v).take m)⟩ : St F d L) i)
        (cs.flatMap lrows) = lam ⟨i, by omega⟩ := by
      intro i hi
      rw [out_eq m hle avg v i hi, ← form_scatterW, hs.spec.formA, hs.spec.ortho]
      simp
    refine ⟨?_, ?_, ?_⟩
    · rw [out_eq m hle avg v i hi]
      simp only [hproj]
      exact mean_proj hne hav _
    · rw [out_eq m hle avg v i hi, out_eq m hle avg v j hj]
      simp only [hproj]
      rw [cov_proj hne hav, cov_dot]
      have := hs.spec.ortho ⟨i, by omega⟩ ⟨j, by omega⟩
      simp only [form] at this
      rw [this]
      simp
    · intro hij
      rw [hw i hi, hw j hj]
      exact hs.spec.asc _ _ (by rw [Fin.le_def]; exact hij)

/-- **C220**: no linear function that is uncorrelated with the first `i` outputs has a smaller ratio of the scatter within
the classes and the variance than output `i`, whose variance is one. -/
theorem fda_best (out : Option Nat) (cs cs' : List (Chunk F d L)) (hd : Data cs cs') (solver : Sfa.Solver F d) {lam : Fin d → F}
    {v : Fin d → Row F d} (hs : Solves solver (scatterW cs) (covOf (points cs)) lam v) (ho : Sfa.Valid out d) (s s' : St F d L)
    (h1 : trained out cs cs' = .ok s) (h2 : s.stop solver = (.ok (), s')) (i : Nat) (hi : i < out.getD d) (w : Row F d)
    (hw : ∀ j < i, cov false ((points cs).map fun x => (s'.out j x, dot x w)) = 0) :
    within (s'.out i) (cs.flatMap lrows) * variance ((points cs).map fun x => dot x w) ≤
      within (fun x => dot x w) (cs.flatMap lrows) := by
  obtain ⟨t, avg, h3, hav, hle, h4⟩ := stop_ok out cs cs' hd solver hs ho
  rw [h1] at h3
  cases h3
  rw [h2] at h4
  cases h4
  generalize out.getD d = m at hle hi hw
  have hne : points cs ≠ [] := by
    intro h
    have := hd.two
    simp only [points, List.map_eq_nil_iff] at h
    rw [h] at this
    simp at this
  have hc : ∀ j : Fin d, j.1 < i → coord (covOf (points cs)) v w j = 0 := by
    intro j hj
    have := hw j.1 hj
    rw [out_eq m hle avg v j.1 (by omega)] at this
    have h5 := cov_shift ((points cs).map fun x => (dot x (v j), dot x w)) (by simpa using hne) (dot avg (v j)) 0
    simp only [List.map_map, Function.comp_def, sub_zero] at h5
    rw [h5, cov_dot] at this
    exact this
  have hfa : within (fun x => dot x w) (cs.flatMap lrows) = form (scatterW cs) w w := by
    rw [form_scatterW cs w 0]
    simp only [sub_zero]
  have hfb : variance ((points cs).map fun x => dot x w) = form (covOf (points cs)) w w := by
    rw [variance_dot]
    rfl
  have hfi : within (St.out (⟨none, some m, some avg, some ((List.ofFn v).take m)⟩ : St F d L) i) (cs.flatMap lrows) =
      lam ⟨i, by omega⟩ := by
    rw [out_eq m hle avg v i hi, ← form_scatterW, hs.spec.formA, hs.spec.ortho]
    simp
  rw [hfa, hfb, hfi, hs.spec.formA_coord (covOf_comm _), hs.spec.formB_coord (covOf_comm _), dot, Finset.mul_sum]
  refine Finset.sum_le_sum fun j _ => ?_
  by_cases hj : j.1 < i
  · rw [hc j hj]; simp
  · have h6 := hs.spec.asc ⟨i, by omega⟩ j (by rw [Fin.le_def]; simp only; omega)
    have h7 := mul_self_nonneg (coord (covOf (points cs)) v w j)
    nlinarith

/-- **C220**: no `m` linear functions that have variance one and are uncorrelated have less scatter within the classes, in
sum, than the first `m` outputs. -/
theorem fda_best_set (out : Option Nat) (cs cs' : List (Chunk F d L)) (hd : Data cs cs') (solver : Sfa.Solver F d) {lam : Fin d → F}
    {v : Fin d → Row F d} (hs : Solves solver (scatterW cs) (covOf (points cs)) lam v) (ho : Sfa.Valid out d) (s s' : St F d L)
    (h1 : trained out cs cs' = .ok s) (h2 : s.stop solver = (.ok (), s')) (m : Nat) (hm : m ≤ out.getD d)
    (w : Fin m → Row F d)
    (hw : ∀ a b, cov false ((points cs).map fun x => (dot x (w a), dot x (w b))) = if a = b then 1 else 0) :
    ∑ i : Fin m, within (s'.out i) (cs.flatMap lrows) ≤ ∑ a, within (fun x => dot x (w a)) (cs.flatMap lrows) := by
  obtain ⟨t, avg, h3, hav, hle, h4⟩ := stop_ok out cs cs' hd solver hs ho
  rw [h1] at h3
  cases h3
  rw [h2] at h4
  cases h4
  generalize out.getD d = n at hle hm
  have hfi : ∀ i : Fin m, within (St.out (⟨none, some n, some avg, some ((List.ofFn v).take n)⟩ : St F d L) i) (cs.flatMap lrows) =
      lam ⟨i.1, by omega⟩ := by
    intro i
    rw [out_eq n hle avg v i.1 (by omega), ← form_scatterW, hs.spec.formA, hs.spec.ortho]
    simp
  have hfa : ∀ a, within (fun x => dot x (w a)) (cs.flatMap lrows) = form (scatterW cs) (w a) (w a) := by
    intro a
    rw [form_scatterW cs (w a) 0]
    simp only [sub_zero]
  simp only [hfi, hfa]
  have := hs.spec.minimal (covOf_comm _) w fun a b => by rw [← hw a b, cov_dot]; rfl
  refine le_trans (le_of_eq ?_) this
  rw [← take_sum, take_ofFn (by omega), List.sum_ofFn]

/-- **C221**: after a failure of the solver the node can neither be trained further nor stopped: both raise AttributeError. -/
theorem fda_no_retry (solver solver' : Sfa.Solver F d) (s s' : St F d L) (h : s.stop solver = (.error .symeig, s'))
    (x : List (Row F d)) (labels : Labels L) (hl : labelsOk x labels = true) :
    (s'.train x labels).1 = .error .attribute ∧ (s'.stop solver').1 = .error .attribute := by
  have hacc : s'.acc = none := by
    unfold St.stop at h
    cases ha : s.acc with
    | none => rw [ha] at h; cases h
    | some a =>
      simp only [ha] at h
      cases hf : a.allcov.fix true with
      | error e => rw [hf] at h; cases h
      | ok r =>
        obtain ⟨⟨st, avg, n⟩, c⟩ := r
        simp only [hf] at h
        cases hsw : a.sw with
        | none => rw [hsw] at h; cases h
        | some sw =>
          simp only [hsw] at h
          split at h
          · cases h; rfl
          · cases h
  unfold St.train St.stop
  rw [hacc]
  simp [hl]

/-- **C222**: executing the inverse of outputs gives these outputs; if all components are kept the inverse of the output of
an input is this input. -/
theorem fda_inverse (out : Option Nat) (cs cs' : List (Chunk F d L)) (hd : Data cs cs') (solver : Sfa.Solver F d) {lam : Fin d → F}
    {v : Fin d → Row F d} (hs : Solves solver (scatterW cs) (covOf (points cs)) lam v) (ho : Sfa.Valid out d) (s s' : St F d L)
    (h1 : trained out cs cs' = .ok s) (h2 : s.stop solver = (.ok (), s')) (V : List (Row F d)) (hV : s'.v = some V)
    (pinv : List (Row F d) → List (Row F d)) (hp : GenInverse V (pinv V)) :
    (∀ y : List F, y.length = out.getD d → ∃ x, s'.inverse pinv y = .ok x ∧ s'.execute none x = .ok y) ∧
    (out.getD d = d → ∀ x y, s'.execute none x = .ok y → s'.inverse pinv y = .ok x) := by
  obtain ⟨t, avg, h3, hav, hle, h4⟩ := stop_ok out cs cs' hd solver hs ho
  rw [h1] at h3
  cases h3
  rw [h2] at h4
  cases h4
  cases hV
  generalize out.getD d = m at hle hp
  obtain ⟨g, hg⟩ : ∃ g : Fin m → Row F d, pinv ((List.ofFn v).take m) = List.ofFn g := by
    have hl : (pinv ((List.ofFn v).take m)).length = m := by rw [hp.1]; simp [hle]
    refine ⟨fun i => (pinv ((List.ofFn v).take m))[i.1]'(by omega), ?_⟩
    apply List.ext_getElem (by simp [hl])
    intro i h1 h2
    simp
  have hgi := hp
  rw [hg] at hgi
  have hleft := hs.spec.left_inverse hle g hgi
  refine ⟨fun y hy => ?_, fun hmd x y hxy => ?_⟩
  · obtain ⟨c, rfl⟩ : ∃ c : Fin m → F, y = List.ofFn c := by
      subst hy
      exact ⟨fun i => y[i.1], by simp⟩
    refine ⟨_, rfl, ?_⟩
    simp only [hg]
    simp only [St.execute, dotL_eq, take_ofFn hle, List.map_ofFn, zipWith_ofFn, List.sum_ofFn, dot_sub, dot_comb, Function.comp_def,
      hleft, mul_ite, mul_one, mul_zero, Finset.sum_ite_eq', Finset.mem_univ, if_true, add_sub_cancel_right]
  · subst hmd
    simp only [St.execute, dotL_eq, List.take_of_length_le (List.length_ofFn (f := v)).le, List.map_ofFn,
      Function.comp_def] at hxy
    cases hxy
    have hpg : pinv (List.ofFn v) = List.ofFn g := by
      rw [← hg, List.take_of_length_le (List.length_ofFn (f := v)).le]
    have h1 : Matrix.of g * (Matrix.of v).transpose = 1 := by
      ext i j
      rw [Matrix.mul_apply, Matrix.one_apply]
      exact hleft i j
    have h3 := (mul_eq_one_comm).1 h1
    have h4 : ∀ k l, ∑ i, v i k * g i l = if k = l then 1 else 0 := by
      intro k l
      have := congrFun (congrFun h3 k) l
      rw [Matrix.mul_apply, Matrix.one_apply] at this
      exact this
    simp only [St.inverse, List.take_of_length_le (List.length_ofFn (f := v)).le, hpg, zipWith_ofFn, List.sum_ofFn]
    congr 1
    funext l
    have h5 : ∀ i, dot (x - avg) (v i) * g i l = ∑ k, (x k - avg k) * (v i k * g i l) := by
      intro i
      rw [dot, Finset.sum_mul]
      exact Finset.sum_congr rfl fun k _ => by rw [Pi.sub_apply]; ring
    simp only [h5]
    rw [Finset.sum_comm]
    simp only [← Finset.mul_sum, h4, mul_ite, mul_one, mul_zero, Finset.sum_ite_eq', Finset.mem_univ, if_true,
      sub_add_cancel]

/-! ## A concrete case -/

/-- Two classes that differ in the first coordinate; the labels are given one by one in the first pass, and in the second
each class is a chunk. -/
def exA : List (Chunk ℚ 2 Nat) :=
  [([![1, 1], ![-1, 1], ![1, -1], ![-1, -1], ![0, 0]], .each [0, 1, 0, 1, 2])]
def exB : List (Chunk ℚ 2 Nat) := [([![1, 1], ![-1, 1]], .each [0, 1]), ([![1, -1]], .one 0), ([![-1, -1], ![0, 0]], .each [1, 2])]

theorem exData : Data exA exB := ⟨by decide, by decide, by decide +kernel, by decide⟩

def exLam : Fin 2 → ℚ := ![0, 4]
def exVec : Fin 2 → Row ℚ 2 := ![![1, 0], ![0, 1]]
def exSolver : Sfa.Solver ℚ 2 := fun _ _ rng => match rng with
  | none => some (List.ofFn fun i => (exLam i, exVec i))
  | some (_, k) => some ((List.ofFn fun i => (exLam i, exVec i)).take k)

theorem exSolves : Solves exSolver (scatterW exA) (covOf (points exA)) exLam exVec :=
  ⟨⟨by decide +kernel, by decide +kernel, by decide +kernel⟩, rfl, fun _ _ _ => rfl⟩

example := fda_outputs (some 1) exA exB exData exSolver exSolves exValid.1
example := fda_outputs none exA exB exData exSolver exSolves exValid.2

/-- The filters are their own inverse. -/
example : ∃ s s', trained none exA exB = .ok s ∧ s.stop exSolver = (.ok (), s') ∧
    ∃ V, s'.v = some V ∧ GenInverse V (id V) := by
  obtain ⟨s, avg, h1, hav, hle, h2⟩ := stop_ok none exA exB exData exSolver exSolves exValid.2
  refine ⟨s, _, h1, h2, _, rfl, by simp, ?_⟩
  have : ∀ w ∈ (List.ofFn exVec).take 2, ∀ k, (List.zipWith (fun a g => a k * dot g w) ((List.ofFn exVec).take 2)
      ((List.ofFn exVec).take 2)).sum = w k := by decide +kernel
  exact this

/-- A failure of the solver. -/
example : ∃ s s', trained none exA exB = .ok s ∧ s.stop (fun _ _ _ => none) = (.error .symeig, s') := by
  obtain ⟨s, avg, h1, hav, hle, h2⟩ := stop_ok none exA exB exData exSolver exSolves exValid.2
  refine ⟨s, (s.stop (fun _ _ _ => none)).2, h1, ?_⟩
  unfold St.stop at h2 ⊢
  cases ha : s.acc with
  | none => simp [ha] at h2
  | some a =>
    simp only [ha] at h2 ⊢
    cases hf : a.allcov.fix true with
    | error e => simp [hf] at h2
    | ok r =>
      simp only [hf] at h2 ⊢
      cases hsw : a.sw with
      | none => simp [hsw] at h2
      | some sw => simp only

end Mdp.Fda
