import Verif.Nodes.Nearest
import Verif.Parallel.FdaProps
import Mathlib.Tactic.Ring
import Mathlib.Tactic.NormNum
import Mathlib.Data.List.Count
import Mathlib.Algebra.Field.Rat
import Mathlib.Algebra.Order.Field.Rat
import Mathlib.Tactic.Tauto

/-!
# Properties of the nearest mean and nearest neighbour classifiers (C57)
-/

namespace Mdp.Nearest

open Cov Join

/-! ## argmin -/

theorem foldl_best {V : Type} (better : V → V → Prop) [DecidableRel better]
    (tr : ∀ a b c, ¬ better a b → ¬ better b c → ¬ better a c) (irr : ∀ a, ¬ better a a)
    (asy : ∀ a b, better a b → ¬ better b a) (l : List V) :
    ∀ (n : Nat) (b : V × Nat), ∃ v i, ((l.zipIdx n).foldl (fun b p => if better p.1 b.1 then p else b) b) = (v, i) ∧
      ((v, i) = b ∨ (n ≤ i ∧ l[i - n]? = some v)) ∧ ¬ better b.1 v ∧ ∀ w ∈ l, ¬ better w v := by
  induction l with
  | nil => intro n b; exact ⟨b.1, b.2, rfl, Or.inl rfl, irr _, by simp⟩
  | cons a l ih =>
    intro n b
    rw [List.zipIdx_cons, List.foldl_cons]
    by_cases h : better a b.1
    · simp only [h, if_true]
      obtain ⟨v, i, e, h1, h2, h3⟩ := ih (n + 1) (a, n)
      refine ⟨v, i, e, ?_, tr _ _ _ (asy _ _ h) h2, ?_⟩
      · rcases h1 with h1 | ⟨h1, h4⟩
        · cases h1; exact Or.inr ⟨Nat.le_refl _, by simp⟩
        · refine Or.inr ⟨by omega, ?_⟩
          rw [show i - n = (i - (n + 1)) + 1 by omega, List.getElem?_cons_succ]; exact h4
      · intro w hw
        rcases List.mem_cons.1 hw with rfl | hw
        · exact h2
        · exact h3 w hw
    · simp only [h, if_false]
      obtain ⟨v, i, e, h1, h2, h3⟩ := ih (n + 1) b
      refine ⟨v, i, e, ?_, h2, ?_⟩
      · rcases h1 with h1 | ⟨h1, h4⟩
        · exact Or.inl h1
        · refine Or.inr ⟨by omega, ?_⟩
          rw [show i - n = (i - (n + 1)) + 1 by omega, List.getElem?_cons_succ]; exact h4
      · intro w hw
        rcases List.mem_cons.1 hw with rfl | hw
        · exact tr _ _ _ h h2
        · exact h3 w hw

theorem argBest_spec {V : Type} (better : V → V → Prop) [DecidableRel better]
    (tr : ∀ a b c, ¬ better a b → ¬ better b c → ¬ better a c) (irr : ∀ a, ¬ better a a)
    (asy : ∀ a b, better a b → ¬ better b a) (l : List V) (hl : l ≠ []) :
    ∃ i v, argBest better l = some i ∧ l[i]? = some v ∧ ∀ w ∈ l, ¬ better w v := by
  cases l with
  | nil => exact absurd rfl hl
  | cons a l =>
    obtain ⟨v, i, e, h1, h2, h3⟩ := foldl_best better tr irr asy l 1 (a, 0)
    refine ⟨i, v, by rw [argBest, e], ?_, ?_⟩
    · rcases h1 with h1 | ⟨h1, h4⟩
      · cases h1; simp
      · rw [show i = (i - 1) + 1 by omega, List.getElem?_cons_succ]; exact h4
    · intro w hw
      rcases List.mem_cons.1 hw with rfl | hw
      · exact h2
      · exact h3 w hw

theorem argmin_spec {V : Type} [LinearOrder V] (l : List V) (hl : l ≠ []) :
    ∃ i v, argBest (fun a b => a < b) l = some i ∧ l[i]? = some v ∧ ∀ w ∈ l, v ≤ w := by
  obtain ⟨i, v, h1, h2, h3⟩ := argBest_spec (fun a b : V => a < b)
    (fun a b c h h' => not_lt.2 (le_trans (not_lt.1 h') (not_lt.1 h))) (fun a => lt_irrefl a)
    (fun a b h => not_lt.2 (le_of_lt h)) l hl
  exact ⟨i, v, h1, h2, fun w hw => not_lt.1 (h3 w hw)⟩

theorem argmax_spec {V : Type} [LinearOrder V] (l : List V) (hl : l ≠ []) :
    ∃ i v, argBest (fun a b => b < a) l = some i ∧ l[i]? = some v ∧ ∀ w ∈ l, w ≤ v := by
  obtain ⟨i, v, h1, h2, h3⟩ := argBest_spec (fun a b : V => b < a)
    (fun a b c h h' => not_lt.2 (le_trans (not_lt.1 h) (not_lt.1 h'))) (fun a => lt_irrefl a)
    (fun a b h => not_lt.2 (le_of_lt h)) l hl
  exact ⟨i, v, h1, h2, fun w hw => not_lt.1 (h3 w hw)⟩

/-! ## Specification -/

variable {F : Type} [Field F] [LinearOrder F] {d : Nat} {L : Type} [DecidableEq L]

/-- Squared euclidean distance. -/
def sqDist (x y : Row F d) : F := ∑ i, (x i - y i) ^ 2

/-- The mean of all rows with the label `l`. -/
def classMean (rs : List (L × Row F d)) (l : L) : Row F d :=
  fun i => ((rowsOf l rs).map fun r => r i).sum / ((rowsOf l rs).length : F)

/-! ## Nearest mean -/

/-- C57: after training with any chunks, the label returned by a NearestMeanClassifier is one of those given in
training, and the mean of its rows has the smallest distance to `x`. The labels may be in any order. -/
theorem nearest_mean (cs : List (List (Row F d) × Labels L)) (hok : ∀ c ∈ cs, labelsOk c.1 c.2 = true)
    (order : List L) (hmem : ∀ l, l ∈ order ↔ l ∈ cs.flatMap named)
    (hne : cs.flatMap named ≠ []) (hpos : ∀ l ∈ cs.flatMap named, rowsOf l (cs.flatMap lrows) ≠ []) (x : Row F d) :
    ∃ q s l, cs.foldlM (fun m c => meanTrain m c.1 c.2) (fun _ => none) = .ok q ∧ nmStop order q = some s ∧
      nmLabel s x = some l ∧ l ∈ cs.flatMap named ∧
      ∀ l' ∈ cs.flatMap named, sqDist x (classMean (cs.flatMap lrows) l) ≤ sqDist x (classMean (cs.flatMap lrows) l') := by
  obtain ⟨q, hq, hs⟩ := class_sums cs hok
  have hmeans : (order.mapM fun l => (q l).bind fun p => if p.2 = 0 then none else some (divR p.1 (p.2 : F))) =
      some (order.map (classMean (cs.flatMap lrows))) := by
    have : ∀ o : List L, (∀ l ∈ o, l ∈ cs.flatMap named) →
        (o.mapM fun l => (q l).bind fun p => if p.2 = 0 then none else some (divR p.1 (p.2 : F))) =
        some (o.map (classMean (cs.flatMap lrows))) := by
      intro o
      induction o with
      | nil => simp
      | cons l o ih =>
        intro h
        have hl : ((q l).bind fun p => if p.2 = 0 then none else some (divR p.1 (p.2 : F))) =
            some (classMean (cs.flatMap lrows) l) := by
          rw [hs l, if_pos (h l (by simp)), Option.bind_some]
          rw [if_neg (by simpa using hpos l (h l (by simp)))]; rfl
        rw [List.mapM_cons, hl, ih fun l hl => h l (by simp [hl])]
        rfl
    exact this order fun l hl => (hmem l).1 hl
  have hone : order ≠ [] := by
    obtain ⟨l, hl⟩ := List.exists_mem_of_ne_nil _ hne
    exact List.ne_nil_of_mem ((hmem l).2 hl)
  obtain ⟨i, v, h1, h2, h3⟩ := argmin_spec ((order.map (classMean (cs.flatMap lrows))).map
    fun c => ∑ i, (x i - c i) ^ 2) (by simpa using hone)
  rw [List.map_map, List.getElem?_map] at h2
  obtain ⟨l, hl, hv⟩ := Option.map_eq_some_iff.1 h2
  refine ⟨q, (order, order.map (classMean (cs.flatMap lrows))), l, hq, ?_, ?_, ?_, ?_⟩
  · unfold nmStop
    rw [if_neg (by simpa using hone), hmeans]; rfl
  · unfold nmLabel
    simp only [h1, Option.bind_some]
    exact hl
  · exact (hmem l).1 (List.mem_of_getElem? hl)
  · intro l' hl'
    have := h3 (sqDist x (classMean (cs.flatMap lrows) l')) (by
      rw [List.map_map]
      exact List.mem_map.2 ⟨l', (hmem l').2 hl', rfl⟩)
    rw [← hv] at this
    exact this

/-- Without any label `stop_training` raises. -/
theorem nearest_mean_empty : nmStop ([] : List L) (fun _ => (none : Option (Row F d × Nat))) = none := rfl

/-! ## k nearest neighbours -/

theorem knn_samples (cs : List (List (Row F d) × Labels L)) (hok : ∀ c ∈ cs, labelsOk c.1 c.2 = true) :
    ∃ q, cs.foldlM (fun m c => knnTrain m c.1 c.2) (fun _ => none) = .ok q ∧
      ∀ k, ((q k).getD []).flatten = rowsOf k (cs.flatMap lrows) := by
  refine ⟨_, foldlM_ok (fun c => labelsOk c.1 c.2 = true) _ (labT (· ++ ·) fun x => [x])
    (fun m c hc => labTrain_ok _ _ List.nil_append _ m c hc) cs hok _, ?_⟩
  clear hok
  intro k
  induction cs with
  | nil => simp [rowsOf]
  | cons c cs ih =>
    rw [List.foldl_cons, labT_run (· ++ ·) List.append_assoc, List.flatMap_cons, rowsOf_append, ← ih]
    simp only [labT, oplus_none_left, contrib_eq]
    by_cases h1 : k ∈ named c
    · rw [if_pos h1]
      cases (cs.foldl (labT (· ++ ·) fun x => [x]) (fun _ => none) k) <;> simp [oplus]
    · rw [if_neg h1, rowsOf_not_named k c h1]; simp

theorem lrows_named (c : List (Row F d) × Labels L) (p : L × Row F d) (hp : p ∈ lrows c) : p.1 ∈ named c := by
  by_contra h
  have := rowsOf_not_named p.1 c h
  simp only [rowsOf, List.map_eq_nil_iff, List.filter_eq_nil_iff, decide_eq_true_eq] at this
  exact this p hp rfl

theorem perm_by_label (order : List L) (hnd : order.Nodup) (rs : List (L × Row F d)) (h : ∀ p ∈ rs, p.1 ∈ order) :
    (order.flatMap fun l => (rowsOf l rs).map fun r => (l, r)).Perm rs := by
  have e : ∀ l, ((rowsOf l rs).map fun r => (l, r)) = rs.filter fun p => p.1 = l := by
    intro l
    unfold rowsOf
    rw [List.map_map]
    conv_rhs => rw [← List.map_id (rs.filter fun p => p.1 = l)]
    apply List.map_congr_left
    intro p hp
    have := (List.mem_filter.1 hp).2
    simp only [decide_eq_true_eq] at this
    simp [← this]
  simp only [e]
  clear e
  induction order generalizing rs with
  | nil =>
    cases rs with
    | nil => simp
    | cons p rs => exact absurd (h p (by simp)) (by simp)
  | cons l order ih =>
    rw [List.flatMap_cons]
    rw [List.nodup_cons] at hnd
    have h2 : (order.flatMap fun l' => rs.filter fun p => p.1 = l') =
        order.flatMap fun l' => (rs.filter fun p => ! decide (p.1 = l)).filter fun p => p.1 = l' := by
      apply List.flatMap_congr
      intro l' hl'
      rw [List.filter_filter]
      apply List.filter_congr
      intro p _
      by_cases hp : p.1 = l'
      · have : ¬ p.1 = l := fun hc => hnd.1 (by rw [← hc, hp]; exact hl')
        simp [hp] at this ⊢
        exact this
      · simp [hp]
    rw [h2]
    refine (List.Perm.append_left _ (ih hnd.2 _ ?_)).trans (List.filter_append_perm _ rs)
    intro p hp
    obtain ⟨h3, h4⟩ := List.mem_filter.1 hp
    rcases List.mem_cons.1 (h p h3) with h5 | h5
    · simp [h5] at h4
    · exact h5

theorem filterMap_range (T : List M) : (List.range T.length).filterMap (fun i => T[i]?) = T := by
  induction T with
  | nil => rfl
  | cons a T ih =>
    rw [List.length_cons, List.range_succ_eq_map, List.filterMap_cons]
    simp only [List.getElem?_cons_zero, List.filterMap_map]
    congr 1

theorem bincount_spec (l : List Nat) (hl : l ≠ []) :
    ∃ i, argBest (fun a b => b < a) (bincount l) = some i ∧ i ∈ l ∧ ∀ j, l.count j ≤ l.count i := by
  obtain ⟨m, hm⟩ : ∃ m, l.max? = some m := by
    cases h : l.max? with
    | none => exact absurd (List.max?_eq_none_iff.1 h) hl
    | some m => exact ⟨m, rfl⟩
  have hb : bincount l = (List.range (m + 1)).map fun i => l.count i := by simp [bincount, hm]
  obtain ⟨hmem, hle⟩ := List.max?_eq_some_iff.1 hm
  obtain ⟨i, v, h1, h2, h3⟩ := argmax_spec (bincount l) (by rw [hb]; simp)
  have hi : l.count i = v := by
    rw [hb, List.getElem?_map] at h2
    obtain ⟨i', e1, e2⟩ := Option.map_eq_some_iff.1 h2
    have := List.getElem?_eq_some_iff.1 e1
    obtain ⟨hlt, e3⟩ := this
    rw [List.getElem_range] at e3
    rw [e3]; exact e2
  have hall : ∀ j, l.count j ≤ l.count i := by
    intro j
    by_cases hj : j ∈ l
    · rw [hi]
      refine h3 _ ?_
      rw [hb]
      exact List.mem_map.2 ⟨j, List.mem_range.2 (by have := hle j hj; omega), rfl⟩
    · rw [List.count_eq_zero.2 hj]; exact Nat.zero_le _
  refine ⟨i, h1, ?_, hall⟩
  have : 0 < l.count i := lt_of_lt_of_le (List.count_pos_iff.2 hmem) (hall m)
  exact List.count_pos_iff.1 this

/-- `x·x + y·y - 2 x·y` is the squared distance. -/
theorem dist_eq (x y : Row F d) : (∑ i, x i * x i) + (∑ i, y i * y i) - 2 * ∑ i, x i * y i = sqDist x y := by
  unfold sqDist
  rw [Finset.mul_sum, ← Finset.sum_add_distrib, ← Finset.sum_sub_distrib]
  apply Finset.sum_congr rfl
  intro i _
  ring

/-- C57: after training with any chunks, the label returned by a KNNClassifier is one of the most frequent labels
among `k` nearest rows (all rows if there are fewer), whatever the order of the labels and of rows at equal distance. -/
theorem knn_majority (cs : List (List (Row F d) × Labels L)) (hok : ∀ c ∈ cs, labelsOk c.1 c.2 = true)
    (order : List L) (hnd : order.Nodup) (hmem : ∀ l, l ∈ order ↔ l ∈ cs.flatMap named)
    (hne : cs.flatMap lrows ≠ []) (k : Nat) (hk : 1 ≤ k) (x : Row F d) :
    ∃ q s, cs.foldlM (fun m c => knnTrain m c.1 c.2) (fun _ => none) = .ok q ∧ knnStop order q = some s ∧
      ∀ perm, IsArgsort (knnDist s x) perm → ∃ (l : L) (near rest : List (L × Row F d)), knnLabel k s perm = some l ∧
        (near ++ rest).Perm (cs.flatMap lrows) ∧ near.length = min k (cs.flatMap lrows).length ∧
        (∀ a ∈ near, ∀ b ∈ rest, sqDist x a.2 ≤ sqDist x b.2) ∧
        l ∈ near.map (·.1) ∧ ∀ l', (near.map (·.1)).count l' ≤ (near.map (·.1)).count l := by
  obtain ⟨q, hq, hrows⟩ := knn_samples cs hok
  have hin : ∀ p ∈ cs.flatMap lrows, p.1 ∈ order := by
    intro p hp
    obtain ⟨c, hc, hpc⟩ := List.mem_flatMap.1 hp
    exact (hmem p.1).2 (List.mem_flatMap.2 ⟨c, hc, lrows_named c p hpc⟩)
  have hone : order ≠ [] := by
    obtain ⟨p, hp⟩ := List.exists_mem_of_ne_nil _ hne
    exact List.ne_nil_of_mem (hin p hp)
  refine ⟨q, ⟨order, order.zipIdx.flatMap fun p => (rowsOf p.1 (cs.flatMap lrows)).map fun r => (p.2, r)⟩, hq, ?_, ?_⟩
  · unfold knnStop
    rw [if_neg (by simpa using hone)]
    simp only [hrows]
  generalize hS : (order.zipIdx.flatMap fun p => (rowsOf p.1 (cs.flatMap lrows)).map fun r => (p.2, r)) = S
  intro perm hperm
  -- the samples with their labels
  have hlab : ∀ p ∈ S, ∃ l, order[p.1]? = some l := by
    intro p hp
    rw [← hS] at hp
    obtain ⟨z, hz, hp⟩ := List.mem_flatMap.1 hp
    obtain ⟨r, -, rfl⟩ := List.mem_map.1 hp
    exact ⟨z.1, (List.mem_zipIdx_iff_getElem?.1 hz)⟩
  let T := S.filterMap fun p => order[p.1]?.map fun l => (l, p.2)
  have hT : T.Perm (cs.flatMap lrows) := by
    have : T = order.flatMap fun l => (rowsOf l (cs.flatMap lrows)).map fun r => (l, r) := by
      show S.filterMap _ = _
      rw [← hS]
      have : ∀ (o : List (L × Nat)), (∀ z ∈ o, order[z.2]? = some z.1) →
          (o.flatMap fun p => (rowsOf p.1 (cs.flatMap lrows)).map fun r => (p.2, r)).filterMap
            (fun p => order[p.1]?.map fun l => (l, p.2)) =
          (o.map (·.1)).flatMap fun l => (rowsOf l (cs.flatMap lrows)).map fun r => (l, r) := by
        intro o
        induction o with
        | nil => simp
        | cons z o ih =>
          intro h
          rw [List.flatMap_cons, List.filterMap_append, ih fun w hw => h w (by simp [hw]), List.map_cons,
            List.flatMap_cons]
          congr 1
          have hz := h z (by simp)
          rw [List.filterMap_map]
          simp only [Function.comp_def, hz, Option.map_some]
          exact congrFun (List.filterMap_eq_map (f := fun r => (z.1, r))) _
      rw [this _ fun z hz => List.mem_zipIdx_iff_getElem?.1 hz]
      simp
    rw [this]
    exact perm_by_label order hnd _ hin
  have hlen : T.length = S.length := by
    have : ∀ S' : List (Nat × Row F d), (∀ p ∈ S', ∃ l, order[p.1]? = some l) →
        (S'.filterMap fun p => order[p.1]?.map fun l => (l, p.2)).length = S'.length := by
      intro S'
      induction S' with
      | nil => simp
      | cons p S' ih =>
        intro h
        obtain ⟨l, hl⟩ := h p (by simp)
        rw [List.filterMap_cons]
        simp only [hl, Option.map_some, List.length_cons]
        rw [ih fun w hw => h w (by simp [hw])]
    exact this S hlab
  have hTi : ∀ i : Nat, T[i]? = S[i]?.bind fun (p : Nat × Row F d) => order[p.1]?.map fun l => (l, p.2) := by
    have : ∀ S' : List (Nat × Row F d), (∀ p ∈ S', ∃ l, order[p.1]? = some l) → ∀ i : Nat,
        (S'.filterMap fun p => order[p.1]?.map fun l => (l, p.2))[i]? =
          S'[i]?.bind fun (p : Nat × Row F d) => order[p.1]?.map fun l => (l, p.2) := by
      intro S'
      induction S' with
      | nil => simp
      | cons p S' ih =>
        intro h i
        obtain ⟨l, hl⟩ := h p (by simp)
        rw [List.filterMap_cons]
        simp only [hl, Option.map_some]
        cases i with
        | zero => simp [hl]
        | succ i => simpa using ih (fun w hw => h w (by simp [hw])) i
    exact this S hlab
  have hpl : perm.Perm (List.range T.length) := by
    have := hperm.1
    simpa [knnDist, hlen] using this
  have hlt : ∀ i ∈ perm, i < T.length := fun i hi => List.mem_range.1 (hpl.mem_iff.1 hi)
  have hTne : 0 < T.length := by
    rw [hT.length_eq]; exact List.length_pos_iff.2 hne
  let near := (perm.take k).filterMap fun i => T[i]?
  let rest := (perm.drop k).filterMap fun i => T[i]?
  have hidx : ((perm.take k).filterMap fun i => S[i]?.map fun p => p.1) ≠ [] := by
    have hp : perm ≠ [] := by
      intro h
      rw [h] at hpl
      have := hpl.length_eq
      simp at this; omega
    obtain ⟨i, perm', rfl⟩ := List.exists_cons_of_ne_nil hp
    obtain ⟨k', rfl⟩ : ∃ k', k = k' + 1 := ⟨k - 1, by omega⟩
    have hi := hlt i (by simp)
    rw [List.take_succ_cons, List.filterMap_cons, List.getElem?_eq_getElem (by omega)]
    simp
  obtain ⟨i0, b1, b2, b3⟩ := bincount_spec _ hidx
  -- its label
  obtain ⟨p0, hp0, hpi⟩ := List.mem_filterMap.1 b2
  obtain ⟨z, hz, hzi⟩ := Option.map_eq_some_iff.1 hpi
  obtain ⟨l, hl⟩ := hlab z (List.mem_of_getElem? hz)
  rw [hzi] at hl
  -- counting labels is counting indices
  have hcount : ∀ (ps : List Nat) (j : Nat) (l' : L), order[j]? = some l' →
      ((ps.filterMap fun i => T[i]?).map (·.1)).count l' = (ps.filterMap fun i => S[i]?.map fun p => p.1).count j := by
    intro ps j l' hj
    induction ps with
    | nil => rfl
    | cons i ps ih =>
      rw [List.filterMap_cons, List.filterMap_cons, hTi i]
      cases hs : S[i]? with
      | none => simpa using ih
      | some w =>
        obtain ⟨lw, hlw⟩ := hlab w (List.mem_of_getElem? hs)
        simp only [Option.bind_some, hlw, Option.map_some, List.map_cons, List.count_cons, ih]
        congr 1
        have : (lw == l') = (w.1 == j) := by
          by_cases hc : w.1 = j
          · have : lw = l' := by rw [hc, hj] at hlw; exact (Option.some.inj hlw).symm
            simp [hc, this]
          · have : lw ≠ l' := by
              intro e
              subst e
              have hlt' : w.1 < order.length := by
                by_contra hge
                rw [List.getElem?_eq_none (by omega)] at hlw; cases hlw
              exact hc ((List.getElem?_inj hlt' hnd).1 (hlw.trans hj.symm))
            simp [hc, this]
        rw [this]
  refine ⟨l, near, rest, ?_, ?_, ?_, ?_, ?_, ?_⟩
  · unfold knnLabel
    rw [b1, Option.bind_some]; exact hl
  · have : near ++ rest = perm.filterMap fun i => T[i]? := by
      show List.filterMap _ _ ++ List.filterMap _ _ = _
      rw [← List.filterMap_append, List.take_append_drop]
    rw [this]
    have h2 := hpl.filterMap fun i => T[i]?
    rw [filterMap_range] at h2
    exact h2.trans hT
  · show ((perm.take k).filterMap fun i => T[i]?).length = _
    have : ∀ ps : List Nat, (∀ i ∈ ps, i < T.length) → (ps.filterMap fun i => T[i]?).length = ps.length := by
      intro ps
      induction ps with
      | nil => simp
      | cons i ps ih =>
        intro h
        rw [List.filterMap_cons, List.getElem?_eq_getElem (h i (by simp))]
        simp only [List.length_cons]
        rw [ih fun j hj => h j (by simp [hj])]
    rw [this _ fun i hi => hlt i (List.mem_of_mem_take hi), List.length_take, hpl.length_eq, List.length_range,
      hT.length_eq]
  · intro a ha b hb
    obtain ⟨i, hi, hai⟩ := List.mem_filterMap.1 ha
    obtain ⟨j, hj, hbj⟩ := List.mem_filterMap.1 hb
    have hord : perm.Pairwise fun i j => ∀ a ∈ (knnDist ⟨order, S⟩ x)[i]?, ∀ b ∈ (knnDist ⟨order, S⟩ x)[j]?, a ≤ b := hperm.2
    rw [← List.take_append_drop k perm, List.pairwise_append] at hord
    have hij := hord.2.2 i hi j hj
    rw [hTi] at hai hbj
    obtain ⟨u, hu, hu'⟩ := Option.bind_eq_some_iff.1 hai
    obtain ⟨w, hw, hw'⟩ := Option.bind_eq_some_iff.1 hbj
    obtain ⟨_, _, rfl⟩ := Option.map_eq_some_iff.1 hu'
    obtain ⟨_, _, rfl⟩ := Option.map_eq_some_iff.1 hw'
    have := hij (sqDist x u.2) (by simp [knnDist, hu, dist_eq]) (sqDist x w.2) (by simp [knnDist, hw, dist_eq])
    exact this
  · have : 0 < (near.map (·.1)).count l := by
      show 0 < (((perm.take k).filterMap fun i => T[i]?).map (·.1)).count l
      rw [hcount _ i0 l hl]
      exact List.count_pos_iff.2 b2
    exact List.count_pos_iff.1 this
  · intro l'
    by_cases hl' : l' ∈ order
    · obtain ⟨j, hj⟩ := List.mem_iff_getElem?.1 hl'
      show (((perm.take k).filterMap fun i => T[i]?).map (·.1)).count l' ≤
        (((perm.take k).filterMap fun i => T[i]?).map (·.1)).count l
      rw [hcount _ j l' hj, hcount _ i0 l hl]
      exact b3 j
    · have : l' ∉ near.map (·.1) := by
        intro hc
        obtain ⟨a, ha, rfl⟩ := List.mem_map.1 hc
        obtain ⟨i, hi, hai⟩ := List.mem_filterMap.1 ha
        exact hl' (hin a (hT.mem_iff.1 (List.mem_of_getElem? hai)))
      rw [List.count_eq_zero.2 this]; exact Nat.zero_le _

/-- C57: with `k = 1` the label returned is the label of a row nearest to `x`. -/
theorem knn_one (cs : List (List (Row F d) × Labels L)) (hok : ∀ c ∈ cs, labelsOk c.1 c.2 = true)
    (order : List L) (hnd : order.Nodup) (hmem : ∀ l, l ∈ order ↔ l ∈ cs.flatMap named)
    (hne : cs.flatMap lrows ≠ []) (x : Row F d) :
    ∃ q s, cs.foldlM (fun m c => knnTrain m c.1 c.2) (fun _ => none) = .ok q ∧ knnStop order q = some s ∧
      ∀ perm, IsArgsort (knnDist s x) perm → ∃ p ∈ cs.flatMap lrows, knnLabel 1 s perm = some p.1 ∧
        ∀ p' ∈ cs.flatMap lrows, sqDist x p.2 ≤ sqDist x p'.2 := by
  obtain ⟨q, s, h1, h2, h3⟩ := knn_majority cs hok order hnd hmem hne 1 (Nat.le_refl _) x
  refine ⟨q, s, h1, h2, fun perm hp => ?_⟩
  obtain ⟨l, near, rest, e1, e2, e3, e4, e5, -⟩ := h3 perm hp
  have hpos : 0 < (cs.flatMap lrows).length := List.length_pos_iff.2 hne
  obtain ⟨p, rfl⟩ : ∃ p, near = [p] := List.length_eq_one_iff.1 (by omega)
  simp only [List.map_cons, List.map_nil, List.mem_singleton] at e5
  refine ⟨p, e2.mem_iff.1 (by simp), by rw [e1, e5], fun p' hp' => ?_⟩
  rcases List.mem_append.1 (e2.mem_iff.2 hp') with h | h
  · rw [List.mem_singleton.1 h]
  · exact e4 p (by simp) p' h

/-- Of no neighbours (`k = 0`) there is no most frequent label: `argmax` of an empty array raises. -/
theorem knn_zero (s : KnnSt F d L) (perm : List Nat) : knnLabel 0 s perm = none := rfl

/-! ## Examples -/

/-- Rows of width 1. -/
def r1 (a : Rat) : Row Rat 1 := fun _ => a

/-- Chunks for the examples. -/
def exChunks : List (List (Row Rat 1) × Labels String) :=
  [([r1 0, r1 1], .one "a"), ([r1 2, r1 10, r1 12], .each ["a", "b", "b"])]

example : (∀ c ∈ exChunks, labelsOk c.1 c.2 = true) ∧ (∀ l, l ∈ ["b", "a"] ↔ l ∈ exChunks.flatMap named) ∧
    exChunks.flatMap named ≠ [] ∧ exChunks.flatMap lrows ≠ [] ∧
    (∀ l ∈ exChunks.flatMap named, rowsOf l (exChunks.flatMap lrows) ≠ []) := by
  refine ⟨by decide, fun l => ?_, by decide, by simp [exChunks, lrows], by
    simp [exChunks, named, lrows, rowsOf]⟩
  simp [exChunks, named]
  tauto

example : classMean (exChunks.flatMap lrows) "b" = r1 11 := by
  funext i; simp [exChunks, classMean, lrows, rowsOf, r1]; norm_num

example : IsArgsort (knnDist (⟨["b", "a"], [(0, r1 10), (0, r1 12), (1, r1 0)]⟩ : KnnSt Rat 1 String) (r1 11)) [1, 0, 2] ∧
    knnLabel 3 (⟨["b", "a"], [(0, r1 10), (0, r1 12), (1, r1 0)]⟩ : KnnSt Rat 1 String) [1, 0, 2] = some "b" := by
  refine ⟨⟨by decide, ?_⟩, by decide⟩
  simp [knnDist, r1]
  norm_num

end Mdp.Nearest
