import Verif.Nodes.Ccipca
import Mathlib.Tactic.Linarith
import Mathlib.Tactic.FieldSimp
import Mathlib.Tactic.Ring
import Mathlib.Tactic.NormNum
import Mathlib.Algebra.BigOperators.Fin
import Mathlib.Data.List.TakeWhile

/-!
# Theorems about the incremental principal components

`unit` vectors, the estimate of the first component as an average over the samples, the weights, and what the reduced
dimensionality and the inverse are.
-/

namespace Mdp.Ccipca

open Mdp.Cov Mdp.Pca

variable {d : Nat}

/-! ## Specification -/

/-- A vector of length one. -/
def Unit (v : Row ℝ d) : Prop := dot v v = 1

/-! ## Lemmas -/

theorem dot_self_nonneg (v : Row ℝ d) : 0 ≤ dot v v := Finset.sum_nonneg fun k _ => mul_self_nonneg _

theorem nrm_sq (v : Row ℝ d) : nrm v * nrm v = dot v v := Real.mul_self_sqrt (dot_self_nonneg v)

theorem nrm_nonneg (v : Row ℝ d) : 0 ≤ nrm v := Real.sqrt_nonneg _

theorem dot_eq_zero {v : Row ℝ d} (h : dot v v = 0) : v = 0 := by
  funext k
  have := (Finset.sum_eq_zero_iff_of_nonneg (fun k _ => mul_self_nonneg (v k))).1 h k (Finset.mem_univ _)
  simpa using this

theorem nrm_pos {v : Row ℝ d} (h : v ≠ 0) : 0 < nrm v :=
  Real.sqrt_pos.2 (lt_of_le_of_ne (dot_self_nonneg v) fun e => h (dot_eq_zero e.symm))

theorem dot_smul_div (v : Row ℝ d) (e : ℝ) : dot (fun k => v k / e) (fun k => v k / e) = dot v v / (e * e) := by
  simp only [dot, Finset.sum_div]
  exact Finset.sum_congr rfl fun k _ => by rw [div_mul_div_comm]

/-- A component whose length is known and is not zero. -/
def Good (c : Comp d) : Prop := 0 < c.e ∧ c.e = nrm c.u

theorem components_spec (w1 w2 : ℝ) (l : List (Comp d)) : ∀ (r : Row ℝ d) (l' : List (Comp d)),
    components w1 w2 r l = some l' → l'.length = l.length ∧
    ∀ c ∈ l', Good c ∧ Unit c.v ∧ ∀ k, c.u k = c.e * c.v k := by
  induction l with
  | nil => intro r l' h; simp only [components, Option.some.injEq] at h; subst h; simp
  | cons c l ih =>
    intro r l' h
    simp only [components] at h
    split at h
    · simp at h
    · split at h
      · simp at h
      · rename_i h1 h2
        simp only [Option.map_eq_some_iff] at h
        obtain ⟨t, ht, rfl⟩ := h
        have := ih _ _ ht
        refine ⟨by simp [this.1], ?_⟩
        intro c' hc
        simp only [List.mem_cons] at hc
        rcases hc with rfl | hc
        · refine ⟨⟨lt_of_le_of_ne (nrm_nonneg _) (Ne.symm h2), rfl⟩, ?_, fun k => ?_⟩
          · simp only [Unit]
            rw [dot_smul_div, nrm_sq]
            apply div_self
            rw [← nrm_sq]
            exact mul_ne_zero h2 h2
          · exact (mul_div_cancel₀ _ h2).symm
        · exact this.2 c' hc

theorem components_some (w1 w2 : ℝ) (h1 : 0 < w1) (h2 : 0 ≤ w2) (l : List (Comp d)) : (∀ c ∈ l, Good c) → ∀ r : Row ℝ d,
    ∃ l', components w1 w2 r l = some l' := by
  induction l with
  | nil => exact fun _ _ => ⟨[], rfl⟩
  | cons c l ih =>
    intro hg r
    obtain ⟨he, hu⟩ := hg c (by simp)
    have h3 : (fun k => w1 * c.u k + w2 * dot r c.u / c.e * r k) ≠ (0 : Row ℝ d) := by
      intro h
      have h4 : dot (fun k => w1 * c.u k + w2 * dot r c.u / c.e * r k) c.u = 0 := by rw [h]; simp [dot]
      have h5 : dot (fun k => w1 * c.u k + w2 * dot r c.u / c.e * r k) c.u
          = w1 * dot c.u c.u + w2 * dot r c.u / c.e * dot r c.u := by
        simp only [dot, Finset.mul_sum, ← Finset.sum_add_distrib]
        exact Finset.sum_congr rfl fun k _ => by ring
      have h6 : 0 < dot c.u c.u := by rw [← nrm_sq, ← hu]; positivity
      have h7 : 0 ≤ w2 * dot r c.u / c.e * dot r c.u := by
        rw [show w2 * dot r c.u / c.e * dot r c.u = w2 / c.e * (dot r c.u * dot r c.u) by ring]
        have := mul_self_nonneg (dot r c.u)
        positivity
      have h8 : 0 < w1 * dot c.u c.u := by positivity
      linarith
    have h9 := (nrm_pos h3).ne'
    obtain ⟨t, ht⟩ := ih (fun c hc => hg c (by simp [hc])) (fun k => r k - dot r (fun k => (w1 * c.u k + w2 * dot r c.u / c.e * r k) / nrm (fun k => w1 * c.u k + w2 * dot r c.u / c.e * r k)) * ((w1 * c.u k + w2 * dot r c.u / c.e * r k) / nrm (fun k => w1 * c.u k + w2 * dot r c.u / c.e * r k)))
    simp only [components, he.ne', if_false, h9, ht, Option.map_some]
    exact ⟨_, rfl⟩

theorem components_cons {w1 w2 : ℝ} {r : Row ℝ d} {c : Comp d} {l : List (Comp d)} (u : Row ℝ d) (e : ℝ) (v r' : Row ℝ d)
    {t : List (Comp d)} (hc : c.e ≠ 0) (hu : (fun k => w1 * c.u k + w2 * dot r c.u / c.e * r k) = u) (he : nrm u = e)
    (h0 : e ≠ 0) (hv : (fun k => u k / e) = v) (hr : (fun k => r k - dot r v * v k) = r')
    (ht : components w1 w2 r' l = some t) : components w1 w2 r (c :: l) = some (⟨u, v, e⟩ :: t) := by
  subst hu; subst he; subst hv; subst hr
  simp only [components, hc, if_false, h0, ht, Option.map_some]

theorem row_ok {s s' : PSt d} {x : Row ℝ d} (h : s.row x = .ok s') : ∃ l n l', s.comps = some l ∧ s.outDim = some n ∧
    components (amnesic s.amn (s.iter + 1)).1 (amnesic s.amn (s.iter + 1)).2 x l = some l' ∧
    s' = { s with
        comps := some (if s.white then l'.map fun c => { c with v := fun k => c.v k / Real.sqrt c.e } else l')
        varTot := (l'.map Comp.e).sum
        reduced := some ((firstOver s.varTot s.varRel 0 0 l').getD n)
        iter := s.iter + 1 } := by
  unfold PSt.row at h
  split at h
  · rename_i l n h1 h2
    split at h
    · simp at h
    · rename_i l' h3
      simp only [Except.ok.injEq] at h
      exact ⟨l, n, l', h1, h2, h3, h.symm⟩
  · simp at h

/-! ## The weights -/

/-- The two weights add up to one, for every choice of the parameters and every number of samples. -/
theorem amnesic_sum (p : Amn) (n : Nat) : (amnesic p n).1 + (amnesic p n).2 = 1 := by
  have : (n : ℝ) + 1 ≠ 0 := by positivity
  simp only [amnesic]
  rw [← add_div]
  rw [div_eq_one_iff_eq this]
  ring

/-- With the default parameters both weights are positive from the first sample on (`n` counts from one). -/
theorem amnesic_default (n : Nat) (hn : 0 < n) : 0 < (amnesic ⟨20, 200, 2000, 3⟩ n).1 ∧
    0 < (amnesic ⟨20, 200, 2000, 3⟩ n).2 := by
  have h0 : (1 : ℝ) ≤ n := by exact_mod_cast hn
  simp only [amnesic]
  have hi : (0 : ℝ) < (n : ℝ) + 1 := by positivity
  constructor
  · apply div_pos _ hi
    split
    · linarith
    · split
      · rename_i h1 h2
        have : (3 : ℝ) * ((n : ℝ) + 1 - 20) / (200 - 20) = ((n : ℝ) - 19) / 60 := by ring
        rw [this]
        linarith
      · linarith
  · apply div_pos _ hi
    split
    · norm_num
    · split
      · rename_i h1 h2
        have : (3 : ℝ) * ((n : ℝ) + 1 - 20) / (200 - 20) = ((n : ℝ) - 19) / 60 := by ring
        rw [this]
        linarith
      · linarith

/-- Before sample `n1` the new sample has the weight of one among `n + 1`. -/
theorem amnesic_average (p : Amn) (n : Nat) (h : (n : ℝ) + 1 < p.n1) :
    amnesic p n = ((n : ℝ) / (n + 1), 1 / ((n : ℝ) + 1)) := by
  simp only [amnesic, if_pos h]
  congr 2 <;> ring

/-- The weights of the default node for sample 20 are no longer those of an average. -/
example : (amnesic ⟨20, 200, 2000, 3⟩ 1).1 = 1 / 2 ∧ (amnesic ⟨20, 200, 2000, 3⟩ 199).2 = 4 / 200 := by
  constructor <;> norm_num [amnesic]

/-! ## Unit vectors -/

/-- After a sample the components have length one, the variances are positive, and the reported total is the sum of the
variances. -/
theorem components_unit {s s' : PSt d} {x : Row ℝ d} (hw : s.white = false) (h : s.row x = .ok s') :
    ∃ l, s'.comps = some l ∧ (∀ c ∈ l, Unit c.v ∧ 0 < c.e) ∧ s'.varTot = (l.map Comp.e).sum := by
  obtain ⟨l, n, l', h1, h2, h3, rfl⟩ := row_ok h
  have := components_spec _ _ _ _ _ h3
  refine ⟨l', by simp [hw], fun c hc => ⟨(this.2 c hc).2.1, (this.2 c hc).1.1⟩, rfl⟩

/-- A whitening node: the reported eigenvectors have length one; the projection vector of a component has length
`1 / √variance`; the total is the sum of the variances. -/
theorem whitening_unit {s s' : PSt d} {x : Row ℝ d} (hw : s.white = true) (h : s.row x = .ok s') :
    ∃ l vs, s'.comps = some l ∧ s'.eigenvectors = .ok vs ∧ vs.length = l.length ∧ (∀ v ∈ vs, Unit v) ∧
      (∀ c ∈ l, 0 < c.e ∧ dot c.v c.v = 1 / c.e) ∧ s'.varTot = (l.map Comp.e).sum := by
  obtain ⟨l, n, l', h1, h2, h3, rfl⟩ := row_ok h
  have := components_spec _ _ _ _ _ h3
  refine ⟨l'.map fun c => { c with v := fun k => c.v k / Real.sqrt c.e }, _, by simp [hw], rfl, by simp [hw], ?_, ?_, ?_⟩
  · intro v hv
    simp only [hw, if_true, List.map_map, List.mem_map] at hv
    obtain ⟨c, hc, rfl⟩ := hv
    have h4 := (this.2 c hc)
    have h5 : Real.sqrt c.e ≠ 0 := (Real.sqrt_pos.2 h4.1.1).ne'
    have : (fun k => Real.sqrt c.e * (c.v k / Real.sqrt c.e)) = c.v := by
      funext k
      field_simp
    simp only [Function.comp, this]
    exact h4.2.1
  · intro c hc
    simp only [List.mem_map] at hc
    obtain ⟨c, hc, rfl⟩ := hc
    have h4 := (this.2 c hc)
    refine ⟨h4.1.1, ?_⟩
    simp only
    rw [dot_smul_div, Real.mul_self_sqrt h4.1.1.le, show dot c.v c.v = 1 from h4.2.1]
  · simp [List.map_map, Function.comp_def]

/-! ## Training always succeeds -/

theorem rows_good (s : PSt d) (ha : s.amn = ⟨20, 200, 2000, 3⟩) (n : Nat) (ho : s.outDim = some n) (xs : List (Row ℝ d)) :
    ∀ l, s.comps = some l → l.length = n → (∀ c ∈ l, Good c) → ∃ s' l', s.rows xs = .ok s' ∧ s'.comps = some l' ∧
      l'.length = n ∧ (∀ c ∈ l', Good c) ∧ s'.iter = s.iter + xs.length ∧ s'.outDim = some n ∧
      s'.white = s.white := by
  induction xs generalizing s with
  | nil => exact fun l h1 h2 h3 => ⟨s, l, rfl, h1, h2, h3, rfl, ho, rfl⟩
  | cons x xs ih =>
    intro l h1 h2 h3
    obtain ⟨hw1, hw2⟩ := amnesic_default (s.iter + 1) (by omega)
    obtain ⟨t, ht⟩ := components_some _ _ hw1 hw2.le l h3 x
    have hsp := components_spec _ _ _ _ _ ht
    have hr : s.row x = .ok (s.after n t) := by
      simp only [PSt.row, h1, ho, ha, ht]
    simp only [PSt.rows, hr]
    obtain ⟨s', l', h4⟩ := ih (s.after n t) ha ho _ rfl (by split <;> simp [hsp.1, h2]) (by
          intro c hc
          split at hc
          · simp only [List.mem_map] at hc
            obtain ⟨c, hc, rfl⟩ := hc
            exact (hsp.2 c hc).1
          · exact (hsp.2 c hc).1)
    refine ⟨s', l', h4.1, h4.2.1, h4.2.2.1, h4.2.2.2.1, ?_, h4.2.2.2.2.2.1, h4.2.2.2.2.2.2⟩
    rw [h4.2.2.2.2.1]
    simp only [List.length_cons, PSt.after]
    omega

/-- A default node whose initial vectors are drawn at random, none of them zero, can be trained with every sequence of
samples: no exception and no nan, whatever the data. It then has `output_dim` components (`input_dim` if not given). -/
theorem train_total (white : Bool) (varRel : ℝ) (out : Option Nat) (rnd : Nat → List (Row ℝ d))
    (hr : ∀ n, (rnd n).length = n ∧ ∀ v ∈ rnd n, v ≠ 0) (xs : List (Row ℝ d)) :
    ∃ s' l, (PSt.new white ⟨20, 200, 2000, 3⟩ varRel none out).train rnd xs = .ok s' ∧ s'.comps = some l ∧
      l.length = out.getD d ∧ s'.iter = xs.length ∧ ∀ c ∈ l, 0 < c.e := by
  have key : ∃ s0 : PSt d, { (PSt.new white ⟨20, 200, 2000, 3⟩ varRel none out).check rnd with started := true } = s0 ∧
      s0.amn = ⟨20, 200, 2000, 3⟩ ∧ s0.outDim = some (out.getD d) ∧ s0.incremental = true ∧ s0.iter = 0 ∧
      s0.comps = some ((rnd (out.getD d)).map fun u => ⟨u, fun k => u k / nrm u, nrm u⟩) := by
    refine ⟨_, rfl, ?_⟩
    cases out with
    | none => simp [PSt.check, PSt.new, PSt.setInit, (hr d).1]
    | some n => simp [PSt.check, PSt.new, PSt.setInit, (hr n).1]
  obtain ⟨s0, h1, h2, h3, h4, h5, h6⟩ := key
  have h8 : (PSt.new white ⟨20, 200, 2000, 3⟩ varRel none out).train rnd xs = s0.rows xs := by
    have : (PSt.new white ⟨20, 200, 2000, 3⟩ varRel none out).train rnd xs
      = if s0.incremental then s0.rows xs else s0.batch xs := by rw [← h1]; rfl
    rw [this, h4, if_pos rfl]
  rw [h8]
  obtain ⟨s', l', h7⟩ := rows_good s0 h2 _ h3 xs _ h6 (by simp [(hr _).1]) (by
    intro c hc
    simp only [List.mem_map] at hc
    obtain ⟨u, hu, rfl⟩ := hc
    exact ⟨nrm_pos ((hr _).2 u hu), rfl⟩)
  exact ⟨s', l', h7.1, h7.2.1, h7.2.2.1, by rw [h7.2.2.2.2.1, h5]; simp, fun c hc => (h7.2.2.2.1 c hc).1⟩

/-- Vectors of ones meet the hypothesis in one dimension or more. -/
example : ∀ n, (List.replicate n (fun _ => 1 : Row ℝ 2)).length = n ∧
    ∀ v ∈ List.replicate n (fun _ => 1 : Row ℝ 2), v ≠ 0 := by
  intro n
  refine ⟨by simp, fun v hv h => ?_⟩
  rw [List.eq_of_mem_replicate hv] at h
  have := congrFun h 0
  simp at this

/-- Initial vectors given to the constructor are never used: every training call raises, whatever they are and whatever the
data (with at least one sample). -/
theorem constructor_vectors_false (white : Bool) (amn : Amn) (varRel : ℝ) (vs : List (Row ℝ d)) (out : Option Nat)
    (rnd : Nat → List (Row ℝ d)) (x : Row ℝ d) (xs : List (Row ℝ d)) :
    (PSt.new white amn varRel (some vs) out).train rnd (x :: xs) = .error .typeError := by
  rfl

/-- Set as a property they are used: their lengths are the variances, their directions the components. -/
theorem property_vectors (white : Bool) (amn : Amn) (varRel : ℝ) (vs : List (Row ℝ d)) :
    ((PSt.new white amn varRel none none).setInit vs).1 = .ok () ∧
    (((PSt.new white amn varRel none none).setInit vs).2).comps
      = some (vs.map fun u => ⟨u, fun k => u k / nrm u, nrm u⟩) := by
  simp [PSt.setInit, PSt.new]

/-- Vectors set as a property after the node has components leave them as they are, whether or not they are accepted. -/
theorem property_kept (s : PSt d) (l : List (Comp d)) (h : s.comps = some l) (vs : List (Row ℝ d)) : (s.setInit vs).2.comps = some l := by
  unfold PSt.setInit
  simp only [h]
  split
  · rfl
  · split_ifs <;> rfl

/-- A node whose training type is 'batch' refuses every chunk that has not exactly one row. -/
theorem batch_refused (s : PSt d) (hb : s.incremental = false) (rnd : Nat → List (Row ℝ d)) (xs : List (Row ℝ d))
    (hx : xs.length ≠ 1) (c : Comp d) (l : List (Comp d)) (hs : s.comps = some (c :: l)) (hi : s.initV ≠ none) :
    s.train rnd xs = .error .value := by
  have : s.check rnd = s := by
    unfold PSt.check
    split
    · rfl
    · rename_i h; exact absurd h hi
  simp only [PSt.train, this, hb]
  match xs, hx with
  | [], _ => simp [PSt.batch, hs]
  | [_], h => simp at h
  | _ :: _ :: _, _ => simp [PSt.batch, hs]

/-! ## The first component -/

/-- The first component and its variance (for a node that is not a whitening node): what `d[0] * v[:, 0]` is. -/
noncomputable def leading (s : PSt d) : Row ℝ d := match s.comps with
  | some (c :: _) => fun k => c.e * c.v k
  | _ => 0

/-- Its direction. -/
noncomputable def direction (s : PSt d) : Row ℝ d := match s.comps with
  | some (c :: _) => c.v
  | _ => 0

theorem leading_step {s s' : PSt d} {x : Row ℝ d} (hw : s.white = false) (hc : ∀ l, s.comps = some l → l ≠ [] ∧
    ∀ c ∈ l, 0 < c.e ∧ ∀ k, c.u k = c.e * c.v k) (hn : (s.iter : ℝ) + 2 < s.amn.n1) (h : s.row x = .ok s') (k : Fin d) :
    ((s.iter : ℝ) + 2) * leading s' k = ((s.iter : ℝ) + 1) * leading s k + dot x (direction s) * x k := by
  obtain ⟨l, n, l', h1, h2, h3, rfl⟩ := row_ok h
  obtain ⟨h4, h5⟩ := hc l h1
  obtain ⟨c, t, rfl⟩ := List.exists_cons_of_ne_nil h4
  obtain ⟨he, hu⟩ := h5 c (by simp)
  rw [amnesic_average _ _ (by push_cast; linarith)] at h3
  simp only [components, he.ne', if_false] at h3
  split at h3
  · simp at h3
  · rename_i h6
    simp only [Option.map_eq_some_iff] at h3
    obtain ⟨t', _, rfl⟩ := h3
    simp only [leading, direction, hw, h1, Bool.false_eq_true, if_false]
    rw [mul_div_cancel₀ _ h6]
    have hd : dot x c.u = c.e * dot x c.v := by
      simp only [dot, Finset.mul_sum]
      exact Finset.sum_congr rfl fun k _ => by rw [hu]; ring
    rw [hd, hu]
    push_cast
    have : (s.iter : ℝ) + 1 + 1 ≠ 0 := by positivity
    field_simp
    ring

/-- While the averaging window (`n1`) is not exceeded, the first component times its variance is the average of the initial
vector and the samples, each sample weighted with its projection on the component found so far. `S k` is the node after `k`
samples. -/
theorem first_component_average (S : Nat → PSt d) (x : Nat → Row ℝ d) (n : Nat) (hw : (S 0).white = false)
    (h0 : (S 0).iter = 0) (hi : ∃ c l, (S 0).comps = some (c :: l) ∧ ∀ c' ∈ c :: l, 0 < c'.e ∧ ∀ k, c'.u k = c'.e * c'.v k)
    (hs : ∀ k < n, (S k).row (x k) = .ok (S (k + 1))) (hn : (n : ℝ) + 1 < (S 0).amn.n1) (j : Fin d) :
    leading (S n) j = (leading (S 0) j + ∑ k ∈ Finset.range n, dot (x k) (direction (S k)) * x k j) / (n + 1) := by
  have key : ∀ m ≤ n, (S m).white = false ∧ (S m).iter = m ∧ (S m).amn = (S 0).amn ∧
      (∃ c l, (S m).comps = some (c :: l) ∧ ∀ c' ∈ c :: l, 0 < c'.e ∧ ∀ k, c'.u k = c'.e * c'.v k) ∧
      ((m : ℝ) + 1) * leading (S m) j
        = leading (S 0) j + ∑ k ∈ Finset.range m, dot (x k) (direction (S k)) * x k j := by
    intro m
    induction m with
    | zero => exact fun _ => ⟨hw, h0, rfl, hi, by simp⟩
    | succ m ih =>
      intro hm
      obtain ⟨h1, h2, h3, ⟨c, l, h4, h5⟩, h6⟩ := ih (by omega)
      have hrow := hs m (by omega)
      have hlt : (m : ℝ) + 1 ≤ n := by exact_mod_cast hm
      have h7 := leading_step h1 (fun l' hl' => by
        rw [h4] at hl'
        simp only [Option.some.injEq] at hl'
        subst hl'
        exact ⟨by simp, h5⟩) (by rw [h2, h3]; linarith) hrow j
      obtain ⟨l0, n0, l', g1, g2, g3, g4⟩ := row_ok hrow
      have gs := components_spec _ _ _ _ _ g3
      refine ⟨by rw [g4]; exact h1, by rw [g4]; simp [h2], by rw [g4]; exact h3, ?_, ?_⟩
      · rw [h4] at g1
        simp only [Option.some.injEq] at g1
        subst g1
        obtain ⟨c', t', rfl⟩ : ∃ c' t', l' = c' :: t' := by
          cases l' with
          | nil => simp at gs
          | cons a b => exact ⟨a, b, rfl⟩
        refine ⟨c', t', by rw [g4]; simp [h1], fun c hc => ⟨(gs.2 c hc).1.1, (gs.2 c hc).2.2⟩⟩
      · rw [Finset.sum_range_succ, ← add_assoc, ← h6]
        rw [h2] at h7
        push_cast
        linarith
  have := (key n le_rfl).2.2.2.2
  have hp : (n : ℝ) + 1 ≠ 0 := by positivity
  rw [eq_div_iff hp]
  linarith

/-! ## Reduced dimensionality -/

/-- The sum of the variances of the first `n` components. -/
def explained (l : List (Comp d)) (n : Nat) : ℝ := ((l.take n).map Comp.e).sum

theorem firstOver_spec (tot rel : ℝ) (l : List (Comp d)) : ∀ (j : Nat) (ev : ℝ),
    (∀ i, firstOver tot rel j ev l = some i → j ≤ i ∧ i < j + l.length ∧ rel < (ev + explained l (i - j + 1)) / tot ∧
      (∀ m, j < m → m ≤ i → (ev + explained l (m - j)) / tot ≤ rel)) ∧
    (firstOver tot rel j ev l = none → ∀ m, 0 < m → m ≤ l.length → (ev + explained l m) / tot ≤ rel) := by
  induction l with
  | nil => intro j ev; simp [firstOver]; intros; omega
  | cons c l ih =>
    intro j ev
    have hex : ∀ m, explained (c :: l) (m + 1) = c.e + explained l m := fun m => by simp [explained]
    simp only [firstOver]
    split
    · rename_i h
      constructor
      · intro i hi
        simp only [Option.some.injEq] at hi
        subst hi
        refine ⟨le_rfl, by simp, ?_, fun m h1 h2 => by omega⟩
        simpa [explained] using h
      · simp
    · rename_i h
      have := ih (j + 1) (ev + c.e)
      constructor
      · intro i hi
        obtain ⟨h1, h2, h3, h4⟩ := this.1 i hi
        refine ⟨by omega, by simp; omega, ?_, fun m hm1 hm2 => ?_⟩
        · have e1 : i - j + 1 = (i - (j + 1) + 1) + 1 := by omega
          rw [e1, hex, ← add_assoc]
          exact h3
        · by_cases hm : m = j + 1
          · subst hm
            have : j + 1 - j = 0 + 1 := by omega
            rw [this, hex]
            simpa [explained] using not_lt.1 h
          · have e1 : m - j = (m - (j + 1)) + 1 := by omega
            rw [e1, hex, ← add_assoc]
            exact h4 m (by omega) hm2
      · intro hn m hm1 hm2
        by_cases hm : m = 1
        · subst hm
          simpa [explained] using not_lt.1 h
        · obtain ⟨m', rfl⟩ : ∃ m', m = m' + 1 := ⟨m - 1, by omega⟩
          rw [hex, ← add_assoc]
          exact this.2 hn m' (by omega) (by simpa using hm2)

/-- The reduced dimensionality is the largest number of leading components whose variances are, together with all smaller
numbers, at most `var_rel` times the total of the sample *before*. Missing for the documented claim: the present total (see
`reduced_false`). -/
theorem reduced_partial {s s' : PSt d} {x : Row ℝ d} (hw : s.white = false) (h : s.row x = .ok s')
    (ht : 0 < s.varTot) (l : List (Comp d)) (hl : s'.comps = some l) (hn : s.outDim = some l.length)
    (hr : 0 ≤ s.varRel) :
    ∃ n, s'.reduced = some n ∧ n ≤ l.length ∧ explained l n ≤ s.varRel * s.varTot ∧
      (n < l.length → s.varRel * s.varTot < explained l (n + 1)) := by
  obtain ⟨l0, n, l', h1, h2, h3, rfl⟩ := row_ok h
  simp only [hw, Bool.false_eq_true, if_false, Option.some.injEq] at hl
  subst hl
  rw [hn] at h2
  simp only [Option.some.injEq] at h2
  subst h2
  have hs := firstOver_spec s.varTot s.varRel l' 0 0
  refine ⟨_, rfl, ?_⟩
  cases hf : firstOver s.varTot s.varRel 0 0 l' with
  | some i =>
    obtain ⟨_, g2, g3, g4⟩ := hs.1 i hf
    simp only [zero_add, Nat.sub_zero] at g2 g3 g4
    simp only [Option.getD_some]
    refine ⟨g2.le, ?_, fun _ => by rwa [lt_div_iff₀ ht] at g3⟩
    by_cases hi : i = 0
    · subst hi; simp only [explained, List.take_zero, List.map_nil, List.sum_nil]; positivity
    · have := g4 i (by omega) le_rfl
      rwa [div_le_iff₀ ht] at this
  | none =>
    simp only [Option.getD_none]
    refine ⟨le_rfl, ?_, fun h => absurd h (lt_irrefl _)⟩
    by_cases hi : l'.length = 0
    · rw [List.length_eq_zero_iff] at hi; subst hi; simp only [explained, List.length_nil, List.take_zero, List.map_nil, List.sum_nil]; positivity
    · have := hs.2 hf l'.length (by omega) le_rfl
      rw [zero_add, div_le_iff₀ ht] at this
      exact this

theorem nrm_one (a : ℝ) (h : 0 ≤ a) : nrm (fun _ => a : Row ℝ 1) = a := by
  simp [nrm, dot, Real.sqrt_mul_self h]

/-- The node after `init_eigen_vectors = [[1]]`. -/
noncomputable def oneDim (rel : ℝ) : PSt 1 := ((PSt.new false ⟨20, 200, 2000, 3⟩ rel none none).setInit [fun _ => 1]).2

theorem oneDim_row (rel a : ℝ) : ∃ l, (oneDim rel).row (fun _ => a) = .ok l ∧
    l.comps = some [⟨fun _ => 1 / 2 + a * a / 2, fun _ => 1, 1 / 2 + a * a / 2⟩] ∧ l.varTot = 1 / 2 + a * a / 2 ∧
    l.reduced = some (if rel < 1 / 2 + a * a / 2 then 0 else 1) := by
  have h1 : nrm (fun _ => 1 : Row ℝ 1) = 1 := nrm_one 1 (by norm_num)
  have hp : (0 : ℝ) < 1 / 2 + a * a / 2 := by nlinarith [mul_self_nonneg a]
  have hw : amnesic ⟨20, 200, 2000, 3⟩ 1 = (1 / 2, 1 / 2) := by
    rw [amnesic_average _ _ (by norm_num)]
    norm_num
  have h2 : nrm (fun _ => 1 / 2 + a * a / 2 : Row ℝ 1) = 1 / 2 + a * a / 2 := nrm_one _ hp.le
  have h3 : (fun k : Fin 1 => 1 / 2 * (1 : ℝ) + 1 / 2 * (∑ _k : Fin 1, a * 1) / 1 * a) = fun _ => 1 / 2 + a * a / 2 := by
    funext k
    simp
    ring
  refine ⟨(oneDim rel).after 1 [⟨fun _ => 1 / 2 + a * a / 2, fun _ => 1, 1 / 2 + a * a / 2⟩], ?_, ?_, ?_, ?_⟩
  · have hc : components (1 / 2) (1 / 2) (fun _ => a : Row ℝ 1) [⟨fun _ => 1, fun _ => 1 / 1, 1⟩]
        = some [⟨fun _ => 1 / 2 + a * a / 2, fun _ => 1, 1 / 2 + a * a / 2⟩] :=
      components_cons _ _ _ _ (by simp) h3 h2 hp.ne' (funext fun _ => div_self hp.ne') rfl rfl
    simp only [oneDim, PSt.setInit, PSt.new, PSt.row, List.map_cons, List.map_nil, h1, zero_add, hw, hc, List.length_cons,
      List.length_nil]
  · simp [PSt.after, oneDim, PSt.setInit, PSt.new]
  · simp [PSt.after]
  · simp only [PSt.after, oneDim, PSt.setInit, PSt.new, firstOver, zero_add, div_one]
    split <;> rfl

/-- The documented claim is false both ways: a node with `var_rel = 9/10` keeps a component although the explained variance is
more than `9/10` of the total, and a default node (`var_rel = 1`) keeps no component. -/
theorem reduced_false :
    (∃ s', (oneDim (9 / 10)).row (fun _ => 0) = .ok s' ∧ ∃ l, s'.comps = some l ∧ s'.reduced = some 1 ∧
      9 / 10 * s'.varTot < explained l 1) ∧
    (∃ s', (oneDim 1).row (fun _ => 3) = .ok s' ∧ s'.reduced = some 0 ∧ s'.varTot = 5) := by
  constructor
  · obtain ⟨l, h1, h2, h3, h4⟩ := oneDim_row (9 / 10) 0
    refine ⟨l, h1, _, h2, by rw [h4]; norm_num, ?_⟩
    rw [h3]
    norm_num [explained]
  · obtain ⟨l, h1, h2, h3, h4⟩ := oneDim_row 1 3
    exact ⟨l, h1, by rw [h4]; norm_num, by rw [h3]; norm_num⟩

/-- A successful sample with positive total, as `components_unit` and `reduced_partial` ask for. -/
example : ∃ s', (oneDim 1).row (fun _ => 3) = .ok s' ∧ (oneDim 1).white = false ∧ 0 < (oneDim 1).varTot ∧
    ∃ l, s'.comps = some l ∧ (oneDim 1).outDim = some l.length := by
  obtain ⟨l, h1, h2, _, _⟩ := oneDim_row 1 3
  exact ⟨l, h1, rfl, by simp [oneDim, PSt.setInit, PSt.new], _, h2, by simp [oneDim, PSt.setInit, PSt.new]⟩

/-- One sample meets the hypotheses of `first_component_average`. -/
example : ∃ S : Nat → PSt 1, (S 0).white = false ∧ (S 0).iter = 0 ∧ (∃ c l, (S 0).comps = some (c :: l) ∧
    ∀ c' ∈ c :: l, 0 < c'.e ∧ ∀ k, c'.u k = c'.e * c'.v k) ∧ (∀ k < 1, (S k).row (fun _ => 3) = .ok (S (k + 1))) ∧
    ((1 : Nat) : ℝ) + 1 < (S 0).amn.n1 := by
  obtain ⟨l, h1, _⟩ := oneDim_row 1 3
  have h2 : nrm (fun _ => 1 : Row ℝ 1) = 1 := nrm_one 1 (by norm_num)
  refine ⟨fun k => if k = 0 then oneDim 1 else l, rfl, rfl, ⟨⟨fun _ => 1, fun _ => 1 / 1, 1⟩, [], ?_, ?_⟩, ?_, ?_⟩
  · simp [oneDim, PSt.setInit, PSt.new, h2]
  · intro c hc
    simp only [List.mem_singleton] at hc
    subst hc
    simp
  · intro k hk
    obtain rfl : k = 0 := by omega
    simpa using h1
  · simp only [if_pos]
    norm_num [oneDim, PSt.setInit, PSt.new]

/-! ## Execution and inverse -/

/-- The first `n` outputs are the projections on the first `n` components. -/
theorem execute_take (s : PSt d) (l : List (Comp d)) (hl : s.comps = some l) (x : Row ℝ d) (n : Nat) :
    s.exec (some n) x = .ok ((l.map fun c => dot x c.v).take n) ∧ s.exec none x = .ok (l.map fun c => dot x c.v) := by
  simp [PSt.exec, hl, List.map_take]

/-- `inverse` with `n` smaller than the number of components is documented, and always raises. -/
theorem inverse_n_false (s : PSt d) (l : List (Comp d)) (o n : Nat) (hl : s.comps = some l) (ho : s.outDim = some o)
    (hn : n < o) (y : List ℝ) : ∃ e, s.inverse (some n) y = .error e := by
  simp only [PSt.inverse, hl, ho]
  split
  · exact ⟨_, rfl⟩
  · rename_i hy
    simp only [Option.getD_some]
    rw [if_neg (by omega), if_pos (by omega)]
    exact ⟨_, rfl⟩

/-- Executing and inverting: the sum of the projections on the components found, of both kinds of nodes. -/
theorem inverse_execute {s s' : PSt d} {x z : Row ℝ d} (h : s.row x = .ok s') (ho : ∀ l, s.comps = some l → s.outDim = some l.length) :
    ∃ vs : List (Row ℝ d), (∀ v ∈ vs, Unit v) ∧ s'.outDim = some vs.length ∧
      ∃ y, s'.exec none z = .ok y ∧ s'.inverse none y = .ok fun k => (vs.map fun v => dot z v * v k).sum := by
  obtain ⟨l, n, l', h1, h2, h3, rfl⟩ := row_ok h
  have hs := components_spec _ _ _ _ _ h3
  have hn : n = l'.length := by
    have := ho l h1
    rw [h2] at this
    simp only [Option.some.injEq] at this
    rw [this, hs.1]
  refine ⟨l'.map Comp.v, ?_, by simp [h2, hn], ?_⟩
  · intro v hv
    simp only [List.mem_map] at hv
    obtain ⟨c, hc, rfl⟩ := hv
    exact (hs.2 c hc).2.1
  · cases hw : s.white with
    | false =>
      refine ⟨l'.map fun c => dot z c.v, by simp [PSt.exec], ?_⟩
      simp only [PSt.inverse, h2, hn, List.length_map, ne_eq, not_true_eq_false, if_false, Option.getD_none, lt_irrefl,
        Bool.false_eq_true, List.take_length, List.map_map]
      congr 1
      funext k
      congr 1
      clear hs hn h3 h
      induction l' with
      | nil => rfl
      | cons c l ih => simpa [Comp.back] using ih
    | true =>
      refine ⟨l'.map fun c => dot z (fun k => c.v k / Real.sqrt c.e), by simp [PSt.exec, Function.comp_def], ?_⟩
      simp only [PSt.inverse, h2, hn, List.length_map, ne_eq, not_true_eq_false, if_false, Option.getD_none, lt_irrefl,
        if_true, List.map_map]
      rw [List.take_of_length_le (by simp)]
      congr 1
      funext k
      congr 1
      have hp : ∀ c ∈ l', 0 < c.e := fun c hc => (hs.2 c hc).1.1
      clear hs hn h3 h
      induction l' with
      | nil => rfl
      | cons c l ih =>
        have hc := hp c (by simp)
        have hq : Real.sqrt c.e * Real.sqrt c.e = c.e := Real.mul_self_sqrt hc.le
        have hq0 : Real.sqrt c.e ≠ 0 := (Real.sqrt_pos.2 hc).ne'
        have hd : dot z (fun k => c.v k / Real.sqrt c.e) = dot z c.v / Real.sqrt c.e := by
          simp only [dot, Finset.sum_div]
          exact Finset.sum_congr rfl fun k _ => by ring
        simp only [List.map_cons, List.zipWith_cons_cons, Comp.back, if_true, Function.comp]
        have h9 := ih fun c hc => hp c (by simp [hc])
        simp only [Comp.back, if_true] at h9
        rw [h9]
        congr 1
        rw [hd]
        have : c.v k / Real.sqrt c.e * c.e = c.v k * Real.sqrt c.e := by
          rw [div_mul_eq_mul_div, div_eq_iff hq0, mul_assoc, hq]
        rw [this]
        field_simp

/-- The components are not orthogonal in general, and `inverse` does not undo `execute` even with as many components as
dimensions: a node with the initial vectors `(1, 0)` and `(0, 1)` after the sample `(1, 3/2)`. -/
theorem inverse_false : ∃ s s' : PSt 2, s = ((PSt.new false ⟨20, 200, 2000, 3⟩ 1 none none).setInit [![1, 0], ![0, 1]]).2 ∧
    s.row ![1, 3 / 2] = .ok s' ∧ ∃ z y, s'.exec none z = .ok y ∧ ∃ z', s'.inverse none y = .ok z' ∧ z' ≠ z := by
  have hw : amnesic ⟨20, 200, 2000, 3⟩ 1 = (1 / 2, 1 / 2) := by
    rw [amnesic_average _ _ (by norm_num)]
    norm_num
  have n1 : nrm (![1, 0] : Row ℝ 2) = 1 := by simp [nrm, dot]
  have n2 : nrm (![0, 1] : Row ℝ 2) = 1 := by simp [nrm, dot]
  have n3 : nrm (![1, 3 / 4] : Row ℝ 2) = 5 / 4 := by
    rw [nrm, show dot (![1, 3 / 4] : Row ℝ 2) ![1, 3 / 4] = (5 / 4) * (5 / 4) by norm_num [dot, Fin.sum_univ_two]]
    exact Real.sqrt_mul_self (by norm_num)
  have hp : 0 < nrm (![-54 / 625, 769 / 1250] : Row ℝ 2) := nrm_pos fun h => by
    have := congrFun h 0
    norm_num at this
  generalize he : nrm (![-54 / 625, 769 / 1250] : Row ℝ 2) = e at hp
  have u1 : (fun k => 1 / 2 * (![1, 0] : Row ℝ 2) k + 1 / 2 * dot ![1, 3 / 2] ![1, 0] / 1 * (![1, 3 / 2] : Row ℝ 2) k)
      = ![1, 3 / 4] := by
    funext k
    fin_cases k <;> norm_num [dot, Fin.sum_univ_two]
  have v1 : (fun k => (![1, 3 / 4] : Row ℝ 2) k / (5 / 4)) = ![4 / 5, 3 / 5] := by
    funext k
    fin_cases k <;> norm_num
  have r1 : (fun k => (![1, 3 / 2] : Row ℝ 2) k - dot ![1, 3 / 2] ![4 / 5, 3 / 5] * (![4 / 5, 3 / 5] : Row ℝ 2) k)
      = ![-9 / 25, 12 / 25] := by
    funext k
    fin_cases k <;> norm_num [dot, Fin.sum_univ_two]
  have u2 : (fun k => 1 / 2 * (![0, 1] : Row ℝ 2) k + 1 / 2 * dot ![-9 / 25, 12 / 25] ![0, 1] / 1 *
      (![-9 / 25, 12 / 25] : Row ℝ 2) k) = ![-54 / 625, 769 / 1250] := by
    funext k
    fin_cases k <;> norm_num [dot, Fin.sum_univ_two]
  have hc : components (1 / 2) (1 / 2) ![1, 3 / 2] [⟨![1, 0], fun k => (![1, 0] : Row ℝ 2) k / 1, 1⟩,
      ⟨![0, 1], fun k => (![0, 1] : Row ℝ 2) k / 1, 1⟩] = some [⟨![1, 3 / 4], ![4 / 5, 3 / 5], 5 / 4⟩,
      ⟨![-54 / 625, 769 / 1250], fun k => (![-54 / 625, 769 / 1250] : Row ℝ 2) k / e, e⟩] := by
    refine components_cons _ _ _ _ (by simp) u1 n3 (by norm_num) v1 r1 ?_
    exact components_cons _ _ _ _ (by simp) u2 he hp.ne' rfl rfl rfl
  refine ⟨_, (((PSt.new false ⟨20, 200, 2000, 3⟩ 1 none none).setInit [![1, 0], ![0, 1]]).2).after 2
    [⟨![1, 3 / 4], ![4 / 5, 3 / 5], 5 / 4⟩,
      ⟨![-54 / 625, 769 / 1250], fun k => (![-54 / 625, 769 / 1250] : Row ℝ 2) k / e, e⟩], rfl, ?_, ![4 / 5, 3 / 5],
    [1, 3 / 10 / e], ?_, fun k => 1 * (![4 / 5, 3 / 5] : Row ℝ 2) k
      + (3 / 10 / e * ((![-54 / 625, 769 / 1250] : Row ℝ 2) k / e) + 0), ?_, ?_⟩
  · simp only [PSt.setInit, PSt.new, PSt.row, List.map_cons, List.map_nil, n1, n2, zero_add, hw, hc]
    rfl
  · simp only [PSt.exec, PSt.after, PSt.setInit, PSt.new, Option.getD_none, List.take_length, List.map_cons, List.map_nil,
      Bool.false_eq_true, if_false]
    congr 2
    · norm_num [dot, Fin.sum_univ_two]
    · congr 1
      simp only [dot, Fin.sum_univ_two]
      norm_num
      field_simp
      norm_num
  · rfl
  · intro h
    have := congrFun h 0
    have h2 : (e * e : ℝ) ≠ 0 := mul_ne_zero hp.ne' hp.ne'
    simp at this
    exact hp.ne' this

end Mdp.Ccipca
