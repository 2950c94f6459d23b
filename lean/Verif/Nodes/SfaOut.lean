import Verif.Nodes.SfaProps

/-!
# Outputs of SFA nodes (C113-C115)
-/

namespace Mdp.Sfa

open Mdp.Cov Mdp.Join Mdp.Pca

variable {F : Type} [Field F] [LinearOrder F] [IsStrictOrderedRing F] {d : Nat}

/-! ## Generalised eigenvectors -/

section
variable {A B : Mat F d d} {lam : Fin d → F} {v : Fin d → Row F d}

theorem dotL_eq (x w : Row F d) : dotL x w = dot x w := by
  unfold dotL dot
  rw [← List.ofFn_eq_map, List.sum_ofFn]

theorem GenSpectrum.formA (h : GenSpectrum A B lam v) (w : Row F d) (i : Fin d) :
    form A w (v i) = lam i * form B w (v i) := by
  simp only [form]
  have : ∀ M : Mat F d d, ∀ k, ∑ l, w k * M k l * v i l = w k * ∑ l, M k l * v i l := by
    intro M k
    rw [Finset.mul_sum]; exact Finset.sum_congr rfl fun l _ => by ring
  simp only [this, h.eigen, Finset.mul_sum]
  refine Finset.sum_congr rfl fun k _ => Finset.sum_congr rfl fun l _ => by ring

/-- Every vector is a combination of the eigenvectors. -/
theorem GenSpectrum.expand (h : GenSpectrum A B lam v) (w : Row F d) (k : Fin d) :
    w k = ∑ i, (∑ a, w a * ∑ b, B b a * v i b) * v i k := by
  -- rows of the left matrix: `v i` times `B`
  have h1 : Matrix.of (fun i l => ∑ b, B b l * v i b) * (Matrix.of v).transpose = 1 := by
    ext i j
    rw [Matrix.mul_apply, Matrix.one_apply, ← h.ortho i j]
    simp only [form, Matrix.of_apply, Matrix.transpose_apply, Finset.sum_mul]
    rw [Finset.sum_comm]
    exact Finset.sum_congr rfl fun b _ => Finset.sum_congr rfl fun l _ => by ring
  have h2 := (mul_eq_one_comm).1 h1
  have h3 : ∀ a, ∑ i, v i k * ∑ b, B b a * v i b = if k = a then 1 else 0 := by
    intro a
    have := congrFun (congrFun h2 k) a
    rw [Matrix.mul_apply, Matrix.one_apply] at this
    exact this
  have h4 : ∑ i, (∑ a, w a * ∑ b, B b a * v i b) * v i k = ∑ a, w a * ∑ i, v i k * ∑ b, B b a * v i b := by
    simp only [Finset.sum_mul]
    rw [Finset.sum_comm]
    refine Finset.sum_congr rfl fun a _ => ?_
    rw [Finset.mul_sum]
    exact Finset.sum_congr rfl fun i _ => by ring
  rw [h4]
  simp [h3]

/-- Coordinates of a vector: the product with `B` and the eigenvector. -/
def coord (B : Mat F d d) (v : Fin d → Row F d) (w : Row F d) : Row F d := fun i => form B (v i) w

theorem coord_eq (w : Row F d) (i : Fin d) : coord B v w i = ∑ a, w a * ∑ b, B b a * v i b := by
  simp only [coord, form, Finset.mul_sum]
  rw [Finset.sum_comm]
  exact Finset.sum_congr rfl fun b _ => Finset.sum_congr rfl fun l _ => by ring

theorem form_sum (M : Mat F d d) (w : Row F d) (c : Fin d → F) (v : Fin d → Row F d) :
    form M w (fun k => ∑ i, c i * v i k) = ∑ i, c i * form M w (v i) := by
  simp only [form, Finset.mul_sum]
  have h1 : ∀ k, ∑ l, ∑ i, w k * M k l * (c i * v i l) = ∑ i, ∑ l, c i * (w k * M k l * v i l) := by
    intro k
    rw [Finset.sum_comm]
    exact Finset.sum_congr rfl fun i _ => Finset.sum_congr rfl fun l _ => by ring
  simp only [h1]
  rw [Finset.sum_comm]

theorem GenSpectrum.expand' (h : GenSpectrum A B lam v) (w : Row F d) : w = fun k => ∑ i, coord B v w i * v i k := by
  funext k
  rw [h.expand w k]
  exact Finset.sum_congr rfl fun i _ => by rw [coord_eq]

theorem form_comm (hB : ∀ k l, B k l = B l k) (x y : Row F d) : form B x y = form B y x := by
  simp only [form]
  rw [Finset.sum_comm]
  exact Finset.sum_congr rfl fun k _ => Finset.sum_congr rfl fun l _ => by rw [hB l k]; ring

theorem GenSpectrum.formB_coord (h : GenSpectrum A B lam v) (hB : ∀ k l, B k l = B l k) (w u : Row F d) :
    form B w u = dot (coord B v w) (coord B v u) := by
  conv_lhs => rw [h.expand' u]
  rw [form_sum, dot]
  refine Finset.sum_congr rfl fun i _ => ?_
  rw [form_comm hB w (v i)]
  exact mul_comm _ _

theorem GenSpectrum.formA_coord (h : GenSpectrum A B lam v) (hB : ∀ k l, B k l = B l k) (w : Row F d) :
    form A w w = ∑ i, lam i * coord B v w i ^ 2 := by
  conv_lhs => arg 3; rw [h.expand' w]
  rw [form_sum]
  refine Finset.sum_congr rfl fun i _ => ?_
  rw [h.formA, form_comm hB w (v i)]
  simp only [coord]
  ring

/-- Among all sets of `m` vectors that are orthonormal for `B` the first eigenvectors have the least sum of `A`. -/
theorem GenSpectrum.minimal (h : GenSpectrum A B lam v) (hB : ∀ k l, B k l = B l k) {m : Nat} (w : Fin m → Row F d)
    (hw : ∀ a b, form B (w a) (w b) = if a = b then 1 else 0) :
    ∑ i : Fin d, (if i.1 < m then lam i else 0) ≤ ∑ a, form A (w a) (w a) := by
  have hsp : Spectrum (fun k l => if k = l then - lam k else 0) (fun i => - lam i)
      (fun i k => if i = k then (1 : F) else 0) := by
    refine ⟨fun i k => ?_, fun i j => ?_, fun i j hij => neg_le_neg (h.asc i j hij)⟩
    · simp only [mul_ite, mul_one, mul_zero, Finset.sum_ite_eq, Finset.mem_univ, if_true]
      by_cases hki : k = i
      · subst hki; simp
      · rw [if_neg hki, if_neg (fun h => hki h.symm)]
    · simp only [dot, mul_ite, mul_one, mul_zero, Finset.sum_ite_eq, Finset.mem_univ, if_true]
  have ho : Orthonormal fun a => coord B v (w a) := by
    intro a b
    rw [← h.formB_coord hB, hw]
  have := hsp.optimal ho
  have e1 : ∀ a : Fin m, ∑ k : Fin d, ∑ l : Fin d, coord B v (w a) k * (if k = l then - lam k else 0) * coord B v (w a) l
      = - form A (w a) (w a) := by
    intro a
    rw [h.formA_coord hB, ← Finset.sum_neg_distrib]
    refine Finset.sum_congr rfl fun k _ => ?_
    simp only [mul_ite, mul_zero, ite_mul, zero_mul, Finset.sum_ite_eq, Finset.mem_univ, if_true]
    ring
  simp only [e1, Finset.sum_neg_distrib] at this
  have e2 : ∑ i : Fin d, (if i.1 < m then - lam i else 0) = - ∑ i : Fin d, (if i.1 < m then lam i else 0) := by
    rw [← Finset.sum_neg_distrib]
    refine Finset.sum_congr rfl fun i _ => ?_
    split <;> simp
  rw [e2] at this
  linarith

end

/-! ## Proofs -/

theorem covOf_comm (rows : List (Row F d)) (k l : Fin d) : covOf rows k l = covOf rows l k := by
  simp only [covOf, cov, codev, Bool.false_eq_true, if_false, List.map_map, Function.comp_def, List.length_map]
  congr 2
  exact List.map_congr_left fun x _ => mul_comm _ _

theorem lam_nonneg {B : Mat F d d} {cs : List (Call F d)} (hm : 2 ≤ (changes id cs).length) {lam : Fin d → F}
    {v : Fin d → Row F d} (h : GenSpectrum (moment cs) B lam v) (i : Fin d) : 0 ≤ lam i := by
  have h1 := h.formA (v i) i
  rw [h.ortho i i, if_pos rfl, mul_one, form_moment] at h1
  rw [← h1]
  refine div_nonneg (List.sum_nonneg fun a ha => ?_) ?_
  · obtain ⟨x, _, rfl⟩ := List.mem_map.1 ha
    exact mul_self_nonneg _
  · have : (2 : F) ≤ ((changes id cs).length : F) := by exact_mod_cast hm
    linarith

/-- The output dimension is not set, or between one and the input dimension. -/
def Valid (out : Option Nat) (d : Nat) : Prop := ∀ k, out = some k → 1 ≤ k ∧ k ≤ d

/-- What `stop_training` leaves. -/
theorem stop_ok (incl : Bool) (out : Option Nat) (cs : List (Call F d)) (h2 : ∀ c ∈ cs, 2 ≤ c.1.length)
    (hn : 2 ≤ (samples incl cs).length) (hm : 2 ≤ (changes id cs).length) (solver : Solver F d) {lam : Fin d → F}
    {v : Fin d → Row F d} (hs : Solves solver (moment cs) (covOf (samples incl cs)) lam v) (ho : Valid out d) :
    ∃ avg, (∀ i, avg i = mean ((samples incl cs).map fun x => x i)) ∧ out.getD d ≤ d ∧
      (trained incl out cs).stop solver = (.ok (), ⟨none, none, some (out.getD d),
        some ⟨(List.ofFn lam).take (out.getD d), (List.ofFn v).take (out.getD d),
          ((List.ofFn v).take (out.getD d)).map (dot avg), avg⟩⟩) := by
  obtain ⟨avg, hav, he⟩ := stop_trained incl out cs h2 hn hm solver
  refine ⟨avg, hav, ?_, ?_⟩
  · cases out with
    | none => simp
    | some k => exact (ho k rfl).2
  rw [he]
  have hpos : ∀ p ∈ List.ofFn fun i => (lam i, v i), ¬ p.1 < 0 := by
    intro p hp
    obtain ⟨i, rfl⟩ := (List.mem_ofFn' _ _).1 hp
    exact not_lt.2 (lam_nonneg hm hs.spec i)
  have hm1 : (List.ofFn fun i => (lam i, v i)).map (·.1) = List.ofFn lam := by rw [List.map_ofFn]; rfl
  have hm2 : (List.ofFn fun i => (lam i, v i)).map (·.2) = List.ofFn v := by rw [List.map_ofFn]; rfl
  have hm3 : (List.ofFn fun i => (lam i, v i)).map (fun p => dot avg p.2) = (List.ofFn v).map (dot avg) := by
    rw [← hm2, List.map_map]; rfl
  have hany : ∀ l : List (F × Row F d), (∀ p ∈ l, p ∈ List.ofFn fun i => (lam i, v i)) →
      l.any (fun p => decide (p.1 < 0)) = false := by
    intro l hl
    rw [List.any_eq_false]
    intro p hp
    simp [hpos p (hl p hp)]
  cases out with
  | none =>
    simp only [St.solve, setRange, hs.all, hany _ (fun p hp => hp), Bool.false_eq_true, if_false, dotL_eq, hm1, hm2, hm3,
      Option.getD_none]
    rw [List.take_of_length_le (by simp), List.take_of_length_le (by simp)]
  | some k =>
    obtain ⟨hk1, hk2⟩ := ho k rfl
    simp only [St.solve, setRange, hk2, if_true, hs.smallest k hk1 hk2, hany _ (fun p hp => List.mem_of_mem_take hp),
      Bool.false_eq_true, if_false, dotL_eq, List.map_take, hm1, hm2, hm3, Option.getD_some]

/-- Output `i` of a node for an input, zero if there is none. -/
def St.out (s : St F d) (i : Nat) (x : Row F d) : F := match s.execute none x with
  | .ok y => y.getD i 0
  | .error _ => 0

/-- **C113**: training with chunks of two or more samples succeeds; the outputs for the samples have mean zero, variance
one and are uncorrelated; their delta values are the attribute `d`, in ascending order; there are as many outputs as asked
for, or as inputs; `n` gives the first `n` of them, zero gives all. -/
theorem sfa_outputs (incl : Bool) (out : Option Nat) (cs : List (Call F d)) (h2 : ∀ c ∈ cs, 2 ≤ c.1.length)
    (hn : 2 ≤ (samples incl cs).length) (hm : 2 ≤ (changes id cs).length) (solver : Solver F d) {lam : Fin d → F}
    {v : Fin d → Row F d} (hs : Solves solver (moment cs) (covOf (samples incl cs)) lam v) (ho : Valid out d) :
    ∃ s r, (trained incl out cs).stop solver = (.ok (), s) ∧ s.res = some r ∧ r.ds.Pairwise (· ≤ ·) ∧
      r.ds.length = out.getD d ∧
      (∀ x, ∃ y, s.execute none x = .ok y ∧ y.length = r.ds.length ∧ s.execute (some 0) x = .ok y ∧
        ∀ n, s.execute (some (n + 1)) x = .ok (y.take (n + 1))) ∧
      ∀ (i j : Nat) (hi : i < r.ds.length) (_ : j < r.ds.length),
        mean ((samples incl cs).map (s.out i)) = 0 ∧
        cov false ((samples incl cs).map fun x => (s.out i x, s.out j x)) = (if i = j then 1 else 0) ∧
        delta (s.out i) cs = r.ds[i] := by
  obtain ⟨avg, hav, hle, he⟩ := stop_ok incl out cs h2 hn hm solver hs ho
  generalize out.getD d = m at hle he
  have hne : samples incl cs ≠ [] := by intro h; rw [h] at hn; simp at hn
  refine ⟨_, _, he, rfl, ?_, by simp [hle], ?_, ?_⟩
  · refine List.Pairwise.sublist (List.take_sublist m _) ?_
    rw [List.pairwise_iff_getElem]
    intro i j hi hj hij
    simp only [List.getElem_ofFn]
    exact hs.spec.asc _ _ (by rw [Fin.le_def]; simp only; omega)
  · intro x
    refine ⟨_, rfl, by simp, rfl, fun n => ?_⟩
    simp only [St.execute]
    rw [List.take_zipWith]
  · intro i j hi hj
    have hi' : i < m := by simpa [hle] using hi
    have hj' : j < m := by simpa [hle] using hj
    have key : ∀ i (hi : i < m), St.out (⟨none, none, some m,
        some ⟨(List.ofFn lam).take m, (List.ofFn v).take m, ((List.ofFn v).take m).map (dot avg), avg⟩⟩ : St F d) i
        = fun x => dot x (v ⟨i, by omega⟩) - dot avg (v ⟨i, by omega⟩) := by
      intro i hi
      funext x
      simp only [St.out, St.execute, dotL_eq]
      rw [List.getD_eq_getElem?_getD, List.getElem?_eq_getElem (by simp [hi]; omega)]
      simp
    have hproj : ∀ x w : Row F d, dot x w - dot avg w = proj avg x w := by
      intro x w
      rw [proj_eq, ← dot_sub]
      rfl
    rw [key i hi', key j hj']
    refine ⟨?_, ?_, ?_⟩
    · simp only [hproj]
      exact mean_proj hne hav _
    · simp only [hproj]
      rw [cov_proj hne hav, cov_dot]
      have := hs.spec.ortho ⟨i, by omega⟩ ⟨j, by omega⟩
      simp only [form] at this
      rw [this]
      simp
    · rw [delta_dot, hs.spec.formA, hs.spec.ortho]
      simp

/-- **C114**: no `m` linear functions of the input that have variance one and are uncorrelated change more slowly than
the first `m` outputs: the sum of their delta values is not less. -/
theorem sfa_slowest (incl : Bool) (out : Option Nat) (cs : List (Call F d)) (h2 : ∀ c ∈ cs, 2 ≤ c.1.length)
    (hn : 2 ≤ (samples incl cs).length) (hm : 2 ≤ (changes id cs).length) (solver : Solver F d) {lam : Fin d → F}
    {v : Fin d → Row F d} (hs : Solves solver (moment cs) (covOf (samples incl cs)) lam v) (ho : Valid out d) (s : St F d)
    (r : Res F d) (h : (trained incl out cs).stop solver = (.ok (), s)) (hr : s.res = some r) (m : Nat)
    (hk : m ≤ r.ds.length) (w : Fin m → Row F d)
    (hw : ∀ a b, cov false ((samples incl cs).map fun x => (dot x (w a), dot x (w b))) = if a = b then 1 else 0) :
    (r.ds.take m).sum ≤ ∑ a, delta (fun x => dot x (w a)) cs := by
  obtain ⟨avg, hav, hle, he⟩ := stop_ok incl out cs h2 hn hm solver hs ho
  rw [he] at h
  cases h
  cases hr
  have hk' : m ≤ out.getD d := by simpa [hle] using hk
  simp only [List.take_take, min_eq_left hk']
  rw [take_sum]
  have hd : ∀ a, delta (fun x => dot x (w a)) cs = form (moment cs) (w a) (w a) := by
    intro a
    have := delta_dot cs (w a) 0
    simpa using this
  simp only [hd]
  refine hs.spec.minimal (covOf_comm _) w fun a b => ?_
  rw [← hw a b, cov_dot]
  rfl

/-- **C115**: after a failure of the solver, or negative eigenvalues, `stop_training` can be called again with another
solver, without training again: it does what it would have done at first. -/
theorem sfa_retry (solver solver' : Solver F d) (s s' : St F d) (e : Err) (he : e = .symeig ∨ e = .negative)
    (h : s.stop solver = (.error e, s')) (hall : ∀ A B, solver' A B none = solver' A B (some (1, d))) :
    s'.stop solver' = s.stop solver' := by
  have hsolve : ∀ (t : St F d) (f : Fixed F d), t.acc = none → t.fixed = some f → t.solve solver f = (.error e, s') →
      s'.stop solver' = t.solve solver' f := by
    intro t f ha hf ht
    obtain ⟨ta, tf, out, tr⟩ := t
    simp only at ha hf
    subst ha; subst hf
    simp only [St.solve] at ht
    cases out with
    | none =>
      simp only [setRange] at ht
      have hs' : s' = ⟨none, some f, some d, tr⟩ := by
        split at ht
        · cases ht; rfl
        · split at ht
          · cases ht; rfl
          · cases ht
      subst hs'
      simp only [St.stop, St.solve, setRange, le_refl, if_true, hall]
    | some k =>
      simp only [setRange] at ht
      by_cases hk : k ≤ d
      · simp only [hk, if_true] at ht
        have hs' : s' = ⟨none, some f, some k, tr⟩ := by
          split at ht
          · cases ht; rfl
          · split at ht
            · cases ht; rfl
            · cases ht
        subst hs'
        simp only [St.stop]
      · simp only [hk, if_false] at ht
        cases ht
        rcases he with he | he <;> cases he
  cases hacc : s.acc with
  | none =>
    simp only [St.stop, hacc] at h ⊢
    cases hf : s.fixed with
    | none =>
      simp only [hf] at h
      cases h
      rcases he with he | he <;> cases he
    | some f =>
      simp only [hf] at h ⊢
      exact hsolve s f hacc hf h
  | some a =>
    simp only [St.stop, hacc] at h
    cases h1 : a.cov.fix true with
    | error x =>
      simp only [h1] at h
      cases h
      rcases he with he | he <;> cases he
    | ok x =>
      obtain ⟨⟨cov, avg, n⟩, c'⟩ := x
      simp only [h1] at h
      cases h3 : a.dcov.fix false with
      | error x =>
        simp only [h3] at h
        cases h
        rcases he with he | he <;> cases he
      | ok x =>
        obtain ⟨⟨dcov, davg, dn⟩, c''⟩ := x
        simp only [h3] at h
        conv_rhs => simp only [St.stop, hacc, h1, h3]
        exact hsolve _ _ rfl rfl h

/-- **C115**: between a failure and the next call of `stop_training` training is refused, and does not change the node. -/
theorem sfa_no_train_after_failure (solver : Solver F d) (s s' : St F d) (e : Err) (he : e = .symeig ∨ e = .negative)
    (h : s.stop solver = (.error e, s')) (x : List (Row F d)) (incl : Option Bool) :
    ∃ e', s'.train x incl = (.error e', s') := by
  have hacc : s'.acc = none := by
    have hsol : ∀ (t : St F d) f, t.acc = none → (t.solve solver f).2.acc = none := by
      intro t f ht
      simp only [St.solve]
      split
      · exact ht
      · split
        · exact ht
        · split <;> exact ht
    have h' : s' = (s.stop solver).2 := by rw [h]
    cases hs : s.acc with
    | none =>
      rw [h']
      simp only [St.stop, hs]
      split
      · exact hs
      · exact hsol _ _ hs
    | some a =>
      simp only [St.stop, hs] at h
      split at h
      · cases h; rcases he with he | he <;> cases he
      · split at h
        · cases h; rcases he with he | he <;> cases he
        · rw [← show _ = s' from congrArg Prod.snd h]
          exact hsol _ _ rfl
  simp only [St.train, hacc]
  split
  · exact ⟨_, rfl⟩
  · exact ⟨_, rfl⟩

/-- An output dimension above the input dimension is refused at the end of training. -/
theorem sfa_too_many (incl : Bool) (k : Nat) (hk : d < k) (cs : List (Call F d)) (h2 : ∀ c ∈ cs, 2 ≤ c.1.length)
    (hn : 2 ≤ (samples incl cs).length) (hm : 2 ≤ (changes id cs).length) (solver : Solver F d) :
    ((trained incl (some k) cs).stop solver).1 = .error .dim := by
  obtain ⟨avg, hav, he⟩ := stop_trained incl (some k) cs h2 hn hm solver
  rw [he]
  simp only [St.solve, setRange, if_neg (not_le.2 hk)]

/-- `G` (as list of rows) is a generalised inverse of the matrix with columns `W`: `W G W = W`, the first of the
conditions that define the pseudo-inverse. -/
def GenInverse (W G : List (Row F d)) : Prop :=
  G.length = W.length ∧
    ∀ w ∈ W, ∀ k, (List.zipWith (fun a g => a k * dot g w) W G).sum = w k

theorem form_add (B : Mat F d d) (u x y : Row F d) : form B u (fun k => x k + y k) = form B u x + form B u y := by
  simp only [form, ← Finset.sum_add_distrib, mul_add]

theorem zipWith_ofFn {α β γ : Type} {m : Nat} (f : α → β → γ) (g : Fin m → α) (h : Fin m → β) :
    List.zipWith f (List.ofFn g) (List.ofFn h) = List.ofFn fun i => f (g i) (h i) := by
  apply List.ext_getElem (by simp)
  intro i h1 h2
  simp

theorem take_ofFn {α : Type} {d m : Nat} (h : m ≤ d) (v : Fin d → α) :
    (List.ofFn v).take m = List.ofFn fun i : Fin m => v ⟨i.1, by omega⟩ := by
  apply List.ext_getElem (by simp [h])
  intro i h1 h2
  simp

/-- A generalised inverse of the filters is a left inverse. -/
theorem GenSpectrum.left_inverse {A B : Mat F d d} {lam : Fin d → F} {v : Fin d → Row F d} (h : GenSpectrum A B lam v) {m : Nat}
    (hm : m ≤ d) (g : Fin m → Row F d) (hg : GenInverse ((List.ofFn v).take m) (List.ofFn g)) (i j : Fin m) :
    dot (g i) (v ⟨j.1, by omega⟩) = if i = j then 1 else 0 := by
  rw [take_ofFn hm] at hg
  have h1 := hg.2 (v ⟨j.1, by omega⟩) ((List.mem_ofFn' _ _).2 ⟨j, rfl⟩)
  simp only [zipWith_ofFn, List.sum_ofFn] at h1
  have h2 : form B (v ⟨i.1, by omega⟩) (v ⟨j.1, by omega⟩) =
      ∑ a : Fin m, dot (g a) (v ⟨j.1, by omega⟩) * form B (v ⟨i.1, by omega⟩) (v ⟨a.1, by omega⟩) := by
    conv_lhs => rw [← funext h1]
    simp only [form, Finset.mul_sum]
    have h3 : ∀ k, ∑ l, ∑ a : Fin m, v ⟨i.1, by omega⟩ k * B k l * (v ⟨a.1, by omega⟩ l * dot (g a) (v ⟨j.1, by omega⟩)) =
        ∑ a : Fin m, ∑ l, dot (g a) (v ⟨j.1, by omega⟩) * (v ⟨i.1, by omega⟩ k * B k l * v ⟨a.1, by omega⟩ l) := by
      intro k
      rw [Finset.sum_comm]
      exact Finset.sum_congr rfl fun a _ => Finset.sum_congr rfl fun l _ => by ring
    simp only [h3]
    rw [Finset.sum_comm]
  simp only [h.ortho, Fin.mk.injEq, Fin.val_inj, mul_ite, mul_one, mul_zero, Finset.sum_ite_eq, Finset.mem_univ, if_true] at h2
  exact h2.symm

theorem dot_comb {m : Nat} (c : Fin m → F) (g : Fin m → Row F d) (a w : Row F d) :
    dot (fun k => ∑ i, c i * g i k + a k) w = ∑ i, c i * dot (g i) w + dot a w := by
  simp only [dot, add_mul, Finset.sum_add_distrib, Finset.sum_mul, Finset.mul_sum]
  congr 1
  rw [Finset.sum_comm]
  exact Finset.sum_congr rfl fun i _ => Finset.sum_congr rfl fun k _ => by ring

/-- **C116**: executing the inverse of outputs gives these outputs; if all components are kept the inverse of the output of
an input is this input. -/
theorem sfa_inverse (incl : Bool) (out : Option Nat) (cs : List (Call F d)) (h2 : ∀ c ∈ cs, 2 ≤ c.1.length)
    (hn : 2 ≤ (samples incl cs).length) (hm : 2 ≤ (changes id cs).length) (solver : Solver F d) {lam : Fin d → F}
    {v : Fin d → Row F d} (hs : Solves solver (moment cs) (covOf (samples incl cs)) lam v) (ho : Valid out d) (s : St F d)
    (r : Res F d) (h : (trained incl out cs).stop solver = (.ok (), s)) (hr : s.res = some r)
    (pinv : List (Row F d) → List (Row F d)) (hp : GenInverse r.sf (pinv r.sf)) :
    (∀ y : List F, y.length = r.ds.length → ∃ x, s.inverse pinv y = .ok x ∧ s.execute none x = .ok y) ∧
    (out.getD d = d → ∀ x y, s.execute none x = .ok y → s.inverse pinv y = .ok x) := by
  obtain ⟨avg, hav, hle, he⟩ := stop_ok incl out cs h2 hn hm solver hs ho
  generalize out.getD d = m at hle he
  rw [he] at h
  cases h
  cases hr
  simp only at hp
  obtain ⟨g, hg⟩ : ∃ g : Fin m → Row F d, pinv ((List.ofFn v).take m) = List.ofFn g := by
    have hl : (pinv ((List.ofFn v).take m)).length = m := by rw [hp.1]; simp [hle]
    refine ⟨fun i => (pinv ((List.ofFn v).take m))[i.1]'(by omega), ?_⟩
    apply List.ext_getElem (by simp [hl])
    intro i h1 h2
    simp
  have hgi := hp
  rw [hg] at hgi
  have hleft := hs.spec.left_inverse hle g hgi
  refine ⟨fun y hy => ?_, fun hmd x y hxy => ?_⟩
  · have hy' : y.length = m := by simpa [hle] using hy
    obtain ⟨c, rfl⟩ : ∃ c : Fin m → F, y = List.ofFn c := by
      subst hy'
      exact ⟨fun i => y[i.1], by simp⟩
    refine ⟨_, rfl, ?_⟩
    simp only [hg]
    simp only [St.execute, dotL_eq, take_ofFn hle, List.map_ofFn, zipWith_ofFn, List.sum_ofFn, dot_comb, Function.comp,
      hleft, mul_ite, mul_one, mul_zero, Finset.sum_ite_eq', Finset.mem_univ, if_true, add_sub_cancel_right]
  · subst hmd
    simp only [St.execute, dotL_eq, List.take_of_length_le (List.length_ofFn (f := v)).le, List.map_ofFn, zipWith_ofFn,
      Function.comp] at hxy
    cases hxy
    have hpg : pinv (List.ofFn v) = List.ofFn g := by
      rw [← hg, List.take_of_length_le (List.length_ofFn (f := v)).le]
    have h1 : Matrix.of g * (Matrix.of v).transpose = 1 := by
      ext i j
      rw [Matrix.mul_apply, Matrix.one_apply]
      exact hleft i j
    have h3 := (mul_eq_one_comm).1 h1
    have h4 : ∀ k l, ∑ i, v i k * g i l = if k = l then 1 else 0 := by
      intro k l
      have := congrFun (congrFun h3 k) l
      rw [Matrix.mul_apply, Matrix.one_apply] at this
      exact this
    simp only [St.inverse, List.take_of_length_le (List.length_ofFn (f := v)).le, hpg, zipWith_ofFn, List.sum_ofFn]
    congr 1
    funext l
    have h5 : ∀ i, (dot x (v i) - dot avg (v i)) * g i l = ∑ k, (x k - avg k) * (v i k * g i l) := by
      intro i
      rw [← dot_sub, dot, Finset.sum_mul]
      exact Finset.sum_congr rfl fun k _ => by rw [Pi.sub_apply]; ring
    simp only [h5]
    rw [Finset.sum_comm]
    simp only [← Finset.mul_sum, h4, mul_ite, mul_one, mul_zero, Finset.sum_ite_eq', Finset.mem_univ, if_true,
      sub_add_cancel]

/-! ## A concrete case -/

/-- Five samples: the first coordinate changes slowly, the second quickly. -/
def exCalls : List (Call ℚ 2) := [([![1, 1], ![1, -1], ![0, 0], ![-1, -1], ![-1, 1]], none)]

def exLam : Fin 2 → ℚ := ![2 / 3, 10 / 3]
def exVec : Fin 2 → Row ℚ 2 := ![![1, 0], ![0, 1]]

/-- A solver that knows the answer. -/
def exSolver : Solver ℚ 2 := fun _ _ rng => match rng with
  | none => some (List.ofFn fun i => (exLam i, exVec i))
  | some (_, k) => some ((List.ofFn fun i => (exLam i, exVec i)).take k)

theorem exSolves : Solves exSolver (moment exCalls) (covOf (samples true exCalls)) exLam exVec :=
  ⟨⟨by decide +kernel, by decide +kernel, by decide +kernel⟩, rfl, fun _ _ _ => rfl⟩

theorem exValid : Valid (some 1) 2 ∧ Valid none 2 :=
  ⟨fun k h => by cases h; exact ⟨le_refl _, by decide⟩, fun k h => by cases h⟩

example := sfa_outputs true (some 1) exCalls (by decide) (by decide) (by decide) exSolver exSolves exValid.1
example := sfa_slowest true (some 1) exCalls (by decide) (by decide) (by decide) exSolver exSolves exValid.1
example := sfa_too_many true 3 (by decide) exCalls (by decide) (by decide) (by decide) exSolver

/-- The filters are their own inverse. -/
example : ∃ s r, (trained true none exCalls).stop exSolver = (.ok (), s) ∧ s.res = some r ∧ GenInverse r.sf (id r.sf) := by
  obtain ⟨avg, hav, hle, he⟩ := stop_ok true none exCalls (by decide) (by decide) (by decide) exSolver exSolves exValid.2
  refine ⟨_, _, he, rfl, by simp, ?_⟩
  have : ∀ w ∈ (List.ofFn exVec).take 2, ∀ k, (List.zipWith (fun a g => a k * dot g w) ((List.ofFn exVec).take 2)
      ((List.ofFn exVec).take 2)).sum = w k := by decide +kernel
  exact this

/-- A solver that fails: the second attempt succeeds. -/
example : ((trained true (some 1) exCalls).stop (fun _ _ _ => none)).1 = .error .symeig ∧
    ((((trained true (some 1) exCalls).stop (fun _ _ _ => none)).2).stop exSolver).1 = .ok () := by
  have h : (trained true (some 1) exCalls).stop (fun _ _ _ => none) =
      (.error .symeig, ((trained true (some 1) exCalls).stop (fun _ _ _ => none)).2) := by
    obtain ⟨avg, hav, he⟩ := stop_trained true (some 1) exCalls (by decide) (by decide) (by decide) (fun _ _ _ => none)
    rw [he]; rfl
  refine ⟨by rw [h], ?_⟩
  rw [sfa_retry _ exSolver _ _ .symeig (Or.inl rfl) h (fun _ _ => rfl)]
  obtain ⟨avg, hav, hle, he⟩ := stop_ok true (some 1) exCalls (by decide) (by decide) (by decide) exSolver exSolves exValid.1
  rw [he]

end Mdp.Sfa
