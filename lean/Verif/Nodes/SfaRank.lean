import Verif.Nodes.SfaOut

/-!
# SFA with a solver for singular covariance matrices (C122, C123)
-/

namespace Mdp.Sfa

open Mdp.Cov Mdp.Join Mdp.Pca

variable {F : Type} [Field F] [LinearOrder F] {d r : Nat}

/-! ## Specification -/

/-- Eigenvalues `lam` in ascending order and eigenvectors `v` of the generalised problem for `A` and `B`, where `B` may be
singular: the vectors are orthonormal for `B`, diagonalise `A`, and together with the null space of `B` they span. -/
structure RankSpectrum (A B : Mat F d d) (lam : Fin r → F) (v : Fin r → Row F d) : Prop where
  ortho : ∀ i j, form B (v i) (v j) = if i = j then 1 else 0
  diag : ∀ i j, form A (v i) (v j) = if i = j then lam i else 0
  span : ∀ w : Row F d, ∃ c : Fin r → F, form B (fun k => w k - ∑ i, c i * v i k) (fun k => w k - ∑ i, c i * v i k) = 0
  asc : ∀ i j, i ≤ j → lam i ≤ lam j

/-- The solver works for `A` and `B`: asked for all or for the `k` smallest, it returns eigenvalues and eigenvectors. -/
structure RankSolves (solver : Solver F d) (A B : Mat F d d) (lam : Fin r → F) (v : Fin r → Row F d) : Prop where
  spec : RankSpectrum A B lam v
  all : solver A B none = some (List.ofFn fun i => (lam i, v i))
  smallest : ∀ k, 1 ≤ k → k ≤ d → solver A B (some (1, k)) = some ((List.ofFn fun i => (lam i, v i)).take k)

/-! ## Semidefinite forms -/

variable [IsStrictOrderedRing F]

theorem form_add_left (M : Mat F d d) (x y z : Row F d) : form M (fun k => x k + y k) z = form M x z + form M y z := by
  simp only [form, ← Finset.sum_add_distrib, add_mul]

theorem form_smul (M : Mat F d d) (a : F) (x z : Row F d) : form M x (fun k => a * z k) = a * form M x z := by
  simp only [form, Finset.mul_sum]
  exact Finset.sum_congr rfl fun k _ => Finset.sum_congr rfl fun l _ => by ring

/-- A vector of length zero for a semidefinite form is orthogonal to all vectors. -/
theorem form_null {M : Mat F d d} (hs : ∀ k l, M k l = M l k) (hp : ∀ u, 0 ≤ form M u u) {u : Row F d} (hu : form M u u = 0)
    (x : Row F d) : form M u x = 0 := by
  by_contra hne
  have key : ∀ t : F, form M (fun k => x k + t * u k) (fun k => x k + t * u k) = form M x x + 2 * t * form M u x := by
    intro t
    rw [form_add, form_add_left, form_add_left, form_smul, form_smul, form_comm hs x u, form_comm hs (fun k => t * u k) x,
      form_comm hs (fun k => t * u k) u, form_smul, form_smul, form_comm hs x u, hu]
    ring
  have h1 := hp fun k => x k + (-(form M x x + 1) / (2 * form M u x)) * u k
  rw [key] at h1
  have h2 : form M x x + 2 * (-(form M x x + 1) / (2 * form M u x)) * form M u x = -1 := by
    field_simp
    ring
  rw [h2] at h1
  linarith

variable {A B : Mat F d d} {lam : Fin r → F} {v : Fin r → Row F d}

theorem form_sum' (M : Mat F d d) (w : Row F d) (c : Fin r → F) (v : Fin r → Row F d) :
    form M w (fun k => ∑ i, c i * v i k) = ∑ i, c i * form M w (v i) := by
  simp only [form, Finset.mul_sum]
  have h1 : ∀ k, ∑ l, ∑ i, w k * M k l * (c i * v i l) = ∑ i, ∑ l, c i * (w k * M k l * v i l) := by
    intro k
    rw [Finset.sum_comm]
    exact Finset.sum_congr rfl fun i _ => Finset.sum_congr rfl fun l _ => by ring
  simp only [h1]
  rw [Finset.sum_comm]

/-- Both forms in coordinates. -/
theorem RankSpectrum.coords (h : RankSpectrum A B lam v) (hA : ∀ k l, A k l = A l k) (hB : ∀ k l, B k l = B l k)
    (hpA : ∀ u, 0 ≤ form A u u) (hpB : ∀ u, 0 ≤ form B u u) (hnull : ∀ u, form B u u = 0 → form A u u = 0) (w : Row F d) :
    ∃ c : Fin r → F, (∀ x, form B x w = ∑ i, c i * form B x (v i)) ∧ form A w w = ∑ i, lam i * c i ^ 2 ∧
      ∀ i, form B (v i) w = c i := by
  obtain ⟨c, hc⟩ := h.span w
  have hw : w = fun k => (∑ i, c i * v i k) + (w k - ∑ i, c i * v i k) := by funext k; ring
  have hB1 : ∀ x, form B x w = ∑ i, c i * form B x (v i) := by
    intro x
    conv_lhs => rw [hw]
    rw [form_add, form_sum', form_comm hB x, form_null hB hpB hc, add_zero]
  have hA1 : ∀ x, form A x w = ∑ i, c i * form A x (v i) := by
    intro x
    conv_lhs => rw [hw]
    rw [form_add, form_sum', form_comm hA x, form_null hA hpA (hnull _ hc), add_zero]
  refine ⟨c, hB1, ?_, fun i => ?_⟩
  · rw [hA1]
    refine Finset.sum_congr rfl fun i _ => ?_
    rw [form_comm hA, hA1]
    simp only [h.diag, mul_ite, mul_zero, Finset.sum_ite_eq, Finset.mem_univ, if_true]
    ring
  · rw [hB1]
    simp [h.ortho]

/-- Among all sets of `m` vectors that are orthonormal for `B` the first eigenvectors have the least sum of `A`. -/
theorem RankSpectrum.minimal (h : RankSpectrum A B lam v) (hA : ∀ k l, A k l = A l k) (hB : ∀ k l, B k l = B l k)
    (hpA : ∀ u, 0 ≤ form A u u) (hpB : ∀ u, 0 ≤ form B u u) (hnull : ∀ u, form B u u = 0 → form A u u = 0) {m : Nat}
    (w : Fin m → Row F d) (hw : ∀ a b, form B (w a) (w b) = if a = b then 1 else 0) :
    ∑ i : Fin r, (if i.1 < m then lam i else 0) ≤ ∑ a, form A (w a) (w a) := by
  choose c hc1 hc2 hc3 using fun a => h.coords hA hB hpA hpB hnull (w a)
  have hsp : Spectrum (fun k l => if k = l then - lam k else 0) (fun i => - lam i)
      (fun i k => if i = k then (1 : F) else 0) := by
    refine ⟨fun i k => ?_, fun i j => ?_, fun i j hij => neg_le_neg (h.asc i j hij)⟩
    · simp only [mul_ite, mul_one, mul_zero, Finset.sum_ite_eq, Finset.mem_univ, if_true]
      by_cases hki : k = i
      · subst hki; simp
      · rw [if_neg hki, if_neg (fun h => hki h.symm)]
    · simp only [dot, mul_ite, mul_one, mul_zero, Finset.sum_ite_eq, Finset.mem_univ, if_true]
  have ho : Orthonormal c := by
    intro a b
    rw [← hw a b, hc1 b]
    refine Finset.sum_congr rfl fun i _ => ?_
    rw [form_comm hB (w a) (v i), hc3 a]
    ring
  have := hsp.optimal ho
  have e1 : ∀ a : Fin m, ∑ k : Fin r, ∑ l : Fin r, c a k * (if k = l then - lam k else 0) * c a l
      = - form A (w a) (w a) := by
    intro a
    rw [hc2, ← Finset.sum_neg_distrib]
    refine Finset.sum_congr rfl fun k _ => ?_
    simp only [mul_ite, mul_zero, ite_mul, zero_mul, Finset.sum_ite_eq, Finset.mem_univ, if_true]
    ring
  simp only [e1, Finset.sum_neg_distrib] at this
  have e2 : ∑ i : Fin r, (if i.1 < m then - lam i else 0) = - ∑ i : Fin r, (if i.1 < m then lam i else 0) := by
    rw [← Finset.sum_neg_distrib]
    refine Finset.sum_congr rfl fun i _ => ?_
    split <;> simp
  rw [e2] at this
  linarith

/-! ## The forms of the data -/

theorem form_covOf (rows : List (Row F d)) (w u : Row F d) :
    form (covOf rows) w u = cov false (rows.map fun x => (dot x w, dot x u)) := by
  rw [cov_dot]; rfl

theorem covOf_nonneg (rows : List (Row F d)) (hn : 2 ≤ rows.length) (u : Row F d) : 0 ≤ form (covOf rows) u u := by
  rw [form_covOf]
  simp only [cov, codev, Bool.false_eq_true, if_false, List.map_map, Function.comp_def, List.length_map]
  refine div_nonneg (List.sum_nonneg fun a ha => ?_) ?_
  · obtain ⟨x, _, rfl⟩ := List.mem_map.1 ha
    exact mul_self_nonneg _
  · have : (2 : F) ≤ (rows.length : F) := by exact_mod_cast hn
    linarith

theorem moment_comm (cs : List (Call F d)) (k l : Fin d) : moment cs k l = moment cs l k := by
  simp only [moment]
  congr 2
  exact List.map_congr_left fun x _ => mul_comm _ _

theorem moment_nonneg (cs : List (Call F d)) (hm : 2 ≤ (changes id cs).length) (u : Row F d) : 0 ≤ form (moment cs) u u := by
  rw [form_moment]
  refine div_nonneg (List.sum_nonneg fun a ha => ?_) ?_
  · obtain ⟨x, _, rfl⟩ := List.mem_map.1 ha
    exact mul_self_nonneg _
  · have : (2 : F) ≤ ((changes id cs).length : F) := by exact_mod_cast hm
    linarith

/-- A signal with variance zero does not change, if the last samples of the chunks are included. -/
theorem constant_signal (incl : Bool) (cs : List (Call F d)) (hi : ∀ c ∈ cs, c.2.getD incl = true)
    (hn : 2 ≤ (samples incl cs).length) (u : Row F d) (hu : form (covOf (samples incl cs)) u u = 0) :
    form (moment cs) u u = 0 := by
  have h0 : ∀ x ∈ samples incl cs, dot x u = mean ((samples incl cs).map fun x => dot x u) := by
    rw [form_covOf] at hu
    simp only [cov, codev, Bool.false_eq_true, if_false, List.map_map, Function.comp_def, List.length_map] at hu
    have hne : ((samples incl cs).length : F) - 1 ≠ 0 := by
      have : (2 : F) ≤ ((samples incl cs).length : F) := by exact_mod_cast hn
      intro h; linarith
    have hz := (div_eq_zero_iff.1 hu).resolve_right hne
    intro x hx
    have h1 : ∀ l : List (Row F d), ∀ f : Row F d → F, (l.map fun x => f x * f x).sum = 0 → ∀ x ∈ l, f x = 0 := by
      intro l f
      induction l with
      | nil => intro _ x hx; cases hx
      | cons a l ih =>
        intro h x hx
        simp only [List.map_cons, List.sum_cons] at h
        have h2 : 0 ≤ (l.map fun x => f x * f x).sum := List.sum_nonneg fun b hb => by
          obtain ⟨y, _, rfl⟩ := List.mem_map.1 hb
          exact mul_self_nonneg _
        have h3 := mul_self_nonneg (f a)
        rcases List.mem_cons.1 hx with rfl | hx
        · exact mul_self_eq_zero.1 (by linarith)
        · exact ih (by linarith) x hx
    exact sub_eq_zero.1 (h1 _ (fun x => dot x u - mean ((samples incl cs).map fun x => dot x u)) hz x hx)
  generalize mean ((samples incl cs).map fun x => dot x u) = m at h0
  have h1 : ∀ x ∈ changes id cs, dot x u = 0 := by
    intro x hx
    simp only [changes, List.map_id, List.mem_flatMap] at hx
    obtain ⟨c, hc, hx⟩ := hx
    have hcs : ∀ y ∈ c.1, dot y u = m := by
      intro y hy
      refine h0 y ?_
      simp only [samples, List.mem_flatMap]
      exact ⟨c, hc, by rw [if_pos (hi c hc)]; exact hy⟩
    clear hc h0
    generalize c.1 = l at hx hcs
    induction l with
    | nil => cases hx
    | cons a l ih => cases l with
      | nil => cases hx
      | cons b l =>
        simp only [differences] at hx
        rcases List.mem_cons.1 hx with rfl | hx
        · rw [dot_sub, hcs a (by simp), hcs b (by simp), sub_self]
        · exact ih hx fun y hy => hcs y (List.mem_cons_of_mem _ hy)
  rw [form_moment]
  have : (changes id cs).map (fun x => dot x u * dot x u) = (changes id cs).map fun _ => (0 : F) :=
    List.map_congr_left fun x hx => by rw [h1 x hx, zero_mul]
  rw [this]
  simp

/-! ## The node -/

theorem stop_rank (incl : Bool) (out : Option Nat) (cs : List (Call F d)) (h2 : ∀ c ∈ cs, 2 ≤ c.1.length)
    (hn : 2 ≤ (samples incl cs).length) (hm : 2 ≤ (changes id cs).length) (solver : Solver F d) {lam : Fin r → F}
    {v : Fin r → Row F d} (hs : RankSolves solver (moment cs) (covOf (samples incl cs)) lam v) (ho : Valid out d) (hr : r ≤ d) :
    ∃ avg, (∀ i, avg i = mean ((samples incl cs).map fun x => x i)) ∧
      (trained incl out cs).stop solver = (.ok (), ⟨none, none, some (out.getD d),
        some ⟨(List.ofFn lam).take (out.getD d), (List.ofFn v).take (out.getD d),
          ((List.ofFn v).take (out.getD d)).map (dot avg), avg⟩⟩) := by
  obtain ⟨avg, hav, he⟩ := stop_trained incl out cs h2 hn hm solver
  refine ⟨avg, hav, ?_⟩
  rw [he]
  have hpos : ∀ p ∈ List.ofFn fun i => (lam i, v i), ¬ p.1 < 0 := by
    intro p hp
    obtain ⟨i, rfl⟩ := (List.mem_ofFn' _ _).1 hp
    have h1 := hs.spec.diag i i
    rw [if_pos rfl] at h1
    exact not_lt.2 (by simp only; rw [← h1]; exact moment_nonneg cs hm _)
  have hm1 : (List.ofFn fun i => (lam i, v i)).map (·.1) = List.ofFn lam := by rw [List.map_ofFn]; rfl
  have hm2 : (List.ofFn fun i => (lam i, v i)).map (·.2) = List.ofFn v := by rw [List.map_ofFn]; rfl
  have hm3 : (List.ofFn fun i => (lam i, v i)).map (fun p => dot avg p.2) = (List.ofFn v).map (dot avg) := by
    rw [← hm2, List.map_map]; rfl
  have hany : ∀ l : List (F × Row F d), (∀ p ∈ l, p ∈ List.ofFn fun i => (lam i, v i)) →
      l.any (fun p => decide (p.1 < 0)) = false := by
    intro l hl
    rw [List.any_eq_false]
    intro p hp
    simp [hpos p (hl p hp)]
  cases out with
  | none =>
    simp only [St.solve, setRange, hs.all, hany _ (fun p hp => hp), Bool.false_eq_true, if_false, dotL_eq, hm1, hm2, hm3,
      Option.getD_none]
    rw [List.take_of_length_le (by simpa using hr), List.take_of_length_le (by simpa using hr)]
  | some k =>
    obtain ⟨hk1, hk2⟩ := ho k rfl
    simp only [St.solve, setRange, hk2, if_true, hs.smallest k hk1 hk2, hany _ (fun p hp => List.mem_of_mem_take hp),
      Bool.false_eq_true, if_false, dotL_eq, List.map_take, hm1, hm2, hm3, Option.getD_some]

/-- **C122**: with a solver for singular matrices training succeeds whatever the rank of the data; the outputs for the samples
have mean zero, variance one and are uncorrelated; their delta values are the attribute `d`, in ascending order. -/
theorem sfa_rank_outputs (incl : Bool) (out : Option Nat) (cs : List (Call F d)) (h2 : ∀ c ∈ cs, 2 ≤ c.1.length)
    (hn : 2 ≤ (samples incl cs).length) (hm : 2 ≤ (changes id cs).length) (solver : Solver F d) {lam : Fin r → F}
    {v : Fin r → Row F d} (hs : RankSolves solver (moment cs) (covOf (samples incl cs)) lam v) (ho : Valid out d) (hr : r ≤ d) :
    ∃ s res, (trained incl out cs).stop solver = (.ok (), s) ∧ s.res = some res ∧ res.ds.Pairwise (· ≤ ·) ∧
      res.ds.length = min (out.getD d) r ∧
      (∀ x, ∃ y, s.execute none x = .ok y ∧ y.length = res.ds.length) ∧
      ∀ (i j : Nat) (hi : i < res.ds.length) (_ : j < res.ds.length),
        mean ((samples incl cs).map (s.out i)) = 0 ∧
        cov false ((samples incl cs).map fun x => (s.out i x, s.out j x)) = (if i = j then 1 else 0) ∧
        delta (s.out i) cs = res.ds[i] := by
  obtain ⟨avg, hav, he⟩ := stop_rank incl out cs h2 hn hm solver hs ho hr
  generalize out.getD d = m at he
  have hne : samples incl cs ≠ [] := by intro h; rw [h] at hn; simp at hn
  refine ⟨_, _, he, rfl, ?_, by simp, ?_, ?_⟩
  · refine List.Pairwise.sublist (List.take_sublist m _) ?_
    rw [List.pairwise_iff_getElem]
    intro i j hi hj hij
    simp only [List.getElem_ofFn]
    exact hs.spec.asc _ _ (by rw [Fin.le_def]; simp only; omega)
  · intro x
    exact ⟨_, rfl, by simp⟩
  · intro i j hi hj
    have hi' : i < m ∧ i < r := by simpa using hi
    have hj' : j < m ∧ j < r := by simpa using hj
    have key : ∀ i (hi : i < m ∧ i < r), St.out (⟨none, none, some m,
        some ⟨(List.ofFn lam).take m, (List.ofFn v).take m, ((List.ofFn v).take m).map (dot avg), avg⟩⟩ : St F d) i
        = fun x => dot x (v ⟨i, hi.2⟩) - dot avg (v ⟨i, hi.2⟩) := by
      intro i hi
      funext x
      simp only [St.out, St.execute, dotL_eq]
      rw [List.getD_eq_getElem?_getD, List.getElem?_eq_getElem (by simp [hi])]
      simp
    have hproj : ∀ x w : Row F d, dot x w - dot avg w = proj avg x w := by
      intro x w
      rw [proj_eq, ← dot_sub]
      rfl
    rw [key i hi', key j hj']
    refine ⟨?_, ?_, ?_⟩
    · simp only [hproj]
      exact mean_proj hne hav _
    · simp only [hproj]
      rw [cov_proj hne hav, cov_dot]
      have := hs.spec.ortho ⟨i, hi'.2⟩ ⟨j, hj'.2⟩
      simp only [form] at this
      rw [this]
      simp
    · rw [delta_dot, hs.spec.diag]
      simp

/-- **C122**: and they are the slowest ones. -/
theorem sfa_rank_slowest (incl : Bool) (out : Option Nat) (cs : List (Call F d)) (h2 : ∀ c ∈ cs, 2 ≤ c.1.length)
    (hi : ∀ c ∈ cs, c.2.getD incl = true)
    (hn : 2 ≤ (samples incl cs).length) (hm : 2 ≤ (changes id cs).length) (solver : Solver F d) {lam : Fin r → F}
    {v : Fin r → Row F d} (hs : RankSolves solver (moment cs) (covOf (samples incl cs)) lam v) (ho : Valid out d) (hr : r ≤ d)
    (s : St F d) (res : Res F d) (h : (trained incl out cs).stop solver = (.ok (), s)) (hres : s.res = some res) (m : Nat)
    (hk : m ≤ res.ds.length) (w : Fin m → Row F d)
    (hw : ∀ a b, cov false ((samples incl cs).map fun x => (dot x (w a), dot x (w b))) = if a = b then 1 else 0) :
    (res.ds.take m).sum ≤ ∑ a, delta (fun x => dot x (w a)) cs := by
  obtain ⟨avg, hav, he⟩ := stop_rank incl out cs h2 hn hm solver hs ho hr
  rw [he] at h
  cases h
  cases hres
  have hk' : m ≤ out.getD d := by
    have : m ≤ out.getD d ∧ m ≤ r := by simpa using hk
    exact this.1
  simp only [List.take_take, min_eq_left hk']
  rw [take_sum]
  have hd : ∀ a, delta (fun x => dot x (w a)) cs = form (moment cs) (w a) (w a) := by
    intro a
    have := delta_dot cs (w a) 0
    simpa using this
  simp only [hd]
  refine hs.spec.minimal (moment_comm cs) (covOf_comm _) (moment_nonneg cs hm) (covOf_nonneg _ hn)
    (fun u => constant_signal incl cs hi hn u) w fun a b => ?_
  rw [← hw a b, form_covOf]

/-- **C123**: if the rank of the data is less than the output dimension the node gives fewer outputs than its output
dimension says, in particular if no output dimension is asked for. -/
theorem sfa_rank_output_dim_false (incl : Bool) (out : Option Nat) (cs : List (Call F d)) (h2 : ∀ c ∈ cs, 2 ≤ c.1.length)
    (hn : 2 ≤ (samples incl cs).length) (hm : 2 ≤ (changes id cs).length) (solver : Solver F d) {lam : Fin r → F}
    {v : Fin r → Row F d} (hs : RankSolves solver (moment cs) (covOf (samples incl cs)) lam v) (ho : Valid out d)
    (hr : r ≤ d) (hlt : r < out.getD d) :
    ∃ s, (trained incl out cs).stop solver = (.ok (), s) ∧ s.outDim = some (out.getD d) ∧
      ∀ x, ∃ y, s.execute none x = .ok y ∧ y.length = r := by
  obtain ⟨avg, hav, he⟩ := stop_rank incl out cs h2 hn hm solver hs ho hr
  refine ⟨_, he, rfl, fun x => ⟨_, rfl, ?_⟩⟩
  simp [hlt.le]

end Mdp.Sfa
