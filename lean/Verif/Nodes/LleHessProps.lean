import Verif.Nodes.LleNull

/-!
# `HLLENode`: the weights and the embedding
-/

namespace Mdp.Lle

open Mdp.Cov Mdp.Symeig Mdp.Pca Mdp.Sfa

variable {d N m n : Nat}

/-! ## Specification -/

/-- The products of the points `nb` with their mean subtracted. -/
noncomputable def centredProducts (M : Fin N → Row ℝ d) (nb : List (Fin N)) : Mat ℝ nb.length nb.length := fun a b =>
  ∑ c, (M (nb.get a) c - (∑ j, M (nb.get j) c) / nb.length) * (M (nb.get b) c - (∑ j, M (nb.get j) c) / nb.length)

/-- The estimators of the Hessian at one point: `out (out + 1) / 2` orthonormal linear forms that only use the neighbours
`nb` and are zero for constants and for the first `out` principal coordinates of the neighbours. -/
structure HessForms (M : Fin N → Row ℝ d) (nb : List (Fin N)) (out : Nat) (ws : List (Row ℝ N)) : Prop where
  count : ws.length = out * (out + 1) / 2
  ortho : OrthoList ws
  supp : ∀ w ∈ ws, ∀ a, a ∉ nb → w a = 0
  const : ∀ w ∈ ws, ∑ a, w a = 0
  coords : ∃ L : List (ℝ × Row ℝ nb.length), EigList (centredProducts M nb) L ∧ (L.Pairwise fun p q => q.1 ≤ p.1)
    ∧ ∀ w ∈ ws, ∀ p ∈ L.take out, ∑ j, w (nb.get j) * p.2 j = 0

/-! ## Weights -/

theorem scaleSum_zero {k : Nat} {w : Row ℝ k} (h : ∑ c, w c = 0) : scaleSum w = w := by
  unfold scaleSum
  simp only [h, abs_zero]
  rw [if_pos (by norm_num)]
  simp

theorem dot_put {nb : List (Fin N)} (hn : nb.Nodup) (w v : Row ℝ nb.length) : dot (put nb w) (put nb v) = dot w v := by
  unfold dot
  rw [sum_supp hn (fun a => put nb w a * put nb v a) fun a ha => by rw [put_out w a ha, zero_mul]]
  exact Finset.sum_congr rfl fun j _ => by rw [put_get hn, put_get hn]

theorem hessRow_ok {E : Env ℝ} (hQ : QrOk E) (hL : LeftOk E) {out : Nat} {M : Fin N → Row ℝ d} {nb : List (Fin N)} (hn : nb.Nodup)
    (hk : 1 + out + out * (out + 1) / 2 ≤ nb.length) : HessForms M nb out ((hessRow E out M nb).map (put nb)) := by
  obtain ⟨L, hL1, hL2, hL3⟩ := hL nb.length d fun j c => M (nb.get j) c - (∑ j, M (nb.get j) c) / (nb.length : ℝ)
  have hcl : ((L.map (·.2)).take out).length = out := by
    rw [List.length_take, List.length_map, hL1.full]; omega
  have hfl : (forms ((L.map (·.2)).take out)).length = 1 + out + out * (out + 1) / 2 := by rw [forms_length, hcl]
  obtain ⟨q1, ⟨q2, q2'⟩, q3⟩ := hQ nb.length (forms ((L.map (·.2)).take out)) (by rw [hfl]; exact hk)
  rw [hfl] at q1
  have hrow : hessRow E out M nb = (((E.qr nb.length (forms ((L.map (·.2)).take out))).take (out + 1 + out * (out + 1) / 2)).drop
      (out + 1)).map scaleSum := by
    unfold hessRow
    simp only
    rw [hL3, if_pos hk]
  generalize hq : E.qr nb.length (forms ((L.map (·.2)).take out)) = q at *
  rw [List.take_of_length_le (by omega)] at hrow
  -- the columns of `qr` are orthogonal to the first ones
  have hperp : ∀ w ∈ q.drop (out + 1), ∀ v ∈ (forms ((L.map (·.2)).take out)).take (out + 1), dot w v = 0 := by
    intro w hw v hv
    obtain ⟨j, hj, rfl⟩ := List.getElem_of_mem hw
    obtain ⟨i, hi, rfl⟩ := List.getElem_of_mem hv
    rw [List.getElem_drop, List.getElem_take]
    rw [List.length_drop] at hj
    rw [List.length_take] at hi
    exact q3 i (out + 1 + j) (by omega) (by omega) (by omega)
  have htake : (forms ((L.map (·.2)).take out)).take (out + 1) = (fun _ => 1) :: (L.map (·.2)).take out := by
    unfold forms
    rw [List.take_left' (by simp only [List.length_append, List.length_cons, List.length_nil, hcl]; omega)]
    rfl
  rw [htake] at hperp
  have hsum : ∀ w ∈ q.drop (out + 1), ∑ c, w c = 0 := fun w hw => by
    have := hperp w hw _ (List.mem_cons_self ..)
    unfold dot at this
    simpa using this
  have hrow' : hessRow E out M nb = q.drop (out + 1) := by
    rw [hrow]
    exact (List.map_congr_left fun w hw => scaleSum_zero (hsum w hw)).trans (List.map_id _)
  rw [hrow']
  refine ⟨?_, ⟨fun u hu => ?_, ?_⟩, fun u hu a ha => ?_, fun u hu => ?_, L, hL1, hL2, fun u hu p hp => ?_⟩
  · rw [List.length_map, List.length_drop, q1]; omega
  · obtain ⟨w, hw, rfl⟩ := List.mem_map.1 hu
    rw [dot_put hn]
    exact q2 w (List.mem_of_mem_drop hw)
  · rw [List.pairwise_map]
    exact (q2'.sublist (List.drop_sublist _ _)).imp fun h => by rw [dot_put hn]; exact h
  · obtain ⟨w, hw, rfl⟩ := List.mem_map.1 hu
    exact put_out w a ha
  · obtain ⟨w, hw, rfl⟩ := List.mem_map.1 hu
    rw [sum_supp hn _ (put_out w)]
    simp only [put_get hn]
    exact hsum w hw
  · obtain ⟨w, hw, rfl⟩ := List.mem_map.1 hu
    simp only [put_get hn]
    refine hperp w hw p.2 (List.mem_cons_of_mem _ ?_)
    rw [← List.map_take]
    exact List.mem_map_of_mem hp

/-! ## Training -/

theorem hessCols_ok {E : Env ℝ} (hE : Sorts E) (hQ : QrOk E) (hL : LeftOk E) {k out : Nat} {M : Fin N → Row ℝ d} {i : Fin N}
    {ws : List (Row ℝ N)} (h : hessCols E k out M i = .ok ws) (hk : 1 + out + out * (out + 1) / 2 ≤ k) :
    ∃ nb, nb.Nodup ∧ Neighbours M i k nb.toFinset ∧ HessForms M nb out ws := by
  unfold hessCols at h
  simp only at h
  split at h
  · cases h
  · next hlen =>
    cases h
    have hkN : k < N := by
      have := (nearest_spec hE M (M i)).2.1
      rw [List.length_take, List.length_drop, this] at hlen
      omega
    obtain ⟨hn, hl, hnb⟩ := drop_nearest hE M i hkN
    exact ⟨_, hn, hnb, hessRow_ok hQ hL hn (by omega)⟩

/-- The parts of a successful training. -/
theorem hstop_ok {E : Env ℝ} {c : Cfg ℝ} {M : Fin N → Row ℝ d} {out : Nat} {proj : List (Row ℝ N)} (h : hstop E c M = .ok (out, proj)) :
    c.k ≤ N ∧ out < c.k ∧ outDim E c M = .ok out ∧ ∃ cols : Fin N → List (Row ℝ N), (∀ i, hessCols E c.k out M i = .ok (cols i))
      ∧ ∃ l : List (ℝ × Row ℝ N),
        (if c.svd then l = nsvd E (n := ((List.finRange N).flatMap cols).length) (fun i j => ((List.finRange N).flatMap cols).get i j) (2, out + 1)
          else E.eig.std (fun a b => formMat ((List.finRange N).flatMap cols) a b + if a = b then 1 / 100 else 0) (some (2, out + 1)) = .ok l)
        ∧ ∃ C, sqrtm E (m := (l.map fun p a => p.2 a * E.eig.sqrt (N : ℝ)).length) (fun i j =>
            ∑ a, (l.map fun p a => p.2 a * E.eig.sqrt (N : ℝ)).get i a * (l.map fun p a => p.2 a * E.eig.sqrt (N : ℝ)).get j a) = .ok C
          ∧ proj = (List.finRange _).map fun j a => ∑ i, (l.map fun p a => p.2 a * E.eig.sqrt (N : ℝ)).get i a * C i j := by
  unfold hstop at h
  split at h
  · cases h
  next hkN =>
  split at h
  · cases h
  next o ho =>
  split at h
  · cases h
  next hmin =>
  split at h
  · cases h
  next cols hc =>
  simp only at h
  split at h
  · cases h
  next l hl =>
  split at h
  · cases h
  next C hC =>
  cases h
  refine ⟨by omega, by omega, ho, cols, fun i => loop_ok hc i, l, ?_, C, hC, rfl⟩
  split at hl
  · next hs => rw [if_pos hs]; cases hl; rfl
  · next hs =>
    rw [if_neg hs]
    split at hl
    · cases hl
    · next l' hl' => cases hl; exact hl'

/-- Normalisation multiplies orthonormal columns by their length. -/
theorem normalise {E : Env ℝ} (hG : EigOk E) (hq : E.eig.sqrt = Real.sqrt) {l : List (ℝ × Row ℝ N)}
    (ho : Orthonormal fun j : Fin (l.map (·.2)).length => (l.map (·.2)).get j)
    {C : Mat ℝ (l.map fun p a => p.2 a * E.eig.sqrt (N : ℝ)).length (l.map fun p a => p.2 a * E.eig.sqrt (N : ℝ)).length}
    (hC : sqrtm E (fun i j => ∑ a, (l.map fun p a => p.2 a * E.eig.sqrt (N : ℝ)).get i a
      * (l.map fun p a => p.2 a * E.eig.sqrt (N : ℝ)).get j a) = .ok C) :
    ((List.finRange _).map fun j a => ∑ i, (l.map fun p a => p.2 a * E.eig.sqrt (N : ℝ)).get i a * C i j)
      = (l.map (·.2)).map fun u a => (N : ℝ) * u a := by
  have hs : Real.sqrt N * Real.sqrt N = N := Real.mul_self_sqrt (Nat.cast_nonneg N)
  have hlen : (l.map fun p a => p.2 a * E.eig.sqrt (N : ℝ)).length = (l.map (·.2)).length := by simp
  have hget : ∀ i a, (l.map fun p a => p.2 a * E.eig.sqrt (N : ℝ)).get i a = (l.map (·.2)).get (i.cast hlen) a * Real.sqrt N := by
    intro i a
    simp [hq]
  have hgram : ∀ i j, (fun i j => ∑ a, (l.map fun p a => p.2 a * E.eig.sqrt (N : ℝ)).get i a
      * (l.map fun p a => p.2 a * E.eig.sqrt (N : ℝ)).get j a) i j = if i = j then (N : ℝ) else 0 := by
    intro i j
    beta_reduce
    simp only [hget]
    have h1 : ∀ a, (l.map (·.2)).get (i.cast hlen) a * Real.sqrt N * ((l.map (·.2)).get (j.cast hlen) a * Real.sqrt N)
        = (N : ℝ) * ((l.map (·.2)).get (i.cast hlen) a * (l.map (·.2)).get (j.cast hlen) a) := fun a => by
      linear_combination (l.map (·.2)).get (i.cast hlen) a * (l.map (·.2)).get (j.cast hlen) a * hs
    rw [Finset.sum_congr rfl fun a _ => h1 a, ← Finset.mul_sum]
    have := ho (i.cast hlen) (j.cast hlen)
    unfold dot at this
    rw [this]
    simp
  have hCv := sqrtm_scalar hG hq hgram hC
  refine List.ext_get (by simp) fun i h1 h2 => funext fun a => ?_
  simp only [List.get_eq_getElem, List.getElem_map, List.getElem_finRange]
  simp only [hCv, mul_ite, mul_zero]
  rw [Finset.sum_ite_eq' Finset.univ]
  simp only [Finset.mem_univ, if_true, Fin.cast_mk]
  simp only [List.getElem_map, hq]
  linear_combination (l[i]'(by simpa using h2)).2 a * hs

/-- The total error of all estimators of the Hessian. -/
noncomputable def hessErr (ws : Fin N → List (Row ℝ N)) (y : Row ℝ N) : ℝ := ∑ i, formErr (ws i) y

theorem hessErr_eq (ws : Fin N → List (Row ℝ N)) (y : Row ℝ N) : formErr ((List.finRange N).flatMap ws) y = hessErr ws y := by
  unfold hessErr formErr
  rw [List.map_flatMap, List.flatMap_def, List.sum_flatten, List.map_map, ← List.ofFn_eq_map, List.sum_ofFn]
  rfl

/-- C266: with enough neighbours the training projection of `HLLENode` has `output_dim` pairwise orthogonal columns of the
length `N`; for the estimators of the Hessian at all points no other centred orthogonal columns of this length have less
error; the columns are centred if only constants have no error. -/
theorem hlle_embedding (E : Env ℝ) (hE : Sorts E) (hG : EigOk E) (hS : SvdOk E) (hQ : QrOk E) (hL : LeftOk E)
    (hq : E.eig.sqrt = Real.sqrt) (c : Cfg ℝ) (M : Fin N → Row ℝ d) (out : Nat) (proj : List (Row ℝ N))
    (h : hstop E c M = .ok (out, proj)) (ho : 1 ≤ out) (hk : 1 + out + out * (out + 1) / 2 ≤ c.k) :
    ∃ ws : Fin N → List (Row ℝ N),
      (∀ i, ∃ nb : List (Fin N), nb.Nodup ∧ Neighbours M i c.k nb.toFinset ∧ HessForms M nb out (ws i))
      ∧ proj.length = out
      ∧ (∀ a b : Fin proj.length, dot (proj.get a) (proj.get b) = if a = b then (N : ℝ) ^ 2 else 0)
      ∧ (∀ w : Fin proj.length → Row ℝ N, (∀ a b, dot (w a) (w b) = if a = b then (N : ℝ) ^ 2 else 0) → (∀ a, ∑ i, w a i = 0) →
          ∑ j, hessErr ws (proj.get j) ≤ ∑ a, hessErr ws (w a))
      ∧ ((∀ y, hessErr ws y = 0 → ∃ s, y = fun _ => s) → ∀ u ∈ proj, ∑ i, u i = 0) := by
  obtain ⟨hkN, hok, _, cols, hcols, l, hl, C, hC, hproj⟩ := hstop_ok h
  have hN : 2 ≤ N := by omega
  have hN0 : (N : ℝ) ≠ 0 := by have : 0 < N := by omega
                               positivity
  have hf := fun i => hessCols_ok hE hQ hL (hcols i) hk
  refine ⟨cols, hf, ?_⟩
  have hconst : ∀ s, formErr ((List.finRange N).flatMap cols) (fun _ => s) = 0 := by
    intro s
    refine formErr_zero fun w hw => ?_
    obtain ⟨i, _, hwi⟩ := List.mem_flatMap.1 hw
    obtain ⟨nb, _, _, hh⟩ := hf i
    unfold dot
    rw [← Finset.sum_mul, hh.const w hwi, zero_mul]
  have hcount : N ≤ ((List.finRange N).flatMap cols).length := by
    rw [List.length_flatMap, ← List.ofFn_eq_map, List.sum_ofFn]
    calc N = ∑ _i : Fin N, 1 := by simp
      _ ≤ _ := Finset.sum_le_sum fun i _ => by
        obtain ⟨nb, _, _, hh⟩ := hf i
        rw [hh.count]
        have : 2 ≤ out * (out + 1) := by nlinarith
        omega
  obtain ⟨L, hL1, hL2, hL3⟩ : ∃ L : List (ℝ × Row ℝ N), EigList (formMat ((List.finRange N).flatMap cols)) L
      ∧ (L.Pairwise fun p q => p.1 ≤ q.1) ∧ l.map (·.2) = ((L.take (out + 1)).drop 1).map (·.2) := by
    split at hl
    · rw [hl]; exact form_svd hS hcount out
    · exact form_eig hG hN ho hl
  obtain ⟨n1, n2, n3, n4⟩ := null_optimal hL1 hL2 hN hconst hL3
  rw [normalise hG hq n2 hC] at hproj
  generalize l.map (·.2) = U at *
  subst hproj
  have hUlen : (U.map fun u a => (N : ℝ) * u a).length = U.length := by simp
  have hget : ∀ j : Fin (U.map fun u a => (N : ℝ) * u a).length, (U.map fun u a => (N : ℝ) * u a).get j
      = fun a => (N : ℝ) * U.get (j.cast hUlen) a := fun j => by simp
  have hdot : ∀ (s : ℝ) (u v : Row ℝ N), dot (fun a => s * u a) (fun a => s * v a) = s ^ 2 * dot u v := by
    intro s u v
    unfold dot
    rw [Finset.mul_sum]
    exact Finset.sum_congr rfl fun _ _ => by ring
  refine ⟨by rw [hUlen, n1]; omega, fun a b => ?_, fun w hw hc => ?_, fun hker u hu => ?_⟩
  · rw [hget, hget, hdot]
    have := n2 (a.cast hUlen) (b.cast hUlen)
    beta_reduce at this
    rw [this]
    simp
  · have hw' : Orthonormal fun (a : Fin U.length) i => (N : ℝ)⁻¹ * w (a.cast hUlen.symm) i := fun a b => by
      beta_reduce
      rw [hdot, hw]
      by_cases hab : a = b
      · subst hab
        simp only [if_true]
        field_simp
      · simp [hab]
    have := n3 _ hw' fun a => by rw [← Finset.mul_sum, hc, mul_zero]
    simp only [formErr_scale, hessErr_eq] at this
    have e1 : ∀ j, hessErr cols ((U.map fun u a => (N : ℝ) * u a).get j) = (N : ℝ) ^ 2 * hessErr cols (U.get (j.cast hUlen)) := fun j => by
      rw [hget, ← hessErr_eq, formErr_scale, hessErr_eq]
    simp only [e1]
    rw [← Finset.mul_sum, Fintype.sum_equiv (finCongr hUlen) (fun j => hessErr cols (U.get (j.cast hUlen))) (fun j => hessErr cols (U.get j)) fun _ => rfl,
      Fintype.sum_equiv (finCongr hUlen) (fun j => hessErr cols (w j)) (fun j => hessErr cols (w (j.cast hUlen.symm))) fun _ => rfl]
    rw [← Finset.mul_sum] at this
    calc _ ≤ (N : ℝ) ^ 2 * ((N : ℝ)⁻¹ ^ 2 * ∑ i, hessErr cols (w (Fin.cast hUlen.symm i))) := mul_le_mul_of_nonneg_left this (sq_nonneg _)
      _ = _ := by field_simp
  · obtain ⟨v, hv, rfl⟩ := List.mem_map.1 hu
    rw [← Finset.mul_sum, n4 (fun y hy => hker y (by rw [← hessErr_eq]; exact hy)) v hv, mul_zero]

/-- C267: too many neighbours, and output dimensions that are not less than the number of neighbours, are refused. -/
theorem hlle_refused (E : Env ℝ) (c : Cfg ℝ) (M : Fin N → Row ℝ d) (out : Nat) (ho : outDim E c M = .ok out) (h : N < c.k ∨ c.k ≤ out) :
    hstop E c M = .error .training := by
  unfold hstop
  split
  · rfl
  · rw [ho]
    simp only
    rw [if_pos (by omega)]

/-- C267: as many neighbours as points pass the check, but training fails. -/
theorem hlle_all_points_violation (E : Env ℝ) (hE : Sorts E) (c : Cfg ℝ) (M : Fin N → Row ℝ d) (out : Nat) (ho : c.out = some out)
    (hk : c.k = N) (hN : out < N) : hstop E c M = .error .value := by
  have hc : ∀ i, hessCols E c.k out M i = .error .value := by
    intro i
    unfold hessCols
    simp only
    rw [if_pos]
    rw [List.length_take, List.length_drop, (nearest_spec hE M (M i)).2.1]
    omega
  unfold hstop
  rw [if_neg (by omega)]
  have : outDim E c M = .ok out := by unfold outDim; rw [ho]
  rw [this]
  simp only
  rw [if_neg (by omega)]
  cases hl : loop [] (hessCols E c.k out M) with
  | error e => obtain ⟨i, hi⟩ := loop_error hl; rw [hc i] at hi; cases hi; rfl
  | ok g => have := loop_ok hl ⟨0, by omega⟩; rw [hc] at this; cases this

end Mdp.Lle
