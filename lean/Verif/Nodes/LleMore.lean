import Verif.Nodes.LleReal

/-!
# `LLENode`: invariance of the embedding, and the number of outputs for a fraction of the variance
-/

namespace Mdp.Lle

open Mdp.Cov Mdp.Symeig

variable {F : Type} [Field F] [LinearOrder F] [IsStrictOrderedRing F] [FloorRing F] {d d' N : Nat}

/-! ## Invariance -/

theorem solveOnes_unique {n : Nat} {Q : Matrix (Fin n) (Fin n) F} {w : Fin n → F} (hd : Q.det ≠ 0) (h : ∀ i, ∑ j, Q i j * w j = 1) :
    solveOnes Q = some w := by
  cases hs : solveOnes Q with
  | none => exact absurd (solveOnes_none.1 hs) hd
  | some v =>
    congr 1
    have hv := (solveOnes_spec hs).2
    have : v - w = 0 := by
      refine Matrix.eq_zero_of_mulVec_eq_zero hd (funext fun i => ?_)
      simp only [Matrix.mulVec, dotProduct, Pi.sub_apply, mul_sub, Finset.sum_sub_distrib, hv i, h i, sub_self, Pi.zero_apply]
    exact sub_eq_zero.1 this

theorem weights_scale {n : Nat} (k : Nat) (Q : Matrix (Fin n) (Fin n) F) (reg s : F) (hs : s ≠ 0) :
    weights k (s • Q) (s * reg) = weights k Q reg := by
  unfold weights
  split
  · rfl
  · have e : s • Q + (s * reg) • (1 : Matrix (Fin n) (Fin n) F) = s • (Q + reg • 1) := by rw [smul_add, smul_smul]
    rw [e]
    generalize Q + reg • (1 : Matrix (Fin n) (Fin n) F) = A
    cases hA : solveOnes A with
    | none =>
      rw [solveOnes_none.2]
      rw [Matrix.det_smul, solveOnes_none.1 hA, mul_zero]
    | some w =>
      obtain ⟨hd, hw⟩ := solveOnes_spec hA
      rw [solveOnes_unique (w := fun j => w j / s)]
      · simp only
        congr 1
        funext j
        rw [← Finset.sum_div, div_div_div_cancel_right₀ hs]
      · rw [Matrix.det_smul]
        exact mul_ne_zero (pow_ne_zero _ hs) hd
      · intro i
        simp only [Matrix.smul_apply, smul_eq_mul]
        rw [← hw i]
        refine Finset.sum_congr rfl fun j _ => ?_
        field_simp

omit [FloorRing F] in
theorem inner_dist (x y z : Row F d) : 2 * ∑ c, (x c - z c) * (y c - z c) = dist2 x z + dist2 y z - dist2 x y := by
  simp only [dist2, Finset.mul_sum, ← Finset.sum_add_distrib, ← Finset.sum_sub_distrib]
  exact Finset.sum_congr rfl fun _ _ => by ring

/-- C263: the weights and the embedding do not change if all distances change by the same factor: in particular under
rotations, translations and scaling. -/
theorem lle_invariant (E : Env F) (hE : Sorts E) (c : Cfg F) (M : Fin N → Row F d) (M' : Fin N → Row F d') (s : F) (hs : 0 < s)
    (hd : ∀ a b, dist2 (M' a) (M' b) = s * dist2 (M a) (M b)) (hties : ∀ i, Function.Injective fun a => dist2 (M a) (M i))
    (o : Nat) (ho : c.out = some o) (r : F) (hr : c.r = some r) :
    match stop E c M, stop E c M' with
    | .ok t, .ok t' => t'.W = t.W ∧ t'.proj = t.proj
    | .error e, .error e' => e = e'
    | _, _ => False := by
  have hnear : ∀ i, nearest E M' (M' i) = nearest E M (M i) := by
    intro i
    obtain ⟨p1, s1⟩ := hE N fun a => ∑ c, (M a c - M i c) ^ 2
    obtain ⟨p2, s2⟩ := hE N fun a => ∑ c, (M' a c - M' i c) ^ 2
    refine List.Perm.eq_of_pairwise (le := fun a b => dist2 (M a) (M i) ≤ dist2 (M b) (M i)) ?_ ?_ s1 (p2.trans p1.symm)
    · exact fun a b _ _ h1 h2 => hties i (le_antisymm h1 h2)
    · refine s2.imp fun {a b} h => ?_
      have h' : dist2 (M' a) (M' i) ≤ dist2 (M' b) (M' i) := h
      rw [hd, hd] at h'
      exact le_of_mul_le_mul_left h' hs
  have hgram : ∀ i nb, gram M' (M' i) nb = s • gram M (M i) nb := by
    intro i nb
    ext p q
    simp only [gram, Matrix.of_apply, Matrix.smul_apply, smul_eq_mul, diffs]
    have h1 := inner_dist (M' (nb.get p)) (M' (nb.get q)) (M' i)
    have h2 := inner_dist (M (nb.get p)) (M (nb.get q)) (M i)
    rw [hd, hd, hd] at h1
    have : (2 : F) ≠ 0 := two_ne_zero
    refine mul_left_cancel₀ this ?_
    rw [h1, mul_left_comm, h2]
    ring
  have hrow : ∀ i, trainRow E c o M' i = trainRow E c o M i := by
    intro i
    have hn := hnear i
    unfold trainRow
    simp only [hr]
    generalize nearest E M' (M' i) = A at *
    subst hn
    simp only [hgram, Matrix.smul_apply, smul_eq_mul, ← Finset.mul_sum]
    rw [mul_left_comm, weights_scale _ _ _ _ hs.ne']
  have hout : outDim E c M = .ok o ∧ outDim E c M' = .ok o := by unfold outDim; rw [ho]; exact ⟨rfl, rfl⟩
  have hloop : loop (fun _ => 0) (trainRow E c o M') = loop (fun _ => 0) (trainRow E c o M) := by rw [funext hrow]
  unfold stop
  by_cases hk : c.k > N
  · simp only [if_pos hk]
  · simp only [if_neg hk, hout.1, hout.2, hloop]
    cases loop (fun _ => 0) (trainRow E c o M) with
    | error e => rfl
    | ok cols =>
      simp only
      cases embedding E c o (Matrix.of fun a i => cols i a) with
      | error e => rfl
      | ok p => exact ⟨rfl, rfl⟩

/-! ## The number of outputs for a fraction of the variance -/

omit [IsStrictOrderedRing F] [FloorRing F] in
theorem sum_take_le [IsStrictOrderedRing F] (l : List F) (h : ∀ a ∈ l, 0 ≤ a) {i j : Nat} (hij : i ≤ j) : (l.take i).sum ≤ (l.take j).sum := by
  obtain ⟨m, rfl⟩ := Nat.exists_eq_add_of_le hij
  rw [List.take_add, List.sum_append]
  refine le_add_of_nonneg_right (List.sum_nonneg fun a ha => h a (List.mem_of_mem_drop (List.mem_of_mem_take ha)))

omit [IsStrictOrderedRing F] [FloorRing F] in
theorem getD_lt (l : List F) {i : Nat} (h : i < l.length) : l.getD i 0 = l[i] := by simp [h]

/-- The number of dimensions for one point, rounded up, is the least number of dimensions with the wanted variance. -/
theorem estimate_spec {v : F} (hv : 0 < v) {sig2 : List F} (h0 : ∀ a ∈ sig2, 0 ≤ a) {e : F} (h : estimate v sig2 = .ok e) (n : Nat) :
    e ≤ n ↔ v * sig2.sum ≤ (sig2.take n).sum := by
  unfold estimate at h
  split at h
  · cases h
  · next hT =>
    have hTpos : 0 < sig2.sum := lt_of_le_of_ne (List.sum_nonneg h0) (Ne.symm hT)
    simp only at h
    set s := sig2.map (· / sig2.sum) with hs
    set S := (List.range s.length).map fun j => (s.take (j + 1)).sum with hS
    set m := S.findIdx fun a => decide (v ≤ a) with hm
    have hs0 : ∀ a ∈ s, 0 ≤ a := by
      intro a ha
      obtain ⟨b, hb, rfl⟩ := List.mem_map.1 ha
      exact div_nonneg (h0 b hb) hTpos.le
    have htake : ∀ j, (s.take j).sum = (sig2.take j).sum / sig2.sum := by
      intro j
      rw [hs, ← List.map_take]
      generalize sig2.take j = l
      generalize sig2.sum = T
      induction l with
      | nil => simp
      | cons a l ih => rw [List.map_cons, List.sum_cons, ih, List.sum_cons, add_div]
    have hiff : v * sig2.sum ≤ (sig2.take n).sum ↔ v ≤ (s.take n).sum := by
      rw [htake, le_div_iff₀ hTpos]
    rw [hiff]
    cases hg : s[m]? with
    | none => rw [hg] at h; cases h
    | some a =>
      rw [hg] at h
      simp only at h
      obtain ⟨hml, hma⟩ := List.getElem?_eq_some_iff.1 hg
      have hmS : m < S.length := by rw [hS, List.length_map, List.length_range]; exact hml
      have hSm : ∀ j (hj : j < S.length), S[j] = (s.take (j + 1)).sum := fun j hj => by simp [hS]
      have h1 : v ≤ (s.take (m + 1)).sum := by
        have := List.findIdx_getElem (w := hmS)
        simp only [decide_eq_true_eq] at this
        rwa [hSm] at this
      have h2 : (s.take m).sum < v := by
        rcases Nat.eq_zero_or_pos m with h' | h'
        · rw [h']; simpa using hv
        · have := List.not_of_lt_findIdx (p := fun a => decide (v ≤ a)) (xs := S) (i := m - 1) (by omega)
          rw [hSm (m - 1) (by omega)] at this
          simp only [decide_eq_false_iff_not, not_le] at this
          rwa [Nat.sub_add_cancel h'] at this
      have h3 : (s.take (m + 1)).sum = (s.take m).sum + a := by
        rw [List.take_add_one, hg, List.sum_append]
        simp
      have ha : 0 < a := by rw [h3] at h1; linarith
      have he : e = m + (v - (s.take m).sum) / a := by
        split at h
        · next h' =>
          cases h
          rw [getD_lt _ (by omega), hSm (m - 1) (by omega), Nat.sub_add_cancel h']
        · next h' =>
          cases h
          have : m = 0 := by omega
          rw [this]
          simp
      have hle : (v - (s.take m).sum) / a ≤ 1 := by
        rw [div_le_one ha]; rw [h3] at h1; linarith
      have hgt : 0 < (v - (s.take m).sum) / a := div_pos (by linarith) ha
      constructor
      · intro hen
        have : (m : F) < n := by rw [he] at hen; linarith
        have hmn : m + 1 ≤ n := by exact_mod_cast this
        exact h1.trans (sum_take_le s hs0 hmn)
      · intro hvn
        have hmn : m + 1 ≤ n := by
          by_contra hlt
          have := sum_take_le s hs0 (show n ≤ m by omega)
          linarith
        have : (m : F) + 1 ≤ n := by exact_mod_cast hmn
        rw [he]; linarith

omit [FloorRing F] in
/-- At least half of the numbers are at most the median, and at least half of them are at least the median. -/
theorem median_spec (l : List F) :
    l.length ≤ 2 * l.countP (fun a => a ≤ median l) ∧ l.length ≤ 2 * l.countP (fun a => median l ≤ a) := by
  have hp := List.perm_insertionSort (· ≤ ·) l
  have hs : (l.insertionSort (· ≤ ·)).Pairwise (· ≤ ·) := List.pairwise_insertionSort _ _
  unfold median
  simp only
  rw [← hp.countP_eq, ← hp.countP_eq, ← hp.length_eq]
  generalize l.insertionSort (· ≤ ·) = s at *
  have mono : ∀ i j (hi : i < s.length) (hj : j < s.length), i ≤ j → s[i] ≤ s[j] := by
    intro i j hi hj hij
    rcases hij.lt_or_eq with h | h
    · exact List.pairwise_iff_getElem.1 hs i j hi hj h
    · subst h; exact le_rfl
  -- counts from below and from above
  have low : ∀ (h : Nat) (x : F), h ≤ s.length → (∀ i (hi : i < s.length), i < h → s[i] ≤ x) → h ≤ s.countP (fun a => a ≤ x) := by
    intro h x hh hx
    have h1 : (s.take h).countP (fun a => a ≤ x) = (s.take h).length := by
      rw [List.countP_eq_length]
      intro a ha
      obtain ⟨i, hi, rfl⟩ := List.getElem_of_mem ha
      rw [List.length_take] at hi
      simp only [List.getElem_take, decide_eq_true_eq]
      exact hx i (by omega) (by omega)
    have h2 := (List.take_sublist h s).countP_le (p := fun a => decide (a ≤ x))
    rw [h1, List.length_take] at h2
    omega
  have high : ∀ (h : Nat) (x : F), h ≤ s.length → (∀ i (hi : i < s.length), h ≤ i → x ≤ s[i]) → s.length - h ≤ s.countP (fun a => x ≤ a) := by
    intro h x hh hx
    have h1 : (s.drop h).countP (fun a => x ≤ a) = (s.drop h).length := by
      rw [List.countP_eq_length]
      intro a ha
      obtain ⟨i, hi, rfl⟩ := List.getElem_of_mem ha
      rw [List.length_drop] at hi
      simp only [List.getElem_drop, decide_eq_true_eq]
      exact hx (h + i) (by omega) (by omega)
    have h2 := (List.drop_sublist h s).countP_le (p := fun a => decide (x ≤ a))
    rw [h1, List.length_drop] at h2
    exact h2
  rcases Nat.eq_zero_or_pos s.length with hz | hpos
  · omega
  split
  · next hodd =>
    have hlt : s.length / 2 < s.length := by omega
    rw [getD_lt _ hlt]
    have a1 := low (s.length / 2 + 1) s[s.length / 2] (by omega) fun i hi hle => mono i _ hi hlt (by omega)
    have a2 := high (s.length / 2) s[s.length / 2] (by omega) fun i hi hle => mono _ i hlt hi hle
    omega
  · next heven =>
    have hlt : s.length / 2 < s.length := by omega
    have hlt' : s.length / 2 - 1 < s.length := by omega
    rw [getD_lt _ hlt, getD_lt _ hlt']
    have hm := mono (s.length / 2 - 1) (s.length / 2) hlt' hlt (by omega)
    have a1 := low (s.length / 2) ((s[s.length / 2 - 1] + s[s.length / 2]) / 2) (by omega) fun i hi hle => by
      have := mono i (s.length / 2 - 1) hi hlt' (by omega)
      linarith
    have a2 := high (s.length / 2) ((s[s.length / 2 - 1] + s[s.length / 2]) / 2) (by omega) fun i hi hle => by
      have := mono (s.length / 2) i hlt hi hle
      linarith
    omega

/-- C264: with a fraction `v` of the variance as `output_dim`: for at least half of the points the first `out` dimensions
explain the fraction `v` of the variance of the neighbours around the point, and for at least half of the points less than
`out` dimensions do not. -/
theorem lle_variance (E : Env F) (hE : Sorts E) (c : Cfg F) (M : Fin N → Row F d) (t : Res F N d) (ht : stop E c M = .ok t)
    (ho : c.out = none) (v : F) (hv : c.variance = some v) (h0 : 0 < v) :
    ∃ nb : Fin N → List (Fin N), (∀ i, (nb i).Nodup ∧ Neighbours M i c.k (nb i).toFinset)
      ∧ ∀ V : Fin N → List F, (∀ i, V i = (E.sing (nb i).length d fun j e => M ((nb i).get j) e - M i e).map (· ^ 2)) →
        N ≤ 2 * (Finset.univ.filter fun i => v * (V i).sum ≤ ((V i).take t.out).sum).card
        ∧ N ≤ 2 * (Finset.univ.filter fun i => ∀ n < t.out, ((V i).take n).sum < v * (V i).sum).card := by
  obtain ⟨hkN, _, hout, _, _⟩ := stop_ok ht
  unfold outDim at hout
  rw [ho, hv] at hout
  simp only [adjust] at hout
  split at hout
  · cases hout
  · next f hf =>
    have hout' := Except.ok.inj hout
    have hrow := fun i => loop_ok hf i
    refine ⟨fun i => ((nearest E M (M i)).drop 1).take c.k, fun i => ?_, fun V hV => ?_⟩
    · have hi := hrow i
      split at hi
      · cases hi
      · next hlen =>
        have hkN' : c.k < N ∨ c.k = 0 := by
          rw [List.length_take, List.length_drop, (nearest_spec hE M (M i)).2.1] at hlen
          omega
        have hlt : c.k < N := by
          rcases hkN' with h | h
          · exact h
          · rw [h]; exact i.pos
        exact ⟨(drop_nearest hE M i hlt).1, (drop_nearest hE M i hlt).2.2⟩
    · have hest : ∀ i, estimate v (V i) = .ok (f i) := fun i => by
        have hi := hrow i
        split at hi
        · cases hi
        · rw [hV i]; exact hi
      have hVn : ∀ i, ∀ a ∈ V i, 0 ≤ a := by
        intro i a ha
        rw [hV i] at ha
        obtain ⟨b, _, rfl⟩ := List.mem_map.1 ha
        exact sq_nonneg b
      have hsp := fun i n => estimate_spec h0 (hVn i) (hest i) n
      obtain ⟨m1, m2⟩ := median_spec ((List.finRange N).map f)
      rw [List.length_map, List.length_finRange] at m1 m2
      have hcount : ∀ p : F → Bool, ((List.finRange N).map f).countP p = (Finset.univ.filter fun i => p (f i) = true).card := by
        intro p
        rw [List.countP_map, List.countP_eq_length_filter, Finset.card_def, Finset.filter_val]
        rw [show (Finset.univ : Finset (Fin N)).val = ↑(List.finRange N) from rfl, Multiset.filter_coe, Multiset.coe_card]
        congr 2
        funext i
        simp
      rw [hcount] at m1 m2
      constructor
      · refine m1.trans (Nat.mul_le_mul_left 2 (Finset.card_le_card fun i hi => ?_))
        simp only [Finset.mem_filter, Finset.mem_univ, true_and, decide_eq_true_eq] at hi ⊢
        rw [← hsp, ← hout']
        exact hi.trans (Nat.le_ceil _)
      · refine m2.trans (Nat.mul_le_mul_left 2 (Finset.card_le_card fun i hi => ?_))
        simp only [Finset.mem_filter, Finset.mem_univ, true_and, decide_eq_true_eq] at hi ⊢
        intro n hn
        rw [← not_le, ← hsp, not_le]
        rw [← hout'] at hn
        exact (Nat.lt_ceil.1 hn).trans_le hi

/-! ## Examples -/

def exLine : Fin 4 → Row ℚ 1 := ![![0], ![1], ![3], ![7]]

/-- The same points, three times as large, on another line in the plane. -/
def exLine' : Fin 4 → Row ℚ 2 := fun a => ![3 + 9 / 5 * exLine a 0, 1 - 12 / 5 * exLine a 0]

/-- The hypotheses of `lle_invariant`. -/
example : (∀ a b, dist2 (exLine' a) (exLine' b) = 9 * dist2 (exLine a) (exLine b))
    ∧ (∀ i, Function.Injective fun a => dist2 (exLine a) (exLine i))
    ∧ (stop exE { k := 2, r := some (1 / 10), out := some 1 } exLine).isOk = true := by
  refine ⟨by decide +kernel, ?_, by decide +kernel⟩
  have : ∀ i a b, dist2 (exLine a) (exLine i) = dist2 (exLine b) (exLine i) → a = b := by decide +kernel
  exact fun i a b h => this i a b h

/-- The hypotheses of `lle_variance`: three quarters of the variance need two dimensions at each corner of the square. -/
example : (match stop exE { k := 2, r := some 1, variance := some (3 / 4) } exM with
    | .ok t => t.out = 2
    | .error _ => False) := by
  have : (match stop exE { k := 2, r := some 1, variance := some (3 / 4) } exM with
    | .ok t => decide (t.out = 2)
    | .error _ => false) = true := by decide +kernel
  split at this
  · exact of_decide_eq_true this
  · cases this

/-- Two squares far from each other. -/
def exTwo : Fin 8 → Row ℚ 2 := fun i => ![exM ⟨i.1 % 4, Nat.mod_lt _ (by decide)⟩ 0 + if i.1 < 4 then 0 else 100,
  exM ⟨i.1 % 4, Nat.mod_lt _ (by decide)⟩ 1]

/-- A vector on the first (second) square, zero on the other one. -/
def half (b : Bool) (v : Row ℚ 4) : Row ℚ 8 := fun i => if decide (i.1 < 4) = b then v ⟨i.1 % 4, Nat.mod_lt _ (by decide)⟩ else 0

def exE8 : Env ℚ := { exE with eig := { exE.eig with eigh := fun n _ => match n with
  | 8 => some [(1 / 10, half true fun _ => 1 / 2), (1 / 10, half false fun _ => 1 / 2),
      (11 / 10, half true ![1 / 2, 1 / 2, -1 / 2, -1 / 2]), (11 / 10, half false ![1 / 2, 1 / 2, -1 / 2, -1 / 2]),
      (11 / 10, half true ![1 / 2, -1 / 2, -1 / 2, 1 / 2]), (11 / 10, half false ![1 / 2, -1 / 2, -1 / 2, 1 / 2]),
      (41 / 10, half true ![1 / 2, -1 / 2, 1 / 2, -1 / 2]), (41 / 10, half false ![1 / 2, -1 / 2, 1 / 2, -1 / 2])]
  | _ => none } }

def exW8 : Matrix (Fin 8) (Fin 8) ℚ :=
  Matrix.of fun a i => if decide (a.1 < 4) = decide (i.1 < 4) ∧ (a.1 + i.1) % 2 = 1 then 1 / 2 else 0

/-- C262: the columns of the embedding need not be centred: two groups of points that are no neighbours of each other. The
result of `eigh` is right. -/
theorem lle_centred_violation : ∃ (E : Env ℚ) (c : Cfg ℚ) (M : Fin 8 → Row ℚ 2) (t : Res ℚ 8 2), Sorts E ∧ stop E c M = .ok t
    ∧ c.r = some 1 ∧ c.svd = false
    ∧ (∀ l, E.eig.eigh 8 (fun a b => ∑ i, minusOne t.W a i * minusOne t.W b i + if a = b then 1 / 10 else 0) = some l →
      EigList (fun a b => ∑ i, minusOne t.W a i * minusOne t.W b i + if a = b then 1 / 10 else 0) l)
    ∧ ∃ u ∈ t.proj, ∑ i, u i ≠ 0 := by
  have h : (match stop exE8 { k := 2, r := some 1, out := some 1 } exTwo with
    | .ok t => decide (t.W = exW8)
        && decide (t.proj = [half false fun _ => 1 / 2])
    | .error _ => false) = true := by decide +kernel
  split at h
  · next t ht =>
    simp only [Bool.and_eq_true, decide_eq_true_eq] at h
    obtain ⟨hW, hp⟩ := h
    refine ⟨exE8, _, exTwo, t, exSorts, ht, rfl, rfl, fun l hl => ?_, half false fun _ => 1 / 2, by rw [hp]; simp, by decide +kernel⟩
    rw [hW]
    cases hl
    exact ⟨by decide +kernel, by decide +kernel, by decide +kernel, rfl⟩
  · cases h

end Mdp.Lle
