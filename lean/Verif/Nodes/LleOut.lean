import Verif.Nodes.LleProps
import Mathlib.Algebra.Order.Floor.Extended
import Mathlib.Data.Rat.Floor

/-!
# `LLENode`: when training succeeds, and execution
-/

namespace Mdp.Lle

open Mdp.Cov Mdp.Symeig

variable {F : Type} [Field F] [LinearOrder F] [IsStrictOrderedRing F] [FloorRing F] {d N : Nat}

/-! ## Training -/

/-- C259 -/
theorem lle_refused (E : Env F) (c : Cfg F) (M : Fin N → Row F d) (hk : N < c.k) : stop E c M = .error .training := by
  unfold stop
  rw [if_pos hk]

/-- C259: as many neighbours as points are not refused, but end in an error. -/
theorem lle_all_points_violation (E : Env F) (hE : Sorts E) (c : Cfg F) (M : Fin N → Row F d) (hk : c.k = N) (h0 : 0 < N) :
    stop E c M = .error .index ∨ stop E c M = .error .value := by
  have hlen : ∀ i, (((nearest E M (M i)).drop 1).take c.k).length < c.k := fun i => by
    rw [List.length_take, List.length_drop, (nearest_spec hE M (M i)).2.1]
    omega
  unfold stop
  rw [if_neg (by omega)]
  cases ho : outDim E c M with
  | error e =>
    right
    unfold outDim at ho
    cases hout : c.out with
    | some o => rw [hout] at ho; cases ho
    | none =>
      cases hv : c.variance with
      | none => rw [hout, hv] at ho; cases ho
      | some v =>
        rw [hout, hv] at ho
        simp only [adjust] at ho
        split at ho
        · next e' hl =>
          cases ho
          obtain ⟨i, hi⟩ := loop_error hl
          rw [if_pos (hlen i)] at hi
          cases hi
          rfl
        · cases ho
  | ok out =>
    left
    have hrow : ∀ i, trainRow E c out M i = .error .index := fun i => by
      unfold trainRow weights
      simp only
      rw [if_pos (hlen i)]
    simp only
    cases hl : loop (fun _ => 0) (trainRow E c out M) with
    | error e =>
      obtain ⟨i, hi⟩ := loop_error hl
      rw [hrow i] at hi
      cases hi
      rfl
    | ok g =>
      have := loop_ok hl ⟨0, h0⟩
      rw [hrow] at this
      cases this

/-- The points at the place of the point `i`. -/
def sameAs (M : Fin N → Row F d) (i : Fin N) : Finset (Fin N) := Finset.univ.filter fun a => M a = M i

theorem neighbours_coincide {M : Fin N → Row F d} {i : Fin N} {k : Nat} {S : Finset (Fin N)} (h : Neighbours M i k S) :
    (∀ a ∈ S, M a = M i) ↔ k < (sameAs M i).card := by
  obtain ⟨hc, p, hpS, hp, hnear⟩ := h
  constructor
  · intro hall
    have hsub : insert p S ⊆ sameAs M i := by
      intro a ha
      simp only [sameAs, Finset.mem_filter, Finset.mem_univ, true_and]
      rcases Finset.mem_insert.1 ha with rfl | ha
      · exact hp
      · exact hall a ha
    have := Finset.card_le_card hsub
    rw [Finset.card_insert_of_notMem hpS] at this
    omega
  · intro hlt a ha
    by_contra hne
    have hsub : sameAs M i ⊆ insert p (S.erase a) := by
      intro b hb
      simp only [sameAs, Finset.mem_filter, Finset.mem_univ, true_and] at hb
      rw [Finset.mem_insert, Finset.mem_erase]
      by_cases hbp : b = p
      · exact .inl hbp
      · right
        refine ⟨fun hba => hne (hba ▸ hb), ?_⟩
        by_contra hbS
        have := hnear a ha b hbS hbp
        rw [hb, dist2_self] at this
        exact hne (dist2_eq_zero.1 (le_antisymm this (dist2_nonneg _ _)))
    have h1 := Finset.card_le_card hsub
    rw [Finset.card_insert_of_notMem (fun h => hpS (Finset.mem_of_mem_erase h)), Finset.card_erase_of_mem ha] at h1
    have : 0 < S.card := Finset.card_pos.2 ⟨a, ha⟩
    omega

/-- A pass of the loop fails exactly if all neighbours are at the place of the point. -/
theorem trainRow_iff {E : Env F} (hE : Sorts E) {c : Cfg F} (out : Nat) (M : Fin N → Row F d) (i : Fin N) {r : F}
    (hc : c.r = some r) (hr : 0 < r) (hk : 1 ≤ c.k) (hkN : c.k < N) :
    (trainRow E c out M i = .error .singular ∧ c.k < (sameAs M i).card)
      ∨ (∃ w, trainRow E c out M i = .ok w) ∧ (sameAs M i).card ≤ c.k := by
  obtain ⟨hn, hl, hnb⟩ := drop_nearest hE M i hkN
  have hco := neighbours_coincide hnb
  unfold trainRow weights
  simp only [hc]
  rw [if_neg (by omega), trace_gram hn]
  generalize ((nearest E M (M i)).drop 1).take c.k = nb at *
  by_cases hall : ∀ a ∈ nb.toFinset, M a = M i
  · left
    refine ⟨?_, hco.1 hall⟩
    have hz : gram M (M i) nb + (r * ∑ a ∈ nb.toFinset, dist2 (M a) (M i)) • (1 : Matrix (Fin nb.length) (Fin nb.length) F) = 0 := by
      rw [Finset.sum_eq_zero fun a ha => by rw [hall a ha, dist2_self], mul_zero, zero_smul, add_zero]
      ext p q
      simp only [gram, Matrix.of_apply, diffs]
      rw [hall _ (List.mem_toFinset.2 (List.get_mem nb p))]
      simp
    rw [hz, solveOnes_none.2]
    haveI : Nonempty (Fin nb.length) := ⟨⟨0, by omega⟩⟩
    exact Matrix.det_zero
  · right
    refine ⟨?_, Nat.le_of_not_lt fun h => hall (hco.2 h)⟩
    have hpos : 0 < r * ∑ a ∈ nb.toFinset, dist2 (M a) (M i) := by
      refine mul_pos hr ?_
      push Not at hall
      obtain ⟨a, ha, hne⟩ := hall
      exact Finset.sum_pos' (fun _ _ => dist2_nonneg _ _) ⟨a, ha, lt_of_le_of_ne (dist2_nonneg _ _) fun h => hne (dist2_eq_zero.1 h.symm)⟩
    cases hs : solveOnes (gram M (M i) nb + (r * ∑ a ∈ nb.toFinset, dist2 (M a) (M i)) • (1 : Matrix (Fin nb.length) (Fin nb.length) F)) with
    | none => exact absurd (solveOnes_none.1 hs) (det_pos (diffs M (M i) nb) hpos)
    | some w => exact ⟨_, rfl⟩

/-- `eigh` does not fail. -/
def Works (E : Env F) : Prop := ∀ n A, E.eig.eigh n A ≠ none

theorem embedding_works {E : Env F} (hw : Works E) (c : Cfg F) (out : Nat) (W : Matrix (Fin N) (Fin N) F) :
    ∃ p, embedding E c out W = .ok p := by
  unfold embedding
  split
  · exact ⟨_, rfl⟩
  · unfold Symeig.Env.std
    split
    · next h =>
      split at h
      · next h' => exact absurd h' (hw _ _)
      · cases h
    · exact ⟨_, rfl⟩

/-- C259 -/
theorem lle_training_succeeds (E : Env F) (hE : Sorts E) (hw : Works E) (c : Cfg F) (M : Fin N → Row F d) (r : F)
    (hc : c.r = some r) (hr : 0 < r) (hk : 1 ≤ c.k) (hkN : c.k < N) (ho : c.variance = none) :
    (∃ t, stop E c M = .ok t) ↔ ∀ i, (sameAs M i).card ≤ c.k := by
  constructor
  · rintro ⟨t, ht⟩ i
    obtain ⟨_, _, _, h, _⟩ := stop_ok ht
    rcases trainRow_iff hE t.out M i hc hr hk hkN with h' | h'
    · rw [h i] at h'; cases h'.1
    · exact h'.2
  · intro h
    have hout : ∃ out, outDim E c M = .ok out := by
      unfold outDim
      rw [ho]
      cases c.out with
      | none => exact ⟨d, rfl⟩
      | some o => exact ⟨o, rfl⟩
    obtain ⟨out, hout⟩ := hout
    have hrow : ∀ i, ∃ w, trainRow E c out M i = .ok w := fun i => by
      rcases trainRow_iff hE out M i hc hr hk hkN with h' | h'
      · exact absurd (h i) (by omega)
      · exact h'.1
    choose g hg using hrow
    obtain ⟨p, hp⟩ := embedding_works hw c out (Matrix.of fun a i => g i a)
    unfold stop
    rw [if_neg (by omega), hout]
    simp only
    rw [loop_all _ _ g hg]
    simp only
    rw [hp]
    exact ⟨_, rfl⟩

/-! ## Execution -/

omit [IsStrictOrderedRing F] [FloorRing F] in
theorem execRow_r {E : Env F} {k : Nat} {t : Res F N d} {r : Option F} (hr : r.isSome ∨ k ≤ t.out) (x : Row F d) :
    (execRow E k t r x).2 = r := by
  have : (r.isNone && decide (k > t.out)) = false := by
    rcases hr with h | h
    · cases r <;> simp_all
    · simp [h]
  unfold execRow
  simp only [this]
  split <;> rfl

/-- C260: every row is treated by itself, if `r` is given or there are at most `output_dim` neighbours. -/
theorem lle_execute_rows_partial (E : Env F) (c : Cfg F) (t : Res F N d) (h : c.r.isSome ∨ c.k ≤ t.out) (xs : List (Row F d))
    (ys : List (List F)) :
    execute E c t xs = .ok ys ↔ List.Forall₂ (fun x y => execute E c t [x] = .ok [y]) xs ys := by
  have one : ∀ x y, execute E c t [x] = .ok [y] ↔ (execRow E c.k t c.r x).1 = .ok y := by
    intro x y
    unfold execute execRows
    cases hx : execRow E c.k t c.r x with
    | mk res r' =>
      cases res with
      | error e => simp
      | ok y' => simp [execRows]
  have gen : ∀ (xs : List (Row F d)) (ys : List (List F)),
      execRows E c.k t c.r xs = .ok ys ↔ List.Forall₂ (fun x y => (execRow E c.k t c.r x).1 = .ok y) xs ys := by
    intro xs
    induction xs with
    | nil => intro ys; cases ys <;> simp [execRows]
    | cons x xs ih =>
      intro ys
      have hr' := execRow_r (E := E) h x
      unfold execRows
      cases hx : execRow E c.k t c.r x with
      | mk res r' =>
        rw [hx] at hr'
        simp only at hr'
        subst hr'
        cases res with
        | error e =>
          simp only [reduceCtorEq, false_iff]
          intro hf
          cases hf with
          | cons h1 _ => rw [hx] at h1; cases h1
        | ok y =>
          simp only
          constructor
          · intro hh
            cases hrest : execRows E c.k t c.r xs with
            | error e => rw [hrest] at hh; cases hh
            | ok ys' =>
              rw [hrest] at hh
              cases hh
              exact .cons (by rw [hx]) ((ih ys').1 hrest)
          · intro hf
            cases hf with
            | cons h1 h2 =>
              rw [hx] at h1
              cases h1
              rw [(ih _).2 h2]
  unfold execute at one ⊢
  rw [gen]
  simp only [one]

/-- C260 -/
theorem lle_execute (E : Env F) (hE : Sorts E) (c : Cfg F) (M : Fin N → Row F d) (t : Res F N d) (ht : stop E c M = .ok t)
    (hk : 1 ≤ c.k) (r : F) (hc : c.r = some r) (hr : 0 ≤ r) (x : Row F d) (y : List F) (h : execute E c t [x] = .ok [y]) :
    ∃ S w, Nearest M x c.k S ∧ Best M x r S w ∧ y = t.proj.map fun u => ∑ a, w a * u a := by
  obtain ⟨hkN, hd, _, _, _⟩ := stop_ok ht
  obtain ⟨hn, hl, hnb⟩ := take_nearest hE M x hkN
  unfold execute execRows execRow at h
  rw [hc, hd] at h
  simp only [Option.isNone_some, Bool.false_and, Bool.false_eq_true, if_false, zero_add] at h
  cases hw : weights c.k (gram M x ((nearest E M x).take c.k)) r with
  | error e => rw [hw] at h; cases h
  | ok w =>
    rw [hw] at h
    simp only [execRows, Except.ok.injEq, List.cons.injEq, and_true] at h
    exact ⟨_, _, hnb, best_of_weights hn (by omega) M x hr hw, h.symm⟩

/-- C260: with `r > 0` execution never fails. -/
theorem lle_execute_succeeds (E : Env F) (hE : Sorts E) (c : Cfg F) (M : Fin N → Row F d) (t : Res F N d)
    (ht : stop E c M = .ok t) (r : F) (hc : c.r = some r) (hr : 0 < r) (xs : List (Row F d)) :
    ∃ ys, execute E c t xs = .ok ys := by
  obtain ⟨hkN, hd, _, _, _⟩ := stop_ok ht
  have one : ∀ x, ∃ y, execRow E c.k t (some r) x = (.ok y, some r) := by
    intro x
    obtain ⟨hn, hl, hnb⟩ := take_nearest hE M x hkN
    unfold execRow
    simp only [Option.isNone_some, Bool.false_and, Bool.false_eq_true, if_false, zero_add]
    unfold weights
    rw [hd, if_neg (by omega)]
    cases hs : solveOnes (gram M x ((nearest E M x).take c.k) + r • 1) with
    | none => exact absurd (solveOnes_none.1 hs) (det_pos (diffs M x ((nearest E M x).take c.k)) hr)
    | some w => exact ⟨_, rfl⟩
  unfold execute
  rw [hc]
  induction xs with
  | nil => exact ⟨[], rfl⟩
  | cons x xs ih =>
    obtain ⟨y, hy⟩ := one x
    obtain ⟨ys, hys⟩ := ih
    exact ⟨y :: ys, by unfold execRows; rw [hy]; simp only; rw [hys]⟩

theorem Best.unique {M : Fin N → Row F d} {x : Row F d} {lam : F} {S : Finset (Fin N)} {w w' : Fin N → F}
    (h : Best M x lam S w) (h' : Best M x lam S w') : w = w' := by
  by_contra hne
  exact lt_asymm (h.min w' h'.supp h'.sum (Ne.symm hne)) (h'.min w h.supp h.sum hne)

/-! ## Examples: the corners of a square -/

def exM : Fin 4 → Row ℚ 2 := ![![1, 1], ![1, -1], ![-1, -1], ![-1, 1]]

/-- Square roots of the numbers that occur. -/
def exSqrt (a : ℚ) : ℚ := if a = 4 then 2 else if a = 64 / 25 then 8 / 5 else if a = 36 / 25 then 6 / 5 else 0

/-- `argsort` by insertion; eigenvectors for the square; the singular values of a matrix with two orthogonal rows. -/
def exE : Env ℚ where
  argsort n key := (List.finRange n).insertionSort fun a b => key a ≤ key b
  sing n m A := ((List.finRange n).map fun i => exSqrt (∑ c, A i c ^ 2)).insertionSort (· ≥ ·)
  eig := {
    eigh := fun n _ => match n with
      | 4 => some [(1 / 10, fun _ => 1 / 2), (11 / 10, ![1 / 2, 1 / 2, -1 / 2, -1 / 2]),
          (11 / 10, ![1 / 2, -1 / 2, -1 / 2, 1 / 2]), (41 / 10, ![1 / 2, -1 / 2, 1 / 2, -1 / 2])]
      | _ => some []
    svd := fun _ _ => none
    sqrt := exSqrt }
  svd _ _ _ := []
  left _ _ _ := []
  qr _ l := l

theorem exSorts : Sorts exE := by
  intro n key
  refine ⟨List.perm_insertionSort _ _, ?_⟩
  haveI : Std.Total fun a b : Fin n => key a ≤ key b := ⟨fun a b => le_total (key a) (key b)⟩
  haveI : IsTrans (Fin n) fun a b => key a ≤ key b := ⟨fun _ _ _ => le_trans⟩
  exact List.pairwise_insertionSort _ _

def exCfg : Cfg ℚ := { k := 2, r := some 1, out := some 2 }

/-- The node trained with the corners of the square. -/
def exT : Res ℚ 4 2 where
  data := exM
  W := Matrix.of ![![0, 1 / 2, 0, 1 / 2], ![1 / 2, 0, 1 / 2, 0], ![0, 1 / 2, 0, 1 / 2], ![1 / 2, 0, 1 / 2, 0]]
  proj := [![1 / 2, 1 / 2, -1 / 2, -1 / 2], ![1 / 2, -1 / 2, -1 / 2, 1 / 2]]
  out := 2

theorem exStop : (match stop exE exCfg exM with
    | .ok t => decide (t.data = exT.data) && decide (t.W = exT.W) && decide (t.proj = exT.proj) && decide (t.out = 2)
    | .error _ => false) = true := by decide +kernel

theorem exStop' : stop exE exCfg exM = .ok exT := by
  have := exStop
  split at this
  · next t h =>
    simp only [Bool.and_eq_true, decide_eq_true_eq] at this
    rw [h]
    obtain ⟨⟨⟨h1, h2⟩, h3⟩, h4⟩ := this
    cases t
    simp only at h1 h2 h3 h4
    subst h1 h2 h3 h4
    rfl
  · cases this

/-- The matrix of the embedding. -/
def exA : Mat ℚ 4 4 := fun a b => ∑ i, minusOne exT.W a i * minusOne exT.W b i + if a = b then 1 / 10 else 0

/-- The eigenvectors of the example are right. -/
theorem exEig : ∀ l, exE.eig.eigh 4 exA = some l → EigList exA l := by
  intro l h
  cases h
  exact ⟨by decide +kernel, by decide +kernel, by decide +kernel, rfl⟩

example : ∃ S, Neighbours exM 0 2 S ∧ Best exM (exM 0) (1 * ∑ a ∈ S, dist2 (exM a) (exM 0)) S fun a => exT.W a 0 :=
  lle_weights exE exSorts exCfg exM exT exStop' (by decide) 1 rfl (by norm_num) 0

example : (∃ t, stop exE exCfg exM = .ok t) ↔ ∀ i, (sameAs exM i).card ≤ 2 :=
  lle_training_succeeds exE exSorts (by
    intro n A h
    match n with
    | 0 | 1 | 2 | 3 | 4 => cases h
    | _ + 5 => cases h) exCfg exM 1 rfl (by norm_num) (by decide) (by decide) rfl

example : ∃ i, ¬ (sameAs (![![0], ![0], ![0], ![1]] : Fin 4 → Row ℚ 1) i).card ≤ 2 := ⟨0, by decide +kernel⟩

example : stop exE { exCfg with k := 5 } exM = .error .training := lle_refused _ _ _ (by decide)

example : stop exE { exCfg with k := 4 } exM = .error .index ∨ stop exE { exCfg with k := 4 } exM = .error .value :=
  lle_all_points_violation exE exSorts _ exM rfl (by decide)

example : execute exE exCfg exT [![1, 1 / 2], ![0, 0]] = .ok [[1 / 2, 1 / 6], [1 / 2, 0]] := by decide +kernel

/-- C261: the training points are not mapped to their positions in the embedding. -/
theorem lle_training_points_violation : ∃ (E : Env ℚ) (c : Cfg ℚ) (M : Fin 4 → Row ℚ 2) (t : Res ℚ 4 2) (y : List ℚ), Sorts E
    ∧ stop E c M = .ok t ∧ execute E c t [M 0] = .ok [y] ∧ y ≠ t.proj.map fun u => u 0 :=
  ⟨exE, exCfg, exM, exT, [1 / 2, 1 / 3], exSorts, exStop', by decide +kernel, by decide +kernel⟩

/-- C261: in execution the correction is `r` itself, not `r` times the trace as documented. -/
theorem lle_execute_trace_violation : ∃ (E : Env ℚ) (c : Cfg ℚ) (M : Fin 4 → Row ℚ 2) (t : Res ℚ 4 2) (x : Row ℚ 2) (y : List ℚ),
    Sorts E ∧ c.r = some 1 ∧ stop E c M = .ok t ∧ execute E c t [x] = .ok [y]
    ∧ ∀ S w, Nearest M x c.k S → Best M x (1 * ∑ a ∈ S, dist2 (M a) x) S w → y ≠ t.proj.map fun u => ∑ a, w a * u a := by
  refine ⟨exE, exCfg, exM, exT, ![1, 1 / 2], [1 / 2, 1 / 6], exSorts, rfl, exStop', by decide +kernel, fun S w hS hw => ?_⟩
  have hS' : S = [(0 : Fin 4), 1].toFinset := by
    have h : ∀ S : Finset (Fin 4), (S.card = 2 ∧ ∀ a ∈ S, ∀ b ∉ S, dist2 (exM a) ![1, 1 / 2] ≤ dist2 (exM b) ![1, 1 / 2]) →
        S = [(0 : Fin 4), 1].toFinset := by decide +kernel
    exact h S ⟨hS.card, hS.near⟩
  subst hS'
  have hb : weights 2 (gram exM ![1, 1 / 2] [0, 1]) (5 / 2) = .ok ![11 / 18, 7 / 18] := by
    have : (match weights 2 (gram exM ![1, 1 / 2] [0, 1]) (5 / 2) with
      | .ok w => decide (w ⟨0, by decide⟩ = 11 / 18) && decide (w ⟨1, by decide⟩ = 7 / 18)
      | .error _ => false) = true := by decide +kernel
    split at this
    · next w h =>
      simp only [Bool.and_eq_true, decide_eq_true_eq] at this
      rw [h]
      congr 1
      funext j
      match j with
      | ⟨0, _⟩ => exact this.1
      | ⟨1, _⟩ => exact this.2
    · cases this
  have hb' := best_of_weights (by decide) (by decide) exM ![1, 1 / 2] (by norm_num) hb
  have hl : (1 * ∑ a ∈ [(0 : Fin 4), 1].toFinset, dist2 (exM a) ![1, 1 / 2]) = (5 / 2 : ℚ) := by decide +kernel
  rw [hl] at hw
  rw [hw.unique hb']
  decide +kernel

def exAuto : Cfg ℚ := { k := 2, r := none, out := some 1 }

def exTA : Res ℚ 4 2 := { exT with proj := [![1 / 2, 1 / 2, -1 / 2, -1 / 2]], out := 1 }

theorem exStopA : stop exE exAuto exM = .ok exTA := by
  have : (match stop exE exAuto exM with
    | .ok t => decide (t.data = exTA.data) && decide (t.W = exTA.W) && decide (t.proj = exTA.proj) && decide (t.out = 1)
    | .error _ => false) = true := by decide +kernel
  split at this
  · next t h =>
    simp only [Bool.and_eq_true, decide_eq_true_eq] at this
    rw [h]
    obtain ⟨⟨⟨h1, h2⟩, h3⟩, h4⟩ := this
    cases t
    simp only at h1 h2 h3 h4
    subst h1 h2 h3 h4
    rfl
  · cases this

/-- The singular values of the example are right: the matrix has two orthogonal rows with these lengths. -/
def RightSing (E : Env ℚ) (A : Mat ℚ 2 2) : Prop :=
  ∑ c, A 0 c * A 1 c = 0 ∧ ((E.sing 2 2 A).map (· ^ 2)).Perm [∑ c, A 0 c ^ 2, ∑ c, A 1 c ^ 2] ∧ (E.sing 2 2 A).Pairwise (· ≥ ·)
    ∧ ∀ a ∈ E.sing 2 2 A, 0 ≤ a

/-- C260: with automatic regularisation the result for a row depends on the rows before it: whether there is a result at
all. -/
theorem lle_execute_rows_violation : ∃ (E : Env ℚ) (c : Cfg ℚ) (M : Fin 4 → Row ℚ 2) (t : Res ℚ 4 2) (x x' : Row ℚ 2) (y y' : List ℚ),
    Sorts E ∧ stop E c M = .ok t ∧ execute E c t [x, x'] = .ok [y, y'] ∧ execute E c t [x'] = .error .singular
    ∧ RightSing E (fun j c => M (![0, 1] j) c - x c) ∧ RightSing E (fun j c => M (![0, 1] j) c - x' c)
    ∧ ∀ i, RightSing E fun j c => M (![i + 1, i + 3] j) c - M i c :=
  ⟨exE, exAuto, exM, exTA, ![49 / 25, 7 / 25], ![1, 1], [1 / 2], [1 / 2], exSorts, exStopA, by decide +kernel, by decide +kernel,
    by unfold RightSing; decide +kernel, by unfold RightSing; decide +kernel, by unfold RightSing; decide +kernel⟩

end Mdp.Lle
