import Verif.Nodes.Cutoff
import Mathlib.Tactic.Linarith
import Mathlib.Tactic.NormNum
import Mathlib.Tactic.Ring
import Mathlib.Tactic.FieldSimp
import Mathlib.Algebra.Order.Floor.Ring
import Mathlib.Data.List.Count

/-!
# Properties of the cutoff nodes (C55)
-/

namespace Mdp.Cutoff

variable {V : Type} [LinearOrder V] {c : Nat}

/-! ## CutoffNode -/

theorem clip_cases (lower upper : Option V) (x : V) :
    clip lower upper x =
      (match upper with | some u => min (match lower with | some l => max x l | none => x) u
                        | none => match lower with | some l => max x l | none => x) := by
  have h1 : ∀ a l : V, (if a ≥ l then a else l) = max a l := by
    intro a l
    split
    · next h => exact (max_eq_left h).symm
    · next h => exact (max_eq_right (le_of_lt (not_le.1 h))).symm
  have h2 : ∀ a u : V, (if a ≤ u then a else u) = min a u := by
    intro a u
    split
    · next h => exact (min_eq_left h).symm
    · next h => exact (min_eq_right (le_of_lt (not_le.1 h))).symm
  unfold clip
  cases lower <;> cases upper <;> simp only [h1, h2]

/-- C55: every value of the output lies within the bounds, values within the bounds are unchanged, and executing
again changes nothing. Without a bound there is no restriction on that side. -/
theorem cutoff_bounds (lower upper : Option V) (hlu : ∀ l ∈ lower, ∀ u ∈ upper, l ≤ u) (x : List (Fin c → V)) :
    (cutoffExecute lower upper x).length = x.length ∧
    (∀ (i : Nat) (r y : Fin c → V) (j : Fin c), x[i]? = some r → (cutoffExecute lower upper x)[i]? = some y →
      (∀ l ∈ lower, l ≤ y j) ∧ (∀ u ∈ upper, y j ≤ u) ∧
      ((∀ l ∈ lower, l ≤ r j) → (∀ u ∈ upper, r j ≤ u) → y j = r j) ∧
      (∀ l ∈ lower, r j < l → y j = l) ∧ (∀ u ∈ upper, u < r j → y j = u)) ∧
    cutoffExecute lower upper (cutoffExecute lower upper x) = cutoffExecute lower upper x := by
  refine ⟨by simp [cutoffExecute], ?_, ?_⟩
  · intro i r y j hr hy
    unfold cutoffExecute at hy
    rw [List.getElem?_map, hr, Option.map_some, Option.some.injEq] at hy
    subst hy
    simp only [clip_cases]
    cases lower <;> cases upper
    · simp
    · next u => simpa using fun h => le_of_lt h
    · next l => simpa using fun h => le_of_lt h
    · next l u =>
      have := hlu l rfl u rfl
      simp only [Option.mem_def, Option.some.injEq, forall_eq']
      refine ⟨le_min (le_max_right _ _) this, min_le_right _ _, fun h1 h2 => ?_, fun h => ?_, fun h => ?_⟩
      · rw [max_eq_left h1, min_eq_left h2]
      · rw [max_eq_right (le_of_lt h), min_eq_left this]
      · rw [max_eq_left (le_of_lt (lt_of_le_of_lt this h)), min_eq_right (le_of_lt h)]
  · unfold cutoffExecute
    rw [List.map_map]
    apply List.map_congr_left
    intro r _
    funext j
    simp only [Function.comp_apply, clip_cases]
    cases lower <;> cases upper
    · rfl
    · simp
    · simp
    · next l u =>
      have := hlu l rfl u rfl
      simp only
      rw [max_eq_left (le_min (le_max_right _ _) this), min_assoc, min_self]

/-- Bounds in the wrong order: the upper one wins. -/
example : cutoffExecute (some 5) (some 2) [(fun _ => 7 : Fin 1 → Int), fun _ => 0] = [fun _ => 2, fun _ => 2] := rfl

example : cutoffExecute (some 2) (some 5) [(fun _ => 7 : Fin 1 → Int), fun _ => 3] = [fun _ => 5, fun _ => 3] ∧
    cutoffExecute none (some 5) [(fun _ => 7 : Fin 1 → Int), fun _ => -3] = [fun _ => 5, fun _ => -3] := ⟨rfl, rfl⟩

/-! ## Histogram -/

/-- C55: the history is the concatenation of the training data if the fraction is at least one. -/
theorem hist_all (fraction : Rat) (hf : 1 ≤ fraction) (chunks : List (List Bool × List (Fin c → V)))
    (hne : chunks ≠ []) :
    (chunks.foldl (fun s p => s.train fraction p.1 p.2) (Adaptive.new V c)).hist =
      some (chunks.flatMap fun p => p.2) ∧
    (chunks.foldl (fun s p => s.train fraction p.1 p.2) (Adaptive.new V c)).lower = none ∧
    (chunks.foldl (fun s p => s.train fraction p.1 p.2) (Adaptive.new V c)).upper = none := by
  have hn : ¬ fraction < 1 := not_lt.2 hf
  have key : ∀ (chunks : List (List Bool × List (Fin c → V))) (s : Adaptive V c) (h : List (Fin c → V)),
      s.hist = some h → chunks.foldl (fun s p => s.train fraction p.1 p.2) s =
        ⟨some (h ++ chunks.flatMap fun p => p.2), s.lower, s.upper⟩ := by
    intro chunks
    induction chunks with
    | nil => intro s h hs; simp [← hs]
    | cons p chunks ih =>
      intro s h hs
      rw [List.foldl_cons, ih _ (h ++ p.2) (by simp [Adaptive.train, hs, hn])]
      simp [Adaptive.train, hs, List.append_assoc]
  cases chunks with
  | nil => exact absurd rfl hne
  | cons p chunks =>
    rw [List.foldl_cons, key _ _ p.2 (by simp [Adaptive.train, Adaptive.new, hn])]
    simp [Adaptive.train, Adaptive.new]

/-- With a smaller fraction only training data is stored. -/
theorem hist_sub (fraction : Rat) (chunks : List (List Bool × List (Fin c → V))) (h : List (Fin c → V))
    (hh : (chunks.foldl (fun s p => s.train fraction p.1 p.2) (Adaptive.new V c)).hist = some h) :
    h.Sublist (chunks.flatMap fun p => p.2) := by
  have one : ∀ (keep : List Bool) (x : List (Fin c → V)),
      (if fraction < 1 then ((x.zip keep).filter fun p => p.2).map fun p => p.1 else x).Sublist x := by
    intro keep x
    split
    · refine (List.filter_sublist.map _).trans ?_
      induction x generalizing keep with
      | nil => simp
      | cons a x ih =>
        cases keep with
        | nil => simp
        | cons k keep => simpa using ih keep
    · exact List.Sublist.refl _
  have key : ∀ (chunks : List (List Bool × List (Fin c → V))) (s : Adaptive V c) (before : List (Fin c → V)),
      (∀ g, s.hist = some g → g.Sublist before) → ∀ g,
      (chunks.foldl (fun s p => s.train fraction p.1 p.2) s).hist = some g →
        g.Sublist (before ++ chunks.flatMap fun p => p.2) := by
    intro chunks
    induction chunks with
    | nil => intro s before hs g hg; simpa using hs g hg
    | cons p chunks ih =>
      intro s before hs g hg
      rw [List.foldl_cons] at hg
      rw [List.flatMap_cons, ← List.append_assoc]
      refine ih _ (before ++ p.2) ?_ g hg
      intro g' hg'
      unfold Adaptive.train at hg'
      cases hs' : s.hist with
      | none =>
        simp only [hs', Option.some.injEq] at hg'
        rw [← hg']
        exact (one _ _).trans (List.sublist_append_right _ _)
      | some h0 =>
        simp only [hs', Option.some.injEq] at hg'
        rw [← hg']
        exact (hs h0 hs').append (one _ _)
  simpa using key chunks (Adaptive.new V c) [] (by simp [Adaptive.new]) h hh

/-! ## The learned bounds -/

theorem count_below (s : List V) (hs : s.Pairwise (· ≤ ·)) (k : Nat) (hk : k < s.length) :
    s.countP (fun v => decide (v < s[k])) ≤ k ∧ s.countP (fun v => decide (s[k] < v)) ≤ s.length - 1 - k := by
  have hsplit : s = s.take k ++ s[k] :: s.drop (k + 1) := by simp
  have hge : ∀ v ∈ s.drop (k + 1), s[k] ≤ v := by
    intro v hv
    rw [hsplit, List.pairwise_append, List.pairwise_cons] at hs
    exact hs.2.1.1 v hv
  have hle : ∀ v ∈ s.take k, v ≤ s[k] := by
    intro v hv
    rw [hsplit, List.pairwise_append] at hs
    exact hs.2.2 v hv _ List.mem_cons_self
  generalize hb : s[k] = b at *
  have e1 : s.countP (fun v => decide (v < b)) = (s.take k).countP (fun v => decide (v < b)) := by
    conv_lhs => rw [hsplit]
    rw [List.countP_append, List.countP_cons]
    have : (s.drop (k + 1)).countP (fun v => decide (v < b)) = 0 := by
      rw [List.countP_eq_zero]
      intro v hv
      simpa using hge v hv
    rw [this]; simp
  have e2 : s.countP (fun v => decide (b < v)) = (s.drop (k + 1)).countP (fun v => decide (b < v)) := by
    conv_lhs => rw [hsplit]
    rw [List.countP_append, List.countP_cons]
    have : (s.take k).countP (fun v => decide (b < v)) = 0 := by
      rw [List.countP_eq_zero]
      intro v hv
      simpa using hle v hv
    rw [this]; simp
  rw [e1, e2]
  refine ⟨List.countP_le_length.trans (by simp), List.countP_le_length.trans (by simp; omega)⟩

theorem count_below_exact (s : List V) (hs : s.Pairwise (· < ·)) (k : Nat) (hk : k < s.length) :
    s.countP (fun v => decide (v < s[k])) = k ∧ s.countP (fun v => decide (s[k] < v)) = s.length - 1 - k := by
  have hsplit : s = s.take k ++ s[k] :: s.drop (k + 1) := by simp
  obtain ⟨b1, b2⟩ := count_below s (hs.imp le_of_lt) k hk
  have hge : ∀ v ∈ s.drop (k + 1), s[k] < v := by
    intro v hv
    rw [hsplit, List.pairwise_append, List.pairwise_cons] at hs
    exact hs.2.1.1 v hv
  have hle : ∀ v ∈ s.take k, v < s[k] := by
    intro v hv
    rw [hsplit, List.pairwise_append] at hs
    exact hs.2.2 v hv _ List.mem_cons_self
  constructor
  · refine Nat.le_antisymm b1 ?_
    have : (s.take k).countP (fun v => decide (v < s[k])) = k := by
      rw [List.countP_eq_length.2 (by simpa using hle)]; simp; omega
    calc k = _ := this.symm
      _ ≤ _ := (List.take_sublist k s).countP_le
  · refine Nat.le_antisymm b2 ?_
    have : (s.drop (k + 1)).countP (fun v => decide (s[k] < v)) = s.length - 1 - k := by
      rw [List.countP_eq_length.2 (by simpa using hge)]; simp; omega
    calc s.length - 1 - k = _ := this.symm
      _ ≤ _ := (List.drop_sublist (k + 1) s).countP_le

theorem sorted_perm (x : List (Fin c → V)) (j : Fin c) : (sortedColumn x j).Perm (x.map fun r => r j) :=
  List.perm_insertionSort _ _

theorem sorted_le (x : List (Fin c → V)) (j : Fin c) : (sortedColumn x j).Pairwise (· ≤ ·) :=
  List.pairwise_insertionSort _ _

theorem count_col (x : List (Fin c → V)) (j : Fin c) (p : V → Bool) :
    x.countP (fun r => p (r j)) = (sortedColumn x j).countP p := by
  rw [(sorted_perm x j).countP_eq, List.countP_map]; rfl

theorem sortedRow_nat (x : List (Fin c → V)) (i : Int) (b : Fin c → V) (hb : sortedRow x i = some b) (hi : 0 ≤ i) :
    ∃ h : i.toNat < x.length, ∀ j, b j = (sortedColumn x j)[i.toNat]'(by
      rw [sortedColumn, List.length_insertionSort, List.length_map]; exact h) := by
  unfold sortedRow Py.normIdx at hb
  simp only [not_lt.2 hi, if_false] at hb
  by_cases h : i < x.length
  · rw [if_pos ⟨hi, h⟩] at hb
    have : i.toNat < x.length := by omega
    simp only [Option.bind_some, this, dite_true, Option.some.injEq] at hb
    exact ⟨this, fun j => by rw [← hb]⟩
  · rw [if_neg (by tauto)] at hb; cases hb

theorem sortedRow_some (x : List (Fin c → V)) (i : Int) (h0 : 0 ≤ i) (h1 : i < x.length) :
    ∃ b, sortedRow x i = some b := by
  unfold sortedRow Py.normIdx
  simp only [not_lt.2 h0, if_false]
  rw [if_pos ⟨h0, h1⟩]
  have : i.toNat < x.length := by omega
  simp [this]

/-- Number of rows whose value in column `j` is raised (lowered) by executing. -/
def raised (s : Adaptive V c) (x : List (Fin c → V)) (j : Fin c) : Nat :=
  (x.zip (s.execute x)).countP fun p => decide (p.1 j < p.2 j)
def lowered (s : Adaptive V c) (x : List (Fin c → V)) (j : Fin c) : Nat :=
  (x.zip (s.execute x)).countP fun p => decide (p.2 j < p.1 j)

theorem zip_map_countP {W : Type} (x : List W) (f : W → W) (p : W × W → Bool) :
    (x.zip (x.map f)).countP p = x.countP fun r => p (r, f r) := by
  induction x with
  | nil => rfl
  | cons a x ih => simp [List.countP_cons, ih]

theorem raised_le (s : Adaptive V c) (x : List (Fin c → V)) (j : Fin c) :
    raised s x j ≤ match s.lower with | none => 0 | some b => x.countP fun r => decide (r j < b j) := by
  unfold raised Adaptive.execute
  rw [zip_map_countP]
  have h : ∀ r : Fin c → V, r j < clip (s.lower.map fun b => b j) (s.upper.map fun b => b j) (r j) →
      ∃ b, s.lower = some b ∧ r j < b j := by
    intro r hr
    rw [clip_cases] at hr
    cases hl : s.lower with
    | none => cases hu : s.upper <;> simp [hl, hu] at hr
    | some b =>
      refine ⟨b, rfl, ?_⟩
      by_contra hc
      have : max (r j) (b j) = r j := max_eq_left (not_lt.1 hc)
      cases hu : s.upper <;> simp [hl, hu, this] at hr
  cases hl : s.lower with
  | none =>
    simp only [Nat.le_zero]
    rw [List.countP_eq_zero]
    intro r _ hr
    simp only [decide_eq_true_eq] at hr
    rw [← hl] at hr
    obtain ⟨b, e, -⟩ := h r hr
    rw [hl] at e; cases e
  | some b =>
    refine List.countP_mono_left fun r _ hr => ?_
    simp only [decide_eq_true_eq] at hr ⊢
    rw [← hl] at hr
    obtain ⟨b', e, hlt⟩ := h r hr
    rw [hl] at e; cases e; exact hlt

theorem lowered_le (s : Adaptive V c) (x : List (Fin c → V)) (j : Fin c) :
    lowered s x j ≤ match s.upper with | none => 0 | some b => x.countP fun r => decide (b j < r j) := by
  unfold lowered Adaptive.execute
  rw [zip_map_countP]
  have h : ∀ r : Fin c → V, clip (s.lower.map fun b => b j) (s.upper.map fun b => b j) (r j) < r j →
      ∃ b, s.upper = some b ∧ b j < r j := by
    intro r hr
    rw [clip_cases] at hr
    cases hu : s.upper with
    | none =>
      exfalso
      cases hl : s.lower <;> simp [hl, hu] at hr
    | some b =>
      refine ⟨b, rfl, ?_⟩
      cases hl : s.lower <;> simpa [hl, hu] using hr
  cases hu : s.upper with
  | none =>
    simp only [Nat.le_zero]
    rw [List.countP_eq_zero]
    intro r _ hr
    simp only [decide_eq_true_eq] at hr
    rw [← hu] at hr
    obtain ⟨b, e, -⟩ := h r hr
    rw [hu] at e; cases e
  | some b =>
    refine List.countP_mono_left fun r _ hr => ?_
    simp only [decide_eq_true_eq] at hr ⊢
    rw [← hu] at hr
    obtain ⟨b', e, hlt⟩ := h r hr
    rw [hu] at e; cases e; exact hlt

/-- The bounds set by `_stop_training`. -/
theorem stop_bounds (lf uf : Rat) (toFile : Bool) (s s' : Adaptive V c) (x : List (Fin c → V))
    (hs : s.hist = some x) (hl0 : s.lower = none) (hu0 : s.upper = none) (h : s.stop lf uf toFile = (true, s')) :
    s'.lower = (if lf ≠ 0 then sortedRow x (pyInt (lf * x.length)) else none) ∧
    s'.upper = (if uf ≠ 0 then sortedRow x (pyInt (x.length - uf * x.length)) else none) := by
  unfold Adaptive.stop at h
  simp only [hs, Option.getD_some] at h
  by_cases h1 : lf ≠ 0
  · rw [if_pos h1] at h ⊢
    cases h2 : sortedRow x (pyInt (lf * x.length)) with
    | none => simp [h2] at h
    | some b =>
      simp only [h2] at h
      by_cases h3 : uf ≠ 0
      · rw [if_pos h3] at h ⊢
        cases h4 : sortedRow x (pyInt (x.length - uf * x.length)) with
        | none => simp [h4] at h
        | some b' =>
          simp only [h4, Prod.mk.injEq, true_and] at h
          subst h
          cases toFile <;> exact ⟨rfl, rfl⟩
      · rw [if_neg h3] at h ⊢
        simp only [Prod.mk.injEq, true_and] at h
        subst h
        cases toFile <;> exact ⟨rfl, hu0⟩
  · rw [if_neg h1] at h ⊢
    by_cases h3 : uf ≠ 0
    · rw [if_pos h3] at h ⊢
      cases h4 : sortedRow x (pyInt (x.length - uf * x.length)) with
      | none => simp [h4] at h
      | some b' =>
        simp only [h4, Prod.mk.injEq, true_and] at h
        subst h
        cases toFile <;> exact ⟨hl0, rfl⟩
    · rw [if_neg h3] at h ⊢
      simp only [Prod.mk.injEq, true_and] at h
      subst h
      cases toFile <;> exact ⟨hl0, hu0⟩

theorem pyInt_nonneg {q : Rat} (h : 0 ≤ q) : pyInt q = ⌊q⌋ := by simp [pyInt, h]

/-- C55: after training, at most the requested fraction of the stored rows is clipped from below, and at most the
requested fraction from above, in each column. -/
theorem adaptive_fraction (lf uf : Rat) (hl : 0 ≤ lf) (hu : 0 ≤ uf) (hu1 : uf ≤ 1) (toFile : Bool)
    (s s' : Adaptive V c) (x : List (Fin c → V)) (hs : s.hist = some x) (hl0 : s.lower = none) (hu0 : s.upper = none)
    (h : s.stop lf uf toFile = (true, s')) (j : Fin c) :
    (raised s' x j : Rat) ≤ lf * x.length ∧ (lowered s' x j : Rat) ≤ uf * x.length := by
  obtain ⟨e1, e2⟩ := stop_bounds lf uf toFile s s' x hs hl0 hu0 h
  have hn : (0 : Rat) ≤ x.length := Nat.cast_nonneg _
  constructor
  · have hb := raised_le s' x j
    by_cases h1 : lf ≠ 0
    · rw [if_pos h1] at e1
      cases hr : sortedRow x (pyInt (lf * x.length)) with
      | none => rw [e1, hr] at hb; simp at hb; rw [hb]; simpa using mul_nonneg hl hn
      | some b =>
        rw [e1, hr] at hb
        have h0 : 0 ≤ lf * x.length := mul_nonneg hl hn
        rw [pyInt_nonneg h0] at hr
        obtain ⟨hk, hbj⟩ := sortedRow_nat x _ b hr (Int.floor_nonneg.2 h0)
        simp only [hbj j] at hb
        rw [count_col x j fun v => decide (v < _)] at hb
        have := hb.trans (count_below _ (sorted_le x j) _ _).1
        calc (raised s' x j : Rat) ≤ ((⌊lf * x.length⌋.toNat : Nat) : Rat) := by exact_mod_cast this
          _ = ((⌊lf * x.length⌋ : Int) : Rat) := by
            have := Int.toNat_of_nonneg (Int.floor_nonneg.2 h0)
            exact_mod_cast this
          _ ≤ _ := Int.floor_le _
    · rw [if_neg h1] at e1
      rw [e1] at hb
      have : raised s' x j = 0 := Nat.le_zero.1 hb
      rw [this]; simpa using mul_nonneg hl hn
  · have hb := lowered_le s' x j
    by_cases h1 : uf ≠ 0
    · rw [if_pos h1] at e2
      cases hr : sortedRow x (pyInt (x.length - uf * x.length)) with
      | none => rw [e2, hr] at hb; simp at hb; rw [hb]; simpa using mul_nonneg hu hn
      | some b =>
        rw [e2, hr] at hb
        have h0 : 0 ≤ (x.length : Rat) - uf * x.length := by nlinarith
        rw [pyInt_nonneg h0] at hr
        obtain ⟨hk, hbj⟩ := sortedRow_nat x _ b hr (Int.floor_nonneg.2 h0)
        simp only [hbj j] at hb
        rw [count_col x j fun v => decide (_ < v)] at hb
        have := hb.trans (count_below _ (sorted_le x j) _ _).2
        have hlen : (sortedColumn x j).length = x.length := by simp [sortedColumn]
        rw [hlen] at this
        have hfl : (x.length : Rat) - uf * x.length < ⌊(x.length : Rat) - uf * x.length⌋ + 1 := Int.lt_floor_add_one _
        generalize ⌊(x.length : Rat) - uf * x.length⌋ = k at *
        have hk0 : 0 ≤ k := by
          have : (-1 : Rat) < k := by linarith
          have : (-1 : Int) < k := by exact_mod_cast this
          omega
        have e : lowered s' x j + 1 + k.toNat ≤ x.length := by omega
        have e' : (lowered s' x j : Int) + 1 + k ≤ x.length := by omega
        have e'' : (lowered s' x j : Rat) + 1 + k ≤ x.length := by exact_mod_cast e'
        linarith
    · rw [if_neg h1] at e2
      rw [e2] at hb
      have : lowered s' x j = 0 := Nat.le_zero.1 hb
      rw [this]; simpa using mul_nonneg hu hn

/-- C55: `stop_training` succeeds for fractions below one (at most one for the upper) if something was stored, and
raises for a lower fraction of one. -/
theorem adaptive_stops (lf uf : Rat) (hl : 0 ≤ lf) (hu : 0 ≤ uf) (hu1 : uf ≤ 1) (toFile : Bool)
    (s : Adaptive V c) (x : List (Fin c → V)) (hs : s.hist = some x) (hx : x ≠ []) :
    (lf < 1 → (s.stop lf uf toFile).1 = true) ∧ (lf = 1 → (s.stop lf uf toFile).1 = false) := by
  have hpos : 0 < x.length := List.length_pos_iff.2 hx
  have hn : (0 : Rat) < x.length := by exact_mod_cast hpos
  constructor
  · intro hl1
    have key1 : ∃ b, sortedRow x (pyInt (lf * x.length)) = some b := by
      have h0 : 0 ≤ lf * x.length := mul_nonneg hl hn.le
      rw [pyInt_nonneg h0]
      refine sortedRow_some x _ (Int.floor_nonneg.2 h0) ?_
      rw [Int.floor_lt]
      have : lf * x.length < 1 * x.length := mul_lt_mul_of_pos_right hl1 hn
      simpa using this
    have key2 : uf ≠ 0 → ∃ b, sortedRow x (pyInt (x.length - uf * x.length)) = some b := by
      intro hne
      have h0 : 0 ≤ (x.length : Rat) - uf * x.length := by nlinarith
      rw [pyInt_nonneg h0]
      refine sortedRow_some x _ (Int.floor_nonneg.2 h0) ?_
      rw [Int.floor_lt]
      have : 0 < uf * x.length := mul_pos (lt_of_le_of_ne hu (Ne.symm hne)) hn
      push_cast
      linarith
    obtain ⟨b1, e1⟩ := key1
    unfold Adaptive.stop
    simp only [hs, Option.getD_some, e1]
    by_cases h1 : lf ≠ 0 <;> by_cases h3 : uf ≠ 0
    · obtain ⟨b2, e2⟩ := key2 h3
      rw [if_pos h1, if_pos h3]; simp [e2]
    · rw [if_pos h1, if_neg h3]
    · obtain ⟨b2, e2⟩ := key2 h3
      rw [if_neg h1, if_pos h3]; simp [e2]
    · rw [if_neg h1, if_neg h3]
  · rintro rfl
    unfold Adaptive.stop
    simp only [hs, Option.getD_some]
    rw [if_pos (by norm_num)]
    have : sortedRow x (pyInt (1 * x.length)) = none := by
      rw [one_mul, pyInt_nonneg hn.le]
      unfold sortedRow Py.normIdx
      have : ¬ ((x.length : Int) < 0) := by omega
      simp [this]
    rw [this]

/-- C55 (sharpness): with different values in a column the lower bound clips exactly `⌊f n⌋` rows, the upper one
`⌈f n⌉ - 1`, if only one of them is used. -/
theorem adaptive_exact (f : Rat) (h0 : 0 < f) (h1 : f < 1) (toFile : Bool) (s : Adaptive V c) (x : List (Fin c → V))
    (hs : s.hist = some x) (hl0 : s.lower = none) (hu0 : s.upper = none) (j : Fin c)
    (hd : (x.map fun r => r j).Nodup) :
    (∀ s', s.stop f 0 toFile = (true, s') → (raised s' x j : Int) = ⌊f * x.length⌋ ∧ lowered s' x j = 0) ∧
    (∀ s', s.stop 0 f toFile = (true, s') → (lowered s' x j : Int) + 1 = ⌈f * x.length⌉ ∧ raised s' x j = 0) := by
  have hne : f ≠ 0 := ne_of_gt h0
  have hn : (0 : Rat) ≤ x.length := Nat.cast_nonneg _
  have hst : (sortedColumn x j).Pairwise (· < ·) := by
    have h2 : (sortedColumn x j).Nodup := (sorted_perm x j).nodup_iff.2 hd
    exact ((sorted_le x j).and h2).imp fun h => lt_of_le_of_ne h.1 h.2
  have hlen : (sortedColumn x j).length = x.length := by simp [sortedColumn]
  constructor
  · intro s' h
    obtain ⟨e1, e2⟩ := stop_bounds f 0 toFile s s' x hs hl0 hu0 h
    rw [if_pos hne] at e1
    rw [if_neg (by simp)] at e2
    have hlow := lowered_le s' x j
    rw [e2] at hlow
    refine ⟨?_, Nat.le_zero.1 hlow⟩
    have hq : 0 ≤ f * x.length := mul_nonneg h0.le hn
    cases hr : sortedRow x (pyInt (f * x.length)) with
    | none =>
      exfalso
      unfold Adaptive.stop at h
      simp [hs, hne, hr] at h
    | some b =>
      rw [hr] at e1
      rw [pyInt_nonneg hq] at hr
      obtain ⟨hk, hbj⟩ := sortedRow_nat x _ b hr (Int.floor_nonneg.2 hq)
      have : raised s' x j = x.countP fun r => decide (r j < b j) := by
        unfold raised Adaptive.execute
        rw [zip_map_countP, e1, e2]
        apply List.countP_congr
        intro r _
        simp [clip_cases]
      rw [this]
      simp only [hbj j]
      rw [count_col x j fun v => decide (v < _), (count_below_exact _ hst _ _).1]
      exact Int.toNat_of_nonneg (Int.floor_nonneg.2 hq)
  · intro s' h
    obtain ⟨e1, e2⟩ := stop_bounds 0 f toFile s s' x hs hl0 hu0 h
    rw [if_pos hne] at e2
    rw [if_neg (by simp)] at e1
    have hra := raised_le s' x j
    rw [e1] at hra
    refine ⟨?_, Nat.le_zero.1 hra⟩
    have hq : 0 ≤ (x.length : Rat) - f * x.length := by nlinarith
    cases hr : sortedRow x (pyInt (x.length - f * x.length)) with
    | none =>
      exfalso
      unfold Adaptive.stop at h
      simp [hs, hne, hr] at h
    | some b =>
      rw [hr] at e2
      rw [pyInt_nonneg hq] at hr
      obtain ⟨hk, hbj⟩ := sortedRow_nat x _ b hr (Int.floor_nonneg.2 hq)
      have : lowered s' x j = x.countP fun r => decide (b j < r j) := by
        unfold lowered Adaptive.execute
        rw [zip_map_countP, e1, e2]
        apply List.countP_congr
        intro r _
        simp [clip_cases]
      rw [this]
      simp only [hbj j]
      rw [count_col x j fun v => decide (_ < v), (count_below_exact _ hst _ _).2, hlen]
      have hf := Int.floor_nonneg.2 hq
      have : ⌊(x.length : Rat) - f * x.length⌋ = x.length - ⌈f * x.length⌉ := by
        rw [sub_eq_add_neg, Int.floor_natCast_add, Int.floor_neg]; ring
      omega

/-- Ten rows, 20 percent from below and 15 percent from above. -/
example : (Adaptive.stop (1/5) (3/20) false
      (⟨some ((List.range 10).map fun (i : Nat) _ => i), none, none⟩ : Adaptive Nat 1)).1 = true ∧
    raised (Adaptive.stop (1/5) (3/20) false
      (⟨some ((List.range 10).map fun (i : Nat) _ => i), none, none⟩ : Adaptive Nat 1)).2
      ((List.range 10).map fun (i : Nat) _ => i) 0 = 2 ∧
    lowered (Adaptive.stop (1/5) (3/20) false
      (⟨some ((List.range 10).map fun (i : Nat) _ => i), none, none⟩ : Adaptive Nat 1)).2
      ((List.range 10).map fun (i : Nat) _ => i) 0 = 1 := by
  decide +kernel

end Mdp.Cutoff
