import Verif.Nodes.Hopfield
import Mathlib.Data.Fintype.Pi
import Mathlib.Data.Fintype.BigOperators
import Mathlib.Algebra.Order.BigOperators.Group.Finset
import Mathlib.Algebra.BigOperators.Ring.Finset
import Mathlib.Algebra.Field.Rat
import Mathlib.Algebra.Order.Field.Rat
import Mathlib.Tactic.Ring
import Mathlib.Tactic.Linarith
import Mathlib.Tactic.NormNum
import Mathlib.Tactic.LinearCombination
import Mathlib.Tactic.FieldSimp

/-!
# Properties of DiscreteHopfieldClassifier (C58)
-/

namespace Mdp.Hopfield

variable {F : Type} [Field F] [LinearOrder F] [IsStrictOrderedRing F] {n : Nat}

/-! ## Specification -/

/-- The units as numbers: `+1` for true, `-1` for false. -/
def pm (b : Fin n → Bool) : Fin n → F := fun i => if b i then 1 else -1

/-- The input of a unit minus its threshold. -/
def field (w : Fin n → Fin n → F) (threshold s : Fin n → F) (i : Fin n) : F := (∑ j, w i j * s j) - threshold i

/-- No unit would change: a unit with positive input is true, one with negative input is false. -/
def Stable (w : Fin n → Fin n → F) (threshold : Fin n → F) (b : Fin n → Bool) : Prop :=
  ∀ i, (0 < field w threshold (pm b) i → b i = true) ∧ (field w threshold (pm b) i < 0 → b i = false)

/-- The energy of a pattern. -/
def energy (w : Fin n → Fin n → F) (threshold s : Fin n → F) : F :=
  -(1 / 2) * (∑ i, ∑ j, w i j * s i * s j) + ∑ i, threshold i * s i

/-- Symmetric weights without self-feedback. -/
def Hebb (w : Fin n → Fin n → F) : Prop := (∀ i j, w i j = w j i) ∧ ∀ i, w i i = 0

/-! ## Signs -/

theorem sgn_cases (x : F) : (0 < x ∧ sgn x = 1) ∨ (x < 0 ∧ sgn x = -1) ∨ (x = 0 ∧ sgn x = 0) := by
  unfold sgn
  rcases lt_trichotomy x 0 with h | h | h
  · right; left; exact ⟨h, by rw [if_neg (not_lt.2 (le_of_lt h)), if_pos h]⟩
  · right; right; subst h; simp
  · left; exact ⟨h, if_pos h⟩

theorem boolToSign_eq (p : Fin n → Int) : (boolToSign p : Fin n → F) = pm fun i => decide (0 < p i) := by
  funext i
  unfold boolToSign pm
  by_cases h : 0 < p i
  · have h1 : (1 : F) ≤ (p i : F) := by exact_mod_cast h
    have h2 : (0 : F) < (p i : F) - 1 / 2 := by linarith
    simp only [h, decide_true, if_true]
    unfold sgn; rw [if_pos h2]
  · have h1 : (p i : F) ≤ 0 := by exact_mod_cast (by omega : p i ≤ 0)
    have h2 : (p i : F) - 1 / 2 < 0 := by linarith
    simp only [h, decide_false, Bool.false_eq_true, if_false]
    unfold sgn; rw [if_neg (by linarith), if_pos h2]

theorem signToBool_pm (b : Fin n → Bool) : signToBool (pm b : Fin n → F) = b := by
  funext i
  unfold signToBool pm
  cases b i <;> simp

/-! ## Training -/

theorem hebb_train (s : St F n) (hs : ∀ w, s.weights = some w → ∀ i j, w i j = w j i) (x : List (Fin n → Int)) :
    ∀ w, (s.train x).weights = some w → ∀ i j, w i j = w j i := by
  unfold St.train
  induction x generalizing s with
  | nil => exact hs
  | cons p x ih =>
    rw [List.foldl_cons]
    apply ih
    intro w hw i j
    simp only [St.trainOne, Option.some.injEq] at hw
    subst hw
    have : (s.weights.getD fun _ _ => 0) i j = (s.weights.getD fun _ _ => 0) j i := by
      cases h : s.weights with
      | none => rfl
      | some w => exact hs w h i j
    simp only [this, mul_comm]

theorem train_all_hebb (cs : List (List (Fin n → Int))) (s' : St F n)
    (h : (cs.foldl (fun s x => s.train x) (St.new F n)).stop = some s') (w : Fin n → Fin n → F)
    (hw : s'.weights = some w) : Hebb w := by
  have hsym : ∀ (cs : List (List (Fin n → Int))) (s : St F n),
      (∀ w, s.weights = some w → ∀ i j, w i j = w j i) →
      ∀ w, (cs.foldl (fun s x => s.train x) s).weights = some w → ∀ i j, w i j = w j i := by
    intro cs
    induction cs with
    | nil => intro s hs; exact hs
    | cons x cs ih => intro s hs; exact ih _ (hebb_train s hs x)
  have hsym := hsym cs (St.new F n) (by intro w hw; cases hw)
  generalize cs.foldl (fun s x => s.train x) (St.new F n) = s at h hsym
  unfold St.stop at h
  cases hws : s.weights with
  | none =>
    rw [hws] at h
    simp only at h
    split at h
    · cases h; rw [hws] at hw; cases hw
    · cases h
  | some w0 =>
    rw [hws] at h
    simp only [Option.some.injEq] at h
    subst h
    simp only [Option.some.injEq] at hw
    subst hw
    refine ⟨fun i j => ?_, fun i => by simp⟩
    by_cases hij : i = j
    · simp [hij]
    · have hji : ¬ j = i := fun e => hij e.symm
      simp only [hij, hji, if_false]
      exact hsym w0 hws i j

/-- C58 (Hebb's rule): after training with any chunks the weights between two units are the mean products of the
stored patterns, times the number of patterns divided by the number of units; there is no self-feedback. -/
theorem weights_correct (cs : List (List (Fin n → Int))) (hne : cs.flatten ≠ []) :
    (cs.foldl (fun s x => s.train x) (St.new F n)).stop =
      some ⟨some fun i j => if i = j then 0 else
        (cs.flatten.map fun p => (pm (fun k => decide (0 < p k)) i * pm (fun k => decide (0 < p k)) j : F)).sum / (n : F),
        cs.flatten.length⟩ := by
  have hflat : ∀ (cs : List (List (Fin n → Int))) (s : St F n),
      cs.foldl (fun s x => s.train x) s = cs.flatten.foldl (fun s p => s.trainOne p) s := by
    intro cs
    induction cs with
    | nil => intro s; rfl
    | cons x cs ih => intro s; rw [List.foldl_cons, ih, List.flatten_cons, List.foldl_append]; rfl
  have hrun : ∀ (x : List (Fin n → Int)) (s : St F n), x ≠ [] ∨ s.weights ≠ none →
      x.foldl (fun s p => s.trainOne p) s = ⟨some fun i j => (s.weights.getD fun _ _ => 0) i j +
        (x.map fun p => (pm (fun k => decide (0 < p k)) i * pm (fun k => decide (0 < p k)) j : F)).sum / (n : F),
        s.numPatterns + x.length⟩ := by
    intro x
    induction x with
    | nil =>
      intro s h
      obtain ⟨w, m⟩ := s
      cases w with
      | none => simp at h
      | some w => simp
    | cons p x ih =>
      intro s _
      rw [List.foldl_cons, ih _ (Or.inr (by simp [St.trainOne]))]
      simp only [St.trainOne, Option.getD_some, List.map_cons, List.sum_cons, List.length_cons, boolToSign_eq]
      congr 1
      · congr 1
        funext i j
        rw [add_div, add_assoc]
      · omega
  rw [hflat, hrun _ _ (Or.inl hne)]
  simp [St.stop, St.new]

/-! ## The energy falls -/

theorem energy_flip (w : Fin n → Fin n → F) (hw : Hebb w) (threshold s : Fin n → F) (r : Fin n) (v : F) :
    energy w threshold (fun i => if i = r then v else s i) =
      energy w threshold s - (v - s r) * field w threshold s r := by
  obtain ⟨hsym, hdiag⟩ := hw
  let δ : Fin n → F := fun i => if i = r then v - s r else 0
  have hs : (fun i => if i = r then v else s i) = fun i => s i + δ i := by
    funext i
    by_cases h : i = r
    · subst h; simp [δ]
    · simp [δ, h]
  have hδ : ∀ g : Fin n → F, ∑ i, g i * δ i = g r * (v - s r) := by
    intro g
    simp only [δ, mul_ite, mul_zero, Finset.sum_ite_eq', Finset.mem_univ, if_true]
  rw [hs]
  unfold energy field
  have e1 : ∑ i, threshold i * (s i + δ i) = ∑ i, threshold i * s i + threshold r * (v - s r) := by
    rw [← hδ, ← Finset.sum_add_distrib]
    exact Finset.sum_congr rfl fun i _ => by ring
  have e2 : ∑ i, ∑ j, w i j * (s i + δ i) * (s j + δ j) =
      ∑ i, ∑ j, w i j * s i * s j + 2 * ((∑ j, w r j * s j) * (v - s r)) := by
    have a1 : ∀ i, ∑ j, w i j * (s i + δ i) * (s j + δ j) =
        ∑ j, w i j * s i * s j + (∑ j, w i j * s j) * δ i + (w i r * (v - s r)) * s i + (w i r * (v - s r)) * δ i := by
      intro i
      have : ∀ j, w i j * (s i + δ i) * (s j + δ j) =
          w i j * s i * s j + w i j * s j * δ i + (w i j * s i) * δ j + (w i j * δ i) * δ j := by intro j; ring
      simp only [this, Finset.sum_add_distrib, hδ, Finset.sum_mul]
      ring
    simp only [a1, Finset.sum_add_distrib, hδ, hdiag]
    have a2 : ∑ i, w i r * (v - s r) * s i = (∑ j, w r j * s j) * (v - s r) := by
      rw [Finset.sum_mul]
      exact Finset.sum_congr rfl fun i _ => by rw [hsym i r]; ring
    rw [a2]; ring
  rw [e1, e2]; ring

/-- An update leaves everything as it is, or changes one unit and lowers the energy. -/
theorem update_spec (w : Fin n → Fin n → F) (hw : Hebb w) (threshold : Fin n → F) (c : Bool) (b : Fin n → Bool)
    (r : Fin n) :
    ∃ b', update w threshold (c, pm b) r = (c && decide (b' = b), pm b') ∧
      (b' ≠ b → energy w threshold (pm b') < energy w threshold (pm b)) ∧
      (b' = b → (0 < field w threshold (pm b) r → b r = true) ∧ (field w threshold (pm b) r < 0 → b r = false)) := by
  unfold update
  simp only
  have hf : (∑ j, w r j * pm b j) - threshold r = field w threshold (pm b) r := rfl
  rw [hf]
  have hne : (1 : F) ≠ 0 := one_ne_zero
  have h11 : (1 : F) ≠ -1 := by
    intro h
    have : (0 : F) < 1 := zero_lt_one
    linarith
  rcases sgn_cases (field w threshold (pm b) r) with ⟨h, e⟩ | ⟨h, e⟩ | ⟨h, e⟩
  · rw [e, if_neg hne]
    by_cases hb : b r = true
    · refine ⟨b, ?_, fun hc => absurd rfl hc, fun _ => ⟨fun _ => hb, fun hlt => absurd hlt (not_lt.2 (le_of_lt h))⟩⟩
      have : pm b r = (1 : F) := by simp [pm, hb]
      simp [this]
    · have hb : b r = false := by simpa using hb
      have hp : pm b r = (-1 : F) := by simp [pm, hb]
      have hpm : (pm (fun i => if i = r then true else b i) : Fin n → F) = fun i => if i = r then 1 else pm b i := by
        funext i; by_cases hi : i = r <;> simp [pm, hi]
      have hne' : (fun i => if i = r then true else b i) ≠ b := by
        intro hc; have := congrFun hc r; simp [hb] at this
      refine ⟨fun i => if i = r then true else b i, ?_, fun _ => ?_, fun hc => absurd hc hne'⟩
      · rw [hpm, if_pos (by rw [hp]; exact fun hc => h11 hc.symm), decide_eq_false hne', Bool.and_false]
      · rw [hpm, energy_flip w hw, hp]
        have : (0 : F) < (1 - -1) * field w threshold (pm b) r := mul_pos (by norm_num) h
        linarith
  · rw [e, if_neg (neg_ne_zero.2 hne)]
    by_cases hb : b r = true
    · have hp : pm b r = (1 : F) := by simp [pm, hb]
      have hpm : (pm (fun i => if i = r then false else b i) : Fin n → F) = fun i => if i = r then -1 else pm b i := by
        funext i; by_cases hi : i = r <;> simp [pm, hi]
      have hne' : (fun i => if i = r then false else b i) ≠ b := by
        intro hc; have := congrFun hc r; simp [hb] at this
      refine ⟨fun i => if i = r then false else b i, ?_, fun _ => ?_, fun hc => absurd hc hne'⟩
      · rw [hpm, if_pos (by rw [hp]; exact h11), decide_eq_false hne', Bool.and_false]
      · rw [hpm, energy_flip w hw, hp]
        have : (0 : F) < (-1 - 1) * field w threshold (pm b) r := mul_pos_of_neg_of_neg (by norm_num) h
        linarith
    · have hb : b r = false := by simpa using hb
      refine ⟨b, ?_, fun hc => absurd rfl hc, fun _ => ⟨fun hlt => absurd hlt (not_lt.2 (le_of_lt h)), fun _ => hb⟩⟩
      have : pm b r = (-1 : F) := by simp [pm, hb]
      simp [this]
  · rw [e, if_pos rfl]
    exact ⟨b, by simp, fun hc => absurd rfl hc, fun _ => ⟨fun hlt => by rw [h] at hlt; exact absurd hlt (lt_irrefl _),
      fun hlt => by rw [h] at hlt; exact absurd hlt (lt_irrefl _)⟩⟩

theorem fold_spec (w : Fin n → Fin n → F) (hw : Hebb w) (threshold : Fin n → F) (order : List (Fin n)) :
    ∀ (c : Bool) (b : Fin n → Bool), ∃ c' b', order.foldl (update w threshold) (c, pm b) = (c', pm b') ∧
      energy w threshold (pm b') ≤ energy w threshold (pm b) ∧
      (c' = false → c = true → energy w threshold (pm b') < energy w threshold (pm b)) ∧
      (c' = true → c = true ∧ b' = b ∧ ∀ r ∈ order, (0 < field w threshold (pm b) r → b r = true) ∧
        (field w threshold (pm b) r < 0 → b r = false)) := by
  induction order with
  | nil =>
    intro c b
    exact ⟨c, b, rfl, le_refl _, fun h1 h2 => absurd (h1.symm.trans h2) (by simp), fun h => ⟨h, rfl, by simp⟩⟩
  | cons r order ih =>
    intro c b
    obtain ⟨b1, e1, lt1, st1⟩ := update_spec w hw threshold c b r
    rw [List.foldl_cons, e1]
    obtain ⟨c', b', e2, le2, lt2, st2⟩ := ih (c && decide (b1 = b)) b1
    refine ⟨c', b', e2, ?_, ?_, ?_⟩
    · by_cases h : b1 = b
      · rw [← h]; exact le2
      · exact le_trans le2 (le_of_lt (lt1 h))
    · intro hc' hc
      by_cases h : b1 = b
      · rw [← h]; exact lt2 hc' (by simp [hc, h])
      · exact lt_of_le_of_lt le2 (lt1 h)
    · intro hc'
      obtain ⟨h1, h2, h3⟩ := st2 hc'
      simp only [Bool.and_eq_true, decide_eq_true_eq] at h1
      obtain ⟨h1, h4⟩ := h1
      subst h4
      refine ⟨h1, h2, fun r' hr' => ?_⟩
      rcases List.mem_cons.1 hr' with rfl | hr'
      · exact st1 rfl
      · exact h3 r' hr'

/-- The number of patterns with a lower energy. -/
def level (w : Fin n → Fin n → F) (threshold : Fin n → F) (b : Fin n → Bool) : Nat :=
  (Finset.univ.filter fun b' : Fin n → Bool => energy w threshold (pm b') < energy w threshold (pm b)).card

theorem level_lt (w : Fin n → Fin n → F) (threshold : Fin n → F) {b b' : Fin n → Bool}
    (h : energy w threshold (pm b') < energy w threshold (pm b)) : level w threshold b' < level w threshold b := by
  apply Finset.card_lt_card
  rw [Finset.ssubset_iff_of_subset]
  · exact ⟨b', by simpa using h, by simp⟩
  · intro x hx
    simp only [Finset.mem_filter, Finset.mem_univ, true_and] at hx ⊢
    exact lt_trans hx h

theorem level_bound (w : Fin n → Fin n → F) (threshold : Fin n → F) (b : Fin n → Bool) :
    level w threshold b < 2 ^ n := by
  have : level w threshold b < (Finset.univ : Finset (Fin n → Bool)).card := by
    apply Finset.card_lt_card
    rw [Finset.ssubset_iff_of_subset (Finset.subset_univ _)]
    exact ⟨b, by simp, by simp⟩
  simpa using this

theorem loop_spec (w : Fin n → Fin n → F) (hw : Hebb w) (threshold : Fin n → F) (orders : Nat → List (Fin n))
    (hord : ∀ k i, i ∈ orders k) : ∀ (fuel k : Nat) (b : Fin n → Bool), level w threshold b < fuel →
    ∃ b', loop w threshold orders fuel k (pm b) = some (pm b') ∧ Stable w threshold b' ∧
      energy w threshold (pm b') ≤ energy w threshold (pm b) ∧ (Stable w threshold b → b' = b) := by
  intro fuel
  induction fuel with
  | zero => intro k b h; omega
  | succ fuel ih =>
    intro k b h
    obtain ⟨c', b1, e1, le1, lt1, st1⟩ := fold_spec w hw threshold (orders k) true b
    have hstab : Stable w threshold b → b1 = b ∧ c' = true := by
      intro hs
      have : ∀ order : List (Fin n), order.foldl (update w threshold) (true, pm b) = (true, pm b) := by
        intro order
        induction order with
        | nil => rfl
        | cons r order ih2 =>
          rw [List.foldl_cons]
          obtain ⟨b2, e2, _, _⟩ := update_spec w hw threshold true b r
          have hb2 : update w threshold (true, pm b) r = (true, pm b) := by
            unfold update
            simp only
            have hf : (∑ j, w r j * pm b j) - threshold r = field w threshold (pm b) r := rfl
            rw [hf]
            rcases sgn_cases (field w threshold (pm b) r) with ⟨h, e⟩ | ⟨h, e⟩ | ⟨h, e⟩
            · have := (hs r).1 h
              rw [e]; simp [pm, this]
            · have := (hs r).2 h
              rw [e]; simp [pm, this]
            · rw [e, if_pos rfl]
          rw [hb2]; exact ih2
      rw [this] at e1
      have h1 := congrArg Prod.fst e1
      have h2 := congrArg Prod.snd e1
      simp only at h1 h2
      refine ⟨?_, h1.symm⟩
      rw [← signToBool_pm (F := F) b1, ← h2, signToBool_pm]
    unfold loop
    simp only [sweep, e1]
    cases c' with
    | true =>
      obtain ⟨_, rfl, h3⟩ := st1 rfl
      exact ⟨b1, by simp, fun i => h3 i (hord k i), le_refl _, fun _ => rfl⟩
    | false =>
      have hlt := lt1 rfl rfl
      obtain ⟨b', e, s, le, _⟩ := ih (k + 1) b1 (by have := level_lt w threshold hlt; omega)
      exact ⟨b', by simpa using e, s, le_trans le le1, fun hs => by have := (hstab hs).2; cases this⟩

/-- C58: for every trained network, pattern and thresholds, and however the units are ordered in each pass, retrieval
ends after at most `2 ^ n` passes with a stable pattern. A pattern that is already stable is returned unchanged. -/
theorem retrieval_terminates (cs : List (List (Fin n → Int))) (s' : St F n)
    (h : (cs.foldl (fun s x => s.train x) (St.new F n)).stop = some s') (w : Fin n → Fin n → F)
    (hw : s'.weights = some w) (threshold : Fin n → F) (orders : Nat → List (Fin n))
    (hord : ∀ k, (orders k).Perm (List.finRange n)) (pattern : Fin n → Int) :
    ∃ b, (∀ fuel, 2 ^ n ≤ fuel → labelOne w threshold orders fuel pattern = some b) ∧ Stable w threshold b ∧
      (Stable w threshold (fun i => decide (0 < pattern i)) → b = fun i => decide (0 < pattern i)) := by
  have hw := train_all_hebb cs s' h w hw
  have hord' : ∀ k i, i ∈ orders k := fun k i => (hord k).mem_iff.2 (List.mem_finRange i)
  obtain ⟨b, e, st, _, same⟩ := loop_spec w hw threshold orders hord' (2 ^ n) 0 (fun i => decide (0 < pattern i))
    (level_bound w threshold _)
  refine ⟨b, fun fuel hf => ?_, st, same⟩
  have mono : ∀ (f k : Nat) (s r : Fin n → F), loop w threshold orders f k s = some r →
      ∀ f', f ≤ f' → loop w threshold orders f' k s = some r := by
    intro f
    induction f with
    | zero => intro k s r h; cases h
    | succ f ih =>
      intro k s r h f' hf'
      obtain ⟨f', rfl⟩ : ∃ g, f' = g + 1 := ⟨f' - 1, by omega⟩
      unfold loop at h ⊢
      simp only at h ⊢
      split at h
      · rename_i hc; rw [if_pos hc]; exact h
      · rename_i hc; rw [if_neg hc]; exact ih _ _ _ h _ (by omega)
  unfold labelOne
  rw [boolToSign_eq, mono _ _ _ _ e fuel hf, Option.map_some, signToBool_pm]

/-- C58: the energy of the pattern returned is not larger than the energy of the pattern given. -/
theorem retrieval_energy (w : Fin n → Fin n → F) (hw : Hebb w) (threshold : Fin n → F) (orders : Nat → List (Fin n))
    (hord : ∀ k, (orders k).Perm (List.finRange n)) (pattern : Fin n → Int) :
    ∃ b, labelOne w threshold orders (2 ^ n) pattern = some b ∧
      energy w threshold (pm b) ≤ energy w threshold (pm fun i => decide (0 < pattern i)) := by
  have hord' : ∀ k i, i ∈ orders k := fun k i => (hord k).mem_iff.2 (List.mem_finRange i)
  obtain ⟨b, e, _, le, _⟩ := loop_spec w hw threshold orders hord' (2 ^ n) 0 (fun i => decide (0 < pattern i))
    (level_bound w threshold _)
  refine ⟨b, ?_, le⟩
  unfold labelOne
  rw [boolToSign_eq, e, Option.map_some, signToBool_pm]

/-- Stopping the training of a network that has seen no pattern raises. -/
theorem stop_without_patterns : (St.new F (n + 1)).stop = none := by
  simp [St.stop, St.new]

/-! ## Examples -/

/-- A network of three units with one pattern. -/
def exNet : St Rat 3 := (St.new Rat 3).train [![1, 0, 1]]

example : ∃ s w, exNet.stop = some s ∧ s.weights = some w ∧ w 0 2 = 1 / 3 ∧ w 0 1 = -1 / 3 := by
  refine ⟨_, _, rfl, rfl, ?_, ?_⟩ <;> decide +kernel

example : (labelOne (fun i j => if i = j then 0 else ![1, -1, 1] i * ![1, -1, 1] j) (fun _ => (0 : Rat))
    (fun _ => [2, 0, 1]) (2 ^ 3) ![1, 1, 1]).map (fun b => (b 0, b 1, b 2)) = some (true, false, true) := by decide +kernel

end Mdp.Hopfield
