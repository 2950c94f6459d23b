import Verif.Xsfa.Model
import Verif.Num.CovProps
import Mathlib.Tactic.Linarith
import Mathlib.Tactic.Positivity

/-!
# XSFA nodes (C248-C251)
-/

namespace Mdp.Xsfa

open Mdp.Cov

/-! ## The order of training -/

/-- Training phases of a trainable node. -/
def ownPhases (t : Tree) : Nat := if t.trainable then t.phases else 0

theorem extractor_phases (exp : Tree) (o S : Nat) :
    (extractor exp o S).phases = if S ≠ 0 ∧ S = o - 1 then 1 else ownPhases exp + 5 := by
  unfold extractor ownPhases
  by_cases h0 : S = 0
  · subst h0
    simp [Tree.phases, Tree.trainable, simpleNode, fixedNode]
    omega
  · by_cases h1 : S = o - 1
    · rw [if_neg h0, if_pos h1, if_pos ⟨h0, h1⟩]
      simp [Tree.phases, simpleNode, fixedNode]
    · simp [h0, h1, Tree.phases, Tree.trainable, simpleNode, fixedNode]
      omega

theorem extractor_pos (exp : Tree) (o S : Nat) : 1 ≤ (extractor exp o S).phases := by
  rw [extractor_phases]
  split <;> omega

/-- Number of training phases of the first `j` extractors. -/
def cum (f : Nat → Nat) (j : Nat) : Nat := ((List.range j).map f).sum

theorem cum_succ (f : Nat → Nat) (j : Nat) : cum f (j + 1) = cum f j + f j := by
  simp [cum, List.range_succ]

theorem cum_mono {f : Nat → Nat} (h : ∀ i, 1 ≤ f i) {i j : Nat} (hij : i < j) : cum f i < cum f j := by
  induction j with
  | zero => omega
  | succ j ih =>
    rw [cum_succ]
    have := h j
    rcases Nat.lt_succ_iff_lt_or_eq.1 hij with h1 | rfl
    · have := ih h1
      omega
    · omega

theorem mem_mods (exp : Tree) (o c : Nat) :
    c ∈ phasesMods exp o ↔ ∃ i, i + 1 < o ∧ c = cum (fun S => (extractor exp o S).phases) (i + 1) := by
  unfold phasesMods
  simp only [List.mem_map, List.mem_range, trainingPhases, List.length_dropLast, List.length_map, List.length_range]
  constructor
  · rintro ⟨i, hi, rfl⟩
    refine ⟨i, by omega, ?_⟩
    rw [← List.map_take, List.take_range, Nat.min_eq_left (by omega)]
    rfl
  · rintro ⟨i, hi, rfl⟩
    refine ⟨i, by omega, ?_⟩
    rw [← List.map_take, List.take_range, Nat.min_eq_left (by omega)]
    rfl

/-- C248: after `k` training phases the flow has an extractor for each source until the first that is not finished; all before it have been
trained for exactly their number of phases, and it for the phases left. -/
theorem xsfa_schedule (exp : Tree) (o : Nat) (ho : 1 ≤ o) (k : Nat)
    (hk : k ≤ ((List.range o).map fun S => (extractor exp o S).phases).sum) :
    ∃ s j, after exp o k = some s ∧ s.phase = k ∧ s.nExtracted = j ∧ j < o ∧
      s.flow = (List.range j).map (fun S => (extractor exp o S).phases) ++
        [k - ((List.range j).map fun S => (extractor exp o S).phases).sum] ∧
      ((List.range j).map fun S => (extractor exp o S).phases).sum ≤ k ∧
      (k < ((List.range (j + 1)).map fun S => (extractor exp o S).phases).sum ∨
        j + 1 = o ∧ k = ((List.range o).map fun S => (extractor exp o S).phases).sum) := by
  have hpos : ∀ i, 1 ≤ (fun S => (extractor exp o S).phases) i := fun i => extractor_pos exp o i
  show ∃ (s : St) (j : Nat), _ ∧ _ ∧ _ ∧ _ ∧ s.flow = _ ++ [k - cum (fun S => (extractor exp o S).phases) j] ∧
    cum (fun S => (extractor exp o S).phases) j ≤ k ∧ (k < cum (fun S => (extractor exp o S).phases) (j + 1) ∨
      j + 1 = o ∧ k = cum (fun S => (extractor exp o S).phases) o)
  change k ≤ cum (fun S => (extractor exp o S).phases) o at hk
  induction k with
  | zero =>
    refine ⟨St.init, 0, rfl, rfl, rfl, ho, rfl, Nat.zero_le _, Or.inl ?_⟩
    rw [cum_succ]
    have := extractor_pos exp o 0
    omega
  | succ k ih =>
    obtain ⟨s, j, hs, hp, hn, hj, hf, hle, hor⟩ := ih (by omega)
    have hlt : k < cum (fun S => (extractor exp o S).phases) (j + 1) := by
      rcases hor with h | ⟨rfl, h⟩
      · exact h
      · omega
    have hstep := cum_succ (fun S => (extractor exp o S).phases) j
    have hafter : after exp o (k + 1) = St.stop exp o s := by rw [after, hs, Option.bind_some]
    have hlast : s.flow.getLast? = some (k - cum (fun S => (extractor exp o S).phases) j) := by
      rw [hf, List.getLast?_append]
      rfl
    have hdrop : s.flow.dropLast = (List.range j).map (fun S => (extractor exp o S).phases) := by
      rw [hf, List.dropLast_append_of_ne_nil (by simp)]
      simp
    rw [hafter]
    unfold St.stop
    rw [hlast]
    simp only [hn, hp, hdrop]
    rw [if_pos (by omega)]
    by_cases hmid : k + 1 = cum (fun S => (extractor exp o S).phases) (j + 1)
    · by_cases hend : j + 1 = o
      · rw [if_neg (by omega)]
        refine ⟨_, j, rfl, rfl, rfl, hj, ?_, by omega, Or.inr ⟨hend, hmid.trans (congrArg _ hend)⟩⟩
        simp only
        congr 2
        omega
      · rw [if_pos ⟨(mem_mods exp o _).2 ⟨j, by omega, hmid⟩, by omega⟩]
        refine ⟨_, j + 1, rfl, rfl, rfl, by omega, ?_, by omega, Or.inl ?_⟩
        · simp only
          rw [List.range_succ, List.map_append, List.map_singleton]
          have h1 : k - cum (fun S => (extractor exp o S).phases) j + 1 = (extractor exp o j).phases := by omega
          have h2 : k + 1 - cum (fun S => (extractor exp o S).phases) (j + 1) = 0 := by omega
          rw [h1, h2]
        · rw [hmid]
          exact cum_mono hpos (Nat.lt_succ_self _)
    · rw [if_neg]
      · refine ⟨_, j, rfl, rfl, rfl, hj, ?_, by omega, Or.inl (by omega)⟩
        simp only
        congr 2
        omega
      · rintro ⟨hm, -⟩
        obtain ⟨i, hi, he⟩ := (mem_mods exp o _).1 hm
        rcases lt_trichotomy i j with h | rfl | h
        · rcases Nat.lt_or_ge (i + 1) j with h' | h'
          · have := cum_mono hpos h'
            omega
          · have : i + 1 = j := by omega
            rw [this] at he
            omega
        · exact hmid he
        · have := cum_mono hpos (Nat.succ_lt_succ h)
          simp only [Nat.succ_eq_add_one] at this
          omega

/-- C248: at the end every source has its extractor and all of them are trained; there is no further phase. -/
theorem xsfa_schedule_end (exp : Tree) (o : Nat) (ho : 1 ≤ o) :
    (∃ s, after exp o ((List.range o).map fun S => (extractor exp o S).phases).sum = some s ∧
      s.flow = (List.range o).map fun S => (extractor exp o S).phases) ∧
    after exp o (((List.range o).map fun S => (extractor exp o S).phases).sum + 1) = none := by
  obtain ⟨s, j, hs, hp, hn, hj, hf, hle, hor⟩ := xsfa_schedule exp o ho _ (Nat.le_refl _)
  have hpos : ∀ i, 1 ≤ (fun S => (extractor exp o S).phases) i := fun i => extractor_pos exp o i
  have hjo : j + 1 = o := by
    rcases hor with h | ⟨h, -⟩
    · by_contra hne
      have := cum_mono hpos (show j + 1 < o by omega)
      unfold cum at this
      omega
    · exact h
  have hfl : s.flow = (List.range o).map fun S => (extractor exp o S).phases := by
    rw [hf, ← hjo, List.range_succ, List.map_append, List.sum_append, List.map_singleton, List.sum_singleton, Nat.add_sub_cancel_left]
  refine ⟨⟨s, hs, hfl⟩, ?_⟩
  rw [after, hs, Option.bind_some, St.stop, hfl, ← hjo, List.range_succ, List.map_append, List.getLast?_append]
  simp only [List.map_singleton, List.getLast?_singleton, Option.some_or]
  rw [if_neg]
  rw [hn, hjo]
  omega

/-- C248: number of phases: every extractor but the last has five and those of the expansion, the last one has one, unless it is the only
one. -/
theorem xsfa_phases (exp : Tree) (o : Nat) (ho : 1 ≤ o) :
    (trainingPhases exp o).sum = if o = 1 then ownPhases exp + 5 else (o - 1) * (ownPhases exp + 5) + 1 := by
  have h : ∀ j, j < o → cum (fun S => (extractor exp o S).phases) j = j * (ownPhases exp + 5) := by
    intro j hj
    induction j with
    | zero => simp [cum]
    | succ j ih =>
      rw [cum_succ, ih (by omega)]
      rw [extractor_phases, if_neg (by omega)]
      ring
  obtain ⟨j, rfl⟩ : ∃ j, o = j + 1 := ⟨o - 1, by omega⟩
  show cum (fun S => (extractor exp (j + 1) S).phases) (j + 1) = _
  rw [cum_succ, h j (by omega)]
  rw [extractor_phases]
  by_cases hj : j = 0
  · subst hj
    simp
  · rw [if_pos (by omega), if_neg (by omega)]
    simp

/-- Three sources with the polynomial expansion: 11 phases, five for the first extractor. -/
example : trainingPhases fixedNode 3 = [5, 5, 1] ∧ (after fixedNode 3 6).map St.flow = some [5, 1] ∧
    (after fixedNode 3 11).map St.flow = some [5, 5, 1] ∧ (after fixedNode 3 12).isNone := by decide +kernel

end Mdp.Xsfa
