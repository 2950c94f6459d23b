import Mathlib.Algebra.Order.Field.Rat
import Mathlib.Data.Rat.Floor
import Mathlib.Tactic.Linarith

/-!
# Model of `NoiseNode` and `NormalNoiseNode` (mdp/nodes/misc_nodes.py 639-775), C297

Data are lists of rows of rational numbers, all of the same length. The noise function is a parameter; it is asked for an array of the shape of the data
and returns one (`HasShape`). `execute` has cast the data already. -/

namespace Mdp.Noise

abbrev Mat := List (List ℚ)

inductive Dtype where
  | float
  /-- integers of any size and sign; overflow is not modelled -/
  | int
deriving DecidableEq

/-- Conversion to an integer: towards zero. -/
def trunc (x : ℚ) : ℚ := if 0 ≤ x then (⌊x⌋ : ℚ) else -(⌊-x⌋ : ℚ)

/-- `_refcast` (mdp/signal_node.py 561-563). -/
def refcast (t : Dtype) (m : Mat) : Mat :=
  match t with
  | .float => m
  | .int => m.map (·.map trunc)

/-- Elementwise operation on two arrays. -/
def zip2 (f : ℚ → ℚ → ℚ) (a b : Mat) : Mat := List.zipWith (List.zipWith f) a b

/-- The constructor (677-682): the text is kept, or NodeException. -/
def valid (noiseType : String) : Bool := noiseType = "additive" || noiseType = "multiplicative"

/-- `NoiseNode._execute` (702-708) for a noise type that the constructor accepted: the array and its type. -/
def noiseExecute (t : Dtype) (noiseType : String) (noise : Nat → Nat → Mat) (cols : Nat) (x : Mat) : Mat × Dtype :=
  let n := refcast t (noise x.length cols)
  if noiseType = "additive" then (zip2 (· + ·) x n, t)
  else (zip2 (fun a b => a * (1 + b)) x n, .float)

/-- `NormalNoiseNode._execute` (771-775): `z` is the array of standard normal numbers, `mean` and `scale` are `noise_args`. -/
def normalExecute (t : Dtype) (z : Nat → Nat → Mat) (mean scale : ℚ) (cols : Nat) (x : Mat) : Mat × Dtype :=
  let n := refcast t ((z x.length cols).map (·.map fun v => v * scale + mean))
  (zip2 (· + ·) x n, t)

/-! ## Specification -/

def HasShape (m : Mat) (rows cols : Nat) : Prop := m.length = rows ∧ ∀ r ∈ m, r.length = cols

/-- The entry in row `i` and column `j`. -/
def entry (m : Mat) (i j : Nat) : Option ℚ := (m[i]?).bind (·[j]?)

theorem entry_zip2 (f : ℚ → ℚ → ℚ) (a b : Mat) (i j : Nat) :
    entry (zip2 f a b) i j = match entry a i j, entry b i j with | some x, some y => some (f x y) | _, _ => none := by
  simp only [entry, zip2, List.getElem?_zipWith]
  rcases a[i]? with _ | r
  · rfl
  · rcases b[i]? with _ | s
    · simp only [Option.bind_some, Option.bind_none]
      rcases r[j]? with _ | v <;> rfl
    · simp only [Option.bind_some, List.getElem?_zipWith]
      rcases r[j]? with _ | v <;> rcases s[j]? with _ | w <;> rfl

theorem entry_some {m : Mat} {rows cols i j : Nat} (h : HasShape m rows cols) (hi : i < rows) (hj : j < cols) : ∃ v, entry m i j = some v := by
  have hi' : i < m.length := by rw [h.1]; exact hi
  have hr := h.2 _ (List.getElem_mem hi')
  simp only [entry, List.getElem?_eq_getElem hi', Option.bind_some]
  rw [List.getElem?_eq_getElem (by rw [hr]; exact hj)]
  exact ⟨_, rfl⟩

theorem zip2_shape (f : ℚ → ℚ → ℚ) {a b : Mat} {rows cols : Nat} (ha : HasShape a rows cols) (hb : HasShape b rows cols) : HasShape (zip2 f a b) rows cols := by
  refine ⟨by simp [zip2, ha.1, hb.1], ?_⟩
  intro r hr
  obtain ⟨i, hi, rfl⟩ := List.getElem_of_mem hr
  simp only [zip2, List.length_zipWith] at hi
  simp only [zip2, List.getElem_zipWith, List.length_zipWith]
  rw [ha.2 _ (List.getElem_mem (by omega)), hb.2 _ (List.getElem_mem (by omega)), Nat.min_self]

theorem refcast_shape (t : Dtype) {m : Mat} {rows cols : Nat} (h : HasShape m rows cols) : HasShape (refcast t m) rows cols := by
  cases t with
  | float => exact h
  | int =>
    refine ⟨by simp [refcast, h.1], ?_⟩
    intro r hr
    obtain ⟨s, hs, rfl⟩ := List.mem_map.1 hr
    simp [h.2 s hs]

/-- C297: exactly two types of noise are accepted. -/
theorem noise_types (s : String) : valid s = true ↔ s = "additive" ∨ s = "multiplicative" := by simp [valid]

/-- C297: with a type of floating point numbers each entry of the output is the entry of the data plus the noise, or times one plus the noise; the shape is that of the data. -/
theorem noise_execute_partial {noise : Nat → Nat → Mat} {x : Mat} {rows cols : Nat} (hx : HasShape x rows cols) (hn : HasShape (noise rows cols) rows cols) :
    HasShape (noiseExecute .float "additive" noise cols x).1 rows cols ∧ HasShape (noiseExecute .float "multiplicative" noise cols x).1 rows cols ∧
    ∀ i j, i < rows → j < cols → ∃ a v, entry x i j = some a ∧ entry (noise rows cols) i j = some v ∧
      entry (noiseExecute .float "additive" noise cols x).1 i j = some (a + v) ∧ entry (noiseExecute .float "multiplicative" noise cols x).1 i j = some (a * (1 + v)) := by
  have e : x.length = rows := hx.1
  have hne : ¬ ("multiplicative" = "additive") := by decide
  refine ⟨?_, ?_, ?_⟩
  · simp only [noiseExecute, refcast, e, if_true]
    exact zip2_shape _ hx hn
  · simp only [noiseExecute, refcast, e, if_neg hne]
    exact zip2_shape _ hx hn
  · intro i j hi hj
    obtain ⟨a, ha⟩ := entry_some hx hi hj
    obtain ⟨v, hv⟩ := entry_some hn hi hj
    refine ⟨a, v, ha, hv, ?_, ?_⟩
    · simp only [noiseExecute, refcast, e, if_true, entry_zip2, ha, hv]
    · simp only [noiseExecute, refcast, e, if_neg hne, entry_zip2, ha, hv]

/-- C297: the node for normal noise adds scaled and shifted standard normal noise. -/
theorem normal_execute_partial {z : Nat → Nat → Mat} {x : Mat} {rows cols : Nat} (mean scale : ℚ) (hx : HasShape x rows cols) (hz : HasShape (z rows cols) rows cols) :
    ∀ i j, i < rows → j < cols → ∃ a v, entry x i j = some a ∧ entry (z rows cols) i j = some v ∧
      entry (normalExecute .float z mean scale cols x).1 i j = some (a + (v * scale + mean)) := by
  have e : x.length = rows := hx.1
  intro i j hi hj
  obtain ⟨a, ha⟩ := entry_some hx hi hj
  obtain ⟨v, hv⟩ := entry_some hz hi hj
  refine ⟨a, v, ha, hv, ?_⟩
  have hm : entry ((z rows cols).map (·.map fun v => v * scale + mean)) i j = some (v * scale + mean) := by
    simp only [entry, List.getElem?_map] at hv ⊢
    rcases h : (z rows cols)[i]? with _ | r
    · rw [h] at hv; exact absurd hv (by simp)
    · rw [h] at hv
      simp only [Option.bind_some, Option.map_some] at hv ⊢
      rw [List.getElem?_map, hv]
      rfl
  simp only [normalExecute, refcast, e, entry_zip2, ha, hm]

theorem trunc_small {v : ℚ} (h1 : -1 < v) (h2 : v < 1) : trunc v = 0 := by
  unfold trunc
  split
  · next h => rw [Int.floor_eq_zero_iff.2 ⟨h, h2⟩]; simp
  · next h => rw [Int.floor_eq_zero_iff.2 ⟨by linarith, by linarith⟩]; simp

/-- C297, false: with a type of integers noise between -1 and 1 is no noise: the output is the data. -/
theorem noise_integer_violation {noise : Nat → Nat → Mat} {x : Mat} {rows cols : Nat} (hx : HasShape x rows cols) (hn : HasShape (noise rows cols) rows cols)
    (hs : ∀ r ∈ noise rows cols, ∀ v ∈ r, -1 < v ∧ v < 1) (noiseType : String) :
    ∀ i j, i < rows → j < cols → entry (noiseExecute .int noiseType noise cols x).1 i j = entry x i j := by
  have e : x.length = rows := hx.1
  intro i j hi hj
  obtain ⟨a, ha⟩ := entry_some hx hi hj
  obtain ⟨v, hv⟩ := entry_some hn hi hj
  have hz : entry (refcast .int (noise rows cols)) i j = some 0 := by
    simp only [entry, refcast, List.getElem?_map] at hv ⊢
    rcases h : (noise rows cols)[i]? with _ | r
    · rw [h] at hv; exact absurd hv (by simp)
    · rw [h] at hv
      simp only [Option.bind_some, Option.map_some] at hv ⊢
      have hr : r ∈ noise rows cols := List.mem_of_getElem? h
      have := hs r hr v (List.mem_of_getElem? hv)
      rw [List.getElem?_map, hv, Option.map_some, trunc_small this.1 this.2]
  simp only [noiseExecute, e]
  split <;> simp only [entry_zip2, ha, hz] <;> simp

/-- C297, false: multiplicative noise of a node for integers gives floating point numbers. -/
theorem noise_type_violation (noise : Nat → Nat → Mat) (cols : Nat) (x : Mat) : (noiseExecute .int "multiplicative" noise cols x).2 = .float ∧
    (noiseExecute .int "additive" noise cols x).2 = .int := by
  refine ⟨?_, rfl⟩
  simp only [noiseExecute]
  rw [if_neg (by decide)]

example : (noiseExecute .float "additive" (fun _ _ => [[1 / 2, -1]]) 2 [[3, 4]]).1 = [[7 / 2, 3]] ∧
    (noiseExecute .int "additive" (fun _ _ => [[1 / 2, -3 / 2]]) 2 [[3, 4]]).1 = [[3, 3]] := by decide +kernel
example : HasShape [[3, 4]] 1 2 := ⟨rfl, by simp⟩

end Mdp.Noise
