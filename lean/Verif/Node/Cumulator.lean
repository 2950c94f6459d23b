import Verif.Node.Lemmas2

/-! # Model of `VariadicCumulator` / `Cumulator` (signal_node.py:753-791) -/

namespace Mdp.Node

open Py

/-- A cumulator attribute: a Python list while collecting, an array after `stop_training`. -/
inductive Cell (α : Type) where
  | lst (l : List (Arr α))
  | arr (a : Arr α)

/-- Private data of a cumulator: one attribute per field name, and `self.tlen`
(`Cumulator.__init__`, 764-772; the check that the attribute is not already defined concerns class
definitions only and is left out). -/
structure CumSt (α : Type) where
  cells : List (Cell α)
  tlen : Nat

variable {α : Type}

/-- State set up by the constructor for `F` fields. -/
def cumInit (F : Nat) : CumSt α := { cells := List.replicate F (.lst []), tlen := 0 }

/-- `for field, data in zip(fields, args): getattr(self, field).append(data)` (776-778). An array has
no `append`. -/
def appendFields : List (Cell α) → List (Arr α) → List (Cell α) × Except Err Unit
  | .lst l :: cs, a :: as =>
    let (cs', r) := appendFields cs as
    (.lst (l ++ [a]) :: cs', r)
  | .arr b :: cs, _ :: _ => (.arr b :: cs, .error .attribute)
  | cs, _ => (cs, .ok ())

/-- `numx.concatenate(data, 0)`. For every array `data.length` is the first axis and `cols` stands for
the remaining shape. Concatenating nothing, or arrays of different rank or width, raises; the dtype of
the result is taken from the first array (simplification). -/
def concatenate : List (Arr α) → Except Err (Arr α)
  | [] => .error .value
  | a :: r =>
    if r.all (fun b => b.ndim == a.ndim && b.cols == a.cols) then
      .ok { a with data := a.data ++ r.flatMap (·.data) }
    else .error .value

/-- Concatenating the content of an attribute. If the attribute already is an array (a previous
`stop_training` failed half way) numpy concatenates its rows. -/
def concatCell : Cell α → Except Err (Arr α)
  | .lst l => concatenate l
  | .arr a =>
    if a.nrows = 0 ∨ a.ndim ≤ 1 then .error .value
    else .ok { a with ndim := a.ndim - 1, cols := 0, data := a.data.flatten.map (fun v => [v]) }

/-- `for field in fields: setattr(self, field, concatenate(getattr(self, field), 0))` (782-784). -/
def concatFields : List (Cell α) → List (Cell α) × Except Err Unit
  | [] => ([], .ok ())
  | c :: cs =>
    match concatCell c with
    | .error e => (c :: cs, .error e)
    | .ok a =>
      let (cs', r) := concatFields cs
      (.arr a :: cs', r)

/-- The class returned by `VariadicCumulator(*fields)` (762-786) with `Node`'s identity `_execute`
and `_inverse` (570-586); extra training arguments are arrays. All dtypes are supported. -/
def cumKind : Kind (CumSt α) α (Arr α) where
  trainable := true
  invertible := true
  preserveDim := false
  nPhases := 1
  supported := fun _ => true
  reqArgs := 0
  checkTrainArgs := fun _ _ _ => .ok ()
  trainHook := fun _ st x args =>
    let (cs, r) := appendFields st.cells (x :: args)
    { st := { cells := cs, tlen := st.tlen + x.nrows }, sets := [], res := r }
  stopHook := fun _ st =>
    let (cs, r) := concatFields st.cells
    { st := { st with cells := cs }, sets := [], res := r }
  execHook := fun st x => { st := st, sets := [], res := .ok x }
  invHook := fun st x => { st := st, sets := [], res := .ok x }

/-- `for chunk in chunks: node.train(*chunk)` -/
def trainAll {σ β : Type} (K : Kind σ α β) : List (Arr α × List β) → NodeM σ α β Unit
  | [] => pure ()
  | c :: r => do train K c.1 c.2; trainAll K r

/-! ### Lemmas -/

theorem appendFields_spec (G : List (List (Arr α))) (as : List (Arr α)) :
    appendFields (G.map Cell.lst) as =
      ((G.zipIdx.map fun p => Cell.lst (p.1 ++ (as[p.2]?).toList)), .ok ()) := by
  suffices h : ∀ k (as' : List (Arr α)), (∀ j, as'[k + j]? = as[j]?) →
      appendFields (G.map Cell.lst) as =
      (((G.zipIdx k).map fun p => Cell.lst (p.1 ++ (as'[p.2]?).toList)), .ok ()) from
    h 0 as (by simp)
  induction G generalizing as with
  | nil => intro k as' _; simp [appendFields]
  | cons g G ih =>
    intro k as' hk
    cases as with
    | nil =>
      simp only [List.map_cons, appendFields, List.zipIdx_cons]
      have h0 := hk 0
      simp only [Nat.add_zero, List.getElem?_nil] at h0
      simp only [h0, Option.toList_none, List.append_nil]
      congr 2
      have := ih [] (k + 1) as' (fun j => by have := hk (j + 1); rw [← Nat.add_assoc] at this; simpa [Nat.add_right_comm] using this)
      cases G with
      | nil => simp
      | cons g' G' =>
        simp only [List.map_cons, appendFields] at this
        simpa using this
    | cons a as =>
      simp only [List.map_cons, appendFields, List.zipIdx_cons]
      rw [ih as (k + 1) as' (fun j => by have := hk (j + 1); simpa [Nat.add_right_comm, Nat.add_assoc, Nat.add_comm 1 j] using this)]
      have h0 := hk 0
      simp only [Nat.add_zero, List.getElem?_cons_zero] at h0
      simp [h0]

/-- What field `j` receives from training calls with argument lists `L`. -/
def column (L : List (List (Arr α))) (j : Nat) : List (Arr α) := L.filterMap (fun c => c[j]?)

theorem column_snoc (L : List (List (Arr α))) (c : List (Arr α)) (j : Nat) :
    column (L ++ [c]) j = column L j ++ (c[j]?).toList := by
  unfold column
  rw [List.filterMap_append]
  congr 1

def cellsOf (F : Nat) (L : List (List (Arr α))) : List (Cell α) :=
  (List.range F).map fun j => Cell.lst (column L j)

theorem appendFields_cells (F : Nat) (L : List (List (Arr α))) (c : List (Arr α)) :
    appendFields (cellsOf F L) c = (cellsOf F (L ++ [c]), .ok ()) := by
  have h : cellsOf F L = ((List.range F).map (column L)).map Cell.lst := by
    simp [cellsOf]
  rw [h, appendFields_spec]
  congr 1
  apply List.ext_getElem
  · simp [cellsOf]
  · intro i h1 h2
    simp [cellsOf, column_snoc]

/-- A training call on a cumulator with data that fits. -/
theorem cum_train_step (x : Arr α) (args : List (Arr α)) (s : St (CumSt α) α (Arr α)) (F d t : Nat)
    (L : List (List (Arr α))) (htr : s.training = true) (hph : s.phase = 0)
    (hin : s.inputDim = none ∨ s.inputDim = some d)
    (hdt : (s.dtype = none ∧ x.dtype = t) ∨ s.dtype = some t)
    (hx : x.ndim = 2 ∧ 0 < x.nrows ∧ x.cols = d) (hc : s.st.cells = cellsOf F L) :
    ∃ s', train cumKind x args s = (.ok (), s') ∧ s'.training = true ∧ s'.phase = 0 ∧
      s'.started = true ∧ s'.inputDim = some d ∧ s'.dtype = some t ∧
      s'.st.cells = cellsOf F (L ++ [refcast (some t) x :: args]) ∧
      s'.st.tlen = s.st.tlen + x.nrows := by
  obtain ⟨h1, h2, h3⟩ := hx
  have hci := checkInput_eq cumKind x s t rfl ⟨h1, h2⟩ (by rw [h3]; exact hin)
    (hdt.imp (fun h => ⟨h.1, h.2, rfl⟩) id)
  have h := train_eq cumKind x args s _ rfl htr hci rfl (by simp [hph, cumKind])
  simp only [hph, cumKind, hc, appendFields_cells, logged, runHook, M.bind_def, M.modify_def, runSets,
    M.pure_def, M.lift_def] at h
  exact ⟨_, h, htr, rfl, rfl, by simp [h3], rfl, rfl, rfl⟩

theorem cum_trainAll (chunks : List (Arr α × List (Arr α))) (s : St (CumSt α) α (Arr α)) (F d t : Nat)
    (L : List (List (Arr α))) (htr : s.training = true) (hph : s.phase = 0)
    (hin : s.inputDim = some d) (hdt : s.dtype = some t) (hst : s.started = true)
    (hx : ∀ c ∈ chunks, c.1.ndim = 2 ∧ 0 < c.1.nrows ∧ c.1.cols = d) (hc : s.st.cells = cellsOf F L) :
    ∃ s', trainAll cumKind chunks s = (.ok (), s') ∧ s'.training = true ∧ s'.phase = 0 ∧
      s'.started = true ∧
      s'.st.cells = cellsOf F (L ++ chunks.map (fun c => refcast (some t) c.1 :: c.2)) ∧
      s'.st.tlen = s.st.tlen + (chunks.map (fun c => c.1.nrows)).sum := by
  induction chunks generalizing s L with
  | nil => exact ⟨s, rfl, htr, hph, hst, by simpa using hc, by simp⟩
  | cons c r ih =>
    obtain ⟨s1, h1, h2, h3, h4, h5, h6, h7, h8⟩ := cum_train_step c.1 c.2 s F d t L htr hph
      (.inr hin) (.inr hdt) (hx c (by simp)) hc
    obtain ⟨s2, g1, g2, g3, g4, g5, g6⟩ := ih s1 _ h2 h3 h5 h6 h4 (fun c hc => hx c (by simp [hc])) h7
    refine ⟨s2, ?_, g2, g3, g4, ?_, ?_⟩
    · unfold trainAll; rw [M.bind_def, h1]; exact g1
    · simpa using g5
    · rw [g6, h8]; simp [Nat.add_assoc]

theorem concatFields_spec (C : List (List (Arr α))) (hne : ∀ l ∈ C, l ≠ [])
    (hsame : ∀ l ∈ C, ∀ a ∈ l, ∀ b ∈ l, b.ndim = a.ndim ∧ b.cols = a.cols) :
    ∃ R : List (Arr α), concatFields (C.map Cell.lst) = (R.map Cell.arr, .ok ()) ∧
      R.map (·.data) = C.map (fun l => l.flatMap (·.data)) := by
  induction C with
  | nil => exact ⟨[], rfl, rfl⟩
  | cons l C ih =>
    obtain ⟨R, h1, h2⟩ := ih (fun l hl => hne l (by simp [hl])) (fun l hl => hsame l (by simp [hl]))
    cases l with
    | nil => exact absurd rfl (hne [] (by simp))
    | cons a r =>
      have hall : r.all (fun b => b.ndim == a.ndim && b.cols == a.cols) = true := by
        rw [List.all_eq_true]
        intro b hb
        have := hsame (a :: r) (by simp) a (by simp) b (by simp [hb])
        simp [this]
      refine ⟨{ a with data := a.data ++ r.flatMap (·.data) } :: R, ?_, by simp [h2]⟩
      simp [concatFields, concatCell, concatenate, hall, h1]

theorem cum_stop (s : St (CumSt α) α (Arr α)) (F : Nat) (L : List (List (Arr α)))
    (htr : s.training = true) (hph : s.phase = 0) (hst : s.started = true)
    (hc : s.st.cells = cellsOf F L) (hlen : L ≠ []) (hargs : ∀ c ∈ L, F ≤ c.length)
    (hsame : ∀ c ∈ L, ∀ c' ∈ L, ∀ j < F, ∀ a ∈ c[j]?, ∀ b ∈ c'[j]?, b.ndim = a.ndim ∧ b.cols = a.cols) :
    ∃ (s' : St (CumSt α) α (Arr α)) (R : List (Arr α)), stopTraining cumKind s = (.ok (), s') ∧ s'.training = false ∧ s'.st.tlen = s.st.tlen ∧
      s'.st.cells = R.map Cell.arr ∧
      R.map (·.data) = (List.range F).map (fun j => (column L j).flatMap (·.data)) := by
  obtain ⟨R, h1, h2⟩ := concatFields_spec ((List.range F).map (column L))
    (by
      intro l hl
      obtain ⟨j, hj, rfl⟩ := List.mem_map.1 hl
      rw [List.mem_range] at hj
      obtain ⟨c, r, rfl⟩ := List.exists_cons_of_ne_nil hlen
      have hcl := hargs c (by simp)
      unfold column
      rw [List.filterMap_cons, List.getElem?_eq_getElem (by omega)]
      simp)
    (by
      intro l hl a ha b hb
      obtain ⟨j, hj, rfl⟩ := List.mem_map.1 hl
      rw [List.mem_range] at hj
      obtain ⟨c, hc, hca⟩ := List.mem_filterMap.1 ha
      obtain ⟨c', hc', hcb⟩ := List.mem_filterMap.1 hb
      exact hsame c hc c' hc' j hj a hca b hcb)
  have hcells : s.st.cells = ((List.range F).map (column L)).map Cell.lst := by rw [hc]; simp [cellsOf]
  refine ⟨_, R, stop_eq cumKind s { s with st := { s.st with cells := R.map Cell.arr } } rfl htr hst
    (by simp [hph, cumKind]) ?_, ?_, rfl, rfl, by rw [h2, List.map_map]; rfl⟩
  · simp only [M.bind_def, runHook, cumKind, hcells, h1, M.modify_def, runSets, M.pure_def, M.lift_def]
  · simp [hph, cumKind]

end Mdp.Node
