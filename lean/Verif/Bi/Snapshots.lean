import Mathlib.Data.List.Basic
import Mathlib.Data.List.Sort
import Mathlib.Tactic.Common

/-!
# Snapshots of a flow during training

Models `bimdp/inspection/tracer.py`: `prepare_training_inspection` and
`remove_inspection_residues` (lines 722-801), the loop of `_trace_biflow_training` that loads the
snapshots and fills the table of slides (834-894), `_write_error_frame` (262-289) with the debug branch
of `trace_execution` (205-216), and the training part of `show_training`
(`bimdp/inspection/facade.py` 186-212).
-/

namespace Bi.Snapshots

/-! ### Hooks in the flow -/

/-- The attributes of a flow instance that the module touches: the hook `_stop_training_hook`, the
saved original, `__getstate__`, the four attributes `_snapshot_…_`, the iterables and iterators of a
running training or execution (numbered), and everything else (numbered). -/
inductive Key where
  | hook | savedHook | getstate
  | counter | path | name | methods
  | data (k : Nat)
  | other (k : Nat)
deriving DecidableEq, Repr

/-- Values: the hook of the class, the pickling wrapper, the wrapped `__getstate__`, a number, the list
of method names, or a user value. -/
inductive Val where
  | classHook | wrapper | wrappedGetstate
  | num (n : Nat)
  | keys (l : List Key)
  | user (u : Nat)
deriving DecidableEq, Repr

/-- The instance dictionary of the flow. -/
abbrev Dict := Key → Option Val

def set (d : Dict) (k : Key) (v : Val) : Dict := fun j => if j = k then some v else d j
def del (d : Dict) (k : Key) : Dict := fun j => if j = k then none else d j

/-- `prepare_training_inspection(flow, path)` (lines 722-787): the attributes, the wrapped hook with a
reference to the original (`getattr`: the instance attribute or the method of the class) and the
wrapped `__getstate__`. -/
def prepare (d : Dict) (path : Nat) : Dict :=
  let d := set d .counter (.num 0)
  let d := set d .path (.user path)
  let d := set d .name (.user 0)
  let d := set d .savedHook ((d .hook).getD .classHook)
  let d := set d .hook .wrapper
  let d := set d .getstate .wrappedGetstate
  set d .methods (.keys [.hook, .savedHook, .getstate])

/-- `remove_inspection_residues(flow)` (lines 789-801): any exception (an attribute is missing) ends
the removal silently. -/
def removeAll : Dict → List Key → Dict
  | d, [] => d
  | d, k :: r => if d k = none then d else removeAll (del d k) r

def remove (d : Dict) : Dict :=
  match d .methods with
  | some (.keys l) => removeAll d (l ++ [.counter, .path, .name, .methods])
  | _ => d

/-- The state that is pickled (`wrapped_biflow_getstate`, lines 762-785). -/
def pickled (d : Dict) : Dict := fun k => match k with
  | .hook | .savedHook | .getstate => none
  | .counter | .path | .name | .methods => none
  | .data _ => none
  | .other i => d (.other i)

/-- The files written so far, newest first: the number in the name and the pickled state. -/
abbrev Files := List (Nat × Dict)

/-- A call of `flow._stop_training_hook()` with at most `n` nested calls (`none`: `RecursionError` or
another failure): the wrapper (lines 743-751) calls the saved hook, writes a snapshot and counts. -/
def callHook : Nat → Val → Dict × Files → Option (Dict × Files)
  | 0, _, _ => none
  | _ + 1, .classHook, s => some s
  | n + 1, .wrapper, (d, fs) =>
    match d .savedHook with
    | none => none
    | some v => match callHook n v (d, fs) with
      | none => none
      | some (d, fs) => match d .counter with
        | some (.num c) => some (set d .counter (.num (c + 1)), (c, pickled d) :: fs)
        | _ => none
  | _ + 1, _, _ => none

/-- The hook called by the training of the flow. -/
def hook (n : Nat) (s : Dict × Files) : Option (Dict × Files) :=
  callHook n ((s.1 .hook).getD .classHook) s

/-- The training of the flow: before each call of the hook, at the end of each training phase, the
training changes attributes of the flow that are not the module's (`data`, `other`). -/
def phases (n : Nat) : Dict × Files → List (Nat → Option Val) → Option (Dict × Files)
  | s, [] => some s
  | (d, fs), w :: r =>
    let d : Dict := fun k => match k with | .other i => w i | k => d k
    match hook n (d, fs) with
    | none => none
    | some s => phases n s r

/-! ### Specification -/

/-- A flow without anything of this module in its instance dictionary. -/
def Fresh (d : Dict) : Prop :=
  d .hook = none ∧ d .savedHook = none ∧ d .getstate = none ∧ d .counter = none ∧ d .path = none ∧
    d .name = none ∧ d .methods = none

/-- The pickled flow for given other attributes: these and nothing else. -/
def Plain (w : Nat → Option Val) : Dict := fun k => match k with | .other i => w i | _ => none

theorem remove_prepare (d : Dict) (h : Fresh d) (p : Nat) : remove (prepare d p) = d := by
  obtain ⟨h1, h2, h3, h4, h5, h6, h7⟩ := h
  have hm : prepare d p .methods = some (.keys [.hook, .savedHook, .getstate]) := rfl
  unfold remove
  rw [hm]
  funext k
  simp only [List.cons_append, List.nil_append, removeAll]
  cases k <;> simp [prepare, set, del, h1, h2, h3, h4, h5, h6, h7]

/-- **An attribute is missing.**  If the saved hook was deleted in between, the removal ends there, without
an error: the wrapped `__getstate__` and the attributes of the snapshots stay in the flow. -/
theorem remove_interrupted_violation (d : Dict) (p : Nat) :
    let d' := remove (del (prepare d p) .savedHook)
    d' .hook = none ∧ d' .getstate = some .wrappedGetstate ∧ d' .counter = some (.num 0) ∧
      d' .path = some (.user p) ∧ (d' .name).isSome ∧ (d' .methods).isSome := by
  have hm : del (prepare d p) .savedHook .methods = some (.keys [.hook, .savedHook, .getstate]) := rfl
  simp only
  unfold remove
  rw [hm]
  simp only [List.cons_append, List.nil_append, removeAll]
  simp [prepare, set, del]

/-- A flow prepared for inspection. -/
def Prepared (d : Dict) (c : Nat) : Prop :=
  d .hook = some .wrapper ∧ d .savedHook = some .classHook ∧ d .getstate = some .wrappedGetstate ∧
    d .counter = some (.num c) ∧ (d .path).isSome ∧ (d .name).isSome ∧
    d .methods = some (.keys [.hook, .savedHook, .getstate])

theorem prepare_prepared (d : Dict) (h : d .hook = none) (p : Nat) : Prepared (prepare d p) 0 := by
  refine ⟨rfl, ?_, rfl, rfl, rfl, rfl, rfl⟩
  simp [prepare, set, h]

theorem hook_prepared {d : Dict} {c : Nat} (h : Prepared d c) (n : Nat) (fs : Files) :
    hook (n + 2) (d, fs) = some (set d .counter (.num (c + 1)), (c, pickled d) :: fs) := by
  obtain ⟨h1, h2, _, h4, _⟩ := h
  unfold hook
  simp only [h1, Option.getD_some, callHook, h2, h4]

theorem phases_prepared (n : Nat) (ws : List (Nat → Option Val)) : ∀ (d : Dict) (c : Nat) (fs : Files),
    Prepared d c →
    ∃ d', phases (n + 2) (d, fs) ws =
        some (d', ((ws.zipIdx c).map (fun x => (x.2, Plain x.1))).reverse ++ fs) ∧
      Prepared d' (c + ws.length) ∧ (∀ k, d' (.data k) = d (.data k)) := by
  induction ws with
  | nil => intro d c fs h; exact ⟨d, by simp [phases], by simpa using h, fun _ => rfl⟩
  | cons w r ih =>
    intro d c fs h
    obtain ⟨d1, hd1⟩ : ∃ d1 : Dict, d1 = (fun k => match k with | .other i => w i | k => d k) := ⟨_, rfl⟩
    have hp1 : Prepared d1 c := by rw [hd1]; exact h
    have hpk : pickled d1 = Plain w := by
      rw [hd1]
      funext k
      cases k <;> rfl
    have hp2 : Prepared (set d1 .counter (.num (c + 1))) (c + 1) := by
      obtain ⟨h1, h2, h3, _, h5, h6, h7⟩ := hp1
      exact ⟨by simp [set, h1], by simp [set, h2], by simp [set, h3], by simp [set],
        by simp [set, h5], by simp [set, h6], by simp [set, h7]⟩
    obtain ⟨d', e, hp, hdat⟩ := ih _ (c + 1) ((c, Plain w) :: fs) hp2
    refine ⟨d', ?_, ?_, ?_⟩
    · unfold phases
      simp only [← hd1]
      rw [hook_prepared hp1, hpk]
      simp only
      rw [e]
      simp
    · rw [List.length_cons]
      have : c + (r.length + 1) = c + 1 + r.length := by omega
      rw [this]
      exact hp
    · intro k
      rw [hdat k]
      simp [set, hd1]

/-- **Snapshots.**  Training a prepared flow writes one snapshot per training phase, numbered from 0
in the order of the phases; each holds the flow's own attributes at that moment and nothing of this
module or of the running training. -/
theorem snapshots_written (d : Dict) (h : Fresh d) (p n : Nat) (ws : List (Nat → Option Val)) :
    ∃ d' fs, phases (n + 2) (prepare d p, []) ws = some (d', fs) ∧
      fs.reverse = ws.zipIdx.map (fun x => (x.2, Plain x.1)) ∧ Fresh (remove d') ∧
      (∀ k, remove d' (.data k) = d (.data k)) := by
  obtain ⟨d', e, hp, hdat⟩ := phases_prepared n ws (prepare d p) 0 [] (prepare_prepared d h.1 p)
  refine ⟨d', _, e, by simp, ?_, ?_⟩
  · obtain ⟨h1, h2, h3, h4, h5, h6, h7⟩ := hp
    rw [Option.isSome_iff_exists] at h5 h6
    obtain ⟨a5, h5⟩ := h5
    obtain ⟨a6, h6⟩ := h6
    unfold remove
    rw [h7]
    simp only [List.cons_append, List.nil_append, removeAll]
    refine ⟨?_, ?_, ?_, ?_, ?_, ?_, ?_⟩ <;> simp [del, h1, h2, h3, h4, h5, h6, h7]
  · intro k
    have hk : prepare d p (.data k) = d (.data k) := by simp [prepare, set]
    rw [← hk, ← hdat k]
    obtain ⟨h1, h2, h3, h4, h5, h6, h7⟩ := hp
    rw [Option.isSome_iff_exists] at h5 h6
    obtain ⟨a5, h5⟩ := h5
    obtain ⟨a6, h6⟩ := h6
    unfold remove
    rw [h7]
    simp only [List.cons_append, List.nil_append, removeAll]
    simp [del, h1, h2, h3, h4, h5, h6, h7]

/-- **Preparing twice.**  If the residues of an earlier inspection were not removed (an exception
during `show_training` without `debug` leaves them), the next inspection never gets past the end of
the first training phase, whatever the recursion limit. -/
theorem prepare_twice_violation (d : Dict) (p q n : Nat) (fs : Files) :
    hook n (prepare (prepare d p) q, fs) = none := by
  have hs : prepare (prepare d p) q .savedHook = some .wrapper := rfl
  have key : ∀ n, callHook n .wrapper (prepare (prepare d p) q, fs) = none := by
    intro n
    induction n with
    | zero => rfl
    | succ n ih =>
      simp only [callHook]
      rw [hs]
      simp only
      rw [ih]
  exact key n

/-! ### The order in which the snapshots are read -/

/-- The decimal digits of a number, most significant first. -/
def digitsAux : Nat → Nat → List Nat
  | 0, _ => []
  | f + 1, n => if n < 10 then [n] else digitsAux f (n / 10) ++ [n % 10]

def digits (n : Nat) : List Nat := digitsAux (n + 1) n

/-- The part of the file name that differs between snapshots, `"%d.pckl" % n`, as character codes:
the digits have the codes 48 to 57, the dot has the code 46. -/
def fileKey (n : Nat) : List Nat := (digits n).map (· + 48) ++ [46, 112, 99, 107, 108]

/-- Comparison of texts, character by character (Python's `str.__lt__`, negated and swapped). -/
def leText : List Nat → List Nat → Bool
  | [], _ => true
  | _ :: _, [] => false
  | a :: r, b :: s => if a < b then true else if b < a then false else leText r s

/-- `files.sort()` (line 841) for the snapshots with the numbers `0, …, n - 1`: the numbers in the
order in which they are read. -/
def readOrder (n : Nat) : List Nat :=
  (List.range n).insertionSort (fun i j => leText (fileKey i) (fileKey j) = true)

theorem leText_total : ∀ a b, leText a b = true ∨ leText b a = true
  | [], b => Or.inl (by cases b <;> rfl)
  | _ :: _, [] => Or.inr rfl
  | a :: r, b :: s => by
    unfold leText
    rcases Nat.lt_trichotomy a b with h | h | h
    · left; simp [h]
    · subst h
      simpa using leText_total r s
    · right; simp [h]

theorem leText_trans : ∀ a b c, leText a b = true → leText b c = true → leText a c = true
  | [], _, c, _, _ => by cases c <;> rfl
  | _ :: _, [], _, h, _ => by simp [leText] at h
  | _ :: _, _ :: _, [], _, h => by simp [leText] at h
  | a :: r, b :: s, c :: t, h1, h2 => by
    unfold leText at h1 h2 ⊢
    split at h1
    · rename_i hab
      split at h2
      · rw [if_pos (by omega)]
      · split at h2
        · simp at h2
        · rw [if_pos (by omega)]
    · split at h1
      · simp at h1
      · split at h2
        · rw [if_pos (by omega)]
        · split at h2
          · simp at h2
          · rw [if_neg (by omega), if_neg (by omega)]
            exact leText_trans r s t h1 h2

/-- **Read in order – up to ten phases.**  The snapshots are read in the order of the training phases
if and only if there are at most ten of them: with eleven or more, `snapshot_10` is read before
`snapshot_2`. -/
theorem read_in_order_iff (n : Nat) : readOrder n = List.range n ↔ n ≤ 10 := by
  constructor
  · intro h
    by_contra hn
    have hp : (readOrder n).Pairwise (fun i j => leText (fileKey i) (fileKey j) = true) := by
      unfold readOrder
      haveI : Std.Total (fun i j : Nat => leText (fileKey i) (fileKey j) = true) :=
        ⟨fun i j => leText_total _ _⟩
      haveI : IsTrans Nat (fun i j : Nat => leText (fileKey i) (fileKey j) = true) :=
        ⟨fun i j k => leText_trans _ _ _⟩
      exact List.pairwise_insertionSort _ _
    rw [h, List.pairwise_iff_getElem] at hp
    have := hp 2 10 (by simp; omega) (by simp; omega) (by omega)
    rw [List.getElem_range, List.getElem_range] at this
    revert this
    decide
  · intro h
    have : ∀ m ∈ List.range 11, readOrder m = List.range m := by decide +kernel
    exact this n (by simp; omega)

example : readOrder 12 = [0, 1, 10, 11, 2, 3, 4, 5, 6, 7, 8, 9] := by decide +kernel

/-! ### The table of slides -/

/-- A loaded snapshot: the remaining training phases of its nodes, and the slides its trace makes
(training, then end of training). -/
structure Snap where
  remaining : List Nat
  train : List Nat
  stop : List Nat
deriving DecidableEq, Repr

/-- The variables of `_trace_biflow_training`: the slides and the index table. -/
structure Table where
  node : Nat
  slides : List Nat
  index : List (List (Int × Int))
deriving DecidableEq, Repr

/-- The loop of lines 849-854 over the nodes from `i_train_node` on. -/
def advance : List Nat → Nat → List (List (Int × Int)) → Nat × List (List (Int × Int))
  | [], i, t => (i, t)
  | r :: rs, i, t => if r > 0 then (i, t) else advance rs (i + 1) (t ++ [[]])

/-- One snapshot (lines 846-886); `none`: `x_samples[i_train_node]` does not exist. -/
def readSnap (t : Table) (s : Snap) (nsamples : Nat) : Option Table :=
  let (i, idx) := advance (s.remaining.drop t.node) t.node t.index
  if i < nsamples then
    let s1 := t.slides ++ s.train
    let s2 := s1 ++ s.stop
    some { node := i, slides := s2,
           index := idx.modify i (· ++ [((s1.length : Int) - 1, (s2.length : Int) - 1)]) }
  else none

/-- The loop over the files (lines 843-886). -/
def readAll : Table → List Snap → Nat → Option Table
  | t, [], _ => some t
  | t, s :: r, m => match readSnap t s m with
    | none => none
    | some t => readAll t r m

def start : Table := { node := 0, slides := [], index := [[]] }

/-- Specification: the snapshot was taken while node `f` was in training. -/
def TrainsAt (s : Snap) (f : Nat) : Prop :=
  (∀ k r, k < f → s.remaining[k]? = some r → r = 0) ∧ f ≤ s.remaining.length ∧
    ∃ r, s.remaining[f]? = some r ∧ 0 < r

/-- Specification: the entries of node `j` in the table, given the snapshots (with the node each
belongs to), `done` slides having been made before: for each snapshot of that node the numbers of the
last slide of its training and of the last slide of its end of training. -/
def Entries (j : Nat) : Nat → List (Snap × Nat) → List (Int × Int)
  | _, [] => []
  | done, (s, f) :: r =>
    let a := done + s.train.length
    let b := a + s.stop.length
    if f = j then ((a : Int) - 1, (b : Int) - 1) :: Entries j b r else Entries j b r

theorem advance_spec (rs : List Nat) : ∀ (i f : Nat) (t : List (List (Int × Int))),
    (∀ k r, k < f → rs[k]? = some r → r = 0) → (∃ r, rs[f]? = some r ∧ 0 < r) →
    advance rs i t = (i + f, t ++ List.replicate f []) := by
  induction rs with
  | nil => intro i f t _ h; obtain ⟨r, hr, _⟩ := h; simp at hr
  | cons a rs ih =>
    intro i f t hz hf
    unfold advance
    cases f with
    | zero =>
      obtain ⟨r, hr, hpos⟩ := hf
      simp at hr
      subst hr
      simp [hpos]
    | succ f =>
      have ha : a = 0 := hz 0 a (by omega) (by simp)
      rw [if_neg (by omega), ih (i + 1) f (t ++ [[]])]
      · rw [List.replicate_succ]
        simp
        omega
      · intro k r hk hr
        exact hz (k + 1) r (by omega) (by simpa using hr)
      · simpa using hf

/-- Invariant of the loop. -/
theorem readAll_spec (m : Nat) (ss : List (Snap × Nat)) : ∀ (t : Table),
    (∀ x ∈ ss, TrainsAt x.1 x.2 ∧ x.2 < m) →
    (ss.map Prod.snd).Pairwise (· ≤ ·) → (∀ x ∈ ss, t.node ≤ x.2) →
    t.index.length = t.node + 1 →
    ∃ t', readAll t (ss.map Prod.fst) m = some t' ∧
      t'.slides = t.slides ++ ss.flatMap (fun x => x.1.train ++ x.1.stop) ∧
      t'.index.length = t'.node + 1 ∧
      t'.node = (ss.map Prod.snd).getLast?.getD t.node ∧
      ∀ j, t'.index[j]? = if j ≤ t'.node then
        some ((t.index[j]?).getD [] ++ Entries j t.slides.length ss) else none := by
  induction ss with
  | nil =>
    intro t _ _ _ hl
    refine ⟨t, rfl, by simp, hl, rfl, ?_⟩
    intro j
    split
    · rename_i hj
      rw [List.getElem?_eq_getElem (by omega)]
      simp [Entries]
    · rename_i hj
      rw [List.getElem?_eq_none (by omega)]
  | cons x r ih =>
    obtain ⟨s, f⟩ := x
    intro t h hm hge hl
    obtain ⟨⟨hz, hlen, hpos⟩, hfm⟩ := h (s, f) (by simp)
    have hft : t.node ≤ f := hge (s, f) (by simp)
    simp only at hz hlen hpos hfm hft
    have hadv : advance (s.remaining.drop t.node) t.node t.index =
        (f, t.index ++ List.replicate (f - t.node) []) := by
      rw [advance_spec _ t.node (f - t.node)]
      · rw [Nat.add_sub_cancel' hft]
      · intro k r hk hr
        rw [List.getElem?_drop] at hr
        exact hz (t.node + k) r (by omega) hr
      · obtain ⟨r, hr, hp⟩ := hpos
        refine ⟨r, ?_, hp⟩
        rw [List.getElem?_drop, Nat.add_sub_cancel' hft]
        exact hr
    obtain ⟨t1, ht1⟩ : ∃ t1 : Table, t1 =
        { node := f, slides := t.slides ++ s.train ++ s.stop,
          index := (t.index ++ List.replicate (f - t.node) []).modify f
            (· ++ [(((t.slides ++ s.train).length : Int) - 1,
              ((t.slides ++ s.train ++ s.stop).length : Int) - 1)]) } := ⟨_, rfl⟩
    have hr : readSnap t s m = some t1 := by
      unfold readSnap
      rw [hadv]
      simp only
      rw [if_pos hfm, ht1]
    have hl1 : t1.index.length = t1.node + 1 := by
      rw [ht1]
      simp
      omega
    rw [List.map_cons, List.pairwise_cons] at hm
    obtain ⟨t', e, hs, hlen', hn, hidx⟩ := ih t1 (fun y hy => h y (List.mem_cons_of_mem _ hy)) hm.2
      (by
        intro y hy
        rw [ht1]
        exact hm.1 _ (List.mem_map.2 ⟨y, hy, rfl⟩)) hl1
    refine ⟨t', ?_, ?_, hlen', ?_, ?_⟩
    · rw [List.map_cons, readAll, hr]
      exact e
    · rw [hs, ht1]
      simp
    · rw [hn, ht1]
      simp only [List.map_cons]
      rw [List.getLast?_cons]
      simp
    · intro j
      rw [hidx j]
      have hfj : f ≤ t'.node := by
        rw [hn, ht1]
        cases hlast : (r.map Prod.snd).getLast? with
        | none => simp
        | some g =>
          simp only [Option.getD_some]
          exact hm.1 g (List.mem_of_getLast? hlast)
      split
      · rename_i hj
        congr 1
        have e1 : (t1.index[j]?).getD [] = (t.index[j]?).getD [] ++
            (if f = j then [(((t.slides ++ s.train).length : Int) - 1,
              ((t.slides ++ s.train ++ s.stop).length : Int) - 1)] else []) := by
          rw [ht1]
          simp only [List.getElem?_modify]
          have e2 : ((t.index ++ List.replicate (f - t.node) [])[j]?).getD [] =
              (t.index[j]?).getD [] := by
            by_cases hjl : j < t.index.length
            · rw [List.getElem?_append_left hjl]
            · rw [List.getElem?_append_right (by omega)]
              rw [List.getElem?_eq_none (l := t.index) (by omega)]
              rw [List.getElem?_replicate]
              split <;> rfl
          by_cases hfj' : f = j
          · subst hfj'
            simp only [if_true]
            have hex : ∃ y, (t.index ++ List.replicate (f - t.node) [])[f]? = some y := by
              rw [List.getElem?_eq_getElem (by simp; omega)]
              exact ⟨_, rfl⟩
            obtain ⟨y, hy⟩ := hex
            rw [hy] at e2 ⊢
            simp only [Option.getD_some] at e2
            rw [e2]
            rfl
          · simp only [if_neg hfj', List.append_nil]
            rw [← e2]
            simp
        rw [e1, List.append_assoc]
        congr 1
        have hlen1 : t1.slides.length = t.slides.length + s.train.length + s.stop.length := by
          rw [ht1]; simp; omega
        rw [hlen1]
        simp only [Entries]
        by_cases hfj' : f = j
        · simp only [hfj', if_true]
          simp
          omega
        · simp [hfj']
      · rfl

/-- **The table of slides.**  When the snapshots are read in the order of training, the slides are
those of all traces in order, and the table has, for each node up to the last one trained and each of
its training phases, the number of the last slide of the training and of its end. -/
theorem slide_table (m : Nat) (ss : List (Snap × Nat)) (hss : ∀ x ∈ ss, TrainsAt x.1 x.2 ∧ x.2 < m)
    (hm : (ss.map Prod.snd).Pairwise (· ≤ ·)) :
    ∃ t', readAll start (ss.map Prod.fst) m = some t' ∧
      t'.slides = ss.flatMap (fun x => x.1.train ++ x.1.stop) ∧
      t'.index.length = (ss.map Prod.snd).getLast?.getD 0 + 1 ∧
      ∀ j, j < t'.index.length → t'.index[j]? = some (Entries j 0 ss) := by
  obtain ⟨t', e, hs, hl, hn, hi⟩ := readAll_spec m ss start hss hm (fun _ _ => Nat.zero_le _) rfl
  refine ⟨t', e, by simpa [start] using hs, by rw [hl, hn]; rfl, ?_⟩
  intro j hj
  rw [hi j, if_pos (by omega)]
  congr 1
  have : (start.index[j]?).getD [] = [] := by
    cases j with
    | zero => rfl
    | succ j => rfl
  rw [this]
  rfl

/-- A flow with eleven nodes of one phase each; the snapshot taken while node `k` is in training makes
one slide for the training and one for its end. -/
def exSnap (k : Nat) : Snap :=
  { remaining := List.replicate k 0 ++ List.replicate (11 - k) 1, train := [2 * k], stop := [2 * k + 1] }

/-- **Eleven phases.**  With eleven snapshots, read in the order in which the code reads them, the
slides of nine nodes are filed under the last node, and these nodes have no slides. -/
theorem eleven_phases_violation :
    ∃ t, readAll start ((readOrder 11).map exSnap) 11 = some t ∧
      t.index[2]? = some [] ∧ t.index[9]? = some [] ∧
      (t.index[10]?).map List.length = some 9 :=
  ⟨(readAll start ((readOrder 11).map exSnap) 11).getD start, by decide +kernel, by decide +kernel,
    by decide +kernel, by decide +kernel⟩

example : TrainsAt (exSnap 2) 2 := by
  refine ⟨?_, by decide, ⟨1, by decide, by decide⟩⟩
  intro k r hk hr
  match k, hk with
  | 0, _ => simpa [exSnap] using hr.symm
  | 1, _ => simpa [exSnap] using hr.symm

example : readAll start [⟨[2, 1], [0, 1], [2]⟩, ⟨[1, 1], [3], []⟩, ⟨[0, 1], [4], [5]⟩] 2 =
    some { node := 1, slides := [0, 1, 2, 3, 4, 5], index := [[(1, 2), (3, 3)], [(4, 5)]] } := by
  decide +kernel

/-! ### The error slide -/

/-- The attributes of a class, as far as they matter for `with`: Python looks up `__enter__` and
`__exit__` on the type of the object; `__getattr__` of the class is not asked. -/
structure PyType where
  hasEnter : Bool
  hasExit : Bool
  forwards : Bool
deriving DecidableEq, Repr

/-- `mdp.hinet.NewlineWriteFile` (`hinet/htmlvisitor.py` 24-42): `write` and a `__getattr__` that
forwards to the wrapped file. -/
def newlineWriteFile : PyType := { hasEnter := false, hasExit := false, forwards := true }

/-- How a traced execution ends. -/
inductive Outcome where
  | returned (slides : Nat)
  | original
  | debugInfo (slides : Nat)
  | withError (slides : Nat)
deriving DecidableEq, Repr

/-- The end of `trace_execution` (lines 198-216): `fails` tells whether the execution raised, `slides`
how many slides there were.  In debug mode `_write_error_frame` opens a further slide and enters
`with self._begin_HTML_frame() as html_file`. -/
def traceEnd (ty : PyType) (debug fails : Bool) (slides : Nat) : Outcome :=
  if !fails then .returned slides
  else if debug then
    (if ty.hasEnter && ty.hasExit then .debugInfo (slides + 1) else .withError (slides + 1))
  else .original

/-- **Debug mode.**  The documentation promises that with `debug=True` any exception is caught and
the data gathered so far is returned.  In fact every exception of the traced flow is replaced by the
error of a `with` statement on an object that is no context manager. -/
theorem debug_mode_violation (slides : Nat) :
    traceEnd newlineWriteFile true true slides = .withError (slides + 1) ∧
    (∀ n, traceEnd newlineWriteFile true true slides ≠ .debugInfo n) := by
  constructor
  · rfl
  · intro n h
    simp [traceEnd, newlineWriteFile] at h

/-- Without `debug` the original exception reaches the caller, and a successful execution is not
affected by the flag. -/
theorem no_debug (debug : Bool) (slides : Nat) :
    traceEnd newlineWriteFile false true slides = .original ∧
    traceEnd newlineWriteFile debug false slides = .returned slides := ⟨rfl, rfl⟩

example : Fresh (fun k => match k with | .other 0 => some (.user 3) | _ => none) := by
  refine ⟨rfl, rfl, rfl, rfl, rfl, rfl, rfl⟩

end Bi.Snapshots
