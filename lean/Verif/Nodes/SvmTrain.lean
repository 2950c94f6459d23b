import Verif.Nodes.ClassifierBase

/-!
# Training of support vector machines: `ClassifierCumulator` (mdp/classifier_node.py:91-133) with `LibSVMClassifier._stop_training`, `_label`,
`_prob` (mdp/nodes/libsvm_classifier.py:148-185) and `ShogunSVMClassifier._stop_training`, `_label` (mdp/nodes/shogun_svm_classifier.py:430-470)
with `Classifier.set_train_features` (177-191); C348

The libraries are parameters. In contrast to `Cum` of `Nodes/ClassifierBase.lean` the state says whether an attribute is still a list or
already an array, because an array has no `extend`. Arrays are written in the order of their rows.
-/

namespace Mdp.SvmTrain

open Mdp.Classifier (Labels)

inductive Err where
  /-- TrainingException -/
  | training
  /-- AttributeError -/
  | attribute
  /-- TypeError -/
  | type
  /-- ValueError -/
  | value
  /-- NodeException -/
  | node
deriving DecidableEq

variable {α L : Type}

/-- `tlen`, `data`, `labels`; the flags say which attributes are arrays. -/
structure Coll (α L : Type) where
  tlen : Nat
  data : List α
  dataArr : Bool
  labels : List L
  labelsArr : Bool

/-- After construction (mdp/signal_node.py:764-772). -/
def Coll.new : Coll α L := ⟨0, [], false, [], false⟩

/-- `_check_train_args` (mdp/classifier_node.py:107-113) for `n` rows. -/
def check (n : Nat) : Labels L → Option Err
  | .array0 _ => some .type
  | .array1 l => if l.length ≠ n then some .training else none
  | .array2 l => if l.length ≠ n then some .training else none
  | .list l => if l.length ≠ n then some .training else none
  | .single _ => none

/-- `_train` (115-126): `tlen` grows first; then the data and the labels, unless they are arrays. -/
def Coll.train (s : Coll α L) (x : List (List α)) (l : Labels L) : Option Err × Coll α L :=
  match check x.length l with
  | some e => (some e, s)
  | none =>
    let s := { s with tlen := s.tlen + x.length }
    if s.dataArr then (some .attribute, s)
    else
      let s := { s with data := s.data ++ x.flatten }
      let add (m : List L) : Option Err × Coll α L :=
        if s.labelsArr then (some .attribute, s) else (none, { s with labels := s.labels ++ m })
      match l with
      | .array0 _ => (some .type, s)
      | .array1 m => add m
      | .array2 m => add m.flatten
      | .list _ => (some .attribute, s)
      | .single _ => (some .attribute, s)

/-- Row-major cutting of flat data into `n` rows of width `d`. -/
def cut (n d : Nat) (l : List α) : List (List α) := (List.range n).map fun i => (l.drop (i * d)).take d

/-- `_stop_training` of the cumulator (128-133) for the input dimension `d`: the rows and the labels. -/
def Coll.stop (d : Nat) (s : Coll α L) : Coll α L × Except Err (List (List α) × List L) :=
  let s := { s with dataArr := true }
  if s.data.length ≠ s.tlen * d then (s, .error .value)
  else
    let s := { s with labelsArr := true }
    if s.labels.length ≠ s.tlen then (s, .error .value)
    else (s, .ok (cut s.tlen d s.data, s.labels))

/-- Calls of `train` one after the other, up to the first error. -/
def Coll.trainAll (s : Coll α L) : List (List (List α) × Labels L) → Option Err × Coll α L
  | [] => (none, s)
  | (x, l) :: r =>
    match s.train x l with
    | (some e, s) => (some e, s)
    | (none, s) => s.trainAll r

/-! ## LibSVM -/

/-- The library: `svm_train` for labels and rows, the labels and the estimates of `svm_predict` with `-b 1` for rows, `get_labels`. -/
structure LibSvm (M α L P : Type) where
  fit : List L → List (List α) → Except Err M
  predict : M → List (List α) → List L
  estimate : M → List (List α) → List (List P)
  classes : M → List L

variable {M P : Type}

/-- `LibSVMClassifier._stop_training` (148-158). The normaliser does nothing. -/
def libStop (E : LibSvm M α L P) (d : Nat) (s : Coll α L) : Coll α L × Except Err M :=
  match s.stop d with
  | (s, .error e) => (s, .error e)
  | (s, .ok (x, l)) => (s, E.fit l x)

/-- `_label` (160-168). -/
def libLabel (E : LibSvm M α L P) (m : M) (x : List (List α)) : List L := E.predict m x

/-- An assignment in a dictionary; dictionaries keep the order of insertion. -/
def put [DecidableEq L] (d : List (L × P)) (k : L) (v : P) : List (L × P) :=
  if k ∈ d.map Prod.fst then d.map fun kv => if kv.1 = k then (k, v) else kv else d ++ [(k, v)]

/-- `dict(list(zip(labels, ps)))`. -/
def zipDict [DecidableEq L] (ls : List L) (ps : List P) : List (L × P) := (ls.zip ps).foldl (fun d kv => put d kv.1 kv.2) []

/-- `_prob` (177-181). -/
def libProb [DecidableEq L] (E : LibSvm M α L P) (m : M) (x : List (List α)) : List (List (L × P)) :=
  (E.estimate m x).map (zipDict (E.classes m))

/-! ## Shogun -/

/-- The kind of machine (177-189): a linear machine, a kernel machine, another class. -/
inductive Kind where
  | linear
  | kernel
  | other
deriving DecidableEq

/-- The instance of the machine: the kernel, if one has been set, and what the last training has made. -/
structure Machine (K M : Type) where
  kind : Kind
  kernel : Option K
  model : Option M

/-- The library: training on features (a list of samples) and labels, application, conversion of labels to floating point. -/
structure Shogun (K M α L F : Type) where
  fit : Kind → Option K → List (List α) → List F → Except Err M
  apply : M → List (List α) → List F
  float : L → Option F

variable {K F : Type}

/-- All labels as floating point numbers (`labels.astype(float)`, 435). -/
def floats (f : L → Option F) : List L → Except Err (List F)
  | [] => .ok []
  | a :: l => match f a with
    | none => .error .value
    | some x => match floats f l with
      | .error e => .error e
      | .ok r => .ok (x :: r)

/-- `set_train_features` (177-191) and `train` (193-194): features for a linear machine, a kernel initialised with the features, a refusal. -/
def Machine.fit (E : Shogun K M α L F) (m : Machine K M) (x : List (List α)) (l : List F) : Machine K M × Option Err :=
  match m.kind, m.kernel with
  | .linear, _ => match E.fit .linear none x l with
    | .error e => (m, some e)
    | .ok r => ({ m with model := some r }, none)
  | .kernel, some k => match E.fit .kernel (some k) x l with
    | .error e => (m, some e)
    | .ok r => ({ m with model := some r }, none)
  | .kernel, none => (m, some .node)
  | .other, _ => (m, some .node)

/-- The node: the collected data and the machine. -/
structure Sg (K M α L : Type) where
  coll : Coll α L
  mach : Machine K M

/-- `ShogunSVMClassifier._stop_training` (430-440). -/
def Sg.stop (E : Shogun K M α L F) (d : Nat) (s : Sg K M α L) : Sg K M α L × Option Err :=
  match s.coll.stop d with
  | (c, .error e) => (⟨c, s.mach⟩, some e)
  | (c, .ok (x, l)) =>
    match floats E.float l with
    | .error e => (⟨c, s.mach⟩, some e)
    | .ok l => let r := s.mach.fit E x l; (⟨c, r.1⟩, r.2)

/-- What a user may do with a node that is being trained. -/
inductive Op (K α L : Type) where
  | train (x : List (List α)) (l : Labels L)
  | setKernel (k : K)
  | stop

/-- One call; `_set_kernel` (222-233) is refused by machines without a kernel. -/
def Sg.step (E : Shogun K M α L F) (d : Nat) (s : Sg K M α L) : Op K α L → Sg K M α L × Option Err
  | .train x l => let r := s.coll.train x l; (⟨r.2, s.mach⟩, r.1)
  | .setKernel k => if s.mach.kind = .kernel then (⟨s.coll, { s.mach with kernel := some k }⟩, none) else (s, some .node)
  | .stop => s.stop E d

/-- Calls one after the other; every error is caught by the caller. -/
def Sg.run (E : Shogun K M α L F) (d : Nat) (s : Sg K M α L) : List (Op K α L) → Sg K M α L
  | [] => s
  | o :: r => Sg.run E d (s.step E d o).1 r

/-- `_label` (459-472): the answers of the machine, as floating point numbers. -/
def Sg.label (E : Shogun K M α L F) (s : Sg K M α L) (x : List (List α)) : Option (List F) := s.mach.model.map fun m => E.apply m x

/-! ## Collecting -/

theorem cut_flatten (d : Nat) (x : List (List α)) (h : ∀ r ∈ x, r.length = d) : cut x.length d x.flatten = x := by
  induction x with
  | nil => rfl
  | cons r x ih =>
    have hr : r.length = d := h r (by simp)
    have ih := ih fun r' h' => h r' (by simp [h'])
    unfold cut at ih ⊢
    rw [List.length_cons, List.range_succ_eq_map, List.map_cons, List.map_map, List.flatten_cons]
    refine congrArg₂ List.cons ?_ ?_
    · rw [Nat.zero_mul, List.drop_zero, ← hr, List.take_left]
    · refine Eq.trans (List.map_congr_left fun i _ => ?_) ih
      simp only [Function.comp]
      rw [show i.succ * d = r.length + i * d by rw [hr, Nat.succ_mul, Nat.add_comm], List.drop_append, List.drop_eq_nil_of_le (Nat.le_add_right _ _), List.nil_append, Nat.add_sub_cancel_left]

theorem length_flatten (d : Nat) (x : List (List α)) (h : ∀ r ∈ x, r.length = d) : x.flatten.length = x.length * d := by
  rw [List.length_flatten, List.map_congr_left h, List.map_const', List.sum_replicate_nat]

theorem trainAll_lists (cs : List (List (List α) × List L)) (h : ∀ c ∈ cs, c.2.length = c.1.length) : ∀ (n : Nat) (a : List α) (b : List L),
    (Coll.mk n a false b false).trainAll (cs.map fun c => (c.1, .array1 c.2)) =
      (none, ⟨n + (cs.flatMap fun c => c.1).length, a ++ (cs.flatMap fun c => c.1).flatten, false, b ++ cs.flatMap fun c => c.2, false⟩) := by
  induction cs with
  | nil => intro n a b; simp [Coll.trainAll]
  | cons c cs ih =>
    intro n a b
    have hc := h c (by simp)
    simp only [List.map_cons, Coll.trainAll, Coll.train, check]
    rw [if_neg (by simpa using hc)]
    simp only [Bool.false_eq_true, if_false]
    rw [ih fun c' h' => h c' (by simp [h'])]
    simp [List.flatMap_cons, Nat.add_assoc]

/-- The attributes when all of `cs` has been collected. -/
def Coll.full (cs : List (List (List α) × List L)) (arr : Bool) : Coll α L :=
  ⟨(cs.flatMap fun c => c.1).length, (cs.flatMap fun c => c.1).flatten, arr, cs.flatMap fun c => c.2, arr⟩

theorem coll_stop_ok (d : Nat) (s : Coll α L) (h1 : s.data.length = s.tlen * d) (h2 : s.labels.length = s.tlen) :
    s.stop d = ({ s with dataArr := true, labelsArr := true }, .ok (cut s.tlen d s.data, s.labels)) := by
  simp [Coll.stop, h1, h2]

theorem stop_full (d : Nat) (cs : List (List (List α) × List L)) (h : ∀ c ∈ cs, c.2.length = c.1.length) (hd : ∀ c ∈ cs, ∀ r ∈ c.1, r.length = d)
    (arr : Bool) : (Coll.full cs arr).stop d = (Coll.full cs true, .ok (cs.flatMap fun c => c.1, cs.flatMap fun c => c.2)) := by
  have hd' : ∀ r ∈ cs.flatMap fun c => c.1, r.length = d := by
    intro r hr
    obtain ⟨c, hc, hr⟩ := List.mem_flatMap.1 hr
    exact hd c hc r hr
  have hl : (cs.flatMap fun c => c.2).length = (cs.flatMap fun c => c.1).length := by
    rw [List.length_flatMap, List.length_flatMap]
    exact congrArg List.sum (List.map_congr_left fun c hc => h c hc)
  rw [coll_stop_ok d (Coll.full cs arr) (length_flatten d _ hd') hl]
  simp only [Coll.full]
  rw [cut_flatten d _ hd']

/-- C348 (LibSVM): however the samples are divided into calls of `train`, the library is trained once, with all rows in their order, each with its
own label. -/
theorem lib_trained (E : LibSvm M α L P) (d : Nat) (cs : List (List (List α) × List L)) (h : ∀ c ∈ cs, c.2.length = c.1.length)
    (hd : ∀ c ∈ cs, ∀ r ∈ c.1, r.length = d) :
    ∃ s, Coll.new.trainAll (cs.map fun c => (c.1, .array1 c.2)) = (none, s) ∧
      (libStop E d s).2 = E.fit (cs.flatMap fun c => c.2) (cs.flatMap fun c => c.1) := by
  refine ⟨_, trainAll_lists cs h 0 [] [], ?_⟩
  have e := stop_full d cs h hd false
  simp only [Coll.full] at e
  simp only [Nat.zero_add, List.nil_append, libStop, e]

/-- C348: labels in an array or a list whose number is not that of the rows are refused, and nothing is collected; the number is checked before anything
else. -/
theorem labels_refused (s : Coll α L) (x : List (List α)) (l : List L) (h : l.length ≠ x.length) :
    s.train x (.array1 l) = (some .training, s) ∧ s.train x (.list l) = (some .training, s) := by
  simp [Coll.train, check, h]

/-- C348: so are the rows of a two-dimensional array of labels. -/
theorem labels2_refused (s : Coll α L) (x : List (List α)) (l : List (List L)) (h : l.length ≠ x.length) :
    s.train x (.array2 l) = (some .training, s) := by
  simp [Coll.train, check, h]

example : ([1, 2] : List Nat).length ≠ ([[5], [6], [7]] : List (List Nat)).length := by decide

theorem lookup_zip_fold [DecidableEq L] (ls : List L) : ∀ (ps : List P) (d : List (L × P)), ls.Nodup → (∀ a ∈ ls, a ∉ d.map Prod.fst) →
    (ls.zip ps).foldl (fun d kv => put d kv.1 kv.2) d = d ++ ls.zip ps := by
  induction ls with
  | nil => intro ps d _ _; simp
  | cons a ls ih =>
    intro ps d hn hd
    cases ps with
    | nil => simp
    | cons p ps =>
      rw [List.zip_cons_cons, List.foldl_cons]
      have e : put d a p = d ++ [(a, p)] := by unfold put; rw [if_neg (hd a (by simp))]
      rw [e, ih ps _ (List.nodup_cons.1 hn).2]
      · simp
      · intro b hb hm
        rw [List.map_append, List.mem_append] at hm
        rcases hm with hm | hm
        · exact hd b (by simp [hb]) hm
        · simp only [List.map_cons, List.map_nil, List.mem_singleton] at hm
          subst hm
          exact (List.nodup_cons.1 hn).1 hb

/-- C348 (LibSVM): there is one dictionary for each row of estimates. If the library names its classes without repetition and gives each row one estimate
for each class, the dictionary has the classes as keys and gives the i-th class the i-th estimate. -/
theorem lib_prob [DecidableEq L] (E : LibSvm M α L P) (m : M) (x : List (List α)) (hn : (E.classes m).Nodup)
    (he : (E.estimate m x).length = x.length) (hp : ∀ ps ∈ E.estimate m x, ps.length = (E.classes m).length) :
    (libProb E m x).length = x.length ∧ ∀ (r : Nat) (row : List (L × P)), (libProb E m x)[r]? = some row →
      row.map Prod.fst = E.classes m ∧ ∃ ps, (E.estimate m x)[r]? = some ps ∧ ∀ (i : Nat) (c : L), (E.classes m)[i]? = some c → row.lookup c = ps[i]? := by
  refine ⟨by simp [libProb, he], ?_⟩
  intro r row hr
  simp only [libProb, List.getElem?_map, Option.map_eq_some_iff] at hr
  obtain ⟨ps, hps, rfl⟩ := hr
  have hlen := hp ps (List.mem_of_getElem? hps)
  have e : zipDict (E.classes m) ps = (E.classes m).zip ps := by
    unfold zipDict; rw [lookup_zip_fold _ _ _ hn (by simp)]; rfl
  rw [e]
  refine ⟨by rw [List.map_fst_zip (by omega)], ps, hps, ?_⟩
  intro i c hc
  obtain ⟨hi, rfl⟩ := List.getElem?_eq_some_iff.1 hc
  have hi' : i < ps.length := by omega
  rw [List.getElem?_eq_getElem hi']
  refine Classifier.lookup_of_nodup _ (by rw [List.map_fst_zip (by omega)]; exact hn) (p := ((E.classes m)[i], ps[i])) ?_
  exact List.mem_iff_getElem.2 ⟨i, by simp; omega, by simp⟩

/-! ## Shogun -/

theorem floats_ok (f : L → Option F) (g : L → F) (l : List L) (h : ∀ a ∈ l, f a = some (g a)) : floats f l = .ok (l.map g) := by
  induction l with
  | nil => rfl
  | cons a l ih => simp only [floats, h a (by simp), ih fun b hb => h b (by simp [hb]), List.map_cons]

theorem floats_bad (f : L → Option F) (l : List L) (a : L) (ha : a ∈ l) (hf : f a = none) : floats f l = .error .value := by
  induction l with
  | nil => simp at ha
  | cons b l ih =>
    simp only [floats]
    cases hb : f b with
    | none => rfl
    | some x =>
      rcases List.mem_cons.1 ha with rfl | h
      · rw [hf] at hb; cases hb
      · simp only [ih h]

/-- A new node with a machine. -/
def Sg.new (m : Machine K M) : Sg K M α L := ⟨Coll.new, m⟩

/-- The calls of `train` for a division of the samples. -/
def trains (cs : List (List (List α) × List L)) : List (Op K α L) := cs.map fun c => .train c.1 (.array1 c.2)

theorem run_append (E : Shogun K M α L F) (d : Nat) (a b : List (Op K α L)) : ∀ s : Sg K M α L, s.run E d (a ++ b) = (s.run E d a).run E d b := by
  induction a with
  | nil => intro s; rfl
  | cons o a ih => intro s; exact ih _

theorem run_trains (E : Shogun K M α L F) (d : Nat) (m : Machine K M) (cs : List (List (List α) × List L)) (h : ∀ c ∈ cs, c.2.length = c.1.length) :
    ∀ (n : Nat) (a : List α) (b : List L), (Sg.mk ⟨n, a, false, b, false⟩ m).run E d (trains cs) =
      ⟨⟨n + (cs.flatMap fun c => c.1).length, a ++ (cs.flatMap fun c => c.1).flatten, false, b ++ cs.flatMap fun c => c.2, false⟩, m⟩ := by
  induction cs with
  | nil => intro n a b; simp [trains, Sg.run]
  | cons c cs ih =>
    intro n a b
    have hc := h c (by simp)
    have e : ((Sg.mk ⟨n, a, false, b, false⟩ m).step E d (.train c.1 (.array1 c.2))).1 =
        ⟨⟨n + c.1.length, a ++ c.1.flatten, false, b ++ c.2, false⟩, m⟩ := by
      simp only [Sg.step, Coll.train, check]
      rw [if_neg (by simpa using hc)]
      simp
    unfold trains at ih ⊢
    rw [List.map_cons, Sg.run, e, ih fun c' h' => h c' (by simp [h'])]
    simp [List.flatMap_cons, Nat.add_assoc]

theorem run_new (E : Shogun K M α L F) (d : Nat) (m : Machine K M) (cs : List (List (List α) × List L)) (h : ∀ c ∈ cs, c.2.length = c.1.length) :
    (Sg.new m).run E d (trains cs) = ⟨Coll.full cs false, m⟩ := by
  have e := run_trains E d m cs h 0 [] []
  simp only [Nat.zero_add, List.nil_append] at e
  exact e

/-- What the machine makes of all the samples, by its kind and its kernel. -/
def Trained (E : Shogun K M α L F) (m : Machine K M) (x : List (List α)) (l : List F) (r : M) : Prop :=
  (m.kind = .linear ∧ E.fit .linear none x l = .ok r) ∨ (m.kind = .kernel ∧ ∃ k, m.kernel = some k ∧ E.fit .kernel (some k) x l = .ok r)

theorem fit_trained {E : Shogun K M α L F} {m : Machine K M} {x : List (List α)} {l : List F} {r : M} (h : Trained E m x l r) :
    m.fit E x l = ({ m with model := some r }, none) := by
  rcases h with ⟨h1, h2⟩ | ⟨h1, k, h2, h3⟩
  · simp only [Machine.fit, h1, h2]
  · simp only [Machine.fit, h1, h2, h3]

theorem sg_stop_full (E : Shogun K M α L F) (d : Nat) (m : Machine K M) (cs : List (List (List α) × List L)) (h : ∀ c ∈ cs, c.2.length = c.1.length)
    (hd : ∀ c ∈ cs, ∀ r ∈ c.1, r.length = d) (g : L → F) (hg : ∀ c ∈ cs, ∀ a ∈ c.2, E.float a = some (g a)) (arr : Bool) :
    (Sg.mk (Coll.full cs arr) m).stop E d =
      (⟨Coll.full cs true, (m.fit E (cs.flatMap fun c => c.1) ((cs.flatMap fun c => c.2).map g)).1⟩,
        (m.fit E (cs.flatMap fun c => c.1) ((cs.flatMap fun c => c.2).map g)).2) := by
  have hf : floats E.float (cs.flatMap fun c => c.2) = .ok ((cs.flatMap fun c => c.2).map g) := by
    refine floats_ok _ _ _ fun a ha => ?_
    obtain ⟨c, hc, ha⟩ := List.mem_flatMap.1 ha
    exact hg c hc a ha
  simp only [Sg.stop, stop_full d cs h hd arr, hf]

/-- C348 (Shogun): however the samples are divided into calls of `train`, the machine is trained with all rows in their order, each with its own
label as a floating point number, with the kernel if it is a kernel machine; the node then labels as this machine does. -/
theorem sg_trained (E : Shogun K M α L F) (d : Nat) (m : Machine K M) (cs : List (List (List α) × List L)) (h : ∀ c ∈ cs, c.2.length = c.1.length)
    (hd : ∀ c ∈ cs, ∀ r ∈ c.1, r.length = d) (g : L → F) (hg : ∀ c ∈ cs, ∀ a ∈ c.2, E.float a = some (g a)) (r : M)
    (ht : Trained E m (cs.flatMap fun c => c.1) ((cs.flatMap fun c => c.2).map g) r) (x : List (List α)) :
    (((Sg.new m).run E d (trains cs)).stop E d).2 = none ∧
      (((Sg.new m).run E d (trains cs)).stop E d).1.label E x = some (E.apply r x) := by
  rw [run_new E d m cs h, sg_stop_full E d m cs h hd g hg false, fit_trained ht]
  exact ⟨rfl, rfl⟩

/-- C348 (Shogun): a kernel machine without a kernel refuses to be trained. After any number of refusals, setting a kernel and stopping again gives
the machine which that kernel would have given at once. -/
theorem sg_kernel_retry (E : Shogun K M α L F) (d : Nat) (cs : List (List (List α) × List L)) (h : ∀ c ∈ cs, c.2.length = c.1.length)
    (hd : ∀ c ∈ cs, ∀ r ∈ c.1, r.length = d) (g : L → F) (hg : ∀ c ∈ cs, ∀ a ∈ c.2, E.float a = some (g a)) (n : Nat) (k : K) (r : M)
    (hr : E.fit .kernel (some k) (cs.flatMap fun c => c.1) ((cs.flatMap fun c => c.2).map g) = .ok r) (x : List (List α)) :
    (((Sg.new ⟨.kernel, none, none⟩).run E d (trains cs ++ List.replicate n .stop)).stop E d).2 = some .node ∧
      (((Sg.new ⟨.kernel, none, none⟩).run E d (trains cs ++ List.replicate n .stop ++ [.setKernel k])).stop E d).2 = none ∧
      (((Sg.new ⟨.kernel, none, none⟩).run E d (trains cs ++ List.replicate n .stop ++ [.setKernel k])).stop E d).1.label E x = some (E.apply r x) := by
  have hs : ∀ (n : Nat) (arr : Bool), ∃ arr', (Sg.mk (Coll.full cs arr) (⟨.kernel, none, none⟩ : Machine K M)).run E d (List.replicate n .stop) =
      ⟨Coll.full cs arr', ⟨.kernel, none, none⟩⟩ := by
    intro n
    induction n with
    | zero => intro arr; exact ⟨arr, rfl⟩
    | succ n ih =>
      intro arr
      rw [List.replicate_succ, Sg.run]
      simp only [Sg.step]
      rw [sg_stop_full E d _ cs h hd g hg arr]
      exact ih true
  obtain ⟨arr, e⟩ := hs n false
  have e1 : (Sg.new (⟨.kernel, none, none⟩ : Machine K M)).run E d (trains cs ++ List.replicate n .stop) = ⟨Coll.full cs arr, ⟨.kernel, none, none⟩⟩ := by
    rw [run_append, run_new E d _ cs h, e]
  have e2 : (Sg.new (⟨.kernel, none, none⟩ : Machine K M)).run E d (trains cs ++ List.replicate n .stop ++ [.setKernel k]) =
      ⟨Coll.full cs arr, ⟨.kernel, some k, none⟩⟩ := by
    rw [run_append, e1]; rfl
  refine ⟨?_, ?_, ?_⟩
  · rw [e1, sg_stop_full E d _ cs h hd g hg arr]; rfl
  · rw [e2, sg_stop_full E d _ cs h hd g hg arr, fit_trained (.inr ⟨rfl, k, rfl, hr⟩)]
  · rw [e2, sg_stop_full E d _ cs h hd g hg arr, fit_trained (.inr ⟨rfl, k, rfl, hr⟩)]; rfl

/-- C348 (Shogun): labels that are no numbers, and classes that are neither linear nor kernel machines, are refused when training stops; the machine
stays as it is. -/
theorem sg_refused (E : Shogun K M α L F) (d : Nat) (m : Machine K M) (cs : List (List (List α) × List L)) (h : ∀ c ∈ cs, c.2.length = c.1.length)
    (hd : ∀ c ∈ cs, ∀ r ∈ c.1, r.length = d) :
    ((∃ c ∈ cs, ∃ a ∈ c.2, E.float a = none) → (((Sg.new m).run E d (trains cs)).stop E d).2 = some .value ∧
      (((Sg.new m).run E d (trains cs)).stop E d).1.mach = m) ∧
    ((∀ c ∈ cs, ∀ a ∈ c.2, (E.float a).isSome) → m.kind = .other → (((Sg.new m).run E d (trains cs)).stop E d).2 = some .node ∧
      (((Sg.new m).run E d (trains cs)).stop E d).1.mach = m) := by
  rw [run_new E d m cs h]
  constructor
  · rintro ⟨c, hc, a, ha, hf⟩
    have := floats_bad E.float (cs.flatMap fun c => c.2) a (List.mem_flatMap.2 ⟨c, hc, ha⟩) hf
    simp only [Sg.stop, stop_full d cs h hd false, this, and_self]
  · intro hg hk
    have : ∃ l, floats E.float (cs.flatMap fun c => c.2) = .ok l := by
      have hall : ∀ a ∈ cs.flatMap fun c => c.2, (E.float a).isSome := by
        intro a ha
        obtain ⟨c, hc, ha⟩ := List.mem_flatMap.1 ha
        exact hg c hc a ha
      generalize (cs.flatMap fun c => c.2) = l at hall
      induction l with
      | nil => exact ⟨_, rfl⟩
      | cons a l ih =>
        obtain ⟨r, hr⟩ := ih fun b hb => hall b (by simp [hb])
        obtain ⟨y, hy⟩ := Option.isSome_iff_exists.1 (hall a (by simp))
        exact ⟨_, by simp only [floats, hy, hr]; rfl⟩
    obtain ⟨l, hl⟩ := this
    simp only [Sg.stop, stop_full d cs h hd false, hl, Machine.fit, hk, and_self]

/-- The number of elements of the data array no longer fits the number of rows. -/
def Stuck (d : Nat) (c : Coll α L) : Prop := c.dataArr = true ∧ c.data.length < c.tlen * d

theorem stuck_step (E : Shogun K M α L F) (d : Nat) (s : Sg K M α L) (h : Stuck d s.coll) (o : Op K α L) : Stuck d (s.step E d o).1.coll := by
  cases o with
  | train x l =>
    simp only [Sg.step, Coll.train]
    cases check x.length l with
    | some e => exact h
    | none =>
      simp only [h.1, if_true]
      exact ⟨rfl, Nat.lt_of_lt_of_le h.2 (Nat.mul_le_mul_right _ (Nat.le_add_right _ _))⟩
  | setKernel k =>
    simp only [Sg.step]
    split <;> exact h
  | stop =>
    have hne : s.coll.data.length ≠ s.coll.tlen * d := Nat.ne_of_lt h.2
    simp only [Sg.step, Sg.stop, Coll.stop, if_pos hne]
    exact ⟨rfl, h.2⟩

/-- C348, false: once `stop_training` has failed for want of a kernel, no more samples can be given (AttributeError), and after such an attempt the
node can never be trained: whatever is called afterwards, `stop_training` fails with a ValueError. -/
theorem sg_more_data_violation (E : Shogun K M α L F) (d : Nat) (hd0 : 0 < d) (cs : List (List (List α) × List L)) (h : ∀ c ∈ cs, c.2.length = c.1.length)
    (hd : ∀ c ∈ cs, ∀ r ∈ c.1, r.length = d) (g : L → F) (hg : ∀ c ∈ cs, ∀ a ∈ c.2, E.float a = some (g a))
    (x : List (List α)) (l : List L) (hx : x ≠ []) (hl : l.length = x.length) (ops : List (Op K α L)) :
    (((Sg.new ⟨.kernel, none, none⟩).run E d (trains cs ++ [.stop])).step E d (.train x (.array1 l))).2 = some .attribute ∧
      (((Sg.new ⟨.kernel, none, none⟩).run E d (trains cs ++ [.stop, .train x (.array1 l)] ++ ops)).stop E d).2 = some .value := by
  have hcheck : check x.length (.array1 l) = none := by simp only [check]; rw [if_neg (by simpa using hl)]
  have e1 : (Sg.new (⟨.kernel, none, none⟩ : Machine K M)).run E d (trains cs ++ [.stop]) = ⟨Coll.full cs true, ⟨.kernel, none, none⟩⟩ := by
    rw [run_append, run_new E d _ cs h]
    simp only [Sg.run, Sg.step]
    rw [sg_stop_full E d _ cs h hd g hg false]; rfl
  have hstuck : Stuck d ((Sg.new (⟨.kernel, none, none⟩ : Machine K M)).run E d (trains cs ++ [.stop, .train x (.array1 l)])).coll := by
    rw [show trains cs ++ [.stop, .train x (.array1 l)] = (trains cs ++ [.stop]) ++ [Op.train x (.array1 l)] by simp, run_append, e1]
    simp only [Sg.run, Sg.step, Coll.train, hcheck, Coll.full, if_true]
    refine ⟨rfl, ?_⟩
    simp only []
    rw [length_flatten d _ fun r hr => by obtain ⟨c, hc, hr⟩ := List.mem_flatMap.1 hr; exact hd c hc r hr]
    exact Nat.mul_lt_mul_of_pos_right (Nat.lt_add_of_pos_right (List.length_pos_of_ne_nil hx)) hd0
  constructor
  · rw [e1]
    simp only [Sg.step, Coll.train, hcheck, Coll.full, if_true]
  · rw [run_append]
    have : ∀ (ops : List (Op K α L)) (s : Sg K M α L), Stuck d s.coll → Stuck d (s.run E d ops).coll := by
      intro ops
      induction ops with
      | nil => intro s hs; exact hs
      | cons o ops ih => intro s hs; exact ih _ (stuck_step E d s hs o)
    have hne := Nat.ne_of_lt (this ops _ hstuck).2
    simp only [Sg.stop, Coll.stop, if_pos hne]

/-! ## Examples -/

/-- A library whose model is the data it was trained with. -/
def exSg : Shogun Nat (Kind × Option Nat × List (List Nat) × List Int) Nat Char Int :=
  ⟨fun k n x l => .ok (k, n, x, l), fun m x => x.map fun _ => m.2.2.2.headD 0, fun c => if c = 'x' then none else some c.toNat⟩

def exCs : List (List (List Nat) × List Char) := [([[1, 2], [3, 4]], ['a', 'b']), ([[5, 6]], ['a'])]

example : (∀ c ∈ exCs, c.2.length = c.1.length) ∧ (∀ c ∈ exCs, ∀ r ∈ c.1, r.length = 2) ∧
    (∀ c ∈ exCs, ∀ a ∈ c.2, exSg.float a = some (a.toNat : Int)) ∧
    Trained exSg ⟨.linear, none, none⟩ (exCs.flatMap fun c => c.1) ((exCs.flatMap fun c => c.2).map fun a => (a.toNat : Int))
      (.linear, none, [[1, 2], [3, 4], [5, 6]], [97, 98, 97]) :=
  ⟨by decide +kernel, by decide +kernel, by decide +kernel, .inl ⟨rfl, rfl⟩⟩

example : exSg.fit .kernel (some 3) (exCs.flatMap fun c => c.1) ((exCs.flatMap fun c => c.2).map fun a => (a.toNat : Int)) =
    .ok (.kernel, some 3, [[1, 2], [3, 4], [5, 6]], [97, 98, 97]) := rfl

example : ∃ c ∈ [([[1, 2]], ['x'])] ++ exCs, ∃ a ∈ c.2, exSg.float a = none := ⟨_, List.mem_cons_self, 'x', by simp, rfl⟩

/-- A library with two classes. -/
def exLib : LibSvm (List Char × List (List Nat)) Nat Char Nat :=
  ⟨fun l x => .ok (l, x), fun m x => x.map fun _ => m.1.headD 'a', fun _ x => x.map fun r => [r.headD 0, 7], fun _ => ['b', 'a']⟩

example : (exLib.classes (['a'], [[1]])).Nodup ∧ (exLib.estimate (['a'], [[1]]) [[4], [5]]).length = 2 ∧
    (∀ ps ∈ exLib.estimate (['a'], [[1]]) [[4], [5]], ps.length = 2) ∧
    libProb exLib (['a'], [[1]]) [[4], [5]] = [[('b', 4), ('a', 7)], [('b', 5), ('a', 7)]] := by decide +kernel

example : (libStop exLib 2 (Coll.new.trainAll (exCs.map fun c => (c.1, .array1 c.2))).2).2 = .ok (['a', 'b', 'a'], [[1, 2], [3, 4], [5, 6]]) := rfl

end Mdp.SvmTrain
