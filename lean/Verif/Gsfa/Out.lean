import Verif.Gsfa.BlocksOut
import Verif.Gsfa.WindowsOut
import Verif.Nodes.SfaOut

/-! # Training with graphs and the outputs of GSFA nodes -/

namespace Mdp.Gsfa

open Mdp.Cov Finset Py
open Mdp.Sfa (form GenSpectrum Solves Valid dotL_eq form_comm)
open Mdp.Pca (dot)

variable {F : Type} [Field F] {d : Nat}

/-! ## Specification -/

/-- A training graph: samples, weights of the samples, weights of the edges. -/
structure Graph (F : Type) (d : Nat) where
  x : Rows F d
  v : Nat → F
  e : Nat → Nat → F

/-- Weighted sum of a function of the samples over graphs. -/
def nodeSum (gs : List (Graph F d)) (f : Row F d → F) : F :=
  (gs.map fun g => ∑ i ∈ range g.x.n, g.v i * f (g.x.row i)).sum

/-- Weighted sum of a function of the ends of the edges over graphs. -/
def edgeSum (gs : List (Graph F d)) (f : Row F d → Row F d → F) : F :=
  (gs.map fun g => ∑ i ∈ range g.x.n, ∑ j ∈ range g.x.n, g.e i j * f (g.x.row i) (g.x.row j)).sum

/-- Weighted mean. -/
def wmean (gs : List (Graph F d)) (f : Row F d → F) : F := nodeSum gs f / nodeSum gs fun _ => 1

/-- Weighted covariance of two functions of the samples. -/
def wcov (gs : List (Graph F d)) (f g : Row F d → F) : F :=
  wmean gs fun x => (f x - wmean gs f) * (g x - wmean gs g)

/-- The weighted delta value: the weighted mean over the edges of the squared difference. -/
def wdelta (gs : List (Graph F d)) (f : Row F d → F) : F :=
  (edgeSum gs fun x y => (f y - f x) ^ 2) / edgeSum gs fun _ _ => 1

/-- Matrix of the weighted second moments of the differences along the edges. -/
def wmoment (gs : List (Graph F d)) : Mat F d d := fun k l =>
  (edgeSum gs fun x y => (y k - x k) * (y l - x l)) / edgeSum gs fun _ _ => 1

/-- The graph that a mode stands for, with the keyword arguments of `train`, and when. -/
inductive ModeGraph (argsort : List Int → List Nat) (x : Rows F d) (g : Args F) : Mode F → Graph F d → Prop
  | regular (h : 0 < x.n) : ModeGraph argsort x g .regular ⟨x, fun _ => 1, chainEdge⟩
  | unlabeled : ModeGraph argsort x g .unlabeled ⟨x, fun _ => 1, fun _ _ => 0⟩
  | ignore : ModeGraph argsort x g .ignoreData ⟨x, fun _ => 0, fun _ _ => 0⟩
  | clustered (b : Nat) (hg : g.blockSize = .int b) (hb : 0 < b) (hn : b ∣ x.n) :
    ModeGraph argsort x g .clustered ⟨x, fun _ => 1, blockEdge b⟩
  | clusteredList (l : List Nat) (hg : g.blockSize = .list l) (hl : ∀ b ∈ l, 0 < b) (hn : x.n = l.sum) (h0 : 0 < x.n) :
    ModeGraph argsort x g .clustered ⟨x, fun _ => 1, blocksEdge l⟩
  | serial (b : Nat) (hg : g.blockSize = .int b) (hb : 0 < b) (hn : b ∣ x.n) (h2 : 2 * b ≤ x.n) :
    ModeGraph argsort x g .serial ⟨x, serialNode x.n b, serialEdge b⟩
  | mixed (b : Nat) (hg : g.blockSize = .int b) (hb : 0 < b) (hn : b ∣ x.n) (h2 : 2 * b ≤ x.n) :
    ModeGraph argsort x g .mixed ⟨x, fun _ => 3, mixedEdge x.n b⟩
  | mirror (w : Nat) (h0 : 0 < w) (h2 : 2 * w < x.n) : ModeGraph argsort x g (.mirrorWindow w) ⟨x, fun _ => 1, mirrorEdge x.n w⟩
  | smirror (w : Nat) (h0 : 0 < w) (h2 : 2 * w < x.n) : ModeGraph argsort x g (.smirrorWindow w) ⟨x, fun _ => 1, mirrorEdge x.n w⟩
  | graph (items : List ((Nat × Nat) × F)) (hg : g.edge = some (.dict items)) (hl : ∀ l, g.node = some l → l.length = x.n)
    (hi : ∀ t ∈ items, t.1.1 < x.n ∧ t.1.2 < x.n) : ModeGraph argsort x g .graph ⟨x, nodeWeight g.node, dictEdge items⟩
  | classification (labels : List Int) (w : F) (hn : labels.length = x.n) (h0 : 0 < x.n) :
    ModeGraph argsort x g (.classification labels w) ⟨x, fun _ => w, fun i j => w * classEdge labels i j⟩
  | regression (b : Nat) (labels : List Int) (w : F) (hn : labels.length = x.n) (hb : 0 < b) (hd : b ∣ x.n) (h2 : 2 * b ≤ x.n) :
    ModeGraph argsort x g (.regression b labels w)
      ⟨⟨x.n, fun i => x.row ((argsort labels).getD i 0)⟩, fun i => w * serialNode x.n b i, fun i j => w * serialEdge b i j⟩

/-- A call of `train` with one mode. -/
structure Call (F : Type) (d : Nat) where
  x : Rows F d
  args : Args F
  mode : Mode F

/-! ## Proofs -/

section lin
variable (gs : List (Graph F d))

theorem nodeSum_cons (g : Graph F d) (f : Row F d → F) :
    nodeSum (g :: gs) f = (∑ i ∈ range g.x.n, g.v i * f (g.x.row i)) + nodeSum gs f := by simp [nodeSum]

theorem edgeSum_cons (g : Graph F d) (f : Row F d → Row F d → F) :
    edgeSum (g :: gs) f = (∑ i ∈ range g.x.n, ∑ j ∈ range g.x.n, g.e i j * f (g.x.row i) (g.x.row j)) + edgeSum gs f := by
  simp [edgeSum]

theorem nodeSum_add (f g : Row F d → F) : nodeSum gs (fun x => f x + g x) = nodeSum gs f + nodeSum gs g := by
  induction gs with
  | nil => simp [nodeSum]
  | cons a gs ih => simp only [nodeSum_cons, ih, mul_add, sum_add_distrib]; ring

theorem nodeSum_mul (c : F) (f : Row F d → F) : nodeSum gs (fun x => c * f x) = c * nodeSum gs f := by
  induction gs with
  | nil => simp [nodeSum]
  | cons a gs ih =>
    simp only [nodeSum_cons, ih, mul_add, mul_sum]
    congr 1
    exact sum_congr rfl fun i _ => by ring

theorem nodeSum_sum {ι : Type} (s : Finset ι) (f : ι → Row F d → F) :
    nodeSum gs (fun x => ∑ i ∈ s, f i x) = ∑ i ∈ s, nodeSum gs (f i) := by
  induction gs with
  | nil => simp [nodeSum]
  | cons a gs ih =>
    simp only [nodeSum_cons, ih, sum_add_distrib, mul_sum]
    rw [sum_comm]

theorem edgeSum_mul (c : F) (f : Row F d → Row F d → F) : edgeSum gs (fun x y => c * f x y) = c * edgeSum gs f := by
  induction gs with
  | nil => simp [edgeSum]
  | cons a gs ih =>
    simp only [edgeSum_cons, ih, mul_add, mul_sum]
    congr 1
    exact sum_congr rfl fun i _ => sum_congr rfl fun j _ => by ring

theorem edgeSum_sum {ι : Type} (s : Finset ι) (f : ι → Row F d → Row F d → F) :
    edgeSum gs (fun x y => ∑ i ∈ s, f i x y) = ∑ i ∈ s, edgeSum gs (f i) := by
  induction gs with
  | nil => simp [edgeSum]
  | cons a gs ih =>
    simp only [edgeSum_cons, ih, sum_add_distrib, mul_sum]
    congr 1
    rw [sum_comm (s := s)]
    exact sum_congr rfl fun i _ => sum_comm

end lin

/-- The accumulators hold the sums for the graphs. -/
structure Holds (a : Acc F d) (gs : List (Graph F d)) : Prop where
  sum : ∀ k, a.sum k = nodeSum gs fun x => x k
  prod : ∀ k l, a.prod k l = nodeSum gs fun x => x k * x l
  num : a.num = nodeSum gs fun _ => 1
  diff : ∀ k l, a.diff k l = edgeSum gs fun x y => (y k - x k) * (y l - x l)
  numDiffs : a.numDiffs = edgeSum gs fun _ _ => 1
  some_sums : a.num ≠ 0 → a.sums.isSome
  some_diffs : a.numDiffs ≠ 0 → a.diffs.isSome

theorem Holds.new : Holds (Acc.new : Acc F d) [] := by
  refine ⟨?_, ?_, ?_, ?_, ?_, ?_, ?_⟩ <;> simp [nodeSum, edgeSum, Acc.new, Acc.sum, Acc.prod, Acc.diff]

theorem Holds.adds {a a' : Acc F d} {gs : List (Graph F d)} (h : Holds a gs) {g : Graph F d} (hg : Adds a a' g.x g.v g.e) :
    Holds a' (g :: gs) := by
  refine ⟨?_, ?_, ?_, ?_, ?_, fun _ => hg.some_sums, fun _ => hg.some_diffs⟩
  · intro k; rw [hg.sum, h.sum, nodeSum_cons, add_comm]
  · intro k l; rw [hg.prod, h.prod, nodeSum_cons, add_comm]
  · rw [hg.num, h.num, nodeSum_cons, add_comm]; simp
  · intro k l; rw [hg.diff, h.diff, edgeSum_cons, add_comm]; rfl
  · rw [hg.numDiffs, h.numDiffs, edgeSum_cons, add_comm]; simp

section
variable [CharZero F] {argsort : List Int → List Nat}

/-- One mode adds its graph. -/
theorem mode_adds (hs : Argsort argsort) {x : Rows F d} {g : Args F} {m : Mode F} {gr : Graph F d}
    (h : ModeGraph argsort x g m gr) {a : Acc F d} {gs : List (Graph F d)} (ha : Holds a gs) :
    ∃ a', updateMode argsort x g m a = (.ok (), a') ∧ Holds a' (gr :: gs) := by
  have one : ∀ {a' : Acc F d} {v : Nat → F} {e : Nat → Nat → F} {x : Rows F d}, Adds a a' x (fun i => 1 * v i) (fun i j => 1 * e i j) →
      Holds a' (⟨x, v, e⟩ :: gs) := by
    intro a' v e x hh
    simp only [one_mul] at hh
    exact ha.adds (g := ⟨x, v, e⟩) hh
  have one' : ∀ {a' : Acc F d} {e : Nat → Nat → F} {x : Rows F d}, Adds a a' x (fun _ => 1) (fun i j => 1 * e i j) →
      Holds a' (⟨x, fun _ => 1, e⟩ :: gs) := by
    intro a' e x hh
    simp only [one_mul] at hh
    exact ha.adds (g := ⟨x, fun _ => 1, e⟩) hh
  cases h with
  | regular h =>
    obtain ⟨a', h1, h2⟩ := regular_graph x (1 : F) h a
    exact ⟨a', h1, one' h2⟩
  | unlabeled =>
    obtain ⟨a', h1, h2, h3, h4, h5, h6⟩ := unlabeled_graph x (1 : F) a
    refine ⟨a', h1, ?_, ?_, ?_, ?_, ?_, ?_, ?_⟩
    · intro k; rw [h5, ha.sum, nodeSum_cons, add_comm]
    · intro k l; rw [h6, ha.prod, nodeSum_cons, add_comm]
    · rw [h4, ha.num, nodeSum_cons, add_comm]; simp
    · intro k l
      rw [edgeSum_cons, ← ha.diff]
      simp [Acc.diff, h2]
    · rw [edgeSum_cons, ← ha.numDiffs, h3]; simp
    · intro _
      simp only [updateUnlabeled, M.modify_def, Prod.mk.injEq, true_and] at h1
      rw [← h1]; simp
    · rw [h2, h3]; exact ha.some_diffs
  | ignore =>
    refine ⟨a, rfl, ?_, ?_, ?_, ?_, ?_, ha.some_sums, ha.some_diffs⟩
    · intro k; rw [nodeSum_cons, ← ha.sum]; simp
    · intro k l; rw [nodeSum_cons, ← ha.prod]; simp
    · rw [nodeSum_cons, ← ha.num]; simp
    · intro k l; rw [edgeSum_cons, ← ha.diff]; simp
    · rw [edgeSum_cons, ← ha.numDiffs]; simp
  | clustered b hg hb hn =>
    obtain ⟨a', h1, h2⟩ := clustered_graph x (1 : F) b hb hn a
    exact ⟨a', by simp only [updateMode, hg, updateClustered, h1], one' h2⟩
  | clusteredList l hg hl hn h0 =>
    obtain ⟨a', h1, h2⟩ := clustered_list_graph x (1 : F) l hl hn h0 a
    exact ⟨a', by simp only [updateMode, hg, h1], one' h2⟩
  | serial b hg hb hn h2 =>
    obtain ⟨a', h1, h2⟩ := serial_graph x (1 : F) b hb hn h2 a
    exact ⟨a', by simp only [updateMode, hg, updateSerial, h1], one h2⟩
  | mixed b hg hb hn h2 =>
    obtain ⟨a', h1, h2⟩ := mixed_graph x b hb hn h2 a
    exact ⟨a', by simp only [updateMode, hg, h1], ha.adds (g := ⟨x, fun _ => 3, mixedEdge x.n b⟩) h2⟩
  | mirror w h0 h2 =>
    obtain ⟨a', h1, h2⟩ := fast_mirror_graph x (1 : F) w h0 h2 a
    exact ⟨a', h1, one' h2⟩
  | smirror w h0 h2 =>
    obtain ⟨a', h1, h2⟩ := slow_mirror_graph x (1 : F) w h0 h2 a
    exact ⟨a', h1, one' h2⟩
  | graph items hg hl hi =>
    obtain ⟨a', h1, h2⟩ := dict_graph x g.node (1 : F) a hl items hi
    exact ⟨a', by simp only [updateMode, hg, h1], one h2⟩
  | classification labels w hn h0 =>
    obtain ⟨a', h1, h2⟩ := classification_graph argsort hs x labels (le_of_eq hn) (by rintro rfl; simp at hn; omega) w a
    rw [hn] at h2
    exact ⟨a', h1, ha.adds (g := ⟨x, fun _ => w, fun i j => w * classEdge labels i j⟩) h2⟩
  | regression b labels w hn hb hd h2 =>
    have hlen : (argsort labels).length = x.n := by rw [(hs.perm labels).length_eq, List.length_range, hn]
    obtain ⟨a', h1, h2⟩ := serial_graph (⟨x.n, fun i => x.row ((argsort labels).getD i 0)⟩ : Rows F d) w b hb hd h2 a
    refine ⟨a', ?_, ha.adds (g := ⟨⟨x.n, fun i => x.row ((argsort labels).getD i 0)⟩, fun i => w * serialNode x.n b i,
      fun i j => w * serialEdge b i j⟩) h2⟩
    simp only [updateMode, updateRegression, if_neg (show ¬ x.n < labels.length by omega), Rows.permute, hlen, h1]

/-- **C161**: a list of modes adds the graphs of its modes, with the arguments of the call, if none of them is
'serial_regression'. -/
theorem modes_graphs_partial (hs : Argsort argsort) {x : Rows F d} {g : Args F} {ms : List (Mode F)} {grs : List (Graph F d)}
    (h : List.Forall₂ (ModeGraph argsort x g) ms grs) (hr : ∀ b l w, .regression b l w ∉ ms) {a : Acc F d} {gs : List (Graph F d)}
    (ha : Holds a gs) : ∃ a', updateModes argsort x g ms a = (.ok (), a') ∧ Holds a' (grs.reverse ++ gs) := by
  induction h generalizing a gs with
  | nil => exact ⟨a, rfl, by simpa using ha⟩
  | @cons m gr ms grs hm _ ih =>
    obtain ⟨a1, h1, h2⟩ := mode_adds hs hm ha
    obtain ⟨a2, h3, h4⟩ := ih (fun b l w hh => hr b l w (List.mem_cons_of_mem _ hh)) h2
    refine ⟨a2, ?_, by simpa using h4⟩
    have hg : nextArgs g m = g := by
      cases m with
      | regression b l w => exact absurd (List.mem_cons_self ..) (hr b l w)
      | _ => rfl
    simp only [updateModes, M.bind_def, h1, hg, h3]

end

/-! ## The end of training -/

section fixed
variable {gs : List (Graph F d)}

/-- The weighted mean vector. -/
def wavg (gs : List (Graph F d)) : Row F d := fun k => wmean gs fun x => x k

/-- The weighted covariance matrix. -/
def wcovOf (gs : List (Graph F d)) : Mat F d d := fun k l => wcov gs (fun x => x k) (fun x => x l)

theorem wmean_dot (w : Row F d) : wmean gs (fun x => dot x w) = dot (wavg gs) w := by
  simp only [wmean, dot, wavg, nodeSum_sum, sum_div]
  refine sum_congr rfl fun k _ => ?_
  have : (fun x : Row F d => x k * w k) = fun x => w k * x k := by funext x; ring
  rw [this, nodeSum_mul]; ring

theorem wcov_dot (w u : Row F d) : wcov gs (fun x => dot x w) (fun x => dot x u) = form (wcovOf gs) w u := by
  have h1 : ∀ x : Row F d, (dot x w - dot (wavg gs) w) * (dot x u - dot (wavg gs) u)
      = ∑ k, ∑ l, (w k * u l) * ((x k - wavg gs k) * (x l - wavg gs l)) := by
    intro x
    simp only [dot, ← sum_sub_distrib, sum_mul_sum]
    exact sum_congr rfl fun k _ => sum_congr rfl fun l _ => by ring
  simp only [wcov, wmean_dot, h1, form, wcovOf]
  simp only [wmean, nodeSum_sum, nodeSum_mul, sum_div]
  refine sum_congr rfl fun k _ => sum_congr rfl fun l _ => ?_
  simp only [wavg, wmean]
  ring

theorem wdelta_dot (w : Row F d) (b : F) : wdelta gs (fun x => dot x w - b) = form (wmoment gs) w w := by
  have h1 : ∀ x y : Row F d, (dot y w - b - (dot x w - b)) ^ 2 = ∑ k, ∑ l, (w k * w l) * ((y k - x k) * (y l - x l)) := by
    intro x y
    have : dot y w - b - (dot x w - b) = ∑ k, (y k - x k) * w k := by
      simp only [dot, sub_mul, sum_sub_distrib]; ring
    rw [this, pow_two, sum_mul_sum]
    exact sum_congr rfl fun k _ => sum_congr rfl fun l _ => by ring
  simp only [wdelta, h1, form, wmoment, edgeSum_sum, edgeSum_mul, sum_div]
  exact sum_congr rfl fun k _ => sum_congr rfl fun l _ => by ring

theorem wcov_prod (h : (nodeSum gs fun _ => 1) ≠ 0) (f g : Row F d → F) :
    wcov gs f g = wmean gs (fun x => f x * g x) - wmean gs f * wmean gs g := by
  have h1 : ∀ x : Row F d, (f x - wmean gs f) * (g x - wmean gs g)
      = f x * g x + ((- wmean gs g) * f x + ((- wmean gs f) * g x + (wmean gs f * wmean gs g) * 1)) := fun x => by ring
  simp only [wcov, h1]
  have h2 := nodeSum_add gs
  have h3 := nodeSum_mul gs
  unfold wmean at *
  simp only [h2, h3]
  field_simp
  ring

theorem wcovOf_comm (k l : Fin d) : wcovOf gs k l = wcovOf gs l k := by
  unfold wcovOf wcov
  congr 1
  funext x
  ring

variable [LinearOrder F]

/-- **C162**: the matrices at the end of training are the weighted mean, covariance, and second moment of the differences. -/
theorem fix_weighted {a : Acc F d} (ha : Holds a gs) (hn : (nodeSum gs fun _ => 1) ≠ 0) (he : (edgeSum gs fun _ _ => 1) ≠ 0) :
    a.fix = .ok ⟨wcovOf gs, wavg gs, wmoment gs⟩ := by
  rw [fix_eq (ha.some_sums (by rw [ha.num]; exact hn)) (ha.some_diffs (by rw [ha.numDiffs]; exact he))
    (by rw [ha.num]; exact hn) (by rw [ha.numDiffs]; exact he)]
  congr 2
  · funext k l
    rw [wcovOf, wcov_prod hn, ha.num, ha.prod, ha.sum, ha.sum]
    unfold wmean
    field_simp
  · funext k
    rw [ha.num, ha.sum, wavg, wmean]; ring
  · funext k l
    rw [ha.numDiffs, ha.diff]; rfl

/-- Output `i` of a node for an input, zero if there is none. -/
def St.out (s : St F d) (i : Nat) (x : Row F d) : F := match s.execute none x with
  | .ok y => y.getD i 0
  | .error _ => 0

variable [IsStrictOrderedRing F]

theorem lam_nonneg {B : Mat F d d} (hp : ∀ g ∈ gs, ∀ i < g.x.n, ∀ j < g.x.n, 0 ≤ g.e i j) (he : 0 < edgeSum gs fun _ _ => 1)
    {lam : Fin d → F} {v : Fin d → Row F d} (h : GenSpectrum (wmoment gs) B lam v) (i : Fin d) : 0 ≤ lam i := by
  have h1 := h.formA (v i) i
  rw [h.ortho i i, if_pos rfl, mul_one, ← wdelta_dot _ 0] at h1
  rw [← h1]
  refine div_nonneg (List.sum_nonneg fun a ha => ?_) he.le
  obtain ⟨g, hg, rfl⟩ := List.mem_map.1 ha
  refine sum_nonneg fun i hi => sum_nonneg fun j hj => ?_
  exact mul_nonneg (hp g hg i (mem_range.1 hi) j (mem_range.1 hj)) (sq_nonneg _)

/-- What `stop_training` leaves. -/
theorem stop_ok {a : Acc F d} (ha : Holds a gs) (hn : (nodeSum gs fun _ => 1) ≠ 0) (he : 0 < edgeSum gs fun _ _ => 1)
    (hp : ∀ g ∈ gs, ∀ i < g.x.n, ∀ j < g.x.n, 0 ≤ g.e i j) (solver : Sfa.Solver F d) {lam : Fin d → F}
    {v : Fin d → Row F d} (hs : Solves solver (wmoment gs) (wcovOf gs) lam v) (out : Option Nat) (ho : Valid out d) :
    out.getD d ≤ d ∧ ({ acc := some a, outDim := out } : St F d).stop solver = (.ok (), ⟨none, some (out.getD d),
        some ⟨(List.ofFn lam).take (out.getD d), (List.ofFn v).take (out.getD d),
          ((List.ofFn v).take (out.getD d)).map (dot (wavg gs)), wavg gs⟩⟩) := by
  refine ⟨?_, ?_⟩
  · cases out with
    | none => simp
    | some k => exact (ho k rfl).2
  have hf := fix_weighted ha hn he.ne'
  have hpos : ∀ p ∈ List.ofFn fun i => (lam i, v i), ¬ p.1 < 0 := by
    intro p hp'
    obtain ⟨i, rfl⟩ := (List.mem_ofFn' _ _).1 hp'
    exact not_lt.2 (lam_nonneg hp he hs.spec i)
  have hm1 : (List.ofFn fun i => (lam i, v i)).map (·.1) = List.ofFn lam := by rw [List.map_ofFn]; rfl
  have hm2 : (List.ofFn fun i => (lam i, v i)).map (·.2) = List.ofFn v := by rw [List.map_ofFn]; rfl
  have hm3 : (List.ofFn fun i => (lam i, v i)).map (fun p => dot (wavg gs) p.2) = (List.ofFn v).map (dot (wavg gs)) := by
    rw [← hm2, List.map_map]; rfl
  have hany : ∀ l : List (F × Row F d), (∀ p ∈ l, p ∈ List.ofFn fun i => (lam i, v i)) →
      l.any (fun p => decide (p.1 < 0)) = false := by
    intro l hl
    rw [List.any_eq_false]
    intro p hp'
    simp [hpos p (hl p hp')]
  cases out with
  | none =>
    simp only [St.stop, hf, Sfa.setRange, hs.all, hany _ (fun p hp => hp), Bool.false_eq_true, if_false, dotL_eq, hm1, hm2, hm3,
      Option.getD_none]
    rw [List.take_of_length_le (by simp), List.take_of_length_le (by simp)]
  | some k =>
    obtain ⟨hk1, hk2⟩ := ho k rfl
    simp only [St.stop, hf, Sfa.setRange, hk2, if_true, hs.smallest k hk1 hk2, hany _ (fun p hp => List.mem_of_mem_take hp),
      Bool.false_eq_true, if_false, dotL_eq, List.map_take, hm1, hm2, hm3, Option.getD_some]

/-- The node after calls of `train`. -/
def trained (argsort : List Int → List Nat) (out : Option Nat) (cs : List (Call F d)) : St F d :=
  cs.foldl (fun s c => (s.train argsort c.x c.args [c.mode]).2) (St.new out)

theorem trained_holds {argsort : List Int → List Nat} (hs : Argsort argsort) (out : Option Nat) (cs : List (Call F d))
    (gs : List (Graph F d)) (h : List.Forall₂ (fun c g => ModeGraph argsort c.x c.args c.mode g) cs gs) :
    ∃ a, trained argsort out cs = { acc := some a, outDim := out } ∧ Holds a gs.reverse := by
  have key : ∀ (a : Acc F d) (gs0 : List (Graph F d)), Holds a gs0 → ∃ a', cs.foldl
      (fun s c => (s.train argsort c.x c.args [c.mode]).2) ({ acc := some a, outDim := out } : St F d)
      = { acc := some a', outDim := out } ∧ Holds a' (gs.reverse ++ gs0) := by
    induction h with
    | nil => intro a gs0 ha; exact ⟨a, rfl, by simpa using ha⟩
    | @cons c g cs gs hm _ ih =>
      intro a gs0 ha
      obtain ⟨a1, h1, h2⟩ := mode_adds hs hm ha
      obtain ⟨a2, h3, h4⟩ := ih a1 (g :: gs0) h2
      refine ⟨a2, ?_, by simpa using h4⟩
      rw [List.foldl_cons, ← h3]
      congr 1
      simp only [St.train, updateModes, M.bind_def, h1, M.pure_def]
  obtain ⟨a, h1, h2⟩ := key Acc.new [] Holds.new
  exact ⟨a, h1, by simpa using h2⟩

theorem nodeSum_reverse (f : Row F d → F) : nodeSum gs.reverse f = nodeSum gs f := by
  simp [nodeSum, List.map_reverse]

theorem edgeSum_reverse (f : Row F d → Row F d → F) : edgeSum gs.reverse f = edgeSum gs f := by
  simp [edgeSum, List.map_reverse]

theorem Holds.reverse {a : Acc F d} (h : Holds a gs.reverse) : Holds a gs := by
  refine ⟨fun k => ?_, fun k l => ?_, ?_, fun k l => ?_, ?_, h.some_sums, h.some_diffs⟩
  · rw [h.sum, nodeSum_reverse]
  · rw [h.prod, nodeSum_reverse]
  · rw [h.num, nodeSum_reverse]
  · rw [h.diff, edgeSum_reverse]
  · rw [h.numDiffs, edgeSum_reverse]

/-- **C162**: after training with graphs the outputs have weighted mean zero, weighted variance one, and are uncorrelated; their
weighted delta values are the attribute `d`, in ascending order. -/
theorem gsfa_outputs {argsort : List Int → List Nat} (hsort : Argsort argsort) (out : Option Nat) (cs : List (Call F d))
    (gs : List (Graph F d)) (h : List.Forall₂ (fun c g => ModeGraph argsort c.x c.args c.mode g) cs gs)
    (hn : (nodeSum gs fun _ => 1) ≠ 0) (he : 0 < edgeSum gs fun _ _ => 1)
    (hp : ∀ g ∈ gs, ∀ i < g.x.n, ∀ j < g.x.n, 0 ≤ g.e i j) (solver : Sfa.Solver F d) {lam : Fin d → F}
    {v : Fin d → Row F d} (hs : Solves solver (wmoment gs) (wcovOf gs) lam v) (ho : Valid out d) :
    ∃ s r, (trained argsort out cs).stop solver = (.ok (), s) ∧ s.res = some r ∧ r.ds.Pairwise (· ≤ ·) ∧
      r.ds.length = out.getD d ∧
      (∀ x, ∃ y, s.execute none x = .ok y ∧ y.length = r.ds.length ∧ s.execute (some 0) x = .ok y ∧
        ∀ n, s.execute (some (n + 1)) x = .ok (y.take (n + 1))) ∧
      ∀ (i j : Nat) (hi : i < r.ds.length) (_ : j < r.ds.length),
        wmean gs (s.out i) = 0 ∧ wcov gs (s.out i) (s.out j) = (if i = j then 1 else 0) ∧ wdelta gs (s.out i) = r.ds[i] := by
  obtain ⟨a, hta, ha⟩ := trained_holds hsort out cs gs h
  rw [hta]
  obtain ⟨hle, hst⟩ := stop_ok ha.reverse hn he hp solver hs out ho
  generalize out.getD d = m at hle hst
  refine ⟨_, _, hst, rfl, ?_, by simp [hle], ?_, ?_⟩
  · refine List.Pairwise.sublist (List.take_sublist m _) ?_
    rw [List.pairwise_iff_getElem]
    intro i j hi hj hij
    simp only [List.getElem_ofFn]
    exact hs.spec.asc _ _ (by rw [Fin.le_def]; simp only; omega)
  · intro x
    refine ⟨_, rfl, by simp, rfl, fun n => ?_⟩
    simp only [St.execute]
    rw [List.take_zipWith]
  · intro i j hi hj
    have hi' : i < m := by simpa [hle] using hi
    have hj' : j < m := by simpa [hle] using hj
    have key : ∀ i (hi : i < m), St.out (⟨none, some m,
        some ⟨(List.ofFn lam).take m, (List.ofFn v).take m, ((List.ofFn v).take m).map (dot (wavg gs)), wavg gs⟩⟩ : St F d) i
        = fun x => dot x (v ⟨i, by omega⟩) - dot (wavg gs) (v ⟨i, by omega⟩) := by
      intro i hi
      funext x
      simp only [St.out, St.execute, dotL_eq]
      rw [List.getD_eq_getElem?_getD, List.getElem?_eq_getElem (by simp [hi]; omega)]
      simp
    have hmean : ∀ (w : Row F d), wmean gs (fun x => dot x w - dot (wavg gs) w) = 0 := by
      intro w
      have h1 : (fun x => dot x w - dot (wavg gs) w) = fun x => dot x w + (- dot (wavg gs) w) * 1 := by funext x; ring
      have h2 := wmean_dot (gs := gs) w
      rw [wmean, h1, nodeSum_add, nodeSum_mul]
      rw [wmean, div_eq_iff hn] at h2
      rw [h2]
      ring
    rw [key i hi', key j hj']
    refine ⟨hmean _, ?_, ?_⟩
    · rw [wcov, hmean, hmean]
      have h1 := wcov_dot (gs := gs) (v ⟨i, by omega⟩) (v ⟨j, by omega⟩)
      rw [wcov, wmean_dot, wmean_dot] at h1
      simp only [sub_zero]
      rw [h1, hs.spec.ortho]
      simp
    · rw [wdelta_dot, hs.spec.formA, hs.spec.ortho]
      simp

/-- **C163**: no `m` linear functions of the input that have weighted variance one and are uncorrelated have smaller delta values
on the graphs than the first `m` outputs: the sum of their delta values is not less. -/
theorem gsfa_slowest {argsort : List Int → List Nat} (hsort : Argsort argsort) (out : Option Nat) (cs : List (Call F d))
    (gs : List (Graph F d)) (h : List.Forall₂ (fun c g => ModeGraph argsort c.x c.args c.mode g) cs gs)
    (hn : (nodeSum gs fun _ => 1) ≠ 0) (he : 0 < edgeSum gs fun _ _ => 1)
    (hp : ∀ g ∈ gs, ∀ i < g.x.n, ∀ j < g.x.n, 0 ≤ g.e i j) (solver : Sfa.Solver F d) {lam : Fin d → F}
    {v : Fin d → Row F d} (hs : Solves solver (wmoment gs) (wcovOf gs) lam v) (ho : Valid out d) (s : St F d)
    (r : Sfa.Res F d) (hst : (trained argsort out cs).stop solver = (.ok (), s)) (hr : s.res = some r) (m : Nat)
    (hk : m ≤ r.ds.length) (w : Fin m → Row F d)
    (hw : ∀ a b, wcov gs (fun x => dot x (w a)) (fun x => dot x (w b)) = if a = b then 1 else 0) :
    (r.ds.take m).sum ≤ ∑ a, wdelta gs (fun x => dot x (w a)) := by
  obtain ⟨a, hta, ha⟩ := trained_holds hsort out cs gs h
  obtain ⟨hle, hst'⟩ := stop_ok ha.reverse hn he hp solver hs out ho
  rw [hta, hst'] at hst
  cases hst
  cases hr
  have hk' : m ≤ out.getD d := by simpa [hle] using hk
  simp only [List.take_take, min_eq_left hk']
  rw [Pca.take_sum]
  have hd : ∀ a, wdelta gs (fun x => dot x (w a)) = form (wmoment gs) (w a) (w a) := by
    intro a
    have := wdelta_dot (gs := gs) (w a) 0
    simpa using this
  simp only [hd]
  refine hs.spec.minimal wcovOf_comm w fun a b => ?_
  rw [← hw a b, wcov_dot]

/-- **C164**: after a failure of the solver the training data are kept, and `stop_training` can be called again with another
solver. -/
theorem gsfa_retry (solver solver' : Sfa.Solver F d) (s s' : St F d) (e : Err) (h : s.stop solver = (.error e, s'))
    (hall : ∀ A B, solver' A B none = solver' A B (some (1, d))) : s'.stop solver' = s.stop solver' := by
  cases hacc : s.acc with
  | none => simp only [St.stop, hacc] at h; cases h; rfl
  | some a =>
    cases hf : a.fix with
    | error e' => simp only [St.stop, hacc, hf] at h; cases h; rfl
    | ok f =>
      obtain ⟨sa, out, sr⟩ := s
      simp only at hacc
      subst hacc
      cases out with
      | none =>
        simp only [St.stop, hf, Sfa.setRange] at h
        have hs' : s' = ⟨some a, some d, sr⟩ := by
          split at h
          · cases h; rfl
          · split at h
            · cases h; rfl
            · cases h
        subst hs'
        simp only [St.stop, hf, Sfa.setRange, le_refl, if_true, hall]
      | some k =>
        simp only [St.stop, hf, Sfa.setRange] at h
        by_cases hk : k ≤ d
        · simp only [hk, if_true] at h
          have hs' : s' = ⟨some a, some k, sr⟩ := by
            split at h
            · cases h; rfl
            · split at h
              · cases h; rfl
              · cases h
          subst hs'
          rfl
        · simp only [hk, if_false] at h
          cases h
          rfl

end fixed

end Mdp.Gsfa
