import Verif.Gsfa.Compact
import Mathlib.Tactic.Positivity
import Mathlib.Algebra.Order.Field.Basic

/-!
# The modes 'smart_unlabeled2' and 'smart_unlabeled3' of `GSFANode`

Models the two branches of `GSFANode._train` (mdp/nodes/gsfa_nodes.py, lines 244-328 and 330-445) that add unlabelled samples
to the graph of labelled samples trained before.  The constants `0.2`, `-0.025` and `10.0` are exact; `v = 2.0 ** (-9.5)` is a
parameter.  The specification is that of `Verif.Gsfa.Out`: the accumulators hold the sums of one graph of all samples.
-/

namespace Mdp.Gsfa

open Mdp.Cov Finset Py

variable {F : Type} [Field F] [DecidableEq F] {d : Nat}

/-- `additional_diffs` (lines 297-302) and the bracket of lines 407-410. -/
def mixedDiffs (x : Rows F d) (n1 : F) (p : Mat F d d) (s : Row F d) : Mat F d d := fun k l =>
  x.multT x k l * n1 - s k * x.colSum l - x.colSum k * s l + p k l * x.n

/-- 'smart_unlabeled2' (lines 244-328).  `add_samples` makes new arrays, so the sums of the labelled samples that are kept for
later are not changed. -/
def updateSmart2 (x : Rows F d) : Upd F d := fun a =>
  match a.sums with
  | none => (.error .attribute, a)
  | some (p, s) =>
    if a.numDiffs = 0 then (.error .zeroDivision, a)
    else match a.diffs with
      | none => (.error .typeError, a)
      | some pd =>
        let w1 := a.num / a.numDiffs * (1 - 1 / 5)
        let a1 : Acc F d := { a with diffs := some fun k l => pd k l * w1, numDiffs := a.numDiffs * w1 }
        if x.n = 0 then (.error .zeroDivision, a1)
        else
          let v2 := a.num * (1 / 5) / x.n
          if a.num = 0 then (.error .zeroDivision, a1)
          else
            let w12 := v2 / a.num
            let a2 := a1.addSamples (x.multT x) x.colSum x.n v2
            let a3 := a2.addDiffs (fun k l => 2 * mixedDiffs x a.num p s k l) (2 * a.num * x.n) w12
            updateClusteredInt x (-1 / 40) x.n true a3

/-- 'smart_unlabeled3' (lines 330-445).  `sum_x_labeled` is a view of `sum_x`, which is then multiplied in place;
`sum_prod_x_labeled` is a copy. -/
def updateSmart3 (v : F) (x : Rows F d) : Upd F d := fun a =>
  match a.sums with
  | none => (.error .attribute, a)
  | some (p, s) =>
    let vn := v / 10
    let n1 := a.num / 10
    let d1 := n1 - 1 + vn * x.n
    let d2 := n1 + vn * ((x.n : F) - 1)
    if d1 = 0 then (.error .zeroDivision, a)
    else
      let wa := (n1 - 1) / d1
      let view : Row F d := fun k => s k * wa
      let a1 : Acc F d := { a with sums := some (fun k l => p k l * wa, view), num := a.num * wa }
      match a.diffs with
      | none => (.error .typeError, a1)
      | some pd =>
        let a2 : Acc F d := { a1 with diffs := some fun k l => pd k l * wa, numDiffs := a.numDiffs * wa }
        if d2 = 0 then (.error .zeroDivision, a2)
        else
          let w22 := vn * vn / d2
          let c2 := w22 * ((x.n : F) - 1) * 10
          match updateClusteredInt x c2 x.n true a2 with
          | (.error e, a3) => (.error e, a3)
          | (.ok (), a3) =>
            let w12 := vn * (1 / d1 + 1 / d2)
            let a4 : Acc F d := { a3 with
              diffs := a3.diffs.map fun q k l => q k l + w12 * mixedDiffs x a.num p view k l
              numDiffs := a3.numDiffs + 10 * n1 * x.n * w12 }
            let a5 := a4.addSamples (x.multT x) x.colSum x.n (v - c2)
            (.ok (), a5.addSamples p view a.num (1 - wa))

/-! ## Specification -/

/-- The labelled samples and then the unlabelled samples. -/
def Rows.append (y x : Rows F d) : Rows F d := ⟨y.n + x.n, fun i => if i < y.n then y.row i else x.row (i - y.n)⟩

/-- The graph of both: unlabelled samples together have a fifth of the weight of the labelled ones, less a fortieth each;
the edges of the labelled samples are rescaled, each labelled sample is connected to each unlabelled one, and the unlabelled
samples are connected with one another with negative weight. -/
def smartGraph (y : Rows F d) (v : Nat → F) (e : Nat → Nat → F) (x : Rows F d) : Graph F d :=
  let q := ∑ i ∈ range y.n, v i
  let r := ∑ i ∈ range y.n, ∑ j ∈ range y.n, e i j
  { x := y.append x
    v := fun i => if i < y.n then v i else q / 5 / x.n - 1 / 40
    e := fun i j =>
      if i < y.n then if j < y.n then 4 / 5 * (q / r) * e i j else v i / 5 / x.n
      else if j < y.n then v j / 5 / x.n else -1 / 40 / x.n }

theorem append_sum (y x : Rows F d) (f : Row F d → F) (u w : Nat → F) :
    ∑ i ∈ range (y.append x).n, (if i < y.n then u i else w (i - y.n)) * f ((y.append x).row i) =
      ∑ i ∈ range y.n, u i * f (y.row i) + ∑ i ∈ range x.n, w i * f (x.row i) := by
  change ∑ i ∈ range (y.n + x.n), _ = _
  rw [sum_range_add]
  congr 1
  · refine sum_congr rfl fun i hi => ?_
    have h := mem_range.1 hi
    simp only [Rows.append, if_pos h]
  · refine sum_congr rfl fun i _ => ?_
    have h : ¬ y.n + i < y.n := by omega
    simp only [Rows.append, if_neg h, Nat.add_sub_cancel_left]

theorem append_sum2 (y x : Rows F d) (f : Row F d → Row F d → F) (e11 e12 e21 e22 : Nat → Nat → F) :
    ∑ i ∈ range (y.append x).n, ∑ j ∈ range (y.append x).n,
      (if i < y.n then if j < y.n then e11 i j else e12 i (j - y.n)
        else if j < y.n then e21 (i - y.n) j else e22 (i - y.n) (j - y.n)) * f ((y.append x).row i) ((y.append x).row j) =
      ∑ i ∈ range y.n, ∑ j ∈ range y.n, e11 i j * f (y.row i) (y.row j) +
      ∑ i ∈ range y.n, ∑ j ∈ range x.n, e12 i j * f (y.row i) (x.row j) +
      (∑ i ∈ range x.n, ∑ j ∈ range y.n, e21 i j * f (x.row i) (y.row j) +
      ∑ i ∈ range x.n, ∑ j ∈ range x.n, e22 i j * f (x.row i) (x.row j)) := by
  change ∑ i ∈ range (y.n + x.n), ∑ j ∈ range (y.n + x.n), _ = _
  rw [sum_range_add]
  simp only [sum_range_add _ y.n x.n, sum_add_distrib]
  congr 2
  · refine sum_congr rfl fun i hi => sum_congr rfl fun j hj => ?_
    have h := mem_range.1 hi
    have h' := mem_range.1 hj
    simp only [Rows.append, if_pos h, if_pos h']
  · refine sum_congr rfl fun i hi => sum_congr rfl fun j _ => ?_
    have h := mem_range.1 hi
    have h' : ¬ y.n + j < y.n := by omega
    simp only [Rows.append, if_pos h, if_neg h', Nat.add_sub_cancel_left]
  · refine sum_congr rfl fun i _ => sum_congr rfl fun j hj => ?_
    have h : ¬ y.n + i < y.n := by omega
    have h' := mem_range.1 hj
    simp only [Rows.append, if_neg h, if_pos h', Nat.add_sub_cancel_left]
  · refine sum_congr rfl fun i _ => sum_congr rfl fun j _ => ?_
    have h : ¬ y.n + i < y.n := by omega
    have h' : ¬ y.n + j < y.n := by omega
    simp only [Rows.append, if_neg h, if_neg h', Nat.add_sub_cancel_left]

/-- The products of the differences of all pairs of a labelled and an unlabelled sample. -/
theorem mixed_sum (y x : Rows F d) (v : Nat → F) (k l : Fin d) :
    ∑ i ∈ range y.n, ∑ j ∈ range x.n, v i * ((x.row j k - y.row i k) * (x.row j l - y.row i l)) =
      mixedDiffs x (∑ i ∈ range y.n, v i) (fun k l => ∑ i ∈ range y.n, v i * (y.row i k * y.row i l))
        (fun k => ∑ i ∈ range y.n, v i * y.row i k) k l := by
  have h : ∀ i j, v i * ((x.row j k - y.row i k) * (x.row j l - y.row i l)) =
      v i * (x.row j k * x.row j l) - v i * y.row i k * x.row j l - v i * y.row i l * x.row j k
        + v i * (y.row i k * y.row i l) := by intro i j; ring
  simp only [h, sum_add_distrib, sum_sub_distrib, sum_const, card_range, nsmul_eq_mul]
  simp only [mixedDiffs, Rows.multT, Rows.colSum]
  rw [← sum_mul_sum, ← sum_mul_sum, ← sum_mul_sum, ← mul_sum]
  ring

section
variable [CharZero F]

omit [DecidableEq F] in
theorem one_graph {a : Acc F d} {g : Graph F d} (h : Holds a [g]) :
    (∀ k, a.sum k = ∑ i ∈ range g.x.n, g.v i * g.x.row i k) ∧
    (∀ k l, a.prod k l = ∑ i ∈ range g.x.n, g.v i * (g.x.row i k * g.x.row i l)) ∧
    a.num = ∑ i ∈ range g.x.n, g.v i ∧
    (∀ k l, a.diff k l = ∑ i ∈ range g.x.n, ∑ j ∈ range g.x.n, g.e i j *
      ((g.x.row j k - g.x.row i k) * (g.x.row j l - g.x.row i l))) ∧
    a.numDiffs = ∑ i ∈ range g.x.n, ∑ j ∈ range g.x.n, g.e i j := by
  refine ⟨fun k => ?_, fun k l => ?_, ?_, fun k l => ?_, ?_⟩
  · rw [h.sum]; simp [nodeSum]
  · rw [h.prod]; simp [nodeSum]
  · rw [h.num]; simp [nodeSum]
  · rw [h.diff]; simp [edgeSum]
  · rw [h.numDiffs]; simp [edgeSum]

/-- **'smart_unlabeled2' gives one graph of the labelled and the unlabelled samples.** -/
theorem smart2_graph (y x : Rows F d) (v : Nat → F) (e : Nat → Nat → F) (a : Acc F d) (ha : Holds a [⟨y, v, e⟩])
    (hq : ∑ i ∈ range y.n, v i ≠ 0) (hr : ∑ i ∈ range y.n, ∑ j ∈ range y.n, e i j ≠ 0) (hx : 0 < x.n) :
    ∃ a', updateSmart2 x a = (.ok (), a') ∧ Holds a' [smartGraph y v e x] := by
  obtain ⟨h1, h2, h3, h4, h5⟩ := one_graph ha
  simp only at h1 h2 h3 h4 h5
  have hn : a.num ≠ 0 := by rw [h3]; exact hq
  have hd : a.numDiffs ≠ 0 := by rw [h5]; exact hr
  have hx' : (x.n : F) ≠ 0 := Nat.cast_ne_zero.2 (by omega)
  obtain ⟨⟨p, s⟩, hs⟩ := Option.isSome_iff_exists.1 (ha.some_sums hn)
  obtain ⟨pd, hpd⟩ := Option.isSome_iff_exists.1 (ha.some_diffs hd)
  have hS : ∀ k, s k = ∑ i ∈ range y.n, v i * y.row i k := by
    intro k; rw [← h1]; simp only [Acc.sum, hs]
  have hP : ∀ k l, p k l = ∑ i ∈ range y.n, v i * (y.row i k * y.row i l) := by
    intro k l; rw [← h2]; simp only [Acc.prod, hs]
  have hPD : ∀ k l, pd k l = ∑ i ∈ range y.n, ∑ j ∈ range y.n, e i j *
      ((y.row j k - y.row i k) * (y.row j l - y.row i l)) := by
    intro k l; rw [← h4]; simp only [Acc.diff, hpd]
  have hmix : ∀ k l, mixedDiffs x a.num p s k l =
      ∑ i ∈ range y.n, ∑ j ∈ range x.n, v i * ((x.row j k - y.row i k) * (x.row j l - y.row i l)) := by
    intro k l
    rw [mixed_sum, h3, show p = _ from funext fun k => funext fun l => hP k l, show s = _ from funext hS]
  simp only [updateSmart2, hs, if_neg hd, hpd, if_neg (show ¬ x.n = 0 by omega), if_neg hn]
  set w1 := a.num / a.numDiffs * (1 - 1 / 5) with hw1
  set a1 : Acc F d := { a with sums := some (p, s), diffs := some fun k l => pd k l * w1, numDiffs := a.numDiffs * w1 } with ha1
  obtain ⟨a', h, h'⟩ := clustered_graph x (-1 / 40 : F) x.n hx ⟨1, by rw [Nat.mul_one]⟩
    ((a1.addSamples (x.multT x) x.colSum x.n (a.num * (1 / 5) / x.n)).addDiffs
      (fun k l => 2 * mixedDiffs x a.num p s k l) (2 * a.num * x.n) (a.num * (1 / 5) / x.n / a.num))
  refine ⟨a', h, ?_⟩
  have e1 : a1.sums = some (p, s) := rfl
  have eb : ∀ i ∈ range x.n, ∀ j ∈ range x.n, (-1 / 40 : F) * blockEdge x.n i j = -1 / 40 / x.n := by
    intro i hi j hj
    unfold blockEdge
    rw [Nat.div_eq_of_lt (mem_range.1 hi), Nat.div_eq_of_lt (mem_range.1 hj), if_pos rfl, mul_one_div]
  have hw12 : a.num * (1 / 5) / x.n / a.num = 1 / 5 / (x.n : F) := by field_simp
  refine ⟨fun k => ?_, fun k l => ?_, ?_, fun k l => ?_, ?_, fun _ => h'.some_sums, fun _ => h'.some_diffs⟩
  · rw [h'.sum, addDiffs_sum, addSamples_sum]
    have : a1.sum k = ∑ i ∈ range y.n, v i * y.row i k := by rw [← hS]; simp only [Acc.sum, e1]
    rw [this]
    simp only [nodeSum, smartGraph, List.map_cons, List.map_nil, List.sum_cons, List.sum_nil, add_zero]
    rw [append_sum y x (fun r => r k) v (fun _ => _), ← mul_sum, ← mul_sum, h3]
    simp only [Rows.colSum]
    ring
  · rw [h'.prod, addDiffs_prod, addSamples_prod]
    have : a1.prod k l = ∑ i ∈ range y.n, v i * (y.row i k * y.row i l) := by rw [← hP]; simp only [Acc.prod, e1]
    rw [this]
    simp only [nodeSum, smartGraph, List.map_cons, List.map_nil, List.sum_cons, List.sum_nil, add_zero]
    rw [append_sum y x (fun r => r k * r l) v (fun _ => _), ← mul_sum, ← mul_sum, h3]
    simp only [Rows.multT]
    ring
  · rw [h'.num, addDiffs_num, addSamples_num]
    simp only [nodeSum, smartGraph, List.map_cons, List.map_nil, List.sum_cons, List.sum_nil, add_zero]
    rw [append_sum y x (fun _ => 1) v (fun _ => _), sum_const, sum_const, card_range]
    simp only [mul_one, nsmul_eq_mul]
    change a.num + _ + _ = _
    rw [h3]
    field_simp
    ring
  · rw [h'.diff, addDiffs_diff, addSamples_diff]
    have : a1.diff k l = pd k l * w1 := rfl
    rw [this]
    simp only [edgeSum, smartGraph, List.map_cons, List.map_nil, List.sum_cons, List.sum_nil, add_zero]
    rw [append_sum2 y x (fun r q => (q k - r k) * (q l - r l)) (fun i j => 4 / 5 * ((∑ i ∈ range y.n, v i) / ∑ i ∈ range y.n,
      ∑ j ∈ range y.n, e i j) * e i j) (fun i _ => v i / 5 / x.n) (fun _ j => v j / 5 / x.n) (fun _ _ => -1 / 40 / x.n)]
    rw [sum_congr rfl fun i hi => sum_congr rfl fun j hj => by rw [eb i hi j hj]]
    have c1 : ∑ i ∈ range y.n, ∑ j ∈ range x.n, v i / 5 / (x.n : F) * ((x.row j k - y.row i k) * (x.row j l - y.row i l)) =
        1 / 5 / (x.n : F) * mixedDiffs x a.num p s k l := by
      rw [hmix, mul_sum]
      refine sum_congr rfl fun i _ => ?_
      rw [mul_sum]
      exact sum_congr rfl fun j _ => by ring
    have c2 : ∑ i ∈ range x.n, ∑ j ∈ range y.n, v j / 5 / (x.n : F) * ((y.row j k - x.row i k) * (y.row j l - x.row i l)) =
        1 / 5 / (x.n : F) * mixedDiffs x a.num p s k l := by
      rw [sum_comm, ← c1]
      exact sum_congr rfl fun i _ => sum_congr rfl fun j _ => by ring
    have c3 : ∑ i ∈ range y.n, ∑ j ∈ range y.n, 4 / 5 * ((∑ i ∈ range y.n, v i) / ∑ i ∈ range y.n, ∑ j ∈ range y.n, e i j) * e i j *
        ((y.row j k - y.row i k) * (y.row j l - y.row i l)) = pd k l * w1 := by
      rw [hPD, hw1, h3, h5, sum_mul]
      refine sum_congr rfl fun i _ => ?_
      rw [sum_mul]
      exact sum_congr rfl fun j _ => by ring
    rw [c1, c2, c3, hw12]
    simp only [sq]
    ring
  · rw [h'.numDiffs, addDiffs_numDiffs, addSamples_numDiffs]
    have : a1.numDiffs = a.numDiffs * w1 := rfl
    rw [this]
    simp only [edgeSum, smartGraph, List.map_cons, List.map_nil, List.sum_cons, List.sum_nil, add_zero]
    rw [append_sum2 y x (fun _ _ => 1) (fun i j => 4 / 5 * ((∑ i ∈ range y.n, v i) / ∑ i ∈ range y.n,
      ∑ j ∈ range y.n, e i j) * e i j) (fun i _ => v i / 5 / x.n) (fun _ j => v j / 5 / x.n) (fun _ _ => -1 / 40 / x.n)]
    rw [sum_congr rfl fun i hi => sum_congr rfl fun j hj => by rw [eb i hi j hj]]
    simp only [mul_one, sum_const, card_range, nsmul_eq_mul, ← mul_sum, ← sum_div]
    rw [← h3, ← h5, hw1]
    field_simp
    ring

/-- **The weights stay consistent**: if the weights of the edges at each labelled sample sum up to its weight times a constant, then
afterwards they sum up to the weight of each sample, labelled or not. -/
theorem smart2_consistent (y x : Rows F d) (v : Nat → F) (e : Nat → Nat → F) (c : F)
    (hc : ∀ i < y.n, ∑ j ∈ range y.n, e i j = c * v i) (h0 : c ≠ 0) (hq : ∑ i ∈ range y.n, v i ≠ 0) (hx : 0 < x.n) :
    ∀ i < (smartGraph y v e x).x.n, ∑ j ∈ range (smartGraph y v e x).x.n, (smartGraph y v e x).e i j = (smartGraph y v e x).v i := by
  intro i hi
  have hx' : (x.n : F) ≠ 0 := Nat.cast_ne_zero.2 (by omega)
  have hr : ∑ i ∈ range y.n, ∑ j ∈ range y.n, e i j = c * ∑ i ∈ range y.n, v i := by
    rw [mul_sum]; exact sum_congr rfl fun i hi => hc i (mem_range.1 hi)
  simp only [smartGraph, Rows.append] at hi ⊢
  rw [sum_range_add, hr]
  have h1 : ∀ j ∈ range y.n, (j < y.n) = True := fun j hj => eq_true (mem_range.1 hj)
  have h2 : ∀ j ∈ range x.n, (y.n + j < y.n) = False := fun j _ => eq_false (by omega)
  by_cases h : i < y.n
  · simp only [if_pos h]
    rw [sum_congr rfl fun j hj => if_pos (mem_range.1 hj), ← mul_sum, hc i h,
      sum_congr rfl fun j hj => if_neg (by rw [h2 j hj]; exact id), sum_const, card_range, nsmul_eq_mul]
    field_simp
    ring
  · simp only [if_neg h]
    rw [sum_congr rfl fun j hj => if_pos (mem_range.1 hj), ← sum_div, ← sum_div,
      sum_congr rfl fun j hj => if_neg (by rw [h2 j hj]; exact id), sum_const, card_range, nsmul_eq_mul]
    field_simp
    ring

end

section ordered
variable [LinearOrder F] [IsStrictOrderedRing F]

/-- **Many unlabelled samples have negative weight**: as soon as there are more than eight unlabelled samples for each labelled one;
up to then no node weight is negative. -/
theorem smart2_negative_violation (y x : Rows F d) (e : Nat → Nat → F) (hx : 0 < x.n) (i : Nat) (hi : y.n ≤ i) :
    (smartGraph y (fun _ => 1) e x).v i < 0 ↔ 8 * y.n < x.n := by
  have hx' : (0 : F) < x.n := by exact_mod_cast hx
  have h8 : 8 * y.n < x.n ↔ (8 : F) * y.n < x.n := by exact_mod_cast Iff.rfl
  simp only [smartGraph, if_neg (Nat.not_lt.2 hi), sum_const, card_range, nsmul_eq_mul, mul_one]
  rw [h8, sub_neg, div_lt_div_iff₀ hx' (by norm_num)]
  constructor <;> intro h <;> linarith

/-- Moreover, samples connected with negative weights make the mean squared difference negative: labelled samples at zero,
unlabelled samples of both signs with mean zero. -/
theorem smart2_moment_violation (y x : Rows F d) (e : Nat → Nat → F) (k : Fin d) (hx : 0 < x.n) (hy : ∀ i, y.row i k = 0)
    (h0 : ∑ i ∈ range x.n, x.row i k = 0) (h1 : ∃ i < x.n, x.row i k ≠ 0) (h8 : 8 * y.n < x.n) :
    edgeSum [smartGraph y (fun _ => 1) e x] (fun r q => (q k - r k) * (q k - r k)) < 0 := by
  have hx' : (0 : F) < x.n := by exact_mod_cast hx
  have h8' : (8 : F) * y.n < x.n := by exact_mod_cast h8
  have hpos : 0 < ∑ i ∈ range x.n, x.row i k * x.row i k := by
    obtain ⟨i, hi, h⟩ := h1
    refine lt_of_lt_of_le (mul_self_pos.2 h) ?_
    exact single_le_sum (f := fun i => x.row i k * x.row i k) (fun i _ => mul_self_nonneg _) (mem_range.2 hi)
  simp only [edgeSum, smartGraph, List.map_cons, List.map_nil, List.sum_cons, List.sum_nil, add_zero]
  rw [append_sum2 y x (fun r q => (q k - r k) * (q k - r k)) (fun i j => 4 / 5 * ((∑ i ∈ range y.n, 1) / ∑ i ∈ range y.n,
      ∑ j ∈ range y.n, e i j) * e i j) (fun i _ => 1 / 5 / x.n) (fun _ j => 1 / 5 / x.n) (fun _ _ => -1 / 40 / x.n)]
  simp only [hy, sub_zero, mul_zero, sum_const_zero, zero_add, zero_sub, neg_mul_neg, ← mul_sum, sum_const, card_range,
    nsmul_eq_mul]
  have c : ∑ i ∈ range x.n, ∑ j ∈ range x.n, (x.row j k - x.row i k) * (x.row j k - x.row i k) =
      2 * x.n * ∑ i ∈ range x.n, x.row i k * x.row i k := by
    have h : ∀ i j, (x.row j k - x.row i k) * (x.row j k - x.row i k) =
        x.row j k * x.row j k - 2 * (x.row i k * x.row j k) + x.row i k * x.row i k := by intro i j; ring
    simp only [h, sum_add_distrib, sum_sub_distrib, ← mul_sum, h0, mul_zero, sum_const, card_range, nsmul_eq_mul, sub_zero]
    have : ∑ i ∈ range x.n, x.row i k * ((x.n : F) * x.row i k) = x.n * ∑ i ∈ range x.n, x.row i k * x.row i k := by
      rw [mul_sum]; exact sum_congr rfl fun i _ => by ring
    rw [this]
    ring
  rw [c]
  set S := ∑ i ∈ range x.n, x.row i k * x.row i k
  have e2 : (y.n : F) * (1 / 5 / x.n * S) + (1 / 5 / (x.n : F) * (y.n * S) + -1 / 40 / x.n * (2 * x.n * S)) =
      (8 * y.n - x.n) * (S / 20 / x.n) := by field_simp; ring
  have hneg : (8 * y.n - x.n : F) * (S / 20 / x.n) < 0 := mul_neg_of_neg_of_pos (by linarith) (by positivity)
  refine lt_of_eq_of_lt ?_ hneg
  rw [← e2]
  have e3 : ∑ i ∈ range x.n, x.row i k * ((y.n : F) * x.row i k) = y.n * S := by
    rw [mul_sum]; exact sum_congr rfl fun i _ => by ring
  rw [e3]
  ring

end ordered

/-! ## 'smart_unlabeled3' -/

/-- **The sums after 'smart_unlabeled3'**: the weights and the second moments are those of labelled samples with weight one
and unlabelled samples with weight `v`.  The sum of the labelled samples is multiplied with a factor that should not be
there. -/
theorem smart3_sums_partial [CharZero F] (vv : F) (y x : Rows F d) (e : Nat → Nat → F) (a : Acc F d)
    (ha : Holds a [⟨y, fun _ => 1, e⟩]) (hy : 0 < y.n) (hr : ∑ i ∈ range y.n, ∑ j ∈ range y.n, e i j ≠ 0) (hx : 0 < x.n)
    (h1 : (y.n : F) / 10 - 1 + vv / 10 * x.n ≠ 0) (h2 : (y.n : F) / 10 + vv / 10 * (x.n - 1) ≠ 0) :
    ∃ a', updateSmart3 vv x a = (.ok (), a') ∧ a'.num = y.n + vv * x.n ∧
      (∀ k l, a'.prod k l = ∑ i ∈ range y.n, y.row i k * y.row i l + vv * ∑ i ∈ range x.n, x.row i k * x.row i l) ∧
      (∀ k, a'.sum k = (1 - (1 - ((y.n : F) / 10 - 1) / ((y.n : F) / 10 - 1 + vv / 10 * x.n)) ^ 2) * ∑ i ∈ range y.n, y.row i k
        + vv * ∑ i ∈ range x.n, x.row i k) := by
  obtain ⟨g1, g2, g3, -, g5⟩ := one_graph ha
  simp only [one_mul, sum_const, card_range, nsmul_eq_mul, mul_one] at g1 g2 g3 g5
  have hn : a.num ≠ 0 := by rw [g3]; exact Nat.cast_ne_zero.2 (by omega)
  have hd : a.numDiffs ≠ 0 := by rw [g5]; exact hr
  obtain ⟨⟨p, s⟩, hs⟩ := Option.isSome_iff_exists.1 (ha.some_sums hn)
  obtain ⟨pd, hpd⟩ := Option.isSome_iff_exists.1 (ha.some_diffs hd)
  have hS : ∀ k, s k = ∑ i ∈ range y.n, y.row i k := by
    intro k; rw [← g1]; simp only [Acc.sum, hs]
  have hP : ∀ k l, p k l = ∑ i ∈ range y.n, y.row i k * y.row i l := by
    intro k l; rw [← g2]; simp only [Acc.prod, hs]
  simp only [updateSmart3, hs, g3, if_neg h1, hpd, if_neg h2]
  set wa := ((y.n : F) / 10 - 1) / ((y.n : F) / 10 - 1 + vv / 10 * x.n) with hwa
  set c2 := vv / 10 * (vv / 10) / ((y.n : F) / 10 + vv / 10 * (x.n - 1)) * ((x.n : F) - 1) * 10 with hc2
  obtain ⟨b, hb, hb'⟩ := clustered_graph x c2 x.n hx ⟨1, by rw [Nat.mul_one]⟩
    ({ sums := some (fun k l => p k l * wa, fun k => s k * wa), num := y.n * wa, diffs := some fun k l => pd k l * wa,
       numDiffs := a.numDiffs * wa } : Acc F d)
  rw [hb]
  refine ⟨_, rfl, ?_, ?_, ?_⟩
  · rw [addSamples_num, addSamples_num]
    change b.num + _ + _ = _
    rw [hb'.num, sum_const, card_range, nsmul_eq_mul]
    ring
  · intro k l
    rw [addSamples_prod, addSamples_prod]
    have : ∀ q n, ({ b with diffs := q, numDiffs := n } : Acc F d).prod k l = b.prod k l := fun _ _ => rfl
    rw [this, hb'.prod, ← mul_sum, ← hP]
    simp only [Acc.prod, Rows.multT]
    ring
  · intro k
    rw [addSamples_sum, addSamples_sum]
    have : ∀ q n, ({ b with diffs := q, numDiffs := n } : Acc F d).sum k = b.sum k := fun _ _ => rfl
    rw [this, hb'.sum, ← mul_sum, ← hS]
    simp only [Acc.sum, Rows.colSum]
    ring

/-- **The average of equal samples is wrong**: if all samples, labelled and unlabelled, have the same value, the average after
'smart_unlabeled3' is closer to zero. -/
theorem smart3_average_violation [LinearOrder F] [IsStrictOrderedRing F] (vv : F) (hv : 0 < vv) (y x : Rows F d)
    (e : Nat → Nat → F) (a : Acc F d) (ha : Holds a [⟨y, fun _ => 1, e⟩]) (hy : 10 < y.n)
    (hr : ∑ i ∈ range y.n, ∑ j ∈ range y.n, e i j ≠ 0) (hx : 0 < x.n) (k : Fin d) (c : F) (hc : 0 < c)
    (hcy : ∀ i, y.row i k = c) (hcx : ∀ i, x.row i k = c) :
    ∃ a', updateSmart3 vv x a = (.ok (), a') ∧ 0 < a'.num ∧ a'.sum k / a'.num < c := by
  have hx' : (0 : F) < x.n := by exact_mod_cast hx
  have hx1 : (1 : F) ≤ x.n := by exact_mod_cast hx
  have hy' : (10 : F) < y.n := by exact_mod_cast hy
  have p1 : (0 : F) < vv / 10 * x.n := by positivity
  have p2 : (0 : F) < (y.n : F) / 10 - 1 := by linarith
  have p3 : (0 : F) ≤ vv / 10 * (x.n - 1) := mul_nonneg (by positivity) (by linarith)
  obtain ⟨a', h, h1, -, h3⟩ := smart3_sums_partial vv y x e a ha (by omega) hr hx (by positivity) (by
    have : (0 : F) < (y.n : F) / 10 + vv / 10 * (x.n - 1) := by linarith
    exact ne_of_gt this)
  have hn : 0 < a'.num := by rw [h1]; positivity
  refine ⟨a', h, hn, ?_⟩
  rw [div_lt_iff₀ hn, h3, h1]
  simp only [hcy, hcx, sum_const, card_range, nsmul_eq_mul]
  have hw : ((y.n : F) / 10 - 1) / ((y.n : F) / 10 - 1 + vv / 10 * x.n) < 1 := by
    rw [div_lt_one (by linarith)]; linarith
  set wa := ((y.n : F) / 10 - 1) / ((y.n : F) / 10 - 1 + vv / 10 * x.n)
  have : 0 < (1 - wa) ^ 2 * (y.n * c) := mul_pos (pow_pos (by linarith) 2) (mul_pos (by linarith) hc)
  linarith

/-- **Without labelled samples** both modes are refused; without edges 'smart_unlabeled3' fails after the sums have been
scaled. -/
theorem smart_refused (vv : F) (x : Rows F d) :
    updateSmart2 x (Acc.new : Acc F d) = (.error .attribute, Acc.new) ∧
    updateSmart3 vv x (Acc.new : Acc F d) = (.error .attribute, Acc.new) := ⟨rfl, rfl⟩

theorem smart3_scaled_violation :
    let a : Acc ℚ 1 := (updateUnlabeled ⟨20, fun _ _ => 1⟩ 1 Acc.new).2
    let r := updateSmart3 1 (⟨10, fun _ _ => 1⟩ : Rows ℚ 1) a
    (∃ e, r.1 = .error e) ∧ a.num = 20 ∧ r.2.num = 10 := by
  refine ⟨⟨.typeError, ?_⟩, ?_, ?_⟩
  · simp [updateSmart3, updateUnlabeled, M.modify_def, Acc.addSamples, Acc.new]
  · norm_num [updateUnlabeled, M.modify_def, Acc.addSamples, Acc.new]
  · simp [updateSmart3, updateUnlabeled, M.modify_def, Acc.addSamples, Acc.new]
    norm_num

/-! ## Non-vacuity -/

/-- Twenty labelled samples, connected in pairs of neighbours, as 'clustered' leaves them. -/
example : ∃ a, updateClusteredInt (⟨20, fun _ _ => 3⟩ : Rows ℚ 1) 1 2 true Acc.new = (.ok (), a) ∧
    Holds a [⟨⟨20, fun _ _ => 3⟩, fun _ => 1, blockEdge 2⟩] ∧
    ∃ a', updateSmart3 (1 / 724) (⟨10, fun _ _ => 3⟩ : Rows ℚ 1) a = (.ok (), a') ∧ 0 < a'.num ∧ a'.sum 0 / a'.num < 3 := by
  obtain ⟨a, h, h'⟩ := clustered_graph (⟨20, fun _ _ => 3⟩ : Rows ℚ 1) 1 2 (by decide) (by decide) Acc.new
  simp only [one_mul] at h'
  have hh : Holds a [⟨⟨20, fun _ _ => 3⟩, fun _ => 1, blockEdge 2⟩] := Holds.adds Holds.new (g := ⟨_, _, _⟩) h'
  have hr : ∑ i ∈ range 20, ∑ j ∈ range 20, (blockEdge 2 i j : ℚ) ≠ 0 := by
    norm_num [blockEdge, sum_range_succ]
  exact ⟨a, h, hh, smart3_average_violation _ (by norm_num) _ _ _ a hh (by decide) hr (by decide) 0 3 (by norm_num) (fun _ => rfl)
    fun _ => rfl⟩

example : ∃ a, updateClusteredInt (⟨4, fun i _ => i⟩ : Rows ℚ 1) 1 2 true Acc.new = (.ok (), a) ∧
    ∃ a', updateSmart2 (⟨3, fun i _ => i⟩ : Rows ℚ 1) a = (.ok (), a') ∧
      Holds a' [smartGraph ⟨4, fun i _ => i⟩ (fun _ => 1) (blockEdge 2) ⟨3, fun i _ => i⟩] := by
  obtain ⟨a, h, h'⟩ := clustered_graph (⟨4, fun i _ => i⟩ : Rows ℚ 1) 1 2 (by decide) (by decide) Acc.new
  simp only [one_mul] at h'
  have hh : Holds a [⟨⟨4, fun i _ => i⟩, fun _ => 1, blockEdge 2⟩] := Holds.adds Holds.new (g := ⟨_, _, _⟩) h'
  exact ⟨a, h, smart2_graph _ _ _ _ a hh (by norm_num) (by norm_num [blockEdge, sum_range_succ]) (by decide)⟩

end Mdp.Gsfa
