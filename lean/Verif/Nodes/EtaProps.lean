import Verif.Nodes.Eta
import Verif.Nodes.SfaOut
import Mathlib.Analysis.SpecialFunctions.Trigonometric.Bounds
import Mathlib.Analysis.SpecialFunctions.Sqrt

/-!
# What an eta computer node computes (C226-C228)
-/

namespace Mdp.Eta

open Mdp.Cov Mdp.Join Mdp.Sfa

variable {d : Nat}

/-! ## Specification -/

/-- The values of a component that count: all but the last one of each chunk. -/
def values (cs : List (List (Row ℝ d))) (i : Fin d) : List ℝ := cs.flatMap fun x => x.dropLast.map fun r => r i

/-- The changes of a component from one sample to the next, within the chunks. -/
def steps (cs : List (List (Row ℝ d))) (i : Fin d) : List ℝ := cs.flatMap fun x => differences (x.map fun r => r i)

/-- Mean of the squares. -/
noncomputable def meanSq (l : List ℝ) : ℝ := (l.map fun a => a ^ 2).sum / l.length

/-- Variance, normalised by the number minus one. -/
noncomputable def variance (l : List ℝ) : ℝ := (l.map fun a => (a - Cov.mean l) ^ 2).sum / ((l.length : ℝ) - 1)

/-- A node after training with the chunks. -/
noncomputable def trained (cs : List (List (Row ℝ d))) : Acc d := cs.foldl Acc.train {}

/-! ## C226 -/

theorem trained_eq (cs : List (List (Row ℝ d))) (i : Fin d) :
    (trained cs).mean i = (values cs i).sum ∧ (trained cs).var i = ((values cs i).map fun a => a ^ 2).sum ∧
    (trained cs).tlen = (values cs i).length ∧ (trained cs).diff2 i = ((steps cs i).map fun a => a ^ 2).sum := by
  suffices h : ∀ (cs : List (List (Row ℝ d))) (s : Acc d), 
      (cs.foldl Acc.train s).mean i = s.mean i + (values cs i).sum ∧
      (cs.foldl Acc.train s).var i = s.var i + ((values cs i).map fun a => a ^ 2).sum ∧
      (cs.foldl Acc.train s).tlen = s.tlen + (values cs i).length ∧
      (cs.foldl Acc.train s).diff2 i = s.diff2 i + ((steps cs i).map fun a => a ^ 2).sum by
    obtain ⟨h1, h2, h3, h4⟩ := h cs {}
    unfold trained
    rw [h1, h2, h3, h4]
    simp
  intro cs
  induction cs with
  | nil => intro s; simp [values, steps]
  | cons x cs ih =>
    intro s
    obtain ⟨h1, h2, h3, h4⟩ := ih (s.train x)
    have hd : differences (x.map fun r => r i) = (differences x).map fun r => r i :=
      differences_map (fun r => r i) (fun _ _ => rfl) x
    simp only [List.foldl_cons]
    rw [h1, h2, h3, h4]
    simp only [Acc.train, values, steps, List.flatMap_cons, List.sum_append, List.map_append,
      List.length_append, List.length_map, Pi.add_apply, colSum, List.map_map, Function.comp_def, Pi.mul_apply, hd,
      differences_eq, pow_two]
    refine ⟨by ring, by ring, by ring, by ring⟩

theorem steps_length (cs : List (List (Row ℝ d))) (i : Fin d) : (steps cs i).length = (values cs i).length := by
  have h : ∀ l : List ℝ, (differences l).length = l.length - 1 := by
    intro l
    induction l with
    | nil => rfl
    | cons a l ih =>
      cases l with
      | nil => rfl
      | cons b l => simp only [differences, List.length_cons] at ih ⊢; omega
  unfold steps values
  induction cs with
  | nil => rfl
  | cons x cs ih => simp only [List.flatMap_cons, List.length_append, ih, h, List.length_map, List.length_dropLast]

theorem sum_sq_dev (l : List ℝ) (h : l ≠ []) :
    (l.map fun a => (a - Cov.mean l) ^ 2).sum = (l.map fun a => a ^ 2).sum - l.sum * l.sum / l.length := by
  have hn : (l.length : ℝ) ≠ 0 := by
    have := List.length_pos_iff.2 h
    positivity
  have key : ∀ (l : List ℝ) (m : ℝ), (l.map fun a => (a - m) ^ 2).sum =
      (l.map fun a => a ^ 2).sum - 2 * m * l.sum + m ^ 2 * l.length := by
    intro l m
    induction l with
    | nil => simp
    | cons a l ih =>
      simp only [List.map_cons, List.sum_cons, ih, List.length_cons, Nat.cast_succ]
      ring
  rw [key, Cov.mean]
  field_simp
  ring

/-- **C226**: for any chunks with two or more values that count, not all the same, `get_eta(t)` is `t / (2 pi)` times the square root
of the mean squared change divided by the variance. -/
theorem eta_value (cs : List (List (Row ℝ d))) (i : Fin d) (t : ℝ) (hn : 2 ≤ (values cs i).length)
    (hv : variance (values cs i) ≠ 0) :
    (trained cs).getEta t i = some (t / (2 * Real.pi) * Real.sqrt (meanSq (steps cs i) / variance (values cs i))) := by
  obtain ⟨h1, h2, h3, h4⟩ := trained_eq cs i
  have hne : values cs i ≠ [] := by intro h; rw [h] at hn; simp at hn
  have hr : (2 : ℝ) ≤ ((values cs i).length : ℝ) := by exact_mod_cast hn
  have hvar : ((((values cs i).map fun a => a ^ 2).sum - (values cs i).sum * (values cs i).sum / ((values cs i).length : ℝ)) /
      (((values cs i).length : ℝ) - 1)) = variance (values cs i) := by
    rw [variance, sum_sq_dev _ hne]
  unfold Acc.getEta Acc.eta quot
  rw [h1, h2, h3, h4, if_neg (by linarith)]
  simp only [Option.bind_some]
  rw [if_neg (by linarith)]
  simp only [Option.bind_some]
  rw [if_neg (by linarith)]
  simp only [Option.bind_some]
  rw [hvar, if_neg hv]
  simp only [Option.bind_some, Option.map_some, meanSq, steps_length]
  congr 1
  ring

/-- **C226**: otherwise there is no number: with fewer than two values or values that are all the same. -/
theorem eta_none (cs : List (List (Row ℝ d))) (i : Fin d) (t : ℝ)
    (h : (values cs i).length < 2 ∨ ∃ c, ∀ a ∈ values cs i, a = c) : (trained cs).getEta t i = none := by
  obtain ⟨h1, h2, h3, h4⟩ := trained_eq cs i
  unfold Acc.getEta Acc.eta quot
  rw [h1, h2, h3, h4]
  by_cases h0 : (values cs i).length = 0
  · simp [h0]
  by_cases h10 : (values cs i).length = 1
  · simp [h10]
  obtain ⟨c, hc⟩ : ∃ c, ∀ a ∈ values cs i, a = c := by
    rcases h with h | h
    · omega
    · exact h
  have hn : ((values cs i).length : ℝ) ≠ 0 := by exact_mod_cast h0
  have hn1 : ((values cs i).length : ℝ) - 1 ≠ 0 := by
    intro h
    have : ((values cs i).length : ℝ) = 1 := by linarith
    exact h10 (by exact_mod_cast this)
  rw [List.eq_replicate_of_mem hc]
  simp only [List.length_replicate, List.sum_replicate, List.map_replicate, nsmul_eq_mul]
  rw [if_neg hn]
  simp only [Option.bind_some]
  rw [if_neg hn1]
  simp only [Option.bind_some]
  rw [if_neg hn]
  simp only [Option.bind_some]
  rw [if_pos]
  · rfl
  · field_simp
    ring

theorem variance_zero (l : List ℝ) (hn : 2 ≤ l.length) (h : variance l = 0) : ∃ c, ∀ a ∈ l, a = c := by
  refine ⟨Cov.mean l, fun a ha => ?_⟩
  unfold variance at h
  have hr : (2 : ℝ) ≤ (l.length : ℝ) := by exact_mod_cast hn
  rcases div_eq_zero_iff.1 h with h | h
  · have h2 : ∀ b ∈ l.map (fun a => (a - Cov.mean l) ^ 2), b = 0 := by
      intro b hb
      refine le_antisymm ?_ ?_
      · have := List.single_le_sum (l := l.map (fun a => (a - Cov.mean l) ^ 2)) (by
          intro x hx; obtain ⟨y, _, rfl⟩ := List.mem_map.1 hx; positivity) b hb
        rw [h] at this
        exact this
      · obtain ⟨y, _, rfl⟩ := List.mem_map.1 hb; positivity
    have := h2 _ (List.mem_map.2 ⟨a, ha, rfl⟩)
    have := pow_eq_zero_iff (n := 2) (by norm_num) |>.1 this
    linarith
  · linarith

/-- **C226**: two trainings with the same values and the same changes, in any order, give the same result; in particular the chunks
may come in any order. -/
theorem eta_order (cs cs' : List (List (Row ℝ d))) (h : cs.Perm cs') (i : Fin d) (t : ℝ) :
    (trained cs).getEta t i = (trained cs').getEta t i := by
  have h1 : (values cs i).Perm (values cs' i) := h.flatMap_right _
  have h2 : (steps cs i).Perm (steps cs' i) := h.flatMap_right _
  obtain ⟨a1, a2, a3, a4⟩ := trained_eq cs i
  obtain ⟨b1, b2, b3, b4⟩ := trained_eq cs' i
  unfold Acc.getEta Acc.eta
  rw [a1, a2, a3, a4, b1, b2, b3, b4, h1.sum_eq, (h1.map _).sum_eq, (h2.map _).sum_eq, h1.length_eq]

/-- The input with component `i` replaced by `a` times it plus `b`. -/
def affine (i : Fin d) (a b : ℝ) (x : Row ℝ d) : Row ℝ d := fun j => if j = i then a * x i + b else x j

theorem differences_affine (a b : ℝ) (l : List ℝ) : differences (l.map fun x => a * x + b) = (differences l).map fun x => a * x := by
  induction l with
  | nil => rfl
  | cons x l ih =>
    cases l with
    | nil => rfl
    | cons y l =>
      simp only [List.map_cons, differences] at ih ⊢
      rw [ih]
      congr 1
      ring

theorem variance_affine (a b : ℝ) (l : List ℝ) (h : l ≠ []) : variance (l.map fun x => a * x + b) = a ^ 2 * variance l := by
  have hn : (l.length : ℝ) ≠ 0 := by
    have := List.length_pos_iff.2 h
    positivity
  have hs : ∀ l : List ℝ, (l.map fun x => a * x + b).sum = a * l.sum + b * l.length := by
    intro l
    induction l with
    | nil => simp
    | cons x l ih => simp only [List.map_cons, List.sum_cons, ih, List.length_cons, Nat.cast_succ]; ring
  have hm : Cov.mean (l.map fun x => a * x + b) = a * Cov.mean l + b := by
    unfold Cov.mean
    rw [hs, List.length_map]
    field_simp
  unfold variance
  rw [hm, List.length_map, List.map_map]
  have : ((fun x => (x - (a * Cov.mean l + b)) ^ 2) ∘ fun x => a * x + b) = fun x => a ^ 2 * (x - Cov.mean l) ^ 2 := by
    funext x
    simp only [Function.comp]
    ring
  rw [this, List.sum_map_mul_left]
  ring

/-- **C226**: eta values do not change if a component is multiplied by a nonzero number and shifted. -/
theorem eta_affine (cs : List (List (Row ℝ d))) (i : Fin d) (a b t : ℝ) (ha : a ≠ 0) :
    (trained (cs.map fun x => x.map (affine i a b))).getEta t i = (trained cs).getEta t i := by
  have hv : values (cs.map fun x => x.map (affine i a b)) i = (values cs i).map fun x => a * x + b := by
    simp only [values, List.flatMap_map, List.map_flatMap, ← List.map_dropLast, List.map_map, Function.comp_def, affine, if_true]
  have hst : steps (cs.map fun x => x.map (affine i a b)) i = (steps cs i).map fun x => a * x := by
    simp only [steps, List.flatMap_map, List.map_flatMap, List.map_map, Function.comp_def, affine, if_true]
    congr 1
    funext x
    rw [← differences_affine a b, List.map_map]
    rfl
  by_cases hn : 2 ≤ (values cs i).length
  · have hne : values cs i ≠ [] := by intro h; rw [h] at hn; simp at hn
    have hvar := variance_affine a b _ hne
    by_cases h0 : variance (values cs i) = 0
    · obtain ⟨c, hc⟩ := variance_zero _ hn h0
      rw [eta_none cs i t (.inr ⟨c, hc⟩), eta_none]
      right
      refine ⟨a * c + b, ?_⟩
      rw [hv]
      intro x hx
      obtain ⟨y, hy, rfl⟩ := List.mem_map.1 hx
      rw [hc y hy]
    · rw [eta_value cs i t hn h0, eta_value _ i t (by rw [hv, List.length_map]; exact hn) (by
        rw [hv, hvar]; exact mul_ne_zero (pow_ne_zero _ ha) h0)]
      rw [hv, hst, hvar]
      congr 3
      unfold meanSq
      rw [List.length_map, List.map_map]
      have : ((fun x : ℝ => x ^ 2) ∘ fun x => a * x) = fun x => a ^ 2 * x ^ 2 := by
        funext x; simp only [Function.comp]; ring
      rw [this, List.sum_map_mul_left, mul_div_assoc, mul_div_mul_left _ _ (pow_ne_zero _ ha)]
  · rw [eta_none cs i t (.inl (by omega)), eta_none _ i t (.inl (by rw [hv, List.length_map]; omega))]

/-- Three samples of a ramp. -/
def ramp : List (List (Row ℝ 1)) := [[fun _ => 0, fun _ => 1, fun _ => 2]]

/-- Non-vacuity of C226: a ramp of three samples has two values, 0 and 1, with variance 1/2; both changes are 1. -/
theorem ramp_eta (t : ℝ) : (trained ramp).getEta t 0 = some (t / (2 * Real.pi) * Real.sqrt 2) := by
  have hv : variance (values ramp 0) = 1 / 2 := by
    simp only [ramp, values, variance, Cov.mean, List.flatMap_cons, List.flatMap_nil, List.dropLast, List.map_cons, List.map_nil,
      List.append_nil, List.sum_cons, List.sum_nil, List.length_cons, List.length_nil]
    norm_num
  rw [eta_value ramp 0 t (by simp [ramp, values]) (by rw [hv]; norm_num), hv]
  congr 3
  simp only [ramp, steps, meanSq, differences, List.flatMap_cons, List.flatMap_nil, List.map_cons, List.map_nil,
      List.append_nil, List.sum_cons, List.sum_nil, List.length_cons, List.length_nil]
  norm_num

/-! ## C227: cutting a sequence -/

/-- **C227**: a chunk with fewer than two samples counts for nothing. -/
theorem eta_single (cs cs' : List (List (Row ℝ d))) (x : List (Row ℝ d)) (hx : x.length < 2) (i : Fin d) (t : ℝ) :
    (trained (cs ++ x :: cs')).getEta t i = (trained (cs ++ cs')).getEta t i := by
  have h : values [x] i = [] ∧ steps [x] i = [] := by
    match x, hx with
    | [], _ => exact ⟨rfl, rfl⟩
    | [a], _ => exact ⟨rfl, rfl⟩
  have hv : values (cs ++ x :: cs') i = values (cs ++ cs') i := by
    have := h.1
    simp only [values, List.flatMap_cons, List.flatMap_nil, List.append_nil, List.flatMap_append] at this ⊢
    rw [this, List.nil_append]
  have hs : steps (cs ++ x :: cs') i = steps (cs ++ cs') i := by
    have := h.2
    simp only [steps, List.flatMap_cons, List.flatMap_nil, List.append_nil, List.flatMap_append] at this ⊢
    rw [this, List.nil_append]
  obtain ⟨a1, a2, a3, a4⟩ := trained_eq (cs ++ x :: cs') i
  obtain ⟨b1, b2, b3, b4⟩ := trained_eq (cs ++ cs') i
  unfold Acc.getEta Acc.eta
  rw [a1, a2, a3, a4, b1, b2, b3, b4, hv, hs]

theorem differences_append (a b : List ℝ) (x : ℝ) : differences (a ++ x :: b) = differences (a ++ [x]) ++ differences (x :: b) := by
  induction a with
  | nil => simp [differences]
  | cons y a ih =>
    cases a with
    | nil => simp [differences]
    | cons z a =>
      simp only [List.cons_append, differences] at ih ⊢
      rw [ih]

/-- **C227**: a sequence may be cut into two chunks without changing the result if the last sample of the first is also the first
sample of the second. -/
theorem eta_overlap (cs cs' : List (List (Row ℝ d))) (x y : List (Row ℝ d)) (z : Row ℝ d) (i : Fin d) (t : ℝ) :
    (trained (cs ++ (x ++ [z]) :: (z :: y) :: cs')).getEta t i = (trained (cs ++ (x ++ z :: y) :: cs')).getEta t i := by
  have hv : values (cs ++ (x ++ [z]) :: (z :: y) :: cs') i = values (cs ++ (x ++ z :: y) :: cs') i := by
    simp only [values, List.flatMap_cons, List.flatMap_append, List.dropLast_append_cons, List.dropLast_singleton, List.append_nil,
      List.map_append, List.append_assoc]
  have hs : steps (cs ++ (x ++ [z]) :: (z :: y) :: cs') i = steps (cs ++ (x ++ z :: y) :: cs') i := by
    simp only [steps, List.flatMap_cons, List.flatMap_append, List.map_append, List.map_cons, List.map_nil]
    rw [differences_append (x.map fun r => r i) (y.map fun r => r i) (z i), List.append_assoc]
  obtain ⟨a1, a2, a3, a4⟩ := trained_eq (cs ++ (x ++ [z]) :: (z :: y) :: cs') i
  obtain ⟨b1, b2, b3, b4⟩ := trained_eq (cs ++ (x ++ z :: y) :: cs') i
  unfold Acc.getEta Acc.eta
  rw [a1, a2, a3, a4, b1, b2, b3, b4, hv, hs]

/-- **C227**: the result depends on how a sequence is cut into chunks: the ramp has an eta value in one chunk and none in a
chunk of one and a chunk of two samples. -/
theorem eta_cut_false : ¬ ∀ (x y : List (Row ℝ 1)) (t : ℝ),
    (trained [x, y]).getEta t 0 = (trained [x ++ y]).getEta t 0 := by
  intro h
  have h1 := h [fun _ => 0] [fun _ => 1, fun _ => 2] 1
  rw [eta_none _ 0 1 (.inl (by simp [values]))] at h1
  have h2 := ramp_eta 1
  rw [ramp] at h2
  simp only [List.cons_append, List.nil_append] at h1
  rw [h2] at h1
  cases h1

/-! ## C228: sine waves -/

theorem sum_cos (θ ψ : ℝ) (n : Nat) : ((List.range n).map fun (k : Nat) => Real.cos (θ * k + ψ)).sum * (2 * Real.sin (θ / 2)) =
    Real.sin (θ * n + ψ - θ / 2) - Real.sin (ψ - θ / 2) := by
  induction n with
  | zero => simp
  | succ n ih =>
    rw [List.range_succ, List.map_append, List.sum_append, add_mul, ih]
    simp only [List.map_cons, List.map_nil, List.sum_cons, List.sum_nil, add_zero, Nat.cast_succ]
    have h1 : θ * (n + 1) + ψ - θ / 2 = (θ * n + ψ) + θ / 2 := by ring
    have h2 : θ * n + ψ - θ / 2 = (θ * n + ψ) - θ / 2 := by ring
    rw [h1, h2, Real.sin_add, Real.sin_sub (θ * n + ψ)]
    ring

theorem sum_cos_zero (θ ψ : ℝ) (n m : Nat) (h : θ * n = m * (2 * Real.pi)) (hs : Real.sin (θ / 2) ≠ 0) :
    ((List.range n).map fun (k : Nat) => Real.cos (θ * k + ψ)).sum = 0 := by
  have h1 := sum_cos θ ψ n
  rw [h] at h1
  have h2 : (m : ℝ) * (2 * Real.pi) + ψ - θ / 2 = (ψ - θ / 2) + m * (2 * Real.pi) := by ring
  rw [h2, Real.sin_add_nat_mul_two_pi, sub_self] at h1
  rcases mul_eq_zero.1 h1 with h | h
  · exact h
  · exact absurd (mul_eq_zero.1 h) (by simp [hs])

theorem sum_cos_sq (θ ψ : ℝ) (n m : Nat) (h : θ * n = m * (2 * Real.pi)) (hs : Real.sin θ ≠ 0) :
    ((List.range n).map fun (k : Nat) => Real.cos (θ * k + ψ) ^ 2).sum = n / 2 := by
  have h1 : (fun k : Nat => Real.cos (θ * k + ψ) ^ 2) = fun k : Nat => 1 / 2 + Real.cos ((2 * θ) * k + 2 * ψ) * (1 / 2) := by
    funext k
    rw [Real.cos_sq]
    congr 1
    rw [show 2 * (θ * k + ψ) = (2 * θ) * k + 2 * ψ by ring]
    ring
  rw [h1, List.sum_map_add, List.sum_map_mul_right, sum_cos_zero (2 * θ) (2 * ψ) n (2 * m) (by push_cast; linarith) (by
    rwa [show 2 * θ / 2 = θ by ring])]
  simp
  ring

theorem differences_range (f : Nat → ℝ) (n : Nat) :
    differences ((List.range (n + 1)).map f) = (List.range n).map fun k => f (k + 1) - f k := by
  induction n generalizing f with
  | zero => simp [differences]
  | succ n ih =>
    rw [List.range_succ_eq_map, List.map_cons, List.map_map]
    have h := ih (f ∘ Nat.succ)
    rw [List.range_succ_eq_map, List.map_cons] at h ⊢
    rw [differences, h]
    rw [List.map_cons, List.map_map]
    rfl

/-- A sine wave of amplitude `A`, phase `φ` and offset `c` with exactly `N` oscillations in `T` steps, sampled at the beginning and
after each step. -/
noncomputable def wave (A φ c : ℝ) (N T : Nat) : List ℝ :=
  (List.range (T + 1)).map fun (k : Nat) => A * Real.sin (2 * Real.pi * N / T * k + φ) + c

/-- **C228**: the eta value of such a wave, for `t` the number of steps. -/
theorem eta_wave (A φ c : ℝ) (N T : Nat) (hA : A ≠ 0) (hN : 0 < N) (hT : 2 * N < T) (x : List (Row ℝ d)) (i : Fin d)
    (hx : (x.map fun r => r i) = wave A φ c N T) :
    (trained [x]).getEta T i = some (T / Real.pi * Real.sin (Real.pi * N / T) * Real.sqrt ((T - 1) / T)) := by
  have hpi := Real.pi_pos
  have hTr : (2 * N : ℝ) < T := by exact_mod_cast hT
  have hNr : (1 : ℝ) ≤ N := by exact_mod_cast hN
  have hT0 : (0 : ℝ) < T := by linarith
  generalize hθ : 2 * Real.pi * N / T = θ at *
  have hper : θ * T = N * (2 * Real.pi) := by rw [← hθ]; field_simp
  have hθ0 : 0 < θ := by rw [← hθ]; positivity
  have hθ1 : θ < Real.pi := by
    rw [← hθ, div_lt_iff₀ hT0]
    nlinarith
  have hs1 : 0 < Real.sin θ := Real.sin_pos_of_pos_of_lt_pi hθ0 hθ1
  have hs2 : 0 < Real.sin (θ / 2) := Real.sin_pos_of_pos_of_lt_pi (by linarith) (by linarith)
  have hsin : ∀ k : Nat, Real.sin (θ * k + φ) = Real.cos (θ * k + (φ - Real.pi / 2)) := by
    intro k
    rw [show θ * k + (φ - Real.pi / 2) = (θ * k + φ) - Real.pi / 2 by ring, Real.cos_sub_pi_div_two]
  have hv : values [x] i = (List.range T).map fun (k : Nat) => A * Real.cos (θ * k + (φ - Real.pi / 2)) + c := by
    simp only [values, List.flatMap_cons, List.flatMap_nil, List.append_nil]
    rw [List.map_dropLast, hx, wave, List.range_succ, List.map_append, List.map_cons, List.map_nil, List.dropLast_concat, hθ]
    simp only [hsin]
  have hst : steps [x] i = (List.range T).map fun (k : Nat) => (2 * A * Real.sin (θ / 2)) * Real.cos (θ * k + (φ + θ / 2)) := by
    simp only [steps, List.flatMap_cons, List.flatMap_nil, List.append_nil]
    rw [hx, wave, differences_range, hθ]
    refine List.map_congr_left fun k _ => ?_
    push_cast
    rw [show θ * (k + 1) + φ = (θ * k + (φ + θ / 2)) + θ / 2 by ring, show θ * k + φ = (θ * k + (φ + θ / 2)) - θ / 2 by ring,
      Real.sin_add, Real.sin_sub]
    ring
  have hlen : (values [x] i).length = T := by rw [hv]; simp
  have hmean : Cov.mean (values [x] i) = c := by
    unfold Cov.mean
    rw [hlen, hv, List.sum_map_add, List.sum_map_mul_left, sum_cos_zero θ _ T N hper hs2.ne']
    simp
    field_simp
  have hvar : variance (values [x] i) = A ^ 2 * (T / 2) / (T - 1) := by
    unfold variance
    rw [hmean, hlen, hv, List.map_map]
    have : ((fun a => (a - c) ^ 2) ∘ fun (k : Nat) => A * Real.cos (θ * k + (φ - Real.pi / 2)) + c) =
        fun (k : Nat) => A ^ 2 * Real.cos (θ * k + (φ - Real.pi / 2)) ^ 2 := by
      funext k; simp only [Function.comp]; ring
    rw [this, List.sum_map_mul_left, sum_cos_sq θ _ T N hper hs1.ne']
  have hms : meanSq (steps [x] i) = 2 * A ^ 2 * Real.sin (θ / 2) ^ 2 := by
    unfold meanSq
    rw [steps_length, hlen, hst, List.map_map]
    have : ((fun a : ℝ => a ^ 2) ∘ fun (k : Nat) => (2 * A * Real.sin (θ / 2)) * Real.cos (θ * k + (φ + θ / 2))) =
        fun (k : Nat) => (2 * A * Real.sin (θ / 2)) ^ 2 * Real.cos (θ * k + (φ + θ / 2)) ^ 2 := by
      funext k; simp only [Function.comp]; ring
    rw [this, List.sum_map_mul_left, sum_cos_sq θ _ T N hper hs1.ne']
    field_simp
  have hT1 : (0 : ℝ) < T - 1 := by linarith
  rw [eta_value [x] i T (by rw [hlen]; omega) (by rw [hvar]; positivity), hvar, hms]
  have e1 : 2 * A ^ 2 * Real.sin (θ / 2) ^ 2 / (A ^ 2 * (T / 2) / (T - 1)) = (2 * Real.sin (θ / 2)) ^ 2 * ((T - 1) / T) := by
    field_simp
  have e2 : θ / 2 = Real.pi * N / T := by rw [← hθ]; ring
  rw [e1, Real.sqrt_mul (by positivity), Real.sqrt_sq (by positivity), e2]
  congr 1
  ring

/-- **C228**: it is less than the number of oscillations, and differs from it by little if the wave is sampled often. -/
theorem eta_wave_bounds (A φ c : ℝ) (N T : Nat) (hA : A ≠ 0) (hN : 0 < N) (hT : 2 * N < T) (x : List (Row ℝ d)) (i : Fin d)
    (hx : (x.map fun r => r i) = wave A φ c N T) :
    ∃ e, (trained [x]).getEta T i = some e ∧ e < N ∧
      N * (1 - (Real.pi * N / T) ^ 2 / 6) * (1 - 1 / T) < e := by
  refine ⟨_, eta_wave A φ c N T hA hN hT x i hx, ?_⟩
  have hpi := Real.pi_pos
  have hTr : (2 * N : ℝ) < T := by exact_mod_cast hT
  have hNr : (1 : ℝ) ≤ N := by exact_mod_cast hN
  have hT0 : (0 : ℝ) < T := by linarith
  have hu0 : 0 < ((T : ℝ) - 1) / T := div_pos (by linarith) hT0
  have hu1 : ((T : ℝ) - 1) / T < 1 := by rw [div_lt_one hT0]; linarith
  have hq0 : 0 < Real.sqrt (((T : ℝ) - 1) / T) := Real.sqrt_pos.2 hu0
  have hq1 : Real.sqrt (((T : ℝ) - 1) / T) < 1 := by rw [Real.sqrt_lt' one_pos]; simpa using hu1
  have hz : 0 < Real.pi * N / T := by positivity
  have hN' : (T : ℝ) / Real.pi * (Real.pi * N / T) = N := by field_simp
  constructor
  · have hs := Real.sin_lt hz
    have h1 : (T : ℝ) / Real.pi * Real.sin (Real.pi * N / T) < N := by
      rw [← hN']
      refine mul_lt_mul_of_pos_left ?_ (by positivity)
      rw [hN']
      exact hs
    have hs0 : 0 < Real.sin (Real.pi * N / T) := by
      refine Real.sin_pos_of_pos_of_lt_pi hz ?_
      rw [div_lt_iff₀ hT0]
      nlinarith
    have h0 : 0 < (T : ℝ) / Real.pi * Real.sin (Real.pi * N / T) := by positivity
    nlinarith
  · have hz1 : Real.pi * N / T < 2 := by
      rw [div_lt_iff₀ hT0]
      nlinarith [Real.pi_le_four]
    have hs := Real.sin_gt_sub_cube hz
    have h1 : N * (1 - (Real.pi * N / T) ^ 2 / 6) < (T : ℝ) / Real.pi * Real.sin (Real.pi * N / T) := by
      have : N * (1 - (Real.pi * N / T) ^ 2 / 6) = (T : ℝ) / Real.pi * ((Real.pi * N / T) - (Real.pi * N / T) ^ 3 / 6) := by
        nth_rw 1 [← hN']
        ring
      rw [this]
      exact mul_lt_mul_of_pos_left hs (by positivity)
    have hp : 0 < N * (1 - (Real.pi * N / T) ^ 2 / 6) := by
      refine mul_pos (by linarith) ?_
      nlinarith
    have hq : 1 - 1 / (T : ℝ) ≤ Real.sqrt (((T : ℝ) - 1) / T) := by
      have : 1 - 1 / (T : ℝ) = ((T : ℝ) - 1) / T := by field_simp
      rw [this]
      refine Real.le_sqrt_of_sq_le ?_
      nlinarith
    calc _ ≤ N * (1 - (Real.pi * N / T) ^ 2 / 6) * Real.sqrt (((T : ℝ) - 1) / T) := mul_le_mul_of_nonneg_left hq hp.le
      _ < _ := mul_lt_mul_of_pos_right h1 hq0

/-- **C228**: so the claim that a sine with exactly `N` oscillations has eta value `N` never holds. -/
theorem eta_sine_false (A φ c : ℝ) (N T : Nat) (hA : A ≠ 0) (hN : 0 < N) (hT : 2 * N < T) :
    ∃ x : List (Row ℝ 1), (x.map fun r => r 0) = wave A φ c N T ∧ (trained [x]).getEta T 0 ≠ some (N : ℝ) := by
  refine ⟨(wave A φ c N T).map fun a _ => a, by simp [Function.comp_def], ?_⟩
  obtain ⟨e, he, hlt, _⟩ := eta_wave_bounds A φ c N T hA hN hT ((wave A φ c N T).map fun a _ => a) (0 : Fin 1)
    (by simp [Function.comp_def])
  rw [he]
  intro h
  cases h
  exact lt_irrefl _ hlt

/-- Non-vacuity: one oscillation in three steps. -/
example : ∃ e, (trained [(wave 1 0 0 1 3).map fun a (_ : Fin 1) => a]).getEta 3 0 = some e ∧ e < 1 := by
  obtain ⟨e, he, hlt, _⟩ := eta_wave_bounds 1 0 0 1 3 one_ne_zero one_pos (by norm_num)
    ((wave 1 0 0 1 3).map fun a _ => a) (0 : Fin 1) (by simp [Function.comp_def])
  exact ⟨e, by exact_mod_cast he, by exact_mod_cast hlt⟩

/-! ## C229: SFA nodes -/

/-- The outputs of a trained SFA node for the chunks it has been trained with. -/
noncomputable def outputs (s : Sfa.St ℝ d) (k : Nat) (cs : List (Call ℝ d)) : List (List (Row ℝ k)) :=
  cs.map fun c => c.1.map fun x i => s.out i x

/-- **C229**: the eta values of the outputs of an SFA node that ignores the last samples are those of the SFA node times a factor
that depends only on the number of samples. -/
theorem eta_sfa (out : Option Nat) (cs : List (Call ℝ d)) (incl : Bool) (hi : ∀ c ∈ cs, c.2.getD incl = false)
    (h2 : ∀ c ∈ cs, 2 ≤ c.1.length) (hn : 2 ≤ (samples incl cs).length) (solver : Sfa.Solver ℝ d) {lam : Fin d → ℝ}
    {v : Fin d → Row ℝ d} (hs : Solves solver (moment cs) (Pca.covOf (samples incl cs)) lam v) (ho : Sfa.Valid out d) (t : ℝ) :
    ∃ s e, (Sfa.trained incl out cs).stop solver = (.ok (), s) ∧ sfaEta s t = some e ∧ e.length = out.getD d ∧
      ∀ i : Fin e.length, (trained (outputs s e.length cs)).getEta t i =
        some (e[i] * Real.sqrt (((samples incl cs).length - 1) / (samples incl cs).length)) := by
  have hlen : ∀ l : List (Row ℝ d), (differences l).length = l.length - 1 := by
    intro l
    induction l with
    | nil => rfl
    | cons a l ih =>
      cases l with
      | nil => rfl
      | cons b l => simp only [differences, List.length_cons] at ih ⊢; omega
  have hch : (changes id cs).length = (samples incl cs).length := by
    clear h2 hn hs
    unfold changes samples
    induction cs with
    | nil => rfl
    | cons c cs ih =>
      rw [List.flatMap_cons, List.flatMap_cons, List.length_append, List.length_append, ih fun c hc => hi c (by simp [hc]),
        hi c (by simp)]
      simp [hlen]
  obtain ⟨s, r, h, hr, _, hrl, _, hout⟩ := sfa_outputs incl out cs h2 hn (by rw [hch]; exact hn) solver hs ho
  refine ⟨s, _, h, by rw [sfaEta, hr]; rfl, by simpa using hrl, ?_⟩
  rintro ⟨i, hil⟩
  have hil' : i < r.ds.length := by simpa using hil
  obtain ⟨hm, hc, hd⟩ := hout i i hil' hil'
  have hv : values (outputs s (r.ds.map fun v => t / (2 * Real.pi) * Real.sqrt v).length cs) ⟨i, hil⟩ =
      (samples incl cs).map (s.out i) := by
    clear hm hc hd hout hch h2 hn hs
    unfold values outputs samples
    rw [List.flatMap_map, List.map_flatMap]
    refine List.flatMap_congr fun c hc => ?_
    rw [hi c hc, ← List.map_dropLast, List.map_map]
    rfl
  have hst : steps (outputs s (r.ds.map fun v => t / (2 * Real.pi) * Real.sqrt v).length cs) ⟨i, hil⟩ = changes (s.out i) cs := by
    unfold steps outputs changes
    rw [List.flatMap_map]
    simp only [List.map_map, Function.comp_def]
  have hvar : variance ((samples incl cs).map (s.out i)) = 1 := by
    rw [if_pos rfl] at hc
    rw [← hc]
    unfold variance cov codev
    simp [List.map_map, Function.comp_def, pow_two, hm]
  have hsl : (changes (s.out i) cs).length = (samples incl cs).length := by
    rw [← hst, steps_length, hv, List.length_map]
  have hr2 : (2 : ℝ) ≤ ((samples incl cs).length : ℝ) := by exact_mod_cast hn
  rw [eta_value _ _ t (by rw [hv, List.length_map]; exact hn) (by rw [hv, hvar]; norm_num), hv, hst, hvar, div_one]
  have hms : meanSq (changes (s.out i) cs) = r.ds[i] * (((samples incl cs).length - 1) / (samples incl cs).length) := by
    rw [← hd, delta, meanSq, hsl]
    have : ((samples incl cs).length : ℝ) - 1 ≠ 0 := by linarith
    field_simp
  have hpos : 0 ≤ (((samples incl cs).length : ℝ) - 1) / (samples incl cs).length := div_nonneg (by linarith) (by linarith)
  rw [hms, Real.sqrt_mul' _ hpos]
  simp only [Fin.getElem_fin, List.getElem_map]
  congr 1
  ring

/-- Four samples; the three values that count have mean zero and variance one. -/
def exCalls : List (Call ℝ 1) := [([fun _ => 1, fun _ => 0, fun _ => -1, fun _ => 0], none)]

/-- A solver that knows the answer. -/
noncomputable def exSolver : Sfa.Solver ℝ 1 := fun _ _ rng => match rng with
  | none => some (List.ofFn fun _ : Fin 1 => (3 / 2, fun _ => 1))
  | some (_, k) => some ((List.ofFn fun _ : Fin 1 => (3 / 2, fun _ => 1)).take k)

theorem exSolves : Solves exSolver (moment exCalls) (Pca.covOf (samples false exCalls)) (fun _ => 3 / 2) (fun _ _ => 1) := by
  have h1 : moment exCalls = fun _ _ => 3 / 2 := by
    funext a b
    simp [moment, changes, exCalls, differences]
    norm_num
  have h2 : Pca.covOf (samples false exCalls) = fun _ _ => 1 := by
    funext a b
    simp [Pca.covOf, cov, codev, Cov.mean, samples, exCalls]
    norm_num
  rw [h1, h2]
  refine ⟨⟨by simp, ?_, by simp⟩, rfl, fun _ _ _ => rfl⟩
  intro i j
  simp [form, Subsingleton.elim i j]

/-- Non-vacuity: the eta value of the SFA node is not zero. -/
theorem exStop : ∃ s, (Sfa.trained false none exCalls).stop exSolver = (.ok (), s) ∧
    sfaEta s 1 = some [1 / (2 * Real.pi) * Real.sqrt (3 / 2)] := by
  obtain ⟨avg, _, _, he⟩ := Sfa.stop_ok false none exCalls (by simp [exCalls]) (by simp [samples, exCalls])
    (by simp [changes, exCalls, differences]) exSolver exSolves (fun k h => by cases h)
  exact ⟨_, he, by simp [sfaEta]⟩

/-- **C229**: they are not the same: `SFANode` divides the sum of the squared changes by their number minus one. -/
theorem eta_sfa_false : ∃ s e, (Sfa.trained false none exCalls).stop exSolver = (.ok (), s) ∧ sfaEta s 1 = some [e] ∧
    (trained (outputs s 1 exCalls)).getEta 1 0 ≠ some e := by
  obtain ⟨s, h, he⟩ := exStop
  refine ⟨s, _, h, he, ?_⟩
  obtain ⟨s', e', h', he', hl, hi⟩ := eta_sfa none exCalls false (by simp [exCalls]) (by simp [exCalls])
    (by simp [samples, exCalls]) exSolver exSolves (fun k h => by cases h) 1
  rw [h] at h'
  cases h'
  rw [he] at he'
  cases he'
  have h0 := hi 0
  have hlen : (samples false exCalls).length = 3 := by simp [samples, exCalls]
  rw [hlen] at h0
  intro hc
  have h1 : (trained (outputs s 1 exCalls)).getEta 1 0 = _ := h0
  rw [hc] at h1
  have h2 := Option.some.inj h1
  have hpi := Real.pi_pos
  have hpos : 0 < 1 / (2 * Real.pi) * Real.sqrt (3 / 2) := by positivity
  have hq : Real.sqrt (((3 : Nat) - 1 : ℝ) / (3 : Nat)) < 1 := by
    rw [Real.sqrt_lt' one_pos]
    norm_num
  have h3 : 1 / (2 * Real.pi) * Real.sqrt (3 / 2) =
    (1 / (2 * Real.pi) * Real.sqrt (3 / 2)) * Real.sqrt (((3 : Nat) - 1 : ℝ) / (3 : Nat)) := h2
  nlinarith

end Mdp.Eta
