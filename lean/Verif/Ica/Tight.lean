import Verif.Ica.Fast
import Mathlib.Analysis.SpecialFunctions.Trigonometric.DerivHyp

/-!
# More about the core routines of `CuBICANode` and `FastICANode`

What the sweeps of CuBICA report (C179), and the steps of FastICA: which nonlinearity, which samples and which step size are used
(C205), why the constants for the derivatives are right for white data (C206), and how failures are counted (C207).
-/

namespace Mdp.Ica

open Matrix

variable {m : Nat}

/-! ## CuBICA: the reported angle -/

/-- The data `x` becomes `x'` by rotating the pairs of coordinates one after the other by the angles `phis`. -/
inductive Turns : List (Fin m × Fin m) → List (Vec m) → List ℝ → List (Vec m) → Prop
  | nil (x) : Turns [] x [] x
  | cons {p ps x x' phis} (h : Turns ps (x.map (rotRow (angle x p.1 p.2) p.1 p.2)) phis x') :
      Turns (p :: ps) x (angle x p.1 p.2 :: phis) x'

/-- `a` is the largest absolute value in `l`, zero for an empty list. -/
def Largest (a : ℝ) (l : List ℝ) : Prop := (∀ phi ∈ l, |phi| ≤ a) ∧ ((a = 0 ∧ ∀ phi ∈ l, phi = 0) ∨ ∃ phi ∈ l, |phi| = a)

/-- The data `x` becomes `x'` in sweeps over all pairs whose largest angles are `l`. -/
inductive Swept : List (Vec m) → List ℝ → List (Vec m) → Prop
  | nil (x) : Swept x [] x
  | cons {x x' x'' a l phis} (h : Turns (pairs m) x phis x') (ha : Largest a phis) (hs : Swept x' l x'') : Swept x (a :: l) x''

theorem fold_turns (l : List (Fin m × Fin m)) : ∀ s : CuSt m, ∃ phis, Turns l s.x phis (l.foldl CuSt.pair s).x ∧
    s.maxangle ≤ (l.foldl CuSt.pair s).maxangle ∧ (∀ phi ∈ phis, |phi| ≤ (l.foldl CuSt.pair s).maxangle) ∧
    ((l.foldl CuSt.pair s).maxangle = s.maxangle ∨ ∃ phi ∈ phis, |phi| = (l.foldl CuSt.pair s).maxangle) := by
  induction l with
  | nil => exact fun s => ⟨[], .nil _, le_refl _, by simp, .inl rfl⟩
  | cons p l ih =>
    intro s
    obtain ⟨phis, h1, h2, h3, h4⟩ := ih (s.pair p)
    have hm : (s.pair p).maxangle = max s.maxangle |angle s.x p.1 p.2| := rfl
    refine ⟨angle s.x p.1 p.2 :: phis, .cons h1, ?_, ?_, ?_⟩
    · exact (le_max_left _ _).trans (hm ▸ h2)
    · intro phi hp
      rcases List.mem_cons.1 hp with rfl | hp
      · exact (le_max_right _ _).trans (hm ▸ h2)
      · exact h3 phi hp
    · rcases h4 with h4 | ⟨phi, h5, h6⟩
      · rw [List.foldl_cons, h4, hm]
        rcases max_choice s.maxangle |angle s.x p.1 p.2| with e | e
        · exact .inl e
        · exact .inr ⟨_, List.mem_cons_self .., e.symm⟩
      · exact .inr ⟨phi, List.mem_cons_of_mem _ h5, h6⟩

theorem sweeps_swept (limit : ℝ) (n : Nat) : ∀ s : CuSt m, Swept s.x (s.sweeps limit n).2 (s.sweeps limit n).1.x := by
  induction n with
  | zero => exact fun s => .nil _
  | succ n ih =>
    intro s
    obtain ⟨phis, h1, h2, h3, h4⟩ := fold_turns (pairs m) { s with maxangle := 0 }
    have hl : Largest s.sweep.maxangle phis := by
      refine ⟨h3, ?_⟩
      rcases h4 with h4 | h4
      · refine .inl ⟨h4, fun phi hp => ?_⟩
        have h5 := h3 phi hp
        rw [h4] at h5
        exact abs_eq_zero.1 (le_antisymm h5 (abs_nonneg _))
      · exact .inr h4
    simp only [CuSt.sweeps]
    split_ifs with h
    · exact .cons h1 hl (.nil _)
    · exact .cons h1 hl (ih _)

/-- The returned values are those of the rotations made: the data is rotated in sweeps over all pairs, each sweep starting from the data
left by the one before, and the value of a sweep is the largest absolute angle in it. -/
theorem cubica_reported (limit : ℝ) (data : List (Vec m)) : Swept data (cubica limit data).2 (cubica limit data).1.x :=
  sweeps_swept limit _ ⟨data, 1, 0⟩

/-- An instance: for two coordinates a sweep is a single rotation, and the value is its absolute angle, also for a negative one. -/
example (limit : ℝ) (data : List (Vec 2)) (h : angle data 0 1 < 0) : ∃ l, (cubica limit data).2 = -angle data 0 1 :: l := by
  have h1 := cubica_reported limit data
  have h2 : 0 < (cubica limit data).2.length := by
    obtain ⟨n, _, _, _, h, _⟩ := cubica_sweeps limit data
    exact List.length_pos_iff.2 fun h0 => by simp [h0] at h
  revert h1 h2
  cases (cubica limit data).2 with
  | nil => intro _ h2; simp at h2
  | cons a l =>
    intro h1 _
    cases h1 with
    | cons ht ha hs =>
      have hp : pairs 2 = [(0, 1)] := by decide
      rw [hp] at ht
      cases ht with
      | cons ht =>
        cases ht
        rcases ha.2 with h3 | ⟨phi, h3, h4⟩
        · have h5 : angle data 0 1 = 0 := h3.2 _ (List.mem_cons_self ..)
          linarith
        · simp at h3; subst h3; exact ⟨l, by rw [← h4, abs_of_neg h]⟩

/-! ## FastICA: the derivatives -/

/-- The documented nonlinearities: `u^3`, `tanh(a u)`, `u exp(-b u^2 / 2)` and `u^2`. -/
noncomputable def nonlinearity (a b : ℝ) : Nl → ℝ → ℝ
  | .pow3, u => u ^ 3
  | .tanh, u => Real.tanh (a * u)
  | .gaus, u => u * Real.exp (-(b * u ^ 2 / 2))
  | .skew, u => u ^ 2

/-- Mean zero and the unit matrix as covariance matrix. -/
def Sphered (x : List (Vec m)) : Prop :=
  (∀ a, avg x (fun r => r a) = 0) ∧ ∀ a b, avg x (fun r => r a * r b) = if a = b then 1 else 0

theorem avg_add (x : List (Vec m)) (f g : Vec m → ℝ) : avg x (fun r => f r + g r) = avg x f + avg x g := by
  simp only [avg, List.sum_map_add, add_div]

theorem avg_mul (x : List (Vec m)) (c : ℝ) (f : Vec m → ℝ) : avg x (fun r => c * f r) = c * avg x f := by
  simp only [avg, List.sum_map_mul_left, mul_div_assoc]

theorem avg_sum {ι : Type} (x : List (Vec m)) (t : Finset ι) (f : ι → Vec m → ℝ) :
    avg x (fun r => ∑ i ∈ t, f i r) = ∑ i ∈ t, avg x (f i) := by
  classical
  induction t using Finset.induction_on with
  | empty => simp [avg]
  | insert i t hi ih => simp only [Finset.sum_insert hi, avg_add, ih]

theorem avg_congr {x : List (Vec m)} {f g : Vec m → ℝ} (h : ∀ r, f r = g r) : avg x f = avg x g := by
  rw [funext h]

theorem white_dot {x : List (Vec m)} (h : Sphered x) (w : Vec m) : avg x (fun r => r ⬝ᵥ w) = 0 := by
  have h1 : ∀ r : Vec m, r ⬝ᵥ w = ∑ a, w a * r a := fun r => Finset.sum_congr rfl fun a _ => mul_comm _ _
  rw [avg_congr h1, avg_sum]
  exact Finset.sum_eq_zero fun a _ => by rw [avg_mul, h.1, mul_zero]

theorem white_sq {x : List (Vec m)} (h : Sphered x) (w : Vec m) : avg x (fun r => (r ⬝ᵥ w) ^ 2) = w ⬝ᵥ w := by
  have h1 : ∀ r : Vec m, (r ⬝ᵥ w) ^ 2 = ∑ a, ∑ b, (w a * w b) * (r a * r b) := by
    intro r
    simp only [dotProduct, sq, Finset.sum_mul_sum]
    exact Finset.sum_congr rfl fun a _ => Finset.sum_congr rfl fun b _ => by ring
  rw [avg_congr h1, avg_sum]
  refine Finset.sum_congr rfl fun a _ => ?_
  rw [avg_sum]
  simp only [avg_mul, h.2, mul_ite, mul_one, mul_zero, Finset.sum_ite_eq, Finset.mem_univ, if_true]

theorem deriv_nonlinearity (a b : ℝ) (n : Nl) (u : ℝ) : deriv (nonlinearity a b n) u = match n with
    | .pow3 => 3 * u ^ 2
    | .tanh => a * (1 - Real.tanh (a * u) ^ 2)
    | .gaus => (1 - b * u ^ 2) * Real.exp (-(b * u ^ 2 / 2))
    | .skew => 2 * u := by
  cases n with
  | pow3 =>
    have h : nonlinearity a b .pow3 = fun u => u ^ 3 := rfl
    simp [h]
  | skew =>
    have h : nonlinearity a b .skew = fun u => u ^ 2 := rfl
    simp [h]
  | tanh =>
    have h : nonlinearity a b .tanh = fun u => Real.sinh (a * u) / Real.cosh (a * u) :=
      funext fun u => Real.tanh_eq_sinh_div_cosh _
    have hc : Real.cosh (a * u) ≠ 0 := (Real.cosh_pos _).ne'
    have h1 : HasDerivAt (fun u => a * u) a u := by simpa using (hasDerivAt_id u).const_mul a
    have h2 : HasDerivAt (fun u => Real.sinh (a * u)) (Real.cosh (a * u) * a) u := (Real.hasDerivAt_sinh _).comp u h1
    have h3 : HasDerivAt (fun u => Real.cosh (a * u)) (Real.sinh (a * u) * a) u := (Real.hasDerivAt_cosh _).comp u h1
    have h4 := h2.fun_div h3 hc
    rw [h, h4.deriv]
    simp only [Real.tanh_eq_sinh_div_cosh]
    field_simp
  | gaus =>
    have h : nonlinearity a b .gaus = fun u => u * Real.exp (-(b * u ^ 2 / 2)) := rfl
    have h1 : HasDerivAt (fun u : ℝ => -(b * u ^ 2 / 2)) (-(b * u)) u := by
      have := (((hasDerivAt_id u).pow 2).const_mul b).div_const 2 |>.neg
      refine this.congr_deriv ?_
      simp; ring
    have h2 := (hasDerivAt_id u).mul h1.exp
    rw [h]
    refine (h2.deriv).trans ?_
    simp only [id]; ring

/-- The step is the Newton step of the documentation: for white data and a filter of length one the constants which the code uses for
`pow3` and `skew` are the means of the derivatives, and for `tanh` and `gaus` it takes the means of the derivatives, for all data. -/
theorem fast_newton (c : FCfg) (n : Nl) {x : List (Vec m)} {w : Vec m} (hx : n = .pow3 ∨ n = .skew → Sphered x) (hw : w ⬝ᵥ w = 1)
    (k : Fin m) : c.plain n x w k = avg x (fun r => r k * nonlinearity c.fineTanh c.fineGaus n (r ⬝ᵥ w)) -
      avg x (fun r => deriv (nonlinearity c.fineTanh c.fineGaus n) (r ⬝ᵥ w)) * w k := by
  have e : ∀ u, c.fn n u = nonlinearity c.fineTanh c.fineGaus n u := by
    intro u
    cases n <;> simp only [FCfg.fn, nonlinearity]
    · ring
    · congr 2; ring
    · ring
  simp only [FCfg.plain, e]
  congr 2
  rw [avg_congr fun r => deriv_nonlinearity _ _ _ _]
  cases n with
  | pow3 =>
    have hx := hx (.inl rfl)
    simp only [FCfg.dfn]
    have h := white_sq hx w
    rw [hw] at h
    rw [avg_mul, h]
    have h2 : (x.length : ℝ) ≠ 0 := by
      intro h0
      simp [avg, h0] at h
    simp [avg, h2]
  | skew =>
    simp only [FCfg.dfn]
    rw [avg_mul, white_dot (hx (.inr rfl))]
    simp [avg]
  | tanh => exact avg_congr fun r => by simp only [FCfg.dfn]; ring
  | gaus => exact avg_congr fun r => by simp only [FCfg.dfn]; congr 1; · ring
                                        · congr 1; ring

/-- The hypotheses hold for the four samples of two independent binary signals. -/
example : Sphered binary ∧ (![1, 0] : Vec 2) ⬝ᵥ ![1, 0] = 1 := by
  refine ⟨⟨fun a => ?_, fun a b => ?_⟩, by simp [dotProduct, Fin.sum_univ_two]⟩
  · fin_cases a <;> simp [avg, binary]
  · fin_cases a <;> fin_cases b <;> simp [avg, binary] <;> norm_num

/-! ## FastICA: the steps of the loop for a component -/

section
variable (c : FCfg) (x : List (Vec m)) (draw : Nat → List (Vec m)) (q : Matrix (Fin m) (Fin m) ℝ) (round : Nat) (s0 : CSt m)

/-- The states of the loop for a component. -/
inductive Reach : CSt m → Prop
  | start : Reach s0
  | next {s s'} (h : Reach s) (e : s.iter c x draw q round = .ok (.inl s')) : Reach s'
end

/-- A step size: `b` or, after half of the iterations, `b/2`, where `b` is the parameter or, in fine-tuning, a hundredth of it. -/
def Base (c : FCfg) (fine lng : Bool) (v : ℝ) : Prop :=
  ∃ b, (b = c.mu ∨ (fine = true ∧ b = 0.01 * c.mu)) ∧ (v = b ∨ (lng = true ∧ v = b / 2))

/-- The branch taken for a number: the nonlinearity, random samples, stabilisation. -/
def Branch (used : Nat) (n : Nl) (sub st : Bool) : Prop :=
  used = n.code + (if sub then 2 else 0) + if st then 1 else 0

theorem decode_branch {used : Nat} {n : Nl} {sub st : Bool} (h : Branch used n sub st) : decode used = some (n, sub, st) := by
  subst h
  cases n <;> cases sub <;> cases st <;> rfl

theorem branch_up {u : Nat} {n : Nl} {sub st : Bool} (h : Branch u n sub st) :
    Branch (if u % 2 = 0 then u + 1 else u) n sub true := by
  subst h
  cases n <;> cases sub <;> cases st <;> rfl

theorem branch_down {u : Nat} {n : Nl} {sub : Bool} {p : Prop} [Decidable p] (h : Branch u n sub true) :
    Branch (if p ∧ u % 2 ≠ 0 then u - 1 else u) n sub (decide (¬ p)) := by
  subst h
  by_cases hp : p <;> cases n <;> cases sub <;> simp [hp, Branch, Nl.code]

/-- The nonlinearity in use. -/
def FCfg.active (c : FCfg) (fine : Bool) : Nl := if fine then c.fineG.getD c.g else c.g

open Classical in
/-- Whether random samples are in use. -/
noncomputable def FCfg.subsampled (c : FCfg) (fine : Bool) : Bool := decide (fine = false ∧ c.sampleSize ≠ 1)

/-- What holds in all states of the loop. -/
structure Inv (c : FCfg) (s : CSt m) : Prop where
  fine : s.fine = true → c.fineG.isSome
  one : c.mu = 1 → s.stroke = 0 ∧ s.lng = false ∧ s.mu = if s.fine then 0.01 else 1
  mu : s.stroke = 0 → Base c s.fine s.lng s.mu
  str : s.stroke ≠ 0 → Base c s.fine s.lng s.stroke ∧ (s.mu = s.stroke / 2 ∨ (s.fine = true ∧ Base c s.fine s.lng s.mu))
  used : ∃ st, Branch s.used (c.active s.fine) (c.subsampled s.fine) st ∧ (st = false → s.mu = 1) ∧ (s.stroke ≠ 0 → st = true) ∧
    (c.mu = 1 → st = s.fine)

theorem inv_start (c : FCfg) (q : Matrix (Fin m) (Fin m) ℝ) (conv : List (Option ℝ)) (g : Option (Vec m)) :
    Inv c (CSt.start c q conv g) where
  fine := fun h => nomatch h
  one := fun h => ⟨rfl, rfl, h⟩
  mu := fun _ => ⟨c.mu, .inl rfl, .inl rfl⟩
  str := fun h => absurd rfl h
  used := by
    refine ⟨decide (c.mu ≠ 1), ?_, fun h => ?_, fun h => absurd rfl h, fun h => by simp [h, CSt.start]⟩
    · simp only [Branch, CSt.start, FCfg.gOrig, FCfg.active, FCfg.subsampled]
      by_cases h1 : c.mu = 1 <;> by_cases h2 : c.sampleSize = 1 <;> simp [h1, h2]
    · exact not_not.1 (of_decide_eq_false h)

theorem base_long {c : FCfg} {fine lng : Bool} {v : ℝ} (h : Base c fine lng v) : Base c fine true v := by
  obtain ⟨b, h1, h2⟩ := h
  exact ⟨b, h1, h2.imp id fun h => ⟨rfl, h.2⟩⟩

theorem base_half {c : FCfg} {fine : Bool} {v : ℝ} (h : Base c fine false v) : Base c fine true (0.5 * v) := by
  obtain ⟨b, h1, h2⟩ := h
  rcases h2 with rfl | h2
  · exact ⟨v, h1, .inr ⟨rfl, by norm_num; ring⟩⟩
  · exact absurd h2.1 (by simp)

theorem inv_damp {c : FCfg} {s : CSt m} (h : Inv c s) : Inv c (s.damp c) := by
  obtain ⟨st, hb, h1, h2, h3⟩ := h.used
  by_cases hm : c.stab
  · simp only [CSt.damp]
    rw [if_pos hm]
    by_cases g1 : s.stroke = 0 ∧ below (dist s.w s.wOldF) c.limit
    · rw [if_pos g1]
      refine ⟨h.fine, fun e => absurd e hm, fun e => ?_, fun _ => ⟨h.mu g1.1, .inl ?_⟩, true, branch_up hb, (fun h => nomatch h),
        fun _ => rfl, fun e => absurd e hm⟩
      · have e : s.mu = 0 := e
        show Base c s.fine s.lng (0.5 * s.mu)
        have := h.mu g1.1
        rw [e] at this ⊢
        simpa using this
      · show 0.5 * s.mu = s.mu / 2
        norm_num; ring
    · rw [if_neg g1]
      by_cases g2 : s.stroke ≠ 0
      · rw [if_pos g2]
        obtain rfl := h2 g2
        refine ⟨h.fine, fun e => absurd e hm, fun _ => (h.str g2).1, fun e => absurd rfl e, _, branch_down hb, fun e => ?_,
          fun e => absurd rfl e, fun e => absurd e hm⟩
        simpa using e
      · rw [if_neg g2]
        have g2 : s.stroke = 0 := not_not.1 g2
        by_cases g3 : s.lng = false ∧ c.maxIt / 2 < s.i
        · rw [if_pos g3]
          refine ⟨h.fine, fun e => absurd e hm, fun _ => ?_, fun e => absurd g2 e, true, branch_up hb, (fun h => nomatch h),
            fun _ => rfl, fun e => absurd e hm⟩
          have := h.mu g2
          rw [g3.1] at this
          exact base_half this
        · rw [if_neg g3]; exact h
  · simp only [CSt.damp]
    rw [if_neg hm]; exact h

theorem inv_tune {c : FCfg} {s : CSt m} (h : Inv c s) (hf : c.fineG.isSome) : Inv c (s.tune c) := by
  obtain ⟨n, hn⟩ := Option.isSome_iff_exists.1 hf
  have hb : ∀ lng, Base c true lng (0.01 * c.mu) := fun lng => ⟨_, .inr ⟨rfl, rfl⟩, .inl rfl⟩
  refine ⟨fun _ => hf, fun e => ⟨(h.one e).1, (h.one e).2.1, by simp [CSt.tune, e]⟩, fun _ => hb _, fun e => ⟨?_, .inr ⟨rfl, hb _⟩⟩,
    true, ?_, (fun h => nomatch h), fun _ => rfl, fun _ => rfl⟩
  · obtain ⟨b, h1, h2⟩ := (h.str e).1
    exact ⟨b, h1.imp id fun h => ⟨rfl, h.2⟩, h2⟩
  · simp [Branch, CSt.tune, FCfg.gFine, FCfg.active, FCfg.subsampled, hn]

/-- What an iteration that goes on does. -/
theorem iter_next {c : FCfg} {x : List (Vec m)} {draw : Nat → List (Vec m)} {q : Matrix (Fin m) (Fin m) ℝ} {round : Nat} {s s' : CSt m}
    (e : s.iter c x draw q round = .ok (.inl s')) :
    (c.fineG.isSome ∧ s.fine = false ∧ below (dist (s.test q).w (s.test q).wOld) c.limit ∧
      ((s.test q).tune c).step c x draw = .ok s') ∨
    (¬ below (dist (s.test q).w (s.test q).wOld) c.limit ∧ ((s.test q).damp c).step c x draw = .ok s') := by
  have key : ∀ t : CSt m, (t.step c x draw).map (Sum.inl (β := Res m × List (Option ℝ))) = .ok (.inl s') →
      t.step c x draw = .ok s' := by
    intro t ht
    cases h : t.step c x draw with
    | error e => rw [h] at ht; cases ht
    | ok r => rw [h] at ht; cases ht; rfl
  simp only [CSt.iter] at e
  by_cases h1 : s.i ≤ c.maxIt + s.gabba
  · rw [if_pos h1] at e
    by_cases h2 : s.fine = false ∧ s.i = c.maxIt + 1
    · rw [if_pos h2] at e; cases e
    · rw [if_neg h2] at e
      by_cases h3 : below (dist (s.test q).w (s.test q).wOld) c.limit
      · rw [if_pos h3] at e
        by_cases h4 : c.fineG.isSome ∧ (s.test q).fine = false
        · rw [if_pos h4] at e
          exact .inl ⟨h4.1, h4.2, h3, key _ e⟩
        · rw [if_neg h4] at e
          split at e <;> cases e
      · rw [if_neg h3] at e
        exact .inr ⟨h3, key _ e⟩
  · rw [if_neg h1] at e; cases e

/-- What a step does, if the number belongs to a branch. -/
theorem step_next {c : FCfg} {x : List (Vec m)} {draw : Nat → List (Vec m)} {s s' : CSt m} {n : Nl} {sub st : Bool}
    (hb : Branch s.used n sub st) (e : s.step c x draw = .ok s') :
    s' = { s with wOldF := s.wOld, wOld := s.w, i := s.i + 1, w := normalise (s.w.bind fun w =>
      if st then c.damped n s.mu (if sub then draw s.i else x) w else some (c.plain n (if sub then draw s.i else x) w)) } := by
  simp only [CSt.step, decode_branch hb] at e
  cases e
  rfl

theorem inv_next {c : FCfg} {x : List (Vec m)} {draw : Nat → List (Vec m)} {q : Matrix (Fin m) (Fin m) ℝ} {round : Nat} {s s' : CSt m}
    (h : Inv c s) (e : s.iter c x draw q round = .ok (.inl s')) : Inv c s' := by
  have ht : Inv c (s.test q) := ⟨h.fine, h.one, h.mu, h.str, h.used⟩
  have key : ∀ t : CSt m, Inv c t → t.step c x draw = .ok s' → Inv c s' := by
    intro t ht e
    obtain ⟨st, hb, _⟩ := id ht.used
    rw [step_next hb e]
    exact ⟨ht.fine, ht.one, ht.mu, ht.str, ht.used⟩
  rcases iter_next e with ⟨h1, _, _, e⟩ | ⟨_, e⟩
  · exact key _ (inv_tune ht h1) e
  · exact key _ (inv_damp ht) e

theorem inv_reach {c : FCfg} {x : List (Vec m)} {draw : Nat → List (Vec m)} {q : Matrix (Fin m) (Fin m) ℝ} {round : Nat} {s0 s : CSt m}
    (h0 : Inv c s0) (h : Reach c x draw q round s0 s) : Inv c s := by
  induction h with
  | start => exact h0
  | next _ e ih => exact inv_next ih e

theorem base_values {c : FCfg} {fine lng : Bool} {v : ℝ} (h : Base c fine lng v) : ∃ k ≤ 1, v = c.mu / 2 ^ k ∨
    (fine = true ∧ v = 0.01 * c.mu / 2 ^ k) := by
  obtain ⟨b, rfl | ⟨hf, rfl⟩, rfl | ⟨-, rfl⟩⟩ := h
  · exact ⟨0, by omega, by simp⟩
  · exact ⟨1, by omega, by simp⟩
  · exact ⟨0, by omega, .inr ⟨hf, by simp⟩⟩
  · exact ⟨1, by omega, .inr ⟨hf, by simp⟩⟩

/-- In all states of the loop for a component the step size is the parameter `mu`, halved at most twice; in fine-tuning it may be a
hundredth of that. With `mu = 1` it is one, and a hundredth in fine-tuning. -/
theorem fast_step_size {c : FCfg} {x : List (Vec m)} {draw : Nat → List (Vec m)} {q : Matrix (Fin m) (Fin m) ℝ} {round : Nat}
    {conv : List (Option ℝ)} {guess : Option (Vec m)} {s : CSt m} (h : Reach c x draw q round (CSt.start c q conv guess) s) :
    (∃ k ≤ 2, s.mu = c.mu / 2 ^ k ∨ (s.fine = true ∧ s.mu = 0.01 * c.mu / 2 ^ k)) ∧
    (c.mu = 1 → s.mu = if s.fine then 0.01 else 1) := by
  have hi := inv_reach (inv_start c q conv guess) h
  refine ⟨?_, fun e => (hi.one e).2.2⟩
  by_cases hs : s.stroke = 0
  · obtain ⟨k, hk, h1⟩ := base_values (hi.mu hs)
    exact ⟨k, by omega, h1⟩
  · obtain ⟨h1, h2 | ⟨hf, h2⟩⟩ := hi.str hs
    · obtain ⟨k, hk, h3⟩ := base_values h1
      refine ⟨k + 1, by omega, ?_⟩
      rw [h2]
      rcases h3 with h3 | ⟨hf, h3⟩
      · left; rw [h3, pow_succ, div_div]
      · right; exact ⟨hf, by rw [h3, pow_succ, div_div]⟩
    · obtain ⟨k, hk, h3⟩ := base_values h2
      exact ⟨k, by omega, h3⟩

open Classical in
/-- Every step in the loop for a component: it uses the nonlinearity `g`, in fine-tuning `fine_g`; the random samples of the iteration if
`sample_size` is not one, in fine-tuning all samples; it is a stabilised step with the current step size, or a plain one, which is only made if
the step size is one. With `mu = 1` only the steps of fine-tuning are stabilised. The vector of the step before is kept, and the one
before that, except at the beginning and the end of fine-tuning. -/
theorem fast_step {c : FCfg} {x : List (Vec m)} {draw : Nat → List (Vec m)} {q : Matrix (Fin m) (Fin m) ℝ} {round : Nat}
    {conv : List (Option ℝ)} {guess : Option (Vec m)} {s s' : CSt m} (h : Reach c x draw q round (CSt.start c q conv guess) s)
    (e : s.iter c x draw q round = .ok (.inl s')) :
    let n := if s'.fine then c.fineG.getD c.g else c.g
    let rows := if s'.fine = false ∧ c.sampleSize ≠ 1 then draw s.i else x
    (s'.w = normalise ((project q s.w).bind fun w => c.damped n s'.mu rows w) ∧ (c.mu = 1 → s'.fine = true) ∨
      s'.w = normalise ((project q s.w).map fun w => c.plain n rows w) ∧ s'.mu = 1 ∧ (c.mu = 1 → s'.fine = false)) ∧
    s'.i = s.i + 1 ∧ s'.wOld = project q s.w ∧
    s'.wOldF = (if s.fine = false ∧ s'.fine = true then some 0 else if s.fine = true ∧ s.endFine ≤ s.i then project q s.w else s.wOld) := by
  have hi := inv_reach (inv_start c q conv guess) h
  have ht : Inv c (s.test q) := ⟨hi.fine, hi.one, hi.mu, hi.str, hi.used⟩
  have key : ∀ t : CSt m, Inv c t → t.w = project q s.w → t.i = s.i → t.step c x draw = .ok s' →
      let n := if s'.fine then c.fineG.getD c.g else c.g
      let rows := if s'.fine = false ∧ c.sampleSize ≠ 1 then draw s.i else x
      (s'.w = normalise ((project q s.w).bind fun w => c.damped n s'.mu rows w) ∧ (c.mu = 1 → s'.fine = true) ∨
      s'.w = normalise ((project q s.w).map fun w => c.plain n rows w) ∧ s'.mu = 1 ∧ (c.mu = 1 → s'.fine = false)) ∧
      s'.i = s.i + 1 ∧ s'.wOld = project q s.w ∧ s'.wOldF = t.wOld ∧ s'.fine = t.fine := by
    intro t ht hw hti e
    obtain ⟨st, hb, h1, h2, h3⟩ := id ht.used
    rw [step_next hb e]
    refine ⟨?_, by rw [hti], hw, rfl, rfl⟩
    simp only [hw, hti]
    have hr : (if c.subsampled t.fine = true then draw s.i else x) = if t.fine = false ∧ c.sampleSize ≠ 1 then draw s.i else x := by
      by_cases hc : t.fine = false ∧ c.sampleSize ≠ 1 <;> simp [FCfg.subsampled, hc]
    cases st with
    | true =>
      left
      refine ⟨?_, fun e => (h3 e).symm⟩
      simp only [if_true, hr]
      rfl
    | false =>
      right
      refine ⟨?_, h1 rfl, fun e => (h3 e).symm⟩
      simp only [Bool.false_eq_true, if_false, hr]
      congr 1
      cases project q s.w <;> rfl
  rcases iter_next e with ⟨h1, h2, _, e⟩ | ⟨_, e⟩
  · obtain ⟨k1, k2, k3, k4, k5⟩ := key _ (inv_tune ht h1) rfl rfl e
    refine ⟨k1, k2, k3, ?_⟩
    have k5 : s'.fine = true := k5
    rw [if_pos ⟨h2, k5⟩, k4]; rfl
  · obtain ⟨mu, stroke, used, lng, ed, _⟩ := damp_fields c (s.test q)
    obtain ⟨k1, k2, k3, k4, k5⟩ := key _ (inv_damp ht) (by rw [ed]; rfl) (by rw [ed]; rfl) e
    refine ⟨k1, k2, k3, ?_⟩
    rw [ed] at k4 k5
    have k5 : s'.fine = s.fine := k5
    rw [if_neg (by rw [k5]; intro h; rw [h.1] at h; exact nomatch h.2), k4]
    rfl

/-- The step size is halved for good exactly once: when more than half of the iterations have been made, in a stabilised iteration in which the
vector neither returns to the one before the last nor has done so in the iteration before. -/
theorem fast_long {c : FCfg} {x : List (Vec m)} {draw : Nat → List (Vec m)} {q : Matrix (Fin m) (Fin m) ℝ} {round : Nat} {s s' : CSt m}
    (hv : Valid s.used) (e : s.iter c x draw q round = .ok (.inl s')) : s'.lng = true ↔ s.lng = true ∨
      (s'.fine = s.fine ∧ c.mu ≠ 1 ∧ s.stroke = 0 ∧ ¬ below (dist (project q s.w) s.wOldF) c.limit ∧ c.maxIt / 2 < s.i) := by
  have key : ∀ t : CSt m, Valid t.used → t.step c x draw = .ok s' → s'.lng = t.lng ∧ s'.fine = t.fine := by
    intro t ht e
    obtain ⟨w', e', _⟩ := step_ok c x draw ht
    rw [e'] at e; cases e; exact ⟨rfl, rfl⟩
  rcases iter_next e with ⟨h1, h2, _, e⟩ | ⟨_, e⟩
  · obtain ⟨k1, k2⟩ := key _ (gFine_valid c) e
    have k2 : s'.fine = true := k2
    rw [k1, k2, h2]
    exact ⟨.inl, fun h => h.elim id fun h => nomatch h.1⟩
  · obtain ⟨mu, stroke, used, lng, ed, hd⟩ := damp_fields c (s.test q)
    obtain ⟨k1, k2⟩ := key ((s.test q).damp c) (by rw [ed]; exact hd hv) e
    have k2 : s'.fine = s.fine := by rw [k2, ed]; rfl
    rw [k1]
    simp only [CSt.damp]
    by_cases g0 : c.stab
    · rw [if_pos g0]
      by_cases g1 : (s.test q).stroke = 0 ∧ below (dist (s.test q).w (s.test q).wOldF) c.limit
      · rw [if_pos g1]
        exact ⟨.inl, fun h => h.elim id fun h => absurd g1.2 h.2.2.2.1⟩
      · rw [if_neg g1]
        by_cases g2 : (s.test q).stroke ≠ 0
        · rw [if_pos g2]
          exact ⟨.inl, fun h => h.elim id fun h => absurd h.2.2.1 g2⟩
        · rw [if_neg g2]
          have g2 : s.stroke = 0 := not_not.1 g2
          by_cases g3 : (s.test q).lng = false ∧ c.maxIt / 2 < (s.test q).i
          · rw [if_pos g3]
            exact ⟨fun _ => .inr ⟨k2, g0, g2, fun h => g1 ⟨g2, h⟩, g3.2⟩, fun _ => rfl⟩
          · rw [if_neg g3]
            refine ⟨.inl, fun h => h.elim id fun h => ?_⟩
            by_contra h'
            exact g3 ⟨by simpa using h', h.2.2.2.2⟩
    · rw [if_neg g0]
      exact ⟨.inl, fun h => h.elim id fun h => absurd h.2.1 g0⟩

/-- The loop makes a step: with at least one iteration, for a first guess of length one and a limit of at most one. -/
example (c : FCfg) (x : List (Vec m)) (draw : Nat → List (Vec m)) (w : Vec m) (hw : norm2 w = 1) (hl : c.limit ≤ 1) (hm : 0 < c.maxIt) :
    ∃ s', (CSt.start c 0 [] (some w)).iter c x draw 0 0 = .ok (.inl s') ∧
      Reach c x draw 0 0 (CSt.start c 0 [] (some w)) s' := by
  have hp : project 0 (some w) = some w := by
    rw [project_zero]; simp [normalise, hw]
  have hw1 : (CSt.start c 0 [] (some w)).w = some w := hp
  have ht : ((CSt.start c 0 [] (some w)).test 0).w = some w := by
    show project 0 (CSt.start c 0 [] (some w)).w = _
    rw [hw1, hp]
  have ht2 : ((CSt.start c 0 [] (some w)).test 0).wOld = some 0 := rfl
  rcases iter_cases c x draw 0 0 (s := CSt.start c 0 [] (some w)) (gOrig_valid c) with h | ⟨_, h | ⟨_, h | h | ⟨_, w', mu, st, us, lng, _, _, h⟩⟩⟩
  · exact absurd h.1 (by simp [CSt.start])
  · exact absurd h.2.1 (by simp [CSt.start]; omega)
  · exact absurd h.1 (by rw [ht, ht2]; exact dist_unit hw hl)
  · exact absurd h.1 (by rw [ht, ht2]; exact dist_unit hw hl)
  · exact ⟨_, h, .next .start h⟩

/-! ## FastICA: failures -/

/-- How the loop for a component ends. -/
inductive Kind where
  | found | failed | over

/-- The kind of a result. -/
def Res.kind : Res m → Kind
  | .found _ => .found
  | .failed => .failed
  | .over => .over

/-- The components `l`, one after the other, end as `o`. -/
inductive Ends (c : FCfg) (x : List (Vec m)) (draw : Nat → Nat → List (Vec m)) : List (Fin m) → DSt m → List Kind → DSt m → Prop
  | nil (s) : Ends c x draw [] s [] s
  | cons {r : Fin m} {l s s' s'' res o} (h : (CSt.start c s.q s.conv (s.guess r)).run c x (draw r) s.q r (c.maxIt + c.maxItFine + 1) = .ok res)
      (hr : s.round c x draw r = .ok s') (ht : Ends c x draw l s' o s'') : Ends c x draw (r :: l) s (res.1.kind :: o) s''

/-- The failures since the last component that was found, starting from `n`. -/
def streak : Nat → List Kind → Nat
  | n, [] => n
  | _, .found :: l => streak 0 l
  | n, .failed :: l => streak (n + 1) l
  | n, .over :: l => streak n l

theorem round_end {c : FCfg} {x : List (Vec m)} {draw : Nat → Nat → List (Vec m)} (s : DSt m) (r : Fin m) :
    ∃ res, (CSt.start c s.q s.conv (s.guess r)).run c x (draw r) s.q r (c.maxIt + c.maxItFine + 1) = .ok res ∧
      ((∃ s', s.round c x draw r = .ok s' ∧ s'.nfail = streak s.nfail [res.1.kind] ∧ (res.1.kind = .failed → s'.nfail ≤ c.failures)) ∨
        (res.1.kind = .failed ∧ r.val = 0 ∧ s.round c x draw r = .error .convergence) ∨
        (res.1.kind = .failed ∧ r.val ≠ 0 ∧ c.failures < s.nfail + 1 ∧ s.round c x draw r = .error .failures)) := by
  have hv : Valid (CSt.start c s.q s.conv (s.guess r)).used := gOrig_valid c
  obtain ⟨⟨res, conv⟩, e⟩ := run_total c x (draw r) s.q r (c.maxIt + c.maxItFine + 1) _ hv
  refine ⟨_, e, ?_⟩
  cases res with
  | «over» =>
    left
    simp only [DSt.round, e]
    exact ⟨_, rfl, rfl, fun h => nomatch h⟩
  | found w =>
    left
    simp only [DSt.round, e]
    exact ⟨_, rfl, rfl, fun h => nomatch h⟩
  | failed =>
    simp only [DSt.round, e]
    by_cases h1 : r.val = 0
    · rw [if_pos h1]; exact .inr (.inl ⟨rfl, h1, rfl⟩)
    · rw [if_neg h1]
      by_cases h2 : c.failures < s.nfail + 1
      · rw [if_pos h2]; exact .inr (.inr ⟨rfl, h1, h2, rfl⟩)
      · rw [if_neg h2]; exact .inl ⟨_, rfl, rfl, fun _ => not_lt.1 h2⟩

theorem streak_append (n : Nat) (o : List Kind) (k : Kind) : streak n (o ++ [k]) = streak (streak n o) [k] := by
  induction o generalizing n with
  | nil => rfl
  | cons a o ih => cases a <;> exact ih _

theorem rounds_end {c : FCfg} {x : List (Vec m)} {draw : Nat → Nat → List (Vec m)} (l : List (Fin m)) : ∀ s : DSt m,
    (∃ s' o, s.rounds c x draw l = .ok s' ∧ Ends c x draw l s o s') ∨
    (∃ l1 r l2 s1 o, l = l1 ++ r :: l2 ∧ Ends c x draw l1 s o s1 ∧ s1.nfail = streak s.nfail o ∧
      ((r.val = 0 ∧ s.rounds c x draw l = .error .convergence) ∨
       (r.val ≠ 0 ∧ c.failures < streak s.nfail (o ++ [.failed]) ∧ s.rounds c x draw l = .error .failures))) := by
  induction l with
  | nil => exact fun s => .inl ⟨s, [], rfl, .nil _⟩
  | cons r l ih =>
    intro s
    obtain ⟨res, e, ⟨s', h1, h2, h3⟩ | ⟨h1, h2, h3⟩ | ⟨h1, h2, h3, h4⟩⟩ := round_end (c := c) (x := x) (draw := draw) s r
    · simp only [DSt.rounds, h1]
      rcases ih s' with ⟨s'', o, h4, h5⟩ | ⟨l1, r', l2, s1, o, h4, h5, h6, h7⟩
      · exact .inl ⟨s'', res.1.kind :: o, h4, .cons e h1 h5⟩
      · right
        have hs : ∀ o, streak s'.nfail o = streak s.nfail (res.1.kind :: o) := by
          intro o; rw [h2]; cases res.1.kind <;> rfl
        refine ⟨r :: l1, r', l2, s1, res.1.kind :: o, by rw [h4]; rfl, .cons e h1 h5, by rw [h6, hs], ?_⟩
        rw [hs] at h7
        exact h7
    · right
      refine ⟨[], r, l, s, [], rfl, .nil _, rfl, .inl ⟨h2, ?_⟩⟩
      simp only [DSt.rounds, h3]
    · right
      refine ⟨[], r, l, s, [], rfl, .nil _, rfl, .inr ⟨h2, h3, ?_⟩⟩
      simp only [DSt.rounds, h4]

theorem ends_streak {c : FCfg} {x : List (Vec m)} {draw : Nat → Nat → List (Vec m)} {l : List (Fin m)} {s s' : DSt m} {o : List Kind}
    (h : Ends c x draw l s o s') : s'.nfail = streak s.nfail o ∧ ∀ o1 o2, o = o1 ++ .failed :: o2 →
      streak s.nfail (o1 ++ [.failed]) ≤ c.failures := by
  induction h with
  | nil s => exact ⟨rfl, fun o1 o2 h => by cases o1 <;> cases h⟩
  | @cons r l s s' s'' res o h hr ht ih =>
    obtain ⟨res', e, he⟩ := round_end (c := c) (x := x) (draw := draw) s r
    rw [h] at e; cases e
    rw [hr] at he
    obtain ⟨t, h1, h2, h3⟩ | ⟨_, _, h1⟩ | ⟨_, _, _, h1⟩ := he
    · cases h1
      have hs : ∀ o, streak s'.nfail o = streak s.nfail (res.1.kind :: o) := by
        intro o; rw [h2]; cases res.1.kind <;> rfl
      refine ⟨by rw [ih.1, hs], fun o1 o2 ho => ?_⟩
      cases o1 with
      | nil =>
        simp only [List.nil_append, List.cons.injEq] at ho
        rw [h2, ho.1] at h3
        exact h3 rfl
      | cons k o1 =>
        simp only [List.cons_append, List.cons.injEq] at ho
        have := ih.2 o1 o2 ho.2
        rw [hs, ho.1] at this
        exact this
    · cases h1
    · cases h1

theorem ends_le {c : FCfg} {x : List (Vec m)} {draw : Nat → Nat → List (Vec m)} {l : List (Fin m)} {s s' : DSt m} {o : List Kind}
    (h : Ends c x draw l s o s') (hn : s.nfail ≤ c.failures) : s'.nfail ≤ c.failures := by
  induction h with
  | nil s => exact hn
  | @cons r l s s' s'' res o h hr ht ih =>
    obtain ⟨res', e, he⟩ := round_end (c := c) (x := x) (draw := draw) s r
    rw [h] at e; cases e
    rw [hr] at he
    obtain ⟨t, h1, h2, h3⟩ | ⟨_, _, h1⟩ | ⟨_, _, _, h1⟩ := he
    · cases h1
      refine ih ?_
      cases hk : res.1.kind with
      | failed => exact h3 hk
      | found => rw [h2, hk]; exact Nat.zero_le _
      | «over» => rw [h2, hk]; exact hn
    · cases h1
    · cases h1

/-- The failures that end deflation: the run ends normally only if each component that fails to converge is at most the `failures`-th one
since the last component that was found; and the exception for too many failures comes with the component that is the first one
beyond that. -/
theorem fast_failures (c : FCfg) (x : List (Vec m)) (draw : Nat → Nat → List (Vec m)) (guess : Matrix (Fin m) (Fin m) ℝ) :
    (∀ s, fastDefl c x draw guess = .ok s → ∃ o, Ends c x draw (List.finRange m) ⟨0, 0, [], fun k => some fun a => guess a k⟩ o s ∧
      s.nfail = streak 0 o ∧ ∀ o1 o2, o = o1 ++ .failed :: o2 → streak 0 (o1 ++ [.failed]) ≤ c.failures) ∧
    (fastDefl c x draw guess = .error .failures → ∃ l1 r l2 s o, List.finRange m = l1 ++ r :: l2 ∧
      Ends c x draw l1 ⟨0, 0, [], fun k => some fun a => guess a k⟩ o s ∧ streak 0 (o ++ [.failed]) = c.failures + 1) := by
  rcases rounds_end (c := c) (x := x) (draw := draw) (List.finRange m) ⟨0, 0, [], fun k => some fun a => guess a k⟩ with
      ⟨s', o, e, h1⟩ | ⟨l1, r, l2, s1, o, h1, h2, h3, ⟨_, e⟩ | ⟨_, h4, e⟩⟩
  · refine ⟨fun s h => ?_, fun h => ?_⟩
    · rw [fastDefl, e] at h; cases h
      exact ⟨o, h1, ends_streak h1⟩
    · rw [fastDefl, e] at h; cases h
  · refine ⟨fun s h => ?_, fun h => ?_⟩ <;> rw [fastDefl, e] at h <;> cases h
  · refine ⟨fun s h => ?_, fun _ => ⟨l1, r, l2, s1, o, h1, h2, ?_⟩⟩
    · rw [fastDefl, e] at h; cases h
    · have h5 := ends_le h2 (Nat.zero_le _)
      rw [h3] at h5
      rw [streak_append] at h4 ⊢
      have h6 : ∀ n, streak n [Kind.failed] = n + 1 := fun _ => rfl
      rw [h6] at h4 ⊢
      simp only at h4 h5
      omega

/-! ## FastICA: the symmetric approach -/

open Classical in
/-- What holds in all states of the symmetric loop. -/
structure SInv (c : FCfg) (s : SSt m) : Prop where
  fine : s.fine = true → c.fineG.isSome
  one : c.mu = 1 → s.stroke = 0 ∧ s.lng = false ∧ s.mu = if s.fine then 0.01 else 1
  mu : s.stroke = 0 → Base c s.fine s.lng s.mu
  str : s.stroke ≠ 0 → Base c s.fine s.lng s.stroke ∧ (s.mu = s.stroke / 2 ∨ (s.fine = true ∧ Base c s.fine s.lng s.mu))
  used : ∃ st, Branch s.used (c.active (s.fine || s.coarse)) (decide (c.sampleSize ≠ 1 ∧ ((s.fine || s.coarse) = true → c.fineG = none))) st ∧
    (st = false → s.mu = 1) ∧ (s.stroke ≠ 0 → st = true)
  switched : s.coarse = true ↔ some c.g ≠ c.fineG ∧ ∃ l, c.coarse = some l ∧ ∃ v ∈ s.conv, v < l

theorem sinv_damp {c : FCfg} {s : SSt m} (h : SInv c s) (round : Nat) (v2 : ℝ) : SInv c (s.damp c round v2) := by
  obtain ⟨st, hb, h1, h2⟩ := h.used
  by_cases hm : c.stab
  · simp only [SSt.damp]
    rw [if_pos hm]
    by_cases g1 : s.stroke = 0 ∧ v2 < c.limit
    · rw [if_pos g1]
      refine ⟨h.fine, fun e => absurd e hm, fun e => ?_, fun _ => ⟨h.mu g1.1, .inl ?_⟩, ⟨true, branch_up hb, (fun h => nomatch h),
        fun _ => rfl⟩, h.switched⟩
      · have e : s.mu = 0 := e
        show Base c s.fine s.lng (0.5 * s.mu)
        have := h.mu g1.1
        rw [e] at this ⊢
        simpa using this
      · show 0.5 * s.mu = s.mu / 2
        norm_num; ring
    · rw [if_neg g1]
      by_cases g2 : s.stroke ≠ 0
      · rw [if_pos g2]
        obtain rfl := h2 g2
        refine ⟨h.fine, fun e => absurd e hm, fun _ => (h.str g2).1, fun e => absurd rfl e, ⟨_, branch_down hb, fun e => ?_,
          fun e => absurd rfl e⟩, h.switched⟩
        simpa using e
      · rw [if_neg g2]
        have g2 : s.stroke = 0 := not_not.1 g2
        by_cases g3 : s.lng = false ∧ c.maxIt / 2 < round
        · rw [if_pos g3]
          refine ⟨h.fine, fun e => absurd e hm, fun _ => ?_, fun e => absurd g2 e, ⟨true, branch_up hb, (fun h => nomatch h),
            fun _ => rfl⟩, h.switched⟩
          have := h.mu g2
          rw [g3.1] at this
          exact base_half this
        · rw [if_neg g3]; exact h
  · simp only [SSt.damp]
    rw [if_neg hm]; exact h

theorem gFine_branch (c : FCfg) : Branch c.gFine (c.fineG.getD c.g) (decide (c.sampleSize ≠ 1 ∧ c.fineG = none)) true := by
  simp only [Branch, FCfg.gFine, FCfg.gOrig]
  cases c.fineG with
  | some n => simp
  | none => by_cases h1 : c.mu = 1 <;> by_cases h2 : c.sampleSize = 1 <;> simp [h1, h2]

theorem sinv_tune {c : FCfg} {s : SSt m} (h : SInv c s) (hf : c.fineG.isSome) : SInv c (s.tune c) := by
  have hb : ∀ lng, Base c true lng (0.01 * c.mu) := fun lng => ⟨_, .inr ⟨rfl, rfl⟩, .inl rfl⟩
  refine ⟨fun _ => hf, fun e => ⟨(h.one e).1, (h.one e).2.1, by simp [SSt.tune, e]⟩, fun _ => hb _, fun e => ⟨?_, .inr ⟨rfl, hb _⟩⟩,
    ⟨true, ?_, (fun h => nomatch h), fun _ => rfl⟩, h.switched⟩
  · obtain ⟨b, h1, h2⟩ := (h.str e).1
    exact ⟨b, h1.imp id fun h => ⟨rfl, h.2⟩, h2⟩
  · have := gFine_branch c
    simpa [SSt.tune, FCfg.active] using this

theorem sinv_coarsen {c : FCfg} {s : SSt m} {q : Matrix (Fin m) (Fin m) ℝ} {v : ℝ} (h : SInv c s) :
    SInv c (SSt.coarsen c { s with q := q, conv := s.conv ++ [v] } v) := by
  simp only [SSt.coarsen]
  by_cases g : some c.g ≠ c.fineG ∧ (∃ l, c.coarse = some l ∧ v < l) ∧ s.coarse = false
  · rw [if_pos g]
    refine ⟨h.fine, h.one, h.mu, h.str, ⟨true, ?_, (fun h => nomatch h), fun _ => rfl⟩, ?_⟩
    · have := gFine_branch c
      simpa [FCfg.active] using this
    · obtain ⟨l, hl, hv⟩ := g.2.1
      exact ⟨fun _ => ⟨g.1, l, hl, v, by simp, hv⟩, fun _ => rfl⟩
  · rw [if_neg g]
    refine ⟨h.fine, h.one, h.mu, h.str, h.used, ?_⟩
    constructor
    · intro hc
      obtain ⟨h1, l, h2, v', h3, h4⟩ := h.switched.1 hc
      exact ⟨h1, l, h2, v', List.mem_append_left _ h3, h4⟩
    · rintro ⟨h1, l, h2, v', h3, h4⟩
      by_contra hc
      have hc' : s.coarse = false := by simpa using hc
      rcases List.mem_append.1 h3 with h3 | h3
      · have := h.switched.2 ⟨h1, l, h2, v', h3, h4⟩
        rw [hc'] at this; cases this
      · rw [List.mem_singleton] at h3
        subst h3
        exact g ⟨h1, ⟨l, h2, h4⟩, hc'⟩

theorem sinv_step {c : FCfg} {x : List (Vec m)} {draw : Nat → List (Vec m)} {round : Nat} {s s' : SSt m} (h : SInv c s)
    (e : s.step c x draw round = .ok s') : SInv c s' := by
  obtain ⟨st, hb, _⟩ := id h.used
  simp only [SSt.step, decode_branch hb] at e
  split at e
  · cases e
  · cases e
    exact ⟨h.fine, h.one, h.mu, h.str, h.used, h.switched⟩

theorem sinv_run {c : FCfg} {x : List (Vec m)} {draw : Nat → List (Vec m)}
    {root : Matrix (Fin m) (Fin m) ℝ → Option (Matrix (Fin m) (Fin m) ℝ)} (n : Nat) : ∀ s s' : SSt m, SInv c s →
      s.run c x draw root n = .ok s' → SInv c s' := by
  induction n with
  | zero => intro s s' _ h; cases h
  | succ n ih =>
    intro s s' hs e
    simp only [SSt.run] at e
    cases hr : root (s.qᵀ * s.q) with
    | none => rw [hr] at e; cases e
    | some h =>
      rw [hr] at e
      simp only at e
      have h1 := sinv_coarsen (q := s.q * h) (v := change (s.q * h) s.qOld) hs
      generalize SSt.coarsen c { s with q := s.q * h, conv := s.conv ++ [change (s.q * h) s.qOld] } (change (s.q * h) s.qOld) = t at h1 e
      have key : ∀ u : SSt m, SInv c u → (match u.step c x draw (c.maxIt - (n + 1)) with
          | .error e => (.error e : Except Err (SSt m))
          | .ok s' => s'.run c x draw root n) = .ok s' → SInv c s' := by
        intro u hu e
        cases hst : u.step c x draw (c.maxIt - (n + 1)) with
        | error e' => rw [hst] at e; cases e
        | ok w => rw [hst] at e; exact ih _ _ (sinv_step hu hst) e
      split_ifs at e with h2 h3
      · exact key _ (sinv_damp (sinv_tune h1 h3.1) _ _) e
      · cases e; exact h1
      · exact key _ (sinv_damp h1 _ _) e

/-- At the end of a run with the symmetric approach: the step size is the parameter `mu`, halved at most twice; in fine-tuning it may be a
hundredth of that. With `mu = 1` it is one, and a hundredth in fine-tuning. The nonlinearity in use is `g`; it is `fine_g`, without random
samples, if fine-tuning took place or `coarse_limit` was reached, which it was if and only if one of the convergence values is less. A step is
stabilised unless the step size is one. -/
theorem fast_symm_switch {c : FCfg} {x : List (Vec m)} {draw : Nat → List (Vec m)}
    {root : Matrix (Fin m) (Fin m) ℝ → Option (Matrix (Fin m) (Fin m) ℝ)} {guess : Matrix (Fin m) (Fin m) ℝ} {s : SSt m}
    (h : fastSymm c x draw root guess = .ok s) :
    (∃ k ≤ 2, s.mu = c.mu / 2 ^ k ∨ (s.fine = true ∧ s.mu = 0.01 * c.mu / 2 ^ k)) ∧
    (c.mu = 1 → s.mu = if s.fine then 0.01 else 1) ∧
    (s.coarse = true ↔ some c.g ≠ c.fineG ∧ ∃ l, c.coarse = some l ∧ ∃ v ∈ s.conv, v < l) ∧
    ∃ sub st, decode s.used = some (if s.fine = true ∨ s.coarse = true then c.fineG.getD c.g else c.g, sub, st) ∧
      (sub = true ↔ c.sampleSize ≠ 1 ∧ (s.fine = true ∨ s.coarse = true → c.fineG = none)) ∧ (st = true ∨ s.mu = 1) := by
  have h0 : SInv c (⟨guess, 0, 0, c.mu, 0, c.gOrig, false, false, false, []⟩ : SSt m) := by
    refine ⟨fun h => (nomatch h), fun h => ⟨rfl, rfl, h⟩, fun _ => ⟨c.mu, .inl rfl, .inl rfl⟩, fun h => absurd rfl h, ?_, by simp⟩
    refine ⟨decide (c.mu ≠ 1), ?_, fun h => not_not.1 (of_decide_eq_false h), fun h => absurd rfl h⟩
    simp only [Branch, FCfg.gOrig, FCfg.active]
    by_cases h1 : c.mu = 1 <;> by_cases h2 : c.sampleSize = 1 <;> simp [h1, h2]
  have hi := sinv_run _ _ _ h0 h
  refine ⟨?_, fun e => (hi.one e).2.2, hi.switched, ?_⟩
  · by_cases hs : s.stroke = 0
    · obtain ⟨k, hk, h1⟩ := base_values (hi.mu hs)
      exact ⟨k, by omega, h1⟩
    · obtain ⟨h1, h2 | ⟨hf, h2⟩⟩ := hi.str hs
      · obtain ⟨k, hk, h3⟩ := base_values h1
        refine ⟨k + 1, by omega, ?_⟩
        rw [h2]
        rcases h3 with h3 | ⟨hf, h3⟩
        · left; rw [h3, pow_succ, div_div]
        · right; exact ⟨hf, by rw [h3, pow_succ, div_div]⟩
      · obtain ⟨k, hk, h3⟩ := base_values h2
        exact ⟨k, by omega, h3⟩
  · obtain ⟨st, hb, h1, _⟩ := hi.used
    refine ⟨decide (c.sampleSize ≠ 1 ∧ ((s.fine || s.coarse) = true → c.fineG = none)), st, ?_, ?_, ?_⟩
    · rw [decode_branch hb]; simp [FCfg.active]
    · rw [decide_eq_true_iff, Bool.or_eq_true]
    · cases st
      · exact .inr (h1 rfl)
      · exact .inl rfl

/-- `g='tanh'`, `fine_g='pow3'`, `coarse_limit=2`, `limit=2`. -/
noncomputable def fineCfg : FCfg := ⟨.tanh, some .pow3, 1, 1, 0, 1, 100, 100, 5, some 2, 2⟩

/-- The two binary signals with fine-tuning: after one round there is a stabilised step with the fine nonlinearity, which changes nothing. -/
example : ∃ s, fastSymm fineCfg binary (fun _ => []) twoRoots 1 = .ok s ∧ s.q = 1 ∧ s.fine = true ∧ s.coarse = true ∧
    s.mu = 0.01 ∧ s.conv = [1, 0] := by
  have h1 : twoRoots ((1 : Matrix (Fin 2) (Fin 2) ℝ)ᵀ * 1) = some 1 := by simp [twoRoots]
  have hp : ∀ (c : FCfg) (mu : ℝ), c.dampedM .pow3 mu binary 1 = some 1 := by
    intro c mu
    have e1 : (Matrix.of fun a k => avg binary (fun r => (r ⬝ᵥ (1 : Matrix (Fin 2) (Fin 2) ℝ).col a) *
        c.fn .pow3 (r ⬝ᵥ (1 : Matrix (Fin 2) (Fin 2) ℝ).col k))) = 1 := by
      ext a k
      fin_cases a <;> fin_cases k <;>
        simp [avg, binary, FCfg.fn, dotProduct, Fin.sum_univ_two, col_apply, one_apply] <;> norm_num
    have e2 : ∀ k, avg binary (fun r => c.dfn .pow3 (r ⬝ᵥ (1 : Matrix (Fin 2) (Fin 2) ℝ).col k)) = 3 := by
      intro k
      simp [avg, binary, FCfg.dfn]; norm_num
    simp only [FCfg.dampedM, e1, e2]
    rw [if_neg (by simp; norm_num)]
    have e3 : (diagonal fun k => (1 : Matrix (Fin 2) (Fin 2) ℝ) k k) = 1 := by simp
    rw [e3]; simp
  have c1 : change (1 : Matrix (Fin 2) (Fin 2) ℝ) 0 = 1 := by simp [change]
  have c2 : change (1 : Matrix (Fin 2) (Fin 2) ℝ) 1 = 0 := by simp [change]
  have r1 : (⟨1, 0, 0, fineCfg.mu, 0, fineCfg.gOrig, false, false, false, []⟩ : SSt 2).run fineCfg binary (fun _ => []) twoRoots (98 + 1 + 1) =
      (⟨1, 1, 0, 0.01, 0, 11, true, false, true, [1]⟩ : SSt 2).run fineCfg binary (fun _ => []) twoRoots (98 + 1) := by
    rw [SSt.run]
    simp only [h1]
    simp only [mul_one, c1]
    have e1 : SSt.coarsen fineCfg (⟨1, 0, 0, fineCfg.mu, 0, fineCfg.gOrig, false, false, false, [] ++ [1]⟩ : SSt 2) 1 =
        ⟨1, 0, 0, 1, 0, 11, false, false, true, [1]⟩ := by
      rw [SSt.coarsen, if_pos ⟨by simp [fineCfg], ⟨2, rfl, by norm_num⟩, rfl⟩]
      rfl
    rw [e1, if_pos (by norm_num [fineCfg]), if_pos ⟨rfl, rfl⟩]
    have e2 : SSt.tune fineCfg (⟨1, 0, 0, 1, 0, 11, false, false, true, [1]⟩ : SSt 2) = ⟨1, 0, 0, 0.01, 0, 11, true, false, true, [1]⟩ := by
      simp [SSt.tune, fineCfg, FCfg.gFine, Nl.code]
    have e3 : ∀ (s : SSt 2) r v, SSt.damp fineCfg r s v = s := fun s r v => by
      simp only [SSt.damp]; rw [if_neg (by simp [FCfg.stab, fineCfg])]
    have hd : decode 11 = some (.pow3, false, true) := rfl
    rw [e2, e3]
    simp only [SSt.step, hd, if_true, Bool.false_eq_true, if_false, hp]
  have r2 : (⟨1, 1, 0, 0.01, 0, 11, true, false, true, [1]⟩ : SSt 2).run fineCfg binary (fun _ => []) twoRoots (98 + 1) =
      .ok ⟨1, 1, 0, 0.01, 0, 11, true, false, true, [1, 0]⟩ := by
    rw [SSt.run]
    simp only [h1]
    simp only [mul_one, c2]
    have e1 : SSt.coarsen fineCfg (⟨1, 1, 0, 0.01, 0, 11, true, false, true, [1] ++ [0]⟩ : SSt 2) 0 =
        ⟨1, 1, 0, 0.01, 0, 11, true, false, true, [1, 0]⟩ := by
      rw [SSt.coarsen, if_neg (fun h => nomatch h.2.2)]
      rfl
    rw [e1, if_pos (by norm_num [fineCfg]), if_neg (fun h => nomatch h.2)]
  exact ⟨_, (show fastSymm fineCfg binary (fun _ => []) twoRoots 1 = _ from r1.trans r2), rfl, rfl, rfl, rfl, rfl⟩

end Mdp.Ica
