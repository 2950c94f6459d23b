import Verif.Nodes.RecExpansion
import Mathlib.RingTheory.Polynomial.ShiftedLegendre
import Mathlib.RingTheory.Polynomial.Chebyshev
import Mathlib.Algebra.CharZero.Defs
import Mathlib.Tactic.FieldSimp
import Mathlib.Tactic.LinearCombination
import Mathlib.Tactic.Ring

/-!
# The functions of one variable

The specification takes the polynomials from Mathlib.
-/

namespace Mdp.RecExp

variable {F : Type} [Field F]

/-- The Legendre polynomial `P_m`: Mathlib has the polynomial shifted to `[0, 1]`, `P_m(1 - 2t)`. -/
noncomputable def legendre (m : Nat) (x : F) : F :=
  ((Polynomial.shiftedLegendre m).map (Int.castRingHom F)).eval ((1 - x) / 2)

/-- The function of order `m` of each family. -/
noncomputable def Kind.basis : Kind → Nat → F → F
  | .standard, m, x => x ^ m
  | .legendre, m, x => RecExp.legendre m x
  | .rational, m, x => RecExp.legendre m ((x - 1) / (x + 1))
  | .chebyshev, m, x => (Polynomial.Chebyshev.T F m).eval x

/-! ## Bonnet's recursion -/

/-- `k!²` times the coefficients, up to sign. -/
def coef (m : F) : Nat → F
  | 0 => 1
  | k + 1 => coef m k * ((m - k) * (m + k + 1))

theorem coef_up (m : F) (k : Nat) : coef (m + 1) (k + 1) = coef m k * ((m + k + 1) * (m + k + 2)) := by
  induction k with
  | zero => simp only [coef, Nat.cast_zero]; ring
  | succ k ih =>
    rw [coef, ih, coef]
    push_cast; ring

theorem coef_down (m : F) (k : Nat) : coef (m - 1) (k + 1) = coef m k * ((m - k) * (m - k - 1)) := by
  induction k with
  | zero => simp only [coef, Nat.cast_zero]; ring
  | succ k ih =>
    rw [coef, ih, coef]
    push_cast; ring

theorem coef_bonnet (m : F) (k : Nat) :
    (m + 1) * coef (m + 1) (k + 1) + m * coef (m - 1) (k + 1) =
      (2 * m + 1) * (coef m (k + 1) + 2 * (k + 1) ^ 2 * coef m k) := by
  rw [coef_up, coef_down, coef]
  ring

variable [CharZero F]

theorem coef_choose (m k : Nat) :
    coef (m : F) k = (k.factorial : F) ^ 2 * (m.choose k * (m + k).choose m) := by
  induction k with
  | zero => simp [coef]
  | succ k ih =>
    rw [coef, ih, Nat.factorial_succ]
    have h1 : ((m.choose (k + 1) : Nat) : F) * (k + 1) = m.choose k * ((m : F) - k) := by
      by_cases h : k ≤ m
      · have := Nat.choose_succ_right_eq m k
        have h' := congrArg (Nat.cast (R := F)) this
        push_cast [Nat.cast_sub h] at h'
        exact h'
      · rw [Nat.choose_eq_zero_of_lt (by omega), Nat.choose_eq_zero_of_lt (by omega)]; simp
    have h2 : (((m + (k + 1)).choose m : Nat) : F) * (k + 1) = (m + k).choose m * ((m : F) + k + 1) := by
      have := Nat.choose_mul_succ_eq (m + k) m
      rw [show m + k + 1 - m = k + 1 by omega] at this
      have h' := congrArg (Nat.cast (R := F)) this
      push_cast at h'
      rw [← add_assoc m k 1, ← h']
    push_cast
    linear_combination (-(k.factorial : F) ^ 2 * ((m + (k + 1)).choose m : F) * (k + 1)) * h1 -
      (k.factorial : F) ^ 2 * (m.choose k * ((m : F) - k)) * h2

theorem coeff_legendre (m k : Nat) : ((Polynomial.shiftedLegendre m).map (Int.castRingHom F)).coeff k =
    (-1) ^ k * (m.choose k * (m + k).choose m) := by
  rw [Polynomial.coeff_map, Polynomial.coeff_shiftedLegendre]
  simp [mul_assoc]

theorem bonnet_poly (m : Nat) :
    Polynomial.C ((m : F) + 2) * (Polynomial.shiftedLegendre (m + 2)).map (Int.castRingHom F) =
      Polynomial.C (2 * (m : F) + 3) * ((1 - Polynomial.C 2 * Polynomial.X) *
        (Polynomial.shiftedLegendre (m + 1)).map (Int.castRingHom F)) -
      Polynomial.C ((m : F) + 1) * (Polynomial.shiftedLegendre m).map (Int.castRingHom F) := by
  ext k
  rw [Polynomial.coeff_sub, Polynomial.coeff_C_mul, Polynomial.coeff_C_mul, Polynomial.coeff_C_mul, sub_mul, one_mul,
    Polynomial.coeff_sub, mul_assoc, Polynomial.coeff_C_mul]
  cases k with
  | zero =>
    rw [Polynomial.coeff_X_mul_zero]
    simp only [coeff_legendre]
    simp
    ring
  | succ k =>
    rw [Polynomial.coeff_X_mul]
    simp only [coeff_legendre]
    have h := coef_bonnet (F := F) (m + 1 : F) k
    have e1 : (m + 1 : F) + 1 = ((m + 2 : Nat) : F) := by push_cast; ring
    have e2 : (m + 1 : F) - 1 = ((m : Nat) : F) := by ring
    have e3 : (m + 1 : F) = ((m + 1 : Nat) : F) := by push_cast; ring
    rw [e1, e2, e3, coef_choose, coef_choose, coef_choose, coef_choose] at h
    have hf : ((k + 1).factorial : F) ^ 2 ≠ 0 := pow_ne_zero _ (by exact_mod_cast (Nat.factorial_pos _).ne')
    have hk : ((k + 1).factorial : F) = (k + 1) * k.factorial := by
      rw [Nat.factorial_succ]; push_cast; ring
    have hk0 : (k.factorial : F) ^ 2 ≠ 0 := pow_ne_zero _ (by exact_mod_cast (Nat.factorial_pos _).ne')
    apply mul_left_cancel₀ hf
    rw [hk] at h ⊢
    push_cast at h ⊢
    rw [pow_succ (-1 : F) k]
    linear_combination (-(-1) ^ k) * h

/-- Bonnet's recursion. -/
theorem bonnet (m : Nat) (x : F) :
    ((m : F) + 2) * legendre (m + 2) x = (2 * m + 3) * (x * legendre (m + 1) x) - (m + 1) * legendre m x := by
  have h := congrArg (Polynomial.eval ((1 - x) / 2)) (bonnet_poly (F := F) m)
  simp only [Polynomial.eval_mul, Polynomial.eval_sub, Polynomial.eval_C, Polynomial.eval_one, Polynomial.eval_X] at h
  unfold legendre
  rw [h]
  have : (1 : F) - 2 * ((1 - x) / 2) = x := by
    have h2 : (2 : F) ≠ 0 := two_ne_zero
    field_simp
    ring
  rw [this]

theorem legendre_zero (x : F) : legendre 0 x = 1 := by
  simp [legendre, Polynomial.shiftedLegendre]

theorem legendre_one (x : F) : legendre 1 x = x := by
  have h2 : (2 : F) ≠ 0 := two_ne_zero
  simp [legendre, Polynomial.shiftedLegendre, Finset.sum_range_succ]
  field_simp
  ring

theorem legendre_two (x : F) : legendre 2 x = 3 / 2 * x * x - 1 / 2 := by
  have h := bonnet 0 x
  have h2 : (2 : F) ≠ 0 := two_ne_zero
  rw [legendre_zero, legendre_one] at h
  norm_num at h
  field_simp
  linear_combination h

theorem legendre_step (m : Nat) (x : F) :
    (2 * ((m + 3 : Nat) : F) - 1) / ((m + 3 : Nat) : F) * x * legendre (m + 2) x -
      (((m + 3 : Nat) : F) - 1) / ((m + 3 : Nat) : F) * legendre (m + 1) x = legendre (m + 3) x := by
  have h := bonnet (m + 1) x
  have h3 : ((m + 3 : Nat) : F) ≠ 0 := by exact_mod_cast (by omega : m + 3 ≠ 0)
  field_simp
  push_cast at h ⊢
  have e : m + 1 + 2 = m + 3 := rfl
  linear_combination -h

theorem basis_zero (k : Kind) (x : F) : k.basis 0 x = 1 := by
  cases k <;> simp [Kind.basis, legendre_zero]

/-! ## The loop over the orders -/

/-- The first functions. -/
noncomputable def upTo (k : Kind) (m : Nat) (x : F) : List F := (List.range m).map fun t => k.basis (t + 1) x

theorem upTo_length (k : Kind) (m : Nat) (x : F) : (upTo k m x).length = m := by simp [upTo]

theorem upTo_succ (k : Kind) (m : Nat) (x : F) : upTo k (m + 1) x = upTo k m x ++ [k.basis (m + 1) x] := by
  simp [upTo, List.range_succ]

omit [CharZero F] in
theorem put_ok (a rest : List F) (v : F) (h : 1 ≤ rest.length) :
    put (a ++ rest) a.length v = some (a ++ [v] ++ rest.drop 1) := by
  cases rest with
  | nil => simp at h
  | cons b rest =>
    unfold put
    rw [if_pos (by simp)]
    simp

theorem get_upTo (k : Kind) (pre rest : List F) (m t : Nat) (x : F) (h : t < m) :
    (pre ++ upTo k m x ++ rest)[pre.length + t]? = some (k.basis (t + 1) x) := by
  rw [List.append_assoc, List.getElem?_append_right (by omega), Nat.add_sub_cancel_left,
    List.getElem?_append_left (by rw [upTo_length]; exact h)]
  simp [upTo, h]

theorem recStep_ok (k : Kind) (x : F) (special : Option Nat) (pre rest : List F) (m : Nat) (hr : 1 ≤ rest.length)
    (h : k.recf (pre ++ upTo k m x ++ rest) x special (m + 1) (pre.length + m) = some (k.basis (m + 1) x)) :
    recStep k x special (pre ++ upTo k m x ++ rest, pre.length + m) (m + 1) =
      some (pre ++ upTo k (m + 1) x ++ rest.drop 1, pre.length + (m + 1)) := by
  unfold recStep
  simp only [h, Option.bind_eq_bind, Option.bind_some]
  have := put_ok (pre ++ upTo k m x) rest (k.basis (m + 1) x) hr
  rw [List.length_append, upTo_length] at this
  rw [this, upTo_succ]
  simp [List.append_assoc, Nat.add_assoc]

theorem recLoop (k : Kind) (x : F) (special : Option Nat) (pre : List F) (m0 : Nat)
    (h : ∀ m rest, m0 ≤ m → k.recf (pre ++ upTo k m x ++ rest) x special (m + 1) (pre.length + m) =
      some (k.basis (m + 1) x)) :
    ∀ (c m : Nat) (rest : List F), m0 ≤ m → c ≤ rest.length →
      (List.range' (m + 1) c).foldlM (recStep k x special) (pre ++ upTo k m x ++ rest, pre.length + m) =
        some (pre ++ upTo k (m + c) x ++ rest.drop c, pre.length + (m + c)) := by
  intro c
  induction c with
  | zero => intro m rest _ _; simp
  | succ c ih =>
    intro m rest hm hr
    rw [List.range'_succ, List.foldlM_cons, recStep_ok k x special pre rest m (by omega) (h m rest hm)]
    simp only [Option.bind_eq_bind, Option.bind_some]
    rw [ih (m + 1) (rest.drop 1) (by omega) (by simp; omega), List.drop_drop]
    rw [show m + 1 + c = m + (c + 1) by omega, show 1 + c = c + 1 by omega]

theorem put2 (pre rest : List F) (v : F) (f : F → F) (h : 2 ≤ rest.length) :
    (do
      let r ← put (pre ++ rest) pre.length v
      let a ← r[pre.length]?
      put r (pre.length + 1) (f a)) = some (pre ++ [v, f v] ++ rest.drop 2) := by
  rw [put_ok pre rest v (by omega)]
  simp only [Option.bind_eq_bind, Option.bind_some]
  have h1 : (pre ++ [v] ++ rest.drop 1)[pre.length]? = some v := by simp
  rw [h1]
  simp only [Option.bind_some]
  have := put_ok (pre ++ [v]) (rest.drop 1) (f v) (by simp; omega)
  rw [List.length_append, List.length_singleton] at this
  rw [this, List.drop_drop]
  simp

/-- C127: one round of the loop over the variables appends the functions of orders `1` to `deg`. -/
theorem single_ok (k : Kind) (deg : Nat) (hd : 2 ≤ deg) (pre rest : List F) (hr : deg ≤ rest.length) (x : F) :
    single k deg (pre ++ rest, pre.length) x = some (pre ++ upTo k deg x ++ rest.drop deg, pre.length + deg) := by
  cases k with
  | standard =>
    unfold single
    simp only [Kind.init, initStandard]
    rw [put_ok pre rest x (by omega)]
    simp only [Option.bind_eq_bind, Option.bind_some]
    have e : pre ++ [x] = pre ++ upTo .standard 1 x := by simp [upTo, Kind.basis]
    rw [e]
    have := recLoop .standard x (some pre.length) pre 1 (by
      intro m rest hm
      obtain ⟨m, rfl⟩ : ∃ j, m = j + 1 := ⟨m - 1, by omega⟩
      simp only [Kind.recf, recfStandard]
      rw [show pre.length + (m + 1) - 1 = pre.length + m by omega, get_upTo _ pre rest _ m x (by omega)]
      have h0 := get_upTo .standard pre rest (m + 1) 0 x (by omega)
      simp only [Nat.add_zero] at h0
      simp only [Option.bind_eq_bind, Option.bind_some, h0]
      simp [Kind.basis, pow_succ]) (deg - 1) 1 (rest.drop 1) le_rfl (by simp; omega)
    rw [show deg + 1 - 2 = deg - 1 by omega, this, List.drop_drop]
    rw [show 1 + (deg - 1) = deg by omega]
  | legendre =>
    unfold single
    simp only [Kind.init, initLegendre]
    have h2 := put2 pre rest x (fun a => 3 / 2 * a * a - 1 / 2) (by omega)
    rw [put_ok pre rest x (by omega)] at h2 ⊢
    simp only [Option.bind_eq_bind, Option.bind_some] at h2 ⊢
    have h1 : (pre ++ [x] ++ rest.drop 1)[pre.length]? = some x := by simp
    rw [h1] at h2 ⊢
    simp only [Option.bind_some] at h2 ⊢
    rw [h2]
    simp only [Option.bind_some]
    have e : pre ++ [x, 3 / 2 * x * x - 1 / 2] = pre ++ upTo .legendre 2 x := by
      simp [upTo, Kind.basis, List.range_succ, legendre_one, legendre_two]
    rw [e]
    have := recLoop .legendre x (some pre.length) pre 2 (by
      intro m rest hm
      obtain ⟨m, rfl⟩ : ∃ j, m = j + 2 := ⟨m - 2, by omega⟩
      simp only [Kind.recf, recfLegendre]
      have h0 := get_upTo .legendre pre rest (m + 2) 0 x (by omega)
      simp only [Nat.add_zero] at h0
      rw [show pre.length + (m + 2) - 1 = pre.length + (m + 1) by omega, get_upTo _ pre rest _ (m + 1) x (by omega),
        show pre.length + (m + 2) - 2 = pre.length + m by omega, get_upTo _ pre rest _ m x (by omega)]
      simp only [Option.bind_eq_bind, Option.bind_some, h0]
      simp only [Kind.basis]
      rw [← legendre_step, Nat.zero_add, legendre_one]) (deg - 2) 2 (rest.drop 2) le_rfl (by simp; omega)
    rw [show deg + 1 - 3 = deg - 2 by omega, this, List.drop_drop]
    rw [show 2 + (deg - 2) = deg by omega]
  | rational =>
    unfold single
    simp only [Kind.init, initRational]
    have h2 := put2 pre rest ((x - 1) / (x + 1)) (fun a => 3 / 2 * (x - 1) / (x + 1) * a - 1 / 2) (by omega)
    rw [put_ok pre rest _ (by omega)] at h2 ⊢
    simp only [Option.bind_eq_bind, Option.bind_some] at h2 ⊢
    have h1 : (pre ++ [(x - 1) / (x + 1)] ++ rest.drop 1)[pre.length]? = some ((x - 1) / (x + 1)) := by simp
    rw [h1] at h2 ⊢
    simp only [Option.bind_some] at h2 ⊢
    rw [h2]
    simp only [Option.bind_some]
    have e : pre ++ [(x - 1) / (x + 1), 3 / 2 * (x - 1) / (x + 1) * ((x - 1) / (x + 1)) - 1 / 2] =
        pre ++ upTo .rational 2 x := by
      simp [upTo, Kind.basis, List.range_succ, legendre_one, legendre_two, mul_div_assoc]
    rw [e]
    have := recLoop .rational x none pre 2 (by
      intro m rest hm
      obtain ⟨m, rfl⟩ : ∃ j, m = j + 2 := ⟨m - 2, by omega⟩
      simp only [Kind.recf, recfRational]
      rw [show pre.length + (m + 2) - 1 = pre.length + (m + 1) by omega, get_upTo _ pre rest _ (m + 1) x (by omega),
        show pre.length + (m + 2) - 2 = pre.length + m by omega, get_upTo _ pre rest _ m x (by omega)]
      simp only [Option.bind_eq_bind, Option.bind_some]
      simp only [Kind.basis]
      rw [← legendre_step, mul_div_assoc _ (x - 1) (x + 1)]) (deg - 2) 2 (rest.drop 2) le_rfl (by simp; omega)
    rw [show deg + 1 - 3 = deg - 2 by omega, this, List.drop_drop]
    rw [show 2 + (deg - 2) = deg by omega]
  | chebyshev =>
    unfold single
    simp only [Kind.init, initChebyshev]
    have h2 := put2 pre rest x (fun a => 2 * x * a - 1) (by omega)
    rw [put_ok pre rest x (by omega)] at h2 ⊢
    simp only [Option.bind_eq_bind, Option.bind_some] at h2 ⊢
    have h1 : (pre ++ [x] ++ rest.drop 1)[pre.length]? = some x := by simp
    rw [h1] at h2 ⊢
    simp only [Option.bind_some] at h2 ⊢
    rw [h2]
    simp only [Option.bind_some]
    have e : pre ++ [x, 2 * x * x - 1] = pre ++ upTo .chebyshev 2 x := by
      simp [upTo, Kind.basis, List.range_succ, Polynomial.Chebyshev.T_two]
      ring
    rw [e]
    have := recLoop .chebyshev x (some pre.length) pre 2 (by
      intro m rest hm
      obtain ⟨m, rfl⟩ : ∃ j, m = j + 2 := ⟨m - 2, by omega⟩
      simp only [Kind.recf, recfChebyshev]
      rw [show pre.length + (m + 2) - 1 = pre.length + (m + 1) by omega, get_upTo _ pre rest _ (m + 1) x (by omega),
        show pre.length + (m + 2) - 2 = pre.length + m by omega, get_upTo _ pre rest _ m x (by omega)]
      simp only [Option.bind_eq_bind, Option.bind_some]
      simp only [Kind.basis]
      have h := Polynomial.Chebyshev.T_add_two F ((m + 1 : Nat) : Int)
      have e1 : (((m + 1 : Nat) : Int) + 2) = ((m + 2 + 1 : Nat) : Int) := by push_cast; ring
      have e2 : (((m + 1 : Nat) : Int) + 1) = ((m + 1 + 1 : Nat) : Int) := by push_cast; ring
      rw [e1, e2] at h
      rw [h]
      simp) (deg - 2) 2 (rest.drop 2) le_rfl (by simp; omega)
    rw [show deg + 1 - 3 = deg - 2 by omega, this, List.drop_drop]
    rw [show 2 + (deg - 2) = deg by omega]

end Mdp.RecExp
