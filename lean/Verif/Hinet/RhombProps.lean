import Verif.Hinet.GeometryProps

/-!
# DoubleRhomb2dSwitchboard (C68)

The input channels are the points of a rhombic lattice: long row `y` has `long.x` points, short row `y` lies
between the long rows `y` and `y + 1` and has `long.x - 1` points. In the statements a point has coordinates
`(X, Y)`: point `x` of long row `y` is `(2x, 2y)` and point `x` of short row `y` is `(2x+1, 2y+1)`, so that the
points are the pairs of the same parity with `0 ≤ X ≤ 2 long.x - 2` and `0 ≤ Y ≤ 2 long.y - 2`.
`latIdx` is the index of a component of a point in the input: all long rows first, then the short rows.
A field of edge length `D`, rotated by 45 degrees, is the set of points at taxicab distance less than `D` from its
center.
-/

namespace Mdp.Switchboard

open Py

/-- The input index of component `k` of the lattice point `(X, Y)`. -/
def latIdx (long : XY) (d : Nat) (X Y : Int) (k : Nat) : Int :=
  if Y % 2 = 0 then (Y / 2 * long.x + X / 2) * d + k
  else (long.x * long.y + (Y / 2 * (long.x - 1) + X / 2)) * d + k

/-- A point of the lattice. -/
def IsPoint (long : XY) (X Y : Int) : Prop :=
  X % 2 = Y % 2 ∧ 0 ≤ X ∧ X ≤ 2 * long.x - 2 ∧ 0 ≤ Y ∧ Y ≤ 2 * long.y - 2

/-- Is the first row of the first field a short row? (549-552) -/
def startShort (long : XY) : Int := if long.x < long.y then 1 else 0

/-- The center of field `(xo, yo)`. -/
def centerX (long : XY) (D : Nat) (xo : Nat) : Int := (1 + xo) * D - startShort long
def centerY (long : XY) (D : Nat) (yo : Nat) : Int := (1 + yo) * D - 1 + startShort long

/-- The point `(X, Y)` is in the field `(xo, yo)`. -/
def InField (long : XY) (D : Nat) (xo yo : Nat) (X Y : Int) : Prop :=
  X % 2 = Y % 2 ∧ |X - centerX long D xo| + |Y - centerY long D yo| < D

theorem startShort_cases (long : XY) : startShort long = 0 ∨ startShort long = 1 := by
  unfold startShort; split <;> simp

/-- Width of row `iy` of a field. -/
def rowWidth (D iy : Nat) : Nat := if iy ≤ D - 1 then iy + 1 else D - 1 - iy % D

theorem rowWidth_eq {D iy : Nat} (hD : 0 < D) (h : iy < 2 * D - 1) :
    (rowWidth D iy : Int) = D - |(iy : Int) - (D - 1)| := by
  unfold rowWidth
  split
  · rw [abs_of_nonpos (by omega)]; push_cast; omega
  · have : iy % D = iy - D := by
      rw [Nat.mod_eq_sub_mod (by omega), Nat.mod_eq_of_lt (by omega)]
    rw [this, abs_of_nonneg (by omega)]
    omega

theorem latIdx_long (long : XY) (d : Nat) (x y : Int) (k : Nat) :
    latIdx long d (2 * x) (2 * y) k = (y * long.x + x) * d + k := by
  unfold latIdx
  rw [if_pos (by omega)]
  rw [show 2 * y / 2 = y by omega, show 2 * x / 2 = x by omega]

theorem latIdx_short (long : XY) (d : Nat) (x y : Int) (k : Nat) :
    latIdx long d (2 * x + 1) (2 * y + 1) k = (long.x * long.y + (y * (long.x - 1) + x)) * d + k := by
  unfold latIdx
  rw [if_neg (by omega)]
  rw [show (2 * y + 1) / 2 = y by omega, show (2 * x + 1) / 2 = x by omega]

theorem IsPoint.cases {long : XY} {X Y : Int} (h : IsPoint long X Y) :
    (∃ x y : Int, X = 2 * x ∧ Y = 2 * y ∧ 0 ≤ x ∧ x < long.x ∧ 0 ≤ y ∧ y < long.y) ∨
    (∃ x y : Int, X = 2 * x + 1 ∧ Y = 2 * y + 1 ∧ 0 ≤ x ∧ x < long.x - 1 ∧ 0 ≤ y ∧ y < long.y - 1) := by
  obtain ⟨h1, h2, h3, h4, h5⟩ := h
  rcases Int.emod_two_eq_zero_or_one Y with h | h
  · exact .inl ⟨X / 2, Y / 2, by omega, by omega, by omega, by omega, by omega, by omega⟩
  · exact .inr ⟨X / 2, Y / 2, by omega, by omega, by omega, by omega, by omega, by omega⟩

/-- Number of channels. -/
theorem grid_lt {w h x y : Int} (hx : 0 ≤ x) (hxw : x < w) (hy : 0 ≤ y) (hyh : y < h) :
    0 ≤ y * w + x ∧ y * w + x < w * h := by
  have hw : 0 ≤ w := by omega
  have h1 := Int.mul_nonneg hy hw
  have h2 : (y + 1) * w ≤ h * w := Int.mul_le_mul_of_nonneg_right (by omega) hw
  have e : (y + 1) * w = y * w + w := by ring
  have e2 : w * h = h * w := by ring
  exact ⟨by omega, by omega⟩

theorem comp_lt {a m d : Int} {k : Int} (h : a < m) (hk : 0 ≤ k) (hkd : k < d) : a * d + k < m * d := by
  have : (a + 1) * d ≤ m * d := Int.mul_le_mul_of_nonneg_right (by omega) (by omega)
  have e : (a + 1) * d = a * d + d := by ring
  omega

/-- The index of every component of every point is a valid input index. -/
theorem latIdx_bounds {long : XY} {d : Nat} {X Y : Int} {k : Nat} (h : IsPoint long X Y) (hk : k < d) :
    0 ≤ latIdx long d X Y k ∧
      latIdx long d X Y k < (2 * long.x * long.y - long.x - long.y + 1) * d := by
  rcases h.cases with ⟨x, y, rfl, rfl, h1, h2, h3, h4⟩ | ⟨x, y, rfl, rfl, h1, h2, h3, h4⟩
  · rw [latIdx_long]
    obtain ⟨g1, g2⟩ := grid_lt h1 h2 h3 h4
    constructor
    · have := Int.mul_nonneg g1 (Int.natCast_nonneg d); omega
    · apply comp_lt _ (by omega) (by omega)
      have : (0 : Int) ≤ ((long.x : Int) - 1) * ((long.y : Int) - 1) := Int.mul_nonneg (by omega) (by omega)
      have e : ((long.x : Int) - 1) * ((long.y : Int) - 1) = long.x * long.y - long.x - long.y + 1 := by ring
      have e2 : (2 * long.x * long.y : Int) = long.x * long.y + long.x * long.y := by ring
      omega
  · rw [latIdx_short]
    obtain ⟨g1, g2⟩ := grid_lt h1 h2 h3 h4
    have gm : (0 : Int) ≤ long.x * long.y := Int.mul_nonneg (by omega) (by omega)
    constructor
    · have := Int.mul_nonneg (show 0 ≤ (long.x * long.y + (y * ((long.x : Int) - 1) + x)) by omega)
        (Int.natCast_nonneg d)
      omega
    · apply comp_lt _ (by omega) (by omega)
      have e : ((long.x : Int) - 1) * ((long.y : Int) - 1) = long.x * long.y - long.x - long.y + 1 := by ring
      have e2 : (2 * long.x * long.y : Int) = long.x * long.y + long.x * long.y := by ring
      omega

theorem comp_inj {a b d k k' : Int} (h : a * d + k = b * d + k') (hk : 0 ≤ k) (hkd : k < d) (hk' : 0 ≤ k')
    (hkd' : k' < d) : a = b ∧ k = k' := by
  have h1 := congrArg (· / d) h
  have h2 := congrArg (· % d) h
  simp only [Int.mul_add_emod_self_right, Int.emod_eq_of_lt hk hkd, Int.emod_eq_of_lt hk' hkd'] at h2
  refine ⟨?_, h2⟩
  rw [h2] at h
  have h3 : a * d = b * d := by omega
  exact Int.eq_of_mul_eq_mul_right (by omega) h3

/-- Different components of points have different indices. -/
theorem latIdx_inj {long : XY} {d : Nat} {X Y X' Y' : Int} {k k' : Nat} (h : IsPoint long X Y)
    (h' : IsPoint long X' Y') (hk : k < d) (hk' : k' < d) (e : latIdx long d X Y k = latIdx long d X' Y' k') :
    X = X' ∧ Y = Y' ∧ k = k' := by
  rcases h.cases with ⟨x, y, rfl, rfl, h1, h2, h3, h4⟩ | ⟨x, y, rfl, rfl, h1, h2, h3, h4⟩ <;>
    rcases h'.cases with ⟨x', y', rfl, rfl, h1', h2', h3', h4'⟩ | ⟨x', y', rfl, rfl, h1', h2', h3', h4'⟩
  · rw [latIdx_long, latIdx_long] at e
    obtain ⟨e1, e2⟩ := comp_inj e (by omega) (by omega) (by omega) (by omega)
    obtain ⟨e3, e4⟩ := comp_inj e1 h1 h2 h1' h2'
    exact ⟨by omega, by omega, by omega⟩
  · exfalso
    rw [latIdx_long, latIdx_short] at e
    obtain ⟨e1, e2⟩ := comp_inj e (by omega) (by omega) (by omega) (by omega)
    have := grid_lt h1 h2 h3 h4
    have := grid_lt h1' h2' h3' h4'
    omega
  · exfalso
    rw [latIdx_long, latIdx_short] at e
    obtain ⟨e1, e2⟩ := comp_inj e (by omega) (by omega) (by omega) (by omega)
    have := grid_lt h1 h2 h3 h4
    have := grid_lt h1' h2' h3' h4'
    omega
  · rw [latIdx_short, latIdx_short] at e
    obtain ⟨e1, e2⟩ := comp_inj e (by omega) (by omega) (by omega) (by omega)
    obtain ⟨e3, e4⟩ := comp_inj (show y * ((long.x : Int) - 1) + x = y' * ((long.x : Int) - 1) + x' by omega)
      h1 h2 h1' h2'
    exact ⟨by omega, by omega, by omega⟩

/-! ### the connections -/

/-- Row `iy` of a field around `(Xc, Yc)`. -/
def rowList (long : XY) (d D : Nat) (Xc Yc : Int) (iy : Nat) : List Int :=
  (List.range (rowWidth D iy)).flatMap fun (j : Nat) => (List.range d).map fun k =>
    latIdx long d (Xc - (rowWidth D iy - 1) + 2 * (j : Int)) (Yc - (D - 1) + iy) k

/-- The field around `(Xc, Yc)`. -/
def fieldList (long : XY) (d D : Nat) (Xc Yc : Int) : List Int :=
  (List.range (2 * D - 1)).flatMap (rowList long d D Xc Yc)

theorem width_pos {D iy : Nat} (hD : 0 < D) (h : iy < 2 * D - 1) : 1 ≤ rowWidth D iy ∧ rowWidth D iy ≤ D := by
  have := rowWidth_eq hD h
  have h1 := abs_le.2 (⟨by omega, by omega⟩ : -((D : Int) - 1) ≤ (iy : Int) - (D - 1) ∧ (iy : Int) - (D - 1) ≤ D - 1)
  have h2 := abs_nonneg ((iy : Int) - (D - 1))
  omega

theorem rhombRow_ok {long : XY} {d D : Nat} {xs y : Int} {iy : Nat} (hD : 0 < D) (hDe : D % 2 = 0)
    (hi : iy < 2 * D - 1)
    (hpar : (y + startShort long) % 2 = (iy : Int) % 2)
    (hx0 : 0 ≤ 2 * xs + startShort long - (D - 1)) (hx1 : 2 * xs + startShort long + (D - 1) ≤ 2 * long.x - 2)
    (hy0 : 0 ≤ y) (hy1 : y ≤ 2 * long.y - 2) :
    rhombRow ⟨long.x, long.y⟩ ⟨long.x - 1, long.y - 1⟩ (long.x * long.y) d D (startShort long) xs iy y =
      .ok (rowList long d D (2 * xs + startShort long) (y - iy + (D - 1)) iy) := by
  have hw := rowWidth_eq hD hi
  obtain ⟨hwp, hwd⟩ := width_pos hD hi
  have hwpar : ((rowWidth D iy : Nat) : Int) % 2 = ((iy : Int) + 1) % 2 := by
    unfold rowWidth
    split
    · omega
    · have : iy % D = iy - D := by
        rw [Nat.mod_eq_sub_mod (by omega), Nat.mod_eq_of_lt (by omega)]
      omega
  unfold rhombRow
  have hwe : (if iy ≤ D - 1 then iy + 1 else D - 1 - iy % D) = rowWidth D iy := rfl
  simp only [hwe]
  generalize hW : rowWidth D iy = w at *
  rw [show w / 2 + (w / 2 + w % 2) = w by omega]
  unfold rowList
  rw [hW]
  refine forRange_ok fun j hj => ?_
  have hs := startShort_cases long
  generalize startShort long = sh at *
  rw [show y - (iy : Int) + ((D : Int) - 1) - ((D : Int) - 1) + (iy : Int) = y by omega]
  rw [Int.fmod_eq_emod_of_nonneg _ (by omega), Int.fdiv_eq_ediv_of_nonneg _ (by omega)]
  by_cases hye : y % 2 = 0
  · rw [if_pos hye]
    have hX : 2 * xs + sh - ((w : Int) - 1) + 2 * (j : Int) = 2 * (xs - ((w / 2 : Nat) : Int) + j + sh) := by
      rcases hs with rfl | rfl <;> omega
    unfold Trans.imageToIndex
    simp only
    rw [if_neg (by rw [not_not]; constructor <;> omega), if_neg (by rw [not_not]; constructor <;> omega)]
    simp only [Except.ok.injEq]
    apply List.map_congr_left
    intro k _
    have hyy : y = 2 * (y / 2) := by omega
    rw [hX]
    conv_rhs => rw [hyy]
    rw [latIdx_long]
  · rw [if_neg hye]
    have hX : 2 * xs + sh - ((w : Int) - 1) + 2 * (j : Int) = 2 * (xs - ((w / 2 : Nat) : Int) + j) + 1 := by
      rcases hs with rfl | rfl <;> omega
    unfold Trans.imageToIndex
    simp only
    rw [if_neg (by rw [not_not]; constructor <;> omega), if_neg (by rw [not_not]; constructor <;> omega)]
    simp only [Except.ok.injEq]
    apply List.map_congr_left
    intro k _
    have hyy : y = 2 * (y / 2) + 1 := by omega
    rw [hX]
    conv_rhs => rw [hyy]
    rw [latIdx_short]
    ring

theorem mem_fieldList {long : XY} {d D : Nat} {Xc Yc : Int} {v : Int} (hD : 0 < D) (hDe : D % 2 = 0)
    (hc : (Xc + Yc) % 2 = 1) :
    v ∈ fieldList long d D Xc Yc ↔ ∃ X Y : Int, X % 2 = Y % 2 ∧ |X - Xc| + |Y - Yc| < D ∧
      ∃ k < d, v = latIdx long d X Y k := by
  unfold fieldList rowList
  simp only [List.mem_flatMap, List.mem_range, List.mem_map]
  have hpar : ∀ iy : Nat, iy < 2 * D - 1 → ((rowWidth D iy : Nat) : Int) % 2 = ((iy : Int) + 1) % 2 := by
    intro iy hi
    have h := rowWidth_eq hD hi
    rcases abs_choice ((iy : Int) - (D - 1)) with h' | h' <;> rw [h'] at h <;> omega
  constructor
  · rintro ⟨iy, hiy, j, hj, k, hk, rfl⟩
    have hw := rowWidth_eq hD hiy
    have hp := hpar iy hiy
    refine ⟨_, _, ?_, ?_, k, hk, rfl⟩
    · omega
    · rw [show Yc - ((D : Int) - 1) + iy - Yc = (iy : Int) - (D - 1) by ring]
      have : |Xc - ((rowWidth D iy : Nat) - 1) + 2 * (j : Int) - Xc| ≤ (rowWidth D iy : Nat) - 1 := by
        rw [abs_le]; constructor <;> omega
      omega
  · rintro ⟨X, Y, hXY, hlt, k, hk, rfl⟩
    have hy1 := (abs_le.1 (show |Y - Yc| ≤ (D : Int) - 1 by have := abs_nonneg (X - Xc); omega))
    have hiy : (Y - Yc + (D - 1)).toNat < 2 * D - 1 := by omega
    have hiy' : ((Y - Yc + (D - 1)).toNat : Int) = Y - Yc + (D - 1) := by omega
    have hw := rowWidth_eq hD hiy
    have hp := hpar _ hiy
    rw [hiy'] at hw hp
    rw [show Y - Yc + ((D : Int) - 1) - (D - 1) = Y - Yc by ring] at hw
    have hx1 := (abs_le.1 (show |X - Xc| ≤ ((rowWidth D (Y - Yc + (D - 1)).toNat : Nat) : Int) - 1 by omega))
    refine ⟨_, hiy, ((X - Xc + ((rowWidth D (Y - Yc + (D - 1)).toNat : Nat) - 1)) / 2).toNat, ?_, k, hk, ?_⟩
    · omega
    · congr 1
      · omega
      · omega

theorem fieldList_nodup {long : XY} {d D : Nat} {Xc Yc : Int} (hD : 0 < D) (hDe : D % 2 = 0)
    (hc : (Xc + Yc) % 2 = 1) (hx0 : 0 ≤ Xc - (D - 1)) (hx1 : Xc + (D - 1) ≤ 2 * long.x - 2)
    (hy0 : 0 ≤ Yc - (D - 1)) (hy1 : Yc + (D - 1) ≤ 2 * long.y - 2) : (fieldList long d D Xc Yc).Nodup := by
  have pt : ∀ iy j : Nat, iy < 2 * D - 1 → j < rowWidth D iy →
      IsPoint long (Xc - (rowWidth D iy - 1) + 2 * (j : Int)) (Yc - (D - 1) + iy) := by
    intro iy j hi hj
    have h := rowWidth_eq hD hi
    obtain ⟨_, hwd⟩ := width_pos hD hi
    have hp : ((rowWidth D iy : Nat) : Int) % 2 = ((iy : Int) + 1) % 2 := by
      rcases abs_choice ((iy : Int) - (D - 1)) with h' | h' <;> rw [h'] at h <;> omega
    exact ⟨by omega, by omega, by omega, by omega, by omega⟩
  unfold fieldList
  refine nodup_flatMap_range (fun iy hiy => ?_) ?_
  · unfold rowList
    refine nodup_flatMap_range (fun j hj => ?_) ?_
    · refine List.Nodup.map_on ?_ List.nodup_range
      intro k hk k' hk' h
      simp only [List.mem_range] at hk hk'
      exact (latIdx_inj (pt iy j hiy hj) (pt iy j hiy hj) hk hk' h).2.2
    · intro i j v hi hj h1 h2
      simp only [List.mem_map, List.mem_range] at h1 h2
      obtain ⟨k, hk, rfl⟩ := h1
      obtain ⟨k', hk', h⟩ := h2
      have := (latIdx_inj (pt iy j hiy hj) (pt iy i hiy hi) hk' hk h).1
      omega
  · intro i j v hi hj h1 h2
    unfold rowList at h1 h2
    simp only [List.mem_map, List.mem_range, List.mem_flatMap] at h1 h2
    obtain ⟨a, ha, k, hk, rfl⟩ := h1
    obtain ⟨b, hb, k', hk', h⟩ := h2
    have := (latIdx_inj (pt j b hj hb) (pt i a hi ha) hk' hk h).2.1
    omega

theorem width_sum {D : Nat} (hD : 0 < D) :
    ∀ m : Nat, m ≤ 2 * D - 1 →
      (m ≤ D → 2 * ((List.range m).map (rowWidth D)).sum = m * (m + 1)) ∧
      (D ≤ m → 2 * ((List.range m).map (rowWidth D)).sum + (2 * D - 1 - m) * (2 * D - m) = 2 * (D * D)) := by
  intro m
  induction m with
  | zero => intro _; exact ⟨fun _ => by simp, fun h => by omega⟩
  | succ m ih =>
    intro hm
    obtain ⟨i1, i2⟩ := ih (by omega)
    have hs : ((List.range (m + 1)).map (rowWidth D)).sum = ((List.range m).map (rowWidth D)).sum + rowWidth D m := by
      rw [List.range_succ, List.map_append, List.sum_append]
      simp
    have first : m + 1 ≤ D → 2 * ((List.range (m + 1)).map (rowWidth D)).sum = (m + 1) * (m + 1 + 1) := by
      intro h
      rw [hs, Nat.mul_add, i1 (by omega)]
      unfold rowWidth
      rw [if_pos (by omega)]
      ring
    refine ⟨first, ?_⟩
    intro h
    by_cases hmD : m + 1 = D
    · rw [first (by omega)]
      subst hmD
      rw [show 2 * (m + 1) - 1 - (m + 1) = m by omega, show 2 * (m + 1) - (m + 1) = m + 1 by omega]
      ring
    · have hi := i2 (by omega)
      have hw : rowWidth D m = 2 * D - 1 - m := by
        unfold rowWidth
        rw [if_neg (by omega)]
        have : m % D = m - D := by
          rw [Nat.mod_eq_sub_mod (by omega), Nat.mod_eq_of_lt (by omega)]
        omega
      rw [hs, Nat.mul_add, hw]
      obtain ⟨r, hr⟩ : ∃ r, 2 * D - 1 - m = r + 1 := ⟨2 * D - 1 - m - 1, by omega⟩
      rw [hr, show 2 * D - m = r + 2 by omega] at hi
      rw [hr, show 2 * D - 1 - (m + 1) = r by omega, show 2 * D - (m + 1) = r + 1 by omega]
      have e : (r + 1) * (r + 2) = 2 * (r + 1) + r * (r + 1) := by ring
      omega

theorem fieldList_length {long : XY} {d D : Nat} {Xc Yc : Int} (hD : 0 < D) :
    (fieldList long d D Xc Yc).length = d * D ^ 2 := by
  unfold fieldList
  rw [List.length_flatMap]
  have e : (fun a => (rowList long d D Xc Yc a).length) = fun a => rowWidth D a * d := by
    funext a
    unfold rowList
    exact length_flatMap_range fun _ _ => by simp
  rw [e]
  have h := (width_sum hD (2 * D - 1) (by omega)).2 (by omega)
  rw [show 2 * D - 1 - (2 * D - 1) = 0 by omega, Nat.zero_mul, Nat.add_zero] at h
  have h2 : ((List.range (2 * D - 1)).map (rowWidth D)).sum = D * D := by omega
  have h3 : ∀ l : List Nat, (l.map fun a => rowWidth D a * d).sum = (l.map (rowWidth D)).sum * d := by
    intro l
    induction l with
    | nil => simp
    | cons a r ih => simp only [List.map_cons, List.sum_cons, ih]; ring
  rw [h3, h2]
  ring

/-! ### the properties -/

/-- The geometries that are accepted: the edge length is even, and the number of rows and columns of field
positions is whole. -/
def RhombGood (long : XY) (D d : Nat) : Prop :=
  0 < d ∧ 0 < D ∧ D % 2 = 0 ∧
  (D : Int) ≤ long.x - (1 - startShort long) ∧ ((long.x : Int) - (1 - startShort long) - D) % (D / 2 : Nat) = 0 ∧
  (D : Int) ≤ long.y - startShort long ∧ ((long.y : Int) - startShort long - D) % (D / 2 : Nat) = 0

theorem rhomb_cases (long : XY) (D d : Nat) :
    (¬ RhombGood long D d ∧ ∃ e, DoubleRhomb2d.new long D d = .error e) ∨
    (RhombGood long D d ∧ ∃ s nx ny, DoubleRhomb2d.new long D d = .ok s ∧
      (s.inputDim : Int) = (2 * long.x * long.y - long.x - long.y + 1) * d ∧
      s.outChannelDim = d * D ^ 2 ∧ s.inChannelDim = d ∧ s.outputChannels = ny * nx ∧
      (∀ xo : Nat, xo < nx ↔ centerX long D xo + (D - 1) ≤ 2 * long.x - 2) ∧
      (∀ yo : Nat, yo < ny ↔ centerY long D yo + (D - 1) ≤ 2 * long.y - 2) ∧
      s.connections = (List.range ny).flatMap fun yo => (List.range nx).flatMap fun xo =>
        fieldList long d D (centerX long D xo) (centerY long D yo)) := by
  have hs := startShort_cases long
  have hss : (if long.x < long.y then (1 : Int) else 0) = startShort long := rfl
  unfold DoubleRhomb2d.new
  simp only [hss]
  by_cases h1 : D % 2 ≠ 0
  · rw [if_pos h1]; exact .inl ⟨by rintro ⟨_, _, h, -⟩; exact h1 h, _, rfl⟩
  rw [if_neg h1]
  rw [not_not] at h1
  by_cases h2 : D / 2 = 0
  · rw [if_pos h2]; exact .inl ⟨by rintro ⟨_, h, -⟩; omega, _, rfl⟩
  rw [if_neg h2]
  rw [Int.fmod_eq_emod_of_nonneg _ (by omega), Int.fmod_eq_emod_of_nonneg _ (by omega)]
  by_cases h3 : ((long.x : Int) - (1 - startShort long) - D) % (D / 2 : Nat) ≠ 0 ∨
      (long.x : Int) - (1 - startShort long) - D < 0
  · rw [if_pos h3]
    refine .inl ⟨?_, _, rfl⟩
    rintro ⟨_, _, _, a, b, _, _⟩
    rcases h3 with h | h
    · exact h b
    · omega
  rw [if_neg h3]
  by_cases h4 : ((long.y : Int) - startShort long - D) % (D / 2 : Nat) ≠ 0 ∨
      (long.y : Int) - startShort long - D < 0
  · rw [if_pos h4]
    refine .inl ⟨?_, _, rfl⟩
    rintro ⟨_, _, _, _, _, a, b⟩
    rcases h4 with h | h
    · exact h b
    · omega
  rw [if_neg h4]
  push Not at h3 h4
  have hD : 0 < D := by omega
  have hDi : (0 : Int) < D := by omega
  rw [Int.fdiv_eq_ediv_of_nonneg _ (by omega), Int.fdiv_eq_ediv_of_nonneg _ (by omega)]
  generalize hxr : (long.x : Int) - (1 - startShort long) - D = xr at h3
  generalize hyr : (long.y : Int) - startShort long - D = yr at h4
  have key : ∀ (r : Int) (o : Nat), 0 ≤ r → (o < (2 * r / D + 1).toNat ↔ (1 + o) * D ≤ 2 * r + (D : Int)) := by
    intro r o hr
    have hnn : 0 ≤ 2 * r / (D : Int) := Int.ediv_nonneg (by omega) (by omega)
    have e : (1 + (o : Int)) * D = o * D + D := by ring
    rw [e]
    constructor
    · intro h
      have : (o : Int) ≤ 2 * r / D := by omega
      rw [Int.le_ediv_iff_mul_le hDi] at this
      omega
    · intro h
      have : (o : Int) ≤ 2 * r / D := by
        rw [Int.le_ediv_iff_mul_le hDi]; omega
      omega
  have evD : ∀ n : Int, (n * D) % 2 = 0 := by
    intro n
    rw [Int.mul_emod, show (D : Int) % 2 = 0 by omega]
    simp
  have kx : ∀ xo : Nat, xo < (2 * xr / D + 1).toNat ↔ centerX long D xo + (D - 1) ≤ 2 * long.x - 2 := by
    intro xo
    rw [key xr xo h3.2]
    unfold centerX
    have := evD (1 + xo)
    generalize (1 + (xo : Int)) * D = P at this ⊢
    omega
  have ky : ∀ yo : Nat, yo < (2 * yr / D + 1).toNat ↔ centerY long D yo + (D - 1) ≤ 2 * long.y - 2 := by
    intro yo
    rw [key yr yo h4.2]
    unfold centerY
    have := evD (1 + yo)
    generalize (1 + (yo : Int)) * D = P at this ⊢
    omega
  have cx0 : ∀ xo : Nat, 0 ≤ centerX long D xo - (D - 1) := by
    intro xo
    unfold centerX
    have e : (1 + (xo : Int)) * D = xo * D + D := by ring
    have := Int.mul_nonneg (Int.natCast_nonneg xo) hDi.le
    rcases hs with h | h <;> rw [h] <;> omega
  have cy0 : ∀ yo : Nat, 0 ≤ centerY long D yo - (D - 1) := by
    intro yo
    unfold centerY
    have e : (1 + (yo : Int)) * D = yo * D + D := by ring
    have := Int.mul_nonneg (Int.natCast_nonneg yo) hDi.le
    rcases hs with h | h <;> rw [h] <;> omega
  have cpar : ∀ xo yo : Nat, (centerX long D xo + centerY long D yo) % 2 = 1 := by
    intro xo yo
    unfold centerX centerY
    have e1 := evD (1 + xo)
    have e2 := evD (1 + yo)
    omega
  have eRun : forRange (fun yo => forRange (fun xo =>
      forRange (fun iy => rhombRow ⟨long.x, long.y⟩ ⟨(long.x : Int) - 1, (long.y : Int) - 1⟩
        (long.x * long.y) d D (startShort long) (Int.fdiv ((1 + xo) * D) 2 - startShort long) iy.toNat
        (yo * D + startShort long + iy)) 0 (2 * D - 1)) 0 (2 * xr / D + 1).toNat) 0 (2 * yr / D + 1).toNat =
      .ok ((List.range (2 * yr / D + 1).toNat).flatMap fun yo => (List.range (2 * xr / D + 1).toNat).flatMap fun xo =>
        fieldList long d D (centerX long D xo) (centerY long D yo)) := by
    refine forRange_ok fun yo hyo => ?_
    refine forRange_ok fun xo hxo => ?_
    unfold fieldList
    refine forRange_ok fun iy hiy => ?_
    simp only [Int.zero_add, Int.toNat_natCast]
    rw [Int.fdiv_eq_ediv_of_nonneg _ (by omega)]
    have hex : 2 * (((1 + (xo : Int)) * D) / 2 - startShort long) + startShort long = centerX long D xo := by
      unfold centerX
      have := evD (1 + xo)
      omega
    have hey : (yo : Int) * D + startShort long + iy - iy + (D - 1) = centerY long D yo := by
      unfold centerY
      have e : (1 + (yo : Int)) * D = yo * D + D := by ring
      omega
    have bx := (kx xo).1 hxo
    have by' := (ky yo).1 hyo
    have c0 := cx0 xo
    have c1 := cy0 yo
    have ev := evD yo
    rw [rhombRow_ok hD h1 hiy]
    · rw [hex, hey]
    · omega
    · rw [hex]; exact c0
    · rw [hex]; exact bx
    · rw [← hey] at c1; omega
    · rw [← hey] at by'; omega
  simp only [eRun]
  have hLx : (1 : Int) ≤ long.x := by rcases hs with h | h <;> rw [h] at hxr <;> omega
  have hLy : (1 : Int) ≤ long.y := by rcases hs with h | h <;> rw [h] at hyr <;> omega
  have hin : (0 : Int) ≤ 2 * long.x * long.y - long.x - long.y + 1 := by
    have g1 : (0 : Int) ≤ ((long.x : Int) - 1) * ((long.y : Int) - 1) := Int.mul_nonneg (by omega) (by omega)
    have g2 : (0 : Int) ≤ (long.x : Int) * (long.y : Int) := Int.mul_nonneg (by omega) (by omega)
    have e : ((long.x : Int) - 1) * ((long.y : Int) - 1) = long.x * long.y - long.x - long.y + 1 := by ring
    have e2 : (2 * long.x * long.y : Int) = long.x * long.y + long.x * long.y := by ring
    omega
  have hlen : ((List.range (2 * yr / D + 1).toNat).flatMap fun yo => (List.range (2 * xr / D + 1).toNat).flatMap fun xo =>
        fieldList long d D (centerX long D xo) (centerY long D yo)).length =
      (2 * yr / D + 1).toNat * (2 * xr / D + 1).toNat * (d * D ^ 2) := by
    rw [Nat.mul_assoc]
    refine length_flatMap_range fun _ _ => ?_
    refine length_flatMap_range fun _ _ => ?_
    exact fieldList_length hD
  by_cases hd : 0 < d
  · right
    refine ⟨⟨hd, hD, h1, by omega, by rw [hxr]; exact h3.1, by omega, by rw [hyr]; exact h4.1⟩, ?_⟩
    have hdim : (((2 * (long.x : Int) * long.y - long.x - long.y + 1) * d).toNat : Int) =
        (2 * long.x * long.y - long.x - long.y + 1) * d := by
      have := Int.mul_nonneg hin (Int.natCast_nonneg d)
      omega
    obtain ⟨s, q1, q2, q3, q4, q5, q6, q7⟩ := channel_ok
      (n := ((2 * (long.x : Int) * long.y - long.x - long.y + 1) * d).toNat) (od := d * D ^ 2) (idim := d)
      (m := (2 * yr / D + 1).toNat * (2 * xr / D + 1).toNat)
      (q := (2 * (long.x : Int) * long.y - long.x - long.y + 1).toNat) hlen
      (by
        have p1 := Int.ediv_nonneg (show 0 ≤ 2 * yr by omega) hDi.le
        have p2 := Int.ediv_nonneg (show 0 ≤ 2 * xr by omega) hDi.le
        exact Nat.mul_pos (by omega) (by omega))
      (Nat.mul_pos hd (Nat.pow_pos hD))
      (by
        have : (((2 * (long.x : Int) * long.y - long.x - long.y + 1) * d).toNat : Int) =
          ((d * (2 * (long.x : Int) * long.y - long.x - long.y + 1).toNat : Nat) : Int) := by
          rw [hdim]; push_cast; rw [Int.toNat_of_nonneg hin]; ring
        exact_mod_cast this)
      hd
      (by
        intro v hv
        simp only [List.mem_flatMap, List.mem_range] at hv
        obtain ⟨yo, hyo, xo, hxo, hv⟩ := hv
        rw [mem_fieldList hD h1 (cpar xo yo)] at hv
        obtain ⟨X, Y, hp, hlt, k, hk, rfl⟩ := hv
        rw [hdim]
        have bx := (kx xo).1 hxo
        have by' := (ky yo).1 hyo
        have c0 := cx0 xo
        have c1 := cy0 yo
        have nx := abs_nonneg (X - centerX long D xo)
        have ny := abs_nonneg (Y - centerY long D yo)
        have ax := abs_le.1 (show |X - centerX long D xo| ≤ (D : Int) - 1 by omega)
        have ay := abs_le.1 (show |Y - centerY long D yo| ≤ (D : Int) - 1 by omega)
        exact (latIdx_bounds ⟨hp, by omega, by omega, by omega, by omega⟩ hk).2)
    exact ⟨s, _, _, q1, by rw [q2, hdim], q4, q5, q6, kx, ky, q3⟩
  · left
    refine ⟨by rintro ⟨h, -⟩; exact hd h, ?_⟩
    refine ⟨_, channel_zero ?_⟩
    rw [← List.length_eq_zero_iff, hlen]
    obtain rfl : d = 0 := by omega
    simp

/-- **C68**: which geometries are accepted. -/
theorem rhomb_accepted (long : XY) (D d : Nat) :
    (∃ s, DoubleRhomb2d.new long D d = .ok s) ↔ RhombGood long D d := by
  rcases rhomb_cases long D d with ⟨h1, e, h2⟩ | ⟨h1, s, _, _, h2, -⟩
  · constructor
    · rintro ⟨s, hs⟩; rw [h2] at hs; cases hs
    · intro h; exact absurd h h1
  · exact ⟨fun _ => h1, fun _ => ⟨s, h2⟩⟩

theorem rhomb_center {long : XY} {D d : Nat} (h : RhombGood long D d) (xo yo : Nat) :
    (centerX long D xo + centerY long D yo) % 2 = 1 ∧
    0 ≤ centerX long D xo - (D - 1) ∧ 0 ≤ centerY long D yo - (D - 1) := by
  obtain ⟨hd, hD, hDe, -⟩ := h
  have hs := startShort_cases long
  have evD : ∀ n : Int, (n * D) % 2 = 0 := by
    intro n
    rw [Int.mul_emod, show (D : Int) % 2 = 0 by omega]
    simp
  unfold centerX centerY
  have e1 : (1 + (xo : Int)) * D = xo * D + D := by ring
  have e2 : (1 + (yo : Int)) * D = yo * D + D := by ring
  have g1 := evD xo
  have g2 := evD yo
  have n1 := Int.mul_nonneg (Int.natCast_nonneg xo) (Int.natCast_nonneg D)
  have n2 := Int.mul_nonneg (Int.natCast_nonneg yo) (Int.natCast_nonneg D)
  rcases hs with h | h <;> rw [h] <;> exact ⟨by omega, by omega, by omega⟩

/-- **C68**: the output channels form a grid of all field positions that fit into the lattice; output channel
`(xo, yo)`, number `yo * nx + xo`, consists of exactly the points of the lattice at distance less than `D` from its
center, each once. -/
theorem rhomb_fields {long : XY} {D d : Nat} {s : CSB} (h : DoubleRhomb2d.new long D d = .ok s) :
    ∃ nx ny,
      (∀ xo : Nat, xo < nx ↔ centerX long D xo + (D - 1) ≤ 2 * long.x - 2) ∧
      (∀ yo : Nat, yo < ny ↔ centerY long D yo + (D - 1) ≤ 2 * long.y - 2) ∧
      s.outputChannels = ny * nx ∧ s.outChannelDim = d * D ^ 2 ∧
      ∀ xo < nx, ∀ yo < ny,
        (s.outChannelInput (yo * nx + xo)).length = d * D ^ 2 ∧
        (s.outChannelInput (yo * nx + xo)).Nodup ∧
        ∀ v, v ∈ s.outChannelInput (yo * nx + xo) ↔
          ∃ X Y, IsPoint long X Y ∧ InField long D xo yo X Y ∧ ∃ k < d, v = latIdx long d X Y k := by
  rcases rhomb_cases long D d with ⟨h1, e, h2⟩ | ⟨h1, s', nx, ny, h2, b1, b2, b3, b4, kx, ky, b5⟩
  · rw [h2] at h; cases h
  rw [h2] at h
  cases h
  refine ⟨nx, ny, kx, ky, b4, b2, ?_⟩
  intro xo hxo yo hyo
  have hD : 0 < D := h1.2.1
  obtain ⟨c1, c2, c3⟩ := rhomb_center h1 xo yo
  have e : s.outChannelInput (yo * nx + xo) = fieldList long d D (centerX long D xo) (centerY long D yo) := by
    have hlen : (fieldList long d D (centerX long D xo) (centerY long D yo)).length = d * D ^ 2 :=
      fieldList_length hD
    unfold CSB.outChannelInput
    rw [b2, b5]
    apply List.ext_getElem?
    intro j
    by_cases hj : j < d * D ^ 2
    · rw [List.getElem?_take, if_pos hj, List.getElem?_drop]
      have hj' : xo * (d * D ^ 2) + j < nx * (d * D ^ 2) := by
        calc xo * (d * D ^ 2) + j < (xo + 1) * (d * D ^ 2) := by rw [Nat.add_mul]; omega
          _ ≤ _ := Nat.mul_le_mul_right _ hxo
      rw [show (yo * nx + xo) * (d * D ^ 2) + j = yo * (nx * (d * D ^ 2)) + (xo * (d * D ^ 2) + j) by ring]
      rw [getElem?_flatMap_range (m := nx * (d * D ^ 2)) _ hyo hj',
        getElem?_flatMap_range (m := d * D ^ 2) _ hxo hj]
      · intro _ _; exact fieldList_length hD
      · intro _ _; exact length_flatMap_range fun _ _ => fieldList_length hD
    · rw [List.getElem?_eq_none_iff.2 (by rw [List.length_take]; omega), List.getElem?_eq_none_iff.2 (by omega)]
  rw [e]
  refine ⟨fieldList_length hD, fieldList_nodup hD h1.2.2.1 c1 c2 ((kx xo).1 hxo) c3 ((ky yo).1 hyo), ?_⟩
  intro v
  rw [mem_fieldList hD h1.2.2.1 c1]
  have bx := (kx xo).1 hxo
  have by' := (ky yo).1 hyo
  constructor
  · rintro ⟨X, Y, hp, hlt, k, hk, rfl⟩
    have nx := abs_nonneg (X - centerX long D xo)
    have ny := abs_nonneg (Y - centerY long D yo)
    have ax := abs_le.1 (show |X - centerX long D xo| ≤ (D : Int) - 1 by omega)
    have ay := abs_le.1 (show |Y - centerY long D yo| ≤ (D : Int) - 1 by omega)
    exact ⟨X, Y, ⟨hp, by omega, by omega, by omega, by omega⟩, ⟨hp, hlt⟩, k, hk, rfl⟩
  · rintro ⟨X, Y, _, ⟨hp, hlt⟩, k, hk, rfl⟩
    exact ⟨X, Y, hp, hlt, k, hk, rfl⟩

/-- **C68**: the number of inputs is the number of components of all points, every connection is a valid input
index, and different components of points have different indices. -/
theorem rhomb_valid {long : XY} {D d : Nat} {s : CSB} (h : DoubleRhomb2d.new long D d = .ok s) :
    (s.inputDim : Int) = (long.x * long.y + (long.x - 1) * (long.y - 1)) * d ∧
    (∀ i ∈ s.connections, 0 ≤ i ∧ i < s.inputDim) ∧
    (∀ X Y k, IsPoint long X Y → k < d → 0 ≤ latIdx long d X Y k ∧ latIdx long d X Y k < s.inputDim) ∧
    (∀ X Y k X' Y' k', IsPoint long X Y → IsPoint long X' Y' → k < d → k' < d →
      latIdx long d X Y k = latIdx long d X' Y' k' → X = X' ∧ Y = Y' ∧ k = k') := by
  rcases rhomb_cases long D d with ⟨h1, e, h2⟩ | ⟨h1, s', nx, ny, h2, b1, b2, b3, b4, kx, ky, b5⟩
  · rw [h2] at h; cases h
  rw [h2] at h
  cases h
  refine ⟨by rw [b1]; ring, ?_, ?_, fun X Y k X' Y' k' a b c e f => latIdx_inj a b c e f⟩
  · intro v hv
    rw [b5] at hv
    simp only [List.mem_flatMap, List.mem_range] at hv
    obtain ⟨yo, hyo, xo, hxo, hv⟩ := hv
    obtain ⟨c1, c2, c3⟩ := rhomb_center h1 xo yo
    rw [mem_fieldList h1.2.1 h1.2.2.1 c1] at hv
    obtain ⟨X, Y, hp, hlt, k, hk, rfl⟩ := hv
    rw [b1]
    have bx := (kx xo).1 hxo
    have by' := (ky yo).1 hyo
    have nx := abs_nonneg (X - centerX long D xo)
    have ny := abs_nonneg (Y - centerY long D yo)
    have ax := abs_le.1 (show |X - centerX long D xo| ≤ (D : Int) - 1 by omega)
    have ay := abs_le.1 (show |Y - centerY long D yo| ≤ (D : Int) - 1 by omega)
    exact latIdx_bounds ⟨hp, by omega, by omega, by omega, by omega⟩ hk
  · intro X Y k hp hk
    rw [b1]
    exact latIdx_bounds hp hk

/-- **C68**: every inner point is in exactly two fields. A point is inner if it lies between the centers of two
neighbouring fields in both directions. -/
theorem rhomb_double_cover {long : XY} {D d : Nat} {s : CSB} (h : DoubleRhomb2d.new long D d = .ok s)
    {X Y : Int} (hp : X % 2 = Y % 2) {xo yo : Nat}
    (hx0 : centerX long D xo ≤ X) (hx1 : X < centerX long D (xo + 1))
    (hy0 : centerY long D yo ≤ Y) (hy1 : Y < centerY long D (yo + 1)) :
    ∃ f g : Nat × Nat, f ≠ g ∧ f.1 ∈ [xo, xo + 1] ∧ f.2 ∈ [yo, yo + 1] ∧ g.1 ∈ [xo, xo + 1] ∧ g.2 ∈ [yo, yo + 1] ∧
      ∀ q : Nat × Nat, InField long D q.1 q.2 X Y ↔ q = f ∨ q = g := by
  have h1 := (rhomb_accepted long D d).1 ⟨s, h⟩
  have hD : 0 < D := h1.2.1
  have hDe := h1.2.2.1
  obtain ⟨cp, -, -⟩ := rhomb_center h1 xo yo
  have sx : ∀ n : Nat, centerX long D n = centerX long D xo + ((n : Int) - xo) * D := by
    intro n; unfold centerX; ring
  have sy : ∀ n : Nat, centerY long D n = centerY long D yo + ((n : Int) - yo) * D := by
    intro n; unfold centerY; ring
  have hx1' := hx1
  have hy1' := hy1
  rw [sx] at hx1'
  rw [sy] at hy1'
  rw [show (((xo + 1 : Nat) : Int) - xo) * D = D by push_cast; ring] at hx1'
  rw [show (((yo + 1 : Nat) : Int) - yo) * D = D by push_cast; ring] at hy1'
  generalize hcx : centerX long D xo = Cx at *
  generalize hcy : centerY long D yo = Cy at *
  obtain ⟨a, rfl⟩ : ∃ a, X = Cx + a := ⟨X - Cx, by ring⟩
  obtain ⟨b, rfl⟩ : ∃ b, Y = Cy + b := ⟨Y - Cy, by ring⟩
  have ha0 : 0 ≤ a := by omega
  have hb0 : 0 ≤ b := by omega
  have haD : a < D := by omega
  have hbD : b < D := by omega
  have hodd : (a + b) % 2 = 1 := by omega
  -- distance to the center of field q
  have dist : ∀ q1 q2 : Nat, InField long D q1 q2 (Cx + a) (Cy + b) ↔
      |a - ((q1 : Int) - xo) * D| + |b - ((q2 : Int) - yo) * D| < D := by
    intro q1 q2
    unfold InField
    rw [sx q1, sy q2]
    rw [show Cx + a - (Cx + ((q1 : Int) - xo) * D) = a - ((q1 : Int) - xo) * D by ring,
      show Cy + b - (Cy + ((q2 : Int) - yo) * D) = b - ((q2 : Int) - yo) * D by ring]
    exact ⟨fun h => h.2, fun h => ⟨hp, h⟩⟩
  have far : ∀ (c : Int) (o q : Nat), 0 ≤ c → c < D → |c - ((q : Int) - o) * D| < D → q = o ∨ q = o + 1 := by
    intro c o q hc0 hcD hlt
    rw [abs_lt] at hlt
    by_contra hne
    rcases lt_or_ge q o with h | h
    · have : ((q : Int) - o) * D ≤ (-1) * D := Int.mul_le_mul_of_nonneg_right (by omega) (by omega)
      omega
    · have : 2 * (D : Int) ≤ ((q : Int) - o) * D := Int.mul_le_mul_of_nonneg_right (by omega) (by omega)
      omega
  have e0 : ∀ (c : Int) (o : Nat), 0 ≤ c → |c - ((o : Int) - o) * D| = c := by
    intro c o h
    rw [show c - ((o : Int) - o) * D = c by ring, abs_of_nonneg h]
  have e1 : ∀ (c : Int) (o : Nat), c < D → |c - (((o + 1 : Nat) : Int) - o) * D| = D - c := by
    intro c o h
    rw [show c - (((o + 1 : Nat) : Int) - o) * D = c - D by push_cast; ring, abs_of_neg (by omega)]
    omega
  have near : ∀ q1 q2 : Nat, InField long D q1 q2 (Cx + a) (Cy + b) →
      (q1 = xo ∨ q1 = xo + 1) ∧ (q2 = yo ∨ q2 = yo + 1) := by
    intro q1 q2 hq
    rw [dist] at hq
    have n1 := abs_nonneg (a - ((q1 : Int) - xo) * D)
    have n2 := abs_nonneg (b - ((q2 : Int) - yo) * D)
    exact ⟨far a xo q1 ha0 haD (by omega), far b yo q2 hb0 hbD (by omega)⟩
  have d00 := dist xo yo
  have d10 := dist (xo + 1) yo
  have d01 := dist xo (yo + 1)
  have d11 := dist (xo + 1) (yo + 1)
  rw [e0 a xo ha0, e0 b yo hb0] at d00
  rw [e1 a xo haD, e0 b yo hb0] at d10
  rw [e0 a xo ha0, e1 b yo hbD] at d01
  rw [e1 a xo haD, e1 b yo hbD] at d11
  -- one of each diagonal pair
  by_cases hA : a + b < D
  · by_cases hB : (D : Int) - a + b < D
    · refine ⟨(xo, yo), (xo + 1, yo), by simp, by simp, by simp, by simp, by simp, ?_⟩
      rintro ⟨q1, q2⟩
      simp only [Prod.mk.injEq]
      constructor
      · intro hq
        rcases near q1 q2 hq with ⟨rfl | rfl, rfl | rfl⟩
        · exact .inl ⟨rfl, rfl⟩
        · rw [d01] at hq; omega
        · exact .inr ⟨rfl, rfl⟩
        · rw [d11] at hq; omega
      · rintro (⟨rfl, rfl⟩ | ⟨rfl, rfl⟩)
        · exact d00.2 hA
        · exact d10.2 hB
    · refine ⟨(xo, yo), (xo, yo + 1), by simp, by simp, by simp, by simp, by simp, ?_⟩
      rintro ⟨q1, q2⟩
      simp only [Prod.mk.injEq]
      constructor
      · intro hq
        rcases near q1 q2 hq with ⟨rfl | rfl, rfl | rfl⟩
        · exact .inl ⟨rfl, rfl⟩
        · exact .inr ⟨rfl, rfl⟩
        · rw [d10] at hq; omega
        · rw [d11] at hq; omega
      · rintro (⟨rfl, rfl⟩ | ⟨rfl, rfl⟩)
        · exact d00.2 hA
        · exact d01.2 (by omega)
  · by_cases hB : (D : Int) - a + b < D
    · refine ⟨(xo + 1, yo + 1), (xo + 1, yo), by simp, by simp, by simp, by simp, by simp, ?_⟩
      rintro ⟨q1, q2⟩
      simp only [Prod.mk.injEq]
      constructor
      · intro hq
        rcases near q1 q2 hq with ⟨rfl | rfl, rfl | rfl⟩
        · rw [d00] at hq; omega
        · rw [d01] at hq; omega
        · exact .inr ⟨rfl, rfl⟩
        · exact .inl ⟨rfl, rfl⟩
      · rintro (⟨rfl, rfl⟩ | ⟨rfl, rfl⟩)
        · exact d11.2 (by omega)
        · exact d10.2 hB
    · refine ⟨(xo + 1, yo + 1), (xo, yo + 1), by simp, by simp, by simp, by simp, by simp, ?_⟩
      rintro ⟨q1, q2⟩
      simp only [Prod.mk.injEq]
      constructor
      · intro hq
        rcases near q1 q2 hq with ⟨rfl | rfl, rfl | rfl⟩
        · rw [d00] at hq; omega
        · exact .inr ⟨rfl, rfl⟩
        · rw [d10] at hq; omega
        · exact .inl ⟨rfl, rfl⟩
      · rintro (⟨rfl, rfl⟩ | ⟨rfl, rfl⟩)
        · exact d11.2 (by omega)
        · exact d01.2 (by omega)

example : ∃ s, DoubleRhomb2d.new ⟨4, 3⟩ 2 1 = .ok s :=
  (rhomb_accepted _ _ _).2 ⟨by simp, by simp, by simp, by simp [startShort], by simp [startShort],
    by simp [startShort], by simp [startShort]⟩
/-- An inner point of this lattice. -/
example : centerX ⟨4, 3⟩ 2 0 ≤ 3 ∧ 3 < centerX ⟨4, 3⟩ 2 (0 + 1) ∧ centerY ⟨4, 3⟩ 2 0 ≤ 1 ∧
    1 < centerY ⟨4, 3⟩ 2 (0 + 1) := by simp [centerX, centerY, startShort]

end Mdp.Switchboard
