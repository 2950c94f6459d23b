import Verif.Hinet.SwitchboardProps

/-! Lemmas for `Verif.Hinet.GeometryProps`. -/

namespace Mdp.Switchboard

open Py

theorem forRange_ok {f : Int → Except Err (List Int)} {g : Nat → List Int} {a : Int} {n : Nat}
    (h : ∀ k : Nat, k < n → f (a + k) = .ok (g k)) : forRange f a n = .ok ((List.range n).flatMap g) := by
  induction n generalizing a g with
  | zero => rfl
  | succ n ih =>
    have h0 := h 0 (by omega)
    simp only [Int.natCast_zero, Int.add_zero] at h0
    have hi := ih (a := a + 1) (g := fun k => g (k + 1)) fun k hk => by
      have := h (k + 1) (by omega)
      rw [show a + 1 + (k : Int) = a + ((k + 1 : Nat) : Int) by push_cast; ring]
      exact this
    unfold forRange
    simp only [h0, hi]
    rw [List.range_succ_eq_map, List.flatMap_cons, List.flatMap_map]

theorem length_flatMap_range {β : Type} {f : Nat → List β} {m n : Nat} (h : ∀ i, i < n → (f i).length = m) :
    ((List.range n).flatMap f).length = n * m := by
  induction n with
  | zero => simp
  | succ n ih =>
    rw [List.range_succ, List.flatMap_append, List.length_append, ih fun i hi => h i (by omega)]
    simp only [List.flatMap_cons, List.flatMap_nil, List.append_nil]
    rw [h n (by omega)]
    ring

theorem getElem?_flatMap_range {β : Type} {f : Nat → List β} {m n : Nat} (h : ∀ i, i < n → (f i).length = m)
    {i j : Nat} (hi : i < n) (hj : j < m) : ((List.range n).flatMap f)[i * m + j]? = (f i)[j]? := by
  induction n with
  | zero => omega
  | succ n ih =>
    have hl := length_flatMap_range (f := f) (m := m) (n := n) fun i hi => h i (by omega)
    rw [List.range_succ, List.flatMap_append]
    simp only [List.flatMap_cons, List.flatMap_nil, List.append_nil]
    by_cases hin : i < n
    · rw [List.getElem?_append_left]
      · exact ih (fun i hi => h i (by omega)) hin
      · rw [hl]
        calc i * m + j < i * m + m := by omega
          _ = (i + 1) * m := by ring
          _ ≤ n * m := Nat.mul_le_mul_right _ hin
    · obtain rfl : i = n := by omega
      rw [List.getElem?_append_right (by rw [hl]; omega), hl]
      congr 1
      omega

theorem nodup_flatMap_range {β : Type} {f : Nat → List β} {n : Nat} (h : ∀ i, i < n → (f i).Nodup)
    (hd : ∀ i j v, i < n → j < n → v ∈ f i → v ∈ f j → i = j) : ((List.range n).flatMap f).Nodup := by
  rw [List.nodup_flatMap]
  refine ⟨fun i hi => h i (List.mem_range.1 hi), ?_⟩
  refine (List.pairwise_lt_range (n := n)).imp_of_mem ?_
  intro a b ha hb hab
  intro v hva hvb
  have := hd a b v (List.mem_range.1 ha) (List.mem_range.1 hb) hva hvb
  omega

/-- The input index of component `k` of the channel in column `x` and row `y` of a grid of width `w`. -/
def inIdx (w d x y k : Nat) : Nat := (y * w + x) * d + k

theorem inIdx_inj {w d x y k x' y' k' : Nat} (h : inIdx w d x y k = inIdx w d x' y' k')
    (hx : x < w) (hk : k < d) (hx' : x' < w) (hk' : k' < d) : x = x' ∧ y = y' ∧ k = k' := by
  unfold inIdx at h
  have e : (y * w + x) = (y' * w + x') ∧ k = k' := by
    have h1 := congrArg (· / d) h
    have h2 := congrArg (· % d) h
    simp only [Nat.mul_comm _ d, Nat.mul_add_mod, Nat.mul_add_div (show d > 0 by omega),
      Nat.div_eq_of_lt hk, Nat.div_eq_of_lt hk', Nat.mod_eq_of_lt hk, Nat.mod_eq_of_lt hk', Nat.add_zero] at h1 h2
    exact ⟨h1, h2⟩
  have h1 := congrArg (· / w) e.1
  have h2 := congrArg (· % w) e.1
  simp only [Nat.mul_comm _ w, Nat.mul_add_mod, Nat.mul_add_div (show w > 0 by omega),
    Nat.div_eq_of_lt hx, Nat.div_eq_of_lt hx', Nat.mod_eq_of_lt hx, Nat.mod_eq_of_lt hx', Nat.add_zero] at h1 h2
  exact ⟨h2, h1, e.2⟩

theorem inIdx_lt {w hgt d x y k : Nat} (hx : x < w) (hy : y < hgt) (hk : k < d) :
    inIdx w d x y k < d * w * hgt := by
  unfold inIdx
  have h1 : y * w + x + 1 ≤ hgt * w := by
    calc y * w + x + 1 ≤ y * w + w := by omega
      _ = (y + 1) * w := by ring
      _ ≤ hgt * w := Nat.mul_le_mul_right _ hy
  calc (y * w + x) * d + k < (y * w + x) * d + d := by omega
    _ = (y * w + x + 1) * d := by ring
    _ ≤ hgt * w * d := Nat.mul_le_mul_right _ h1
    _ = d * w * hgt := by ring

/-- The connections of a grid of `nx` times `ny` fields that start at `xs xo`, `ys yo`. -/
def rectCons (w d fx fy : Nat) (xs ys : Nat → Nat) (nx ny : Nat) : List Int :=
  (List.range ny).flatMap fun yo => (List.range nx).flatMap fun xo =>
    (List.range fy).flatMap fun dy => (List.range fx).flatMap fun dx =>
      (List.range d).map fun k => ((inIdx w d (xs xo + dx) (ys yo + dy) k : Nat) : Int)

theorem fieldCons_ok {w hgt d fx fy xs ys : Nat} (hx : xs + fx ≤ w) (hy : ys + fy ≤ hgt) :
    fieldCons ⟨w, hgt⟩ d fx fy xs ys = .ok ((List.range fy).flatMap fun dy => (List.range fx).flatMap fun dx =>
      (List.range d).map fun k => ((inIdx w d (xs + dx) (ys + dy) k : Nat) : Int)) := by
  unfold fieldCons
  refine forRange_ok fun dy hdy => ?_
  refine forRange_ok fun dx hdx => ?_
  unfold chanCons Trans.imageToIndex
  simp only
  rw [if_neg (by rw [not_not]; constructor <;> omega), if_neg (by rw [not_not]; constructor <;> omega)]
  simp only [Except.ok.injEq]
  apply List.map_congr_left
  intro k _
  unfold inIdx
  push_cast
  ring

theorem rect_ok {w hgt d fx fy nx ny : Nat} {xs ys : Nat → Nat} {ex ey : Int → Int}
    (hex : ∀ k : Nat, ex k = xs k) (hey : ∀ k : Nat, ey k = ys k)
    (hx : ∀ k, k < nx → xs k + fx ≤ w) (hy : ∀ k, k < ny → ys k + fy ≤ hgt) :
    forRange (fun yo => forRange (fun xo => fieldCons ⟨w, hgt⟩ d fx fy (ex xo) (ey yo)) 0 nx) 0 ny =
      .ok (rectCons w d fx fy xs ys nx ny) := by
  unfold rectCons
  refine forRange_ok fun yo hyo => ?_
  refine forRange_ok fun xo hxo => ?_
  rw [Int.zero_add, Int.zero_add, hex, hey]
  exact fieldCons_ok (hx xo hxo) (hy yo hyo)

section
variable {w d fx fy nx ny : Nat} {xs ys : Nat → Nat}

theorem rectCons_length : (rectCons w d fx fy xs ys nx ny).length = ny * (nx * (fy * (fx * d))) := by
  unfold rectCons
  refine length_flatMap_range fun _ _ => ?_
  refine length_flatMap_range fun _ _ => ?_
  refine length_flatMap_range fun _ _ => ?_
  refine length_flatMap_range fun _ _ => ?_
  simp

theorem rectCons_get {xo yo dx dy k : Nat} (hxo : xo < nx) (hyo : yo < ny) (hdx : dx < fx) (hdy : dy < fy)
    (hk : k < d) :
    (rectCons w d fx fy xs ys nx ny)[(yo * nx + xo) * (d * fx * fy) + ((dy * fx + dx) * d + k)]? =
      some ((inIdx w d (xs xo + dx) (ys yo + dy) k : Nat) : Int) := by
  unfold rectCons
  have hkx : dx * d + k < fx * d := by
    calc dx * d + k < dx * d + d := by omega
      _ = (dx + 1) * d := by ring
      _ ≤ _ := Nat.mul_le_mul_right _ hdx
  have hky : dy * (fx * d) + (dx * d + k) < fy * (fx * d) := by
    calc dy * (fx * d) + (dx * d + k) < dy * (fx * d) + fx * d := by omega
      _ = (dy + 1) * (fx * d) := by ring
      _ ≤ _ := Nat.mul_le_mul_right _ hdy
  have hkn : xo * (fy * (fx * d)) + (dy * (fx * d) + (dx * d + k)) < nx * (fy * (fx * d)) := by
    calc xo * (fy * (fx * d)) + (dy * (fx * d) + (dx * d + k)) < xo * (fy * (fx * d)) + fy * (fx * d) := by omega
      _ = (xo + 1) * (fy * (fx * d)) := by ring
      _ ≤ _ := Nat.mul_le_mul_right _ hxo
  rw [show (yo * nx + xo) * (d * fx * fy) + ((dy * fx + dx) * d + k) =
    yo * (nx * (fy * (fx * d))) + (xo * (fy * (fx * d)) + (dy * (fx * d) + (dx * d + k))) by ring]
  rw [getElem?_flatMap_range (m := nx * (fy * (fx * d))) _ hyo hkn]
  · rw [getElem?_flatMap_range (m := fy * (fx * d)) _ hxo hky]
    · rw [getElem?_flatMap_range (m := fx * d) _ hdy hkx]
      · rw [getElem?_flatMap_range (m := d) _ hdx hk]
        · simp [hk]
        · intro _ _; simp
      · intro _ _; exact length_flatMap_range fun _ _ => by simp
    · intro _ _
      refine length_flatMap_range fun _ _ => ?_
      exact length_flatMap_range fun _ _ => by simp
  · intro _ _
    refine length_flatMap_range fun _ _ => ?_
    refine length_flatMap_range fun _ _ => ?_
    exact length_flatMap_range fun _ _ => by simp

theorem mem_rectCons {v : Int} : v ∈ rectCons w d fx fy xs ys nx ny ↔
    ∃ yo < ny, ∃ xo < nx, ∃ dy < fy, ∃ dx < fx, ∃ k < d,
      v = ((inIdx w d (xs xo + dx) (ys yo + dy) k : Nat) : Int) := by
  unfold rectCons
  simp only [List.mem_flatMap, List.mem_range, List.mem_map]
  constructor
  · rintro ⟨a, ha, b, hb, c, hc, e, he, k, hk, rfl⟩
    exact ⟨a, ha, b, hb, c, hc, e, he, k, hk, rfl⟩
  · rintro ⟨a, ha, b, hb, c, hc, e, he, k, hk, rfl⟩
    exact ⟨a, ha, b, hb, c, hc, e, he, k, hk, rfl⟩

theorem rectCons_nodup (hx : ∀ k, k < nx → xs k + fx ≤ w)
    (ix : ∀ a b i j, i < fx → j < fx → xs a + i = xs b + j → a = b ∧ i = j)
    (iy : ∀ a b i j, i < fy → j < fy → ys a + i = ys b + j → a = b ∧ i = j) :
    (rectCons w d fx fy xs ys nx ny).Nodup := by
  unfold rectCons
  refine nodup_flatMap_range (fun yo hyo => ?_) ?_
  · refine nodup_flatMap_range (fun xo hxo => ?_) ?_
    · have := hx xo hxo
      refine nodup_flatMap_range (fun dy hdy => ?_) ?_
      · refine nodup_flatMap_range (fun dx hdx => ?_) ?_
        · refine List.Nodup.map_on ?_ List.nodup_range
          intro k hk k' hk' h
          simp only [List.mem_range] at hk hk'
          exact (inIdx_inj (w := w) (Int.ofNat.inj h) (by omega) hk (by omega) hk').2.2
        · intro i j v hi hj h1 h2
          simp only [List.mem_map, List.mem_range] at h1 h2
          obtain ⟨k, hk, rfl⟩ := h1
          obtain ⟨k', hk', h⟩ := h2
          have := (inIdx_inj (w := w) (Int.ofNat.inj h) (by omega) hk' (by omega) hk).1
          omega
      · intro i j v hi hj h1 h2
        simp only [List.mem_map, List.mem_range, List.mem_flatMap] at h1 h2
        obtain ⟨a, ha, k, hk, rfl⟩ := h1
        obtain ⟨b, hb, k', hk', h⟩ := h2
        have := (inIdx_inj (w := w) (Int.ofNat.inj h) (by omega) hk' (by omega) hk).2.1
        omega
    · intro i j v hi hj h1 h2
      simp only [List.mem_map, List.mem_range, List.mem_flatMap] at h1 h2
      obtain ⟨a', ha', a, ha, k, hk, rfl⟩ := h1
      obtain ⟨b', hb', b, hb, k', hk', h⟩ := h2
      have q1 := hx i hi
      have q2 := hx j hj
      have := (inIdx_inj (w := w) (Int.ofNat.inj h) (by omega) hk' (by omega) hk).1
      exact ((ix j i b a hb ha this).1).symm
  · intro i j v hi hj h1 h2
    simp only [List.mem_map, List.mem_range, List.mem_flatMap] at h1 h2
    obtain ⟨xa, hxa, a', ha', a, ha, k, hk, rfl⟩ := h1
    obtain ⟨xb, hxb, b', hb', b, hb, k', hk', h⟩ := h2
    have q1 := hx xa hxa
    have q2 := hx xb hxb
    have := (inIdx_inj (w := w) (Int.ofNat.inj h) (by omega) hk' (by omega) hk).2.1
    exact ((iy j i b' a' hb' ha' this).1).symm

end

/-! ### one dimension -/

/-- `xo` is the number of a field exactly when the field fits in. -/
theorem field_fits {n f s : Nat} (hs : 0 < s) (hf : f ≤ n) (xo : Nat) :
    xo < (n - f) / s + 1 ↔ xo * s + f ≤ n := by
  rw [Nat.lt_succ_iff, Nat.le_div_iff_mul_le hs]
  omega

theorem cover1 {n f s : Nat} (hs : 0 < s) (hf : f ≤ n) (hu : (n - f) % s = 0) (hsf : s ≤ f ∨ n = f)
    {x : Nat} (hx : x < n) : ∃ xo, xo < (n - f) / s + 1 ∧ ∃ dx, dx < f ∧ xo * s + dx = x := by
  have hq := Nat.div_mul_cancel (Nat.dvd_of_mod_eq_zero hu)
  rcases hsf with hsf | rfl
  · by_cases h : x / s ≤ (n - f) / s
    · refine ⟨x / s, by omega, x % s, ?_, Nat.div_add_mod' x s⟩
      have := Nat.mod_lt x hs
      omega
    · refine ⟨(n - f) / s, by omega, x - (n - f), ?_, ?_⟩
      · omega
      · have : ((n - f) / s + 1) * s ≤ x := by
          rw [← Nat.le_div_iff_mul_le hs]; omega
        have e : ((n - f) / s + 1) * s = (n - f) / s * s + s := by ring
        omega
  · exact ⟨0, Nat.succ_pos _, x, hx, by omega⟩

end Mdp.Switchboard
