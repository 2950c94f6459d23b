import Verif.Hinet.GeometryLemmas

/-!
# Two-dimensional switchboards (C27, C67)

Vocabulary of the statements: `inIdx w d x y k` is the input index of component `k` of the channel in column
`x`, row `y` of a grid of width `w` whose channels have `d` components: `(y * w + x) * d + k`.
-/

namespace Mdp.Switchboard

open Py

theorem channel_ok {n : Nat} {c : List Int} {od idim m q : Nat} (hc : c.length = m * od) (hm : 0 < m)
    (hod : 0 < od) (hi : n = idim * q) (hid : 0 < idim) (hlt : ∀ i ∈ c, i < n) :
    ∃ s, Channel.new n c od idim = .ok s ∧ s.inputDim = n ∧ s.connections = c ∧
      s.outChannelDim = od ∧ s.inChannelDim = idim ∧ s.outputChannels = m ∧ s.inputChannels = q := by
  have hne : c ≠ [] := by
    rintro rfl
    have := Nat.mul_pos hm hod
    simp at hc; omega
  rcases new_cases n c with ⟨_, h | ⟨i, hi, hn⟩⟩ | ⟨h, _, _⟩
  · exact absurd h hne
  · exact absurd (hlt i hi) hn
  unfold Channel.new
  simp only [h]
  rw [if_neg (by omega), if_neg (by rw [hc, not_not]; exact Nat.mul_mod_left _ _), if_neg (by omega),
    if_neg (by rw [hi, not_not]; exact Nat.mul_mod_right _ _)]
  refine ⟨_, rfl, rfl, rfl, rfl, rfl, ?_, ?_⟩
  · unfold CSB.outputChannels; simp only; rw [hc]; exact Nat.mul_div_cancel _ hod
  · unfold CSB.inputChannels; simp only; rw [hi]; exact Nat.mul_div_cancel_left _ hid

theorem channel_zero {n : Nat} {c : List Int} {od idim : Nat} (hc : c = []) :
    Channel.new n c od idim = .error .switchboard := by
  subst hc; rfl

/-- The result of `Rectangular2dSwitchboard(...)` for every geometry. -/
theorem rect_cases (inc field sp : XY) (d : Nat) (ig : Bool) :
    let good := 0 < field.x ∧ field.x ≤ inc.x ∧ 0 < field.y ∧ field.y ≤ inc.y ∧ 0 < sp.x ∧ 0 < sp.y ∧ 0 < d ∧
      (ig = true ∨ ((inc.x - field.x) % sp.x = 0 ∧ (inc.y - field.y) % sp.y = 0))
    (¬ good ∧ ∃ e, Rect2d.new inc field sp d ig = .error e) ∨
    (good ∧ ∃ s, Rect2d.new inc field sp d ig = .ok s ∧
      s.inputDim = d * inc.x * inc.y ∧ s.inChannelDim = d ∧ s.outChannelDim = d * field.x * field.y ∧
      s.outputChannels = ((inc.y - field.y) / sp.y + 1) * ((inc.x - field.x) / sp.x + 1) ∧
      s.inputChannels = inc.x * inc.y ∧
      s.connections = rectCons inc.x d field.x field.y (fun k => k * sp.x) (fun k => k * sp.y)
        ((inc.x - field.x) / sp.x + 1) ((inc.y - field.y) / sp.y + 1)) := by
  intro good
  unfold Rect2d.new
  by_cases h1 : field.x > inc.x
  · rw [if_pos h1]; exact .inl ⟨by rintro ⟨a, b, -⟩; omega, _, rfl⟩
  rw [if_neg h1]
  by_cases h2 : field.y > inc.y
  · rw [if_pos h2]; exact .inl ⟨by rintro ⟨a, b, c, e, -⟩; omega, _, rfl⟩
  rw [if_neg h2]
  by_cases h3 : sp.x = 0
  · rw [if_pos h3]; exact .inl ⟨by rintro ⟨_, _, _, _, b, -⟩; omega, _, rfl⟩
  rw [if_neg h3]
  by_cases h4 : sp.y = 0
  · rw [if_pos h4]; exact .inl ⟨by rintro ⟨_, _, _, _, _, b, -⟩; omega, _, rfl⟩
  rw [if_neg h4]
  by_cases h5 : (inc.x - field.x) % sp.x ≠ 0 ∧ ig = false
  · rw [if_pos h5]
    refine .inl ⟨?_, _, rfl⟩
    rintro ⟨_, _, _, _, _, _, _, hh⟩
    rcases hh with h | ⟨h, _⟩
    · rw [h] at h5; cases h5.2
    · exact h5.1 h
  rw [if_neg h5]
  by_cases h6 : (inc.y - field.y) % sp.y ≠ 0 ∧ ig = false
  · rw [if_pos h6]
    refine .inl ⟨?_, _, rfl⟩
    rintro ⟨_, _, _, _, _, _, _, hh⟩
    rcases hh with h | ⟨_, h⟩
    · rw [h] at h6; cases h6.2
    · exact h6.1 h
  rw [if_neg h6]
  have e := rect_ok (w := inc.x) (hgt := inc.y) (d := d) (fx := field.x) (fy := field.y)
    (nx := (inc.x - field.x) / sp.x + 1) (ny := (inc.y - field.y) / sp.y + 1)
    (xs := fun k => k * sp.x) (ys := fun k => k * sp.y)
    (ex := fun i => i * (sp.x : Int)) (ey := fun i => i * (sp.y : Int))
    (fun k => by push_cast; rfl) (fun k => by push_cast; rfl)
    (fun k hk => (field_fits (by omega) (by omega) k).1 hk)
    (fun k hk => (field_fits (by omega) (by omega) k).1 hk)
  simp only [e]
  by_cases hz : 0 < field.x ∧ 0 < field.y ∧ 0 < d
  · right
    refine ⟨⟨hz.1, by omega, hz.2.1, by omega, by omega, by omega, hz.2.2, ?_⟩, ?_⟩
    · cases ig with
      | true => exact .inl rfl
      | false =>
        right
        constructor
        · by_contra hc; exact h5 ⟨hc, rfl⟩
        · by_contra hc; exact h6 ⟨hc, rfl⟩
    · obtain ⟨s, q1, q2, q3, q4, q5, q6, q7⟩ := channel_ok (n := d * inc.x * inc.y)
        (c := rectCons inc.x d field.x field.y (fun k => k * sp.x) (fun k => k * sp.y)
          ((inc.x - field.x) / sp.x + 1) ((inc.y - field.y) / sp.y + 1))
        (od := d * field.x * field.y) (idim := d)
        (m := ((inc.y - field.y) / sp.y + 1) * ((inc.x - field.x) / sp.x + 1)) (q := inc.x * inc.y)
        (by rw [rectCons_length]; ring) (Nat.mul_pos (Nat.succ_pos _) (Nat.succ_pos _))
        (Nat.mul_pos (Nat.mul_pos hz.2.2 hz.1) hz.2.1) (by ring) hz.2.2
        (by
          intro v hv
          rw [mem_rectCons] at hv
          obtain ⟨yo, hyo, xo, hxo, dy, hdy, dx, hdx, k, hk, rfl⟩ := hv
          have a1 := (field_fits (by omega) (by omega) xo).1 hxo
          have a2 := (field_fits (by omega) (by omega) yo).1 hyo
          exact_mod_cast inIdx_lt (by omega) (by omega) hk)
      exact ⟨s, q1, q2, q5, q4, q6, q7, q3⟩
  · left
    refine ⟨by rintro ⟨a, _, b, _, _, _, c, _⟩; exact hz ⟨a, b, c⟩, ?_⟩
    refine ⟨_, channel_zero ?_⟩
    rw [← List.length_eq_zero_iff, rectCons_length]
    have : field.x = 0 ∨ field.y = 0 ∨ d = 0 := by omega
    rcases this with h | h | h <;> rw [h] <;> simp

/-- **C27**: which geometries are accepted. -/
theorem rect_accepted (inc field sp : XY) (d : Nat) (ig : Bool) :
    (∃ s, Rect2d.new inc field sp d ig = .ok s) ↔
      0 < field.x ∧ field.x ≤ inc.x ∧ 0 < field.y ∧ field.y ≤ inc.y ∧ 0 < sp.x ∧ 0 < sp.y ∧ 0 < d ∧
      (ig = true ∨ ((inc.x - field.x) % sp.x = 0 ∧ (inc.y - field.y) % sp.y = 0)) := by
  rcases rect_cases inc field sp d ig with ⟨h1, e, h2⟩ | ⟨h1, s, h2, -⟩
  · constructor
    · rintro ⟨s, hs⟩; rw [h2] at hs; cases hs
    · intro h; exact absurd h h1
  · exact ⟨fun _ => h1, fun _ => ⟨s, h2⟩⟩

theorem rect_get {inc field sp : XY} {d : Nat} {ig : Bool} {s : CSB}
    (h : Rect2d.new inc field sp d ig = .ok s) :
    (0 < field.x ∧ field.x ≤ inc.x ∧ 0 < field.y ∧ field.y ≤ inc.y ∧ 0 < sp.x ∧ 0 < sp.y ∧ 0 < d ∧
      (ig = true ∨ ((inc.x - field.x) % sp.x = 0 ∧ (inc.y - field.y) % sp.y = 0))) ∧
      s.inputDim = d * inc.x * inc.y ∧ s.inChannelDim = d ∧ s.outChannelDim = d * field.x * field.y ∧
      s.outputChannels = ((inc.y - field.y) / sp.y + 1) * ((inc.x - field.x) / sp.x + 1) ∧
      s.inputChannels = inc.x * inc.y ∧
      s.connections = rectCons inc.x d field.x field.y (fun k => k * sp.x) (fun k => k * sp.y)
        ((inc.x - field.x) / sp.x + 1) ((inc.y - field.y) / sp.y + 1) := by
  rcases rect_cases inc field sp d ig with ⟨_, e, h2⟩ | ⟨h1, s', h2, h3⟩
  · rw [h2] at h; cases h
  · rw [h2] at h; cases h; exact ⟨h1, h3⟩

/-- **C27**: every connection of an accepted geometry is a valid input index. -/
theorem rect_valid {inc field sp : XY} {d : Nat} {ig : Bool} {s : CSB}
    (h : Rect2d.new inc field sp d ig = .ok s) :
    s.inputDim = d * inc.x * inc.y ∧ ∀ i ∈ s.connections, 0 ≤ i ∧ i < s.inputDim := by
  obtain ⟨⟨a1, a2, a3, a4, a5, a6, a7, -⟩, b1, -, -, -, -, b2⟩ := rect_get h
  refine ⟨b1, ?_⟩
  intro v hv
  rw [b2, mem_rectCons] at hv
  obtain ⟨yo, hyo, xo, hxo, dy, hdy, dx, hdx, k, hk, rfl⟩ := hv
  have a1 := (field_fits (by omega) (by omega) xo).1 hxo
  have a2 := (field_fits (by omega) (by omega) yo).1 hyo
  rw [b1]
  exact ⟨by omega, by exact_mod_cast inIdx_lt (by omega) (by omega) hk⟩

/-- **C27**: the output channels form a grid of `nx` times `ny` channels, as many as fit into the input, and
output channel `(xo, yo)`, number `yo * nx + xo`, consists of the block of `field.x` times `field.y` input
channels that starts at `(xo * sp.x, yo * sp.y)`, row by row. -/
theorem rect_blocks {inc field sp : XY} {d : Nat} {ig : Bool} {s : CSB}
    (h : Rect2d.new inc field sp d ig = .ok s) :
    ∃ nx ny, (∀ xo, xo < nx ↔ xo * sp.x + field.x ≤ inc.x) ∧ (∀ yo, yo < ny ↔ yo * sp.y + field.y ≤ inc.y) ∧
      s.outputChannels = ny * nx ∧ s.outChannelDim = field.y * field.x * d ∧
      ∀ xo < nx, ∀ yo < ny,
        (s.outChannelInput (yo * nx + xo)).length = field.y * field.x * d ∧
        ∀ dx < field.x, ∀ dy < field.y, ∀ k < d,
          (s.outChannelInput (yo * nx + xo))[(dy * field.x + dx) * d + k]? =
            some (inIdx inc.x d (xo * sp.x + dx) (yo * sp.y + dy) k : Int) := by
  obtain ⟨⟨a1, a2, a3, a4, a5, a6, a7, -⟩, b1, b3, b4, b5, -, b2⟩ := rect_get h
  refine ⟨_, _, field_fits a5 a2, field_fits a6 a4, b5, by rw [b4]; ring, ?_⟩
  intro xo hxo yo hyo
  refine ⟨?_, ?_⟩
  · unfold CSB.outChannelInput
    rw [List.length_take, List.length_drop, b2, rectCons_length, b4]
    have : (yo * ((inc.x - field.x) / sp.x + 1) + xo) + 1 ≤
        ((inc.y - field.y) / sp.y + 1) * ((inc.x - field.x) / sp.x + 1) := by
      calc yo * ((inc.x - field.x) / sp.x + 1) + xo + 1 ≤ yo * ((inc.x - field.x) / sp.x + 1) +
            ((inc.x - field.x) / sp.x + 1) := by omega
        _ = (yo + 1) * ((inc.x - field.x) / sp.x + 1) := by ring
        _ ≤ _ := Nat.mul_le_mul_right _ hyo
    have := Nat.mul_le_mul_right (d * field.x * field.y) this
    have e1 : (yo * ((inc.x - field.x) / sp.x + 1) + xo + 1) * (d * field.x * field.y) =
      (yo * ((inc.x - field.x) / sp.x + 1) + xo) * (d * field.x * field.y) + d * field.x * field.y := by ring
    have e2 : ((inc.y - field.y) / sp.y + 1) * ((inc.x - field.x) / sp.x + 1) * (d * field.x * field.y) =
      ((inc.y - field.y) / sp.y + 1) * (((inc.x - field.x) / sp.x + 1) * (field.y * (field.x * d))) := by ring
    rw [show field.y * field.x * d = d * field.x * field.y by ring]
    omega
  · intro dx hdx dy hdy k hk
    unfold CSB.outChannelInput
    have hlt : (dy * field.x + dx) * d + k < d * field.x * field.y := by
      have := inIdx_lt (w := field.x) (hgt := field.y) hdx hdy hk
      exact this
    rw [b4, b2, List.getElem?_take, if_pos hlt, List.getElem?_drop, rectCons_get hxo hyo hdx hdy hk]

/-- **C27**, coverage: unless the user asked to ignore it, every component of every input channel is
connected, if neighbouring fields leave no gap. Missing: geometries whose spacing is larger than the field, see
`rect_cover_iff` and `rect_cover_gap`. -/
theorem rect_cover_partial {inc field sp : XY} {d : Nat} {s : CSB}
    (h : Rect2d.new inc field sp d false = .ok s) (hx : sp.x ≤ field.x) (hy : sp.y ≤ field.y) :
    ∀ i < s.inputDim, (i : Int) ∈ s.connections := by
  obtain ⟨⟨a1, a2, a3, a4, a5, a6, a7, a8⟩, b1, b3, b4, b5, -, b2⟩ := rect_get h
  obtain ⟨u1, u2⟩ : (inc.x - field.x) % sp.x = 0 ∧ (inc.y - field.y) % sp.y = 0 := by
    rcases a8 with h | h
    · cases h
    · exact h
  intro i hi
  rw [b1] at hi
  have hi' : i / d < inc.x * inc.y := by
    rw [Nat.div_lt_iff_lt_mul a7]
    calc i < d * inc.x * inc.y := hi
      _ = _ := by ring
  have hw : 0 < inc.x := by omega
  obtain ⟨xo, hxo, dx, hdx, ex⟩ := cover1 a5 a2 u1 (.inl hx) (Nat.mod_lt (i / d) hw)
  obtain ⟨yo, hyo, dy, hdy, ey⟩ := cover1 a6 a4 u2 (.inl hy) (x := i / d / inc.x) (by
    rw [Nat.div_lt_iff_lt_mul hw, Nat.mul_comm]; exact hi')
  rw [b2, mem_rectCons]
  refine ⟨yo, hyo, xo, hxo, dy, hdy, dx, hdx, i % d, Nat.mod_lt _ a7, ?_⟩
  rw [ex, ey]
  unfold inIdx
  rw [Nat.div_add_mod', Nat.div_add_mod']

/-- **C27**, coverage, exactly: an accepted geometry covers the input iff in both directions there is no gap
between fields, or only one field. -/
theorem rect_cover_iff {inc field sp : XY} {d : Nat} {s : CSB}
    (h : Rect2d.new inc field sp d false = .ok s) :
    (∀ i < s.inputDim, (i : Int) ∈ s.connections) ↔
      (sp.x ≤ field.x ∨ inc.x = field.x) ∧ (sp.y ≤ field.y ∨ inc.y = field.y) := by
  obtain ⟨⟨a1, a2, a3, a4, a5, a6, a7, a8⟩, b1, b3, b4, b5, -, b2⟩ := rect_get h
  obtain ⟨u1, u2⟩ : (inc.x - field.x) % sp.x = 0 ∧ (inc.y - field.y) % sp.y = 0 := by
    rcases a8 with h | h
    · cases h
    · exact h
  constructor
  · intro hc
    constructor
    · by_contra hn
      have hlt : field.x < inc.x := by omega
      have := hc (inIdx inc.x d field.x 0 0) (by rw [b1]; exact inIdx_lt hlt (by omega) a7)
      rw [b2, mem_rectCons] at this
      obtain ⟨yo, hyo, xo, hxo, dy, hdy, dx, hdx, k, hk, hv⟩ := this
      have q := (field_fits a5 a2 xo).1 hxo
      have := (inIdx_inj (w := inc.x) (Int.ofNat.inj hv) hlt a7 (by omega) hk).1
      cases xo with
      | zero => simp at this; omega
      | succ xo =>
        have : (xo + 1) * sp.x = xo * sp.x + sp.x := by ring
        omega
    · by_contra hn
      have hlt : field.y < inc.y := by omega
      have := hc (inIdx inc.x d 0 field.y 0) (by rw [b1]; exact inIdx_lt (by omega) hlt a7)
      rw [b2, mem_rectCons] at this
      obtain ⟨yo, hyo, xo, hxo, dy, hdy, dx, hdx, k, hk, hv⟩ := this
      have q := (field_fits a5 a2 xo).1 hxo
      have := (inIdx_inj (w := inc.x) (Int.ofNat.inj hv) (by omega) a7 (by omega) hk).2.1
      cases yo with
      | zero => simp at this; omega
      | succ yo =>
        have : (yo + 1) * sp.y = yo * sp.y + sp.y := by ring
        omega
  · rintro ⟨hx, hy⟩ i hi
    rw [b1] at hi
    have hi' : i / d < inc.x * inc.y := by
      rw [Nat.div_lt_iff_lt_mul a7]
      calc i < d * inc.x * inc.y := hi
        _ = _ := by ring
    have hw : 0 < inc.x := by omega
    obtain ⟨xo, hxo, dx, hdx, ex⟩ := cover1 a5 a2 u1 hx (Nat.mod_lt (i / d) hw)
    obtain ⟨yo, hyo, dy, hdy, ey⟩ := cover1 a6 a4 u2 hy (x := i / d / inc.x) (by
      rw [Nat.div_lt_iff_lt_mul hw, Nat.mul_comm]; exact hi')
    rw [b2, mem_rectCons]
    refine ⟨yo, hyo, xo, hxo, dy, hdy, dx, hdx, i % d, Nat.mod_lt _ a7, ?_⟩
    rw [ex, ey]
    unfold inIdx
    rw [Nat.div_add_mod', Nat.div_add_mod']

example : ∃ s, Rect2d.new ⟨6, 4⟩ ⟨3, 2⟩ ⟨1, 2⟩ 2 false = .ok s := (rect_accepted _ _ _ _ _).2 (by simp)

/-- The counterexample to **C27**: input 3, field 1, spacing 2 is accepted without `ignore_cover`, and the
middle channel is not connected. -/
theorem rect_cover_gap : ∃ s, Rect2d.new ⟨3, 1⟩ ⟨1, 1⟩ ⟨2, 1⟩ 1 false = .ok s ∧
    s.inputDim = 3 ∧ s.connections = [0, 2] := ⟨_, rfl, rfl, by decide⟩

/-! ### C67: DoubleRect2dSwitchboard -/

theorem even_half {f : Nat} (h : f % 2 = 0) : 2 * (f / 2) = f := by omega

/-- The result of `DoubleRect2dSwitchboard(...)` for every geometry. -/
theorem double_cases (inc field : XY) (d : Nat) (ig : Bool) :
    let good := field.x % 2 = 0 ∧ field.y % 2 = 0 ∧ 0 < field.x ∧ field.x ≤ inc.x ∧ 0 < field.y ∧ field.y ≤ inc.y ∧
      0 < d ∧ inc.x % field.x < field.x / 2 ∧ inc.y % field.y < field.y / 2 ∧
      (ig = true ∨ (inc.x % field.x = 0 ∧ inc.y % field.y = 0))
    (¬ good ∧ ∃ e, DoubleRect2d.new inc field d ig = .error e) ∨
    (good ∧ ∃ s, DoubleRect2d.new inc field d ig = .ok s ∧
      s.inputDim = d * inc.x * inc.y ∧ s.outChannelDim = d * field.x * field.y ∧
      s.outputChannels = (inc.y / field.y) * (inc.x / field.x) + (inc.y / field.y - 1) * (inc.x / field.x - 1) ∧
      s.connections = rectCons inc.x d field.x field.y (fun k => k * field.x) (fun k => k * field.y)
          (inc.x / field.x) (inc.y / field.y) ++
        rectCons inc.x d field.x field.y (fun k => k * field.x + field.x / 2) (fun k => k * field.y + field.y / 2)
          (inc.x / field.x - 1) (inc.y / field.y - 1)) := by
  intro good
  have unused : ∀ n f : Nat, f % 2 = 0 → 0 < f → f ≤ n → n % f < f / 2 →
      ((n - f) % (f / 2) = 0 ↔ n % f = 0) := by
    intro n f h1 h2 h3 h4
    have e := Nat.div_add_mod n f
    have hq : 0 < n / f := Nat.div_pos h3 h2
    obtain ⟨q, hq'⟩ : ∃ q, n / f = q + 1 := ⟨n / f - 1, by omega⟩
    have e2 : n - f = (f / 2) * (2 * q) + n % f := by
      rw [hq'] at e
      have : f * (q + 1) = f * q + f := by ring
      have : (f / 2) * (2 * q) = (2 * (f / 2)) * q := by ring
      rw [even_half h1] at this
      omega
    rw [e2, Nat.mul_add_mod, Nat.mod_eq_of_lt h4]
  have rest : ∀ n f : Nat, n - n / f * f = n % f := by
    intro n f
    have := Nat.div_add_mod' n f
    omega
  unfold DoubleRect2d.new
  by_cases h1 : field.x % 2 ≠ 0
  · rw [if_pos h1]; exact .inl ⟨by rintro ⟨a, -⟩; omega, _, rfl⟩
  rw [if_neg h1]
  by_cases h2 : field.y % 2 ≠ 0
  · rw [if_pos h2]; exact .inl ⟨by rintro ⟨_, a, -⟩; omega, _, rfl⟩
  rw [if_neg h2]
  rw [not_not] at h1 h2
  simp only
  by_cases h3 : field.x > inc.x
  · rw [if_pos h3]; exact .inl ⟨by rintro ⟨_, _, _, a, -⟩; omega, _, rfl⟩
  rw [if_neg h3]
  by_cases h4 : field.y > inc.y
  · rw [if_pos h4]; exact .inl ⟨by rintro ⟨_, _, _, _, _, a, -⟩; omega, _, rfl⟩
  rw [if_neg h4]
  by_cases h5 : field.x = 0
  · rw [if_pos h5]; exact .inl ⟨by rintro ⟨_, _, a, -⟩; omega, _, rfl⟩
  rw [if_neg h5]
  by_cases h6 : (inc.x - field.x) % (field.x / 2) ≠ 0 ∧ ig = false
  · rw [if_pos h6]
    refine .inl ⟨?_, _, rfl⟩
    rintro ⟨_, _, _, _, _, _, _, hh, _, hi⟩
    rcases hi with h | ⟨h, _⟩
    · rw [h] at h6; cases h6.2
    · exact h6.1 ((unused _ _ h1 (by omega) (by omega) hh).2 h)
  rw [if_neg h6]
  by_cases h7 : inc.x - inc.x / field.x * field.x ≥ field.x / 2
  · rw [if_pos h7]
    rw [rest] at h7
    exact .inl ⟨by rintro ⟨_, _, _, _, _, _, _, hh, _⟩; omega, _, rfl⟩
  rw [if_neg h7]
  by_cases h8 : field.y = 0
  · rw [if_pos h8]; exact .inl ⟨by rintro ⟨_, _, _, _, a, -⟩; omega, _, rfl⟩
  rw [if_neg h8]
  by_cases h9 : (inc.y - field.y) % (field.y / 2) ≠ 0 ∧ ig = false
  · rw [if_pos h9]
    refine .inl ⟨?_, _, rfl⟩
    rintro ⟨_, _, _, _, _, _, _, _, hh, hi⟩
    rcases hi with h | ⟨_, h⟩
    · rw [h] at h9; cases h9.2
    · exact h9.1 ((unused _ _ h2 (by omega) (by omega) hh).2 h)
  rw [if_neg h9]
  by_cases h10 : inc.y - inc.y / field.y * field.y ≥ field.y / 2
  · rw [if_pos h10]
    rw [rest] at h10
    exact .inl ⟨by rintro ⟨_, _, _, _, _, _, _, _, hh, _⟩; omega, _, rfl⟩
  rw [if_neg h10]
  rw [rest] at h7 h10
  have hx2 := even_half h1
  have hy2 := even_half h2
  have hx2' : (2 * ((field.x / 2 : Nat) : Int)) = field.x := by exact_mod_cast hx2
  have hy2' : (2 * ((field.y / 2 : Nat) : Int)) = field.y := by exact_mod_cast hy2
  have fx1 : ∀ n f k : Nat, k < n / f → k * f + f ≤ n := by
    intro n f k hk
    calc k * f + f = (k + 1) * f := by ring
      _ ≤ n / f * f := Nat.mul_le_mul_right _ hk
      _ ≤ n := Nat.div_mul_le_self _ _
  have fx2 : ∀ n f k : Nat, k < n / f - 1 → k * f + f / 2 + f ≤ n := by
    intro n f k hk
    have := fx1 n f (k + 1) (by omega)
    have e : (k + 1) * f = k * f + f := by ring
    omega
  have e1 := rect_ok (w := inc.x) (hgt := inc.y) (d := d) (fx := field.x) (fy := field.y)
    (nx := inc.x / field.x) (ny := inc.y / field.y)
    (xs := fun k => k * field.x) (ys := fun k => k * field.y)
    (ex := fun i => i * (2 * ((field.x / 2 : Nat) : Int))) (ey := fun i => i * (2 * ((field.y / 2 : Nat) : Int)))
    (fun k => by rw [hx2']; push_cast; rfl) (fun k => by rw [hy2']; push_cast; rfl)
    (fx1 _ _) (fx1 _ _)
  have e2 := rect_ok (w := inc.x) (hgt := inc.y) (d := d) (fx := field.x) (fy := field.y)
    (nx := inc.x / field.x - 1) (ny := inc.y / field.y - 1)
    (xs := fun k => k * field.x + field.x / 2) (ys := fun k => k * field.y + field.y / 2)
    (ex := fun i => i * (2 * ((field.x / 2 : Nat) : Int)) + ((field.x / 2 : Nat) : Int))
    (ey := fun i => i * (2 * ((field.y / 2 : Nat) : Int)) + ((field.y / 2 : Nat) : Int))
    (fun k => by rw [hx2']; push_cast; rfl) (fun k => by rw [hy2']; push_cast; rfl)
    (fx2 _ _) (fx2 _ _)
  rw [hx2, hy2]
  simp only [e1, e2]
  by_cases hz : 0 < d
  · right
    refine ⟨⟨h1, h2, by omega, by omega, by omega, by omega, hz, by omega, by omega, ?_⟩, ?_⟩
    · cases ig with
      | true => exact .inl rfl
      | false =>
        right
        constructor
        · rw [← unused _ _ h1 (by omega) (by omega) (by omega)]
          by_contra hc; exact h6 ⟨hc, rfl⟩
        · rw [← unused _ _ h2 (by omega) (by omega) (by omega)]
          by_contra hc; exact h9 ⟨hc, rfl⟩
    · obtain ⟨s, q1, q2, q3, q4, q5, q6, q7⟩ := channel_ok (n := d * inc.x * inc.y)
        (c := rectCons inc.x d field.x field.y (fun k => k * field.x) (fun k => k * field.y)
          (inc.x / field.x) (inc.y / field.y) ++
          rectCons inc.x d field.x field.y (fun k => k * field.x + field.x / 2) (fun k => k * field.y + field.y / 2)
          (inc.x / field.x - 1) (inc.y / field.y - 1))
        (od := d * field.x * field.y) (idim := d)
        (m := (inc.y / field.y) * (inc.x / field.x) + (inc.y / field.y - 1) * (inc.x / field.x - 1))
        (q := inc.x * inc.y)
        (by rw [List.length_append, rectCons_length, rectCons_length]; ring)
        (by
          have := Nat.div_pos (show field.x ≤ inc.x by omega) (by omega)
          have := Nat.div_pos (show field.y ≤ inc.y by omega) (by omega)
          have := Nat.mul_pos ‹0 < inc.y / field.y› ‹0 < inc.x / field.x›
          omega)
        (Nat.mul_pos (Nat.mul_pos hz (by omega)) (by omega)) (by ring) hz
        (by
          intro v hv
          rcases List.mem_append.1 hv with hv | hv
          · rw [mem_rectCons] at hv
            obtain ⟨yo, hyo, xo, hxo, dy, hdy, dx, hdx, k, hk, rfl⟩ := hv
            have a1 := fx1 _ _ _ hxo
            have a2 := fx1 _ _ _ hyo
            exact_mod_cast inIdx_lt (by omega) (by omega) hk
          · rw [mem_rectCons] at hv
            obtain ⟨yo, hyo, xo, hxo, dy, hdy, dx, hdx, k, hk, rfl⟩ := hv
            have a1 := fx2 _ _ _ hxo
            have a2 := fx2 _ _ _ hyo
            exact_mod_cast inIdx_lt (by omega) (by omega) hk)
      exact ⟨s, q1, q2, q4, q6, q3⟩
  · left
    refine ⟨by rintro ⟨_, _, _, _, _, _, c, _⟩; omega, ?_⟩
    refine ⟨_, channel_zero ?_⟩
    obtain rfl : d = 0 := by omega
    rw [← List.length_eq_zero_iff, List.length_append, rectCons_length, rectCons_length]
    simp

/-- **C67**: which geometries are accepted. The field sizes must be even and fit; what is left over at the
border must be less than half a field, and nothing unless ignored. -/
theorem double_accepted (inc field : XY) (d : Nat) (ig : Bool) :
    (∃ s, DoubleRect2d.new inc field d ig = .ok s) ↔
      field.x % 2 = 0 ∧ field.y % 2 = 0 ∧ 0 < field.x ∧ field.x ≤ inc.x ∧ 0 < field.y ∧ field.y ≤ inc.y ∧
      0 < d ∧ inc.x % field.x < field.x / 2 ∧ inc.y % field.y < field.y / 2 ∧
      (ig = true ∨ (inc.x % field.x = 0 ∧ inc.y % field.y = 0)) := by
  rcases double_cases inc field d ig with ⟨h1, e, h2⟩ | ⟨h1, s, h2, -⟩
  · constructor
    · rintro ⟨s, hs⟩; rw [h2] at hs; cases hs
    · intro h; exact absurd h h1
  · exact ⟨fun _ => h1, fun _ => ⟨s, h2⟩⟩

theorem block_inj {f o : Nat} (a b i j : Nat) (hi : i < f) (hj : j < f) (h : a * f + o + i = b * f + o + j) :
    a = b ∧ i = j := by
  have h' : a * f + i = b * f + j := by omega
  have h1 := congrArg (· / f) h'
  have h2 := congrArg (· % f) h'
  simp only [Nat.mul_comm _ f, Nat.mul_add_mod, Nat.mul_add_div (show f > 0 by omega),
      Nat.div_eq_of_lt hi, Nat.div_eq_of_lt hj, Nat.mod_eq_of_lt hi, Nat.mod_eq_of_lt hj, Nat.add_zero] at h1 h2
  exact ⟨h1, h2⟩

theorem even_cover {n f : Nat} (hf : 0 < f) (x : Nat) :
    (∃ xo, xo < n / f ∧ ∃ dx, dx < f ∧ xo * f + dx = x) ↔ x < n / f * f := by
  constructor
  · rintro ⟨xo, hxo, dx, hdx, rfl⟩
    calc xo * f + dx < (xo + 1) * f := by rw [Nat.add_mul]; omega
      _ ≤ _ := Nat.mul_le_mul_right _ hxo
  · intro h
    refine ⟨x / f, ?_, x % f, Nat.mod_lt _ hf, Nat.div_add_mod' _ _⟩
    rw [Nat.div_lt_iff_lt_mul hf]; exact h

theorem odd_cover {q f : Nat} (hf : 0 < f) (x : Nat) :
    (∃ xo, xo < q - 1 ∧ ∃ dx, dx < f ∧ xo * f + f / 2 + dx = x) ↔ f / 2 ≤ x ∧ x < (q - 1) * f + f / 2 := by
  constructor
  · rintro ⟨xo, hxo, dx, hdx, rfl⟩
    have : (xo + 1) * f ≤ (q - 1) * f := Nat.mul_le_mul_right _ hxo
    rw [Nat.add_mul] at this
    omega
  · rintro ⟨h1, h2⟩
    refine ⟨(x - f / 2) / f, ?_, (x - f / 2) % f, Nat.mod_lt _ hf, ?_⟩
    · rw [Nat.div_lt_iff_lt_mul hf]; omega
    · have := Nat.div_add_mod' (x - f / 2) f
      omega

/-- **C67**: how often each input channel is connected. Without `ignore_cover` every channel is in exactly one
long field, and the channels that are at least half a field away from the border are in exactly one short
field too: they are covered twice. -/
theorem double_cover {inc field : XY} {d : Nat} {s : CSB} (h : DoubleRect2d.new inc field d false = .ok s) :
    s.inputDim = d * inc.x * inc.y ∧ (∀ i ∈ s.connections, 0 ≤ i ∧ i < s.inputDim) ∧
    ∀ x < inc.x, ∀ y < inc.y, ∀ k < d,
      s.connections.count (inIdx inc.x d x y k : Int) =
        if field.x / 2 ≤ x ∧ x < inc.x - field.x / 2 ∧ field.y / 2 ≤ y ∧ y < inc.y - field.y / 2 then 2 else 1 := by
  rcases double_cases inc field d false with ⟨h1, e, h2⟩ | ⟨h1, s', h2, b1, b2, b3, b4⟩
  · rw [h2] at h; cases h
  rw [h2] at h
  cases h
  obtain ⟨a1, a2, a3, a4, a5, a6, a7, a8, a9, a10⟩ := h1
  obtain ⟨u1, u2⟩ : inc.x % field.x = 0 ∧ inc.y % field.y = 0 := by
    rcases a10 with h | h
    · cases h
    · exact h
  have w1 : inc.x / field.x * field.x = inc.x := Nat.div_mul_cancel (Nat.dvd_of_mod_eq_zero u1)
  have w2 : inc.y / field.y * field.y = inc.y := Nat.div_mul_cancel (Nat.dvd_of_mod_eq_zero u2)
  have v1 : (inc.x / field.x - 1) * field.x + field.x / 2 = inc.x - field.x / 2 := by
    rw [Nat.sub_mul, w1]; omega
  have v2 : (inc.y / field.y - 1) * field.y + field.y / 2 = inc.y - field.y / 2 := by
    rw [Nat.sub_mul, w2]; omega
  -- coordinates of a long or short field
  have long : ∀ n f k j : Nat, n / f * f = n → k < n / f → j < f → k * f + j < n := by
    intro n f k j hn hk hj
    have : (k + 1) * f ≤ n / f * f := Nat.mul_le_mul_right _ hk
    rw [Nat.add_mul] at this
    omega
  have short : ∀ n f k j : Nat, n / f * f = n → k < n / f - 1 → j < f → k * f + f / 2 + j < n := by
    intro n f k j hn hk hj
    have : (k + 2) * f ≤ n / f * f := Nat.mul_le_mul_right _ (by omega)
    rw [Nat.add_mul] at this
    omega
  refine ⟨b1, ?_, ?_⟩
  · intro v hv
    rw [b4] at hv
    rw [b1]
    rcases List.mem_append.1 hv with hv | hv
    · rw [mem_rectCons] at hv
      obtain ⟨yo, hyo, xo, hxo, dy, hdy, dx, hdx, k, hk, rfl⟩ := hv
      exact ⟨by omega, by exact_mod_cast inIdx_lt (long _ _ _ _ w1 hxo hdx) (long _ _ _ _ w2 hyo hdy) hk⟩
    · rw [mem_rectCons] at hv
      obtain ⟨yo, hyo, xo, hxo, dy, hdy, dx, hdx, k, hk, rfl⟩ := hv
      exact ⟨by omega, by exact_mod_cast inIdx_lt (short _ _ _ _ w1 hxo hdx) (short _ _ _ _ w2 hyo hdy) hk⟩
  · intro x hx y hy k hk
    rw [b4, List.count_append]
    have n1 : (rectCons inc.x d field.x field.y (fun k => k * field.x) (fun k => k * field.y)
          (inc.x / field.x) (inc.y / field.y)).Nodup :=
      rectCons_nodup (fun k hk => by
        have := long _ _ k (field.x - 1) w1 hk (by omega)
        omega)
        (fun a b i j hi hj h => block_inj (o := 0) a b i j hi hj (by simpa using h))
        (fun a b i j hi hj h => block_inj (o := 0) a b i j hi hj (by simpa using h))
    have n2 : (rectCons inc.x d field.x field.y (fun k => k * field.x + field.x / 2)
        (fun k => k * field.y + field.y / 2) (inc.x / field.x - 1) (inc.y / field.y - 1)).Nodup :=
      rectCons_nodup (fun k hk => by
        have := short _ _ k (field.x - 1) w1 hk (by omega)
        omega)
        (fun a b i j hi hj h => block_inj (o := field.x / 2) a b i j hi hj h)
        (fun a b i j hi hj h => block_inj (o := field.y / 2) a b i j hi hj h)
    have m1 : ((inIdx inc.x d x y k : Nat) : Int) ∈ rectCons inc.x d field.x field.y (fun k => k * field.x)
        (fun k => k * field.y) (inc.x / field.x) (inc.y / field.y) := by
      rw [mem_rectCons]
      obtain ⟨xo, hxo, dx, hdx, ex⟩ := (even_cover (n := inc.x) a3 x).2 (by omega)
      obtain ⟨yo, hyo, dy, hdy, ey⟩ := (even_cover (n := inc.y) a5 y).2 (by omega)
      exact ⟨yo, hyo, xo, hxo, dy, hdy, dx, hdx, k, hk, by rw [ex, ey]⟩
    rw [List.count_eq_one_of_mem n1 m1]
    have m2 : ((inIdx inc.x d x y k : Nat) : Int) ∈ rectCons inc.x d field.x field.y
        (fun k => k * field.x + field.x / 2)
        (fun k => k * field.y + field.y / 2) (inc.x / field.x - 1) (inc.y / field.y - 1) ↔
        field.x / 2 ≤ x ∧ x < inc.x - field.x / 2 ∧ field.y / 2 ≤ y ∧ y < inc.y - field.y / 2 := by
      rw [mem_rectCons]
      have ox := odd_cover (q := inc.x / field.x) a3 x
      have oy := odd_cover (q := inc.y / field.y) a5 y
      rw [v1] at ox
      rw [v2] at oy
      constructor
      · rintro ⟨yo, hyo, xo, hxo, dy, hdy, dx, hdx, k', hk', e⟩
        obtain ⟨e1, e2, -⟩ := inIdx_inj (w := inc.x) (Int.ofNat.inj e) hx hk (short _ _ _ _ w1 hxo hdx) hk'
        have p1 := ox.1 ⟨xo, hxo, dx, hdx, e1.symm⟩
        have p2 := oy.1 ⟨yo, hyo, dy, hdy, e2.symm⟩
        exact ⟨p1.1, p1.2, p2.1, p2.2⟩
      · rintro ⟨p1, p2, p3, p4⟩
        obtain ⟨xo, hxo, dx, hdx, ex⟩ := ox.2 ⟨p1, p2⟩
        obtain ⟨yo, hyo, dy, hdy, ey⟩ := oy.2 ⟨p3, p4⟩
        exact ⟨yo, hyo, xo, hxo, dy, hdy, dx, hdx, k, hk, by rw [ex, ey]⟩
    split
    · rename_i hc
      rw [List.count_eq_one_of_mem n2 (m2.2 hc)]
    · rename_i hc
      rw [List.count_eq_zero_of_not_mem fun hm => hc (m2.1 hm)]

/-- **C67**: output channel number `c` consists of the field number `c`, row by row: first the long fields, from
`(xo * field.x, yo * field.y)`, then the short fields, shifted by half a field. -/
theorem double_blocks {inc field : XY} {d : Nat} {ig : Bool} {s : CSB}
    (h : DoubleRect2d.new inc field d ig = .ok s) :
    let nx := inc.x / field.x
    let ny := inc.y / field.y
    s.outputChannels = ny * nx + (ny - 1) * (nx - 1) ∧ s.outChannelDim = field.y * field.x * d ∧
    (∀ xo < nx, ∀ yo < ny, ∀ dx < field.x, ∀ dy < field.y, ∀ k < d,
      (s.outChannelInput (yo * nx + xo))[(dy * field.x + dx) * d + k]? =
        some (inIdx inc.x d (xo * field.x + dx) (yo * field.y + dy) k : Int)) ∧
    (∀ xo < nx - 1, ∀ yo < ny - 1, ∀ dx < field.x, ∀ dy < field.y, ∀ k < d,
      (s.outChannelInput (ny * nx + (yo * (nx - 1) + xo)))[(dy * field.x + dx) * d + k]? =
        some (inIdx inc.x d (xo * field.x + field.x / 2 + dx) (yo * field.y + field.y / 2 + dy) k : Int)) := by
  intro nx ny
  rcases double_cases inc field d ig with ⟨h1, e, h2⟩ | ⟨h1, s', h2, b1, b2, b3, b4⟩
  · rw [h2] at h; cases h
  rw [h2] at h
  cases h
  refine ⟨b3, by rw [b2]; ring, ?_, ?_⟩
  · intro xo hxo yo hyo dx hdx dy hdy k hk
    have hlt : (dy * field.x + dx) * d + k < d * field.x * field.y :=
      inIdx_lt (w := field.x) (hgt := field.y) hdx hdy hk
    unfold CSB.outChannelInput
    have g := rectCons_get (w := inc.x) (xs := fun k => k * field.x) (ys := fun k => k * field.y) hxo hyo hdx hdy hk
    rw [b2, b4, List.getElem?_take, if_pos hlt, List.getElem?_drop,
      List.getElem?_append_left (List.getElem?_eq_some_iff.1 g).1, g]
  · intro xo hxo yo hyo dx hdx dy hdy k hk
    have hlt : (dy * field.x + dx) * d + k < d * field.x * field.y :=
      inIdx_lt (w := field.x) (hgt := field.y) hdx hdy hk
    unfold CSB.outChannelInput
    have g := rectCons_get (w := inc.x) (xs := fun k => k * field.x + field.x / 2)
      (ys := fun k => k * field.y + field.y / 2) hxo hyo hdx hdy hk
    have hl : (rectCons inc.x d field.x field.y (fun k => k * field.x) (fun k => k * field.y)
        (inc.x / field.x) (inc.y / field.y)).length = ny * nx * (d * field.x * field.y) := by
      rw [rectCons_length]; ring
    rw [b2, b4, List.getElem?_take, if_pos hlt, List.getElem?_drop,
      List.getElem?_append_right (by rw [hl, Nat.add_mul]; omega), hl]
    rw [show (ny * nx + (yo * (nx - 1) + xo)) * (d * field.x * field.y) + ((dy * field.x + dx) * d + k) -
      ny * nx * (d * field.x * field.y) =
      (yo * (nx - 1) + xo) * (d * field.x * field.y) + ((dy * field.x + dx) * d + k) by
        rw [Nat.add_mul (ny * nx)]; omega]
    exact g

example : ∃ s, DoubleRect2d.new ⟨6, 4⟩ ⟨2, 2⟩ 1 false = .ok s := (double_accepted _ _ _ _).2 (by simp)

end Mdp.Switchboard
