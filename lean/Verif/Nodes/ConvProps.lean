import Verif.Nodes.Conv
import Mathlib.Algebra.BigOperators.Ring.Finset
import Mathlib.Tactic.Linarith
import Mathlib.Tactic.Ring
import Mathlib.Tactic.NormNum

/-!
# Convolution of images (C255-C257)
-/

namespace Mdp.Conv

/-! ## Specification -/

/-- `x` has `n` images with `h` rows and `w` columns, whose pixels are `im`: as an array with three axes, or flattened row by row. -/
def Holds (x : Data) (n h w : Nat) (im : Nat → Nat → Nat → ℝ) : Prop :=
  x = .images n h w im ∨ ∃ g, x = .flat n (h * w) g ∧ im = fun t i j => g t (i * w + j)

/-- The length of an axis of the results. -/
def outLen : Mode → Nat → Nat → Nat
  | .full, h, fh => h + fh - 1
  | .same, h, _ => h
  | .valid, h, fh => h + 1 - fh

/-- Where the results begin in the full convolution. -/
def offset : Mode → Nat → Nat
  | .full, _ => 0
  | .same, fh => (fh - 1) / 2
  | .valid, fh => fh - 1

/-- The results that are expected. -/
def expected (mode : Mode) (b : Boundary) (h w : Nat) (F : Filters) (im : Nat → Nat → Nat → ℝ) (t f i j : Nat) : ℝ :=
  ∑ a ∈ Finset.range F.h, ∑ c ∈ Finset.range F.w,
    F.get f a c * ext b h w (im t) ((i + offset mode F.h : Nat) - a) ((j + offset mode F.w : Nat) - c)

/-- Sizes for which there are results. -/
structure Proper (mode : Mode) (h w : Nat) (F : Filters) : Prop where
  rows : 1 ≤ h
  cols : 1 ≤ w
  filterRows : 1 ≤ F.h
  filterCols : 1 ≤ F.w
  valid : mode = .valid → F.h ≤ h ∧ F.w ≤ w

/-! ## The node -/

/-- The node after an execution. -/
def steady (F : Filters) (h w : Nat) (mode : Mode) (b : Boundary) (o2 : Bool) : Node :=
  ⟨F, some (h, w), some (h * w), mode, b, o2, some (shapeFor mode (h, w) F),
    some (F.n * ((shapeFor mode (h, w) F).1 * (shapeFor mode (h, w) F).2))⟩

/-- What a new node may know of the images. -/
structure Knows (shape : Option (Nat × Nat)) (dim : Option Nat) (h w : Nat) (x : Data) : Prop where
  shape : shape = some (h, w) ∨ shape = none ∧ ∃ n im, x = .images n h w im
  dim : dim = none ∨ dim = some (h * w)

theorem shape_len {mode : Mode} {h w : Nat} {F : Filters} (hp : Proper mode h w F) :
    shapeFor mode (h, w) F = ((outLen mode h F.h : Int), (outLen mode w F.w : Int)) := by
  have h1 := hp.rows; have h2 := hp.cols; have h3 := hp.filterRows; have h4 := hp.filterCols
  cases mode with
  | full =>
    simp only [shapeFor, outLen]
    ext <;> simp <;> omega
  | same => rfl
  | valid =>
    obtain ⟨h5, h6⟩ := hp.valid rfl
    simp only [shapeFor, outLen]
    ext <;> simp <;> omega

theorem check_fresh {shape : Option (Nat × Nat)} {dim : Option Nat} {n h w : Nat} {x : Data} {im : Nat → Nat → Nat → ℝ} (hk : Knows shape dim h w x)
    (hx : Holds x n h w im) (F : Filters) (mode : Mode) (b : Boundary) (o2 : Bool) :
    (Node.new F shape dim mode b o2).check x = (steady F h w mode b o2, if n = 0 then some .node else none) := by
  have hd : dim.getD (h * w) = h * w := by
    rcases hk.dim with rfl | rfl <;> rfl
  have hs : shape.getD (h, w) = (h, w) := by
    rcases hk.shape with rfl | ⟨rfl, -⟩ <;> rfl
  rcases hx with rfl | ⟨g, rfl, rfl⟩
  · simp only [Node.check, findShape, Node.new, hs, hd, Data.size, Option.getD_some, ne_eq, not_true_eq_false, if_false]
    rfl
  · have hsh : shape = some (h, w) := by
      rcases hk.shape with h | ⟨-, n, im, h⟩
      · exact h
      · cases h
    subst hsh
    simp only [Node.check, findShape, Node.new, hd, Data.size, Option.getD_some, ne_eq, not_true_eq_false, if_false]
    rfl

theorem check_steady {n h w : Nat} {x : Data} {im : Nat → Nat → Nat → ℝ} (hx : Holds x n h w im) (F : Filters) (mode : Mode) (b : Boundary) (o2 : Bool) :
    (steady F h w mode b o2).check x = (steady F h w mode b o2, if n = 0 then some .node else none) := by
  rcases hx with rfl | ⟨g, rfl, rfl⟩
  · simp only [Node.check, findShape, steady, Data.size, Option.getD_some, ne_eq, not_true_eq_false, if_false]
    rfl
  · simp only [Node.check, findShape, steady, Data.size, Option.getD_some, ne_eq, not_true_eq_false, if_false]
    rfl

theorem execute_node {nd : Node} {n h w : Nat} {x : Data} {im : Nat → Nat → Nat → ℝ} {shape : Option (Nat × Nat)} {dim : Option Nat}
    (hk : Knows shape dim h w x) (hx : Holds x n h w im) {F : Filters} {mode : Mode} {b : Boundary} {o2 : Bool}
    (hn : nd = Node.new F shape dim mode b o2 ∨ nd = steady F h w mode b o2) :
    nd.execute x = (steady F h w mode b o2, if n = 0 then .error .node else (steady F h w mode b o2).run x) := by
  have hc : nd.check x = (steady F h w mode b o2, if n = 0 then some .node else none) := by
    rcases hn with rfl | rfl
    · exact check_fresh hk hx F mode b o2
    · exact check_steady hx F mode b o2
  unfold Node.execute
  rw [hc]
  by_cases h0 : n = 0
  · rw [if_pos h0, if_pos h0]
  · rw [if_neg h0, if_neg h0]

theorem conv_fit {mode : Mode} {h w : Nat} {F : Filters} (hp : Proper mode h w F) (b : Boundary) (im : Nat → Nat → ℝ) (f : Nat) :
    ∃ v, (conv mode b h w im F.h F.w (F.get f)).bind (fit (outLen mode h F.h) (outLen mode w F.w)) = some v ∧
      ∀ i j, i < outLen mode h F.h → j < outLen mode w F.w →
        v i j = ∑ a ∈ Finset.range F.h, ∑ c ∈ Finset.range F.w,
          F.get f a c * ext b h w im ((i + offset mode F.h : Nat) - a) ((j + offset mode F.w : Nat) - c) := by
  have key : ∀ (r : Nat × Nat × (Nat → Nat → ℝ)), r.1 = outLen mode h F.h → r.2.1 = outLen mode w F.w →
      (∀ i j, r.2.2 i j = fullAt b h w im F.h F.w (F.get f) (i + offset mode F.h) (j + offset mode F.w)) →
      ∃ v, fit (outLen mode h F.h) (outLen mode w F.w) r = some v ∧ ∀ i j, i < outLen mode h F.h → j < outLen mode w F.w →
        v i j = fullAt b h w im F.h F.w (F.get f) (i + offset mode F.h) (j + offset mode F.w) := by
    intro r h1 h2 h3
    unfold fit
    rw [if_pos ⟨.inl h1, .inl h2⟩]
    refine ⟨_, rfl, fun i j hi hj => ?_⟩
    show r.2.2 (if r.1 = 1 then 0 else i) (if r.2.1 = 1 then 0 else j) = _
    rw [h3]
    congr 2
    · split
      · omega
      · rfl
    · split
      · omega
      · rfl
  have h5 := hp.rows; have h6 := hp.cols; have h7 := hp.filterRows; have h8 := hp.filterCols
  cases mode with
  | full => exact key _ rfl rfl fun i j => rfl
  | same => exact key _ rfl rfl fun i j => rfl
  | valid =>
    obtain ⟨h1, h2⟩ := hp.valid rfl
    simp only [conv, h1, h2, and_self, if_true, Option.bind_some]
    refine key _ ?_ ?_ fun i j => rfl
    · simp only [outLen]; omega
    · simp only [outLen]; omega

theorem image_holds {x : Data} {n h w : Nat} {im : Nat → Nat → Nat → ℝ} (hx : Holds x n h w im) (t : Nat) :
    image x (h, w) t = (h, w, im t) ∧ x.size.1 = n ∧ x.reshapes (h, w) = true := by
  rcases hx with rfl | ⟨g, rfl, rfl⟩
  · exact ⟨rfl, rfl, rfl⟩
  · exact ⟨rfl, rfl, by simp [Data.reshapes]⟩

theorem collect_some {n k : Nat} {v' : Nat → Nat → Option (Nat → Nat → ℝ)} {v : Nat → Nat → Nat → Nat → ℝ} (h : ∀ t f, v' t f = some (v t f)) :
    collect n k v' = some v := by
  unfold collect
  rw [if_pos fun t _ f _ => by rw [h]; rfl]
  congr 1
  funext t f i j
  rw [h]
  rfl

theorem run_steady {x : Data} {n h w : Nat} {im : Nat → Nat → Nat → ℝ} (hx : Holds x n h w im) {F : Filters} {mode : Mode}
    (hp : Proper mode h w F) (b : Boundary) (o2 : Bool) :
    ∃ g, (∀ t f i j, i < outLen mode h F.h → j < outLen mode w F.w → g t f i j = expected mode b h w F im t f i j) ∧
      (steady F h w mode b o2).run x = .ok (if o2 then resize n F.n (outLen mode h F.h) (outLen mode w F.w) g (F.n * (outLen mode h F.h * outLen mode w F.w))
        else .four n F.n (outLen mode h F.h) (outLen mode w F.w) g) := by
  have hv := fun t f => conv_fit hp b (im t) f
  choose v h1 h2 using hv
  refine ⟨v, fun t f i j hi hj => h2 t f i j hi hj, ?_⟩
  unfold Node.run
  simp only [steady, shape_len hp, (image_holds hx 0).2.1, (image_holds hx 0).2.2, Bool.not_true, Bool.false_eq_true, or_false]
  rw [if_neg (by omega), collect_some (v := v) fun t f => by rw [(image_holds hx t).1, Int.toNat_natCast, Int.toNat_natCast, h1]]
  simp only [← Int.natCast_mul, Int.toNat_natCast]

/-- The node after a history of executions. -/
def later (nd : Node) (hist : List Data) : Node := hist.foldl (fun nd x => (nd.execute x).1) nd

theorem later_node {shape : Option (Nat × Nat)} {dim : Option Nat} {h w : Nat} {F : Filters} {mode : Mode} {b : Boundary} {o2 : Bool} (hist : List Data)
    (hh : ∀ y ∈ hist, Knows shape dim h w y ∧ ∃ n im, Holds y n h w im) (nd : Node)
    (hn : nd = Node.new F shape dim mode b o2 ∨ nd = steady F h w mode b o2) :
    later nd hist = Node.new F shape dim mode b o2 ∨ later nd hist = steady F h w mode b o2 := by
  induction hist generalizing nd with
  | nil => exact hn
  | cons y hist ih =>
    obtain ⟨hk, n, im, hy⟩ := hh y List.mem_cons_self
    refine ih (fun z hz => hh z (List.mem_cons_of_mem _ hz)) _ (.inr ?_)
    show (nd.execute y).1 = _
    rw [execute_node hk hy hn]

/-- C255: after any executions before, the output with four axes has for every image and filter the convolution. -/
theorem conv_values {shape : Option (Nat × Nat)} {dim : Option Nat} {n h w : Nat} {x : Data} {im : Nat → Nat → Nat → ℝ} (F : Filters) (mode : Mode)
    (hp : Proper mode h w F) (b : Boundary) (hist : List Data) (hh : ∀ y ∈ hist, Knows shape dim h w y ∧ ∃ n im, Holds y n h w im)
    (hk : Knows shape dim h w x) (hx : Holds x n h w im) (hn : 1 ≤ n) :
    ∃ g, ((later (Node.new F shape dim mode b false) hist).execute x).2 = .ok (.four n F.n (outLen mode h F.h) (outLen mode w F.w) g) ∧
      ∀ t f i j, t < n → f < F.n → i < outLen mode h F.h → j < outLen mode w F.w → g t f i j = expected mode b h w F im t f i j := by
  obtain ⟨g, h1, h2⟩ := run_steady hx hp b false
  refine ⟨g, ?_, fun t f i j _ _ hi hj => h1 t f i j hi hj⟩
  rw [execute_node hk hx (later_node hist hh _ (.inl rfl)), if_neg (by omega), h2]
  rfl

theorem resize_get {n k h w t f i j : Nat} (get : Nat → Nat → Nat → Nat → ℝ) (ht : t < n) (hf : f < k) (hi : i < h) (hj : j < w) :
    (if t * (k * (h * w)) + ((f * h + i) * w + j) < n * k * h * w then
      get ((t * (k * (h * w)) + ((f * h + i) * w + j)) / (k * h * w)) ((t * (k * (h * w)) + ((f * h + i) * w + j)) / (h * w) % k)
        ((t * (k * (h * w)) + ((f * h + i) * w + j)) / w % h) ((t * (k * (h * w)) + ((f * h + i) * w + j)) % w) else 0) = get t f i j := by
  have e : t * (k * (h * w)) + ((f * h + i) * w + j) = ((t * k + f) * h + i) * w + j := by ring
  have d1 : (((t * k + f) * h + i) * w + j) / w = (t * k + f) * h + i := by
    rw [Nat.add_comm, Nat.add_mul_div_right _ _ (by omega), Nat.div_eq_of_lt hj, Nat.zero_add]
  have m1 : (((t * k + f) * h + i) * w + j) % w = j := by
    rw [Nat.add_comm, Nat.add_mul_mod_self_right, Nat.mod_eq_of_lt hj]
  have d2 : ((t * k + f) * h + i) / h = t * k + f := by
    rw [Nat.add_comm, Nat.add_mul_div_right _ _ (by omega), Nat.div_eq_of_lt hi, Nat.zero_add]
  have m2 : ((t * k + f) * h + i) % h = i := by
    rw [Nat.add_comm, Nat.add_mul_mod_self_right, Nat.mod_eq_of_lt hi]
  have d3 : (t * k + f) / k = t := by
    rw [Nat.add_comm, Nat.add_mul_div_right _ _ (by omega), Nat.div_eq_of_lt hf, Nat.zero_add]
  have m3 : (t * k + f) % k = f := by
    rw [Nat.add_comm, Nat.add_mul_mod_self_right, Nat.mod_eq_of_lt hf]
  have d4 : (((t * k + f) * h + i) * w + j) / (h * w) = t * k + f := by
    rw [Nat.mul_comm h w, ← Nat.div_div_eq_div_mul, d1, d2]
  have d5 : (((t * k + f) * h + i) * w + j) / (k * h * w) = t := by
    rw [show k * h * w = h * w * k by ring, ← Nat.div_div_eq_div_mul, d4, d3]
  rw [e, d5, d4, d1, m1, m2, m3, if_pos]
  calc ((t * k + f) * h + i) * w + j < ((t * k + f) * h + i) * w + w := by omega
    _ = ((t * k + f) * h + (i + 1)) * w := by ring
    _ ≤ ((t * k + f) * h + h) * w := Nat.mul_le_mul_right _ (by omega)
    _ = (t * k + (f + 1)) * h * w := by ring
    _ ≤ (t * k + k) * h * w := Nat.mul_le_mul_right _ (Nat.mul_le_mul_right _ (by omega))
    _ = (t + 1) * k * h * w := by ring
    _ ≤ n * k * h * w := Nat.mul_le_mul_right _ (Nat.mul_le_mul_right _ (Nat.mul_le_mul_right _ ht))

theorem resize_ok (n k h w : Nat) (get : Nat → Nat → Nat → Nat → ℝ) :
    ∃ r, resize n k h w get (k * (h * w)) = .flat n (k * (h * w)) r ∧
      ∀ t f i j, t < n → f < k → i < h → j < w → r t ((f * h + i) * w + j) = get t f i j :=
  ⟨_, rfl, fun _ _ _ _ ht hf hi hj => resize_get get ht hf hi hj⟩

/-- C255: the output with two axes has the same numbers: the results of one filter after the other, each row by row. -/
theorem conv_values_flat {shape : Option (Nat × Nat)} {dim : Option Nat} {n h w : Nat} {x : Data} {im : Nat → Nat → Nat → ℝ} (F : Filters) (mode : Mode)
    (hp : Proper mode h w F) (b : Boundary) (hist : List Data) (hh : ∀ y ∈ hist, Knows shape dim h w y ∧ ∃ n im, Holds y n h w im)
    (hk : Knows shape dim h w x) (hx : Holds x n h w im) (hn : 1 ≤ n) :
    ∃ g, ((later (Node.new F shape dim mode b true) hist).execute x).2 =
        .ok (.flat n (F.n * (outLen mode h F.h * outLen mode w F.w)) g) ∧
      ∀ t f i j, t < n → f < F.n → i < outLen mode h F.h → j < outLen mode w F.w →
        g t ((f * outLen mode h F.h + i) * outLen mode w F.w + j) = expected mode b h w F im t f i j := by
  obtain ⟨g, h1, h2⟩ := run_steady hx hp b true
  obtain ⟨r, h3, h4⟩ := resize_ok n F.n (outLen mode h F.h) (outLen mode w F.w) g
  refine ⟨r, ?_, ?_⟩
  · rw [execute_node hk hx (later_node hist hh _ (.inl rfl)), if_neg (by omega), h2, if_pos rfl, h3]
  · intro t f i j ht hf hi hj
    rw [h4 t f i j ht hf hi hj]
    exact h1 t f i j hi hj

theorem ext_inside (b : Boundary) {h w i j : Nat} (im : Nat → Nat → ℝ) (hi : i < h) (hj : j < w) : ext b h w im i j = im i j := by
  cases b with
  | fill v =>
    simp only [ext]
    rw [if_pos (by omega), Int.toNat_natCast, Int.toNat_natCast]
  | wrap =>
    simp only [ext]
    rw [Int.emod_eq_of_lt (by omega) (by omega), Int.emod_eq_of_lt (by omega) (by omega), Int.toNat_natCast, Int.toNat_natCast]
  | symm =>
    simp only [ext]
    rw [Int.emod_eq_of_lt (by omega) (by omega), Int.emod_eq_of_lt (by omega) (by omega), if_pos (by omega), if_pos (by omega), Int.toNat_natCast,
      Int.toNat_natCast]

theorem emod_reflect (m k : Int) (hm : 0 < m) : (-1 - k) % m = m - 1 - k % m := by
  have h1 := Int.emod_nonneg k hm.ne'
  have h2 := Int.emod_lt_of_pos k hm
  have h3 := Int.emod_add_mul_ediv k m
  have e : -1 - k = (m - 1 - k % m) + m * (-(k / m) - 1) := by
    rw [Int.mul_sub, Int.mul_neg]
    omega
  rw [e, Int.add_mul_emod_self_left, Int.emod_eq_of_lt (by omega) (by omega)]

/-- C255: the continuation of the images beyond the border: the fill value, or periodic, or reflected at the borders with the outermost pixels
repeated; within the image it is the image. -/
theorem conv_boundary {h w : Nat} (hh : 1 ≤ h) (hw : 1 ≤ w) (im : Nat → Nat → ℝ) :
    (∀ b (i j : Nat), i < h → j < w → ext b h w im i j = im i j) ∧
    (∀ v (i j : Int), i < 0 ∨ (h : Int) ≤ i ∨ j < 0 ∨ (w : Int) ≤ j → ext (.fill v) h w im i j = v) ∧
    (∀ i j : Int, ext .wrap h w im (i + h) j = ext .wrap h w im i j ∧ ext .wrap h w im i (j + w) = ext .wrap h w im i j) ∧
    (∀ i j : Int, ext .symm h w im (-1 - i) j = ext .symm h w im i j ∧ ext .symm h w im i (-1 - j) = ext .symm h w im i j ∧
      ext .symm h w im (2 * h - 1 - i) j = ext .symm h w im i j ∧ ext .symm h w im i (2 * w - 1 - j) = ext .symm h w im i j) := by
  have hr : ∀ (n : Nat), 1 ≤ n → ∀ k : Int, (if (-1 - k) % (2 * n : Int) < n then (-1 - k) % (2 * n : Int) else 2 * n - 1 - (-1 - k) % (2 * n : Int)).toNat =
      (if k % (2 * n : Int) < n then k % (2 * n : Int) else 2 * n - 1 - k % (2 * n : Int)).toNat := by
    intro n hn k
    rw [emod_reflect (2 * n) k (by omega)]
    by_cases hk : k % (2 * n : Int) < n
    · rw [if_pos hk, if_neg (by omega)]
      congr 1
      omega
    · rw [if_neg hk, if_pos (by omega)]
  have hr' : ∀ (n : Nat) (k : Int), (2 * n - 1 - k) % (2 * n : Int) = (-1 - k) % (2 * n : Int) := by
    intro n k
    have e : (2 * n - 1 - k : Int) = (-1 - k) + 2 * n := by omega
    rw [e, Int.add_emod_right]
  refine ⟨fun b i j hi hj => ext_inside b im hi hj, fun v i j ho => ?_, fun i j => ⟨?_, ?_⟩, fun i j => ⟨?_, ?_, ?_, ?_⟩⟩
  · simp only [ext]
    rw [if_neg (by omega)]
  · simp only [ext]
    rw [Int.add_emod_right]
  · simp only [ext]
    rw [Int.add_emod_right]
  · simp only [ext]
    rw [hr h hh]
  · simp only [ext]
    rw [hr w hw]
  · simp only [ext]
    rw [hr' h, hr h hh]
  · simp only [ext]
    rw [hr' w, hr w hw]

/-- C255: in the mode `'valid'` nothing depends on the continuation of the image: element `(i, j)` is a sum over the pixels under the filter. -/
theorem conv_valid {h w : Nat} {F : Filters} (b : Boundary) (im : Nat → Nat → Nat → ℝ) (t f i j : Nat)
    (hi : i < outLen .valid h F.h) (hj : j < outLen .valid w F.w) :
    expected .valid b h w F im t f i j =
      ∑ a ∈ Finset.range F.h, ∑ c ∈ Finset.range F.w, F.get f a c * im t (i + (F.h - 1 - a)) (j + (F.w - 1 - c)) := by
  simp only [outLen] at hi hj
  refine Finset.sum_congr rfl fun a ha => Finset.sum_congr rfl fun c hc => ?_
  rw [Finset.mem_range] at ha hc
  simp only [offset]
  have e1 : ((i + (F.h - 1) : Nat) : Int) - a = (i + (F.h - 1 - a) : Nat) := by omega
  have e2 : ((j + (F.w - 1) : Nat) : Int) - c = (j + (F.w - 1 - c) : Nat) := by omega
  rw [e1, e2, ext_inside b (im t) (by omega) (by omega)]

/-- C255: with the fill value zero the elements are those of the textbook: the sum of the products of all pixels and filter elements whose indices
add up to the index in the full convolution. -/
theorem conv_textbook {h w : Nat} {F : Filters} (mode : Mode) (im : Nat → Nat → Nat → ℝ) (t f i j : Nat) :
    expected mode (.fill 0) h w F im t f i j =
      ∑ a ∈ Finset.range F.h, ∑ c ∈ Finset.range F.w, ∑ p ∈ Finset.range h, ∑ q ∈ Finset.range w,
        if p + a = i + offset mode F.h ∧ q + c = j + offset mode F.w then im t p q * F.get f a c else 0 := by
  refine Finset.sum_congr rfl fun a _ => Finset.sum_congr rfl fun c _ => ?_
  simp only [ext]
  generalize i + offset mode F.h = I
  generalize j + offset mode F.w = J
  by_cases hin : 0 ≤ (I : Int) - a ∧ (I : Int) - a < h ∧ 0 ≤ (J : Int) - c ∧ (J : Int) - c < w
  · rw [if_pos hin, Finset.sum_eq_single (I - a), Finset.sum_eq_single (J - c), if_pos (by omega), mul_comm]
    · congr 2 <;> omega
    · intro q _ hq
      rw [if_neg (by omega)]
    · intro hq
      rw [Finset.mem_range] at hq
      omega
    · intro p _ hp
      refine Finset.sum_eq_zero fun q _ => ?_
      rw [if_neg (by omega)]
    · intro hp
      rw [Finset.mem_range] at hp
      omega
  · rw [if_neg hin, mul_zero]
    symm
    refine Finset.sum_eq_zero fun p hp => Finset.sum_eq_zero fun q hq => ?_
    rw [Finset.mem_range] at hp hq
    rw [if_neg (by omega)]

/-! ## Refusals -/

theorem collect_none {n k : Nat} {v : Nat → Nat → Option (Nat → Nat → ℝ)} (hn : 1 ≤ n) (hk : 1 ≤ k) (h : v 0 0 = none) : collect n k v = none := by
  unfold collect
  rw [if_neg]
  intro hh
  have := hh 0 (List.mem_range.2 hn) 0 (List.mem_range.2 hk)
  rw [h] at this
  cases this

/-- C256: flattened images without a shape, arrays of another rank, no images, and images of another size are refused. -/
theorem conv_refused (F : Filters) (mode : Mode) (b : Boundary) (o2 : Bool) :
    (∀ dim n d g, ((Node.new F none dim mode b o2).execute (.flat n d g)).2 = .error .node) ∧
    (∀ shape dim, ((Node.new F shape dim mode b o2).execute .other).2 = .error .node) ∧
    (∀ shape dim h w x im, Knows shape dim h w x → Holds x 0 h w im → ((Node.new F shape dim mode b o2).execute x).2 = .error .node) ∧
    (∀ h w n d g, d ≠ h * w → ((Node.new F (some (h, w)) none mode b o2).execute (.flat n d g)).2 = .error .node) ∧
    (∀ h w n h' w' g, h' * w' ≠ h * w → ((Node.new F (some (h, w)) none mode b o2).execute (.images n h' w' g)).2 = .error .node) := by
  refine ⟨fun _ _ _ _ => rfl, fun _ _ => rfl, ?_, ?_, ?_⟩
  · intro shape dim h w x im hk hx
    rw [execute_node hk hx (.inl rfl), if_pos rfl]
  · intro h w n d g hd
    simp only [Node.execute, Node.check, findShape, Node.new, Data.size, Option.getD_none, Option.getD_some, ne_eq, hd, not_false_eq_true, if_true]
  · intro h w n h' w' g hd
    simp only [Node.execute, Node.check, findShape, Node.new, Data.size, Option.getD_none, Option.getD_some, ne_eq, hd, not_false_eq_true, if_true]

/-- C256: images of another shape with as many pixels are never processed. -/
theorem conv_other_shape {h w h' w' n : Nat} {F : Filters} {mode : Mode} (hp : Proper mode h w F) (b : Boundary) (o2 : Bool)
    (g : Nat → Nat → Nat → ℝ) (he : h' * w' = h * w) (hne : h' ≠ h) (hn : 1 ≤ n) (hk : 1 ≤ F.n) :
    ((Node.new F (some (h, w)) none mode b o2).execute (.images n h' w' g)).2 = .error .value := by
  have hc : (Node.new F (some (h, w)) none mode b o2).check (.images n h' w' g) = (steady F h w mode b o2, none) := by
    simp only [Node.check, findShape, Node.new, Data.size, Option.getD_none, Option.getD_some, ne_eq, he, not_true_eq_false, if_false]
    rw [if_neg (by omega)]
    rfl
  unfold Node.execute
  rw [hc]
  simp only
  unfold Node.run
  simp only [steady, shape_len hp, Data.size, Data.reshapes, image, Bool.not_true, Bool.false_eq_true, or_false]
  rw [if_neg (by omega), collect_none hn hk]
  have h1 := hp.rows; have h2 := hp.cols; have h3 := hp.filterRows; have h4 := hp.filterCols
  have hpos : 0 < h * w := Nat.mul_pos h1 h2
  have h5 : 1 ≤ h' := by
    rcases Nat.eq_zero_or_pos h' with rfl | h
    · rw [Nat.zero_mul] at he; omega
    · exact h
  have h6 : 1 ≤ w' := by
    rcases Nat.eq_zero_or_pos w' with rfl | h
    · rw [Nat.mul_zero] at he; omega
    · exact h
  have hw : w' ≠ w := by
    rintro rfl
    exact hne (Nat.eq_of_mul_eq_mul_right h2 he)
  -- one axis is longer
  have hlong : h < h' ∨ w < w' := by
    by_contra hcon
    push Not at hcon
    have : h' * w' < h * w := by
      calc h' * w' ≤ h' * w := Nat.mul_le_mul_left _ hcon.2
        _ < h * w := Nat.mul_lt_mul_of_pos_right (by omega) h2
    omega
  simp only [Int.toNat_natCast]
  have hfit : ∀ r : Nat × Nat × (Nat → Nat → ℝ), r.1 = outLen mode h' F.h → r.2.1 = outLen mode w' F.w →
      (mode = .valid → F.h ≤ h' ∧ F.w ≤ w') → fit (outLen mode h F.h) (outLen mode w F.w) r = none := by
    intro r e1 e2 hv
    unfold fit
    rw [if_neg]
    rw [e1, e2]
    cases mode with
    | full =>
      simp only [outLen]
      omega
    | same =>
      simp only [outLen]
      omega
    | valid =>
      obtain ⟨h7, h8⟩ := hp.valid rfl
      obtain ⟨h9, h10⟩ := hv rfl
      simp only [outLen]
      omega
  cases mode with
  | full => exact hfit _ rfl rfl fun h => nomatch h
  | same => exact hfit _ rfl rfl fun h => nomatch h
  | valid =>
    simp only [conv]
    by_cases hv : F.h ≤ h' ∧ F.w ≤ w'
    · rw [if_pos hv, Option.bind_some]
      refine hfit _ ?_ ?_ fun _ => hv
      · simp only [outLen]; omega
      · simp only [outLen]; omega
    · rw [if_neg hv]
      rfl

/-- C256: filters larger than the images are refused in the mode `'valid'`. -/
theorem conv_valid_refused {shape : Option (Nat × Nat)} {dim : Option Nat} {h w n : Nat} {F : Filters} {x : Data} {im : Nat → Nat → Nat → ℝ}
    (hk : Knows shape dim h w x) (hx : Holds x n h w im) (b : Boundary) (o2 : Bool) (hl : h < F.h ∨ w < F.w) (hn : 1 ≤ n) (hf : 1 ≤ F.n) :
    ((Node.new F shape dim .valid b o2).execute x).2 = .error .value := by
  rw [execute_node hk hx (.inl rfl), if_neg (by omega)]
  simp only
  unfold Node.run
  simp only [steady, shapeFor, (image_holds hx 0).2.1, (image_holds hx 0).2.2, Bool.not_true, Bool.false_eq_true, or_false]
  split
  · rfl
  · rw [collect_none hn hf]
    rw [(image_holds hx 0).1]
    simp only [conv]
    rw [if_neg (by omega)]
    rfl

/-! ## Other filters -/

/-- C257 (part): new filters of the same number and shape are used from then on. -/
theorem conv_filters_partial {shape : Option (Nat × Nat)} {dim : Option Nat} {n h w : Nat} {x : Data} {im : Nat → Nat → Nat → ℝ} (F F' : Filters) (mode : Mode)
    (hp : Proper mode h w F) (b : Boundary) (hist : List Data) (hh : ∀ y ∈ hist, Knows shape dim h w y ∧ ∃ n im, Holds y n h w im)
    (hF : F'.n = F.n ∧ F'.h = F.h ∧ F'.w = F.w) (hk : Knows shape dim h w x) (hx : Holds x n h w im) (hn : 1 ≤ n) :
    ∃ g, (((later (Node.new F shape dim mode b false) hist).setFilters F').execute x).2 =
        .ok (.four n F'.n (outLen mode h F'.h) (outLen mode w F'.w) g) ∧
      ∀ t f i j, t < n → f < F'.n → i < outLen mode h F'.h → j < outLen mode w F'.w → g t f i j = expected mode b h w F' im t f i j := by
  have hp' : Proper mode h w F' := by
    obtain ⟨h1, h2, h3, h4, h5⟩ := hp
    exact ⟨h1, h2, by rw [hF.2.1]; exact h3, by rw [hF.2.2]; exact h4, by rw [hF.2.1, hF.2.2]; exact h5⟩
  have hs : (steady F h w mode b false).setFilters F' = steady F' h w mode b false := by
    have : shapeFor mode (h, w) F' = shapeFor mode (h, w) F := by
      rw [shape_len hp, shape_len hp', hF.2.1, hF.2.2]
    simp only [steady, Node.setFilters, this, hF.1]
  have hnode : (later (Node.new F shape dim mode b false) hist).setFilters F' = Node.new F' shape dim mode b false ∨
      (later (Node.new F shape dim mode b false) hist).setFilters F' = steady F' h w mode b false := by
    rcases later_node hist hh (Node.new F shape dim mode b false) (.inl rfl) with h | h
    · left
      rw [h]
      rfl
    · right
      rw [h, hs]
  obtain ⟨g, h1, h2⟩ := run_steady hx hp' b false
  refine ⟨g, ?_, fun t f i j _ _ hi hj => h1 t f i j hi hj⟩
  rw [execute_node hk hx hnode, if_neg (by omega), h2]
  rfl

/-- One filter of one element, and two. -/
def oneFilter : Filters := ⟨1, 1, 1, fun _ _ _ => 1⟩
def twoFilters : Filters := ⟨2, 1, 1, fun f _ _ => if f = 0 then 1 else 10⟩

/-- C257 (violated): with more filters than at the first execution the rows of the output are mixed up: of two images the second one does not
occur in the output. -/
theorem conv_filters_violation (a b : ℝ) (x : Data) (hx : x = .images 2 1 1 fun t _ _ => if t = 0 then a else b) :
    ∃ g, (((later (Node.new oneFilter (some (1, 1)) none .full (.fill 0) true) [x]).setFilters twoFilters).execute x).2 = .ok (.flat 2 1 g) ∧
      g 0 0 = a ∧ g 1 0 = 10 * a := by
  have hk : Knows (some (1, 1)) none 1 1 x := ⟨.inl rfl, .inl rfl⟩
  have hH : Holds x 2 1 1 fun t _ _ => if t = 0 then a else b := .inl hx
  have hl : later (Node.new oneFilter (some (1, 1)) none .full (.fill 0) true) [x] = steady oneFilter 1 1 .full (.fill 0) true := by
    show (Node.execute _ x).1 = _
    rw [execute_node hk hH (.inl rfl)]
  have hc : ((steady oneFilter 1 1 .full (.fill 0) true).setFilters twoFilters).check x =
      ((steady oneFilter 1 1 .full (.fill 0) true).setFilters twoFilters, none) := by
    subst hx
    simp only [Node.check, findShape, steady, Node.setFilters, Data.size, Option.getD_some, ne_eq, not_true_eq_false, if_false, Nat.mul_one]
    rfl
  rw [hl]
  unfold Node.execute
  rw [hc]
  simp only
  unfold Node.run
  simp only [steady, Node.setFilters, (image_holds hH 0).2.1, (image_holds hH 0).2.2, Bool.not_true, Bool.false_eq_true, or_false]
  rw [if_neg (by simp [shapeFor, oneFilter]), collect_some (v := fun t f _ _ => (if f = 0 then 1 else 10) * (if t = 0 then a else b)) fun t f => by
    rw [(image_holds hH t).1]
    simp [conv, twoFilters, oneFilter, fit, shapeFor, fullAt, ext]]
  refine ⟨_, rfl, ?_, ?_⟩
  · simp [twoFilters, oneFilter, shapeFor]
  · simp [twoFilters, oneFilter, shapeFor]

/-- C257 (violated): in the mode `'valid'` new filters as large as the images give one number that is repeated for all places there were at the
first execution. -/
theorem conv_filters_repeated_violation {n h w : Nat} {x : Data} {im : Nat → Nat → Nat → ℝ} (hh : 1 ≤ h) (hw : 1 ≤ w) (hn : 1 ≤ n)
    (hx : Holds x n h w im) (F' : Filters) (hF : F'.n = 1 ∧ F'.h = h ∧ F'.w = w) :
    ∃ g, (((later (Node.new oneFilter (some (h, w)) none .valid (.fill 0) false) [x]).setFilters F').execute x).2 = .ok (.four n 1 h w g) ∧
      ∀ t i j, t < n → i < h → j < w → g t 0 i j = expected .valid (.fill 0) h w F' im t 0 0 0 := by
  have hk : Knows (some (h, w)) none h w x := ⟨.inl rfl, .inl rfl⟩
  have hl : later (Node.new oneFilter (some (h, w)) none .valid (.fill 0) false) [x] = steady oneFilter h w .valid (.fill 0) false := by
    show (Node.execute _ x).1 = _
    rw [execute_node hk hx (.inl rfl)]
  have hp : Proper .valid h w oneFilter := ⟨hh, hw, Nat.le_refl 1, Nat.le_refl 1, fun _ => ⟨hh, hw⟩⟩
  have hc : ((steady oneFilter h w .valid (.fill 0) false).setFilters F').check x = ((steady oneFilter h w .valid (.fill 0) false).setFilters F', none) := by
    rcases hx with rfl | ⟨g, rfl, rfl⟩
    · simp only [Node.check, findShape, steady, Node.setFilters, Data.size, Option.getD_some, ne_eq, not_true_eq_false, if_false]
      exact congrArg _ (if_neg (show ¬ n = 0 by omega))
    · simp only [Node.check, findShape, steady, Node.setFilters, Data.size, Option.getD_some, ne_eq, not_true_eq_false, if_false]
      exact congrArg _ (if_neg (show ¬ n = 0 by omega))
  rw [hl]
  unfold Node.execute
  rw [hc]
  simp only
  unfold Node.run
  simp only [steady, Node.setFilters, shape_len hp, (image_holds hx 0).2.1, (image_holds hx 0).2.2, Bool.not_true, Bool.false_eq_true, or_false]
  rw [if_neg (by omega)]
  have e1 : outLen .valid h oneFilter.h = h := by simp [outLen, oneFilter]
  have e2 : outLen .valid w oneFilter.w = w := by simp [outLen, oneFilter]
  simp only [e1, e2, Int.toNat_natCast, hF.1]
  rw [collect_some (v := fun t f i j => fullAt (.fill 0) h w (im t) h w (F'.get f) (0 + (h - 1)) (0 + (w - 1))) fun t f => by
    rw [(image_holds hx t).1]
    simp only [conv, hF.2.1, hF.2.2, Nat.le_refl, and_self, if_true, Option.bind_some, fit, Nat.sub_self, Nat.zero_add, or_true, ite_self]]
  refine ⟨_, rfl, fun t i j _ _ _ => ?_⟩
  simp only [fullAt, expected, offset, hF.2.1, hF.2.2]

/-- Two images with six pixels, and two filters. -/
example : Proper .valid 2 3 ⟨2, 2, 2, fun _ _ _ => 1⟩ ∧ Knows (some (2, 3)) none 2 3 (.flat 2 6 fun _ _ => 1) ∧
    Holds (.flat 2 6 fun t q => t + q) 2 2 3 fun t i j => (t : ℝ) + (i * 3 + j : Nat) := by
  refine ⟨⟨by norm_num, by norm_num, by norm_num, by norm_num, fun _ => ⟨by norm_num, by norm_num⟩⟩, ⟨.inl rfl, .inl rfl⟩, .inr ⟨_, rfl, ?_⟩⟩
  funext t i j
  push_cast
  ring

end Mdp.Conv
